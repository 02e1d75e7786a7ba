import Verif.Lemmas.BrownianSup
import Verif.Lemmas.Strong

/-! Moments of the quantities in the pathwise error bound when the noise is a Brownian motion. -/

namespace Verif

open MeasureTheory ProbabilityTheory Set Filter Matrix Spec
open scoped NNReal ENNReal Topology

variable {d m : ℕ}

/-- A matrix is a bounded linear map for the maximum norms. -/
theorem exists_mulVec_bound (S : Mat d m) : ∃ s, 0 ≤ s ∧ ∀ v, ‖S *ᵥ v‖ ≤ s * ‖v‖ := by
  refine ⟨‖LinearMap.toContinuousLinearMap (Matrix.mulVecLin S)‖, norm_nonneg _, fun v => ?_⟩
  exact (LinearMap.toContinuousLinearMap (Matrix.mulVecLin S)).le_opNorm v

/-- The field along the solution is bounded by an affine function of the largest value of the noise. -/
theorem field_le {f : Vec d → ℝ → Vec d} {Df : Vec d → ℝ → Vec d →L[ℝ] Vec d} {T L K : ℝ} (hT : 0 ≤ T)
    (hf : SmoothField f Df T L K) (hL : 0 ≤ L) {S : Mat d m} {s : ℝ} (hs : 0 ≤ s) (hS : ∀ v, ‖S *ᵥ v‖ ≤ s * ‖v‖) (x0 : Vec d) :
    ∃ α β, 0 ≤ α ∧ 0 ≤ β ∧ ∀ {w : ℝ → Vec m} {x : ℝ → Vec d} {b : ℝ}, ContinuousOn w (Icc 0 T) →
      SolvesAdditive f S w x0 T x → (∀ t ∈ Icc 0 T, ‖w t - w 0‖ ≤ b) → ∀ t ∈ Icc 0 T, ‖f (x t) t‖ ≤ α + β * b := by
  obtain ⟨M, hM⟩ := isCompact_Icc.exists_bound_of_continuousOn (s := Icc 0 T) (f := fun t => f 0 t)
    (hf.cont.comp (by fun_prop : Continuous fun t : ℝ => ((0 : Vec d), t))).continuousOn
  have hM0 : 0 ≤ M := (norm_nonneg _).trans (hM 0 ⟨le_rfl, hT⟩)
  have hE := Real.exp_pos ((L + 1) * T)
  refine ⟨M + L * ((‖x0‖ + (L + 1) * T * M) * Real.exp ((L + 1) * T)), L * ((L + 1) * T * s * Real.exp ((L + 1) * T) + s),
    by positivity, by positivity, ?_⟩
  intro w x b hw hx hb t ht
  have hb0 : 0 ≤ b := (norm_nonneg _).trans (hb t ht)
  have hgrow : ∀ y, ∀ t ∈ Icc 0 T, ‖f y t‖ ≤ L * ‖y‖ + M := fun y t ht => by
    have h1 := hf.lip y 0 t ht
    rw [sub_zero] at h1
    calc ‖f y t‖ = ‖(f y t - f 0 t) + f 0 t‖ := by simp
      _ ≤ ‖f y t - f 0 t‖ + ‖f 0 t‖ := norm_add_le _ _
      _ ≤ _ := add_le_add h1 (hM t ht)
  have hSw : ∀ t ∈ Icc 0 T, ‖S *ᵥ (w t - w 0)‖ ≤ s * b := fun t ht =>
    (hS _).trans (mul_le_mul_of_nonneg_left (hb t ht) hs)
  have hx0 : x 0 = x0 := by
    have := hx.eq 0 ⟨le_rfl, hT⟩
    simpa using this
  have hxz : ∀ t ∈ Icc 0 T, ‖x t‖ ≤ ‖x t - S *ᵥ (w t - w 0)‖ + s * b := fun t ht => by
    calc ‖x t‖ = ‖(x t - S *ᵥ (w t - w 0)) + S *ᵥ (w t - w 0)‖ := by simp
      _ ≤ _ := (norm_add_le _ _).trans (add_le_add le_rfl (hSw t ht))
  have hg := gronwall_integral (z := fun t => x t - S *ᵥ (w t - w 0)) (g := fun t => f (x t) t) (L := L + 1) (u := s * b + M)
    (δ := T) (by positivity) (by positivity) (hf.cont.comp_continuousOn (hx.cont.prodMk continuousOn_id)) (fun t ht => by
      rw [hx.eq t ht, sub_self, mulVec_zero, sub_zero, hx0]
      abel) (fun t ht => by
      refine (hgrow _ t ht).trans ?_
      have h1 := hxz t ht
      have h2 := norm_nonneg (x t - S *ᵥ (w t - w 0))
      have h3 : 0 ≤ s * b := by positivity
      nlinarith [mul_le_mul_of_nonneg_left h1 hL, mul_nonneg hL hM0]) t ht
  simp only [sub_self, mulVec_zero, sub_zero, hx0] at hg
  have h4 := (hxz t ht).trans (add_le_add hg le_rfl)
  refine (hgrow _ t ht).trans ?_
  nlinarith [mul_le_mul_of_nonneg_left h4 hL]

/-- The local term in the pathwise bound. -/
theorem local_term_le {L K δ s E F α β b w : ℝ} (hL : 0 ≤ L) (hK : 0 ≤ K) (hδ : 0 ≤ δ) (hs : 0 ≤ s) (hE : 0 ≤ E) (hα : 0 ≤ α)
    (hβ : 0 ≤ β) (hb : 0 ≤ b) (hw : 0 ≤ w) (hF : F ≤ α + β * b) :
    ((L * δ) ^ 2 * E + δ * K * (δ * F + 21 / 4 * (s * w) + δ)) * (17 / 4 * (s * w)) ≤
      17 / 4 * s * (L ^ 2 * E + K * (α + β + 1) + 21 / 4 * (K * s)) * (δ ^ 2 * (1 + b ^ 2 + w ^ 2) + δ * w ^ 2) := by
  have h1 : w ≤ 1 + b ^ 2 + w ^ 2 := by nlinarith [sq_nonneg (w - 1), sq_nonneg b]
  have h2 : (1 + b) * w ≤ 1 + b ^ 2 + w ^ 2 := by nlinarith [sq_nonneg (1 + b - w), sq_nonneg (1 - b)]
  have e : ((L * δ) ^ 2 * E + δ * K * (δ * F + 21 / 4 * (s * w) + δ)) * (17 / 4 * (s * w)) =
      17 / 4 * s * (L ^ 2 * E * (δ ^ 2 * w) + K * (δ ^ 2 * ((F + 1) * w)) + 21 / 4 * (K * s) * (δ * w ^ 2)) := by ring
  rw [e, mul_assoc (17 / 4 * s)]
  refine mul_le_mul_of_nonneg_left ?_ (by positivity)
  have hδ2 : 0 ≤ δ ^ 2 := sq_nonneg δ
  have hA : 0 ≤ δ ^ 2 * (1 + b ^ 2 + w ^ 2) := by positivity
  have hB : 0 ≤ δ * w ^ 2 := by positivity
  have t1 : L ^ 2 * E * (δ ^ 2 * w) ≤ L ^ 2 * E * (δ ^ 2 * (1 + b ^ 2 + w ^ 2)) :=
    mul_le_mul_of_nonneg_left (mul_le_mul_of_nonneg_left h1 hδ2) (by positivity)
  have t2 : (F + 1) * w ≤ (α + β + 1) * (1 + b ^ 2 + w ^ 2) := by
    have : F + 1 ≤ (α + β + 1) * (1 + b) := by nlinarith
    calc (F + 1) * w ≤ (α + β + 1) * (1 + b) * w := mul_le_mul_of_nonneg_right this hw
      _ = (α + β + 1) * ((1 + b) * w) := by ring
      _ ≤ _ := mul_le_mul_of_nonneg_left h2 (by positivity)
  have t3 : K * (δ ^ 2 * ((F + 1) * w)) ≤ K * (α + β + 1) * (δ ^ 2 * (1 + b ^ 2 + w ^ 2)) := by
    have := mul_le_mul_of_nonneg_left (mul_le_mul_of_nonneg_left t2 hδ2) hK
    refine this.trans (le_of_eq ?_)
    ring
  have c1 : 0 ≤ L ^ 2 * E := by positivity
  have c2 : 0 ≤ K * (α + β + 1) := by positivity
  have c3 : 0 ≤ 21 / 4 * (K * s) := by positivity
  nlinarith [mul_nonneg c1 hB, mul_nonneg c2 hB, mul_nonneg c3 hA]

/-- The largest deviation of a vector of Brownian paths over an interval, and its fourth moment. -/
theorem brownian_sup_vec {Ω : Type*} {mΩ : MeasurableSpace Ω} {P : Measure Ω} {B : Fin m → ℝ≥0 → Ω → ℝ}
    (hB : ∀ j, IsBrownianReal (B j) P) (t0 δ : ℝ≥0) :
    ∃ G : Ω → ℝ, Integrable G P ∧ (∀ ω, 0 ≤ G ω) ∧ ∫ ω, G ω ∂P ≤ m * supConst * δ ^ 2 ∧
      ∀ᵐ ω ∂P, ∀ t ≤ δ, ‖fun j => B j (t0 + t) ω - B j t0 ω‖ ≤ Real.sqrt (Real.sqrt (G ω)) := by
  choose G h1 h2 h3 h4 using fun j => brownian_sup (hB j) t0 δ
  refine ⟨fun ω => ∑ j, G j ω, integrable_finsetSum _ fun j _ => h1 j, fun ω => Finset.sum_nonneg fun j _ => h2 j ω, ?_, ?_⟩
  · rw [integral_finsetSum _ fun j _ => h1 j]
    refine (Finset.sum_le_sum fun j _ => h3 j).trans (le_of_eq ?_)
    simp
    ring
  · filter_upwards [ae_all_iff.mpr h4] with ω hω t ht
    rw [pi_norm_le_iff_of_nonneg (Real.sqrt_nonneg _)]
    intro j
    rw [Real.norm_eq_abs]
    refine Real.le_sqrt_of_sq_le (Real.le_sqrt_of_sq_le ?_)
    have := hω j t ht
    calc (|B j (t0 + t) ω - B j t0 ω| ^ 2) ^ 2 = (B j (t0 + t) ω - B j t0 ω) ^ 4 := by rw [sq_abs]; ring
      _ ≤ G j ω := this
      _ ≤ ∑ j, G j ω := Finset.single_le_sum (f := fun j => G j ω) (fun j _ => h2 j ω) (Finset.mem_univ j)

theorem sqrt_sqrt_sq_le {x δ : ℝ} (hx : 0 ≤ x) (hδ : 0 < δ) : Real.sqrt (Real.sqrt x) ^ 2 ≤ (δ + x / δ) / 2 := by
  rw [Real.sq_sqrt (Real.sqrt_nonneg _)]
  have h := Real.sq_sqrt hx
  have : x / δ = Real.sqrt x ^ 2 / δ := by rw [h]
  rw [this]
  have h2 : (δ + Real.sqrt x ^ 2 / δ) / 2 - Real.sqrt x = (δ - Real.sqrt x) ^ 2 / (2 * δ) := by field_simp; ring
  have : 0 ≤ (δ - Real.sqrt x) ^ 2 / (2 * δ) := by positivity
  linarith

end Verif
