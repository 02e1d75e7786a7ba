import Verif.Lemmas.BrownianSup
import Mathlib.Analysis.SpecialFunctions.Pow.Real

/-! The sixth moment of the largest deviation of a Brownian path over an interval. -/

namespace Verif

open MeasureTheory ProbabilityTheory Set Filter
open scoped NNReal ENNReal Topology

theorem sixth_root_pow {x : ℝ} (hx : 0 ≤ x) : (x ^ (1 / 6 : ℝ)) ^ 6 = x := by
  rw [← Real.rpow_natCast, ← Real.rpow_mul hx]
  norm_num

/-- The sixth moment of a standard normal variable. -/
noncomputable def gaussMoment6 : ℝ := ∫ x, x ^ 6 ∂(gaussianReal 0 1)

theorem gaussMoment6_nonneg : 0 ≤ gaussMoment6 := integral_nonneg fun x => by positivity

theorem integrable_pow6_gaussian (v : ℝ≥0) : Integrable (fun x : ℝ => x ^ 6) (gaussianReal 0 v) := by
  have h := (memLp_id_gaussianReal (μ := 0) (v := v) 6).integrable_norm_pow (by norm_num)
  refine h.congr (Eventually.of_forall fun x => ?_)
  simp [Even.pow_abs (show Even 6 by decide)]

/-- The sixth moment of a centred normal variable. -/
theorem gaussian_pow6 (v : ℝ≥0) : ∫ x, x ^ 6 ∂(gaussianReal 0 v) = (v : ℝ) ^ 3 * gaussMoment6 := by
  have h : gaussianReal 0 v = (gaussianReal 0 1).map (Real.sqrt v * ·) := by
    rw [gaussianReal_map_const_mul]
    congr 1
    · simp
    · ext; simp
  rw [h, integral_map (by fun_prop) (by fun_prop), gaussMoment6, ← integral_const_mul]
  refine integral_congr_ae (Eventually.of_forall fun x => ?_)
  have : Real.sqrt v ^ 6 = (v : ℝ) ^ 3 := by
    rw [show Real.sqrt v ^ 6 = (Real.sqrt v ^ 2) ^ 3 by ring, Real.sq_sqrt (NNReal.coe_nonneg v)]
  simp only [mul_pow, this]

variable {Ω : Type*} {mΩ : MeasurableSpace Ω} {P : Measure Ω} {B : ℝ≥0 → Ω → ℝ}

theorem brownian_pow6 (hB : IsPreBrownianReal B P) (s t : ℝ≥0) :
    Integrable (fun ω => (B s ω - B t ω) ^ 6) P ∧ ∫ ω, (B s ω - B t ω) ^ 6 ∂P = (nndist (s : ℝ) t : ℝ) ^ 3 * gaussMoment6 := by
  have hl := hB.hasLaw_sub s t
  refine ⟨?_, ?_⟩
  · have := integrable_pow6_gaussian (nndist s.1 t.1)
    rw [← hl.map_eq] at this
    exact this.comp_aemeasurable hl.aemeasurable
  · have h1 := integral_map (μ := P) hl.aemeasurable (f := fun x : ℝ => x ^ 6) (by fun_prop)
    rw [hl.map_eq, gaussian_pow6] at h1
    exact h1.symm

/-- The constant in the bound on the largest deviation. -/
noncomputable def supConst6 : ℝ := 10 ^ 6 * (gaussMoment6 * (1 - 1 / (4 * (9 / 10) ^ 6))⁻¹)

theorem supConst6_nonneg : 0 ≤ supConst6 := by
  have := gaussMoment6_nonneg
  unfold supConst6
  norm_num
  positivity

/-- The largest deviation of a Brownian path from its value at the start of an interval of length `δ` has a fourth
moment of order `δ³`. -/
theorem brownian_sup6 (hB : IsBrownianReal B P) (t0 δ : ℝ≥0) :
    ∃ G : Ω → ℝ, Integrable G P ∧ (∀ ω, 0 ≤ G ω) ∧ ∫ ω, G ω ∂P ≤ supConst6 * δ ^ 3 ∧
      ∀ᵐ ω ∂P, ∀ t ≤ δ, (B (t0 + t) ω - B t0 ω) ^ 6 ≤ G ω := by
  obtain ⟨D, hD⟩ : ∃ D : ℕ → ℕ → Ω → ℝ, ∀ n k, D n k = fun ω => B (t0 + (k + 1) / 2 ^ n * δ) ω - B (t0 + k / 2 ^ n * δ) ω :=
    ⟨_, fun _ _ => rfl⟩
  have hDi : ∀ n k, Integrable (fun ω => D n k ω ^ 6) P := fun n k => by
    rw [hD]; exact (brownian_pow6 hB.toIsPreBrownianReal _ _).1
  have hDe : ∀ n k, ∫ ω, D n k ω ^ 6 ∂P = (δ / 2 ^ n) ^ 3 * gaussMoment6 := fun n k => by
    rw [hD, (brownian_pow6 hB.toIsPreBrownianReal _ _).2]
    congr 2
    rw [coe_nndist, Real.dist_eq]
    push_cast
    rw [show (t0 : ℝ) + (k + 1) / 2 ^ n * δ - (t0 + k / 2 ^ n * δ) = δ / 2 ^ n by ring, abs_of_nonneg (by positivity)]
  obtain ⟨F, hF⟩ : ∃ F : ℕ → Ω → ℝ, ∀ n, F n = fun ω => (((9 / 10 : ℝ) ^ 6) ^ n)⁻¹ * ∑ k ∈ Finset.range (2 ^ n), D n k ω ^ 6 :=
    ⟨_, fun _ => rfl⟩
  have hF0 : ∀ n ω, 0 ≤ F n ω := fun n ω => by
    rw [hF]
    have : 0 ≤ ∑ k ∈ Finset.range (2 ^ n), D n k ω ^ 6 := Finset.sum_nonneg fun k _ => by positivity
    positivity
  have hFi : ∀ n, Integrable (F n) P := fun n => by
    rw [hF]; exact (integrable_finsetSum _ fun k _ => hDi n k).const_mul _
  have hFe : ∀ n, ∫ ω, F n ω ∂P = (1 / (4 * (9 / 10) ^ 6)) ^ n * (gaussMoment6 * δ ^ 3) := fun n => by
    rw [hF, integral_const_mul, integral_finsetSum _ fun k _ => hDi n k]
    simp only [hDe, Finset.sum_const, Finset.card_range, nsmul_eq_mul]
    push_cast
    generalize (9 / 10 : ℝ) ^ 6 = θ
    rw [div_pow 1, one_pow, mul_pow 4 θ]
    field_simp
    rw [show (4 : ℝ) ^ n = (2 ^ n) ^ 2 by rw [← pow_mul, mul_comm, pow_mul]; norm_num]
    ring
  -- the sum of the terms
  have hr : (0 : ℝ) ≤ 1 / (4 * (9 / 10) ^ 6) ∧ (1 : ℝ) / (4 * (9 / 10) ^ 6) < 1 := by norm_num
  have hm := gaussMoment6_nonneg
  have hlin : ∫⁻ ω, ∑' n, ENNReal.ofReal (F n ω) ∂P = ENNReal.ofReal ((1 - 1 / (4 * (9 / 10) ^ 6))⁻¹ * (gaussMoment6 * δ ^ 3)) := by
    rw [lintegral_tsum fun n => (hFi n).aemeasurable.ennreal_ofReal]
    have : ∀ n, ∫⁻ ω, ENNReal.ofReal (F n ω) ∂P = ENNReal.ofReal ((1 / (4 * (9 / 10) ^ 6)) ^ n * (gaussMoment6 * δ ^ 3)) :=
      fun n => by rw [← ofReal_integral_eq_lintegral_ofReal (hFi n) (Eventually.of_forall (hF0 n)), hFe]
    simp only [this]
    rw [← ENNReal.ofReal_tsum_of_nonneg (fun n => by positivity) ((summable_geometric_of_lt_one hr.1 hr.2).mul_right _),
      tsum_mul_right, tsum_geometric_of_lt_one hr.1 hr.2]
  have hmeas : AEMeasurable (fun ω => ∑' n, ENNReal.ofReal (F n ω)) P :=
    AEMeasurable.ennreal_tsum fun n => (hFi n).aemeasurable.ennreal_ofReal
  have hne : ∫⁻ ω, ∑' n, ENNReal.ofReal (F n ω) ∂P ≠ ⊤ := by rw [hlin]; exact ENNReal.ofReal_ne_top
  refine ⟨fun ω => 10 ^ 6 * (∑' n, ENNReal.ofReal (F n ω)).toReal, (integrable_toReal_of_lintegral_ne_top hmeas hne).const_mul _,
    fun ω => by positivity, ?_, ?_⟩
  · rw [integral_const_mul, integral_toReal hmeas (ae_lt_top' hmeas hne), hlin, ENNReal.toReal_ofReal (by
      have := sub_pos.mpr hr.2
      positivity), supConst6]
    refine le_of_eq ?_
    ring
  · filter_upwards [ae_lt_top' hmeas hne, hB.cont] with ω hfin hcont t ht
    set G := (∑' n, ENNReal.ofReal (F n ω)).toReal with hG
    have hG0 : 0 ≤ G := ENNReal.toReal_nonneg
    have hFG : ∀ n, F n ω ≤ G := fun n => by
      rw [hG, ← ENNReal.ofReal_le_iff_le_toReal hfin.ne]
      exact ENNReal.le_tsum n
    have hDG : ∀ n k, k < 2 ^ n → |D n k ω| ≤ G ^ (1 / 6 : ℝ) * (9 / 10) ^ n := fun n k hk => by
      have h1 : D n k ω ^ 6 ≤ G * ((9 / 10) ^ n) ^ 6 := by
        have h2 := hFG n
        rw [hF] at h2
        have h3 : D n k ω ^ 6 ≤ ∑ k ∈ Finset.range (2 ^ n), D n k ω ^ 6 :=
          Finset.single_le_sum (f := fun k => D n k ω ^ 6) (fun k _ => by positivity) (Finset.mem_range.mpr hk)
        rw [inv_mul_le_iff₀ (by positivity)] at h2
        rw [← pow_mul, mul_comm n 6, pow_mul, mul_comm]
        exact h3.trans h2
      refine le_of_pow_le_pow_left₀ (n := 6) (by norm_num) (by positivity) ?_
      rw [Even.pow_abs (by decide), mul_pow]
      have : (G ^ (1 / 6 : ℝ)) ^ 6 = G := sixth_root_pow hG0
      rwa [this]
    rcases eq_or_ne δ 0 with h0 | h0
    · have : t = 0 := le_antisymm (h0 ▸ ht) zero_le
      rw [this, add_zero, sub_self, zero_pow (by norm_num)]
      positivity
    · have hδ : 0 < (δ : ℝ) := lt_of_le_of_ne δ.2 (fun h => h0 (NNReal.coe_eq_zero.mp h.symm))
      have hch := chaining (g := fun u => B (t0 + (u * δ).toNNReal) ω - B t0 ω) (H := G ^ (1 / 6 : ℝ)) (by
        refine Continuous.continuousOn ?_
        exact (hcont.comp (by fun_prop)).sub continuous_const) (by simp) (fun n k hk => by
          have h1 := hDG n k hk
          rw [hD] at h1
          have e : ∀ j : ℝ≥0, ((j : ℝ) / 2 ^ n * δ).toNNReal = j / 2 ^ n * δ := fun j => by
            ext; rw [Real.coe_toNNReal _ (by positivity)]; push_cast; ring
          have e1 := e k
          have e2 := e (k + 1)
          push_cast at e1 e2
          rw [e1, e2, sub_sub_sub_cancel_right]
          exact h1) (t := t / δ) ⟨by positivity, (div_le_one hδ).mpr (by exact_mod_cast ht)⟩
      have e3 : ((t : ℝ) / δ * δ).toNNReal = t := by rw [div_mul_cancel₀ _ hδ.ne', Real.toNNReal_coe]
      rw [e3] at hch
      have h4 := pow_le_pow_left₀ (abs_nonneg _) hch 6
      rw [Even.pow_abs (by decide), mul_pow] at h4
      have : (G ^ (1 / 6 : ℝ)) ^ 6 = G := sixth_root_pow hG0
      rwa [this] at h4

/-- The largest deviation of a vector of Brownian paths over an interval, and its sixth moment. -/
theorem brownian_sup6_vec {m : ℕ} {Ω : Type*} {mΩ : MeasurableSpace Ω} {P : Measure Ω} {B : Fin m → ℝ≥0 → Ω → ℝ}
    (hB : ∀ j, IsBrownianReal (B j) P) (t0 δ : ℝ≥0) :
    ∃ G : Ω → ℝ, Integrable G P ∧ (∀ ω, 0 ≤ G ω) ∧ ∫ ω, G ω ∂P ≤ m * supConst6 * δ ^ 3 ∧
      ∀ᵐ ω ∂P, ∀ t ≤ δ, ‖fun j => B j (t0 + t) ω - B j t0 ω‖ ≤ G ω ^ (1 / 6 : ℝ) := by
  choose G h1 h2 h3 h4 using fun j => brownian_sup6 (hB j) t0 δ
  have h0 : ∀ ω, 0 ≤ ∑ j, G j ω := fun ω => Finset.sum_nonneg fun j _ => h2 j ω
  refine ⟨fun ω => ∑ j, G j ω, integrable_finsetSum _ fun j _ => h1 j, h0, ?_, ?_⟩
  · rw [integral_finsetSum _ fun j _ => h1 j]
    refine (Finset.sum_le_sum fun j _ => h3 j).trans (le_of_eq ?_)
    simp
    ring
  · filter_upwards [ae_all_iff.mpr h4] with ω hω t ht
    rw [pi_norm_le_iff_of_nonneg (Real.rpow_nonneg (h0 ω) _)]
    intro j
    rw [Real.norm_eq_abs]
    refine le_of_pow_le_pow_left₀ (n := 6) (by norm_num) (Real.rpow_nonneg (h0 ω) _) ?_
    rw [Even.pow_abs (by decide), sixth_root_pow (h0 ω)]
    exact (hω j t ht).trans (Finset.single_le_sum (f := fun j => G j ω) (fun j _ => h2 j ω) (Finset.mem_univ j))

end Verif
