import Mathlib.Topology.MetricSpace.Lipschitz
import Mathlib.Probability.IdentDistrib
import Verif.Lemmas.L2Strong

/-! From mean square errors to the distance between laws. -/

namespace Verif

open Matrix Spec Jnp Set MeasureTheory ProbabilityTheory Filter
open scoped NNReal Topology

variable {d m : ℕ} {Ω Ω' : Type*} [MeasurableSpace Ω] [MeasurableSpace Ω'] {P : Measure Ω} {Q : Measure Ω'} {B : Fin m → ℝ≥0 → Ω → ℝ}

/-- The solution at a fixed time is integrable. -/
theorem solution_integrable (hB : IsBrownianVec B P) {f : Vec d → ℝ → Vec d} {Df : Vec d → ℝ → Vec d →L[ℝ] Vec d} {T L K : ℝ} (hT : 0 < T)
    (hf : SmoothField f Df T L K) (hL : 0 ≤ L) (S : Mat d m) (x0 : Vec d)
    {X : Ω → ℝ → Vec d} (hX : ∀ᵐ ω ∂P, SolvesAdditive f S (fun t j => B j t.toNNReal ω) x0 T (X ω)) {t : ℝ} (ht : t ∈ Icc 0 T) :
    Integrable (fun ω => X ω t) P := by
  have hP := hB.isProb
  obtain ⟨s, hs, hS⟩ := exists_mulVec_bound S
  obtain ⟨α, β, hα, hβ, hαβ⟩ := field_le hT.le hf hL hs hS x0
  obtain ⟨G, hGi, hG0, -, hG⟩ := brownian_sup_vec hB.brownian 0 T.toNNReal
  obtain ⟨V, hV1, hV2⟩ := solution_adapted hB hf.cont hL hf.lip hT hX ht.1 ht.2
  have hm : AEStronglyMeasurable (fun ω => X ω t) P :=
    ((hV1.mono (hB.pastAlg_le _) le_rfl).aestronglyMeasurable).congr hV2.symm
  refine Integrable.mono' (g := fun ω => ‖x0‖ + T * α + (T * β + s) * (1 + G ω)) ?_ hm ?_
  · exact (integrable_const _).add (((integrable_const _).add hGi).const_mul _)
  have hc : ∀ᵐ ω ∂P, ∀ j, Continuous fun t => B j t ω := ae_all_iff.mpr fun j => (hB.brownian j).cont
  filter_upwards [hX, hG, hc] with ω hx hg hcω
  obtain ⟨b, hb⟩ : ∃ b, b = Real.sqrt (Real.sqrt (G ω)) := ⟨_, rfl⟩
  have hb0 : 0 ≤ b := by rw [hb]; positivity
  have hb1 : b ≤ 1 + G ω := by
    have h1 : b ^ 4 = G ω := by rw [hb]; exact sqrt_sqrt_pow4 (hG0 ω)
    rw [← h1]
    nlinarith [sq_nonneg (b ^ 2 - 1 / 2), sq_nonneg (b - 1 / 2)]
  have hw : ∀ r ∈ Icc 0 T, ‖(fun j => B j r.toNNReal ω) - fun j => B j (0 : ℝ).toNNReal ω‖ ≤ b := fun r hr => by
    have := hg r.toNNReal (Real.toNNReal_le_toNNReal hr.2)
    rw [← hb] at this
    simpa [Pi.sub_def] using this
  have hwc : ContinuousOn (fun (t : ℝ) j => B j t.toNNReal ω) (Icc 0 T) :=
    (continuous_pi fun j => (hcω j).comp continuous_real_toNNReal).continuousOn
  have hfb := hαβ hwc hx hw
  rw [hx.eq t ht]
  have hi : ‖∫ r in (0 : ℝ)..t, f (X ω r) r‖ ≤ (α + β * b) * |t - 0| := by
    refine intervalIntegral.norm_integral_le_of_norm_le_const fun r hr => ?_
    rw [uIoc_of_le ht.1] at hr
    exact hfb r ⟨hr.1.le, hr.2.trans ht.2⟩
  have hi' : (α + β * b) * |t - 0| ≤ (α + β * b) * T := by
    rw [sub_zero, abs_of_nonneg ht.1]
    exact mul_le_mul_of_nonneg_left ht.2 (by positivity)
  have hn : ‖S *ᵥ ((fun j => B j t.toNNReal ω) - fun j => B j (0 : ℝ).toNNReal ω)‖ ≤ s * b :=
    (hS _).trans (mul_le_mul_of_nonneg_left (hw t ht) hs)
  have h3 := (norm_add_le (x0 + ∫ r in (0 : ℝ)..t, f (X ω r) r) (S *ᵥ ((fun j => B j t.toNNReal ω) - fun j => B j (0 : ℝ).toNNReal ω)))
  have h4 := norm_add_le x0 (∫ r in (0 : ℝ)..t, f (X ω r) r)
  have h5 : (T * β + s) * b ≤ (T * β + s) * (1 + G ω) := mul_le_mul_of_nonneg_left hb1 (by positivity)
  refine h3.trans ?_
  linarith

theorem weak_of_strong {X0 y : Ω → Vec d} {y' : Ω' → Vec d} [IsProbabilityMeasure P] (hid : IdentDistrib y y' P Q) (hX : Integrable X0 P)
    (h : Integrable (fun ω => ‖X0 ω - y ω‖ ^ 2) P) {r : ℝ} (hr : 0 < r) (hle : ∫ ω, ‖X0 ω - y ω‖ ^ 2 ∂P ≤ r ^ 2) {κ : ℝ≥0} {g : Vec d → ℝ}
    (hg : LipschitzWith κ g) :
    Integrable (fun ω => g (y' ω)) Q ∧ Integrable (fun ω => g (X0 ω)) P ∧
      |∫ ω, g (y' ω) ∂Q - ∫ ω, g (X0 ω) ∂P| ≤ κ * r := by
  have hb : ∀ u, ‖g u‖ ≤ ‖g 0‖ + κ * ‖u‖ := fun u => by
    have := hg.dist_le_mul u 0
    rw [dist_eq_norm, dist_eq_norm, sub_zero] at this
    have h2 := norm_add_le (g u - g 0) (g 0)
    rw [sub_add_cancel] at h2
    linarith
  have hym : AEStronglyMeasurable y P := hid.aemeasurable_fst.aestronglyMeasurable
  have hgX : Integrable (fun ω => g (X0 ω)) P :=
    Integrable.mono' ((integrable_const ‖g 0‖).add (hX.norm.const_mul κ)) (hg.continuous.comp_aestronglyMeasurable hX.aestronglyMeasurable)
      (Eventually.of_forall fun ω => hb (X0 ω))
  have hdm : AEStronglyMeasurable (fun ω => ‖X0 ω - y ω‖) P := (hX.aestronglyMeasurable.sub hym).norm
  have hd : Integrable (fun ω => ‖X0 ω - y ω‖) P := by
    refine Integrable.mono' ((integrable_const (1 : ℝ)).add h) hdm (Eventually.of_forall fun ω => ?_)
    rw [norm_norm, Pi.add_apply]
    nlinarith [sq_nonneg (‖X0 ω - y ω‖ - 1 / 2)]
  have hgd : ∀ ω, ‖g (y ω) - g (X0 ω)‖ ≤ κ * ‖X0 ω - y ω‖ := fun ω => by
    have := hg.dist_le_mul (y ω) (X0 ω)
    rwa [dist_eq_norm, dist_eq_norm, norm_sub_rev (y ω)] at this
  have hgm : AEStronglyMeasurable (fun ω => g (y ω)) P := hg.continuous.comp_aestronglyMeasurable hym
  have hgD : Integrable (fun ω => g (y ω) - g (X0 ω)) P :=
    Integrable.mono' (hd.const_mul κ) (hgm.sub hgX.aestronglyMeasurable) (Eventually.of_forall hgd)
  have hgy : Integrable (fun ω => g (y ω)) P := (hgD.add hgX).congr (Eventually.of_forall fun ω => by simp)
  have hid' := hid.comp hg.continuous.measurable
  simp only [Function.comp_def] at hid'
  refine ⟨hid'.integrable_iff.mp hgy, hgX, ?_⟩
  rw [← hid'.integral_eq, ← integral_sub hgy hgX]
  have h1 : ∫ ω, ‖X0 ω - y ω‖ ∂P ≤ r := by
    have h2 : ∀ ω, ‖X0 ω - y ω‖ ≤ 1 / (2 * r) * ‖X0 ω - y ω‖ ^ 2 + r / 2 := fun ω => by
      have e : 1 / (2 * r) * ‖X0 ω - y ω‖ ^ 2 + r / 2 - ‖X0 ω - y ω‖ = 1 / (2 * r) * (‖X0 ω - y ω‖ - r) ^ 2 := by field_simp; ring
      have : 0 ≤ 1 / (2 * r) * (‖X0 ω - y ω‖ - r) ^ 2 := by positivity
      linarith
    have h3 := integral_mono hd ((h.const_mul (1 / (2 * r))).add (integrable_const (r / 2))) h2
    refine h3.trans ?_
    simp only [Pi.add_apply]
    rw [integral_add (h.const_mul _) (integrable_const _), integral_const_mul, integral_const]
    simp only [probReal_univ, smul_eq_mul, one_mul]
    have h4 : 1 / (2 * r) * ∫ ω, ‖X0 ω - y ω‖ ^ 2 ∂P ≤ 1 / (2 * r) * r ^ 2 := mul_le_mul_of_nonneg_left hle (by positivity)
    have e : 1 / (2 * r) * r ^ 2 = r / 2 := by field_simp
    linarith
  calc |∫ ω, g (y ω) - g (X0 ω) ∂P| ≤ ∫ ω, ‖g (y ω) - g (X0 ω)‖ ∂P :=
        norm_integral_le_integral_norm (μ := P) fun ω => g (y ω) - g (X0 ω)
    _ ≤ ∫ ω, κ * ‖X0 ω - y ω‖ ∂P := integral_mono hgD.norm (hd.const_mul κ) hgd
    _ = κ * ∫ ω, ‖X0 ω - y ω‖ ∂P := integral_const_mul _ _
    _ ≤ κ * r := mul_le_mul_of_nonneg_left h1 κ.2

/-- Normal vectors with the same parameters have the same law. -/
theorem Spec.IsNormal.identDistrib {ι : Type*} [Fintype ι] [DecidableEq ι] {X : Ω → ι → ℝ} {Y : Ω' → ι → ℝ} {μ : ι → ℝ} {C : Matrix ι ι ℝ}
    (hX : IsNormal P X μ C) (hY : IsNormal Q Y μ C) : IdentDistrib X Y P Q := by
  have h : IdentDistrib (fun ω => WithLp.toLp 2 (X ω)) (fun ω => WithLp.toLp 2 (Y ω)) P Q :=
    ⟨hX.hasLaw.aemeasurable, hY.hasLaw.aemeasurable, by rw [hX.hasLaw.map_eq, hY.hasLaw.map_eq]⟩
  exact h.comp (u := fun x : EuclideanSpace ℝ ι => (fun i => x i)) (by fun_prop)

/-- Some of the components of a normal vector. -/
theorem Spec.IsNormal.reindex {ι κ : Type*} [Fintype ι] [DecidableEq ι] [Fintype κ] [DecidableEq κ] {X : Ω → ι → ℝ} {μ : ι → ℝ}
    {C : Matrix ι ι ℝ} (h : IsNormal P X μ C) (e : κ → ι) : IsNormal P (fun ω k => X ω (e k)) (fun k => μ (e k)) (C.submatrix e e) :=
  isNormal_of_moments (h.hasGaussianLaw.map_fun (ContinuousLinearMap.pi fun k => ContinuousLinearMap.proj (e k)))
    (fun i => h.mean (e i)) (fun i j => h.cov (e i) (e j))

/-- States computed step by step from identically distributed inputs are identically distributed. -/
theorem scheme_identDistrib {ι : Type*} [Fintype ι] {c : Ω → ι → ℝ} {c' : Ω' → ι → ℝ} (hc : IdentDistrib c c' P Q)
    {N : ℕ} {Ψ : ℕ → Vec d → (ι → ℝ) → Vec d} (hΨ : ∀ k, Measurable fun p : Vec d × (ι → ℝ) => Ψ k p.1 p.2) {x0 : Vec d}
    {Y : ℕ → Ω → Vec d} {Y' : ℕ → Ω' → Vec d} (h0 : ∀ ω, Y 0 ω = x0) (h0' : ∀ ω, Y' 0 ω = x0)
    (h : ∀ k < N, ∀ ω, Y (k + 1) ω = Ψ k (Y k ω) (c ω)) (h' : ∀ k < N, ∀ ω, Y' (k + 1) ω = Ψ k (Y' k ω) (c' ω)) (n : ℕ) (hn : n ≤ N) :
    IdentDistrib (Y n) (Y' n) P Q := by
  obtain ⟨F, hF⟩ : ∃ F : ℕ → (ι → ℝ) → Vec d, F = fun n z => Nat.rec x0 (fun k y => Ψ k y z) n := ⟨_, rfl⟩
  have hF0 : ∀ z, F 0 z = x0 := fun z => by subst hF; rfl
  have hFs : ∀ k z, F (k + 1) z = Ψ k (F k z) z := fun k z => by subst hF; rfl
  have hFm : ∀ n, Measurable (F n) := fun n => by
    induction n with
    | zero => rw [show F 0 = fun _ => x0 from funext hF0]; exact measurable_const
    | succ n ih =>
      rw [show F (n + 1) = fun z => Ψ n (F n z) z from funext (hFs n)]
      exact (hΨ n).comp (ih.prodMk measurable_id)
  have hY : ∀ n ≤ N, ∀ ω, Y n ω = F n (c ω) := fun n => by
    induction n with
    | zero => exact fun _ ω => by rw [h0, hF0]
    | succ n ih => exact fun hn ω => by rw [h n (by omega), ih (by omega), hFs]
  have hY' : ∀ n ≤ N, ∀ ω, Y' n ω = F n (c' ω) := fun n => by
    induction n with
    | zero => exact fun _ ω => by rw [h0', hF0]
    | succ n ih => exact fun hn ω => by rw [h' n (by omega), ih (by omega), hFs]
  rw [show Y n = F n ∘ c from funext (hY n hn), show Y' n = F n ∘ c' from funext (hY' n hn)]
  exact hc.comp (hFm n)

end Verif
