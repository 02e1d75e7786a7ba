import Verif.Lemmas.Alg3Bias
import Verif.Lemmas.L2Strong
import Verif.Lemmas.BrownianSup
import Verif.Lemmas.Perturbed
import Verif.Lemmas.WeakLaw

/-! The coefficients of the parabolas matched to a Brownian motion, as the noise of Algorithm 3 with EKF1 in dimension one. -/

namespace Verif

open Matrix Spec Jnp Set MeasureTheory ProbabilityTheory Filter
open scoped NNReal

/-- One step of the mean and the variance. -/
noncomputable def sStep (h : ℝ) (e : ℝ × ℝ) (a b : ℝ) : ℝ × ℝ :=
  (sY h e.1 e.2 a b, sP h (Real.sin e.1) (Real.sin (sX h e.1 a b)) e.2)

theorem measurable_sStep (h : ℝ) : Measurable fun z : (ℝ × ℝ) × ℝ × ℝ => sStep h z.1 z.2.1 z.2.2 := by
  unfold sStep sY sP sK sG sS sE sX
  fun_prop

theorem sP_nonneg {h j0 j1 p : ℝ} (hh : 0 < h) (hp : 0 ≤ p) : 0 ≤ sP h j0 j1 p := by
  have hS : 0 < sS h j0 j1 p := lt_of_lt_of_le (by positivity) (sS_lower hh hp)
  have e : sP h j0 j1 p = (p * (h ^ 3 / 3 * (sE h j0 j1 - (1 + h * j0) * (3 / (2 * h) - j1)) ^ 2 + (1 + h * j0) ^ 2 * h / 4) + h ^ 4 / 12) /
      sS h j0 j1 p := by
    rw [eq_div_iff hS.ne', sP, sub_mul, div_mul_cancel₀ _ hS.ne', sS, sG]
    generalize sE h j0 j1 = E
    field_simp
    ring
  rw [e]
  positivity

variable {Ω : Type*} [MeasurableSpace Ω] {P : Measure Ω} {B : Fin 1 → ℝ≥0 → Ω → ℝ}

theorem coeff_pair (hB : IsBrownianVec B P) {δ : ℝ} (hδ : 0 < δ) (k : ℕ) :
    IsNormal P (fun ω (s : Fin 2) => incArea (fun t => B 0 t.toNNReal ω) δ k s) 0 (diagonal ![δ, δ / 2]) := by
  have h := (hB.incArea_law hδ (k + 1)).reindex (fun s : Fin 2 => ((Fin.last k, 0, s) : Fin (k + 1) × Fin 1 × Fin 2))
  have e : (diagonal fun q : Fin (k + 1) × Fin 1 × Fin 2 => (![δ, δ / 2] : Fin 2 → ℝ) q.2.2).submatrix
      (fun s : Fin 2 => ((Fin.last k, 0, s) : Fin (k + 1) × Fin 1 × Fin 2)) (fun s => (Fin.last k, 0, s)) = diagonal ![δ, δ / 2] := by
    ext i j
    fin_cases i <;> fin_cases j <;> simp [Matrix.diagonal]
  rw [e] at h
  exact h

theorem coeff_comb (hB : IsBrownianVec B P) {δ : ℝ} (hδ : 0 < δ) (k : ℕ) :
    IsNormal P (fun ω (_ : Fin 1) => incArea (fun t => B 0 t.toNNReal ω) δ k 0 + √6 * incArea (fun t => B 0 t.toNNReal ω) δ k 1) 0
      (diagonal fun _ => 4 * δ) := by
  have h := (coeff_pair hB hδ k).affine (0 : Fin 1 → ℝ) !![1, √6]
  have h6 : √6 * √6 = 6 := Real.mul_self_sqrt (by norm_num)
  have e1 : (fun ω => (0 : Fin 1 → ℝ) + !![1, √6] *ᵥ fun s : Fin 2 => incArea (fun t => B 0 t.toNNReal ω) δ k s) =
      fun ω (_ : Fin 1) => incArea (fun t => B 0 t.toNNReal ω) δ k 0 + √6 * incArea (fun t => B 0 t.toNNReal ω) δ k 1 := by
    funext ω i
    simp [dotProduct, Fin.sum_univ_two]
  have e2 : !![1, √6] * diagonal ![δ, δ / 2] * (!![1, √6] : Matrix (Fin 1) (Fin 2) ℝ)ᵀ = diagonal fun _ => 4 * δ := by
    ext i j
    fin_cases i; fin_cases j
    simp only [Matrix.mul_apply, Fin.sum_univ_two, transpose_apply, diagonal_apply]
    simp
    linear_combination δ / 2 * h6
  rw [e1, e2, mulVec_zero, add_zero] at h
  exact h

theorem coeff_sum (hB : IsBrownianVec B P) {δ : ℝ} (hδ : 0 < δ) (k : ℕ) :
    Integrable (fun ω => (∑ i ∈ Finset.range k, incArea (fun t => B 0 t.toNNReal ω) δ i 0) ^ 2) P ∧
      ∫ ω, (∑ i ∈ Finset.range k, incArea (fun t => B 0 t.toNNReal ω) δ i 0) ^ 2 ∂P ≤ k * δ := by
  have hP := hB.isProb
  rcases Nat.eq_zero_or_pos k with rfl | hk
  · simp
  have hk' : (0 : ℝ) < k := by exact_mod_cast hk
  have h := (coeff_pair hB (by positivity : 0 < k * δ) 0).second_moment 0
  have e : ∀ ω, ∑ i ∈ Finset.range k, incArea (fun t => B 0 t.toNNReal ω) δ i 0 = incArea (fun t => B 0 t.toNNReal ω) (k * δ) 0 0 := fun ω => by
    have h1 : ∀ i : ℕ, incArea (fun t => B 0 t.toNNReal ω) δ i 0 = B 0 ((i + 1 : ℕ) * δ).toNNReal ω - B 0 (i * δ).toNNReal ω := fun i => by
      simp only [incArea, cons_val_zero]
      rw [show (i : ℝ) * δ + δ = (i + 1 : ℕ) * δ by push_cast; ring]
    simp only [h1]
    rw [Finset.sum_range_sub (fun i : ℕ => B 0 (i * δ).toNNReal ω)]
    simp [incArea]
  simp only [e]
  exact ⟨h.1, h.2.le⟩

/-- The matched coefficients provide the noise of the estimates. -/
theorem bias_noise (hB : IsBrownianVec B P) {δ : ℝ} (hδ : 0 < δ) (N : ℕ) {Y : ℕ → Ω → ℝ × ℝ} (hY0 : ∀ ω, Y 0 ω = 0)
    (hY : ∀ k < N, ∀ ω, Y (k + 1) ω =
      sStep δ (Y k ω) (incArea (fun t => B 0 t.toNNReal ω) δ k 0) (incArea (fun t => B 0 t.toNNReal ω) δ k 1)) :
    BiasNoise P N δ (16 * gaussMoment4) (fun k ω => (Y k ω).1) (fun k ω => (Y k ω).2)
      (fun k ω => incArea (fun t => B 0 t.toNNReal ω) δ k 0) (fun k ω => incArea (fun t => B 0 t.toNNReal ω) δ k 1) := by
  have hP := hB.isProb
  have hm : ∀ᵐ ω ∂P, ∀ k < N, SameEndAndArea (fun t => Foster.evalParabola t δ (fun j => incArea (fun t => B j t.toNNReal ω) δ k 0)
      (fun j => incArea (fun t => B j t.toNNReal ω) δ k 1)) (fun t j => B j t.toNNReal ω) (k * δ) δ := Eventually.of_forall fun ω k _ => by
    have h := exists_sameEndAndArea hδ.ne' (fun t j => B j t.toNNReal ω) (k * δ)
    exact h
  have hV : ∀ k ≤ N, ∃ V, Measurable[pastAlg B (k * δ).toNNReal] V ∧ Y k =ᵐ[P] V := fun k hk =>
    scheme_adapted hB hδ N (Φ := fun _ e a b => sStep δ e (a 0) (b 0)) (fun _ => by
      have h2 : Measurable fun p : (ℝ × ℝ) × Vec 1 × Vec 1 => ((p.1, p.2.1 0, p.2.2 0) : (ℝ × ℝ) × ℝ × ℝ) := by fun_prop
      exact (measurable_sStep δ).comp h2) (Eventually.of_forall hY0) hm (Eventually.of_forall fun ω k hk => hY k hk ω) k hk
  have hYm : ∀ k ≤ N, AEMeasurable (Y k) P := fun k hk => by
    obtain ⟨V, hV1, hV2⟩ := hV k hk
    exact ⟨V, hV1.mono (hB.pastAlg_le _) le_rfl, hV2⟩
  have hpn : ∀ ω, ∀ k ≤ N, 0 ≤ (Y k ω).2 := fun ω k => by
    induction k with
    | zero => intro _; rw [hY0]; simp
    | succ k ih =>
      intro hk
      rw [hY k (by omega)]
      exact sP_nonneg hδ (ih (by omega))
  have hmem : ∀ k (s : Fin 2), MemLp (fun ω => incArea (fun t => B 0 t.toNNReal ω) δ k s) 2 P := fun k s => (coeff_pair hB hδ k).memLp s
  refine ⟨fun k hk => (hYm k hk).fst.aestronglyMeasurable, fun k hk => (hYm k hk).snd.aestronglyMeasurable,
    fun k _ => (hmem k 0).integrable (by norm_num), fun k _ => (hmem k 1).aestronglyMeasurable, fun k _ => ?_, fun k _ => ?_, fun k _ => ?_,
    fun k _ => coeff_sum hB hδ k, Eventually.of_forall fun ω => by rw [hY0]; rfl, Eventually.of_forall fun ω => by rw [hY0]; rfl,
    Eventually.of_forall hpn, Eventually.of_forall fun ω k hk => by rw [hY k hk]; rfl, Eventually.of_forall fun ω k hk => by rw [hY k hk]; rfl, fun k hk => ?_⟩
  · have h := (coeff_comb hB hδ k).second_moment 0
    exact ⟨h.1, by rw [h.2]; simp⟩
  · have h := (coeff_pair hB hδ k).second_moment 1
    exact ⟨h.1, by rw [h.2]; simp; linarith⟩
  · have h := (coeff_comb hB hδ k).eval 0
    have h2 := integrable_pow4_gaussian (4 * δ).toNNReal
    have h3 := integral_map (μ := P) h.aemeasurable (f := fun x : ℝ => x ^ 4) (by fun_prop)
    have h4 := h.map_eq
    rw [diagonal_apply_eq, Pi.zero_apply] at h4
    rw [h4, gaussian_pow4, Real.coe_toNNReal _ (by positivity)] at h3
    rw [← h4] at h2
    refine ⟨h2.comp_aemeasurable h.aemeasurable, ?_⟩
    rw [← h3]
    refine le_of_eq ?_
    ring
  · obtain ⟨V, hV1, hV2⟩ := hV k hk.le
    obtain ⟨A, hA1, hA2⟩ := coeff_future hB hδ k 0 0
    obtain ⟨C, hC1, hC2⟩ := coeff_future hB hδ k 0 1
    have hU : Measurable[pastAlg B (k * δ).toNNReal] fun ω => (V ω).2 / δ ^ 2 * Real.cos (V ω).1 := by
      have hg : Measurable fun e : ℝ × ℝ => e.2 / δ ^ 2 * Real.cos e.1 := by fun_prop
      let := pastAlg B (k * δ).toNNReal
      exact hg.comp hV1
    have hW : Measurable[futureAlg B (k * δ).toNNReal] fun ω => (A ω + √6 * C ω) * C ω := by
      have hg : Measurable fun e : ℝ × ℝ => (e.1 + √6 * e.2) * e.2 := by fun_prop
      let := futureAlg B (k * δ).toNNReal
      exact hg.comp (hA1.prodMk hC1)
    have hind := hB.indep_of hU hW
    have e1 : ∫ ω, (Y k ω).2 / δ ^ 2 * Real.cos (Y k ω).1 ∂P = ∫ ω, (V ω).2 / δ ^ 2 * Real.cos (V ω).1 ∂P :=
      integral_congr_ae (by filter_upwards [hV2] with ω h; rw [h])
    have e2 : ∫ ω, (incArea (fun t => B 0 t.toNNReal ω) δ k 0 + √6 * incArea (fun t => B 0 t.toNNReal ω) δ k 1) *
        incArea (fun t => B 0 t.toNNReal ω) δ k 1 ∂P = ∫ ω, (A ω + √6 * C ω) * C ω ∂P :=
      integral_congr_ae (by filter_upwards [hA2, hC2] with ω h h'; rw [h, h'])
    have e3 : ∫ ω, (incArea (fun t => B 0 t.toNNReal ω) δ k 0 + √6 * incArea (fun t => B 0 t.toNNReal ω) δ k 1) *
        incArea (fun t => B 0 t.toNNReal ω) δ k 1 ∂P = √6 * (δ / 2) := by
      have hn := coeff_pair hB hδ k
      have h2 := hn.cov 0 1
      rw [covariance_eq_sub (hn.memLp 0) (hn.memLp 1), hn.mean, diagonal_apply_ne _ (by decide)] at h2
      simp only [Pi.zero_apply, zero_mul, sub_zero] at h2
      have h3 := hn.second_moment 1
      have h4 : ∀ ω, (incArea (fun t => B 0 t.toNNReal ω) δ k 0 + √6 * incArea (fun t => B 0 t.toNNReal ω) δ k 1) *
        incArea (fun t => B 0 t.toNNReal ω) δ k 1 = incArea (fun t => B 0 t.toNNReal ω) δ k 0 * incArea (fun t => B 0 t.toNNReal ω) δ k 1 +
          √6 * incArea (fun t => B 0 t.toNNReal ω) δ k 1 ^ 2 := fun ω => by ring
      simp only [h4]
      have h6 : Integrable (fun ω => incArea (fun t => B 0 t.toNNReal ω) δ k 0 * incArea (fun t => B 0 t.toNNReal ω) δ k 1) P :=
        (hn.memLp 0).integrable_mul (hn.memLp 1)
      rw [integral_add h6 (h3.1.const_mul _), integral_const_mul, h3.2]
      have h5 : ∫ ω, incArea (fun t => B 0 t.toNNReal ω) δ k 0 * incArea (fun t => B 0 t.toNNReal ω) δ k 1 ∂P = 0 := h2
      rw [h5]
      simp
    rw [e1, ← e3, e2, ← hind.integral_fun_mul_eq_mul_integral (hU.mono (hB.pastAlg_le _) le_rfl).aestronglyMeasurable ?_]
    · refine integral_congr_ae ?_
      filter_upwards [hV2, hA2, hC2] with ω h h' h''
      simp only [h, h', h'']
    · have hg : Measurable fun e : ℝ × ℝ => (e.1 + √6 * e.2) * e.2 := by fun_prop
      have hae : AEMeasurable (fun ω => (A ω, C ω)) P :=
        ((hmem k 0).aestronglyMeasurable.aemeasurable.congr hA2).prodMk ((hmem k 1).aestronglyMeasurable.aemeasurable.congr hC2)
      exact (hg.comp_aemeasurable hae).aestronglyMeasurable

end Verif
