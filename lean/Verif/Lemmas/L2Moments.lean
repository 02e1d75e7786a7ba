import Verif.Lemmas.EulerPath
import Verif.Lemmas.MatchedLaw
import Verif.Lemmas.L2Local

/-! The coefficients of the matched parabolas: which events determine them, their moments, and the martingale term of the
error of a scheme. -/

namespace Verif

open Matrix Spec Jnp Set MeasureTheory ProbabilityTheory Filter
open scoped NNReal Topology

variable {d m : ℕ} {Ω : Type*} [MeasurableSpace Ω] {P : Measure Ω} {B : Fin m → ℝ≥0 → Ω → ℝ}

/-- The coefficients of the parabola matched on the `k`-th interval are determined by the increments over the interval. -/
theorem coeff_version {Ω : Type*} (F : MeasurableSpace Ω) {mΩ : MeasurableSpace Ω} {P : Measure Ω} {B : Fin m → ℝ≥0 → Ω → ℝ}
    (hB : IsBrownianVec B P) {δ : ℝ} (hδ : 0 < δ) (k : ℕ) (j : Fin m) (s : Fin 2)
    (hF : ∀ t ∈ Icc 0 δ, Measurable[F] (fun ω => B j (k * δ + t).toNNReal ω - B j (k * δ).toNNReal ω)) :
    ∃ V, Measurable[F] V ∧ (fun ω => incArea (fun t => B j t.toNNReal ω) δ k s) =ᵐ[P] V := by
  fin_cases s
  · refine ⟨_, hF δ ⟨hδ.le, le_rfl⟩, Eventually.of_forall fun ω => ?_⟩
    simp [incArea]
  · refine exists_measurable_version (U := fun n ω => Real.sqrt 6 * ((δ / (n + 1 : ℕ) * ∑ i ∈ Finset.range (n + 1),
      (B j (k * δ + i * (δ / (n + 1 : ℕ))).toNNReal ω - B j (k * δ).toNNReal ω)) / δ -
        (B j (k * δ + δ).toNNReal ω - B j (k * δ).toNNReal ω) / 2)) (fun n => ?_) ?_
    · have h1 : ∀ i ∈ Finset.range (n + 1), Measurable[F] fun ω => B j (k * δ + i * (δ / (n + 1 : ℕ))).toNNReal ω - B j (k * δ).toNNReal ω :=
        fun i hi => hF _ ⟨by positivity, by
          have h2 : (i : ℝ) ≤ (n + 1 : ℕ) := by exact_mod_cast (Finset.mem_range.mp hi).le
          rw [mul_div_assoc', div_le_iff₀ (by positivity), mul_comm δ]
          exact mul_le_mul_of_nonneg_right h2 hδ.le⟩
      have h3 := hF δ ⟨hδ.le, le_rfl⟩
      letI := F
      exact (((Finset.measurable_fun_sum _ h1).const_mul _).div_const δ |>.sub (h3.div_const 2)).const_mul _
    · filter_upwards [(hB.brownian j).cont] with ω hω
      have hg : Continuous fun t : ℝ => B j (k * δ + t).toNNReal ω - B j (k * δ).toNNReal ω :=
        (hω.comp (continuous_real_toNNReal.comp (by fun_prop))).sub continuous_const
      have h1 := tendsto_riemann hg hδ
      have h2 := (((h1.div_const δ).sub_const ((B j (k * δ + δ).toNNReal ω - B j (k * δ).toNNReal ω) / 2)).const_mul (Real.sqrt 6))
      simpa [incArea] using h2

theorem coeff_future (hB : IsBrownianVec B P) {δ : ℝ} (hδ : 0 < δ) (k : ℕ) (j : Fin m) (s : Fin 2) :
    ∃ V, Measurable[futureAlg B (k * δ).toNNReal] V ∧ (fun ω => incArea (fun t => B j t.toNNReal ω) δ k s) =ᵐ[P] V :=
  coeff_version _ hB hδ k j s fun _ ht => measurable_futureAlg (Real.toNNReal_le_toNNReal (by linarith [ht.1])) j

theorem coeff_past (hB : IsBrownianVec B P) {δ : ℝ} (hδ : 0 < δ) (k : ℕ) (j : Fin m) (s : Fin 2) :
    ∃ V, Measurable[pastAlg B ((k + 1 : ℕ) * δ).toNNReal] V ∧ (fun ω => incArea (fun t => B j t.toNNReal ω) δ k s) =ᵐ[P] V :=
  coeff_version _ hB hδ k j s fun t ht => by
    have h1 : Measurable[pastAlg B ((k + 1 : ℕ) * δ).toNNReal] (B j (k * δ + t).toNNReal) :=
      measurable_pastAlg (Real.toNNReal_le_toNNReal (by push_cast; linarith [ht.2])) j
    have h2 : Measurable[pastAlg B ((k + 1 : ℕ) * δ).toNNReal] (B j (k * δ).toNNReal) :=
      measurable_pastAlg (Real.toNNReal_le_toNNReal (by push_cast; linarith)) j
    letI := pastAlg B ((k + 1 : ℕ) * δ).toNNReal
    exact h1.sub h2

/-- First and second moments of the coefficients. -/
theorem coeff_moments (hB : IsBrownianVec B P) {δ : ℝ} (hδ : 0 < δ) (k : ℕ) (j : Fin m) (s : Fin 2) :
    MemLp (fun ω => incArea (fun t => B j t.toNNReal ω) δ k s) 2 P ∧ ∫ ω, incArea (fun t => B j t.toNNReal ω) δ k s ∂P = 0 ∧
      ∫ ω, incArea (fun t => B j t.toNNReal ω) δ k s ^ 2 ∂P ≤ δ := by
  have hP := hB.isProb
  have h := hB.incArea_law hδ (k + 1)
  set q : Fin (k + 1) × Fin m × Fin 2 := (Fin.last k, j, s) with hq
  have h1 := h.memLp q
  have h2 := h.mean q
  have h3 := h.cov q q
  rw [covariance_self h1.aestronglyMeasurable.aemeasurable, variance_eq_sub h1, h2] at h3
  simp only [hq, Fin.val_last, Pi.zero_apply] at h1 h2 h3
  refine ⟨h1, h2, ?_⟩
  have h4 : ∫ ω, incArea (fun t => B j t.toNNReal ω) δ k s ^ 2 ∂P = (![δ, δ / 2] : Fin 2 → ℝ) s := by
    have h5 : ∫ ω, ((fun ω => incArea (fun t => B j t.toNNReal ω) δ k s) ^ 2) ω ∂P - 0 ^ 2 = _ := h3
    rw [diagonal_apply_eq] at h5
    simpa using h5
  rw [h4]
  fin_cases s
  · simp
  · simp
    linarith

/-- A term that is linear in the noise of the interval, with a bounded factor that depends on the past, has expectation zero. -/
theorem martingale_term_adapted (hB : IsBrownianVec B P) {δ : ℝ} (hδ : 0 < δ) (k : ℕ) {E : Ω → Vec d}
    (hE : Measurable[pastAlg B (k * δ).toNNReal] E) {D : Ω → Vec d →L[ℝ] Vec d}
    (hD : ∀ v, Measurable[pastAlg B (k * δ).toNNReal] fun ω => D ω v)
    (hEi : Integrable (fun ω => E ω ⬝ᵥ E ω) P) {L : ℝ} (hL0 : 0 ≤ L) (hDL : ∀ᵐ ω ∂P, ‖D ω‖ ≤ L)
    (S : Mat d m) (c : Fin 2 → ℝ) :
    Integrable (fun ω => E ω ⬝ᵥ D ω (S *ᵥ fun j => ∑ s, c s * incArea (fun t => B j t.toNNReal ω) δ k s)) P ∧
      ∫ ω, E ω ⬝ᵥ D ω (S *ᵥ fun j => ∑ s, c s * incArea (fun t => B j t.toNNReal ω) δ k s) ∂P = 0 := by
  have hP := hB.isProb
  obtain ⟨g, hg⟩ : ∃ g : Fin m → Ω → ℝ, ∀ j ω, g j ω = E ω ⬝ᵥ D ω (S *ᵥ Pi.single j 1) := ⟨_, fun _ _ => rfl⟩
  have hle := hB.pastAlg_le (k * δ).toNNReal
  have hgm : ∀ j, Measurable[pastAlg B (k * δ).toNNReal] (g j) := fun j => by
    have h1 : g j = fun ω => E ω ⬝ᵥ D ω (S *ᵥ Pi.single j 1) := funext fun ω => hg j ω
    rw [h1]
    letI := pastAlg B (k * δ).toNNReal
    refine Finset.measurable_fun_sum _ fun i _ => ?_
    exact ((measurable_pi_apply i).comp hE).mul ((measurable_pi_apply i).comp (hD _))
  have hgb : ∀ j, ∀ᵐ ω ∂P, g j ω ^ 2 ≤ (d : ℝ) ^ 2 * (L * ‖S *ᵥ (Pi.single j 1 : Vec m)‖) ^ 2 * (E ω ⬝ᵥ E ω) := fun j => by
    filter_upwards [hDL] with ω hω
    have h1 : |g j ω| ≤ d * (‖E ω‖ * (L * ‖S *ᵥ (Pi.single j 1 : Vec m)‖)) := by
      rw [hg]
      refine (Finset.abs_sum_le_sum_abs _ _).trans ?_
      have : ∀ i ∈ Finset.univ, |E ω i * D ω (S *ᵥ Pi.single j 1) i| ≤ ‖E ω‖ * (L * ‖S *ᵥ (Pi.single j 1 : Vec m)‖) := fun i _ => by
        rw [abs_mul]
        refine mul_le_mul (norm_le_pi_norm (E ω) i) ?_ (abs_nonneg _) (norm_nonneg _)
        refine (norm_le_pi_norm (D ω (S *ᵥ Pi.single j 1)) i).trans (((D ω).le_opNorm _).trans ?_)
        exact mul_le_mul_of_nonneg_right hω (norm_nonneg _)
      refine (Finset.sum_le_sum this).trans (le_of_eq ?_)
      simp
    have h2 := pow_le_pow_left₀ (abs_nonneg _) h1 2
    rw [sq_abs] at h2
    refine h2.trans ?_
    have h3 := sq_norm_le_dot (E ω)
    calc _ = (d : ℝ) ^ 2 * (L * ‖S *ᵥ (Pi.single j 1 : Vec m)‖) ^ 2 * ‖E ω‖ ^ 2 := by ring
      _ ≤ _ := mul_le_mul_of_nonneg_left h3 (by positivity)
  have hgL : ∀ j, MemLp (g j) 2 P := fun j => by
    have hm : AEStronglyMeasurable (g j) P := ((hgm j).mono hle le_rfl).aestronglyMeasurable
    rw [memLp_two_iff_integrable_sq hm]
    refine (hEi.const_mul ((d : ℝ) ^ 2 * (L * ‖S *ᵥ (Pi.single j 1 : Vec m)‖) ^ 2)).mono' (hm.pow 2) ((hgb j).mono fun ω hω => ?_)
    rw [Real.norm_of_nonneg (sq_nonneg _)]
    exact hω
  have hterm : ∀ j s, Integrable (fun ω => g j ω * incArea (fun t => B j t.toNNReal ω) δ k s) P ∧
      ∫ ω, g j ω * incArea (fun t => B j t.toNNReal ω) δ k s ∂P = 0 := fun j s => by
    obtain ⟨h1, h2, -⟩ := coeff_moments hB hδ k j s
    refine ⟨(hgL j).integrable_mul h1, ?_⟩
    obtain ⟨V, hV1, hV2⟩ := coeff_future hB hδ k j s
    have hi := hB.indep_of (hgm j) hV1
    have h3 : ∫ ω, g j ω * incArea (fun t => B j t.toNNReal ω) δ k s ∂P = ∫ ω, g j ω * V ω ∂P := by
      refine integral_congr_ae ?_
      filter_upwards [hV2] with ω hω
      rw [hω]
    have h4 : ∫ ω, V ω ∂P = 0 := by rw [← h2]; exact (integral_congr_ae hV2).symm
    rw [h3, hi.integral_fun_mul_eq_mul_integral (hgL j).aestronglyMeasurable
      (hV1.mono (hB.futureAlg_le _) le_rfl).aestronglyMeasurable, h4, mul_zero]
  have he : (fun ω => E ω ⬝ᵥ D ω (S *ᵥ fun j => ∑ s, c s * incArea (fun t => B j t.toNNReal ω) δ k s)) =
      fun ω => ∑ j, ∑ s, c s * (g j ω * incArea (fun t => B j t.toNNReal ω) δ k s) := by
    funext ω
    have h1 : (fun j => ∑ s, c s * incArea (fun t => B j t.toNNReal ω) δ k s) =
        ∑ j, (∑ s, c s * incArea (fun t => B j t.toNNReal ω) δ k s) • (Pi.single j 1 : Vec m) := by
      funext i
      simp [Finset.sum_apply, Pi.single_apply]
    rw [h1]
    have h2 : S *ᵥ (∑ j, (∑ s, c s * incArea (fun t => B j t.toNNReal ω) δ k s) • (Pi.single j 1 : Vec m)) =
        ∑ j, (∑ s, c s * incArea (fun t => B j t.toNNReal ω) δ k s) • (S *ᵥ (Pi.single j 1 : Vec m)) := by
      rw [← mulVecLin_apply, map_sum]
      simp only [map_smul, mulVecLin_apply]
    rw [h2, map_sum, dotProduct_sum]
    refine Finset.sum_congr rfl fun j _ => ?_
    rw [map_smul, dotProduct_smul, ← hg, smul_eq_mul, Finset.sum_mul]
    refine Finset.sum_congr rfl fun s _ => ?_
    ring
  rw [he]
  have hti : ∀ j s, Integrable (fun ω => c s * (g j ω * incArea (fun t => B j t.toNNReal ω) δ k s)) P := fun j s => (hterm j s).1.const_mul _
  refine ⟨integrable_finsetSum _ fun j _ => integrable_finsetSum _ fun s _ => hti j s, ?_⟩
  rw [integral_finsetSum _ fun j _ => integrable_finsetSum _ fun s _ => hti j s]
  refine Finset.sum_eq_zero fun j _ => ?_
  rw [integral_finsetSum _ fun s _ => hti j s]
  refine Finset.sum_eq_zero fun s _ => ?_
  rw [integral_const_mul, (hterm j s).2, mul_zero]

/-- The term of the error that is linear in the noise of the interval has expectation zero. -/
theorem martingale_term (hB : IsBrownianVec B P) {δ : ℝ} (hδ : 0 < δ) (k : ℕ) {E X : Ω → Vec d}
    (hE : Measurable[pastAlg B (k * δ).toNNReal] E) (hX : Measurable[pastAlg B (k * δ).toNNReal] X)
    (hEi : Integrable (fun ω => E ω ⬝ᵥ E ω) P) {G : Vec d → Vec d →L[ℝ] Vec d} (hG : Continuous G) {L : ℝ} (hGL : ∀ x, ‖G x‖ ≤ L)
    (S : Mat d m) (c : Fin 2 → ℝ) :
    Integrable (fun ω => E ω ⬝ᵥ G (X ω) (S *ᵥ fun j => ∑ s, c s * incArea (fun t => B j t.toNNReal ω) δ k s)) P ∧
      ∫ ω, E ω ⬝ᵥ G (X ω) (S *ᵥ fun j => ∑ s, c s * incArea (fun t => B j t.toNNReal ω) δ k s) ∂P = 0 :=
  martingale_term_adapted hB hδ k hE (D := fun ω => G (X ω)) (fun v => by
    have h2 : Continuous fun x => G x v := hG.clm_apply continuous_const
    letI := pastAlg B (k * δ).toNNReal
    exact h2.measurable.comp hX) hEi ((norm_nonneg _).trans (hGL 0)) (Eventually.of_forall fun ω => hGL _) S c

end Verif
