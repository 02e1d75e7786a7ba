import Mathlib.Probability.BrownianMotion.Basic
import Mathlib.Probability.Independence.InfinitePi
import Mathlib.MeasureTheory.OuterMeasure.BorelCantelli
import Verif.Lemmas.LevyShapes
import Verif.Lemmas.NormalLimit
import Verif.Spec.BrownianVec

/-! Lévy's construction of Brownian motion: the law of the series. Brownian motions exist in every dimension. -/

namespace Verif.Levy

open MeasureTheory ProbabilityTheory Filter Matrix Spec
open scoped NNReal Topology ENNReal

/-- Independent standard normals. -/
noncomputable def noise : Measure (ℕ × ℕ → ℝ) := Measure.infinitePi fun _ => gaussianReal 0 1

instance : IsProbabilityMeasure noise := by unfold noise; infer_instance

theorem noise_law (p : ℕ × ℕ) : HasLaw (fun z : ℕ × ℕ → ℝ => z p) (gaussianReal 0 1) noise :=
  ⟨(measurable_pi_apply p).aemeasurable, Measure.infinitePi_map_eval (fun _ : ℕ × ℕ => gaussianReal 0 1) p⟩

theorem noise_indep : iIndepFun (fun (p : ℕ × ℕ) (z : ℕ × ℕ → ℝ) => z p) noise :=
  iIndepFun_infinitePi (P := fun _ : ℕ × ℕ => gaussianReal 0 1) (X := fun _ x => x) (fun _ => measurable_id)

/-- The coefficients of a level. -/
def coef (z : ℕ × ℕ → ℝ) (j k : ℕ) : ℝ := z (j, k)

theorem noise_tail : ∃ C : ℝ, 0 ≤ C ∧ ∀ (p : ℕ × ℕ) (a : ℝ), 0 < a → noise {z | a < |z p|} ≤ ENNReal.ofReal (C / a ^ 4) := by
  have hi : Integrable (fun x : ℝ => x ^ 4) (gaussianReal 0 1) := by
    have := (memLp_id_gaussianReal (μ := 0) (v := 1) 4).integrable_norm_pow (by norm_num)
    refine this.congr (Eventually.of_forall fun x => ?_)
    simp only [id_eq, Real.norm_eq_abs]
    exact Even.pow_abs (by decide) x
  refine ⟨∫ x, x ^ 4 ∂(gaussianReal 0 1), integral_nonneg fun x => by positivity, fun p a ha => ?_⟩
  have hl := noise_law p
  have hi' : Integrable (fun z : ℕ × ℕ → ℝ => z p ^ 4) noise := by
    rw [← hl.map_eq] at hi
    exact (integrable_map_measure hi.aestronglyMeasurable hl.aemeasurable).mp hi
  have he : ∫ z, z p ^ 4 ∂noise = ∫ x, x ^ 4 ∂(gaussianReal 0 1) := hl.integral_comp (f := fun x => x ^ 4) hi.aestronglyMeasurable
  have hm := mul_meas_ge_le_integral_of_nonneg (μ := noise) (f := fun z => z p ^ 4) (Eventually.of_forall fun z => by positivity) hi' (a ^ 4)
  rw [he] at hm
  have hsub : {z : ℕ × ℕ → ℝ | a < |z p|} ⊆ {z | a ^ 4 ≤ z p ^ 4} := fun z hz => by
    have : a ^ 4 ≤ |z p| ^ 4 := pow_le_pow_left₀ ha.le (le_of_lt hz) 4
    rwa [Even.pow_abs (by decide)] at this
  refine (measure_mono hsub).trans ?_
  rw [← ofReal_measureReal]
  refine ENNReal.ofReal_le_ofReal ?_
  rw [le_div_iff₀ (by positivity), mul_comm]
  exact hm

/-- Almost surely the coefficients grow slowly. -/
theorem good_ae : ∀ᵐ z ∂noise, Good (coef z) := by
  obtain ⟨C, hC, htail⟩ := noise_tail
  refine ae_all_iff.mpr fun T => ?_
  have hs : ∀ j : ℕ, noise {z | ∃ k < 2 ^ j * T, (5 / 4 : ℝ) ^ j < |z (j + 1, k)|} ≤ ENNReal.ofReal (T * C * (512 / 625) ^ j) := fun j => by
    have h1 : {z : ℕ × ℕ → ℝ | ∃ k < 2 ^ j * T, (5 / 4 : ℝ) ^ j < |z (j + 1, k)|} =
        ⋃ k ∈ Finset.range (2 ^ j * T), {z | (5 / 4 : ℝ) ^ j < |z (j + 1, k)|} := by
      ext z
      simp
    rw [h1]
    refine (measure_biUnion_finset_le _ _).trans ((Finset.sum_le_sum fun k _ => htail (j + 1, k) _ (by positivity)).trans ?_)
    rw [Finset.sum_const, Finset.card_range, nsmul_eq_mul, ← ENNReal.ofReal_natCast, ← ENNReal.ofReal_mul (by positivity)]
    refine ENNReal.ofReal_le_ofReal (le_of_eq ?_)
    push_cast
    rw [show (512 / 625 : ℝ) = 2 / (5 / 4) ^ 4 by norm_num, ← pow_mul, mul_comm j 4, pow_mul, div_pow 2]
    ring
  have hsum : Summable fun j : ℕ => T * C * (512 / 625 : ℝ) ^ j :=
    (summable_geometric_of_lt_one (by norm_num) (by norm_num)).mul_left _
  have := ae_eventually_notMem (μ := noise) (ne_top_of_le_ne_top hsum.tsum_ofReal_ne_top (ENNReal.tsum_le_tsum hs))
  filter_upwards [this] with z hz
  filter_upwards [hz] with j hj k hk
  by_contra hcon
  exact hj ⟨k, hk, not_le.mp hcon⟩

theorem partialPath_law {I : Type*} [Fintype I] [DecidableEq I] (n : ℕ) (t : I → ℝ) (ht : ∀ i, 0 ≤ t i) :
    IsNormal noise (fun z i => partialPath (coef z) n (t i)) 0 (Matrix.of fun i i' => min (t i) (t i') - rest n (t i) (t i')) := by
  obtain ⟨K, hK⟩ := exists_nat_gt (∑ i, 2 ^ n * t i)
  have hK' : ∀ i, 2 ^ n * t i < K := fun i =>
    lt_of_le_of_lt (Finset.single_le_sum (f := fun i => 2 ^ n * t i) (fun i _ => mul_nonneg (by positivity) (ht i)) (Finset.mem_univ i)) hK
  obtain ⟨M, hM⟩ : ∃ M : Matrix I (Fin (n + 1) × Fin K) ℝ, ∀ i p, M i p = shape p.1 (scale p.1 * t i - (p.2 : ℕ)) :=
    ⟨Matrix.of fun i p => shape p.1 (scale p.1 * t i - (p.2 : ℕ)), fun _ _ => rfl⟩
  have hl : ∀ p : Fin (n + 1) × Fin K, HasLaw (fun z : ℕ × ℕ → ℝ => z ((p.1 : ℕ), (p.2 : ℕ))) (gaussianReal 0 1) noise := fun p => noise_law _
  have hi : iIndepFun (fun (p : Fin (n + 1) × Fin K) (z : ℕ × ℕ → ℝ) => z ((p.1 : ℕ), (p.2 : ℕ))) noise :=
    noise_indep.precomp (g := fun p : Fin (n + 1) × Fin K => ((p.1 : ℕ), (p.2 : ℕ))) fun p q h => by
      simp only [Prod.mk.injEq] at h
      exact Prod.ext (Fin.ext h.1) (Fin.ext h.2)
  have hn := isNormal_linear hl hi 0 M
  have hc : M * Mᵀ = Matrix.of fun i i' => min (t i) (t i') - rest n (t i) (t i') := by
    ext i i'
    rw [mul_apply, of_apply, ← kernel_eq (ht i) (ht i') n (hK' i) (hK' i'), Fintype.sum_prod_type, Finset.sum_range]
    refine Finset.sum_congr rfl fun j _ => ?_
    rw [Finset.sum_range]
    simp only [transpose_apply, hM]
  rw [hc] at hn
  refine hn.congr_ae (Eventually.of_forall fun z => ?_)
  funext i
  have hj : ∀ j ∈ Finset.range (n + 1), level (coef z j) j (t i) = ∑ k ∈ Finset.range K, coef z j k * shape j (scale j * t i - k) := fun j hj =>
    level_eq _ _ (lt_of_le_of_lt (mul_le_mul_of_nonneg_right (scale_le (by rw [Finset.mem_range] at hj; omega)) (ht i)) (hK' i))
  rw [partialPath, Finset.sum_congr rfl hj]
  simp only [Pi.add_apply, Pi.zero_apply, zero_add, mulVec, dotProduct, Fintype.sum_prod_type]
  rw [Finset.sum_range]
  refine Finset.sum_congr rfl fun j _ => ?_
  rw [Finset.sum_range]
  exact Finset.sum_congr rfl fun k _ => by rw [hM, coef, mul_comm]

/-- The Brownian motion. -/
noncomputable def motion (t : ℝ≥0) (z : ℕ × ℕ → ℝ) : ℝ := limsup (fun n => partialPath (coef z) n t) atTop

theorem measurable_level (j : ℕ) (t : ℝ) : Measurable fun z : ℕ × ℕ → ℝ => level (coef z j) j t := by
  unfold level
  exact Finset.measurable_fun_sum _ fun k _ => (measurable_pi_apply (j, k)).mul_const _

theorem measurable_motion (t : ℝ≥0) : Measurable (motion t) := by
  unfold motion
  refine Measurable.limsup fun n => ?_
  unfold partialPath
  exact Finset.measurable_fun_sum _ fun j _ => measurable_level j t

theorem motion_eq {z : ℕ × ℕ → ℝ} (hz : Good (coef z)) (t : ℝ≥0) : motion t z = path (coef z) t :=
  (partialPath_tendsto hz t.2).limsup_eq

theorem motion_law {I : Type*} [Fintype I] [DecidableEq I] (t : I → ℝ≥0) :
    IsNormal noise (fun z i => motion (t i) z) 0 (Matrix.of fun i i' => min (t i : ℝ) (t i')) := by
  refine isNormal_of_tendsto (fun n => partialPath_law n (fun i => (t i : ℝ)) fun i => (t i).2) ?_ fun i i' => ?_
  · filter_upwards [good_ae] with z hz i
    rw [motion_eq hz]
    exact partialPath_tendsto hz (t i).2
  · have := (rest_tendsto (t i).2 (t i').2).const_sub (min (t i : ℝ) (t i'))
    rw [sub_zero] at this
    exact this

theorem motion_brownian : IsBrownianReal motion noise where
  toIsPreBrownianReal := by
    refine IsGaussianProcess.isPreBrownianReal_of_covariance ⟨fun I => ?_⟩ (fun t => ?_) fun s t hst => ?_
    · exact (motion_law fun i : I => (i : ℝ≥0)).hasGaussianLaw
    · exact (motion_law fun _ : Unit => t).mean ()
    · have := (motion_law ![s, t]).cov 0 1
      simpa [min_eq_left (NNReal.coe_le_coe.mpr hst)] using this
  cont := by
    filter_upwards [good_ae] with z hz
    have h : (fun t => motion t z) = fun t : ℝ≥0 => path (coef z) t := funext fun t => motion_eq hz t
    rw [h]
    exact (continuousOn_path hz).comp_continuous NNReal.continuous_coe fun t => t.2

/-- Independent copies on a product space. -/
theorem exists_brownianVec (m : ℕ) : ∃ B : Fin m → ℝ≥0 → (Fin m → ℕ × ℕ → ℝ) → ℝ, IsBrownianVec B (Measure.pi fun _ => noise) := by
  refine ⟨fun j t z => motion t (z j), ⟨fun j t => (measurable_motion t).comp (measurable_pi_apply j), fun j => ⟨⟨fun I => ?_⟩, ?_⟩, ?_⟩⟩
  · exact (motion_brownian.hasLaw I).comp (measurePreserving_eval (fun _ : Fin m => noise) j).hasLaw
  · exact (measurePreserving_eval (fun _ : Fin m => noise) j).quasiMeasurePreserving.ae motion_brownian.cont
  · exact iIndepFun_pi (X := fun (_ : Fin m) z t => motion t z) fun _ => (measurable_pi_lambda _ fun t => measurable_motion t).aemeasurable

end Verif.Levy
