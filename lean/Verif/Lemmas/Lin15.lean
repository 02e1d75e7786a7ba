import Mathlib.Analysis.Complex.ExponentialBounds
import Verif.Lemmas.LinearSolution
import Verif.Lemmas.ExpTaylor
import Verif.Lemmas.Prior
import Verif.Lemmas.HypoScheme
import Verif.Model.Ivp

/-! Linear recursions with the second order transition matrix, against the exact mean and covariance of a linear SDE. -/

namespace Verif

open Matrix Spec Jnp Set MeasureTheory ProbabilityTheory Filter
open scoped NNReal Topology

variable {d m : ℕ}

section Norm

open scoped Matrix.Norms.Operator

theorem linfty_le_of_entries {n l : ℕ} (A : Mat n l) {c : ℝ} (hc : 0 ≤ c) (h : ∀ i j, |A i j| ≤ c) : ‖A‖ ≤ l * c := by
  rw [linfty_opNorm_def]
  have h1 : (Finset.univ.sup fun i => ∑ j, ‖A i j‖₊) ≤ (l : ℝ≥0) * ⟨c, hc⟩ := Finset.sup_le fun i _ => by
    refine (Finset.sum_le_sum (g := fun _ => (⟨c, hc⟩ : ℝ≥0)) fun j _ => ?_).trans (by rw [Finset.sum_const, Finset.card_univ, Fintype.card_fin, nsmul_eq_mul]; exact le_rfl)
    exact_mod_cast h i j
  exact_mod_cast h1

/-- The second order transition matrix. -/
noncomputable def trans15 (F : Mat d d) (h : ℝ) : Mat d d := 1 + h • F + (h ^ 2 / 2) • (F * F)

/-- The covariance of a step of the scheme of order 1.5. -/
noncomputable def cov15 (F : Mat d d) (V : Mat d d) (h : ℝ) : Mat d d :=
  h • V + (h ^ 2 / 2) • (F * V + V * Fᵀ) + (h ^ 3 / 3) • (F * V * Fᵀ)

theorem norm_nexp_le {𝔸 : Type*} [NormedRing 𝔸] [NormOneClass 𝔸] [NormedAlgebra ℝ 𝔸] [CompleteSpace 𝔸] (x : 𝔸) : ‖NormedSpace.exp x‖ ≤ Real.exp ‖x‖ := by
  have e : NormedSpace.exp x = ∑' n : ℕ, ((n.factorial : ℝ)⁻¹) • x ^ n := congrFun (NormedSpace.exp_eq_tsum (𝕂 := ℝ)) x
  have hr : HasSum (fun n : ℕ => ‖x‖ ^ n / n.factorial) (Real.exp ‖x‖) := by
    rw [Real.exp_eq_exp_ℝ]
    exact NormedSpace.expSeries_div_hasSum_exp ‖x‖
  rw [e]
  refine tsum_of_norm_bounded hr fun n => ?_
  rw [norm_smul, Real.norm_of_nonneg (by positivity), div_eq_inv_mul]
  gcongr
  exact norm_pow_le x n

theorem exp_norm_le [Nonempty (Fin d)] (F : Mat d d) {M s : ℝ} (hM : ‖F‖ ≤ M) (hs : 0 ≤ s) : ‖expm (s • F)‖ ≤ Real.exp (s * M) := by
  have h1 : ‖expm (s • F)‖ ≤ Real.exp ‖s • F‖ := norm_nexp_le (s • F)
  refine h1.trans (Real.exp_le_exp.mpr ?_)
  rw [norm_smul, Real.norm_of_nonneg hs]
  gcongr

theorem trans15_norm_le [Nonempty (Fin d)] (F : Mat d d) {M h : ℝ} (hM : ‖F‖ ≤ M) (hh : 0 ≤ h) : ‖trans15 F h‖ ≤ Real.exp (h * M) := by
  have hM0 : 0 ≤ M := (norm_nonneg F).trans hM
  have h1 : ‖h • F‖ ≤ h * M := by rw [norm_smul, Real.norm_of_nonneg hh]; gcongr
  have h2 : ‖(h ^ 2 / 2) • (F * F)‖ ≤ (h * M) ^ 2 / 2 := by
    rw [norm_smul, Real.norm_of_nonneg (by positivity)]
    have : ‖F * F‖ ≤ M * M := (norm_mul_le F F).trans (by gcongr)
    calc h ^ 2 / 2 * ‖F * F‖ ≤ h ^ 2 / 2 * (M * M) := by gcongr
      _ = _ := by ring
  have h3 := Real.quadratic_le_exp_of_nonneg (mul_nonneg hh hM0)
  rw [trans15]
  refine (norm_add_le _ _).trans ((add_le_add ((norm_add_le _ _).trans (add_le_add norm_one.le h1)) h2).trans h3)

theorem trans15_sub [Nonempty (Fin d)] (F : Mat d d) {M h T : ℝ} (hM : ‖F‖ ≤ M) (hh : 0 ≤ h) (hhT : h ≤ T) :
    ‖trans15 F h - expm (h • F)‖ ≤ M ^ 3 * Real.exp (T * M) * h ^ 3 := by
  have hM0 : 0 ≤ M := (norm_nonneg F).trans hM
  have h1 := exp_taylor (h • F)
  have e : (1 + h • F + (1 / 2 : ℝ) • (h • F) ^ 2 : Mat d d) = trans15 F h := by
    rw [trans15, sq, smul_mul_smul_comm, smul_smul, sq]
    congr 2
    ring
  rw [e] at h1
  rw [norm_sub_rev]
  have h2 : ‖h • F‖ ≤ h * M := by rw [norm_smul, Real.norm_of_nonneg hh]; gcongr
  refine h1.trans ?_
  calc ‖h • F‖ ^ 3 * Real.exp ‖h • F‖ ≤ (h * M) ^ 3 * Real.exp (T * M) := by
        gcongr
        exact h2.trans (by gcongr)
    _ = _ := by ring

theorem pow_sub_pow_le {𝔸 : Type*} [NormedRing 𝔸] [NormOneClass 𝔸] (a b : 𝔸) {x : ℝ} (hx : 0 ≤ x) (ha : ‖a‖ ≤ Real.exp x) (hb : ‖b‖ ≤ Real.exp x) (k : ℕ) :
    ‖a ^ k - b ^ k‖ ≤ k * ‖a - b‖ * Real.exp (k * x) := by
  induction k with
  | zero => simp
  | succ k ih =>
    have e : a ^ (k + 1) - b ^ (k + 1) = a * (a ^ k - b ^ k) + (a - b) * b ^ k := by rw [pow_succ' a, pow_succ' b]; noncomm_ring
    have hbk : ‖b ^ k‖ ≤ Real.exp (k * x) := by
      rw [Real.exp_nat_mul]
      exact (norm_pow_le b k).trans (by gcongr)
    have hE : Real.exp ((k + 1 : ℕ) * x) = Real.exp x * Real.exp (k * x) := by
      rw [← Real.exp_add]; congr 1; push_cast; ring
    have hE1 : 1 ≤ Real.exp x := Real.one_le_exp hx
    rw [e, hE]
    refine (norm_add_le _ _).trans ((add_le_add (norm_mul_le _ _) (norm_mul_le _ _)).trans ?_)
    have h1 : ‖a‖ * ‖a ^ k - b ^ k‖ ≤ Real.exp x * (k * ‖a - b‖ * Real.exp (k * x)) := by gcongr
    have h2 : ‖a - b‖ * ‖b ^ k‖ ≤ Real.exp x * (‖a - b‖ * Real.exp (k * x)) :=
      (mul_le_mul_of_nonneg_left hbk (norm_nonneg _)).trans (le_mul_of_one_le_left (by positivity) hE1)
    push_cast
    nlinarith

theorem expm_pow (F : Mat d d) (h : ℝ) (k : ℕ) : expm (h • F) ^ k = expm ((k * h) • F) := by
  induction k with
  | zero => simp [expm]
  | succ k ih =>
    rw [pow_succ, ih, ← expm_add]
    congr 2
    push_cast
    ring

theorem trans15_transpose (F : Mat d d) (h : ℝ) : (trans15 F h)ᵀ = trans15 Fᵀ h := by
  simp [trans15, transpose_add, transpose_smul, transpose_mul]

/-- The mean after `k` steps is exact up to the square of the step. -/
theorem mean15 (F : Mat d d) {T : ℝ} (hT : 0 < T) : ∃ C : ℝ, 0 ≤ C ∧ ∀ N : ℕ, 0 < N → ∀ k ≤ N,
    ‖trans15 F (T / N) ^ k - expm ((k * (T / N)) • F)‖ ≤ C * (T / N) ^ 2 := by
  rcases isEmpty_or_nonempty (Fin d) with he | hne
  · refine ⟨0, le_rfl, fun N _ k _ => ?_⟩
    rw [Subsingleton.elim (trans15 F (T / N) ^ k - expm ((k * (T / N)) • F)) 0, norm_zero]
    simp
  refine ⟨T * (‖F‖ ^ 3 * Real.exp (T * ‖F‖)) * Real.exp (T * ‖F‖), by positivity, fun N hN k hk => ?_⟩
  have hN' : (0 : ℝ) < N := by exact_mod_cast hN
  obtain ⟨h, hh⟩ : ∃ h, h = T / N := ⟨_, rfl⟩
  rw [← hh]
  have hh0 : 0 < h := by rw [hh]; positivity
  have hNh : (N : ℝ) * h = T := by rw [hh]; field_simp
  have hkh : (k : ℝ) * h ≤ T := by rw [← hNh]; exact mul_le_mul_of_nonneg_right (by exact_mod_cast hk) hh0.le
  have hhT : h ≤ T := by
    rw [← hNh]
    have : (1 : ℝ) ≤ N := by exact_mod_cast hN
    nlinarith
  rw [← expm_pow]
  refine (pow_sub_pow_le _ _ (mul_nonneg hh0.le (norm_nonneg F)) (trans15_norm_le F le_rfl hh0.le) (exp_norm_le F le_rfl hh0.le) k).trans ?_
  have h1 := trans15_sub F le_rfl hh0.le hhT
  calc (k : ℝ) * ‖trans15 F h - expm (h • F)‖ * Real.exp (k * (h * ‖F‖)) ≤ k * (‖F‖ ^ 3 * Real.exp (T * ‖F‖) * h ^ 3) * Real.exp (T * ‖F‖) := by
        have : Real.exp (k * (h * ‖F‖)) ≤ Real.exp (T * ‖F‖) := Real.exp_le_exp.mpr (by
          rw [← mul_assoc]; exact mul_le_mul_of_nonneg_right hkh (norm_nonneg F))
        gcongr
    _ = (k * h) * (‖F‖ ^ 3 * Real.exp (T * ‖F‖)) * Real.exp (T * ‖F‖) * h ^ 2 := by ring
    _ ≤ _ := by gcongr

/-- The covariance after `k` steps, when the covariance of one step is exact up to order `p + 1`. -/
theorem cov_order (F : Mat d d) (S : Mat d m) {T : ℝ} (hT : 0 < T) {p : ℕ} (hp : p ≤ 2) {c : ℝ} (R : ℝ → Mat d d)
    (hR : ∀ h, 0 < h → h ≤ T → ‖R h - transitionCov F S h‖ ≤ c * h ^ (p + 1)) : ∃ C : ℝ, 0 ≤ C ∧ ∀ N : ℕ, 0 < N → ∀ k ≤ N,
    ‖∑ i ∈ Finset.range k, trans15 F (T / N) ^ i * R (T / N) * (trans15 F (T / N) ^ i)ᵀ - transitionCov F S (k * (T / N))‖ ≤ C * (T / N) ^ p := by
  rcases isEmpty_or_nonempty (Fin d) with he | hne
  · refine ⟨0, le_rfl, fun N _ k _ => ?_⟩
    rw [Subsingleton.elim (∑ i ∈ Finset.range k, trans15 F (T / N) ^ i * R (T / N) * (trans15 F (T / N) ^ i)ᵀ - transitionCov F S (k * (T / N))) 0, norm_zero]
    simp
  obtain ⟨M, hM⟩ : ∃ M, M = max ‖F‖ ‖Fᵀ‖ := ⟨_, rfl⟩
  have hM1 : ‖F‖ ≤ M := hM ▸ le_max_left _ _
  have hM2 : ‖Fᵀ‖ ≤ M := hM ▸ le_max_right _ _
  have hM0 : 0 ≤ M := (norm_nonneg F).trans hM1
  have hVc : ContinuousOn (fun t => ‖transitionCov F S t‖) (Icc 0 T) := by
    refine (Continuous.norm ?_).continuousOn
    refine continuous_pi fun i => continuous_pi fun j => ?_
    exact intervalIntegral.continuous_primitive (fun a b => (transitionCov_integrand_continuous F S i j).intervalIntegrable a b) 0
  obtain ⟨B, hB⟩ := isCompact_Icc.bddAbove_image hVc
  have hB' : ∀ t ∈ Icc 0 T, ‖transitionCov F S t‖ ≤ B := fun t ht => hB ⟨t, ht, rfl⟩
  have hB0 : 0 ≤ B := (norm_nonneg _).trans (hB' 0 ⟨le_rfl, hT.le⟩)
  obtain ⟨K, hK⟩ : ∃ K, K = M ^ 3 * Real.exp (T * M) := ⟨_, rfl⟩
  have hK0 : 0 ≤ K := by rw [hK]; positivity
  obtain ⟨D, hD⟩ : ∃ D, D = 2 * K * B * Real.exp (T * M) * T ^ (2 - p) + |c| := ⟨_, rfl⟩
  have hD0 : 0 ≤ D := by rw [hD]; positivity
  refine ⟨T * D * Real.exp (2 * T * M), by positivity, fun N hN => ?_⟩
  have hN' : (0 : ℝ) < N := by exact_mod_cast hN
  obtain ⟨h, hh⟩ : ∃ h, h = T / N := ⟨_, rfl⟩
  rw [← hh]
  have hh0 : 0 < h := by rw [hh]; positivity
  have hNh : (N : ℝ) * h = T := by rw [hh]; field_simp
  have hhT : h ≤ T := by
    rw [← hNh]
    have : (1 : ℝ) ≤ N := by exact_mod_cast hN
    nlinarith
  have hkh : ∀ k : ℕ, k ≤ N → (k : ℝ) * h ≤ T := fun k hk => by
    rw [← hNh]; exact mul_le_mul_of_nonneg_right (by exact_mod_cast hk) hh0.le
  obtain ⟨Q, hQ⟩ : ∃ Q, Q = trans15 F h := ⟨_, rfl⟩
  obtain ⟨e, he⟩ : ∃ e, e = expm (h • F) := ⟨_, rfl⟩
  have heT : eᵀ = expm (h • Fᵀ) := by rw [he, ← transpose_smul]; exact (Matrix.exp_transpose _).symm
  have hq1 : ‖Q‖ ≤ Real.exp (h * M) := hQ ▸ trans15_norm_le F hM1 hh0.le
  have hq2 : ‖Qᵀ‖ ≤ Real.exp (h * M) := by rw [hQ, trans15_transpose]; exact trans15_norm_le Fᵀ hM2 hh0.le
  have he1 : ‖e‖ ≤ Real.exp (h * M) := he ▸ exp_norm_le F hM1 hh0.le
  have hd1 : ‖Q - e‖ ≤ K * h ^ 3 := by rw [hQ, he, hK]; exact trans15_sub F hM1 hh0.le hhT
  have hd2 : ‖Qᵀ - eᵀ‖ ≤ K * h ^ 3 := by rw [heT, hQ, trans15_transpose, hK]; exact trans15_sub Fᵀ hM2 hh0.le hhT
  have hET : Real.exp (h * M) ≤ Real.exp (T * M) := Real.exp_le_exp.mpr (by gcongr)
  have hh3 : h ^ 3 ≤ T ^ (2 - p) * h ^ (p + 1) := by
    have : h ^ 3 = h ^ (2 - p) * h ^ (p + 1) := by rw [← pow_add]; congr 1; omega
    rw [this]; gcongr
  rw [← hQ]
  have main : ∀ k ≤ N, ‖∑ i ∈ Finset.range k, Q ^ i * R h * (Q ^ i)ᵀ - transitionCov F S (k * h)‖ ≤ k * (D * h ^ (p + 1)) * Real.exp (k * (2 * (h * M))) := by
    intro k
    induction k with
    | zero => intro _; simp [transitionCov_zero]
    | succ k ih =>
      intro hk
      have ih := ih (by omega)
      obtain ⟨E, hE⟩ : ∃ E, E = ∑ i ∈ Finset.range k, Q ^ i * R h * (Q ^ i)ᵀ - transitionCov F S (k * h) := ⟨_, rfl⟩
      rw [← hE] at ih
      have hs : ∑ i ∈ Finset.range (k + 1), Q ^ i * R h * (Q ^ i)ᵀ = Q * (E + transitionCov F S (k * h)) * Qᵀ + R h := by
        rw [hE, sub_add_cancel, Finset.sum_range_succ', Finset.mul_sum, Finset.sum_mul]
        simp only [pow_zero, transpose_one, Matrix.one_mul, Matrix.mul_one]
        congr 1
        refine Finset.sum_congr rfl fun i _ => ?_
        rw [pow_succ', transpose_mul]
        noncomm_ring
      have hv : transitionCov F S ((k + 1 : ℕ) * h) = e * transitionCov F S (k * h) * eᵀ + transitionCov F S h := by
        rw [he, ← transitionCov_add]
        congr 1
        push_cast; ring
      obtain ⟨V, hV⟩ : ∃ V, V = transitionCov F S (k * h) := ⟨_, rfl⟩
      have hVB : ‖V‖ ≤ B := by rw [hV]; exact hB' _ ⟨by positivity, hkh k (by omega)⟩
      rw [hs, hv, ← hV]
      have e1 : Q * (E + V) * Qᵀ + R h - (e * V * eᵀ + transitionCov F S h) =
          Q * E * Qᵀ + ((Q - e) * V * Qᵀ + e * V * (Qᵀ - eᵀ) + (R h - transitionCov F S h)) := by noncomm_ring
      rw [e1]
      have b1 : ‖Q * E * Qᵀ‖ ≤ Real.exp (h * M) * ‖E‖ * Real.exp (h * M) :=
        (norm_mul_le _ _).trans (by gcongr; exact (norm_mul_le _ _).trans (by gcongr))
      have b2 : ‖(Q - e) * V * Qᵀ‖ ≤ K * h ^ 3 * B * Real.exp (T * M) :=
        (norm_mul_le _ _).trans (mul_le_mul ((norm_mul_le _ _).trans (by gcongr)) (hq2.trans hET) (norm_nonneg _) (by positivity))
      have b3 : ‖e * V * (Qᵀ - eᵀ)‖ ≤ Real.exp (T * M) * B * (K * h ^ 3) :=
        (norm_mul_le _ _).trans (mul_le_mul ((norm_mul_le _ _).trans (mul_le_mul (he1.trans hET) hVB (norm_nonneg _) (by positivity))) hd2 (norm_nonneg _) (by positivity))
      have b4 : ‖R h - transitionCov F S h‖ ≤ |c| * h ^ (p + 1) := (hR h hh0 hhT).trans (by gcongr; exact le_abs_self c)
      have b5 : ‖(Q - e) * V * Qᵀ + e * V * (Qᵀ - eᵀ) + (R h - transitionCov F S h)‖ ≤ D * h ^ (p + 1) := by
        refine (norm_add_le _ _).trans ((add_le_add ((norm_add_le _ _).trans (add_le_add b2 b3)) b4).trans ?_)
        have h1 : 2 * K * B * Real.exp (T * M) * h ^ 3 ≤ 2 * K * B * Real.exp (T * M) * (T ^ (2 - p) * h ^ (p + 1)) := by gcongr
        rw [hD]
        linarith only [h1]
      have hE2 : Real.exp ((k + 1 : ℕ) * (2 * (h * M))) = Real.exp (h * M) * Real.exp (h * M) * Real.exp (k * (2 * (h * M))) := by
        rw [← Real.exp_add, ← Real.exp_add]; congr 1; push_cast; ring
      have hE3 : 1 ≤ Real.exp ((k + 1 : ℕ) * (2 * (h * M))) := Real.one_le_exp (by positivity)
      refine (norm_add_le _ _).trans ((add_le_add b1 b5).trans ?_)
      have h1 : Real.exp (h * M) * ‖E‖ * Real.exp (h * M) ≤ k * (D * h ^ (p + 1)) * Real.exp ((k + 1 : ℕ) * (2 * (h * M))) := by
        rw [hE2]
        calc Real.exp (h * M) * ‖E‖ * Real.exp (h * M) ≤ Real.exp (h * M) * (k * (D * h ^ (p + 1)) * Real.exp (k * (2 * (h * M)))) * Real.exp (h * M) := by gcongr
          _ = _ := by ring
      have h2 : D * h ^ (p + 1) ≤ D * h ^ (p + 1) * Real.exp ((k + 1 : ℕ) * (2 * (h * M))) := le_mul_of_one_le_right (by positivity) hE3
      have h3 : ((k + 1 : ℕ) : ℝ) * (D * h ^ (p + 1)) * Real.exp ((k + 1 : ℕ) * (2 * (h * M))) =
          k * (D * h ^ (p + 1)) * Real.exp ((k + 1 : ℕ) * (2 * (h * M))) + D * h ^ (p + 1) * Real.exp ((k + 1 : ℕ) * (2 * (h * M))) := by
        push_cast; ring
      rw [h3]
      exact add_le_add h1 h2
  intro k hk
  refine (main k hk).trans ?_
  have hk' := hkh k hk
  calc (k : ℝ) * (D * h ^ (p + 1)) * Real.exp (k * (2 * (h * M))) = (k * h) * D * Real.exp (2 * (k * h) * M) * h ^ p := by
        rw [pow_succ, show (k : ℝ) * (2 * (h * M)) = 2 * (k * h) * M by ring]; ring
    _ ≤ T * D * Real.exp (2 * T * M) * h ^ p := by gcongr

/-- One step of the scheme of order 1.5 has the exact covariance up to the cube of the step. -/
theorem cov15_local (F : Mat d d) (S : Mat d m) {T : ℝ} (hT : 0 < T) : ∃ c : ℝ, ∀ h, 0 < h → h ≤ T →
    ‖cov15 F (S * Sᵀ) h - transitionCov F S h‖ ≤ c * h ^ (2 + 1) := by
  rcases isEmpty_or_nonempty (Fin d) with he | hne
  · refine ⟨0, fun h _ _ => ?_⟩
    rw [Subsingleton.elim (cov15 F (S * Sᵀ) h - transitionCov F S h) 0, norm_zero]
    simp
  obtain ⟨V, hV⟩ : ∃ V, V = S * Sᵀ := ⟨_, rfl⟩
  obtain ⟨M, hM⟩ : ∃ M, M = max ‖F‖ ‖Fᵀ‖ := ⟨_, rfl⟩
  have hM1 : ‖F‖ ≤ M := hM ▸ le_max_left _ _
  have hM2 : ‖Fᵀ‖ ≤ M := hM ▸ le_max_right _ _
  have hM0 : 0 ≤ M := (norm_nonneg F).trans hM1
  -- the exponential against its first order polynomial
  obtain ⟨K, hK⟩ : ∃ K, K = T * (M ^ 3 * Real.exp (T * M)) + M ^ 2 / 2 := ⟨_, rfl⟩
  have hK0 : 0 ≤ K := by rw [hK]; positivity
  have hlin : ∀ G : Mat d d, ‖G‖ ≤ M → ∀ s, 0 ≤ s → s ≤ T → ‖expm (s • G) - (1 + s • G)‖ ≤ K * s ^ 2 := fun G hG s hs hsT => by
    have h1 := trans15_sub G hG hs hsT
    rw [norm_sub_rev] at h1
    have e : expm (s • G) - (1 + s • G) = (expm (s • G) - trans15 G s) + (s ^ 2 / 2) • (G * G) := by rw [trans15]; abel
    have h2 : ‖(s ^ 2 / 2) • (G * G)‖ ≤ s ^ 2 / 2 * (M * M) := by
      rw [norm_smul, Real.norm_of_nonneg (by positivity)]
      have : ‖G * G‖ ≤ M * M := (norm_mul_le G G).trans (by gcongr)
      gcongr
    rw [e]
    refine (norm_add_le _ _).trans ((add_le_add h1 h2).trans ?_)
    have h3 : M ^ 3 * Real.exp (T * M) * s ^ 3 ≤ T * (M ^ 3 * Real.exp (T * M)) * s ^ 2 := by
      calc M ^ 3 * Real.exp (T * M) * s ^ 3 = s * (M ^ 3 * Real.exp (T * M)) * s ^ 2 := by ring
        _ ≤ _ := by gcongr
    rw [hK]
    linarith only [h3]
  have hone : ∀ G : Mat d d, ‖G‖ ≤ M → ∀ s, 0 ≤ s → s ≤ T → ‖(1 : Mat d d) + s • G‖ ≤ 1 + T * M := fun G hG s hs hsT => by
    refine (norm_add_le _ _).trans (add_le_add norm_one.le ?_)
    rw [norm_smul, Real.norm_of_nonneg hs]
    gcongr
  obtain ⟨c, hc⟩ : ∃ c, c = K * ‖V‖ * Real.exp (T * M) + (1 + T * M) * ‖V‖ * K := ⟨_, rfl⟩
  have hc0 : 0 ≤ c := by rw [hc]; positivity
  have hint : ∀ s, 0 ≤ s → s ≤ T → ‖(1 + s • F) * V * (1 + s • F)ᵀ - expm (s • F) * S * (expm (s • F) * S)ᵀ‖ ≤ c * s ^ 2 := fun s hs hsT => by
    have heT : (expm (s • F))ᵀ = expm (s • Fᵀ) := by rw [← transpose_smul]; exact (Matrix.exp_transpose _).symm
    have h1T : ((1 : Mat d d) + s • F)ᵀ = 1 + s • Fᵀ := by simp
    rw [transpose_mul, heT, h1T]
    have e : (1 + s • F) * V * (1 + s • Fᵀ) - expm (s • F) * S * (Sᵀ * expm (s • Fᵀ)) =
        -((expm (s • F) - (1 + s • F)) * V * expm (s • Fᵀ) + (1 + s • F) * V * (expm (s • Fᵀ) - (1 + s • Fᵀ))) := by
      have e1 : expm (s • F) * S * (Sᵀ * expm (s • Fᵀ)) = expm (s • F) * V * expm (s • Fᵀ) := by rw [hV]; simp only [Matrix.mul_assoc]
      rw [e1]
      noncomm_ring
    rw [e, norm_neg]
    have hE : ‖expm (s • Fᵀ)‖ ≤ Real.exp (T * M) := (exp_norm_le Fᵀ hM2 hs).trans (Real.exp_le_exp.mpr (by gcongr))
    have b1 : ‖(expm (s • F) - (1 + s • F)) * V * expm (s • Fᵀ)‖ ≤ K * s ^ 2 * ‖V‖ * Real.exp (T * M) :=
      (norm_mul_le _ _).trans (mul_le_mul ((norm_mul_le _ _).trans (by gcongr; exact hlin F hM1 s hs hsT)) hE (norm_nonneg _) (by positivity))
    have b2 : ‖(1 + s • F) * V * (expm (s • Fᵀ) - (1 + s • Fᵀ))‖ ≤ (1 + T * M) * ‖V‖ * (K * s ^ 2) :=
      (norm_mul_le _ _).trans (mul_le_mul ((norm_mul_le _ _).trans (by gcongr; exact hone F hM1 s hs hsT)) (hlin Fᵀ hM2 s hs hsT) (norm_nonneg _) (by positivity))
    refine (norm_add_le _ _).trans ((add_le_add b1 b2).trans (le_of_eq ?_))
    rw [hc]; ring
  refine ⟨d * c, fun h hh hhT => ?_⟩
  rw [← hV, mul_assoc]
  refine linfty_le_of_entries _ (by positivity) fun i j => ?_
  have hpoly : ∀ s : ℝ, ((1 + s • F) * V * (1 + s • F)ᵀ : Mat d d) i j = V i j + s * (F * V + V * Fᵀ) i j + s ^ 2 * (F * V * Fᵀ) i j := fun s => by
    have e : (1 + s • F) * V * (1 + s • F)ᵀ = V + s • (F * V + V * Fᵀ) + s ^ 2 • (F * V * Fᵀ) := by
      rw [transpose_add, transpose_one, transpose_smul, Matrix.add_mul, Matrix.mul_add, Matrix.one_mul, Matrix.mul_one, Matrix.add_mul, Matrix.mul_smul, Matrix.smul_mul, Matrix.mul_smul, Matrix.smul_mul,
        smul_smul, ← sq, smul_add]
      abel
    rw [e]
    rfl
  have hcov : cov15 F V h i j = ∫ s in (0 : ℝ)..h, ((1 + s • F) * V * (1 + s • F)ᵀ : Mat d d) i j := by
    simp only [hpoly]
    have hi : ∫ s in (0 : ℝ)..h, (V i j + s * (F * V + V * Fᵀ) i j + s ^ 2 * (F * V * Fᵀ) i j) =
        h * V i j + h ^ 2 / 2 * (F * V + V * Fᵀ) i j + h ^ 3 / 3 * (F * V * Fᵀ) i j := by
      rw [intervalIntegral.integral_add (Continuous.intervalIntegrable (by fun_prop) _ _) (Continuous.intervalIntegrable (by fun_prop) _ _),
        intervalIntegral.integral_add (Continuous.intervalIntegrable (by fun_prop) _ _) (Continuous.intervalIntegrable (by fun_prop) _ _),
        intervalIntegral.integral_const, intervalIntegral.integral_mul_const, intervalIntegral.integral_mul_const, integral_id, integral_pow]
      simp only [smul_eq_mul]
      norm_num
    rw [hi]
    rfl
  have hc1 : Continuous fun s : ℝ => ((1 + s • F) * V * (1 + s • F)ᵀ : Mat d d) i j := by simp only [hpoly]; fun_prop
  have hc2 := transitionCov_integrand_continuous F S i j
  rw [Matrix.sub_apply, hcov, transitionCov, ← intervalIntegral.integral_sub (hc1.intervalIntegrable _ _) (hc2.intervalIntegrable _ _), ← Real.norm_eq_abs]
  have hfin := intervalIntegral.norm_integral_le_of_norm_le_const (a := 0) (b := h) (C := c * h ^ 2)
    (f := fun s => ((1 + s • F) * V * (1 + s • F)ᵀ : Mat d d) i j - (NormedSpace.exp (s • F) * S * (NormedSpace.exp (s • F) * S)ᵀ) i j) fun s hs => by
      rw [Set.uIoc_of_le hh.le] at hs
      rw [Real.norm_eq_abs]
      refine (abs_entry_le ((1 + s • F) * V * (1 + s • F)ᵀ - expm (s • F) * S * (expm (s • F) * S)ᵀ) i j).trans ?_
      refine (hint s hs.1.le (hs.2.trans hhT)).trans ?_
      have := hs.1.le
      have := hs.2
      gcongr
  refine hfin.trans (le_of_eq ?_)
  rw [sub_zero, abs_of_pos hh]; ring

end Norm

/-- The law of a linear recursion with independent centred normal inputs. -/
theorem isNormal_steps {Ω : Type*} [MeasurableSpace Ω] {P : Measure Ω} {n N : ℕ} {ρ : Type*} [Fintype ρ] [DecidableEq ρ] {u : ℕ → Ω → ρ → ℝ}
    {D : Matrix ρ ρ ℝ} (hu : IsNormal P (fun ω (q : Fin N × ρ) => u q.1 ω q.2) 0 (fun p q => if p.1 = q.1 then D p.2 q.2 else 0))
    (A : Mat n n) (G : Matrix (Fin n) ρ ℝ) (x0 : Vec n) (x : ℕ → Ω → Vec n) (h0 : ∀ ω, x 0 ω = x0)
    (hx : ∀ k < N, ∀ ω, x (k + 1) ω = A *ᵥ x k ω + G *ᵥ u k ω) (k : ℕ) (hk : k ≤ N) :
    IsNormal P (x k) (A ^ k *ᵥ x0) (∑ i ∈ Finset.range k, A ^ i * (G * D * Gᵀ) * (A ^ i)ᵀ) := by
  obtain ⟨B, hB⟩ : ∃ B : ℕ → Matrix (Fin n) ρ ℝ, ∀ i, B i = if i < k then A ^ (k - 1 - i) * G else 0 := ⟨_, fun _ => rfl⟩
  have hsum : ∀ {β : Type} [AddCommMonoid β] (f : ℕ → β), (∀ i, ¬ i < k → f i = 0) → ∑ i : Fin N, f i = ∑ i ∈ Finset.range k, f i := fun {β} _ f hf => by
    rw [← Finset.sum_range (n := N) (f := f)]
    refine (Finset.sum_subset (Finset.range_mono hk) fun i _ hi => hf i (by simpa using hi)).symm
  have h := hu.affine (A ^ k *ᵥ x0) (Matrix.of fun a (p : Fin N × ρ) => B p.1 a p.2)
  rw [mulVec_zero, add_zero] at h
  refine (congrArg₂ (fun X C => IsNormal P X _ C) ?_ ?_).mp h
  · funext ω
    rw [linear_recursion A x0 _ (fun k => x k ω) N (h0 ω) (fun k hk => hx k hk ω) k hk]
    congr 1
    funext a
    rw [Finset.sum_apply, mulVec, dotProduct, Fintype.sum_prod_type]
    simp only [Matrix.of_apply]
    rw [hsum (fun i => ∑ r, B i a r * u i ω r) (fun i hi => by simp [hB, hi])]
    refine Finset.sum_congr rfl fun i hi => ?_
    rw [mulVec_mulVec, hB, if_pos (Finset.mem_range.mp hi)]
    rfl
  · obtain ⟨D', hD'⟩ : ∃ D' : Matrix (Fin N × ρ) (Fin N × ρ) ℝ, D' = fun p q => if p.1 = q.1 then D p.2 q.2 else 0 := ⟨_, rfl⟩
    have hD : ∀ p q, D' p q = if p.1 = q.1 then D p.2 q.2 else 0 := fun p q => by rw [hD']
    rw [← hD']
    have hbl : (Matrix.of fun a (p : Fin N × ρ) => B p.1 a p.2) * D' *
        (Matrix.of fun a (p : Fin N × ρ) => B p.1 a p.2)ᵀ = ∑ i : Fin N, B i * D * (B i)ᵀ := by
      ext a b
      rw [Matrix.sum_apply, mul_apply, Fintype.sum_prod_type]
      refine Finset.sum_congr rfl fun i _ => ?_
      rw [mul_apply]
      refine Finset.sum_congr rfl fun r _ => ?_
      simp only [transpose_apply, Matrix.of_apply]
      congr 1
      rw [mul_apply, mul_apply, Fintype.sum_prod_type, Finset.sum_eq_single i]
      · simp [hD]
      · intro j _ hj; simp [hD, hj]
      · simp
    rw [hbl, hsum (fun i => B i * D * (B i)ᵀ) (fun i hi => by simp [hB, hi]), ← Finset.sum_range_reflect]
    refine Finset.sum_congr rfl fun i hi => ?_
    have hi' := Finset.mem_range.mp hi
    rw [hB, if_pos (by omega), show k - 1 - (k - 1 - i) = i by omega, transpose_mul]
    simp only [Matrix.mul_assoc]

/-- Independent standard normal inputs. -/
theorem hypo_draws_law {Ω : Type*} [MeasurableSpace Ω] {P : Measure Ω} {R : Ω → Rng} (hR : IdealNormals P R) (key : Key) (N n : ℕ) :
    IsNormal P (fun ω (q : Fin N × Fin n) => (R ω).normalVec ((key.child N q.1).child 1 0) n q.2) 0
      (fun p q => if p.1 = q.1 then (1 : Mat n n) p.2 q.2 else 0) := by
  have h := isNormal_std (P := P) (Z := fun (p : Fin N × Fin n) ω => (R ω).normalVec ((key.child N p.1).child 1 0) n p.2)
    (fun p => by simpa using (normalVec_std hR ((key.child N p.1).child 1 0) n).eval p.2) (hypo_draws hR key N n)
  refine (congrArg (fun C => IsNormal P _ 0 C) ?_).mp h
  ext ⟨i, a⟩ ⟨j, b⟩
  by_cases hij : i = j
  · subst hij
    by_cases hab : a = b
    · subst hab; simp
    · simp [Matrix.one_apply, hab]
  · simp [Matrix.one_apply, hij]

theorem driftGenerator_linear (F : Mat d d) (S : Mat d m) (x : Vec d) : driftGenerator (fun x => F *ᵥ x) S x = (F * F) *ᵥ x := by
  obtain ⟨A, hA⟩ : ∃ A : Vec d →L[ℝ] Vec d, ∀ x, A x = F *ᵥ x := ⟨LinearMap.toContinuousLinearMap F.mulVecLin, fun _ => rfl⟩
  have e : (fun x : Vec d => F *ᵥ x) = A := funext fun x => (hA x).symm
  have hf1 : fderiv ℝ (A : Vec d → Vec d) = fun _ => A := funext fun x => A.fderiv
  have hf2 : fderiv ℝ (fderiv ℝ (A : Vec d → Vec d)) = fun _ => 0 := by rw [hf1]; exact funext fun x => fderiv_const_apply _
  rw [e, driftGenerator_eq, hf2, hf1]
  simp [hA, mulVec_mulVec]

theorem trans15_mulVec (F : Mat d d) (S : Mat d m) (h : ℝ) (x : Vec d) :
    x + h • (F *ᵥ x) + (h ^ 2 / 2) • driftGenerator (fun x => F *ᵥ x) S x = trans15 F h *ᵥ x := by
  rw [driftGenerator_linear, trans15, add_mulVec, add_mulVec, one_mulVec, smul_mulVec, smul_mulVec]

/-- The loading of increments and integrals in a step with a linear drift. -/
noncomputable def load15 (F : Mat d d) (S : Mat d m) : Matrix (Fin d) (Fin 2 × Fin m) ℝ := Matrix.of fun a p => ![S a p.2, (F * S) a p.2] p.1

theorem load15_mulVec (F : Mat d d) (S : Mat d m) (dW dZ : Vec m) : load15 F S *ᵥ coeffVec dW dZ = S *ᵥ dW + F *ᵥ (S *ᵥ dZ) := by
  funext a
  rw [mulVec_mulVec]
  simp [load15, mulVec, dotProduct, coeffVec, Fintype.sum_prod_type, Fin.sum_univ_two]

theorem load15_cov (F : Mat d d) (S : Mat d m) (h : ℝ) : load15 F S * bmCovDim m h * (load15 F S)ᵀ = cov15 F (S * Sᵀ) h := by
  have e : cov15 F (S * Sᵀ) h = h • (S * Sᵀ) + (h ^ 2 / 2) • (F * S * Sᵀ + S * (F * S)ᵀ) + (h ^ 3 / 3) • (F * S * (F * S)ᵀ) := by
    rw [cov15, transpose_mul]
    simp only [Matrix.mul_assoc]
  rw [e]
  obtain ⟨W, hW⟩ : ∃ W, W = F * S := ⟨_, rfl⟩
  have hl0 : ∀ a l, load15 F S a (0, l) = S a l := fun _ _ => rfl
  have hl1 : ∀ a l, load15 F S a (1, l) = W a l := fun _ _ => by rw [hW]; rfl
  have hmul : ∀ a s l, (load15 F S * bmCovDim m h) a (s, l) = S a l * bmCov h 0 s + W a l * bmCov h 1 s := by
    intro a s l
    rw [mul_apply, Fintype.sum_prod_type, Fin.sum_univ_two]
    simp [bmCovDim, hl0, hl1]
  rw [← hW]
  ext a b
  have hr : (h • (S * Sᵀ) + (h ^ 2 / 2) • (W * Sᵀ + S * Wᵀ) + (h ^ 3 / 3) • (W * Wᵀ) : Mat d d) a b =
      h * (∑ l, S a l * S b l) + h ^ 2 / 2 * (∑ l, W a l * S b l + ∑ l, S a l * W b l) + h ^ 3 / 3 * ∑ l, W a l * W b l := rfl
  rw [hr, mul_apply, Fintype.sum_prod_type, Fin.sum_univ_two]
  simp only [transpose_apply, hl0, hl1, hmul]
  rw [← Finset.sum_add_distrib, ← Finset.sum_add_distrib, Finset.mul_sum, Finset.mul_sum, Finset.mul_sum, ← Finset.sum_add_distrib, ← Finset.sum_add_distrib]
  refine Finset.sum_congr rfl fun j _ => ?_
  simp [bmCov]
  ring

/-- The law of the states of the scheme with a diagonal diffusion. -/
theorem diag15_linear_law {la : LinAlg} (hla : la.Correct) {Ω : Type*} [MeasurableSpace Ω] {P : Measure Ω} {R : Ω → Rng} (hR : IdealNormals P R)
    (key : Key) (init : Vec d) (F : Mat d d) {S : Mat d d} (hS : ∀ j k, j ≠ k → ∑ l, S j l * S k l = 0) {h : ℝ} (hh : 0 < h) (N : ℕ) :
    ∃ (ts : Ω → List ℝ) (xs : Ω → List (Vec d)) (y : ℕ → Ω → Vec d),
      (∀ ω, Diag15.solver la (R ω) key init (fun x => F *ᵥ x) (fun _ => S) h N = .ok (ts ω, xs ω)) ∧ (∀ ω, ∀ n ≤ N, (xs ω)[n]? = some (y n ω)) ∧
      ∀ n ≤ N, IsNormal P (y n) (trans15 F h ^ n *ᵥ init) (∑ i ∈ Finset.range n, trans15 F h ^ i * cov15 F (S * Sᵀ) h * (trans15 F h ^ i)ᵀ) := by
  have hb : ContDiff ℝ 2 fun x : Vec d => F *ᵥ x := (LinearMap.toContinuousLinearMap F.mulVecLin).contDiff
  choose ts xs y h1 h2 h3 h4 using fun ω => diag15_states la (R ω) key init hb hS h N
  refine ⟨ts, xs, fun n ω => y ω n, h1, h2, fun n hn => ?_⟩
  rw [← load15_cov]
  refine isNormal_steps (C60_noise hla hR key d hh N) (u := fun k ω => coeffVec (Diag15.noise la (R ω) d h (key.child N k)).2
        (Diag15.noise la (R ω) d h (key.child N k)).1) (trans15 F h) (load15 F S) init (fun n ω => y ω n) h3 (fun k hk ω => ?_) n hn
  rw [h4 ω k hk, load15_mulVec, ← trans15_mulVec F S]
  have hf : fderiv ℝ (fun x : Vec d => F *ᵥ x) (y ω k) = LinearMap.toContinuousLinearMap F.mulVecLin := (LinearMap.toContinuousLinearMap F.mulVecLin).fderiv
  rw [itoTaylorStep, hf]
  simp only [LinearMap.coe_toContinuousLinearMap', mulVecLin_apply]
  abel

/-- The part of a linear drift whose derivative enters the noise of the hypoelliptic scheme. -/
def topRow (F : Mat (d + 1) (d + 1)) : Mat (d + 1) (d + 1) := Matrix.of fun i j => if i = 0 then F 0 j else 0

theorem hypo_linear_noiseCov (F : Mat (d + 1) (d + 1)) {S : Mat (d + 1) m} (hS : ∀ l, S 0 l = 0) (h : ℝ) (x : Vec (d + 1)) :
    Hypo15.noiseCov (fun x => F *ᵥ x) (fun _ => S) h x = cov15 (topRow F) (S * Sᵀ) h := by
  rw [← hypoLoad_cov, ← load15_cov]
  have hpu : ∀ j, Hypo15.partialua (fun x => F *ᵥ x) x j = F 0 j.succ := fun j => by
    obtain ⟨A, hA⟩ : ∃ A : Vec (d + 1) →L[ℝ] ℝ, ∀ z, A z = (F *ᵥ z) 0 :=
      ⟨(ContinuousLinearMap.proj (R := ℝ) (φ := fun _ : Fin (d + 1) => ℝ) 0).comp (LinearMap.toContinuousLinearMap F.mulVecLin), fun _ => rfl⟩
    have e : (fun z : Vec (d + 1) => (F *ᵥ z) 0) = A := funext fun z => (hA z).symm
    rw [Hypo15.partialua, pd, e, A.fderiv, hA]
    simp
  have hl : hypoLoad (fun x => F *ᵥ x) (fun _ => S) x = load15 (topRow F) S := by
    funext r ⟨s, l⟩
    refine Fin.cases ?_ (fun i => ?_) r
    · have h1 : (topRow F * S) 0 l = ∑ j : Fin d, F 0 j.succ * S j.succ l := by
        rw [mul_apply, Fin.sum_univ_succ, hS]
        simp [topRow]
      fin_cases s
      · simp [hypoLoad, load15, hS]
      · simp [hypoLoad, load15, h1, vecMul, dotProduct, hpu, Hypo15.Gamma]
    · have h1 : (topRow F * S) i.succ l = 0 := by
        rw [mul_apply]
        simp [topRow]
      fin_cases s
      · simp [hypoLoad, load15, Hypo15.Gamma]
      · simp [hypoLoad, load15, h1]
  rw [hl]

/-- The law of the states of the hypoelliptic scheme. -/
theorem hypo15_linear_law {la : LinAlg} (hla : la.Correct) {Ω : Type*} [MeasurableSpace Ω] {P : Measure Ω} {R : Ω → Rng} (hR : IdealNormals P R)
    (key : Key) (init : Vec (d + 1)) (F : Mat (d + 1) (d + 1)) {S : Mat (d + 1) m} (hS : ∀ l, S 0 l = 0) {h : ℝ}
    (hC : (cov15 (topRow F) (S * Sᵀ) h).PosDef) (N : ℕ) :
    ∃ y : ℕ → Ω → Vec (d + 1), (∀ ω, ∀ n ≤ N, (Hypo15.solver la (R ω) key init (fun x => F *ᵥ x) (fun _ => S) h N).2[n]? = some (y n ω)) ∧
      ∀ n ≤ N, IsNormal P (y n) (trans15 F h ^ n *ᵥ init) (∑ i ∈ Finset.range n, trans15 F h ^ i * cov15 (topRow F) (S * Sᵀ) h * (trans15 F h ^ i)ᵀ) := by
  have hb : ContDiff ℝ 2 fun x : Vec (d + 1) => F *ᵥ x := (LinearMap.toContinuousLinearMap F.mulVecLin).contDiff
  choose y h1 h2 h3 using fun ω => hypo_states la (R ω) key init hb S h N
  refine ⟨fun n ω => y ω n, h1, fun n hn => ?_⟩
  have hc := hla.chol_mul _ hC
  have h4 := isNormal_steps (hypo_draws_law hR key N (d + 1)) (u := fun k ω => (R ω).normalVec ((key.child N k).child 1 0) (d + 1)) (trans15 F h)
    (la.cholesky (cov15 (topRow F) (S * Sᵀ) h)) init (fun n ω => y ω n) h2 (fun k hk ω => by
      rw [h3 ω k hk, hypoMean, trans15_mulVec, hypo_linear_noiseCov F hS]) n hn
  rw [Matrix.mul_one, hc] at h4
  exact h4

section Norm

open scoped Matrix.Norms.Operator

theorem cov15_change (F G V : Mat d d) {T : ℝ} : ∃ c : ℝ, ∀ h, 0 < h → h ≤ T → ‖cov15 G V h - cov15 F V h‖ ≤ c * h ^ (1 + 1) := by
  refine ⟨‖G * V + V * Gᵀ - (F * V + V * Fᵀ)‖ / 2 + T * ‖G * V * Gᵀ - F * V * Fᵀ‖ / 3, fun h hh hhT => ?_⟩
  have e : cov15 G V h - cov15 F V h = (h ^ 2 / 2) • (G * V + V * Gᵀ - (F * V + V * Fᵀ)) + (h ^ 3 / 3) • (G * V * Gᵀ - F * V * Fᵀ) := by
    rw [cov15, cov15, smul_sub, smul_sub]; abel
  rw [e]
  refine (norm_add_le _ _).trans ?_
  rw [norm_smul, norm_smul, Real.norm_of_nonneg (by positivity), Real.norm_of_nonneg (by positivity)]
  have h1 : h ^ 3 / 3 * ‖G * V * Gᵀ - F * V * Fᵀ‖ ≤ T * h ^ 2 / 3 * ‖G * V * Gᵀ - F * V * Fᵀ‖ := by
    have : h ^ 3 ≤ T * h ^ 2 := by rw [pow_succ']; gcongr
    gcongr
  norm_num
  linarith only [h1]

/-- One step of the hypoelliptic scheme has the exact covariance up to the square of the step. -/
theorem hypo_local (F G : Mat d d) (S : Mat d m) {T : ℝ} (hT : 0 < T) : ∃ c : ℝ, ∀ h, 0 < h → h ≤ T →
    ‖cov15 G (S * Sᵀ) h - transitionCov F S h‖ ≤ c * h ^ (1 + 1) := by
  obtain ⟨c1, h1⟩ := cov15_change (T := T) F G (S * Sᵀ)
  obtain ⟨c2, h2⟩ := cov15_local F S hT
  refine ⟨c1 + T * |c2|, fun h hh hhT => ?_⟩
  have e : cov15 G (S * Sᵀ) h - transitionCov F S h = (cov15 G (S * Sᵀ) h - cov15 F (S * Sᵀ) h) + (cov15 F (S * Sᵀ) h - transitionCov F S h) := by abel
  rw [e]
  refine (norm_add_le _ _).trans ((add_le_add (h1 h hh hhT) (h2 h hh hhT)).trans ?_)
  have h3 : c2 * h ^ (2 + 1) ≤ T * |c2| * h ^ (1 + 1) := by
    calc c2 * h ^ (2 + 1) ≤ |c2| * h ^ (2 + 1) := by gcongr; exact le_abs_self c2
      _ = h * |c2| * h ^ (1 + 1) := by ring
      _ ≤ _ := by gcongr
  linarith only [h3]

/-- The moments of states with the laws above, against those of the solution. -/
theorem moments_of_laws {Ω : Type*} [MeasurableSpace Ω] {P : Measure Ω} {B : Fin m → ℝ≥0 → Ω → ℝ} (hB : IsBrownianVec B P) (F : Mat d d) (S : Mat d m)
    (x0 : Vec d) {T : ℝ} (hT : 0 < T) {X : Ω → ℝ → Vec d}
    (hX : ∀ᵐ ω ∂P, SolvesAdditive (fun x _ => F *ᵥ x) S (fun t j => B j t.toNNReal ω) x0 T (X ω)) {p : ℕ} (hp : p ≤ 2) {c : ℝ} (R : ℝ → Mat d d)
    (hR : ∀ h, 0 < h → h ≤ T → ‖R h - transitionCov F S h‖ ≤ c * h ^ (p + 1)) :
    ∃ C : ℝ, ∀ {Ω' : Type} [MeasurableSpace Ω'] {P' : Measure Ω'} (N : ℕ), 0 < N → ∀ n ≤ N, ∀ {y : Ω' → Vec d},
      IsNormal P' y (trans15 F (T / N) ^ n *ᵥ x0) (∑ i ∈ Finset.range n, trans15 F (T / N) ^ i * R (T / N) * (trans15 F (T / N) ^ i)ᵀ) →
        (∀ j, |∫ ω, y ω j ∂P' - ∫ ω, X ω (n * (T / N)) j ∂P| ≤ C * (T / N) ^ 2) ∧
        ∀ i j, |cov[fun ω => y ω i, fun ω => y ω j; P'] - cov[fun ω => X ω (n * (T / N)) i, fun ω => X ω (n * (T / N)) j; P]| ≤ C * (T / N) ^ p := by
  obtain ⟨C1, hC1, h1⟩ := mean15 F hT
  obtain ⟨C2, hC2, h2⟩ := cov_order F S hT hp R hR
  refine ⟨max (C1 * ‖x0‖) C2, fun {Ω'} _ {P'} N hN n hn {y} hy => ?_⟩
  have hN' : (0 : ℝ) < N := by exact_mod_cast hN
  have hnT : (n : ℝ) * (T / N) ∈ Icc 0 T := ⟨by positivity, by
    have : (n : ℝ) ≤ N := by exact_mod_cast hn
    calc (n : ℝ) * (T / N) ≤ N * (T / N) := by gcongr
      _ = T := by field_simp⟩
  have hlaw := linear_solution_law hB F S x0 hX hnT
  refine ⟨fun j => ?_, fun i j => ?_⟩
  · rw [hy.mean, hlaw.mean]
    have e : (trans15 F (T / N) ^ n *ᵥ x0) j - (expm ((n * (T / N)) • F) *ᵥ x0) j = ((trans15 F (T / N) ^ n - expm ((n * (T / N)) • F)) *ᵥ x0) j := by
      rw [sub_mulVec]; rfl
    rw [e, ← Real.norm_eq_abs]
    refine (norm_le_pi_norm _ j).trans ((linfty_opNorm_mulVec _ x0).trans ?_)
    calc ‖trans15 F (T / N) ^ n - expm ((n * (T / N)) • F)‖ * ‖x0‖ ≤ C1 * (T / N) ^ 2 * ‖x0‖ := by gcongr; exact h1 N hN n hn
      _ = C1 * ‖x0‖ * (T / N) ^ 2 := by ring
      _ ≤ _ := by gcongr; exact le_max_left _ _
  · rw [hy.cov, hlaw.cov, ← Matrix.sub_apply]
    refine (abs_entry_le _ i j).trans ((h2 N hN n hn).trans ?_)
    gcongr
    exact le_max_right _ _

/-- After 100 steps of the test on the harmonic oscillator. -/
theorem harmonic_mean100 (j : Fin 2) : |(trans15 (Ivp.Harmonic.M 1 1) (1 / 100) ^ 100 *ᵥ Ivp.Harmonic.x0) j - Ivp.Harmonic.mean 1 1 1 j| ≤ 7 / 1000 := by
  obtain ⟨F, hF⟩ : ∃ F, F = Ivp.Harmonic.M 1 1 := ⟨_, rfl⟩
  have hFn : ‖F‖ ≤ 2 := by
    have := linfty_le_of_entries F (c := 1) zero_le_one fun i j => by
      rw [hF]
      fin_cases i <;> fin_cases j <;> simp [Ivp.Harmonic.M]
    norm_num at this
    exact this
  have e1 : Ivp.Harmonic.mean 1 1 1 = expm ((1 / 100 : ℝ) • F) ^ 100 *ᵥ Ivp.Harmonic.x0 := by
    rw [expm_pow, Ivp.Harmonic.mean, hF]
    norm_num
  rw [← hF, e1]
  have e : (trans15 F (1 / 100) ^ 100 *ᵥ Ivp.Harmonic.x0) j - (expm ((1 / 100 : ℝ) • F) ^ 100 *ᵥ Ivp.Harmonic.x0) j =
      ((trans15 F (1 / 100) ^ 100 - expm ((1 / 100 : ℝ) • F) ^ 100) *ᵥ Ivp.Harmonic.x0) j := by
    rw [sub_mulVec]; rfl
  rw [e, ← Real.norm_eq_abs]
  have hx0 : ‖Ivp.Harmonic.x0‖ ≤ 1 := by
    rw [pi_norm_le_iff_of_nonneg zero_le_one]
    intro i
    simp [Ivp.Harmonic.x0]
  have h1 := pow_sub_pow_le (trans15 F (1 / 100)) (expm ((1 / 100 : ℝ) • F)) (x := 1 / 100 * 2) (by norm_num) (trans15_norm_le F hFn (by norm_num))
    (exp_norm_le F hFn (by norm_num)) 100
  have h2 := trans15_sub F (h := 1 / 100) (T := 1 / 100) hFn (by norm_num) le_rfl
  have hE2 : Real.exp ((100 : ℕ) * (1 / 100 * 2)) ≤ 7.5 := by
    rw [show ((100 : ℕ) : ℝ) * (1 / 100 * 2) = 1 + 1 by norm_num, Real.exp_add]
    have := Real.exp_one_lt_d9
    have := Real.exp_pos 1
    nlinarith
  have hE1 : Real.exp (1 / 100 * 2) ≤ 1.1 := by
    have := Real.abs_exp_sub_one_le (x := 1 / 100 * 2) (by rw [abs_of_pos] <;> norm_num)
    rw [abs_of_pos (by norm_num : (0 : ℝ) < 1 / 100 * 2)] at this
    have := (abs_le.mp this).2
    linarith
  have h3 : ‖trans15 F (1 / 100) - expm ((1 / 100 : ℝ) • F)‖ ≤ 8 * 1.1 / 1000000 := by
    refine h2.trans ?_
    calc (2 : ℝ) ^ 3 * Real.exp (1 / 100 * 2) * (1 / 100) ^ 3 ≤ 2 ^ 3 * 1.1 * (1 / 100) ^ 3 := by gcongr
      _ = _ := by norm_num
  have h4 : ‖trans15 F (1 / 100) ^ 100 - expm ((1 / 100 : ℝ) • F) ^ 100‖ ≤ 7 / 1000 := by
    refine h1.trans ?_
    calc ((100 : ℕ) : ℝ) * ‖trans15 F (1 / 100) - expm ((1 / 100 : ℝ) • F)‖ * Real.exp ((100 : ℕ) * (1 / 100 * 2)) ≤ (100 : ℕ) * (8 * 1.1 / 1000000) * 7.5 := by gcongr
      _ ≤ _ := by norm_num
  refine (norm_le_pi_norm _ j).trans ((linfty_opNorm_mulVec _ _).trans ?_)
  calc _ ≤ 7 / 1000 * (1 : ℝ) := by gcongr
    _ = _ := by norm_num

end Norm

theorem topRow_posDef (F : Mat (d + 1) (d + 1)) {S : Mat (d + 1) m} (hS : ∀ l, S 0 l = 0)
    (hG : (S.submatrix Fin.succ id * (S.submatrix Fin.succ id)ᵀ : Mat d d).PosDef) (hu : ∃ j : Fin d, F 0 j.succ ≠ 0) {h : ℝ} (hh : 0 < h) :
    (cov15 (topRow F) (S * Sᵀ) h).PosDef := by
  rw [← hypo_linear_noiseCov F hS h 0]
  refine C63_posDef _ _ _ hh hG ?_
  obtain ⟨j, hj⟩ := hu
  refine ⟨j, ?_⟩
  obtain ⟨A, hA⟩ : ∃ A : Vec (d + 1) →L[ℝ] ℝ, ∀ z, A z = (F *ᵥ z) 0 :=
    ⟨(ContinuousLinearMap.proj (R := ℝ) (φ := fun _ : Fin (d + 1) => ℝ) 0).comp (LinearMap.toContinuousLinearMap F.mulVecLin), fun _ => rfl⟩
  have e : (fun z : Vec (d + 1) => (F *ᵥ z) 0) = A := funext fun z => (hA z).symm
  rw [e, A.fderiv, hA]
  simpa using hj

theorem harmonic_cov15 (h : ℝ) : cov15 (Ivp.Harmonic.M 1 1) (Ivp.Harmonic.Csquare 2 * (Ivp.Harmonic.Csquare 2)ᵀ) h =
    !![4 * h ^ 3 / 3, 2 * h ^ 2 - 4 * h ^ 3 / 3; 2 * h ^ 2 - 4 * h ^ 3 / 3, 4 * h - 4 * h ^ 2 + 4 * h ^ 3 / 3] := by
  have hC : Ivp.Harmonic.Csquare 2 * (Ivp.Harmonic.Csquare 2)ᵀ = !![0, 0; 0, 4] := by
    ext i j
    fin_cases i <;> fin_cases j <;> simp [Ivp.Harmonic.Csquare, mul_apply, Fin.sum_univ_two]
    norm_num
  have hT : (!![0, 1; -1, -1] : Mat 2 2)ᵀ = !![0, -1; 1, -1] := by
    ext i j
    fin_cases i <;> fin_cases j <;> rfl
  rw [hC, cov15, Ivp.Harmonic.M, hT]
  ext i j
  fin_cases i <;> fin_cases j <;> simp [mul_apply, Fin.sum_univ_two] <;> ring

theorem harmonic_cov15_top (h : ℝ) : cov15 !![0, 1; 0, 0] (Ivp.Harmonic.Csquare 2 * (Ivp.Harmonic.Csquare 2)ᵀ) h =
    !![4 * h ^ 3 / 3, 2 * h ^ 2; 2 * h ^ 2, 4 * h] := by
  have hC : Ivp.Harmonic.Csquare 2 * (Ivp.Harmonic.Csquare 2)ᵀ = !![0, 0; 0, 4] := by
    ext i j
    fin_cases i <;> fin_cases j <;> simp [Ivp.Harmonic.Csquare, mul_apply, Fin.sum_univ_two]
    norm_num
  have hT : (!![0, 1; 0, 0] : Mat 2 2)ᵀ = !![0, 0; 1, 0] := by
    ext i j
    fin_cases i <;> fin_cases j <;> rfl
  rw [hC, cov15, hT]
  ext i j
  fin_cases i <;> fin_cases j <;> simp [mul_apply, Fin.sum_univ_two] <;> ring

end Verif
