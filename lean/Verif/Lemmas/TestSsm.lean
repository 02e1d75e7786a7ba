import Mathlib.Analysis.Complex.ExponentialBounds
import Mathlib.Algebra.BigOperators.Intervals
import Mathlib.Algebra.Field.GeomSum
import Verif.Lemmas.HeunLinear
import Verif.Model.TestSsm

/-! The numbers behind the assertions of `tests/test_ssm_parabola_ode.py`. -/

namespace Verif

open Matrix

/-- The growth of a step on `x' = x`. -/
noncomputable def grow (δ : ℝ) : ℝ := 1 + δ + δ ^ 2 / 2

theorem grow_pow {δ : ℝ} (hδ : 0 < δ) (hδ1 : δ ≤ 1 / 100) {N : ℕ} (hN : (N : ℝ) * δ = 1) :
    Real.exp 1 * (1 - δ ^ 2) ≤ grow δ ^ N ∧ grow δ ^ N ≤ Real.exp 1 := by
  have hup : grow δ ≤ Real.exp δ := by
    have := Real.quadratic_le_exp_of_nonneg hδ.le
    exact this
  have hlo : Real.exp δ * (1 - δ ^ 3) ≤ grow δ := by
    have h1 := Real.exp_bound' hδ.le (by linarith) (n := 3) (by norm_num)
    have h2 : Real.exp δ ≤ grow δ + δ ^ 3 := by
      refine h1.trans ?_
      simp only [Finset.sum_range_succ, Finset.sum_range_zero, Nat.factorial, grow]
      norm_num
      nlinarith [pow_pos hδ 3]
    have h3 : 1 ≤ Real.exp δ := Real.one_le_exp hδ.le
    nlinarith [pow_pos hδ 3]
  have hE : Real.exp 1 = Real.exp δ ^ N := by rw [← Real.exp_nat_mul, hN]
  have hd3 : δ ^ 3 ≤ 1 := by
    have : δ ≤ 1 := by linarith
    exact pow_le_one₀ hδ.le this
  constructor
  · have hb := one_add_mul_le_pow (a := -δ ^ 3) (by linarith) N
    have hb' : 1 - δ ^ 2 ≤ (1 - δ ^ 3) ^ N := by
      have e : (1 : ℝ) + N * (-δ ^ 3) = 1 - δ ^ 2 := by
        have : (N : ℝ) * δ ^ 3 = δ ^ 2 := by
          calc (N : ℝ) * δ ^ 3 = (N * δ) * δ ^ 2 := by ring
            _ = _ := by rw [hN, one_mul]
        linarith
      rw [e] at hb
      simpa [sub_eq_add_neg] using hb
    rw [hE]
    calc Real.exp δ ^ N * (1 - δ ^ 2) ≤ Real.exp δ ^ N * (1 - δ ^ 3) ^ N := by gcongr
      _ = (Real.exp δ * (1 - δ ^ 3)) ^ N := by rw [mul_pow]
      _ ≤ _ := pow_le_pow_left₀ (mul_nonneg (Real.exp_pos _).le (by linarith)) hlo N
  · rw [hE]
    exact pow_le_pow_left₀ (by unfold grow; positivity) hup N

theorem grow_sum {δ : ℝ} (hδ : 0 < δ) (N : ℕ) :
    (∑ i ∈ Finset.range N, grow δ ^ i * grow δ ^ i) * (2 * δ + 2 * δ ^ 2 + δ ^ 3 + δ ^ 4 / 4) = (grow δ ^ N) ^ 2 - 1 := by
  have h := geom_sum_mul (grow δ ^ 2) N
  have e : grow δ ^ 2 - 1 = 2 * δ + 2 * δ ^ 2 + δ ^ 3 + δ ^ 4 / 4 := by rw [grow]; ring
  rw [e] at h
  rw [← pow_mul, mul_comm N 2, pow_mul, ← h]
  congr 1
  refine Finset.sum_congr rfl fun i _ => ?_
  rw [← pow_mul, ← pow_add]
  congr 1
  ring

/-- The variance after time one when an interval adds the variance `w`. -/
theorem grow_var {δ : ℝ} (hδ : 0 < δ) (hδ1 : δ ≤ 1 / 100) {N : ℕ} (hN : (N : ℝ) * δ = 1) {w a b : ℝ} (ha : 0 ≤ a)
    (h1 : a * (2 * δ + 2 * δ ^ 2 + δ ^ 3 + δ ^ 4 / 4) ≤ w) (h2 : w ≤ b * (2 * δ + 2 * δ ^ 2 + δ ^ 3 + δ ^ 4 / 4)) :
    a * (999 / 1000) * (Real.exp 2 - 1) ≤ (∑ i ∈ Finset.range N, grow δ ^ i * grow δ ^ i) * w ∧
      (∑ i ∈ Finset.range N, grow δ ^ i * grow δ ^ i) * w ≤ b * (Real.exp 2 - 1) := by
  obtain ⟨D, hD⟩ : ∃ D, D = 2 * δ + 2 * δ ^ 2 + δ ^ 3 + δ ^ 4 / 4 := ⟨_, rfl⟩
  have hs := grow_sum hδ N
  rw [← hD] at h1 h2 hs
  have hD0 : 0 < D := by rw [hD]; positivity
  obtain ⟨g1, g2⟩ := grow_pow hδ hδ1 hN
  have he2 : Real.exp 2 = Real.exp 1 ^ 2 := by rw [← Real.exp_nat_mul]; norm_num
  have hG0 : 0 ≤ grow δ ^ N := by unfold grow; positivity
  have hS0 : 0 ≤ ∑ i ∈ Finset.range N, grow δ ^ i * grow δ ^ i := Finset.sum_nonneg fun i _ => mul_self_nonneg _
  obtain ⟨s, hsd⟩ : ∃ s, s = ∑ i ∈ Finset.range N, grow δ ^ i * grow δ ^ i := ⟨_, rfl⟩
  rw [← hsd] at hs hS0 ⊢
  have hd2 : δ ^ 2 ≤ 1 / 10000 := by nlinarith
  have he1 := Real.exp_one_gt_d9
  have hup : s * D ≤ Real.exp 2 - 1 := by
    rw [hs, he2]
    have := pow_le_pow_left₀ hG0 g2 2
    linarith
  have hlo : 999 / 1000 * (Real.exp 2 - 1) ≤ s * D := by
    rw [hs, he2]
    have h3 : Real.exp 1 * (9999 / 10000) ≤ grow δ ^ N := le_trans (by
      have : (9999 : ℝ) / 10000 ≤ 1 - δ ^ 2 := by linarith
      gcongr) g1
    have h4 := pow_le_pow_left₀ (by positivity) h3 2
    have h5 : (7 : ℝ) ≤ Real.exp 1 ^ 2 := by nlinarith
    nlinarith
  constructor
  · calc a * (999 / 1000) * (Real.exp 2 - 1) = a * (999 / 1000 * (Real.exp 2 - 1)) := by ring
      _ ≤ a * (s * D) := by gcongr
      _ = s * (a * D) := by ring
      _ ≤ _ := by gcongr
  · have hb : 0 ≤ b := by
      by_contra hb
      have : b * D < 0 := mul_neg_of_neg_of_pos (not_le.mp hb) hD0
      have h5 : 0 ≤ a * D := by positivity
      linarith
    calc s * w ≤ s * (b * D) := by gcongr
      _ = b * (s * D) := by ring
      _ ≤ _ := by gcongr

theorem sum_range_id' (N : ℕ) : ∑ i ∈ Finset.range N, (i : ℝ) = N * (N - 1) / 2 := by
  induction N with
  | zero => simp
  | succ N ih => rw [Finset.sum_range_succ, ih]; push_cast; ring

theorem sum_range_sq' (N : ℕ) : ∑ i ∈ Finset.range N, (i : ℝ) ^ 2 = (N - 1) * N * (2 * N - 1) / 6 := by
  induction N with
  | zero => simp
  | succ N ih => rw [Finset.sum_range_succ, ih]; push_cast; ring

variable {d : ℕ}

theorem trans15_one (δ : ℝ) : trans15 (1 : Mat d d) δ = grow δ • 1 := by
  rw [trans15, grow, Matrix.mul_one, add_smul, add_smul, one_smul]

theorem trans15_one_pow (δ : ℝ) (i : ℕ) : trans15 (1 : Mat d d) δ ^ i = grow δ ^ i • 1 := by
  rw [trans15_one, smul_pow, one_pow]

theorem trans15_one_cov (δ : ℝ) (w : ℝ) (N : ℕ) :
    ∑ i ∈ Finset.range N, trans15 (1 : Mat d d) δ ^ i * (w • 1) * (trans15 (1 : Mat d d) δ ^ i)ᵀ =
      ((∑ i ∈ Finset.range N, grow δ ^ i * grow δ ^ i) * w) • 1 := by
  simp only [trans15_one_pow, transpose_smul, transpose_one, Matrix.smul_mul, Matrix.mul_smul, Matrix.one_mul, Matrix.mul_one, smul_smul]
  rw [← Finset.sum_smul, Finset.sum_mul]
  congr 1
  exact Finset.sum_congr rfl fun i _ => by ring

theorem parCov_one (c δ : ℝ) : parCov (1 * 1ᵀ : Mat d d) c δ = (δ + c ^ 2 * δ ^ 3 / 12) • 1 := by
  rw [parCov, transpose_one, Matrix.mul_one, add_smul]

theorem heunCov_one (δ : ℝ) : heunCov (1 : Mat d d) (1 * 1ᵀ) δ = (δ + δ ^ 2 + δ ^ 3) • 1 := by
  rw [heunCov]
  simp only [transpose_one, Matrix.mul_one, Matrix.one_mul, transpose_add, transpose_smul, Matrix.add_mul, Matrix.mul_add, Matrix.smul_mul, Matrix.mul_smul,
    smul_add, smul_smul, ← add_smul]
  rw [← one_smul ℝ (1 : Mat d d)]
  simp only [smul_smul, ← add_smul]
  congr 1
  ring

theorem ibm_trans (δ : ℝ) (i : ℕ) : trans15 (!![0, 1; 0, 0] : Mat 2 2) δ ^ i = !![1, i * δ; 0, 1] := by
  have h1 : trans15 (!![0, 1; 0, 0] : Mat 2 2) δ = !![1, δ; 0, 1] := by
    rw [trans15]
    ext a b
    fin_cases a <;> fin_cases b <;> simp [mul_apply, Fin.sum_univ_two]
  induction i with
  | zero => ext a b; fin_cases a <;> fin_cases b <;> simp
  | succ i ih =>
    rw [pow_succ, ih, h1]
    ext a b
    fin_cases a <;> fin_cases b <;> simp [mul_apply, Fin.sum_univ_two]
    ring

theorem ibm_parCov (c δ : ℝ) : parCov (!![0, 0; 1, 0] * (!![0, 0; 1, 0] : Mat 2 2)ᵀ) c δ =
    !![c ^ 2 * δ ^ 3 / 12, 0; 0, δ + c ^ 2 * δ ^ 3 / 12] := by
  have h : (!![0, 0; 1, 0] * (!![0, 0; 1, 0] : Mat 2 2)ᵀ : Mat 2 2) = !![0, 0; 0, 1] := by
    ext a b
    rw [mul_apply]
    fin_cases a <;> fin_cases b <;> simp [Fin.sum_univ_two]
  rw [parCov, h]
  ext a b
  fin_cases a <;> fin_cases b <;> simp

theorem ibm_term (q r s : ℝ) : !![1, s; 0, 1] * !![q, 0; 0, r] * (!![1, s; 0, 1] : Mat 2 2)ᵀ = !![q + s ^ 2 * r, s * r; s * r, r] := by
  ext a b
  fin_cases a <;> fin_cases b <;> simp [mul_apply, Fin.sum_univ_two]
  · ring
  · ring

/-- The covariance of Algorithm 4 at time one on integrated Brownian motion. -/
theorem ibm_cov {δ : ℝ} {N : ℕ} (hN : (N : ℝ) * δ = 1) :
    ∑ i ∈ Finset.range N, trans15 (!![0, 1; 0, 0] : Mat 2 2) δ ^ i * parCov (!![0, 0; 1, 0] * (!![0, 0; 1, 0] : Mat 2 2)ᵀ) 1 δ *
      (trans15 (!![0, 1; 0, 0] : Mat 2 2) δ ^ i)ᵀ =
    !![δ ^ 2 / 12 + (1 + δ ^ 2 / 12) * ((1 - δ) * (2 - δ) / 6), (1 + δ ^ 2 / 12) * ((1 - δ) / 2);
      (1 + δ ^ 2 / 12) * ((1 - δ) / 2), 1 + δ ^ 2 / 12] := by
  have hδ0 : δ ≠ 0 := by rintro rfl; simp at hN
  have hNe : (N : ℝ) = 1 / δ := by field_simp; exact hN
  simp only [ibm_trans, ibm_parCov, ibm_term]
  have e : ∀ a b : Fin 2, (∑ i ∈ Finset.range N, !![1 ^ 2 * δ ^ 3 / 12 + (i * δ) ^ 2 * (δ + 1 ^ 2 * δ ^ 3 / 12), i * δ * (δ + 1 ^ 2 * δ ^ 3 / 12);
      i * δ * (δ + 1 ^ 2 * δ ^ 3 / 12), δ + 1 ^ 2 * δ ^ 3 / 12] : Mat 2 2) a b = ∑ i ∈ Finset.range N,
        (!![1 ^ 2 * δ ^ 3 / 12 + (i * δ) ^ 2 * (δ + 1 ^ 2 * δ ^ 3 / 12), i * δ * (δ + 1 ^ 2 * δ ^ 3 / 12);
      i * δ * (δ + 1 ^ 2 * δ ^ 3 / 12), δ + 1 ^ 2 * δ ^ 3 / 12] : Mat 2 2) a b := fun a b => Matrix.sum_apply a b _ _
  have s0 : ∑ i ∈ Finset.range N, (i * δ * (δ + 1 ^ 2 * δ ^ 3 / 12)) = (1 + δ ^ 2 / 12) * ((1 - δ) / 2) := by
    rw [← Finset.sum_mul, ← Finset.sum_mul, sum_range_id', hNe]
    field_simp
  have s1 : ∑ i ∈ Finset.range N, (1 ^ 2 * δ ^ 3 / 12 + (i * δ) ^ 2 * (δ + 1 ^ 2 * δ ^ 3 / 12)) =
      δ ^ 2 / 12 + (1 + δ ^ 2 / 12) * ((1 - δ) * (2 - δ) / 6) := by
    simp only [mul_pow]
    rw [Finset.sum_add_distrib, ← Finset.sum_mul, ← Finset.sum_mul, sum_range_sq', Finset.sum_const, Finset.card_range, nsmul_eq_mul, hNe]
    field_simp
  have s2 : ∑ _i ∈ Finset.range N, (δ + 1 ^ 2 * δ ^ 3 / 12) = 1 + δ ^ 2 / 12 := by
    rw [Finset.sum_const, Finset.card_range, nsmul_eq_mul, hNe]
    field_simp
  ext a b
  rw [e]
  fin_cases a <;> fin_cases b
  · exact s1
  · exact s0
  · exact s0
  · exact s2

end Verif
