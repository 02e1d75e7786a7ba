import Verif.Model.Notebooks
import Verif.Lemmas.SdeSolver
import Mathlib.Algebra.BigOperators.Fin
import Mathlib.MeasureTheory.Integral.Bochner.Basic

/-!
# Least squares with one regressor
-/

namespace Verif.Notebooks

open Finset MeasureTheory

variable {n : ℕ}

/-- The average of a family. -/
noncomputable def mean (x : Fin n → ℝ) : ℝ := (∑ i, x i) / n

theorem avg_ofFn (x : Fin n → ℝ) : avg (List.ofFn x) = mean x := by
  simp [avg, mean, List.sum_ofFn]

theorem zip_map_ofFn (x y : Fin n → ℝ) (g : ℝ × ℝ → ℝ) :
    ((List.ofFn x).zip (List.ofFn y)).map g = List.ofFn fun i => g (x i, y i) := by
  apply List.ext_getElem <;> simp

theorem slope_ofFn (x y : Fin n → ℝ) :
    slope (List.ofFn x) (List.ofFn y) = (∑ i, (x i - mean x) * (y i - mean y)) / ∑ i, (x i - mean x) ^ 2 := by
  rw [slope, zip_map_ofFn, List.sum_ofFn, List.map_ofFn, List.sum_ofFn, avg_ofFn, avg_ofFn]
  rfl

theorem sum_centred (x : Fin n → ℝ) : ∑ i, (x i - mean x) = 0 := by
  rcases Nat.eq_zero_or_pos n with rfl | h
  · simp
  · have : (n : ℝ) ≠ 0 := by positivity
    simp only [sum_sub_distrib, sum_const, card_univ, Fintype.card_fin, nsmul_eq_mul, mean]
    field_simp
    ring

/-- The centred sum of products with one factor left as it is. -/
theorem sum_centred_mul (x y : Fin n → ℝ) : ∑ i, (x i - mean x) * (y i - mean y) = ∑ i, (x i - mean x) * y i := by
  have : ∑ i, (x i - mean x) * (y i - mean y) = ∑ i, (x i - mean x) * y i - mean y * ∑ i, (x i - mean x) := by
    rw [mul_sum, ← sum_sub_distrib]
    exact sum_congr rfl fun i _ => by ring
  rw [this, sum_centred]; ring

theorem sum_centred_sq_pos {x : Fin n → ℝ} {i j : Fin n} (h : x i ≠ x j) : 0 < ∑ i, (x i - mean x) ^ 2 := by
  rcases (sum_nonneg fun i _ => sq_nonneg (x i - mean x)).lt_or_eq with h' | h'
  · exact h'
  · have h0 := (sum_eq_zero_iff_of_nonneg fun i _ => sq_nonneg (x i - mean x)).1 h'.symm
    have hi := pow_eq_zero_iff (two_ne_zero) |>.1 (h0 i (mem_univ _))
    have hj := pow_eq_zero_iff (two_ne_zero) |>.1 (h0 j (mem_univ _))
    exact absurd (by linarith) h

/-- The normal equation of the slope, constant regressors included. -/
theorem slope_mul (x y : Fin n → ℝ) :
    slope (List.ofFn x) (List.ofFn y) * ∑ i, (x i - mean x) ^ 2 = ∑ i, (x i - mean x) * (y i - mean y) := by
  rw [slope_ofFn]
  by_cases h : ∑ i, (x i - mean x) ^ 2 = 0
  · have h0 := (sum_eq_zero_iff_of_nonneg fun i _ => sq_nonneg (x i - mean x)).1 h
    rw [h, mul_zero, eq_comm]
    exact sum_eq_zero fun i hi => by rw [pow_eq_zero_iff (two_ne_zero) |>.1 (h0 i hi), zero_mul]
  · exact div_mul_cancel₀ _ h

theorem slope_affine (x : Fin n → ℝ) {i j : Fin n} (h : x i ≠ x j) (a b : ℝ) (ε : Fin n → ℝ) :
    slope (List.ofFn x) (List.ofFn fun i => a + b * x i + ε i) = b + slope (List.ofFn x) (List.ofFn ε) := by
  have hS := (sum_centred_sq_pos h).ne'
  rw [slope_ofFn, slope_ofFn, sum_centred_mul, sum_centred_mul, div_eq_iff hS, add_mul, div_mul_cancel₀ _ hS]
  have h1 : ∑ i, (x i - mean x) ^ 2 = ∑ i, (x i - mean x) * x i := by
    rw [← sum_centred_mul]; exact sum_congr rfl fun i _ => by ring
  rw [h1, mul_sum, ← sum_add_distrib]
  have h2 : ∑ i, (x i - mean x) * (a + b * x i + ε i) = a * (∑ i, (x i - mean x)) + ∑ i, (b * ((x i - mean x) * x i) + (x i - mean x) * ε i) := by
    rw [mul_sum, ← sum_add_distrib]
    exact sum_congr rfl fun i _ => by ring
  rw [h2, sum_centred]; ring

theorem mean_affine (hn : 0 < n) (x ε : Fin n → ℝ) (a b : ℝ) : mean (fun i => a + b * x i + ε i) = a + b * mean x + mean ε := by
  have : (n : ℝ) ≠ 0 := by positivity
  simp only [mean, sum_add_distrib, sum_const, card_univ, Fintype.card_fin, nsmul_eq_mul, ← mul_sum]
  field_simp

theorem intercept_ofFn (x y : Fin n → ℝ) :
    intercept (List.ofFn x) (List.ofFn y) = mean y - slope (List.ofFn x) (List.ofFn y) * mean x := by
  rw [intercept, avg_ofFn, avg_ofFn]

theorem slope_zero (x : Fin n → ℝ) : slope (List.ofFn x) (List.ofFn fun _ : Fin n => (0 : ℝ)) = 0 := by
  rw [slope_ofFn, sum_centred_mul]; simp

/-- The residuals of a fit. -/
theorem residual_eq (hn : 0 < n) (x y : Fin n → ℝ) (a b : ℝ) :
    ∑ i, (a + b * x i - y i) ^ 2 =
      ∑ i, (intercept (List.ofFn x) (List.ofFn y) + slope (List.ofFn x) (List.ofFn y) * x i - y i) ^ 2 +
        ∑ i, (a - intercept (List.ofFn x) (List.ofFn y) + (b - slope (List.ofFn x) (List.ofFn y)) * x i) ^ 2 := by
  set s := slope (List.ofFn x) (List.ofFn y) with hs
  have hi := intercept_ofFn x y
  rw [← hs] at hi
  set c := intercept (List.ofFn x) (List.ofFn y)
  have e1 : ∑ i, (c + s * x i - y i) = 0 := by
    have h1 : ∑ i, (c + s * x i - y i) = s * (∑ i, (x i - mean x)) - ∑ i, (y i - mean y) := by
      rw [mul_sum, ← sum_sub_distrib]
      exact sum_congr rfl fun i _ => by rw [hi]; ring
    rw [h1, sum_centred, sum_centred]; ring
  have e2 : ∑ i, (c + s * x i - y i) * (x i - mean x) = 0 := by
    have h1 : ∑ i, (c + s * x i - y i) * (x i - mean x) = s * (∑ i, (x i - mean x) ^ 2) - ∑ i, (x i - mean x) * (y i - mean y) := by
      rw [mul_sum, ← sum_sub_distrib]
      exact sum_congr rfl fun i _ => by rw [hi]; ring
    rw [h1, hs, slope_mul, sub_self]
  have e3 : ∑ i, (c + s * x i - y i) * (a - c + (b - s) * x i) = 0 := by
    have h1 : ∑ i, (c + s * x i - y i) * (a - c + (b - s) * x i) =
        (a - c + (b - s) * mean x) * (∑ i, (c + s * x i - y i)) + (b - s) * ∑ i, (c + s * x i - y i) * (x i - mean x) := by
      rw [mul_sum, mul_sum, ← sum_add_distrib]
      exact sum_congr rfl fun i _ => by ring
    rw [h1, e1, e2]; ring
  have h4 : ∑ i, (a + b * x i - y i) ^ 2 = ∑ i, (c + s * x i - y i) ^ 2 + ∑ i, (a - c + (b - s) * x i) ^ 2 +
      2 * ∑ i, (c + s * x i - y i) * (a - c + (b - s) * x i) := by
    rw [mul_sum, ← sum_add_distrib, ← sum_add_distrib]
    exact sum_congr rfl fun i _ => by ring
  rw [h4, e3]; ring

/-- The residual sum of squares as a quadratic form of the noise. -/
theorem residual_noise (hn : 0 < n) {x : Fin n → ℝ} {i j : Fin n} (h : x i ≠ x j) (a b : ℝ) (ε : Fin n → ℝ) :
    ∑ k, (intercept (List.ofFn x) (List.ofFn fun i => a + b * x i + ε i) +
        slope (List.ofFn x) (List.ofFn fun i => a + b * x i + ε i) * x k - (a + b * x k + ε k)) ^ 2 =
      ∑ k, ε k ^ 2 - (∑ k, ε k) ^ 2 / n - (∑ k, (x k - mean x) * ε k) ^ 2 / ∑ k, (x k - mean x) ^ 2 := by
  have hS := (sum_centred_sq_pos h).ne'
  have hn' : (n : ℝ) ≠ 0 := by positivity
  have h1 := residual_eq hn x (fun i => a + b * x i + ε i) (a + mean ε) b
  have h2 : ∑ k, (a + mean ε + b * x k - (a + b * x k + ε k)) ^ 2 = ∑ k, ε k ^ 2 - (∑ k, ε k) ^ 2 / n := by
    have : ∑ k, (a + mean ε + b * x k - (a + b * x k + ε k)) ^ 2 = ∑ k, ε k ^ 2 - 2 * mean ε * (∑ k, ε k) + n * mean ε ^ 2 := by
      have e : (n : ℝ) * mean ε ^ 2 = ∑ _k : Fin n, mean ε ^ 2 := by simp
      rw [e, mul_sum, ← sum_sub_distrib, ← sum_add_distrib]
      exact sum_congr rfl fun k _ => by ring
    rw [this, mean]
    field_simp
    ring
  set s := slope (List.ofFn x) (List.ofFn ε) with hs
  have hsl := slope_affine x h a b ε
  have hin : intercept (List.ofFn x) (List.ofFn fun i => a + b * x i + ε i) = a + mean ε - s * mean x := by
    rw [intercept_ofFn, hsl, mean_affine hn]; ring
  have h3 : ∑ k, (a + mean ε - intercept (List.ofFn x) (List.ofFn fun i => a + b * x i + ε i) +
      (b - slope (List.ofFn x) (List.ofFn fun i => a + b * x i + ε i)) * x k) ^ 2 =
        (∑ k, (x k - mean x) * ε k) ^ 2 / ∑ k, (x k - mean x) ^ 2 := by
    have e : ∀ k, (a + mean ε - intercept (List.ofFn x) (List.ofFn fun i => a + b * x i + ε i) +
      (b - slope (List.ofFn x) (List.ofFn fun i => a + b * x i + ε i)) * x k) ^ 2 = s ^ 2 * (x k - mean x) ^ 2 := fun k => by
      rw [hin, hsl]; ring
    rw [sum_congr rfl fun k _ => e k, ← mul_sum, hs, slope_ofFn, sum_centred_mul]
    field_simp
  rw [h2, h3] at h1
  linarith

/-- The mean square of a combination of uncorrelated noises of the same variance. -/
theorem integral_comb_sq {Ω : Type*} [MeasurableSpace Ω] {Q : Measure Ω} {ε : Fin n → Ω → ℝ} {v : ℝ}
    (hint : ∀ i j, Integrable (fun ω => ε i ω * ε j ω) Q) (hcov : ∀ i j, ∫ ω, ε i ω * ε j ω ∂Q = if i = j then v else 0) (a : Fin n → ℝ) :
    Integrable (fun ω => (∑ i, a i * ε i ω) ^ 2) Q ∧ ∫ ω, (∑ i, a i * ε i ω) ^ 2 ∂Q = v * ∑ i, a i ^ 2 := by
  have e : (fun ω => (∑ i, a i * ε i ω) ^ 2) = fun ω => ∑ i, ∑ j, (a i * a j) * (ε i ω * ε j ω) := by
    funext ω
    rw [sq, sum_mul_sum]
    exact sum_congr rfl fun i _ => sum_congr rfl fun j _ => by ring
  have hi : ∀ i, Integrable (fun ω => ∑ j, (a i * a j) * (ε i ω * ε j ω)) Q := fun i =>
    integrable_finsetSum _ fun j _ => (hint i j).const_mul _
  rw [e]
  refine ⟨integrable_finsetSum _ fun i _ => hi i, ?_⟩
  rw [integral_finsetSum _ fun i _ => hi i, mul_sum]
  refine sum_congr rfl fun i _ => ?_
  rw [integral_finsetSum _ fun j _ => (hint i j).const_mul _]
  simp only [integral_const_mul, hcov, mul_ite, mul_zero, sum_ite_eq, mem_univ, if_true]
  ring

end Verif.Notebooks
