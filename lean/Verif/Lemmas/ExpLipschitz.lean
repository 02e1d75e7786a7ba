import Verif.Lemmas.Trapezoid
import Verif.Lemmas.Gaussian
import Mathlib.MeasureTheory.Integral.Gamma
import Mathlib.MeasureTheory.Measure.Lebesgue.Integral
import Mathlib.Analysis.Convex.Jensen
import Mathlib.Analysis.Convex.SpecificFunctions.Basic
import Mathlib.Analysis.Real.Pi.Bounds
import Mathlib.Analysis.SpecialFunctions.Integrals.Basic

/-! Helper lemmas: the exponential moment of the total variation of a random parabola. -/

namespace Verif

open Real MeasureTheory ProbabilityTheory Set
open scoped NNReal

/-- The first absolute moment of a centred normal variable. -/
theorem integral_abs_gaussian (v : ℝ≥0) : ∫ x, |x| ∂gaussianReal 0 v = √(2 * v / π) := by
  rcases eq_or_ne v 0 with rfl | hv
  · simp
  have hv0 : (0 : ℝ) < v := lt_of_le_of_ne v.2 (fun h => hv (NNReal.coe_eq_zero.mp h.symm))
  rw [integral_gaussianReal_eq_integral_smul hv]
  simp only [gaussianPDFReal, smul_eq_mul, sub_zero]
  have h1 : ∀ x : ℝ, (√(2 * π * v))⁻¹ * rexp (-x ^ 2 / (2 * v)) * |x| =
      (√(2 * π * v))⁻¹ * (fun y : ℝ => y * rexp (-y ^ 2 / (2 * v))) |x| := fun x => by
    simp only [sq_abs]; ring
  simp only [h1]
  rw [integral_const_mul, integral_comp_abs (f := fun y : ℝ => y * rexp (-y ^ 2 / (2 * v)))]
  have h2 : ∫ x in Ioi (0 : ℝ), x * rexp (-x ^ 2 / (2 * v)) = v := by
    have := integral_rpow_mul_exp_neg_mul_rpow (p := 2) (q := 1) (b := 1 / (2 * v)) two_pos (by norm_num) (by positivity)
    rw [show ((1 : ℝ) + 1) / 2 = 1 by norm_num, Real.Gamma_one, show -((1 : ℝ) + 1) / 2 = -1 by norm_num, rpow_neg_one] at this
    have e : ∀ x : ℝ, x * rexp (-x ^ 2 / (2 * v)) = x ^ (1 : ℝ) * rexp (-(1 / (2 * v)) * x ^ (2 : ℝ)) := fun x => by
      rw [rpow_one, rpow_two]; congr 2; ring
    simp only [e]
    rw [this]
    field_simp
  rw [h2, show (2 : ℝ) * v / π = (2 * v) ^ 2 / (2 * π * v) by field_simp, sqrt_div (by positivity), sqrt_sq (by positivity)]
  field_simp

theorem exp_abs_le (x : ℝ) : rexp |x| ≤ |x| + (rexp x + rexp (-x)) - 1 := by
  have h := Real.add_one_le_exp (-|x|)
  rcases abs_cases x with ⟨h1, -⟩ | ⟨h1, -⟩ <;> rw [h1] at h ⊢
  · linarith
  · rw [neg_neg] at h; linarith

/-- The exponential moment of the absolute value of a centred normal variable. -/
theorem integral_exp_abs_gaussian {Ω : Type*} [MeasurableSpace Ω] {P : Measure Ω} {X : Ω → ℝ} {v : ℝ≥0}
    (h : HasLaw X (gaussianReal 0 v) P) :
    Integrable (fun ω => rexp |X ω|) P ∧ ∫ ω, rexp |X ω| ∂P ≤ √(2 * v / π) + 2 * rexp (v / 2) - 1 := by
  have i1 : Integrable (fun x : ℝ => |x|) (gaussianReal 0 v) := (IsGaussian.integrable_id (μ := gaussianReal 0 v)).abs
  have i2 : Integrable (fun x : ℝ => rexp x) (gaussianReal 0 v) := by simpa using integrable_exp_mul_gaussianReal (μ := 0) (v := v) 1
  have i3 : Integrable (fun x : ℝ => rexp (-x)) (gaussianReal 0 v) := by
    simpa using integrable_exp_mul_gaussianReal (μ := 0) (v := v) (-1)
  have i4 : Integrable (fun x : ℝ => |x| + (rexp x + rexp (-x)) - 1) (gaussianReal 0 v) :=
    (i1.add (i2.add i3)).sub (integrable_const 1)
  have hm : Measurable fun x : ℝ => rexp |x| := (Real.continuous_exp.comp continuous_abs).measurable
  have i5 : Integrable (fun x : ℝ => rexp |x|) (gaussianReal 0 v) :=
    i4.mono' hm.aestronglyMeasurable (Filter.Eventually.of_forall fun x => by
      rw [Real.norm_eq_abs, abs_of_pos (Real.exp_pos _)]; exact exp_abs_le x)
  have m1 : ∫ x, rexp x ∂gaussianReal 0 v = rexp (v / 2) := by
    have := congrFun (mgf_fun_id_gaussianReal (μ := 0) (v := v)) 1
    simpa [mgf] using this
  have m2 : ∫ x, rexp (-x) ∂gaussianReal 0 v = rexp (v / 2) := by
    have := congrFun (mgf_fun_id_gaussianReal (μ := 0) (v := v)) (-1)
    simpa [mgf] using this
  constructor
  · rw [← h.map_eq] at i5
    exact i5.comp_aemeasurable h.aemeasurable
  · have e : ∫ ω, rexp |X ω| ∂P = ∫ x, rexp |x| ∂gaussianReal 0 v := by
      rw [← h.map_eq, integral_map h.aemeasurable hm.aestronglyMeasurable]
    rw [e]
    refine (integral_mono i5 i4 exp_abs_le).trans ?_
    rw [integral_sub (f := fun x : ℝ => |x| + (rexp x + rexp (-x))) (i1.add (i2.add i3)) (integrable_const 1),
      integral_add (f := fun x : ℝ => |x|) (g := fun x : ℝ => rexp x + rexp (-x)) i1 (i2.add i3), integral_add i2 i3,
      integral_abs_gaussian, m1, m2]
    simp only [integral_const, probReal_univ, smul_eq_mul, mul_one]
    linarith

/-- The weights of the trapezoid rule with `n + 1` intervals, on the unit interval. -/
noncomputable def trapW (n : ℕ) (g : ℝ → ℝ) : ℝ :=
  ∑ k ∈ Finset.range (n + 1), 1 / (2 * ((n : ℝ) + 1)) * (g (k / ((n : ℝ) + 1)) + g ((k + 1) / ((n : ℝ) + 1)))

theorem trapW_const (n : ℕ) (c : ℝ) : trapW n (fun _ => c) = c := by
  simp only [trapW, Finset.sum_const, Finset.card_range, nsmul_eq_mul]
  push_cast
  field_simp
  ring

theorem trapW_add (n : ℕ) (f g : ℝ → ℝ) : trapW n (fun u => f u + g u) = trapW n f + trapW n g := by
  simp only [trapW, ← Finset.sum_add_distrib]
  exact Finset.sum_congr rfl fun k _ => by ring

theorem trapW_mul (n : ℕ) (c : ℝ) (f : ℝ → ℝ) : trapW n (fun u => c * f u) = c * trapW n f := by
  simp only [trapW, Finset.mul_sum]
  exact Finset.sum_congr rfl fun k _ => by ring

theorem trapW_mono (n : ℕ) {f g : ℝ → ℝ} (h : ∀ u ∈ Icc (0 : ℝ) 1, f u ≤ g u) : trapW n f ≤ trapW n g := by
  refine Finset.sum_le_sum fun k hk => ?_
  have hk' : (k : ℝ) + 1 ≤ n + 1 := by exact_mod_cast Finset.mem_range.mp hk
  refine mul_le_mul_of_nonneg_left (add_le_add (h _ ⟨by positivity, ?_⟩) (h _ ⟨by positivity, ?_⟩)) (by positivity) <;>
  · rw [div_le_one (by positivity)]; linarith

theorem trapW_lin (n : ℕ) : trapW n (fun u => 1 - 2 * u) = 0 := by
  have hn : (n : ℝ) + 1 ≠ 0 := by positivity
  have key : ∀ m : ℕ, ∑ k ∈ Finset.range m, (((n : ℝ) + 1 - 2 * k) + ((n : ℝ) + 1 - 2 * (k + 1))) = 2 * m * ((n : ℝ) + 1 - m) := fun m => by
    induction m with
    | zero => simp
    | succ m ih => rw [Finset.sum_range_succ, ih]; push_cast; ring
  have h2 : trapW n (fun u => 1 - 2 * u) = 1 / (2 * ((n : ℝ) + 1) ^ 2) *
      ∑ k ∈ Finset.range (n + 1), (((n : ℝ) + 1 - 2 * k) + ((n : ℝ) + 1 - 2 * (k + 1))) := by
    rw [trapW, Finset.mul_sum]
    exact Finset.sum_congr rfl fun k _ => by field_simp
  rw [h2, key]
  push_cast
  ring

/-- The rule on squares: the error is `1/(6 (n+1)²)`. -/
theorem trapW_sq (n : ℕ) : trapW n (fun u => (1 - 2 * u) ^ 2) = 1 / 3 + 2 / (3 * ((n : ℝ) + 1) ^ 2) := by
  have hn : (n : ℝ) + 1 ≠ 0 := by positivity
  have key : ∀ m : ℕ, ∑ k ∈ Finset.range m, (((n : ℝ) + 1 - 2 * k) ^ 2 + ((n : ℝ) + 1 - 2 * (k + 1)) ^ 2) =
      2 * m * ((n : ℝ) + 1) ^ 2 - 4 * ((n : ℝ) + 1) * m ^ 2 + (8 * m ^ 3 + 4 * m) / 3 := fun m => by
    induction m with
    | zero => simp
    | succ m ih => rw [Finset.sum_range_succ, ih]; push_cast; ring
  have h2 : trapW n (fun u => (1 - 2 * u) ^ 2) = 1 / (2 * ((n : ℝ) + 1) ^ 3) *
      ∑ k ∈ Finset.range (n + 1), (((n : ℝ) + 1 - 2 * k) ^ 2 + ((n : ℝ) + 1 - 2 * (k + 1)) ^ 2) := by
    rw [trapW, Finset.mul_sum]
    exact Finset.sum_congr rfl fun k _ => by field_simp
  rw [h2, key]
  push_cast
  field_simp
  ring

theorem trapW_exp (n : ℕ) (f : ℝ → ℝ) : rexp (trapW n f) ≤ trapW n (fun u => rexp (f u)) := by
  have hn : (0 : ℝ) < (n : ℝ) + 1 := by positivity
  have h := convexOn_exp.map_sum_le (t := Finset.range (n + 1) ×ˢ (Finset.univ : Finset (Fin 2)))
    (w := fun _ => 1 / (2 * ((n : ℝ) + 1))) (p := fun q => f ((q.1 + (q.2 : ℕ)) / ((n : ℝ) + 1))) (fun _ _ => by positivity)
    (by simp; field_simp) (fun _ _ => mem_univ _)
  simp only [Finset.sum_product, Fin.sum_univ_two, smul_eq_mul, Fin.val_zero, Fin.val_one, Nat.cast_zero, add_zero, Nat.cast_one,
    ← mul_add] at h
  exact h

theorem trapW_integral {Ω : Type*} [MeasurableSpace Ω] {P : Measure Ω} (n : ℕ) {f : ℝ → Ω → ℝ} (hf : ∀ u, Integrable (f u) P) :
    Integrable (fun ω => trapW n fun u => f u ω) P ∧ ∫ ω, trapW n (fun u => f u ω) ∂P = trapW n fun u => ∫ ω, f u ω ∂P := by
  have hi : ∀ k ∈ Finset.range (n + 1), Integrable (fun ω => 1 / (2 * ((n : ℝ) + 1)) *
      (f (k / ((n : ℝ) + 1)) ω + f ((k + 1) / ((n : ℝ) + 1)) ω)) P := fun k _ => ((hf _).add (hf _)).const_mul _
  refine ⟨integrable_finsetSum _ hi, ?_⟩
  simp only [trapW]
  rw [integral_finsetSum _ hi]
  refine Finset.sum_congr rfl fun k _ => ?_
  rw [integral_const_mul, integral_add (hf _) (hf _)]

/-- Jensen for the square root. -/
theorem trapW_sqrt (n : ℕ) {f : ℝ → ℝ} (hf : ∀ u, 0 ≤ f u) : trapW n (fun u => √(f u)) ≤ √(trapW n f) := by
  refine Real.le_sqrt_of_sq_le ?_
  set s := trapW n (fun u => √(f u)) with hs
  have h : ∀ u ∈ Icc (0 : ℝ) 1, 2 * s * √(f u) + -(s ^ 2) ≤ f u := fun u _ => by
    have := Real.sq_sqrt (hf u)
    nlinarith [sq_nonneg (√(f u) - s)]
  have h2 := trapW_mono n h
  rw [trapW_add, trapW_mul, trapW_const, ← hs] at h2
  nlinarith

/-- The trapezoid rule overestimates the integral of the modulus of an affine function. -/
theorem integral_abs_affine_le (p q x y : ℝ) (hxy : x ≤ y) :
    ∫ t in x..y, |p + q * t| ≤ (y - x) / 2 * (|p + q * x| + |p + q * y|) := by
  rcases hxy.eq_or_lt with rfl | hlt
  · simp
  have hd : 0 < y - x := sub_pos.mpr hlt
  have h : ∀ t ∈ Icc x y, |p + q * t| ≤ |p + q * x| * ((y - t) / (y - x)) + |p + q * y| * ((t - x) / (y - x)) := fun t ht => by
    have e : p + q * t = (p + q * x) * ((y - t) / (y - x)) + (p + q * y) * ((t - x) / (y - x)) := by field_simp; ring
    rw [e]
    refine (abs_add_le _ _).trans (le_of_eq ?_)
    rw [abs_mul, abs_mul, abs_of_nonneg (div_nonneg (sub_nonneg.mpr ht.2) hd.le), abs_of_nonneg (div_nonneg (sub_nonneg.mpr ht.1) hd.le)]
  refine (intervalIntegral.integral_mono_on hxy (Continuous.intervalIntegrable (by fun_prop) _ _)
    (Continuous.intervalIntegrable (by fun_prop) _ _) h).trans (le_of_eq ?_)
  rw [intervalIntegral.integral_add (Continuous.intervalIntegrable (by fun_prop) _ _) (Continuous.intervalIntegrable (by fun_prop) _ _),
    intervalIntegral.integral_const_mul, intervalIntegral.integral_const_mul, intervalIntegral.integral_div, intervalIntegral.integral_div]
  have i1 : ∫ t in x..y, (y - t) = (y - x) ^ 2 / 2 := by
    rw [intervalIntegral.integral_comp_sub_left (fun t => t), integral_id]; ring
  have i2 : ∫ t in x..y, (t - x) = (y - x) ^ 2 / 2 := by
    rw [intervalIntegral.integral_comp_sub_right (fun t => t), integral_id]; ring
  rw [i1, i2]
  field_simp

theorem integral_list_sum_le {Ω : Type*} [MeasurableSpace Ω] {P : Measure Ω} {K : Type*} (g : K → Ω → ℝ) (hg : ∀ k, Integrable (g k) P) (l : List K) :
    Integrable (fun ω => (l.map fun k => g k ω).sum) P ∧ ∫ ω, (l.map fun k => g k ω).sum ∂P = (l.map fun k => ∫ ω, g k ω ∂P).sum := by
  induction l with
  | nil => simp
  | cons k l ih =>
    simp only [List.map_cons, List.sum_cons]
    exact ⟨(hg k).add ih.1, by rw [integral_add (hg k) ih.1, ih.2]⟩

end Verif
