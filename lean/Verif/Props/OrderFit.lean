import Verif.Lemmas.Regression
import Mathlib.MeasureTheory.Integral.Bochner.SumMeasure
import Mathlib.Analysis.SpecialFunctions.Log.Base
import Mathlib.Analysis.SpecialFunctions.Pow.Real

/-!
# Property C124: the orders of convergence fitted by the notebook
-/

namespace Verif

open Notebooks Finset MeasureTheory

variable {n : ℕ}

theorem fit_ok (c : ℝ) (hn : 0 < n) {δ e : Fin n → ℝ} (hδ : ∀ i, 0 < δ i) (he : ∀ i, 0 < e i) :
    fit c (List.ofFn δ) (List.ofFn e) = .ok (slope (List.ofFn fun i => c * Real.log (δ i)) (List.ofFn fun i => c * Real.log (e i)),
      intercept (List.ofFn fun i => c * Real.log (δ i)) (List.ofFn fun i => c * Real.log (e i))) := by
  rw [fit, if_neg]
  · simp only [List.map_ofFn]; rfl
  · rintro (⟨v, hv, h0⟩ | h | h)
    · rcases List.mem_append.1 hv with hv | hv
      · obtain ⟨i, rfl⟩ := (List.mem_ofFn' _ _).1 hv; exact absurd (hδ i) (not_lt.2 h0)
      · obtain ⟨i, rfl⟩ := (List.mem_ofFn' _ _).1 hv; exact absurd (he i) (not_lt.2 h0)
    · simp at h
    · simp at h; omega

theorem slope_smul_smul {c : ℝ} (hc : c ≠ 0) (x y : Fin n → ℝ) :
    slope (List.ofFn fun i => c * x i) (List.ofFn fun i => c * y i) = slope (List.ofFn x) (List.ofFn y) := by
  have hm : ∀ z : Fin n → ℝ, mean (fun i => c * z i) = c * mean z := fun z => by rw [mean, mean, ← mul_sum, mul_div_assoc]
  rw [slope_ofFn, slope_ofFn, hm, hm]
  have h1 : ∑ i, (c * x i - c * mean x) * (c * y i - c * mean y) = c ^ 2 * ∑ i, (x i - mean x) * (y i - mean y) := by
    rw [mul_sum]; exact sum_congr rfl fun i _ => by ring
  have h2 : ∑ i, (c * x i - c * mean x) ^ 2 = c ^ 2 * ∑ i, (x i - mean x) ^ 2 := by
    rw [mul_sum]; exact sum_congr rfl fun i _ => by ring
  rw [h1, h2, mul_div_mul_left _ _ (pow_ne_zero 2 hc)]

theorem orderFit_ok (hn : 0 < n) {δ e : Fin n → ℝ} (hδ : ∀ i, 0 < δ i) (he : ∀ i, 0 < e i) :
    orderFit (List.ofFn δ) (List.ofFn e) = .ok (slope (List.ofFn fun i => Real.log (δ i)) (List.ofFn fun i => Real.log (e i))) := by
  rw [orderFit, fit_ok _ hn hδ he, slope_smul_smul (by norm_num)]
  rfl

/-- The sum over the pairs. -/
theorem sum_pairs (x y : Fin n → ℝ) : ∑ i, ∑ j, (x i - x j) * (y i - y j) = 2 * n * ∑ i, (x i - mean x) * (y i - mean y) := by
  set u := fun i => x i - mean x
  set v := fun i => y i - mean y
  have hu : ∑ i, u i = 0 := sum_centred x
  have hv : ∑ i, v i = 0 := sum_centred y
  have h1 : ∀ i, ∑ j, (x i - x j) * (y i - y j) = n * (u i * v i) + ∑ j, u j * v j := fun i => by
    have : ∑ j, (x i - x j) * (y i - y j) = ∑ j, (u i * v i - u i * v j - v i * u j + u j * v j) :=
      sum_congr rfl fun j _ => by simp only [u, v]; ring
    rw [this, sum_add_distrib, sum_sub_distrib, sum_sub_distrib, ← mul_sum (s := univ) (f := v), ← mul_sum (s := univ) (f := u), hu, hv]
    simp
  rw [sum_congr rfl fun i _ => h1 i, sum_add_distrib, ← mul_sum]
  simp only [sum_const, card_univ, Fintype.card_fin, nsmul_eq_mul, u, v]
  ring

/-- C124: the fitted order is an average of the orders observed between pairs of step sizes. If between any two step sizes the errors
decrease at least with order `lo` and at most with order `hi`, then the fitted order lies between `lo` and `hi`. -/
theorem C124_between {δ e : Fin n → ℝ} (hδ : ∀ i, 0 < δ i) (he : ∀ i, 0 < e i) {i0 j0 : Fin n} (hne : δ i0 ≠ δ j0) {lo hi : ℝ}
    (h : ∀ i j, δ i < δ j → (δ j / δ i) ^ lo ≤ e j / e i ∧ e j / e i ≤ (δ j / δ i) ^ hi) :
    ∃ p, orderFit (List.ofFn δ) (List.ofFn e) = .ok p ∧ lo ≤ p ∧ p ≤ hi := by
  have hn : 0 < n := i0.pos
  have hn' : (0 : ℝ) < n := by exact_mod_cast hn
  refine ⟨_, orderFit_ok hn hδ he, ?_⟩
  set x := fun i => Real.log (δ i)
  set y := fun i => Real.log (e i)
  have hx : x i0 ≠ x j0 := fun hh => hne (Real.log_injOn_pos (hδ i0) (hδ j0) hh)
  have hS := sum_centred_sq_pos hx
  have key : ∀ i j, δ i < δ j → lo * (x j - x i) ≤ y j - y i ∧ y j - y i ≤ hi * (x j - x i) := fun i j hij => by
    obtain ⟨h1, h2⟩ := h i j hij
    have hr : 0 < δ j / δ i := div_pos (hδ j) (hδ i)
    have hq : 0 < e j / e i := div_pos (he j) (he i)
    have h3 := Real.log_le_log (Real.rpow_pos_of_pos hr lo) h1
    have h4 := Real.log_le_log hq h2
    rw [Real.log_rpow hr, Real.log_div (he j).ne' (he i).ne', Real.log_div (hδ j).ne' (hδ i).ne'] at h3 h4
    exact ⟨h3, h4⟩
  have pair : ∀ i j, lo * (x i - x j) ^ 2 ≤ (x i - x j) * (y i - y j) ∧ (x i - x j) * (y i - y j) ≤ hi * (x i - x j) ^ 2 := fun i j => by
    rcases lt_trichotomy (δ i) (δ j) with hij | hij | hij
    · have hl : 0 < x j - x i := sub_pos.2 (Real.log_lt_log (hδ i) hij)
      obtain ⟨h1, h2⟩ := key i j hij
      constructor <;> nlinarith
    · have : x i = x j := by simp only [x, hij]
      simp [this]
    · have hl : 0 < x i - x j := sub_pos.2 (Real.log_lt_log (hδ j) hij)
      obtain ⟨h1, h2⟩ := key j i hij
      constructor <;> nlinarith
  have e1 := sum_pairs x y
  have e2 := sum_pairs x x
  have l1 : ∑ i, ∑ j, lo * (x i - x j) ^ 2 ≤ ∑ i, ∑ j, (x i - x j) * (y i - y j) := sum_le_sum fun i _ => sum_le_sum fun j _ => (pair i j).1
  have l2 : ∑ i, ∑ j, (x i - x j) * (y i - y j) ≤ ∑ i, ∑ j, hi * (x i - x j) ^ 2 := sum_le_sum fun i _ => sum_le_sum fun j _ => (pair i j).2
  simp only [← mul_sum] at l1 l2
  have e3 : ∑ i, ∑ j, (x i - x j) ^ 2 = 2 * n * ∑ i, (x i - mean x) ^ 2 := by
    have : ∀ i, (x i - mean x) * (x i - mean x) = (x i - mean x) ^ 2 := fun i => by ring
    simp only [this] at e2
    rw [← e2]
    exact sum_congr rfl fun i _ => sum_congr rfl fun j _ => by ring
  rw [e3, e1] at l1 l2
  rw [slope_ofFn, le_div_iff₀ hS, div_le_iff₀ hS]
  have h2n : (0 : ℝ) < 2 * n := by positivity
  constructor
  · refine le_of_mul_le_mul_left ?_ h2n; linarith
  · refine le_of_mul_le_mul_left ?_ h2n; linarith

/-- C124: a power law is recovered exactly, whatever its constant. -/
theorem C124_power_law {δ : Fin n → ℝ} (hδ : ∀ i, 0 < δ i) {i0 j0 : Fin n} (hne : δ i0 ≠ δ j0) {C : ℝ} (hC : 0 < C) (p : ℝ) :
    orderFit (List.ofFn δ) (List.ofFn fun i => C * δ i ^ p) = .ok p := by
  obtain ⟨q, hq, h1, h2⟩ := C124_between hδ (e := fun i => C * δ i ^ p) (fun i => mul_pos hC (Real.rpow_pos_of_pos (hδ i) p)) hne
    (lo := p) (hi := p) fun i j _ => by
      rw [Real.div_rpow (hδ j).le (hδ i).le, mul_div_mul_left _ _ hC.ne']
      exact ⟨le_rfl, le_rfl⟩
  rw [hq, le_antisymm h2 h1]

/-- C124: the unit in which the errors are measured does not matter. -/
theorem C124_scale (hn : 0 < n) {δ e : Fin n → ℝ} (hδ : ∀ i, 0 < δ i) (he : ∀ i, 0 < e i) {C : ℝ} (hC : 0 < C) :
    orderFit (List.ofFn δ) (List.ofFn fun i => C * e i) = orderFit (List.ofFn δ) (List.ofFn e) := by
  rw [orderFit_ok hn hδ he, orderFit_ok hn hδ fun i => mul_pos hC (he i), slope_ofFn, slope_ofFn, sum_centred_mul, sum_centred_mul]
  congr 2
  have : ∀ i, (Real.log (δ i) - mean fun i => Real.log (δ i)) * Real.log (C * e i) =
      Real.log C * (Real.log (δ i) - mean fun i => Real.log (δ i)) + (Real.log (δ i) - mean fun i => Real.log (δ i)) * Real.log (e i) := fun i => by
    rw [Real.log_mul hC.ne' (he i).ne']; ring
  rw [sum_congr rfl fun i _ => this i, sum_add_distrib, ← mul_sum, sum_centred, mul_zero, zero_add]

theorem slope_three {L : ℝ} (hL : L ≠ 0) {x y : Fin 3 → ℝ} (h0 : x 0 = -(4 * L)) (h1 : x 1 = -(5 * L)) (h2 : x 2 = -(6 * L)) :
    slope (List.ofFn x) (List.ofFn y) = (y 0 - y 2) / (2 * L) := by
  rw [slope_ofFn]
  simp only [mean, Fin.sum_univ_three, h0, h1, h2]
  push_cast
  field_simp
  ring

/-- C124: for the three step sizes of the notebook the fitted order is half the binary logarithm of the ratio of the first to the last
error. The error for the middle step size has no influence. -/
theorem C124_middle {a b c : ℝ} (ha : 0 < a) (hb : 0 < b) (hc : 0 < c) :
    orderFit deltas [a, b, c] = .ok (Real.logb 2 (a / c) / 2) := by
  have e1 : deltas = List.ofFn ![(1 / 16 : ℝ), 1 / 32, 1 / 64] := by simp [deltas, List.ofFn_succ]
  have e2 : [a, b, c] = List.ofFn ![a, b, c] := by simp [List.ofFn_succ]
  rw [e1, e2, orderFit_ok (by norm_num) (by intro i; fin_cases i <;> norm_num) (by intro i; fin_cases i <;> simp [ha, hb, hc]),
    slope_three (Real.log_pos (by norm_num : (1 : ℝ) < 2)).ne']
  · simp only [Real.logb, Real.log_div ha.ne' hc.ne']
    congr 1
    simp only [Matrix.cons_val_zero, Matrix.cons_val]
    rw [div_div, mul_comm (2 : ℝ)]
  · change Real.log (1 / 16) = _
    rw [show (1 / 16 : ℝ) = ((2 : ℝ) ^ 4)⁻¹ by norm_num, Real.log_inv, Real.log_pow]; norm_num
  · change Real.log (1 / 32) = _
    rw [show (1 / 32 : ℝ) = ((2 : ℝ) ^ 5)⁻¹ by norm_num, Real.log_inv, Real.log_pow]; norm_num
  · change Real.log (1 / 64) = _
    rw [show (1 / 64 : ℝ) = ((2 : ℝ) ^ 6)⁻¹ by norm_num, Real.log_inv, Real.log_pow]; norm_num

/-- C124: how far the order fitted from the three step sizes of the notebook can be from the order `p` of errors between `a δ^p` and
`A δ^p`. -/
theorem C124_bounds {p a A : ℝ} (ha : 0 < a) {e : Fin 3 → ℝ} (h : ∀ i, a * deltas[i] ^ p ≤ e i ∧ e i ≤ A * deltas[i] ^ p) :
    ∃ q, orderFit deltas (List.ofFn e) = .ok q ∧ |q - p| ≤ Real.logb 2 (A / a) / 2 := by
  have hd : ∀ i : Fin 3, (0 : ℝ) < deltas[i] := by intro i; fin_cases i <;> simp [deltas]
  have he : ∀ i, 0 < e i := fun i => lt_of_lt_of_le (mul_pos ha (Real.rpow_pos_of_pos (hd i) p)) (h i).1
  have hA : 0 < A := by
    have := (he 0).trans_le (h 0).2
    exact pos_of_mul_pos_left this (Real.rpow_nonneg (hd 0).le p)
  have e2 : List.ofFn e = [e 0, e 1, e 2] := by simp [List.ofFn_succ]
  refine ⟨_, by rw [e2]; exact C124_middle (he 0) (he 1) (he 2), ?_⟩
  have h2 : 0 < Real.log 2 := Real.log_pos (by norm_num)
  have l16 : Real.log (1 / 16) = -(4 * Real.log 2) := by
    rw [show (1 / 16 : ℝ) = ((2 : ℝ) ^ 4)⁻¹ by norm_num, Real.log_inv, Real.log_pow]; norm_num
  have l64 : Real.log (1 / 64) = -(6 * Real.log 2) := by
    rw [show (1 / 64 : ℝ) = ((2 : ℝ) ^ 6)⁻¹ by norm_num, Real.log_inv, Real.log_pow]; norm_num
  have lg : ∀ {i : Fin 3} {v : ℝ}, 0 < v → Real.log (v * deltas[i] ^ p) = Real.log v + p * Real.log deltas[i] := fun {i v} hv => by
    rw [Real.log_mul hv.ne' (Real.rpow_pos_of_pos (hd i) p).ne', Real.log_rpow (hd i)]
  have hlo : ∀ i, Real.log a + p * Real.log deltas[i] ≤ Real.log (e i) := fun i => by
    rw [← lg ha]; exact Real.log_le_log (mul_pos ha (Real.rpow_pos_of_pos (hd i) p)) (h i).1
  have hhi : ∀ i, Real.log (e i) ≤ Real.log A + p * Real.log deltas[i] := fun i => by
    rw [← lg hA]; exact Real.log_le_log (he i) (h i).2
  have a0 := hlo 0
  have a2 := hlo 2
  have b0 := hhi 0
  have b2 := hhi 2
  have d0 : deltas[(0 : Fin 3)] = 1 / 16 := rfl
  have d2 : deltas[(2 : Fin 3)] = 1 / 64 := rfl
  rw [d0, l16] at a0 b0
  rw [d2, l64] at a2 b2
  rw [Real.logb, Real.logb, Real.log_div (he 0).ne' (he 2).ne', Real.log_div hA.ne' ha.ne', div_div, div_div,
    show (Real.log (e 0) - Real.log (e 2)) / (Real.log 2 * 2) - p = (Real.log (e 0) - Real.log (e 2) - p * (Real.log 2 * 2)) / (Real.log 2 * 2) by
      field_simp, abs_div, abs_of_pos (by positivity : 0 < Real.log 2 * 2)]
  gcongr
  rw [abs_le]
  constructor <;> linarith

theorem summary_ok {δ e : Fin 6 → ℝ} (hδ : ∀ i, 0 < δ i) (he : ∀ i, 0 < e i) :
    let x := fun i => Real.log (δ i)
    let y := fun i => Real.log (e i)
    let s := slope (List.ofFn x) (List.ofFn y)
    let c := intercept (List.ofFn x) (List.ofFn y)
    let rss := ∑ i, (c + s * x i - y i) ^ 2
    summary (List.ofFn δ) (List.ofFn e) = .ok ⟨s, c, Real.sqrt (1 / 4 * rss), r2 rss (∑ i, (y i - mean y) ^ 2)⟩ := by
  intro x y s c rss
  have h1 := fit_ok 1 (by norm_num) hδ he
  simp only [one_mul] at h1
  rw [summary, h1]
  simp only [List.length_ofFn, ne_eq, not_true, if_false, List.map_ofFn, zip_map_ofFn, List.sum_ofFn, avg_ofFn]
  rfl

/-- C124: what the summary reports for six rows. The coefficient is the one fitted with both signs changed, no line leaves a smaller sum of
squares, `var` squared is that sum divided by four, and the score is the fraction of the total sum of squares that the line explains. -/
theorem C124_summary {δ e : Fin 6 → ℝ} (hδ : ∀ i, 0 < δ i) (he : ∀ i, 0 < e i) :
    ∃ s, summary (List.ofFn δ) (List.ofFn e) = .ok s ∧ orderFit (List.ofFn δ) (List.ofFn e) = .ok s.coef ∧
      (∀ a b, ∑ i, (s.intercept + s.coef * Real.log (δ i) - Real.log (e i)) ^ 2 ≤ ∑ i, (a + b * Real.log (δ i) - Real.log (e i)) ^ 2) ∧
      0 ≤ s.var ∧ 4 * s.var ^ 2 = ∑ i, (s.intercept + s.coef * Real.log (δ i) - Real.log (e i)) ^ 2 ∧
      (1 - s.score) * ∑ i, (Real.log (e i) - (∑ j, Real.log (e j)) / 6) ^ 2 = 4 * s.var ^ 2 ∧ 0 ≤ s.score ∧ s.score ≤ 1 := by
  have hls : ∀ a b, ∑ i, (intercept (List.ofFn fun i => Real.log (δ i)) (List.ofFn fun i => Real.log (e i)) +
      slope (List.ofFn fun i => Real.log (δ i)) (List.ofFn fun i => Real.log (e i)) * Real.log (δ i) - Real.log (e i)) ^ 2 ≤
      ∑ i, (a + b * Real.log (δ i) - Real.log (e i)) ^ 2 := fun a b => by
    rw [residual_eq (by norm_num) (fun i => Real.log (δ i)) (fun i => Real.log (e i)) a b]
    exact le_add_of_nonneg_right (sum_nonneg fun i _ => sq_nonneg _)
  refine ⟨_, summary_ok hδ he, orderFit_ok (by norm_num) hδ he, hls, Real.sqrt_nonneg _, ?_, ?_, ?_⟩
  · rw [Real.sq_sqrt (mul_nonneg (by norm_num) (sum_nonneg fun i _ => sq_nonneg _))]; ring
  · have h0 := hls (mean fun i => Real.log (e i)) 0
    have h1 : ∑ i, (mean (fun i => Real.log (e i)) + 0 * Real.log (δ i) - Real.log (e i)) ^ 2 =
        ∑ i, (Real.log (e i) - (∑ j, Real.log (e j)) / 6) ^ 2 := sum_congr rfl fun i _ => by rw [mean]; push_cast; ring
    rw [h1] at h0
    have hr : 0 ≤ ∑ i, (intercept (List.ofFn fun i => Real.log (δ i)) (List.ofFn fun i => Real.log (e i)) +
      slope (List.ofFn fun i => Real.log (δ i)) (List.ofFn fun i => Real.log (e i)) * Real.log (δ i) - Real.log (e i)) ^ 2 :=
      sum_nonneg fun i _ => sq_nonneg _
    have h2 : ∑ i, (Real.log (e i) - mean fun i => Real.log (e i)) ^ 2 = ∑ i, (Real.log (e i) - (∑ j, Real.log (e j)) / 6) ^ 2 :=
      sum_congr rfl fun i _ => by rw [mean]; push_cast; ring
    simp only [r2, h2]
    rw [Real.sq_sqrt (mul_nonneg (by norm_num) hr)]
    split
    · rename_i ht
      rw [sub_sub_cancel, div_mul_cancel₀ _ ht]; ring
    · rename_i ht
      rw [not_not.1 ht] at h0 ⊢
      rw [le_antisymm h0 hr]; ring
  · have h0 := hls (mean fun i => Real.log (e i)) 0
    have h1 : ∑ i, (mean (fun i => Real.log (e i)) + 0 * Real.log (δ i) - Real.log (e i)) ^ 2 =
        ∑ i, (Real.log (e i) - mean fun i => Real.log (e i)) ^ 2 := sum_congr rfl fun i _ => by ring
    rw [h1] at h0
    have hr : 0 ≤ ∑ i, (intercept (List.ofFn fun i => Real.log (δ i)) (List.ofFn fun i => Real.log (e i)) +
      slope (List.ofFn fun i => Real.log (δ i)) (List.ofFn fun i => Real.log (e i)) * Real.log (δ i) - Real.log (e i)) ^ 2 :=
      sum_nonneg fun i _ => sq_nonneg _
    simp only [r2]
    split
    · rename_i ht
      have ht' := lt_of_le_of_ne (hr.trans h0) (Ne.symm ht)
      have := (div_le_one ht').2 h0
      have h2 := div_nonneg hr ht'.le
      constructor <;> linarith
    · split <;> norm_num

/-- C124: the summary of an exact power law. -/
theorem C124_summary_power_law {δ : Fin 6 → ℝ} (hδ : ∀ i, 0 < δ i) {i0 j0 : Fin 6} (hne : δ i0 ≠ δ j0) {C : ℝ} (hC : 0 < C) (p : ℝ) :
    summary (List.ofFn δ) (List.ofFn fun i => C * δ i ^ p) = .ok ⟨p, Real.log C, 0, 1⟩ := by
  have he : ∀ i, 0 < C * δ i ^ p := fun i => mul_pos hC (Real.rpow_pos_of_pos (hδ i) p)
  obtain ⟨s, hs, hc, hls, hv0, hv, -, h0, h1⟩ := C124_summary hδ he
  rw [C124_power_law hδ hne hC p] at hc
  have hp : s.coef = p := (Except.ok.inj hc).symm
  have hlog : ∀ i, Real.log (C * δ i ^ p) = Real.log C + p * Real.log (δ i) := fun i => by
    rw [Real.log_mul hC.ne' (Real.rpow_pos_of_pos (hδ i) p).ne', Real.log_rpow (hδ i)]
  have hz := hls (Real.log C) p
  simp only [hlog, sub_self, ne_eq, OfNat.ofNat_ne_zero, not_false_eq_true, zero_pow, sum_const_zero] at hz hv
  have hz0 := le_antisymm hz (sum_nonneg fun i _ => sq_nonneg _)
  have hi := pow_eq_zero_iff two_ne_zero |>.1 ((sum_eq_zero_iff_of_nonneg fun i _ => sq_nonneg _).1 hz0 i0 (mem_univ _))
  rw [hz0] at hv
  have hint : s.intercept = Real.log C := by rw [hp] at hi; linarith
  have hvar : s.var = 0 := pow_eq_zero_iff two_ne_zero |>.1 (by linarith)
  have hsc : s.score = 1 := by
    have h2 := summary_ok hδ he
    rw [hs] at h2
    have h3 := Except.ok.inj h2
    have hr : ∑ i, (intercept (List.ofFn fun i => Real.log (δ i)) (List.ofFn fun i => Real.log (C * δ i ^ p)) +
      slope (List.ofFn fun i => Real.log (δ i)) (List.ofFn fun i => Real.log (C * δ i ^ p)) * Real.log (δ i) - Real.log (C * δ i ^ p)) ^ 2 = 0 := by
      have e1 : s.intercept = intercept (List.ofFn fun i => Real.log (δ i)) (List.ofFn fun i => Real.log (C * δ i ^ p)) := by rw [h3]
      have e2 : s.coef = slope (List.ofFn fun i => Real.log (δ i)) (List.ofFn fun i => Real.log (C * δ i ^ p)) := by rw [h3]
      rw [← e1, ← e2]
      simpa only [hlog] using hz0
    have e3 : s.score = _ := congrArg Summary.score h3
    rw [e3]
    simp only [hr, r2, zero_div, sub_zero, if_true, ite_self]
  rw [hs]
  cases s
  simp only at hp hint hvar hsc
  rw [hp, hint, hvar, hsc]

/-- C124: `var` squared estimates the variance of the noise without bias. If the logarithms of the six errors follow a line up to
uncorrelated noise of variance `v`, the mean of `var ^ 2` is `v`. -/
theorem C124_variance {δ : Fin 6 → ℝ} (hδ : ∀ i, 0 < δ i) {i0 j0 : Fin 6} (hne : δ i0 ≠ δ j0) {Ω : Type*} [MeasurableSpace Ω]
    {Q : Measure Ω} {ε : Fin 6 → Ω → ℝ} {v : ℝ} (hint : ∀ i j, Integrable (fun ω => ε i ω * ε j ω) Q)
    (hcov : ∀ i j, ∫ ω, ε i ω * ε j ω ∂Q = if i = j then v else 0) {C : ℝ} (hC : 0 < C) (p : ℝ) :
    ∃ s : Ω → Summary, (∀ ω, summary (List.ofFn δ) (List.ofFn fun i => C * δ i ^ p * Real.exp (ε i ω)) = .ok (s ω)) ∧
      Integrable (fun ω => (s ω).var ^ 2) Q ∧ ∫ ω, (s ω).var ^ 2 ∂Q = v := by
  have he : ∀ ω i, 0 < C * δ i ^ p * Real.exp (ε i ω) := fun ω i =>
    mul_pos (mul_pos hC (Real.rpow_pos_of_pos (hδ i) p)) (Real.exp_pos _)
  set x := fun i => Real.log (δ i)
  have hx : x i0 ≠ x j0 := fun hh => hne (Real.log_injOn_pos (hδ i0) (hδ j0) hh)
  have hS := (sum_centred_sq_pos hx).ne'
  have hlog : ∀ ω i, Real.log (C * δ i ^ p * Real.exp (ε i ω)) = Real.log C + p * x i + ε i ω := fun ω i => by
    rw [Real.log_mul (mul_pos hC (Real.rpow_pos_of_pos (hδ i) p)).ne' (Real.exp_pos _).ne', Real.log_exp,
      Real.log_mul hC.ne' (Real.rpow_pos_of_pos (hδ i) p).ne', Real.log_rpow (hδ i)]
  refine ⟨_, fun ω => summary_ok hδ (he ω), ?_⟩
  have hvar : ∀ ω, Real.sqrt (1 / 4 * ∑ i, (intercept (List.ofFn x) (List.ofFn fun i => Real.log (C * δ i ^ p * Real.exp (ε i ω))) +
      slope (List.ofFn x) (List.ofFn fun i => Real.log (C * δ i ^ p * Real.exp (ε i ω))) * x i - Real.log (C * δ i ^ p * Real.exp (ε i ω))) ^ 2) ^ 2 =
      1 / 4 * (∑ k, ε k ω ^ 2 - (∑ k, 1 * ε k ω) ^ 2 / 6 - (∑ k, (x k - mean x) * ε k ω) ^ 2 / ∑ k, (x k - mean x) ^ 2) := fun ω => by
    rw [Real.sq_sqrt (mul_nonneg (by norm_num) (sum_nonneg fun i _ => sq_nonneg _))]
    simp only [hlog, one_mul]
    rw [residual_noise (by norm_num) hx (Real.log C) p fun k => ε k ω]
    norm_num
  obtain ⟨i1, m1⟩ := integral_comb_sq hint hcov fun _ => 1
  obtain ⟨i2, m2⟩ := integral_comb_sq hint hcov fun k => x k - mean x
  have i0 : ∀ k, Integrable (fun ω => ε k ω ^ 2) Q := fun k => by simpa only [sq] using hint k k
  have i0' : Integrable (fun ω => ∑ k, ε k ω ^ 2) Q := integrable_finsetSum _ fun k _ => i0 k
  have m0 : ∫ ω, ∑ k, ε k ω ^ 2 ∂Q = 6 * v := by
    rw [integral_finsetSum _ fun k _ => i0 k]
    have : ∀ k, ∫ ω, ε k ω ^ 2 ∂Q = v := fun k => by simpa only [sq, if_true] using hcov k k
    simp [this]
  have i01 : Integrable (fun ω => ∑ k, ε k ω ^ 2 - (∑ k, 1 * ε k ω) ^ 2 / 6) Q := i0'.sub (i1.div_const _)
  refine ⟨(((i0'.sub (i1.div_const _)).sub (i2.div_const _)).const_mul _).congr (ae_of_all _ fun ω => (hvar ω).symm),
    (integral_congr_ae (ae_of_all _ hvar)).trans ?_⟩
  rw [integral_const_mul, integral_sub i01 (i2.div_const _), integral_sub i0' (i1.div_const _), integral_div, integral_div,
    m0, m1, m2]
  simp only [one_pow, sum_const, card_univ, Fintype.card_fin, nsmul_eq_mul, mul_one]
  rw [mul_div_assoc, mul_div_assoc, div_self hS]
  push_cast
  ring

/-- C124: any other number of rows is rejected, in particular the three rows that the notebook writes. -/
theorem C124_rows {ds es : List ℝ} (h : ds.length ≠ 6 ∨ es.length ≠ 6) : summary ds es = .error .typeError := by
  rw [summary]
  by_cases h1 : ds.length = 6
  · rw [if_neg (by simpa using h1), if_pos (h.resolve_left (by simpa using h1))]; rfl
  · rw [if_pos h1]; rfl

theorem C124_rows_notebook (es : List ℝ) : summary deltas es = .error .typeError := C124_rows (.inl (by simp [deltas]))

/-- C124: the table of the mean trajectory needs 1024 intervals; row `k` then is the time `k / 1024` and the mean over the samples. The files
loaded by the notebook have 16, 32 and 64 intervals. -/
theorem C124_table {S N d : ℕ} (p : Paths S N d) (i : Fin d) :
    (N = 1024 → ∃ rows, meanTable p i = .ok rows ∧ rows.length = N + 1 ∧
      ∀ k : Fin (N + 1), rows[(k : ℕ)]? = some ((k : ℝ) / N, (∑ s, p s k i) / S)) ∧
    (N ≠ 1024 → meanTable p i = .error .valueError) := by
  have hlen : (insertArr (Jnp.linspace (1 / 1024) 1 1024) (0 : ℝ)).length = 1025 := by
    rw [insertArr_eq]; simp [Jnp.linspace]
  constructor
  · intro hN
    refine ⟨_, by rw [meanTable, if_neg (by rw [hlen, List.length_ofFn, hN]; simp)], ?_, fun k => ?_⟩
    · rw [List.length_zip, hlen, List.length_ofFn, hN]; rfl
    · have hk := k.isLt
      have h1 : (k : ℕ) < ((insertArr (Jnp.linspace (1 / 1024) 1 1024) (0 : ℝ)).zip (List.ofFn fun k => (∑ s, p s k i) / S)).length := by
        rw [List.length_zip, hlen, List.length_ofFn]; omega
      rw [List.getElem?_eq_getElem h1, List.getElem_zip]
      congr 2
      · rcases k with ⟨k, hk'⟩
        simp only [insertArr_eq]
        rcases k with _ | k
        · simp
        · simp only [List.getElem_cons_succ, Jnp.linspace, List.getElem_map, List.getElem_range]
          subst hN
          push_cast
          norm_num
          ring
      · rw [List.getElem_ofFn]
  · intro hN
    rw [meanTable, if_pos]
    rw [hlen, List.length_ofFn]; omega

/-- The hypotheses are met by six step sizes and by noise that is not zero. -/
example : orderFit deltas [1, 7, 1 / 16] = .ok 2 := by
  rw [C124_middle (by norm_num) (by norm_num) (by norm_num)]
  congr 1
  rw [show (1 / (1 / 16) : ℝ) = 2 ^ (4 : ℝ) by norm_num, Real.logb_rpow (by norm_num) (by norm_num)]
  norm_num

example : summary (List.ofFn fun i : Fin 6 => 1 / 2 ^ (i : ℕ)) (List.ofFn fun i : Fin 6 => 3 * ((1 : ℝ) / 2 ^ (i : ℕ)) ^ (2 : ℝ)) =
    .ok ⟨2, Real.log 3, 0, 1⟩ :=
  C124_summary_power_law (fun i => by positivity) (i0 := 0) (j0 := 1) (by norm_num) (by norm_num) 2

/-- Uncorrelated noise of variance 1. -/
example : ∃ (Q : Measure (Fin 6)) (_ : IsProbabilityMeasure Q) (s : Fin 6 → Summary),
    (∀ ω, summary (List.ofFn fun i : Fin 6 => 1 / 2 ^ (i : ℕ))
      (List.ofFn fun i : Fin 6 => 3 * ((1 : ℝ) / 2 ^ (i : ℕ)) ^ (2 : ℝ) * Real.exp (if i = ω then Real.sqrt 6 else 0)) = .ok (s ω)) ∧
      ∫ ω, (s ω).var ^ 2 ∂Q = 1 := by
  have hQ : IsProbabilityMeasure ((6 : ENNReal)⁻¹ • (Measure.count : Measure (Fin 6))) :=
    ⟨by simp [Measure.count_univ, ENNReal.inv_mul_cancel]⟩
  obtain ⟨s, hs, -, h⟩ := C124_variance (δ := fun i : Fin 6 => 1 / 2 ^ (i : ℕ)) (fun i => by positivity) (i0 := 0) (j0 := 1) (by norm_num)
    (Q := (6 : ENNReal)⁻¹ • Measure.count) (ε := fun i ω => if i = ω then Real.sqrt 6 else 0) (v := 1) (fun i j => Integrable.of_finite)
    (fun i j => by
      rw [integral_smul_measure, integral_fintype Integrable.of_finite]
      by_cases h : i = j
      · subst h
        simp
      · rw [if_neg h]
        have : ∀ k, (if i = k then Real.sqrt 6 else 0) * (if j = k then Real.sqrt 6 else 0) = 0 := fun k => by
          by_cases h1 : i = k
          · rw [if_neg (fun h2 : j = k => h (h1.trans h2.symm)), mul_zero]
          · rw [if_neg h1, zero_mul]
        simp [this]) (by norm_num : (0 : ℝ) < 3) 2
  exact ⟨_, hQ, s, hs, h⟩

end Verif
