import Verif.Lemmas.HypoScheme

/-! The variances of two linear schemes, for the negative part of C138. -/

namespace Verif

open Matrix Spec Jnp Set MeasureTheory ProbabilityTheory Filter
open scoped NNReal Topology

/-- The law of a linear recursion with independent normal terms. -/
theorem ar_law {Ω : Type*} [MeasurableSpace Ω] {P : Measure Ω} [IsProbabilityMeasure P] {N : ℕ} {q : ℝ} {c : ℝ≥0} (hc : (c : ℝ) = q ^ 2) {r : ℝ≥0} {U ε : ℕ → Ω → ℝ}
    (h0 : ∀ ω, U 0 ω = 0) (hs : ∀ k < N, ∀ ω, U (k + 1) ω = q * U k ω + ε k ω) (hi : ∀ k < N, IndepFun (U k) (ε k) P)
    (hε : ∀ k < N, HasLaw (ε k) (gaussianReal 0 r) P) (n : ℕ) (hn : n ≤ N) :
    HasLaw (U n) (gaussianReal 0 (r * ∑ i ∈ Finset.range n, c ^ i)) P := by
  induction n with
  | zero =>
    rw [show U 0 = fun _ => 0 from funext h0]
    refine ⟨aemeasurable_const, ?_⟩
    rw [Measure.map_const]
    simp
  | succ n ih =>
    have h1 := ih (by omega)
    have h2 : HasLaw (fun ω => q * U n ω) (gaussianReal (q * 0) (c * (r * ∑ i ∈ Finset.range n, c ^ i))) P := by
      refine ⟨h1.aemeasurable.const_mul q, ?_⟩
      have e : c = NNReal.mk (q ^ 2) (sq_nonneg q) := NNReal.eq hc
      have e2 := gaussianReal_map_const_mul (μ := 0) (v := r * ∑ i ∈ Finset.range n, c ^ i) q
      rw [← e] at e2
      rw [← e2, ← h1.map_eq, AEMeasurable.map_map_of_aemeasurable (by fun_prop) h1.aemeasurable]
      rfl
    have h3 : IndepFun (fun ω => q * U n ω) (ε n) P := (hi n hn).comp (measurable_const_mul q) measurable_id
    have h4 := gaussianReal_add_gaussianReal_of_indepFun h3 h2.map_eq (hε n hn).map_eq
    refine ⟨?_, ?_⟩
    · rw [show U (n + 1) = _ from funext (hs n hn)]
      exact h2.aemeasurable.add (hε n hn).aemeasurable
    · rw [show U (n + 1) = (fun ω => q * U n ω) + ε n from funext (hs n hn), h4, geom_sum_succ]
      congr 1
      · simp
      · ring

theorem abs_gauss {Ω : Type*} [MeasurableSpace Ω] {P : Measure Ω} {U : Ω → ℝ} {v : ℝ≥0} (h : HasLaw U (gaussianReal 0 v) P) :
    ∫ ω, |U ω| ∂P = Real.sqrt v * ∫ z, |z| ∂gaussianReal 0 1 := by
  have h1 : ∫ ω, |U ω| ∂P = ∫ z, |z| ∂gaussianReal 0 v := by
    rw [← h.map_eq, integral_map h.aemeasurable (by fun_prop)]
  have h2 : gaussianReal 0 v = (gaussianReal 0 1).map (Real.sqrt v * ·) := by
    rw [gaussianReal_map_const_mul]
    congr 1
    · simp
    · ext
      simp [Real.sq_sqrt v.2]
  rw [h1, h2, integral_map (by fun_prop) (by fun_prop)]
  simp only [abs_mul, abs_of_nonneg (Real.sqrt_nonneg _), integral_const_mul]

theorem abs_gauss_pos : 0 < ∫ z, |z| ∂gaussianReal 0 1 := by
  have hna : NoAtoms (gaussianReal 0 1) := noAtoms_gaussianReal one_ne_zero
  have hns : (gaussianReal 0 1) {(0 : ℝ)} = 0 := hna.measure_singleton 0
  have hint : Integrable (fun z : ℝ => |z|) (gaussianReal 0 1) := (memLp_id_gaussianReal 1).integrable le_rfl |>.abs
  rw [integral_pos_iff_support_of_nonneg (fun z => abs_nonneg z) hint]
  have : Function.support (fun z : ℝ => |z|) = {0}ᶜ := by ext z; simp
  rw [this, prob_compl_eq_one_sub (measurableSet_singleton 0), hns]
  simp

/-- The factor of a step stays close to the exponential. -/
theorem gap_factor {h : ℝ} (h0 : 0 < h) (h1 : h ≤ 1) : Real.exp (-h) ≤ 1 - h + h ^ 2 / 2 ∧ 1 - h + h ^ 2 / 2 ≤ 1 := by
  have h2 := Real.quadratic_le_exp_of_nonneg h0.le
  have h3 : 0 < 1 - h + h ^ 2 / 2 := by nlinarith [sq_nonneg (h - 1)]
  refine ⟨?_, by nlinarith⟩
  rw [Real.exp_neg, inv_le_iff_one_le_mul₀ (Real.exp_pos h)]
  have h4 : (1 - h + h ^ 2 / 2) * (1 + h + h ^ 2 / 2) ≤ (1 - h + h ^ 2 / 2) * Real.exp h := mul_le_mul_of_nonneg_left h2 h3.le
  nlinarith [sq_nonneg (h ^ 2)]

/-- The standard deviations of the two schemes differ by a multiple of the step. -/
theorem gap_sqrt {N : ℕ} (hN : 0 < N) {h q : ℝ} (hh : h = 1 / N) (hq : q = 1 - h + h ^ 2 / 2) {G : ℝ} (hG : G = ∑ i ∈ Finset.range N, (q ^ 2) ^ i) :
    Real.exp (-2) / 3 * h ≤ Real.sqrt (h * G) - Real.sqrt ((h - h ^ 2 + h ^ 3 / 3) * G) := by
  have hN' : (1 : ℝ) ≤ N := by exact_mod_cast hN
  have h0 : 0 < h := by rw [hh]; positivity
  have h1 : h ≤ 1 := by rw [hh]; exact (div_le_one (by linarith)).mpr hN'
  have hNh : N * h = 1 := by rw [hh]; field_simp
  obtain ⟨hq1, hq2⟩ := gap_factor h0 h1
  rw [← hq] at hq1 hq2
  have hq0 : 0 < q := (Real.exp_pos _).trans_le hq1
  have hqq : q ^ 2 ≤ 1 := by nlinarith
  have hG1 : G ≤ N := by
    rw [hG]
    refine (Finset.sum_le_sum fun i _ => pow_le_one₀ (sq_nonneg q) hqq).trans (by simp)
  have hG2 : N * Real.exp (-2) ≤ G := by
    have h5 : ∀ i ∈ Finset.range N, Real.exp (-2) ≤ (q ^ 2) ^ i := fun i hi => by
      have h6 : i ≤ N := (Finset.mem_range.mp hi).le
      calc Real.exp (-2) = Real.exp (-h) ^ (2 * N) := by
            rw [← Real.exp_nat_mul]
            congr 1
            push_cast
            nlinarith
        _ ≤ q ^ (2 * N) := pow_le_pow_left₀ (Real.exp_pos _).le hq1 _
        _ = (q ^ 2) ^ N := by rw [pow_mul]
        _ ≤ (q ^ 2) ^ i := pow_le_pow_of_le_one (sq_nonneg q) hqq h6
    have := Finset.sum_le_sum h5
    rw [hG]
    simpa using this
  have hG0 : 0 ≤ G := le_trans (by positivity) hG2
  obtain ⟨e, he⟩ : ∃ e, e = Real.exp (-2) := ⟨_, rfl⟩
  have he0 : 0 < e := by rw [he]; exact Real.exp_pos _
  rw [← he] at hG2 ⊢
  set a := Real.sqrt (h * G) with ha
  set c := Real.sqrt ((h - h ^ 2 + h ^ 3 / 3) * G) with hc
  have hp : 0 ≤ h - h ^ 2 + h ^ 3 / 3 := by nlinarith [mul_nonneg h0.le (sub_nonneg.mpr h1), pow_pos h0 3]
  have ha2 : a ^ 2 = h * G := Real.sq_sqrt (by positivity)
  have hc2 : c ^ 2 = (h - h ^ 2 + h ^ 3 / 3) * G := Real.sq_sqrt (by positivity)
  have ha0 : 0 ≤ a := Real.sqrt_nonneg _
  have hc0 : 0 ≤ c := Real.sqrt_nonneg _
  have ha1 : a ≤ 1 := by
    rw [ha]
    refine Real.sqrt_le_one.mpr ?_
    nlinarith
  have hca : c ≤ a := by
    refine Real.sqrt_le_sqrt (mul_le_mul_of_nonneg_right ?_ hG0)
    nlinarith [pow_pos h0 3, mul_nonneg (sq_nonneg h) (sub_nonneg.mpr h1)]
  have hd : e * h * (2 / 3) ≤ a ^ 2 - c ^ 2 := by
    rw [ha2, hc2]
    have e1 : h * G - (h - h ^ 2 + h ^ 3 / 3) * G = (h ^ 2 - h ^ 3 / 3) * G := by ring
    have e2 : h ^ 2 * (2 / 3) ≤ h ^ 2 - h ^ 3 / 3 := by nlinarith [mul_nonneg (sq_nonneg h) (sub_nonneg.mpr h1)]
    have e3 : h ^ 2 * (2 / 3) * (N * e) ≤ (h ^ 2 - h ^ 3 / 3) * G := mul_le_mul e2 hG2 (by positivity) (by nlinarith [sq_nonneg h])
    have e4 : h ^ 2 * (2 / 3) * (N * e) = e * h * (2 / 3) * (N * h) := by ring
    rw [e1]
    rw [e4, hNh, mul_one] at e3
    exact e3
  have hf : a ^ 2 - c ^ 2 ≤ 2 * (a - c) := by
    have h8 : (a - c) * (a + c) ≤ (a - c) * 2 := mul_le_mul_of_nonneg_left (by linarith only [ha1, hca]) (sub_nonneg.mpr hca)
    linarith only [h8, show a ^ 2 - c ^ 2 = (a - c) * (a + c) by ring]
  linarith only [hf, hd]

end Verif
