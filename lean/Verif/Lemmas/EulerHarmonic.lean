import Verif.Lemmas.EulerLinear
import Verif.Lemmas.Transition
import Verif.Model.Ivp
import Mathlib.Analysis.Complex.ExponentialBounds

/-! The first step of `sde_solver` with Euler steps on the harmonic oscillator of the tests. -/

namespace Verif

open Matrix Spec Jnp Set Finset

section Norm

open scoped Matrix.Norms.Operator

theorem harmonic_norm : ‖Ivp.Harmonic.M 0.1 0.1‖ ≤ 2 := by
  have := linfty_le_of_entries (Ivp.Harmonic.M 0.1 0.1) (c := 1) zero_le_one fun i j => by
    fin_cases i <;> fin_cases j <;> simp [Ivp.Harmonic.M] <;> norm_num [abs_le]
  refine this.trans ?_
  norm_num

theorem exp_small {δ : ℝ} (hδ : δ ≤ 1 / 1000) : Real.exp (δ * 2) ≤ 3 := by
  have h1 : Real.exp (δ * 2) ≤ Real.exp 1 := Real.exp_le_exp.mpr (by linarith)
  have h2 := Real.exp_one_lt_d9
  linarith

/-- The upper right entries of the powers of the Euler step. -/
theorem harmonic_pow {δ : ℝ} (hδ : 0 < δ) (hδ1 : δ ≤ 1 / 1000) {k : ℕ} (hk : k ≤ 100) :
    |(eulerOne (Ivp.Harmonic.M 0.1 0.1) δ 100 ^ k) 0 1 - k * (δ / 100)| ≤ 12 / 1000 * δ ∧ |(eulerOne (Ivp.Harmonic.M 0.1 0.1) δ 100 ^ k) 1 1 - 1| ≤ 6 / 1000 := by
  have hX := exp_small hδ1
  have hX0 := Real.exp_pos (δ * 2)
  constructor
  · have h1 := (abs_entry_le _ 0 1).trans (eulerOne_pow_linear harmonic_norm hδ le_rfl (by norm_num : 0 < 100) hk)
    have e : (eulerOne (Ivp.Harmonic.M 0.1 0.1) δ 100 ^ k - 1 - ((k : ℝ) * (δ / (100 : ℕ))) • Ivp.Harmonic.M 0.1 0.1 : Mat 2 2) 0 1 =
        (eulerOne (Ivp.Harmonic.M 0.1 0.1) δ 100 ^ k) 0 1 - k * (δ / 100) := by
      rw [Matrix.sub_apply, Matrix.sub_apply, Matrix.smul_apply]
      simp [Ivp.Harmonic.M]
    rw [e] at h1
    refine h1.trans ?_
    have h2 : δ ^ 2 ≤ δ * (1 / 1000) := by rw [sq]; gcongr
    have h3 : (2 : ℝ) ^ 2 * Real.exp (δ * 2) * δ ^ 2 ≤ 2 ^ 2 * 3 * (δ * (1 / 1000)) := by gcongr
    linarith
  · have h1 := (abs_entry_le _ 1 1).trans (eulerOne_pow_sub_one harmonic_norm hδ le_rfl (by norm_num : 0 < 100) hk)
    rw [Matrix.sub_apply, Matrix.one_apply_eq] at h1
    refine h1.trans ?_
    have h3 : 2 * Real.exp (δ * 2) * δ ≤ 2 * 3 * (1 / 1000) := by gcongr
    linarith

/-- The entries of the weighted means of the powers. -/
theorem harmonic_meanPow {δ : ℝ} (hδ : 0 < δ) (hδ1 : δ ≤ 1 / 1000) {w : ℕ → ℝ} (hw : ∀ i ∈ range 100, |w i| ≤ 1) :
    |eulerMeanPow (Ivp.Harmonic.M 0.1 0.1) δ 100 w 0 1 - δ / 10000 * ∑ i ∈ range 100, w i * ((99 - i : ℕ) : ℝ)| ≤ 12 / 1000 * δ ∧
    |eulerMeanPow (Ivp.Harmonic.M 0.1 0.1) δ 100 w 1 1 - 1 / 100 * ∑ i ∈ range 100, w i| ≤ 6 / 1000 := by
  have key : ∀ (f g : ℕ → ℝ) (c : ℝ), (∀ k ≤ 100, |f k - g k| ≤ c) → |1 / 100 * ∑ i ∈ range 100, w i * f (99 - i) - 1 / 100 * ∑ i ∈ range 100, w i * g (99 - i)| ≤ c := by
    intro f g c hfg
    rw [← mul_sub, ← sum_sub_distrib, abs_mul, abs_of_nonneg (by norm_num)]
    have h1 : |∑ i ∈ range 100, (w i * f (99 - i) - w i * g (99 - i))| ≤ ∑ _i ∈ range 100, c := by
      refine (abs_sum_le_sum_abs _ _).trans (sum_le_sum fun i hi => ?_)
      rw [← mul_sub, abs_mul]
      calc |w i| * |f (99 - i) - g (99 - i)| ≤ 1 * c := mul_le_mul (hw i hi) (hfg _ (by omega)) (abs_nonneg _) zero_le_one
        _ = c := one_mul c
    rw [sum_const, card_range, nsmul_eq_mul] at h1
    push_cast at h1
    linarith
  have e : ∀ a b, eulerMeanPow (Ivp.Harmonic.M 0.1 0.1) δ 100 w a b = 1 / 100 * ∑ i ∈ range 100, w i * (eulerOne (Ivp.Harmonic.M 0.1 0.1) δ 100 ^ (99 - i)) a b := fun a b => by
    rw [eulerMeanPow, Matrix.smul_apply, Matrix.sum_apply]
    simp only [Matrix.smul_apply, smul_eq_mul]
    norm_num
  constructor
  · have h1 := key (fun k => (eulerOne (Ivp.Harmonic.M 0.1 0.1) δ 100 ^ k) 0 1) (fun k => k * (δ / 100)) _ fun k hk => (harmonic_pow hδ hδ1 hk).1
    have e2 : δ / 10000 * ∑ i ∈ range 100, w i * ((99 - i : ℕ) : ℝ) = 1 / 100 * ∑ i ∈ range 100, w i * (((99 - i : ℕ) : ℝ) * (δ / 100)) := by
      rw [mul_sum, mul_sum]
      exact sum_congr rfl fun i _ => by ring
    rw [e, e2]
    exact h1
  · have h1 := key (fun k => (eulerOne (Ivp.Harmonic.M 0.1 0.1) δ 100 ^ k) 1 1) (fun _ => 1) _ fun k hk => (harmonic_pow hδ hδ1 hk).2
    rw [e]
    simpa using h1

theorem areaWeight_abs {i : ℕ} (hi : i ∈ range 100) : |areaWeight 100 i| ≤ 1 := by
  have h1 : (i : ℝ) ≤ 100 := by exact_mod_cast (mem_range.mp hi).le
  have h2 : (0 : ℝ) ≤ i := Nat.cast_nonneg i
  rw [areaWeight, abs_le]
  push_cast
  constructor <;> linarith

/-- The covariance of the first step, entry by entry. -/
theorem harmonic_eulerCov {δ : ℝ} (hδ : 0 < δ) (hδ1 : δ ≤ 1 / 1000) :
    |eulerCov (Ivp.Harmonic.M 0.1 0.1) (Ivp.Harmonic.C 1 * (Ivp.Harmonic.C 1)ᵀ) δ 100 0 0 - δ ^ 3 / 3| ≤ 26 / 1000 * δ ^ 3 ∧
    |eulerCov (Ivp.Harmonic.M 0.1 0.1) (Ivp.Harmonic.C 1 * (Ivp.Harmonic.C 1)ᵀ) δ 100 0 1 - δ ^ 2 / 2| ≤ 26 / 1000 * δ ^ 2 ∧
    |eulerCov (Ivp.Harmonic.M 0.1 0.1) (Ivp.Harmonic.C 1 * (Ivp.Harmonic.C 1)ᵀ) δ 100 1 0 - δ ^ 2 / 2| ≤ 26 / 1000 * δ ^ 2 ∧
    |eulerCov (Ivp.Harmonic.M 0.1 0.1) (Ivp.Harmonic.C 1 * (Ivp.Harmonic.C 1)ᵀ) δ 100 1 1 - δ| ≤ 26 / 1000 * δ := by
  obtain ⟨P, hP⟩ : ∃ P, P = eulerMeanPow (Ivp.Harmonic.M 0.1 0.1) δ 100 fun _ => 1 := ⟨_, rfl⟩
  obtain ⟨Q, hQ⟩ : ∃ Q, Q = eulerMeanPow (Ivp.Harmonic.M 0.1 0.1) δ 100 (areaWeight 100) := ⟨_, rfl⟩
  have hC : Ivp.Harmonic.C 1 * (Ivp.Harmonic.C 1)ᵀ = !![0, 0; 0, 1] := by
    ext i j
    fin_cases i <;> fin_cases j <;> simp [Ivp.Harmonic.C, mul_apply]
  have hA : ∀ (A : Mat 2 2) i j, (A * !![0, 0; 0, 1] * Aᵀ : Mat 2 2) i j = A i 1 * A j 1 := fun A i j => by
    simp [mul_apply, Fin.sum_univ_two]
  have e : ∀ i j, eulerCov (Ivp.Harmonic.M 0.1 0.1) (Ivp.Harmonic.C 1 * (Ivp.Harmonic.C 1)ᵀ) δ 100 i j = δ * (P i 1 * P j 1) + 3 * δ * (Q i 1 * Q j 1) := fun i j => by
    rw [eulerCov, ← hP, ← hQ, hC, Matrix.add_apply, Matrix.smul_apply, Matrix.smul_apply, hA, hA, smul_eq_mul, smul_eq_mul]
  have hp := harmonic_meanPow hδ hδ1 (w := fun _ => 1) (fun _ _ => by simp)
  have hq := harmonic_meanPow hδ hδ1 (w := areaWeight 100) (fun _ => areaWeight_abs)
  have s1 : ∑ i ∈ range 100, (1 : ℝ) * ((99 - i : ℕ) : ℝ) = 4950 := by
    simp only [one_mul]
    rw [← Nat.cast_sum]
    norm_num [show ∑ i ∈ range 100, (99 - i) = 4950 by decide]
  have s2 : ∑ i ∈ range 100, areaWeight 100 i = 1 := by
    norm_num [sum_range_succ, areaWeight]
  have s3 : ∑ i ∈ range 100, areaWeight 100 i * ((99 - i : ℕ) : ℝ) = 1716 := by
    norm_num [sum_range_succ, areaWeight]
  rw [← hP, s1] at hp
  rw [← hQ, s3, s2] at hq
  obtain ⟨p0, hp0⟩ : ∃ p0, P 0 1 = δ * p0 := ⟨P 0 1 / δ, by field_simp⟩
  obtain ⟨q0, hq0⟩ : ∃ q0, Q 0 1 = δ * q0 := ⟨Q 0 1 / δ, by field_simp⟩
  obtain ⟨p1, hp1⟩ : ∃ p1, P 1 1 = p1 := ⟨_, rfl⟩
  obtain ⟨q1, hq1⟩ : ∃ q1, Q 1 1 = q1 := ⟨_, rfl⟩
  rw [hp0, hp1] at hp
  rw [hq0, hq1] at hq
  have scale : ∀ {x c ε : ℝ}, |δ * x - c * δ| ≤ ε * δ → |x - c| ≤ ε := fun {x c ε} h => by
    have : δ * x - c * δ = δ * (x - c) := by ring
    rw [this, abs_mul, abs_of_pos hδ, mul_comm ε] at h
    exact le_of_mul_le_mul_left h hδ
  have bp0 := abs_le.mp (scale (x := p0) (c := 0.495) (ε := 12 / 1000) (by convert hp.1 using 2; ring))
  have bq0 := abs_le.mp (scale (x := q0) (c := 0.1716) (ε := 12 / 1000) (by convert hq.1 using 2; ring))
  have bp1 := abs_le.mp hp.2
  have bq1 := abs_le.mp hq.2
  simp only [sum_const, card_range, nsmul_eq_mul] at bp1
  norm_num at bp0 bq0 bp1 bq1
  obtain ⟨bp0l, bp0u⟩ := bp0
  obtain ⟨bq0l, bq0u⟩ := bq0
  obtain ⟨bp1l, bp1u⟩ := bp1
  obtain ⟨bq1l, bq1u⟩ := bq1
  have prod : ∀ {x y a b c d : ℝ}, 0 ≤ a → a ≤ x → x ≤ b → 0 ≤ c → c ≤ y → y ≤ d → a * c ≤ x * y ∧ x * y ≤ b * d := fun ha h1 h2 hc h3 h4 =>
    ⟨mul_le_mul h1 h3 hc (ha.trans h1), mul_le_mul h2 h4 (hc.trans h3) ((ha.trans h1).trans h2)⟩
  have r00 := prod (x := p0) (y := p0) (a := 0.483) (b := 0.507) (c := 0.483) (d := 0.507) (by norm_num) (by linarith) (by linarith) (by norm_num) (by linarith) (by linarith)
  have s00 := prod (x := q0) (y := q0) (a := 0.1596) (b := 0.1836) (c := 0.1596) (d := 0.1836) (by norm_num) (by linarith) (by linarith) (by norm_num) (by linarith) (by linarith)
  have r01 := prod (x := p0) (y := p1) (a := 0.483) (b := 0.507) (c := 0.994) (d := 1.006) (by norm_num) (by linarith) (by linarith) (by norm_num) (by linarith) (by linarith)
  have s01 := prod (x := q0) (y := q1) (a := 0.1596) (b := 0.1836) (c := 0.004) (d := 0.016) (by norm_num) (by linarith) (by linarith) (by norm_num) (by linarith) (by linarith)
  have r11 := prod (x := p1) (y := p1) (a := 0.994) (b := 1.006) (c := 0.994) (d := 1.006) (by norm_num) (by linarith) (by linarith) (by norm_num) (by linarith) (by linarith)
  have s11 := prod (x := q1) (y := q1) (a := 0.004) (b := 0.016) (c := 0.004) (d := 0.016) (by norm_num) (by linarith) (by linarith) (by norm_num) (by linarith) (by linarith)
  have fin : ∀ {v c g : ℝ}, 0 ≤ g → |v - c| ≤ 26 / 1000 → |g * v - g * c| ≤ 26 / 1000 * g := fun {v c g} hg h => by
    rw [← mul_sub, abs_mul, abs_of_nonneg hg, mul_comm]
    gcongr
  have t00 := fin (v := p0 * p0 + 3 * (q0 * q0)) (c := 1 / 3) (g := δ ^ 3) (by positivity) (abs_le.mpr ⟨by linarith [r00.1, s00.1], by linarith [r00.2, s00.2]⟩)
  have t01 := fin (v := p0 * p1 + 3 * (q0 * q1)) (c := 1 / 2) (g := δ ^ 2) (by positivity) (abs_le.mpr ⟨by linarith [r01.1, s01.1], by linarith [r01.2, s01.2]⟩)
  have t11 := fin (v := p1 * p1 + 3 * (q1 * q1)) (c := 1) (g := δ) (by positivity) (abs_le.mpr ⟨by linarith [r11.1, s11.1], by linarith [r11.2, s11.2]⟩)
  refine ⟨?_, ?_, ?_, ?_⟩
  · rw [e, hp0, hq0]; convert t00 using 2; ring
  · rw [e, hp0, hq0, hp1, hq1]; convert t01 using 2; ring
  · rw [e, hp0, hq0, hp1, hq1]; convert t01 using 2; ring
  · rw [e, hp1, hq1]; convert t11 using 2; ring

/-- The entries of the matrix exponential for small times. -/
theorem harmonic_exp {s : ℝ} (hs : 0 ≤ s) (hs1 : s ≤ 1 / 1000) :
    |expm (s • Ivp.Harmonic.M 0.1 0.1) 0 1 - s| ≤ 1 / 1000 * s ∧ |expm (s • Ivp.Harmonic.M 0.1 0.1) 1 1 - 1| ≤ 1 / 1000 := by
  have h1 := trans15_sub (Ivp.Harmonic.M 0.1 0.1) harmonic_norm hs (le_refl s)
  have hX := exp_small hs1
  have hb : (2 : ℝ) ^ 3 * Real.exp (s * 2) * s ^ 3 ≤ 24 / 1000000 * s := by
    have h2 : s ^ 3 ≤ 1 / 1000 * (1 / 1000) * s := by
      calc s ^ 3 = s * s * s := by ring
        _ ≤ _ := by gcongr
    calc (2 : ℝ) ^ 3 * Real.exp (s * 2) * s ^ 3 ≤ 2 ^ 3 * 3 * (1 / 1000 * (1 / 1000) * s) := by gcongr
      _ = _ := by ring
  have h2 := fun i j => (abs_entry_le _ i j).trans (h1.trans hb)
  have e01 : trans15 (Ivp.Harmonic.M 0.1 0.1) s 0 1 = s - 0.05 * s ^ 2 := by
    rw [trans15, Matrix.add_apply, Matrix.add_apply, Matrix.smul_apply, Matrix.smul_apply, mul_apply, Fin.sum_univ_two]
    simp [Ivp.Harmonic.M]
    ring
  have e11 : trans15 (Ivp.Harmonic.M 0.1 0.1) s 1 1 = 1 - 0.1 * s - 0.045 * s ^ 2 := by
    rw [trans15, Matrix.add_apply, Matrix.add_apply, Matrix.smul_apply, Matrix.smul_apply, mul_apply, Fin.sum_univ_two]
    simp [Ivp.Harmonic.M]
    ring
  have hs2 : s ^ 2 ≤ 1 / 1000 * s := by rw [sq]; gcongr
  have hs3 : 0 ≤ s ^ 2 := sq_nonneg s
  constructor
  · have h3 := abs_le.mp (h2 0 1)
    rw [Matrix.sub_apply, e01] at h3
    rw [abs_le]
    constructor <;> linarith [h3.1, h3.2]
  · have h3 := abs_le.mp (h2 1 1)
    rw [Matrix.sub_apply, e11] at h3
    rw [abs_le]
    constructor <;> linarith [h3.1, h3.2]

end Norm

theorem trap_bound {n : ℕ} {h : ℝ} (hh : 0 ≤ h) (f g : ℝ → ℝ) {ε : ℝ} (hfg : ∀ k ≤ n, |f (k * h) - g (k * h)| ≤ ε * g (k * h)) :
    |∑ k ∈ range n, h / 2 * (f (k * h) + f ((k + 1) * h)) - ∑ k ∈ range n, h / 2 * (g (k * h) + g ((k + 1) * h))| ≤ ε * ∑ k ∈ range n, h / 2 * (g (k * h) + g ((k + 1) * h)) := by
  rw [← sum_sub_distrib, mul_sum]
  refine (abs_sum_le_sum_abs _ _).trans (sum_le_sum fun k hk => ?_)
  have hk' := mem_range.mp hk
  have h1 := hfg k hk'.le
  have h2 := hfg (k + 1) hk'
  push_cast at h2
  have e : h / 2 * (f (k * h) + f ((k + 1) * h)) - h / 2 * (g (k * h) + g ((k + 1) * h)) = h / 2 * ((f (k * h) - g (k * h)) + (f ((k + 1) * h) - g ((k + 1) * h))) := by ring
  rw [e, abs_mul, abs_of_nonneg (by positivity)]
  calc h / 2 * |(f (k * h) - g (k * h)) + (f ((k + 1) * h) - g ((k + 1) * h))| ≤ h / 2 * (ε * g (k * h) + ε * g ((k + 1) * h)) := by
        have := (abs_add_le _ _).trans (add_le_add h1 h2)
        gcongr
    _ = _ := by ring

theorem mul_self_near {x s : ℝ} (h0 : 0 ≤ s) (h1 : |x - s| ≤ 1 / 1000 * s) : |x * x - s ^ 2| ≤ 3 / 1000 * s ^ 2 := by
  have h2 : |x + s| ≤ 3 * s := by
    have := abs_le.mp h1
    rw [abs_le]; constructor <;> linarith [this.1, this.2]
  calc |x * x - s ^ 2| = |x - s| * |x + s| := by rw [← abs_mul]; congr 1; ring
    _ ≤ 1 / 1000 * s * (3 * s) := by gcongr
    _ = _ := by ring

theorem mul_near {x y s : ℝ} (h0 : 0 ≤ s) (h1 : |x - s| ≤ 1 / 1000 * s) (h2 : |y - 1| ≤ 1 / 1000) : |x * y - s| ≤ 3 / 1000 * s := by
  have h3 : |y| ≤ 2 := by
    have := abs_le.mp h2
    rw [abs_le]; constructor <;> linarith [this.1, this.2]
  calc |x * y - s| = |(x - s) * y + s * (y - 1)| := by congr 1; ring
    _ ≤ |x - s| * |y| + |s| * |y - 1| := by rw [← abs_mul, ← abs_mul]; exact abs_add_le _ _
    _ ≤ 1 / 1000 * s * 2 + s * (1 / 1000) := by rw [abs_of_nonneg h0]; gcongr
    _ = _ := by ring

/-- The reference variance of the test, entry by entry. -/
theorem harmonic_variance {t : ℝ} (ht : 0 < t) (ht1 : t ≤ 1 / 1000) :
    |Ivp.Harmonic.variance 0.1 0.1 (Ivp.Harmonic.C 1) t 0 0 - t ^ 3 / 3| ≤ 4 / 1000 * t ^ 3 ∧
    |Ivp.Harmonic.variance 0.1 0.1 (Ivp.Harmonic.C 1) t 0 1 - t ^ 2 / 2| ≤ 4 / 1000 * t ^ 2 ∧
    |Ivp.Harmonic.variance 0.1 0.1 (Ivp.Harmonic.C 1) t 1 0 - t ^ 2 / 2| ≤ 4 / 1000 * t ^ 2 ∧
    |Ivp.Harmonic.variance 0.1 0.1 (Ivp.Harmonic.C 1) t 1 1 - t| ≤ 4 / 1000 * t := by
  obtain ⟨F, hF⟩ : ∃ F, F = Ivp.Harmonic.M 0.1 0.1 := ⟨_, rfl⟩
  have hC : Ivp.Harmonic.C 1 * (Ivp.Harmonic.C 1)ᵀ = !![0, 0; 0, 1] := by
    ext i j
    fin_cases i <;> fin_cases j <;> simp [Ivp.Harmonic.C, mul_apply]
  have hA : ∀ (A : Mat 2 2) i j, (A * !![0, 0; 0, 1] * Aᵀ : Mat 2 2) i j = A i 1 * A j 1 := fun A i j => by
    simp [mul_apply, Fin.sum_univ_two]
  have hN : ∀ (N : ℕ) (t : ℝ), Jnp.trapezoid ((Jnp.linspace 0 t N).map fun s =>
      expm (s • Ivp.Harmonic.M 0.1 0.1) * Ivp.Harmonic.C 1 * (expm (s • Ivp.Harmonic.M 0.1 0.1) * Ivp.Harmonic.C 1)ᵀ) (Jnp.linspace 0 t N) =
      (computeTransition (Ivp.Harmonic.M 0.1 0.1) 0 (Ivp.Harmonic.C 1) t N).Q := fun _ _ => rfl
  have hq : Ivp.Harmonic.variance 0.1 0.1 (Ivp.Harmonic.C 1) t = (computeTransition (Ivp.Harmonic.M 0.1 0.1) 0 (Ivp.Harmonic.C 1) t 1000).Q := by
    rw [← hN, Ivp.Harmonic.variance]
  obtain ⟨h, hh⟩ : ∃ h : ℝ, h = t / 999 := ⟨_, rfl⟩
  have hh0 : 0 < h := by rw [hh]; positivity
  have hth : t = 999 * h := by rw [hh]; field_simp
  have e : ∀ i j, Ivp.Harmonic.variance 0.1 0.1 (Ivp.Harmonic.C 1) t i j = ∑ k ∈ range 999, h / 2 *
      (expm ((k * h) • F) i 1 * expm ((k * h) • F) j 1 + expm (((k + 1) * h) • F) i 1 * expm (((k + 1) * h) • F) j 1) := fun i j => by
    rw [hq, computeTransition_Q_eq _ _ _ _ 998, Matrix.sum_apply, hC, ← hF]
    have e9 : t / (((998 : ℕ) : ℝ) + 1) = h := by rw [hh]; norm_num
    rw [e9]
    refine sum_congr rfl fun k _ => ?_
    rw [Matrix.smul_apply, Matrix.add_apply, hA, hA, smul_eq_mul]
  have hk : ∀ k : ℕ, k ≤ 999 → 0 ≤ (k : ℝ) * h ∧ (k : ℝ) * h ≤ 1 / 1000 := fun k hk => ⟨by positivity, by
    refine le_trans ?_ ht1
    rw [hth]
    have : (k : ℝ) ≤ 999 := by exact_mod_cast hk
    gcongr⟩
  have hE := fun (k : ℕ) (hk9 : k ≤ 999) => harmonic_exp (hk k hk9).1 (hk k hk9).2
  rw [← hF] at hE
  have id2 : ∑ k ∈ range 999, h / 2 * (((k : ℝ) * h) ^ 2 + (((k : ℝ) + 1) * h) ^ 2) = h ^ 3 * (999 ^ 3 / 3 + 999 / 6) := by
    have : ∀ n : ℕ, ∑ k ∈ range n, h / 2 * (((k : ℝ) * h) ^ 2 + (((k : ℝ) + 1) * h) ^ 2) = h ^ 3 * ((n : ℝ) ^ 3 / 3 + n / 6) := fun n => by
      induction n with
      | zero => simp
      | succ n ih => rw [sum_range_succ, ih]; push_cast; ring
    simpa using this 999
  have id1 : ∑ k ∈ range 999, h / 2 * ((k : ℝ) * h + ((k : ℝ) + 1) * h) = t ^ 2 / 2 := by
    have : ∀ n : ℕ, ∑ k ∈ range n, h / 2 * ((k : ℝ) * h + ((k : ℝ) + 1) * h) = ((n : ℝ) * h) ^ 2 / 2 := fun n => by
      induction n with
      | zero => simp
      | succ n ih => rw [sum_range_succ, ih]; push_cast; ring
    rw [this 999, hth]; norm_num
  have id0 : ∑ k ∈ range 999, h / 2 * ((1 : ℝ) + 1) = t := by
    rw [sum_const, card_range, nsmul_eq_mul, hth]; push_cast; ring
  have b00 := trap_bound hh0.le (n := 999) (fun s => expm (s • F) 0 1 * expm (s • F) 0 1) (fun s => s ^ 2) (ε := 3 / 1000) fun k hk9 =>
    mul_self_near (hk k hk9).1 (hE k hk9).1
  have b01 := trap_bound hh0.le (n := 999) (fun s => expm (s • F) 0 1 * expm (s • F) 1 1) (fun s => s) (ε := 3 / 1000) fun k hk9 =>
    mul_near (hk k hk9).1 (hE k hk9).1 (hE k hk9).2
  have b11 := trap_bound hh0.le (n := 999) (fun s => expm (s • F) 1 1 * expm (s • F) 1 1) (fun _ => 1) (ε := 3 / 1000) fun k hk9 =>
    mul_near zero_le_one (le_trans (hE k hk9).2 (le_of_eq (mul_one _).symm)) (hE k hk9).2
  rw [id2] at b00
  rw [id1] at b01
  rw [id0] at b11
  have ht3 : h ^ 3 * (999 ^ 3 / 3 + 999 / 6) = t ^ 3 / 3 + t ^ 3 / (6 * 999 ^ 2) := by rw [hth]; ring
  rw [ht3] at b00
  have ht0 : 0 < t ^ 3 := by positivity
  have ht0' : 0 < t ^ 2 := by positivity
  refine ⟨?_, ?_, ?_, ?_⟩
  · rw [e]
    have := abs_le.mp b00
    rw [abs_le]
    constructor <;> linarith [this.1, this.2]
  · rw [e]
    have := abs_le.mp b01
    rw [abs_le]
    constructor <;> linarith [this.1, this.2]
  · rw [e]
    simp only [mul_comm (expm _ 1 1) (expm _ 0 1)]
    have := abs_le.mp b01
    rw [abs_le]
    constructor <;> linarith [this.1, this.2]
  · rw [e]
    have := abs_le.mp b11
    rw [abs_le]
    constructor <;> linarith [this.1, this.2]

end Verif
