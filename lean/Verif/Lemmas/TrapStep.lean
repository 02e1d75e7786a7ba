import Verif.Lemmas.TrapStrong
import Verif.Props.EkfSde

/-! One interval of `sde_solver` with EKF0 on an SDE with additive noise: how the trapezoidal scheme with `M` steps depends on
the state and on the coefficients of the parabola. -/

namespace Verif

open Matrix Spec Jnp Set

variable {d m : ℕ}

/-- The field of one interval. -/
noncomputable def additiveField (f : Vec d → ℝ → Vec d) (S : Mat d m) (a0 δ : ℝ) (a b : Vec m) : Vec d → ℝ → Vec d :=
  fun z t => f z (t + a0) + S *ᵥ jacT (fun s => Foster.evalParabola s δ a b) t

theorem trapScheme_succ (vf : Vec d → ℝ → Vec d) (h : ℝ) (y : Vec d) (n : ℕ) :
    trapScheme vf h y (n + 1) = ((trapScheme vf h y n).1 + (h / 2) • ((trapScheme vf h y n).2 +
        vf ((trapScheme vf h y n).1 + h • (trapScheme vf h y n).2) ((n + 1) * h)),
        vf ((trapScheme vf h y n).1 + h • (trapScheme vf h y n).2) ((n + 1) * h)) := rfl

/-- Powers that occur in the stability bounds. -/
theorem pow_le_exp_rate {q h T : ℝ} (hq : 0 ≤ q) (hh : 0 ≤ h) {n : ℕ} (hn : n * h ≤ T) : (1 + q * h) ^ n ≤ Real.exp (q * T) := by
  calc (1 + q * h) ^ n ≤ Real.exp (q * h) ^ n := pow_le_pow_left₀ (by positivity) (by linarith [Real.add_one_le_exp (q * h)]) n
    _ = Real.exp (q * (n * h)) := by rw [← Real.exp_nat_mul]; ring_nf
    _ ≤ Real.exp (q * T) := Real.exp_le_exp.mpr (mul_le_mul_of_nonneg_left hn hq)

/-- Stability: the increment of the scheme over an interval is Lipschitz in the initial state, with a constant of order `δ`. -/
theorem trap_stable {f : Vec d → ℝ → Vec d} {T L : ℝ} (hL : 0 ≤ L) (hlip : ∀ x y, ∀ t ∈ Icc 0 T, ‖f x t - f y t‖ ≤ L * ‖x - y‖)
    (S : Mat d m) {a0 δ : ℝ} (hδ : 0 < δ) (ha : 0 ≤ a0) (haδ : a0 + δ ≤ T) {M : ℕ} (hM : 0 < M) (a b : Vec m) (y y' : Vec d) :
    ‖(trapScheme (additiveField f S a0 δ a b) (δ / M) y M).1 - y - ((trapScheme (additiveField f S a0 δ a b) (δ / M) y' M).1 - y')‖ ≤
      L * Real.exp (3 * L / 2 * T) * (1 + L * T) * δ * ‖y - y'‖ := by
  have hM' : (0 : ℝ) < M := by exact_mod_cast hM
  obtain ⟨h, hh⟩ : ∃ h, h = δ / M := ⟨_, rfl⟩
  rw [← hh]
  have hh0 : 0 < h := by rw [hh]; positivity
  have hMh : M * h = δ := by rw [hh]; field_simp
  have hδT : δ ≤ T := by linarith
  have hT : 0 ≤ T := hδ.le.trans hδT
  obtain ⟨vf, hvf⟩ : ∃ vf, vf = additiveField f S a0 δ a b := ⟨_, rfl⟩
  rw [← hvf]
  have hvl : ∀ x x' t, t ∈ Icc 0 δ → ‖vf x t - vf x' t‖ ≤ L * ‖x - x'‖ := fun x x' t ht => by
    simp only [hvf, additiveField, add_sub_add_right_eq_sub]
    exact hlip x x' _ ⟨by linarith [ht.1], by linarith [ht.2]⟩
  obtain ⟨X, hX⟩ : ∃ X : ℕ → Vec d, ∀ n, X n = (trapScheme vf h y n).1 - (trapScheme vf h y' n).1 := ⟨_, fun _ => rfl⟩
  obtain ⟨V, hV⟩ : ∃ V : ℕ → Vec d, ∀ n, V n = (trapScheme vf h y n).2 - (trapScheme vf h y' n).2 := ⟨_, fun _ => rfl⟩
  have hX0 : X 0 = y - y' := by rw [hX]; rfl
  have hV0 : ‖V 0‖ ≤ L * ‖y - y'‖ := by rw [hV]; exact hvl y y' 0 ⟨le_rfl, hδ.le⟩
  have hXs : ∀ n, X (n + 1) = X n + (h / 2) • (V n + V (n + 1)) := fun n => by
    simp only [hX, hV, trapScheme_succ]
    module
  have hVs : ∀ n < M, ‖V (n + 1)‖ ≤ L * (‖X n‖ + h * ‖V n‖) := fun n hn => by
    have e : V (n + 1) = vf ((trapScheme vf h y n).1 + h • (trapScheme vf h y n).2) ((n + 1) * h) -
        vf ((trapScheme vf h y' n).1 + h • (trapScheme vf h y' n).2) ((n + 1) * h) := by rw [hV]; rfl
    rw [e]
    refine (hvl _ _ _ ⟨by positivity, ?_⟩).trans (mul_le_mul_of_nonneg_left ?_ hL)
    · rw [← hMh]
      exact mul_le_mul_of_nonneg_right (by exact_mod_cast hn) hh0.le
    · have : (trapScheme vf h y n).1 + h • (trapScheme vf h y n).2 - ((trapScheme vf h y' n).1 + h • (trapScheme vf h y' n).2) =
          X n + h • V n := by rw [hX, hV]; module
      rw [this]
      refine (norm_add_le _ _).trans ?_
      rw [norm_smul, Real.norm_of_nonneg hh0.le]
  set D := ‖y - y'‖ with hD
  have hD0 : 0 ≤ D := norm_nonneg _
  have hq : ∀ n ≤ M, ‖X n‖ + h * ‖V n‖ ≤ (1 + 3 * L / 2 * h) ^ n * ((1 + L * h) * D) := by
    intro n
    induction n with
    | zero =>
      intro _
      rw [hX0, ← hD]
      have := mul_le_mul_of_nonneg_left hV0 hh0.le
      linarith
    | succ n ih =>
      intro hn
      have h1 := ih (by omega)
      have h2 := hVs n (by omega)
      have h3 : ‖X (n + 1)‖ ≤ ‖X n‖ + h / 2 * (‖V n‖ + ‖V (n + 1)‖) := by
        rw [hXs]
        refine (norm_add_le _ _).trans (add_le_add le_rfl ?_)
        rw [norm_smul, Real.norm_of_nonneg (by positivity)]
        exact mul_le_mul_of_nonneg_left (norm_add_le _ _) (by positivity)
      have h4 := mul_le_mul_of_nonneg_left h2 (by positivity : 0 ≤ 3 / 2 * h)
      have h5 : ‖X (n + 1)‖ + h * ‖V (n + 1)‖ ≤ (1 + 3 * L / 2 * h) * (‖X n‖ + h * ‖V n‖) := by
        have : 0 ≤ h * ‖V n‖ := by positivity
        nlinarith
      refine h5.trans ?_
      rw [pow_succ, mul_comm ((1 + 3 * L / 2 * h) ^ n), mul_assoc]
      exact mul_le_mul_of_nonneg_left h1 (by positivity)
  set E := Real.exp (3 * L / 2 * T) with hE
  have hE1 : 1 ≤ E := Real.one_le_exp (by positivity)
  have hhT : h ≤ T := by
    have : h ≤ δ := by rw [hh]; exact div_le_self hδ.le (by exact_mod_cast hM)
    linarith
  have hnT : ∀ n ≤ M, (n : ℝ) * h ≤ T := fun n hn => by
    have : (n : ℝ) * h ≤ M * h := mul_le_mul_of_nonneg_right (by exact_mod_cast hn) hh0.le
    linarith
  have hq' : ∀ n ≤ M, ‖X n‖ + h * ‖V n‖ ≤ E * ((1 + L * T) * D) := fun n hn => by
    refine (hq n hn).trans ?_
    have h1 := pow_le_exp_rate (q := 3 * L / 2) (by positivity) hh0.le (hnT n hn)
    have h2 : 1 + L * h ≤ 1 + L * T := by have := mul_le_mul_of_nonneg_left hhT hL; linarith
    exact mul_le_mul h1 (mul_le_mul_of_nonneg_right h2 hD0) (by positivity) (by positivity)
  have hVb : ∀ n ≤ M, ‖V n‖ ≤ L * (E * ((1 + L * T) * D)) := fun n hn => by
    cases n with
    | zero =>
      refine hV0.trans (mul_le_mul_of_nonneg_left ?_ hL)
      have h1 : D ≤ (1 + L * T) * D := le_mul_of_one_le_left hD0 (by have := mul_nonneg hL hT; linarith)
      exact h1.trans (le_mul_of_one_le_left (by positivity) hE1)
    | succ n => exact (hVs n (by omega)).trans (mul_le_mul_of_nonneg_left (hq' n (by omega)) hL)
  have hfin : ∀ n ≤ M, ‖X n - (y - y')‖ ≤ n * h * (L * (E * ((1 + L * T) * D))) := by
    intro n
    induction n with
    | zero => intro _; rw [hX0]; simp
    | succ n ih =>
      intro hn
      rw [hXs, add_sub_right_comm]
      refine (norm_add_le _ _).trans ?_
      rw [norm_smul, Real.norm_of_nonneg (by positivity)]
      have h1 := ih (by omega)
      have h2 := mul_le_mul_of_nonneg_left ((norm_add_le (V n) (V (n + 1))).trans (add_le_add (hVb n (by omega)) (hVb (n + 1) hn)))
        (by positivity : 0 ≤ h / 2)
      push_cast
      linarith
  have := hfin M le_rfl
  rw [hMh, hX] at this
  have e : (trapScheme vf h y M).1 - y - ((trapScheme vf h y' M).1 - y') = (trapScheme vf h y M).1 - (trapScheme vf h y' M).1 - (y - y') := by abel
  rw [e]
  refine this.trans (le_of_eq ?_)
  ring

/-- The points at which the scheme sees the noise. -/
noncomputable def trapNoise (M : ℕ) (a b : Vec m) (n : ℕ) : Vec m :=
  if n = 0 then 0 else Foster.evalParabola (n * (1 / M : ℝ)) 1 a b + (Real.sqrt 6 / M ^ 2) • b

/-- The trapezoidal sums of these points. -/
noncomputable def trapNoiseSum (M : ℕ) (a b : Vec m) (h : ℝ) : ℕ → Vec m
  | 0 => 0
  | n + 1 => trapNoiseSum M a b h n + (h / 2) • (trapNoise M a b n + trapNoise M a b (n + 1))

/-- The excess of the weight of the second coefficient over its exact value `1 / √6`. -/
noncomputable def trapExcess (M : ℕ) : ℝ := Real.sqrt 6 * (5 / (6 * M ^ 2) - 1 / (2 * M ^ 3))

theorem trapExcess_bound {M : ℕ} (hM : 0 < M) : |trapExcess M| ≤ 3 := by
  have hM' : (1 : ℝ) ≤ M := by exact_mod_cast hM
  have h6 : Real.sqrt 6 ≤ 3 := by rw [Real.sqrt_le_left (by norm_num)]; norm_num
  have h60 : 0 ≤ Real.sqrt 6 := Real.sqrt_nonneg _
  have h2 : (1 : ℝ) ≤ M ^ 2 := one_le_pow₀ hM'
  have h3 : (1 : ℝ) ≤ M ^ 3 := one_le_pow₀ hM'
  have i2 : 5 / (6 * (M : ℝ) ^ 2) ≤ 5 / 6 := by rw [div_le_div_iff₀ (by positivity) (by norm_num)]; nlinarith
  have i3 : 1 / (2 * (M : ℝ) ^ 3) ≤ 1 / 2 := by rw [div_le_div_iff₀ (by positivity) (by norm_num)]; nlinarith
  have j2 : 0 ≤ 5 / (6 * (M : ℝ) ^ 2) := by positivity
  have j3 : 0 ≤ 1 / (2 * (M : ℝ) ^ 3) := by positivity
  have hb : |5 / (6 * (M : ℝ) ^ 2) - 1 / (2 * (M : ℝ) ^ 3)| ≤ 1 := abs_le.mpr ⟨by linarith, by linarith⟩
  rw [trapExcess, abs_mul, abs_of_nonneg h60]
  calc Real.sqrt 6 * _ ≤ 3 * 1 := mul_le_mul h6 hb (abs_nonneg _) (by norm_num)
    _ = 3 := by norm_num

theorem trapNoiseSum_closed {M : ℕ} (hM : 0 < M) (a b : Vec m) (h : ℝ) (n : ℕ) : trapNoiseSum M a b h n =
    (h * (n : ℝ) ^ 2 / (2 * M)) • a + (h * Real.sqrt 6 * ((n : ℝ) ^ 2 / (2 * M) - ((n : ℝ) ^ 3 / 3 + n / 6) / M ^ 2 +
      (if n = 0 then 0 else (n : ℝ) - 1 / 2) / M ^ 2)) • b := by
  have hM' : (M : ℝ) ≠ 0 := by exact_mod_cast hM.ne'
  induction n with
  | zero => simp [trapNoiseSum]
  | succ n ih =>
    rw [trapNoiseSum, ih]
    funext j
    rcases Nat.eq_zero_or_pos n with rfl | hn
    · simp [trapNoise, Foster.evalParabola, Foster.evalParabola1]
      field_simp
      ring
    · simp only [trapNoise, hn.ne', Nat.succ_ne_zero, if_false, Foster.evalParabola, Foster.evalParabola1, Pi.add_apply, Pi.smul_apply,
        smul_eq_mul, div_one]
      push_cast
      field_simp
      ring

theorem trapNoiseSum_end {M : ℕ} (hM : 0 < M) (a b : Vec m) (δ : ℝ) : trapNoiseSum M a b (δ / M) M =
    δ • ((1 / 2 : ℝ) • a + (1 / Real.sqrt 6 + trapExcess M) • b) := by
  have hM' : (M : ℝ) ≠ 0 := by exact_mod_cast hM.ne'
  have h6 : (1 : ℝ) / Real.sqrt 6 = Real.sqrt 6 / 6 := by
    rw [div_eq_div_iff (by positivity) (by norm_num), Real.mul_self_sqrt (by norm_num)]; norm_num
  rw [trapNoiseSum_closed hM, if_neg hM.ne', h6, trapExcess, smul_add, smul_smul, smul_smul]
  congr 2
  · field_simp
  · field_simp
    ring

theorem trapNoise_le {M : ℕ} (hM : 0 < M) (a b : Vec m) {n : ℕ} (hn : n ≤ M) : ‖trapNoise M a b n‖ ≤ ‖a‖ + 4 * ‖b‖ := by
  have hM' : (1 : ℝ) ≤ M := by exact_mod_cast hM
  unfold trapNoise
  split_ifs with h0
  · rw [norm_zero]; positivity
  have hu0 : (0 : ℝ) ≤ n * (1 / M) := by positivity
  have hu1 : (n : ℝ) * (1 / M) ≤ 1 := by
    rw [mul_one_div, div_le_one (by positivity)]
    exact_mod_cast hn
  have h6 : Real.sqrt 6 ≤ 5 / 2 := by rw [Real.sqrt_le_left (by norm_num)]; norm_num
  have h60 : 0 ≤ Real.sqrt 6 := Real.sqrt_nonneg _
  have hMM : Real.sqrt 6 / (M : ℝ) ^ 2 ≤ 5 / 2 := by
    refine (div_le_self h60 (one_le_pow₀ hM')).trans h6
  have hMM0 : 0 ≤ Real.sqrt 6 / (M : ℝ) ^ 2 := by positivity
  rw [pi_norm_le_iff_of_nonneg (by positivity)]
  intro j
  have ha : |a j| ≤ ‖a‖ := norm_le_pi_norm a j
  have hb : |b j| ≤ ‖b‖ := norm_le_pi_norm b j
  generalize (n : ℝ) * (1 / M) = u at hu0 hu1
  generalize Real.sqrt 6 / (M : ℝ) ^ 2 = c at hMM hMM0
  simp only [Pi.add_apply, Pi.smul_apply, smul_eq_mul, Foster.evalParabola, Foster.evalParabola1, div_one, Real.norm_eq_abs]
  have hq : 0 ≤ u * (1 - u) ∧ u * (1 - u) ≤ 1 / 4 := ⟨mul_nonneg hu0 (by linarith), by nlinarith [sq_nonneg (u - 1 / 2)]⟩
  have e : a j * u + b j * Real.sqrt 6 * u * (1 - u) + c * b j = a j * u + (Real.sqrt 6 * (u * (1 - u)) + c) * b j := by ring
  rw [e]
  refine (abs_add_le _ _).trans (add_le_add ?_ ?_)
  · rw [abs_mul, abs_of_nonneg hu0]
    exact (mul_le_of_le_one_right (abs_nonneg _) hu1).trans ha
  · have h1 : Real.sqrt 6 * (u * (1 - u)) ≤ 5 / 2 * (1 / 4) := mul_le_mul h6 hq.2 hq.1 (by norm_num)
    have h2 : 0 ≤ Real.sqrt 6 * (u * (1 - u)) := mul_nonneg h60 hq.1
    rw [abs_mul, abs_of_nonneg (by linarith)]
    exact mul_le_mul (by linarith) hb (abs_nonneg _) (by norm_num)

end Verif
