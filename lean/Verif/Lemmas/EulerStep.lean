import Verif.Lemmas.L2Strong
import Verif.Lemmas.TrapConsist
import Verif.Lemmas.EulerMaruyama

/-! One interval of `sde_solver` with `M` explicit Euler steps, on an SDE with additive noise. -/

namespace Verif

open Matrix Spec Jnp Set

variable {d m : ℕ}

/-- The noise accumulated by `n` Euler steps: left Riemann sums of the slope of the parabola. -/
noncomputable def eulerNoise (M : ℕ) (a b : Vec m) (n : ℕ) : Vec m :=
  Foster.evalParabola (n * (1 / M : ℝ)) 1 a b + (n * (Real.sqrt 6 / M ^ 2)) • b

theorem eulerNoise_succ {δ : ℝ} (hδ : δ ≠ 0) {M : ℕ} (hM : 0 < M) (a b : Vec m) (n : ℕ) :
    eulerNoise M a b (n + 1) = eulerNoise M a b n + (δ / M) • jacT (fun s => Foster.evalParabola s δ a b) (n * (δ / M)) := by
  have hM' : (M : ℝ) ≠ 0 := by exact_mod_cast hM.ne'
  funext j
  simp only [eulerNoise, jacT_evalParabola, Pi.smul_apply, Pi.add_apply, smul_eq_mul, Foster.evalParabola, Foster.evalParabola1]
  push_cast
  field_simp
  ring

theorem eulerNoise_zero (M : ℕ) (a b : Vec m) : eulerNoise M a b 0 = 0 := by
  funext j
  simp [eulerNoise, Foster.evalParabola, Foster.evalParabola1]

theorem eulerNoise_end {M : ℕ} (hM : 0 < M) (a b : Vec m) : eulerNoise M a b M = a + (Real.sqrt 6 / M) • b := by
  have hM' : (M : ℝ) ≠ 0 := by exact_mod_cast hM.ne'
  funext j
  simp only [eulerNoise, Pi.smul_apply, Pi.add_apply, smul_eq_mul, Foster.evalParabola, Foster.evalParabola1]
  field_simp
  ring

theorem eulerNoise_le {M : ℕ} (hM : 0 < M) (a b : Vec m) {n : ℕ} (hn : n ≤ M) : ‖eulerNoise M a b n‖ ≤ ‖a‖ + 4 * ‖b‖ := by
  have hM' : (1 : ℝ) ≤ M := by exact_mod_cast hM
  unfold eulerNoise
  have hu0 : (0 : ℝ) ≤ n * (1 / M) := by positivity
  have hu1 : (n : ℝ) * (1 / M) ≤ 1 := by
    rw [mul_one_div, div_le_one (by positivity)]
    exact_mod_cast hn
  have h6 : Real.sqrt 6 ≤ 5 / 2 := by rw [Real.sqrt_le_left (by norm_num)]; norm_num
  have h60 : 0 ≤ Real.sqrt 6 := Real.sqrt_nonneg _
  have hc0 : 0 ≤ n * (Real.sqrt 6 / (M : ℝ) ^ 2) := by positivity
  have hc1 : n * (Real.sqrt 6 / (M : ℝ) ^ 2) ≤ 5 / 2 := by
    have e : n * (Real.sqrt 6 / (M : ℝ) ^ 2) = n * (1 / M) * (Real.sqrt 6 / M) := by field_simp
    have h2 : Real.sqrt 6 / M ≤ 5 / 2 := (div_le_self h60 hM').trans h6
    rw [e]
    exact (mul_le_mul hu1 h2 (by positivity) (by norm_num)).trans (by norm_num)
  rw [pi_norm_le_iff_of_nonneg (by positivity)]
  intro j
  have ha : |a j| ≤ ‖a‖ := norm_le_pi_norm a j
  have hb : |b j| ≤ ‖b‖ := norm_le_pi_norm b j
  generalize (n : ℝ) * (1 / M) = u at hu0 hu1
  generalize (n : ℝ) * (Real.sqrt 6 / (M : ℝ) ^ 2) = c at hc0 hc1
  simp only [Pi.add_apply, Pi.smul_apply, smul_eq_mul, Foster.evalParabola, Foster.evalParabola1, div_one, Real.norm_eq_abs]
  have hq : 0 ≤ u * (1 - u) ∧ u * (1 - u) ≤ 1 / 4 := ⟨mul_nonneg hu0 (by linarith), by nlinarith [sq_nonneg (u - 1 / 2)]⟩
  have e : a j * u + b j * Real.sqrt 6 * u * (1 - u) + c * b j = a j * u + (Real.sqrt 6 * (u * (1 - u)) + c) * b j := by ring
  rw [e]
  refine (abs_add_le _ _).trans (add_le_add ?_ ?_)
  · rw [abs_mul, abs_of_nonneg hu0]
    exact (mul_le_of_le_one_right (abs_nonneg _) hu1).trans ha
  · have h1 : Real.sqrt 6 * (u * (1 - u)) ≤ 5 / 2 * (1 / 4) := mul_le_mul h6 hq.2 hq.1 (by norm_num)
    have h2 : 0 ≤ Real.sqrt 6 * (u * (1 - u)) := mul_nonneg h60 hq.1
    rw [abs_mul, abs_of_nonneg (by linarith)]
    exact mul_le_mul (by linarith) hb (abs_nonneg _) (by norm_num)

/-- Weight of the increment in the term with the Jacobian. -/
noncomputable def eulerLam (M : ℕ) : ℝ := (M - 1) / (2 * M)

/-- Weight of the second coefficient in the term with the Jacobian. -/
noncomputable def eulerMu (M : ℕ) : ℝ := Real.sqrt 6 * ((M - 1) * (M + 4) / (6 * M ^ 2))

theorem eulerNoise_sum_closed {M : ℕ} (hM : 0 < M) (a b : Vec m) (h : ℝ) (n : ℕ) : h • ∑ i ∈ Finset.range n, eulerNoise M a b i =
    (h * ((n : ℝ) * (n - 1) / (2 * M))) • a + (h * Real.sqrt 6 * ((n : ℝ) * (n - 1) / (2 * M) -
      (n : ℝ) * (n - 1) * (2 * n - 1) / (6 * M ^ 2) + (n : ℝ) * (n - 1) / (2 * M ^ 2))) • b := by
  have hM' : (M : ℝ) ≠ 0 := by exact_mod_cast hM.ne'
  induction n with
  | zero => simp
  | succ n ih =>
    rw [Finset.sum_range_succ, smul_add, ih]
    funext j
    simp only [eulerNoise, Foster.evalParabola, Foster.evalParabola1, Pi.add_apply, Pi.smul_apply, smul_eq_mul, div_one]
    push_cast
    field_simp
    ring

theorem eulerNoise_sum {M : ℕ} (hM : 0 < M) (a b : Vec m) (δ : ℝ) : (δ / M) • ∑ i ∈ Finset.range M, eulerNoise M a b i =
    δ • (eulerLam M • a + eulerMu M • b) := by
  have hM' : (M : ℝ) ≠ 0 := by exact_mod_cast hM.ne'
  rw [eulerNoise_sum_closed hM, eulerLam, eulerMu, smul_add, smul_smul, smul_smul]
  congr 2
  · field_simp
  · field_simp
    ring

theorem eulerLam_bound {M : ℕ} (hM : 0 < M) : |eulerLam M| ≤ 4 := by
  have hM' : (1 : ℝ) ≤ M := by exact_mod_cast hM
  rw [eulerLam, abs_of_nonneg (div_nonneg (by linarith) (by positivity)), div_le_iff₀ (by positivity)]
  linarith

theorem eulerMu_bound {M : ℕ} (hM : 0 < M) : |eulerMu M| ≤ 4 := by
  have hM' : (1 : ℝ) ≤ M := by exact_mod_cast hM
  have h6 : Real.sqrt 6 ≤ 3 := by rw [Real.sqrt_le_left (by norm_num)]; norm_num
  have h60 : 0 ≤ Real.sqrt 6 := Real.sqrt_nonneg _
  have h1 : 0 ≤ ((M : ℝ) - 1) * (M + 4) / (6 * M ^ 2) := div_nonneg (mul_nonneg (by linarith) (by linarith)) (by positivity)
  have h2 : ((M : ℝ) - 1) * (M + 4) / (6 * M ^ 2) ≤ 1 := by
    rw [div_le_one (by positivity)]
    nlinarith
  rw [eulerMu, abs_of_nonneg (by positivity)]
  calc _ ≤ (3 : ℝ) * 1 := mul_le_mul h6 h2 h1 (by norm_num)
    _ ≤ 4 := by norm_num

/-- Stability of one interval. -/
theorem euler_stable {f : Vec d → ℝ → Vec d} {T L : ℝ} (hL : 0 ≤ L) (hlip : ∀ x y, ∀ t ∈ Icc 0 T, ‖f x t - f y t‖ ≤ L * ‖x - y‖)
    (S : Mat d m) {a0 δ : ℝ} (hδ : 0 < δ) (ha : 0 ≤ a0) (haδ : a0 + δ ≤ T) {M : ℕ} (hM : 0 < M) (a b : Vec m) (y y' : Vec d) :
    ‖eulerSolver y (additiveField f S a0 δ a b) (δ / M) M - y - (eulerSolver y' (additiveField f S a0 δ a b) (δ / M) M - y')‖ ≤
      L * Real.exp (L * T) * δ * ‖y - y'‖ := by
  have hM' : (0 : ℝ) < M := by exact_mod_cast hM
  obtain ⟨h, hh⟩ : ∃ h, h = δ / M := ⟨_, rfl⟩
  rw [← hh]
  have hh0 : 0 < h := by rw [hh]; positivity
  have hMh : M * h = δ := by rw [hh]; field_simp
  obtain ⟨vf, hvf⟩ : ∃ vf, vf = additiveField f S a0 δ a b := ⟨_, rfl⟩
  rw [← hvf]
  have hvl : ∀ x x' t, t ∈ Icc 0 δ → ‖vf x t - vf x' t‖ ≤ L * ‖x - x'‖ := fun x x' t ht => by
    simp only [hvf, additiveField, add_sub_add_right_eq_sub]
    exact hlip x x' _ ⟨by linarith [ht.1], by linarith [ht.2]⟩
  have htn : ∀ n ≤ M, (n : ℝ) * h ∈ Icc 0 δ := fun n hn => ⟨by positivity, by
    rw [← hMh]; exact mul_le_mul_of_nonneg_right (by exact_mod_cast hn) hh0.le⟩
  obtain ⟨X, hX⟩ : ∃ X : ℕ → Vec d, ∀ n, X n = eulerSolver y vf h n - eulerSolver y' vf h n := ⟨_, fun _ => rfl⟩
  have hX0 : X 0 = y - y' := by rw [hX, eulerSolver_zero, eulerSolver_zero]
  have hXs : ∀ n < M, ‖X (n + 1) - X n‖ ≤ h * (L * ‖X n‖) := fun n hn => by
    rw [hX, hX, eulerSolver_succ, eulerSolver_succ]
    rw [show ∀ u v p q : Vec d, u + h • p - (v + h • q) - (u - v) = h • (p - q) from fun u v p q => by module, norm_smul,
      Real.norm_of_nonneg hh0.le]
    exact mul_le_mul_of_nonneg_left (hvl _ _ _ (htn n hn.le)) hh0.le
  have hXb : ∀ n ≤ M, ‖X n‖ ≤ (1 + L * h) ^ n * ‖y - y'‖ := by
    intro n
    induction n with
    | zero => intro _; rw [hX0, pow_zero, one_mul]
    | succ n ih =>
      intro hn
      have h1 := ih (by omega)
      have h2 := hXs n (by omega)
      have h3 : ‖X (n + 1)‖ ≤ ‖X (n + 1) - X n‖ + ‖X n‖ := by
        conv_lhs => rw [← sub_add_cancel (X (n + 1)) (X n)]
        exact norm_add_le _ _
      have h4 := mul_le_mul_of_nonneg_left h1 (by positivity : 0 ≤ 1 + L * h)
      rw [pow_succ]
      linarith
  have hE : ∀ n ≤ M, ‖X n‖ ≤ Real.exp (L * T) * ‖y - y'‖ := fun n hn =>
    (hXb n hn).trans (mul_le_mul_of_nonneg_right (pow_le_exp_rate hL hh0.le ((htn n hn).2.trans (by linarith))) (norm_nonneg _))
  have hfin : ∀ n ≤ M, ‖X n - X 0‖ ≤ n * h * (L * (Real.exp (L * T) * ‖y - y'‖)) := by
    intro n
    induction n with
    | zero => intro _; simp
    | succ n ih =>
      intro hn
      rw [← sub_add_sub_cancel (X (n + 1)) (X n) (X 0)]
      refine (norm_add_le _ _).trans ?_
      have h1 := ih (by omega)
      have h2 := (hXs n (by omega)).trans (mul_le_mul_of_nonneg_left (mul_le_mul_of_nonneg_left (hE n (by omega)) hL) hh0.le)
      push_cast
      linarith
  have := hfin M le_rfl
  rw [hMh, hX0, hX] at this
  rw [show eulerSolver y vf h M - y - (eulerSolver y' vf h M - y') = eulerSolver y vf h M - eulerSolver y' vf h M - (y - y') by abel]
  refine this.trans (le_of_eq ?_)
  ring

set_option maxHeartbeats 1000000 in
/-- One interval, without the noise that the Riemann sums add at its end, up to terms of second order; the constant does not depend
on the number of steps. -/
theorem euler_expansion {f : Vec d → ℝ → Vec d} {Df : Vec d → ℝ → Vec d →L[ℝ] Vec d} {T L K Lt : ℝ} (hf : SmoothField f Df T L K)
    (hL : 0 ≤ L) (hK : 0 ≤ K) (hLt : 0 ≤ Lt) (hT : 0 ≤ T) (htl : TimeLipschitz f T Lt) {S : Mat d m} {s : ℝ} (hs0 : 0 ≤ s)
    (hS : ∀ v, ‖S *ᵥ v‖ ≤ s * ‖v‖) : ∃ C, 0 ≤ C ∧ ∀ {a0 δ : ℝ}, 0 < δ → 0 ≤ a0 → a0 + δ ≤ T → ∀ {M : ℕ}, 0 < M →
      ∀ (a b : Vec m) (y : Vec d) {H : ℝ}, 1 + ‖y‖ + ‖f y a0‖ ≤ H →
      ‖eulerSolver y (additiveField f S a0 δ a b) (δ / M) M - S *ᵥ ((Real.sqrt 6 / M) • b) - (y + S *ᵥ a + δ • f y a0 +
        δ • Df y a0 (S *ᵥ (eulerLam M • a + eulerMu M • b)))‖ ≤
      δ * (C * (δ * H ^ 2 + (‖a‖ + 4 * ‖b‖) ^ 2)) := by
  set E := Real.exp (L * T) with hE
  have hE0 : 0 < E := Real.exp_pos _
  set c1 := 1 + Lt * T + L * s with hc1
  have hc10 : 0 ≤ c1 := by positivity
  set c2 := E * c1 with hc2
  have hc20 : 0 ≤ c2 := by positivity
  set c3 := c2 * T + s with hc3
  have hc30 : 0 ≤ c3 := by positivity
  refine ⟨Lt * (1 + c2 * T) + Lt * c3 * (1 + T) + 2 * K * c2 ^ 2 * T + 2 * K * c3 ^ 2 + L * c2 * (2 + T), by positivity, ?_⟩
  intro a0 δ hδ ha haδ M hM a b y H hH
  have hM' : (0 : ℝ) < M := by exact_mod_cast hM
  have hin : ∀ {t}, t ∈ Icc 0 δ → t + a0 ∈ Icc 0 T := fun ht => ⟨by linarith [ht.1], by linarith [ht.2]⟩
  have ha0 : a0 ∈ Icc 0 T := ⟨ha, by linarith⟩
  have hδT : δ ≤ T := by linarith
  obtain ⟨h, hh⟩ : ∃ h, h = δ / M := ⟨_, rfl⟩
  have hh0 : 0 < h := by rw [hh]; positivity
  have hMh : M * h = δ := by rw [hh]; field_simp
  obtain ⟨vf, hvf⟩ : ∃ vf, vf = additiveField f S a0 δ a b := ⟨_, rfl⟩
  obtain ⟨Q, hQ⟩ : ∃ Q, Q = ‖a‖ + 4 * ‖b‖ := ⟨_, rfl⟩
  have hQ0 : 0 ≤ Q := by rw [hQ]; positivity
  have hny := norm_nonneg y
  have hnf := norm_nonneg (f y a0)
  have hH1 : 1 ≤ H := by linarith
  rw [← hvf, ← hQ, ← hh]
  obtain ⟨D, hD⟩ : ∃ D : ℕ → Vec d, ∀ n, D n = eulerSolver y vf h n - y - S *ᵥ eulerNoise M a b n := ⟨_, fun _ => rfl⟩
  obtain ⟨g, hg⟩ : ∃ g : ℕ → Vec d, ∀ n, g n = f (y + (D n + S *ᵥ eulerNoise M a b n)) (n * h + a0) := ⟨_, fun _ => rfl⟩
  have hD0 : D 0 = 0 := by rw [hD, eulerSolver_zero, eulerNoise_zero]; simp
  have hDs : ∀ n, D (n + 1) = D n + h • g n := fun n => by
    have e : y + (D n + S *ᵥ eulerNoise M a b n) = eulerSolver y vf h n := by rw [hD]; abel
    rw [hg, e, hD, hD, eulerSolver_succ, eulerNoise_succ hδ.ne' hM, ← hh, hvf, mulVec_add, mulVec_smul]
    simp only [additiveField]
    module
  have hqn : ∀ n ≤ M, ‖S *ᵥ eulerNoise M a b n‖ ≤ s * Q := fun n hn =>
    (hS _).trans (mul_le_mul_of_nonneg_left (by rw [hQ]; exact eulerNoise_le hM a b hn) hs0)
  have htn : ∀ n ≤ M, (n : ℝ) * h ∈ Icc 0 δ := fun n hn => ⟨by positivity, by
    rw [← hMh]; exact mul_le_mul_of_nonneg_right (by exact_mod_cast hn) hh0.le⟩
  have htt : ∀ n ≤ M, |(n : ℝ) * h + a0 - a0| ≤ δ := fun n hn => by
    rw [add_sub_cancel_right, abs_of_nonneg (htn n hn).1]; exact (htn n hn).2
  set c := ‖f y a0‖ + Lt * (1 + ‖y‖) * δ + L * (s * Q) with hc
  have hc0 : 0 ≤ c := by positivity
  have hgb : ∀ n ≤ M, ‖g n‖ ≤ c + L * ‖D n‖ := fun n hn => by
    rw [hg]
    have hm' := hin (htn n hn)
    have htt' := htt n hn
    generalize (n : ℝ) * h + a0 = t at hm' htt' ⊢
    obtain ⟨u, hu⟩ : ∃ u, u = D n + S *ᵥ eulerNoise M a b n := ⟨_, rfl⟩
    rw [← hu]
    have h1 : ‖f (y + u) t - f y t‖ ≤ L * ‖u‖ := by simpa using hf.lip (y + u) y t hm'
    have h2 : ‖f y t - f y a0‖ ≤ Lt * (1 + ‖y‖) * δ := (htl y t hm' a0 ha0).trans (mul_le_mul_of_nonneg_left htt' (by positivity))
    have h3 : ‖u‖ ≤ ‖D n‖ + s * Q := by
      rw [hu]
      exact (norm_add_le _ _).trans (add_le_add le_rfl (hqn _ hn))
    have h4 : ‖f (y + u) t‖ ≤ ‖f (y + u) t - f y t‖ + ‖f y t - f y a0‖ + ‖f y a0‖ := by
      have : f (y + u) t = (f (y + u) t - f y t) + (f y t - f y a0) + f y a0 := by abel
      conv_lhs => rw [this]
      exact (norm_add_le _ _).trans (add_le_add (norm_add_le _ _) le_rfl)
    have h5 := mul_le_mul_of_nonneg_left h3 hL
    linarith
  have hρ : ∀ n ≤ M, ‖D n‖ ≤ (1 + L * h) ^ n * (n * h * c) := by
    intro n
    induction n with
    | zero => intro _; rw [hD0]; simp
    | succ n ih =>
      intro hn
      have h1 := ih (by omega)
      have h2 := mul_le_mul_of_nonneg_left (hgb n (by omega)) hh0.le
      have h3 : ‖D (n + 1)‖ ≤ ‖D n‖ + h * ‖g n‖ := by
        rw [hDs]
        refine (norm_add_le _ _).trans (add_le_add le_rfl ?_)
        rw [norm_smul, Real.norm_of_nonneg hh0.le]
      have hA0 : 0 ≤ L * h := by positivity
      have hA : 1 ≤ (1 + L * h) ^ (n + 1) := one_le_pow₀ (by linarith)
      have h6 := mul_le_mul_of_nonneg_left h1 (by positivity : 0 ≤ 1 + L * h)
      have h7 : h * c ≤ (1 + L * h) ^ (n + 1) * (h * c) := le_mul_of_one_le_left (by positivity) hA
      have e : (1 + L * h) ^ (n + 1) * ((n + 1 : ℕ) * h * c) =
          (1 + L * h) * ((1 + L * h) ^ n * (n * h * c)) + (1 + L * h) ^ (n + 1) * (h * c) := by push_cast; ring
      rw [e]
      linarith
  have hcH : c ≤ c1 * (H + Q) := by
    have h1 : Lt * (1 + ‖y‖) * δ ≤ Lt * T * (H + Q) := by
      have h0 : 1 + ‖y‖ ≤ H + Q := by linarith
      have : Lt * (1 + ‖y‖) * δ ≤ Lt * (H + Q) * T :=
        mul_le_mul (mul_le_mul_of_nonneg_left h0 hLt) hδT hδ.le (by positivity)
      linarith
    have h2 : L * (s * Q) ≤ L * s * (H + Q) := by
      have := mul_le_mul_of_nonneg_left (by linarith : Q ≤ H + Q) (by positivity : 0 ≤ L * s)
      linarith
    rw [hc, hc1]
    have : ‖f y a0‖ ≤ H + Q := by linarith
    linarith
  have hρ' : ∀ n ≤ M, ‖D n‖ ≤ c2 * δ * (H + Q) := fun n hn => by
    refine (hρ n hn).trans ?_
    have h1 := pow_le_exp_rate hL hh0.le ((htn n hn).2.trans hδT)
    have h2 : n * h * c ≤ δ * (c1 * (H + Q)) := mul_le_mul (htn n hn).2 hcH hc0 hδ.le
    calc _ ≤ E * (δ * (c1 * (H + Q))) := mul_le_mul h1 h2 (by positivity) hE0.le
      _ = _ := by rw [hc2]; ring
  set Cc := Lt * (1 + c2 * T) + Lt * c3 * (1 + T) + 2 * K * c2 ^ 2 * T + 2 * K * c3 ^ 2 + L * c2 * (2 + T) with hCc
  have hR : ∀ n ≤ M, ‖g n - f y a0 - Df y a0 (S *ᵥ eulerNoise M a b n)‖ ≤ Cc * (δ * H ^ 2 + Q ^ 2) := fun n hn => by
    rw [hg]
    have hρn := hρ' n hn
    have h1 := hf.expand hL hLt htl (y := y) (u := D n + S *ᵥ eulerNoise M a b n) (v := S *ᵥ eulerNoise M a b n)
      (t := n * h + a0) (t0 := a0) (δ := δ) (ρ := c2 * δ * (H + Q)) (r := c2 * δ * (H + Q) + s * Q) (hin (htn n hn)) ha0 (htt n hn)
      ((norm_add_le _ _).trans (add_le_add hρn (hqn _ hn))) (by rw [add_sub_cancel_right]; exact hρn) hK
    refine h1.trans ?_
    have h2 := remainder_le (ρ := c2 * δ * (H + Q)) (r := c2 * δ * (H + Q) + s * Q) (c2 := c2) (c3 := c3) hLt hK hL hδ.le hδT hH1 hQ0
      hc20 hc30 (by positivity) le_rfl (by
        have : c2 * δ * Q ≤ c2 * T * Q := by gcongr
        rw [hc3]
        linarith)
    refine le_trans ?_ h2
    have h3 : Lt * (1 + ‖y‖ + (c2 * δ * (H + Q) + s * Q)) * δ ≤ Lt * (H + (c2 * δ * (H + Q) + s * Q)) * δ := by
      gcongr
      linarith
    linarith
  have hfin : ∀ n ≤ M, ‖D n - ((n * h) • f y a0 + Df y a0 (S *ᵥ (h • ∑ i ∈ Finset.range n, eulerNoise M a b i)))‖ ≤
      n * h * (Cc * (δ * H ^ 2 + Q ^ 2)) := by
    intro n
    induction n with
    | zero => intro _; simp [hD0]
    | succ n ih =>
      intro hn
      have e : D (n + 1) - (((n + 1 : ℕ) * h) • f y a0 + Df y a0 (S *ᵥ (h • ∑ i ∈ Finset.range (n + 1), eulerNoise M a b i))) =
          (D n - ((n * h) • f y a0 + Df y a0 (S *ᵥ (h • ∑ i ∈ Finset.range n, eulerNoise M a b i)))) +
          h • (g n - f y a0 - Df y a0 (S *ᵥ eulerNoise M a b n)) := by
        rw [hDs, Finset.sum_range_succ, smul_add, mulVec_add, map_add, mulVec_smul S h (eulerNoise M a b n), map_smul]
        push_cast
        module
      rw [e]
      refine (norm_add_le _ _).trans ?_
      rw [norm_smul, Real.norm_of_nonneg hh0.le]
      have h1 := ih (by omega)
      have h2 := mul_le_mul_of_nonneg_left (hR n (by omega)) hh0.le
      push_cast
      linarith
  have hlast := hfin M le_rfl
  rw [hMh, hh, eulerNoise_sum hM, hD, eulerNoise_end hM, mulVec_add, mulVec_smul S δ, map_smul] at hlast
  refine le_trans (le_of_eq ?_) hlast
  congr 1
  abel

/-- The result of one interval depends continuously on state and coefficients. -/
theorem continuous_eulerStep {f : Vec d → ℝ → Vec d} (hf : Continuous (Function.uncurry f)) (S : Mat d m) (a0 δ h : ℝ) (n : ℕ) :
    Continuous fun p : Vec d × Vec m × Vec m => eulerSolver p.1 (additiveField f S a0 δ p.2.1 p.2.2) h n := by
  induction n with
  | zero => simp only [eulerSolver_zero]; exact continuous_fst
  | succ n ih =>
    simp only [eulerSolver_succ]
    refine ih.add (Continuous.const_smul ?_ h)
    simp only [additiveField, jacT_evalParabola]
    refine Continuous.add (hf.comp (ih.prodMk continuous_const)) ?_
    refine (Matrix.mulVecLin S).continuous_of_finiteDimensional.comp (continuous_pi fun j => ?_)
    fun_prop

end Verif
