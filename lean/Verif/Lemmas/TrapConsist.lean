import Verif.Lemmas.TrapStep

/-! Consistency of one interval of `sde_solver` with EKF0 on an SDE with additive noise. -/

namespace Verif

open Matrix Spec Jnp Set

variable {d m : ℕ}

theorem parabola_trapezoid {δ : ℝ} (hδ : δ ≠ 0) (a b : Vec m) (t h : ℝ) :
    Foster.evalParabola (t + h) δ a b - Foster.evalParabola t δ a b =
      (h / 2) • (jacT (fun s => Foster.evalParabola s δ a b) t + jacT (fun s => Foster.evalParabola s δ a b) (t + h)) := by
  funext j
  simp only [jacT_evalParabola, Pi.sub_apply, Pi.smul_apply, Pi.add_apply, smul_eq_mul, Foster.evalParabola, Foster.evalParabola1]
  field_simp
  ring

theorem parabola_predict {δ : ℝ} (hδ : δ ≠ 0) {M : ℕ} (hM : 0 < M) (a b : Vec m) (n : ℕ) :
    Foster.evalParabola (n * (δ / M)) δ a b + (δ / M) • jacT (fun s => Foster.evalParabola s δ a b) (n * (δ / M)) =
      trapNoise M a b (n + 1) := by
  have hM' : (M : ℝ) ≠ 0 := by exact_mod_cast hM.ne'
  funext j
  simp only [trapNoise, Nat.succ_ne_zero, if_false, jacT_evalParabola, Pi.smul_apply, Pi.add_apply, smul_eq_mul, Foster.evalParabola,
    Foster.evalParabola1]
  push_cast
  field_simp
  ring

set_option maxHeartbeats 1000000 in
/-- One interval of the scheme, up to terms of second order; the constant does not depend on the number of steps. -/
theorem trap_expansion {f : Vec d → ℝ → Vec d} {Df : Vec d → ℝ → Vec d →L[ℝ] Vec d} {T L K Lt : ℝ} (hf : SmoothField f Df T L K)
    (hL : 0 ≤ L) (hK : 0 ≤ K) (hLt : 0 ≤ Lt) (hT : 0 ≤ T) (htl : TimeLipschitz f T Lt) {S : Mat d m} {s : ℝ} (hs0 : 0 ≤ s)
    (hS : ∀ v, ‖S *ᵥ v‖ ≤ s * ‖v‖) : ∃ C, 0 ≤ C ∧ ∀ {a0 δ : ℝ}, 0 < δ → 0 ≤ a0 → a0 + δ ≤ T → ∀ {M : ℕ}, 0 < M →
      ∀ (a b : Vec m) (y : Vec d) {H : ℝ}, 1 + ‖y‖ + ‖f y a0‖ ≤ H →
      ‖(trapScheme (additiveField f S a0 δ a b) (δ / M) y M).1 - (y + S *ᵥ a + δ • f y a0 +
        δ • Df y a0 (S *ᵥ ((1 / 2 : ℝ) • a + (1 / Real.sqrt 6 + trapExcess M) • b)))‖ ≤
      δ * (C * (δ * H ^ 2 + (‖a‖ + 4 * ‖b‖) ^ 2)) := by
  set E := Real.exp (3 * L / 2 * T) with hE
  have hE0 : 0 < E := Real.exp_pos _
  set c1 := 1 + Lt * T + L * s with hc1
  have hc10 : 0 ≤ c1 := by positivity
  set c2 := 5 / 2 * E * c1 with hc2
  have hc20 : 0 ≤ c2 := by positivity
  set c3 := c2 * T + s with hc3
  have hc30 : 0 ≤ c3 := by positivity
  refine ⟨Lt * (1 + c2 * T) + Lt * c3 * (1 + T) + 2 * K * c2 ^ 2 * T + 2 * K * c3 ^ 2 + L * c2 * (2 + T), by positivity, ?_⟩
  intro a0 δ hδ ha haδ M hM a b y H hH
  have hM' : (0 : ℝ) < M := by exact_mod_cast hM
  have hin : ∀ {t}, t ∈ Icc 0 δ → t + a0 ∈ Icc 0 T := fun ht => ⟨by linarith [ht.1], by linarith [ht.2]⟩
  have ha0 : a0 ∈ Icc 0 T := ⟨ha, by linarith⟩
  have hδT : δ ≤ T := by linarith
  obtain ⟨h, hh⟩ : ∃ h, h = δ / M := ⟨_, rfl⟩
  have hh0 : 0 < h := by rw [hh]; positivity
  have hMh : M * h = δ := by rw [hh]; field_simp
  have hhδ : h ≤ δ := by rw [hh]; exact div_le_self hδ.le (by exact_mod_cast hM)
  obtain ⟨p, hp⟩ : ∃ p : ℝ → Vec m, p = fun t => Foster.evalParabola t δ a b := ⟨_, rfl⟩
  obtain ⟨vf, hvf⟩ : ∃ vf, vf = additiveField f S a0 δ a b := ⟨_, rfl⟩
  obtain ⟨Q, hQ⟩ : ∃ Q, Q = ‖a‖ + 4 * ‖b‖ := ⟨_, rfl⟩
  have hQ0 : 0 ≤ Q := by rw [hQ]; positivity
  have hny := norm_nonneg y
  have hnf := norm_nonneg (f y a0)
  have hH1 : 1 ≤ H := by linarith
  rw [← hvf, ← hQ, ← hh]
  have hpq : ∀ n : ℕ, p (n * h) + h • jacT p (n * h) = trapNoise M a b (n + 1) := fun n => by
    rw [hp, hh]; exact parabola_predict hδ.ne' hM a b n
  have hpt : ∀ n : ℕ, p ((n + 1 : ℕ) * h) - p (n * h) = (h / 2) • (jacT p (n * h) + jacT p ((n + 1 : ℕ) * h)) := fun n => by
    have := parabola_trapezoid hδ.ne' a b (n * h) h
    rw [hp]
    have e : ((n + 1 : ℕ) : ℝ) * h = n * h + h := by push_cast; ring
    rw [e]
    exact this
  have hvf' : ∀ z t, vf z t = f z (t + a0) + S *ᵥ jacT p t := fun z t => by rw [hvf, hp]; rfl
  obtain ⟨D, hD⟩ : ∃ D : ℕ → Vec d, ∀ n, D n = (trapScheme vf h y n).1 - y - S *ᵥ p (n * h) := ⟨_, fun _ => rfl⟩
  obtain ⟨g, hg⟩ : ∃ g : ℕ → Vec d, ∀ n, g n = (trapScheme vf h y n).2 - S *ᵥ jacT p (n * h) := ⟨_, fun _ => rfl⟩
  have hD0 : D 0 = 0 := by
    have e : p 0 = 0 := by rw [hp]; funext j; simp [Foster.evalParabola, Foster.evalParabola1]
    rw [hD]
    simp [trapScheme, e]
  have hg0 : g 0 = f y a0 := by
    rw [hg]
    simp [trapScheme, hvf']
  have hgs : ∀ n, g (n + 1) = f (y + (D n + h • g n + S *ᵥ trapNoise M a b (n + 1))) ((n + 1) * h + a0) := fun n => by
    rw [hg, trapScheme_succ, hvf']
    have e : (trapScheme vf h y n).1 + h • (trapScheme vf h y n).2 = y + (D n + h • g n + S *ᵥ trapNoise M a b (n + 1)) := by
      rw [← hpq, hD, hg, mulVec_add, mulVec_smul]
      module
    rw [e]
    push_cast
    abel
  have hDs : ∀ n, D (n + 1) = D n + (h / 2) • (g n + g (n + 1)) := fun n => by
    have e1 : (trapScheme vf h y (n + 1)).1 = (trapScheme vf h y n).1 +
        (h / 2) • ((trapScheme vf h y n).2 + (trapScheme vf h y (n + 1)).2) := rfl
    have e2 : S *ᵥ p ((n + 1 : ℕ) * h) = S *ᵥ p (n * h) + (h / 2) • (S *ᵥ jacT p (n * h) + S *ᵥ jacT p ((n + 1 : ℕ) * h)) := by
      rw [← mulVec_add, ← mulVec_smul, ← hpt, ← mulVec_add, add_sub_cancel]
    rw [hD, hD, hg, hg, e1, e2]
    module
  have hqn : ∀ n ≤ M, ‖S *ᵥ trapNoise M a b n‖ ≤ s * Q := fun n hn =>
    (hS _).trans (mul_le_mul_of_nonneg_left (by rw [hQ]; exact trapNoise_le hM a b hn) hs0)
  have htn : ∀ n < M, ((n : ℝ) + 1) * h ∈ Icc 0 δ := fun n hn => ⟨by positivity, by
    rw [← hMh]; exact mul_le_mul_of_nonneg_right (by exact_mod_cast hn) hh0.le⟩
  set c := ‖f y a0‖ + Lt * (1 + ‖y‖) * δ + L * (s * Q) with hc
  have hc0 : 0 ≤ c := by positivity
  have hgb : ∀ n < M, ‖g (n + 1)‖ ≤ c + L * (‖D n‖ + h * ‖g n‖) := fun n hn => by
    rw [hgs]
    have hm' := hin (htn n hn)
    generalize ht : ((n : ℝ) + 1) * h + a0 = t at hm' ⊢
    have htt : |t - a0| ≤ δ := by
      rw [← ht, add_sub_cancel_right, abs_of_nonneg (htn n hn).1]; exact (htn n hn).2
    obtain ⟨u, hu⟩ : ∃ u, u = D n + h • g n + S *ᵥ trapNoise M a b (n + 1) := ⟨_, rfl⟩
    rw [← hu]
    have h1 : ‖f (y + u) t - f y t‖ ≤ L * ‖u‖ := by simpa using hf.lip (y + u) y t hm'
    have h2 : ‖f y t - f y a0‖ ≤ Lt * (1 + ‖y‖) * δ := (htl y t hm' a0 ha0).trans (mul_le_mul_of_nonneg_left htt (by positivity))
    have h3 : ‖u‖ ≤ ‖D n‖ + h * ‖g n‖ + s * Q := by
      rw [hu]
      refine (norm_add_le _ _).trans (add_le_add ((norm_add_le _ _).trans ?_) (hqn _ hn))
      rw [norm_smul, Real.norm_of_nonneg hh0.le]
    have h4 : ‖f (y + u) t‖ ≤ ‖f (y + u) t - f y t‖ + ‖f y t - f y a0‖ + ‖f y a0‖ := by
      have : f (y + u) t = (f (y + u) t - f y t) + (f y t - f y a0) + f y a0 := by abel
      conv_lhs => rw [this]
      exact (norm_add_le _ _).trans (add_le_add (norm_add_le _ _) le_rfl)
    have h5 := mul_le_mul_of_nonneg_left h3 hL
    linarith
  have hρ : ∀ n ≤ M, ‖D n‖ + h * ‖g n‖ ≤ (1 + 3 * L / 2 * h) ^ n * ((h + 3 / 2 * (n * h)) * c) := by
    intro n
    induction n with
    | zero =>
      intro _
      rw [hD0, hg0, norm_zero, pow_zero, one_mul, Nat.cast_zero, zero_mul, mul_zero, add_zero, zero_add]
      refine mul_le_mul_of_nonneg_left ?_ hh0.le
      have h1 : 0 ≤ Lt * (1 + ‖y‖) * δ := by positivity
      have h2 : 0 ≤ L * (s * Q) := by positivity
      linarith
    | succ n ih =>
      intro hn
      have h1 := ih (by omega)
      have h2 := hgb n (by omega)
      have h3 : ‖D (n + 1)‖ ≤ ‖D n‖ + h / 2 * (‖g n‖ + ‖g (n + 1)‖) := by
        rw [hDs]
        refine (norm_add_le _ _).trans (add_le_add le_rfl ?_)
        rw [norm_smul, Real.norm_of_nonneg (by positivity)]
        exact mul_le_mul_of_nonneg_left (norm_add_le _ _) (by positivity)
      have h4 := mul_le_mul_of_nonneg_left h2 (by positivity : 0 ≤ 3 / 2 * h)
      have h5 : ‖D (n + 1)‖ + h * ‖g (n + 1)‖ ≤ (1 + 3 * L / 2 * h) * (‖D n‖ + h * ‖g n‖) + 3 / 2 * h * c := by
        have : 0 ≤ h * ‖g n‖ := by positivity
        nlinarith
      have hA0 : 0 ≤ 3 * L / 2 * h := by positivity
      have hA : 1 ≤ (1 + 3 * L / 2 * h) ^ (n + 1) := one_le_pow₀ (by linarith)
      have h6 := mul_le_mul_of_nonneg_left h1 (by positivity : 0 ≤ 1 + 3 * L / 2 * h)
      have h7 : 3 / 2 * h * c ≤ (1 + 3 * L / 2 * h) ^ (n + 1) * (3 / 2 * h * c) := le_mul_of_one_le_left (by positivity) hA
      have e : (1 + 3 * L / 2 * h) ^ (n + 1) * ((h + 3 / 2 * ((n + 1 : ℕ) * h)) * c) =
          (1 + 3 * L / 2 * h) * ((1 + 3 * L / 2 * h) ^ n * ((h + 3 / 2 * (n * h)) * c)) +
          (1 + 3 * L / 2 * h) ^ (n + 1) * (3 / 2 * h * c) := by push_cast; ring
      rw [e]
      linarith
  have hnδ : ∀ n ≤ M, (n : ℝ) * h ≤ δ := fun n hn => by
    rw [← hMh]; exact mul_le_mul_of_nonneg_right (by exact_mod_cast hn) hh0.le
  have hcH : c ≤ c1 * (H + Q) := by
    have h1 : Lt * (1 + ‖y‖) * δ ≤ Lt * T * (H + Q) := by
      have h0 : 1 + ‖y‖ ≤ H + Q := by linarith
      have : Lt * (1 + ‖y‖) * δ ≤ Lt * (H + Q) * T :=
        mul_le_mul (mul_le_mul_of_nonneg_left h0 hLt) hδT hδ.le (by positivity)
      linarith
    have h2 : L * (s * Q) ≤ L * s * (H + Q) := by
      have := mul_le_mul_of_nonneg_left (by linarith : Q ≤ H + Q) (by positivity : 0 ≤ L * s)
      linarith
    rw [hc, hc1]
    have : ‖f y a0‖ ≤ H + Q := by linarith
    linarith
  have hρ' : ∀ n ≤ M, ‖D n‖ + h * ‖g n‖ ≤ c2 * δ * (H + Q) := fun n hn => by
    refine (hρ n hn).trans ?_
    have h1 := pow_le_exp_rate (q := 3 * L / 2) (by positivity) hh0.le ((hnδ n hn).trans hδT)
    have h2 : (h + 3 / 2 * (n * h)) * c ≤ 5 / 2 * δ * (c1 * (H + Q)) := by
      have h3 := hnδ n hn
      exact mul_le_mul (by linarith) hcH hc0 (by positivity)
    calc _ ≤ E * (5 / 2 * δ * (c1 * (H + Q))) := mul_le_mul h1 h2 (by positivity) hE0.le
      _ = _ := by rw [hc2]; ring
  set Cc := Lt * (1 + c2 * T) + Lt * c3 * (1 + T) + 2 * K * c2 ^ 2 * T + 2 * K * c3 ^ 2 + L * c2 * (2 + T) with hCc
  have hCc0 : 0 ≤ Cc := by positivity
  have hR : ∀ n ≤ M, ‖g n - f y a0 - Df y a0 (S *ᵥ trapNoise M a b n)‖ ≤ Cc * (δ * H ^ 2 + Q ^ 2) := fun n hn => by
    cases n with
    | zero =>
      rw [hg0, trapNoise, if_pos rfl, mulVec_zero, map_zero]
      simp only [sub_self, norm_zero]
      positivity
    | succ n =>
      rw [hgs]
      have hρn := hρ' n (by omega)
      have hu1 : ‖D n + h • g n‖ ≤ c2 * δ * (H + Q) := by
        refine (norm_add_le _ _).trans ?_
        rw [norm_smul, Real.norm_of_nonneg hh0.le]
        exact hρn
      have htt : |((n : ℝ) + 1) * h + a0 - a0| ≤ δ := by
        rw [add_sub_cancel_right, abs_of_nonneg (htn n hn).1]; exact (htn n hn).2
      have h1 := hf.expand hL hLt htl (y := y) (u := D n + h • g n + S *ᵥ trapNoise M a b (n + 1)) (v := S *ᵥ trapNoise M a b (n + 1))
        (t := (n + 1) * h + a0) (t0 := a0) (δ := δ) (ρ := c2 * δ * (H + Q)) (r := c2 * δ * (H + Q) + s * Q) (hin (htn n hn)) ha0 htt
        ((norm_add_le _ _).trans (add_le_add hu1 (hqn _ hn))) (by rw [add_sub_cancel_right]; exact hu1) hK
      refine h1.trans ?_
      have h2 := remainder_le (ρ := c2 * δ * (H + Q)) (r := c2 * δ * (H + Q) + s * Q) (c2 := c2) (c3 := c3) hLt hK hL hδ.le hδT hH1 hQ0
        hc20 hc30 (by positivity) le_rfl (by
          have : c2 * δ * Q ≤ c2 * T * Q := by gcongr
          rw [hc3]
          linarith)
      refine le_trans ?_ h2
      have h3 : Lt * (1 + ‖y‖ + (c2 * δ * (H + Q) + s * Q)) * δ ≤ Lt * (H + (c2 * δ * (H + Q) + s * Q)) * δ := by
        gcongr
        linarith
      linarith
  have hfin : ∀ n ≤ M, ‖D n - ((n * h) • f y a0 + Df y a0 (S *ᵥ trapNoiseSum M a b h n))‖ ≤ n * h * (Cc * (δ * H ^ 2 + Q ^ 2)) := by
    intro n
    induction n with
    | zero => intro _; simp [hD0, trapNoiseSum]
    | succ n ih =>
      intro hn
      have e : D (n + 1) - (((n + 1 : ℕ) * h) • f y a0 + Df y a0 (S *ᵥ trapNoiseSum M a b h (n + 1))) =
          (D n - ((n * h) • f y a0 + Df y a0 (S *ᵥ trapNoiseSum M a b h n))) +
          (h / 2) • ((g n - f y a0 - Df y a0 (S *ᵥ trapNoise M a b n)) +
            (g (n + 1) - f y a0 - Df y a0 (S *ᵥ trapNoise M a b (n + 1)))) := by
        rw [hDs, trapNoiseSum, mulVec_add, mulVec_smul, mulVec_add, map_add, map_smul, map_add]
        push_cast
        module
      rw [e]
      refine (norm_add_le _ _).trans ?_
      rw [norm_smul, Real.norm_of_nonneg (by positivity)]
      have h1 := ih (by omega)
      have h2 := mul_le_mul_of_nonneg_left ((norm_add_le _ _).trans (add_le_add (hR n (by omega)) (hR (n + 1) hn)))
        (by positivity : 0 ≤ h / 2)
      push_cast
      linarith
  have hlast := hfin M le_rfl
  have hpe : p (M * h) = a := by rw [hMh, hp]; exact evalParabola_end hδ.ne' a b
  rw [hMh, hh, trapNoiseSum_end hM, hD, hpe, mulVec_smul, map_smul] at hlast
  refine le_trans (le_of_eq ?_) hlast
  congr 1
  abel

end Verif
