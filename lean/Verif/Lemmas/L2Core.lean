import Verif.Lemmas.L2Moments

/-! Strong order one in mean square for one step schemes, for SDEs with additive noise. -/

namespace Verif

open Matrix Spec Jnp Set MeasureTheory ProbabilityTheory Filter
open scoped NNReal Topology

variable {d m : ℕ}

/-- The squared error after one step, along a path. -/
theorem l2_pointwise {f : Vec d → ℝ → Vec d} {Df : Vec d → ℝ → Vec d →L[ℝ] Vec d} {T L K Lt C0 C1 : ℝ} (hf : SmoothField f Df T L K)
    (hL : 0 ≤ L) (hK : 0 ≤ K) (hLt : 0 ≤ Lt) (hT : 0 ≤ T) (htl : TimeLipschitz f T Lt) {S : Mat d m} {s : ℝ} (hs0 : 0 ≤ s)
    (hS : ∀ v, ‖S *ᵥ v‖ ≤ s * ‖v‖) (hC1 : 0 ≤ C1) : ∃ C2, 0 ≤ C2 ∧ ∀ {w : ℝ → Vec m} {x0 : Vec d} {x : ℝ → Vec d},
      ContinuousOn w (Icc 0 T) → SolvesAdditive f S w x0 T x → ∀ {a0 δ : ℝ}, 0 < δ → 0 ≤ a0 → a0 + δ ≤ T → ∀ {a b : Vec m},
      SameEndAndArea (fun t => Foster.evalParabola t δ a b) w a0 δ → ∀ {W F : ℝ},
      (∀ t ∈ Icc 0 δ, ‖w (a0 + t) - w a0‖ ≤ W) → (∀ t ∈ Icc 0 T, ‖f (x t) t‖ ≤ F) → ∀ {lam mu : ℝ} {Φ : Vec d → Vec d},
      (∀ y y', ‖Φ y - y - (Φ y' - y')‖ ≤ C0 * δ * ‖y - y'‖) →
      (∀ y, ‖Φ y - (y + S *ᵥ a + δ • f y a0 + δ • Df y a0 (S *ᵥ (lam • a + mu • b)))‖ ≤
        δ * (C1 * (δ * (1 + ‖y‖ + ‖f y a0‖) ^ 2 + (‖a‖ + 4 * ‖b‖) ^ 2))) → ∀ y,
      (x (a0 + δ) - Φ y) ⬝ᵥ (x (a0 + δ) - Φ y) ≤ (1 + (2 + d * C0 ^ 2 * (1 + 3 * T)) * δ) * ((x a0 - y) ⬝ᵥ (x a0 - y)) +
        2 * δ * ((x a0 - y) ⬝ᵥ Df (x a0) a0 (S *ᵥ ((1 / 2 - lam) • a + (1 / Real.sqrt 6 - mu) • b))) +
        3 * d * (δ * (L * s)) ^ 2 * ‖(1 / 2 - lam) • a + (1 / Real.sqrt 6 - mu) • b‖ ^ 2 +
        (3 * T + 1) * d * C2 ^ 2 * (δ * (δ * (1 + ‖x a0‖ + F) ^ 2 + W ^ 2) ^ 2) := by
  obtain ⟨C2, hC2, hloc⟩ := local_error hf hL hK hLt hT htl hs0 hS hC1
  refine ⟨C2, hC2, ?_⟩
  intro w x0 x hw hx a0 δ hδ ha haδ a b hab W F hW hF lam mu Φ hst hco y
  have h1 := hloc hw hx hδ ha haδ hab hW hF (hco (x a0))
  set v := (1 / 2 - lam) • a + (1 / Real.sqrt 6 - mu) • b with hv
  set Z := δ * (1 + ‖x a0‖ + F) ^ 2 + W ^ 2 with hZ
  set ξ := δ • Df (x a0) a0 (S *ᵥ v) with hξ
  set r := x (a0 + δ) - Φ (x a0) - ξ with hr
  set D := Φ (x a0) - x a0 - (Φ y - y) with hD
  have e : x (a0 + δ) - Φ y = (x a0 - y) + D + ξ + r := by rw [hr, hD]; abel
  have hq := quad_step (C0 := C0) (e := x a0 - y) (D := D) (ξ := ξ) (r := r) hδ (by linarith : δ ≤ T) (hst _ _)
  have ha0 : a0 ∈ Icc 0 T := ⟨ha, by linarith⟩
  have hξn : ξ ⬝ᵥ ξ ≤ d * (δ * (L * s)) ^ 2 * ‖v‖ ^ 2 := by
    refine (dot_le_sq_norm ξ).trans ?_
    have h2 : ‖ξ‖ ≤ δ * (L * s) * ‖v‖ := by
      rw [hξ, norm_smul, Real.norm_of_nonneg hδ.le, mul_assoc, mul_assoc]
      refine mul_le_mul_of_nonneg_left ?_ hδ.le
      refine ((Df (x a0) a0).le_opNorm _).trans (mul_le_mul (hf.norm_jac_le hL ha0 _) (hS v) (norm_nonneg _) hL)
    have h3 := pow_le_pow_left₀ (norm_nonneg _) h2 2
    calc (d : ℝ) * ‖ξ‖ ^ 2 ≤ d * (δ * (L * s) * ‖v‖) ^ 2 := mul_le_mul_of_nonneg_left h3 (Nat.cast_nonneg d)
      _ = _ := by ring
  have hrn : (3 + 1 / δ) * (r ⬝ᵥ r) ≤ (3 * T + 1) * d * C2 ^ 2 * (δ * Z ^ 2) := by
    have h2 := dot_le_sq_norm r
    have h3 := pow_le_pow_left₀ (norm_nonneg _) h1 2
    calc (3 + 1 / δ) * (r ⬝ᵥ r) ≤ (3 + 1 / δ) * (d * (δ * (C2 * Z)) ^ 2) :=
          mul_le_mul_of_nonneg_left (h2.trans (mul_le_mul_of_nonneg_left h3 (Nat.cast_nonneg d))) (by positivity)
      _ = (3 * δ + 1) * d * C2 ^ 2 * (δ * Z ^ 2) := by field_simp
      _ ≤ _ := by
        have : δ ≤ T := by linarith
        gcongr
  have hdot : (x a0 - y) ⬝ᵥ ξ = δ * ((x a0 - y) ⬝ᵥ Df (x a0) a0 (S *ᵥ v)) := by rw [hξ, dotProduct_smul, smul_eq_mul]
  rw [e]
  rw [hdot] at hq
  linarith

theorem sqrt_sqrt_pow4 {x : ℝ} (hx : 0 ≤ x) : Real.sqrt (Real.sqrt x) ^ 4 = x := by
  have : Real.sqrt (Real.sqrt x) ^ 4 = (Real.sqrt (Real.sqrt x) ^ 2) ^ 2 := by ring
  rw [this, Real.sq_sqrt (Real.sqrt_nonneg _), Real.sq_sqrt hx]

theorem sq_comb_le {δ H W c b0 : ℝ} (hδ : 0 ≤ δ) (hH0 : 0 ≤ H) (hc : 0 ≤ c) (hH : H ≤ c * (1 + b0)) (hb : 0 ≤ b0) :
    (δ * H ^ 2 + W ^ 2) ^ 2 ≤ 16 * c ^ 4 * δ ^ 2 * (1 + b0 ^ 4) + 2 * W ^ 4 := by
  have h1 : H ^ 4 ≤ (c * (1 + b0)) ^ 4 := pow_le_pow_left₀ hH0 hH 4
  have h2 : (1 + b0) ^ 4 ≤ 8 * (1 + b0 ^ 4) := by
    nlinarith [sq_nonneg (1 - b0), sq_nonneg (1 - b0 ^ 2), sq_nonneg (b0 - b0 ^ 2), sq_nonneg (1 + b0), sq_nonneg (1 - b0 ^ 2)]
  have h3 : (δ * H ^ 2 + W ^ 2) ^ 2 ≤ 2 * (δ ^ 2 * H ^ 4) + 2 * W ^ 4 := by nlinarith [sq_nonneg (δ * H ^ 2 - W ^ 2)]
  have h4 : H ^ 4 ≤ c ^ 4 * (8 * (1 + b0 ^ 4)) := h1.trans (by rw [mul_pow]; exact mul_le_mul_of_nonneg_left h2 (by positivity))
  have h5 := mul_le_mul_of_nonneg_left h4 (sq_nonneg δ)
  linarith

theorem comb_sq_le {p q r s k : ℝ} (hp : |p| ≤ k) (hq : |q| ≤ k) : (p * r + q * s) ^ 2 ≤ 2 * k ^ 2 * (r ^ 2 + s ^ 2) := by
  have hk : 0 ≤ k := (abs_nonneg _).trans hp
  have h1 : p ^ 2 ≤ k ^ 2 := by rw [← sq_abs p]; exact pow_le_pow_left₀ (abs_nonneg _) hp 2
  have h2 : q ^ 2 ≤ k ^ 2 := by rw [← sq_abs q]; exact pow_le_pow_left₀ (abs_nonneg _) hq 2
  have h3 := mul_le_mul_of_nonneg_right h1 (sq_nonneg r)
  have h4 := mul_le_mul_of_nonneg_right h2 (sq_nonneg s)
  nlinarith [sq_nonneg (p * r - q * s)]

end Verif
