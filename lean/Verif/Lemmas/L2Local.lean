import Verif.Lemmas.TrapStrong
import Verif.Props.Matched

/-! The one step error of a scheme for an SDE with additive noise: deterministic bounds. -/

namespace Verif

open Matrix Spec Jnp Set

variable {d m : ℕ}

/-- The coefficients of a matched parabola are bounded by the oscillation of the path. -/
theorem matched_coeff_le {δ W a0 : ℝ} (hδ : 0 < δ) {a b : Vec m} {w : ℝ → Vec m}
    (h : SameEndAndArea (fun t => Foster.evalParabola t δ a b) w a0 δ) (hW : ∀ t ∈ Icc 0 δ, ‖w (a0 + t) - w a0‖ ≤ W) :
    ‖a‖ ≤ W ∧ ‖b‖ ≤ 4 * W := by
  have hW0 : 0 ≤ W := (norm_nonneg _).trans (hW δ ⟨hδ.le, le_rfl⟩)
  have hj : ∀ j, ∀ s ∈ Icc 0 δ, |w (a0 + s) j - w a0 j| ≤ W := fun j s hs => (norm_le_pi_norm (w (a0 + s) - w a0) j).trans (hW s hs)
  have ha : ∀ j, |a j| ≤ W := fun j => by
    have h1 := congrFun h.atEnd j
    rw [evalParabola_end hδ.ne'] at h1
    rw [h1]
    exact hj j δ ⟨hδ.le, le_rfl⟩
  refine ⟨(pi_norm_le_iff_of_nonneg hW0).mpr ha, (pi_norm_le_iff_of_nonneg (by positivity)).mpr fun j => ?_⟩
  have hI : |∫ s in (0 : ℝ)..δ, (w (a0 + s) j - w a0 j)| ≤ W * δ := by
    have := intervalIntegral.norm_integral_le_of_norm_le_const (a := 0) (b := δ) (C := W)
      (f := fun s => w (a0 + s) j - w a0 j) (fun s hs => by
        rw [uIoc_of_le hδ.le] at hs
        exact hj j s (Ioc_subset_Icc_self hs))
    rwa [sub_zero, abs_of_pos hδ] at this
  have harea := h.area j
  have e : ∫ s in (0 : ℝ)..δ, Foster.evalParabola s δ a b j = δ * (a j / 2 + b j / Real.sqrt 6) :=
    Foster.integral_evalParabola1 δ (a j) (b j) hδ.ne'
  rw [e] at harea
  rw [← harea, abs_mul, abs_of_pos hδ, mul_comm] at hI
  have hI' := le_of_mul_le_mul_right hI hδ
  have h6 : 0 < Real.sqrt 6 := by positivity
  have h65 : Real.sqrt 6 ≤ 5 / 2 := by rw [Real.sqrt_le_left (by norm_num)]; norm_num
  have h1 : |b j / Real.sqrt 6| ≤ 3 / 2 * W := by
    have : |b j / Real.sqrt 6| ≤ |a j / 2 + b j / Real.sqrt 6| + |a j / 2| := by
      have := abs_sub (a j / 2 + b j / Real.sqrt 6) (a j / 2)
      rwa [add_sub_cancel_left] at this
    rw [abs_div (a j), abs_of_pos (by norm_num : (0 : ℝ) < 2)] at this
    have := ha j
    linarith
  rw [abs_div, abs_of_pos h6, div_le_iff₀ h6] at h1
  rw [Real.norm_eq_abs]
  nlinarith

theorem sq_norm_le_dot (v : Vec d) : ‖v‖ ^ 2 ≤ v ⬝ᵥ v := by
  have hnn : 0 ≤ v ⬝ᵥ v := Finset.sum_nonneg fun i _ => mul_self_nonneg (v i)
  have h : ‖v‖ ≤ Real.sqrt (v ⬝ᵥ v) := by
    rw [pi_norm_le_iff_of_nonneg (Real.sqrt_nonneg _)]
    intro i
    rw [Real.norm_eq_abs]
    refine Real.abs_le_sqrt ?_
    rw [sq]
    exact Finset.single_le_sum (f := fun i => v i * v i) (fun i _ => mul_self_nonneg (v i)) (Finset.mem_univ i)
  calc ‖v‖ ^ 2 ≤ Real.sqrt (v ⬝ᵥ v) ^ 2 := pow_le_pow_left₀ (norm_nonneg _) h 2
    _ = v ⬝ᵥ v := Real.sq_sqrt hnn

theorem dot_le_sq_norm (v : Vec d) : v ⬝ᵥ v ≤ d * ‖v‖ ^ 2 := by
  have : ∀ i ∈ Finset.univ, v i * v i ≤ ‖v‖ ^ 2 := fun i _ => by
    have h := norm_le_pi_norm v i
    rw [Real.norm_eq_abs] at h
    rw [← abs_mul_abs_self, sq]
    exact mul_self_le_mul_self (abs_nonneg _) h
  refine (Finset.sum_le_sum this).trans (le_of_eq ?_)
  simp

/-- The squared error after one step. -/
theorem quad_step {C0 δ T : ℝ} (hδ : 0 < δ) (hδT : δ ≤ T) {e D ξ r : Vec d} (hD : ‖D‖ ≤ C0 * δ * ‖e‖) :
    (e + D + ξ + r) ⬝ᵥ (e + D + ξ + r) ≤ (1 + (2 + d * C0 ^ 2 * (1 + 3 * T)) * δ) * (e ⬝ᵥ e) + 2 * (e ⬝ᵥ ξ) + 3 * (ξ ⬝ᵥ ξ) +
      (3 + 1 / δ) * (r ⬝ᵥ r) := by
  have hT : 0 ≤ T := hδ.le.trans hδT
  have h1 : (e + D + ξ + r) ⬝ᵥ (e + D + ξ + r) ≤ (1 + 2 * δ) * (e ⬝ᵥ e) + 2 * (e ⬝ᵥ ξ) + 3 * (ξ ⬝ᵥ ξ) + (3 + 1 / δ) * (r ⬝ᵥ r) +
      (3 + 1 / δ) * (D ⬝ᵥ D) := by
    simp only [dotProduct, Finset.mul_sum, ← Finset.sum_add_distrib]
    refine Finset.sum_le_sum fun i _ => ?_
    simp only [Pi.add_apply]
    generalize e i = e, D i = D, ξ i = ξ, r i = r
    have hs : δ * (1 / δ) = 1 := by field_simp
    have k1 : 2 * e * D ≤ δ * (e * e) + 1 / δ * (D * D) := by
      have : δ * (e * e) + 1 / δ * (D * D) - 2 * e * D = 1 / δ * (δ * e - D) ^ 2 := by field_simp; ring
      have : 0 ≤ 1 / δ * (δ * e - D) ^ 2 := by positivity
      linarith
    have k2 : 2 * e * r ≤ δ * (e * e) + 1 / δ * (r * r) := by
      have : δ * (e * e) + 1 / δ * (r * r) - 2 * e * r = 1 / δ * (δ * e - r) ^ 2 := by field_simp; ring
      have : 0 ≤ 1 / δ * (δ * e - r) ^ 2 := by positivity
      linarith
    have k3 : (D + ξ + r) ^ 2 ≤ 3 * (D * D) + 3 * (ξ * ξ) + 3 * (r * r) := by
      nlinarith [sq_nonneg (D - ξ), sq_nonneg (D - r), sq_nonneg (ξ - r)]
    nlinarith
  have h2 : D ⬝ᵥ D ≤ d * C0 ^ 2 * δ ^ 2 * (e ⬝ᵥ e) := by
    refine (dot_le_sq_norm D).trans ?_
    have h3 : ‖D‖ ^ 2 ≤ (C0 * δ * ‖e‖) ^ 2 := pow_le_pow_left₀ (norm_nonneg _) hD 2
    have h4 := sq_norm_le_dot e
    calc (d : ℝ) * ‖D‖ ^ 2 ≤ d * (C0 * δ * ‖e‖) ^ 2 := mul_le_mul_of_nonneg_left h3 (Nat.cast_nonneg d)
      _ = d * C0 ^ 2 * δ ^ 2 * ‖e‖ ^ 2 := by ring
      _ ≤ _ := mul_le_mul_of_nonneg_left h4 (by positivity)
  have he : 0 ≤ e ⬝ᵥ e := (sq_nonneg _).trans (sq_norm_le_dot e)
  have h5 : (3 + 1 / δ) * (D ⬝ᵥ D) ≤ d * C0 ^ 2 * (1 + 3 * T) * δ * (e ⬝ᵥ e) := by
    calc (3 + 1 / δ) * (D ⬝ᵥ D) ≤ (3 + 1 / δ) * (d * C0 ^ 2 * δ ^ 2 * (e ⬝ᵥ e)) := mul_le_mul_of_nonneg_left h2 (by positivity)
      _ = d * C0 ^ 2 * (1 + 3 * δ) * δ * (e ⬝ᵥ e) := by field_simp; ring
      _ ≤ _ := by gcongr
  linarith

/-- The local error of a step that is consistent up to the weights of the two coefficients in the term with the Jacobian. -/
theorem local_error {f : Vec d → ℝ → Vec d} {Df : Vec d → ℝ → Vec d →L[ℝ] Vec d} {T L K Lt C1 : ℝ} (hf : SmoothField f Df T L K)
    (hL : 0 ≤ L) (hK : 0 ≤ K) (hLt : 0 ≤ Lt) (hT : 0 ≤ T) (htl : TimeLipschitz f T Lt) {S : Mat d m} {s : ℝ} (hs0 : 0 ≤ s)
    (hS : ∀ v, ‖S *ᵥ v‖ ≤ s * ‖v‖) (hC1 : 0 ≤ C1) : ∃ C2, 0 ≤ C2 ∧ ∀ {w : ℝ → Vec m} {x0 : Vec d} {x : ℝ → Vec d},
      ContinuousOn w (Icc 0 T) → SolvesAdditive f S w x0 T x → ∀ {a0 δ : ℝ}, 0 < δ → 0 ≤ a0 → a0 + δ ≤ T → ∀ {a b : Vec m},
      SameEndAndArea (fun t => Foster.evalParabola t δ a b) w a0 δ → ∀ {W F : ℝ},
      (∀ t ∈ Icc 0 δ, ‖w (a0 + t) - w a0‖ ≤ W) → (∀ t ∈ Icc 0 T, ‖f (x t) t‖ ≤ F) → ∀ {lam mu : ℝ} {y : Vec d},
      ‖y - (x a0 + S *ᵥ a + δ • f (x a0) a0 + δ • Df (x a0) a0 (S *ᵥ (lam • a + mu • b)))‖ ≤
        δ * (C1 * (δ * (1 + ‖x a0‖ + ‖f (x a0) a0‖) ^ 2 + (‖a‖ + 4 * ‖b‖) ^ 2)) →
      ‖x (a0 + δ) - y - δ • Df (x a0) a0 (S *ᵥ ((1 / 2 - lam) • a + (1 / Real.sqrt 6 - mu) • b))‖ ≤
        δ * (C2 * (δ * (1 + ‖x a0‖ + F) ^ 2 + W ^ 2)) := by
  refine ⟨(Lt * (1 + T) + Lt * s * (1 + T) + 2 * K * T + 2 * K * s ^ 2 + L * (2 + T)) + 289 * C1, by positivity, ?_⟩
  intro w x0 x hw hx a0 δ hδ ha haδ a b hab W F hW hF lam mu y hy
  set C := Lt * (1 + T) + Lt * s * (1 + T) + 2 * K * T + 2 * K * s ^ 2 + L * (2 + T) with hC
  have h1 := exact_expansion hf hL hK hLt htl hs0 hS hw hx hδ ha haδ hab hW hF (H := 1 + ‖x a0‖ + F) le_rfl
  rw [← hC] at h1
  obtain ⟨ha', hb'⟩ := matched_coeff_le hδ hab hW
  have hW0 : 0 ≤ W := (norm_nonneg _).trans ha'
  have hf0 : ‖f (x a0) a0‖ ≤ F := hF a0 ⟨ha, by linarith⟩
  have hQ : (‖a‖ + 4 * ‖b‖) ^ 2 ≤ 289 * W ^ 2 := by
    have : ‖a‖ + 4 * ‖b‖ ≤ 17 * W := by linarith
    calc _ ≤ (17 * W) ^ 2 := pow_le_pow_left₀ (by positivity) this 2
      _ = 289 * W ^ 2 := by ring
  have hH : (1 + ‖x a0‖ + ‖f (x a0) a0‖) ^ 2 ≤ (1 + ‖x a0‖ + F) ^ 2 := pow_le_pow_left₀ (by positivity) (by linarith) 2
  have h2 : δ * (C1 * (δ * (1 + ‖x a0‖ + ‖f (x a0) a0‖) ^ 2 + (‖a‖ + 4 * ‖b‖) ^ 2)) ≤
      δ * (289 * C1 * (δ * (1 + ‖x a0‖ + F) ^ 2 + W ^ 2)) := by
    refine mul_le_mul_of_nonneg_left ?_ hδ.le
    have h3 : δ * (1 + ‖x a0‖ + ‖f (x a0) a0‖) ^ 2 ≤ 289 * (δ * (1 + ‖x a0‖ + F) ^ 2) := by
      have := mul_le_mul_of_nonneg_left hH hδ.le
      have h0 : 0 ≤ δ * (1 + ‖x a0‖ + F) ^ 2 := by positivity
      linarith
    have := mul_le_mul_of_nonneg_left (add_le_add h3 hQ) hC1
    linarith
  have e : x (a0 + δ) - y - δ • Df (x a0) a0 (S *ᵥ ((1 / 2 - lam) • a + (1 / Real.sqrt 6 - mu) • b)) =
      (x (a0 + δ) - (x a0 + S *ᵥ a + δ • f (x a0) a0 + δ • Df (x a0) a0 (S *ᵥ ((1 / 2 : ℝ) • a + (1 / Real.sqrt 6) • b)))) -
      (y - (x a0 + S *ᵥ a + δ • f (x a0) a0 + δ • Df (x a0) a0 (S *ᵥ (lam • a + mu • b)))) := by
    have e1 : (1 / 2 - lam) • a + (1 / Real.sqrt 6 - mu) • b = ((1 / 2 : ℝ) • a + (1 / Real.sqrt 6) • b) - (lam • a + mu • b) := by
      module
    rw [e1, mulVec_sub, map_sub]
    module
  rw [e]
  refine (norm_sub_le _ _).trans ((add_le_add h1 (hy.trans h2)).trans (le_of_eq ?_))
  ring

end Verif
