import Mathlib.Analysis.SpecialFunctions.Integrals.Basic
import Mathlib.LinearAlgebra.Matrix.Notation

/-! Specification: second moments of (W(h), ∫₀ʰ W) for a Brownian motion `W`. -/

namespace Verif.Spec

/-- Covariance matrix of the increment and the time integral of a Brownian motion over `[0, h]`. -/
noncomputable def bmCov (h : ℝ) : Matrix (Fin 2) (Fin 2) ℝ := !![h, h ^ 2 / 2; h ^ 2 / 2, h ^ 3 / 3]

/-- The entries are the integrals of the Brownian covariance `min(s, t)`. -/
theorem bmCov_eq_integrals (h : ℝ) (hh : 0 ≤ h) :
    bmCov h 0 0 = min h h ∧ bmCov h 0 1 = ∫ s in (0 : ℝ)..h, min s h ∧
    bmCov h 1 0 = ∫ s in (0 : ℝ)..h, min s h ∧
    bmCov h 1 1 = ∫ t in (0 : ℝ)..h, ∫ s in (0 : ℝ)..h, min s t := by
  have h1 : ∀ t, 0 ≤ t → t ≤ h → ∫ s in (0 : ℝ)..h, min s t = t * h - t ^ 2 / 2 := by
    intro t h0 ht
    have hc : Continuous fun s : ℝ => min s t := by fun_prop
    rw [← intervalIntegral.integral_add_adjacent_intervals (hc.intervalIntegrable 0 t) (hc.intervalIntegrable t h)]
    have e1 : ∫ s in (0 : ℝ)..t, min s t = ∫ s in (0 : ℝ)..t, s := by
      refine intervalIntegral.integral_congr fun s hs => ?_
      rw [Set.uIcc_of_le h0] at hs
      exact min_eq_left hs.2
    have e2 : ∫ s in t..h, min s t = ∫ s in t..h, t := by
      refine intervalIntegral.integral_congr fun s hs => ?_
      rw [Set.uIcc_of_le ht] at hs
      exact min_eq_right hs.1
    rw [e1, e2, integral_id, intervalIntegral.integral_const]
    simp; ring
  have h2 : ∫ t in (0 : ℝ)..h, ∫ s in (0 : ℝ)..h, min s t = ∫ t in (0 : ℝ)..h, (t * h - t ^ 2 / 2) := by
    refine intervalIntegral.integral_congr fun t ht => ?_
    rw [Set.uIcc_of_le hh] at ht
    exact h1 t ht.1 ht.2
  have h3 : ∫ t in (0 : ℝ)..h, (t * h - t ^ 2 / 2) = h ^ 3 / 3 := by
    rw [intervalIntegral.integral_sub ((by fun_prop : Continuous fun t : ℝ => t * h).intervalIntegrable _ _)
      ((by fun_prop : Continuous fun t : ℝ => t ^ 2 / 2).intervalIntegrable _ _),
      intervalIntegral.integral_mul_const, intervalIntegral.integral_div, integral_id, integral_pow]
    norm_num; ring
  refine ⟨by simp [bmCov], ?_, ?_, ?_⟩
  · rw [h1 h hh le_rfl]; simp [bmCov]; ring
  · rw [h1 h hh le_rfl]; simp [bmCov]; ring
  · rw [h2, h3]; simp [bmCov]

end Verif.Spec
