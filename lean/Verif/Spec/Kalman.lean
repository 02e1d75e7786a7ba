import Verif.Model.Kalman
import Mathlib.LinearAlgebra.Matrix.NonsingularInverse

/-! Specification: the textbook Kalman filter formulas. -/

namespace Verif.Spec

open Matrix

/-- Innovation covariance `S = H P Hᵀ + R`. -/
def innovCov {nx ny : ℕ} (P : Mat nx nx) (H : Mat ny nx) (R : Mat ny ny) : Mat ny ny := H * P * Hᵀ + R

/-- Kalman gain `K = P Hᵀ S⁻¹`. -/
noncomputable def gain {nx ny : ℕ} (P : Mat nx nx) (H : Mat ny nx) (R : Mat ny ny) : Mat nx ny :=
  P * Hᵀ * (innovCov P H R)⁻¹

/-- Posterior mean for the residual `c` (observation minus zero). -/
noncomputable def postMean {nx ny : ℕ} (m : Vec nx) (P : Mat nx nx) (c : Vec ny) (H : Mat ny nx) (R : Mat ny ny) : Vec nx :=
  m - gain P H R *ᵥ c

/-- Posterior covariance `P - K S Kᵀ`. -/
noncomputable def postCov {nx ny : ℕ} (P : Mat nx nx) (H : Mat ny nx) (R : Mat ny ny) : Mat nx nx :=
  P - gain P H R * innovCov P H R * (gain P H R)ᵀ

/-- `L` is a (square) factor of `C`. -/
def IsFactor {n : ℕ} (L C : Mat n n) : Prop := L * Lᵀ = C

/-- The state `x` of a square-root filter represents the state `x'` of a covariance filter. -/
def Represents {n : ℕ} (x x' : Gauss n) : Prop := x.mean = x'.mean ∧ IsFactor x.cov x'.cov

end Verif.Spec
