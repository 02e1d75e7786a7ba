import Verif.Spec.Taylor15
import Mathlib.Analysis.Calculus.ContDiff.Defs

/-! Specification: the drifts for which the Itô-Taylor scheme of order 1.5 is known to converge with its order, for additive noise. -/

namespace Verif.Spec

/-- The drift has bounded first and second derivatives, a Lipschitz second derivative, and its generator term
`b' b + 1/2 ∑ j k, (σ σᵀ) j k ∂j ∂k b` is Lipschitz: the usual conditions on the coefficients of the scheme. -/
structure Smooth15 {d m : ℕ} (b : Vec d → Vec d) (σ : Mat d m) (L K K3 K4 : ℝ) : Prop where
  diff : ContDiff ℝ 2 b
  jac : ∀ x, ‖fderiv ℝ b x‖ ≤ L
  hess : ∀ x, ‖fderiv ℝ (fderiv ℝ b) x‖ ≤ K
  hessLip : ∀ x y, ‖fderiv ℝ (fderiv ℝ b) x - fderiv ℝ (fderiv ℝ b) y‖ ≤ K3 * ‖x - y‖
  genLip : ∀ x y, ‖driftGenerator b σ x - driftGenerator b σ y‖ ≤ K4 * ‖x - y‖

/-- The Itô-Taylor step of order 1.5 for `dX = b(X) dt + σ dW` with a constant matrix `σ`: `dW` is the increment of the Brownian
motion over the step and `dZ` the integral of the Brownian motion (relative to its value at the start of the step). -/
noncomputable def itoTaylorStep {d m : ℕ} (b : Vec d → Vec d) (σ : Mat d m) (h : ℝ) (x : Vec d) (dW dZ : Vec m) : Vec d :=
  x + h • b x + (h ^ 2 / 2) • driftGenerator b σ x + σ.mulVec dW + fderiv ℝ b x (σ.mulVec dZ)

end Verif.Spec
