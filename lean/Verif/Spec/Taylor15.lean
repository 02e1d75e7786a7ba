import Verif.Basic
import Mathlib.Analysis.Calculus.ContDiff.FTaylorSeries
import Mathlib.Analysis.Normed.Module.FiniteDimension

/-! Specification: the strong Itô-Taylor schemes of order 1.5. -/

namespace Verif.Spec

/-- Itô generator terms of second order applied to the drift: `b' b + 1/2 ∑ j k, (σ σᵀ) j k ∂j ∂k b`. -/
noncomputable def driftGenerator {d m : ℕ} (b : Vec d → Vec d) (σ : Mat d m) (x : Vec d) : Vec d :=
  fderiv ℝ b x (b x) + (1 / 2 : ℝ) • ∑ j, ∑ k,
    (∑ l, σ j l * σ k l) • iteratedFDeriv ℝ 2 b x ![Pi.single j 1, Pi.single k 1]

/-- The Itô-Taylor step of order 1.5 for `dX = b(X) dt + diag(s) dW` with constant `s`: `dW` is the increment of the Brownian
motion over the step and `dZ` the integral of the Brownian motion (relative to its value at the start of the step). -/
noncomputable def itoTaylorAdditive {d : ℕ} (b : Vec d → Vec d) (s : Vec d) (h : ℝ) (x dW dZ : Vec d) : Vec d :=
  x + h • b x + (h ^ 2 / 2) • driftGenerator b (Matrix.diagonal s) x + s * dW + fderiv ℝ b x (s * dZ)

/-- Expansion to second order in `t` of the mean of the solution of `dX = b(X) dt + σ(X) dW`, `X(0) = x₀`. -/
noncomputable def meanExpansion {d m : ℕ} (b : Vec d → Vec d) (σ : Vec d → Mat d m) (x₀ : Vec d) (t : ℝ) : Vec d :=
  x₀ + t • b x₀ + (t ^ 2 / 2) • driftGenerator b (σ x₀) x₀

end Verif.Spec
