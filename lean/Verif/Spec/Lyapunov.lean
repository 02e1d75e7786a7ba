import Verif.Basic
import Mathlib.Analysis.Calculus.Deriv.Basic
import Mathlib.Analysis.Normed.Module.FiniteDimension

/-! Specification: the variance of a linear stochastic differential equation `dX = F X dt + L dW` started from a point. -/

namespace Verif.Spec

open Matrix

/-- `V' = F V + V Fᵀ + L Lᵀ`, `V(0) = 0`, entry by entry. -/
def SolvesVarianceODE {n l : ℕ} (F : Mat n n) (L : Mat n l) (V : ℝ → Mat n n) : Prop :=
  V 0 = 0 ∧ ∀ t i j, HasDerivAt (fun s => V s i j) ((F * V t + V t * Fᵀ + L * Lᵀ) i j) t

/-- `m' = b(m, t)`, `m(0) = x₀`, component by component. -/
def SolvesODE {n : ℕ} (b : Vec n → ℝ → Vec n) (x₀ : Vec n) (m : ℝ → Vec n) : Prop :=
  m 0 = x₀ ∧ ∀ t i, HasDerivAt (fun s => m s i) (b (m t) t i) t

/-- `V` is the variance of the equation `dX = b(X) dt + σ(X) dW` linearised at its initial state `x₀`:
`dY = b'(x₀) Y dt + σ(x₀) dW`, `Y(0) = 0`. -/
def SolvesLinearisedVariance {n l : ℕ} (b : Vec n → Vec n) (σ : Vec n → Mat n l) (x₀ : Vec n) (V : ℝ → Mat n n) : Prop :=
  ∃ F : Mat n n, (∀ v, F *ᵥ v = fderiv ℝ b x₀ v) ∧ SolvesVarianceODE F (σ x₀) V

end Verif.Spec
