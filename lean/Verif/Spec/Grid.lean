import Mathlib.Data.Real.Basic

/-! Specification of a uniform time grid. -/

namespace Verif.Spec

/-- `ts` is the grid `0, δ, 2 δ, ..., N δ`. -/
def UniformGrid (ts : List ℝ) (N : ℕ) (δ : ℝ) : Prop :=
  ts.length = N + 1 ∧ ∀ k ≤ N, ts[k]? = some ((k : ℝ) * δ)

end Verif.Spec
