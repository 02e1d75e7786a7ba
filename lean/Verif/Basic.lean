import Mathlib.Data.Real.Basic
import Mathlib.LinearAlgebra.Matrix.Notation

/-!
# Vectors, matrices and Python exceptions

Floats are modelled by real numbers (DESIGN.md, decision 1).
-/

namespace Verif

/-- A one-dimensional array of length `n`. -/
abbrev Vec (n : ℕ) := Fin n → ℝ

/-- A two-dimensional array of shape `(m, n)`. -/
abbrev Mat (m n : ℕ) := Matrix (Fin m) (Fin n) ℝ

/-- The Python exceptions that the modelled code can raise. -/
inductive PyErr
  | typeError
  | valueError
  | assertionError
  | zeroDivisionError
  | notImplementedError
  deriving DecidableEq, Repr

/-- A matrix whose shape is only known at run time. -/
abbrev DynMat := (a : ℕ) × (b : ℕ) × Mat a b

end Verif
