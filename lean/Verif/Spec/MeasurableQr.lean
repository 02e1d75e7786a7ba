import Verif.LinAlg
import Mathlib.MeasureTheory.Constructions.BorelSpace.Basic

/-!
# Measurability of the QR factorisation

A QR factorisation is unique only up to the signs of the rows of `R`. Where the law of a draw depends on these signs through later
states, the routine has to be a measurable function of the matrix.
-/

namespace Verif

/-- The entries of `R` are measurable functions of the matrix. -/
def LinAlg.MeasurableQr (la : LinAlg) : Prop :=
  ∀ (k m : ℕ) (i : Fin k) (j : Fin m), Measurable fun B : Fin k → Fin m → ℝ => la.qrR (Matrix.of B) i j

end Verif
