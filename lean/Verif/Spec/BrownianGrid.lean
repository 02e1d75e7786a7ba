import Verif.Spec.Gaussian

/-! Specification: Brownian motion observed on a uniform grid. -/

namespace Verif.Spec

open MeasureTheory

/-- `W 0, ..., W N` are jointly distributed like a standard `m`-dimensional Brownian motion at the times `0, δ, ..., N δ`:
normal, centred, with covariance `min(s, t)` per coordinate and uncorrelated coordinates. -/
def BrownianOnGrid {Ω : Type*} [MeasurableSpace Ω] (P : Measure Ω) {m : ℕ} (W : ℕ → Ω → Vec m) (δ : ℝ) (N : ℕ) : Prop :=
  IsNormal P (fun ω (q : Fin (N + 1) × Fin m) => W q.1 ω q.2) 0
    (Matrix.of fun q q' => if q.2 = q'.2 then min (q.1 * δ) (q'.1 * δ) else 0)

end Verif.Spec
