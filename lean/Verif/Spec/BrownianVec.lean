import Mathlib.Probability.BrownianMotion.Basic

/-! Specification: Brownian motion in several dimensions. -/

namespace Verif.Spec

open MeasureTheory ProbabilityTheory
open scoped NNReal

/-- A vector of independent standard Brownian motions with almost surely continuous paths. -/
structure IsBrownianVec {Ω : Type*} [MeasurableSpace Ω] {m : ℕ} (B : Fin m → ℝ≥0 → Ω → ℝ) (P : Measure Ω) : Prop where
  meas : ∀ j t, Measurable (B j t)
  brownian : ∀ j, IsBrownianReal (B j) P
  indep : iIndepFun (fun j ω t => B j t ω) P

end Verif.Spec
