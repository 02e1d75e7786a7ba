import Mathlib.Analysis.Calculus.FDeriv.Basic
import Mathlib.MeasureTheory.Integral.IntervalIntegral.Basic
import Mathlib.LinearAlgebra.Matrix.Notation
import Verif.Basic

/-! Specification: solutions of SDEs with additive noise along a given path of the noise, and smooth paths that agree with a path
in end point and integral. -/

namespace Verif.Spec

open Set Matrix MeasureTheory

/-- A field is `L`-Lipschitz in the state and its Jacobian is `K`-Lipschitz in state and time, up to the time `T`. -/
structure SmoothField {E : Type*} [NormedAddCommGroup E] [NormedSpace ℝ E] (f : E → ℝ → E) (Df : E → ℝ → E →L[ℝ] E)
    (T L K : ℝ) : Prop where
  cont : Continuous (Function.uncurry f)
  lip : ∀ x y, ∀ t ∈ Icc 0 T, ‖f x t - f y t‖ ≤ L * ‖x - y‖
  deriv : ∀ x, ∀ t ∈ Icc 0 T, HasFDerivAt (fun z => f z t) (Df x t) x
  jac : ∀ x y, ∀ s ∈ Icc 0 T, ∀ t ∈ Icc 0 T, ‖Df x s - Df y t‖ ≤ K * (‖x - y‖ + |s - t|)

/-- A field is Lipschitz in time, with a constant that may grow linearly with the state. -/
def TimeLipschitz {E : Type*} [NormedAddCommGroup E] (f : E → ℝ → E) (T Lt : ℝ) : Prop :=
  ∀ x, ∀ s ∈ Icc 0 T, ∀ t ∈ Icc 0 T, ‖f x s - f x t‖ ≤ Lt * (1 + ‖x‖) * |s - t|

/-- `x` solves `dx = f(x, t) dt + S dw` from `x0` along the path `w`: since the noise is additive, the equation holds path by path
and no stochastic integral is needed (and the Itô and Stratonovich readings coincide). -/
structure SolvesAdditive {d m : ℕ} (f : Vec d → ℝ → Vec d) (S : Mat d m) (w : ℝ → Vec m) (x0 : Vec d) (T : ℝ) (x : ℝ → Vec d) :
    Prop where
  cont : ContinuousOn x (Icc 0 T)
  eq : ∀ t ∈ Icc 0 T, x t = x0 + (∫ s in (0 : ℝ)..t, f (x s) s) + S *ᵥ (w t - w 0)

/-- The path `p` (in local time) and the increments of `w` from the time `a` have the same end point and the same
integral over an interval of length `δ`. -/
structure SameEndAndArea {m : ℕ} (p w : ℝ → Vec m) (a δ : ℝ) : Prop where
  atEnd : p δ = w (a + δ) - w a
  area : ∀ j, ∫ t in (0 : ℝ)..δ, p t j = ∫ t in (0 : ℝ)..δ, (w (a + t) j - w a j)

end Verif.Spec
