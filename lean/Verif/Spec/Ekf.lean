import Verif.Model.Kalman
import Verif.Model.ItoStratonovich

/-! Specification: the schemes the filtering ODE solvers reduce to. -/

namespace Verif.Spec

open Matrix

/-- The covariance a filter state stands for. -/
def covOf (sqrt : Bool) {n : ℕ} (x : Gauss n) : Mat n n := if sqrt then x.cov * x.covᵀ else x.cov

/-- The explicit trapezoidal scheme with predicted slopes: `v_0 = f(y_0, 0)`,
`v_{k+1} = f(y_k + h v_k, (k+1) h)`, `y_{k+1} = y_k + h/2 (v_k + v_{k+1})`. Returns `(y_k, v_k)`. -/
noncomputable def trapScheme {dim : ℕ} (f : Vec dim → ℝ → Vec dim) (h : ℝ) (y0 : Vec dim) : ℕ → Vec dim × Vec dim
  | 0 => (y0, f y0 0)
  | k + 1 =>
    let y := (trapScheme f h y0 k).1
    let v := (trapScheme f h y0 k).2
    let v' := f (y + h • v) ((k + 1) * h)
    (y + (h / 2) • (v + v'), v')

/-- The variance of the second derivative, in units of `σ² h`, after `k` noise-free observations of the slope of a process whose
second derivative is a Brownian motion. -/
noncomputable def splineVar : ℕ → ℝ
  | 0 => 0
  | k + 1 => splineVar k + 1 - (splineVar k + 1 / 2) ^ 2 / (splineVar k + 1 / 3)

/-- The cubic spline scheme: the slope is evaluated at the second order Taylor prediction, the second derivative is corrected by
the gain `(s + 1/2) / (s + 1/3)` times the difference quotient of the slopes minus the old second derivative, and the
solution is advanced by the Hermite rule `h/2 (v + v') + h²/12 (a - a')`. Returns `(y_k, v_k, a_k)`. -/
noncomputable def splineScheme {dim : ℕ} (f : Vec dim → ℝ → Vec dim) (h : ℝ) (y0 a0 : Vec dim) :
    ℕ → Vec dim × Vec dim × Vec dim
  | 0 => (y0, f y0 0, a0)
  | k + 1 =>
    let y := (splineScheme f h y0 a0 k).1
    let v := (splineScheme f h y0 a0 k).2.1
    let a := (splineScheme f h y0 a0 k).2.2
    let v' := f (y + h • v + (h ^ 2 / 2) • a) ((k + 1) * h)
    let a' := a + ((splineVar k + 1 / 2) / (splineVar k + 1 / 3)) • (h⁻¹ • (v' - v) - a)
    (y + (h / 2) • (v + v') + (h ^ 2 / 12) • (a - a'), v', a')

/-- The matrix `1 - h/2 (J + Jᵀ) + h²/3 Jᵀ J` of the linearly implicit step. -/
noncomputable def rosW {dim : ℕ} (h : ℝ) (J : Mat dim dim) : Mat dim dim := 1 - (h / 2) • (J + Jᵀ) + (h ^ 2 / 3) • (Jᵀ * J)

/-- The linearly implicit step: with the Euler prediction `z = y + h f(y, 0)` and a matrix `J`, the correction `e` of the prediction
solves `W e = (h/2 - h²/3 Jᵀ) (f(z, h) - f(y, 0))`. -/
noncomputable def rosStep {dim : ℕ} (f : Vec dim → ℝ → Vec dim) (J : Mat dim dim) (h : ℝ) (y : Vec dim) : Vec dim :=
  let z := y + h • f y 0
  z + (rosW h J)⁻¹ *ᵥ (((h / 2) • (1 : Mat dim dim) - (h ^ 2 / 3) • Jᵀ) *ᵥ (f z h - f y 0))

end Verif.Spec
