import Mathlib.Analysis.SpecialFunctions.Exp
import Mathlib.Analysis.SpecialFunctions.Sqrt
import Verif.Model.ItoStratonovich
import Verif.Model.Foster
import Verif.Model.Euler
import Verif.Model.EulerMaruyama
import Verif.Model.Ivp

/-! What the tests compute for one key, and the reference values their assertions compare with: `tests/test_end_to_end.py`,
`tests/test_foster.py`, `tests/test_euler.py` and `tests/test_euler_maruyama.py`. The sample means over the vmapped keys are not part of the
model; the theorems are about expectations. `assert_almost_equal(actual, desired, decimal=d)` asks for
`|actual - desired| < 1.5 * 10 ** (-d)`. -/

namespace Verif.EndToEnd

/-- `drift` of `test`, `tests/test_end_to_end.py:30-31`. -/
def drift (mu : ℝ) : Field 1 := fun x _ => mu • x
/-- `sigma` of `test`, `tests/test_end_to_end.py:33-34`. -/
def sigma (sig : ℝ) : Diffusion 1 1 := fun _ _ => !![sig]
/-- `x0` of `test`, `tests/test_end_to_end.py:38`. -/
def x0 : Vec 1 := 1
/-- The pair handed to the solver, `tests/test_end_to_end.py:36`. -/
noncomputable def problem (mu sig : ℝ) : Field 1 × Diffusion 1 1 := toStratonovich (drift mu) (sigma sig)
/-- The reference mean, `tests/test_end_to_end.py:63`. -/
noncomputable def refMean (mu delta : ℝ) (N : ℕ) : Vec 1 := Real.exp (mu * delta * N) • x0
/-- The reference standard deviation, `tests/test_end_to_end.py:65`. -/
noncomputable def refStd (sig delta : ℝ) (N : ℕ) : ℝ := Real.sqrt (0.5 * (Real.exp (sig * N * delta * 2) - 1))
/-- `mu` and `sig`, `tests/test_end_to_end.py:27-28`. -/
def params : ℝ × ℝ := (1, 1)

end Verif.EndToEnd

namespace Verif.TestFoster

open Jnp

variable {C : Type} {dim : ℕ}

/-- `get_increments(key)` of `test_moments`, `tests/test_foster.py:26-29`. -/
noncomputable def increment (bm : BmApprox C dim) (rng : Rng) (key : Key) (h : ℝ) : Vec dim :=
  let coeffs := bm.coeffs rng key h
  bm.eval h h coeffs

/-- The row of `trapz` that belongs to `key` in `test_path_integral`, `tests/test_foster.py:47-58`. -/
noncomputable def pathIntegral (bm : BmApprox C dim) (rng : Rng) (key : Key) (h : ℝ) (N : ℕ) : Vec dim :=
  let coeffs := bm.coeffs rng key h
  let ts := linspace 0 h (N + 1)
  let ys := ts.map fun t => t • jacT (fun z => bm.eval z h coeffs) t
  trapezoid ys ts

end Verif.TestFoster

namespace Verif.TestEuler

/-- `vector_field` of `test_exponential`, `tests/test_euler.py:14-15`. -/
def expField : Field 1 := fun x _ => x

/-- `x` of `test_exponential`, `tests/test_euler.py:10-17`, with `N` steps. -/
noncomputable def exponential (N : ℕ) : Vec 1 := eulerSolver 1 expField (1 / N) N

/-- `vector_field` of `test_sin`, `tests/test_euler.py:26-27`; the scalar is broadcast to the shape of the state. -/
noncomputable def sinField : Field 1 := fun _ t _ => Real.sin t

/-- `x` of `test_sin`, `tests/test_euler.py:22-29`, with `N` steps. -/
noncomputable def sine (N : ℕ) : Vec 1 := eulerSolver 1 sinField (1 / N) N

end Verif.TestEuler

namespace Verif.TestEulerMaruyama

open Jnp

/-- The reconstruction `(U, V)` of the path in `test_ibm_path`, `tests/test_euler_maruyama.py:48-56`. `incs` has shape `(N, 1)` and
`jnp.cumsum` without an axis flattens it; `jnp.insert(B, 0, v)` puts `v` in front. -/
noncomputable def reconstruct (incs : List (Vec 1)) (x0 : Vec 2) (dt : ℝ) (ts : List ℝ) : List ℝ × List ℝ :=
  let normalized := incs.map fun w => w 0 * dt ^ (0.5 : ℝ)
  let B := cumsum normalized
  let B := 0 :: B
  let V := B.map (x0 1 + ·)
  let intB := (cumsum B).map (· * dt)
  let U := List.zipWith (fun t i => x0 0 + x0 1 * t + i) ts.tail intB.dropLast
  let U := x0 0 :: U
  (U, V)

end Verif.TestEulerMaruyama
