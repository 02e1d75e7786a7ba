import Mathlib.Analysis.SpecialFunctions.Exp
import Mathlib.Analysis.SpecialFunctions.Sqrt
import Verif.Model.Ssm
import Verif.Model.Ivp

/-! The problems and the reference values of `tests/test_ssm_parabola_ode.py`. The sample moments over the vmapped keys are not part of the
model; the theorems are about expectations. `assert_allclose(actual, desired, rtol, atol)` asks for
`|actual - desired| ≤ atol + rtol * |desired|`. -/

namespace Verif.TestSsm

variable {d : ℕ}

/-- `drift`, `tests/test_ssm_parabola_ode.py:24-25, 72-73`. -/
def drift : Field d := fun x _ => x
/-- `sigma`, `tests/test_ssm_parabola_ode.py:27-28` (`d = 1`) and `75-76` (`d = 2`). -/
def sigma : Diffusion d d := fun _ _ => 1
/-- `x0`, `tests/test_ssm_parabola_ode.py:30, 78`. -/
def x0 : Vec d := 1
/-- The reference mean, `tests/test_ssm_parabola_ode.py:46, 90`. -/
noncomputable def refMean (delta : ℝ) (N : ℕ) : Vec d := fun j => x0 j * Real.exp (1 * delta * N)
/-- The reference standard deviation, `tests/test_ssm_parabola_ode.py:48`. -/
noncomputable def refStd (delta : ℝ) (N : ℕ) : ℝ := (0.5 * (Real.exp (1 * N * delta * 2) - 1)) ^ (0.5 : ℝ)
/-- The reference covariance, `tests/test_ssm_parabola_ode.py:92-93`. -/
noncomputable def refCov (delta : ℝ) (N : ℕ) : Mat 2 2 :=
  !![x0 (d := 2) 0 ^ 2 * (0.5 * (Real.exp (1 * N * delta * 2) - 1)), 0; 0, x0 (d := 2) 1 ^ 2 * (0.5 * (Real.exp (1 * N * delta * 2) - 1))]
/-- The reference mean of `test_ibm`, `tests/test_ssm_parabola_ode.py:101, 115`. -/
def ibmMean (delta : ℝ) (N : ℕ) : Vec 2 := ![Ivp.Ibm.x0 0 + Ivp.Ibm.x0 1 * (N * delta), Ivp.Ibm.x0 1]
/-- The reference covariance of `test_ibm`, `tests/test_ssm_parabola_ode.py:101, 118`. -/
noncomputable def ibmCov (delta : ℝ) (N : ℕ) : Mat 2 2 := Ivp.Ibm.var (N * delta)

/-- `solver(key, init, drift, diffusion, T)`, `tests/test_ssm_parabola_ode.py:32-33, 80-81, 105-106`, with the wrapper as an argument. -/
noncomputable def solver (wrapper : Key → Vec d → ℝ → Field d → Diffusion d d → ℝ → ℕ → Except PyErr (Vec d × Vec d × Vec d))
    (key : Key) (init : Vec d) (drift : Field d) (diffusion : Diffusion d d) (T : ℝ) : Except PyErr (Vec d × Vec d × Vec d) :=
  wrapper key init T drift diffusion T 1

end Verif.TestSsm
