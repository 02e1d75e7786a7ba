import Verif.Model.ItoStratonovich

/-!
# Model of `bayesian_sde_solver/ode_solvers/euler.py`
-/

namespace Verif

/-- `solver(init, vector_field, h, N)`, `ode_solvers/euler.py:5-16`. -/
noncomputable def eulerSolver {d : ℕ} (init : Vec d) (vf : Field d) (h : ℝ) (N : ℕ) : Vec d :=
  let body (x : Vec d) (t : ℝ) : Vec d × Unit := (x + h • vf x t, ())
  let inps := Jnp.linspace 0 (N * h - h) N
  (Jnp.scan body init inps).1

end Verif
