import Verif.Model.ItoStratonovich
import Verif.Model.Utils
import Verif.Rng

/-!
# Model of `bayesian_sde_solver/sde_solvers/euler_maruyama.py`
-/

namespace Verif

open Matrix

/-- `solver(key, init, drift, sigma, h, N)`, `euler_maruyama.py:5-23`. The shape read in line 9 is the type
parameter `m`. -/
noncomputable def emSolver {d m : ℕ} (rng : Rng) (key : Key) (init : Vec d) (drift : Field d)
    (sigma : Diffusion d m) (h : ℝ) (N : ℕ) : List ℝ × List (Vec d) :=
  let body (x : Vec d) (inp : Key × ℝ) : Vec d × Vec d :=
    let bmKey := inp.1.child 2 0
    let t := inp.2
    let dW : Vec m := h ^ (0.5 : ℝ) • rng.normalVec bmKey m
    let out := x + h • drift x t + sigma x t *ᵥ dW
    (out, out)
  let keys := key.split N
  let ts := Jnp.linspace 0 (N * h) (N + 1)
  let inps := keys.zip ts.dropLast
  let samples := (Jnp.scan body init inps).2
  (ts, insertArr samples init)

/-- `solver_pathwise(incs, init, drift, sigma, h, N, standard)`, `euler_maruyama.py:26-46`. `lax.scan` raises
ValueError when the leading axes of `incs` and `ts[:-1]` differ. -/
noncomputable def emPathwise {d m : ℕ} (incs : List (Vec m)) (init : Vec d) (drift : Field d)
    (sigma : Diffusion d m) (h : ℝ) (N : ℕ) (standard : Bool := false) :
    Except PyErr (List ℝ × List (Vec d)) :=
  let body (x : Vec d) (inp : Vec m × ℝ) : Vec d × Vec d :=
    let dW := inp.1
    let t := inp.2
    let out := x + h • drift x t + sigma x t *ᵥ dW
    (out, out)
  let ts := Jnp.linspace 0 (N * h) (N + 1)
  let incs := if standard then incs.map (h ^ (0.5 : ℝ) • ·) else incs
  if incs.length = ts.dropLast.length then
    let samples := (Jnp.scan body init (incs.zip ts.dropLast)).2
    .ok (ts, insertArr samples init)
  else .error .valueError

end Verif
