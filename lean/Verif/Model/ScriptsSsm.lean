import Verif.Model.ScriptsPathwise
import Verif.Model.Ssm
import Verif.Model.ItoStratonovich

/-!
# Model of `scripts/pathwise_convergence_experiment_3_ssm.py`

The script runs Algorithm 4 (`ssm_parabola`) for many keys and saves the trajectories; its copies in `EKF0_FHN`, `EKF1_FHN`,
`EKF0_IBM` and `EKF1_IBM` differ in the filter and in the problem. The progress bar of the loop is that of `sde_solver` (`C07`) and is
left out here. Files are returned as values.
-/

namespace Verif.Scripts

/-- An integrator of Algorithm 4 that may raise. -/
abbrev SsmIntE (C : Type) (d m : ℕ) := Key → Vec d → Field d → Diffusion d m → ℝ → Except PyErr (Vec d × C)

/-- `body(x, inp)`, `ssm_parabola_ode.py:28-35`, for an integrator that may raise. `bm_key` (the first child) is not used. -/
noncomputable def ssmBody {C : Type} {d m : ℕ} (drift : Field d) (sigma : Diffusion d m) (delta : ℝ) (solver : SsmIntE C d m) (x : Vec d)
    (inp : Key × ℝ) : Except PyErr (Vec d) := do
  let keyK := inp.1
  let tk := inp.2
  let sampleKey := keyK.child 2 1
  let (nextX, _) ← solver sampleKey x (fun z t => drift z (t + tk)) (fun z t => sigma z (t + tk)) delta
  return nextX

/-- `sde_solver(key, drift, sigma, x0, delta, N, solver)`, `ssm_parabola_ode.py:11-44`, for an integrator that may raise. -/
noncomputable def ssmSolver {C : Type} {d m : ℕ} (key : Key) (drift : Field d) (sigma : Diffusion d m) (x0 : Vec d) (delta : ℝ) (N : ℕ)
    (solver : SsmIntE C d m) : Except PyErr (List ℝ × List (Vec d)) := do
  let keys := key.split N
  let ts := Jnp.linspace 0 (N * delta) (N + 1)
  let samples ← scanE (ssmBody drift sigma delta solver) x0 (keys.zip ts.dropLast)
  return (ts, insertArr samples x0)

/-- A filter with the arguments that the script passes: `key, init, delta, drift, diffusion, h, N, sqrt`. -/
abbrev SsmFilter (C : Type) (d m : ℕ) := Key → Vec d → ℝ → Field d → Diffusion d m → ℝ → ℕ → Bool → Except PyErr (Vec d × C)

/-- `_solver`, `pathwise_convergence_experiment_3_ssm.py:24` (`ekf0_marginal_parabola`, or `ekf1_marginal_parabola` in `EKF1_FHN` and
`EKF1_IBM`): the script passes neither prior nor noise (line 37). -/
noncomputable def ssmFilter (la : LinAlg) (rng : Rng) (EKF0 : Bool) {d m : ℕ} : SsmFilter (Vec d × Vec d) d m :=
  fun key init delta drift diffusion h N sqrt => Ssm.wrapper la rng EKF0 (some key) init delta drift diffusion h N sqrt

/-- NOT in the code: `_solver` as it would behave if the wrapper passed `xi` to `ekf`. -/
noncomputable def ssmFilterFixed (la : LinAlg) (rng : Rng) (EKF0 : Bool) {d m : ℕ} : SsmFilter (Vec d × Vec d) d m :=
  fun key init delta drift diffusion h N sqrt => Ssm.wrapperFixed la rng EKF0 (some key) init delta drift diffusion h N sqrt

/-- `experiment(delta, N, M, fine)`, `pathwise_convergence_experiment_3_ssm.py:26-61`, for one value of `delta` (line 21 for the
Stratonovich drift, 36-37 for the integrator). `keys` are the children of `JAX_KEY` (line 34); the Euler-Maruyama reference of
lines 52-58 is not evaluated. -/
noncomputable def ssmExperiment {C : Type} {d m : ℕ} (filter : SsmFilter C d m) (keys : List Key) (drift : Field d) (sigma : Diffusion d m)
    (x0 : Vec d) (delta : ℝ) (N M : ℕ) : Except PyErr (List (List (Vec d))) := do
  let (driftS, sigmaS) := toStratonovich drift sigma
  let solver : SsmIntE C d m := fun key init drift diffusion T => filter key init T drift diffusion (T / M) M true
  let out ← keys.mapM fun k => ssmSolver k driftS sigmaS x0 delta N solver
  return out.map (·.2)

/-- The numbers of intervals of `pathwise_convergence_experiment_3_ssm.py:64`. -/
def ssmNs : List ℕ := (List.range 10).map fun i => 2 ^ (i + 1)

/-- The loop of `pathwise_convergence_experiment_3_ssm.py:64-79`: `T = 1`, `M = int(Ns ** 0.0) = 1`; the arrays saved, in order. -/
noncomputable def ssmScript {C : Type} {d m : ℕ} (filter : SsmFilter C d m) (key : Key) (samples : ℕ) (drift : Field d) (sigma : Diffusion d m)
    (x0 : Vec d) : Except PyErr (List (List (List (Vec d)))) :=
  ssmNs.mapM fun n : ℕ => ssmExperiment filter (key.split samples) drift sigma x0 (1 / n) n 1

end Verif.Scripts
