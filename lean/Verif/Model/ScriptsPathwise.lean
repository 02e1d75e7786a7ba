import Verif.Model.Scripts
import Verif.Model.Euler

/-!
# Model of the pathwise experiments in `scripts/`

`pathwise_convergence_experiment_2_RAM.py` (and its copies in `EKF0_FHN`, `EKF1_FHN`, `EKF0_IBM`, `EKF1_IBM`),
`pathwise_convergence_experiment_2_RAM_2.py` (same copies), `EM_FHN/pathwise_convergence_experiment_2_RAM.py`,
`strong_convergence_parabola_ode.py` and `breaking_multidimensionnal.py`. The progress bar of their loops is that of
`sde_solver` (`C07`) and is left out here.
-/

namespace Verif.Scripts

open Matrix

/-- `jax.lax.scan` over a body that may raise. -/
def scanE {S I : Type} (f : S → I → Except PyErr S) : S → List I → Except PyErr (List S)
  | _, [] => .ok []
  | s, i :: is => do
    let s' ← f s i
    let rest ← scanE f s' is
    return s' :: rest

/-- `body(x, inp)` of the low-memory solver, `pathwise_convergence_experiment_2_RAM.py:62-82` (the same up to layout in
`pathwise_convergence_experiment_2_RAM_2.py:67-87` and `strong_convergence_parabola_ode.py:48-70`): one interval of `sde_solver` and, on the
fine increments of the same Brownian path, one interval of Euler-Maruyama. -/
noncomputable def ramBody {X : Type} {d m : ℕ} (rng : Rng) (drift : Field d) (sigma : Diffusion d m) (delta : ℝ) (fine : ℕ)
    (odeInt : OdeInt X d) (x : X × Vec d) (inp : Key × ℝ) : Except PyErr (X × Vec d) := do
  let keyK := inp.1
  let tk := inp.2
  let bmKey := keyK.child 2 0
  let sampleKey := keyK.child 2 1
  let bm := Foster.getApproxFine m fine
  let coeffsK := bm.coeffs rng bmKey delta
  let nextX := odeInt sampleKey x.1 (intervalField drift sigma bm delta coeffsK tk) delta
  let incs := coeffsK.2.2.1
  let nextX2 ← ramEmBody drift sigma delta fine x.2 (incs, tk)
  return (nextX, nextX2)

/-- The low-memory solver, `pathwise_convergence_experiment_2_RAM.py:44-92`: the grid, the trajectory of the solver and that of the
reference. `init2` is where the reference starts: `init` for Algorithm 2 (line 88), `init[0]` for Algorithm 3
(`pathwise_convergence_experiment_2_RAM_2.py:93,96`). -/
noncomputable def ramSolver {X : Type} {d m : ℕ} (rng : Rng) (key : Key) (drift : Field d) (sigma : Diffusion d m) (init : X)
    (init2 : Vec d) (delta : ℝ) (N fine : ℕ) (odeInt : OdeInt X d) : Except PyErr (List ℝ × List X × List (Vec d)) := do
  let keys := key.split N
  let ts := Jnp.linspace 0 (N * delta) (N + 1)
  let samples ← scanE (ramBody rng drift sigma delta fine odeInt) (init, init2) (keys.zip ts.dropLast)
  return (ts, insertArr (samples.map (·.1)) init, insertArr (samples.map (·.2)) init2)

/-- `wrapped(_key, init, vector_field, T)`, `strong_convergence_parabola_ode.py:86-87` (`wrapped_euler` in
`tests/test_sde_solver_foster.py:25-26,54-55`): `M` Euler steps per interval. -/
noncomputable def eulerInt {d : ℕ} (M : ℕ) : OdeInt (Vec d) d := fun _ init vf T => eulerSolver init vf (T / M) M

/-- `body(x, inp)` of `EM_FHN/pathwise_convergence_experiment_2_RAM.py:53-79`: one Euler-Maruyama step with the sum of the fine
increments and `fine` steps with the increments themselves. -/
noncomputable def emPairBody {d m : ℕ} (rng : Rng) (drift : Field d) (sigma : Diffusion d m) (delta : ℝ) (fine : ℕ)
    (x : Vec d × Vec d) (inp : Key × ℝ) : Except PyErr (Vec d × Vec d) := do
  let bmKey := inp.1.child 2 0
  let tk := inp.2
  let coeffsK := (Foster.getApproxFine m fine).coeffs rng bmKey delta
  let incs := coeffsK.2.2.1
  let totalInc := incs.sum
  let (_, path) ← emPathwise [totalInc] x.1 (fun z t => drift z (t + tk)) (fun z t => sigma z (t + tk)) delta 1
  let nextX2 ← ramEmBody drift sigma delta fine x.2 (incs, tk)
  return (path.getLastD x.1, nextX2)

/-- The solver of `EM_FHN/pathwise_convergence_experiment_2_RAM.py:36-89`. -/
noncomputable def emPairSolver {d m : ℕ} (rng : Rng) (key : Key) (drift : Field d) (sigma : Diffusion d m) (init : Vec d)
    (delta : ℝ) (N fine : ℕ) : Except PyErr (List ℝ × List (Vec d) × List (Vec d)) := do
  let keys := key.split N
  let ts := Jnp.linspace 0 (N * delta) (N + 1)
  let samples ← scanE (emPairBody rng drift sigma delta fine) (init, init) (keys.zip ts.dropLast)
  return (ts, insertArr (samples.map (·.1)) init, insertArr (samples.map (·.2)) init)

/-- The end of `experiment` in `pathwise_convergence_experiment_2_RAM_2.py:108-126` for a tuple-valued solver: the solver is mapped over the keys; then
`sols = sols[0]` takes the first component of the tuple of stacked arrays, and `sol2 = sol2[0]` the first row of a stacked array. -/
noncomputable def ram2Experiment {d m : ℕ} (rng : Rng) (keys : List Key) (drift : Field d) (sigma : Diffusion d m)
    (init : Ekf.State3 d) (delta : ℝ) (N fine : ℕ) (odeInt : OdeInt (Ekf.State3 d) d) :
    Except PyErr (List (List (Vec d)) × List (Vec d)) := do
  let out ← keys.mapM fun k => ramSolver rng k drift sigma init init.1 delta N fine odeInt
  let sols := out.map fun o => o.2.1.map (·.1)
  let sol2 := (out.map fun o => o.2.2).headD []
  return (sols, sol2)

/-- `jnp.arange(start, stop, step)` for a positive step. -/
noncomputable def arange (start stop step : ℝ) : List ℝ :=
  (List.range ⌈(stop - start) / step⌉₊).map fun i : ℕ => start + i * step

/-- The reference of `breaking_multidimensionnal.py:37-39,70-77` on one interval, for drift matrix `A` and diffusion matrix `S`
(lines 35-36): `transition_matrix @ x2 + sum_idx expm(A (delta - fine_ts[idx])) @ S @ incs[idx]`, where `fine_ts = arange(0, delta, M)`
(line 39) with the number of filter steps `M` as step. Reads beyond the end are clamped. -/
noncomputable def linearRefBody {d : ℕ} (A S : Mat d d) (delta : ℝ) (M : ℕ) (x2 : Vec d) (incs : List (Vec d)) : Vec d :=
  let transition := NormedSpace.exp (delta • A)
  let fineTs := arange 0 delta M
  let integrand (idx : ℕ) : Vec d :=
    (NormedSpace.exp ((delta - Jnp.clampGet fineTs idx) • A) * S) *ᵥ Jnp.clampGet incs idx
  transition *ᵥ x2 + ((List.range incs.length).map integrand).sum

/-- `body(x, inp)` of `breaking_multidimensionnal.py:59-78`. -/
noncomputable def linearBody {d : ℕ} (rng : Rng) (A S : Mat d d) (drift : Field d) (sigma : Diffusion d d) (delta : ℝ) (M fine : ℕ)
    (odeInt : OdeInt (Vec d) d) (x : Vec d × Vec d) (inp : Key × ℝ) : Except PyErr (Vec d × Vec d) :=
  let bmKey := inp.1.child 2 0
  let sampleKey := inp.1.child 2 1
  let bm := Foster.getApproxFine d fine
  let coeffsK := bm.coeffs rng bmKey delta
  let nextX := odeInt sampleKey x.1 (intervalField drift sigma bm delta coeffsK inp.2) delta
  .ok (nextX, linearRefBody A S delta M x.2 coeffsK.2.2.1)

/-- The solver of `breaking_multidimensionnal.py:34-88`. The matrices are read off as `drift(identity, 0)` and `sigma(identity, 0)`
(lines 35-36): column `j` of the first is the drift at the `j`-th unit vector; the diffusion of `random_linear_sde` does not depend on
its argument, so it is read at `0` here. -/
noncomputable def linearSolver {d : ℕ} (rng : Rng) (key : Key) (drift : Field d) (sigma : Diffusion d d) (init : Vec d) (delta : ℝ)
    (N M fine : ℕ) (odeInt : OdeInt (Vec d) d) : Except PyErr (List ℝ × List (Vec d) × List (Vec d)) := do
  let A : Mat d d := fun i j => drift (Pi.single j 1) 0 i
  let S : Mat d d := sigma 0 0
  let keys := key.split N
  let ts := Jnp.linspace 0 (N * delta) (N + 1)
  let samples ← scanE (linearBody rng A S drift sigma delta M fine odeInt) (init, init) (keys.zip ts.dropLast)
  return (ts, insertArr (samples.map (·.1)) init, insertArr (samples.map (·.2)) init)

end Verif.Scripts
