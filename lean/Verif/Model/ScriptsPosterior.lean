import Verif.Model.ScriptsPathwise

/-!
# Model of the experiments in `scripts/sampling_from_posterior_alg3`

`uncertainty_calibration.py`, `sanity_check_calibration_ode.py` (the same program on a scalar ODE) and
`pathwise_sampling_from_posterior.py`. `jax.vmap` over the keys is `List.map`; an index `[0]` on the mapped axis is the head of the list.
The progress bar (`C07`) and the printed lines are left out.
-/

namespace Verif.Scripts

open Matrix

/-- `jax.lax.scan` over a body that may raise, keeping an output of each step. -/
def scanOutE {S I O : Type} (f : S → I → Except PyErr (S × O)) : S → List I → Except PyErr (List O)
  | _, [] => .ok []
  | s, i :: is => do
    let (s', o) ← f s i
    let rest ← scanOutE f s' is
    return o :: rest

/-- `custom_sde_solver`, `uncertainty_calibration.py:32-66`, `sanity_check_calibration_ode.py:30-64`: the loop of `sde_solver` with an
integrator that returns a second value, which is collected. -/
noncomputable def customSolver {X C O : Type} {d m : ℕ} (rng : Rng) (key : Key) (drift : Field d) (sigma : Diffusion d m) (x0 : X)
    (bm : BmApprox C m) (delta : ℝ) (N : ℕ) (odeInt : Key → X → Field d → ℝ → Except PyErr (X × O)) :
    Except PyErr (List ℝ × List X × List C × List O) := do
  let init := x0
  let body (x : X) (inp : ℕ × Key × ℝ) : Except PyErr (X × (X × C × O)) := do
    let keyK := inp.2.1
    let tk := inp.2.2
    let bmKey := keyK.child 2 0
    let sampleKey := keyK.child 2 1
    let coeffsK := bm.coeffs rng bmKey delta
    let (nextX, nextOthers) ← odeInt sampleKey x (intervalField drift sigma bm delta coeffsK tk) delta
    return (nextX, (nextX, coeffsK, nextOthers))
  let keys := key.split N
  let ts := Jnp.linspace 0 (N * delta) (N + 1)
  let inps := (List.range N).zip (keys.zip ts.dropLast)
  let out ← scanOutE body init inps
  return (ts, insertArr (out.map (·.1)) init, out.map (·.2.1), out.map (·.2.2))

/-- `wrapped_euler`, `uncertainty_calibration.py:88-91`, `sanity_check_calibration_ode.py:90-93`,
`pathwise_sampling_from_posterior.py:45-48`: Euler-Maruyama with a zero diffusion
matrix; `y[-1]` is the last state. -/
noncomputable def wrappedEuler (rng : Rng) {d : ℕ} (m fine : ℕ) : OdeInt (Vec d) d := fun key init vf T =>
  (emSolver rng key init vf (fun _ _ => (0 : Mat d m)) (T / fine) fine).2.getLastD init

/-- The arrays of an experiment that do not come from the filter. `inc`, `coeffs0` and `coeffs1` are kept for all keys, the
solutions only for the first. -/
structure References (d m : ℕ) where
  sols2 : List (Vec d)
  sols3 : List (Vec d)
  odeEuler : List (Vec d)
  inc : List (List (Vec m))
  coeffs0 : List (List (Vec m))
  coeffs1 : List (List (Vec m))

/-- The part of `experiment` around `wrapped_filter_parabola_euler`, `uncertainty_calibration.py:106-140`,
`sanity_check_calibration_ode.py:108-142`, `pathwise_sampling_from_posterior.py:63-99`. `shape_incs[1]` is the length of the
list of blocks and `shape_incs[2]` that of each block. -/
noncomputable def references {d m : ℕ} (rng : Rng) (keys : List Key) (drift : Field d) (sigma : Diffusion d m) (x0 : Vec d) (delta : ℝ)
    (N fine : ℕ) : Except PyErr (References d m) := do
  let strat := toStratonovich drift sigma
  let bm := Foster.getApproxFine m fine
  let dt := delta / fine
  let euler := keys.map fun k => sdeSolver rng k strat.1 strat.2 x0 bm delta N (wrappedEuler rng m fine)
  let coeffs := euler.map (·.2.2)
  let incs := coeffs.map fun c => c.map (·.2.2.1)
  if ¬ ∀ blocks ∈ incs, ∀ b ∈ blocks, fine = b.length then .error .assertionError
  let totalInc := incs.map fun blocks => blocks.map List.sum
  let inc := incs.map List.flatten
  let sols2 ← (incs.zip inc).mapM fun i => emPathwise i.2 x0 drift sigma dt (fine * i.1.length)
  let sols3 ← (incs.zip totalInc).mapM fun i => emPathwise i.2 x0 drift sigma delta i.1.length
  return { sols2 := (sols2.map (·.2)).headD [], sols3 := (sols3.map (·.2)).headD [], odeEuler := (euler.map (·.2.1)).headD [],
           inc := inc, coeffs0 := coeffs.map (·.map (·.1)), coeffs1 := coeffs.map (·.map (·.2.1)) }

/-- What `experiment` of the calibration script returns. -/
structure CalibrationOut (d m : ℕ) where
  mean : List (Vec (d * (0 + 2)))
  var : List (Mat (d * (0 + 2)) (d * (0 + 2)))
  refs : References d m
  mle : ℝ

/-- `experiment(delta, N, M, fine, sigma_prior)`, `uncertainty_calibration.py:78-149`, `sanity_check_calibration_ode.py:80-152`, on any
problem. -/
noncomputable def calibrationExperiment (la : LinAlg) (rng : Rng) {d m : ℕ} (keys : List Key) (drift : Field d) (sigma : Diffusion d m)
    (x0 : Vec d) (delta : ℝ) (N M fine : ℕ) (sigmaPrior : ℝ) : Except PyErr (CalibrationOut d m) := do
  let strat := toStratonovich drift sigma
  let prior : DynPrior := ⟨_, IOUP.transition 0 sigmaPrior 1 (delta / M) d⟩
  let wrapped (k : Key) (init : Ekf.State3 d) (vf : Field d) (T : ℝ) :=
    Ekf.ekf2All la rng false (some k) init vf (T / M) M (sqrt := true) (prior := some prior)
  let filter ← keys.mapM fun k =>
    customSolver rng k strat.1 strat.2 ((x0, x0, 0) : Ekf.State3 d) (Foster.getApproxFine m fine) delta N wrapped
  let refs ← references rng keys drift sigma x0 delta N fine
  let others := (filter.map (·.2.2.2)).headD []
  return { mean := others.map (·.mean), var := others.map (·.cov), refs := refs,
           mle := estimate la (others.map fun o => (o.pos4, o.pos3)) }

/-- The main part of the calibration script for one step size, `uncertainty_calibration.py:165-195`: a run with scale `√10` and a run with
the root of its estimate as scale. -/
noncomputable def calibrationMain (la : LinAlg) (rng : Rng) {d m : ℕ} (keys : List Key) (drift : Field d) (sigma : Diffusion d m)
    (x0 : Vec d) (delta : ℝ) (N M fine : ℕ) : Except PyErr (CalibrationOut d m × CalibrationOut d m) := do
  let uncalibrated ← calibrationExperiment la rng keys drift sigma x0 delta N M fine (Real.sqrt 10)
  let calibrated ← calibrationExperiment la rng keys drift sigma x0 delta N M fine (uncalibrated.mle ^ (0.5 : ℝ))
  return (uncalibrated, calibrated)

/-- What `experiment` of the sampling script returns. -/
structure PosteriorOut (d m : ℕ) where
  n : ℕ
  samples : List (Fin n → Vec d)
  mean : Fin n → Vec d
  var : Fin n → Mat d d
  refs : References d m

/-- `experiment(delta, N, M, fine, no_samples)`, `pathwise_sampling_from_posterior.py:36-117`. `jaxKey` is the key of the script
and `keys` its two children (lines 16-17); the samples are drawn with other children of the same key (line 113). -/
noncomputable def posteriorExperiment (la : LinAlg) (rng : Rng) {d m : ℕ} (jaxKey : Key) (drift : Field d) (sigma : Diffusion d m)
    (x0 : Vec d) (delta : ℝ) (N M fine noSamples : ℕ) : Except PyErr (PosteriorOut d m) := do
  let keys := jaxKey.split 2
  let strat := toStratonovich drift sigma
  let prior : DynPrior := ⟨_, IOUP.transition 0 1 1 (delta / M) d⟩
  let wrapped (k : Key) (init : Ekf.State3 d) (vf : Field d) (T : ℝ) : Except PyErr (Ekf.State3 d × Unit) := do
    let y ← Ekf.ekf2 la rng false (some k) init vf (T / M) M (sqrt := true) (prior := some prior)
    return (y, ())
  let filter ← keys.mapM fun k =>
    customSolver rng k strat.1 strat.2 ((x0, x0, 0) : Ekf.State3 d) (Foster.getApproxFine m fine) delta N wrapped
  let refs ← references rng keys drift sigma x0 delta N fine
  let sol := ((filter.map (·.2.1)).headD []).tail
  let mean := fun i : Fin sol.length => (sol.get i).2.1
  let var := fun i : Fin sol.length => (sol.get i).2.2
  let keySamples := jaxKey.split noSamples
  return { n := sol.length, samples := keySamples.map (posteriorSample la rng mean var), mean := mean, var := var, refs := refs }

end Verif.Scripts
