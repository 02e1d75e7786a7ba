import Verif.Model.Foster
import Verif.Model.ItoStratonovich
import Verif.Model.ProgressBar
import Verif.Model.Utils

/-!
# Model of `bayesian_sde_solver/sde_solver.py`
-/

namespace Verif

open Matrix

/-- The ODE integrator passed to `sde_solver`: `ode_int(key, init=x, vector_field=vf, T=delta)`. `X` is the type of
the carried state (an array for Algorithm 2, a tuple (sample, mean, covariance) for Algorithm 3). -/
abbrev OdeInt (X : Type) (d : ℕ) := Key → X → Field d → ℝ → X

/-- The random vector field of one interval, `sde_solver.py:33-34`. -/
noncomputable def intervalField {C : Type} {d m : ℕ} (drift : Field d) (sigma : Diffusion d m)
    (bm : BmApprox C m) (delta : ℝ) (coeffs : C) (tk : ℝ) : Field d :=
  let func (t : ℝ) : Vec m := bm.eval t delta coeffs
  fun z t => drift z (t + tk) + sigma z (t + tk) *ᵥ Jnp.jacT func t

/-- `body(x, inp)`, `sde_solver.py:29-36`. -/
noncomputable def sdeBody {X C : Type} {d m : ℕ} (rng : Rng) (drift : Field d) (sigma : Diffusion d m)
    (bm : BmApprox C m) (delta : ℝ) (odeInt : OdeInt X d) (x : X) (inp : ℕ × Key × ℝ) : X × (X × C) :=
  let keyK := inp.2.1
  let tk := inp.2.2
  let bmKey := keyK.child 2 0
  let sampleKey := keyK.child 2 1
  let coeffsK := bm.coeffs rng bmKey delta
  let nextX := odeInt sampleKey x (intervalField drift sigma bm delta coeffsK tk) delta
  (nextX, (nextX, coeffsK))

/-- `sde_solver(key, drift, sigma, x0, bm, delta, N, ode_int)`, `sde_solver.py:11-45`, with the log of the progress
bar. The stacked trajectory is a list of states; for tuple states `insert` acts componentwise on the
stacked components, which is consing the tuple (see `C42`). `ode_int` is total here: an exception
raised by it is raised while tracing, before any result exists. -/
noncomputable def sdeSolverLog {X C : Type} {d m : ℕ} (rng : Rng) (key : Key) (drift : Field d)
    (sigma : Diffusion d m) (x0 : X) (bm : BmApprox C m) (delta : ℝ) (N : ℕ) (odeInt : OdeInt X d) :
    (List ℝ × List X × List C) × List ProgressBar.Event :=
  let init := x0
  let body := ProgressBar.wrap N (sdeBody rng drift sigma bm delta odeInt)
  let keys := key.split N
  let ts := Jnp.linspace 0 (N * delta) (N + 1)
  let inps := (List.range N).zip (keys.zip ts.dropLast)
  let out := (Jnp.scan (fun x inp => let r := body x inp; (r.1.1, (r.1.2, r.2))) init inps).2
  let traj := out.map (·.1.1)
  let coeffs := out.map (·.1.2)
  ((ts, insertArr traj init, coeffs), (out.map (·.2)).flatten)

/-- `sde_solver`, the returned value. -/
noncomputable def sdeSolver {X C : Type} {d m : ℕ} (rng : Rng) (key : Key) (drift : Field d)
    (sigma : Diffusion d m) (x0 : X) (bm : BmApprox C m) (delta : ℝ) (N : ℕ) (odeInt : OdeInt X d) :
    List ℝ × List X × List C :=
  (sdeSolverLog rng key drift sigma x0 bm delta N odeInt).1

end Verif
