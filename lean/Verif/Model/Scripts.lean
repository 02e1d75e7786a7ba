import Verif.Model.SdeSolver
import Verif.Model.EulerMaruyama
import Verif.Model.EkfSolvers
import Verif.Model.Calibration

/-!
# Model of the computations in experiment scripts

`scripts/pathwise_convergence_experiment_2_RAM.py`,
`scripts/sampling_from_posterior_alg3/uncertainty_calibration.py` and
`scripts/sampling_from_posterior_alg3/pathwise_sampling_from_posterior.py`.
-/

namespace Verif.Scripts

open Matrix

/-- The Euler-Maruyama half of `body` in the low-memory solver,
`scripts/pathwise_convergence_experiment_2_RAM.py:62-82`: `incs` are the fine increments of the interval starting at `t_k`;
the last point of the pathwise solution on the shifted problem is carried on. The filter half of the body is
`sdeBody`. -/
noncomputable def ramEmBody {d m : ℕ} (drift : Field d) (sigma : Diffusion d m) (delta : ℝ) (fine : ℕ)
    (x2 : Vec d) (inp : List (Vec m) × ℝ) : Except PyErr (Vec d) := do
  let tk := inp.2
  let dt := delta / fine
  let (_, path) ← emPathwise inp.1 x2 (fun z t => drift z (t + tk)) (fun z t => sigma z (t + tk)) dt fine
  return path.getLastD x2

/-- The Euler-Maruyama trajectory (`traj2`) of the low-memory solver, lines 84-92, as a function of the fine
increments of all intervals. -/
noncomputable def ramEm {d m : ℕ} (incs : List (List (Vec m))) (init : Vec d) (drift : Field d)
    (sigma : Diffusion d m) (delta : ℝ) (N fine : ℕ) : Except PyErr (List (Vec d)) :=
  let ts := Jnp.linspace 0 (N * delta) (N + 1)
  let rec go (x : Vec d) : List (List (Vec m) × ℝ) → Except PyErr (List (Vec d))
    | [] => .ok []
    | i :: is => do
      let y ← ramEmBody drift sigma delta fine x i
      let rest ← go y is
      return y :: rest
  do
    let traj2 ← go init (incs.zip ts.dropLast)
    return insertArr traj2 init

/-- The residuals and innovation covariances collected by one run of `custom_sde_solver` in
`uncertainty_calibration.py:32-66, 78-86, 136-137` for one path with `M` inner steps: Algorithm 3 (EKF1) with `return_all=True`,
`sqrt=True` and the integrated Brownian motion prior of scale `sigmaPrior`. The vector field of interval `k` is
`vf k`; the keys only affect the sample component. -/
noncomputable def calibrationRun (la : LinAlg) (rng : Rng) {dim : ℕ} (h : ℝ) (M : ℕ) (sigmaPrior : ℝ)
    (x0 : Vec dim) (inps : List (Key × Field dim)) : Except PyErr (List (Vec dim × Mat dim dim)) :=
  let prior : DynPrior := ⟨_, IOUP.transition 0 sigmaPrior 1 h dim⟩
  let rec go (x : Ekf.State3 dim) : List (Key × Field dim) → Except PyErr (List (Vec dim × Mat dim dim))
    | [] => .ok []
    | i :: is => do
      let (x', others) ← Ekf.ekf2All la rng false (some i.1) x i.2 h M (sqrt := true) (prior := some prior)
      let rest ← go x' is
      return (others.pos4, others.pos3) :: rest
  go (x0, x0, 0) inps

/-- `mle_diffusion(mean_error_measurement, var_error_measurement)`, `uncertainty_calibration.py:146`. -/
noncomputable def estimate (la : LinAlg) {dim : ℕ} (obs : List (Vec dim × Mat dim dim)) : ℝ :=
  mleDiffusion la (fun i => (obs.get i).1) (fun i => (obs.get i).2)

/-- `jax.scipy.linalg.cholesky(a)` with the default `lower=False`: the transpose of the lower factor of the transpose. Used in
`pathwise_sampling_from_posterior.py:109`. -/
def scipyCholesky (la : LinAlg) {n : ℕ} (a : Mat n n) : Mat n n := (la.cholesky aᵀ)ᵀ

/-- `sample(key_sample)` with the stacking before and the reshape after it,
`pathwise_sampling_from_posterior.py:99-113`, for the means and covariances at `n` time points: `jnp.hstack` of the means,
`jnp.block` of the covariances with zeros off the diagonal, one draw, reshaped to `(n, dim)`. -/
def posteriorSample (la : LinAlg) (rng : Rng) {n dim : ℕ} (means : Fin n → Vec dim) (vars : Fin n → Mat dim dim) (key : Key) :
    Fin n → Vec dim :=
  let mean : Vec (n * dim) := fun p => means p.divNat p.modNat
  let var : Mat (n * dim) (n * dim) := fun p q => if q.divNat = p.divNat then vars q.divNat p.modNat q.modNat else 0
  let sampled := mean + scipyCholesky la var *ᵥ rng.normalVec key (n * dim)
  fun i j => sampled (finProdFinEquiv (i, j))

end Verif.Scripts
