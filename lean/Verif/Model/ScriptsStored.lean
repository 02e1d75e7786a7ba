import Verif.Model.ScriptsPathwise
import Verif.Model.EkfSolvers
import Verif.Model.ItoStratonovich

/-!
# Model of `scripts/pathwise_convergence_experiment_2.py`

The experiment that keeps all fine increments, with an integrator that may raise.
-/

namespace Verif.Scripts

open Matrix

/-- The coefficients returned by `get_coeffs` of `get_approx_fine`. -/
abbrev FineCoeffs (m : ℕ) := Vec m × Vec m × List (Vec m) × List (Vec m)

/-- `body` of `sde_solver` (`sde_solver.py:27-37`) with `get_approx_fine` and an integrator that may raise. -/
noncomputable def storedBody {d m : ℕ} (rng : Rng) (drift : Field d) (sigma : Diffusion d m) (delta : ℝ) (fine : ℕ)
    (odeInt : Key → Vec d → Field d → ℝ → Except PyErr (Vec d)) (x : Vec d × FineCoeffs m) (inp : Key × ℝ) :
    Except PyErr (Vec d × FineCoeffs m) := do
  let bm := Foster.getApproxFine m fine
  let coeffsK := bm.coeffs rng (inp.1.child 2 0) delta
  let nextX ← odeInt (inp.1.child 2 1) x.1 (intervalField drift sigma bm delta coeffsK inp.2) delta
  return (nextX, coeffsK)

/-- `sde_solver` with such an integrator, `sde_solver.py:11-45` (without the progress bar): the trajectory and the fine increments of all
intervals. A loop of length zero is not traced here. -/
noncomputable def storedSolver {d m : ℕ} (rng : Rng) (key : Key) (drift : Field d) (sigma : Diffusion d m) (init : Vec d) (delta : ℝ)
    (N fine : ℕ) (odeInt : Key → Vec d → Field d → ℝ → Except PyErr (Vec d)) : Except PyErr (List (Vec d) × List (List (Vec m))) := do
  let keys := key.split N
  let ts := Jnp.linspace 0 (N * delta) (N + 1)
  let samples ← scanE (storedBody rng drift sigma delta fine odeInt) (init, 0, 0, [], []) (keys.zip ts.dropLast)
  return (insertArr (samples.map (·.1)) init, samples.map (·.2.2.2.1))

/-- `xs[::n]`. -/
def everyNth {α : Type} (n : ℕ) (xs : List α) : List α := (List.range ((xs.length + n - 1) / n)).filterMap fun i => xs[i * n]?

/-- `experiment(delta, N, M, fine)` for one key, `pathwise_convergence_experiment_2.py:35-76`, for an integrator `wrapped` of lines 41-42: the
trajectory on the Stratonovich drift, every `fine`-th state of Euler-Maruyama on the given drift and the stored increments. `solver` in line 61
is a `partial`, so the branch that selects a component of the state is never taken. -/
noncomputable def storedExperiment {d m : ℕ} (rng : Rng) (key : Key) (drift : Field d) (sigma : Diffusion d m) (x0 : Vec d) (delta : ℝ)
    (N fine : ℕ) (odeInt : Key → Vec d → Field d → ℝ → Except PyErr (Vec d)) :
    Except PyErr (List (Vec d) × List (Vec d) × List (Vec m)) := do
  let ps := toStratonovich drift sigma
  let (sols, incs) ← storedSolver rng key ps.1 ps.2 x0 delta N fine odeInt
  let dt := delta / fine
  if incs.any fun b => b.length != fine then throw .assertionError
  let flat := incs.flatten
  let (_, sols2) ← emPathwise flat x0 drift sigma dt (fine * incs.length)
  return (sols, everyNth fine sols2, flat)

/-- `wrapped` with the `solver` of `pathwise_convergence_experiment_2.py:23,38-42`: EKF0 with the once integrated Brownian motion prior and
the measurement noise `noise`, a 1×1 matrix in the script. -/
noncomputable def storedInt (la : LinAlg) (rng : Rng) {d : ℕ} (delta : ℝ) (M : ℕ) (noise : Option DynMat) :
    Key → Vec d → Field d → ℝ → Except PyErr (Vec d) := fun key init vf T =>
  Ekf.ekf0 la rng (some key) init vf (T / M) M false (some ⟨_, IOUP.transition 0 1 1 (delta / M) d⟩) noise

/-- `noise=jnp.array([[0.0]])`, `pathwise_convergence_experiment_2.py:39`. -/
def storedNoise : Option DynMat := some ⟨1, 1, 0⟩

end Verif.Scripts
