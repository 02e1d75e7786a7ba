import Verif.Model.Foster
import Verif.Model.EulerMaruyama
import Verif.Model.EkfSolvers

/-!
# Model of two numerical checks in `scripts/`

`experiment_exp_lipschitz.py` and `local_order_experiment_from_scratch.py`.
-/

namespace Verif.Scripts

open Matrix

/-- `experiment(delta)`, `scripts/experiment_exp_lipschitz.py:17-36`, for the given keys (`keys`, line 14): `get_approx()` has dimension
one, `jnp.trapz` runs over the 101 nodes, the mean over the keys. -/
noncomputable def expLipschitz (rng : Rng) (keys : List Key) (delta : ℝ) : Vec 1 :=
  let N := 100
  let linspace := Jnp.linspace 0 delta (N + 1)
  let bm := Foster.getApprox 1
  let coeffs := keys.map fun k => bm.coeffs rng k delta
  let integrandMean (t : ℝ) (c : Vec 1 × Vec 1) : Vec 1 := fun i => |Jnp.jacT (fun z => bm.eval z delta c) t i|
  let trapz := coeffs.map fun c => Jnp.trapezoid (linspace.map fun t => integrandMean t c) linspace
  let expTrapz := trapz.map fun v => (fun i => Real.exp (v i) : Vec 1)
  (1 / (keys.length : ℝ)) • expTrapz.sum

/-- `theoretical_bound(delta)`, `scripts/experiment_exp_lipschitz.py:39-40`. -/
noncomputable def theoreticalBound (delta : ℝ) : ℝ :=
  1 + (Real.sqrt (3 / (2 * 3.1415)) + Real.sqrt (2 / 3.1415)) * delta ^ (0.5 : ℝ)

/-- `init_x0`, `scripts/local_order_experiment_from_scratch.py:37` (the later of two definitions). -/
def localX0 : Vec 1 := 1

/-- `drift(x, t)`, `scripts/local_order_experiment_from_scratch.py:40-41` (the later of two definitions). -/
noncomputable def localDrift : Field 1 := fun x _ i => Real.exp (x i)

/-- `sigma(x, t)`, `scripts/local_order_experiment_from_scratch.py:44-45`. -/
def localSigma : Diffusion 1 1 := fun _ _ => 1

/-- The increments passed to Euler-Maruyama, `scripts/local_order_experiment_from_scratch.py:66-78`: the fine increments (third
coefficient), multiplied by `jnp.sqrt(1 / fine_delta)`. -/
noncomputable def localIncs (rng : Rng) (fineN : ℕ) (keyOp : Key) (delta : ℝ) : List (Vec 1) :=
  let fineDelta := delta / fineN
  let key := keyOp.child 1 0
  let coeffs := (Foster.getApproxFine 1 fineN).coeffs rng key delta
  coeffs.2.2.1.map (Real.sqrt (1 / fineDelta) • ·)

/-- `X_DELTA_EULER`, `scripts/local_order_experiment_from_scratch.py:79-81`: the last point of Euler-Maruyama. The script leaves `standard`
at its default; it is a parameter here so that the repaired call can be stated. -/
noncomputable def localReference (rng : Rng) (fineN : ℕ) (keyOp : Key) (delta : ℝ) (standard : Bool := false) : Except PyErr (Vec 1) := do
  let fineDelta := delta / fineN
  let (_, sols) ← emPathwise (localIncs rng fineN keyOp delta) localX0 localDrift localSigma fineDelta fineN standard
  return Jnp.clampGet sols (sols.length - 1)

/-- The body of `local_step(key_OP)`, `scripts/local_order_experiment_from_scratch.py:68-114`, for any `wrapped` (a global of the script;
its first argument is `None`) and either value of `standard`. -/
noncomputable def localStepWith (rng : Rng) (wrapped : Vec 1 → Field 1 → ℝ → ℕ → Except PyErr (Vec 1)) (standard : Bool) (fineN : ℕ)
    (delta : ℝ) (N : ℕ) (keyOp : Key) : Except PyErr (Vec 1 × Vec 1) := do
  let key := keyOp.child 1 0
  let bm := Foster.getApproxFine 1 fineN
  let coeffs := bm.coeffs rng key delta
  let euler ← localReference rng fineN keyOp delta standard
  let func (t : ℝ) : Vec 1 := bm.eval t delta coeffs
  let vf : Field 1 := fun x t => localDrift x t + localSigma x t *ᵥ Jnp.jacT func t
  let x ← wrapped localX0 vf delta N
  return (x, euler)

/-- `local_step(key_OP)`, `scripts/local_order_experiment_from_scratch.py:68-114`: `wrapped` (lines 20-21) calls `ekf0` without a key
and without a prior; `fine_N` (line 11) is 1000 in the script. -/
noncomputable def localStep (la : LinAlg) (rng : Rng) (fineN : ℕ) (delta : ℝ) (N : ℕ) (keyOp : Key) : Except PyErr (Vec 1 × Vec 1) :=
  localStepWith rng (fun init vf T N => Ekf.ekf0 la rng none init vf (T / N) N) false fineN delta N keyOp

end Verif.Scripts
