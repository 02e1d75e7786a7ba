import Verif.Jnp
import Verif.Rng
import Verif.Model.Utils

/-!
# Model of `sde_solvers/diag_15_scheme.py` and `sde_solvers/hypoelliptic_diffusion__diag_15_scheme.py`

Both are autonomous: `drift(x)`, `sigma(x)`.
-/

namespace Verif

open Matrix

namespace Diag15

variable {d : ℕ}

/-- `partialxdrift`, `diag_15_scheme.py:15-16`. -/
noncomputable def partialxdrift (drift : Vec d → Vec d) (x : Vec d) : Mat d d := Jnp.jac drift x

/-- `diagSigma`, `diag_15_scheme.py:18-19`. -/
def diagSigma (sigma : Vec d → Mat d d) (x : Vec d) : Vec d := fun i => sigma x i i

/-- `partialxsigma`, `diag_15_scheme.py:21-22`. -/
noncomputable def partialxsigma (sigma : Vec d → Mat d d) (x : Vec d) : Mat d d :=
  Jnp.jac (diagSigma sigma) x

/-- `laplaceweighted(sig, f, x)`, `diag_15_scheme.py:24-28`. -/
noncomputable def laplaceweighted (sig : Vec d → Mat d d) (f : Vec d → Vec d) (x : Vec d) : Vec d :=
  let diagH (i : Fin d) : Vec d := fun j => Jnp.hessian f x i j j
  let diagsigma : Vec d := fun j => (sig x * (sig x)ᵀ) j j
  fun i => diagsigma ⬝ᵥ diagH i

/-- The covariance handed to `multivariate_normal`, `diag_15_scheme.py:42-47`. -/
noncomputable def noiseCov (d : ℕ) (h : ℝ) : Mat (d + d) (d + d) :=
  Matrix.reindex finSumFinEquiv finSumFinEquiv (Matrix.fromBlocks
    ((h ^ 3 / 3) • (1 : Mat d d)) ((h ^ 2 / 2) • (1 : Mat d d))
    ((h ^ 2 / 2) • (1 : Mat d d)) (h • (1 : Mat d d)))

/-- The new state as a function of the noise, `diag_15_scheme.py:51-67`. Products with one-dimensional arrays follow
NumPy: `matrix @ vector` is a vector, `vector @ vector` is a scalar which is then broadcast to all
coordinates, and `matrix + vector` adds the vector to every row. -/
noncomputable def stepFn (drift : Vec d → Vec d) (sigma : Vec d → Mat d d) (h : ℝ) (x zeta eta : Vec d) : Vec d :=
  let Pd := partialxdrift drift x
  let Ps := partialxsigma sigma x
  let lapd := laplaceweighted sigma drift x
  let laps := laplaceweighted sigma (diagSigma sigma) x
  x
  + h • drift x
  + (h ^ 2 / 2) • Pd *ᵥ drift x
  + (h ^ 2 / 4) • lapd
  + sigma x *ᵥ eta
  + (Pd * sigma x) *ᵥ zeta
  + ((0.5 : ℝ) • Ps * sigma x) *ᵥ (eta ^ 2 - h • (1 : Vec d))
  + (fun _ => (Ps *ᵥ drift x) ⬝ᵥ (h • eta - zeta))
  + (fun _ => ((0.5 : ℝ) • laps) ⬝ᵥ (h • eta - zeta))
  + ((0.5 : ℝ) • (Ps * Ps * sigma x + Matrix.of fun _ j => laps j)) *ᵥ
      ((fun _ => ((1 / 3 : ℝ) • eta) ⬝ᵥ eta) - h • (1 : Vec d))

/-- `body(x, key)`, `diag_15_scheme.py:36-68`. `split(key_k, 1)` is used as the single key of the split (DESIGN.md, decision 8). -/
noncomputable def body (la : LinAlg) (rng : Rng) (drift : Vec d → Vec d) (sigma : Vec d → Mat d d) (h : ℝ)
    (x : Vec d) (key : Key) : Vec d × Vec d :=
  let bmKey := key.child 1 0
  let ze := rng.multivariateNormal la bmKey (0 : Vec (d + d)) (noiseCov d h)
  let zeta : Vec d := fun i => ze (Fin.castAdd d i)
  let eta : Vec d := fun i => ze (Fin.natAdd d i)
  let out := stepFn drift sigma h x zeta eta
  (out, out)

/-- `solver(key, init, drift, sigma, h, N)`, `diag_15_scheme.py:5-75`. The assertion (line 13) compares `dim` with the number
of columns of `sigma`; rows must equal `dim` for the sums to broadcast, which the type enforces. -/
noncomputable def solver (la : LinAlg) (rng : Rng) (key : Key) {m : ℕ} (init : Vec d) (drift : Vec d → Vec d)
    (sigma : Vec d → Mat d m) (h : ℝ) (N : ℕ) : Except PyErr (List ℝ × List (Vec d)) :=
  if hm : d = m then
    let sigma' : Vec d → Mat d d := fun x => (sigma x).submatrix id (Fin.cast hm)
    let keys := key.split N
    let ts := Jnp.linspace 0 (N * h) (N + 1)
    let samples := (Jnp.scan (body la rng drift sigma' h) init keys).2
    .ok (ts, insertArr samples init)
  else .error .assertionError

/-- `solver_commutativenoise`, `diag_15_scheme.py:78-82`. -/
def solverCommutative : Except PyErr Unit := .error .notImplementedError

end Diag15

namespace Hypo15

variable {d m : ℕ}

/-- `Gamma(x)`, `hypoelliptic_diffusion__diag_15_scheme.py:18-19`. The state has dimension `d + 1`. -/
def Gamma (sigma : Vec (d + 1) → Mat (d + 1) m) (x : Vec (d + 1)) : Mat d m := fun i j => sigma x i.succ j

/-- `GammaGammaT(x)`, lines 21-22. -/
def GammaGammaT (sigma : Vec (d + 1) → Mat (d + 1) m) (x : Vec (d + 1)) : Mat d d :=
  Gamma sigma x * (Gamma sigma x)ᵀ

/-- `partialua(x)`, lines 15-16, 24-25: derivatives of the first drift component in the rough variables. -/
noncomputable def partialua (drift : Vec (d + 1) → Vec (d + 1)) (x : Vec (d + 1)) : Vec d :=
  fun j => Jnp.pd j.succ (fun z => drift z 0) x

/-- `laplaceweighted(sig, f, x)`, lines 30-34. -/
noncomputable def laplaceweighted (sig : Vec (d + 1) → Mat (d + 1) m) (f : Vec (d + 1) → Vec (d + 1))
    (x : Vec (d + 1)) : Vec (d + 1) :=
  let sq := sig x * (sig x)ᵀ
  fun i => ∑ j, ∑ k, sq j k * Jnp.hessian f x i j k

/-- The covariance handed to `multivariate_normal`, lines 46-64. -/
noncomputable def noiseCov (drift : Vec (d + 1) → Vec (d + 1)) (sigma : Vec (d + 1) → Mat (d + 1) m) (h : ℝ)
    (x : Vec (d + 1)) : Mat (d + 1) (d + 1) :=
  let pu := partialua drift x
  let GG := GammaGammaT sigma x
  let row : Vec d := fun j => (pu ᵥ* GG) j * h ^ 2 / 2
  Fin.cons (Fin.cons ((pu ᵥ* GG ⬝ᵥ pu) * h ^ 3 / 3) row) (fun i => Fin.cons (row i) (fun j => GG i j * h))

/-- `body(x, key)`, lines 40-73. -/
noncomputable def body (la : LinAlg) (rng : Rng) (drift : Vec (d + 1) → Vec (d + 1))
    (sigma : Vec (d + 1) → Mat (d + 1) m) (h : ℝ) (x : Vec (d + 1)) (key : Key) : Vec (d + 1) × Vec (d + 1) :=
  let bmKey := key.child 1 0
  let eps := rng.multivariateNormal la bmKey (0 : Vec (d + 1)) (noiseCov drift sigma h x)
  let out := x + h • drift x + (h ^ 2 / 2) • Jnp.jac drift x *ᵥ drift x
    + (h ^ 2 / 4) • laplaceweighted sigma drift x + eps
  (out, out)

/-- `solver(key, init, drift, sigma, h, N)`, lines 5-80. -/
noncomputable def solver (la : LinAlg) (rng : Rng) (key : Key) (init : Vec (d + 1))
    (drift : Vec (d + 1) → Vec (d + 1)) (sigma : Vec (d + 1) → Mat (d + 1) m) (h : ℝ) (N : ℕ) :
    List ℝ × List (Vec (d + 1)) :=
  let keys := key.split N
  let ts := Jnp.linspace 0 (N * h) (N + 1)
  let samples := (Jnp.scan (body la rng drift sigma h) init keys).2
  (ts, insertArr samples init)

end Hypo15

end Verif
