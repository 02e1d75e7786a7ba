import Verif.Model.EkfSolvers
import Verif.Model.SdeSolver

/-!
# Model of `ssm_parabola/ekf.py`, `ekf0.py`, `ekf1.py`, `ssm_parabola_ode.py` (Algorithm 4)

The state of coordinate `i` is `(y_i, y_i', W_i, I_i)` at positions `4 i, ..., 4 i + 3`.
-/

namespace Verif

open Matrix

namespace Ssm

/-- `mean`, `ssm_parabola/ekf.py:29`. -/
noncomputable def mean {dim : ℕ} (init : Vec dim) (drift : Field dim) : Vec (dim * (2 + 2)) :=
  interlace ![init, drift init 0, 0, 0]

/-- `block(i, j)`, `ssm_parabola/ekf.py:31-39`, with `D = diffusion(init, 0.0)`. -/
noncomputable def block {dim : ℕ} (delta : ℝ) (D : Mat dim dim) (i j : Fin dim) : Mat 4 4 :=
  let Evfvf := (4 / delta) • D * Dᵀ
  let Evfw := D
  let Evfi := (Real.sqrt 6 / 2) • D
  !![0, 0, 0, 0;
     0, Evfvf i j, Evfw i j, Evfi i j;
     0, Evfw j i, if i = j then delta else 0, 0;
     0, Evfi j i, 0, if i = j then delta / 2 else 0]

/-- `var`, `ssm_parabola/ekf.py:41`. -/
noncomputable def var {dim : ℕ} (delta : ℝ) (D : Mat dim dim) : Mat (dim * (2 + 2)) (dim * (2 + 2)) :=
  fun p q => block delta D p.divNat q.divNat p.modNat q.modNat

/-- `pol(t)`, `ssm_parabola/ekf.py:43-49`. -/
noncomputable def pol (dim : ℕ) (delta t : ℝ) : Mat (dim * (2 + 2)) (dim * (2 + 2)) :=
  Jnp.kron (1 : Mat dim dim)
    (!![1, 0, 0, 0;
        0, 0, 0, 0;
        0, 0, 1 / delta, 0;
        0, 0, 0, Real.sqrt 6 * (1 - 2 * t / delta) / delta] : Mat 4 4)

/-- `H23`, `ssm_parabola/ekf.py:51` (shape `(dim, 4 * dim)`). -/
def H23 (dim : ℕ) : Mat dim (dim * (2 + 2)) :=
  (Jnp.kron (1 : Mat dim dim) (!![0, 0, 1, 1] : Mat 1 4)).submatrix (Fin.cast (Nat.mul_one dim).symm) id

/-- `extended_vector_field(x, t)`, `ssm_parabola/ekf.py:53-54`. -/
noncomputable def field {dim : ℕ} (drift : Field dim) (diffusion : Diffusion dim dim) (delta : ℝ)
    (x : Vec (dim * (2 + 2))) (t : ℝ) : Vec dim :=
  drift (Jnp.stride 0 x) t + (diffusion (Jnp.stride 0 x) t * H23 dim * pol dim delta t) *ᵥ x

/-- `x.at[::4].set(y)`. -/
def setSol {dim : ℕ} (x : Vec (dim * (2 + 2))) (y : Vec dim) : Vec (dim * (2 + 2)) :=
  fun p => if p.modNat = 0 then y p.divNat else x p

/-- `observation_function`, `ssm_parabola/ekf.py:56-64`. -/
noncomputable def obsFn {dim : ℕ} (EKF0 : Bool) (drift : Field dim) (diffusion : Diffusion dim dim)
    (delta : ℝ) : ObsFn (dim * (2 + 2)) dim := fun live frozen t =>
  if EKF0 then
    let z := setSol live (Jnp.stride 0 frozen)
    Jnp.stride 1 live - field drift diffusion delta z t
  else Jnp.stride 1 live - field drift diffusion delta live t

/-- `prior` for one coordinate, `ssm_parabola/ekf.py:65-76`. A prior of another size makes `jnp.block` raise. -/
noncomputable def resolvePrior (h : ℝ) (prior : Option DynPrior) : Except PyErr (Prior 2) :=
  match prior with
  | none => .ok (show Prior (1 * (1 + 1)) from IOUP.transition 0 1 1 h 1)
  | some ⟨s, p⟩ => if hs : s = 2 then .ok (hs ▸ p) else .error .typeError

/-- `block([[M, 0], [0, E]])`, `ssm_parabola/ekf.py:83-90`. -/
def pad4 (M E : Mat 2 2) : Mat (2 + 2) (2 + 2) := KF.block M 0 0 E

/-- `transition_matrix`, `ssm_parabola/ekf.py:83-86, 92`. -/
def transitionMatrix (dim : ℕ) (A : Mat 2 2) : Mat (dim * (2 + 2)) (dim * (2 + 2)) :=
  Jnp.kron (1 : Mat dim dim) (pad4 A 1)

/-- `transition_covariance`, `ssm_parabola/ekf.py:87-90, 93`. -/
def transitionCovariance (dim : ℕ) (Q : Mat 2 2) : Mat (dim * (2 + 2)) (dim * (2 + 2)) :=
  Jnp.kron (1 : Mat dim dim) (pad4 Q 0)

/-- A call of `ekf` with keyword arguments in which `xi` may be missing: `xi` is a required parameter of
`ekf` (`probnum/ekf.py:46`), so omitting it raises TypeError. -/
noncomputable def callEkf (la : LinAlg) {nx ny : ℕ} (init : Gauss nx) (obs : ObsFn nx ny) (A Q : Mat nx nx)
    (xi : Option (Vec nx)) (R : Mat ny ny) (ts : List ℝ) (lowerSqrt : Bool) : Except PyErr (Gauss nx) :=
  match xi with
  | none => .error .typeError
  | some xi => .ok (KF.ekf la init obs A Q xi R ts lowerSqrt)

/-- Lines 20-98 of `ssm_parabola/ekf.py`, parameterised by the `xi` passed to `ekf`; the code passes none. -/
noncomputable def solverWith (la : LinAlg) {dim m : ℕ} (xi : Option (Vec (dim * (2 + 2)))) (init : Vec dim)
    (drift : Field dim) (diffusion : Diffusion dim m) (delta h : ℝ) (N : ℕ) (sqrt EKF0 : Bool)
    (prior : Option DynPrior) (noise : Option DynMat) : Except PyErr (Gauss (dim * (2 + 2))) :=
  let ts := Jnp.linspace h (N * h) N
  if hm : dim = m then do
    let diffusion : Diffusion dim dim := fun x t => (diffusion x t).submatrix id (Fin.cast hm)
    let R ← Ekf.resolveNoise dim noise
    let p ← resolvePrior h prior
    let v := var delta (diffusion init 0)
    let Q := if sqrt then la.cholesky p.Q else p.Q
    let v := if sqrt then la.sqrtm v else v
    callEkf la ⟨mean init drift, v⟩ (obsFn EKF0 drift diffusion delta) (transitionMatrix dim p.A)
      (transitionCovariance dim Q) xi R ts sqrt
  else .error .assertionError

/-- `_solver(...)`, `ssm_parabola/ekf.py:10-98`: `ekf` is called without `xi` (lines 95-96). -/
noncomputable def solver (la : LinAlg) {dim m : ℕ} (init : Vec dim) (drift : Field dim)
    (diffusion : Diffusion dim m) (delta h : ℝ) (N : ℕ) (sqrt EKF0 : Bool) (prior : Option DynPrior)
    (noise : Option DynMat) : Except PyErr (Gauss (dim * (2 + 2))) :=
  solverWith la none init drift diffusion delta h N sqrt EKF0 prior noise

/-- The end of the wrappers, `ssm_parabola/ekf0.py:16-26`, `ekf1.py:16-26`: solution, Brownian increment, area coefficient. -/
noncomputable def finish (la : LinAlg) (rng : Rng) (key : Option Key) (sqrt : Bool) {dim : ℕ}
    (f : Gauss (dim * (2 + 2))) : Vec dim × Vec dim × Vec dim :=
  let sample := match key with
    | some k =>
      let sqrtP := if sqrt then f.cov else la.sqrtm f.cov
      f.mean + sqrtP *ᵥ rng.multivariateNormal la k (0 : Vec (dim * (2 + 2))) 1
    | none => f.mean
  (Jnp.stride 0 sample, Jnp.stride 2 sample, Jnp.stride 3 sample)

/-- `ekf0_marginal_parabola` (`EKF0 = true`, `ssm_parabola/ekf0.py:8-26`) and `ekf1_marginal_parabola`
(`EKF0 = false`, `ssm_parabola/ekf1.py:8-26`). -/
noncomputable def wrapper (la : LinAlg) (rng : Rng) (EKF0 : Bool) (key : Option Key) {dim m : ℕ}
    (init : Vec dim) (delta : ℝ) (drift : Field dim) (diffusion : Diffusion dim m) (h : ℝ) (N : ℕ)
    (sqrt : Bool := false) (prior : Option DynPrior := none) (noise : Option DynMat := none) :
    Except PyErr (Vec dim × Vec dim × Vec dim) := do
  let f ← solver la init drift diffusion delta h N sqrt EKF0 prior noise
  return finish la rng key sqrt f

/-- NOT in the code: the wrapper as it would behave if `xi` (zero) were passed to `ekf`. Used only for `_partial`
theorems about what Algorithm 4 is meant to compute. -/
noncomputable def wrapperFixed (la : LinAlg) (rng : Rng) (EKF0 : Bool) (key : Option Key) {dim m : ℕ}
    (init : Vec dim) (delta : ℝ) (drift : Field dim) (diffusion : Diffusion dim m) (h : ℝ) (N : ℕ)
    (sqrt : Bool := false) (prior : Option DynPrior := none) (noise : Option DynMat := none) :
    Except PyErr (Vec dim × Vec dim × Vec dim) := do
  let f ← solverWith la (some 0) init drift diffusion delta h N sqrt EKF0 prior noise
  return finish la rng key sqrt f

/-- The integrator passed to the solver of `ssm_parabola_ode.py`: returns the next state and the
coefficients. -/
abbrev SsmInt (X C : Type) (d m : ℕ) := Key → X → Field d → Diffusion d m → ℝ → X × C

/-- `body(x, inp)`, `ssm_parabola_ode.py:28-35`. `bm_key` is not used. -/
noncomputable def sdeBody {X C : Type} {d m : ℕ} (drift : Field d) (sigma : Diffusion d m) (delta : ℝ)
    (solver : SsmInt X C d m) (x : X) (inp : ℕ × Key × ℝ) : X × X :=
  let keyK := inp.2.1
  let tk := inp.2.2
  let sampleKey := keyK.child 2 1
  let nextX := (solver sampleKey x (fun z t => drift z (t + tk)) (fun z t => sigma z (t + tk)) delta).1
  (nextX, nextX)

/-- `sde_solver(key, drift, sigma, x0, delta, N, solver)`, `ssm_parabola_ode.py:11-44`. -/
noncomputable def sdeSolver {X C : Type} {d m : ℕ} (key : Key) (drift : Field d) (sigma : Diffusion d m)
    (x0 : X) (delta : ℝ) (N : ℕ) (solver : SsmInt X C d m) : List ℝ × List X :=
  let body := ProgressBar.wrap N (sdeBody drift sigma delta solver)
  let keys := key.split N
  let ts := Jnp.linspace 0 (N * delta) (N + 1)
  let inps := (List.range N).zip (keys.zip ts.dropLast)
  let samples := (Jnp.scan (fun x inp => (body x inp).1) x0 inps).2
  (ts, insertArr samples x0)

end Ssm

end Verif
