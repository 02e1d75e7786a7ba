import Verif.Model.Kalman
import Verif.Model.Prior
import Verif.Model.Utils
import Verif.Model.ItoStratonovich
import Verif.Rng

/-!
# Model of `ode_solvers/ekf.py`, `ekf0.py`, `ekf1.py`, `ekf0_2.py`, `ekf1_2.py`

The number of states per coordinate is `r + 2` (the observation function reads the states with offsets 0 and 1).
-/

namespace Verif

open Matrix

/-- A prior argument: a transition of a size only known at run time. -/
abbrev DynPrior := (s : ℕ) × Prior s

namespace Ekf

/-- `observation_function`, `ode_solvers/ekf.py:26-33`. With `EKF0` the vector field is under `stop_gradient`. -/
def obsFn {dim r : ℕ} (EKF0 : Bool) (vf : Field dim) : ObsFn (dim * (r + 2)) dim := fun live frozen t =>
  if EKF0 then Jnp.stride 1 live - vf (Jnp.stride 0 frozen) t
  else Jnp.stride 1 live - vf (Jnp.stride 0 live) t

/-- `noise`, `ode_solvers/ekf.py:21-24`. -/
def resolveNoise (dim : ℕ) (noise : Option DynMat) : Except PyErr (Mat dim dim) :=
  match noise with
  | none => .ok 0
  | some ⟨a, b, M⟩ =>
    if h : a = dim ∧ b = dim then .ok (M.submatrix (Fin.cast h.1.symm) (Fin.cast h.2.symm)) else .error .assertionError

/-- `prior`, `ode_solvers/ekf.py:34-45`. A prior of a size different from the state makes the matrix
products of the filter raise TypeError. -/
noncomputable def resolvePrior (dim r : ℕ) (h : ℝ) (prior : Option DynPrior) :
    Except PyErr (Prior (dim * (r + 2))) :=
  match prior with
  | none => .ok (IOUP.transition 0 1 (r + 1) h dim)
  | some ⟨s, p⟩ => if hs : s = dim * (r + 2) then .ok (hs ▸ p) else .error .typeError

/-- The arguments of the call to `ekf` in `ode_solvers/ekf.py:19-50`. -/
structure Args (dim r : ℕ) where
  obs : ObsFn (dim * (r + 2)) dim
  A : Mat (dim * (r + 2)) (dim * (r + 2))
  Q : Mat (dim * (r + 2)) (dim * (r + 2))
  xi : Vec (dim * (r + 2))
  R : Mat dim dim
  ts : List ℝ

/-- Lines 19-47 of `ode_solvers/ekf.py`. -/
noncomputable def args (la : LinAlg) {dim r : ℕ} (vf : Field dim) (h : ℝ) (N : ℕ) (sqrt EKF0 : Bool)
    (prior : Option DynPrior) (noise : Option DynMat) : Except PyErr (Args dim r) := do
  let ts := Jnp.linspace h (N * h) N
  let R ← resolveNoise dim noise
  let p ← resolvePrior dim r h prior
  let Q := if sqrt then la.cholesky p.Q else p.Q
  return { obs := obsFn EKF0 vf, A := p.A, Q := Q, xi := p.xi, R := R, ts := ts }

/-- `_solver(..., return_all=False)`, `ode_solvers/ekf.py:8-52`. -/
noncomputable def solver (la : LinAlg) {dim r : ℕ} (init : Gauss (dim * (r + 2))) (vf : Field dim) (h : ℝ)
    (N : ℕ) (sqrt EKF0 : Bool) (prior : Option DynPrior) (noise : Option DynMat) :
    Except PyErr (Gauss (dim * (r + 2))) := do
  let a ← args la (r := r) vf h N sqrt EKF0 prior noise
  return KF.ekf la init a.obs a.A a.Q a.xi a.R a.ts sqrt

/-- `_solver(..., return_all=True)`, `ode_solvers/ekf.py:8-52`. -/
noncomputable def solverUC (la : LinAlg) {dim r : ℕ} (init : Gauss (dim * (r + 2))) (vf : Field dim) (h : ℝ)
    (N : ℕ) (sqrt EKF0 : Bool) (prior : Option DynPrior) (noise : Option DynMat) :
    Except PyErr (Gauss (dim * (r + 2)) × Mat dim dim × Vec dim) := do
  let a ← args la (r := r) vf h N sqrt EKF0 prior noise
  return KF.ekfUC la init a.obs a.A a.Q a.xi a.R a.ts sqrt

/-- Initial state for two states per coordinate, `ekf0.py:18-23`, `ekf1.py:15-20`. -/
noncomputable def init2 {dim : ℕ} (x0 : Vec dim) (vf : Field dim) : Gauss (dim * (0 + 2)) where
  mean := interlace ![x0, vf x0 0]
  cov := 0

/-- Initial state for three states per coordinate, `ekf0.py:24-29`, `ekf1.py:21-26`. -/
noncomputable def init3 {dim : ℕ} (x0 : Vec dim) (vf : Field dim) : Gauss (dim * (1 + 2)) where
  mean := interlace ![x0, vf x0 0, Jnp.jac (fun z => vf z 0) x0 *ᵥ vf x0 0]
  cov := 0

/-- Initial state of `ekf1` for `n_states = r + 4`, `ekf1.py:27-33`:
`jnp.eye(n_states * dim).at[:3 * dim, :3 * dim].set(0.0)`. -/
noncomputable def init4 {dim r : ℕ} (x0 : Vec dim) (vf : Field dim) : Gauss (dim * ((r + 2) + 2)) where
  mean := interlace fun s => if s.1 = 0 then x0 else if s.1 = 1 then vf x0 0
    else if s.1 = 2 then Jnp.jac (fun z => vf z 0) x0 *ᵥ vf x0 0 else 0
  cov := fun p q => if p.1 < 3 * dim ∧ q.1 < 3 * dim then 0 else (1 : Mat _ _) p q

/-- The end of `ekf0.solver` and `ekf1.solver`, `ekf0.py:39-46`, `ekf1.py:35-41`: a sample of the posterior when a key is
given, its mean otherwise; only the solution components are returned. -/
noncomputable def finish (la : LinAlg) (rng : Rng) (key : Option Key) (sqrt : Bool) {dim r : ℕ}
    (f : Gauss (dim * (r + 2))) : Vec dim :=
  match key with
  | some k =>
    let sqrtP := if sqrt then f.cov else la.sqrtm f.cov
    let sample := f.mean + sqrtP *ᵥ rng.multivariateNormal la k (0 : Vec (dim * (r + 2))) 1
    Jnp.stride 0 sample
  | none => Jnp.stride 0 f.mean

/-- `ekf0.solver(key, init, vector_field, h, N, sqrt, prior, noise)`, `ode_solvers/ekf0.py:9-46`.
`prior[2]` on `None` raises TypeError (line 14). For other numbers of states than 2 and 3 the expression
`jax.jacfwd(..., argnums=(0,))(...) @ ...` (line 34) is `tuple @ array`, a TypeError. -/
noncomputable def ekf0 (la : LinAlg) (rng : Rng) (key : Option Key) {dim : ℕ} (init : Vec dim) (vf : Field dim)
    (h : ℝ) (N : ℕ) (sqrt : Bool := false) (prior : Option DynPrior := none)
    (noise : Option DynMat := none) : Except PyErr (Vec dim) :=
  match prior with
  | none => .error .typeError
  | some p =>
    if dim = 0 then .error .zeroDivisionError
    else
      match p.1 / dim with
      | 2 => do
        let f ← solver la (init2 init vf) vf h N sqrt true (some p) noise
        return finish la rng key sqrt f
      | 3 => do
        let f ← solver la (init3 init vf) vf h N sqrt true (some p) noise
        return finish la rng key sqrt f
      | _ => .error .typeError

/-- `ekf1.solver(key, init, vector_field, h, N, sqrt, prior, noise)`, `ode_solvers/ekf1.py:9-41`.
With one state per coordinate the state built in lines 29-33 has length `3 * dim` and `A @ m` raises TypeError; with
zero (a prior smaller than `dim`) `_solver` divides by zero. -/
noncomputable def ekf1 (la : LinAlg) (rng : Rng) (key : Option Key) {dim : ℕ} (init : Vec dim) (vf : Field dim)
    (h : ℝ) (N : ℕ) (sqrt : Bool := true) (prior : Option DynPrior := none)
    (noise : Option DynMat := none) : Except PyErr (Vec dim) :=
  match prior with
  | none => .error .typeError
  | some p =>
    if dim = 0 then .error .zeroDivisionError
    else
      match p.1 / dim with
      | 0 => .error .zeroDivisionError
      | 1 => .error .typeError
      | 2 => do
        let f ← solver la (init2 init vf) vf h N sqrt false (some p) noise
        return finish la rng key sqrt f
      | 3 => do
        let f ← solver la (init3 init vf) vf h N sqrt false (some p) noise
        return finish la rng key sqrt f
      | r + 4 => do
        let f ← solver la (init4 (r := r) init vf) vf h N sqrt false (some p) noise
        return finish la rng key sqrt f

/-- The state `(sample, mean, covariance)` carried by Algorithm 3. -/
abbrev State3 (dim : ℕ) := Vec dim × Vec dim × Mat dim dim

/-- Initial filter state of `ekf0_2.solver` (`EKF0 = true`, `ekf0_2.py:16-28`, where `H` is zero) and of `ekf1_2.solver`
(`EKF0 = false`, `ekf1_2.py:21-34`, where `H` is the Jacobian). -/
noncomputable def init32 (la : LinAlg) {dim : ℕ} (EKF0 : Bool) (m0 : Vec dim) (P00 : Mat dim dim)
    (vf : Field dim) (sqrt : Bool) : Gauss (dim * (0 + 2)) :=
  let H : Mat dim dim := if EKF0 then 0 else Jnp.jac (fun z => vf z 0) m0
  let P11 := H * P00 * Hᵀ
  let P01 := P00 * Hᵀ
  let P10 := H * P00
  let var := interlaceMatrix P00 P01 P10 P11
  { mean := interlace ![m0, vf m0 0]
    cov := if sqrt then la.sqrtm var else var }

/-- The end of `ekf0_2.solver`/`ekf1_2.solver`, `ekf0_2.py:35-47`, `ekf1_2.py:41-53`: full sample, mean, covariance. -/
noncomputable def finish2 (la : LinAlg) (rng : Rng) (key : Option Key) (sqrt : Bool) {dim : ℕ}
    (f : Gauss (dim * (0 + 2))) : Vec (dim * (0 + 2)) × Vec (dim * (0 + 2)) × Mat (dim * (0 + 2)) (dim * (0 + 2)) :=
  let m := f.mean
  let sqrtP := if sqrt then f.cov else la.sqrtm f.cov
  let P := if sqrt then f.cov * f.covᵀ else f.cov
  let sample := match key with
    | some k => m + sqrtP *ᵥ rng.multivariateNormal la k (0 : Vec (dim * (0 + 2))) 1
    | none => m
  (sample, m, P)

/-- The solution components of the full (sample, mean, covariance), `ekf0_2.py:44`, `ekf1_2.py:49`. -/
def solComponents {dim : ℕ}
    (f : Vec (dim * (0 + 2)) × Vec (dim * (0 + 2)) × Mat (dim * (0 + 2)) (dim * (0 + 2))) : State3 dim :=
  (Jnp.stride 0 f.1, Jnp.stride 0 f.2.1, Jnp.strideMat 0 0 f.2.2)

/-- `ekf0_2.solver` (`EKF0 = true`, `ekf0_2.py:9-47`) and `ekf1_2.solver` (`EKF0 = false`, `ekf1_2.py:9-52`)
with `return_all=False`. -/
noncomputable def ekf2 (la : LinAlg) (rng : Rng) (EKF0 : Bool) (key : Option Key) {dim : ℕ}
    (init : State3 dim) (vf : Field dim) (h : ℝ) (N : ℕ) (sqrt : Bool := false)
    (prior : Option DynPrior := none) (noise : Option DynMat := none) : Except PyErr (State3 dim) := do
  let f ← solver la (init32 la EKF0 init.2.1 init.2.2 vf sqrt) vf h N sqrt EKF0 prior noise
  return solComponents (finish2 la rng key sqrt f)

/-- The extra tuple `(sample, m, P, z, S)` of `return_all=True`, in the order of the code
(`ekf0_2.py:46`, `ekf1_2.py:51`), positions 3 and 4 named by position because the code's local names are exchanged. -/
structure AllOut (dim : ℕ) where
  sample : Vec (dim * (0 + 2))
  mean : Vec (dim * (0 + 2))
  cov : Mat (dim * (0 + 2)) (dim * (0 + 2))
  pos3 : Mat dim dim
  pos4 : Vec dim

/-- `ekf0_2.solver`/`ekf1_2.solver` with `return_all=True`: `x, z, S = filtered` (`ekf0_2.py:31`, `ekf1_2.py:36`), so the
local `z` is the second component of `ekf`'s result and `S` the third. -/
noncomputable def ekf2All (la : LinAlg) (rng : Rng) (EKF0 : Bool) (key : Option Key) {dim : ℕ}
    (init : State3 dim) (vf : Field dim) (h : ℝ) (N : ℕ) (sqrt : Bool := false)
    (prior : Option DynPrior := none) (noise : Option DynMat := none) :
    Except PyErr (State3 dim × AllOut dim) := do
  let (x, z, S) ← solverUC la (init32 la EKF0 init.2.1 init.2.2 vf sqrt) vf h N sqrt EKF0 prior noise
  let full := finish2 la rng key sqrt x
  return (solComponents full, ⟨full.1, full.2.1, full.2.2, z, S⟩)

end Ekf

end Verif
