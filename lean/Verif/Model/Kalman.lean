import Verif.Jnp
import Verif.LinAlg

/-!
# Model of `ode_solvers/probnum/ekf.py`
-/

namespace Verif

open Matrix

/-- The pair `(m, P_or_cholP)` of `probnum/ekf.py`. -/
@[ext] structure Gauss (n : ℕ) where
  mean : Vec n
  cov : Mat n n

/-- An observation function with `stop_gradient`: `f live frozen t`. Its value at `x` is `f x x t`, and automatic
differentiation only sees `live` (DESIGN.md, decision 4). -/
abbrev ObsFn (nx ny : ℕ) := Vec nx → Vec nx → ℝ → Vec ny

namespace KF

/-- `tria(A)`, `probnum/ekf.py:6-10`, for an array with at least as many columns as rows (the case of both
call sites), so that `n = min(nx, ny) = nx`. -/
def tria (la : LinAlg) {m k : ℕ} (h : m ≤ k) (A : Mat m k) : Mat m m :=
  let r := la.qrR Aᵀ
  fun i j => if j ≤ i then r (Fin.castLE h j) i else 0

/-- `jnp.concatenate([X, Y], axis=1)`. -/
def hcat {a b c : ℕ} (X : Mat a b) (Y : Mat a c) : Mat a (b + c) := fun i => Fin.append (X i) (Y i)

/-- `jnp.block([[X, Y], [Z, W]])`. -/
def block {a b c d : ℕ} (X : Mat a c) (Y : Mat a d) (Z : Mat b c) (W : Mat b d) : Mat (a + b) (c + d) :=
  Matrix.reindex finSumFinEquiv finSumFinEquiv (Matrix.fromBlocks X Y Z W)

/-- `predict(x, A, Q_or_cholQ, xi, lower_sqrt)`, `probnum/ekf.py:13-19`. -/
def predict (la : LinAlg) {n : ℕ} (x : Gauss n) (A Q : Mat n n) (xi : Vec n) (lowerSqrt : Bool) :
    Gauss n :=
  if lowerSqrt then
    { mean := A *ᵥ x.mean + xi
      cov := tria la (Nat.le_add_right n n) (hcat (A * x.cov) Q) }
  else
    { mean := A *ᵥ x.mean + xi
      cov := A * x.cov * Aᵀ + Q }

/-- `update(x, c, H, R_or_cholR, lower_sqrt, return_S)`, `probnum/ekf.py:22-43`. The second component is what is
returned for `return_S=True`. -/
def update (la : LinAlg) {nx ny : ℕ} (x : Gauss nx) (c : Vec ny) (H : Mat ny nx) (R : Mat ny ny)
    (lowerSqrt : Bool) : Gauss nx × Mat ny ny :=
  let m := x.mean
  let P := x.cov
  if lowerSqrt then
    let M : Mat (ny + nx) (nx + ny) := block (H * P) R P 0
    let cholS := tria la (Nat.add_comm ny nx).le M
    let cholP : Mat nx nx := fun i j => cholS (Fin.natAdd ny i) (Fin.natAdd ny j)
    let G : Mat nx ny := fun i j => cholS (Fin.natAdd ny i) (Fin.castAdd nx j)
    let I : Mat ny ny := fun i j => cholS (Fin.castAdd nx i) (Fin.castAdd nx j)
    ({ mean := m - G *ᵥ la.solveTri I c, cov := cholP }, I)
  else
    let S := H * P * Hᵀ + R
    let SinvH := la.solvePos S H
    let K := (SinvH * P)ᵀ
    ({ mean := m - K *ᵥ c, cov := P - K * H * P }, S)

/-- The common part of `body` and `body_return_UC`, `probnum/ekf.py:53-79`: predict, linearise at the predicted mean,
update. Returns the new state, the innovation (co)variance factor and the residual. -/
noncomputable def step (la : LinAlg) {nx ny : ℕ} (obs : ObsFn nx ny) (A Q : Mat nx nx) (xi : Vec nx)
    (R : Mat ny ny) (lowerSqrt : Bool) (x : Gauss nx) (t : ℝ) : Gauss nx × Mat ny ny × Vec ny :=
  let x := predict la x A Q xi lowerSqrt
  let m := x.mean
  let H := Jnp.jac (fun z => obs z m t) m
  let c := obs m m t
  let r := update la x c H R lowerSqrt
  (r.1, r.2, c)

/-- `body(inps, param)`, `probnum/ekf.py:71-79`. -/
noncomputable def body (la : LinAlg) {nx ny : ℕ} (obs : ObsFn nx ny) (A Q : Mat nx nx) (xi : Vec nx)
    (R : Mat ny ny) (lowerSqrt : Bool) (x : Gauss nx) (t : ℝ) : Gauss nx × Unit :=
  ((step la obs A Q xi R lowerSqrt x t).1, ())

/-- `body_return_UC(inps, param)`, `probnum/ekf.py:53-69`: in square-root mode the returned innovation
factor is multiplied out (line 67). -/
noncomputable def bodyUC (la : LinAlg) {nx ny : ℕ} (obs : ObsFn nx ny) (A Q : Mat nx nx) (xi : Vec nx)
    (R : Mat ny ny) (lowerSqrt : Bool) (inps : Gauss nx × Mat ny ny × Vec ny) (t : ℝ) :
    (Gauss nx × Mat ny ny × Vec ny) × Unit :=
  let r := step la obs A Q xi R lowerSqrt inps.1 t
  let S := if lowerSqrt then r.2.1 * r.2.1ᵀ else r.2.1
  ((r.1, S, r.2.2), ())

/-- `ekf(..., return_UC=False)`, `probnum/ekf.py:46-88` with `params=(ts,)`. -/
noncomputable def ekf (la : LinAlg) {nx ny : ℕ} (init : Gauss nx) (obs : ObsFn nx ny) (A Q : Mat nx nx)
    (xi : Vec nx) (R : Mat ny ny) (ts : List ℝ) (lowerSqrt : Bool) : Gauss nx :=
  (Jnp.scan (body la obs A Q xi R lowerSqrt) init ts).1

/-- `ekf(..., return_UC=True)`, `probnum/ekf.py:81-85`: returns `(x, S, c)` of the last step. `jnp.empty` is zero. -/
noncomputable def ekfUC (la : LinAlg) {nx ny : ℕ} (init : Gauss nx) (obs : ObsFn nx ny) (A Q : Mat nx nx)
    (xi : Vec nx) (R : Mat ny ny) (ts : List ℝ) (lowerSqrt : Bool) : Gauss nx × Mat ny ny × Vec ny :=
  (Jnp.scan (bodyUC la obs A Q xi R lowerSqrt) (init, 0, 0) ts).1

end KF

end Verif
