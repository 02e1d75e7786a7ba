import Mathlib.Data.Real.Basic
import Verif.Model.Kalman

/-!
# Model of `tests/test_ekf.py`

The arrays drawn from the key are arguments. The test fixes `nx = ny = 2`; the model allows every size for which the calls have
consistent shapes.
-/

namespace Verif.TestEkf

open Matrix

/-- The exceptions of these tests: those of the package and the `AttributeError` of looking up `.T` on `None`. -/
inductive Err
  | py (e : PyErr)
  | attributeError
  deriving DecidableEq, Repr

/-- `npt.assert_allclose(actual, desired, rtol=rtol)` with the default `atol=0`, on the entries of two arrays of one shape. -/
noncomputable def assertAllclose {ι : Type} [Fintype ι] (actual desired : ι → ℝ) (rtol : ℝ) : Except Err Unit :=
  open Classical in
  if ∀ i, |actual i - desired i| ≤ rtol * |desired i| then .ok () else .error (.py .assertionError)

/-- The entries of a matrix. -/
def entries {a b : ℕ} (A : Mat a b) : Fin a × Fin b → ℝ := fun p => A p.1 p.2

/-- A call of `predict(x, A, Q_or_cholQ, xi, lower_sqrt)`, `probnum/ekf.py:13-19`, in which the positional parameter `xi`, which has no
default, may be missing: then Python raises `TypeError` before the body runs. -/
def predictCall (la : LinAlg) {n : ℕ} (x : Gauss n) (A Q : Mat n n) (xi : Option (Vec n)) (lowerSqrt : Bool) :
    Except Err (Gauss n) :=
  match xi with
  | none => .error (.py .typeError)
  | some xi => .ok (KF.predict la x A Q xi lowerSqrt)

/-- The value returned by `update(x, c, H, R_or_cholR, lower_sqrt, return_S)`, `probnum/ekf.py:22-43`: the pair of the new state and of
`I if return_S else None` (line 37) or `S if return_S else None` (line 43). -/
def updateCall (la : LinAlg) {nx ny : ℕ} (x : Gauss nx) (c : Vec ny) (H : Mat ny nx) (R : Mat ny ny) (lowerSqrt returnS : Bool) :
    Gauss nx × Option (Mat ny ny) :=
  let r := KF.update la x c H R lowerSqrt
  (r.1, if returnS then some r.2 else none)

/-- `v @ v.T` when `v` may be `None`. -/
def gram {n : ℕ} : Option (Mat n n) → Except Err (Mat n n)
  | none => .error .attributeError
  | some v => .ok (v * vᵀ)

/-- The body of `test_agree_predict_sqrt`, `tests/test_ekf.py:10-25`, with the argument `xi` as an option. `Q0` and `P0` are the draws of
lines 13 and 17. -/
noncomputable def predictBody (la : LinAlg) {n : ℕ} (Q0 P0 : Mat n (10 * n)) (A : Mat n n) (m : Vec n) (xi : Option (Vec n)) :
    Except Err Unit := do
  let Q := Q0 * Q0ᵀ
  let cholQ := la.cholesky Q
  let P := P0 * P0ᵀ
  let x : Gauss n := ⟨m, P⟩
  let cholx : Gauss n := ⟨m, la.cholesky P⟩
  let s ← predictCall la cholx A cholQ xi true
  let v ← predictCall la x A Q xi false
  assertAllclose s.mean v.mean 10e-5
  assertAllclose (entries (s.cov * s.covᵀ)) (entries v.cov) 10e-5

/-- `test_agree_predict_sqrt()`: both calls leave `xi` out (lines 22 and 23). -/
noncomputable def testPredict (la : LinAlg) {n : ℕ} (Q0 P0 : Mat n (10 * n)) (A : Mat n n) (m : Vec n) : Except Err Unit :=
  predictBody la Q0 P0 A m none

/-- `test_agree_update_sqrt()`, `tests/test_ekf.py:28-44`. `update` returns the pair of a state and `None`, so that line 41 binds
`_u_cholP` to `None` and line 43 looks up `.T` on it. Line 44 would compare two pairs of arrays of different shapes, which numpy refuses
to convert to an array with a `ValueError`; it is not reached. -/
noncomputable def testUpdate (la : LinAlg) {nx ny : ℕ} (H : Mat ny nx) (c : Vec ny) (P0 : Mat nx (10 * nx)) (m : Vec nx)
    (R0 : Mat ny (10 * ny)) : Except Err Unit := do
  let P := P0 * P0ᵀ
  let x : Gauss nx := ⟨m, P⟩
  let cholx : Gauss nx := ⟨m, la.cholesky P⟩
  let R := R0 * R0ᵀ
  let cholR := la.cholesky R
  let (_, uChol) := updateCall la cholx c H cholR true false
  let (_, uP) := updateCall la x c H R false false
  let lhs ← gram uChol
  match uP with
  | none => .error (.py .typeError)
  | some uP =>
    assertAllclose (entries lhs) (entries uP) 10e-5
    .error (.py .valueError)

/-- `test_agree_update_sqrt()` with the returned pairs unpacked as `(u_m, u_P), _ = update(...)`. -/
noncomputable def updateBody (la : LinAlg) {nx ny : ℕ} (H : Mat ny nx) (c : Vec ny) (P0 : Mat nx (10 * nx)) (m : Vec nx)
    (R0 : Mat ny (10 * ny)) : Except Err Unit := do
  let P := P0 * P0ᵀ
  let x : Gauss nx := ⟨m, P⟩
  let cholx : Gauss nx := ⟨m, la.cholesky P⟩
  let R := R0 * R0ᵀ
  let cholR := la.cholesky R
  let (s, _) := updateCall la cholx c H cholR true false
  let (v, _) := updateCall la x c H R false false
  assertAllclose (entries (s.cov * s.covᵀ)) (entries v.cov) 10e-5
  assertAllclose s.mean v.mean 10e-5

end Verif.TestEkf
