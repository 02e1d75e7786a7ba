import Verif.Jnp

/-!
# Model of `utils/insert.py` and `ode_solvers/probnum/_utils.py`
-/

namespace Verif

open Matrix

/-- `jnp.insert(x, pos, y, axis=0)` for `0 ≤ pos ≤ len(x)`, the array branch of `insert` (`utils/insert.py:14`). -/
def insertAt {X : Type*} (x : List X) (pos : ℕ) (y : X) : List X := x.take pos ++ y :: x.drop pos

/-- `insert(x, 0, y, axis=0)` on arrays, as called by all solvers (`sde_solver.py:44`, `euler_maruyama.py:22,45`). -/
def insertArr {X : Type*} (x : List X) (y : X) : List X := insertAt x 0 y

/-- The tuple branch of `insert` (`utils/insert.py:11-12`) for a tuple of `n` stacked arrays. -/
def insertTuple {n : ℕ} {X : Fin n → Type*} (x : ∀ i, List (X i)) (pos : ℕ) (y : ∀ i, X i) : ∀ i, List (X i) :=
  fun i => insertAt (x i) pos (y i)

/-- `interlace(arrays)`, `probnum/_utils.py:7-11`. -/
def interlace {d k : ℕ} (arrays : Fin k → Vec d) : Vec (d * k) := Jnp.vstackReshapeF arrays

/-- `jnp.block([[v, w], [x, y]])` for square blocks, as an array of shape `(dim * 2, dim * 2)`: entry
`(p, q)` is taken from the block given by `p // dim`, `q // dim`. -/
def block22 {d : ℕ} (v w x y : Mat d d) : Mat (d * 2) (d * 2) := fun p q =>
  let b (M : Mat d d) (p' q' : ℕ) : ℝ := if h : p' < d ∧ q' < d then M ⟨p', h.1⟩ ⟨q', h.2⟩ else 0
  if p.1 < d then (if q.1 < d then b v p q else b w p (q - d))
  else (if q.1 < d then b x (p - d) q else b y (p - d) (q - d))

/-- `M[r0:r0+d, c0:c0+d]` with offsets `0` or `d` given by `ri`, `ci`
(`var.at[:dim, dim:].get()` and friends, `_utils.py:25-28`). -/
def getBlock {d : ℕ} (ri ci : Fin 2) (M : Mat (d * 2) (d * 2)) : Mat d d := fun i j =>
  M ⟨ri * d + i, by have := ri.2; have := i.2; nlinarith⟩
    ⟨ci * d + j, by have := ci.2; have := j.2; nlinarith⟩

/-- `interlace_matrix(v, w, x, y)`, `probnum/_utils.py:14-29`. -/
def interlaceMatrix {d : ℕ} (v w x y : Mat d d) : Mat (d * 2) (d * 2) :=
  let var := block22 v w x y
  let var' := var
  let var' := Jnp.setStrideMat 0 0 var' (getBlock 0 0 var)
  let var' := Jnp.setStrideMat 1 1 var' (getBlock 1 1 var)
  let var' := Jnp.setStrideMat 1 0 var' (getBlock 1 0 var)
  Jnp.setStrideMat 0 1 var' (getBlock 0 1 var)

end Verif
