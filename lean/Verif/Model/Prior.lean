import Verif.Jnp
import Mathlib.Analysis.Normed.Algebra.MatrixExponential
import Mathlib.Analysis.SpecialFunctions.Exp
import Mathlib.Data.Nat.Choose.Basic

/-!
# Model of the prior transition functions

`ode_solvers/probnum/IOUP.py`, `matern.py`, `transition_function.py`. A transition is the
triple `(xi, Q, A)` of the code: the next state given the present one is `N(A x + xi, Q)`.
-/

namespace Verif

open Matrix

/-- The triple `(xi, Q, A)` returned by every transition function. -/
@[ext] structure Prior (s : ℕ) where
  xi : Vec s
  Q : Mat s s
  A : Mat s s

/-- `linalg.expm` of a square matrix. -/
noncomputable abbrev expm {n : ℕ} (M : Mat n n) : Mat n n := NormedSpace.exp M

namespace IOUP

/-- The matrix `F` of `IOUP.py:15-18`: superdiagonal of ones, `-theta` in the last corner. -/
def F (theta : ℝ) (q : ℕ) : Mat (q + 1) (q + 1) := fun i j =>
  if i.1 < q then (if j.1 = i.1 + 1 then 1 else 0)
  else (if j.1 < q then 0 else -theta)

/-- The one-coordinate `Q` of `IOUP.py:23-25`. -/
noncomputable def Q1 (sigma : ℝ) (q : ℕ) (dt : ℝ) : Mat (q + 1) (q + 1) := fun i j =>
  sigma ^ 2 * (dt ^ (2 * q + 1 - i.1 - j.1) /
    (((2 * q + 1 - i.1 - j.1 : ℕ) : ℝ) * ((q - i.1).factorial : ℝ) * ((q - j.1).factorial : ℝ)))

/-- `transition_function(theta, sigma, q, dt, dim)`, `IOUP.py:9-29`. -/
noncomputable def transition (theta sigma : ℝ) (q : ℕ) (dt : ℝ) (dim : ℕ) : Prior (dim * (q + 1)) where
  xi := 0
  Q := Jnp.kron (1 : Mat dim dim) (Q1 sigma q dt)
  A := Jnp.kron (1 : Mat dim dim) (expm (dt • F theta q))

end IOUP

/-- `transition_function(F, u, L, h, n_linspace)`, `probnum/transition_function.py:9-40`. -/
noncomputable def computeTransition {n l : ℕ} (F : Mat n n) (u : Vec n) (L : Mat n l) (h : ℝ)
    (nLinspace : ℕ := 10000) : Prior n :=
  let ls := Jnp.linspace 0 h nLinspace
  let integrandXi (s : ℝ) : Vec n := expm (s • F) *ᵥ u
  let integrandQ (s : ℝ) : Mat n n :=
    let B := expm (s • F) * L
    B * Bᵀ
  { xi := Jnp.trapezoid (ls.map integrandXi) ls
    Q := Jnp.trapezoid (ls.map integrandQ) ls
    A := expm (h • F) }

/-- `pad_prior(transition, q)`, `transition_function.py:43-54`. `Q` and `A` are padded to the same
size as `xi`; the code pads each by its own shape and the three sizes coincide for a transition. -/
def padPrior {s : ℕ} (tr : Prior s) (q : ℕ) : Except PyErr (Prior (q + 1)) :=
  if s < q + 1 then
    .ok { xi := fun i => if h : i.1 < s then tr.xi ⟨i.1, h⟩ else 0
          Q := fun i j => if h : i.1 < s ∧ j.1 < s then tr.Q ⟨i.1, h.1⟩ ⟨j.1, h.2⟩ else 0
          A := fun i j => if h : i.1 < s ∧ j.1 < s then tr.A ⟨i.1, h.1⟩ ⟨j.1, h.2⟩ else 0 }
  else .error .assertionError

/-- `block_diag(M, N)` of two square matrices. -/
def blockDiag2 {a b : ℕ} (M : Mat a a) (N : Mat b b) : Mat (a + b) (a + b) :=
  Matrix.reindex finSumFinEquiv finSumFinEquiv (Matrix.fromBlocks M 0 0 N)

/-- Concatenation and `block_diag` of two transitions. -/
def Prior.append {a b : ℕ} (p : Prior a) (r : Prior b) : Prior (a + b) where
  xi := Fin.append p.xi r.xi
  Q := blockDiag2 p.Q r.Q
  A := blockDiag2 p.A r.A

/-- `get_independently_factorized_prior(transitions)` for a nonempty sequence,
`transition_function.py:57-66`: `concatenate` and `block_diag` of many are iterated binary ones. -/
def factorizedPriorAux : List ((s : ℕ) × Prior s) → (s : ℕ) × Prior s
  | [] => ⟨0, ⟨0, 0, 0⟩⟩
  | p :: ps => ⟨p.1 + (factorizedPriorAux ps).1, p.2.append (factorizedPriorAux ps).2⟩

/-- `get_independently_factorized_prior`, `transition_function.py:57-66`; `jnp.concatenate([])` raises ValueError. -/
def factorizedPrior (ps : List ((s : ℕ) × Prior s)) : Except PyErr ((s : ℕ) × Prior s) :=
  if ps.isEmpty then .error .valueError else .ok (factorizedPriorAux ps)

namespace Matern

/-- `lambda_param`, `matern.py:45-46`: `sqrt(2 nu) / length` with `nu = k + 0.5`. -/
noncomputable def lam (k : ℕ) (length : ℝ) : ℝ := Real.sqrt (2 * ((k : ℝ) + 0.5)) / length

/-- Closed-form `A` for `k = 1`, `matern.py:48-50`. -/
noncomputable def A32 (l dt : ℝ) : Mat 2 2 :=
  !![Real.exp (-dt * l) * (1 + dt * l), Real.exp (-dt * l) * dt;
     -Real.exp (-dt * l) * dt * l ^ 2, Real.exp (-dt * l) * (1 - l * dt)]

/-- Closed-form `Q` for `k = 1`, `matern.py:53-59`. -/
noncomputable def Q32 (magnitude l dt : ℝ) : Mat 2 2 :=
  magnitude ^ 2 • !![(1 + Real.exp (-2 * dt * l) * (-1 - 2 * dt * l * (1 + dt * l))) / (4 * l ^ 3),
      0.5 * Real.exp (-2 * dt * l) * dt ^ 2;
      0.5 * Real.exp (-2 * dt * l) * dt ^ 2,
      Real.exp (-2 * dt * l) * (-1 + Real.exp (2 * dt * l) - 2 * dt * l * (-1 + dt * l)) / (4 * l)]

/-- The drift matrix `F` of the general branch, `matern.py:63-66`. The exponent `i - (k + 1)` is a negative
integer. -/
noncomputable def F (k : ℕ) (l : ℝ) : Mat (k + 1) (k + 1) := fun i j =>
  if i.1 < k then (if j.1 = i.1 + 1 then 1 else 0)
  else -((k + 1).choose j.1 : ℝ) * l ^ ((j.1 : ℤ) - ((k : ℤ) + 1))

/-- The matrix `L` of the general branch, `matern.py:67`. -/
def L (k : ℕ) (magnitude : ℝ) : Mat (k + 1) 1 := fun i _ => if i.1 < k then 0 else magnitude

/-- The one-coordinate transition of the general branch, `matern.py:63-68`. -/
noncomputable def general (k : ℕ) (magnitude length dt : ℝ) : Prior (k + 1) :=
  computeTransition (F k (lam k length)) 0 (L k magnitude) dt

/-- `transition_function(k, magnitude, length, dt, dim, mc)`, `matern.py:11-73`. The test `nu == 3 / 2` is `k = 1`. -/
noncomputable def transition (k : ℕ) (magnitude length dt : ℝ) (dim : ℕ) (mc : Bool := false) :
    Prior (dim * (k + 1)) :=
  match k, mc with
  | 1, false =>
    { xi := 0
      Q := Jnp.kron (1 : Mat dim dim) (Q32 magnitude (lam 1 length) dt)
      A := Jnp.kron (1 : Mat dim dim) (A32 (lam 1 length) dt) }
  | k, _ =>
    let g := general k magnitude length dt
    { xi := Jnp.kronVec (fun _ => 1) g.xi
      Q := Jnp.kron (1 : Mat dim dim) g.Q
      A := Jnp.kron (1 : Mat dim dim) g.A }

end Matern

end Verif
