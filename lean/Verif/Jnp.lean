import Verif.Basic
import Mathlib.Analysis.Calculus.FDeriv.Basic
import Mathlib.Analysis.Calculus.Deriv.Basic
import Mathlib.Analysis.Normed.Module.FiniteDimension
import Mathlib.LinearAlgebra.Matrix.Kronecker
import Mathlib.Logic.Equiv.Fin.Basic
import Mathlib.Analysis.SpecialFunctions.Pow.Real
import Mathlib.Analysis.SpecialFunctions.Sqrt

/-!
# The NumPy/JAX primitives used by the package

These are library functions, not code of `/repo`; each comment says where the package uses them.
-/

namespace Verif

namespace Jnp

/-- `jax.lax.scan(f, init, xs)`: final carry and stacked outputs
(used in `sde_solver.py:42`, `probnum/ekf.py:85,87`, `euler.py:15`, `euler_maruyama.py:21,44`, ...). -/
def scan {S I O : Type*} (f : S → I → S × O) : S → List I → S × List O
  | s, [] => (s, [])
  | s, i :: is =>
    let r := f s i
    let rest := scan f r.1 is
    (rest.1, r.2 :: rest.2)

/-- `jnp.linspace(a, b, n)` (end point included). -/
noncomputable def linspace (a b : ℝ) (n : ℕ) : List ℝ :=
  (List.range n).map fun (i : ℕ) => if n = 1 then a else a + (i : ℝ) * ((b - a) / ((n : ℝ) - 1))

/-- `jnp.cumsum(xs, axis=0)` (`foster_polynomial.py:38`). -/
def cumsum {V : Type*} [AddCommMonoid V] : List V → List V
  | [] => []
  | x :: xs => x :: (cumsum xs).map (x + ·)

/-- Clamped read `xs.at[i].get()` along the leading axis (DESIGN.md, decision 6). The empty array is
never read by the modelled code; `0` is returned there. -/
def clampGet {V : Type*} [Zero V] (xs : List V) (i : ℕ) : V :=
  xs.getD (min i (xs.length - 1)) 0

/-- `jnp.trapz(ys, dx=dx, axis=0)` (`foster_polynomial.py:49`). -/
noncomputable def trapzDx {V : Type*} [AddCommGroup V] [Module ℝ V] (dx : ℝ) : List V → V
  | y₀ :: y₁ :: ys => (dx / 2) • (y₀ + y₁) + trapzDx dx (y₁ :: ys)
  | _ => 0

/-- `jnp.trapezoid(ys, xs, axis=0)` (`transition_function.py:30,38`, `ivp.py:217,256`). -/
noncomputable def trapezoid {V : Type*} [AddCommGroup V] [Module ℝ V] : List V → List ℝ → V
  | y₀ :: y₁ :: ys, x₀ :: x₁ :: xs => ((x₁ - x₀) / 2) • (y₀ + y₁) + trapezoid (y₁ :: ys) (x₁ :: xs)
  | _, _ => 0

/-- `jnp.kron(A, B)`: entry `(i, j)` is `A[i // c, j // d] * B[i % c, j % d]`. -/
def kron {a b c d : ℕ} (A : Mat a b) (B : Mat c d) : Mat (a * c) (b * d) :=
  fun i j => A i.divNat j.divNat * B i.modNat j.modNat

/-- `jnp.kron(u, v)` for vectors (`matern.py:71`). -/
def kronVec {a c : ℕ} (u : Vec a) (v : Vec c) : Vec (a * c) :=
  fun i => u i.divNat * v i.modNat

/-- Position `i * n + s` of a flat array of length `d * n`. -/
def flat {d n : ℕ} (i : Fin d) (s : Fin n) : Fin (d * n) := finProdFinEquiv (i, s)

/-- `x[s::n]` for a flat array of length `d * n`. -/
def stride {d n : ℕ} (s : Fin n) (x : Vec (d * n)) : Vec d := fun i => x (flat i s)

/-- `M[s::n, t::n]`. -/
def strideMat {d n : ℕ} (s t : Fin n) (M : Mat (d * n) (d * n)) : Mat d d :=
  fun i j => M (flat i s) (flat j t)

/-- `jnp.vstack(xs).reshape((-1,), order='F')` of `k` arrays of length `d`: the stacked array has
entry `xs[r][c]` in row `r`, column `c`; column-major flattening puts it at `c * k + r`. -/
def vstackReshapeF {d k : ℕ} (xs : Fin k → Vec d) : Vec (d * k) :=
  fun p => xs p.modNat p.divNat

/-- `M.at[s::n, t::n].set(B)`. -/
def setStrideMat {d n : ℕ} (s t : Fin n) (M : Mat (d * n) (d * n)) (B : Mat d d) :
    Mat (d * n) (d * n) :=
  fun p q => if p.modNat = s ∧ q.modNat = t then B p.divNat q.divNat else M p q

/-- Partial derivative of a scalar function. -/
noncomputable def pd {n : ℕ} (j : Fin n) (g : Vec n → ℝ) (x : Vec n) : ℝ :=
  fderiv ℝ g x (Pi.single j 1)

/-- `jax.jacfwd(f)(x)` for a vector function: entry `(i, j)` is `∂ f_i / ∂ x_j`. -/
noncomputable def jac {n m : ℕ} (f : Vec n → Vec m) (x : Vec n) : Mat m n :=
  fun i j => pd j (fun z => f z i) x

/-- `jax.jacfwd(f)(t)` for a function of a scalar. -/
noncomputable def jacT {m : ℕ} (f : ℝ → Vec m) (t : ℝ) : Vec m :=
  fun i => deriv (fun s => f s i) t

/-- `jax.hessian(f)(x)`: entry `[i, j, k]` is `∂_k ∂_j f_i`. -/
noncomputable def hessian {n m : ℕ} (f : Vec n → Vec m) (x : Vec n) :
    Fin m → Mat n n :=
  fun i j k => pd k (fun z => pd j (fun w => f w i) z) x

end Jnp

end Verif
