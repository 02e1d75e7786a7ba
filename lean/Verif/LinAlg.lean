import Verif.Basic
import Mathlib.LinearAlgebra.Matrix.PosDef

/-!
# Numerical kernels

JAX's dense linear algebra routines are a record of functions about which only the
contract `LinAlg.Correct` is assumed (DESIGN.md, decision 3).
-/

namespace Verif

open Matrix

/-- The linear algebra routines the package calls. -/
structure LinAlg where
  /-- `scipy.linalg.qr(B, mode="r")` (`probnum/ekf.py:8`). -/
  qrR : ∀ {k m : ℕ}, Mat k m → Mat k m
  /-- `jnp.linalg.cholesky(Q)` (`ode_solvers/ekf.py:47`), also used by `multivariate_normal`. -/
  cholesky : ∀ {n : ℕ}, Mat n n → Mat n n
  /-- `jnp.real(linalg.sqrtm(P))` (`ekf0.py:41`, ...). -/
  sqrtm : ∀ {n : ℕ}, Mat n n → Mat n n
  /-- `linalg.solve(S, B, assume_a='pos')` (`probnum/ekf.py:39`). -/
  solvePos : ∀ {n m : ℕ}, Mat n n → Mat n m → Mat n m
  /-- `jax.scipy.linalg.solve(S, z)` (`calibration.py:16`). -/
  solve : ∀ {n : ℕ}, Mat n n → Vec n → Vec n
  /-- `linalg.solve_triangular(L, c, lower=True)` (`probnum/ekf.py:36`). -/
  solveTri : ∀ {n : ℕ}, Mat n n → Vec n → Vec n

/-- `L` has no entry above the diagonal. -/
def LowerTri {n : ℕ} (L : Mat n n) : Prop := ∀ i j, i < j → L i j = 0

/-- What is assumed about the routines. -/
structure LinAlg.Correct (la : LinAlg) : Prop where
  qr_gram : ∀ {k m : ℕ} (B : Mat k m), (la.qrR B)ᵀ * la.qrR B = Bᵀ * B
  qr_upper : ∀ {k m : ℕ} (B : Mat k m) (i : Fin k) (j : Fin m), j.1 < i.1 → la.qrR B i j = 0
  chol_lower : ∀ {n : ℕ} (Q : Mat n n), Q.PosDef → LowerTri (la.cholesky Q)
  chol_mul : ∀ {n : ℕ} (Q : Mat n n), Q.PosDef → la.cholesky Q * (la.cholesky Q)ᵀ = Q
  sqrtm_psd : ∀ {n : ℕ} (P : Mat n n), P.PosSemidef → (la.sqrtm P).PosSemidef
  sqrtm_mul : ∀ {n : ℕ} (P : Mat n n), P.PosSemidef → la.sqrtm P * la.sqrtm P = P
  solvePos_spec : ∀ {n m : ℕ} (S : Mat n n) (B : Mat n m), S.PosDef → S * la.solvePos S B = B
  solve_spec : ∀ {n : ℕ} (S : Mat n n) (z : Vec n), IsUnit S.det → S *ᵥ la.solve S z = z
  solveTri_spec : ∀ {n : ℕ} (L : Mat n n) (c : Vec n), LowerTri L → IsUnit L.det →
    L *ᵥ la.solveTri L c = c

end Verif
