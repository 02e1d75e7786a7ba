import Verif.LinAlg

/-!
# Pseudo random keys

A key is its derivation path (DESIGN.md, decision 5): the list of `(n, i)` meaning "child `i` of a
split into `n`", most recent first.
-/

namespace Verif

open Matrix

/-- A key as a derivation path. -/
abbrev Key := List (ℕ × ℕ)

/-- `jax.random.split(k, n)[i]`. -/
def Key.child (k : Key) (n i : ℕ) : Key := (n, i) :: k

/-- `jax.random.split(k, n)`. -/
def Key.split (k : Key) (n : ℕ) : List Key := (List.range n).map (k.child n)

/-- Two keys descend from different children of one and the same split. Only for such keys does JAX
promise unrelated random numbers. -/
def Key.Diverge (k k' : Key) : Prop :=
  ∃ (r : Key) (a b : Key) (n i j : ℕ), i ≠ j ∧ k = a ++ (n, i) :: r ∧ k' = b ++ (n, j) :: r

/-- `normal key shape idx`: the entry with flat (row-major) index `idx` of
`jax.random.normal(key, shape)`. -/
structure Rng where
  normal : Key → List ℕ → ℕ → ℝ

/-- `jax.random.normal(key, (n,))`. -/
def Rng.normalVec (rng : Rng) (key : Key) (n : ℕ) : Vec n := fun j => rng.normal key [n] j

/-- `jax.random.normal(key, (r, c))`. -/
def Rng.normalMat (rng : Rng) (key : Key) (r c : ℕ) : Mat r c :=
  fun i j => rng.normal key [r, c] (i * c + j)

/-- `jax.random.multivariate_normal(key, mean, cov)` (default `method="cholesky"`). -/
def Rng.multivariateNormal (rng : Rng) (la : LinAlg) (key : Key) {n : ℕ} (mean : Vec n)
    (cov : Mat n n) : Vec n :=
  mean + la.cholesky cov *ᵥ rng.normalVec key n

end Verif
