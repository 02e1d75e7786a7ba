import Verif.Rng

/-! Specification: which random numbers a computation looks at. -/

namespace Verif.Spec

/-- The result of `F` is determined by the numbers drawn with the listed (key, shape) pairs. -/
def Footprint {A : Sort*} (F : Rng → A) (L : List (Key × List ℕ)) : Prop :=
  ∀ r r' : Rng, (∀ p ∈ L, ∀ i, r.normal p.1 p.2 i = r'.normal p.1 p.2 i) → F r = F r'

/-- `k` is a proper ancestor of `k'`: `k'` is obtained by splitting `k` (and its children) further. -/
def Ancestor (k k' : Key) : Prop := ∃ a : Key, a ≠ [] ∧ k' = a ++ k

/-- A list of draws uses its keys correctly: any two descend from different children of one split (so no key occurs twice,
not even with different shapes), and no key that is drawn from is split to obtain another. -/
structure FreshKeys (L : List (Key × List ℕ)) : Prop where
  diverge : L.Pairwise fun p q => p.1.Diverge q.1
  not_split : ∀ p ∈ L, ∀ q ∈ L, ¬ Ancestor p.1 q.1

end Verif.Spec
