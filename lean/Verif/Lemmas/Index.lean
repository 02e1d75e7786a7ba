import Verif.Model.Utils
import Mathlib.LinearAlgebra.Matrix.PosDef
import Mathlib.Data.Matrix.Block

/-! Helper lemmas: index arithmetic of interlaced arrays. -/

namespace Verif

open Jnp Matrix

@[simp] theorem divNat_flat {d n : ℕ} (i : Fin d) (s : Fin n) : (flat i s).divNat = i :=
  congrArg Prod.fst (finProdFinEquiv.symm_apply_apply (i, s))

@[simp] theorem modNat_flat {d n : ℕ} (i : Fin d) (s : Fin n) : (flat i s).modNat = s :=
  congrArg Prod.snd (finProdFinEquiv.symm_apply_apply (i, s))

theorem flat_div_mod {d n : ℕ} (p : Fin (d * n)) : flat p.divNat p.modNat = p :=
  finProdFinEquiv.apply_symm_apply p

theorem flat_val {d n : ℕ} (i : Fin d) (s : Fin n) : (flat i s).1 = i * n + s := by
  simp [flat, finProdFinEquiv, Nat.mul_comm, Nat.add_comm]

theorem forall_flat {d n : ℕ} {P : Fin (d * n) → Prop} : (∀ p, P p) ↔ ∀ i s, P (flat i s) :=
  ⟨fun h i s => h _, fun h p => by rw [← flat_div_mod p]; exact h _ _⟩

theorem flat_inj {d n : ℕ} {i j : Fin d} {s t : Fin n} : flat i s = flat j t ↔ i = j ∧ s = t := by
  constructor
  · intro h
    have := finProdFinEquiv.injective h
    exact ⟨congrArg Prod.fst this, congrArg Prod.snd this⟩
  · rintro ⟨rfl, rfl⟩; rfl

/-- Sums over flat indices. -/
theorem sum_flat {d n : ℕ} {V : Type*} [AddCommMonoid V] (f : Fin (d * n) → V) :
    ∑ p, f p = ∑ i : Fin d, ∑ s : Fin n, f (flat i s) := by
  rw [← Fintype.sum_prod_type (f := fun x : Fin d × Fin n => f (flat x.1 x.2))]
  exact (Equiv.sum_comp finProdFinEquiv f).symm

@[simp] theorem interlace_flat {d k : ℕ} (a : Fin k → Vec d) (i : Fin d) (s : Fin k) :
    interlace a (flat i s) = a s i := by simp [interlace, vstackReshapeF]

@[simp] theorem stride_interlace {d k : ℕ} (a : Fin k → Vec d) (s : Fin k) : stride s (interlace a) = a s := by
  funext i; simp [stride]

@[simp] theorem kron_flat {a b c d : ℕ} (A : Mat a b) (B : Mat c d) (i : Fin a) (s : Fin c) (j : Fin b) (t : Fin d) :
    kron A B (flat i s) (flat j t) = A i j * B s t := by simp [kron]

theorem getBlock_block22 {d : ℕ} (v w x y : Mat d d) :
    getBlock 0 0 (block22 v w x y) = v ∧ getBlock 0 1 (block22 v w x y) = w ∧
    getBlock 1 0 (block22 v w x y) = x ∧ getBlock 1 1 (block22 v w x y) = y := by
  refine ⟨?_, ?_, ?_, ?_⟩ <;>
  · ext i j
    have := i.2; have := j.2
    simp [getBlock, block22]

theorem interlaceMatrix_flat {d : ℕ} (v w x y : Mat d d) (i j : Fin d) (s t : Fin 2) :
    interlaceMatrix v w x y (flat i s) (flat j t) = !![v i j, w i j; x i j, y i j] s t := by
  obtain ⟨h1, h2, h3, h4⟩ := getBlock_block22 v w x y
  simp only [interlaceMatrix, setStrideMat, modNat_flat, divNat_flat, h1, h2, h3, h4]
  fin_cases s <;> fin_cases t <;> simp

/-- The position of an entry of the flat array in the block array. -/
def blockEquiv (d : ℕ) : Fin (d * 2) ≃ Fin d ⊕ Fin d :=
  finProdFinEquiv.symm.trans ((Equiv.prodComm _ _).trans ((finTwoEquiv.prodCongr (Equiv.refl _)).trans
    (Equiv.boolProdEquivSum _)))

theorem blockEquiv_zero {d : ℕ} (i : Fin d) : blockEquiv d (flat i 0) = Sum.inl i := by
  simp [blockEquiv, flat, Equiv.boolProdEquivSum, finTwoEquiv]

theorem blockEquiv_one {d : ℕ} (i : Fin d) : blockEquiv d (flat i 1) = Sum.inr i := by
  simp [blockEquiv, flat, Equiv.boolProdEquivSum, finTwoEquiv]

theorem interlaceMatrix_eq_submatrix {d : ℕ} (v w x y : Mat d d) :
    interlaceMatrix v w x y = (fromBlocks v w x y).submatrix (blockEquiv d) (blockEquiv d) := by
  ext p q
  rw [← flat_div_mod p, ← flat_div_mod q, interlaceMatrix_flat, submatrix_apply]
  generalize p.modNat = s
  generalize q.modNat = t
  fin_cases s <;> fin_cases t <;> simp [blockEquiv_zero, blockEquiv_one]

end Verif
