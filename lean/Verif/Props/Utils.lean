import Verif.Lemmas.Index
import Verif.Lemmas.Gaussian

/-!
# Properties C40-C42: interlacing and inserting
-/

namespace Verif

open Jnp Matrix MeasureTheory ProbabilityTheory

/-! ## C40 -/

/-- C40: reading the interlaced array with stride `k` from offset `s` gives back array `s`; entry `i * k + s` of the result is
entry `i` of array `s`, and every position is of this form for exactly one pair. -/
theorem C40_interlace_round_trip {d k : ℕ} (a : Fin k → Vec d) :
    (∀ s, stride s (interlace a) = a s) ∧
    (∀ (i : Fin d) (s : Fin k) (h : i.1 * k + s.1 < d * k), interlace a ⟨i.1 * k + s.1, h⟩ = a s i) ∧
    (∀ p : Fin (d * k), ∃! is : Fin d × Fin k, p.1 = is.1.1 * k + is.2.1) := by
  refine ⟨fun s => stride_interlace a s, fun i s h => ?_, fun p => ?_⟩
  · have : (⟨i.1 * k + s.1, h⟩ : Fin (d * k)) = flat i s := Fin.ext (flat_val i s).symm
    rw [this, interlace_flat]
  · refine ⟨(p.divNat, p.modNat), ?_, ?_⟩
    · simp only
      rw [← flat_val, flat_div_mod]
    · rintro ⟨i, s⟩ h
      have : p = flat i s := Fin.ext (h.trans (flat_val i s).symm)
      rw [this]; simp

/-- C40: interlacing two arrays of length 2. -/
example : interlace ![(![1, 2] : Vec 2), ![3, 4]] = (![1, 3, 2, 4] : Vec (2 * 2)) := by
  funext p; fin_cases p <;> rfl

/-! ## C41 -/

/-- C41: the four stride-2 sub-matrices. -/
theorem C41_blocks {d : ℕ} (v w x y : Mat d d) :
    strideMat 0 0 (interlaceMatrix v w x y) = v ∧ strideMat 0 1 (interlaceMatrix v w x y) = w ∧
    strideMat 1 0 (interlaceMatrix v w x y) = x ∧ strideMat 1 1 (interlaceMatrix v w x y) = y := by
  refine ⟨?_, ?_, ?_, ?_⟩ <;>
  · ext i j
    simp [strideMat, interlaceMatrix_flat]

/-- C41: symmetric PSD iff the block matrix is. -/
theorem C41_posSemidef_iff {d : ℕ} (v w x y : Mat d d) :
    (interlaceMatrix v w x y).PosSemidef ↔ (fromBlocks v w x y).PosSemidef := by
  rw [interlaceMatrix_eq_submatrix]
  exact posSemidef_submatrix_equiv (blockEquiv d)

/-- C41: it is the covariance of the interlaced random vector, when the blocks are those of the two vectors. -/
theorem C41_covariance {Ω : Type*} [MeasurableSpace Ω] (P : Measure Ω) {d : ℕ} (a b : Ω → Vec d) (p q : Fin (d * 2)) :
    cov[fun ω => interlace ![a ω, b ω] p, fun ω => interlace ![a ω, b ω] q; P] =
      interlaceMatrix (of fun i j => cov[fun ω => a ω i, fun ω => a ω j; P]) (of fun i j => cov[fun ω => a ω i, fun ω => b ω j; P])
        (of fun i j => cov[fun ω => b ω i, fun ω => a ω j; P]) (of fun i j => cov[fun ω => b ω i, fun ω => b ω j; P]) p q := by
  rw [← flat_div_mod p, ← flat_div_mod q, interlaceMatrix_flat]
  simp only [interlace_flat]
  generalize p.modNat = s
  generalize q.modNat = t
  fin_cases s <;> fin_cases t <;> rfl

/-! ## C42 -/

/-- The stacked components of a list of tuples: what `lax.scan` returns for a tuple-valued carry. -/
def stackTuple {n : ℕ} {X : Fin n → Type*} (l : List (∀ i, X i)) : ∀ i, List (X i) := fun i => l.map fun t => t i

/-- C42: inserting at position `pos` puts `y` there and keeps all other entries in order; at 0 it prepends. -/
theorem C42_insert_array {X : Type*} (x : List X) (pos : ℕ) (h : pos ≤ x.length) (y : X) :
    (insertAt x pos y).length = x.length + 1 ∧ (insertAt x pos y)[pos]? = some y ∧
    (insertAt x pos y).eraseIdx pos = x ∧ insertArr x y = y :: x := by
  refine ⟨?_, ?_, ?_, rfl⟩
  · simp [insertAt]; omega
  · rw [insertAt, List.getElem?_append_right (by simp)]
    simp [min_eq_left h]
  · rw [insertAt, List.eraseIdx_append_of_length_le (by simp)]
    simp [min_eq_left h]

/-- C42: on tuples of stacked arrays the insertion acts on every component, which is inserting the tuple in the list of tuples. -/
theorem C42_insert_tuple {n : ℕ} {X : Fin n → Type*} (l : List (∀ i, X i)) (pos : ℕ) (y : ∀ i, X i) :
    insertTuple (stackTuple l) pos y = stackTuple (insertAt l pos y) ∧
    insertTuple (stackTuple l) 0 y = stackTuple (y :: l) := by
  refine ⟨?_, ?_⟩ <;> funext i <;> simp [insertTuple, stackTuple, insertAt]

example : insertAt [1, 2, 3] 0 7 = [7, 1, 2, 3] := rfl

end Verif
