import Verif.LinAlg
import Mathlib.Algebra.BigOperators.Fin
import Mathlib.Tactic.Linarith

/-! Helper lemmas: triangular matrices that are normal, or whose Gram matrix is diagonal, are diagonal. -/

namespace Verif

open Matrix

/-- A lower triangular matrix with `Lᵀ L = L Lᵀ` is diagonal. -/
theorem LowerTri.diag_of_normal {n : ℕ} {L : Mat n n} (hL : LowerTri L) (h : Lᵀ * L = L * Lᵀ) (i j : Fin n) (hij : i ≠ j) :
    L i j = 0 := by
  have main : ∀ (m : ℕ) (i : Fin n), i.1 = m → ∀ k, i < k → L k i = 0 := by
    intro m
    induction m using Nat.strong_induction_on with
    | _ m ih =>
      intro i hi k hk
      have h1 := congrFun (congrFun h i) i
      simp only [mul_apply, transpose_apply] at h1
      have h2 : ∑ x, L i x * L i x = L i i * L i i := by
        refine Finset.sum_eq_single_of_mem i (Finset.mem_univ i) fun x _ hx => ?_
        rcases lt_or_gt_of_ne hx with hx | hx
        · rw [ih x.1 (by rw [← hi]; exact hx) x rfl i hx, mul_zero]
        · rw [hL i x hx, mul_zero]
      rw [h2, ← Finset.add_sum_erase _ _ (Finset.mem_univ i), add_eq_left] at h1
      have h3 := (Finset.sum_eq_zero_iff_of_nonneg fun x _ => mul_self_nonneg (L x i)).mp h1 k
        (Finset.mem_erase.mpr ⟨hk.ne', Finset.mem_univ k⟩)
      exact mul_self_eq_zero.mp h3
  rcases lt_or_gt_of_ne hij with h1 | h1
  · exact hL i j h1
  · exact main j.1 j rfl i h1

/-- A lower triangular factor of a diagonal matrix with nonzero diagonal is diagonal. -/
theorem LowerTri.diag_of_gram {n : ℕ} {L V : Mat n n} (hL : LowerTri L) (h : L * Lᵀ = V) (hV : ∀ i j, i ≠ j → V i j = 0)
    (hV0 : ∀ i, V i i ≠ 0) (i j : Fin n) (hij : i ≠ j) : L i j = 0 := by
  have main : ∀ (m : ℕ) (j : Fin n), j.1 = m → ∀ i, j < i → L i j = 0 := by
    intro m
    induction m using Nat.strong_induction_on with
    | _ m ih =>
      intro j hj i hi
      have hrow : ∀ i', j ≤ i' → ∑ x, L i' x * L j x = L i' j * L j j := fun i' _ => by
        refine Finset.sum_eq_single_of_mem j (Finset.mem_univ j) fun x _ hx => ?_
        rcases lt_or_gt_of_ne hx with hx | hx
        · rw [ih x.1 (by rw [← hj]; exact hx) x rfl j hx, mul_zero]
        · rw [hL j x hx, mul_zero]
      have h1 := congrFun (congrFun h j) j
      have h2 := congrFun (congrFun h i) j
      simp only [mul_apply, transpose_apply] at h1 h2
      rw [hrow j le_rfl] at h1
      rw [hrow i hi.le, hV i j hi.ne'] at h2
      have h3 : L j j ≠ 0 := fun h0 => hV0 j (by rw [← h1, h0, mul_zero])
      exact (mul_eq_zero.mp h2).resolve_right h3
  rcases lt_or_gt_of_ne hij with h1 | h1
  · exact hL i j h1
  · exact main j.1 j rfl i h1

end Verif
