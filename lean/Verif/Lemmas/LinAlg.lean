import Verif.LinAlg
import Mathlib.Analysis.InnerProductSpace.GramSchmidtOrtho
import Mathlib.Analysis.Matrix.Order
import Mathlib.Analysis.SpecialFunctions.ContinuousFunctionalCalculus.Rpow.Basic

/-! Helper lemmas: positive matrices, and routines satisfying `LinAlg.Correct` exist. -/

namespace Verif

open Matrix

/-! ## Positive semi-definite real matrices -/

theorem psd_mul_mul_transpose {n m : ℕ} {P : Mat n n} (hP : P.PosSemidef) (H : Mat m n) : (H * P * Hᵀ).PosSemidef := by
  simpa using hP.mul_mul_conjTranspose_same H

theorem psd_self_mul_transpose {n m : ℕ} (L : Mat n m) : (L * Lᵀ).PosSemidef := by
  simpa using posSemidef_self_mul_conjTranspose L

theorem psd_symm {n : ℕ} {P : Mat n n} (hP : P.PosSemidef) : Pᵀ = P := by
  simpa [IsHermitian] using hP.1

theorem pd_symm {n : ℕ} {P : Mat n n} (hP : P.PosDef) : Pᵀ = P := psd_symm hP.posSemidef

theorem psd_nonneg {n : ℕ} {P : Mat n n} (hP : P.PosSemidef) (x : Vec n) : 0 ≤ x ⬝ᵥ P *ᵥ x := by
  simpa using hP.dotProduct_mulVec_nonneg x

theorem psd_of {n : ℕ} {P : Mat n n} (hs : Pᵀ = P) (h : ∀ x : Vec n, 0 ≤ x ⬝ᵥ P *ᵥ x) : P.PosSemidef :=
  PosSemidef.of_dotProduct_mulVec_nonneg (by simpa [IsHermitian] using hs) (by simpa using h)

theorem pd_of {n : ℕ} {P : Mat n n} (hs : Pᵀ = P) (h : ∀ x : Vec n, x ≠ 0 → 0 < x ⬝ᵥ P *ᵥ x) : P.PosDef :=
  PosDef.of_dotProduct_mulVec_pos (by simpa [IsHermitian] using hs) (by simpa using h)

theorem pd_pos {n : ℕ} {P : Mat n n} (hP : P.PosDef) {x : Vec n} (hx : x ≠ 0) : 0 < x ⬝ᵥ P *ᵥ x := by
  simpa using hP.dotProduct_mulVec_pos hx

theorem pd_isUnit_det {n : ℕ} {S : Mat n n} (hS : S.PosDef) : IsUnit S.det :=
  (Matrix.isUnit_iff_isUnit_det S).mp hS.isUnit

theorem pd_inv_symm {n : ℕ} {S : Mat n n} (hS : S.PosDef) : S⁻¹ᵀ = S⁻¹ := by
  rw [transpose_nonsing_inv, pd_symm hS]

/-! ## Consequences of the contract -/

namespace LinAlg.Correct

variable {la : LinAlg} (hla : la.Correct)

include hla

theorem solvePos_eq {n m : ℕ} {S : Mat n n} (hS : S.PosDef) (B : Mat n m) : la.solvePos S B = S⁻¹ * B := by
  have h := hla.solvePos_spec S B hS
  calc la.solvePos S B = S⁻¹ * (S * la.solvePos S B) := by
        rw [← Matrix.mul_assoc, nonsing_inv_mul _ (pd_isUnit_det hS), Matrix.one_mul]
    _ = _ := by rw [h]

theorem solve_eq {n : ℕ} {S : Mat n n} (hS : IsUnit S.det) (z : Vec n) : la.solve S z = S⁻¹ *ᵥ z := by
  have h := hla.solve_spec S z hS
  calc la.solve S z = S⁻¹ *ᵥ (S *ᵥ la.solve S z) := by
        rw [mulVec_mulVec, nonsing_inv_mul _ hS, one_mulVec]
    _ = _ := by rw [h]

theorem solveTri_eq {n : ℕ} {L : Mat n n} (hL : LowerTri L) (hu : IsUnit L.det) (c : Vec n) :
    la.solveTri L c = L⁻¹ *ᵥ c := by
  have h := hla.solveTri_spec L c hL hu
  calc la.solveTri L c = L⁻¹ *ᵥ (L *ᵥ la.solveTri L c) := by
        rw [mulVec_mulVec, nonsing_inv_mul _ hu, one_mulVec]
    _ = _ := by rw [h]

theorem sqrtm_mul_transpose {n : ℕ} {P : Mat n n} (hP : P.PosSemidef) : la.sqrtm P * (la.sqrtm P)ᵀ = P := by
  rw [psd_symm (hla.sqrtm_psd P hP), hla.sqrtm_mul P hP]

end LinAlg.Correct

/-! ## The contract can be met -/

theorem exists_qrR {k m : ℕ} (B : Mat k m) :
    ∃ R : Mat k m, Rᵀ * R = Bᵀ * B ∧ ∀ (i : Fin k) (j : Fin m), j.1 < i.1 → R i j = 0 := by
  let col : Fin m → EuclideanSpace ℝ (Fin k) := fun j => WithLp.toLp 2 (fun i => B i j)
  let f : Fin k → EuclideanSpace ℝ (Fin k) := fun j => if h : j.1 < m then col ⟨j, h⟩ else 0
  have hcard : Module.finrank ℝ (EuclideanSpace ℝ (Fin k)) = Fintype.card (Fin k) := by simp
  let e := InnerProductSpace.gramSchmidtOrthonormalBasis hcard f
  refine ⟨Matrix.of fun i j => inner ℝ (e i) (col j), ?_, ?_⟩
  · ext a b
    rw [Matrix.mul_apply, Matrix.mul_apply]
    have h := e.sum_inner_mul_inner (col a) (col b)
    simp only [Matrix.transpose_apply, Matrix.of_apply]
    calc ∑ i, inner ℝ (e i) (col a) * inner ℝ (e i) (col b)
        = ∑ i, inner ℝ (col a) (e i) * inner ℝ (e i) (col b) := by
          refine Finset.sum_congr rfl fun i _ => ?_
          rw [real_inner_comm]
      _ = inner ℝ (col a) (col b) := h
      _ = ∑ i, B i a * B i b := by
          simp only [col, PiLp.inner_apply]
          refine Finset.sum_congr rfl fun i _ => ?_
          simp [mul_comm]
  · intro i j hij
    have hj : j.1 < k := by omega
    have h := InnerProductSpace.gramSchmidtOrthonormalBasis_inv_triangular hcard f
      (i := ⟨j.1, hj⟩) (j := i) (by exact hij)
    have hf : f ⟨j.1, hj⟩ = col j := by simp [f]
    rw [hf] at h
    exact h

open scoped MatrixOrder in
theorem exists_sqrtm {n : ℕ} (P : Mat n n) (hP : P.PosSemidef) : ∃ X : Mat n n, X.PosSemidef ∧ X * X = P := by
  refine ⟨CFC.sqrt P, (CFC.sqrt_nonneg P).posSemidef, ?_⟩
  exact CFC.sqrt_mul_sqrt_self P hP.nonneg

theorem exists_cholesky {n : ℕ} (Q : Mat n n) (hQ : Q.PosSemidef) : ∃ L : Mat n n, LowerTri L ∧ L * Lᵀ = Q := by
  obtain ⟨X, hX, hXX⟩ := exists_sqrtm Q hQ
  obtain ⟨R, hR, hu⟩ := exists_qrR X
  refine ⟨Rᵀ, fun i j hij => hu j i hij, ?_⟩
  rw [transpose_transpose, hR, psd_symm hX, hXX]

open Classical in
/-- Routines chosen to satisfy the contract. -/
noncomputable def exactLinAlg : LinAlg where
  qrR B := (exists_qrR B).choose
  cholesky Q := if h : Q.PosSemidef then (exists_cholesky Q h).choose else 0
  sqrtm P := if h : P.PosSemidef then (exists_sqrtm P h).choose else 0
  solvePos S B := S⁻¹ * B
  solve S z := S⁻¹ *ᵥ z
  solveTri L c := L⁻¹ *ᵥ c

theorem exactLinAlg_correct : exactLinAlg.Correct where
  qr_gram B := (exists_qrR B).choose_spec.1
  qr_upper B := (exists_qrR B).choose_spec.2
  chol_lower Q h := by
    have : exactLinAlg.cholesky Q = (exists_cholesky Q h.posSemidef).choose := dif_pos h.posSemidef
    rw [this]; exact (exists_cholesky Q h.posSemidef).choose_spec.1
  chol_mul Q h := by
    have : exactLinAlg.cholesky Q = (exists_cholesky Q h.posSemidef).choose := dif_pos h.posSemidef
    rw [this]; exact (exists_cholesky Q h.posSemidef).choose_spec.2
  sqrtm_psd P h := by
    have : exactLinAlg.sqrtm P = (exists_sqrtm P h).choose := dif_pos h
    rw [this]; exact (exists_sqrtm P h).choose_spec.1
  sqrtm_mul P h := by
    have : exactLinAlg.sqrtm P = (exists_sqrtm P h).choose := dif_pos h
    rw [this]; exact (exists_sqrtm P h).choose_spec.2
  solvePos_spec S B h := by
    show S * (S⁻¹ * B) = B
    rw [← Matrix.mul_assoc, mul_nonsing_inv _ (pd_isUnit_det h), Matrix.one_mul]
  solve_spec S z h := by
    show S *ᵥ (S⁻¹ *ᵥ z) = z
    rw [mulVec_mulVec, mul_nonsing_inv _ h, one_mulVec]
  solveTri_spec L c _ h := by
    show L *ᵥ (L⁻¹ *ᵥ c) = c
    rw [mulVec_mulVec, mul_nonsing_inv _ h, one_mulVec]

/-- The routines can be correct for all sizes at once. -/
theorem exists_correct_linAlg : ∃ la : LinAlg, la.Correct := ⟨_, exactLinAlg_correct⟩

end Verif
