import Verif.Model.TestEkf
import Verif.Props.Kalman
import Verif.Lemmas.LinAlg

/-!
# Property C143: the tests of the Kalman steps
-/

namespace Verif

open Matrix Spec TestEkf

private theorem assert_self {ι : Type} [Fintype ι] {a d : ι → ℝ} (h : a = d) {rtol : ℝ} (hr : 0 ≤ rtol) :
    assertAllclose a d rtol = .ok () := by
  subst h
  unfold assertAllclose
  rw [if_pos]
  intro i
  simpa using mul_nonneg hr (abs_nonneg _)

private theorem gram_posDef {n k : ℕ} {B : Mat n k} (h : LinearIndependent ℝ (fun i => B i)) : (B * Bᵀ).PosDef := by
  have := Matrix.PosDef.mul_conjTranspose_self (A := B) (Matrix.vecMul_injective_iff.2 h)
  simpa using this

/-- C143 (negation): whatever arrays the key yields, neither test of `tests/test_ekf.py` reaches a comparison. The first raises
`TypeError` at the call of `predict` without `xi`, the second `AttributeError` at `None.T`. -/
theorem C143_fails (la : LinAlg) :
    (∀ {n : ℕ} (Q0 P0 : Mat n (10 * n)) (A : Mat n n) (m : Vec n), testPredict la Q0 P0 A m = .error (.py .typeError)) ∧
    (∀ {nx ny : ℕ} (H : Mat ny nx) (c : Vec ny) (P0 : Mat nx (10 * nx)) (m : Vec nx) (R0 : Mat ny (10 * ny)),
      testUpdate la H c P0 m R0 = .error .attributeError) :=
  ⟨fun _ _ _ _ => rfl, fun _ _ _ _ _ => rfl⟩

/-- C143: with the increment supplied and the returned pairs unpacked, both tests pass for all sizes and all draws in which the rows of
the arrays behind the covariances are linearly independent; the compared arrays are equal. Missing: the tests as written. -/
theorem C143_partial {la : LinAlg} (hla : la.Correct) :
    (∀ {n : ℕ} (Q0 P0 : Mat n (10 * n)) (A : Mat n n) (m xi : Vec n), LinearIndependent ℝ (fun i => Q0 i) →
      LinearIndependent ℝ (fun i => P0 i) → predictBody la Q0 P0 A m (some xi) = .ok ()) ∧
    (∀ {nx ny : ℕ} (H : Mat ny nx) (c : Vec ny) (P0 : Mat nx (10 * nx)) (m : Vec nx) (R0 : Mat ny (10 * ny)),
      LinearIndependent ℝ (fun i => P0 i) → LinearIndependent ℝ (fun i => R0 i) → updateBody la H c P0 m R0 = .ok ()) := by
  constructor
  · intro n Q0 P0 A m xi hQ hP
    obtain ⟨⟨h1, h2⟩, -⟩ := C23_predict hla m (la.cholesky (P0 * P0ᵀ)) (P0 * P0ᵀ) A (la.cholesky (Q0 * Q0ᵀ)) (Q0 * Q0ᵀ) xi
      (hla.chol_mul _ (gram_posDef hP)) (hla.chol_mul _ (gram_posDef hQ))
    simp only [predictBody, predictCall, bind, Except.bind]
    rw [assert_self h1 (by norm_num)]
    exact assert_self (congrArg entries h2) (by norm_num)
  · intro nx ny H c P0 m R0 hP hR
    have hS : (innovCov (P0 * P0ᵀ) H (R0 * R0ᵀ)).PosDef :=
      PosDef.posSemidef_add (psd_mul_mul_transpose (gram_posDef hP).posSemidef H) (gram_posDef hR)
    obtain ⟨⟨h1, h2⟩, -⟩ := C23_update hla m (la.cholesky (P0 * P0ᵀ)) (P0 * P0ᵀ) c H (la.cholesky (R0 * R0ᵀ)) (R0 * R0ᵀ)
      (hla.chol_mul _ (gram_posDef hP)) (hla.chol_mul _ (gram_posDef hR)) hS
    simp only [updateBody, updateCall, bind, Except.bind]
    rw [assert_self (congrArg entries h2) (by norm_num)]
    exact assert_self h1 (by norm_num)

/-- Unit vectors as the rows of the draws. -/
private def unitRows (n : ℕ) : Mat n (10 * n) := fun i => Pi.single (Fin.castLE (by omega) i) 1

private theorem unitRows_indep (n : ℕ) : LinearIndependent ℝ (fun i => unitRows n i) := by
  have h := (Pi.basisFun ℝ (Fin (10 * n))).linearIndependent.comp (Fin.castLE (by omega : n ≤ 10 * n)) (Fin.castLE_injective _)
  convert h using 2
  simp [unitRows]

/-- Two dimensions, unit covariances, an increment and a gain that are not zero. -/
example : ∃ la : LinAlg, la.Correct ∧
    predictBody la (unitRows 2) (unitRows 2) !![1, 2; 0, 1] ![1, 1] (some ![3, 0]) = .ok () ∧
    updateBody la (!![1, 0] : Mat 1 2) ![2] (unitRows 2) ![1, 1] (unitRows 1) = .ok () := by
  obtain ⟨la, hla⟩ := exists_correct_linAlg
  exact ⟨la, hla, (C143_partial hla).1 _ _ _ _ _ (unitRows_indep 2) (unitRows_indep 2),
    (C143_partial hla).2 _ _ _ _ _ (unitRows_indep 2) (unitRows_indep 1)⟩

/-- The comparisons are not vacuous: different means are rejected. -/
example : assertAllclose (![1, 2] : Vec 2) ![1, 3] 10e-5 = .error (.py .assertionError) := by
  unfold assertAllclose
  rw [if_neg]
  intro h
  have := h 1
  norm_num at this

end Verif
