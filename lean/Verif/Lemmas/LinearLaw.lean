import Verif.Lemmas.Foster

/-! Helper lemma: the law of a linear recursion driven by fresh normals. -/

namespace Verif

open MeasureTheory ProbabilityTheory Matrix Spec

/-- A linear recursion, written out. -/
theorem linear_recursion {n : ℕ} (A : Mat n n) (x0 : Vec n) (u x : ℕ → Vec n) (N : ℕ) (h0 : x 0 = x0)
    (hx : ∀ k < N, x (k + 1) = A *ᵥ x k + u k) (k : ℕ) (hk : k ≤ N) :
    x k = A ^ k *ᵥ x0 + ∑ i ∈ Finset.range k, A ^ (k - 1 - i) *ᵥ u i := by
  induction k with
  | zero => simp [h0]
  | succ k ih =>
    rw [hx k (by omega), ih (by omega), Finset.sum_range_succ, mulVec_add, mulVec_mulVec, ← pow_succ', add_assoc]
    congr 2
    · rw [mulVec_sum]
      refine Finset.sum_congr rfl fun i hi => ?_
      rw [mulVec_mulVec, ← pow_succ']
      congr 2
      have := Finset.mem_range.mp hi
      omega
    · simp

/-- The states of a linear recursion driven by normals from different keys are normal, with the covariance of the
discrete Lyapunov recursion. -/
theorem isNormal_recursion {Ω : Type*} [MeasurableSpace Ω] {P : Measure Ω} {R : Ω → Rng} (hR : IdealNormals P R) (K : ℕ → Key)
    (hK : Pairwise fun a b => (K a).Diverge (K b)) {n r c : ℕ} (A : Mat n n) (B : Fin r → Mat n c) (x0 : Vec n)
    (x : ℕ → Ω → Vec n) (N : ℕ) (h0 : ∀ ω, x 0 ω = x0)
    (hx : ∀ k < N, ∀ ω, x (k + 1) ω = A *ᵥ x k ω + ∑ j, B j *ᵥ (R ω).normalMat (K k) r c j) (k : ℕ) (hk : k ≤ N) :
    IsNormal P (x k) (A ^ k *ᵥ x0) (∑ i ∈ Finset.range k, A ^ i * (∑ j, B j * (B j)ᵀ) * (A ^ i)ᵀ) := by
  have hi : iIndepFun (fun (p : Fin k × Fin r × Fin c) ω => (R ω).normalMat (K p.1) r c p.2.1 p.2.2) P :=
    hR.indep_mats (ι := Fin k) (fun i => K i) (fun a b hab => hK (by simpa [Fin.ext_iff] using hab)) r c
  have h := isNormal_linear (ι := Fin k × Fin r × Fin c) (P := P) (fun p => hR.law_mat (K p.1) p.2.1 p.2.2) hi (A ^ k *ᵥ x0)
    (Matrix.of fun a p => (A ^ (k - 1 - p.1) * B p.2.1) a p.2.2)
  refine (congrArg₂ (fun X C => IsNormal P X _ C) ?_ ?_).mp h
  · funext ω
    rw [linear_recursion A x0 _ (fun k => x k ω) N (h0 ω) (fun k hk => hx k hk ω) k hk]
    congr 1
    funext a
    rw [Finset.sum_apply, Finset.sum_range, mulVec, dotProduct, Fintype.sum_prod_type]
    refine Finset.sum_congr rfl fun i _ => ?_
    rw [mulVec_sum, Finset.sum_apply, Fintype.sum_prod_type]
    refine Finset.sum_congr rfl fun j _ => ?_
    rw [mulVec_mulVec, mulVec, dotProduct]
    rfl
  · rw [← Finset.sum_range_reflect, Finset.sum_range]
    ext a b
    rw [Matrix.mul_apply, Fintype.sum_prod_type, Matrix.sum_apply]
    refine Finset.sum_congr rfl fun i _ => ?_
    rw [Fintype.sum_prod_type, Finset.mul_sum, Finset.sum_mul, Matrix.sum_apply]
    refine Finset.sum_congr rfl fun j _ => ?_
    rw [show A ^ (k - 1 - i) * (B j * (B j)ᵀ) * (A ^ (k - 1 - i))ᵀ = (A ^ (k - 1 - i) * B j) * (A ^ (k - 1 - i) * B j)ᵀ by
      rw [transpose_mul]; simp only [Matrix.mul_assoc]]
    rw [Matrix.mul_apply]
    rfl

end Verif
