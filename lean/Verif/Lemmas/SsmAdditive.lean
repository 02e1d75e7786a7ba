import Verif.Lemmas.SsmBlocks

/-! Helper lemmas: the run of the (repaired) parabola filter for constant drift and diffusion. -/

namespace Verif

open Matrix Spec Jnp

namespace Ssm

variable {d : ℕ}

/-- How `(y, y', W, I)` depends on the coefficients `(W, I)` at time `t`, up to constants: `y` is the parabola times the diffusion. -/
noncomputable def load (δ : ℝ) (S : Mat d d) (t : ℝ) : Matrix (Fin (d * (2 + 2))) (Fin d ⊕ Fin d) ℝ :=
  rows ![fromCols ((t / δ) • S) ((√6 * (t / δ) * (1 - t / δ)) • S), fromCols ((1 / δ) • S) ((√6 * (1 - 2 * t / δ) / δ) • S),
    fromCols 1 0, fromCols 0 1]

/-- The observation matrix: derivative minus diffusion times the derivative of the parabola. -/
noncomputable def obsMat (δ : ℝ) (S : Mat d d) (t : ℝ) : Mat d (d * (2 + 2)) :=
  Ekf.E 1 - S * ((1 / δ) • Ekf.E 2 + (√6 * (1 - 2 * t / δ) / δ) • Ekf.E 3)

/-- The change of the derivative over a step. -/
noncomputable def slope (δ : ℝ) (S : Mat d d) (h : ℝ) : Matrix (Fin d) (Fin d ⊕ Fin d) ℝ := fromCols 0 ((2 * √6 * h / δ ^ 2) • S)

theorem obsFn_const (EKF0 : Bool) (b : Vec d) (S : Mat d d) (δ : ℝ) (z w : Vec (d * (2 + 2))) (t : ℝ) :
    obsFn EKF0 (fun _ _ => b) (fun _ _ => S) δ z w t = obsMat δ S t *ᵥ z + -b := by
  have hw : ∀ x : Vec (d * (2 + 2)), field (fun _ _ => b) (fun _ _ => S) δ x t =
      b + S *ᵥ fun j => (stride 2 x j + √6 * stride 3 x j * (1 - 2 * t / δ)) / δ := by
    intro x
    simp only [field]
    rw [Matrix.mul_assoc, ← mulVec_mulVec, ssm_weights]
  have hs : ∀ s : Fin (2 + 2), s ≠ 0 → stride s (setSol z (stride 0 w)) = stride s z := by
    intro s hs; funext i; simp [stride, setSol, hs]
  have hH : obsMat δ S t *ᵥ z = stride 1 z - S *ᵥ fun j => (stride 2 z j + √6 * stride 3 z j * (1 - 2 * t / δ)) / δ := by
    rw [obsMat, sub_mulVec, ← mulVec_mulVec, add_mulVec, smul_mulVec, smul_mulVec, Ekf.E_mulVec, Ekf.E_mulVec, Ekf.E_mulVec]
    congr 2
    funext j
    simp only [Pi.add_apply, Pi.smul_apply, smul_eq_mul]
    ring
  rw [hH]
  cases EKF0
  · simp only [obsFn, Bool.false_eq_true, if_false, hw]
    abel
  · simp only [obsFn, if_true, hw, hs 2 (by decide), hs 3 (by decide)]
    abel

theorem var_eq {δ : ℝ} (hδ : 0 < δ) (S : Mat d d) :
    var δ S = load δ S 0 * fromBlocks (δ • 1) 0 0 ((δ / 2) • 1) * (load δ S 0)ᵀ := by
  have h6 : √(6 : ℝ) * √6 = 6 := Real.mul_self_sqrt (by norm_num)
  have key : ∀ (a b c e : Mat d d), fromCols a b * fromBlocks (δ • (1 : Mat d d)) 0 0 ((δ / 2) • 1) * (fromCols c e)ᵀ =
      δ • (a * cᵀ) + (δ / 2) • (b * eᵀ) := by
    intro a b c e
    rw [transpose_fromCols, fromCols_mul_fromBlocks, fromCols_mul_fromRows]
    simp
  ext p q
  rw [← flat_div_mod p, ← flat_div_mod q, load, rows_mul_transpose_apply]
  simp only [var, divNat_flat, modNat_flat]
  generalize p.modNat = s
  generalize p.divNat = i
  generalize q.modNat = t
  generalize q.divNat = j
  have hs : s = 0 ∨ s = 1 ∨ s = 2 ∨ s = 3 := by fin_cases s <;> simp
  have ht : t = 0 ∨ t = 1 ∨ t = 2 ∨ t = 3 := by fin_cases t <;> simp
  rcases hs with rfl | rfl | rfl | rfl <;> rcases ht with rfl | rfl | rfl | rfl <;>
    simp [key, block, Matrix.one_apply, eq_comm (a := i)]
  · have := hδ.ne'
    field_simp
    rw [Real.sq_sqrt (by norm_num)]
    ring
  all_goals field_simp

theorem pad_row {κ : Type*} (A : Mat 2 2) (B : Fin (2 + 2) → Matrix (Fin d) κ ℝ) :
    transitionMatrix d A * rows B = rows ![A 0 0 • B 0 + A 0 1 • B 1, A 1 0 • B 0 + A 1 1 • B 1, B 2, B 3] := by
  rw [transitionMatrix, kron_mul_rows]
  congr 1
  funext s
  have hs : s = 0 ∨ s = 1 ∨ s = 2 ∨ s = 3 := by fin_cases s <;> simp
  rcases hs with rfl | rfl | rfl | rfl <;> simp [pad4_eq, Fin.sum_univ_succ]

theorem obsMat_rows {κ : Type*} (δ : ℝ) (S : Mat d d) (t : ℝ) (B : Fin (2 + 2) → Matrix (Fin d) κ ℝ) :
    obsMat δ S t * rows B = B 1 - S * ((1 / δ) • B 2 + (√6 * (1 - 2 * t / δ) / δ) • B 3) := by
  rw [obsMat, Matrix.sub_mul, Matrix.mul_assoc, Matrix.add_mul, Matrix.smul_mul, Matrix.smul_mul, sel_mul_rows, sel_mul_rows,
    sel_mul_rows]

/-- The direction in which the observed noise enters a step of size `h`. -/
noncomputable def noiseDir (d : ℕ) (h : ℝ) : Mat (d * (2 + 2)) d := rows ![(h / 2) • 1, 1, 0, 0]

/-- The direction of the solution. -/
def solDir (d : ℕ) : Mat (d * (2 + 2)) d := rows ![1, 0, 0, 0]

theorem obsMat_noiseDir (δ : ℝ) (S : Mat d d) (t h : ℝ) : obsMat δ S t * noiseDir d h = 1 := by
  rw [noiseDir, obsMat_rows]; simp

theorem obsMat_solDir (δ : ℝ) (S : Mat d d) (t : ℝ) : obsMat δ S t * solDir d = 0 := by
  rw [solDir, obsMat_rows]; simp

theorem fromCols_smul' {m n₁ n₂ : Type*} (c : ℝ) (A : Matrix m n₁ ℝ) (B : Matrix m n₂ ℝ) :
    c • fromCols A B = fromCols (c • A) (c • B) := by
  ext i (j | j) <;> simp

theorem fromCols_add' {m n₁ n₂ : Type*} (A C : Matrix m n₁ ℝ) (B D : Matrix m n₂ ℝ) :
    fromCols A B + fromCols C D = fromCols (A + C) (B + D) := by
  ext i (j | j) <;> simp

theorem fromCols_sub' {m n₁ n₂ : Type*} (A C : Matrix m n₁ ℝ) (B D : Matrix m n₂ ℝ) :
    fromCols A B - fromCols C D = fromCols (A - C) (B - D) := by
  ext i (j | j) <;> simp

variable {δ : ℝ} (S : Mat d d) (t h : ℝ)

theorem obs_load (hδ : δ ≠ 0) : obsMat δ S (t + h) * (transitionMatrix d !![1, h; 0, 1] * load δ S t) = slope δ S h := by
  rw [load, pad_row, obsMat_rows, slope]
  simp only [of_apply, cons_val', cons_val_zero, cons_val_one, cons_val_fin_one, cons_val, zero_smul, one_smul, zero_add,
    mul_fromCols, fromCols_smul', fromCols_add', fromCols_sub', smul_zero, add_zero, Matrix.mul_smul, Matrix.mul_one, Matrix.mul_zero]
  congr 1
  · simp
  · rw [← sub_smul]
    congr 1
    field_simp
    ring

theorem load_step (hδ : δ ≠ 0) : transitionMatrix d !![1, h; 0, 1] * load δ S t - noiseDir d h * slope δ S h = load δ S (t + h) := by
  rw [load, pad_row, noiseDir, rows_mul, rows_sub, load, slope]
  congr 1
  funext s
  have hs : s = 0 ∨ s = 1 ∨ s = 2 ∨ s = 3 := by fin_cases s <;> simp
  rcases hs with rfl | rfl | rfl | rfl
  · simp only [of_apply, cons_val', cons_val_zero, cons_val_one, cons_val_fin_one, cons_val, one_smul,
      fromCols_smul', fromCols_add', fromCols_sub', Matrix.smul_mul, Matrix.one_mul, smul_zero, sub_zero, smul_smul]
    congr 1
    · rw [← add_smul]; congr 1; field_simp
    · rw [← add_smul, ← sub_smul]; congr 1; field_simp; ring
  · simp only [of_apply, cons_val', cons_val_zero, cons_val_one, cons_val_fin_one, cons_val, one_smul, zero_smul, zero_add,
      fromCols_sub', Matrix.one_mul, sub_zero]
    congr 1
    rw [← sub_smul]; congr 1; field_simp; ring
  · simp
  · simp

theorem trans_solDir : transitionMatrix d !![1, h; 0, 1] * solDir d = solDir d := by
  rw [solDir, pad_row]
  congr 1
  funext s
  have hs : s = 0 ∨ s = 1 ∨ s = 2 ∨ s = 3 := by fin_cases s <;> simp
  rcases hs with rfl | rfl | rfl | rfl <;> simp

theorem transCov_eq (c : ℝ) : transitionCovariance d !![c ^ 2 * (h ^ 3 / 3), c ^ 2 * (h ^ 2 / 2); c ^ 2 * (h ^ 2 / 2), c ^ 2 * h] =
    (c ^ 2 * h) • (noiseDir d h * (noiseDir d h)ᵀ) + (c ^ 2 * h ^ 3 / 12) • (solDir d * (solDir d)ᵀ) := by
  ext p q
  rw [← flat_div_mod p, ← flat_div_mod q]
  have e1 := rows_mul_transpose_apply (n := 2 + 2) (![(h / 2) • 1, 1, 0, 0] : Fin 4 → Mat d d) ![(h / 2) • 1, 1, 0, 0] 1 p.divNat q.divNat
    p.modNat q.modNat
  have e2 := rows_mul_transpose_apply (n := 2 + 2) (![1, 0, 0, 0] : Fin 4 → Mat d d) ![1, 0, 0, 0] 1 p.divNat q.divNat p.modNat q.modNat
  rw [Matrix.mul_one] at e1 e2
  rw [Matrix.add_apply, Matrix.smul_apply, Matrix.smul_apply, noiseDir, solDir, e1, e2]
  simp only [transitionCovariance, kron_flat, pad4_eq, Matrix.mul_one]
  generalize p.modNat = s
  generalize p.divNat = i
  generalize q.modNat = t
  generalize q.divNat = j
  have hs : s = 0 ∨ s = 1 ∨ s = 2 ∨ s = 3 := by fin_cases s <;> simp
  have ht : t = 0 ∨ t = 1 ∨ t = 2 ∨ t = 3 := by fin_cases t <;> simp
  rcases hs with rfl | rfl | rfl | rfl <;> rcases ht with rfl | rfl | rfl | rfl <;> simp
  all_goals ring

/-! ## The recursion -/

/-- The precision of the coefficients after `k` steps. -/
noncomputable def precision (δ : ℝ) (S : Mat d d) (c h : ℝ) (k : ℕ) : Matrix (Fin d ⊕ Fin d) (Fin d ⊕ Fin d) ℝ :=
  fromBlocks ((1 / δ) • 1) 0 0 ((2 / δ) • 1) + (k * (c ^ 2 * h)⁻¹) • ((slope δ S h)ᵀ * slope δ S h)

theorem precision_posDef (hδ : 0 < δ) {c : ℝ} (hh : 0 < h) (k : ℕ) : (precision δ S c h k).PosDef := by
  refine PosDef.add_posSemidef ?_ ?_
  · have : fromBlocks ((1 / δ) • (1 : Mat d d)) 0 0 ((2 / δ) • 1) =
        diagonal (Sum.elim (fun _ : Fin d => 1 / δ) fun _ : Fin d => 2 / δ) := by
      rw [← fromBlocks_diagonal]
      congr 1 <;> rw [smul_one_eq_diagonal]
    rw [this]
    refine PosDef.diagonal fun i => ?_
    rcases i with i | i
    · exact one_div_pos.2 hδ
    · exact div_pos two_pos hδ
  · refine PosSemidef.smul ?_ (by positivity)
    have := posSemidef_conjTranspose_mul_self (slope δ S h)
    rwa [conjTranspose_eq_transpose_of_trivial] at this

/-- The covariance after `k` steps. -/
noncomputable def stateCov (δ : ℝ) (S : Mat d d) (c h : ℝ) (k : ℕ) : Mat (d * (2 + 2)) (d * (2 + 2)) :=
  load δ S (k * h) * (precision δ S c h k)⁻¹ * (load δ S (k * h))ᵀ + (k * (c ^ 2 * h ^ 3 / 12)) • (solDir d * (solDir d)ᵀ)

theorem ric_step (hδ : 0 < δ) {c : ℝ} (hc : c ≠ 0) (hh : 0 < h) (k : ℕ) :
    let C := predCov (transitionMatrix d !![1, h; 0, 1])
      (transitionCovariance d !![c ^ 2 * (h ^ 3 / 3), c ^ 2 * (h ^ 2 / 2); c ^ 2 * (h ^ 2 / 2), c ^ 2 * h]) (stateCov δ S c h k)
    (innovCov C (obsMat δ S ((k + 1 : ℕ) * h)) (0 : Mat d d)).PosDef ∧
    postCov C (obsMat δ S ((k + 1 : ℕ) * h)) (0 : Mat d d) = stateCov δ S c h (k + 1) := by
  intro C
  set A := transitionMatrix d !![1, h; 0, 1] with hA
  set G := load δ S (k * h) with hG
  set L := precision δ S c h k with hL
  have hLp : L.PosDef := precision_posDef S h hδ hh k
  set D := L⁻¹ with hD
  have hDp : D.PosDef := hLp.inv
  have hDs : Dᵀ = D := by
    have := hDp.isHermitian
    rwa [Matrix.IsHermitian, conjTranspose_eq_transpose_of_trivial] at this
  set E := solDir d * (solDir d)ᵀ with hE
  set B := noiseDir d h with hB
  have hτ : 0 < c ^ 2 * h := by positivity
  have ht : ((k + 1 : ℕ) : ℝ) * h = k * h + h := by push_cast; ring
  have hCE : C = A * G * D * (A * G)ᵀ + (c ^ 2 * h) • (B * Bᵀ) + ((k + 1 : ℕ) * (c ^ 2 * h ^ 3 / 12)) • E := by
    have hAE : A * E * Aᵀ = E := by
      rw [hE, ← Matrix.mul_assoc, trans_solDir, Matrix.mul_assoc, ← transpose_mul, trans_solDir]
    simp only [C, predCov]
    rw [stateCov, transCov_eq, Matrix.mul_add, Matrix.add_mul, ← hG, ← hL, ← hD, ← hE, ← hB, Matrix.mul_smul, Matrix.smul_mul, hAE,
      transpose_mul]
    push_cast
    rw [add_mul, one_mul, add_smul]
    simp only [Matrix.mul_assoc]
    abel
  have hHF : obsMat δ S ((k + 1 : ℕ) * h) * (A * G) = slope δ S h := by rw [ht]; exact obs_load S _ h hδ.ne'
  have hSp : (slope δ S h * D * (slope δ S h)ᵀ + (c ^ 2 * h) • (1 : Mat d d)).PosDef := by
    refine PosDef.posSemidef_add ?_ (PosDef.one.smul hτ)
    have := hDp.posSemidef.mul_mul_conjTranspose_same (slope δ S h)
    rwa [conjTranspose_eq_transpose_of_trivial] at this
  have hp := postCov_coeffs (A * G) B (((k + 1 : ℕ) * (c ^ 2 * h ^ 3 / 12)) • E) D (obsMat δ S ((k + 1 : ℕ) * h)) (c ^ 2 * h) hDs
    (obsMat_noiseDir δ S _ h) (by rw [Matrix.mul_smul, hE, ← Matrix.mul_assoc, obsMat_solDir, Matrix.zero_mul, smul_zero])
    (by rw [transpose_smul, hE, transpose_mul, transpose_transpose]) (by rw [hHF]; exact hSp)
  rw [hHF, ← hCE] at hp
  refine ⟨by rw [hp.1]; exact hSp, ?_⟩
  rw [hp.2]
  have hw := woodbury D L (slope δ S h) hτ.ne' (mul_nonsing_inv _ ((Matrix.isUnit_iff_isUnit_det L).mp hLp.isUnit)) (pd_isUnit_det hSp)
  have hLs : L + (c ^ 2 * h)⁻¹ • ((slope δ S h)ᵀ * slope δ S h) = precision δ S c h (k + 1) := by
    rw [hL, precision, precision, add_assoc, ← add_smul]
    push_cast
    ring_nf
  rw [hLs] at hw
  rw [stateCov, inv_eq_right_inv hw, ht, ← load_step S _ h hδ.ne']

end Ssm

end Verif
