import Verif.Lemmas.EkfModes
import Verif.Lemmas.EkfIbm
import Verif.Spec.Ekf
import Mathlib.Tactic.Module

/-! Helper lemmas: one step of EKF1 with two states per coordinate, from a covariance that is the same for all coordinates. -/

namespace Verif

open Matrix Spec Jnp

namespace Ekf

variable {dim : ℕ}

theorem E_mul_E (s t : Fin (0 + 2)) :
    (E s : Mat dim (dim * (0 + 2))) * (E t : Mat dim (dim * (0 + 2)))ᵀ = if s = t then 1 else 0 := by
  ext i j
  rw [mul_apply, sum_flat]
  simp only [transpose_apply, E_flat]
  by_cases h : s = t
  · subst h
    rw [Finset.sum_eq_single i, Finset.sum_eq_single s]
    · by_cases hij : i = j <;> simp [Matrix.one_apply, hij]
    · intro b _ hb; simp [hb]
    · simp
    · intro b _ hb; simp [hb]
    · simp
  · rw [if_neg h]
    refine Finset.sum_eq_zero fun a _ => Finset.sum_eq_zero fun b _ => ?_
    by_cases hb : b = s
    · subst hb; simp [h]
    · simp [hb]

theorem E00 : (E 0 : Mat dim (dim * (0 + 2))) * (E 0 : Mat dim (dim * (0 + 2)))ᵀ = 1 := by rw [E_mul_E]; simp
theorem E01 : (E 0 : Mat dim (dim * (0 + 2))) * (E 1 : Mat dim (dim * (0 + 2)))ᵀ = 0 := by rw [E_mul_E]; simp
theorem E10 : (E 1 : Mat dim (dim * (0 + 2))) * (E 0 : Mat dim (dim * (0 + 2)))ᵀ = 0 := by rw [E_mul_E]; simp
theorem E11 : (E 1 : Mat dim (dim * (0 + 2))) * (E 1 : Mat dim (dim * (0 + 2)))ᵀ = 1 := by rw [E_mul_E]; simp

theorem kron_E (p q r : ℝ) : kron (1 : Mat dim dim) (!![p, q; q, r] : Mat (0 + 2) (0 + 2)) =
    (E 0 : Mat dim (dim * (0 + 2)))ᵀ * (p • E 0 + q • E 1) + (E 1 : Mat dim (dim * (0 + 2)))ᵀ * (q • E 0 + r • E 1) := by
  ext a b
  rw [← flat_div_mod a, ← flat_div_mod b]
  generalize a.divNat = i
  generalize b.divNat = j
  generalize a.modNat = s
  generalize b.modNat = t
  rw [kron_flat, Matrix.add_apply, mul_apply, mul_apply]
  simp only [transpose_apply, E_flat, Matrix.add_apply, Matrix.smul_apply, smul_eq_mul, Matrix.one_apply]
  have hs : s = 0 ∨ s = 1 := by fin_cases s <;> simp
  have ht : t = 0 ∨ t = 1 := by fin_cases t <;> simp
  rcases hs with rfl | rfl <;> rcases ht with rfl | rfl <;> by_cases hij : i = j <;> simp [hij, eq_comm]

theorem interlace_E (a : Fin (0 + 2) → Vec dim) :
    interlace a = (E 0 : Mat dim (dim * (0 + 2)))ᵀ *ᵥ a 0 + (E 1 : Mat dim (dim * (0 + 2)))ᵀ *ᵥ a 1 := by
  funext p
  rw [← flat_div_mod p]
  generalize p.divNat = i
  generalize p.modNat = s
  simp only [interlace_flat, Pi.add_apply, mulVec, dotProduct, transpose_apply, E_flat]
  have hs : s = 0 ∨ s = 1 := by fin_cases s <;> simp
  rcases hs with rfl | rfl <;> simp

theorem lift_E (J : Mat dim dim) : lift J = (E 0 : Mat dim (dim * (0 + 2)))ᵀ + (E 1 : Mat dim (dim * (0 + 2)))ᵀ * J := by
  ext p j
  rw [← flat_div_mod p]
  generalize p.divNat = i
  generalize p.modNat = s
  simp only [lift, modNat_flat, divNat_flat, Matrix.add_apply, mul_apply, transpose_apply, E_flat]
  have hs : s = 0 ∨ s = 1 := by fin_cases s <;> simp
  rcases hs with rfl | rfl <;> simp [Matrix.one_apply, eq_comm]

section

variable (p q r : ℝ) (J : Mat dim dim)

/-- The precision of the solution, up to the determinant of the covariance. -/
def ekf1W : Mat dim dim := r • (1 : Mat dim dim) - q • (J + Jᵀ) + p • (Jᵀ * J)

theorem ekf1W_posDef (hp : 0 < p) (hD : 0 < p * r - q ^ 2) : (ekf1W p q r J).PosDef := by
  have h : ekf1W p q r J = p⁻¹ • ((q • (1 : Mat dim dim) - p • Jᵀ) * (q • (1 : Mat dim dim) - p • Jᵀ)ᵀ +
      (p * r - q ^ 2) • (1 : Mat dim dim)) := by
    rw [eq_inv_smul_iff₀ hp.ne', ekf1W]
    simp only [transpose_sub, transpose_smul, transpose_one, transpose_transpose, Matrix.sub_mul, Matrix.mul_sub,
      Matrix.smul_mul, Matrix.mul_smul, Matrix.one_mul, Matrix.mul_one]
    module
  rw [h]
  exact (PosDef.posSemidef_add (psd_self_mul_transpose _) (PosDef.one.smul hD)).smul (inv_pos.mpr hp)

variable (hp : 0 < p) (hD : 0 < p * r - q ^ 2)
include hp hD

/-- The gain of the observation `E 1 - J E 0`. -/
theorem gain_ekf1 (hS : (innovCov (kron (1 : Mat dim dim) (!![p, q; q, r] : Mat (0 + 2) (0 + 2)))
      (E 1 - J * E 0) (0 : Mat dim dim)).PosDef) :
    gain (kron (1 : Mat dim dim) (!![p, q; q, r] : Mat (0 + 2) (0 + 2))) (E 1 - J * E 0) (0 : Mat dim dim) =
      lift J * ((ekf1W p q r J)⁻¹ * (q • (1 : Mat dim dim) - p • Jᵀ)) + (E 1)ᵀ := by
  have hW := pd_isUnit_det (ekf1W_posDef p q r J hp hD)
  have h1 : kron (1 : Mat dim dim) (!![p, q; q, r] : Mat (0 + 2) (0 + 2)) * (E 1 - J * E 0)ᵀ =
      (E 0)ᵀ * (q • (1 : Mat dim dim) - p • Jᵀ) + (E 1)ᵀ * (r • (1 : Mat dim dim) - q • Jᵀ) := by
    rw [kron_E, transpose_sub, transpose_mul]
    simp only [Matrix.add_mul, Matrix.mul_sub, Matrix.mul_add, Matrix.mul_assoc, Matrix.smul_mul, Matrix.mul_smul, Matrix.mul_one]
    simp only [← Matrix.mul_assoc (E 0) (E 0)ᵀ, ← Matrix.mul_assoc (E 0) (E 1)ᵀ, ← Matrix.mul_assoc (E 1) (E 0)ᵀ,
      ← Matrix.mul_assoc (E 1) (E 1)ᵀ, E00, E01, E10, E11, Matrix.one_mul, Matrix.zero_mul, Matrix.mul_one, Matrix.mul_zero]
    module
  have h2 : innovCov (kron (1 : Mat dim dim) (!![p, q; q, r] : Mat (0 + 2) (0 + 2))) (E 1 - J * E 0) (0 : Mat dim dim) =
      r • (1 : Mat dim dim) - q • (J + Jᵀ) + p • (J * Jᵀ) := by
    rw [innovCov, Matrix.mul_assoc, h1, add_zero]
    simp only [Matrix.sub_mul, Matrix.mul_add, ← Matrix.mul_assoc, E00, E01, E10, E11, Matrix.one_mul, Matrix.zero_mul]
    simp only [Matrix.mul_assoc, E00, E01, E10, E11, Matrix.mul_one, Matrix.mul_zero, Matrix.mul_sub, Matrix.mul_smul,
      ← Matrix.mul_assoc J, ← Matrix.mul_assoc (E 0), ← Matrix.mul_assoc (E 1), Matrix.one_mul, Matrix.zero_mul]
    module
  have h3 : (ekf1W p q r J)⁻¹ * (q • (1 : Mat dim dim) - p • Jᵀ) * (r • (1 : Mat dim dim) - q • (J + Jᵀ) + p • (J * Jᵀ)) =
      q • (1 : Mat dim dim) - p • Jᵀ := by
    have : (q • (1 : Mat dim dim) - p • Jᵀ) * (r • (1 : Mat dim dim) - q • (J + Jᵀ) + p • (J * Jᵀ)) =
        ekf1W p q r J * (q • (1 : Mat dim dim) - p • Jᵀ) := by
      rw [ekf1W]
      simp only [Matrix.sub_mul, Matrix.mul_sub, Matrix.add_mul, Matrix.mul_add, Matrix.smul_mul, Matrix.mul_smul,
        Matrix.one_mul, Matrix.mul_one, Matrix.mul_assoc]
      module
    rw [Matrix.mul_assoc, this, ← Matrix.mul_assoc, nonsing_inv_mul _ hW, Matrix.one_mul]
  have h4 : (lift J * ((ekf1W p q r J)⁻¹ * (q • (1 : Mat dim dim) - p • Jᵀ)) + (E 1)ᵀ) *
      innovCov (kron (1 : Mat dim dim) (!![p, q; q, r] : Mat (0 + 2) (0 + 2))) (E 1 - J * E 0) (0 : Mat dim dim) =
      kron (1 : Mat dim dim) (!![p, q; q, r] : Mat (0 + 2) (0 + 2)) * (E 1 - J * E 0)ᵀ := by
    rw [h1, h2, Matrix.add_mul, Matrix.mul_assoc (lift J), h3, lift_E]
    simp only [Matrix.add_mul, Matrix.mul_sub, Matrix.mul_add, Matrix.mul_smul, Matrix.mul_one, Matrix.mul_assoc]
    module
  rw [gain, ← h4, Matrix.mul_assoc, mul_nonsing_inv _ (pd_isUnit_det hS), Matrix.mul_one]

/-- Update with EKF1 linearisation, without noise. -/
theorem update_ekf1 {la : LinAlg} (hla : la.Correct) (hS : (innovCov (kron (1 : Mat dim dim) (!![p, q; q, r] : Mat (0 + 2) (0 + 2)))
      (E 1 - J * E 0) (0 : Mat dim dim)).PosDef) (y v c : Vec dim) :
    let e := (ekf1W p q r J)⁻¹ *ᵥ ((q • (1 : Mat dim dim) - p • Jᵀ) *ᵥ c)
    (KF.update la ⟨interlace ![y, v], kron (1 : Mat dim dim) (!![p, q; q, r] : Mat (0 + 2) (0 + 2))⟩ c (E 1 - J * E 0) 0 false).1 =
      ⟨interlace ![y - e, v - c - J *ᵥ e], lift J * ((p * r - q ^ 2) • (ekf1W p q r J)⁻¹) * (lift J)ᵀ⟩ := by
  intro e
  have hsymm : (kron (1 : Mat dim dim) (!![p, q; q, r] : Mat (0 + 2) (0 + 2)))ᵀ = kron (1 : Mat dim dim) !![p, q; q, r] := by
    rw [kron_one_transpose]
    congr 1
    ext i j
    fin_cases i <;> fin_cases j <;> rfl
  have hW := pd_isUnit_det (ekf1W_posDef p q r J hp hD)
  have hWs := pd_symm (ekf1W_posDef p q r J hp hD)
  rw [KF.update_cov_eq hla ⟨interlace ![y, v], kron (1 : Mat dim dim) (!![p, q; q, r] : Mat (0 + 2) (0 + 2))⟩ c
    (E 1 - J * E 0) 0 hsymm hS]
  refine Gauss.ext ?_ ?_
  · simp only [postMean]
    rw [gain_ekf1 p q r J hp hD hS, interlace_E, interlace_E, Matrix.add_mulVec, ← mulVec_mulVec, ← mulVec_mulVec]
    rw [show (ekf1W p q r J)⁻¹ *ᵥ ((q • (1 : Mat dim dim) - p • Jᵀ) *ᵥ c) = e from rfl, lift_E, Matrix.add_mulVec, ← mulVec_mulVec]
    simp only [cons_val_zero, cons_val_one, cons_val_fin_one, mulVec_sub]
    abel
  · simp only [postCov]
    rw [Matrix.mul_assoc, KF.innov_mul_gain hsymm hS, gain_ekf1 p q r J hp hD hS]
    have h5 : (E 1 - J * E 0) * kron (1 : Mat dim dim) (!![p, q; q, r] : Mat (0 + 2) (0 + 2)) =
        (q • (1 : Mat dim dim) - p • J) * E 0 + (r • (1 : Mat dim dim) - q • J) * E 1 := by
      rw [kron_E]
      simp only [Matrix.sub_mul, Matrix.mul_add, ← Matrix.mul_assoc, E00, E01, E10, E11, Matrix.one_mul, Matrix.zero_mul]
      simp only [Matrix.mul_assoc, ← Matrix.mul_assoc (E 0) (E 0)ᵀ, ← Matrix.mul_assoc (E 0) (E 1)ᵀ, ← Matrix.mul_assoc (E 1) (E 0)ᵀ,
        ← Matrix.mul_assoc (E 1) (E 1)ᵀ, E00, E01, E10, E11, Matrix.one_mul, Matrix.zero_mul, Matrix.mul_zero, Matrix.mul_smul,
        Matrix.smul_mul]
      module
    rw [h5]
    set V := (ekf1W p q r J)⁻¹ with hV
    have e1 : V * (r • (1 : Mat dim dim) - q • (J + Jᵀ) + p • (Jᵀ * J)) = 1 := nonsing_inv_mul _ hW
    have e1' : r • V = 1 + q • (V * J) + q • (V * Jᵀ) - p • (V * (Jᵀ * J)) := by
      have e2 : V * (r • (1 : Mat dim dim) - q • (J + Jᵀ) + p • (Jᵀ * J)) =
          r • V - q • (V * J) - q • (V * Jᵀ) + p • (V * (Jᵀ * J)) := by
        simp only [Matrix.mul_add, Matrix.mul_sub, Matrix.mul_smul, Matrix.mul_one]
        module
      rw [e2] at e1
      rw [← e1]
      module
    have h6 : (p * r - q ^ 2) • V = p • (1 : Mat dim dim) - V * (q • (1 : Mat dim dim) - p • Jᵀ) * (q • (1 : Mat dim dim) - p • J) := by
      rw [sub_smul, mul_smul, e1']
      simp only [Matrix.mul_sub, Matrix.sub_mul, Matrix.mul_smul, Matrix.smul_mul, Matrix.mul_one, Matrix.one_mul, Matrix.mul_assoc]
      module
    have h7 : (p * r - q ^ 2) • (V * Jᵀ) = q • (1 : Mat dim dim) - V * (q • (1 : Mat dim dim) - p • Jᵀ) * (r • (1 : Mat dim dim) - q • J) := by
      have e3 : V * (q • (1 : Mat dim dim) - p • Jᵀ) * (r • (1 : Mat dim dim) - q • J) =
          q • (r • V) - (q * q) • (V * J) - (p * r) • (V * Jᵀ) + (p * q) • (V * (Jᵀ * J)) := by
        simp only [Matrix.mul_sub, Matrix.sub_mul, Matrix.mul_smul, Matrix.smul_mul, Matrix.mul_one, Matrix.one_mul, Matrix.mul_assoc]
        module
      rw [e3, e1']
      module
    have h8 : lift J * ((p * r - q ^ 2) • V) * (lift J)ᵀ =
        lift J * ((p * r - q ^ 2) • V) * E 0 + lift J * ((p * r - q ^ 2) • (V * Jᵀ)) * E 1 := by
      conv_lhs => rw [lift_E J, transpose_add, transpose_mul, transpose_transpose, transpose_transpose, ← lift_E]
      simp only [Matrix.mul_add, Matrix.mul_assoc, Matrix.smul_mul, Matrix.mul_smul]
    rw [h8, h6, h7, kron_E]
    simp only [lift_E]
    generalize V * (q • (1 : Mat dim dim) - p • Jᵀ) = Z
    simp only [Matrix.mul_sub, Matrix.sub_mul, Matrix.mul_add, Matrix.add_mul, Matrix.mul_smul, Matrix.smul_mul, Matrix.mul_one,
      Matrix.one_mul, Matrix.mul_assoc]
    module

end

end Ekf

end Verif
