import Verif.Props.Bayes
import Verif.Props.Ssm
import Verif.Lemmas.EkfIbm

/-! Helper lemmas: block rows of interlaced matrices, and the noise-free update of a covariance that is linear in some
coefficients. -/

namespace Verif

open Matrix Spec Jnp

section rows

variable {d n : ℕ} {κ : Type*}

/-- The matrix whose rows with offset `s` are `B s`. -/
def rows (B : Fin n → Matrix (Fin d) κ ℝ) : Matrix (Fin (d * n)) κ ℝ := fun p c => B p.modNat p.divNat c

@[simp] theorem rows_flat (B : Fin n → Matrix (Fin d) κ ℝ) (i : Fin d) (s : Fin n) (c : κ) : rows B (flat i s) c = B s i c := by
  simp [rows]

theorem rows_ext {X Y : Matrix (Fin (d * n)) κ ℝ} (h : ∀ s i c, X (flat i s) c = Y (flat i s) c) : X = Y := by
  ext p c
  rw [← flat_div_mod p]
  exact h _ _ c

theorem kron_mul_rows (M : Mat n n) (B : Fin n → Matrix (Fin d) κ ℝ) :
    kron (1 : Mat d d) M * rows B = rows fun s => ∑ t, M s t • B t := by
  refine rows_ext fun s i c => ?_
  rw [mul_apply, sum_flat, Finset.sum_eq_single i]
  · simp [Matrix.sum_apply]
  · intro j _ hj
    simp [Matrix.one_apply, Ne.symm hj]
  · simp

theorem sel_mul_rows {r : ℕ} (s : Fin (r + 2)) (B : Fin (r + 2) → Matrix (Fin d) κ ℝ) : Ekf.E s * rows B = B s := by
  ext i c
  rw [mul_apply]
  simp [Ekf.E]

theorem rows_mul {ι : Type*} [Fintype κ] (B : Fin n → Matrix (Fin d) κ ℝ) (X : Matrix κ ι ℝ) : rows B * X = rows fun s => B s * X := by
  refine rows_ext fun s i c => ?_
  simp [mul_apply]

theorem rows_add (B C : Fin n → Matrix (Fin d) κ ℝ) : rows B + rows C = rows fun s => B s + C s := by
  refine rows_ext fun s i c => ?_
  simp

theorem rows_sub (B C : Fin n → Matrix (Fin d) κ ℝ) : rows B - rows C = rows fun s => B s - C s := by
  refine rows_ext fun s i c => ?_
  simp

theorem rows_mul_transpose_apply [Fintype κ] (B C : Fin n → Matrix (Fin d) κ ℝ) (X : Matrix κ κ ℝ) (i j : Fin d) (s t : Fin n) :
    (rows B * X * (rows C)ᵀ) (flat i s) (flat j t) = (B s * X * (C t)ᵀ) i j := by
  rw [rows_mul]
  simp only [mul_apply, rows_flat, transpose_apply]

end rows

/-- A noise-free update of the covariance of `F Z + B ξ + w`, where `Z ~ D` are coefficients, `ξ ~ τ` is the noise the observation
`H` sees with weight one, and `w` is not observed: the noise is replaced by `-H F Z`, and the coefficients are conditioned on
`H F Z + ξ = 0`. -/
theorem postCov_coeffs {n d : ℕ} {κ : Type*} [Fintype κ] [DecidableEq κ] (F : Matrix (Fin n) κ ℝ) (B : Mat n d) (W : Mat n n)
    (D : Matrix κ κ ℝ) (H : Mat d n) (τ : ℝ) (hD : Dᵀ = D) (hHB : H * B = 1) (hHW : H * W = 0) (hW : Wᵀ = W)
    (hS : (H * F * D * (H * F)ᵀ + τ • 1).PosDef) :
    innovCov (F * D * Fᵀ + τ • (B * Bᵀ) + W) H (0 : Mat d d) = H * F * D * (H * F)ᵀ + τ • 1 ∧
    postCov (F * D * Fᵀ + τ • (B * Bᵀ) + W) H (0 : Mat d d) =
      (F - B * (H * F)) * (D - D * (H * F)ᵀ * (H * F * D * (H * F)ᵀ + τ • 1)⁻¹ * (H * F) * D) * (F - B * (H * F))ᵀ + W := by
  set G := H * F with hG
  set S := G * D * Gᵀ + τ • 1 with hSdef
  set P := F * D * Fᵀ + τ • (B * Bᵀ) + W with hPdef
  have hBH : Bᵀ * Hᵀ = 1 := by rw [← transpose_mul, hHB, transpose_one]
  have hWH : W * Hᵀ = 0 := by
    have := congrArg transpose hHW
    rwa [transpose_mul, hW, transpose_zero] at this
  have hFH : Fᵀ * Hᵀ = Gᵀ := by rw [hG, transpose_mul]
  set u := F * D * Gᵀ + τ • B with hu
  have hPH : P * Hᵀ = u := by
    simp only [hPdef, hu, Matrix.add_mul, Matrix.smul_mul, Matrix.mul_assoc, hFH, hBH, hWH, Matrix.mul_one, add_zero]
  clear_value G
  have hHP : H * P * Hᵀ = S := by
    rw [Matrix.mul_assoc, hPH, hu, Matrix.mul_add, Matrix.mul_smul, hHB, ← Matrix.mul_assoc, ← Matrix.mul_assoc, ← hG]
  have hinn : innovCov P H (0 : Mat d d) = S := by rw [innovCov, hHP, add_zero]
  refine ⟨hinn, ?_⟩
  have hSs : Sᵀ = S := pd_symm hS
  have hSi : (S⁻¹)ᵀ = S⁻¹ := by rw [transpose_nonsing_inv, hSs]
  have hu1 : S⁻¹ * S = 1 := nonsing_inv_mul _ (pd_isUnit_det hS)
  have hu2 : S * S⁻¹ = 1 := mul_nonsing_inv _ (pd_isUnit_det hS)
  have hgain : gain P H (0 : Mat d d) = u * S⁻¹ := by rw [gain, hPH, hinn]
  have hpost : postCov P H (0 : Mat d d) = P - u * S⁻¹ * uᵀ := by
    rw [postCov, hgain, hinn, transpose_mul, hSi, Matrix.mul_assoc u, hu1, Matrix.mul_one, ← Matrix.mul_assoc]
  have hGD : (F - B * G) * D * Gᵀ = u - B * S := by
    rw [hu, hSdef, Matrix.sub_mul, Matrix.sub_mul, Matrix.mul_add, Matrix.mul_smul, Matrix.mul_one]
    simp only [Matrix.mul_assoc]
    abel
  have hDG : G * D * (F - B * G)ᵀ = (u - B * S)ᵀ := by
    rw [← hGD, transpose_mul, transpose_mul, transpose_transpose, hD, Matrix.mul_assoc]
  have e1 : (F - B * G) * (D - D * Gᵀ * S⁻¹ * G * D) * (F - B * G)ᵀ =
      (F - B * G) * D * (F - B * G)ᵀ - (u - B * S) * S⁻¹ * (u - B * S)ᵀ := by
    rw [Matrix.mul_sub, Matrix.sub_mul, ← hDG, ← hGD]
    simp only [Matrix.mul_assoc]
  have e2 : (u - B * S) * S⁻¹ * (u - B * S)ᵀ = u * S⁻¹ * uᵀ - u * Bᵀ - B * uᵀ + B * S * Bᵀ := by
    rw [Matrix.sub_mul, Matrix.mul_assoc B, hu2, Matrix.mul_one, transpose_sub, transpose_mul, hSs, Matrix.sub_mul, Matrix.mul_sub,
      Matrix.mul_sub, ← Matrix.mul_assoc (u * S⁻¹), Matrix.mul_assoc u S⁻¹ S, hu1, Matrix.mul_one, ← Matrix.mul_assoc B S]
    abel
  have e3 : (F - B * G) * D * (F - B * G)ᵀ = F * D * Fᵀ - u * Bᵀ - B * uᵀ + B * S * Bᵀ + τ • (B * Bᵀ) := by
    have h1 : (F - B * G) * D * (F - B * G)ᵀ = (F - B * G) * D * Fᵀ - (F - B * G) * D * Gᵀ * Bᵀ := by
      rw [transpose_sub, transpose_mul, Matrix.mul_sub, ← Matrix.mul_assoc _ Gᵀ]
    have h2 : G * D * Fᵀ = uᵀ - τ • Bᵀ := by
      rw [hu, transpose_add, transpose_smul, transpose_mul, transpose_mul, transpose_transpose, hD, Matrix.mul_assoc]
      abel
    have h3 : (F - B * G) * D * Fᵀ = F * D * Fᵀ - B * (uᵀ - τ • Bᵀ) := by
      rw [← h2, Matrix.sub_mul, Matrix.sub_mul]
      simp only [Matrix.mul_assoc]
    rw [h1, hGD, h3, Matrix.mul_sub, Matrix.mul_smul, Matrix.sub_mul]
    abel
  rw [hpost, e1, e2, e3, hPdef]
  abel

/-- The Woodbury identity for a conditioned covariance. -/
theorem woodbury {d : ℕ} {κ : Type*} [Fintype κ] [DecidableEq κ] (D L : Matrix κ κ ℝ) (G : Matrix (Fin d) κ ℝ) {τ : ℝ} (hτ : τ ≠ 0)
    (hLD : L * D = 1) (hS : IsUnit (G * D * Gᵀ + τ • (1 : Mat d d)).det) :
    (L + τ⁻¹ • (Gᵀ * G)) * (D - D * Gᵀ * (G * D * Gᵀ + τ • 1)⁻¹ * G * D) = 1 := by
  set S := G * D * Gᵀ + τ • (1 : Mat d d) with hSdef
  have hu2 : S * S⁻¹ = 1 := mul_nonsing_inv _ hS
  have h1 : G * D * Gᵀ * S⁻¹ = 1 - τ • S⁻¹ := by
    have : G * D * Gᵀ = S - τ • 1 := by rw [hSdef]; abel
    rw [this, Matrix.sub_mul, hu2, Matrix.smul_mul, Matrix.one_mul]
  have h2 : L * (D * Gᵀ * S⁻¹ * G * D) = Gᵀ * S⁻¹ * G * D := by
    rw [← Matrix.mul_assoc, ← Matrix.mul_assoc, ← Matrix.mul_assoc, ← Matrix.mul_assoc, hLD, Matrix.one_mul]
  have h3 : Gᵀ * G * (D * Gᵀ * S⁻¹ * G * D) = Gᵀ * G * D - τ • (Gᵀ * S⁻¹ * G * D) := by
    calc Gᵀ * G * (D * Gᵀ * S⁻¹ * G * D) = Gᵀ * (G * D * Gᵀ * S⁻¹) * G * D := by simp only [Matrix.mul_assoc]
      _ = _ := by rw [h1, Matrix.mul_sub, Matrix.mul_one, Matrix.mul_smul, Matrix.sub_mul, Matrix.sub_mul, Matrix.smul_mul, Matrix.smul_mul]
  rw [Matrix.add_mul, Matrix.mul_sub, Matrix.mul_sub, hLD, h2, Matrix.smul_mul, Matrix.smul_mul, h3, smul_sub, smul_smul,
    inv_mul_cancel₀ hτ, one_smul]
  abel

end Verif
