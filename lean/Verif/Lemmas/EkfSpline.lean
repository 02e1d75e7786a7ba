import Verif.Lemmas.EkfIbm
import Verif.Spec.Ekf

/-! Helper lemmas: EKF0 with the twice integrated Brownian motion prior. -/

namespace Verif

open Matrix Spec Jnp

theorem splineVar_nonneg (k : ℕ) : 0 ≤ splineVar k := by
  cases k with
  | zero => exact le_rfl
  | succ k =>
    have ih := splineVar_nonneg k
    rw [splineVar, sub_nonneg, div_le_iff₀ (by linarith)]
    nlinarith

namespace Ekf

variable {dim : ℕ}

theorem ibm2_A (h : ℝ) : expm (h • IOUP.F 0 2) = !![1, h, h ^ 2 / 2; 0, 1, h; 0, 0, 1] := by
  rw [ioup_F_eq, expm_ibm]
  ext i j
  fin_cases i <;> fin_cases j <;> simp [ibmA]

theorem ibm2_Q (σ h : ℝ) : IOUP.Q1 σ 2 h = !![σ ^ 2 * (h ^ 5 / 20), σ ^ 2 * (h ^ 4 / 8), σ ^ 2 * (h ^ 3 / 6);
    σ ^ 2 * (h ^ 4 / 8), σ ^ 2 * (h ^ 3 / 3), σ ^ 2 * (h ^ 2 / 2); σ ^ 2 * (h ^ 3 / 6), σ ^ 2 * (h ^ 2 / 2), σ ^ 2 * h] := by
  ext i j
  fin_cases i <;> fin_cases j <;> simp [IOUP.Q1] <;> norm_num

/-- The covariance of one coordinate. -/
noncomputable def splineCov (σ h p s : ℝ) : Mat (1 + 2) (1 + 2) :=
  !![σ ^ 2 * h ^ 5 * (p + s / 144), 0, -(σ ^ 2 * h ^ 3 * s / 12); 0, 0, 0; -(σ ^ 2 * h ^ 3 * s / 12), 0, σ ^ 2 * h * s]

/-- The predicted covariance of one coordinate. -/
theorem splineCov_predict (σ h p s : ℝ) :
    (!![1, h, h ^ 2 / 2; 0, 1, h; 0, 0, 1] : Mat (1 + 2) (1 + 2)) * splineCov σ h p s *
      (!![1, h, h ^ 2 / 2; 0, 1, h; 0, 0, 1] : Mat (1 + 2) (1 + 2))ᵀ +
      !![σ ^ 2 * (h ^ 5 / 20), σ ^ 2 * (h ^ 4 / 8), σ ^ 2 * (h ^ 3 / 6);
        σ ^ 2 * (h ^ 4 / 8), σ ^ 2 * (h ^ 3 / 3), σ ^ 2 * (h ^ 2 / 2); σ ^ 2 * (h ^ 3 / 6), σ ^ 2 * (h ^ 2 / 2), σ ^ 2 * h] =
      !![σ ^ 2 * h ^ 5 * (p + s / 144 - s / 12 + s / 4 + 1 / 20), σ ^ 2 * h ^ 4 * (5 * s / 12 + 1 / 8),
          σ ^ 2 * h ^ 3 * (5 * s / 12 + 1 / 6);
        σ ^ 2 * h ^ 4 * (5 * s / 12 + 1 / 8), σ ^ 2 * h ^ 3 * (s + 1 / 3), σ ^ 2 * h ^ 2 * (s + 1 / 2);
        σ ^ 2 * h ^ 3 * (5 * s / 12 + 1 / 6), σ ^ 2 * h ^ 2 * (s + 1 / 2), σ ^ 2 * h * (s + 1)] := by
  ext i j
  simp only [Matrix.add_apply, Matrix.mul_apply, transpose_apply, splineCov]
  fin_cases i <;> fin_cases j <;> simp [Fin.sum_univ_three] <;> ring

/-- One step of EKF0 with the twice integrated Brownian motion prior. -/
theorem step_ibm2 {la : LinAlg} (hla : la.Correct) (vf : Field dim) {σ h : ℝ} (hσ : σ ≠ 0) (hh : 0 < h)
    (y v a : Vec dim) (p s t : ℝ) (hs : 0 ≤ s) :
    let v' := vf (y + h • v + (h ^ 2 / 2) • a) t
    let a' := a + ((s + 1 / 2) / (s + 1 / 3)) • (h⁻¹ • (v' - v) - a)
    KF.step la (obsFn (r := 1) true vf) (IOUP.transition 0 σ 2 h dim).A (IOUP.transition 0 σ 2 h dim).Q 0 0 false
        ⟨interlace ![y, v, a], kron (1 : Mat dim dim) (splineCov σ h p s)⟩ t =
      (⟨interlace ![y + (h / 2) • (v + v') + (h ^ 2 / 12) • (a - a'), v', a'],
        kron (1 : Mat dim dim) (splineCov σ h (p + 1 / 720) (s + 1 - (s + 1 / 2) ^ 2 / (s + 1 / 3)))⟩,
        (σ ^ 2 * h ^ 3 * (s + 1 / 3)) • 1, v + h • a - v') := by
  intro v' a'
  have hs3 : 0 < s + 1 / 3 := by linarith
  have hpos : 0 < σ ^ 2 * h ^ 3 * (s + 1 / 3) := by positivity
  have hB' := splineCov_predict σ h p s
  have key := step_ekf0 (r := 1) hla vf !![1, h, h ^ 2 / 2; 0, 1, h; 0, 0, 1]
    !![σ ^ 2 * (h ^ 5 / 20), σ ^ 2 * (h ^ 4 / 8), σ ^ 2 * (h ^ 3 / 6);
        σ ^ 2 * (h ^ 4 / 8), σ ^ 2 * (h ^ 3 / 3), σ ^ 2 * (h ^ 2 / 2); σ ^ 2 * (h ^ 3 / 6), σ ^ 2 * (h ^ 2 / 2), σ ^ 2 * h]
    (splineCov σ h p s) 0 (by simp) (by simp) (by simp) 0
    (by ext i j; fin_cases i <;> fin_cases j <;> simp)
    (by ext i j; fin_cases i <;> fin_cases j <;> simp [splineCov])
    (by rw [hB']; simpa using hpos) ![y, v, a] t
  simp only [hB', zero_smul, add_zero] at key
  have hA : (IOUP.transition 0 σ 2 h dim).A = kron (1 : Mat dim dim) !![1, h, h ^ 2 / 2; 0, 1, h; 0, 0, 1] := by
    rw [← ibm2_A]; rfl
  have hQ : (IOUP.transition 0 σ 2 h dim).Q = kron (1 : Mat dim dim)
      !![σ ^ 2 * (h ^ 5 / 20), σ ^ 2 * (h ^ 4 / 8), σ ^ 2 * (h ^ 3 / 6);
        σ ^ 2 * (h ^ 4 / 8), σ ^ 2 * (h ^ 3 / 3), σ ^ 2 * (h ^ 2 / 2); σ ^ 2 * (h ^ 3 / 6), σ ^ 2 * (h ^ 2 / 2), σ ^ 2 * h] := by
    rw [← ibm2_Q]; rfl
  rw [hA, hQ]
  refine key.trans ?_
  have hm0 : ∑ u : Fin (1 + 2), (!![1, h, h ^ 2 / 2; 0, 1, h; 0, 0, 1] : Mat (1 + 2) (1 + 2)) 0 u •
      (![y, v, a] : Fin (1 + 2) → Vec dim) u = y + h • v + (h ^ 2 / 2) • a := by
    refine (Fin.sum_univ_three _).trans ?_
    simp
  have hm1 : ∑ u : Fin (1 + 2), (!![1, h, h ^ 2 / 2; 0, 1, h; 0, 0, 1] : Mat (1 + 2) (1 + 2)) 1 u •
      (![y, v, a] : Fin (1 + 2) → Vec dim) u = v + h • a := by
    refine (Fin.sum_univ_three _).trans ?_
    simp
  have hm2 : ∑ u : Fin (1 + 2), (!![1, h, h ^ 2 / 2; 0, 1, h; 0, 0, 1] : Mat (1 + 2) (1 + 2)) 2 u •
      (![y, v, a] : Fin (1 + 2) → Vec dim) u = a := by
    refine (Fin.sum_univ_three _).trans ?_
    simp
  rw [hm0, hm1]
  refine Prod.ext (Gauss.ext ?_ ?_) (Prod.ext ?_ rfl)
  · simp only
    congr 1
    funext s'
    fin_cases s'
    · refine Eq.trans (congrArg₂ _ hm0 rfl) ?_
      funext i
      simp [a', v']
      field_simp
      ring
    · refine Eq.trans (congrArg₂ _ hm1 rfl) ?_
      funext i
      simp [v']
      field_simp
      ring
    · refine Eq.trans (congrArg₂ _ hm2 rfl) ?_
      funext i
      simp [a', v']
      field_simp
      ring
  · simp only
    congr 1
    ext i j
    fin_cases i <;> fin_cases j <;> simp [splineCov]
    all_goals field_simp
    all_goals ring
  · simp

end Ekf

end Verif
