import Verif.Lemmas.Ekf

/-! Helper lemmas: EKF0 with the once integrated Brownian motion prior. -/

namespace Verif

open Matrix Spec Jnp

namespace Ekf

variable {dim r : ℕ}

/-- A covariance of the solution components only. -/
def solX (C : Mat dim dim) : Mat (dim * (r + 2)) (dim * (r + 2)) := fun p q =>
  if p.modNat = 0 ∧ q.modNat = 0 then C p.divNat q.divNat else 0

@[simp] theorem solX_flat (C : Mat dim dim) (i j : Fin dim) (s t : Fin (r + 2)) :
    solX C (flat i s) (flat j t) = if s = 0 ∧ t = 0 then C i j else 0 := by
  simp [solX]

theorem solX_zero : solX (0 : Mat dim dim) = (0 : Mat (dim * (r + 2)) (dim * (r + 2))) := by
  ext p q; simp [solX]

theorem solX_E (C : Mat dim dim) : (solX C : Mat (dim * (r + 2)) (dim * (r + 2))) * (E (dim := dim) (r := r) 1)ᵀ = 0 := by
  ext p j
  rw [← flat_div_mod p, mul_apply, sum_flat]
  refine Finset.sum_eq_zero fun i _ => Finset.sum_eq_zero fun t _ => ?_
  by_cases ht : t = 1
  · subst ht; simp
  · simp [E_flat, ht]

theorem solX_symm {C : Mat dim dim} (hC : Cᵀ = C) : (solX C : Mat (dim * (r + 2)) (dim * (r + 2)))ᵀ = solX C := by
  ext p q
  simp only [transpose_apply, solX, and_comm]
  rw [show C q.divNat p.divNat = C p.divNat q.divNat from congrFun (congrFun hC p.divNat) q.divNat]

theorem solX_predict (C : Mat dim dim) (a : Mat (r + 2) (r + 2)) (ha : ∀ s, a s 0 = if s = 0 then 1 else 0) :
    kron (1 : Mat dim dim) a * solX C * (kron (1 : Mat dim dim) a)ᵀ = solX C := by
  have h1 : kron (1 : Mat dim dim) a * solX C = solX C := by
    ext p q
    rw [← flat_div_mod p, ← flat_div_mod q, mul_apply, sum_flat, Finset.sum_eq_single p.divNat, Finset.sum_eq_single 0]
    · simp only [kron_flat, one_apply_eq, one_mul, ha, solX_flat]
      by_cases h : p.modNat = 0 <;> simp [h]
    · intro t _ ht; simp [ht]
    · simp
    · intro i _ hi; simp [Matrix.one_apply, Ne.symm hi]
    · simp
  rw [h1]
  ext p q
  rw [← flat_div_mod p, ← flat_div_mod q, mul_apply, sum_flat, Finset.sum_eq_single q.divNat, Finset.sum_eq_single 0]
  · simp only [kron_flat, one_apply_eq, one_mul, ha, solX_flat, transpose_apply]
    by_cases h : q.modNat = 0 <;> simp [h]
  · intro t _ ht; simp [ht]
  · simp
  · intro i _ hi; simp [Matrix.one_apply, Ne.symm hi]
  · simp

theorem ibm1_A (h : ℝ) : expm (h • IOUP.F 0 1) = !![1, h; 0, 1] := by
  rw [ioup_F_eq, expm_ibm]
  ext i j
  fin_cases i <;> fin_cases j <;> simp [ibmA]

theorem ibm1_Q (σ h : ℝ) : IOUP.Q1 σ 1 h = !![σ ^ 2 * (h ^ 3 / 3), σ ^ 2 * (h ^ 2 / 2); σ ^ 2 * (h ^ 2 / 2), σ ^ 2 * h] := by
  ext i j
  fin_cases i <;> fin_cases j <;> simp [IOUP.Q1]

/-- One step of EKF0 with the once integrated Brownian motion prior. -/
theorem step_ibm1 {la : LinAlg} (hla : la.Correct) (vf : Field dim) {σ h : ℝ} (hσ : σ ≠ 0) (hh : 0 < h)
    {C : Mat dim dim} (hC : Cᵀ = C) (y v : Vec dim) (b t : ℝ) :
    KF.step la (obsFn (r := 0) true vf) (IOUP.transition 0 σ 1 h dim).A (IOUP.transition 0 σ 1 h dim).Q 0 0 false
        ⟨interlace ![y, v], kron (1 : Mat dim dim) !![b, 0; 0, 0] + solX C⟩ t =
      (⟨interlace ![y + (h / 2) • (v + vf (y + h • v) t), vf (y + h • v) t],
        kron (1 : Mat dim dim) !![b + σ ^ 2 * h ^ 3 / 12, 0; 0, 0] + solX C⟩,
        (σ ^ 2 * h) • 1, v - vf (y + h • v) t) := by
  have hB' : (!![1, h; 0, 1] : Mat (0 + 2) (0 + 2)) * !![b, 0; 0, 0] * (!![1, h; 0, 1] : Mat (0 + 2) (0 + 2))ᵀ +
      !![σ ^ 2 * (h ^ 3 / 3), σ ^ 2 * (h ^ 2 / 2); σ ^ 2 * (h ^ 2 / 2), σ ^ 2 * h] =
      !![b + σ ^ 2 * (h ^ 3 / 3), σ ^ 2 * (h ^ 2 / 2); σ ^ 2 * (h ^ 2 / 2), σ ^ 2 * h] := by
    ext i j
    fin_cases i <;> fin_cases j <;> simp [mul_apply, Fin.sum_univ_two, vecMul, dotProduct]
  have hpos : 0 < σ ^ 2 * h := by positivity
  have key := step_ekf0 (r := 0) hla vf !![1, h; 0, 1]
    !![σ ^ 2 * (h ^ 3 / 3), σ ^ 2 * (h ^ 2 / 2); σ ^ 2 * (h ^ 2 / 2), σ ^ 2 * h] !![b, 0; 0, 0] (solX C) (solX_E C)
    (solX_symm hC) (solX_predict C _ (by intro s; fin_cases s <;> simp)) 0
    (by ext i j; fin_cases i <;> fin_cases j <;> simp) (by ext i j; fin_cases i <;> fin_cases j <;> simp)
    (by rw [hB']; simpa using hpos) ![y, v] t
  simp only [hB', zero_smul, add_zero] at key
  have hA : (IOUP.transition 0 σ 1 h dim).A = kron (1 : Mat dim dim) !![1, h; 0, 1] := by
    rw [← ibm1_A]; rfl
  have hQ : (IOUP.transition 0 σ 1 h dim).Q = kron (1 : Mat dim dim)
      !![σ ^ 2 * (h ^ 3 / 3), σ ^ 2 * (h ^ 2 / 2); σ ^ 2 * (h ^ 2 / 2), σ ^ 2 * h] := by
    rw [← ibm1_Q]; rfl
  rw [hA, hQ]
  refine key.trans ?_
  have hm0 : ∑ u : Fin (0 + 2), (!![1, h; 0, 1] : Mat (0 + 2) (0 + 2)) 0 u • (![y, v] : Fin (0 + 2) → Vec dim) u = y + h • v := by
    simp [Fin.sum_univ_two]
  have hm1 : ∑ u : Fin (0 + 2), (!![1, h; 0, 1] : Mat (0 + 2) (0 + 2)) 1 u • (![y, v] : Fin (0 + 2) → Vec dim) u = v := by
    simp [Fin.sum_univ_two]
  rw [hm0, hm1]
  refine Prod.ext (Gauss.ext ?_ ?_) (Prod.ext ?_ rfl)
  · simp only
    congr 1
    funext s
    fin_cases s
    · refine Eq.trans (congrArg₂ _ hm0 rfl) ?_
      funext i
      simp
      field_simp
      ring
    · refine Eq.trans (congrArg₂ _ hm1 rfl) ?_
      funext i
      simp [hpos.ne']
  · simp only
    congr 2
    ext i j
    fin_cases i <;> fin_cases j <;> simp
    all_goals field_simp
    all_goals ring
  · simp

end Ekf

end Verif
