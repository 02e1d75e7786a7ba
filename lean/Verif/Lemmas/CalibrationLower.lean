import Verif.Lemmas.Alg3Strong
import Verif.Lemmas.CalibrationStep

/-! Helper lemmas: lower bounds for the covariances and for the estimate of the calibration experiment. -/

namespace Verif

open Matrix Spec Jnp Scripts Set
open scoped Matrix.Norms.Operator

variable {d m : ℕ}

theorem norm_sq_le_dot (v : Vec d) : ‖v‖ ^ 2 ≤ v ⬝ᵥ v := by
  have h := norm_sq_le_sum v
  simpa only [dotProduct, sq] using h

theorem dot_self_le_norm (v : Vec d) : v ⬝ᵥ v ≤ d * ‖v‖ ^ 2 := by
  rw [sq]
  exact (le_abs_self _).trans (abs_dot_le v v)

/-- A matrix close to the identity hardly shortens vectors. -/
theorem near_one_lower {A : Mat d d} {c : ℝ} (h : ‖A - 1‖ ≤ c) (v : Vec d) : (1 - 2 * d * c) * (v ⬝ᵥ v) ≤ (A *ᵥ v) ⬝ᵥ (A *ᵥ v) := by
  have hc : 0 ≤ c := (norm_nonneg _).trans h
  set r := (A - 1) *ᵥ v with hr
  have e : A *ᵥ v = v + r := by rw [hr, sub_mulVec, one_mulVec]; abel
  have hn : ‖r‖ ≤ c * ‖v‖ := (linfty_opNorm_mulVec _ _).trans (mul_le_mul_of_nonneg_right h (norm_nonneg _))
  have h1 : |v ⬝ᵥ r| ≤ d * c * (v ⬝ᵥ v) := by
    refine (abs_dot_le v r).trans ?_
    have h2 : ‖v‖ * ‖r‖ ≤ c * ‖v‖ ^ 2 := by nlinarith [norm_nonneg v]
    have h3 := norm_sq_le_dot v
    rw [mul_assoc]
    refine mul_le_mul_of_nonneg_left (h2.trans ?_) (by positivity)
    exact mul_le_mul_of_nonneg_left h3 hc
  rw [e, add_dotProduct, dotProduct_add, dotProduct_add, dotProduct_comm r v]
  have h4 : 0 ≤ r ⬝ᵥ r := (sq_nonneg ‖r‖).trans (norm_sq_le_dot r)
  have := (abs_le.mp h1).1
  linarith

/-- The covariance after a step as a sum of squares. -/
theorem alg3P_joseph {h : ℝ} (hh : 0 < h) (J0 J1 : Mat d d) {p : Mat d d} (hp : p.PosSemidef) :
    let K := alg3K h J0 J1 p
    let M := alg3F h J0 - K * alg3E h J0 J1
    let A := 1 + K * J1
    alg3P h J0 J1 p = M * p * Mᵀ + h • ((K - (h / 2) • A) * (K - (h / 2) • A)ᵀ) + (h ^ 3 / 12) • (A * Aᵀ) := by
  intro K M A
  have hS := alg3S_posDef hh J0 J1 hp
  have hKS : K * alg3S h J0 J1 p = alg3G h J0 J1 p := by
    show alg3G h J0 J1 p * (alg3S h J0 J1 p)⁻¹ * alg3S h J0 J1 p = _
    rw [Matrix.mul_assoc, nonsing_inv_mul _ (pd_isUnit_det hS), Matrix.mul_one]
  have hSt : (alg3S h J0 J1 p)ᵀ = alg3S h J0 J1 p := psd_symm hS.posSemidef
  have hpt : pᵀ = p := psd_symm hp
  have h1 : K * alg3S h J0 J1 p * Kᵀ = alg3G h J0 J1 p * Kᵀ := by rw [hKS]
  have h2 : K * alg3S h J0 J1 p * Kᵀ = K * (alg3G h J0 J1 p)ᵀ := by
    rw [← hKS, transpose_mul, hSt, Matrix.mul_assoc]
  have h3 : alg3P h J0 J1 p = alg3F h J0 * p * (alg3F h J0)ᵀ + (h ^ 3 / 3) • 1 - alg3G h J0 J1 p * Kᵀ - K * (alg3G h J0 J1 p)ᵀ +
      K * alg3S h J0 J1 p * Kᵀ := by
    rw [← h1, ← h2, alg3P]
    abel
  rw [h3, alg3G, alg3S]
  have hM : M = alg3F h J0 - K * alg3E h J0 J1 := rfl
  have hA : A = 1 + K * J1 := rfl
  rw [hM, hA]
  clear_value K
  generalize alg3F h J0 = F
  generalize alg3E h J0 J1 = E
  simp only [transpose_add, transpose_sub, transpose_mul, transpose_smul, transpose_one, transpose_transpose, hpt, Matrix.mul_add,
    Matrix.add_mul, Matrix.mul_sub, Matrix.sub_mul, Matrix.smul_mul, Matrix.mul_smul, Matrix.mul_one, Matrix.one_mul, smul_add, smul_sub,
    smul_smul, Matrix.mul_assoc]
  module


/-- Sizes of the matrices of a step. -/
theorem alg3_sizes (d : ℕ) {L T τ : ℝ} (hL : 0 ≤ L) (hT : 0 ≤ T) (hτ : 0 ≤ τ) : ∃ C : ℝ, 0 < C ∧ ∀ {h : ℝ}, 0 < h → h ≤ T →
    ∀ {J0 J1 p : Mat d d}, p.PosSemidef → ‖J0‖ ≤ L → ‖J1‖ ≤ L → p.trace ≤ τ * h ^ 2 →
      ‖alg3K h J0 J1 p‖ ≤ C * h ∧ ‖alg3S h J0 J1 p‖ ≤ C * h ∧ ‖alg3E h J0 J1‖ ≤ C := by
  obtain ⟨φ, hφ⟩ : ∃ φ, φ = 1 + T * L := ⟨_, rfl⟩
  obtain ⟨η, hη⟩ : ∃ η, η = L + L * φ := ⟨_, rfl⟩
  have hφ0 : 0 ≤ φ := by rw [hφ]; positivity
  have hη0 : 0 ≤ η := by rw [hη]; positivity
  obtain ⟨g, hg⟩ : ∃ g, g = φ * (d * τ) * (d * η) + 1 / 2 + T / 3 * (d * L) := ⟨_, rfl⟩
  obtain ⟨c, hc⟩ : ∃ c, c = T * (η * (d * τ) * (d * η)) + (1 + T / 2 * (L + d * L) + T ^ 2 / 3 * (L * (d * L))) := ⟨_, rfl⟩
  have hg0 : 0 ≤ g := by rw [hg]; positivity
  have hc0 : 0 ≤ c := by rw [hc]; positivity
  refine ⟨g * (4 * d) + c + η + 1, by positivity, ?_⟩
  intro h hh hhT J0 J1 p hp hJ0 hJ1 htr
  have hF : ‖alg3F h J0‖ ≤ φ := by
    rw [alg3F, hφ]
    refine (norm_add_le _ _).trans (add_le_add norm_one_mat_le ?_)
    rw [norm_smul, Real.norm_eq_abs, abs_of_pos hh]
    exact mul_le_mul hhT hJ0 (norm_nonneg _) hT
  have hE : ‖alg3E h J0 J1‖ ≤ η := by
    rw [alg3E, hη]
    exact (norm_sub_le _ _).trans (add_le_add hJ0 ((norm_mul_le _ _).trans (mul_le_mul hJ1 hF (norm_nonneg _) hL)))
  have hEt : ‖(alg3E h J0 J1)ᵀ‖ ≤ d * η := (norm_transpose_le _).trans (by gcongr)
  have hJt : ‖J1ᵀ‖ ≤ d * L := (norm_transpose_le _).trans (by gcongr)
  have hpn : ‖p‖ ≤ d * τ * h ^ 2 := (psd_norm_le hp).trans (by rw [mul_assoc]; gcongr)
  have h3 : ∀ (X Y Z : Mat d d) {x y z : ℝ}, 0 ≤ x → 0 ≤ y → ‖X‖ ≤ x → ‖Y‖ ≤ y → ‖Z‖ ≤ z → ‖X * Y * Z‖ ≤ x * y * z := by
    intro X Y Z x y z hx hy h1 h2 h3
    refine (norm_mul_le _ _).trans (mul_le_mul ((norm_mul_le _ _).trans (mul_le_mul h1 h2 (norm_nonneg _) hx)) h3 (norm_nonneg _) (by positivity))
  have hG : ‖alg3G h J0 J1 p‖ ≤ g * h ^ 2 := by
    rw [alg3G]
    refine (norm_sub_le _ _).trans ((add_le_add (norm_add_le _ _) le_rfl).trans ?_)
    have e1 := h3 _ _ _ hφ0 (by positivity) hF hpn hEt
    have e2 : ‖(h ^ 2 / 2) • (1 : Mat d d)‖ ≤ h ^ 2 / 2 := by
      rw [norm_smul, Real.norm_eq_abs, abs_of_pos (by positivity)]
      exact mul_le_of_le_one_right (by positivity) norm_one_mat_le
    have e3 : ‖(h ^ 3 / 3) • J1ᵀ‖ ≤ T / 3 * (d * L) * h ^ 2 := by
      rw [norm_smul, Real.norm_eq_abs, abs_of_pos (by positivity)]
      calc h ^ 3 / 3 * ‖J1ᵀ‖ ≤ h ^ 3 / 3 * (d * L) := by gcongr
        _ = h / 3 * (d * L) * h ^ 2 := by ring
        _ ≤ _ := by gcongr
    rw [hg]
    linarith
  have hS : ‖alg3S h J0 J1 p‖ ≤ c * h := by
    rw [alg3S]
    refine (norm_add_le _ _).trans ?_
    have e1 : ‖alg3E h J0 J1 * p * (alg3E h J0 J1)ᵀ‖ ≤ T * (η * (d * τ) * (d * η)) * h := by
      refine (h3 _ _ _ hη0 (by positivity) hE hpn hEt).trans ?_
      calc η * (d * τ * h ^ 2) * (d * η) = h * (η * (d * τ) * (d * η)) * h := by ring
        _ ≤ _ := by gcongr
    have e2 : ‖h • (1 - (h / 2) • (J1 + J1ᵀ) + (h ^ 2 / 3) • (J1 * J1ᵀ))‖ ≤ (1 + T / 2 * (L + d * L) + T ^ 2 / 3 * (L * (d * L))) * h := by
      rw [norm_smul, Real.norm_eq_abs, abs_of_pos hh, mul_comm]
      refine mul_le_mul_of_nonneg_right ?_ hh.le
      refine (norm_add_le _ _).trans (add_le_add ((norm_sub_le _ _).trans (add_le_add norm_one_mat_le ?_)) ?_)
      · rw [norm_smul, Real.norm_eq_abs, abs_of_pos (by positivity)]
        exact mul_le_mul (by gcongr) ((norm_add_le _ _).trans (add_le_add hJ1 hJt)) (norm_nonneg _) (by positivity)
      · rw [norm_smul, Real.norm_eq_abs, abs_of_pos (by positivity)]
        exact mul_le_mul (by gcongr) ((norm_mul_le _ _).trans (mul_le_mul hJ1 hJt (norm_nonneg _) hL)) (norm_nonneg _) (by positivity)
    rw [hc]
    linarith
  refine ⟨?_, ?_, ?_⟩
  · have e : ‖alg3K h J0 J1 p‖ ≤ g * h ^ 2 * (4 * d / h) :=
      (norm_mul_le _ _).trans (mul_le_mul hG (alg3S_inv_le hh J0 J1 hp) (norm_nonneg _) (by positivity))
    refine e.trans ?_
    have : g * h ^ 2 * (4 * d / h) = g * (4 * d) * h := by field_simp
    rw [this]
    nlinarith
  · refine hS.trans ?_
    have : 0 ≤ g * (4 * d) := by positivity
    nlinarith
  · have : 0 ≤ g * (4 * d) := by positivity
    linarith

/-- A lower bound of the covariance is lost slowly, and every step adds to it. -/
theorem alg3_lower (d : ℕ) {L T τ : ℝ} (hL : 0 ≤ L) (hT : 0 ≤ T) (hτ : 0 ≤ τ) : ∃ C : ℝ, 0 ≤ C ∧ ∀ {h : ℝ}, 0 < h → h ≤ T →
    ∀ {J0 J1 p : Mat d d}, p.PosSemidef → ‖J0‖ ≤ L → ‖J1‖ ≤ L → p.trace ≤ τ * h ^ 2 → ∀ {l : ℝ}, 0 ≤ l →
      (∀ v : Vec d, l * (v ⬝ᵥ v) ≤ v ⬝ᵥ (p *ᵥ v)) →
      ∀ v : Vec d, (1 - C * h) * (l + h ^ 3 / 12) * (v ⬝ᵥ v) ≤ v ⬝ᵥ (alg3P h J0 J1 p *ᵥ v) := by
  obtain ⟨C, hC, hs⟩ := alg3_sizes d hL hT hτ
  refine ⟨2 * d * (d * (L + C * C + C * L)), by positivity, ?_⟩
  intro h hh hhT J0 J1 p hp hJ0 hJ1 htr l hl hlow v
  obtain ⟨hK, -, hE⟩ := hs hh hhT hp hJ0 hJ1 htr
  have hj := alg3P_joseph hh J0 J1 hp
  simp only at hj
  set K := alg3K h J0 J1 p
  obtain ⟨M, hM⟩ : ∃ M, M = alg3F h J0 - K * alg3E h J0 J1 := ⟨_, rfl⟩
  obtain ⟨A, hA⟩ : ∃ A, A = 1 + K * J1 := ⟨_, rfl⟩
  rw [← hM, ← hA] at hj
  have hM1 : ‖Mᵀ - 1‖ ≤ d * (L + C * C + C * L) * h := by
    rw [← transpose_one, ← transpose_sub]
    refine (norm_transpose_le _).trans ?_
    rw [mul_assoc]
    refine mul_le_mul_of_nonneg_left ?_ (by positivity)
    have e : M - 1 = h • J0 - K * alg3E h J0 J1 := by rw [hM, alg3F]; abel
    rw [e]
    refine (norm_sub_le _ _).trans ?_
    rw [norm_smul, Real.norm_eq_abs, abs_of_pos hh]
    have e1 : ‖K * alg3E h J0 J1‖ ≤ C * h * C := (norm_mul_le _ _).trans (mul_le_mul hK hE (norm_nonneg _) (by positivity))
    have e2 : h * ‖J0‖ ≤ h * L := by gcongr
    have e3 : 0 ≤ C * L * h := by positivity
    linarith
  have hA1 : ‖Aᵀ - 1‖ ≤ d * (L + C * C + C * L) * h := by
    rw [← transpose_one, ← transpose_sub]
    refine (norm_transpose_le _).trans ?_
    rw [mul_assoc]
    refine mul_le_mul_of_nonneg_left ?_ (by positivity)
    have e : A - 1 = K * J1 := by rw [hA]; abel
    rw [e]
    have e1 : ‖K * J1‖ ≤ C * h * L := (norm_mul_le _ _).trans (mul_le_mul hK hJ1 (norm_nonneg _) (by positivity))
    have e3 : 0 ≤ L * h + C * C * h := by positivity
    linarith
  have hMv := near_one_lower hM1 v
  have hAv := near_one_lower hA1 v
  have q : ∀ (X Y : Mat d d), v ⬝ᵥ ((X * Y * Xᵀ) *ᵥ v) = (Xᵀ *ᵥ v) ⬝ᵥ (Y *ᵥ (Xᵀ *ᵥ v)) := fun X Y => by
    rw [← mulVec_mulVec, ← mulVec_mulVec, dotProduct_mulVec, ← mulVec_transpose]
  have q1 : ∀ X : Mat d d, v ⬝ᵥ ((X * Xᵀ) *ᵥ v) = (Xᵀ *ᵥ v) ⬝ᵥ (Xᵀ *ᵥ v) := fun X => by
    have := q X 1
    rwa [Matrix.mul_one, one_mulVec] at this
  rw [hj, add_mulVec, add_mulVec, dotProduct_add, dotProduct_add, q, smul_mulVec, smul_mulVec, dotProduct_smul, dotProduct_smul, q1, q1,
    smul_eq_mul, smul_eq_mul]
  have e1 := hlow (Mᵀ *ᵥ v)
  have e2 : 0 ≤ h * (((K - (h / 2) • A)ᵀ *ᵥ v) ⬝ᵥ ((K - (h / 2) • A)ᵀ *ᵥ v)) :=
    mul_nonneg hh.le ((sq_nonneg _).trans (norm_sq_le_dot _))
  have e3 := mul_le_mul_of_nonneg_left hMv hl
  have e4 := mul_le_mul_of_nonneg_left hAv (by positivity : 0 ≤ h ^ 3 / 12)
  calc _ = l * ((1 - 2 * d * (d * (L + C * C + C * L) * h)) * (v ⬝ᵥ v)) + h ^ 3 / 12 * ((1 - 2 * d * (d * (L + C * C + C * L) * h)) * (v ⬝ᵥ v)) := by ring
    _ ≤ _ := by linarith

/-- The squared Mahalanobis norm of a residual is at least a multiple of its squared length divided by the step. -/
theorem mahalanobis_lower {S : Mat d d} (hS : S.PosDef) {c : ℝ} (hc : 0 < c) (hn : ‖S‖ ≤ c) (hd : 0 < d) (z : Vec d) :
    (z ⬝ᵥ z) / (d * c) ≤ z ⬝ᵥ (S⁻¹ *ᵥ z) := by
  have hd' : (0 : ℝ) < d := by exact_mod_cast hd
  obtain ⟨u, hu⟩ : ∃ u, u = S⁻¹ *ᵥ z := ⟨_, rfl⟩
  have hSu : S *ᵥ u = z := by rw [hu, mulVec_mulVec, mul_nonsing_inv _ (pd_isUnit_det hS), one_mulVec]
  have hSt : Sᵀ = S := psd_symm hS.posSemidef
  obtain ⟨r, hr⟩ : ∃ r, r = (d * c)⁻¹ := ⟨_, rfl⟩
  have h0 := psd_nonneg hS.posSemidef (u - r • z)
  have h1 : z ⬝ᵥ (S *ᵥ u) = u ⬝ᵥ (S *ᵥ z) := by
    rw [dotProduct_mulVec, ← mulVec_transpose, hSt, dotProduct_comm]
  have h2 : z ⬝ᵥ (S *ᵥ z) ≤ d * c * (z ⬝ᵥ z) := by
    refine (le_abs_self _).trans ((abs_dot_le _ _).trans ?_)
    have e1 : ‖S *ᵥ z‖ ≤ c * ‖z‖ := (linfty_opNorm_mulVec _ _).trans (mul_le_mul_of_nonneg_right hn (norm_nonneg _))
    have e2 := norm_sq_le_dot z
    rw [mul_assoc]
    refine mul_le_mul_of_nonneg_left ?_ hd'.le
    nlinarith [norm_nonneg z]
  rw [mulVec_sub, mulVec_smul, sub_dotProduct, dotProduct_sub, dotProduct_sub, dotProduct_smul, smul_dotProduct, smul_dotProduct, dotProduct_smul,
    smul_eq_mul, smul_eq_mul, smul_eq_mul, smul_eq_mul, hSu, ← h1, hSu] at h0
  rw [← hu, div_eq_mul_inv, ← hr]
  have hr0 : 0 < r := by rw [hr]; positivity
  have h3 : r * (r * (z ⬝ᵥ (S *ᵥ z))) ≤ r * (z ⬝ᵥ z) := by
    have : r * (z ⬝ᵥ (S *ᵥ z)) ≤ z ⬝ᵥ z := by
      calc r * (z ⬝ᵥ (S *ᵥ z)) ≤ r * (d * c * (z ⬝ᵥ z)) := by gcongr
        _ = _ := by rw [hr]; field_simp
    exact mul_le_mul_of_nonneg_left this hr0.le
  rw [dotProduct_comm u z] at h0
  nlinarith

end Verif
