import Verif.Lemmas.RosStep
import Verif.Lemmas.RosScheme
import Verif.Lemmas.MeasurableQr

/-! The matrices of the scheme of EKF1 with several steps: bounds that do not depend on the step. -/

namespace Verif

open Matrix Spec Jnp Set

variable {d m : ℕ}

theorem inv_le_of_lower {W : Mat d d} (hW : ∀ x, x ⬝ᵥ x ≤ 4 * (x ⬝ᵥ (W *ᵥ x))) : IsUnit W.det ∧ ∀ u, ‖W⁻¹ *ᵥ u‖ ≤ 4 * d * ‖u‖ := by
  have hu : IsUnit W.det := by
    rw [← isUnit_iff_isUnit_det, ← mulVec_injective_iff_isUnit]
    intro x y hxy
    have h1 : W *ᵥ (x - y) = 0 := by rw [mulVec_sub, sub_eq_zero]; exact hxy
    have h2 := hW (x - y)
    rw [h1, dotProduct_zero, mul_zero] at h2
    have h3 := (sq_norm_le_dot (x - y)).trans h2
    have h4 : ‖x - y‖ = 0 := by nlinarith [norm_nonneg (x - y)]
    exact sub_eq_zero.mp (norm_eq_zero.mp h4)
  refine ⟨hu, fun u => ?_⟩
  set x := W⁻¹ *ᵥ u with hx
  have he : W *ᵥ x = u := by rw [hx, mulVec_mulVec, mul_nonsing_inv _ hu, one_mulVec]
  have h1 := (sq_norm_le_dot x).trans (hW x)
  rw [he] at h1
  have h2 := dot_le_norm x u
  by_contra hc
  push Not at hc
  have h3 : 0 < ‖x‖ := lt_of_le_of_lt (by positivity) hc
  nlinarith

theorem psd_quad {C : Mat d d} (hC : C.PosSemidef) (x : Vec d) : 0 ≤ x ⬝ᵥ (C *ᵥ x) := by
  have := hC.dotProduct_mulVec_nonneg x
  simpa using this

theorem quad_conj (A C : Mat d d) (x : Vec d) : x ⬝ᵥ ((A * C * Aᵀ) *ᵥ x) = (Aᵀ *ᵥ x) ⬝ᵥ (C *ᵥ (Aᵀ *ᵥ x)) := by
  rw [← mulVec_mulVec, ← mulVec_mulVec, dotProduct_mulVec, mulVec_transpose]

theorem rosInn_lower (h : ℝ) (J : Mat d d) {C : Mat d d} (hC : C.PosSemidef) (J' : Mat d d) (x : Vec d) :
    x ⬝ᵥ x ≤ 4 * (x ⬝ᵥ (rosInn h J C J' *ᵥ x)) := by
  have h1 := rosW_lower h J'ᵀ x
  rw [rosInn, add_mulVec, dotProduct_add, smul_mulVec, dotProduct_smul, quad_conj, smul_eq_mul]
  have h2 := psd_quad hC ((rosD h J J')ᵀ *ᵥ x)
  have : 0 ≤ h ^ 2 * (((rosD h J J')ᵀ *ᵥ x) ⬝ᵥ (C *ᵥ ((rosD h J J')ᵀ *ᵥ x))) := by positivity
  linarith

theorem rosInn_det (h : ℝ) (J : Mat d d) {C : Mat d d} (hC : C.PosSemidef) (J' : Mat d d) : IsUnit (rosInn h J C J').det :=
  (inv_le_of_lower (rosInn_lower h J hC J')).1

theorem rosCov_psd {h : ℝ} (hh : 0 < h) (J : Mat d d) {C : Mat d d} (hC : C.PosSemidef) (J' : Mat d d) : (rosCov h J C J').PosSemidef :=
  (Ekf.update_ros measurableLinAlg_correct one_ne_zero hh J J' hC (0 : Vec d) 0 0).2

theorem rosScheme_psd (f : Vec d → ℝ → Vec d) {h : ℝ} (hh : 0 < h) {s0 : RosState d} (hC : s0.C.PosSemidef) (n : ℕ) :
    (rosScheme f h s0 n).C.PosSemidef := by
  induction n with
  | zero => exact hC
  | succ n ih => exact rosCov_psd hh _ ih _

/-- The gain without its leading term. -/
noncomputable def rosGam (h : ℝ) (J C J' : Mat d d) : Mat d d :=
  (rosQ0 J' - (h / 6) • (J' * J'ᵀ) + (1 + h • J) * C * (rosD h J J')ᵀ - (h / 2) • (rosD h J J' * C * (rosD h J J')ᵀ)) * (rosInn h J C J')⁻¹

theorem rosGain_eq (h : ℝ) (J : Mat d d) {C : Mat d d} (hC : C.PosSemidef) (J' : Mat d d) :
    rosGain h J C J' = (h / 2) • 1 + h ^ 2 • rosGam h J C J' := by
  have hu := rosInn_det h J hC J'
  have h1 : (h / 2) • (1 : Mat d d) = (h / 2) • (rosInn h J C J' * (rosInn h J C J')⁻¹) := by rw [mul_nonsing_inv _ hu]
  rw [h1, rosGam, ← Matrix.smul_mul, ← Matrix.smul_mul, ← Matrix.add_mul, rosGain]
  congr 1
  rw [rosInn, rosW, rosQ0, transpose_transpose]
  module

theorem norm_le_dot (x : Vec d) : x ⬝ᵥ x ≤ d * ‖x‖ ^ 2 := by
  have := dot_le_norm x x
  nlinarith

/-- The covariance grows at most linearly. -/
theorem rosCov_quad (d : ℕ) {L T : ℝ} (hL : 0 ≤ L) : ∃ q : ℝ, 0 ≤ q ∧ ∀ {h : ℝ}, 0 < h → h ≤ T → ∀ {J : Mat d d},
    (∀ v, ‖J *ᵥ v‖ ≤ L * ‖v‖) → ∀ {C : Mat d d}, C.PosSemidef → ∀ {γ : ℝ}, 0 ≤ γ → (∀ x, x ⬝ᵥ (C *ᵥ x) ≤ γ * (x ⬝ᵥ x)) → ∀ J' x,
      x ⬝ᵥ (rosCov h J C J' *ᵥ x) ≤ ((1 + q * h) * γ + 1 / 3) * (x ⬝ᵥ x) := by
  obtain ⟨l, hl⟩ : ∃ l, l = d * (d * L) ^ 2 := ⟨_, rfl⟩
  have hl0 : 0 ≤ l := by rw [hl]; positivity
  refine ⟨1 + (1 + |T|) * l, by positivity, ?_⟩
  intro h hh hhT J hJ C hC γ hγ hCq J' x
  have hT : h ≤ |T| := hhT.trans (le_abs_self T)
  have hx0 : 0 ≤ x ⬝ᵥ x := (sq_nonneg _).trans (sq_norm_le_dot x)
  have h1 : (Jᵀ *ᵥ x) ⬝ᵥ (Jᵀ *ᵥ x) ≤ l * (x ⬝ᵥ x) := by
    have i1 := norm_le_dot (Jᵀ *ᵥ x)
    have i2 := transpose_le hL hJ x
    have i3 : ‖Jᵀ *ᵥ x‖ ^ 2 ≤ (d * L * ‖x‖) ^ 2 := pow_le_pow_left₀ (norm_nonneg _) i2 2
    have i4 := sq_norm_le_dot x
    calc _ ≤ d * (d * L * ‖x‖) ^ 2 := i1.trans (mul_le_mul_of_nonneg_left i3 (by positivity))
      _ = l * ‖x‖ ^ 2 := by rw [hl]; ring
      _ ≤ _ := mul_le_mul_of_nonneg_left i4 hl0
  have h2 : ((1 + h • J)ᵀ *ᵥ x) ⬝ᵥ ((1 + h • J)ᵀ *ᵥ x) ≤ (1 + (1 + (1 + |T|) * l) * h) * (x ⬝ᵥ x) := by
    have e : (1 + h • J)ᵀ *ᵥ x = x + h • (Jᵀ *ᵥ x) := by
      rw [transpose_add, transpose_one, transpose_smul, add_mulVec, one_mulVec, smul_mulVec]
    rw [e]
    simp only [add_dotProduct, dotProduct_add, smul_dotProduct, dotProduct_smul, smul_eq_mul]
    have i1 : 0 ≤ (x - Jᵀ *ᵥ x) ⬝ᵥ (x - Jᵀ *ᵥ x) := (sq_nonneg _).trans (sq_norm_le_dot _)
    simp only [sub_dotProduct, dotProduct_sub] at i1
    have i2 := dotProduct_comm (Jᵀ *ᵥ x) x
    rw [i2] at i1 ⊢
    have i3 : h * (2 * (x ⬝ᵥ (Jᵀ *ᵥ x))) ≤ h * (x ⬝ᵥ x + l * (x ⬝ᵥ x)) := mul_le_mul_of_nonneg_left (by linarith) hh.le
    have i4 : h * (h * ((Jᵀ *ᵥ x) ⬝ᵥ (Jᵀ *ᵥ x))) ≤ |T| * (h * (l * (x ⬝ᵥ x))) :=
      mul_le_mul hT (mul_le_mul_of_nonneg_left h1 hh.le) (mul_nonneg hh.le ((sq_nonneg _).trans (sq_norm_le_dot _))) (abs_nonneg _)
    nlinarith
  have hI : 0 ≤ x ⬝ᵥ ((rosGain h J C J' * rosInn h J C J' * (rosGain h J C J')ᵀ) *ᵥ x) := by
    rw [quad_conj]
    have i1 := rosInn_lower h J hC J' ((rosGain h J C J')ᵀ *ᵥ x)
    have i2 : 0 ≤ ((rosGain h J C J')ᵀ *ᵥ x) ⬝ᵥ ((rosGain h J C J')ᵀ *ᵥ x) := (sq_nonneg _).trans (sq_norm_le_dot _)
    linarith
  rw [rosCov, sub_mulVec, add_mulVec, dotProduct_sub, dotProduct_add, quad_conj, smul_mulVec, smul_mulVec, dotProduct_smul, dotProduct_smul,
    one_mulVec, smul_eq_mul, smul_eq_mul]
  have h3 := hCq ((1 + h • J)ᵀ *ᵥ x)
  have h4 := mul_le_mul_of_nonneg_left h2 hγ
  have h5 : 0 ≤ (h ^ 2)⁻¹ * (x ⬝ᵥ ((rosGain h J C J' * rosInn h J C J' * (rosGain h J C J')ᵀ) *ᵥ x)) := by positivity
  nlinarith

theorem ros_psd_norm_le {C : Mat d d} (hC : C.PosSemidef) {γ : ℝ} (hγ : 0 ≤ γ) (hCq : ∀ x, x ⬝ᵥ (C *ᵥ x) ≤ γ * (x ⬝ᵥ x)) (v : Vec d) :
    ‖C *ᵥ v‖ ≤ d * γ * ‖v‖ := by
  have hs : ∀ i j, C i j = C j i := fun i j => by
    have := congrFun (congrFun (psd_symm hC) j) i
    simpa using this
  have hq : ∀ (i j : Fin d) (t : ℝ), (Pi.single i 1 + t • Pi.single j 1 : Vec d) ⬝ᵥ (C *ᵥ (Pi.single i 1 + t • Pi.single j 1)) =
      C i i + 2 * t * C i j + t ^ 2 * C j j := fun i j t => by
    simp only [mulVec_add, mulVec_smul, mulVec_single_one, add_dotProduct, dotProduct_add, smul_dotProduct, dotProduct_smul,
      single_one_dotProduct, smul_eq_mul, col_apply]
    rw [hs j i]
    ring
  have hd : ∀ i, C i i ≤ γ := fun i => by
    have h1 := hCq (Pi.single i 1)
    simpa [mulVec_single_one, single_one_dotProduct] using h1
  have he : ∀ i j, |C i j| ≤ γ := fun i j => by
    have h1 := psd_quad hC (Pi.single i 1 + (1 : ℝ) • Pi.single j 1)
    have h2 := psd_quad hC (Pi.single i 1 + (-1 : ℝ) • Pi.single j 1)
    rw [hq] at h1 h2
    rw [abs_le]
    constructor <;> linarith [hd i, hd j]
  rw [pi_norm_le_iff_of_nonneg (by positivity)]
  intro i
  have h : ∀ j ∈ Finset.univ, ‖C i j * v j‖ ≤ γ * ‖v‖ := fun j _ => by
    rw [norm_mul]
    exact mul_le_mul (he i j) (norm_le_pi_norm v j) (norm_nonneg _) hγ
  refine (norm_sum_le _ _).trans ((Finset.sum_le_sum h).trans (le_of_eq ?_))
  simp [mul_assoc]

theorem rosQ0_le {J0 : Mat d d} {l : ℝ} (hl : 0 ≤ l) (hJ0 : ∀ v, ‖J0 *ᵥ v‖ ≤ l * ‖v‖) (v : Vec d) :
    ‖rosQ0 J0 *ᵥ v‖ ≤ (1 / 4 * l + 1 / 12 * (d * l)) * ‖v‖ := by
  rw [rosQ0, sub_mulVec, smul_mulVec, smul_mulVec]
  refine (norm_sub_le _ _).trans ?_
  rw [norm_smul, norm_smul, Real.norm_of_nonneg (by norm_num), Real.norm_of_nonneg (by norm_num)]
  have h1 := hJ0 v
  have h2 := transpose_le hl hJ0 v
  linarith

set_option maxHeartbeats 1000000 in
/-- Bounds for the gain, with constants that do not depend on the step; `M` is the number of steps on an interval of length at most `T`. -/
theorem rosGam_bounds (d : ℕ) {L T c : ℝ} (hL : 0 ≤ L) (hT : 0 ≤ T) (hc : 0 ≤ c) : ∃ A : ℝ, 0 ≤ A ∧ ∀ {h M : ℝ}, 0 < h → 1 ≤ M → M * h ≤ T →
    ∀ {J C J' : Mat d d}, C.PosSemidef → (∀ v, ‖C *ᵥ v‖ ≤ c * M * ‖v‖) → (∀ v, ‖J *ᵥ v‖ ≤ L * ‖v‖) → (∀ v, ‖J' *ᵥ v‖ ≤ L * ‖v‖) →
      (∀ v, ‖rosGam h J C J' *ᵥ v‖ ≤ A * M * ‖v‖) ∧
      ∀ {J0 : Mat d d} {ε : ℝ}, 0 ≤ ε → (∀ v, ‖(J' - J0) *ᵥ v‖ ≤ ε * ‖v‖) → (C = 0 ∨ ∀ v, ‖(J - J0) *ᵥ v‖ ≤ ε * ‖v‖) →
        ∀ v, ‖rosGam h J C J' *ᵥ v - rosQ0 J0 *ᵥ v‖ ≤ A * M * (h + ε) * ‖v‖ := by
  obtain ⟨eD, heD⟩ : ∃ e, e = 2 * L + T * L ^ 2 := ⟨_, rfl⟩
  have heD0 : 0 ≤ eD := by rw [heD]; positivity
  obtain ⟨c0, hc0⟩ : ∃ c0, c0 = 1 / 4 * L + 1 / 12 * (d * L) := ⟨_, rfl⟩
  have hc00 : 0 ≤ c0 := by rw [hc0]; positivity
  obtain ⟨k, hk⟩ : ∃ k, k = 1 + T * L + T / 2 * eD := ⟨_, rfl⟩
  have hk0 : 0 ≤ k := by rw [hk]; positivity
  obtain ⟨c3, hc3⟩ : ∃ c3, c3 = 1 / 2 * (L + d * L) + T / 3 * (d * L ^ 2) + T * (c * (d * eD ^ 2)) := ⟨_, rfl⟩
  have hc30 : 0 ≤ c3 := by rw [hc3]; positivity
  obtain ⟨nB, hnB⟩ : ∃ nB, nB = c0 + T / 6 * (d * L ^ 2) + k * c * (d * eD) := ⟨_, rfl⟩
  have hnB0 : 0 ≤ nB := by rw [hnB]; positivity
  refine ⟨4 * d * nB + 4 * d * nB * c3 + (1 / 4 + d / 12) + d * L ^ 2 / 6 + k * c * d * (2 + L ^ 2), by positivity, ?_⟩
  intro h M hh hM hMh J C J' hC hCb hJ hJ'
  have hhT : h ≤ T := by nlinarith
  have hn : ∀ v : Vec d, 0 ≤ ‖v‖ := fun v => norm_nonneg v
  have hd : (0 : ℝ) ≤ d := Nat.cast_nonneg d
  obtain ⟨D, hD⟩ : ∃ D, D = rosD h J J' := ⟨_, rfl⟩
  have hDv : ∀ v, D *ᵥ v = J *ᵥ v - J' *ᵥ v - h • (J' *ᵥ (J *ᵥ v)) := fun v => by
    rw [hD, rosD, sub_mulVec, ← mulVec_mulVec, add_mulVec, one_mulVec, mulVec_add, smul_mulVec, mulVec_smul]
    abel
  have hJJ : ∀ v, ‖h • (J' *ᵥ (J *ᵥ v))‖ ≤ h * (L ^ 2 * ‖v‖) := fun v => by
    rw [norm_smul, Real.norm_of_nonneg hh.le]
    have h1 := hJ' (J *ᵥ v)
    have h2 := mul_le_mul_of_nonneg_left (hJ v) hL
    exact mul_le_mul_of_nonneg_left (by nlinarith) hh.le
  have hDc : ∀ v, ‖D *ᵥ v‖ ≤ eD * ‖v‖ := fun v => by
    rw [hDv]
    refine (norm_sub_le _ _).trans ((add_le_add (norm_sub_le _ _) (hJJ v)).trans ?_)
    have h1 := hJ v
    have h2 := hJ' v
    have h3 : h * (L ^ 2 * ‖v‖) ≤ T * (L ^ 2 * ‖v‖) := mul_le_mul_of_nonneg_right hhT (by positivity)
    rw [heD]
    linarith
  have hDt : ∀ v, ‖Dᵀ *ᵥ v‖ ≤ d * eD * ‖v‖ := transpose_le heD0 hDc
  have hJt : ∀ v, ‖(J' * J'ᵀ) *ᵥ v‖ ≤ d * L ^ 2 * ‖v‖ := fun v => by
    rw [← mulVec_mulVec]
    have h1 := hJ' (J'ᵀ *ᵥ v)
    have h2 := mul_le_mul_of_nonneg_left (transpose_le hL hJ' v) hL
    nlinarith
  -- the terms with the covariance
  obtain ⟨Z, hZ⟩ : ∃ Z, Z = (1 + h • J) * C * Dᵀ - (h / 2) • (D * C * Dᵀ) := ⟨_, rfl⟩
  have hZv : ∀ v, Z *ᵥ v = C *ᵥ (Dᵀ *ᵥ v) + h • (J *ᵥ (C *ᵥ (Dᵀ *ᵥ v))) - (h / 2) • (D *ᵥ (C *ᵥ (Dᵀ *ᵥ v))) := fun v => by
    rw [hZ, sub_mulVec, smul_mulVec, ← mulVec_mulVec, ← mulVec_mulVec, ← mulVec_mulVec, ← mulVec_mulVec, add_mulVec, one_mulVec, smul_mulVec]
  have hZb : ∀ v, ‖Z *ᵥ v‖ ≤ k * (c * M * ‖Dᵀ *ᵥ v‖) := fun v => by
    rw [hZv]
    have i0 := hCb (Dᵀ *ᵥ v)
    generalize C *ᵥ (Dᵀ *ᵥ v) = w at i0 ⊢
    generalize c * M * ‖Dᵀ *ᵥ v‖ = r at i0 ⊢
    have hr : 0 ≤ r := (norm_nonneg _).trans i0
    refine (norm_sub_le _ _).trans ((add_le_add (norm_add_le _ _) le_rfl).trans ?_)
    rw [norm_smul, norm_smul, Real.norm_of_nonneg hh.le, Real.norm_of_nonneg (by positivity : 0 ≤ h / 2)]
    have i1 : h * ‖J *ᵥ w‖ ≤ T * (L * r) :=
      mul_le_mul hhT ((hJ w).trans (mul_le_mul_of_nonneg_left i0 hL)) (norm_nonneg _) hT
    have i2 : h / 2 * ‖D *ᵥ w‖ ≤ T / 2 * (eD * r) :=
      mul_le_mul (by linarith) ((hDc w).trans (mul_le_mul_of_nonneg_left i0 heD0)) (norm_nonneg _) (by positivity)
    rw [hk]
    linarith
  obtain ⟨W, hW⟩ : ∃ W, W = rosInn h J C J' := ⟨_, rfl⟩
  obtain ⟨hWu, hWi⟩ := inv_le_of_lower (rosInn_lower h J hC J')
  rw [← hW] at hWu hWi
  have hWv : ∀ v, v - W *ᵥ v = (h / 2) • (J'ᵀ *ᵥ v + J' *ᵥ v) - (h ^ 2 / 3) • ((J' * J'ᵀ) *ᵥ v) - h ^ 2 • (D *ᵥ (C *ᵥ (Dᵀ *ᵥ v))) := fun v => by
    rw [hW, rosInn, rosW, transpose_transpose, ← hD]
    simp only [add_mulVec, sub_mulVec, one_mulVec, smul_mulVec, ← mulVec_mulVec]
    abel
  have hWb : ∀ v, ‖v - W *ᵥ v‖ ≤ h * c3 * ‖v‖ := fun v => by
    rw [hWv]
    refine (norm_sub_le _ _).trans ((add_le_add (norm_sub_le _ _) le_rfl).trans ?_)
    rw [norm_smul, norm_smul, norm_smul, Real.norm_of_nonneg (by positivity : 0 ≤ h / 2), Real.norm_of_nonneg (by positivity : 0 ≤ h ^ 2 / 3),
      Real.norm_of_nonneg (by positivity : 0 ≤ h ^ 2)]
    have i1 : ‖J'ᵀ *ᵥ v + J' *ᵥ v‖ ≤ (L + d * L) * ‖v‖ := by
      refine (norm_add_le _ _).trans ?_
      have := hJ' v
      have := transpose_le hL hJ' v
      linarith
    have i2 := mul_le_mul_of_nonneg_left i1 (by positivity : 0 ≤ h / 2)
    have i3 : h ^ 2 / 3 * ‖(J' * J'ᵀ) *ᵥ v‖ ≤ h * T / 3 * (d * L ^ 2 * ‖v‖) :=
      mul_le_mul (by nlinarith) (hJt v) (norm_nonneg _) (by positivity)
    have i4 : ‖D *ᵥ (C *ᵥ (Dᵀ *ᵥ v))‖ ≤ M * (c * (d * eD ^ 2) * ‖v‖) := by
      calc _ ≤ eD * ‖C *ᵥ (Dᵀ *ᵥ v)‖ := hDc _
        _ ≤ eD * (c * M * (d * eD * ‖v‖)) := by
            refine mul_le_mul_of_nonneg_left ((hCb _).trans (mul_le_mul_of_nonneg_left (hDt v) (by positivity))) heD0
        _ = _ := by ring
    have i5 : h ^ 2 * ‖D *ᵥ (C *ᵥ (Dᵀ *ᵥ v))‖ ≤ h * (T * (c * (d * eD ^ 2) * ‖v‖)) := by
      have j1 : h ^ 2 * ‖D *ᵥ (C *ᵥ (Dᵀ *ᵥ v))‖ ≤ h ^ 2 * (M * (c * (d * eD ^ 2) * ‖v‖)) := mul_le_mul_of_nonneg_left i4 (by positivity)
      have j2 : h * (M * h * (c * (d * eD ^ 2) * ‖v‖)) ≤ h * (T * (c * (d * eD ^ 2) * ‖v‖)) :=
        mul_le_mul_of_nonneg_left (mul_le_mul_of_nonneg_right hMh (by positivity)) hh.le
      nlinarith
    rw [hc3]
    linarith
  have hinv : ∀ v, ‖W⁻¹ *ᵥ v - v‖ ≤ 4 * d * (h * c3 * ‖v‖) := fun v => by
    have e : W⁻¹ *ᵥ v - v = W⁻¹ *ᵥ (v - W *ᵥ v) := by
      rw [mulVec_sub, mulVec_mulVec, nonsing_inv_mul _ hWu, one_mulVec]
    rw [e]
    exact (hWi _).trans (mul_le_mul_of_nonneg_left (hWb v) (by positivity))
  obtain ⟨N, hN⟩ : ∃ N, N = rosQ0 J' - (h / 6) • (J' * J'ᵀ) + Z := ⟨_, rfl⟩
  have hG : rosGam h J C J' = N * W⁻¹ := by
    rw [rosGam, hN, hW, hZ, ← hD]
    congr 1
    abel
  have hNv : ∀ v, N *ᵥ v = rosQ0 J' *ᵥ v - (h / 6) • ((J' * J'ᵀ) *ᵥ v) + Z *ᵥ v := fun v => by
    rw [hN, add_mulVec, sub_mulVec, smul_mulVec]
  have hNb : ∀ v, ‖N *ᵥ v‖ ≤ nB * M * ‖v‖ := fun v => by
    rw [hNv]
    refine (norm_add_le _ _).trans ((add_le_add (norm_sub_le _ _) le_rfl).trans ?_)
    rw [norm_smul, Real.norm_of_nonneg (by positivity : 0 ≤ h / 6)]
    have i1 := rosQ0_le hL hJ' v
    rw [← hc0] at i1
    have i2 : h / 6 * ‖(J' * J'ᵀ) *ᵥ v‖ ≤ T / 6 * (d * L ^ 2 * ‖v‖) := mul_le_mul (by linarith) (hJt v) (norm_nonneg _) (by positivity)
    have i3 : ‖Z *ᵥ v‖ ≤ k * (c * M * (d * eD * ‖v‖)) :=
      (hZb v).trans (mul_le_mul_of_nonneg_left (mul_le_mul_of_nonneg_left (hDt v) (by positivity)) hk0)
    have i4 : (c0 + T / 6 * (d * L ^ 2)) * ‖v‖ ≤ (c0 + T / 6 * (d * L ^ 2)) * ‖v‖ * M := le_mul_of_one_le_right (by positivity) hM
    rw [hnB]
    nlinarith
  refine ⟨fun v => ?_, ?_⟩
  · rw [hG, ← mulVec_mulVec]
    have i1 := (hNb (W⁻¹ *ᵥ v)).trans (mul_le_mul_of_nonneg_left (hWi v) (by positivity))
    have i2 : 0 ≤ (4 * d * nB * c3 + (1 / 4 + d / 12) + d * L ^ 2 / 6 + k * c * d * (2 + L ^ 2)) * (M * ‖v‖) := by positivity
    nlinarith
  · intro J0 ε hε hJε hJ0 v
    have hZε : ‖Z *ᵥ v‖ ≤ k * c * d * (2 + L ^ 2) * (M * (h + ε) * ‖v‖) := by
      rcases hJ0 with rfl | hJ0
      · rw [hZv, zero_mulVec, mulVec_zero, mulVec_zero, smul_zero, smul_zero, add_zero, sub_zero, norm_zero]
        positivity
      · have h1 : ∀ v, ‖D *ᵥ v‖ ≤ (2 * ε + h * L ^ 2) * ‖v‖ := fun v => by
          have e : D *ᵥ v = (J - J0) *ᵥ v - (J' - J0) *ᵥ v - h • (J' *ᵥ (J *ᵥ v)) := by
            rw [hDv, sub_mulVec, sub_mulVec]
            abel
          rw [e]
          refine (norm_sub_le _ _).trans ((add_le_add (norm_sub_le _ _) (hJJ v)).trans ?_)
          linarith [hJ0 v, hJε v]
        have h2 := transpose_le (by positivity) h1 v
        have h3 := (hZb v).trans (mul_le_mul_of_nonneg_left (mul_le_mul_of_nonneg_left h2 (by positivity)) hk0)
        refine h3.trans ?_
        have h4 : 2 * ε + h * L ^ 2 ≤ (2 + L ^ 2) * (h + ε) := by nlinarith [mul_nonneg hε (sq_nonneg L)]
        calc _ = k * c * d * M * ‖v‖ * (2 * ε + h * L ^ 2) := by ring
          _ ≤ k * c * d * M * ‖v‖ * ((2 + L ^ 2) * (h + ε)) := mul_le_mul_of_nonneg_left h4 (by positivity)
          _ = _ := by ring
    have e : rosGam h J C J' *ᵥ v - rosQ0 J0 *ᵥ v = N *ᵥ (W⁻¹ *ᵥ v - v) + (rosQ0 (J' - J0) *ᵥ v - (h / 6) • ((J' * J'ᵀ) *ᵥ v) + Z *ᵥ v) := by
      have e1 : rosQ0 (J' - J0) *ᵥ v = rosQ0 J' *ᵥ v - rosQ0 J0 *ᵥ v := by
        simp only [rosQ0, sub_mulVec, smul_mulVec, transpose_sub]
        module
      rw [hG, ← mulVec_mulVec, mulVec_sub, hNv v, e1]
      abel
    rw [e]
    refine (norm_add_le _ _).trans ((add_le_add le_rfl ((norm_add_le _ _).trans (add_le_add (norm_sub_le _ _) le_rfl))).trans ?_)
    rw [norm_smul, Real.norm_of_nonneg (by positivity : 0 ≤ h / 6)]
    have i1 := (hNb (W⁻¹ *ᵥ v - v)).trans (mul_le_mul_of_nonneg_left (hinv v) (by positivity))
    have i2 := rosQ0_le hε hJε v
    have i3 := mul_le_mul_of_nonneg_left (hJt v) (by positivity : 0 ≤ h / 6)
    have j1 : 4 * d * nB * c3 * (M * h * ‖v‖) ≤ 4 * d * nB * c3 * (M * (h + ε) * ‖v‖) := by
      refine mul_le_mul_of_nonneg_left ?_ (by positivity)
      exact mul_le_mul_of_nonneg_right (mul_le_mul_of_nonneg_left (by linarith) (by linarith)) (hn v)
    have hM1 : (h + ε) * ‖v‖ ≤ M * (h + ε) * ‖v‖ := by
      have : h + ε ≤ M * (h + ε) := le_mul_of_one_le_left (by positivity) hM
      exact mul_le_mul_of_nonneg_right this (hn v)
    have j2 : (1 / 4 + d / 12) * (ε * ‖v‖) ≤ (1 / 4 + d / 12) * (M * (h + ε) * ‖v‖) := by
      refine mul_le_mul_of_nonneg_left (le_trans ?_ hM1) (by positivity)
      exact mul_le_mul_of_nonneg_right (by linarith) (hn v)
    have j3 : d * L ^ 2 / 6 * (h * ‖v‖) ≤ d * L ^ 2 / 6 * (M * (h + ε) * ‖v‖) := by
      refine mul_le_mul_of_nonneg_left (le_trans ?_ hM1) (by positivity)
      exact mul_le_mul_of_nonneg_right (by linarith) (hn v)
    have j4 : 0 ≤ 4 * d * nB * (M * (h + ε) * ‖v‖) := by positivity
    linarith

/-- The covariances of the scheme, in units of `σ² h³`, on an interval of length at most `T`. -/
theorem rosScheme_cov (d : ℕ) {L T : ℝ} (hL : 0 ≤ L) (hT : 0 ≤ T) : ∃ c : ℝ, 0 ≤ c ∧ ∀ (f : Vec d → ℝ → Vec d) {h : ℝ}, 0 < h → ∀ {M : ℕ}, M * h ≤ T →
    ∀ y v, (∀ n ≤ M, ∀ u, ‖(rosScheme f h ⟨y, v, 0, 0⟩ n).J *ᵥ u‖ ≤ L * ‖u‖) → ∀ n ≤ M, ∀ u,
      ‖(rosScheme f h ⟨y, v, 0, 0⟩ n).C *ᵥ u‖ ≤ c * M * ‖u‖ := by
  obtain ⟨q, hq, hcov⟩ := rosCov_quad d (T := T) hL
  refine ⟨d * Real.exp (q * T), by positivity, ?_⟩
  intro f h hh M hM y v hJ
  have hpsd := rosScheme_psd f hh (s0 := ⟨y, v, 0, 0⟩) PosSemidef.zero
  have key : ∀ n ≤ M, ∀ x, x ⬝ᵥ ((rosScheme f h ⟨y, v, 0, 0⟩ n).C *ᵥ x) ≤ (1 + q * h) ^ n * n * (x ⬝ᵥ x) := by
    intro n
    induction n with
    | zero => intro _ x; simp [rosScheme]
    | succ n ih =>
      intro hn x
      have hM1 : (1 : ℝ) ≤ M := by exact_mod_cast (by omega : 1 ≤ M)
      have hhT : h ≤ T := by nlinarith
      have h1 := hcov hh hhT (hJ n (by omega)) (hpsd n) (by positivity) (ih (by omega)) (rosScheme f h ⟨y, v, 0, 0⟩ (n + 1)).J x
      refine h1.trans (mul_le_mul_of_nonneg_right ?_ ((sq_nonneg _).trans (sq_norm_le_dot x)))
      have h2 : (1 : ℝ) ≤ (1 + q * h) ^ (n + 1) := one_le_pow₀ (by linarith [mul_nonneg hq hh.le])
      have e : (1 + q * h) ^ (n + 1) * ((n + 1 : ℕ) : ℝ) = (1 + q * h) * ((1 + q * h) ^ n * n) + (1 + q * h) ^ (n + 1) := by push_cast; ring
      rw [e]
      linarith
  intro n hn u
  have hn' : (n : ℝ) ≤ M := by exact_mod_cast hn
  have hγ : (1 + q * h) ^ n * n ≤ Real.exp (q * T) * M :=
    mul_le_mul (pow_le_exp_rate hq hh.le ((mul_le_mul_of_nonneg_right hn' hh.le).trans hM)) hn' (by positivity) (by positivity)
  refine (ros_psd_norm_le (hpsd n) (by positivity) (key n hn) u).trans ?_
  calc _ ≤ d * (Real.exp (q * T) * M) * ‖u‖ := by gcongr
    _ = _ := by ring

end Verif
