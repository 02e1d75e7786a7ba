import Verif.Lemmas.MartPert
import Verif.Lemmas.TrapConsist
import Verif.Lemmas.Taylor15
import Verif.Spec.Ekf
import Mathlib.LinearAlgebra.Matrix.ToLin
import Mathlib.Topology.Algebra.Module.FiniteDimension

/-! The linearly implicit step of EKF1 on one interval of an SDE with additive noise, compared with the trapezoidal step. -/

namespace Verif

open Matrix Spec Jnp Set

variable {d m : ℕ}

/-! ## The matrices -/

theorem transpose_le {J : Mat d d} {L : ℝ} (hL : 0 ≤ L) (hJ : ∀ v, ‖J *ᵥ v‖ ≤ L * ‖v‖) (v : Vec d) : ‖Jᵀ *ᵥ v‖ ≤ d * L * ‖v‖ := by
  rw [pi_norm_le_iff_of_nonneg (by positivity)]
  intro j
  have h : ∀ i ∈ Finset.univ, ‖Jᵀ j i * v i‖ ≤ L * ‖v‖ := fun i _ => by
    rw [norm_mul]
    refine mul_le_mul ?_ (norm_le_pi_norm v i) (norm_nonneg _) hL
    have h1 := (norm_le_pi_norm (J *ᵥ Pi.single j 1) i).trans (hJ (Pi.single j 1))
    have h2 : ‖(Pi.single j 1 : Vec d)‖ ≤ 1 := by
      rw [pi_norm_le_iff_of_nonneg zero_le_one]
      intro l
      by_cases h : l = j
      · subst h; simp
      · simp [h]
    rw [mulVec_single_one] at h1
    exact h1.trans ((mul_le_mul_of_nonneg_left h2 hL).trans (le_of_eq (mul_one L)))
  refine (norm_sum_le _ _).trans ((Finset.sum_le_sum h).trans (le_of_eq ?_))
  simp [mul_assoc]

theorem rosW_lower (h : ℝ) (J : Mat d d) (x : Vec d) : x ⬝ᵥ x ≤ 4 * (x ⬝ᵥ (rosW h J *ᵥ x)) := by
  have e1 : x ⬝ᵥ (Jᵀ *ᵥ x) = x ⬝ᵥ (J *ᵥ x) := by
    rw [dotProduct_mulVec, vecMul_transpose, dotProduct_comm]
  have e2 : x ⬝ᵥ ((Jᵀ * J) *ᵥ x) = (J *ᵥ x) ⬝ᵥ (J *ᵥ x) := by
    rw [← mulVec_mulVec, dotProduct_mulVec, vecMul_transpose]
  have e3 : x ⬝ᵥ (rosW h J *ᵥ x) = x ⬝ᵥ x - h * (x ⬝ᵥ (J *ᵥ x)) + h ^ 2 / 3 * ((J *ᵥ x) ⬝ᵥ (J *ᵥ x)) := by
    rw [rosW, add_mulVec, sub_mulVec, one_mulVec, smul_mulVec, smul_mulVec, add_mulVec, dotProduct_add, dotProduct_sub,
      dotProduct_smul, dotProduct_smul, dotProduct_add, e1, e2, smul_eq_mul, smul_eq_mul]
    ring
  have h1 : 0 ≤ (x - (2 * h / 3) • (J *ᵥ x)) ⬝ᵥ (x - (2 * h / 3) • (J *ᵥ x)) := (sq_nonneg _).trans (sq_norm_le_dot _)
  rw [sub_dotProduct, dotProduct_sub, dotProduct_sub, smul_dotProduct, dotProduct_smul, smul_dotProduct, dotProduct_smul,
    dotProduct_comm (J *ᵥ x) x] at h1
  simp only [smul_eq_mul] at h1
  rw [e3]
  nlinarith

theorem rosW_det (h : ℝ) (J : Mat d d) : IsUnit (rosW h J).det := by
  rw [← isUnit_iff_isUnit_det, ← mulVec_injective_iff_isUnit]
  intro x y hxy
  have h1 : rosW h J *ᵥ (x - y) = 0 := by rw [mulVec_sub, sub_eq_zero]; exact hxy
  have h2 := rosW_lower h J (x - y)
  rw [h1, dotProduct_zero, mul_zero] at h2
  have h3 := (sq_norm_le_dot (x - y)).trans h2
  have h4 : ‖x - y‖ = 0 := by nlinarith [norm_nonneg (x - y)]
  exact sub_eq_zero.mp (norm_eq_zero.mp h4)

theorem dot_le_norm (x u : Vec d) : x ⬝ᵥ u ≤ d * (‖x‖ * ‖u‖) := by
  have h : ∀ i ∈ Finset.univ, x i * u i ≤ ‖x‖ * ‖u‖ := fun i _ => by
    refine (le_abs_self _).trans ?_
    rw [abs_mul]
    exact mul_le_mul (norm_le_pi_norm x i) (norm_le_pi_norm u i) (abs_nonneg _) (norm_nonneg _)
  refine (Finset.sum_le_sum h).trans (le_of_eq ?_)
  simp

theorem rosW_inv_le (h : ℝ) (J : Mat d d) (u : Vec d) : ‖(rosW h J)⁻¹ *ᵥ u‖ ≤ 4 * d * ‖u‖ := by
  set x := (rosW h J)⁻¹ *ᵥ u with hx
  have hu : rosW h J *ᵥ x = u := by rw [hx, mulVec_mulVec, mul_nonsing_inv _ (rosW_det h J), one_mulVec]
  have h1 := (sq_norm_le_dot x).trans (rosW_lower h J x)
  rw [hu] at h1
  have h2 := dot_le_norm x u
  by_contra hc
  push Not at hc
  have h3 : 0 < ‖x‖ := lt_of_le_of_lt (by positivity) hc
  nlinarith

/-- The matrix of the difference between the linearly implicit step and the trapezoidal step. -/
noncomputable def rosQ (h : ℝ) (J : Mat d d) : Mat d d := (1 / 4 : ℝ) • J - (1 / 12 : ℝ) • Jᵀ - (h / 6) • (Jᵀ * J)

/-- The same for small steps. -/
noncomputable def rosQ0 (J : Mat d d) : Mat d d := (1 / 4 : ℝ) • J - (1 / 12 : ℝ) • Jᵀ

theorem rosStep_sub (vf : Vec d → ℝ → Vec d) (J : Mat d d) (h : ℝ) (y : Vec d) :
    rosStep vf J h y = (trapScheme vf h y 1).1 +
      h ^ 2 • ((rosW h J)⁻¹ *ᵥ (rosQ h J *ᵥ (vf (y + h • vf y 0) h - vf y 0))) := by
  have e1 : (trapScheme vf h y 1).1 = y + (h / 2) • (vf y 0 + vf (y + h • vf y 0) h) := by
    simp [trapScheme]
  obtain ⟨u, hu⟩ : ∃ u, u = vf (y + h • vf y 0) h - vf y 0 := ⟨_, rfl⟩
  have hw : vf (y + h • vf y 0) h = u + vf y 0 := by rw [hu]; abel
  have e2 : ((h / 2) • (1 : Mat d d) - (h ^ 2 / 3) • Jᵀ) *ᵥ u = (h / 2) • (rosW h J *ᵥ u) + h ^ 2 • (rosQ h J *ᵥ u) := by
    simp only [rosW, rosQ, add_mulVec, sub_mulVec, smul_mulVec, one_mulVec]
    module
  have e3 : (rosW h J)⁻¹ *ᵥ (rosW h J *ᵥ u) = u := by rw [mulVec_mulVec, nonsing_inv_mul _ (rosW_det h J), one_mulVec]
  have e4 : rosStep vf J h y = y + h • vf y 0 + (rosW h J)⁻¹ *ᵥ (((h / 2) • (1 : Mat d d) - (h ^ 2 / 3) • Jᵀ) *ᵥ u) := by rw [hu]; rfl
  rw [e4, e1, hw, add_sub_cancel_right, e2, mulVec_add, mulVec_smul, mulVec_smul, e3]
  module

/-- Bounds for the matrices, with constants that do not depend on the step. -/
theorem ros_matrix_bounds (d : ℕ) {L T : ℝ} (hL : 0 ≤ L) (hT : 0 ≤ T) : ∃ C : ℝ, 0 ≤ C ∧ ∀ {h : ℝ}, 0 ≤ h → h ≤ T → ∀ {J : Mat d d},
    (∀ v, ‖J *ᵥ v‖ ≤ L * ‖v‖) → (∀ v, ‖(rosW h J)⁻¹ *ᵥ (rosQ h J *ᵥ v)‖ ≤ C * ‖v‖) ∧ (∀ v, ‖rosQ0 J *ᵥ v‖ ≤ C * ‖v‖) ∧
      ∀ {J0 : Mat d d} {ε : ℝ}, 0 ≤ ε → (∀ v, ‖J0 *ᵥ v‖ ≤ L * ‖v‖) → (∀ v, ‖(J - J0) *ᵥ v‖ ≤ ε * ‖v‖) →
        ∀ v, ‖(rosW h J)⁻¹ *ᵥ (rosQ h J *ᵥ v) - rosQ0 J0 *ᵥ v‖ ≤ C * (h + ε) * ‖v‖ := by
  obtain ⟨c0, hc0⟩ : ∃ c0, c0 = 1 / 4 * L + 1 / 12 * (d * L) := ⟨_, rfl⟩
  have hc00 : 0 ≤ c0 := by rw [hc0]; positivity
  obtain ⟨c1, hc1⟩ : ∃ c1, c1 = 1 / 2 * (L + d * L) + T / 3 * (d * L * L) := ⟨_, rfl⟩
  have hc10 : 0 ≤ c1 := by rw [hc1]; positivity
  obtain ⟨c2, hc2⟩ : ∃ c2, c2 = d * L * L := ⟨_, rfl⟩
  have hc20 : 0 ≤ c2 := by rw [hc2]; positivity
  refine ⟨4 * d * (c0 + T / 6 * c2) + c0 + 4 * d * (c1 * c0 + c2 / 6) + 4 * d * (1 / 4 + 1 / 12 * d), by positivity, ?_⟩
  intro h hh0 hhT J hJ
  have hR0 : ∀ {J0 : Mat d d} {l : ℝ}, 0 ≤ l → (∀ v, ‖J0 *ᵥ v‖ ≤ l * ‖v‖) → ∀ v, ‖rosQ0 J0 *ᵥ v‖ ≤ (1 / 4 * l + 1 / 12 * (d * l)) * ‖v‖ :=
    fun {J0 l} hl hJ0 v => by
      rw [rosQ0, sub_mulVec, smul_mulVec, smul_mulVec]
      refine (norm_sub_le _ _).trans ?_
      rw [norm_smul, norm_smul, Real.norm_of_nonneg (by norm_num), Real.norm_of_nonneg (by norm_num)]
      have h1 := hJ0 v
      have h2 := transpose_le hl hJ0 v
      linarith
  have hJJ : ∀ v, ‖(Jᵀ * J) *ᵥ v‖ ≤ c2 * ‖v‖ := fun v => by
    rw [← mulVec_mulVec, hc2]
    refine (transpose_le hL hJ _).trans ?_
    have := mul_le_mul_of_nonneg_left (hJ v) (by positivity : 0 ≤ d * L)
    linarith
  have hRR : ∀ v, rosQ h J *ᵥ v = rosQ0 J *ᵥ v - (h / 6) • ((Jᵀ * J) *ᵥ v) := fun v => by
    rw [rosQ, rosQ0, sub_mulVec, smul_mulVec]
  have hn : ∀ v : Vec d, 0 ≤ ‖v‖ := fun v => norm_nonneg v
  have hd : (0 : ℝ) ≤ d := Nat.cast_nonneg d
  refine ⟨fun v => ?_, fun v => ?_, ?_⟩
  · refine (rosW_inv_le h J _).trans ?_
    have h1 : ‖rosQ h J *ᵥ v‖ ≤ (c0 + T / 6 * c2) * ‖v‖ := by
      rw [hRR]
      refine (norm_sub_le _ _).trans ?_
      rw [norm_smul, Real.norm_of_nonneg (by positivity)]
      have h2 := hR0 hL hJ v
      rw [← hc0] at h2
      have h3 : h / 6 * ‖(Jᵀ * J) *ᵥ v‖ ≤ T / 6 * (c2 * ‖v‖) := mul_le_mul (by linarith) (hJJ v) (norm_nonneg _) (by positivity)
      linarith
    have h4 := mul_le_mul_of_nonneg_left h1 (by positivity : (0 : ℝ) ≤ 4 * d)
    have h5 : 0 ≤ (c0 + 4 * d * (c1 * c0 + c2 / 6) + 4 * d * (1 / 4 + 1 / 12 * d)) * ‖v‖ := by positivity
    nlinarith
  · have h2 := hR0 hL hJ v
    rw [← hc0] at h2
    have h5 : 0 ≤ (4 * d * (c0 + T / 6 * c2) + 4 * d * (c1 * c0 + c2 / 6) + 4 * d * (1 / 4 + 1 / 12 * d)) * ‖v‖ := by positivity
    nlinarith
  · intro J0 ε hε hJ0 hJε v
    have hW : ∀ x, ‖x - rosW h J *ᵥ x‖ ≤ h * c1 * ‖x‖ := fun x => by
      have e : x - rosW h J *ᵥ x = (h / 2) • (J *ᵥ x + Jᵀ *ᵥ x) - (h ^ 2 / 3) • ((Jᵀ * J) *ᵥ x) := by
        rw [rosW, add_mulVec, sub_mulVec, one_mulVec, smul_mulVec, smul_mulVec, add_mulVec]
        abel
      rw [e]
      refine (norm_sub_le _ _).trans ?_
      rw [norm_smul, norm_smul, Real.norm_of_nonneg (by positivity), Real.norm_of_nonneg (by positivity)]
      have h1 : ‖J *ᵥ x + Jᵀ *ᵥ x‖ ≤ (L + d * L) * ‖x‖ := by
        refine (norm_add_le _ _).trans ?_
        have := hJ x
        have := transpose_le hL hJ x
        linarith
      have h2 := mul_le_mul_of_nonneg_left h1 (by positivity : 0 ≤ h / 2)
      have h3 : h ^ 2 / 3 * ‖(Jᵀ * J) *ᵥ x‖ ≤ h * T / 3 * (c2 * ‖x‖) :=
        mul_le_mul (by nlinarith) (hJJ x) (norm_nonneg _) (by positivity)
      rw [hc1, ← hc2]
      linarith
    have hinv : ∀ x, ‖(rosW h J)⁻¹ *ᵥ x - x‖ ≤ 4 * d * (h * c1 * ‖x‖) := fun x => by
      have e : (rosW h J)⁻¹ *ᵥ x - x = (rosW h J)⁻¹ *ᵥ (x - rosW h J *ᵥ x) := by
        rw [mulVec_sub, mulVec_mulVec, nonsing_inv_mul _ (rosW_det h J), one_mulVec]
      rw [e]
      exact (rosW_inv_le h J _).trans (mul_le_mul_of_nonneg_left (hW x) (by positivity))
    have e : (rosW h J)⁻¹ *ᵥ (rosQ h J *ᵥ v) - rosQ0 J0 *ᵥ v = (rosW h J)⁻¹ *ᵥ (rosQ0 (J - J0) *ᵥ v - (h / 6) • ((Jᵀ * J) *ᵥ v)) +
        ((rosW h J)⁻¹ *ᵥ (rosQ0 J0 *ᵥ v) - rosQ0 J0 *ᵥ v) := by
      have e1 : rosQ0 (J - J0) *ᵥ v - (h / 6) • ((Jᵀ * J) *ᵥ v) = rosQ h J *ᵥ v - rosQ0 J0 *ᵥ v := by
        rw [hRR]
        simp only [rosQ0, sub_mulVec, smul_mulVec, transpose_sub]
        module
      rw [e1, mulVec_sub]
      abel
    rw [e]
    refine (norm_add_le _ _).trans ?_
    have h1 : ‖(rosW h J)⁻¹ *ᵥ (rosQ0 (J - J0) *ᵥ v - (h / 6) • ((Jᵀ * J) *ᵥ v))‖ ≤
        4 * d * (((1 / 4 * ε + 1 / 12 * (d * ε)) + h / 6 * c2) * ‖v‖) := by
      refine (rosW_inv_le h J _).trans (mul_le_mul_of_nonneg_left ?_ (by positivity))
      refine (norm_sub_le _ _).trans ?_
      rw [norm_smul, Real.norm_of_nonneg (by positivity)]
      have h2 := hR0 hε hJε v
      have h3 := mul_le_mul_of_nonneg_left (hJJ v) (by positivity : 0 ≤ h / 6)
      linarith
    have h2 : ‖(rosW h J)⁻¹ *ᵥ (rosQ0 J0 *ᵥ v) - rosQ0 J0 *ᵥ v‖ ≤ 4 * d * (h * c1 * (c0 * ‖v‖)) := by
      refine (hinv _).trans (mul_le_mul_of_nonneg_left (mul_le_mul_of_nonneg_left ?_ (by positivity)) (by positivity))
      have := hR0 hL hJ0 v
      rwa [← hc0] at this
    have h3 : 0 ≤ (4 * d * (c0 + T / 6 * c2) + c0) * (h + ε) * ‖v‖ := by positivity
    have h4 : 0 ≤ 4 * d * (c1 * c0 + c2 / 6) * ε * ‖v‖ := by positivity
    have h5 : 0 ≤ 4 * d * (1 / 4 + 1 / 12 * d) * h * ‖v‖ := by positivity
    nlinarith

/-! ## The map from the Jacobian to the coefficient of the area -/

/-- `A ↦ -2√6 (A/4 - Aᵀ/12)`, as a linear map on continuous linear maps. -/
noncomputable def rosLin (d : ℕ) : (Vec d →L[ℝ] Vec d) →ₗ[ℝ] (Vec d →L[ℝ] Vec d) where
  toFun A := LinearMap.toContinuousLinearMap (Matrix.toLin' ((-2 * Real.sqrt 6) • rosQ0 (LinearMap.toMatrix' (A : Vec d →ₗ[ℝ] Vec d))))
  map_add' A B := by
    rw [← map_add, ← map_add]
    congr 2
    rw [ContinuousLinearMap.coe_add, map_add]
    simp only [rosQ0, transpose_add]
    module
  map_smul' c A := by
    rw [RingHom.id_apply, ← map_smul, ← map_smul]
    congr 2
    rw [ContinuousLinearMap.coe_smul, map_smul]
    simp only [rosQ0, transpose_smul]
    module

theorem rosLin_apply (A : Vec d →L[ℝ] Vec d) (v : Vec d) :
    rosLin d A v = (-2 * Real.sqrt 6) • (rosQ0 (LinearMap.toMatrix' (A : Vec d →ₗ[ℝ] Vec d)) *ᵥ v) := by
  show Matrix.toLin' _ v = _
  rw [toLin'_apply, smul_mulVec]

theorem rosLin_continuous : Continuous (rosLin d) := LinearMap.continuous_of_finiteDimensional _

theorem toMatrix_mulVec (A : Vec d →L[ℝ] Vec d) (v : Vec d) : LinearMap.toMatrix' (A : Vec d →ₗ[ℝ] Vec d) *ᵥ v = A v := by
  rw [LinearMap.toMatrix'_mulVec]; rfl

theorem jac_eq_toMatrix {g : Vec d → Vec d} {A : Vec d →L[ℝ] Vec d} {x : Vec d} (h : HasFDerivAt g A x) :
    jac g x = LinearMap.toMatrix' (A : Vec d →ₗ[ℝ] Vec d) := by
  refine Matrix.ext_iff_mulVec.mpr fun v => ?_
  rw [jac_mulVec h.differentiableAt, h.fderiv, toMatrix_mulVec]

/-! ## One interval -/

theorem jac_additiveField {f : Vec d → ℝ → Vec d} {Df : Vec d → ℝ → Vec d →L[ℝ] Vec d} {T L K : ℝ} (hf : SmoothField f Df T L K)
    (S : Mat d m) {a0 δ t : ℝ} (ht : t + a0 ∈ Icc 0 T) (a b : Vec m) (x : Vec d) :
    jac (fun z => additiveField f S a0 δ a b z t) x = LinearMap.toMatrix' (Df x (t + a0) : Vec d →ₗ[ℝ] Vec d) :=
  jac_eq_toMatrix ((hf.deriv x _ ht).add_const _)

theorem ros_scalar {C L Lt s K T δ H q : ℝ} (hC : 0 ≤ C) (hL : 0 ≤ L) (hLt : 0 ≤ Lt) (hs : 0 ≤ s) (hK : 0 ≤ K) (hδ : 0 < δ) (hδT : δ ≤ T)
    (hH : 1 ≤ H) (hq : 0 ≤ q) :
    δ * (C * (L * (δ * H + s * q) + Lt * H * δ)) + 5 * (C * (δ + K * (δ * H + s * q)) * (s * q)) ≤
      (C * (L + Lt) * T + C * L * s * (T + 1) + 5 * C * s * (T + 1) + 5 * C * s * K * (T + 1) + 5 * C * s * K * s) *
        (δ * H ^ 2 + q ^ 2) := by
  have hT : 0 < T := hδ.trans_le hδT
  have hHH : H ≤ H ^ 2 := by nlinarith
  have h1H : 1 ≤ H ^ 2 := by nlinarith
  have i1 : δ * δ * H ≤ T * (δ * H ^ 2) := by
    calc δ * δ * H ≤ T * δ * H ^ 2 := by gcongr
      _ = _ := by ring
  have h3 : 0 ≤ δ * H ^ 2 + T * q ^ 2 := by positivity
  have i2 : δ * q ≤ (T + 1) * (δ * H ^ 2 + q ^ 2) := by
    have h1 : δ * q ≤ δ ^ 2 + q ^ 2 := by nlinarith [sq_nonneg (δ - q)]
    have h2 : δ ^ 2 ≤ T * (δ * H ^ 2) := by
      calc δ ^ 2 = δ * (δ * 1) := by ring
        _ ≤ T * (δ * H ^ 2) := by gcongr
    linarith
  have i3 : δ * H * q ≤ (T + 1) * (δ * H ^ 2 + q ^ 2) := by
    have h1 : δ * H * q ≤ (δ * H) ^ 2 + q ^ 2 := by nlinarith [sq_nonneg (δ * H - q)]
    have h2 : (δ * H) ^ 2 ≤ T * (δ * H ^ 2) := by
      calc (δ * H) ^ 2 = δ * (δ * H ^ 2) := by ring
        _ ≤ T * (δ * H ^ 2) := by gcongr
    linarith
  have h4 : 0 ≤ T * q ^ 2 := by positivity
  have h5 : 0 ≤ δ * H ^ 2 := by positivity
  have i4 : δ * δ * H ≤ T * (δ * H ^ 2 + q ^ 2) := by linarith
  have i5 : q ^ 2 ≤ δ * H ^ 2 + q ^ 2 := by linarith
  generalize δ * H ^ 2 + q ^ 2 = Z at *
  have j1 := mul_le_mul_of_nonneg_left i4 (by positivity : 0 ≤ C * (L + Lt))
  have j2 := mul_le_mul_of_nonneg_left i2 (by positivity : 0 ≤ C * L * s)
  have j3 := mul_le_mul_of_nonneg_left i2 (by positivity : 0 ≤ 5 * C * s)
  have j4 := mul_le_mul_of_nonneg_left i3 (by positivity : 0 ≤ 5 * C * s * K)
  have j5 := mul_le_mul_of_nonneg_left i5 (by positivity : 0 ≤ 5 * C * s * K * s)
  linarith

/-- The linearly implicit step for the random field of an interval. -/
noncomputable def rosAdd (f : Vec d → ℝ → Vec d) (S : Mat d m) (a0 δ : ℝ) (y : Vec d) (a b : Vec m) : Vec d :=
  let vf := additiveField f S a0 δ a b
  rosStep vf (jac (fun z => vf z δ) (y + δ • vf y 0)) δ y

set_option maxHeartbeats 1000000 in
/-- The linearly implicit step is the trapezoidal step and a term linear in the second coefficient, up to terms of second order, and
it grows at most linearly. -/
theorem ros_expansion {f : Vec d → ℝ → Vec d} {Df : Vec d → ℝ → Vec d →L[ℝ] Vec d} {T L K Lt : ℝ} (hf : SmoothField f Df T L K)
    (hL : 0 ≤ L) (hK : 0 ≤ K) (hLt : 0 ≤ Lt) (hT : 0 ≤ T) (htl : TimeLipschitz f T Lt) {S : Mat d m} {s : ℝ} (hs0 : 0 ≤ s)
    (hS : ∀ v, ‖S *ᵥ v‖ ≤ s * ‖v‖) : ∃ C, 0 ≤ C ∧ ∀ {a0 δ : ℝ}, 0 < δ → 0 ≤ a0 → a0 + δ ≤ T → ∀ (a b : Vec m) (y : Vec d),
      ‖rosAdd f S a0 δ y a b - ((trapScheme (additiveField f S a0 δ a b) δ y 1).1 + δ • rosLin d (Df y (δ + a0)) (S *ᵥ b))‖ ≤
        δ * (C * (δ * (1 + ‖y‖ + ‖f y a0‖) ^ 2 + (‖a‖ + 4 * ‖b‖) ^ 2)) ∧
      ‖rosAdd f S a0 δ y a b - y - S *ᵥ a‖ ≤ δ * (C * (1 + ‖y‖ + (‖a‖ + 4 * ‖b‖))) := by
  obtain ⟨C, hC, hmat⟩ := ros_matrix_bounds d hL hT
  obtain ⟨F0, hF0⟩ := isCompact_Icc.exists_bound_of_continuousOn (s := Icc 0 T) (f := fun t => f 0 t)
    (hf.cont.comp (by fun_prop : Continuous fun t : ℝ => ((0 : Vec d), t))).continuousOn
  have hF00 : 0 ≤ F0 := (norm_nonneg _).trans (hF0 0 ⟨le_rfl, hT⟩)
  obtain ⟨C', hC'⟩ : ∃ C', C' = C * (L + Lt) * T + C * L * s * (T + 1) + 5 * C * s * (T + 1) + 5 * C * s * K * (T + 1) +
      5 * C * s * K * s := ⟨_, rfl⟩
  have hC'0 : 0 ≤ C' := by rw [hC']; positivity
  obtain ⟨g1, hg1⟩ : ∃ g1, g1 = 2 * F0 + L * (T * F0) + L * (2 + T * L) + L * s := ⟨_, rfl⟩
  have hg10 : 0 ≤ g1 := by rw [hg1]; positivity
  obtain ⟨C'', hC''⟩ : ∃ C'', C'' = g1 + C * T * g1 + 5 * C * s := ⟨_, rfl⟩
  have hC''0 : 0 ≤ C'' := by rw [hC'']; positivity
  refine ⟨C' + C'', by positivity, ?_⟩
  intro a0 δ hδ ha haδ a b y
  have hδT : δ ≤ T := by linarith
  have ha0 : a0 ∈ Icc 0 T := ⟨ha, by linarith⟩
  have hδ0 : δ + a0 ∈ Icc 0 T := ⟨by linarith, by linarith⟩
  obtain ⟨q, hq⟩ : ∃ q, q = ‖a‖ + 4 * ‖b‖ := ⟨_, rfl⟩
  have hq0 : 0 ≤ q := by rw [hq]; positivity
  obtain ⟨H, hH⟩ : ∃ H, H = 1 + ‖y‖ + ‖f y a0‖ := ⟨_, rfl⟩
  have hny := norm_nonneg y
  have hnf := norm_nonneg (f y a0)
  have hH1 : 1 ≤ H := by linarith
  rw [← hq, ← hH]
  have h6 : Real.sqrt 6 ≤ 5 / 2 := by rw [Real.sqrt_le_left (by norm_num)]; norm_num
  have h60 : 0 ≤ Real.sqrt 6 := Real.sqrt_nonneg _
  have hbq : ‖b‖ ≤ q := by rw [hq]; linarith [norm_nonneg a, norm_nonneg b]
  -- the field at the ends
  have hp0 : δ • jacT (fun s => Foster.evalParabola s δ a b) 0 = a + Real.sqrt 6 • b := by
    rw [jacT_evalParabola]
    funext j
    simp only [Pi.smul_apply, Pi.add_apply, smul_eq_mul]
    field_simp
    ring
  have hpd : δ • jacT (fun s => Foster.evalParabola s δ a b) δ = a - Real.sqrt 6 • b := by
    rw [jacT_evalParabola]
    funext j
    simp only [Pi.smul_apply, Pi.sub_apply, smul_eq_mul]
    field_simp
    ring
  obtain ⟨vf, hvf⟩ : ∃ vf, vf = additiveField f S a0 δ a b := ⟨_, rfl⟩
  obtain ⟨z, hz⟩ : ∃ z, z = y + δ • vf y 0 := ⟨_, rfl⟩
  have hv0 : δ • vf y 0 = δ • f y a0 + S *ᵥ (a + Real.sqrt 6 • b) := by
    rw [hvf, ← hp0, mulVec_smul, ← smul_add]
    simp only [additiveField, zero_add]
  have hv1 : δ • vf z δ = δ • f z (δ + a0) + S *ᵥ (a - Real.sqrt 6 • b) := by
    rw [hvf, ← hpd, mulVec_smul, ← smul_add]
    simp only [additiveField]
  obtain ⟨g, hg⟩ : ∃ g, g = f z (δ + a0) - f y a0 := ⟨_, rfl⟩
  have hu : δ • (vf z δ - vf y 0) = δ • g + (-2 * Real.sqrt 6) • (S *ᵥ b) := by
    rw [smul_sub, hv0, hv1, hg, mulVec_add, mulVec_sub, mulVec_smul]
    module
  have hzy : z - y = δ • f y a0 + S *ᵥ (a + Real.sqrt 6 • b) := by rw [hz, hv0]; abel
  have hab : ‖a + Real.sqrt 6 • b‖ ≤ q := by
    refine (norm_add_le _ _).trans ?_
    rw [norm_smul, Real.norm_of_nonneg h60, hq]
    nlinarith [norm_nonneg b]
  have hzn : ‖z - y‖ ≤ δ * ‖f y a0‖ + s * q := by
    rw [hzy]
    refine (norm_add_le _ _).trans (add_le_add (by rw [norm_smul, Real.norm_of_nonneg hδ.le]) ?_)
    exact (hS _).trans (mul_le_mul_of_nonneg_left hab hs0)
  have hzH : ‖z - y‖ ≤ δ * H + s * q := hzn.trans (by nlinarith)
  -- the Jacobians
  obtain ⟨J, hJdef⟩ : ∃ J, J = LinearMap.toMatrix' (Df z (δ + a0) : Vec d →ₗ[ℝ] Vec d) := ⟨_, rfl⟩
  obtain ⟨J0, hJ0def⟩ : ∃ J0, J0 = LinearMap.toMatrix' (Df y (δ + a0) : Vec d →ₗ[ℝ] Vec d) := ⟨_, rfl⟩
  have hJ : ∀ v, ‖J *ᵥ v‖ ≤ L * ‖v‖ := fun v => by
    rw [hJdef, toMatrix_mulVec]
    exact ((Df z (δ + a0)).le_opNorm v).trans (mul_le_mul_of_nonneg_right (hf.norm_jac_le hL hδ0 _) (norm_nonneg _))
  have hJ0 : ∀ v, ‖J0 *ᵥ v‖ ≤ L * ‖v‖ := fun v => by
    rw [hJ0def, toMatrix_mulVec]
    exact ((Df y (δ + a0)).le_opNorm v).trans (mul_le_mul_of_nonneg_right (hf.norm_jac_le hL hδ0 _) (norm_nonneg _))
  have hJJ : ∀ v, ‖(J - J0) *ᵥ v‖ ≤ K * (δ * H + s * q) * ‖v‖ := fun v => by
    rw [sub_mulVec, hJdef, hJ0def, toMatrix_mulVec, toMatrix_mulVec, ← ContinuousLinearMap.sub_apply]
    refine ((Df z (δ + a0) - Df y (δ + a0)).le_opNorm v).trans (mul_le_mul_of_nonneg_right ?_ (norm_nonneg _))
    have h1 := hf.jac z y _ hδ0 _ hδ0
    rw [sub_self, abs_zero, add_zero] at h1
    exact h1.trans (mul_le_mul_of_nonneg_left hzH hK)
  obtain ⟨hm1, -, hm3⟩ := hmat hδ.le hδT hJ
  have hm3' := hm3 (J0 := J0) (ε := K * (δ * H + s * q)) (by positivity) hJ0 hJJ
  obtain ⟨G, hG⟩ : ∃ G : Vec d → Vec d, ∀ v, G v = (rosW δ J)⁻¹ *ᵥ (rosQ δ J *ᵥ v) := ⟨_, fun _ => rfl⟩
  simp only [← hG] at hm1 hm3'
  have hGadd : ∀ v v', G (v + v') = G v + G v' := fun v v' => by simp only [hG, mulVec_add]
  have hGs : ∀ (c : ℝ) v, G (c • v) = c • G v := fun c v => by simp only [hG, mulVec_smul]
  have hstep : rosAdd f S a0 δ y a b = (trapScheme vf δ y 1).1 + δ • G (δ • g + (-2 * Real.sqrt 6) • (S *ᵥ b)) := by
    have h1 := rosStep_sub vf J δ y
    rw [← hz, ← hG] at h1
    rw [← hu, hGs, smul_smul, ← sq, ← h1, rosAdd]
    simp only [← hvf, ← hz]
    rw [hJdef, ← jac_additiveField hf S hδ0 a b z, ← hvf]
  have hgn : ‖g‖ ≤ L * (δ * H + s * q) + Lt * H * δ := by
    rw [hg, show f z (δ + a0) - f y a0 = (f z (δ + a0) - f y (δ + a0)) + (f y (δ + a0) - f y a0) by abel]
    refine (norm_add_le _ _).trans (add_le_add ((hf.lip z y _ hδ0).trans (mul_le_mul_of_nonneg_left hzH hL)) ?_)
    have h1 := htl y _ hδ0 _ ha0
    rw [add_sub_cancel_right, abs_of_pos hδ] at h1
    refine h1.trans (mul_le_mul_of_nonneg_right (mul_le_mul_of_nonneg_left (by linarith) hLt) hδ.le)
  have hc6 : |(-2 * Real.sqrt 6)| ≤ 5 := by
    rw [abs_mul, abs_of_nonneg h60]
    norm_num
    linarith
  have hSb : ‖S *ᵥ b‖ ≤ s * q := (hS b).trans (mul_le_mul_of_nonneg_left hbq hs0)
  constructor
  · rw [hstep, ← hvf]
    have e : (trapScheme vf δ y 1).1 + δ • G (δ • g + (-2 * Real.sqrt 6) • (S *ᵥ b)) -
        ((trapScheme vf δ y 1).1 + δ • rosLin d (Df y (δ + a0)) (S *ᵥ b)) =
        δ • (δ • G g + (-2 * Real.sqrt 6) • (G (S *ᵥ b) - rosQ0 J0 *ᵥ (S *ᵥ b))) := by
      rw [rosLin_apply, ← hJ0def, hGadd, hGs, hGs]
      module
    rw [e, norm_smul, Real.norm_of_nonneg hδ.le]
    refine mul_le_mul_of_nonneg_left ?_ hδ.le
    refine (norm_add_le _ _).trans ?_
    rw [norm_smul, norm_smul, Real.norm_of_nonneg hδ.le, Real.norm_eq_abs]
    have t1 : δ * ‖G g‖ ≤ δ * (C * (L * (δ * H + s * q) + Lt * H * δ)) :=
      mul_le_mul_of_nonneg_left ((hm1 g).trans (mul_le_mul_of_nonneg_left hgn hC)) hδ.le
    have t2 : |(-2 * Real.sqrt 6)| * ‖G (S *ᵥ b) - rosQ0 J0 *ᵥ (S *ᵥ b)‖ ≤ 5 * (C * (δ + K * (δ * H + s * q)) * (s * q)) := by
      refine mul_le_mul hc6 ((hm3' _).trans (mul_le_mul_of_nonneg_left hSb (by positivity))) (norm_nonneg _) (by norm_num)
    refine (add_le_add t1 t2).trans ((ros_scalar hC hL hLt hs0 hK hδ hδT hH1 hq0).trans ?_)
    rw [← hC']
    exact mul_le_mul_of_nonneg_right (by linarith) (by positivity)
  · have e1 : (trapScheme vf δ y 1).1 = y + S *ᵥ a + (δ / 2) • (f y a0 + f z (δ + a0)) := by
      have h1 : (trapScheme vf δ y 1).1 = y + (δ / 2) • (vf y 0 + vf z δ) := by
        rw [hz]
        simp [trapScheme]
      have h2 : (δ / 2) • (vf y 0 + vf z δ) = (1 / 2 : ℝ) • (δ • vf y 0 + δ • vf z δ) := by module
      rw [h1, h2, hv0, hv1, mulVec_add, mulVec_sub]
      module
    have hfb : ∀ x, ∀ t ∈ Icc 0 T, ‖f x t‖ ≤ F0 + L * ‖x‖ := fun x t ht => by
      have h1 := hf.lip x 0 t ht
      have h2 := hF0 t ht
      rw [sub_zero] at h1
      have h3 := norm_le_norm_add_norm_sub' (f x t) (f 0 t)
      linarith
    have hfy := hfb y a0 ha0
    have hzb : ‖z‖ ≤ ‖y‖ + T * (F0 + L * ‖y‖) + s * q := by
      have h1 := norm_le_norm_add_norm_sub' z y
      have h2 : δ * ‖f y a0‖ ≤ T * (F0 + L * ‖y‖) := mul_le_mul hδT hfy (norm_nonneg _) hT
      linarith
    have hfz : ‖f y a0‖ + ‖f z (δ + a0)‖ ≤ g1 * (1 + ‖y‖ + q) := by
      have h1 := hfb z _ hδ0
      have h2 := mul_le_mul_of_nonneg_left hzb hL
      rw [hg1]
      have i1 : 0 ≤ (2 * F0 + L * (T * F0) + L * s) * ‖y‖ := by positivity
      have i2 : 0 ≤ (2 * F0 + L * (T * F0) + L * (2 + T * L)) * q := by positivity
      have i3 : 0 ≤ L * (2 + T * L) + L * s := by positivity
      linarith
    have hgz : ‖g‖ ≤ g1 * (1 + ‖y‖ + q) := by
      rw [hg]
      refine (norm_sub_le _ _).trans ?_
      linarith
    rw [hstep, e1]
    have e : y + S *ᵥ a + (δ / 2) • (f y a0 + f z (δ + a0)) + δ • G (δ • g + (-2 * Real.sqrt 6) • (S *ᵥ b)) - y - S *ᵥ a =
        δ • ((1 / 2 : ℝ) • (f y a0 + f z (δ + a0)) + (δ • G g + (-2 * Real.sqrt 6) • G (S *ᵥ b))) := by
      rw [hGadd, hGs, hGs]
      module
    rw [e, norm_smul, Real.norm_of_nonneg hδ.le]
    refine mul_le_mul_of_nonneg_left ?_ hδ.le
    refine (norm_add_le _ _).trans ?_
    have t0 : ‖(1 / 2 : ℝ) • (f y a0 + f z (δ + a0))‖ ≤ g1 * (1 + ‖y‖ + q) := by
      rw [norm_smul, Real.norm_of_nonneg (by norm_num)]
      have := norm_add_le (f y a0) (f z (δ + a0))
      have h0 : 0 ≤ g1 * (1 + ‖y‖ + q) := by positivity
      linarith
    have t1 : ‖δ • G g + (-2 * Real.sqrt 6) • G (S *ᵥ b)‖ ≤ T * (C * (g1 * (1 + ‖y‖ + q))) + 5 * (C * (s * q)) := by
      refine (norm_add_le _ _).trans ?_
      rw [norm_smul, norm_smul, Real.norm_of_nonneg hδ.le, Real.norm_eq_abs]
      refine add_le_add (mul_le_mul hδT ((hm1 g).trans (mul_le_mul_of_nonneg_left hgz hC)) (norm_nonneg _) hT) ?_
      exact mul_le_mul hc6 ((hm1 _).trans (mul_le_mul_of_nonneg_left hSb hC)) (norm_nonneg _) (by norm_num)
    have t2 : 0 ≤ C' * (1 + ‖y‖ + q) := by positivity
    have t3 : 0 ≤ 5 * C * s * (1 + ‖y‖) := by positivity
    have e5 : C'' * (1 + ‖y‖ + q) = g1 * (1 + ‖y‖ + q) + (T * (C * (g1 * (1 + ‖y‖ + q))) + 5 * (C * (s * q))) +
        5 * C * s * (1 + ‖y‖) := by rw [hC'']; ring
    have e6 : (C' + C'') * (1 + ‖y‖ + q) = C' * (1 + ‖y‖ + q) + C'' * (1 + ‖y‖ + q) := by ring
    linarith

end Verif
