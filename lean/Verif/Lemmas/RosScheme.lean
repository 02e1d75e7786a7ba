import Verif.Spec.RosScheme
import Verif.Props.RosEkf

/-! Helper lemmas: the steps of EKF1 from an uncertain state. -/

namespace Verif

open Matrix Spec Jnp

namespace Ekf

variable {dim : ℕ}

theorem kron_E' (a b c d : ℝ) : kron (1 : Mat dim dim) (!![a, b; c, d] : Mat (0 + 2) (0 + 2)) =
    (E 0 : Mat dim (dim * (0 + 2)))ᵀ * (a • E 0 + b • E 1) + (E 1 : Mat dim (dim * (0 + 2)))ᵀ * (c • E 0 + d • E 1) := by
  ext u w
  rw [← flat_div_mod u, ← flat_div_mod w]
  generalize u.divNat = i
  generalize w.divNat = j
  generalize u.modNat = s
  generalize w.modNat = t
  rw [kron_flat, Matrix.add_apply, mul_apply, mul_apply]
  simp only [transpose_apply, E_flat, Matrix.add_apply, Matrix.smul_apply, smul_eq_mul, Matrix.one_apply]
  have hs : s = 0 ∨ s = 1 := by fin_cases s <;> simp
  have ht : t = 0 ∨ t = 1 := by fin_cases t <;> simp
  rcases hs with rfl | rfl <;> rcases ht with rfl | rfl <;> by_cases hij : i = j <;> simp [hij, eq_comm]

local notation "E₀" => (E 0 : Mat dim (dim * (0 + 2)))
local notation "E₁" => (E 1 : Mat dim (dim * (0 + 2)))

theorem kron_obs (p q r : ℝ) (J : Mat dim dim) : kron (1 : Mat dim dim) (!![p, q; q, r] : Mat (0 + 2) (0 + 2)) * (E₁ - J * E₀)ᵀ =
    E₀ᵀ * (q • (1 : Mat dim dim) - p • Jᵀ) + E₁ᵀ * (r • (1 : Mat dim dim) - q • Jᵀ) := by
  rw [kron_E, transpose_sub, transpose_mul]
  simp only [Matrix.add_mul, Matrix.mul_sub, Matrix.mul_add, Matrix.mul_assoc, Matrix.smul_mul, Matrix.mul_smul, Matrix.mul_one]
  simp only [← Matrix.mul_assoc E₀ E₀ᵀ, ← Matrix.mul_assoc E₀ E₁ᵀ, ← Matrix.mul_assoc E₁ E₀ᵀ,
    ← Matrix.mul_assoc E₁ E₁ᵀ, E00, E01, E10, E11, Matrix.one_mul, Matrix.zero_mul, Matrix.mul_one, Matrix.mul_zero]
  module

theorem E_resolution : E₀ᵀ * E₀ + E₁ᵀ * E₁ = 1 := by
  have h := kron_E' (dim := dim) 1 0 0 1
  have h1 : (!![1, 0; 0, 1] : Mat (0 + 2) (0 + 2)) = 1 := by
    ext i j
    fin_cases i <;> fin_cases j <;> rfl
  rw [h1] at h
  simp only [one_smul, zero_smul, add_zero, zero_add] at h
  rw [← h, kron_one_one]

theorem E_obs (J : Mat dim dim) (X : Mat dim dim) : (E₁ - J * E₀) * (E₀ᵀ * X) = -(J * X) := by
  rw [Matrix.sub_mul, ← Matrix.mul_assoc, E10, Matrix.zero_mul, Matrix.mul_assoc J, ← Matrix.mul_assoc E₀, E00, Matrix.one_mul, zero_sub]

theorem E_obs' (J : Mat dim dim) (X : Mat dim dim) : (E₁ - J * E₀) * (E₁ᵀ * X) = X := by
  rw [Matrix.sub_mul, ← Matrix.mul_assoc, E11, Matrix.one_mul, Matrix.mul_assoc J, ← Matrix.mul_assoc E₀, E01, Matrix.zero_mul,
    Matrix.mul_zero, sub_zero]

/-- A symmetric matrix without uncertainty along the observation is that of the solution, lifted. -/
theorem eq_lift {J : Mat dim dim} {P : Mat (dim * (0 + 2)) (dim * (0 + 2))} (hP : Pᵀ = P) (h : (E₁ - J * E₀) * P = 0) :
    P = lift J * (E₀ * P * E₀ᵀ) * (lift J)ᵀ := by
  have h1 : E₁ * P = J * (E₀ * P) := by
    rw [Matrix.sub_mul, sub_eq_zero] at h
    rw [h, Matrix.mul_assoc]
  have h2 : P = lift J * (E₀ * P) := by
    conv_lhs => rw [← Matrix.one_mul P, ← E_resolution, Matrix.add_mul, Matrix.mul_assoc, Matrix.mul_assoc, h1]
    rw [lift_E, Matrix.add_mul, Matrix.mul_assoc]
  have h3 : E₀ * P = E₀ * P * E₀ᵀ * (lift J)ᵀ := by
    have := congrArg transpose h2
    rw [hP, transpose_mul, transpose_mul, hP] at this
    conv_lhs => rw [this]
    simp only [Matrix.mul_assoc]
  conv_lhs => rw [h2, h3]
  simp only [Matrix.mul_assoc]

set_option maxHeartbeats 1000000 in
/-- The update of EKF1 after a prediction from a state that is uncertain along the lifted Jacobian. -/
theorem update_ros {la : LinAlg} (hla : la.Correct) {σ h : ℝ} (hσ : σ ≠ 0) (hh : 0 < h) (J J' : Mat dim dim) {C : Mat dim dim} (hC : C.PosSemidef)
    (y v c : Vec dim) :
    let A := kron (1 : Mat dim dim) (!![1, h; 0, 1] : Mat (0 + 2) (0 + 2))
    let Q := kron (1 : Mat dim dim) (!![σ ^ 2 * (h ^ 3 / 3), σ ^ 2 * (h ^ 2 / 2); σ ^ 2 * (h ^ 2 / 2), σ ^ 2 * h] : Mat (0 + 2) (0 + 2))
    let e := rosGain h J C J' *ᵥ c
    (KF.update la ⟨interlace ![y, v], A * ((σ ^ 2 * h ^ 3) • (lift J * C * (lift J)ᵀ)) * Aᵀ + Q⟩ c (E₁ - J' * E₀) 0 false).1 =
      ⟨interlace ![y - e, v - c - J' *ᵥ e], (σ ^ 2 * h ^ 3) • (lift J' * rosCov h J C J' * (lift J')ᵀ)⟩ ∧ (rosCov h J C J').PosSemidef := by
  intro A' Q' e
  obtain ⟨A, hAdef⟩ : ∃ A, A = kron (1 : Mat dim dim) (!![1, h; 0, 1] : Mat (0 + 2) (0 + 2)) := ⟨_, rfl⟩
  obtain ⟨Q, hQdef⟩ : ∃ Q, Q = kron (1 : Mat dim dim)
    (!![σ ^ 2 * (h ^ 3 / 3), σ ^ 2 * (h ^ 2 / 2); σ ^ 2 * (h ^ 2 / 2), σ ^ 2 * h] : Mat (0 + 2) (0 + 2)) := ⟨_, rfl⟩
  rw [show A' = A from hAdef.symm, show Q' = Q from hQdef.symm]
  have hσ2 : 0 < σ ^ 2 := by positivity
  obtain ⟨P, hPdef⟩ : ∃ P, P = A * ((σ ^ 2 * h ^ 3) • (lift J * C * (lift J)ᵀ)) * Aᵀ + Q := ⟨_, rfl⟩
  rw [← hPdef]
  have hQ : Q.PosDef := by
    have hQp := Ekf.ibm_Q_posDef hσ 1 hh dim
    have hQ : (IOUP.transition 0 σ 1 h dim).Q = Q := by
      rw [hQdef, ← Ekf.ibm1_Q]; rfl
    rwa [hQ] at hQp
  have hPd : P.PosDef := by
    rw [hPdef]
    exact PosDef.posSemidef_add (psd_mul_mul_transpose ((psd_mul_mul_transpose hC _).smul (by positivity)) A) hQ
  have hPs : Pᵀ = P := psd_symm hPd.posSemidef
  have hr : ∀ x : Vec dim, (E₁ - J' * E₀)ᵀ *ᵥ x = 0 → x = 0 := fun x hx => by
    have h1 : E₁ * (E₁ - J' * E₀)ᵀ = 1 := by
      rw [transpose_sub, transpose_mul, Matrix.mul_sub, E11, ← Matrix.mul_assoc, E10, Matrix.zero_mul, sub_zero]
    rw [← one_mulVec x, ← h1, ← mulVec_mulVec, hx, mulVec_zero]
  have hS : (innovCov P (E₁ - J' * E₀) (0 : Mat dim dim)).PosDef := Ekf.innov_posDef hPd PosSemidef.zero hr
  -- the blocks
  have hA : A * lift J = E₀ᵀ * (1 + h • J) + E₁ᵀ * J := by
    rw [hAdef, kron_E', lift_E]
    simp only [Matrix.add_mul, Matrix.mul_add, Matrix.mul_assoc, Matrix.smul_mul, Matrix.mul_smul, one_smul, zero_smul, zero_add,
      Matrix.mul_one]
    simp only [← Matrix.mul_assoc E₀ E₀ᵀ, ← Matrix.mul_assoc E₀ E₁ᵀ, ← Matrix.mul_assoc E₁ E₀ᵀ,
      ← Matrix.mul_assoc E₁ E₁ᵀ, E00, E01, E10, E11, Matrix.one_mul, Matrix.zero_mul, Matrix.mul_one, Matrix.mul_zero]
    module
  have hD : (E₁ - J' * E₀) * (A * lift J) = rosD h J J' := by
    rw [hA, Matrix.mul_add, E_obs, E_obs', rosD]
    abel
  have hPH : P * (E₁ - J' * E₀)ᵀ = (σ ^ 2 * h ^ 3) • (A * lift J * C * (rosD h J J')ᵀ) + (E₀ᵀ * ((σ ^ 2 * (h ^ 2 / 2)) • (1 : Mat dim dim) -
      (σ ^ 2 * (h ^ 3 / 3)) • J'ᵀ) + E₁ᵀ * ((σ ^ 2 * h) • (1 : Mat dim dim) - (σ ^ 2 * (h ^ 2 / 2)) • J'ᵀ)) := by
    rw [hPdef, Matrix.add_mul]
    congr 1
    · rw [← hD, transpose_mul, transpose_mul]
      simp only [Matrix.mul_smul, Matrix.smul_mul, Matrix.mul_assoc]
    · rw [hQdef]
      exact kron_obs _ _ _ J'
  have hI : innovCov P (E₁ - J' * E₀) (0 : Mat dim dim) = (σ ^ 2 * h) • rosInn h J C J' := by
    rw [innovCov, Matrix.mul_assoc, hPH, add_zero, Matrix.mul_add, Matrix.mul_smul, Matrix.mul_add, E_obs, E_obs',
      ← Matrix.mul_assoc, ← Matrix.mul_assoc, hD, rosInn, rosW, transpose_transpose]
    simp only [Matrix.mul_sub, Matrix.mul_smul, Matrix.mul_one, smul_add, smul_sub, smul_smul]
    module
  have hIu : IsUnit (rosInn h J C J').det := by
    have h1 := pd_isUnit_det hS
    rw [hI, det_smul] at h1
    exact isUnit_of_mul_isUnit_right h1
  have hinv : (innovCov P (E₁ - J' * E₀) (0 : Mat dim dim))⁻¹ = (σ ^ 2 * h)⁻¹ • (rosInn h J C J')⁻¹ := by
    rw [hI]
    refine inv_eq_right_inv ?_
    rw [Matrix.smul_mul, Matrix.mul_smul, smul_smul, mul_inv_cancel₀ (by positivity), one_smul, mul_nonsing_inv _ hIu]
  obtain ⟨K, hK⟩ : ∃ K, K = gain P (E₁ - J' * E₀) (0 : Mat dim dim) := ⟨_, rfl⟩
  have hKS : K * innovCov P (E₁ - J' * E₀) (0 : Mat dim dim) = P * (E₁ - J' * E₀)ᵀ := by rw [hK]; exact KF.gain_mul_innov hS
  have hE0 : E₀ * (A * lift J) = 1 + h • J := by
    rw [hA, Matrix.mul_add, ← Matrix.mul_assoc, E00, Matrix.one_mul, ← Matrix.mul_assoc, E01, Matrix.zero_mul, add_zero]
  have hK0 : E₀ * K = rosGain h J C J' := by
    rw [hK, gain, hPH, hinv, rosGain, Matrix.mul_smul, Matrix.mul_smul, ← Matrix.mul_assoc, ← Matrix.smul_mul]
    congr 1
    rw [Matrix.mul_add, Matrix.mul_add, Matrix.mul_smul, ← Matrix.mul_assoc, ← Matrix.mul_assoc, hE0, ← Matrix.mul_assoc E₀, E00,
      Matrix.one_mul, ← Matrix.mul_assoc E₀, E01, Matrix.zero_mul, add_zero, smul_add, smul_sub, smul_smul, smul_smul, smul_smul]
    have e1 : (σ ^ 2 * h)⁻¹ * (σ ^ 2 * h ^ 3) = h ^ 2 := by field_simp
    have e2 : (σ ^ 2 * h)⁻¹ * (σ ^ 2 * (h ^ 2 / 2)) = h / 2 := by field_simp
    have e3 : (σ ^ 2 * h)⁻¹ * (σ ^ 2 * (h ^ 3 / 3)) = h ^ 2 / 3 := by field_simp
    rw [e1, e2, e3, add_comm]
  have hHK : (E₁ - J' * E₀) * K = 1 := by
    have h1 : (E₁ - J' * E₀) * (P * (E₁ - J' * E₀)ᵀ) = innovCov P (E₁ - J' * E₀) (0 : Mat dim dim) := by
      rw [innovCov, add_zero, Matrix.mul_assoc]
    rw [hK, gain, ← Matrix.mul_assoc, h1, mul_nonsing_inv _ (pd_isUnit_det hS)]
  have hK1 : E₁ * K = 1 + J' * rosGain h J C J' := by
    rw [Matrix.sub_mul, Matrix.mul_assoc, hK0, sub_eq_iff_eq_add] at hHK
    exact hHK
  have hKe : K = E₀ᵀ * rosGain h J C J' + E₁ᵀ * (1 + J' * rosGain h J C J') := by
    conv_lhs => rw [← Matrix.one_mul K, ← E_resolution, Matrix.add_mul, Matrix.mul_assoc, Matrix.mul_assoc, hK0, hK1]
  obtain ⟨P', hP'⟩ : ∃ P', P' = postCov P (E₁ - J' * E₀) (0 : Mat dim dim) := ⟨_, rfl⟩
  have hP'p : P'.PosSemidef := by rw [hP']; exact KF.postCov_psd hPd.posSemidef PosSemidef.zero hS
  have hKSK : K * innovCov P (E₁ - J' * E₀) (0 : Mat dim dim) * Kᵀ = K * ((E₁ - J' * E₀) * P) := by
    rw [Matrix.mul_assoc, hK, KF.innov_mul_gain hPs hS]
  have hP'0 : (E₁ - J' * E₀) * P' = 0 := by
    rw [hP', postCov, ← hK, hKSK, Matrix.mul_sub, ← Matrix.mul_assoc _ K, hHK, Matrix.one_mul, sub_self]
  have hP'c : E₀ * P' * E₀ᵀ = (σ ^ 2 * h ^ 3) • rosCov h J C J' := by
    have h1 : E₀ * P * E₀ᵀ = (σ ^ 2 * h ^ 3) • ((1 + h • J) * C * (1 + h • J)ᵀ) + (σ ^ 2 * (h ^ 3 / 3)) • (1 : Mat dim dim) := by
      rw [hPdef, Matrix.mul_add, Matrix.add_mul]
      congr 1
      · rw [← hE0, transpose_mul, transpose_mul]
        simp only [Matrix.mul_smul, Matrix.smul_mul, Matrix.mul_assoc]
      · rw [hQdef, kron_E, Matrix.mul_add, ← Matrix.mul_assoc, ← Matrix.mul_assoc, E00, E01, Matrix.one_mul, Matrix.zero_mul, add_zero, Matrix.add_mul,
          Matrix.smul_mul, Matrix.smul_mul, E00, E10, smul_zero, add_zero]
    have h2 : E₀ * (K * innovCov P (E₁ - J' * E₀) (0 : Mat dim dim) * Kᵀ) * E₀ᵀ =
        (σ ^ 2 * h) • (rosGain h J C J' * rosInn h J C J' * (rosGain h J C J')ᵀ) := by
      rw [hI, ← hK0, transpose_mul]
      simp only [Matrix.mul_smul, Matrix.smul_mul, Matrix.mul_assoc]
    rw [hP', postCov, ← hK, Matrix.mul_sub, Matrix.sub_mul, h1, h2, rosCov, smul_sub, smul_add, smul_smul, smul_smul]
    have e1 : σ ^ 2 * h ^ 3 * (1 / 3) = σ ^ 2 * (h ^ 3 / 3) := by ring
    have e2 : σ ^ 2 * h ^ 3 * (h ^ 2)⁻¹ = σ ^ 2 * h := by field_simp
    rw [e1, e2]
  constructor
  · rw [KF.update_cov_eq hla ⟨interlace ![y, v], P⟩ c (E₁ - J' * E₀) 0 hPs hS]
    refine Gauss.ext ?_ ?_
    · simp only [postMean]
      rw [← hK, hKe, interlace_E, interlace_E, Matrix.add_mulVec, ← mulVec_mulVec, ← mulVec_mulVec, Matrix.add_mulVec, one_mulVec,
        ← mulVec_mulVec]
      simp only [cons_val_zero, cons_val_one, cons_val_fin_one, mulVec_sub, mulVec_add]
      show _ = _ - _ *ᵥ (rosGain h J C J' *ᵥ c) + (_ - _ - _ *ᵥ (J' *ᵥ (rosGain h J C J' *ᵥ c)))
      abel
    · show postCov P (E₁ - J' * E₀) (0 : Mat dim dim) = _
      rw [← hP', eq_lift (psd_symm hP'p) hP'0, hP'c, Matrix.mul_smul, Matrix.smul_mul]
  · have h1 := (psd_mul_mul_transpose hP'p E₀).smul (inv_nonneg.mpr (by positivity : (0 : ℝ) ≤ σ ^ 2 * h ^ 3))
    rwa [hP'c, smul_smul, inv_mul_cancel₀ (by positivity), one_smul] at h1

/-- The states of EKF1 in covariance mode. -/
theorem ekf_ros {la : LinAlg} (hla : la.Correct) (vf : Field dim) (hf : ∀ t, Differentiable ℝ fun x => vf x t) {σ h : ℝ} (hσ : σ ≠ 0)
    (hh : 0 < h) (s0 : RosState dim) (hC : s0.C.PosSemidef) (N : ℕ) :
    KF.ekf la ⟨interlace ![s0.x, s0.v], (σ ^ 2 * h ^ 3) • (lift s0.J * s0.C * (lift s0.J)ᵀ)⟩ (obsFn (r := 0) false vf)
        (IOUP.transition 0 σ 1 h dim).A (IOUP.transition 0 σ 1 h dim).Q 0 0 (linspace h (N * h) N) false =
      ⟨interlace ![(rosScheme vf h s0 N).x, (rosScheme vf h s0 N).v],
        (σ ^ 2 * h ^ 3) • (lift (rosScheme vf h s0 N).J * (rosScheme vf h s0 N).C * (lift (rosScheme vf h s0 N).J)ᵀ)⟩ ∧
      (rosScheme vf h s0 N).C.PosSemidef := by
  have hA : (IOUP.transition 0 σ 1 h dim).A = kron (1 : Mat dim dim) (!![1, h; 0, 1] : Mat (0 + 2) (0 + 2)) := by
    rw [← Ekf.ibm1_A]; rfl
  have hQ : (IOUP.transition 0 σ 1 h dim).Q = kron (1 : Mat dim dim)
      (!![σ ^ 2 * (h ^ 3 / 3), σ ^ 2 * (h ^ 2 / 2); σ ^ 2 * (h ^ 2 / 2), σ ^ 2 * h] : Mat (0 + 2) (0 + 2)) := by
    rw [← Ekf.ibm1_Q]; rfl
  rw [Ekf.linspace_ts]
  induction N with
  | zero => exact ⟨rfl, hC⟩
  | succ N ih =>
    obtain ⟨ih1, ih2⟩ := ih
    set s := rosScheme vf h s0 N with hs
    set z := s.x + h • s.v with hz
    set t : ℝ := (N + 1) * h with ht
    set J' := jac (fun x => vf x t) z with hJ'
    have hpred : KF.predict la ⟨interlace ![s.x, s.v], (σ ^ 2 * h ^ 3) • (lift s.J * s.C * (lift s.J)ᵀ)⟩ (IOUP.transition 0 σ 1 h dim).A
        (IOUP.transition 0 σ 1 h dim).Q 0 false = ⟨interlace ![z, s.v], kron (1 : Mat dim dim) (!![1, h; 0, 1] : Mat (0 + 2) (0 + 2)) *
          ((σ ^ 2 * h ^ 3) • (lift s.J * s.C * (lift s.J)ᵀ)) * (kron (1 : Mat dim dim) (!![1, h; 0, 1] : Mat (0 + 2) (0 + 2)))ᵀ +
          kron (1 : Mat dim dim) (!![σ ^ 2 * (h ^ 3 / 3), σ ^ 2 * (h ^ 2 / 2); σ ^ 2 * (h ^ 2 / 2), σ ^ 2 * h] : Mat (0 + 2) (0 + 2))⟩ := by
      refine Gauss.ext ?_ ?_
      · simp only [KF.predict, Bool.false_eq_true, if_false, add_zero, hA]
        refine (Ekf.kron_one_mulVec _ _).trans ?_
        congr 1
        funext s
        refine (Fin.sum_univ_two _).trans ?_
        fin_cases s <;> simp [hz]
      · simp only [KF.predict, Bool.false_eq_true, if_false, hQ, hA]
    have hJ : jac (fun w => Ekf.obsFn (r := 0) false vf w (interlace ![z, s.v]) t) (interlace ![z, s.v]) = Ekf.E 1 - J' * Ekf.E 0 := by
      rw [Ekf.jac_ekf1 vf _ _ t (hf t _), stride_interlace]
      rfl
    have hc : Ekf.obsFn (r := 0) false vf (interlace ![z, s.v]) (interlace ![z, s.v]) t = s.v - vf z t := by
      simp only [Ekf.obsFn, Bool.false_eq_true, if_false, stride_interlace]
      rfl
    have hu := update_ros hla hσ hh s.J J' ih2 z s.v (s.v - vf z t)
    dsimp only at hu
    obtain ⟨hu1, hu2⟩ := hu
    have hnew : rosScheme vf h s0 (N + 1) = ⟨z + rosGain h s.J s.C J' *ᵥ (vf z t - s.v), vf z t + J' *ᵥ (rosGain h s.J s.C J' *ᵥ (vf z t - s.v)), J',
        rosCov h s.J s.C J'⟩ := rfl
    have e1 : rosGain h s.J s.C J' *ᵥ (s.v - vf z t) = -(rosGain h s.J s.C J' *ᵥ (vf z t - s.v)) := by
      rw [← mulVec_neg, neg_sub]
    rw [hnew]
    refine ⟨?_, hu2⟩
    rw [List.range_succ, List.map_append, KF.ekf_append, ih1, List.map_cons, List.map_nil, KF.ekf_cons, KF.ekf_nil]
    simp only [KF.step, hpred, hJ, hc, ← ht]
    rw [hu1, e1, sub_neg_eq_add, mulVec_neg, sub_neg_eq_add, sub_sub_cancel]

/-- EKF1 in both modes. -/
theorem solver_rosScheme {la : LinAlg} (hla : la.Correct) (vf : Field dim) (hf : ∀ t, Differentiable ℝ fun x => vf x t) {σ h : ℝ} (hσ : σ ≠ 0)
    (hh : 0 < h) (s0 : RosState dim) (hC : s0.C.PosSemidef) (N : ℕ) (sqrt : Bool) (init : Gauss (dim * (0 + 2)))
    (hm : init.mean = interlace ![s0.x, s0.v]) (hP : covOf sqrt init = (σ ^ 2 * h ^ 3) • (lift s0.J * s0.C * (lift s0.J)ᵀ)) :
    ∃ f, solver la init vf h N sqrt false (some ⟨_, IOUP.transition 0 σ 1 h dim⟩) none = .ok f ∧
      f.mean = interlace ![(rosScheme vf h s0 N).x, (rosScheme vf h s0 N).v] ∧
      covOf sqrt f = (σ ^ 2 * h ^ 3) • (lift (rosScheme vf h s0 N).J * (rosScheme vf h s0 N).C * (lift (rosScheme vf h s0 N).J)ᵀ) := by
  have hrun := (ekf_ros hla vf hf hσ hh s0 hC N).1
  refine ⟨_, Ekf.solver_some (r := 0) la _ vf h N sqrt false (IOUP.transition 0 σ 1 h dim), ?_⟩
  have h0 : (IOUP.transition 0 σ 1 h dim).xi = 0 := rfl
  cases sqrt
  · have hi : init = ⟨interlace ![s0.x, s0.v], (σ ^ 2 * h ^ 3) • (lift s0.J * s0.C * (lift s0.J)ᵀ)⟩ := Gauss.ext hm hP
    simp only [Bool.false_eq_true, if_false, h0, covOf, hi, hrun, and_self]
  · have hr := Ekf.run_represents (r := 0) hla false vf (fun _ => hf) (IOUP.transition 0 σ 1 h dim)
      (Ekf.ibm_Q_posDef hσ 1 hh dim) 0 0 Ekf.isFactor_zero init
      ⟨interlace ![s0.x, s0.v], (σ ^ 2 * h ^ 3) • (lift s0.J * s0.C * (lift s0.J)ᵀ)⟩ ⟨hm, hP⟩ (linspace h (N * h) N)
    rw [h0, hrun] at hr
    exact ⟨hr.1, hr.2⟩

end Ekf

end Verif
