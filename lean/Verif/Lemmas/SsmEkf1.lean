import Verif.Lemmas.SsmHeun

/-! One step of the (repaired) parabola filter of Algorithm 4, EKF1 variant, for a linear drift and a constant diffusion. -/

namespace Verif

open Matrix Spec Jnp

namespace Ssm

variable {d : ℕ} {δ : ℝ} (S : Mat d d)

/-- The observation matrix of the EKF1 variant for a linear drift. -/
noncomputable def obsMat1 (δ : ℝ) (J S : Mat d d) (t : ℝ) : Mat d (d * (2 + 2)) := obsMat δ S t - J * Ekf.E 0

theorem obsFn_ekf1 (J : Mat d d) (z w : Vec (d * (2 + 2))) (t : ℝ) :
    obsFn false (fun x _ => J *ᵥ x) (fun _ _ => S) δ z w t = obsMat1 δ J S t *ᵥ z + 0 := by
  have h := obsFn_const false 0 S δ z w t
  rw [neg_zero, add_zero] at h
  rw [obsMat1, sub_mulVec, ← h, ← mulVec_mulVec, Ekf.E_mulVec]
  simp only [obsFn, Bool.false_eq_true, if_false, field, zero_add, add_zero]
  abel

/-- The predicted covariance over one step. -/
noncomputable def stepCov (δ : ℝ) (S : Mat d d) (c : ℝ) : Mat (d * (2 + 2)) (d * (2 + 2)) :=
  predCov (transitionMatrix d !![1, δ; 0, 1])
    (transitionCovariance d !![c ^ 2 * (δ ^ 3 / 3), c ^ 2 * (δ ^ 2 / 2); c ^ 2 * (δ ^ 2 / 2), c ^ 2 * δ]) (var δ S)

/-- The variance of the residual of the EKF0 variant. -/
noncomputable def resCov (δ : ℝ) (S : Mat d d) (c : ℝ) : Mat d d := (12 / δ) • (S * Sᵀ) + (c ^ 2 * δ) • 1

theorem stepCov_parts (hδ : 0 < δ) (c : ℝ) :
    obsMat δ S δ * stepCov δ S c * (obsMat δ S δ)ᵀ = resCov δ S c ∧
    (Ekf.E 0 : Mat d (d * (2 + 2))) * stepCov δ S c * (obsMat δ S δ)ᵀ = (δ / 2) • resCov δ S c ∧
    (Ekf.E 0 : Mat d (d * (2 + 2))) * stepCov δ S c * (Ekf.E 0 : Mat d (d * (2 + 2)))ᵀ =
      δ • (S * Sᵀ) + (c ^ 2 * δ ^ 3 / 12) • 1 + (δ ^ 2 / 4) • resCov δ S c := by
  obtain ⟨A, hA⟩ : ∃ A, A = transitionMatrix d !![1, δ; 0, 1] := ⟨_, rfl⟩
  obtain ⟨D, hD⟩ : ∃ D : Matrix (Fin d ⊕ Fin d) (Fin d ⊕ Fin d) ℝ, D = fromBlocks (δ • 1) 0 0 ((δ / 2) • 1) := ⟨_, rfl⟩
  obtain ⟨g, hg⟩ : ∃ g, g = slope δ S δ := ⟨_, rfl⟩
  obtain ⟨F, hF⟩ : ∃ F, F = A * load δ S 0 := ⟨_, rfl⟩
  have hC : stepCov δ S c = F * D * Fᵀ + (c ^ 2 * δ) • (noiseDir d δ * (noiseDir d δ)ᵀ) +
      (c ^ 2 * δ ^ 3 / 12) • (solDir d * (solDir d)ᵀ) := by
    simp only [stepCov, predCov]
    rw [transCov_eq, var_eq hδ, hF, hD, transpose_mul, ← hA]
    simp only [Matrix.mul_assoc, add_assoc]
  have hHF : obsMat δ S δ * F = g := by have := obs_load S 0 δ hδ.ne'; rwa [zero_add, ← hA, ← hF, ← hg] at this
  have hFs : F = load δ S δ + noiseDir d δ * g := by
    have := load_step S 0 δ hδ.ne'
    rw [zero_add, ← hA, ← hF, ← hg] at this
    rw [← this]; abel
  have hE0 : (Ekf.E 0 : Mat d (d * (2 + 2))) * F = fromCols S 0 + (δ / 2) • g := by
    rw [hFs, Matrix.mul_add, ← Matrix.mul_assoc, load, sel_mul_rows, noiseDir, sel_mul_rows]
    simp [hδ.ne']
  have hB0 : (Ekf.E 0 : Mat d (d * (2 + 2))) * noiseDir d δ = (δ / 2) • 1 := by rw [noiseDir, sel_mul_rows]; simp
  have hS0 : (Ekf.E 0 : Mat d (d * (2 + 2))) * solDir d = 1 := by rw [solDir, sel_mul_rows]; simp
  have hHB : obsMat δ S δ * noiseDir d δ = 1 := obsMat_noiseDir δ S δ δ
  have hHE : obsMat δ S δ * solDir d = 0 := obsMat_solDir δ S δ
  have hsand : ∀ (X Y : Mat d (d * (2 + 2))), X * stepCov δ S c * Yᵀ = X * F * D * (Y * F)ᵀ +
      (c ^ 2 * δ) • (X * noiseDir d δ * (Y * noiseDir d δ)ᵀ) + (c ^ 2 * δ ^ 3 / 12) • (X * solDir d * (Y * solDir d)ᵀ) := fun X Y => by
    rw [hC]
    simp only [Matrix.mul_add, Matrix.add_mul, transpose_mul, Matrix.mul_smul, Matrix.smul_mul, Matrix.mul_assoc]
  have h6 : √(6 : ℝ) * √6 = 6 := Real.mul_self_sqrt (by norm_num)
  have hgg : g * D * gᵀ = (12 / δ) • (S * Sᵀ) := by
    rw [hg, slope, hD, fromCols_mul_fromBlocks, transpose_fromCols, fromCols_mul_fromRows]
    simp only [Matrix.mul_zero, Matrix.zero_mul, add_zero, zero_add, transpose_zero, transpose_smul, Matrix.mul_smul, Matrix.smul_mul,
      Matrix.mul_one, smul_smul]
    congr 1
    field_simp
    nlinarith
  have hSg : fromCols S (0 : Mat d d) * D * gᵀ = 0 := by
    rw [hg, slope, hD, fromCols_mul_fromBlocks, transpose_fromCols, fromCols_mul_fromRows]
    simp
  have hgS : g * D * (fromCols S (0 : Mat d d))ᵀ = 0 := by
    rw [hg, slope, hD, fromCols_mul_fromBlocks, transpose_fromCols, fromCols_mul_fromRows]
    simp
  have hSS : fromCols S (0 : Mat d d) * D * (fromCols S (0 : Mat d d))ᵀ = δ • (S * Sᵀ) := by
    rw [hD, fromCols_mul_fromBlocks, transpose_fromCols, fromCols_mul_fromRows]
    simp
  refine ⟨?_, ?_, ?_⟩
  · rw [hsand, hHF, hHB, hHE, hgg, resCov]
    simp
  · rw [hsand, hHF, hHB, hHE, hE0, hB0, hS0, Matrix.add_mul, Matrix.add_mul, hSg, Matrix.smul_mul, Matrix.smul_mul, hgg, resCov]
    simp [smul_smul, mul_comm]
  · rw [hsand, hE0, hB0, hS0]
    simp only [transpose_add, transpose_smul, Matrix.mul_add, Matrix.add_mul, Matrix.smul_mul, Matrix.mul_smul, hSS, hgS, hSg, hgg, resCov,
      transpose_one, Matrix.mul_one, smul_zero, add_zero, zero_add, smul_add, smul_smul]
    module

/-- The result of the repaired solver with one filter step and a linear observation, in both modes. -/
theorem solver_linear {la : LinAlg} (hla : la.Correct) (sqrt : Bool) (hδ : 0 < δ) {c : ℝ} (hc : c ≠ 0) (J : Mat d d)
    (hpd : (innovCov (stepCov δ S c) (obsMat1 δ J S δ) 0).PosDef) :
    ∃ F : Mat (d * (2 + 2)) (d * (2 + 2)), (∀ m, covOf sqrt ⟨m, F⟩ = postCov (stepCov δ S c) (obsMat1 δ J S δ) 0) ∧ ∀ x0 : Vec d,
      solverWith la (some 0) x0 (fun x _ => J *ᵥ x) (fun _ _ => S) δ δ 1 sqrt false (some ⟨2, IOUP.transition 0 c 1 δ 1⟩) none =
        .ok ⟨postMean (interlace ![x0 + δ • J *ᵥ x0, J *ᵥ x0, 0, 0]) (stepCov δ S c)
          (J *ᵥ x0 - J *ᵥ (x0 + δ • J *ᵥ x0)) (obsMat1 δ J S δ) 0, F⟩ := by
  have hA : (show Mat 2 2 from (IOUP.transition 0 c 1 δ 1).A) = !![1, δ; 0, 1] := by
    have := kron_one1 (expm (δ • IOUP.F 0 1))
    rw [Ekf.ibm1_A] at this
    rw [← this, ← Ekf.ibm1_A]
    rfl
  have hQ : (show Mat 2 2 from (IOUP.transition 0 c 1 δ 1).Q) =
      !![c ^ 2 * (δ ^ 3 / 3), c ^ 2 * (δ ^ 2 / 2); c ^ 2 * (δ ^ 2 / 2), c ^ 2 * δ] := by
    have := kron_one1 (IOUP.Q1 c 1 δ)
    rw [Ekf.ibm1_Q] at this
    rw [← this, ← Ekf.ibm1_Q]
    rfl
  have hQp : (!![c ^ 2 * (δ ^ 3 / 3), c ^ 2 * (δ ^ 2 / 2); c ^ 2 * (δ ^ 2 / 2), c ^ 2 * δ] : Mat 2 2).PosDef := by
    rw [← hQ]; exact Ekf.ibm_Q_posDef hc 1 hδ 1
  obtain ⟨f, hf⟩ : ∃ f : Field d, f = fun x _ => J *ᵥ x := ⟨_, rfl⟩
  have hobs : ∀ z w, obsFn false f (fun _ _ => S) δ z w (((0 : ℕ) + 1 : ℝ) * δ) = obsMat1 δ J S δ *ᵥ z + 0 := fun z w => by
    rw [hf, obsFn_ekf1]
    simp
  obtain ⟨A, hAdef⟩ : ∃ A, A = transitionMatrix d !![1, δ; 0, 1] := ⟨_, rfl⟩
  obtain ⟨Q, hQdef⟩ : ∃ Q, Q = transitionCovariance d !![c ^ 2 * (δ ^ 3 / 3), c ^ 2 * (δ ^ 2 / 2); c ^ 2 * (δ ^ 2 / 2), c ^ 2 * δ] := ⟨_, rfl⟩
  obtain ⟨Q', hQ'def⟩ : ∃ Q', Q' = transitionCovariance d (if sqrt then la.cholesky
          !![c ^ 2 * (δ ^ 3 / 3), c ^ 2 * (δ ^ 2 / 2); c ^ 2 * (δ ^ 2 / 2), c ^ 2 * δ] else
          !![c ^ 2 * (δ ^ 3 / 3), c ^ 2 * (δ ^ 2 / 2); c ^ 2 * (δ ^ 2 / 2), c ^ 2 * δ]) := ⟨_, rfl⟩
  have hQs : Q.PosSemidef := by
    rw [hQdef, transCov_eq]
    exact ((psd_self_mul_transpose _).smul (by positivity)).add ((psd_self_mul_transpose _).smul (by positivity))
  have hC : predCov A Q (var δ S) = stepCov δ S c := by rw [hAdef, hQdef]; rfl
  obtain ⟨ts, hts⟩ : ∃ ts : List ℝ, ts = (List.range 1).map fun (k : ℕ) => ((k : ℝ) + 1) * δ := ⟨_, rfl⟩
  have hsol : ∀ (x0 : Vec d) (q : Prior 2), solverWith la (some 0) x0 f (fun _ _ => S) δ δ 1 sqrt false (some ⟨2, q⟩) none =
      .ok (KF.ekf la ⟨mean x0 f, if sqrt then la.sqrtm (var δ S) else var δ S⟩ (obsFn false f (fun _ _ => S) δ)
        (transitionMatrix d q.A) (transitionCovariance d (if sqrt then la.cholesky q.Q else q.Q)) 0 0 (linspace δ ((1 : ℕ) * δ) 1) sqrt) := by
    intro x0 q
    rw [solverWith, dif_pos rfl]
    rfl
  have hsol' : ∀ x0 : Vec d, solverWith la (some 0) x0 f (fun _ _ => S) δ δ 1 sqrt false (some ⟨2, IOUP.transition 0 c 1 δ 1⟩) none =
      .ok (KF.ekf la ⟨mean x0 f, if sqrt then la.sqrtm (var δ S) else var δ S⟩ (obsFn false f (fun _ _ => S) δ) A Q' 0 0 ts sqrt) := by
    intro x0
    rw [hsol x0 _, Ekf.linspace_ts, show (show Prior 2 from IOUP.transition 0 c 1 δ 1).A = _ from hA,
      show (show Prior 2 from IOUP.transition 0 c 1 δ 1).Q = _ from hQ, hAdef, hQ'def, hts]
  have hrun : ∀ x0 : Vec d, WellPosed la (obsFn false f (fun _ _ => S) δ) A Q 0 0 ⟨mean x0 f, var δ S⟩ ts ∧
      KF.ekf la ⟨mean x0 f, var δ S⟩ (obsFn false f (fun _ _ => S) δ) A Q 0 0 ts false =
        ⟨postMean (interlace ![x0 + δ • J *ᵥ x0, J *ᵥ x0, 0, 0]) (stepCov δ S c) (J *ᵥ x0 - J *ᵥ (x0 + δ • J *ᵥ x0)) (obsMat1 δ J S δ) 0,
          postCov (stepCov δ S c) (obsMat1 δ J S δ) 0⟩ := fun x0 => by
    obtain ⟨g1, g2⟩ := step_affine hla (obsFn false f (fun _ _ => S) δ) A Q 0 0 ⟨mean x0 f, var δ S⟩ (((0 : ℕ) + 1 : ℝ) * δ)
      (obsMat1 δ J S δ) 0 hobs (C56_psd hδ S) hQs
    simp only [hC] at g1 g2
    have hpm : A *ᵥ mean x0 f = interlace ![x0 + δ • J *ᵥ x0, J *ᵥ x0, 0, 0] := by
      rw [hAdef, hf]; exact trans_mean δ x0 (J *ᵥ x0)
    have hres : obsMat1 δ J S δ *ᵥ (interlace ![x0 + δ • J *ᵥ x0, J *ᵥ x0, 0, 0] : Vec (d * (2 + 2))) =
        J *ᵥ x0 - J *ᵥ (x0 + δ • J *ᵥ x0) := by
      have := obs_mean (δ := δ) S δ (x0 + δ • J *ᵥ x0) (J *ᵥ x0)
      rw [obsMat1, sub_mulVec, ← mulVec_mulVec, Ekf.E_mulVec, stride_interlace, eq_of_sub_eq_zero ((sub_eq_add_neg _ _).trans this)]
      rfl
    have g3 := g2 hpd
    simp only [add_zero, hpm, hres] at g3
    rw [hts]
    refine ⟨⟨by rw [g1]; exact hpd, trivial⟩, ?_⟩
    rw [ekf_single]
    exact g3
  have hcov : ∀ (x0 x0' : Vec d) (V : Mat (d * (2 + 2)) (d * (2 + 2))),
      (KF.ekf la ⟨mean x0 f, V⟩ (obsFn false f (fun _ _ => S) δ) A Q' 0 0 ts sqrt).cov =
      (KF.ekf la ⟨mean x0' f, V⟩ (obsFn false f (fun _ _ => S) δ) A Q' 0 0 ts sqrt).cov := fun x0 x0' V => by
    rw [hts, ekf_single, ekf_single]
    exact KF.step_cov_congr la A Q' 0 0 sqrt (x := ⟨mean x0 f, V⟩) (x' := ⟨mean x0' f, V⟩) rfl
      (((0 : ℕ) + 1) * δ) (fun z => hobs z _) (fun z => hobs z _)
  have hmode : ∀ x0 : Vec d,
      (KF.ekf la ⟨mean x0 f, if sqrt then la.sqrtm (var δ S) else var δ S⟩ (obsFn false f (fun _ _ => S) δ) A Q' 0 0 ts sqrt).mean =
        postMean (interlace ![x0 + δ • J *ᵥ x0, J *ᵥ x0, 0, 0]) (stepCov δ S c) (J *ᵥ x0 - J *ᵥ (x0 + δ • J *ᵥ x0)) (obsMat1 δ J S δ) 0 ∧
      covOf sqrt (KF.ekf la ⟨mean x0 f, if sqrt then la.sqrtm (var δ S) else var δ S⟩ (obsFn false f (fun _ _ => S) δ) A Q' 0 0 ts sqrt) =
        postCov (stepCov δ S c) (obsMat1 δ J S δ) 0 := by
    intro x0
    obtain ⟨hw, hr⟩ := hrun x0
    cases sqrt
    · have e : Q' = Q := by rw [hQ'def, hQdef]; rfl
      simp only [Bool.false_eq_true, if_false, covOf, e, hr, and_self]
    · simp only [if_true, covOf]
      have h1 := C24_run hla (obsFn false f (fun _ _ => S) δ) A Q' Q 0 0 0
        (show IsFactor Q' Q by
          rw [IsFactor, hQ'def, if_pos rfl, transitionCovariance_mul, hla.chol_mul _ hQp, hQdef]) Ekf.isFactor_zero
        ⟨mean x0 f, la.sqrtm (var δ S)⟩ ⟨mean x0 f, var δ S⟩ ⟨rfl, hla.sqrtm_mul_transpose (C56_psd hδ S)⟩ _ hw 1
      rw [List.take_of_length_le (by simp [hts]), hr] at h1
      exact ⟨h1.1, h1.2⟩
  rw [← hf]
  exact ⟨_, fun m => (hmode 0).2, fun x0 => (hsol' x0).trans (congrArg Except.ok (Gauss.ext (hmode x0).1 (hcov x0 0 _)))⟩

/-- The parts of the update of the EKF1 variant. -/
theorem ekf1_parts (hδ : 0 < δ) (c : ℝ) (J : Mat d d) {X : Mat d d}
    (hX : X = δ • (S * Sᵀ) + (c ^ 2 * δ ^ 3 / 12) • 1 + (δ ^ 2 / 4) • resCov δ S c) :
    innovCov (stepCov δ S c) (obsMat1 δ J S δ) 0 =
      resCov δ S c - (δ / 2) • (J * (resCov δ S c)ᵀ) - (δ / 2) • (resCov δ S c * Jᵀ) + J * X * Jᵀ ∧
    (Ekf.E 0 : Mat d (d * (2 + 2))) * stepCov δ S c * (obsMat1 δ J S δ)ᵀ = (δ / 2) • resCov δ S c - X * Jᵀ ∧
    (Ekf.E 0 : Mat d (d * (2 + 2))) * stepCov δ S c * (Ekf.E 0 : Mat d (d * (2 + 2)))ᵀ = X := by
  obtain ⟨h1, h2, h3⟩ := stepCov_parts S hδ c
  rw [← hX] at h3
  obtain ⟨E, hE⟩ : ∃ E : Mat d (d * (2 + 2)), E = Ekf.E 0 := ⟨_, rfl⟩
  obtain ⟨C, hC⟩ : ∃ C, C = stepCov δ S c := ⟨_, rfl⟩
  obtain ⟨H, hH⟩ : ∃ H, H = obsMat δ S δ := ⟨_, rfl⟩
  obtain ⟨V, hV⟩ : ∃ V, V = resCov δ S c := ⟨_, rfl⟩
  have hCt : Cᵀ = C := by
    have hQs : (transitionCovariance d !![c ^ 2 * (δ ^ 3 / 3), c ^ 2 * (δ ^ 2 / 2); c ^ 2 * (δ ^ 2 / 2), c ^ 2 * δ]).PosSemidef := by
      rw [transCov_eq]
      exact ((psd_self_mul_transpose _).smul (by positivity)).add ((psd_self_mul_transpose _).smul (by positivity))
    rw [hC]
    exact psd_symm ((psd_mul_mul_transpose (C56_psd hδ S) _).add hQs)
  rw [innovCov, add_zero, obsMat1, ← hE, ← hC, ← hH, ← hV]
  rw [← hE, ← hC] at h3
  rw [← hH, ← hC, ← hV] at h1
  rw [← hE, ← hC, ← hH, ← hV] at h2
  have h2' : H * C * Eᵀ = (δ / 2) • Vᵀ := by
    have := congrArg transpose h2
    rwa [transpose_mul, transpose_mul, transpose_transpose, hCt, ← Matrix.mul_assoc, transpose_smul] at this
  refine ⟨?_, ?_, h3⟩
  · have e : (H - J * E) * C * (H - J * E)ᵀ = H * C * Hᵀ - J * (E * C * Hᵀ) - (H * C * Eᵀ) * Jᵀ + J * (E * C * Eᵀ) * Jᵀ := by
      simp only [transpose_sub, transpose_mul, Matrix.sub_mul, Matrix.mul_sub, Matrix.mul_assoc]
      abel
    have hVt : Vᵀ = V := by
      rw [← h1]; simp only [transpose_mul, transpose_transpose, hCt, Matrix.mul_assoc]
    rw [e, h1, h2, h2', h3, hVt, Matrix.mul_smul, Matrix.smul_mul]
  · rw [transpose_sub, transpose_mul, Matrix.mul_sub, ← Matrix.mul_assoc, h2, h3]

/-- The integrated Brownian motion of the tests, second component: the posterior variance of the EKF1 variant. -/
theorem ibm_ekf1 (hδ : 0 < δ) {c : ℝ} (hc : c ≠ 0) :
    (innovCov (stepCov δ !![0, 0; 1, 0] c) (obsMat1 δ !![0, 1; 0, 0] !![0, 0; 1, 0] δ) 0).PosDef ∧
    ((Ekf.E 0 : Mat 2 (2 * (2 + 2))) * postCov (stepCov δ !![0, 0; 1, 0] c) (obsMat1 δ !![0, 1; 0, 0] !![0, 0; 1, 0] δ) 0 *
      (Ekf.E 0 : Mat 2 (2 * (2 + 2)))ᵀ) 1 1 = c ^ 2 * (1 + c ^ 2 * δ ^ 2 / 12) / (1 + c ^ 2 + c ^ 2 * δ ^ 2 / 12) * δ := by
  obtain ⟨h1, h2, h3⟩ := ekf1_parts (!![0, 0; 1, 0] : Mat 2 2) hδ c !![0, 1; 0, 0] rfl
  have hc2 : 0 < c ^ 2 := by positivity
  obtain ⟨v, hv⟩ : ∃ v, v = c ^ 2 * δ := ⟨_, rfl⟩
  obtain ⟨w, hw⟩ : ∃ w, w = 12 / δ + c ^ 2 * δ := ⟨_, rfl⟩
  obtain ⟨σ, hσ⟩ : ∃ σ, σ = δ + c ^ 2 * δ ^ 3 / 12 := ⟨_, rfl⟩
  have hv0 : 0 < v := by rw [hv]; positivity
  have hw0 : 0 < w := by rw [hw]; positivity
  have hσ0 : 0 < σ := by rw [hσ]; positivity
  have hres : resCov δ (!![0, 0; 1, 0] : Mat 2 2) c = !![v, 0; 0, w] := by
    ext i j
    fin_cases i <;> fin_cases j <;> simp [resCov, hv, hw, Matrix.vecMul, dotProduct, Fin.sum_univ_two]
  have hX : δ • ((!![0, 0; 1, 0] : Mat 2 2) * (!![0, 0; 1, 0] : Mat 2 2)ᵀ) + (c ^ 2 * δ ^ 3 / 12) • 1 +
      (δ ^ 2 / 4) • resCov δ (!![0, 0; 1, 0] : Mat 2 2) c =
      !![c ^ 2 * δ ^ 3 / 12 + δ ^ 2 / 4 * v, 0; 0, σ + δ ^ 2 / 4 * w] := by
    rw [hres]
    ext i j
    fin_cases i <;> fin_cases j <;> simp [hσ, Matrix.vecMul, dotProduct, Fin.sum_univ_two]
  rw [hX] at h1 h2 h3
  rw [hres] at h1 h2
  have hI : innovCov (stepCov δ !![0, 0; 1, 0] c) (obsMat1 δ !![0, 1; 0, 0] !![0, 0; 1, 0] δ) 0 =
      !![v + σ + δ ^ 2 / 4 * w, -(δ / 2 * w); -(δ / 2 * w), w] := by
    rw [h1]
    ext i j
    simp only [Matrix.sub_apply, Matrix.add_apply, Matrix.smul_apply, Matrix.mul_apply, Fin.sum_univ_two, transpose_apply]
    fin_cases i <;> fin_cases j <;> simp <;> ring
  have hW : (Ekf.E 0 : Mat 2 (2 * (2 + 2))) * stepCov δ !![0, 0; 1, 0] c * (obsMat1 δ !![0, 1; 0, 0] !![0, 0; 1, 0] δ)ᵀ =
      !![δ / 2 * v, 0; -(σ + δ ^ 2 / 4 * w), δ / 2 * w] := by
    rw [h2]
    ext i j
    fin_cases i <;> fin_cases j <;> simp [Matrix.vecMul, dotProduct, Fin.sum_univ_two]
  have hpd : (!![v + σ + δ ^ 2 / 4 * w, -(δ / 2 * w); -(δ / 2 * w), w] : Mat 2 2).PosDef := by
    have e : (!![v + σ + δ ^ 2 / 4 * w, -(δ / 2 * w); -(δ / 2 * w), w] : Mat 2 2) =
        !![1, -(δ / 2); 0, 1] * diagonal ![v + σ, w] * (!![1, -(δ / 2); 0, 1] : Mat 2 2)ᴴ := by
      ext i j
      fin_cases i <;> fin_cases j <;> simp [Matrix.vecMul, dotProduct, Fin.sum_univ_two] <;> ring
    rw [e]
    refine (PosDef.diagonal fun i => ?_).mul_mul_conjTranspose_same ?_
    · fin_cases i <;> simp <;> positivity
    · exact Matrix.vecMul_injective_of_isUnit ((Matrix.isUnit_iff_isUnit_det _).2 (by simp [det_fin_two]))
  have hinv : (!![v + σ + δ ^ 2 / 4 * w, -(δ / 2 * w); -(δ / 2 * w), w] : Mat 2 2)⁻¹ =
      !![1 / (v + σ), δ / 2 / (v + σ); δ / 2 / (v + σ), δ ^ 2 / 4 / (v + σ) + 1 / w] := by
    refine Matrix.inv_eq_right_inv ?_
    have := (add_pos hv0 hσ0).ne'
    ext i j
    fin_cases i <;> fin_cases j <;> simp [Matrix.vecMul, dotProduct, Fin.sum_univ_two] <;> field_simp <;> ring
  refine ⟨by rw [hI]; exact hpd, ?_⟩
  obtain ⟨E, hE⟩ : ∃ E : Mat 2 (2 * (2 + 2)), E = Ekf.E 0 := ⟨_, rfl⟩
  obtain ⟨C, hC⟩ : ∃ C, C = stepCov δ !![0, 0; 1, 0] c := ⟨_, rfl⟩
  obtain ⟨H, hH⟩ : ∃ H : Mat 2 (2 * (2 + 2)), H = obsMat1 δ !![0, 1; 0, 0] !![0, 0; 1, 0] δ := ⟨_, rfl⟩
  rw [← hE, ← hC, ← hH] at hW ⊢
  rw [← hE, ← hC] at h3
  rw [← hC, ← hH] at hI
  obtain ⟨I, hId⟩ : ∃ I : Mat 2 2, I = !![v + σ + δ ^ 2 / 4 * w, -(δ / 2 * w); -(δ / 2 * w), w] := ⟨_, rfl⟩
  rw [← hId] at hI hinv hpd
  have hdet : IsUnit I.det := hpd.det_pos.ne'.isUnit
  have e : E * postCov C H 0 * Eᵀ = E * C * Eᵀ - (E * C * Hᵀ) * I⁻¹ * (E * C * Hᵀ)ᵀ := by
    have e1 : I⁻¹ * (I * (I⁻¹)ᵀ) = (I⁻¹)ᵀ := by rw [← Matrix.mul_assoc, Matrix.nonsing_inv_mul _ hdet, Matrix.one_mul]
    have e2 : (I⁻¹)ᵀ = I⁻¹ := by rw [transpose_nonsing_inv, psd_symm hpd.posSemidef]
    rw [postCov, gain, hI, Matrix.mul_sub, Matrix.sub_mul]
    congr 1
    calc E * (C * Hᵀ * I⁻¹ * I * (C * Hᵀ * I⁻¹)ᵀ) * Eᵀ = E * C * Hᵀ * (I⁻¹ * (I * (I⁻¹)ᵀ)) * (E * C * Hᵀ)ᵀ := by
          simp only [transpose_mul, transpose_transpose, Matrix.mul_assoc]
      _ = _ := by rw [e1, e2]
  rw [e, h3, hW, hinv]
  have hs : v + σ ≠ 0 := (add_pos hv0 hσ0).ne'
  have hs' : 1 + c ^ 2 + c ^ 2 * δ ^ 2 / 12 ≠ 0 := by positivity
  have key : σ + δ ^ 2 / 4 * w - ((-(σ + δ ^ 2 / 4 * w) * (1 / (v + σ)) + δ / 2 * w * (δ / 2 / (v + σ))) * -(σ + δ ^ 2 / 4 * w) +
      (-(σ + δ ^ 2 / 4 * w) * (δ / 2 / (v + σ)) + δ / 2 * w * (δ ^ 2 / 4 / (v + σ) + 1 / w)) * (δ / 2 * w)) = σ * v / (v + σ) := by
    field_simp
    ring
  have key2 : σ * v / (v + σ) = c ^ 2 * (1 + c ^ 2 * δ ^ 2 / 12) / (1 + c ^ 2 + c ^ 2 * δ ^ 2 / 12) * δ := by
    have e1 : v + σ = δ * (1 + c ^ 2 + c ^ 2 * δ ^ 2 / 12) := by rw [hv, hσ]; ring
    have e2 : σ * v = δ * (δ * (c ^ 2 * (1 + c ^ 2 * δ ^ 2 / 12))) := by rw [hv, hσ]; ring
    rw [e1, e2, mul_div_mul_left _ _ hδ.ne', mul_div_assoc, mul_comm]
  rw [← key2, ← key]
  simp [Matrix.vecMul, dotProduct, Fin.sum_univ_two]

end Ssm

end Verif
