import Verif.Lemmas.SsmAdditive
import Verif.Lemmas.Taylor15

/-!
# Property C97: the law of the draws of Algorithm 4 for constant drift and diffusion
-/

namespace Verif

open Matrix Spec Jnp MeasureTheory ProbabilityTheory

namespace Ssm

variable {d : ℕ} {δ : ℝ} (S : Mat d d)

theorem stateCov_zero (hδ : 0 < δ) (c h : ℝ) : stateCov δ S c h 0 = var δ S := by
  have h1 : (precision δ S c h 0)⁻¹ = fromBlocks (δ • 1) 0 0 ((δ / 2) • 1) := by
    refine inv_eq_right_inv ?_
    rw [precision, Nat.cast_zero, zero_mul, zero_smul, add_zero, fromBlocks_multiply]
    simp only [Matrix.mul_smul, Matrix.smul_mul, Matrix.mul_one, Matrix.mul_zero, add_zero, zero_add, smul_smul, smul_zero]
    rw [show δ / 2 * (2 / δ) = 1 by field_simp, mul_one_div, div_self hδ.ne', one_smul, fromBlocks_one]
  rw [stateCov, h1, var_eq hδ]
  simp

theorem stateCov_psd (hδ : 0 < δ) (c : ℝ) {h : ℝ} (hh : 0 < h) (k : ℕ) : (stateCov δ S c h k).PosSemidef := by
  refine PosSemidef.add ?_ ?_
  · have := ((precision_posDef S h hδ hh (c := c) k).inv.posSemidef).mul_mul_conjTranspose_same (load δ S (k * h))
    rwa [conjTranspose_eq_transpose_of_trivial] at this
  · exact (psd_self_mul_transpose _).smul (by positivity)

theorem trans_mean (h : ℝ) (y b : Vec d) :
    transitionMatrix d !![1, h; 0, 1] *ᵥ interlace ![y, b, 0, 0] = (interlace ![y + h • b, b, 0, 0] : Vec (d * (2 + 2))) := by
  funext p
  rw [← flat_div_mod p, interlace_flat, mulVec, dotProduct, sum_flat, Finset.sum_eq_single p.divNat]
  · simp only [transitionMatrix, kron_flat, one_apply_eq, one_mul, interlace_flat, pad4_eq]
    generalize p.modNat = s
    generalize p.divNat = i
    have hs : s = 0 ∨ s = 1 ∨ s = 2 ∨ s = 3 := by fin_cases s <;> simp
    rcases hs with rfl | rfl | rfl | rfl <;> simp [Fin.sum_univ_succ]
  · intro i _ hi
    simp [transitionMatrix, Matrix.one_apply, Ne.symm hi]
  · simp

theorem obs_mean (t : ℝ) (y b : Vec d) :
    obsMat δ S t *ᵥ (interlace ![y, b, 0, 0] : Vec (d * (2 + 2))) + -b = 0 := by
  rw [obsMat, sub_mulVec, ← mulVec_mulVec, add_mulVec, smul_mulVec, smul_mulVec, Ekf.E_mulVec, Ekf.E_mulVec, Ekf.E_mulVec,
    stride_interlace, stride_interlace, stride_interlace]
  simp

/-- The innovation covariances of the run are positive definite, and its result is known. -/
theorem run_const {la : LinAlg} (hla : la.Correct) (EKF0 : Bool) (x0 b : Vec d) (hδ : 0 < δ) {c : ℝ} (hc : c ≠ 0) {h : ℝ} (hh : 0 < h)
    (N : ℕ) :
    let Q := transitionCovariance d !![c ^ 2 * (h ^ 3 / 3), c ^ 2 * (h ^ 2 / 2); c ^ 2 * (h ^ 2 / 2), c ^ 2 * h]
    let ts := (List.range N).map fun (k : ℕ) => ((k : ℝ) + 1) * h
    let obs := obsFn EKF0 (fun _ _ => b) (fun _ _ => S) δ
    WellPosed la obs (transitionMatrix d !![1, h; 0, 1]) Q 0 0 ⟨mean x0 fun _ _ => b, var δ S⟩ ts ∧
    KF.ekf la ⟨mean x0 fun _ _ => b, var δ S⟩ obs (transitionMatrix d !![1, h; 0, 1]) Q 0 0 ts false =
      ⟨interlace ![x0 + (N * h) • b, b, 0, 0], stateCov δ S c h N⟩ := by
  intro Q ts obs
  have hQ : Q.PosSemidef := by
    simp only [Q, transCov_eq]
    exact ((psd_self_mul_transpose _).smul (by positivity)).add ((psd_self_mul_transpose _).smul (by positivity))
  have key2 : ∀ k : ℕ, (KF.step la obs (transitionMatrix d !![1, h; 0, 1]) Q 0 0 false
        ⟨interlace ![x0 + (k * h) • b, b, 0, 0], stateCov δ S c h k⟩ (((k : ℝ) + 1) * h)).2.1.PosDef ∧
      (KF.step la obs (transitionMatrix d !![1, h; 0, 1]) Q 0 0 false
        ⟨interlace ![x0 + (k * h) • b, b, 0, 0], stateCov δ S c h k⟩ (((k : ℝ) + 1) * h)).1 =
        ⟨interlace ![x0 + ((k + 1 : ℕ) * h) • b, b, 0, 0], stateCov δ S c h (k + 1)⟩ := by
    intro k
    obtain ⟨h1, h2⟩ := ric_step S h hδ hc hh k
    obtain ⟨g1, g2⟩ := step_affine hla obs (transitionMatrix d !![1, h; 0, 1]) Q 0 0
      ⟨interlace ![x0 + (k * h) • b, b, 0, 0], stateCov δ S c h k⟩ (((k : ℝ) + 1) * h) (obsMat δ S (((k : ℝ) + 1) * h)) (-b)
      (fun z w => obsFn_const EKF0 b S δ z w _) (stateCov_psd S hδ c hh k) hQ
    push_cast at h1 h2
    refine ⟨by rw [g1]; exact h1, ?_⟩
    rw [g2 h1]
    simp only [add_zero, trans_mean, obs_mean, postMean, mulVec_zero, sub_zero]
    rw [h2]
    congr 3
    rw [add_assoc, ← add_smul]
    push_cast
    ring_nf
  suffices H : ∀ n k : ℕ, WellPosed la obs (transitionMatrix d !![1, h; 0, 1]) Q 0 0
        ⟨interlace ![x0 + (k * h) • b, b, 0, 0], stateCov δ S c h k⟩ ((List.range' k n).map fun (k : ℕ) => ((k : ℝ) + 1) * h) ∧
      KF.ekf la ⟨interlace ![x0 + (k * h) • b, b, 0, 0], stateCov δ S c h k⟩ obs (transitionMatrix d !![1, h; 0, 1]) Q 0 0
        ((List.range' k n).map fun (k : ℕ) => ((k : ℝ) + 1) * h) false =
      ⟨interlace ![x0 + ((k + n : ℕ) * h) • b, b, 0, 0], stateCov δ S c h (k + n)⟩ by
    have h0 := H N 0
    simp only [Nat.cast_zero, zero_mul, zero_smul, add_zero, stateCov_zero S hδ, zero_add, ← List.range_eq_range'] at h0
    exact h0
  intro n
  induction n with
  | zero => intro k; exact ⟨trivial, rfl⟩
  | succ n ih =>
    intro k
    obtain ⟨g1, g2⟩ := key2 k
    obtain ⟨i1, i2⟩ := ih (k + 1)
    rw [List.range'_succ, List.map_cons, KF.ekf_cons]
    refine ⟨⟨g1, ?_⟩, ?_⟩
    · rw [g2]; exact i1
    · rw [g2, i2, show k + 1 + n = k + (n + 1) by omega]

theorem kron_one1 (M : Mat 2 2) : (show Mat 2 2 from kron (1 : Mat 1 1) M) = M := by
  ext i j
  have h1 : (1 : Mat 1 1) = fun _ _ => 1 := by ext i j; fin_cases i; fin_cases j; rfl
  rw [h1]
  fin_cases i <;> fin_cases j <;> simp [kron, Fin.divNat, Fin.modNat]

theorem transitionCovariance_mul (L : Mat 2 2) :
    transitionCovariance d L * (transitionCovariance d L)ᵀ = transitionCovariance d (L * Lᵀ) := by
  rw [transitionCovariance, transitionCovariance, kron_one_transpose, kron_one_mul]
  congr 1
  simp only [pad4_eq]
  ext i j
  fin_cases i <;> fin_cases j <;> simp [mul_apply, Fin.sum_univ_succ]

/-- The result of the repaired solver, in both modes. -/
theorem solver_const {la : LinAlg} (hla : la.Correct) (EKF0 sqrt : Bool) (x0 b : Vec d) (hδ : 0 < δ) {c : ℝ} (hc : c ≠ 0) {h : ℝ}
    (hh : 0 < h) (N : ℕ) :
    ∃ f, solverWith la (some 0) x0 (fun _ _ => b) (fun _ _ => S) δ h N sqrt EKF0 (some ⟨2, IOUP.transition 0 c 1 h 1⟩) none = .ok f ∧
      f.mean = interlace ![x0 + (N * h) • b, b, 0, 0] ∧ covOf sqrt f = stateCov δ S c h N := by
  obtain ⟨hw, hr⟩ := run_const S hla EKF0 x0 b hδ hc hh N
  have hA : (show Mat 2 2 from (IOUP.transition 0 c 1 h 1).A) = !![1, h; 0, 1] := by
    have := kron_one1 (expm (h • IOUP.F 0 1))
    rw [Ekf.ibm1_A] at this
    rw [← this, ← Ekf.ibm1_A]
    rfl
  have hQ : (show Mat 2 2 from (IOUP.transition 0 c 1 h 1).Q) =
      !![c ^ 2 * (h ^ 3 / 3), c ^ 2 * (h ^ 2 / 2); c ^ 2 * (h ^ 2 / 2), c ^ 2 * h] := by
    have := kron_one1 (IOUP.Q1 c 1 h)
    rw [Ekf.ibm1_Q] at this
    rw [← this, ← Ekf.ibm1_Q]
    rfl
  have hQp : (!![c ^ 2 * (h ^ 3 / 3), c ^ 2 * (h ^ 2 / 2); c ^ 2 * (h ^ 2 / 2), c ^ 2 * h] : Mat 2 2).PosDef := by
    rw [← hQ]; exact Ekf.ibm_Q_posDef hc 1 hh 1
  have hsol : ∀ q : Prior 2, solverWith la (some 0) x0 (fun _ _ => b) (fun _ _ => S) δ h N sqrt EKF0 (some ⟨2, q⟩) none =
      .ok (KF.ekf la ⟨mean x0 fun _ _ => b, if sqrt then la.sqrtm (var δ S) else var δ S⟩ (obsFn EKF0 (fun _ _ => b) (fun _ _ => S) δ)
        (transitionMatrix d q.A) (transitionCovariance d (if sqrt then la.cholesky q.Q else q.Q)) 0 0 (linspace h (N * h) N) sqrt) := by
    intro q
    rw [solverWith, dif_pos rfl]
    rfl
  refine ⟨_, hsol _, ?_⟩
  rw [Ekf.linspace_ts, show (show Prior 2 from IOUP.transition 0 c 1 h 1).A = _ from hA,
    show (show Prior 2 from IOUP.transition 0 c 1 h 1).Q = _ from hQ]
  cases sqrt
  · simp only [Bool.false_eq_true, if_false, covOf, hr, and_self]
  · simp only [if_true, covOf]
    have h1 := C24_run hla (obsFn EKF0 (fun _ _ => b) (fun _ _ => S) δ) (transitionMatrix d !![1, h; 0, 1])
      (transitionCovariance d (la.cholesky !![c ^ 2 * (h ^ 3 / 3), c ^ 2 * (h ^ 2 / 2); c ^ 2 * (h ^ 2 / 2), c ^ 2 * h])) _ 0 0 0
      (show IsFactor _ (transitionCovariance d !![c ^ 2 * (h ^ 3 / 3), c ^ 2 * (h ^ 2 / 2); c ^ 2 * (h ^ 2 / 2), c ^ 2 * h]) by
        rw [IsFactor, transitionCovariance_mul, hla.chol_mul _ hQp]) Ekf.isFactor_zero
      ⟨mean x0 fun _ _ => b, la.sqrtm (var δ S)⟩ ⟨mean x0 fun _ _ => b, var δ S⟩ ⟨rfl, hla.sqrtm_mul_transpose (C56_psd hδ S)⟩ _ hw N
    rw [List.take_of_length_le (by simp), hr] at h1
    exact ⟨h1.1, h1.2⟩

/-- The sample drawn at the end, before the components are read off. -/
theorem finish_law {la : LinAlg} (hla : la.Correct) {Ω : Type*} [MeasurableSpace Ω] {P : Measure Ω} {R : Ω → Rng}
    (hR : IdealNormals P R) (k : Key) (sqrt : Bool) (f : Gauss (d * (2 + 2))) (hf : (covOf sqrt f).PosSemidef) :
    ∃ Z : Ω → Vec (d * (2 + 2)), IsNormal P Z f.mean (covOf sqrt f) ∧
      ∀ ω, finish la (R ω) (some k) sqrt f = (stride 0 (Z ω), stride 2 (Z ω), stride 3 (Z ω)) := by
  refine ⟨fun ω => f.mean + (if sqrt then f.cov else la.sqrtm f.cov) *ᵥ (R ω).multivariateNormal la k 0 1, ?_, fun ω => rfl⟩
  have h1 := (stdSample_law hla hR k (d * (2 + 2))).affine f.mean (if sqrt then f.cov else la.sqrtm f.cov)
  rw [mulVec_zero, add_zero, Matrix.mul_one] at h1
  have hC : (if sqrt then f.cov else la.sqrtm f.cov) * (if sqrt then f.cov else la.sqrtm f.cov)ᵀ = covOf sqrt f := by
    cases sqrt
    · exact hla.sqrtm_mul_transpose hf
    · rfl
  rwa [hC] at h1

/-- The covariance the area coefficient ends up with. -/
noncomputable def areaCov (δ : ℝ) (S : Mat d d) (c : ℝ) : Mat d d := ((2 / δ) • 1 + (24 / (c ^ 2 * δ ^ 3)) • (Sᵀ * S))⁻¹

theorem areaPrec_posDef (hδ : 0 < δ) (c : ℝ) : ((2 / δ) • 1 + (24 / (c ^ 2 * δ ^ 3)) • (Sᵀ * S) : Mat d d).PosDef := by
  refine PosDef.add_posSemidef (PosDef.one.smul (by positivity)) (PosSemidef.smul ?_ (by positivity))
  have := posSemidef_conjTranspose_mul_self S
  rwa [conjTranspose_eq_transpose_of_trivial] at this

theorem precision_end (hδ : 0 < δ) {c : ℝ} (hc : c ≠ 0) {N : ℕ} (hN : 0 < N) :
    (precision δ S c (δ / N) N)⁻¹ = fromBlocks (δ • 1) 0 0 (areaCov δ S c) := by
  have hN' : (N : ℝ) ≠ 0 := by positivity
  have h6 : √(6 : ℝ) ^ 2 = 6 := Real.sq_sqrt (by norm_num)
  have h1 : precision δ S c (δ / N) N = fromBlocks ((1 / δ) • 1) 0 0 ((2 / δ) • 1 + (24 / (c ^ 2 * δ ^ 3)) • (Sᵀ * S)) := by
    rw [precision, slope, transpose_fromCols, fromRows_mul_fromCols]
    simp only [transpose_zero, Matrix.mul_zero, Matrix.zero_mul, transpose_smul, Matrix.smul_mul, Matrix.mul_smul, smul_smul,
      fromBlocks_smul, fromBlocks_add, smul_zero, add_zero]
    congr 3
    field_simp
    rw [h6]
    ring
  refine inv_eq_right_inv ?_
  rw [h1, fromBlocks_multiply, areaCov, mul_nonsing_inv _ (pd_isUnit_det (areaPrec_posDef S hδ c))]
  simp only [Matrix.mul_smul, Matrix.smul_mul, Matrix.mul_one, Matrix.mul_zero, Matrix.zero_mul, add_zero, zero_add, smul_smul,
    smul_zero]
  rw [mul_one_div, div_self hδ.ne', one_smul, fromBlocks_one]

end Ssm

variable {Ω : Type*} [MeasurableSpace Ω] {P : Measure Ω} {R : Ω → Rng}

/-- C97, what holds: for constant drift `b` and diffusion `S`, Algorithm 4 with the once integrated Brownian motion prior of scale
`c`, if it received the increment it lacks (C58), draws a Brownian increment `W` with the law `N(0, δ)` and a solution equal to the
exact one, `x0 + δ b + S W`, up to independent noise of variance `c² δ³ / (12 N²)`. Missing: the area coefficient has the
covariance `areaCov` rather than `δ/2` (`C97_fails`), and the code raises. -/
theorem C97_partial {la : LinAlg} (hla : la.Correct) (hR : IdealNormals P R) (EKF0 sqrt : Bool) (k : Key) {d : ℕ} (x0 b : Vec d)
    (S : Mat d d) {δ : ℝ} (hδ : 0 < δ) {c : ℝ} (hc : c ≠ 0) {N : ℕ} (hN : 0 < N) :
    ∃ Y W I : Ω → Vec d,
      (∀ ω, Ssm.wrapperFixed la (R ω) EKF0 (some k) x0 δ (fun _ _ => b) (fun _ _ => S) (δ / N) N sqrt
        (some ⟨2, IOUP.transition 0 c 1 (δ / N) 1⟩) = .ok (Y ω, W ω, I ω)) ∧
      IsNormal P (fun ω => Sum.elim (Y ω - (x0 + δ • b + S *ᵥ W ω)) (Sum.elim (W ω) (I ω))) 0
        (fromBlocks ((c ^ 2 * δ ^ 3 / (12 * N ^ 2)) • 1) 0 0 (fromBlocks (δ • 1) 0 0 (Ssm.areaCov δ S c))) := by
  have hN' : (N : ℝ) ≠ 0 := by positivity
  have hh : 0 < δ / N := by positivity
  obtain ⟨f, hf, hm, hC⟩ := Ssm.solver_const S hla EKF0 sqrt x0 b hδ hc hh N
  obtain ⟨Z, hZ, hfin⟩ := Ssm.finish_law hla hR k sqrt f (by rw [hC]; exact Ssm.stateCov_psd S hδ c hh N)
  refine ⟨fun ω => stride 0 (Z ω), fun ω => stride 2 (Z ω), fun ω => stride 3 (Z ω), fun ω => ?_, ?_⟩
  · rw [Ssm.wrapperFixed, hf]
    exact congrArg Except.ok (hfin ω)
  rw [hm, hC] at hZ
  have ht : (N : ℝ) * (δ / N) = δ := by field_simp
  rw [Ssm.stateCov, Ssm.precision_end S hδ hc hN, ht] at hZ
  set M : Matrix (Fin d ⊕ (Fin d ⊕ Fin d)) (Fin (d * (2 + 2))) ℝ :=
    fromRows (Ekf.E 0 - S * Ekf.E 2) (fromRows (Ekf.E 2) (Ekf.E 3)) with hM
  have hMl : M * Ssm.load δ S δ = fromRows 0 1 := by
    rw [hM, fromRows_mul, fromRows_mul, Matrix.sub_mul, Matrix.mul_assoc, Ssm.load, sel_mul_rows, sel_mul_rows, sel_mul_rows]
    simp only [cons_val_zero, cons_val, div_self hδ.ne', sub_self, mul_zero, zero_smul, one_smul, mul_fromCols, Matrix.mul_one,
      Matrix.mul_zero, fromRows_fromCols_eq_fromBlocks, fromBlocks_one]
  have hMs : M * Ssm.solDir d = fromRows 1 0 := by
    rw [hM, fromRows_mul, fromRows_mul, Matrix.sub_mul, Matrix.mul_assoc, Ssm.solDir, sel_mul_rows, sel_mul_rows, sel_mul_rows]
    simp
  have h1 := hZ.affine (Sum.elim (-(x0 + δ • b)) 0) M
  have hx : ∀ z : Vec (d * (2 + 2)), Sum.elim (-(x0 + δ • b)) 0 + M *ᵥ z =
      Sum.elim (stride 0 z - (x0 + δ • b + S *ᵥ stride 2 z)) (Sum.elim (stride 2 z) (stride 3 z)) := by
    intro z
    rw [hM, fromRows_mulVec, fromRows_mulVec, sub_mulVec, ← mulVec_mulVec, Ekf.E_mulVec, Ekf.E_mulVec, Ekf.E_mulVec]
    funext i
    rcases i with i | i | i
    · simp only [Pi.add_apply, Sum.elim_inl, Pi.neg_apply, Pi.sub_apply]; ring
    · simp
    · simp
  simp only [hx] at h1
  rw [stride_interlace, stride_interlace, stride_interlace] at h1
  simp only [cons_val_zero, cons_val, mulVec_zero, add_zero, sub_self] at h1
  have hc0 : M * (Ssm.load δ S δ * fromBlocks (δ • 1) 0 0 (Ssm.areaCov δ S c) * (Ssm.load δ S δ)ᵀ +
      ((N : ℝ) * (c ^ 2 * (δ / N) ^ 3 / 12)) • (Ssm.solDir d * (Ssm.solDir d)ᵀ)) * Mᵀ =
      fromBlocks ((c ^ 2 * δ ^ 3 / (12 * N ^ 2)) • 1) 0 0 (fromBlocks (δ • 1) 0 0 (Ssm.areaCov δ S c)) := by
    have e1 : ∀ (κ : Type) [Fintype κ] [DecidableEq κ] (L : Matrix (Fin (d * (2 + 2))) κ ℝ) (X : Matrix κ κ ℝ),
        M * (L * X * Lᵀ) * Mᵀ = M * L * X * (M * L)ᵀ := by
      intro κ _ _ L X
      rw [transpose_mul]
      simp only [Matrix.mul_assoc]
    have e2 := e1 (Fin d) (Ssm.solDir d) 1
    rw [Matrix.mul_one, Matrix.mul_one] at e2
    rw [Matrix.mul_add, Matrix.add_mul, Matrix.mul_smul, Matrix.smul_mul, e1, e2, hMl, hMs, transpose_fromRows, transpose_fromRows,
      fromRows_mul, fromRows_mul_fromCols, fromRows_mul_fromCols]
    simp only [transpose_zero, transpose_one, Matrix.mul_one, Matrix.mul_zero, Matrix.zero_mul, Matrix.one_mul, fromBlocks_smul,
      fromBlocks_add, smul_zero, add_zero, zero_add]
    congr 2
    field_simp
  rw [hc0] at h1
  have hz : (Sum.elim 0 (Sum.elim 0 0) : Fin d ⊕ (Fin d ⊕ Fin d) → ℝ) = 0 := by
    funext i; rcases i with i | i | i <;> rfl
  rwa [hz] at h1

/-- C97 fails: the area coefficient drawn with the increment does not have the law of the area coefficient of a Brownian motion,
`N(0, δ/2)`, unless the diffusion is zero. -/
theorem C97_fails {la : LinAlg} (hla : la.Correct) (hR : IdealNormals P R) (EKF0 sqrt : Bool) (k : Key) {d : ℕ} (x0 b : Vec d)
    {S : Mat d d} (hS : S ≠ 0) {δ : ℝ} (hδ : 0 < δ) {c : ℝ} (hc : c ≠ 0) {N : ℕ} (hN : 0 < N) {Y W I : Ω → Vec d}
    (hcall : ∀ ω, Ssm.wrapperFixed la (R ω) EKF0 (some k) x0 δ (fun _ _ => b) (fun _ _ => S) (δ / N) N sqrt
        (some ⟨2, IOUP.transition 0 c 1 (δ / N) 1⟩) = .ok (Y ω, W ω, I ω)) :
    ¬ IsNormal P I 0 ((δ / 2) • 1) := by
  obtain ⟨Y', W', I', h1, h2⟩ := C97_partial hla hR EKF0 sqrt k x0 b S hδ hc hN
  have hI : I' = I := by
    funext ω
    have := (h1 ω).symm.trans (hcall ω)
    simp only [Except.ok.injEq, Prod.mk.injEq] at this
    exact this.2.2
  subst hI
  intro h3
  have hV : Ssm.areaCov δ S c = (δ / 2) • 1 := by
    ext i j
    have a1 := h2.cov (Sum.inr (Sum.inr i)) (Sum.inr (Sum.inr j))
    have a2 := h3.cov i j
    simp only [Sum.elim_inr] at a1
    rw [a2] at a1
    simpa using a1.symm
  have h4 := mul_nonsing_inv _ (pd_isUnit_det (Ssm.areaPrec_posDef S hδ c))
  rw [← Ssm.areaCov, hV, Matrix.mul_smul, Matrix.mul_one, smul_add, smul_smul, show δ / 2 * (2 / δ) = 1 by field_simp, one_smul,
    add_eq_left, smul_smul] at h4
  have h5 : Sᵀ * S = 0 := by
    refine (smul_eq_zero.1 h4).resolve_left ?_
    positivity
  rw [← conjTranspose_eq_transpose_of_trivial] at h5
  exact hS (conjTranspose_mul_self_eq_zero.1 h5)

/-- C97, one dimension: the variance of the area coefficient is `δ/2` divided by `1 + 12 σ² / (c² δ²)`, so it is of order `δ³`
instead of `δ` as `δ → 0`. -/
theorem C97_fails_scalar {δ : ℝ} (hδ : 0 < δ) (σ : ℝ) {c : ℝ} (hc : c ≠ 0) :
    Ssm.areaCov δ (σ • 1 : Mat 1 1) c = (δ / 2 / (1 + 12 * σ ^ 2 / (c ^ 2 * δ ^ 2))) • 1 ∧
    (σ ≠ 0 → δ / 2 / (1 + 12 * σ ^ 2 / (c ^ 2 * δ ^ 2)) ≤ c ^ 2 * δ ^ 3 / (24 * σ ^ 2)) := by
  have hp : 0 < 1 + 12 * σ ^ 2 / (c ^ 2 * δ ^ 2) := by positivity
  constructor
  · refine inv_eq_right_inv ?_
    rw [transpose_smul, transpose_one, Matrix.smul_mul, Matrix.mul_smul, Matrix.one_mul, smul_smul, smul_smul, ← add_smul,
      Matrix.smul_mul, Matrix.one_mul, smul_smul]
    convert one_smul ℝ (1 : Mat 1 1) using 2
    field_simp
    ring
  · intro hσ
    rw [div_le_iff₀ hp]
    have : c ^ 2 * δ ^ 3 / (24 * σ ^ 2) * (1 + 12 * σ ^ 2 / (c ^ 2 * δ ^ 2)) = c ^ 2 * δ ^ 3 / (24 * σ ^ 2) + δ / 2 := by
      field_simp
      ring
    rw [this]
    have : 0 ≤ c ^ 2 * δ ^ 3 / (24 * σ ^ 2) := by positivity
    linarith

/-! ## The linearisation -/

/-- C57: the observation matrix of the EKF0 variant freezes the solution in drift and diffusion and nothing else: it is the
derivative component minus the diffusion at the predicted solution times the slope of the parabola. No smoothness is needed. -/
theorem C57_jacobian_ekf0 {d : ℕ} (drift : Field d) (sigma : Diffusion d d) (δ t : ℝ) (m v : Vec (d * (2 + 2))) :
    jac (fun z => Ssm.obsFn true drift sigma δ z m t) m *ᵥ v =
      stride 1 v - sigma (stride 0 m) t *ᵥ jacT (fun s => Foster.evalParabola s δ (stride 2 v) (stride 3 v)) t := by
  have h1 : ∀ z, Ssm.obsFn true drift sigma δ z m t = Ssm.obsMat δ (sigma (stride 0 m) t) t *ᵥ z + -(drift (stride 0 m) t) := by
    intro z
    rw [← Ssm.obsFn_const true (drift (stride 0 m) t) (sigma (stride 0 m) t) δ z m t]
    have : stride 0 (Ssm.setSol z (stride 0 m)) = stride 0 m := by funext i; simp [stride, Ssm.setSol]
    simp only [Ssm.obsFn, if_true, Ssm.field, this]
  simp only [h1, jac_affine]
  have := Ssm.obsFn_const true 0 (sigma (stride 0 m) t) δ v v t
  rw [neg_zero, add_zero] at this
  rw [← this, jacT_evalParabola]
  have hs : ∀ s : Fin (2 + 2), s ≠ 0 → stride s (Ssm.setSol v (stride 0 v)) = stride s v := by
    intro s hs; funext i; simp [stride, Ssm.setSol, hs]
  simp only [Ssm.obsFn, if_true, Ssm.field, zero_add]
  rw [Matrix.mul_assoc, ← mulVec_mulVec, ssm_weights, hs 2 (by decide), hs 3 (by decide)]

/-- C57: the observation matrix of the EKF1 variant also contains the derivative of the field `sde_solver` integrates with respect
to the solution. -/
theorem C57_jacobian_ekf1 {d : ℕ} (drift : Field d) (sigma : Diffusion d d) (δ t : ℝ) (m v : Vec (d * (2 + 2)))
    (hb : DifferentiableAt ℝ (fun x => drift x t) (stride 0 m))
    (hs : ∀ i j, DifferentiableAt ℝ (fun x => sigma x t i j) (stride 0 m)) :
    jac (fun z => Ssm.obsFn false drift sigma δ z m t) m *ᵥ v = stride 1 v -
      (fderiv ℝ (fun x => intervalField drift sigma (Foster.getApprox d) δ (stride 2 m, stride 3 m) 0 x t) (stride 0 m) (stride 0 v) +
        sigma (stride 0 m) t *ᵥ jacT (fun s => Foster.evalParabola s δ (stride 2 v) (stride 3 v)) t) := by
  let sL : Fin (2 + 2) → Vec (d * (2 + 2)) →L[ℝ] Vec d := fun s =>
    ContinuousLinearMap.pi fun i => ContinuousLinearMap.proj (flat i s)
  have hsL : ∀ s z, sL s z = stride s z := fun s z => rfl
  set w := √6 * (1 - 2 * t / δ) with hw
  let g : Vec (d * (2 + 2)) →L[ℝ] Vec d := (1 / δ) • sL 2 + (w / δ) • sL 3
  have hg : ∀ z : Vec (d * (2 + 2)), jacT (fun s => Foster.evalParabola s δ (stride 2 z) (stride 3 z)) t = g z := by
    intro z
    rw [jacT_evalParabola]
    funext j
    simp only [g, ContinuousLinearMap.add_apply, ContinuousLinearMap.smul_apply, hsL, Pi.add_apply, Pi.smul_apply, smul_eq_mul, hw]
    ring
  have hobs : ∀ z, Ssm.obsFn false drift sigma δ z m t = sL 1 z - (drift (sL 0 z) t + sigma (sL 0 z) t *ᵥ g z) := by
    intro z
    have h1 := C57_field drift sigma δ 0 t z
    simp only [add_zero] at h1
    simp only [Ssm.obsFn, Bool.false_eq_true, if_false, h1, intervalField, add_zero, hsL]
    rw [show (Foster.getApprox d).eval = fun t δ c => Foster.evalParabola t δ c.1 c.2 from rfl, hg]
  have hF : ∀ x, intervalField drift sigma (Foster.getApprox d) δ (stride 2 m, stride 3 m) 0 x t =
      drift x t + sigma x t *ᵥ g m := by
    intro x
    simp only [intervalField, add_zero]
    rw [show (Foster.getApprox d).eval = fun t δ c => Foster.evalParabola t δ c.1 c.2 from rfl, hg]
  -- derivative in the solution, the coefficients fixed
  have hD1 : HasFDerivAt (fun x => drift x t + sigma x t *ᵥ g m) (fderiv ℝ (fun x => drift x t) (stride 0 m) +
      ContinuousLinearMap.pi fun i => ∑ j, g m j • fderiv ℝ (fun x => sigma x t i j) (stride 0 m)) (stride 0 m) := by
    refine hb.hasFDerivAt.add (hasFDerivAt_pi.2 fun i => ?_)
    simp only [mulVec, dotProduct]
    exact HasFDerivAt.fun_sum fun j _ => (hs i j).hasFDerivAt.mul_const (g m j)
  have hD2 : HasFDerivAt (fun z => drift (sL 0 z) t + sigma (sL 0 z) t *ᵥ g z)
      ((fderiv ℝ (fun x => drift x t) (stride 0 m)).comp (sL 0) + ContinuousLinearMap.pi fun i =>
        ∑ j, (sigma (stride 0 m) t i j • (ContinuousLinearMap.proj j).comp g +
          g m j • (fderiv ℝ (fun x => sigma x t i j) (stride 0 m)).comp (sL 0))) m := by
    refine HasFDerivAt.add (HasFDerivAt.comp (g := fun x => drift x t) (f := sL 0) m hb.hasFDerivAt (sL 0).hasFDerivAt)
      (hasFDerivAt_pi.2 fun i => ?_)
    simp only [mulVec, dotProduct]
    refine HasFDerivAt.fun_sum fun j _ => ?_
    exact (HasFDerivAt.comp (g := fun x => sigma x t i j) (f := sL 0) m (hs i j).hasFDerivAt (sL 0).hasFDerivAt).mul
      ((ContinuousLinearMap.proj (R := ℝ) (φ := fun _ : Fin d => ℝ) j).comp g).hasFDerivAt
  have hD3 := ((sL 1).hasFDerivAt (x := m)).sub hD2
  have hD3' : HasFDerivAt (fun z => Ssm.obsFn false drift sigma δ z m t) _ m := hD3.congr_of_eventuallyEq (.of_forall hobs)
  rw [jac_mulVec hD3'.differentiableAt, hD3'.fderiv, hg, show (fun x => intervalField drift sigma (Foster.getApprox d) δ
    (stride 2 m, stride 3 m) 0 x t) = _ from funext hF, hD1.fderiv]
  funext i
  simp only [ContinuousLinearMap.sub_apply, ContinuousLinearMap.add_apply, ContinuousLinearMap.comp_apply, hsL, Pi.sub_apply,
    Pi.add_apply, ContinuousLinearMap.pi_apply, ContinuousLinearMap.sum_apply, ContinuousLinearMap.smul_apply, smul_eq_mul,
    ContinuousLinearMap.proj_apply, mulVec, dotProduct, Finset.sum_add_distrib]
  ring

/-! ## The hypotheses can be met -/

/-- C97 for an ideal generator, two dimensions, a correlated diffusion, ten steps and both modes. -/
example (sqrt EKF0 : Bool) (k : Key) : ∃ Y W I : _ → Vec 2,
    (∀ z, Ssm.wrapperFixed exactLinAlg (drawsRng z) EKF0 (some k) ![1, 2] (1 / 2) (fun _ _ => ![1, -1])
      (fun _ _ => !![1, 2; 0, 3]) (1 / 2 / (10 : ℕ)) 10 sqrt (some ⟨2, IOUP.transition 0 1 1 (1 / 2 / (10 : ℕ)) 1⟩) =
        .ok (Y z, W z, I z)) ∧
    ¬ IsNormal drawsMeasure I 0 ((1 / 2 / 2 : ℝ) • 1) := by
  obtain ⟨Y, W, I, h1, -⟩ := C97_partial exactLinAlg_correct idealNormals_drawsRng EKF0 sqrt k ![1, 2] ![1, -1] !![1, 2; 0, 3]
    (show (0 : ℝ) < 1 / 2 by norm_num) one_ne_zero (show 0 < 10 by norm_num)
  refine ⟨Y, W, I, h1, C97_fails exactLinAlg_correct idealNormals_drawsRng EKF0 sqrt k _ _ ?_ (by norm_num) one_ne_zero
    (by norm_num) h1⟩
  intro h
  simpa using congrFun (congrFun h 0) 0

/-- A state-dependent diffusion for the linearisation of EKF1. -/
example (x : Vec 2) (t : ℝ) (i j : Fin 2) : DifferentiableAt ℝ (fun x : Vec 2 => (diagonal x * t • 1 : Mat 2 2) i j) x := by
  simp only [Matrix.mul_smul, Matrix.mul_one, Matrix.smul_apply, diagonal_apply, smul_eq_mul]
  split_ifs <;> fun_prop

end Verif
