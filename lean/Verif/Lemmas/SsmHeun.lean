import Verif.Props.SsmAdditive

/-! One step of the (repaired) parabola filter of Algorithm 4, EKF0 variant, for a general drift and a constant diffusion. -/

namespace Verif

open Matrix Spec Jnp

/-- A step only looks at the observation function with the second argument at the predicted mean. -/
theorem KF.step_congr (la : LinAlg) {nx ny : ℕ} {obs obs' : ObsFn nx ny} (A Q : Mat nx nx) (xi : Vec nx) (R : Mat ny ny) (sqrt : Bool)
    (x : Gauss nx) (t : ℝ) (h : ∀ z, obs z (A *ᵥ x.mean + xi) t = obs' z (A *ᵥ x.mean + xi) t) :
    KF.step la obs A Q xi R sqrt x t = KF.step la obs' A Q xi R sqrt x t := by
  have hm : (KF.predict la x A Q xi sqrt).mean = A *ᵥ x.mean + xi := by cases sqrt <;> rfl
  simp only [KF.step, hm, h]

/-- The covariance after a step only depends on the covariance before and on the observation matrix. -/
theorem KF.step_cov_congr (la : LinAlg) {nx ny : ℕ} {obs obs' : ObsFn nx ny} (A Q : Mat nx nx) (xi : Vec nx) (R : Mat ny ny) (sqrt : Bool)
    {x x' : Gauss nx} (hx : x.cov = x'.cov) (t : ℝ) {H : Mat ny nx} {c c' : Vec ny} (h : ∀ z, obs z (A *ᵥ x.mean + xi) t = H *ᵥ z + c)
    (h' : ∀ z, obs' z (A *ᵥ x'.mean + xi) t = H *ᵥ z + c') :
    (KF.step la obs A Q xi R sqrt x t).1.cov = (KF.step la obs' A Q xi R sqrt x' t).1.cov := by
  have hm : ∀ x : Gauss nx, (KF.predict la x A Q xi sqrt).mean = A *ᵥ x.mean + xi := fun x => by cases sqrt <;> rfl
  have hc : (KF.predict la x A Q xi sqrt).cov = (KF.predict la x' A Q xi sqrt).cov := by
    cases sqrt <;> simp [KF.predict, hx]
  simp only [KF.step, hm, h, h', jac_affine]
  cases sqrt
  · simp [KF.update, hc]
  · simp only [KF.update, if_true]
    rw [hc]

namespace Ssm

variable {d : ℕ} {δ : ℝ} (S : Mat d d)

theorem obsFn_ekf0 (f : Field d) (z w : Vec (d * (2 + 2))) (t : ℝ) :
    obsFn true f (fun _ _ => S) δ z w t = obsMat δ S t *ᵥ z + -f (stride 0 w) t := by
  rw [← obsFn_const true (f (stride 0 w) t) S δ z w t]
  have h : stride 0 (setSol z (stride 0 w)) = stride 0 w := by funext i; simp [stride, setSol]
  simp only [obsFn, if_true, field, h]

/-- The cross covariance of the solution and the residual is `δ / 2` times the covariance of the residual. -/
theorem gain_sol (hδ : 0 < δ) {c : ℝ} (hc : c ≠ 0) :
    let C := predCov (transitionMatrix d !![1, δ; 0, 1])
      (transitionCovariance d !![c ^ 2 * (δ ^ 3 / 3), c ^ 2 * (δ ^ 2 / 2); c ^ 2 * (δ ^ 2 / 2), c ^ 2 * δ]) (var δ S)
    (Ekf.E 0 : Mat d (d * (2 + 2))) * gain C (obsMat δ S δ) 0 = (δ / 2) • 1 ∧
      (Ekf.E 2 : Mat d (d * (2 + 2))) * gain C (obsMat δ S δ) 0 = 0 := by
  intro C
  set A := transitionMatrix d !![1, δ; 0, 1] with hA
  set D : Matrix (Fin d ⊕ Fin d) (Fin d ⊕ Fin d) ℝ := fromBlocks (δ • 1) 0 0 ((δ / 2) • 1) with hD
  set G := load δ S 0 with hG
  set B := noiseDir d δ with hB
  set g := slope δ S δ with hg
  set H := obsMat δ S δ with hH
  have hDs : Dᵀ = D := by rw [hD, fromBlocks_transpose]; simp
  have hHG : H * (A * G) = g := by have := obs_load S 0 δ hδ.ne'; rwa [zero_add] at this
  have hAG : A * G = load δ S δ + B * g := by
    have := load_step S 0 δ hδ.ne'
    rw [zero_add] at this
    rw [← this]; abel
  have hHB : H * B = 1 := obsMat_noiseDir δ S δ δ
  have hHE : H * solDir d = 0 := obsMat_solDir δ S δ
  have hHL : H * load δ S δ = 0 := by
    have := hHG
    rw [hAG, Matrix.mul_add, ← Matrix.mul_assoc, hHB, Matrix.one_mul] at this
    simpa using this
  have hCH : C * Hᵀ = load δ S δ * D * gᵀ + B * (g * D * gᵀ + (c ^ 2 * δ) • 1) := by
    have h1 : C = A * G * D * (A * G)ᵀ + (c ^ 2 * δ) • (B * Bᵀ) + (c ^ 2 * δ ^ 3 / 12) • (solDir d * (solDir d)ᵀ) := by
      simp only [C, predCov]
      rw [transCov_eq, var_eq hδ, transpose_mul]
      simp only [Matrix.mul_assoc, add_assoc]
      rfl
    have h2 : (A * G)ᵀ * Hᵀ = gᵀ := by rw [← transpose_mul, hHG]
    have h3 : Bᵀ * Hᵀ = 1 := by rw [← transpose_mul, hHB, transpose_one]
    have h4 : (solDir d)ᵀ * Hᵀ = 0 := by rw [← transpose_mul, hHE, transpose_zero]
    rw [h1, Matrix.add_mul, Matrix.add_mul, Matrix.smul_mul, Matrix.smul_mul, Matrix.mul_assoc (A * G * D), h2,
      Matrix.mul_assoc B, h3, Matrix.mul_assoc (solDir d), h4,
      hAG, Matrix.mul_one, Matrix.mul_zero, smul_zero, add_zero, Matrix.mul_add, Matrix.mul_smul, Matrix.mul_one, Matrix.add_mul, Matrix.add_mul]
    simp only [Matrix.mul_assoc, add_assoc]
  have hin : innovCov C H 0 = g * D * gᵀ + (c ^ 2 * δ) • 1 := by
    rw [innovCov, add_zero, Matrix.mul_assoc, hCH, Matrix.mul_add, ← Matrix.mul_assoc, ← Matrix.mul_assoc, ← Matrix.mul_assoc, hHL, hHB]
    simp
  have hpd : (innovCov C H 0).PosDef := by
    rw [hin]
    refine PosDef.posSemidef_add ?_ (PosDef.one.smul (by positivity))
    have hDp : D.PosSemidef := by
      rw [hD, smul_one_eq_diagonal, smul_one_eq_diagonal, fromBlocks_diagonal]
      refine PosSemidef.diagonal fun i => ?_
      rcases i with i | i <;> simp <;> positivity
    have := hDp.mul_mul_conjTranspose_same g
    rwa [conjTranspose_eq_transpose_of_trivial] at this
  have hu := pd_isUnit_det hpd
  have hzero : ∀ X : Mat d d, fromCols X (0 : Mat d d) * D * gᵀ = 0 := fun X => by
    rw [hD, fromCols_mul_fromBlocks, hg, slope, transpose_fromCols, fromCols_mul_fromRows]
    simp
  have hE0 : (Ekf.E 0 : Mat d (d * (2 + 2))) * load δ S δ = fromCols S 0 := by
    rw [load, sel_mul_rows]
    simp [hδ.ne']
  have hE2 : (Ekf.E 2 : Mat d (d * (2 + 2))) * load δ S δ = fromCols 1 0 := by
    rw [load, sel_mul_rows]
    simp
  have hB0 : (Ekf.E 0 : Mat d (d * (2 + 2))) * B = (δ / 2) • 1 := by rw [hB, noiseDir, sel_mul_rows]; simp
  have hB2 : (Ekf.E 2 : Mat d (d * (2 + 2))) * B = 0 := by rw [hB, noiseDir, sel_mul_rows]; simp
  constructor
  · rw [gain, hCH, ← hin, ← Matrix.mul_assoc, Matrix.mul_add, ← Matrix.mul_assoc, ← Matrix.mul_assoc, ← Matrix.mul_assoc, hE0, hzero, hB0,
      zero_add, Matrix.smul_mul, Matrix.one_mul, Matrix.smul_mul, mul_nonsing_inv _ hu]
  · rw [gain, hCH, ← hin, ← Matrix.mul_assoc, Matrix.mul_add, ← Matrix.mul_assoc, ← Matrix.mul_assoc, ← Matrix.mul_assoc, hE2, hzero, hB2]
    simp

theorem ekf_single (la : LinAlg) {nx ny : ℕ} (x : Gauss nx) (obs : ObsFn nx ny) (A Q : Mat nx nx) (xi : Vec nx) (R : Mat ny ny) (ts : ℕ → ℝ)
    (sqrt : Bool) : KF.ekf la x obs A Q xi R ((List.range 1).map ts) sqrt = (KF.step la obs A Q xi R sqrt x (ts 0)).1 := by
  rw [List.range_one, List.map_singleton, KF.ekf_cons]
  rfl

/-- The step of the filter, in exact arithmetic and with plain covariances. -/
theorem run_heun {la : LinAlg} (hla : la.Correct) (f : Field d) (x0 : Vec d) (hδ : 0 < δ) {c : ℝ} (hc : c ≠ 0) :
    let Q := transitionCovariance d !![c ^ 2 * (δ ^ 3 / 3), c ^ 2 * (δ ^ 2 / 2); c ^ 2 * (δ ^ 2 / 2), c ^ 2 * δ]
    let ts := (List.range 1).map fun (k : ℕ) => ((k : ℝ) + 1) * δ
    let obs := obsFn true f (fun _ _ => S) δ
    WellPosed la obs (transitionMatrix d !![1, δ; 0, 1]) Q 0 0 ⟨mean x0 f, var δ S⟩ ts ∧
    ∃ m, KF.ekf la ⟨mean x0 f, var δ S⟩ obs (transitionMatrix d !![1, δ; 0, 1]) Q 0 0 ts false = ⟨m, stateCov δ S c δ 1⟩ ∧
      stride 0 m = x0 + (δ / 2) • (f x0 0 + f (x0 + δ • f x0 0) δ) ∧ stride 2 m = 0 := by
  intro Q ts obs
  have hQ : Q.PosSemidef := by
    simp only [Q, transCov_eq]
    exact ((psd_self_mul_transpose _).smul (by positivity)).add ((psd_self_mul_transpose _).smul (by positivity))
  obtain ⟨A, hA⟩ : ∃ A, A = transitionMatrix d !![1, δ; 0, 1] := ⟨_, rfl⟩
  have hpm : A *ᵥ mean x0 f + 0 = interlace ![x0 + δ • f x0 0, f x0 0, 0, 0] := by rw [add_zero, hA]; exact trans_mean δ x0 (f x0 0)
  have hst : KF.step la obs A Q 0 0 false ⟨mean x0 f, var δ S⟩ (((0 : ℕ) + 1 : ℝ) * δ) =
      KF.step la (obsFn true (fun _ _ => f (x0 + δ • f x0 0) δ) (fun _ _ => S) δ) A Q 0 0 false ⟨mean x0 f, var δ S⟩ (((0 : ℕ) + 1 : ℝ) * δ) := by
    refine KF.step_congr la A Q 0 0 false _ _ fun z => ?_
    rw [hpm]
    simp only [obs]
    rw [obsFn_ekf0, obsFn_ekf0, stride_interlace]
    simp
  obtain ⟨g1, g2⟩ := step_affine hla (obsFn true (fun _ _ => f (x0 + δ • f x0 0) δ) (fun _ _ => S) δ) A Q 0 0 ⟨mean x0 f, var δ S⟩ (((0 : ℕ) + 1 : ℝ) * δ)
    (obsMat δ S δ) (-f (x0 + δ • f x0 0) δ) (fun z w => by rw [obsFn_ekf0]; simp) (C56_psd hδ S) hQ
  obtain ⟨h1, h2⟩ := ric_step S δ hδ hc hδ 0
  rw [Nat.cast_one, one_mul, stateCov_zero S hδ] at h1 h2
  rw [← hA] at h1 h2 ⊢
  obtain ⟨k0, k2⟩ := gain_sol S hδ hc
  rw [← hA] at k0 k2
  have hmean : ∀ s : Fin (2 + 2), stride s (postMean (A *ᵥ mean x0 f + 0) (predCov A Q (var δ S))
      (obsMat δ S δ *ᵥ (A *ᵥ mean x0 f + 0) + -f (x0 + δ • f x0 0) δ) (obsMat δ S δ) 0) =
      (![x0 + δ • f x0 0, f x0 0, 0, 0] : Fin (2 + 2) → Vec d) s -
        (Ekf.E s * gain (predCov A Q (var δ S)) (obsMat δ S δ) 0) *ᵥ (f x0 0 - f (x0 + δ • f x0 0) δ) := fun s => by
    have hr : obsMat δ S δ *ᵥ (A *ᵥ mean x0 f + 0) + -f (x0 + δ • f x0 0) δ = f x0 0 - f (x0 + δ • f x0 0) δ := by
      have := obs_mean S (δ := δ) δ (x0 + δ • f x0 0) (f x0 0)
      rw [← hpm] at this
      rw [add_neg_eq_zero.mp this]
      abel
    rw [hr, postMean, ← Ekf.E_mulVec, mulVec_sub, mulVec_mulVec, Ekf.E_mulVec, hpm, stride_interlace]
  refine ⟨⟨by rw [hst, g1]; exact h1, trivial⟩, _, by rw [ekf_single, hst, g2 h1, h2], ?_, ?_⟩
  · rw [hmean 0, k0, smul_mulVec, one_mulVec]
    simp only [cons_val_zero]
    funext i
    simp only [Pi.add_apply, Pi.sub_apply, Pi.smul_apply, smul_eq_mul]
    ring
  · rw [hmean 2, k2]
    simp

/-- The result of the repaired solver with one filter step, in both modes: the covariance does not depend on the drift and the start. -/
theorem solver_heun {la : LinAlg} (hla : la.Correct) (sqrt : Bool) (hδ : 0 < δ) {c : ℝ} (hc : c ≠ 0) :
    ∃ F : Mat (d * (2 + 2)) (d * (2 + 2)), (∀ m, covOf sqrt ⟨m, F⟩ = stateCov δ S c δ 1) ∧ ∀ (f : Field d) (x0 : Vec d), ∃ m,
      solverWith la (some 0) x0 f (fun _ _ => S) δ δ 1 sqrt true (some ⟨2, IOUP.transition 0 c 1 δ 1⟩) none = .ok ⟨m, F⟩ ∧
      stride 0 m = x0 + (δ / 2) • (f x0 0 + f (x0 + δ • f x0 0) δ) ∧ stride 2 m = 0 := by
  have hA : (show Mat 2 2 from (IOUP.transition 0 c 1 δ 1).A) = !![1, δ; 0, 1] := by
    have := kron_one1 (expm (δ • IOUP.F 0 1))
    rw [Ekf.ibm1_A] at this
    rw [← this, ← Ekf.ibm1_A]
    rfl
  have hQ : (show Mat 2 2 from (IOUP.transition 0 c 1 δ 1).Q) =
      !![c ^ 2 * (δ ^ 3 / 3), c ^ 2 * (δ ^ 2 / 2); c ^ 2 * (δ ^ 2 / 2), c ^ 2 * δ] := by
    have := kron_one1 (IOUP.Q1 c 1 δ)
    rw [Ekf.ibm1_Q] at this
    rw [← this, ← Ekf.ibm1_Q]
    rfl
  have hQp : (!![c ^ 2 * (δ ^ 3 / 3), c ^ 2 * (δ ^ 2 / 2); c ^ 2 * (δ ^ 2 / 2), c ^ 2 * δ] : Mat 2 2).PosDef := by
    rw [← hQ]; exact Ekf.ibm_Q_posDef hc 1 hδ 1
  have hsol : ∀ (f : Field d) (x0 : Vec d) (q : Prior 2), solverWith la (some 0) x0 f (fun _ _ => S) δ δ 1 sqrt true (some ⟨2, q⟩) none =
      .ok (KF.ekf la ⟨mean x0 f, if sqrt then la.sqrtm (var δ S) else var δ S⟩ (obsFn true f (fun _ _ => S) δ)
        (transitionMatrix d q.A) (transitionCovariance d (if sqrt then la.cholesky q.Q else q.Q)) 0 0 (linspace δ ((1 : ℕ) * δ) 1) sqrt) := by
    intro f x0 q
    rw [solverWith, dif_pos rfl]
    rfl
  have hsol' : ∀ (f : Field d) (x0 : Vec d), solverWith la (some 0) x0 f (fun _ _ => S) δ δ 1 sqrt true (some ⟨2, IOUP.transition 0 c 1 δ 1⟩) none =
      .ok (KF.ekf la ⟨mean x0 f, if sqrt then la.sqrtm (var δ S) else var δ S⟩ (obsFn true f (fun _ _ => S) δ)
        (transitionMatrix d !![1, δ; 0, 1]) (transitionCovariance d (if sqrt then la.cholesky
          !![c ^ 2 * (δ ^ 3 / 3), c ^ 2 * (δ ^ 2 / 2); c ^ 2 * (δ ^ 2 / 2), c ^ 2 * δ] else
          !![c ^ 2 * (δ ^ 3 / 3), c ^ 2 * (δ ^ 2 / 2); c ^ 2 * (δ ^ 2 / 2), c ^ 2 * δ])) 0 0
        ((List.range 1).map fun (k : ℕ) => ((k : ℝ) + 1) * δ) sqrt) := by
    intro f x0
    rw [hsol f x0 _, Ekf.linspace_ts, show (show Prior 2 from IOUP.transition 0 c 1 δ 1).A = _ from hA,
      show (show Prior 2 from IOUP.transition 0 c 1 δ 1).Q = _ from hQ]
  have hmode : ∀ (f : Field d) (x0 : Vec d), ∃ m,
      (KF.ekf la ⟨mean x0 f, if sqrt then la.sqrtm (var δ S) else var δ S⟩ (obsFn true f (fun _ _ => S) δ)
        (transitionMatrix d !![1, δ; 0, 1]) (transitionCovariance d (if sqrt then la.cholesky
          !![c ^ 2 * (δ ^ 3 / 3), c ^ 2 * (δ ^ 2 / 2); c ^ 2 * (δ ^ 2 / 2), c ^ 2 * δ] else
          !![c ^ 2 * (δ ^ 3 / 3), c ^ 2 * (δ ^ 2 / 2); c ^ 2 * (δ ^ 2 / 2), c ^ 2 * δ])) 0 0
        ((List.range 1).map fun (k : ℕ) => ((k : ℝ) + 1) * δ) sqrt).mean = m ∧
      covOf sqrt (KF.ekf la ⟨mean x0 f, if sqrt then la.sqrtm (var δ S) else var δ S⟩ (obsFn true f (fun _ _ => S) δ)
        (transitionMatrix d !![1, δ; 0, 1]) (transitionCovariance d (if sqrt then la.cholesky
          !![c ^ 2 * (δ ^ 3 / 3), c ^ 2 * (δ ^ 2 / 2); c ^ 2 * (δ ^ 2 / 2), c ^ 2 * δ] else
          !![c ^ 2 * (δ ^ 3 / 3), c ^ 2 * (δ ^ 2 / 2); c ^ 2 * (δ ^ 2 / 2), c ^ 2 * δ])) 0 0
        ((List.range 1).map fun (k : ℕ) => ((k : ℝ) + 1) * δ) sqrt) = stateCov δ S c δ 1 ∧
      stride 0 m = x0 + (δ / 2) • (f x0 0 + f (x0 + δ • f x0 0) δ) ∧ stride 2 m = 0 := by
    intro f x0
    obtain ⟨hw, m, hr, h0, h2⟩ := run_heun S hla f x0 hδ hc
    refine ⟨m, ?_⟩
    cases sqrt
    · simp only [Bool.false_eq_true, if_false, covOf, hr]
      exact ⟨trivial, trivial, h0, h2⟩
    · simp only [if_true, covOf]
      have h1 := C24_run hla (obsFn true f (fun _ _ => S) δ) (transitionMatrix d !![1, δ; 0, 1])
        (transitionCovariance d (la.cholesky !![c ^ 2 * (δ ^ 3 / 3), c ^ 2 * (δ ^ 2 / 2); c ^ 2 * (δ ^ 2 / 2), c ^ 2 * δ])) _ 0 0 0
        (show IsFactor _ (transitionCovariance d !![c ^ 2 * (δ ^ 3 / 3), c ^ 2 * (δ ^ 2 / 2); c ^ 2 * (δ ^ 2 / 2), c ^ 2 * δ]) by
          rw [IsFactor, transitionCovariance_mul, hla.chol_mul _ hQp]) Ekf.isFactor_zero
        ⟨mean x0 f, la.sqrtm (var δ S)⟩ ⟨mean x0 f, var δ S⟩ ⟨rfl, hla.sqrtm_mul_transpose (C56_psd hδ S)⟩ _ hw 1
      rw [List.take_of_length_le (by simp), hr] at h1
      exact ⟨h1.1, h1.2, h0, h2⟩
  have hcov : ∀ (f f' : Field d) (x0 x0' : Vec d) (Q0 V : Mat (d * (2 + 2)) (d * (2 + 2))),
      (KF.ekf la ⟨mean x0 f, V⟩ (obsFn true f (fun _ _ => S) δ) (transitionMatrix d !![1, δ; 0, 1]) Q0 0 0
        ((List.range 1).map fun (k : ℕ) => ((k : ℝ) + 1) * δ) sqrt).cov =
      (KF.ekf la ⟨mean x0' f', V⟩ (obsFn true f' (fun _ _ => S) δ) (transitionMatrix d !![1, δ; 0, 1]) Q0 0 0
        ((List.range 1).map fun (k : ℕ) => ((k : ℝ) + 1) * δ) sqrt).cov := fun f f' x0 x0' Q0 V => by
    rw [ekf_single, ekf_single]
    exact KF.step_cov_congr la (transitionMatrix d !![1, δ; 0, 1]) Q0 0 0 sqrt (x := ⟨mean x0 f, V⟩) (x' := ⟨mean x0' f', V⟩) rfl
      (((0 : ℕ) + 1) * δ) (H := obsMat δ S (((0 : ℕ) + 1) * δ)) (fun z => obsFn_ekf0 S f z _ _) (fun z => obsFn_ekf0 S f' z _ _)
  refine ⟨_, fun m => (hmode (fun _ _ => 0) 0).choose_spec.2.1, fun f x0 => ?_⟩
  obtain ⟨m, h1, -, h3, h4⟩ := hmode f x0
  refine ⟨m, (hsol' f x0).trans (congrArg Except.ok (Gauss.ext h1 (hcov f _ x0 _ _ _))), h3, h4⟩

end Ssm

end Verif
