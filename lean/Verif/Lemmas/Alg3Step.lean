import Verif.Props.RosEkf

/-! Helper lemmas: one step of EKF1 from a state with uncertainty, as Algorithm 3 takes it. -/

namespace Verif

open Matrix Spec Jnp

variable {d : ℕ}

/-! ## The matrices of one step

`J0` and `J1` are the Jacobians of the field at the mean and at the prediction, `p` is the covariance in units of the prior scale. -/

/-- The linearised flow of the prediction. -/
def alg3F (h : ℝ) (J0 : Mat d d) : Mat d d := 1 + h • J0

/-- The sensitivity of the residual to the initial value. -/
def alg3E (h : ℝ) (J0 J1 : Mat d d) : Mat d d := J0 - J1 * alg3F h J0

/-- The covariance of the residual. -/
noncomputable def alg3S (h : ℝ) (J0 J1 p : Mat d d) : Mat d d :=
  alg3E h J0 J1 * p * (alg3E h J0 J1)ᵀ + h • (1 - (h / 2) • (J1 + J1ᵀ) + (h ^ 2 / 3) • (J1 * J1ᵀ))

/-- The covariance of the prediction with the residual. -/
noncomputable def alg3G (h : ℝ) (J0 J1 p : Mat d d) : Mat d d :=
  alg3F h J0 * p * (alg3E h J0 J1)ᵀ + (h ^ 2 / 2) • 1 - (h ^ 3 / 3) • J1ᵀ

/-- The gain. -/
noncomputable def alg3K (h : ℝ) (J0 J1 p : Mat d d) : Mat d d := alg3G h J0 J1 p * (alg3S h J0 J1 p)⁻¹

/-- The covariance after the step. -/
noncomputable def alg3P (h : ℝ) (J0 J1 p : Mat d d) : Mat d d :=
  alg3F h J0 * p * (alg3F h J0)ᵀ + (h ^ 3 / 3) • 1 - alg3K h J0 J1 p * alg3S h J0 J1 p * (alg3K h J0 J1 p)ᵀ

/-- The mean after the step. -/
noncomputable def alg3Mean (vf : Vec d → ℝ → Vec d) (h : ℝ) (J0 J1 p : Mat d d) (y : Vec d) : Vec d :=
  y + h • vf y 0 + alg3K h J0 J1 p *ᵥ (vf (y + h • vf y 0) h - vf y 0)

namespace Ekf

theorem kron_E' (p q q' r : ℝ) : kron (1 : Mat d d) (!![p, q; q', r] : Mat (0 + 2) (0 + 2)) =
    (E 0 : Mat d (d * (0 + 2)))ᵀ * (p • E 0 + q • E 1) + (E 1 : Mat d (d * (0 + 2)))ᵀ * (q' • E 0 + r • E 1) := by
  ext a b
  rw [← flat_div_mod a, ← flat_div_mod b]
  generalize a.divNat = i
  generalize b.divNat = j
  generalize a.modNat = s
  generalize b.modNat = t
  rw [kron_flat, Matrix.add_apply, mul_apply, mul_apply]
  simp only [transpose_apply, E_flat, Matrix.add_apply, Matrix.smul_apply, smul_eq_mul, Matrix.one_apply]
  have hs : s = 0 ∨ s = 1 := by fin_cases s <;> simp
  have ht : t = 0 ∨ t = 1 := by fin_cases t <;> simp
  rcases hs with rfl | rfl <;> rcases ht with rfl | rfl <;> by_cases hij : i = j <;> simp [hij, eq_comm]

theorem E0_mul (p q q' r : ℝ) : (E 0 : Mat d (d * (0 + 2))) * kron (1 : Mat d d) (!![p, q; q', r] : Mat (0 + 2) (0 + 2)) = p • E 0 + q • E 1 := by
  rw [kron_E', Matrix.mul_add, ← Matrix.mul_assoc, ← Matrix.mul_assoc, E00, E01, Matrix.one_mul, Matrix.zero_mul, add_zero]

theorem E1_mul (p q q' r : ℝ) : (E 1 : Mat d (d * (0 + 2))) * kron (1 : Mat d d) (!![p, q; q', r] : Mat (0 + 2) (0 + 2)) = q' • E 0 + r • E 1 := by
  rw [kron_E', Matrix.mul_add, ← Matrix.mul_assoc, ← Matrix.mul_assoc, E10, E11, Matrix.one_mul, Matrix.zero_mul, zero_add]

theorem E0_lift (J : Mat d d) : (E 0 : Mat d (d * (0 + 2))) * lift J = 1 := by
  rw [lift_E, Matrix.mul_add, ← Matrix.mul_assoc, E00, E01, Matrix.zero_mul, add_zero]

theorem E1_lift (J : Mat d d) : (E 1 : Mat d (d * (0 + 2))) * lift J = J := by
  rw [lift_E, Matrix.mul_add, ← Matrix.mul_assoc, E10, E11, Matrix.one_mul, zero_add]

end Ekf

theorem alg3W_eq (h : ℝ) (J : Mat d d) : (1 : Mat d d) - (h / 2) • (J + Jᵀ) + (h ^ 2 / 3) • (J * Jᵀ) = rosW h Jᵀ := by
  rw [rosW, transpose_transpose, add_comm J]

theorem alg3S_posDef {h : ℝ} (hh : 0 < h) (J0 J1 : Mat d d) {p : Mat d d} (hp : p.PosSemidef) : (alg3S h J0 J1 p).PosDef := by
  rw [alg3S, alg3W_eq]
  exact PosDef.posSemidef_add (psd_mul_mul_transpose hp _) ((rosW_posDef hh _).smul hh)

/-- The covariance of the prediction. -/
theorem alg3_pred {σ h : ℝ} (J0 J1 p : Mat d d) {A Q C0 : Mat (d * (0 + 2)) (d * (0 + 2))}
    (hA : A = kron (1 : Mat d d) (!![1, h; 0, 1] : Mat (0 + 2) (0 + 2)))
    (hQ : Q = kron (1 : Mat d d) (!![σ ^ 2 * (h ^ 3 / 3), σ ^ 2 * (h ^ 2 / 2); σ ^ 2 * (h ^ 2 / 2), σ ^ 2 * h] : Mat (0 + 2) (0 + 2)))
    (hS : C0 = A * (Ekf.lift J0 * (σ ^ 2 • p) * (Ekf.lift J0)ᵀ) * Aᵀ + Q) :
    (Ekf.E 0 : Mat d (d * (0 + 2))) * C0 * (Ekf.E 0 : Mat d (d * (0 + 2)))ᵀ = σ ^ 2 • (alg3F h J0 * p * (alg3F h J0)ᵀ + (h ^ 3 / 3) • 1) ∧
    (Ekf.E 0 : Mat d (d * (0 + 2))) * C0 * (Ekf.E 1 - J1 * Ekf.E 0)ᵀ = σ ^ 2 • alg3G h J0 J1 p ∧
    (Ekf.E 1 - J1 * Ekf.E 0) * C0 * (Ekf.E 1 - J1 * Ekf.E 0)ᵀ = σ ^ 2 • alg3S h J0 J1 p := by
  set E0 := (Ekf.E 0 : Mat d (d * (0 + 2))) with hE0
  set E1 := (Ekf.E 1 : Mat d (d * (0 + 2))) with hE1
  have h0 : E0 * (A * Ekf.lift J0) = alg3F h J0 := by
    rw [← Matrix.mul_assoc, hA, Ekf.E0_mul, Matrix.add_mul, Matrix.smul_mul, Matrix.smul_mul, Ekf.E0_lift, Ekf.E1_lift, one_smul, alg3F]
  have h1 : E1 * (A * Ekf.lift J0) = J0 := by
    rw [← Matrix.mul_assoc, hA, Ekf.E1_mul, Matrix.add_mul, Matrix.smul_mul, Matrix.smul_mul, Ekf.E0_lift, Ekf.E1_lift, one_smul, zero_smul, zero_add]
  have h2 : (E1 - J1 * E0) * (A * Ekf.lift J0) = alg3E h J0 J1 := by
    rw [Matrix.sub_mul, Matrix.mul_assoc J1, h0, h1, alg3E]
  have hX : ∀ Y Z : Mat d (d * (0 + 2)), Y * C0 * Zᵀ = σ ^ 2 • ((Y * (A * Ekf.lift J0)) * p * (Z * (A * Ekf.lift J0))ᵀ) + Y * Q * Zᵀ := fun Y Z => by
    rw [hS, Matrix.mul_add, Matrix.add_mul, transpose_mul, transpose_mul]
    congr 1
    simp only [Matrix.mul_smul, Matrix.smul_mul, Matrix.mul_assoc]
  have q00 : E0 * Q * E0ᵀ = (σ ^ 2 * (h ^ 3 / 3)) • (1 : Mat d d) := by
    rw [hQ, Ekf.E0_mul, Matrix.add_mul, Matrix.smul_mul, Matrix.smul_mul, Ekf.E00, Ekf.E10, smul_zero, add_zero]
  have q01 : E0 * Q * E1ᵀ = (σ ^ 2 * (h ^ 2 / 2)) • (1 : Mat d d) := by
    rw [hQ, Ekf.E0_mul, Matrix.add_mul, Matrix.smul_mul, Matrix.smul_mul, Ekf.E01, Ekf.E11, smul_zero, zero_add]
  have q10 : E1 * Q * E0ᵀ = (σ ^ 2 * (h ^ 2 / 2)) • (1 : Mat d d) := by
    rw [hQ, Ekf.E1_mul, Matrix.add_mul, Matrix.smul_mul, Matrix.smul_mul, Ekf.E00, Ekf.E10, smul_zero, add_zero]
  have q11 : E1 * Q * E1ᵀ = (σ ^ 2 * h) • (1 : Mat d d) := by
    rw [hQ, Ekf.E1_mul, Matrix.add_mul, Matrix.smul_mul, Matrix.smul_mul, Ekf.E01, Ekf.E11, smul_zero, zero_add]
  refine ⟨?_, ?_, ?_⟩
  · rw [hX, h0, q00]
    module
  · rw [hX, h0, h2, transpose_sub, transpose_mul, Matrix.mul_sub, ← Matrix.mul_assoc, q00, q01, alg3G, Matrix.smul_mul, Matrix.one_mul]
    module
  · have : (E1 - J1 * E0) * Q * (E1 - J1 * E0)ᵀ = (σ ^ 2 * h) • (1 : Mat d d) - (σ ^ 2 * (h ^ 2 / 2)) • (J1 + J1ᵀ) +
        (σ ^ 2 * (h ^ 3 / 3)) • (J1 * J1ᵀ) := by
      have e : (E1 - J1 * E0) * Q * (E1 - J1 * E0)ᵀ = E1 * Q * E1ᵀ - E1 * Q * E0ᵀ * J1ᵀ - J1 * (E0 * Q * E1ᵀ) + J1 * (E0 * Q * E0ᵀ) * J1ᵀ := by
        rw [transpose_sub, transpose_mul]
        simp only [Matrix.sub_mul, Matrix.mul_sub, Matrix.mul_assoc]
        abel
      rw [e, q00, q01, q10, q11]
      simp only [Matrix.smul_mul, Matrix.mul_smul, Matrix.one_mul, Matrix.mul_one]
      module
    rw [hX, h2, this, alg3S]
    module

/-- One EKF1 step from a state with uncertainty, in covariance mode. -/
theorem step_alg3 {la : LinAlg} (hla : la.Correct) (vf : Field d) {σ h : ℝ} (hσ : σ ≠ 0) (hh : 0 < h) (y : Vec d)
    (hd : DifferentiableAt ℝ (fun x => vf x h) (y + h • vf y 0)) {p : Mat d d} (hp : p.PosSemidef) :
    let J0 := jac (fun x => vf x 0) y
    let J1 := jac (fun x => vf x h) (y + h • vf y 0)
    let g := (KF.step la (Ekf.obsFn (r := 0) false vf) (IOUP.transition 0 σ 1 h d).A (IOUP.transition 0 σ 1 h d).Q 0 0 false
        (Ekf.init32 la false y (σ ^ 2 • p) vf false) h).1
    stride 0 g.mean = alg3Mean vf h J0 J1 p y ∧ strideMat 0 0 g.cov = σ ^ 2 • alg3P h J0 J1 p := by
  intro J0 J1 g
  have hA : (IOUP.transition 0 σ 1 h d).A = kron (1 : Mat d d) (!![1, h; 0, 1] : Mat (0 + 2) (0 + 2)) := by
    rw [← Ekf.ibm1_A]; rfl
  have hQ : (IOUP.transition 0 σ 1 h d).Q = kron (1 : Mat d d)
      (!![σ ^ 2 * (h ^ 3 / 3), σ ^ 2 * (h ^ 2 / 2); σ ^ 2 * (h ^ 2 / 2), σ ^ 2 * h] : Mat (0 + 2) (0 + 2)) := by
    rw [← Ekf.ibm1_Q]; rfl
  obtain ⟨C0, hC0⟩ : ∃ C0, C0 = (IOUP.transition 0 σ 1 h d).A * (Ekf.lift J0 * (σ ^ 2 • p) * (Ekf.lift J0)ᵀ) * ((IOUP.transition 0 σ 1 h d).A)ᵀ +
    (IOUP.transition 0 σ 1 h d).Q := ⟨_, rfl⟩
  obtain ⟨e1, e2, e3⟩ := alg3_pred (σ := σ) (h := h) J0 J1 p hA hQ hC0
  have hpred : KF.predict la (Ekf.init32 la false y (σ ^ 2 • p) vf false) (IOUP.transition 0 σ 1 h d).A (IOUP.transition 0 σ 1 h d).Q 0 false =
      ⟨interlace ![y + h • vf y 0, vf y 0], C0⟩ := by
    refine Gauss.ext ?_ ?_
    · simp only [KF.predict, Bool.false_eq_true, if_false, add_zero, hA]
      have hm0 : (Ekf.init32 la false y (σ ^ 2 • p) vf false).mean = interlace ![y, vf y 0] := rfl
      rw [hm0]
      refine (Ekf.kron_one_mulVec _ _).trans ?_
      congr 1
      funext s
      refine (Fin.sum_univ_two _).trans ?_
      fin_cases s <;> simp
    · have hc := Ekf.init32_cov la false y (σ ^ 2 • p) vf
      have hj : Ekf.jac32 false vf y = J0 := by simp [Ekf.jac32, J0]
      rw [hj] at hc
      simp only [KF.predict, Bool.false_eq_true, if_false, hC0, hc]
  have hst : ∀ a b : Vec d, stride (n := 0 + 2) 0 (interlace ![a, b]) = a := fun a b => stride_interlace ![a, b] 0
  have hJ : jac (fun z => Ekf.obsFn (r := 0) false vf z (interlace ![y + h • vf y 0, vf y 0]) h)
      (interlace ![y + h • vf y 0, vf y 0]) = Ekf.E 1 - J1 * Ekf.E 0 := by
    rw [Ekf.jac_ekf1 vf _ _ h (by rw [hst]; exact hd), hst]
  have hc : Ekf.obsFn (r := 0) false vf (interlace ![y + h • vf y 0, vf y 0]) (interlace ![y + h • vf y 0, vf y 0]) h =
      vf y 0 - vf (y + h • vf y 0) h := by
    simp only [Ekf.obsFn, Bool.false_eq_true, if_false, stride_interlace]
    rfl
  have hI : innovCov C0 (Ekf.E 1 - J1 * Ekf.E 0) (0 : Mat d d) = σ ^ 2 • alg3S h J0 J1 p := by rw [innovCov, e3, add_zero]
  have hSp := alg3S_posDef hh J0 J1 hp
  have hIp : (innovCov C0 (Ekf.E 1 - J1 * Ekf.E 0) (0 : Mat d d)).PosDef := by
    rw [hI]
    exact hSp.smul (by positivity)
  have hsym : C0ᵀ = C0 := by
    have hpT : pᵀ = p := psd_symm hp
    have hQs : ((IOUP.transition 0 σ 1 h d).Q)ᵀ = (IOUP.transition 0 σ 1 h d).Q := psd_symm (Ekf.ibm_Q_posDef hσ 1 hh d).posSemidef
    rw [hC0, transpose_add, hQs]
    simp only [transpose_mul, transpose_transpose, transpose_smul, hpT, Matrix.mul_assoc]
  have hg : g = ⟨postMean (interlace ![y + h • vf y 0, vf y 0]) C0 (vf y 0 - vf (y + h • vf y 0) h) (Ekf.E 1 - J1 * Ekf.E 0) 0,
      postCov C0 (Ekf.E 1 - J1 * Ekf.E 0) 0⟩ := by
    have hu := KF.update_cov_eq hla ⟨interlace ![y + h • vf y 0, vf y 0], C0⟩ (vf y 0 - vf (y + h • vf y 0) h) (Ekf.E 1 - J1 * Ekf.E 0) 0 hsym hIp
    simp only [g, KF.step, hpred, hJ, hc]
    exact congrArg Prod.fst hu
  have hK : (Ekf.E 0 : Mat d (d * (0 + 2))) * gain C0 (Ekf.E 1 - J1 * Ekf.E 0) (0 : Mat d d) = alg3K h J0 J1 p := by
    rw [gain, ← Matrix.mul_assoc, ← Matrix.mul_assoc, e2, hI, alg3K]
    have hi : (σ ^ 2 • alg3S h J0 J1 p)⁻¹ = (σ ^ 2)⁻¹ • (alg3S h J0 J1 p)⁻¹ := by
      refine inv_eq_right_inv ?_
      rw [Matrix.smul_mul, Matrix.mul_smul, smul_smul, mul_inv_cancel₀ (by positivity), one_smul, mul_nonsing_inv _ (pd_isUnit_det hSp)]
    rw [hi, Matrix.smul_mul, Matrix.mul_smul, smul_smul, mul_inv_cancel₀ (by positivity), one_smul]
  have hsm : ∀ X : Mat (d * (0 + 2)) (d * (0 + 2)), strideMat 0 0 X = Ekf.E (dim := d) (r := 0) 0 * X * (Ekf.E 0)ᵀ := fun X => by
    ext i j
    simp [mul_apply, Ekf.E, strideMat]
  rw [hg]
  refine ⟨?_, ?_⟩
  · dsimp only
    rw [postMean, ← Ekf.E_mulVec, mulVec_sub, mulVec_mulVec, hK, Ekf.E_mulVec, hst, alg3Mean, ← neg_sub (vf (y + h • vf y 0) h) (vf y 0),
      mulVec_neg, sub_neg_eq_add]
  · dsimp only
    rw [hsm, postCov, Matrix.mul_sub, Matrix.sub_mul, e1, hI, alg3P, ← hK, transpose_mul]
    simp only [Matrix.mul_smul, Matrix.smul_mul, Matrix.mul_assoc, smul_sub]

/-- One EKF1 step reads the field only at the times `0` and `h`. -/
theorem ekf2_one_congr (la : LinAlg) (rng : Rng) (key : Option Key) {vf vf' : Field d} {h : ℝ} (h0 : ∀ x, vf x 0 = vf' x 0)
    (h1 : ∀ x, vf x h = vf' x h) (x : Ekf.State3 d) (σ : ℝ) (sqrt : Bool) :
    Ekf.ekf2 la rng false key x vf h 1 sqrt (some ⟨_, IOUP.transition 0 σ 1 h d⟩) none =
      Ekf.ekf2 la rng false key x vf' h 1 sqrt (some ⟨_, IOUP.transition 0 σ 1 h d⟩) none := by
  have hts : linspace h (((1 : ℕ) : ℝ) * h) 1 = [h] := by rw [Ekf.linspace_ts]; simp
  have hinit : Ekf.init32 la false x.2.1 x.2.2 vf sqrt = Ekf.init32 la false x.2.1 x.2.2 vf' sqrt := by simp only [Ekf.init32, h0]
  have hobs : ∀ x y, Ekf.obsFn (r := 0) false vf x y h = Ekf.obsFn (r := 0) false vf' x y h := fun x y => by
    simp only [Ekf.obsFn, Bool.false_eq_true, if_false, h1]
  rw [Ekf.ekf2_eq, Ekf.ekf2_eq]
  refine congrArg (Except.map _) ((Ekf.solver_some (r := 0) la _ vf h 1 sqrt false (IOUP.transition 0 σ 1 h d)).trans
    (Eq.trans (congrArg Except.ok ?_) (Ekf.solver_some (r := 0) la _ vf' h 1 sqrt false (IOUP.transition 0 σ 1 h d)).symm))
  rw [hts, hinit]
  simp only [KF.ekf, scan, KF.body, KF.step, hobs]

/-- One interval of Algorithm 3 with EKF1 and a key: the mean and the covariance follow the formulas above, and the sample is the mean
plus a factor of the covariance times standard normals. -/
theorem ekf2_one {la : LinAlg} (hla : la.Correct) (vf : Field d) {σ h : ℝ} (hσ : σ ≠ 0) (hh : 0 < h)
    (hd0 : Differentiable ℝ fun x => vf x 0) (hd1 : Differentiable ℝ fun x => vf x h) {p : Mat d d} (hp : p.PosSemidef) (y : Vec d) (sqrt : Bool) :
    let J0 := jac (fun x => vf x 0) y
    let J1 := jac (fun x => vf x h) (y + h • vf y 0)
    (alg3P h J0 J1 p).PosSemidef ∧ ∃ U : Mat d (d * (0 + 2)), U * Uᵀ = σ ^ 2 • alg3P h J0 J1 p ∧ ∀ (rng : Rng) (k : Key) (s : Vec d),
      Ekf.ekf2 la rng false (some k) (s, y, σ ^ 2 • p) vf h 1 sqrt (some ⟨_, IOUP.transition 0 σ 1 h d⟩) none =
        .ok (alg3Mean vf h J0 J1 p y + U *ᵥ rng.normalVec k (d * (0 + 2)), alg3Mean vf h J0 J1 p y, σ ^ 2 • alg3P h J0 J1 p) := by
  wlog hf : ∀ t, Differentiable ℝ fun x => vf x t generalizing vf
  · obtain ⟨vf', hv⟩ : ∃ vf' : Field d, ∀ x t, vf' x t = if t = 0 then vf x 0 else if t = h then vf x h else 0 := ⟨_, fun _ _ => rfl⟩
    have e0 : ∀ x, vf' x 0 = vf x 0 := fun x => by rw [hv, if_pos rfl]
    have e1 : ∀ x, vf' x h = vf x h := fun x => by rw [hv, if_neg hh.ne', if_pos rfl]
    have e0' : (fun x => vf' x 0) = fun x => vf x 0 := funext e0
    have e1' : (fun x => vf' x h) = fun x => vf x h := funext e1
    have hw := this vf' (by rw [e0']; exact hd0) (by rw [e1']; exact hd1) (fun t => by
      by_cases ht : t = 0
      · subst ht; rw [e0']; exact hd0
      · by_cases ht1 : t = h
        · subst ht1; rw [e1']; exact hd1
        · simp only [hv, if_neg ht, if_neg ht1]
          exact differentiable_const _)
    simp only [e0', e0, e1'] at hw
    have em : ∀ J0 J1, alg3Mean vf' h J0 J1 p y = alg3Mean vf h J0 J1 p y := fun J0 J1 => by simp only [alg3Mean, e0, e1]
    simp only [em] at hw
    obtain ⟨hpsd, U, hU, hstep⟩ := hw
    refine ⟨hpsd, U, hU, fun rng k s => ?_⟩
    rw [← hstep rng k s]
    exact ekf2_one_congr la rng (some k) (fun x => (e0 x).symm) (fun x => (e1 x).symm) _ σ sqrt
  intro J0 J1
  have hP2 : (σ ^ 2 • p).PosSemidef := hp.smul (by positivity)
  obtain ⟨h1, h2⟩ := step_alg3 hla vf hσ hh y (hd1 _) hp
  obtain ⟨g, hg⟩ : ∃ g, g = (KF.step la (Ekf.obsFn (r := 0) false vf) (IOUP.transition 0 σ 1 h d).A (IOUP.transition 0 σ 1 h d).Q 0 0 false
        (Ekf.init32 la false y (σ ^ 2 • p) vf false) h).1 := ⟨_, rfl⟩
  rw [← hg] at h1 h2
  have hts : linspace h (((1 : ℕ) : ℝ) * h) 1 = [h] := by rw [Ekf.linspace_ts]; simp
  have h0 : (IOUP.transition 0 σ 1 h d).xi = 0 := rfl
  obtain ⟨f, hf1, hfm, hfc⟩ : ∃ f, Ekf.solver la (Ekf.init32 la false y (σ ^ 2 • p) vf sqrt) vf h 1 sqrt false
      (some ⟨_, IOUP.transition 0 σ 1 h d⟩) none = .ok f ∧ f.mean = g.mean ∧ covOf sqrt f = g.cov := by
    refine ⟨_, Ekf.solver_some (r := 0) la _ vf h 1 sqrt false (IOUP.transition 0 σ 1 h d), ?_⟩
    rw [hts, h0]
    cases sqrt
    · rw [hg]
      exact ⟨rfl, rfl⟩
    · have hr := Ekf.run_represents (r := 0) hla false vf (fun _ => hf) (IOUP.transition 0 σ 1 h d)
        (Ekf.ibm_Q_posDef hσ 1 hh d) 0 0 Ekf.isFactor_zero (Ekf.init32 la false y (σ ^ 2 • p) vf true) _ (Ekf.init32_represents hla false y hP2 vf) [h]
      rw [h0] at hr
      rw [hg]
      exact ⟨hr.1, hr.2⟩
  have hgp : g.cov.PosSemidef := by
    obtain ⟨f', h3, h4⟩ := solver_psd hla false vf (fun _ => hf) h 1 (IOUP.transition 0 σ 1 h d)
      (Ekf.ibm_Q_posDef hσ 1 hh d) (Ekf.init32 la false y (σ ^ 2 • p) vf false) (Ekf.init32_psd la false y hP2 vf)
    have h5 := h3.symm.trans (Ekf.solver_some (r := 0) la _ vf h 1 false false (IOUP.transition 0 σ 1 h d))
    rw [hts, h0] at h5
    have h6 : f' = g := by rw [hg]; exact Except.ok.inj h5
    rw [← h6]
    exact h4
  set S := (if sqrt then f.cov else la.sqrtm f.cov) with hS
  have hCS : S * Sᵀ = g.cov := by
    cases sqrt
    · have : f.cov = g.cov := hfc
      rw [hS]
      simp only [Bool.false_eq_true, if_false, this]
      exact hla.sqrtm_mul_transpose hgp
    · exact hfc
  have hsm : ∀ X : Mat (d * (0 + 2)) (d * (0 + 2)), strideMat 0 0 X = Ekf.E (dim := d) (r := 0) 0 * X * (Ekf.E 0)ᵀ := fun X => by
    ext i j
    simp [mul_apply, Ekf.E, strideMat]
  refine ⟨?_, (Ekf.E 0 : Mat d (d * (0 + 2))) * S * la.cholesky (1 : Mat (d * (0 + 2)) (d * (0 + 2))), ?_, fun rng k s => ?_⟩
  · have h3 : (σ ^ 2 • alg3P h J0 J1 p).PosSemidef := by
      rw [← h2, hsm]
      exact psd_mul_mul_transpose hgp _
    have h4 := h3.smul (by positivity : 0 ≤ (σ ^ 2)⁻¹)
    rwa [smul_smul, inv_mul_cancel₀ (by positivity), one_smul] at h4
  · rw [← h2, hsm, ← hCS, transpose_mul, transpose_mul]
    have h3 := hla.chol_mul (1 : Mat (d * (0 + 2)) (d * (0 + 2))) PosDef.one
    calc _ = (Ekf.E 0 : Mat d (d * (0 + 2))) * S * (la.cholesky (1 : Mat (d * (0 + 2)) (d * (0 + 2))) *
          (la.cholesky (1 : Mat (d * (0 + 2)) (d * (0 + 2))))ᵀ) * (Sᵀ * (Ekf.E 0 : Mat d (d * (0 + 2)))ᵀ) := by simp only [Matrix.mul_assoc]
      _ = _ := by rw [h3, Matrix.mul_one]; simp only [Matrix.mul_assoc]
  · rw [Ekf.ekf2_eq]
    refine (congrArg (Except.map _) hf1).trans (congrArg Except.ok (Prod.ext ?_ (Prod.ext ?_ ?_)))
    · simp only [Ekf.solComponents, Ekf.finish2, Rng.multivariateNormal, zero_add]
      rw [← hS, ← Ekf.E_mulVec, mulVec_add, Ekf.E_mulVec, hfm, h1, mulVec_mulVec, mulVec_mulVec, Matrix.mul_assoc]
    · simp only [Ekf.solComponents, Ekf.finish2]
      rw [hfm, h1]
    · have : (Ekf.finish2 la rng (some k) sqrt f).2.2 = covOf sqrt f := by cases sqrt <;> rfl
      simp only [Ekf.solComponents, this, hfc]
      exact h2

end Verif
