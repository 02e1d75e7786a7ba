import Verif.Props.EkfSde
import Verif.Props.EkfWrappers
import Verif.Lemmas.EkfRos
import Verif.Lemmas.Spectral
import Verif.Lemmas.Taylor15

/-!
# Properties C86, C87: one step of EKF1 is a linearly implicit step, and its stability
-/

namespace Verif

open Matrix Spec Jnp Filter Topology

/-! ## C86 -/

theorem rosW_posDef {dim : ℕ} {h : ℝ} (hh : 0 < h) (J : Mat dim dim) : (rosW h J).PosDef := by
  have h1 := Ekf.ekf1W_posDef (h ^ 2 / 3) (h / 2) 1 J (by positivity) (by nlinarith [pow_pos hh 2])
  rwa [Ekf.ekf1W, one_smul] at h1

/-- One EKF1 step from a state without uncertainty, in covariance mode. -/
theorem step_ros {la : LinAlg} (hla : la.Correct) {dim : ℕ} (vf : Field dim) (hf : ∀ t, Differentiable ℝ fun x => vf x t)
    {σ h : ℝ} (hσ : σ ≠ 0) (hh : 0 < h) (y : Vec dim) :
    let J := jac (fun x => vf x h) (y + h • vf y 0)
    let C := (σ ^ 2 * h ^ 3 / 12) • (rosW h J)⁻¹
    let g := (KF.step la (Ekf.obsFn (r := 0) false vf) (IOUP.transition 0 σ 1 h dim).A (IOUP.transition 0 σ 1 h dim).Q 0 0 false
        ⟨interlace ![y, vf y 0], 0⟩ h).1
    stride 0 g.mean = rosStep vf J h y ∧ g.cov = interlaceMatrix C (C * Jᵀ) (J * C) (J * C * Jᵀ) := by
  intro J C g
  have hA : (IOUP.transition 0 σ 1 h dim).A = kron (1 : Mat dim dim) (!![1, h; 0, 1] : Mat (0 + 2) (0 + 2)) := by
    rw [← Ekf.ibm1_A]; rfl
  have hQ : (IOUP.transition 0 σ 1 h dim).Q = kron (1 : Mat dim dim)
      (!![σ ^ 2 * (h ^ 3 / 3), σ ^ 2 * (h ^ 2 / 2); σ ^ 2 * (h ^ 2 / 2), σ ^ 2 * h] : Mat (0 + 2) (0 + 2)) := by
    rw [← Ekf.ibm1_Q]; rfl
  have hσ2 : 0 < σ ^ 2 := by positivity
  have hp : 0 < σ ^ 2 * (h ^ 3 / 3) := by positivity
  have hD' : σ ^ 2 * (h ^ 3 / 3) * (σ ^ 2 * h) - (σ ^ 2 * (h ^ 2 / 2)) ^ 2 = σ ^ 2 * σ ^ 2 * h ^ 4 / 12 := by ring
  have hD : 0 < σ ^ 2 * (h ^ 3 / 3) * (σ ^ 2 * h) - (σ ^ 2 * (h ^ 2 / 2)) ^ 2 := by rw [hD']; positivity
  have hpred : KF.predict la ⟨interlace ![y, vf y 0], 0⟩ (IOUP.transition 0 σ 1 h dim).A (IOUP.transition 0 σ 1 h dim).Q 0 false =
      ⟨interlace ![y + h • vf y 0, vf y 0], kron (1 : Mat dim dim)
        (!![σ ^ 2 * (h ^ 3 / 3), σ ^ 2 * (h ^ 2 / 2); σ ^ 2 * (h ^ 2 / 2), σ ^ 2 * h] : Mat (0 + 2) (0 + 2))⟩ := by
    refine Gauss.ext ?_ ?_
    · simp only [KF.predict, Bool.false_eq_true, if_false, add_zero, hA]
      refine (Ekf.kron_one_mulVec _ _).trans ?_
      congr 1
      funext s
      refine (Fin.sum_univ_two _).trans ?_
      fin_cases s <;> simp
    · simp only [KF.predict, Bool.false_eq_true, if_false, Matrix.mul_zero, Matrix.zero_mul, zero_add, hQ]
  have hJ : jac (fun z => Ekf.obsFn (r := 0) false vf z (interlace ![y + h • vf y 0, vf y 0]) h)
      (interlace ![y + h • vf y 0, vf y 0]) = Ekf.E 1 - J * Ekf.E 0 := by
    rw [Ekf.jac_ekf1 vf _ _ h (hf h _), stride_interlace]
    rfl
  have hc : Ekf.obsFn (r := 0) false vf (interlace ![y + h • vf y 0, vf y 0]) (interlace ![y + h • vf y 0, vf y 0]) h =
      vf y 0 - vf (y + h • vf y 0) h := by
    simp only [Ekf.obsFn, Bool.false_eq_true, if_false, stride_interlace]
    rfl
  have hQp := Ekf.ibm_Q_posDef hσ 1 hh dim
  rw [hQ] at hQp
  have hS : (innovCov (kron (1 : Mat dim dim)
      (!![σ ^ 2 * (h ^ 3 / 3), σ ^ 2 * (h ^ 2 / 2); σ ^ 2 * (h ^ 2 / 2), σ ^ 2 * h] : Mat (0 + 2) (0 + 2)))
      (Ekf.E 1 - J * Ekf.E 0) (0 : Mat dim dim)).PosDef := by
    rw [← hJ]
    exact Ekf.innov_posDef hQp PosSemidef.zero fun x hx => Ekf.obs_rank false vf (fun _ => hf) _ h x hx
  have hW : Ekf.ekf1W (σ ^ 2 * (h ^ 3 / 3)) (σ ^ 2 * (h ^ 2 / 2)) (σ ^ 2 * h) J = (σ ^ 2 * h) • rosW h J := by
    rw [Ekf.ekf1W, rosW]
    module
  have hWi : (Ekf.ekf1W (σ ^ 2 * (h ^ 3 / 3)) (σ ^ 2 * (h ^ 2 / 2)) (σ ^ 2 * h) J)⁻¹ = (σ ^ 2 * h)⁻¹ • (rosW h J)⁻¹ := by
    rw [hW]
    refine inv_eq_right_inv ?_
    rw [Matrix.smul_mul, Matrix.mul_smul, smul_smul, mul_inv_cancel₀ (by positivity), one_smul,
      mul_nonsing_inv _ (pd_isUnit_det (rosW_posDef hh J))]
  have hu := Ekf.update_ekf1 (σ ^ 2 * (h ^ 3 / 3)) (σ ^ 2 * (h ^ 2 / 2)) (σ ^ 2 * h) J hp hD hla hS (y + h • vf y 0) (vf y 0)
    (vf y 0 - vf (y + h • vf y 0) h)
  dsimp only at hu
  rw [hWi, hD'] at hu
  have hg : g = (KF.update la ⟨interlace ![y + h • vf y 0, vf y 0], kron (1 : Mat dim dim)
        (!![σ ^ 2 * (h ^ 3 / 3), σ ^ 2 * (h ^ 2 / 2); σ ^ 2 * (h ^ 2 / 2), σ ^ 2 * h] : Mat (0 + 2) (0 + 2))⟩
      (vf y 0 - vf (y + h • vf y 0) h) (Ekf.E 1 - J * Ekf.E 0) 0 false).1 := by
    simp only [g, KF.step, hpred, hJ, hc]
  rw [hg, hu]
  refine ⟨?_, ?_⟩
  · have hst : ∀ a b : Vec dim, stride (n := 0 + 2) 0 (interlace ![a, b]) = a := fun a b => stride_interlace ![a, b] 0
    dsimp only
    rw [hst]
    simp only [rosStep]
    rw [sub_eq_add_neg]
    congr 1
    have e1 : ((σ ^ 2 * (h ^ 2 / 2)) • (1 : Mat dim dim) - (σ ^ 2 * (h ^ 3 / 3)) • Jᵀ) =
        (σ ^ 2 * h) • ((h / 2) • (1 : Mat dim dim) - (h ^ 2 / 3) • Jᵀ) := by module
    rw [e1, smul_mulVec, smul_mulVec, mulVec_smul, smul_smul, inv_mul_cancel₀ (by positivity), one_smul, ← mulVec_neg,
      ← mulVec_neg, neg_sub]
  · have e2 : (σ ^ 2 * σ ^ 2 * h ^ 4 / 12) • ((σ ^ 2 * h)⁻¹ • (rosW h J)⁻¹) = C := by
      rw [smul_smul]
      congr 1
      field_simp
    simp only [e2]
    rw [Ekf.lift_cov]

/-- One EKF1 step from a state without uncertainty, in both modes. -/
theorem solver_ros {la : LinAlg} (hla : la.Correct) {dim : ℕ} (vf : Field dim) (hf : ∀ t, Differentiable ℝ fun x => vf x t)
    {σ h : ℝ} (hσ : σ ≠ 0) (hh : 0 < h) (y : Vec dim) (sqrt : Bool) (init : Gauss (dim * (0 + 2)))
    (hm : init.mean = interlace ![y, vf y 0]) (hP : covOf sqrt init = 0) :
    let J := jac (fun x => vf x h) (y + h • vf y 0)
    let C := (σ ^ 2 * h ^ 3 / 12) • (rosW h J)⁻¹
    ∃ f, Ekf.solver la init vf h 1 sqrt false (some ⟨_, IOUP.transition 0 σ 1 h dim⟩) none = .ok f ∧
      stride 0 f.mean = rosStep vf J h y ∧ covOf sqrt f = interlaceMatrix C (C * Jᵀ) (J * C) (J * C * Jᵀ) := by
  intro J C
  obtain ⟨h1, h2⟩ := step_ros hla vf hf hσ hh y
  refine ⟨_, Ekf.solver_some (r := 0) la _ vf h 1 sqrt false (IOUP.transition 0 σ 1 h dim), ?_⟩
  have hts : linspace h (((1 : ℕ) : ℝ) * h) 1 = [h] := by rw [Ekf.linspace_ts]; simp
  have h0 : (IOUP.transition 0 σ 1 h dim).xi = 0 := rfl
  have hrun : KF.ekf la ⟨interlace ![y, vf y 0], 0⟩ (Ekf.obsFn (r := 0) false vf) (IOUP.transition 0 σ 1 h dim).A
      (IOUP.transition 0 σ 1 h dim).Q 0 0 [h] false = _ := rfl
  rw [hts, h0]
  cases sqrt
  · have hi : init = ⟨interlace ![y, vf y 0], 0⟩ := Gauss.ext hm hP
    rw [hi]
    exact ⟨h1, h2⟩
  · have hr := Ekf.run_represents (r := 0) hla false vf (fun _ => hf) (IOUP.transition 0 σ 1 h dim)
      (Ekf.ibm_Q_posDef hσ 1 hh dim) 0 0 Ekf.isFactor_zero init ⟨interlace ![y, vf y 0], 0⟩ ⟨hm, hP⟩ [h]
    rw [h0] at hr
    exact ⟨(congrArg (stride 0) hr.1).trans h1, hr.2.trans h2⟩

/-- With one step, EKF1 evaluates the field only at the initial state at time 0 and at states at time `h`. -/
theorem ekf1_one_congr (la : LinAlg) (rng : Rng) (key : Option Key) {dim : ℕ} (hd : 0 < dim) {vf vf' : Field dim} {h : ℝ} {x0 : Vec dim}
    (h0 : vf x0 0 = vf' x0 0) (h1 : ∀ x, vf x h = vf' x h) (σ : ℝ) (sqrt : Bool) :
    Ekf.ekf1 la rng key x0 vf h 1 sqrt (some ⟨_, IOUP.transition 0 σ 1 h dim⟩) none =
      Ekf.ekf1 la rng key x0 vf' h 1 sqrt (some ⟨_, IOUP.transition 0 σ 1 h dim⟩) none := by
  have hts : linspace h (((1 : ℕ) : ℝ) * h) 1 = [h] := by rw [Ekf.linspace_ts]; simp
  have hinit : Ekf.init2 x0 vf = Ekf.init2 x0 vf' := by simp only [Ekf.init2, h0]
  have hobs : ∀ x y, Ekf.obsFn (r := 0) false vf x y h = Ekf.obsFn (r := 0) false vf' x y h := fun x y => by
    simp only [Ekf.obsFn, Bool.false_eq_true, if_false, h1]
  refine (Ekf.ekf1_two la rng key hd x0 vf h 1 sqrt (IOUP.transition 0 σ 1 h dim) none).trans
    (Eq.trans ?_ (Ekf.ekf1_two la rng key hd x0 vf' h 1 sqrt (IOUP.transition 0 σ 1 h dim) none).symm)
  refine congrArg (Except.map _) ((Ekf.solver_some (r := 0) la _ vf h 1 sqrt false (IOUP.transition 0 σ 1 h dim)).trans
    (Eq.trans (congrArg Except.ok ?_) (Ekf.solver_some (r := 0) la _ vf' h 1 sqrt false (IOUP.transition 0 σ 1 h dim)).symm))
  rw [hts, hinit]
  simp only [KF.ekf, scan, KF.body, KF.step, hobs]

/-- C86: without a key, one step of EKF1 (once integrated prior of any scale, both modes) is the linearly implicit step with the
Jacobian of the vector field at the Euler prediction. -/
theorem C86_step {la : LinAlg} (hla : la.Correct) (rng : Rng) {dim : ℕ} (hd : 0 < dim) (vf : Field dim)
    {σ h : ℝ} (hf : Differentiable ℝ fun x => vf x h) (hσ : σ ≠ 0) (hh : 0 < h) (x0 : Vec dim) (sqrt : Bool) :
    Ekf.ekf1 la rng none x0 vf h 1 sqrt (some ⟨_, IOUP.transition 0 σ 1 h dim⟩) none =
      .ok (rosStep vf (jac (fun x => vf x h) (x0 + h • vf x0 0)) h x0) := by
  obtain ⟨vf', hvf'⟩ : ∃ vf' : Field dim, ∀ x t, vf' x t = if t = h then vf x t else vf x0 0 := ⟨_, fun _ _ => rfl⟩
  have e0 : ∀ x, vf' x 0 = vf x0 0 := fun x => by rw [hvf', if_neg hh.ne]
  have e1 : ∀ x, vf' x h = vf x h := fun x => by rw [hvf', if_pos rfl]
  have hf' : ∀ t, Differentiable ℝ fun x => vf' x t := fun t => by
    by_cases ht : t = h
    · simp only [hvf', if_pos ht]; rw [ht]; exact hf
    · simp only [hvf', if_neg ht]; exact differentiable_const _
  rw [ekf1_one_congr la rng none hd (e0 x0).symm (fun x => (e1 x).symm) σ sqrt]
  obtain ⟨f, hf, hm, -⟩ := solver_ros hla vf' hf' hσ hh x0 sqrt (Ekf.init2 x0 vf') rfl (by cases sqrt <;> simp [covOf, Ekf.init2])
  refine (Ekf.ekf1_two la rng none hd x0 vf' h 1 sqrt (IOUP.transition 0 σ 1 h dim) none).trans ?_
  refine (congrArg (Except.map _) hf).trans (congrArg Except.ok ?_)
  simp only [Ekf.finish]
  refine hm.trans ?_
  simp only [rosStep, e0, e1]

/-- C86: the same for Algorithm 3 from a certain initial value, with the covariance `σ² h³/12 W⁻¹` of the solution. -/
theorem C86_alg3 {la : LinAlg} (hla : la.Correct) (rng : Rng) (key : Option Key) {dim : ℕ} (vf : Field dim)
    (hf : ∀ t, Differentiable ℝ fun x => vf x t) {σ h : ℝ} (hσ : σ ≠ 0) (hh : 0 < h) (s x0 : Vec dim) (sqrt : Bool) :
    let J := jac (fun x => vf x h) (x0 + h • vf x0 0)
    ∃ s', Ekf.ekf2 la rng false key (s, x0, 0) vf h 1 sqrt (some ⟨_, IOUP.transition 0 σ 1 h dim⟩) none =
      .ok (s', rosStep vf J h x0, (σ ^ 2 * h ^ 3 / 12) • (rosW h J)⁻¹) := by
  intro J
  have hc : covOf sqrt (Ekf.init32 la false x0 0 vf sqrt) = 0 := by
    have h0 : (Ekf.init32 la false x0 0 vf false).cov = 0 := by rw [Ekf.init32_cov]; simp
    cases sqrt
    · exact h0
    · exact (Ekf.init32_represents hla false x0 PosSemidef.zero vf).2.trans h0
  obtain ⟨f, hf, hm, hP⟩ := solver_ros hla vf hf hσ hh x0 sqrt (Ekf.init32 la false x0 0 vf sqrt) rfl hc
  refine ⟨_, (Ekf.ekf2_eq la rng false key (s, x0, 0) vf h 1 sqrt _ none).trans
    ((congrArg (Except.map _) hf).trans (congrArg Except.ok (Prod.ext rfl (Prod.ext hm ?_))))⟩
  have h3 : (Ekf.finish2 la rng key sqrt f).2.2 = covOf sqrt f := rfl
  simp only [Ekf.solComponents]
  rw [h3, hP]
  ext i j
  exact interlaceMatrix_flat _ _ _ _ _ _ _ _

/-- C86, in `sde_solver`: with EKF1 and one filter step per interval, every state is the linearly implicit step for the random
field of the interval from the state before. -/
theorem C86_run {la : LinAlg} (hla : la.Correct) (rng rs : Rng) (key : Key) {C : Type} {d m : ℕ} (hd : 0 < d) (drift : Field d)
    (sigma : Diffusion d m) (hdrift : ∀ t, Differentiable ℝ fun x => drift x t)
    (hsigma : ∀ t, Differentiable ℝ fun x => sigma x t) (bm : BmApprox C m) (x0 : Vec d) {δ : ℝ} (hδ : 0 < δ) (N : ℕ) {σ : ℝ}
    (hσ : σ ≠ 0) (sqrt : Bool) (odeInt : OdeInt (Vec d) d)
    (hode : ∀ k x vf, Ekf.ekf1 la rs none x vf δ 1 sqrt (some ⟨_, IOUP.transition 0 σ 1 δ d⟩) none = .ok (odeInt k x vf δ)) :
    let out := sdeSolver rng key drift sigma x0 bm δ N odeInt
    ∀ k < N, ∃ x c, out.2.1[k]? = some x ∧ out.2.2[k]? = some c ∧
      let vf := intervalField drift sigma bm δ c (k * δ)
      out.2.1[k + 1]? = some (rosStep vf (jac (fun z => vf z δ) (x + δ • vf x 0)) δ x) := by
  intro out k hk
  obtain ⟨x, c, h1, h2, -, h4⟩ := sdeSolver_interval rng key drift sigma x0 bm δ N odeInt k hk
  refine ⟨x, c, h1, h2, ?_⟩
  intro vf
  have hvf : ∀ t, Differentiable ℝ fun z => vf z t := fun t => by
    refine (hdrift (t + k * δ)).add ?_
    refine differentiable_pi.mpr fun i => ?_
    have : ∀ j, Differentiable ℝ fun z => sigma z (t + k * δ) i j := fun j =>
      differentiable_pi.mp (differentiable_pi.mp (hsigma (t + k * δ)) i) j
    simp only [mulVec, dotProduct]
    exact Differentiable.fun_sum fun j _ => (this j).mul_const (jacT (fun t => bm.eval t δ c) t j)
  rw [h4]
  refine congrArg some ?_
  exact (Except.ok.inj ((hode ((key.child N k).child 2 1) x vf).symm.trans (C86_step hla rs hd vf (hvf δ) hσ hδ x sqrt)))

/-- C86: a concrete step; the field depends on the state, so that the matrix is not the identity. -/
example : rosStep (fun (x : Vec 1) _ => -x) (-1) 3 1 = fun _ => -(1 / 14) := by
  have hW : rosW 3 (-1 : Mat 1 1) = (7 : ℝ) • 1 := by
    rw [rosW, transpose_neg, transpose_one]
    simp only [neg_mul_neg, Matrix.one_mul]
    module
  have hi : ((7 : ℝ) • 1 : Mat 1 1)⁻¹ = (1 / 7 : ℝ) • 1 := by
    refine inv_eq_right_inv ?_
    rw [Matrix.smul_mul, Matrix.mul_smul, smul_smul, Matrix.one_mul]
    norm_num
  have h1 : ((3 / 2 : ℝ) • (1 : Mat 1 1) - ((3 : ℝ) ^ 2 / 3) • (-1 : Mat 1 1)ᵀ) = (9 / 2 : ℝ) • 1 := by
    rw [transpose_neg, transpose_one]
    module
  rw [rosStep, hW, hi, h1]
  simp only [smul_mulVec, one_mulVec]
  funext i
  norm_num

/-- C86, C87: an integrator as in the theorems exists. -/
example (la : LinAlg) (rng : Rng) (d : ℕ) (hd : 0 < d) (δ σ : ℝ) (sqrt : Bool) : ∃ odeInt : OdeInt (Vec d) d, ∀ (k : Key) x vf,
    Ekf.ekf1 la rng none x vf δ 1 sqrt (some ⟨_, IOUP.transition 0 σ 1 δ d⟩) none = .ok (odeInt k x vf δ) := by
  have : ∀ (x : Vec d) vf, ∃ y, Ekf.ekf1 la rng none x vf δ 1 sqrt (some ⟨_, IOUP.transition 0 σ 1 δ d⟩) none = .ok y := by
    intro x vf
    have h := Ekf.ekf1_two la rng none hd x vf δ 1 sqrt (IOUP.transition 0 σ 1 δ d) none
    rw [Ekf.solver_some] at h
    exact ⟨_, h⟩
  choose f hf using this
  exact ⟨fun _ x vf _ => f x vf, fun _ x vf => hf x vf⟩

/-! ## C87 -/

/-- The matrix of the step for the linear field `J x`. -/
noncomputable def rosR {dim : ℕ} (h : ℝ) (J : Mat dim dim) : Mat dim dim :=
  (rosW h J)⁻¹ * (1 + (h / 2) • (J - Jᵀ) - (h ^ 2 / 6) • (Jᵀ * J))

theorem rosStep_linear {dim : ℕ} {h : ℝ} (hh : 0 < h) (J : Mat dim dim) (y : Vec dim) :
    rosStep (fun x _ => J *ᵥ x) J h y = rosR h J *ᵥ y := by
  have hW := pd_isUnit_det (rosW_posDef hh J)
  have h1 : 1 + h • J = (rosW h J)⁻¹ * (rosW h J * (1 + h • J)) := by
    rw [← Matrix.mul_assoc, nonsing_inv_mul _ hW, Matrix.one_mul]
  have h2 : y + h • (J *ᵥ y) = (1 + h • J) *ᵥ y := by rw [Matrix.add_mulVec, one_mulVec, smul_mulVec]
  have h3 : J *ᵥ (y + h • (J *ᵥ y)) - J *ᵥ y = (h • (J * J)) *ᵥ y := by
    rw [mulVec_add, mulVec_smul, smul_mulVec, mulVec_mulVec]; abel
  simp only [rosStep]
  rw [h3, h2, h1, mulVec_mulVec, mulVec_mulVec, ← Matrix.add_mulVec, Matrix.mul_assoc _ _ (h • (J * J)), ← Matrix.mul_add, rosR]
  congr 2
  rw [rosW]
  simp only [Matrix.sub_mul, Matrix.mul_sub, Matrix.add_mul, Matrix.mul_add, Matrix.smul_mul, Matrix.mul_smul,
    Matrix.one_mul, Matrix.mul_one, Matrix.mul_assoc]
  module

theorem dot_cs {n : ℕ} (x y p q : Vec n) : (x ⬝ᵥ p - y ⬝ᵥ q) ^ 2 ≤ (x ⬝ᵥ x + y ⬝ᵥ y) * (p ⬝ᵥ p + q ⬝ᵥ q) := by
  have := Finset.sum_mul_sq_le_sq_mul_sq Finset.univ (Sum.elim x (-y) : Fin n ⊕ Fin n → ℝ) (Sum.elim p q)
  simp only [Fintype.sum_sum_type, Sum.elim_inl, Sum.elim_inr, Pi.neg_apply, neg_mul, Finset.sum_neg_distrib, neg_sq] at this
  simpa only [dotProduct, ← sub_eq_add_neg, ← pow_two] using this

theorem modulus_lt {n s a b α β : ℝ} (h : ℝ) (hn0 : 0 ≤ n) (hs0 : 0 < s) (hh : 0 < h) (ha0 : a ≤ 0) (hcs : b ^ 2 ≤ n * s)
    (hR : n - h ^ 2 / 6 * s = α * (n - h * a + h ^ 2 / 3 * s)) (hI : h * b = β * (n - h * a + h ^ 2 / 3 * s)) :
    α ^ 2 + β ^ 2 < 1 := by
  set w := n - h * a + h ^ 2 / 3 * s with hw
  have hw0 : n + h ^ 2 / 3 * s ≤ w := by nlinarith
  have hp : 0 < h ^ 2 * s := by positivity
  have hsq : (α ^ 2 + β ^ 2) * w ^ 2 < 1 * w ^ 2 := by
    have : (α ^ 2 + β ^ 2) * w ^ 2 = (n - h ^ 2 / 6 * s) ^ 2 + (h * b) ^ 2 := by rw [hR, hI]; ring
    rw [this]
    have hb2 : (h * b) ^ 2 ≤ n * (h ^ 2 * s) := by
      calc (h * b) ^ 2 = h ^ 2 * b ^ 2 := by ring
        _ ≤ h ^ 2 * (n * s) := by gcongr
        _ = _ := by ring
    have hw2 : (n + h ^ 2 / 3 * s) ^ 2 ≤ w ^ 2 := pow_le_pow_left₀ (by positivity) hw0 2
    nlinarith
  exact lt_of_mul_lt_mul_right hsq (sq_nonneg w)

/-- Every eigenvalue of the step matrix of a dissipative `J` has modulus below one. -/
theorem rosR_eigen {d : ℕ} {h : ℝ} (hh : 0 < h) (J : Mat d d) (hJ : ∀ x, x ⬝ᵥ J *ᵥ x ≤ 0) (hJi : ∀ x, J *ᵥ x = 0 → x = 0)
    (μ : ℂ) (v : Fin d → ℂ) (hv : v ≠ 0) (he : (rosR h J).map Complex.ofReal *ᵥ v = μ • v) : ‖μ‖ < 1 := by
  set G : Mat d d := 1 + (h / 2) • (J - Jᵀ) - (h ^ 2 / 6) • (Jᵀ * J) with hG
  set x : Vec d := fun i => (v i).re with hx
  set y : Vec d := fun i => (v i).im with hy
  have hre : rosR h J *ᵥ x = μ.re • x - μ.im • y := by
    funext i
    have := congrArg Complex.re (congrFun he i)
    simpa [mulVec, dotProduct, x, y] using this
  have him : rosR h J *ᵥ y = μ.re • y + μ.im • x := by
    funext i
    have := congrArg Complex.im (congrFun he i)
    simpa [mulVec, dotProduct, x, y] using this
  have hWu := pd_isUnit_det (rosW_posDef hh J)
  have hWG : rosW h J * rosR h J = G := by
    rw [rosR, ← Matrix.mul_assoc, mul_nonsing_inv _ hWu, Matrix.one_mul]
  have h1 : G *ᵥ x = μ.re • (rosW h J *ᵥ x) - μ.im • (rosW h J *ᵥ y) := by
    rw [← hWG, ← mulVec_mulVec, hre, mulVec_sub, mulVec_smul, mulVec_smul]
  have h2 : G *ᵥ y = μ.re • (rosW h J *ᵥ y) + μ.im • (rosW h J *ᵥ x) := by
    rw [← hWG, ← mulVec_mulVec, him, mulVec_add, mulVec_smul, mulVec_smul]
  have hT : ∀ a b : Vec d, a ⬝ᵥ Jᵀ *ᵥ b = b ⬝ᵥ J *ᵥ a := fun a b => by
    rw [mulVec_transpose, dotProduct_comm, dotProduct_mulVec]
  have hTT : ∀ a b : Vec d, a ⬝ᵥ (Jᵀ * J) *ᵥ b = (J *ᵥ a) ⬝ᵥ (J *ᵥ b) := fun a b => by
    rw [← mulVec_mulVec, hT, dotProduct_comm]
  have hWd : ∀ a b : Vec d, a ⬝ᵥ rosW h J *ᵥ b =
      a ⬝ᵥ b - h / 2 * (a ⬝ᵥ J *ᵥ b + b ⬝ᵥ J *ᵥ a) + h ^ 2 / 3 * ((J *ᵥ a) ⬝ᵥ (J *ᵥ b)) := fun a b => by
    rw [rosW]
    simp only [add_mulVec, sub_mulVec, smul_mulVec, one_mulVec, dotProduct_add, dotProduct_sub, dotProduct_smul, hT, hTT,
      smul_eq_mul]
  have hGd : ∀ a b : Vec d, a ⬝ᵥ G *ᵥ b =
      a ⬝ᵥ b + h / 2 * (a ⬝ᵥ J *ᵥ b - b ⬝ᵥ J *ᵥ a) - h ^ 2 / 6 * ((J *ᵥ a) ⬝ᵥ (J *ᵥ b)) := fun a b => by
    rw [hG]
    simp only [add_mulVec, sub_mulVec, smul_mulVec, one_mulVec, dotProduct_add, dotProduct_sub, dotProduct_smul, hT, hTT,
      smul_eq_mul]
  have hxx := congrArg (x ⬝ᵥ ·) h1
  have hyx := congrArg (y ⬝ᵥ ·) h1
  have hxy := congrArg (x ⬝ᵥ ·) h2
  have hyy := congrArg (y ⬝ᵥ ·) h2
  simp only [dotProduct_add, dotProduct_sub, dotProduct_smul, smul_eq_mul, hWd, hGd] at hxx hyx hxy hyy
  have cxy := dotProduct_comm y x
  have cJ := dotProduct_comm (J *ᵥ y) (J *ᵥ x)
  set n := x ⬝ᵥ x + y ⬝ᵥ y with hn
  set s := (J *ᵥ x) ⬝ᵥ (J *ᵥ x) + (J *ᵥ y) ⬝ᵥ (J *ᵥ y) with hs
  set b := x ⬝ᵥ J *ᵥ y - y ⬝ᵥ J *ᵥ x with hb
  set a := x ⬝ᵥ J *ᵥ x + y ⬝ᵥ J *ᵥ y with ha
  have ha0 : a ≤ 0 := add_nonpos (hJ x) (hJ y)
  have hcs : b ^ 2 ≤ n * s := by
    have := dot_cs x y (J *ᵥ y) (J *ᵥ x)
    rw [add_comm ((J *ᵥ y) ⬝ᵥ (J *ᵥ y))] at this
    exact this
  have hdn : ∀ z : Vec d, 0 ≤ z ⬝ᵥ z := fun z => Finset.sum_nonneg fun i _ => mul_self_nonneg _
  have hn0 : 0 ≤ n := add_nonneg (hdn x) (hdn y)
  have hs0 : 0 < s := by
    rcases (add_nonneg (hdn (J *ᵥ x)) (hdn (J *ᵥ y))).lt_or_eq with h0 | h0
    · exact h0
    · exfalso
      have e1 : (J *ᵥ x) ⬝ᵥ (J *ᵥ x) = 0 := by linarith [hdn (J *ᵥ x), hdn (J *ᵥ y)]
      have e2 : (J *ᵥ y) ⬝ᵥ (J *ᵥ y) = 0 := by linarith [hdn (J *ᵥ x), hdn (J *ᵥ y)]
      have hx0 := hJi x (dotProduct_self_eq_zero.mp e1)
      have hy0 := hJi y (dotProduct_self_eq_zero.mp e2)
      exact hv (funext fun i => Complex.ext (congrFun hx0 i) (congrFun hy0 i))
  have hR : n - h ^ 2 / 6 * s = μ.re * (n - h * a + h ^ 2 / 3 * s) := by
    rw [hn, hs, ha]
    linear_combination hxx + hyy + μ.im * cxy + (μ.im * h ^ 2 / 3) * cJ
  have hI : h * b = μ.im * (n - h * a + h ^ 2 / 3 * s) := by
    rw [hn, hs, ha, hb]
    rw [hb] at hxy
    linear_combination hxy - hyx + (1 - μ.re) * cxy - (h ^ 2 / 6 + μ.re * h ^ 2 / 3) * cJ
  have hlt := modulus_lt h hn0 hs0 hh ha0 hcs hR hI
  have hnorm : ‖μ‖ ^ 2 < 1 := by rw [Complex.sq_norm, Complex.normSq_apply, ← pow_two, ← pow_two]; exact hlt
  nlinarith [norm_nonneg μ]

/-- C87: when the drift is the linear field `J x` of a dissipative invertible `J` and there is no noise, the states of
`sde_solver` with EKF1 and one filter step per interval tend to zero, for every step size. -/
theorem C87_stable {la : LinAlg} (hla : la.Correct) (rng rs : Rng) (key : Key) {C : Type} {d m : ℕ} (hd : 0 < d) (J : Mat d d)
    (hJ : ∀ x, x ⬝ᵥ J *ᵥ x ≤ 0) (hJi : ∀ x, J *ᵥ x = 0 → x = 0) (bm : BmApprox C m) (x0 : Vec d) {δ : ℝ} (hδ : 0 < δ) {σ : ℝ}
    (hσ : σ ≠ 0) (sqrt : Bool) (odeInt : OdeInt (Vec d) d)
    (hode : ∀ k x vf, Ekf.ekf1 la rs none x vf δ 1 sqrt (some ⟨_, IOUP.transition 0 σ 1 δ d⟩) none = .ok (odeInt k x vf δ)) :
    ∃ X : ℕ → Vec d, Tendsto X atTop (𝓝 0) ∧
      ∀ (N : ℕ), ∀ k ≤ N, (sdeSolver rng key (fun x _ => J *ᵥ x) (fun _ _ => 0) x0 bm δ N odeInt).2.1[k]? = some (X k) := by
  refine ⟨fun k => rosR δ J ^ k *ᵥ x0, tendsto_pow_of_eigenvalues _ (rosR_eigen hδ J hJ hJi) x0, fun N => ?_⟩
  have hrun := C86_run hla rng rs key hd (fun x _ => J *ᵥ x) (fun _ _ => (0 : Mat d m))
    (fun _ => (Matrix.mulVecLin J).toContinuousLinearMap.differentiable) (fun _ => differentiable_const _) bm x0 hδ N hσ sqrt
    odeInt hode
  intro k
  induction k with
  | zero =>
    intro _
    dsimp only
    rw [pow_zero, one_mulVec, ← List.head?_eq_getElem?]
    exact (C02_trajectory_shape rng key _ _ x0 bm δ N odeInt).2.1
  | succ k ih =>
    intro hk
    obtain ⟨x, c, h1, -, h3⟩ := hrun k hk
    have hvf : intervalField (fun x _ => J *ᵥ x) (fun _ _ => (0 : Mat d m)) bm δ c (k * δ) = fun x _ => J *ᵥ x := by
      funext z t
      simp [intervalField]
    rw [ih (by omega), Option.some.injEq] at h1
    dsimp only at h3
    rw [h3, hvf, ← h1]
    have hjac : ∀ p, jac (fun z => J *ᵥ z) p = J := fun p => by simpa using jac_affine J 0 p
    rw [hjac, rosStep_linear hδ, mulVec_mulVec, ← pow_succ']

/-- C87, contrast: with EKF0 the same run is multiplied by `1 + z + z² / 2` per interval, which for `z = λ δ < -2` grows
without bound. -/
theorem C87_ekf0_unstable {la : LinAlg} (hla : la.Correct) (rng rs : Rng) (key : Key) {C : Type} {m : ℕ} {l : ℝ}
    (bm : BmApprox C m) {x0 : Vec 1} (hx0 : x0 ≠ 0) {δ : ℝ} (hδ : 0 < δ) (hl : l * δ < -2) {σ : ℝ}
    (hσ : σ ≠ 0) (sqrt : Bool) (odeInt : OdeInt (Vec 1) 1)
    (hode : ∀ k x vf, Ekf.ekf0 la rs none x vf δ 1 sqrt (some ⟨_, IOUP.transition 0 σ 1 δ 1⟩) none = .ok (odeInt k x vf δ)) :
    ∃ X : ℕ → Vec 1, Tendsto (fun k => |X k 0|) atTop atTop ∧
      ∀ (N : ℕ), ∀ k ≤ N, (sdeSolver rng key (fun x _ => l • x) (fun _ _ => 0) x0 bm δ N odeInt).2.1[k]? = some (X k) := by
  set r := 1 + l * δ + (l * δ) ^ 2 / 2 with hr
  have hr1 : 1 < r := by nlinarith
  have hx : 0 < |x0 0| := abs_pos.mpr fun h => hx0 (funext fun i => by rw [Subsingleton.elim i 0, h]; rfl)
  refine ⟨fun k => r ^ k • x0, ?_, fun N => ?_⟩
  · have : (fun k : ℕ => |(r ^ k • x0) 0|) = fun k => r ^ k * |x0 0| := by
      funext k
      rw [Pi.smul_apply, smul_eq_mul, abs_mul, abs_of_pos (by positivity)]
    rw [this]
    exact (tendsto_pow_atTop_atTop_of_one_lt hr1).atTop_mul_const hx
  · intro k
    induction k with
    | zero =>
      intro _
      dsimp only
      rw [pow_zero, one_smul, ← List.head?_eq_getElem?]
      exact (C02_trajectory_shape rng key _ _ x0 bm δ N odeInt).2.1
    | succ k ih =>
      intro hk
      obtain ⟨x, c, h1, -, -, h4⟩ := sdeSolver_interval rng key (fun x _ => l • x) (fun _ _ => (0 : Mat 1 m)) x0 bm δ N odeInt k hk
      rw [ih (by omega), Option.some.injEq] at h1
      have hvf : intervalField (fun x _ => l • x) (fun _ _ => (0 : Mat 1 m)) bm δ c (k * δ) = fun x _ => l • x := by
        funext z t
        simp [intervalField]
      have e := (hode ((key.child N k).child 2 1) x (fun x _ => l • x)).symm.trans
        (C43_trapezoidal hla rs one_pos (fun x _ => l • x) hσ hδ x 1 sqrt)
      rw [h4, hvf, Except.ok.inj e, ← h1]
      refine congrArg some ?_
      simp only [trapScheme]
      funext i
      simp only [Pi.add_apply, Pi.smul_apply, smul_eq_mul, hr]
      ring

/-- C87: the hypotheses are met by a spiral sink, whose matrix is neither symmetric nor diagonal. -/
example : (∀ x : Vec 2, x ⬝ᵥ !![-1, 5; -5, -2] *ᵥ x ≤ 0) ∧ ∀ x : Vec 2, !![-1, 5; -5, -2] *ᵥ x = 0 → x = 0 := by
  constructor
  · intro x
    simp [dotProduct, mulVec, Fin.sum_univ_two]
    nlinarith [sq_nonneg (x 0), sq_nonneg (x 1)]
  · intro x hx
    have h0 := congrFun hx 0
    have h1 := congrFun hx 1
    simp [mulVec, dotProduct, Fin.sum_univ_two] at h0 h1
    funext i
    fin_cases i
    · show x 0 = 0
      linarith
    · show x 1 = 0
      linarith

end Verif
