import Verif.Lemmas.RosScheme

/-!
# Property C130: EKF1 with any number of steps is a linearly implicit scheme, for Algorithms 2 and 3
-/

namespace Verif

open Matrix Spec Jnp

/-- C130: without a key, EKF1 with any number of steps (once integrated prior of any scale, both modes) returns the value of the scheme
started without uncertainty. The scale of the prior does not enter. -/
theorem C130_steps {la : LinAlg} (hla : la.Correct) (rng : Rng) {dim : ℕ} (hd : 0 < dim) (vf : Field dim)
    (hf : ∀ t, Differentiable ℝ fun x => vf x t) {σ h : ℝ} (hσ : σ ≠ 0) (hh : 0 < h) (x0 : Vec dim) (N : ℕ) (sqrt : Bool) :
    Ekf.ekf1 la rng none x0 vf h N sqrt (some ⟨_, IOUP.transition 0 σ 1 h dim⟩) none =
      .ok (rosScheme vf h ⟨x0, vf x0 0, 0, 0⟩ N).x := by
  obtain ⟨f, hf, hm, -⟩ := Ekf.solver_rosScheme hla vf hf hσ hh ⟨x0, vf x0 0, 0, 0⟩ PosSemidef.zero N sqrt (Ekf.init2 x0 vf) rfl
    (by cases sqrt <;> simp [covOf, Ekf.init2])
  refine (Ekf.ekf1_two la rng none hd x0 vf h N sqrt (IOUP.transition 0 σ 1 h dim) none).trans ?_
  refine (congrArg (Except.map _) hf).trans (congrArg Except.ok ?_)
  simp only [Ekf.finish]
  rw [hm]
  exact stride_interlace ![_, _] 0

/-- C130, Algorithm 3: from any mean and any covariance, EKF1 returns the mean and the covariance of the scheme started with the Jacobian at
the mean and the covariance in units of `σ² h³`. -/
theorem C130_alg3 {la : LinAlg} (hla : la.Correct) (rng : Rng) (key : Option Key) {dim : ℕ} (vf : Field dim)
    (hf : ∀ t, Differentiable ℝ fun x => vf x t) {σ h : ℝ} (hσ : σ ≠ 0) (hh : 0 < h) (s m : Vec dim) {P : Mat dim dim}
    (hP : P.PosSemidef) (N : ℕ) (sqrt : Bool) :
    let out := rosScheme vf h ⟨m, vf m 0, jac (fun x => vf x 0) m, (σ ^ 2 * h ^ 3)⁻¹ • P⟩ N
    ∃ s', Ekf.ekf2 la rng false key (s, m, P) vf h N sqrt (some ⟨_, IOUP.transition 0 σ 1 h dim⟩) none =
      .ok (s', out.x, (σ ^ 2 * h ^ 3) • out.C) := by
  intro out
  have hk : 0 < σ ^ 2 * h ^ 3 := by positivity
  have hc : covOf sqrt (Ekf.init32 la false m P vf sqrt) = (σ ^ 2 * h ^ 3) •
      (Ekf.lift (jac (fun x => vf x 0) m) * ((σ ^ 2 * h ^ 3)⁻¹ • P) * (Ekf.lift (jac (fun x => vf x 0) m))ᵀ) := by
    have h0 : (Ekf.init32 la false m P vf false).cov = (σ ^ 2 * h ^ 3) •
        (Ekf.lift (jac (fun x => vf x 0) m) * ((σ ^ 2 * h ^ 3)⁻¹ • P) * (Ekf.lift (jac (fun x => vf x 0) m))ᵀ) := by
      rw [Ekf.init32_cov, Matrix.mul_smul, Matrix.smul_mul, smul_smul, mul_inv_cancel₀ hk.ne', one_smul]
      rfl
    cases sqrt
    · exact h0
    · exact (Ekf.init32_represents hla false m hP vf).2.trans h0
  obtain ⟨f, hf, hm, hP'⟩ := Ekf.solver_rosScheme hla vf hf hσ hh ⟨m, vf m 0, jac (fun x => vf x 0) m, (σ ^ 2 * h ^ 3)⁻¹ • P⟩
    (hP.smul (inv_nonneg.mpr hk.le)) N sqrt (Ekf.init32 la false m P vf sqrt) rfl hc
  refine ⟨_, (Ekf.ekf2_eq la rng false key (s, m, P) vf h N sqrt _ none).trans
    ((congrArg (Except.map _) hf).trans (congrArg Except.ok (Prod.ext rfl (Prod.ext ?_ ?_))))⟩
  · have h2 : (Ekf.finish2 la rng key sqrt f).2.1 = f.mean := rfl
    simp only [Ekf.solComponents]
    rw [h2, hm]
    exact stride_interlace ![_, _] 0
  · have h3 : (Ekf.finish2 la rng key sqrt f).2.2 = covOf sqrt f := rfl
    simp only [Ekf.solComponents]
    rw [h3, hP', Ekf.lift_cov]
    ext i j
    simp only [strideMat, Matrix.smul_apply]
    congr 1
    exact interlaceMatrix_flat _ _ _ _ _ _ _ _

/-- C130, in `sde_solver`: with EKF1 and any number `M` of filter steps per interval, every state is the value of the scheme for the random
field of the interval from the state before. -/
theorem C130_run {la : LinAlg} (hla : la.Correct) (rng rs : Rng) (key : Key) {C : Type} {d m : ℕ} (hd : 0 < d) (drift : Field d)
    (sigma : Diffusion d m) (hdrift : ∀ t, Differentiable ℝ fun x => drift x t)
    (hsigma : ∀ t, Differentiable ℝ fun x => sigma x t) (bm : BmApprox C m) (x0 : Vec d) {δ : ℝ} (hδ : 0 < δ) (N : ℕ) {M : ℕ} (hM : 0 < M)
    {σ : ℝ} (hσ : σ ≠ 0) (sqrt : Bool) (odeInt : OdeInt (Vec d) d)
    (hode : ∀ k x vf, Ekf.ekf1 la rs none x vf (δ / M) M sqrt (some ⟨_, IOUP.transition 0 σ 1 (δ / M) d⟩) none = .ok (odeInt k x vf δ)) :
    let out := sdeSolver rng key drift sigma x0 bm δ N odeInt
    ∀ k < N, ∃ x c, out.2.1[k]? = some x ∧ out.2.2[k]? = some c ∧
      let vf := intervalField drift sigma bm δ c (k * δ)
      out.2.1[k + 1]? = some (rosScheme vf (δ / M) ⟨x, vf x 0, 0, 0⟩ M).x := by
  intro out k hk
  obtain ⟨x, c, h1, h2, -, h4⟩ := sdeSolver_interval rng key drift sigma x0 bm δ N odeInt k hk
  refine ⟨x, c, h1, h2, ?_⟩
  intro vf
  have hvf : ∀ t, Differentiable ℝ fun z => vf z t := fun t => by
    refine (hdrift (t + k * δ)).add ?_
    refine differentiable_pi.mpr fun i => ?_
    have : ∀ j, Differentiable ℝ fun z => sigma z (t + k * δ) i j := fun j =>
      differentiable_pi.mp (differentiable_pi.mp (hsigma (t + k * δ)) i) j
    simp only [mulVec, dotProduct]
    exact Differentiable.fun_sum fun j _ => (this j).mul_const (jacT (fun t => bm.eval t δ c) t j)
  have hh : 0 < δ / M := div_pos hδ (by exact_mod_cast hM)
  rw [h4]
  refine congrArg some ?_
  exact (Except.ok.inj ((hode ((key.child N k).child 2 1) x vf).symm.trans (C130_steps hla rs hd vf hvf hσ hh x M sqrt)))

/-- The scheme for scalar matrices. -/
theorem ros_smul {dim : ℕ} (h j c j' i g p : ℝ) (hi : i = 1 - h * j' + h ^ 2 / 3 * j' ^ 2 + h ^ 2 * (j - j' * (1 + h * j)) ^ 2 * c)
    (hi0 : i ≠ 0) (hg : g * i = h / 2 - h ^ 2 / 3 * j' + h ^ 2 * (1 + h * j) * c * (j - j' * (1 + h * j)))
    (hp : p = (1 + h * j) ^ 2 * c + 1 / 3 - (h ^ 2)⁻¹ * (g ^ 2 * i)) :
    rosGain h (j • (1 : Mat dim dim)) (c • 1) (j' • 1) = g • 1 ∧ rosCov h (j • (1 : Mat dim dim)) (c • 1) (j' • 1) = p • 1 := by
  have hD : rosD h (j • (1 : Mat dim dim)) (j' • 1) = (j - j' * (1 + h * j)) • 1 := by
    rw [rosD, smul_smul, Matrix.smul_mul, Matrix.one_mul]
    module
  have hI : rosInn h (j • (1 : Mat dim dim)) (c • 1) (j' • 1) = i • 1 := by
    rw [rosInn, hD, rosW, hi]
    simp only [transpose_smul, transpose_one, Matrix.smul_mul, Matrix.mul_smul, Matrix.one_mul]
    module
  have hIi : (i • (1 : Mat dim dim))⁻¹ = i⁻¹ • 1 := by
    refine inv_eq_right_inv ?_
    rw [Matrix.smul_mul, Matrix.mul_smul, smul_smul, Matrix.one_mul, mul_inv_cancel₀ hi0, one_smul]
  have hG : rosGain h (j • (1 : Mat dim dim)) (c • 1) (j' • 1) = g • 1 := by
    rw [rosGain, hI, hIi, hD]
    have : g = (h / 2 - h ^ 2 / 3 * j' + h ^ 2 * (1 + h * j) * c * (j - j' * (1 + h * j))) * i⁻¹ := by rw [← hg]; field_simp
    rw [this]
    simp only [transpose_smul, transpose_one, Matrix.smul_mul, Matrix.mul_smul, Matrix.add_mul, Matrix.one_mul, Matrix.sub_mul, Matrix.mul_one]
    module
  refine ⟨hG, ?_⟩
  rw [rosCov, hG, hI, hp]
  simp only [transpose_smul, transpose_one, transpose_add, Matrix.smul_mul, Matrix.mul_smul, Matrix.add_mul, Matrix.mul_add, Matrix.one_mul,
    Matrix.mul_one]
  module

/-- C130: two steps of the scheme for `x' = -x` with `h = 1`, which is not the value `25 / 196` of two steps that start without
uncertainty. -/
theorem rosScheme_two : (rosScheme (fun (x : Vec 1) _ => -x) 1 ⟨1, -1, 0, 0⟩ 2).x = fun _ => 25 / 199 := by
  have hJ : ∀ p, jac (fun x : Vec 1 => -x) p = (-1 : ℝ) • 1 := fun p => by
    have := jac_affine ((-1 : ℝ) • (1 : Mat 1 1)) 0 p
    simpa [smul_mulVec, one_mulVec, neg_mulVec] using this
  obtain ⟨g1, p1⟩ := ros_smul (dim := 1) 1 0 0 (-1) (7 / 3) (5 / 14) (1 / 28) (by norm_num) (by norm_num) (by norm_num) (by norm_num)
  obtain ⟨g2, -⟩ := ros_smul (dim := 1) 1 (-1) (1 / 28) (-1) (199 / 84) (70 / 199) (1 / 3 - (70 / 199) ^ 2 * (199 / 84)) (by norm_num)
    (by norm_num) (by norm_num) (by norm_num)
  simp only [zero_smul] at g1 p1
  simp only [rosScheme, hJ, g1, p1, g2, smul_mulVec, one_mulVec]
  funext i
  norm_num

/-- C130: the uncertainty matters: with two steps EKF1 does not return what two calls with one step return. -/
theorem C130_memory {la : LinAlg} (hla : la.Correct) (rng : Rng) (sqrt : Bool) :
    ∃ y1 y2 z, let ekf1 := fun (x : Vec 1) N => Ekf.ekf1 la rng none x (fun x _ => -x) 1 N sqrt (some ⟨_, IOUP.transition 0 1 1 1 1⟩) none
      ekf1 1 1 = .ok y1 ∧ ekf1 y1 1 = .ok y2 ∧ ekf1 1 2 = .ok z ∧ y2 ≠ z := by
  have hf : ∀ _ : ℝ, Differentiable ℝ fun x : Vec 1 => -x := fun _ => differentiable_id.neg
  have hJ : ∀ p, jac (fun x : Vec 1 => -x) p = (-1 : ℝ) • 1 := fun p => by
    have := jac_affine ((-1 : ℝ) • (1 : Mat 1 1)) 0 p
    simpa [smul_mulVec, one_mulVec, neg_mulVec] using this
  obtain ⟨g1, -⟩ := ros_smul (dim := 1) 1 0 0 (-1) (7 / 3) (5 / 14) (1 / 28) (by norm_num) (by norm_num) (by norm_num) (by norm_num)
  simp only [zero_smul] at g1
  have h1 : ∀ x : Vec 1, (rosScheme (fun (x : Vec 1) _ => -x) 1 ⟨x, -x, 0, 0⟩ 1).x = (5 / 14 : ℝ) • x := fun x => by
    simp only [rosScheme, hJ, g1, smul_mulVec, one_mulVec]
    module
  have h2 := fun (x : Vec 1) N => C130_steps hla rng one_pos (fun (x : Vec 1) _ => -x) hf one_ne_zero one_pos x N sqrt
  refine ⟨(5 / 14 : ℝ) • 1, (5 / 14 : ℝ) • ((5 / 14 : ℝ) • 1), fun _ => 25 / 199, ?_, ?_, ?_, fun h => ?_⟩
  · exact (h2 1 1).trans (congrArg Except.ok (h1 1))
  · exact (h2 ((5 / 14 : ℝ) • 1) 1).trans (congrArg Except.ok (h1 _))
  · exact (h2 1 2).trans (congrArg Except.ok rosScheme_two)
  have := congrFun h 0
  norm_num at this

/-- C130: the hypotheses on the field are met by a nonlinear field. -/
example : ∀ t : ℝ, Differentiable ℝ fun x : Vec 2 => (fun i => Real.sin (x i) * t : Vec 2) := fun t =>
  differentiable_pi.mpr fun i => ((differentiable_apply i).sin).mul_const t

/-- C130: an integrator as in `C130_run` exists. -/
example (la : LinAlg) (rng : Rng) (d : ℕ) (hd : 0 < d) (δ σ : ℝ) (M : ℕ) (sqrt : Bool) : ∃ odeInt : OdeInt (Vec d) d, ∀ (k : Key) x vf,
    Ekf.ekf1 la rng none x vf (δ / M) M sqrt (some ⟨_, IOUP.transition 0 σ 1 (δ / M) d⟩) none = .ok (odeInt k x vf δ) := by
  have : ∀ (x : Vec d) vf, ∃ y, Ekf.ekf1 la rng none x vf (δ / M) M sqrt (some ⟨_, IOUP.transition 0 σ 1 (δ / M) d⟩) none = .ok y := by
    intro x vf
    have h := Ekf.ekf1_two la rng none hd x vf (δ / M) M sqrt (IOUP.transition 0 σ 1 (δ / M) d) none
    rw [Ekf.solver_some] at h
    exact ⟨_, h⟩
  choose f hf using this
  exact ⟨fun _ x vf _ => f x vf, fun _ x vf => hf x vf⟩

end Verif
