import Verif.Spec.Ekf
import Verif.Lemmas.EkfIbm
import Verif.Lemmas.EkfModes

/-!
# Properties C26, C30, C43-C45: the filtering ODE solvers
-/

namespace Verif

open Matrix Spec Jnp

/-! ## The innovation covariance is never singular -/

/-- C26, covariance mode: with an integrated Brownian motion prior (the default one or any scale), every step of every run
inverts a positive definite matrix. The vector field must be differentiable in the state for EKF1, which
linearises it. -/
theorem C26_covariance {la : LinAlg} (hla : la.Correct) {dim r : ℕ} (EKF0 : Bool) (vf : Field dim)
    (hf : EKF0 = false → ∀ t, Differentiable ℝ fun x => vf x t) {h : ℝ} (hh : 0 < h) (N : ℕ) (prior : Option DynPrior)
    (hp : prior = none ∨ ∃ σ, σ ≠ 0 ∧ prior = some ⟨_, IOUP.transition 0 σ (r + 1) h dim⟩) (noise : Option DynMat)
    (hn : noise = none ∨ ∃ R : Mat dim dim, R.PosSemidef ∧ noise = some ⟨dim, dim, R⟩) (init : Gauss (dim * (r + 2)))
    (hi : init.cov.PosSemidef) :
    ∃ a, Ekf.args la (r := r) vf h N false EKF0 prior noise = .ok a ∧ a.ts.length = N ∧
      ∀ k (hk : k < a.ts.length),
        (KF.step la a.obs a.A a.Q a.xi a.R false (KF.ekf la init a.obs a.A a.Q a.xi a.R (a.ts.take k) false)
          a.ts[k]).2.1.PosDef := by
  obtain ⟨σ, hσ, hσp⟩ : ∃ σ, σ ≠ 0 ∧ Ekf.args la (r := r) vf h N false EKF0 prior noise =
      Ekf.args la (r := r) vf h N false EKF0 (some ⟨_, IOUP.transition 0 σ (r + 1) h dim⟩) noise := by
    rcases hp with rfl | ⟨σ, hσ, rfl⟩
    · exact ⟨1, one_ne_zero, Ekf.args_none ..⟩
    · exact ⟨σ, hσ, rfl⟩
  have hQ := Ekf.ibm_Q_posDef hσ (r + 1) hh dim
  rcases hn with rfl | ⟨R, hR, rfl⟩
  · refine ⟨_, hσp.trans (Ekf.args_some ..), by simp [linspace], fun k hk => ?_⟩
    exact (Ekf.wellPosed hla EKF0 vf hf _ _ _ _ hQ PosSemidef.zero init hi _).get k hk
  · refine ⟨_, hσp.trans (Ekf.args_some_noise ..), by simp [linspace], fun k hk => ?_⟩
    exact (Ekf.wellPosed hla EKF0 vf hf _ _ _ _ hQ hR init hi _).get k hk

/-- C26, square-root mode: the innovation factor of every step is lower triangular and invertible, and its product with its
transpose is positive definite. -/
theorem C26_sqrt {la : LinAlg} (hla : la.Correct) {dim r : ℕ} (EKF0 : Bool) (vf : Field dim)
    (hf : EKF0 = false → ∀ t, Differentiable ℝ fun x => vf x t) {h : ℝ} (hh : 0 < h) (N : ℕ) (prior : Option DynPrior)
    (hp : prior = none ∨ ∃ σ, σ ≠ 0 ∧ prior = some ⟨_, IOUP.transition 0 σ (r + 1) h dim⟩) (noise : Option DynMat)
    (hn : noise = none ∨ ∃ LR : Mat dim dim, noise = some ⟨dim, dim, LR⟩) (init : Gauss (dim * (r + 2))) :
    ∃ a, Ekf.args la (r := r) vf h N true EKF0 prior noise = .ok a ∧ a.ts.length = N ∧
      ∀ k (hk : k < a.ts.length),
        let I := (KF.step la a.obs a.A a.Q a.xi a.R true (KF.ekf la init a.obs a.A a.Q a.xi a.R (a.ts.take k) true)
          a.ts[k]).2.1
        LowerTri I ∧ IsUnit I.det ∧ (I * Iᵀ).PosDef := by
  obtain ⟨σ, hσ, hσp⟩ : ∃ σ, σ ≠ 0 ∧ Ekf.args la (r := r) vf h N true EKF0 prior noise =
      Ekf.args la (r := r) vf h N true EKF0 (some ⟨_, IOUP.transition 0 σ (r + 1) h dim⟩) noise := by
    rcases hp with rfl | ⟨σ, hσ, rfl⟩
    · exact ⟨1, one_ne_zero, Ekf.args_none ..⟩
    · exact ⟨σ, hσ, rfl⟩
  have hQ := Ekf.ibm_Q_posDef hσ (r + 1) hh dim
  have main : ∀ LR : Mat dim dim, ∀ ts : List ℝ, ∀ k (hk : k < ts.length),
      let p := IOUP.transition 0 σ (r + 1) h dim
      let I := (KF.step la (Ekf.obsFn (r := r) EKF0 vf) p.A (la.cholesky p.Q) p.xi LR true
        (KF.ekf la init (Ekf.obsFn (r := r) EKF0 vf) p.A (la.cholesky p.Q) p.xi LR (ts.take k) true) ts[k]).2.1
      LowerTri I ∧ IsUnit I.det ∧ (I * Iᵀ).PosDef := by
    intro LR ts k hk p I
    have hr := Ekf.run_represents (r := r) hla EKF0 vf hf p hQ LR _ rfl init ⟨init.mean, init.cov * init.covᵀ⟩
      ⟨rfl, rfl⟩ (ts.take k)
    have hw := (Ekf.wellPosed (r := r) hla EKF0 vf hf p.A p.Q p.xi _ hQ (psd_self_mul_transpose LR)
      ⟨init.mean, init.cov * init.covᵀ⟩ (psd_self_mul_transpose _) ts).get k hk
    obtain ⟨-, h2, -⟩ := step_represents hla (Ekf.obsFn (r := r) EKF0 vf) p.A (la.cholesky p.Q) p.Q p.xi LR _
      (hla.chol_mul _ hQ) rfl _ _ ts[k] hr hw
    have h3 : (I * Iᵀ).PosDef := by rw [show I * Iᵀ = _ from h2]; exact hw
    refine ⟨?_, KF.isUnit_det_of_factor h2 hw, h3⟩
    intro i j hij
    exact KF.tria_lower _ _ _ _ (Fin.lt_def.2 (by simpa using hij))
  rcases hn with rfl | ⟨R, rfl⟩
  · refine ⟨_, hσp.trans (Ekf.args_some ..), by simp [linspace], fun k hk => ?_⟩
    exact main 0 _ k hk
  · refine ⟨_, hσp.trans (Ekf.args_some_noise ..), by simp [linspace], fun k hk => ?_⟩
    exact main R _ k hk

/-! ## Observation noise -/

theorem ekf0_noise_cov {la : LinAlg} (hla : la.Correct) (ρ : ℝ) (hρ : 0 ≤ ρ) :
    (KF.ekf la (Ekf.init2 (0 : Vec 1) fun _ t _ => t) (Ekf.obsFn true fun _ t _ => t) (IOUP.transition 0 1 1 1 1).A
      (IOUP.transition 0 1 1 1 1).Q 0 (ρ • (1 : Mat 1 1)) (linspace 1 ((1 : ℕ) * 1) 1) false).mean =
    interlace ![fun _ => 1 / (2 * (1 + ρ)), fun _ => 1 / (1 + ρ)] := by
  have hB' : (!![1, 1; 0, 1] : Mat (0 + 2) (0 + 2)) * 0 * (!![1, 1; 0, 1] : Mat (0 + 2) (0 + 2))ᵀ +
      !![1 ^ 2 * (1 ^ 3 / 3), 1 ^ 2 * (1 ^ 2 / 2); 1 ^ 2 * (1 ^ 2 / 2), 1 ^ 2 * 1] = !![1 / 3, 1 / 2; 1 / 2, 1] := by
    ext i j
    fin_cases i <;> fin_cases j <;> simp
  have hpos : 0 < 1 + ρ := by linarith
  have key := Ekf.step_ekf0 (r := 0) (dim := 1) hla (fun _ t _ => t) !![1, 1; 0, 1]
    !![1 ^ 2 * (1 ^ 3 / 3), 1 ^ 2 * (1 ^ 2 / 2); 1 ^ 2 * (1 ^ 2 / 2), 1 ^ 2 * 1] 0 0 (by simp) (by simp) (by simp) ρ
    (by ext i j; fin_cases i <;> fin_cases j <;> simp) (by simp)
    (by rw [hB']; simpa using hpos) ![0, 0] 1
  simp only [hB'] at key
  have hA : (IOUP.transition 0 1 1 1 1).A = kron (1 : Mat 1 1) !![1, 1; 0, 1] := by
    rw [← Ekf.ibm1_A]; rfl
  have hQ : (IOUP.transition 0 1 1 1 1).Q = kron (1 : Mat 1 1)
      !![1 ^ 2 * (1 ^ 3 / 3), 1 ^ 2 * (1 ^ 2 / 2); 1 ^ 2 * (1 ^ 2 / 2), 1 ^ 2 * 1] := by
    rw [← Ekf.ibm1_Q]; rfl
  have hts : linspace 1 ((1 : ℕ) * 1) 1 = [1] := by simp [linspace]
  have hinit : Ekf.init2 (0 : Vec 1) (fun _ t _ => t) =
      ⟨interlace ![0, 0], kron (1 : Mat 1 1) (0 : Mat (0 + 2) (0 + 2)) + 0⟩ := by
    refine Gauss.ext ?_ ?_
    · simp only [Ekf.init2]; rfl
    · simp only [Ekf.init2]; ext p q; simp [kron]
  rw [hts, hA, hQ, hinit, KF.ekf_cons, KF.ekf_nil, key]
  simp only
  congr 1
  funext s i
  fin_cases s
  · simp
    field_simp
  · simp

/-- C30 fails: for every scalar noise other than 0 and 1 there is a call of `ekf0` whose two modes return different
values. -/
theorem C30_fails {la : LinAlg} (hla : la.Correct) (rng : Rng) (ρ : ℝ) (h0 : 0 < ρ) (h1 : ρ ≠ 1) :
    ∃ (vf : Field 1) (x0 y y' : Vec 1),
      Ekf.ekf0 la rng none x0 vf 1 1 false (some ⟨_, IOUP.transition 0 1 1 1 1⟩) (some ⟨1, 1, ρ • 1⟩) = .ok y ∧
      Ekf.ekf0 la rng none x0 vf 1 1 true (some ⟨_, IOUP.transition 0 1 1 1 1⟩) (some ⟨1, 1, ρ • 1⟩) = .ok y' ∧
      y ≠ y' := by
  refine ⟨fun _ t _ => t, 0, fun _ => 1 / (2 * (1 + ρ)), fun _ => 1 / (2 * (1 + ρ ^ 2)), ?_, ?_, ?_⟩
  · refine (Ekf.ekf0_two la rng none one_pos _ _ 1 1 false (IOUP.transition 0 1 1 1 1) _).trans ?_
    rw [Ekf.solver_some_noise]
    refine congrArg Except.ok ((congrArg (stride 0) (ekf0_noise_cov hla ρ h0.le)).trans ?_)
    rw [stride_interlace]
    rfl
  · refine (Ekf.ekf0_two la rng none one_pos _ _ 1 1 true (IOUP.transition 0 1 1 1 1) _).trans ?_
    rw [Ekf.solver_some_noise]
    have hr := Ekf.run_represents (r := 0) hla true (fun (_ : Vec 1) t _ => t) (fun h => by cases h)
      (IOUP.transition 0 1 1 1 1) (Ekf.ibm_Q_posDef one_ne_zero 1 one_pos 1) (ρ • 1) (ρ ^ 2 • 1)
      (by simp [IsFactor, smul_smul, sq]) (Ekf.init2 (0 : Vec 1) fun _ t _ => t) _ (Ekf.represents_zero _)
      (linspace 1 ((1 : ℕ) * 1) 1)
    refine congrArg Except.ok ((congrArg (stride 0) (hr.1.trans (ekf0_noise_cov hla (ρ ^ 2) (by positivity)))).trans ?_)
    rw [stride_interlace]
    rfl
  · intro h
    have h2 : 1 / (2 * (1 + ρ)) = 1 / (2 * (1 + ρ ^ 2)) := congrFun h 0
    have h3 : (2 * (1 + ρ)) = (2 * (1 + ρ ^ 2)) := by
      have hp1 : (2 * (1 + ρ)) ≠ 0 := by positivity
      have hp2 : (2 * (1 + ρ ^ 2)) ≠ 0 := by positivity
      field_simp at h2
      linarith
    have h4 : ρ * (ρ - 1) = 0 := by nlinarith
    rcases mul_eq_zero.1 h4 with h5 | h5
    · exact h0.ne' h5
    · exact h1 (by linarith)

/-- C30, what holds: a factor `LR` given in square-root mode means the same as the covariance `LR LRᵀ` given in covariance
mode: the Algorithm 3 solvers return the same mean and covariance. Missing: the same matrix in both modes. -/
theorem C30_partial {la : LinAlg} (hla : la.Correct) (rng : Rng) {dim : ℕ} (EKF0 : Bool) (vf : Field dim)
    (hf : EKF0 = false → ∀ t, Differentiable ℝ fun x => vf x t) (h : ℝ) (N : ℕ) (p : Prior (dim * (0 + 2)))
    (hQ : p.Q.PosDef) (LR : Mat dim dim) (init : Ekf.State3 dim) (hi : init.2.2.PosSemidef) :
    Ekf.ekf2 la rng EKF0 none init vf h N true (some ⟨_, p⟩) (some ⟨dim, dim, LR⟩) =
      Ekf.ekf2 la rng EKF0 none init vf h N false (some ⟨_, p⟩) (some ⟨dim, dim, LR * LRᵀ⟩) := by
  rw [Ekf.ekf2_eq, Ekf.ekf2_eq, Ekf.solver_some_noise, Ekf.solver_some_noise]
  have hr := Ekf.run_represents hla EKF0 vf hf p hQ LR _ rfl _ _ (Ekf.init32_represents hla EKF0 init.2.1 hi vf)
    (linspace h (N * h) N)
  simp only [Except.map, if_true, Bool.false_eq_true, if_false]
  rw [Ekf.finish2_represents la rng hr]

/-! ## EKF0 with the once integrated Brownian motion prior -/

theorem ekf_ibm1 {la : LinAlg} (hla : la.Correct) {dim : ℕ} (vf : Field dim) {σ h : ℝ} (hσ : σ ≠ 0) (hh : 0 < h)
    {C : Mat dim dim} (hC : Cᵀ = C) (y0 : Vec dim) (N : ℕ) :
    KF.ekf la ⟨interlace ![y0, vf y0 0], Ekf.solX C⟩ (Ekf.obsFn (r := 0) true vf) (IOUP.transition 0 σ 1 h dim).A
        (IOUP.transition 0 σ 1 h dim).Q 0 0 (linspace h (N * h) N) false =
      ⟨interlace ![(trapScheme vf h y0 N).1, (trapScheme vf h y0 N).2],
        kron (1 : Mat dim dim) !![σ ^ 2 * N * h ^ 3 / 12, 0; 0, 0] + Ekf.solX C⟩ := by
  rw [Ekf.linspace_ts]
  induction N with
  | zero =>
    refine Gauss.ext rfl ?_
    ext p q
    have : ∀ s t : Fin 2, (!![(0 : ℝ), 0; 0, 0] : Mat 2 2) s t = 0 := by
      intro s t; fin_cases s <;> fin_cases t <;> rfl
    simp [KF.ekf_nil, kron, this]
  | succ N ih =>
    rw [List.range_succ, List.map_append, KF.ekf_append, ih, List.map_cons, List.map_nil, KF.ekf_cons, KF.ekf_nil,
      Ekf.step_ibm1 hla vf hσ hh hC]
    refine Gauss.ext rfl ?_
    simp only
    congr 3
    push_cast
    ext i j; fin_cases i <;> fin_cases j <;> simp; ring

/-- The filter started at the exact initial value, in both modes. -/
theorem solver_ibm1 {la : LinAlg} (hla : la.Correct) {dim : ℕ} (vf : Field dim) {σ h : ℝ} (hσ : σ ≠ 0) (hh : 0 < h)
    {C : Mat dim dim} (hC : C.PosSemidef) (y0 : Vec dim) (N : ℕ) (sqrt : Bool) (L : Mat (dim * (0 + 2)) (dim * (0 + 2)))
    (hL : covOf sqrt ⟨interlace ![y0, vf y0 0], L⟩ = Ekf.solX C) :
    ∃ f, Ekf.solver la ⟨interlace ![y0, vf y0 0], L⟩ vf h N sqrt true (some ⟨_, IOUP.transition 0 σ 1 h dim⟩) none = .ok f ∧
      f.mean = interlace ![(trapScheme vf h y0 N).1, (trapScheme vf h y0 N).2] ∧
      covOf sqrt f = kron (1 : Mat dim dim) !![σ ^ 2 * N * h ^ 3 / 12, 0; 0, 0] + Ekf.solX C := by
  have hrun := ekf_ibm1 hla vf hσ hh (psd_symm hC) y0 N
  refine ⟨_, Ekf.solver_some (r := 0) la _ vf h N sqrt true (IOUP.transition 0 σ 1 h dim), ?_⟩
  cases sqrt
  · have hL' : L = Ekf.solX C := hL
    subst hL'
    have : (IOUP.transition 0 σ 1 h dim).xi = 0 := rfl
    simp only [Bool.false_eq_true, if_false, this, covOf, hrun, and_self]
  · have hr := Ekf.run_represents (r := 0) hla true vf (fun h => by cases h) (IOUP.transition 0 σ 1 h dim)
      (Ekf.ibm_Q_posDef hσ 1 hh dim) 0 0 Ekf.isFactor_zero ⟨interlace ![y0, vf y0 0], L⟩
      ⟨interlace ![y0, vf y0 0], Ekf.solX C⟩ ⟨rfl, hL⟩ (linspace h (N * h) N)
    have h0 : (IOUP.transition 0 σ 1 h dim).xi = 0 := rfl
    rw [h0, hrun] at hr
    exact ⟨hr.1, hr.2⟩

/-- C43: without a key, EKF0 with the once integrated Brownian motion prior of any scale returns the value of the explicit
trapezoidal scheme, in both modes. -/
theorem C43_trapezoidal {la : LinAlg} (hla : la.Correct) (rng : Rng) {dim : ℕ} (hd : 0 < dim) (vf : Field dim) {σ h : ℝ}
    (hσ : σ ≠ 0) (hh : 0 < h) (x0 : Vec dim) (N : ℕ) (sqrt : Bool) :
    Ekf.ekf0 la rng none x0 vf h N sqrt (some ⟨_, IOUP.transition 0 σ 1 h dim⟩) none = .ok (trapScheme vf h x0 N).1 := by
  obtain ⟨f, hf, hm, -⟩ := solver_ibm1 hla vf hσ hh PosSemidef.zero x0 N sqrt 0 (by cases sqrt <;> simp [covOf, Ekf.solX_zero])
  refine (Ekf.ekf0_two la rng none hd x0 vf h N sqrt (IOUP.transition 0 σ 1 h dim) none).trans ?_
  rw [show Ekf.init2 x0 vf = ⟨interlace ![x0, vf x0 0], 0⟩ from rfl]
  refine (congrArg (Except.map _) hf).trans (congrArg Except.ok ?_)
  simp only [Ekf.finish]
  rw [hm, stride_interlace]
  rfl

/-- C43: one step is Heun's method. -/
theorem C43_heun {la : LinAlg} (hla : la.Correct) (rng : Rng) {dim : ℕ} (hd : 0 < dim) (vf : Field dim) {σ h : ℝ}
    (hσ : σ ≠ 0) (hh : 0 < h) (x0 : Vec dim) (sqrt : Bool) :
    Ekf.ekf0 la rng none x0 vf h 1 sqrt (some ⟨_, IOUP.transition 0 σ 1 h dim⟩) none =
      .ok (x0 + (h / 2) • (vf x0 0 + vf (x0 + h • vf x0 0) h)) := by
  rw [C43_trapezoidal hla rng hd vf hσ hh]
  simp [trapScheme]

/-- C44: the posterior covariance of EKF0 with the once integrated Brownian motion prior does not depend on the vector
field; after `N` steps from the exact initial value the solution has variance `σ² N h³ / 12`, uncorrelated between
coordinates, and the derivatives have none. -/
theorem C44_covariance {la : LinAlg} (hla : la.Correct) {dim : ℕ} (vf : Field dim) {σ h : ℝ}
    (hσ : σ ≠ 0) (hh : 0 < h) (x0 : Vec dim) (N : ℕ) (sqrt : Bool) :
    ∃ f, Ekf.solver la (Ekf.init2 x0 vf) vf h N sqrt true (some ⟨_, IOUP.transition 0 σ 1 h dim⟩) none = .ok f ∧
      ∀ i j s t, covOf sqrt f (flat i s) (flat j t) =
        if i = j ∧ s = 0 ∧ t = 0 then σ ^ 2 * N * h ^ 3 / 12 else 0 := by
  obtain ⟨f, hf, -, hc⟩ := solver_ibm1 hla vf hσ hh PosSemidef.zero x0 N sqrt 0 (by cases sqrt <;> simp [covOf, Ekf.solX_zero])
  refine ⟨f, hf, fun i j s t => ?_⟩
  rw [hc, Ekf.solX_zero, add_zero, kron_flat, Matrix.one_apply]
  by_cases hij : i = j
  · fin_cases s <;> fin_cases t <;> simp [hij]
  · simp [hij]

/-- C44 for the Algorithm 3 solver: the covariance of the initial value is carried along and the same variance is added. -/
theorem C44_alg3 {la : LinAlg} (hla : la.Correct) (rng : Rng) {dim : ℕ} (vf : Field dim) {σ h : ℝ}
    (hσ : σ ≠ 0) (hh : 0 < h) (init : Ekf.State3 dim) (hP : init.2.2.PosSemidef) (N : ℕ) (sqrt : Bool) (key : Option Key) :
    ∃ s, Ekf.ekf2 la rng true key init vf h N sqrt (some ⟨_, IOUP.transition 0 σ 1 h dim⟩) none =
      .ok (s, (trapScheme vf h init.2.1 N).1, init.2.2 + (σ ^ 2 * N * h ^ 3 / 12) • 1) := by
  have hvar : (Ekf.init32 la true init.2.1 init.2.2 vf false).cov = Ekf.solX init.2.2 := by
    simp only [Ekf.init32, if_true, Bool.false_eq_true, if_false]
    ext p q
    rw [← flat_div_mod p, ← flat_div_mod q, Ekf.solX_flat]
    refine (interlaceMatrix_flat _ _ _ _ _ _ _ _).trans ?_
    generalize p.modNat = s
    generalize q.modNat = t
    fin_cases s <;> fin_cases t <;> simp
  obtain ⟨f, hf, hm, hc⟩ := solver_ibm1 hla vf hσ hh hP init.2.1 N sqrt (Ekf.init32 la true init.2.1 init.2.2 vf sqrt).cov
    (by
      cases sqrt
      · exact hvar
      · exact (Ekf.init32_represents hla true init.2.1 hP vf).2.trans hvar)
  rw [Ekf.ekf2_eq]
  refine ⟨_, (congrArg (Except.map _) hf).trans (congrArg Except.ok (Prod.ext rfl (Prod.ext ?_ ?_)))⟩
  · simp only [Ekf.solComponents, Ekf.finish2]
    rw [hm, stride_interlace]
    rfl
  · have : (Ekf.finish2 la rng key sqrt f).2.2 = covOf sqrt f := by cases sqrt <;> rfl
    simp only [Ekf.solComponents, this, hc]
    ext i j
    simp [strideMat, Matrix.one_apply]
    split_ifs <;> ring

/-! ## Scale invariance -/

theorem step_scale {la : LinAlg} (hla : la.Correct) {nx ny : ℕ} (obs : ObsFn nx ny) (A Q : Mat nx nx) (xi : Vec nx)
    (R : Mat ny ny) {c : ℝ} (hc : 0 < c) (x : Gauss nx) (t : ℝ) (hS : (KF.step la obs A Q xi R false x t).2.1.PosDef) :
    KF.step la obs A (c • Q) xi (c • R) false ⟨x.mean, c • x.cov⟩ t =
      (⟨(KF.step la obs A Q xi R false x t).1.mean, c • (KF.step la obs A Q xi R false x t).1.cov⟩,
        c • (KF.step la obs A Q xi R false x t).2.1, (KF.step la obs A Q xi R false x t).2.2) := by
  have hp : KF.predict la ⟨x.mean, c • x.cov⟩ A (c • Q) xi false =
      ⟨(KF.predict la x A Q xi false).mean, c • (KF.predict la x A Q xi false).cov⟩ := by
    simp [KF.predict, smul_add]
  simp only [KF.step, hp] at hS ⊢
  generalize KF.predict la x A Q xi false = x' at hS ⊢
  generalize jac (fun z => obs z x'.mean t) x'.mean = H at hS ⊢
  generalize obs x'.mean x'.mean t = z at hS ⊢
  simp only [KF.update, Bool.false_eq_true, if_false] at hS ⊢
  have hS' : H * (c • x'.cov) * Hᵀ + c • R = c • (H * x'.cov * Hᵀ + R) := by simp [smul_add]
  have hK : la.solvePos (c • (H * x'.cov * Hᵀ + R)) H * (c • x'.cov) = la.solvePos (H * x'.cov * Hᵀ + R) H * x'.cov := by
    have hi : (c • (H * x'.cov * Hᵀ + R))⁻¹ = c⁻¹ • (H * x'.cov * Hᵀ + R)⁻¹ := by
      refine inv_eq_right_inv ?_
      rw [Matrix.smul_mul, Matrix.mul_smul, mul_nonsing_inv _ (pd_isUnit_det hS), smul_smul, mul_inv_cancel₀ hc.ne', one_smul]
    rw [hla.solvePos_eq hS, hla.solvePos_eq (hS.smul hc), hi]
    simp [smul_smul, hc.ne']
  rw [hS', hK]
  simp [smul_sub]

theorem ekf_scale {la : LinAlg} (hla : la.Correct) {nx ny : ℕ} (obs : ObsFn nx ny) (A Q : Mat nx nx) (xi : Vec nx)
    (R : Mat ny ny) {c : ℝ} (hc : 0 < c) (x : Gauss nx) (ts : List ℝ) (hw : WellPosed la obs A Q xi R x ts) :
    KF.ekf la ⟨x.mean, c • x.cov⟩ obs A (c • Q) xi (c • R) ts false =
      ⟨(KF.ekf la x obs A Q xi R ts false).mean, c • (KF.ekf la x obs A Q xi R ts false).cov⟩ := by
  induction ts generalizing x with
  | nil => rfl
  | cons t ts ih =>
    rw [KF.ekf_cons, KF.ekf_cons, step_scale hla obs A Q xi R hc x t hw.1]
    exact ih _ hw.2

/-- C45, for the filter: scaling all covariances (initial, prior, noise) by `c > 0` leaves the mean and the residual of every
step unchanged and multiplies the covariance and the innovation covariance by `c`. -/
theorem C45_filter {la : LinAlg} (hla : la.Correct) {nx ny : ℕ} (obs : ObsFn nx ny) (A Q : Mat nx nx) (xi : Vec nx)
    (R : Mat ny ny) {c : ℝ} (hc : 0 < c) (x : Gauss nx) (ts : List ℝ) (hw : WellPosed la obs A Q xi R x ts) :
    KF.ekfUC la ⟨x.mean, c • x.cov⟩ obs A (c • Q) xi (c • R) ts false =
      (⟨(KF.ekfUC la x obs A Q xi R ts false).1.mean, c • (KF.ekfUC la x obs A Q xi R ts false).1.cov⟩,
        c • (KF.ekfUC la x obs A Q xi R ts false).2.1, (KF.ekfUC la x obs A Q xi R ts false).2.2) := by
  rcases List.eq_nil_or_concat ts with rfl | ⟨us, t, rfl⟩
  · refine Prod.ext rfl (Prod.ext ?_ rfl)
    exact (smul_zero c).symm
  · rw [List.concat_eq_append] at hw ⊢
    have h1 : WellPosed la obs A Q xi R x us := by
      have := hw.take us.length
      rwa [List.take_left' rfl] at this
    have h2 := hw.get us.length (by simp)
    simp only [List.take_left' rfl, List.getElem_append_right (Nat.le_refl us.length), Nat.sub_self,
      List.getElem_cons_zero] at h2
    rw [KF.ekfUC_snoc, KF.ekfUC_snoc, ekf_scale hla obs A Q xi R hc x us h1, step_scale hla obs A Q xi R hc _ t h2]
    rfl

/-- C45, for the filtering ODE solvers in both modes: from an exact initial value and without noise, multiplying the prior
covariance by `c > 0` leaves the mean and the residual unchanged and multiplies the covariance and the innovation
covariance by `c`. -/
theorem C45_solver {la : LinAlg} (hla : la.Correct) {dim r : ℕ} (EKF0 : Bool) (vf : Field dim)
    (hf : EKF0 = false → ∀ t, Differentiable ℝ fun x => vf x t) (h : ℝ) (N : ℕ) (sqrt : Bool) (p : Prior (dim * (r + 2)))
    (hQ : p.Q.PosDef) {c : ℝ} (hc : 0 < c) (m0 : Vec (dim * (r + 2))) :
    ∃ f g, Ekf.solverUC la ⟨m0, 0⟩ vf h N sqrt EKF0 (some ⟨_, p⟩) none = .ok f ∧
      Ekf.solverUC la ⟨m0, 0⟩ vf h N sqrt EKF0 (some ⟨_, ⟨p.xi, c • p.Q, p.A⟩⟩) none = .ok g ∧
      g.1.mean = f.1.mean ∧ covOf sqrt g.1 = c • covOf sqrt f.1 ∧ g.2.1 = c • f.2.1 ∧ g.2.2 = f.2.2 := by
  refine ⟨_, _, Ekf.solverUC_some .., Ekf.solverUC_some .., ?_⟩
  have hw := Ekf.wellPosed hla EKF0 vf hf p.A p.Q p.xi 0 hQ PosSemidef.zero ⟨m0, 0⟩ PosSemidef.zero (linspace h (N * h) N)
  have hs := C45_filter hla (Ekf.obsFn EKF0 vf) p.A p.Q p.xi 0 hc ⟨m0, 0⟩ (linspace h (N * h) N) hw
  simp only [smul_zero] at hs
  cases sqrt
  · simp only [Bool.false_eq_true, if_false, hs, covOf, and_self]
  · have h1 := Ekf.run_represents_UC hla EKF0 vf hf p hQ 0 0 Ekf.isFactor_zero _ _ (Ekf.represents_zero m0)
      (linspace h (N * h) N)
    have h2 := Ekf.run_represents_UC hla EKF0 vf hf ⟨p.xi, c • p.Q, p.A⟩ (hQ.smul hc) 0 0 Ekf.isFactor_zero _ _
      (Ekf.represents_zero m0) (linspace h (N * h) N)
    simp only [hs] at h2
    simp only [if_true, covOf]
    refine ⟨h2.1.1.trans h1.1.1.symm, ?_, ?_, ?_⟩
    · rw [show _ = _ from h2.1.2, show _ = _ from h1.1.2]
    · rw [h2.2, h1.2]
    · rw [h2.2, h1.2]

/-! ## The hypotheses can be met -/

/-- A nonlinear, differentiable field in two dimensions, for C26, C30 and C45. -/
example : ∀ t : ℝ, Differentiable ℝ fun x : Vec 2 => (fun i => x i ^ 2 + t : Vec 2) := by
  intro t
  rw [differentiable_pi]
  intro i
  fun_prop

/-- The priors of C26, C30 and C45 exist for every number of states and dimension. -/
example (dim r : ℕ) : ∃ p : Prior (dim * (r + 2)), p.Q.PosDef :=
  ⟨IOUP.transition 0 1 (r + 1) 1 dim, Ekf.ibm_Q_posDef one_ne_zero _ one_pos _⟩

/-- C44 for exact linear algebra and a nonlinear field, two steps of length one: the variance is 1/6. -/
example (x0 : Vec 1) :
    ∃ f, Ekf.solver exactLinAlg (Ekf.init2 x0 fun x t i => x i ^ 2 + t) (fun x t i => x i ^ 2 + t) 1 2 true true
      (some ⟨_, IOUP.transition 0 1 1 1 1⟩) none = .ok f ∧ covOf true f (flat 0 0) (flat 0 0) = 1 / 6 := by
  obtain ⟨f, hf, hc⟩ := C44_covariance exactLinAlg_correct (fun x t i => x i ^ 2 + t) one_ne_zero one_pos x0 2 true
  refine ⟨f, hf, ?_⟩
  rw [hc]
  norm_num

end Verif
