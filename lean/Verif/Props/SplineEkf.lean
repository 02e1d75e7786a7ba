import Verif.Props.EkfSde
import Verif.Lemmas.EkfSpline
import Verif.Lemmas.LinearLaw
import Verif.Lemmas.Taylor15
import Mathlib.Analysis.Calculus.Deriv.Prod
import Mathlib.Analysis.Calculus.FDeriv.Prod

/-!
# Properties C83-C85: EKF0 with the twice integrated Brownian motion prior, its initialisation, and pure noise
-/

namespace Verif

open Matrix Spec Jnp MeasureTheory ProbabilityTheory

/-! ## C83 -/

theorem ekf_ibm2 {la : LinAlg} (hla : la.Correct) {dim : ℕ} (vf : Field dim) {σ h : ℝ} (hσ : σ ≠ 0) (hh : 0 < h)
    (y0 a0 : Vec dim) (N : ℕ) :
    KF.ekf la ⟨interlace ![y0, vf y0 0, a0], 0⟩ (Ekf.obsFn (r := 1) true vf) (IOUP.transition 0 σ 2 h dim).A
        (IOUP.transition 0 σ 2 h dim).Q 0 0 (linspace h (N * h) N) false =
      ⟨interlace ![(splineScheme vf h y0 a0 N).1, (splineScheme vf h y0 a0 N).2.1, (splineScheme vf h y0 a0 N).2.2],
        kron (1 : Mat dim dim) (Ekf.splineCov σ h (N / 720) (splineVar N))⟩ := by
  rw [Ekf.linspace_ts]
  induction N with
  | zero =>
    refine Gauss.ext rfl ?_
    ext p q
    have : ∀ s t : Fin (1 + 2), Ekf.splineCov σ h ((0 : ℕ) / 720) (splineVar 0) s t = 0 := by
      intro s t; fin_cases s <;> fin_cases t <;> simp [Ekf.splineCov, splineVar]
    simp only [List.range_zero, List.map_nil, KF.ekf_nil, kron, this, mul_zero, Matrix.zero_apply]
  | succ N ih =>
    rw [List.range_succ, List.map_append, KF.ekf_append, ih, List.map_cons, List.map_nil, KF.ekf_cons, KF.ekf_nil,
      Ekf.step_ibm2 hla vf hσ hh _ _ _ _ _ _ (splineVar_nonneg N)]
    refine Gauss.ext rfl ?_
    simp only
    rw [show ((N + 1 : ℕ) : ℝ) / 720 = N / 720 + 1 / 720 by push_cast; ring]
    rfl

/-- The filter started without uncertainty, in both modes. -/
theorem solver_ibm2 {la : LinAlg} (hla : la.Correct) {dim : ℕ} (vf : Field dim) {σ h : ℝ} (hσ : σ ≠ 0) (hh : 0 < h)
    (y0 a0 : Vec dim) (N : ℕ) (sqrt : Bool) :
    ∃ f, Ekf.solver la ⟨interlace ![y0, vf y0 0, a0], 0⟩ vf h N sqrt true (some ⟨_, IOUP.transition 0 σ 2 h dim⟩) none = .ok f ∧
      f.mean = interlace ![(splineScheme vf h y0 a0 N).1, (splineScheme vf h y0 a0 N).2.1, (splineScheme vf h y0 a0 N).2.2] ∧
      covOf sqrt f = kron (1 : Mat dim dim) (Ekf.splineCov σ h (N / 720) (splineVar N)) := by
  have hrun := ekf_ibm2 hla vf hσ hh y0 a0 N
  refine ⟨_, Ekf.solver_some (r := 1) la _ vf h N sqrt true (IOUP.transition 0 σ 2 h dim), ?_⟩
  have h0 : (IOUP.transition 0 σ 2 h dim).xi = 0 := rfl
  cases sqrt
  · simp only [Bool.false_eq_true, if_false, h0, covOf, hrun, and_self]
  · have hr := Ekf.run_represents (r := 1) hla true vf (fun h => by cases h) (IOUP.transition 0 σ 2 h dim)
      (Ekf.ibm_Q_posDef hσ 2 hh dim) 0 0 Ekf.isFactor_zero ⟨interlace ![y0, vf y0 0, a0], 0⟩
      ⟨interlace ![y0, vf y0 0, a0], 0⟩ (Ekf.represents_zero _) (linspace h (N * h) N)
    rw [h0, hrun] at hr
    exact ⟨hr.1, hr.2⟩

/-- C83: without a key, EKF0 with the twice integrated Brownian motion prior of any scale returns the value of the cubic spline
scheme started with the second derivative `J f` at the initial value, in both modes. -/
theorem C83_spline {la : LinAlg} (hla : la.Correct) (rng : Rng) {dim : ℕ} (hd : 0 < dim) (vf : Field dim) {σ h : ℝ}
    (hσ : σ ≠ 0) (hh : 0 < h) (x0 : Vec dim) (N : ℕ) (sqrt : Bool) :
    Ekf.ekf0 la rng none x0 vf h N sqrt (some ⟨_, IOUP.transition 0 σ 2 h dim⟩) none =
      .ok (splineScheme vf h x0 (jac (fun z => vf z 0) x0 *ᵥ vf x0 0) N).1 := by
  obtain ⟨f, hf, hm, -⟩ := solver_ibm2 hla vf hσ hh x0 (jac (fun z => vf z 0) x0 *ᵥ vf x0 0) N sqrt
  refine (Ekf.ekf0_three la rng none hd x0 vf h N sqrt (IOUP.transition 0 σ 2 h dim) none).trans ?_
  rw [show Ekf.init3 x0 vf = ⟨interlace ![x0, vf x0 0, jac (fun z => vf z 0) x0 *ᵥ vf x0 0], 0⟩ from rfl]
  refine (congrArg (Except.map _) hf).trans (congrArg Except.ok ?_)
  simp only [Ekf.finish]
  rw [hm, stride_interlace]
  rfl

theorem splineVar_bounds (k : ℕ) : 1 / 4 ≤ splineVar (k + 1) ∧ splineVar (k + 1) < 1 / 3 := by
  have h0 := splineVar_nonneg k
  have h1 : splineVar (k + 1) = 1 / 3 - 1 / (36 * (splineVar k + 1 / 3)) := by
    rw [splineVar]
    have : splineVar k + 1 / 3 ≠ 0 := by positivity
    field_simp
    ring
  rw [h1]
  have h2 : 0 < 36 * (splineVar k + 1 / 3) := by positivity
  have h3 : 1 / (36 * (splineVar k + 1 / 3)) ≤ 1 / 12 := one_div_le_one_div_of_le (by norm_num) (by linarith)
  have h4 : 0 < 1 / (36 * (splineVar k + 1 / 3)) := by positivity
  constructor <;> linarith

/-- C83: the posterior covariance does not depend on the vector field; coordinates are uncorrelated, the slopes are certain, the
variance of the solution is `σ² h⁵ (N/720 + s/144)` with the variance `σ² h s` of the second derivative between
`σ² h / 4` and `σ² h / 3`. -/
theorem C83_covariance {la : LinAlg} (hla : la.Correct) {dim : ℕ} {σ h : ℝ} (hσ : σ ≠ 0) (hh : 0 < h) (N : ℕ) (hN : 0 < N)
    (sqrt : Bool) :
    ∃ s : ℝ, 1 / 4 ≤ s ∧ s < 1 / 3 ∧ ∀ (vf : Field dim) (x0 : Vec dim),
    ∃ f, Ekf.solver la (Ekf.init3 x0 vf) vf h N sqrt true (some ⟨_, IOUP.transition 0 σ 2 h dim⟩) none = .ok f ∧
      (∀ i j p q, i ≠ j → covOf sqrt f (flat i p) (flat j q) = 0) ∧
      ∀ i, (∀ p, covOf sqrt f (flat i p) (flat i 1) = 0 ∧ covOf sqrt f (flat i 1) (flat i p) = 0) ∧
        covOf sqrt f (flat i 0) (flat i 0) = σ ^ 2 * h ^ 5 * (N / 720 + s / 144) ∧
        covOf sqrt f (flat i 2) (flat i 2) = σ ^ 2 * h * s ∧
        covOf sqrt f (flat i 0) (flat i 2) = -(σ ^ 2 * h ^ 3 * s / 12) ∧
        covOf sqrt f (flat i 2) (flat i 0) = -(σ ^ 2 * h ^ 3 * s / 12) := by
  obtain ⟨k, rfl⟩ : ∃ k, N = k + 1 := ⟨N - 1, by omega⟩
  refine ⟨splineVar (k + 1), (splineVar_bounds k).1, (splineVar_bounds k).2, fun vf x0 => ?_⟩
  obtain ⟨f, hf, -, hc⟩ := solver_ibm2 hla vf hσ hh x0 (jac (fun z => vf z 0) x0 *ᵥ vf x0 0) (k + 1) sqrt
  refine ⟨f, hf, fun i j p q hij => ?_, fun i => ⟨fun p => ?_, ?_, ?_, ?_, ?_⟩⟩
  · rw [hc, kron_flat, Matrix.one_apply_ne hij, zero_mul]
  · rw [hc, kron_flat, kron_flat]
    fin_cases p <;> simp [Ekf.splineCov]
  all_goals rw [hc, kron_flat]; simp [Ekf.splineCov]

/-- C83: two steps of the scheme for a concrete problem. -/
example : splineScheme (fun (_ : Vec 1) t _ => t) 1 0 0 1 = (fun _ => 3 / 8, fun _ => 1, fun _ => 3 / 2) := by
  simp only [splineScheme, splineVar]
  refine Prod.ext ?_ (Prod.ext ?_ ?_)
  all_goals funext i
  all_goals norm_num

/-! ## C84 -/

/-- C84, what the code leaves out: the second derivative of the solution at the start is the third initial state plus the time
derivative of the vector field. -/
theorem C84_gap {dim : ℕ} (vf : Field dim) (x0 ft : Vec dim) (y : ℝ → Vec dim) (f' : Vec dim × ℝ →L[ℝ] Vec dim) (h0 : y 0 = x0)
    (hf : HasFDerivAt (fun p : Vec dim × ℝ => vf p.1 p.2) f' (x0, 0)) (hft : HasDerivAt (fun t => vf x0 t) ft 0)
    (hy : ∀ᶠ t in nhds (0 : ℝ), HasDerivAt y (vf (y t) t) t) :
    HasDerivAt (deriv y) (stride 2 (Ekf.init3 x0 vf).mean + ft) 0 := by
  have hd : deriv y =ᶠ[nhds 0] fun t => vf (y t) t := hy.mono fun t ht => ht.deriv
  refine HasDerivAt.congr_of_eventuallyEq ?_ hd
  have hy0 := hy.self_of_nhds
  rw [h0] at hy0
  have h1 : HasDerivAt (fun t => (y t, t)) (vf x0 0, (1 : ℝ)) 0 := hy0.prodMk (hasDerivAt_id 0)
  have h3 : HasDerivAt (fun t => vf (y t) t) (f' (vf x0 0, 1)) 0 :=
    HasFDerivAt.comp_hasDerivAt_of_eq (f := fun t => (y t, t)) (0 : ℝ) hf h1 (by simp [h0])
  have hx : HasFDerivAt (fun z => vf z 0) (f'.comp (ContinuousLinearMap.inl ℝ (Vec dim) ℝ)) x0 :=
    HasFDerivAt.comp x0 (f := fun z : Vec dim => (z, (0 : ℝ))) hf (hasFDerivAt_prodMk_left x0 0)
  have ht : ft = f' (0, 1) := by
    have h5 : HasDerivAt (fun t : ℝ => (x0, t)) ((0 : Vec dim), (1 : ℝ)) 0 := (hasDerivAt_const 0 x0).prodMk (hasDerivAt_id 0)
    exact hft.unique (HasFDerivAt.comp_hasDerivAt_of_eq (f := fun t : ℝ => (x0, t)) (0 : ℝ) hf h5 rfl)
  refine h3.congr_deriv ?_
  have hs : stride 2 (Ekf.init3 x0 vf).mean = jac (fun z => vf z 0) x0 *ᵥ vf x0 0 := by
    simp only [Ekf.init3]
    exact stride_interlace _ _
  rw [hs, ht, jac_mulVec hx.differentiableAt, hx.fderiv]
  have h6 : f' (vf x0 0, 1) = f' (vf x0 0, 0) + f' (0, 1) := by rw [← map_add]; simp
  rw [h6]
  rfl

/-- The random ODE of a problem without drift and with constant diffusion is solved by the parabola. -/
theorem hasDerivAt_parabola {d m : ℕ} (S : Mat d m) (dt : ℝ) (a b : Vec m) (x0 : Vec d) (t : ℝ) :
    HasDerivAt (fun t => x0 + S *ᵥ Foster.evalParabola t dt a b)
      (S *ᵥ jacT (fun s => Foster.evalParabola s dt a b) t) t := by
  refine hasDerivAt_pi.mpr fun i => ?_
  have h : HasDerivAt (fun t => ∑ j, S i j * Foster.evalParabola t dt a b j)
      (∑ j, S i j * jacT (fun s => Foster.evalParabola s dt a b) t j) t := by
    refine HasDerivAt.fun_sum fun j _ => HasDerivAt.const_mul _ ?_
    rw [jacT_evalParabola]
    exact Foster.hasDerivAt_evalParabola1 t dt (a j) (b j)
  exact h.const_add (x0 i)

/-- C84 fails: for every random ODE that `sde_solver` integrates for a problem without drift and with constant diffusion `S`, the third
initial state is not the second derivative of the solution at the start, unless `S b = 0`. -/
theorem C84_fails {d m : ℕ} (S : Mat d m) {dt : ℝ} (hdt : dt ≠ 0) (a b : Vec m) (x0 : Vec d) (hb : S *ᵥ b ≠ 0) :
    let vf : Field d := fun _ t => S *ᵥ jacT (fun s => Foster.evalParabola s dt a b) t
    ∃ y : ℝ → Vec d, y 0 = x0 ∧ (∀ t, HasDerivAt y (vf (y t) t) t) ∧
      ¬ HasDerivAt (deriv y) (stride 2 (Ekf.init3 x0 vf).mean) 0 := by
  intro vf
  refine ⟨fun t => x0 + S *ᵥ Foster.evalParabola t dt a b, ?_, fun t => hasDerivAt_parabola S dt a b x0 t, fun h => hb ?_⟩
  · have : Foster.evalParabola 0 dt a b = 0 := by funext j; simp [Foster.evalParabola, Foster.evalParabola1]
    simp [this]
  · have hs : stride 2 (Ekf.init3 x0 vf).mean = 0 := by
      have : stride 2 (Ekf.init3 x0 vf).mean = jac (fun z => vf z 0) x0 *ᵥ vf x0 0 := by
        simp only [Ekf.init3]
        exact stride_interlace _ _
      rw [this, jac_const, zero_mulVec]
    rw [hs] at h
    have hd : deriv (fun t => x0 + S *ᵥ Foster.evalParabola t dt a b) =
        fun t => S *ᵥ jacT (fun s => Foster.evalParabola s dt a b) t :=
      funext fun t => (hasDerivAt_parabola S dt a b x0 t).deriv
    rw [hd] at h
    have h2 : HasDerivAt (fun t => S *ᵥ jacT (fun s => Foster.evalParabola s dt a b) t)
        ((-(2 * Real.sqrt 6 / dt ^ 2)) • (S *ᵥ b)) 0 := by
      refine hasDerivAt_pi.mpr fun i => ?_
      have : HasDerivAt (fun t : ℝ => ∑ j, S i j * jacT (fun s => Foster.evalParabola s dt a b) t j)
          (∑ j, S i j * (-(2 * Real.sqrt 6 / dt ^ 2) * b j)) 0 := by
        refine HasDerivAt.fun_sum fun j _ => HasDerivAt.const_mul _ ?_
        simp only [jacT_evalParabola]
        have h3 : HasDerivAt (fun t : ℝ => (a j + Real.sqrt 6 * b j * (1 - 2 * t / dt)) / dt)
            ((Real.sqrt 6 * b j * (-(2 * 1 / dt))) / dt) 0 :=
          (((((hasDerivAt_id (0 : ℝ)).const_mul 2).div_const dt).const_sub 1).const_mul _ |>.const_add _).div_const dt
        refine h3.congr_deriv ?_
        field_simp
      refine this.congr_deriv ?_
      simp only [Pi.smul_apply, mulVec, dotProduct, smul_eq_mul, Finset.mul_sum]
      exact Finset.sum_congr rfl fun j _ => by ring
    have h3 := h.unique h2
    have h6 : Real.sqrt 6 ≠ 0 := by positivity
    have h4 : -(2 * Real.sqrt 6 / dt ^ 2) ≠ 0 := by
      refine neg_ne_zero.mpr (div_ne_zero (by positivity) (pow_ne_zero 2 hdt))
    exact (smul_eq_zero.mp h3.symm).resolve_left h4

/-- C84, what holds: for a vector field without time dependence the third initial state is the second derivative of the
solution. Missing: the time derivative of the vector field, see `C84_gap`. -/
theorem C84_partial {dim : ℕ} (g : Vec dim → Vec dim) (x0 : Vec dim) (hg : DifferentiableAt ℝ g x0) (y : ℝ → Vec dim) (h0 : y 0 = x0)
    (hy : ∀ᶠ t in nhds (0 : ℝ), HasDerivAt y (g (y t)) t) :
    HasDerivAt (deriv y) (stride 2 (Ekf.init3 x0 fun z _ => g z).mean) 0 := by
  have h1 : HasFDerivAt (fun p : Vec dim × ℝ => g p.1) ((fderiv ℝ g x0).comp (ContinuousLinearMap.fst ℝ (Vec dim) ℝ)) (x0, 0) :=
    HasFDerivAt.comp (x0, (0 : ℝ)) (f := Prod.fst) (hg.hasFDerivAt) hasFDerivAt_fst
  have := C84_gap (fun z _ => g z) x0 0 y _ h0 h1 (hasDerivAt_const 0 (g x0)) hy
  rwa [add_zero] at this

/-- C84: the hypotheses can be met, with a nonzero missing term and without one. -/
example : (∃ b : Vec 1, (1 : Mat 1 1) *ᵥ b ≠ 0) ∧ ∃ y : ℝ → Vec 1, y 0 = 1 ∧ ∀ t, HasDerivAt y (y t) t := by
  refine ⟨⟨1, by simp⟩, fun t _ => Real.exp t, ?_, fun t => ?_⟩
  · funext i; simp
  · exact hasDerivAt_pi.mpr fun _ => Real.hasDerivAt_exp t

/-! ## C85 -/

/-- How much of an error of the initial second derivative is left after `k` steps. -/
noncomputable def splineDecay : ℕ → ℝ
  | 0 => 1
  | k + 1 => splineDecay k * (1 - (splineVar k + 1 / 2) / (splineVar k + 1 / 3))

theorem splineDecay_succ (k : ℕ) : |splineDecay (k + 1)| ≤ 1 / 2 := by
  have h0 := splineVar_nonneg k
  have h1 : |1 - (splineVar k + 1 / 2) / (splineVar k + 1 / 3)| ≤ 1 / 2 := by
    have h2 : 1 - (splineVar k + 1 / 2) / (splineVar k + 1 / 3) = -((1 / 6) / (splineVar k + 1 / 3)) := by
      have : splineVar k + 1 / 3 ≠ 0 := by positivity
      field_simp
      ring
    rw [h2, abs_neg, abs_of_nonneg (by positivity), div_le_iff₀ (by linarith)]
    linarith
  rw [splineDecay, abs_mul]
  cases k with
  | zero => simpa [splineDecay] using h1
  | succ k =>
    have := splineDecay_succ k
    calc _ ≤ 1 / 2 * (1 / 2 : ℝ) := mul_le_mul this h1 (abs_nonneg _) (by norm_num)
      _ ≤ _ := by norm_num

/-- The spline scheme on the derivative of a parabola, started with a zero second derivative. -/
theorem splineScheme_parabola {d m : ℕ} (S : Mat d m) {dt h : ℝ} (hh : h ≠ 0) (hdt : dt ≠ 0) (a b : Vec m) (x : Vec d) (n : ℕ) :
    splineScheme (fun _ t => S *ᵥ jacT (fun s => Foster.evalParabola s dt a b) t) h x 0 n =
      (x + S *ᵥ (Foster.evalParabola (n * h) dt a b + ((h / dt) ^ 2 / 6 * (1 - splineDecay n) * Real.sqrt 6) • b),
        S *ᵥ jacT (fun s => Foster.evalParabola s dt a b) (n * h),
        S *ᵥ ((-(2 * Real.sqrt 6 / dt ^ 2) * (1 - splineDecay n)) • b)) := by
  induction n with
  | zero =>
    have h0 : Foster.evalParabola (0 * h) dt a b = 0 := by funext j; simp [Foster.evalParabola, Foster.evalParabola1]
    simp only [splineScheme, Nat.cast_zero, zero_mul, splineDecay, sub_self, mul_zero, zero_smul, add_zero] at h0 ⊢
    rw [h0, mulVec_zero, add_zero]
  | succ n ih =>
    simp only [splineScheme, ih, splineDecay]
    have hs : splineVar n + 1 / 3 ≠ 0 := by have := splineVar_nonneg n; positivity
    generalize splineVar n = s at hs ⊢
    generalize splineDecay n = ρ
    have ha : ∀ v' : Vec m, v' = jacT (fun s => Foster.evalParabola s dt a b) (((n : ℝ) + 1) * h) →
        (-(2 * Real.sqrt 6 / dt ^ 2) * (1 - ρ)) • b + ((s + 1 / 2) / (s + 1 / 3)) •
          (h⁻¹ • (v' - jacT (fun s => Foster.evalParabola s dt a b) (n * h)) - (-(2 * Real.sqrt 6 / dt ^ 2) * (1 - ρ)) • b) =
        (-(2 * Real.sqrt 6 / dt ^ 2) * (1 - ρ * (1 - (s + 1 / 2) / (s + 1 / 3)))) • b := by
      rintro v' rfl
      funext j
      simp only [jacT_evalParabola, Pi.add_apply, Pi.sub_apply, Pi.smul_apply, smul_eq_mul]
      field_simp
      ring
    have hA : S *ᵥ ((-(2 * Real.sqrt 6 / dt ^ 2) * (1 - ρ)) • b) + ((s + 1 / 2) / (s + 1 / 3)) •
          (h⁻¹ • (S *ᵥ jacT (fun s => Foster.evalParabola s dt a b) (((n : ℝ) + 1) * h) -
            S *ᵥ jacT (fun s => Foster.evalParabola s dt a b) (n * h)) - S *ᵥ ((-(2 * Real.sqrt 6 / dt ^ 2) * (1 - ρ)) • b)) =
        S *ᵥ ((-(2 * Real.sqrt 6 / dt ^ 2) * (1 - ρ * (1 - (s + 1 / 2) / (s + 1 / 3)))) • b) := by
      rw [← mulVec_sub, ← mulVec_smul, ← mulVec_sub, ← mulVec_smul, ← mulVec_add, ha _ rfl]
    push_cast
    rw [hA]
    refine Prod.ext ?_ rfl
    simp only
    rw [← mulVec_add, ← mulVec_smul, ← mulVec_sub, ← mulVec_smul, add_assoc, add_assoc, ← mulVec_add, ← mulVec_add]
    congr 2
    funext j
    simp only [jacT_evalParabola, Pi.add_apply, Pi.sub_apply, Pi.smul_apply, smul_eq_mul, Foster.evalParabola, Foster.evalParabola1]
    field_simp
    ring

/-- The weight with which the area coefficient enters one interval. -/
noncomputable def splineWeight (M : ℕ) : ℝ := (1 - splineDecay M) / (6 * M ^ 2)

theorem splineWeight_bounds {M : ℕ} (hM : 0 < M) :
    1 / (12 * (M : ℝ) ^ 2) ≤ splineWeight M ∧ splineWeight M ≤ 1 / (4 * (M : ℝ) ^ 2) := by
  obtain ⟨k, rfl⟩ : ∃ k, M = k + 1 := ⟨M - 1, by omega⟩
  have h := abs_le.mp (splineDecay_succ k)
  have hp : (0 : ℝ) < ((k + 1 : ℕ) : ℝ) ^ 2 := by positivity
  unfold splineWeight
  constructor
  · rw [div_le_div_iff₀ (by positivity) (by positivity)]
    nlinarith
  · rw [div_le_div_iff₀ (by positivity) (by positivity)]
    nlinarith

/-- One interval of `sde_solver` for pure noise, with the twice integrated prior. -/
theorem interval_spline {la : LinAlg} (hla : la.Correct) (rng : Rng) {C : Type} {d m : ℕ} (hd : 0 < d) (S : Mat d m)
    (bm : BmApprox C m) (a b : C → Vec m) (hbm : ∀ t dt c, bm.eval t dt c = Foster.evalParabola t dt (a c) (b c)) {δ : ℝ}
    (hδ : 0 < δ) (M : ℕ) (hM : 0 < M) {σ : ℝ} (hσ : σ ≠ 0) (sqrt : Bool) (x : Vec d) (c : C) (tk : ℝ) :
    Ekf.ekf0 la rng none x (intervalField (fun _ _ => (0 : Vec d)) (fun _ _ => S) bm δ c tk) (δ / M) M sqrt
        (some ⟨_, IOUP.transition 0 σ 2 (δ / M) d⟩) none = .ok (x + S *ᵥ (a c + (splineWeight M * Real.sqrt 6) • b c)) := by
  have hM' : (0 : ℝ) < M := by exact_mod_cast hM
  have hh : 0 < δ / M := by positivity
  have hf : intervalField (fun _ _ => (0 : Vec d)) (fun _ _ => S) bm δ c tk =
      fun _ t => S *ᵥ jacT (fun s => Foster.evalParabola s δ (a c) (b c)) t := by
    funext z t
    simp only [intervalField, zero_add, hbm]
  rw [C83_spline hla rng hd _ hσ hh, hf, jac_const, zero_mulVec, splineScheme_parabola S hh.ne' hδ.ne']
  refine congrArg Except.ok ?_
  simp only
  congr 2
  funext j
  have : (M : ℝ) * (δ / M) / δ = 1 := by field_simp
  simp only [Foster.evalParabola, Foster.evalParabola1, this, splineWeight, Pi.add_apply, Pi.smul_apply, smul_eq_mul]
  field_simp
  ring

/-- C85, what happens: for zero drift and constant diffusion, `sde_solver` with EKF0 and the twice integrated prior adds in every
interval, besides the increment, the area coefficient with the weight `splineWeight M * √6`. -/
theorem C85_closed_form {la : LinAlg} (hla : la.Correct) (rng : Rng) (key : Key) {C : Type} {d m : ℕ} (hd : 0 < d)
    (S : Mat d m) (bm : BmApprox C m) (a b : C → Vec m) (hbm : ∀ t dt c, bm.eval t dt c = Foster.evalParabola t dt (a c) (b c))
    (x0 : Vec d) {δ : ℝ} (hδ : 0 < δ) (N M : ℕ) (hM : 0 < M) {σ : ℝ} (hσ : σ ≠ 0) (sqrt : Bool) (odeInt : OdeInt (Vec d) d)
    (hode : ∀ k x vf, Ekf.ekf0 la rng none x vf (δ / M) M sqrt (some ⟨_, IOUP.transition 0 σ 2 (δ / M) d⟩) none =
      .ok (odeInt k x vf δ)) :
    let out := sdeSolver rng key (fun _ _ => 0) (fun _ _ => S) x0 bm δ N odeInt
    ∀ k ≤ N, out.2.1[k]? = some (x0 + S *ᵥ (((out.2.2.take k).map a).sum +
      (splineWeight M * Real.sqrt 6) • ((out.2.2.take k).map b).sum)) := by
  intro out k hk
  induction k with
  | zero =>
    have := (C02_trajectory_shape rng key (fun _ _ => 0) (fun _ _ => S) x0 bm δ N odeInt).2.1
    rw [List.head?_eq_getElem?] at this
    simpa using this
  | succ k ih =>
    obtain ⟨x, c, h1, h2, -, h4⟩ := sdeSolver_interval rng key (fun _ _ => 0) (fun _ _ => S) x0 bm δ N odeInt k (by omega)
    have hx := Option.some.inj (h1.symm.trans (ih (by omega)))
    have e1 := hode ((key.child N k).child 2 1) x
      (intervalField (fun _ _ => (0 : Vec d)) (fun _ _ => S) bm δ c ((k : ℝ) * δ))
    rw [interval_spline hla rng hd S bm a b hbm hδ M hM hσ sqrt] at e1
    rw [h4, ← Except.ok.inj e1, hx, List.take_succ, h2]
    simp only [Option.toList_some, List.map_append, List.map_cons, List.map_nil, List.sum_append, List.sum_cons,
      List.sum_nil, add_zero]
    rw [add_assoc, ← mulVec_add, smul_add]
    congr 3
    abel

/-- C85, what happens: the law at grid point `k` is normal with mean `x0` and covariance `(1 + 3 κ²) k δ S Sᵀ`, where the weight
`κ` lies between `1 / (12 M²)` and `1 / (4 M²)`. -/
theorem C85_law {Ω : Type*} [MeasurableSpace Ω] {P : Measure Ω} {R : Ω → Rng} (hR : IdealNormals P R) {la : LinAlg}
    (hla : la.Correct) (rng : Rng) (key : Key) {d m : ℕ} (hd : 0 < d) (S : Mat d m) (x0 : Vec d) {δ : ℝ} (hδ : 0 < δ) (N M : ℕ)
    (hM : 0 < M) {σ : ℝ} (hσ : σ ≠ 0) (sqrt : Bool) (odeInt : OdeInt (Vec d) d)
    (hode : ∀ k x vf, Ekf.ekf0 la rng none x vf (δ / M) M sqrt (some ⟨_, IOUP.transition 0 σ 2 (δ / M) d⟩) none =
      .ok (odeInt k x vf δ)) (k : ℕ) (hk : k ≤ N) :
    ∃ X : Ω → Vec d, (∀ ω, (sdeSolver (R ω) key (fun _ _ => 0) (fun _ _ => S) x0 (Foster.getApprox m) δ N odeInt).2.1[k]? =
        some (X ω)) ∧ IsNormal P X x0 ((k * δ * (1 + 3 * splineWeight M ^ 2)) • (S * Sᵀ)) := by
  let X : ℕ → Ω → Vec d := fun k ω =>
    ((sdeSolver (R ω) key (fun _ _ => 0) (fun _ _ => S) x0 (Foster.getApprox m) δ N odeInt).2.1[k]?).getD 0
  have hX : ∀ j x ω, (sdeSolver (R ω) key (fun _ _ => 0) (fun _ _ => S) x0 (Foster.getApprox m) δ N odeInt).2.1[j]? = some x →
      X j ω = x := fun j x ω h => by simp only [X, h, Option.getD_some]
  have h0 : ∀ ω, X 0 ω = x0 := fun ω => by
    have := (C02_trajectory_shape (R ω) key (fun _ _ => 0) (fun _ _ => S) x0 (Foster.getApprox m) δ N odeInt).2.1
    rw [List.head?_eq_getElem?] at this
    exact hX _ _ _ this
  have h1 := isNormal_recursion hR (fun i => (key.child N i).child 2 0)
      (fun a b hab => ((Key.diverge_child key N a b hab).child_left 2 0).child_right 2 0) (c := m) (1 : Mat d d)
      ![Real.sqrt δ • S, (splineWeight M * Real.sqrt 6 * Real.sqrt (0.5 * δ)) • S] x0 X N h0 (fun j hj ω => by
    obtain ⟨x, c, h1, -, h3, h4⟩ := sdeSolver_interval (R ω) key (fun _ _ => 0) (fun _ _ => S) x0 (Foster.getApprox m) δ N odeInt j hj
    have e1 := hode ((key.child N j).child 2 1) x
      (intervalField (fun _ _ => (0 : Vec d)) (fun _ _ => S) (Foster.getApprox m) δ c ((j : ℝ) * δ))
    rw [interval_spline hla rng hd S (Foster.getApprox m) (·.1) (·.2) (fun _ _ _ => rfl) hδ M hM hσ sqrt] at e1
    rw [hX _ _ _ h1, hX _ _ _ h4, ← Except.ok.inj e1, h3, one_mulVec, Fin.sum_univ_two]
    simp only [Foster.getApprox, Foster.parabolas, cons_val_zero, cons_val_one, cons_val_fin_one, smul_mulVec, mulVec_add,
      mulVec_smul, smul_smul]
    have e2 : ∀ (r : ℝ) (v : Vec m), (S *ᵥ fun i => v i * r) = r • S *ᵥ v := fun r v => by
      rw [← mulVec_smul]
      congr 1
      funext i
      exact mul_comm _ _
    rw [e2, e2, smul_smul]) k hk
  refine ⟨X k, fun ω => ?_, ?_⟩
  · have := (C02_trajectory_shape (R ω) key (fun _ _ => 0) (fun _ _ => S) x0 (Foster.getApprox m) δ N odeInt).1
    simp only [X]
    rw [List.getElem?_eq_getElem (by rw [this]; omega)]
    rfl
  refine (congrArg₂ (fun m C => IsNormal P (X k) m C) ?_ ?_).mp h1
  · simp
  · have hs : Real.sqrt δ * Real.sqrt δ = δ := Real.mul_self_sqrt hδ.le
    have hs2 : Real.sqrt (0.5 * δ) * Real.sqrt (0.5 * δ) = 0.5 * δ := Real.mul_self_sqrt (by positivity)
    have h6 : Real.sqrt 6 * Real.sqrt 6 = 6 := Real.mul_self_sqrt (by norm_num)
    simp only [one_pow, Matrix.one_mul, transpose_one, Matrix.mul_one, Finset.sum_const, Finset.card_range, Fin.sum_univ_two,
      cons_val_zero, cons_val_one, cons_val_fin_one, transpose_smul, Matrix.smul_mul, Matrix.mul_smul, smul_smul, ← add_smul]
    rw [← Nat.cast_smul_eq_nsmul ℝ, smul_smul]
    congr 1
    linear_combination (k : ℝ) * hs + (k * splineWeight M ^ 2 * 6) * hs2 +
      (k * splineWeight M ^ 2 * (Real.sqrt (0.5 * δ) * Real.sqrt (0.5 * δ))) * h6

/-- C85 fails, for every step `δ`, number `M` of filter steps and grid point `k > 0`: with the twice integrated prior the variance
of a coordinate that is driven by noise exceeds that of `S W` by at least the factor `1 + 1 / (48 M⁴)`. -/
theorem C85_fails {Ω : Type*} [MeasurableSpace Ω] {P : Measure Ω} {R : Ω → Rng} (hR : IdealNormals P R) {la : LinAlg}
    (hla : la.Correct) (rng : Rng) (key : Key) {d m : ℕ} (S : Mat d m) (x0 : Vec d) {δ : ℝ} (hδ : 0 < δ) (N M : ℕ)
    (hM : 0 < M) {σ : ℝ} (hσ : σ ≠ 0) (sqrt : Bool) (odeInt : OdeInt (Vec d) d)
    (hode : ∀ k x vf, Ekf.ekf0 la rng none x vf (δ / M) M sqrt (some ⟨_, IOUP.transition 0 σ 2 (δ / M) d⟩) none =
      .ok (odeInt k x vf δ)) (k : ℕ) (h0 : 0 < k) (hk : k ≤ N) (i : Fin d) (hS : S i ≠ 0) (X : Ω → Vec d)
    (hX : ∀ ω, (sdeSolver (R ω) key (fun _ _ => 0) (fun _ _ => S) x0 (Foster.getApprox m) δ N odeInt).2.1[k]? = some (X ω)) :
    (1 + 1 / (48 * (M : ℝ) ^ 4)) * (k * δ * (S * Sᵀ) i i) ≤ cov[fun ω => X ω i, fun ω => X ω i; P] ∧
      ∀ m, ¬ IsNormal P X m ((k * δ) • (S * Sᵀ)) := by
  obtain ⟨Y, h1, h2⟩ := C85_law hR hla rng key (i.pos) S x0 hδ N M hM hσ sqrt odeInt hode k hk
  have hXY : X = Y := funext fun ω => Option.some.inj ((hX ω).symm.trans (h1 ω))
  have hM' : (0 : ℝ) < M := by exact_mod_cast hM
  have hk' : (0 : ℝ) < k := by exact_mod_cast h0
  have hpos : 0 < (S * Sᵀ) i i := by
    obtain ⟨j, hj⟩ : ∃ j, S i j ≠ 0 := by
      by_contra hc
      push Not at hc
      exact hS (funext hc)
    rw [Matrix.mul_apply]
    refine Finset.sum_pos' (fun j _ => ?_) ⟨j, Finset.mem_univ _, ?_⟩
    · exact mul_self_nonneg _
    · exact mul_self_pos.mpr hj
  have hw : 1 / (48 * (M : ℝ) ^ 4) ≤ 3 * splineWeight M ^ 2 := by
    have := pow_le_pow_left₀ (by positivity) (splineWeight_bounds hM).1 2
    have e : (1 / (12 * (M : ℝ) ^ 2)) ^ 2 = 1 / (144 * (M : ℝ) ^ 4) := by field_simp; norm_num
    rw [e] at this
    have e2 : 1 / (48 * (M : ℝ) ^ 4) = 3 * (1 / (144 * (M : ℝ) ^ 4)) := by field_simp; norm_num
    rw [e2]
    linarith
  have hp : 0 < k * δ * (S * Sᵀ) i i := mul_pos (mul_pos hk' hδ) hpos
  have h3 : (1 + 1 / (48 * (M : ℝ) ^ 4)) * (k * δ * (S * Sᵀ) i i) ≤ cov[fun ω => X ω i, fun ω => X ω i; P] := by
    rw [hXY, h2.cov i i, Matrix.smul_apply, smul_eq_mul]
    nlinarith
  refine ⟨h3, fun m hm => ?_⟩
  have h4 := hm.cov i i
  rw [Matrix.smul_apply, smul_eq_mul] at h4
  rw [h4] at h3
  have : 0 < 1 / (48 * (M : ℝ) ^ 4) := by positivity
  nlinarith

/-- C85, what remains: the law is normal with mean `x0` and the covariance of `S W` up to a factor between `1` and
`1 + 3 / (16 M⁴)`. Missing: the factor is never one. -/
theorem C85_partial {Ω : Type*} [MeasurableSpace Ω] {P : Measure Ω} {R : Ω → Rng} (hR : IdealNormals P R) {la : LinAlg}
    (hla : la.Correct) (rng : Rng) (key : Key) {d m : ℕ} (hd : 0 < d) (S : Mat d m) (x0 : Vec d) {δ : ℝ} (hδ : 0 < δ) (N M : ℕ)
    (hM : 0 < M) {σ : ℝ} (hσ : σ ≠ 0) (sqrt : Bool) (odeInt : OdeInt (Vec d) d)
    (hode : ∀ k x vf, Ekf.ekf0 la rng none x vf (δ / M) M sqrt (some ⟨_, IOUP.transition 0 σ 2 (δ / M) d⟩) none =
      .ok (odeInt k x vf δ)) (k : ℕ) (hk : k ≤ N) :
    ∃ (X : Ω → Vec d) (q : ℝ),
      (∀ ω, (sdeSolver (R ω) key (fun _ _ => 0) (fun _ _ => S) x0 (Foster.getApprox m) δ N odeInt).2.1[k]? = some (X ω)) ∧
      1 ≤ q ∧ q ≤ 1 + 3 / (16 * (M : ℝ) ^ 4) ∧ IsNormal P X x0 (q • ((k * δ) • (S * Sᵀ))) := by
  obtain ⟨X, h1, h2⟩ := C85_law hR hla rng key hd S x0 hδ N M hM hσ sqrt odeInt hode k hk
  have hM' : (0 : ℝ) < M := by exact_mod_cast hM
  have hb := splineWeight_bounds hM
  have hn : 0 ≤ splineWeight M := le_trans (by positivity) hb.1
  refine ⟨X, 1 + 3 * splineWeight M ^ 2, h1, by nlinarith, ?_, ?_⟩
  · have := pow_le_pow_left₀ hn hb.2 2
    have e : (1 / (4 * (M : ℝ) ^ 2)) ^ 2 = 1 / (16 * (M : ℝ) ^ 4) := by field_simp; norm_num
    rw [e] at this
    have e2 : 3 / (16 * (M : ℝ) ^ 4) = 3 * (1 / (16 * (M : ℝ) ^ 4)) := by ring
    rw [e2]
    linarith
  · rw [smul_smul, mul_comm]
    exact h2

/-- C85: the hypotheses can be met; the weight for one filter step per interval. -/
example {la : LinAlg} (hla : la.Correct) (rng : Rng) (d M : ℕ) (hd : 0 < d) (hM : 0 < M) (δ : ℝ) (hδ : 0 < δ) :
    (∃ odeInt : OdeInt (Vec d) d, ∀ k x vf,
      Ekf.ekf0 la rng none x vf (δ / M) M true (some ⟨_, IOUP.transition 0 1 2 (δ / M) d⟩) none = .ok (odeInt k x vf δ)) ∧
    splineWeight 1 = 1 / 4 := by
  refine ⟨⟨fun _ x vf _ => (splineScheme vf (δ / M) x (jac (fun z => vf z 0) x *ᵥ vf x 0) M).1, fun k x vf => ?_⟩, ?_⟩
  · exact C83_spline hla rng hd vf one_ne_zero (div_pos hδ (by exact_mod_cast hM)) x M true
  · norm_num [splineWeight, splineDecay, splineVar]

end Verif
