import Mathlib.Analysis.Calculus.LineDeriv.Basic
import Verif.Lemmas.Lin15
import Verif.Props.Ivp

/-! The first step of the schemes of order 1.5, on the problems of the tests. -/

namespace Verif

open Matrix Spec Jnp Set MeasureTheory ProbabilityTheory Filter
open scoped NNReal Topology

variable {d m : ℕ}

theorem scan_first {σ : Type*} (g : σ → Key → σ) (init : σ) (key : Key) {N : ℕ} (hN : 0 < N) :
    (insertArr (scan (fun x ky => (g x ky, g x ky)) init (key.split N)).2 init)[1]? = some (g init (key.child N 0)) := by
  have hlen : (key.split N).length = N := by simp [Key.split]
  have hki : (key.split N)[0]? = some (key.child N 0) := by
    rw [Key.split, List.getElem?_map, List.getElem?_range hN]; rfl
  rw [insertArr_eq, traj_getElem? g init (key.split N) 1 (by omega), scan_take_succ_fst _ _ _ 0 _ hki]
  simp [scan]

/-- The state after one step of the hypoelliptic scheme. -/
theorem hypo_first (la : LinAlg) (rng : Rng) (key : Key) (init : Vec (d + 1)) (b : Vec (d + 1) → Vec (d + 1)) (σ : Vec (d + 1) → Mat (d + 1) m) (h : ℝ)
    {N : ℕ} (hN : 0 < N) : (Hypo15.solver la rng key init b σ h N).2[1]? = some (Hypo15.body la rng b σ h init (key.child N 0)).1 := by
  have he : (Hypo15.solver la rng key init b σ h N).2 = insertArr (scan (fun x ky => ((Hypo15.body la rng b σ h x ky).1, (Hypo15.body la rng b σ h x ky).1)) init (key.split N)).2 init := rfl
  rw [he, scan_first (fun x ky => (Hypo15.body la rng b σ h x ky).1) init key hN]

/-- The state after one step of the scheme with a diagonal diffusion. -/
theorem diag_first (la : LinAlg) (rng : Rng) (key : Key) (init : Vec d) (b : Vec d → Vec d) (σ : Vec d → Mat d d) (h : ℝ)
    {N : ℕ} (hN : 0 < N) : ∃ ts xs, Diag15.solver la rng key init b σ h N = .ok (ts, xs) ∧ xs[1]? = some (Diag15.body la rng b σ h init (key.child N 0)).1 := by
  have he : Diag15.solver la rng key init b σ h N = .ok (linspace 0 (N * h) (N + 1),
      insertArr (scan (fun x ky => ((Diag15.body la rng b σ h x ky).1, (Diag15.body la rng b σ h x ky).1)) init (key.split N)).2 init) := by
    rw [Diag15.solver, dif_pos rfl]
    rfl
  exact ⟨_, _, he, scan_first (fun x ky => (Diag15.body la rng b σ h x ky).1) init key hN⟩

theorem pd_of_line {g : Vec d → ℝ} {x : Vec d} {j : Fin d} {c : ℝ} (hg : DifferentiableAt ℝ g x)
    (hc : HasDerivAt (fun s : ℝ => g (x + s • Pi.single j 1)) c 0) : pd j g x = c := by
  rw [pd, ← hg.lineDeriv_eq_fderiv]
  exact hc.deriv

/-- A diffusion with a constant diagonal is treated by the diagonal scheme as a constant one. -/
theorem diag15_step_zero {b : Vec d → Vec d} (hb : ContDiff ℝ 2 b) {σ : Vec d → Mat d d} {c : Vec d} (hσ : ∀ z i, σ z i i = c i) {x : Vec d}
    (hS : ∀ j k, j ≠ k → ∑ l, σ x j l * σ x k l = 0) (h : ℝ) (dW dZ : Vec d) :
    Diag15.stepFn b σ h x dZ dW = itoTaylorStep b (σ x) h x dW dZ := by
  rw [← diag15_step_const hb hS]
  have h1 : Diag15.diagSigma σ = fun _ => c := by
    funext z i
    exact hσ z i
  have h2 : Diag15.diagSigma (fun _ => σ x) = fun _ => c := by
    funext z i
    exact hσ x i
  have h3 : ∀ f, Diag15.laplaceweighted (fun _ => σ x) f x = Diag15.laplaceweighted σ f x := fun f => rfl
  simp only [Diag15.stepFn, Diag15.partialxsigma, h1, h2, h3]

/-- The law of the first step in that case. -/
theorem diag15_first_law {la : LinAlg} (hla : la.Correct) {Ω : Type*} [MeasurableSpace Ω] {P : Measure Ω} {R : Ω → Rng} (hR : IdealNormals P R)
    (key : Key) {b : Vec d → Vec d} (hb : ContDiff ℝ 2 b) {σ : Vec d → Mat d d} {c : Vec d} (hσ : ∀ z i, σ z i i = c i) {x : Vec d}
    (hS : ∀ j k, j ≠ k → ∑ l, σ x j l * σ x k l = 0) {h : ℝ} (hh : 0 < h) :
    IsNormal P (fun ω => (Diag15.body la (R ω) b σ h x key).1) (meanExpansion b σ x h) (cov15 (jac b x) (σ x * (σ x)ᵀ) h) := by
  have h1 := (noise_one hla hR key d hh).affine (meanExpansion b σ x h) (load15 (jac b x) (σ x))
  rw [load15_cov, mulVec_zero, add_zero] at h1
  refine (congrArg (fun X => IsNormal P X _ _) ?_).mp h1
  funext ω
  rw [load15_mulVec, Diag15.body_eq, diag15_step_zero hb hσ hS, itoTaylorStep, jac_mulVec (hb.differentiable (by norm_num) x), meanExpansion]
  exact (add_assoc _ _ _).symm

/-- The drift terms of the mean of the diagonal scheme. -/
theorem diag15_mean_terms {b : Vec d → Vec d} (hb : ContDiff ℝ 2 b) {σ : Vec d → Mat d d} {x : Vec d}
    (hS : ∀ j k, j ≠ k → ∑ l, σ x j l * σ x k l = 0) (h : ℝ) (i : Fin d) :
    x i + h * b x i + h ^ 2 / 2 * (Diag15.partialxdrift b x *ᵥ b x) i + h ^ 2 / 4 * Diag15.laplaceweighted σ b x i = meanExpansion b σ x h i := by
  have h1 : DifferentiableAt ℝ b x := hb.differentiable (by norm_num) x
  have hld : (h ^ 2 / 4) * Diag15.laplaceweighted σ b x i = (h ^ 2 / 2) * ((1 / 2 : ℝ) • ∑ j, ∑ k,
      (∑ l, σ x j l * σ x k l) • iteratedFDeriv ℝ 2 b x ![Pi.single j 1, Pi.single k 1]) i := by
    obtain ⟨c, hc⟩ : ∃ c : Vec d, ∀ j, c j = ∑ l, σ x j l * σ x j l := ⟨_, fun _ => rfl⟩
    have hsum : ∀ j k, (∑ l, σ x j l * σ x k l) = if j = k then c j else 0 := by
      intro j k
      by_cases hjk : j = k
      · subst hjk
        simp [hc]
      · simp [hjk, hS j k hjk]
    simp only [hsum, Pi.smul_apply, Finset.sum_apply, ite_smul, zero_smul, Finset.sum_ite_eq, Finset.mem_univ, if_true,
      smul_eq_mul, Diag15.laplaceweighted, dotProduct, mul_apply, transpose_apply, hessian_eq hb]
    ring
  rw [hld, meanExpansion, driftGenerator, Diag15.partialxdrift, jac_mulVec h1]
  simp only [Pi.add_apply, Pi.smul_apply, smul_eq_mul]
  ring

namespace Ivp

theorem Synaptic.smooth : ContDiff ℝ 2 Synaptic.drift := by
  rw [contDiff_pi]
  intro i
  fin_cases i <;> simp [Synaptic.drift] <;> fun_prop

theorem Fhn.smooth : ContDiff ℝ 2 fun x => Fhn.drift x 0 := by
  rw [contDiff_pi]
  intro i
  fin_cases i <;> simp [Fhn.drift, vecHead, vecTail] <;> fun_prop

theorem Synaptic.square : Synaptic.sigma Synaptic.x0 * (Synaptic.sigma Synaptic.x0)ᵀ = diagonal ![0, 1 / 10, 1 / 10] := by
  have h1 : ((10 : ℝ) ^ (0.5 : ℝ)) * (10 : ℝ) ^ (0.5 : ℝ) = 10 := by
    rw [← Real.rpow_add (by norm_num)]
    norm_num
  have h2 : (0.1 : ℝ) * (10 : ℝ) ^ (0.5 : ℝ) * (0.1 * (10 : ℝ) ^ (0.5 : ℝ)) = 1 / 10 := by
    calc _ = 0.01 * ((10 : ℝ) ^ (0.5 : ℝ) * (10 : ℝ) ^ (0.5 : ℝ)) := by ring
      _ = _ := by rw [h1]; norm_num
  obtain ⟨q, hq⟩ : ∃ q, q = (0.1 : ℝ) * (10 : ℝ) ^ (0.5 : ℝ) := ⟨_, rfl⟩
  have hs : Synaptic.sigma Synaptic.x0 = !![0, 0, 0; q, 0, 0; 0, q, 0] := by rw [hq]; rfl
  rw [← hq] at h2
  rw [hs]
  ext i j
  fin_cases i <;> fin_cases j <;> simp [mul_apply, Fin.sum_univ_three, h2]

theorem Synaptic.grad : pd 1 (fun z => Synaptic.drift z 0) Synaptic.x0 = 3 ∧ pd 2 (fun z => Synaptic.drift z 0) Synaptic.x0 = -1 := by
  have hd : DifferentiableAt ℝ (fun z => Synaptic.drift z 0) Synaptic.x0 :=
    ((contDiff_pi.mp Synaptic.smooth 0).differentiable (by norm_num)) _
  refine ⟨pd_of_line hd (hasDerivAt_of_quadratic (Synaptic.drift Synaptic.x0 0) _ 0 fun s => ?_),
    pd_of_line hd (hasDerivAt_of_quadratic (Synaptic.drift Synaptic.x0 0) _ 0 fun s => ?_)⟩
  · simp [Synaptic.drift, Synaptic.x0, Synaptic.VE, Synaptic.VI, Synaptic.C, Pi.single_apply]
    ring
  · simp [Synaptic.drift, Synaptic.x0, Synaptic.VE, Synaptic.VI, Synaptic.C, Pi.single_apply]
    ring

theorem Fhn.grad : pd 1 (fun z => Fhn.drift z 0 0) Fhn.x0 = -10 := by
  have hd : DifferentiableAt ℝ (fun z => Fhn.drift z 0 0) Fhn.x0 :=
    ((contDiff_pi.mp Fhn.smooth 0).differentiable (by norm_num)) _
  refine pd_of_line hd (hasDerivAt_of_quadratic (Fhn.drift Fhn.x0 0 0) _ 0 fun s => ?_)
  simp [Fhn.drift, Fhn.x0, Fhn.eps, Fhn.s, Pi.single_apply, vecHead, vecTail]
  ring

/-- The diagonal of the diffusion of the reduced problem, and its derivatives where the read conductance is positive. -/
theorem SynReduced.diag_eq : Diag15.diagSigma SynReduced.sigma = fun x _ => (0.1 : ℝ) * (x 1) ^ (0.5 : ℝ) := by
  funext x i
  have hi : i = 0 ∨ i = 1 := by fin_cases i <;> simp
  rcases hi with rfl | rfl <;> rfl

theorem SynReduced.smooth : ContDiff ℝ 2 SynReduced.drift := by
  rw [contDiff_pi]
  intro i
  fin_cases i <;> simp [SynReduced.drift, SynReduced.get2] <;> fun_prop

theorem pd_read (f : ℝ → ℝ) {x : Vec 2} {c : ℝ} (hf : HasDerivAt f c (x 1)) : pd 0 (fun z : Vec 2 => f (z 1)) x = 0 ∧ pd 1 (fun z : Vec 2 => f (z 1)) x = c := by
  have h1 : HasFDerivAt (fun z : Vec 2 => f (z 1)) (c • ContinuousLinearMap.proj (R := ℝ) (φ := fun _ : Fin 2 => ℝ) 1) x :=
    hf.comp_hasFDerivAt x (ContinuousLinearMap.proj (R := ℝ) (φ := fun _ : Fin 2 => ℝ) 1).hasFDerivAt
  rw [pd, pd, h1.fderiv]
  simp

theorem SynReduced.jac_eq {x : Vec 2} (hx : 0 < x 1) : Diag15.partialxsigma SynReduced.sigma x =
    !![0, 0.1 * (0.5 * (x 1) ^ ((0.5 : ℝ) - 1)); 0, 0.1 * (0.5 * (x 1) ^ ((0.5 : ℝ) - 1))] := by
  have h1 := pd_read (fun y => (0.1 : ℝ) * y ^ (0.5 : ℝ)) (x := x) ((Real.hasDerivAt_rpow_const (Or.inl hx.ne')).const_mul 0.1)
  rw [Diag15.partialxsigma, SynReduced.diag_eq]
  ext i j
  fin_cases i <;> fin_cases j
  · exact h1.1
  · exact h1.2
  · exact h1.1
  · exact h1.2

theorem SynReduced.hess_eq {x : Vec 2} (hx : 0 < x 1) (i : Fin 2) : hessian (Diag15.diagSigma SynReduced.sigma) x i 0 0 = 0 ∧
    hessian (Diag15.diagSigma SynReduced.sigma) x i 1 1 = 0.1 * (0.5 * (((0.5 : ℝ) - 1) * (x 1) ^ ((0.5 : ℝ) - 1 - 1))) := by
  rw [SynReduced.diag_eq]
  have hev : ∀ᶠ z : Vec 2 in 𝓝 x, 0 < z 1 := (continuous_apply 1).continuousAt.eventually (lt_mem_nhds hx)
  have h0 : (fun z => pd 0 (fun w : Vec 2 => (0.1 : ℝ) * (w 1) ^ (0.5 : ℝ)) z) =ᶠ[𝓝 x] fun _ => 0 := hev.mono fun z hz =>
    (pd_read (fun y => (0.1 : ℝ) * y ^ (0.5 : ℝ)) (x := z) ((Real.hasDerivAt_rpow_const (Or.inl hz.ne')).const_mul 0.1)).1
  have h1 : (fun z => pd 1 (fun w : Vec 2 => (0.1 : ℝ) * (w 1) ^ (0.5 : ℝ)) z) =ᶠ[𝓝 x] fun z => (0.1 : ℝ) * (0.5 * (z 1) ^ ((0.5 : ℝ) - 1)) := hev.mono fun z hz =>
    (pd_read (fun y => (0.1 : ℝ) * y ^ (0.5 : ℝ)) (x := z) ((Real.hasDerivAt_rpow_const (Or.inl hz.ne')).const_mul 0.1)).2
  refine ⟨?_, ?_⟩
  · show pd 0 (fun z => pd 0 (fun w : Vec 2 => (0.1 : ℝ) * (w 1) ^ (0.5 : ℝ)) z) x = 0
    rw [pd, h0.fderiv_eq]
    simp
  · show pd 1 (fun z => pd 1 (fun w : Vec 2 => (0.1 : ℝ) * (w 1) ^ (0.5 : ℝ)) z) x = _
    rw [pd, h1.fderiv_eq]
    exact (pd_read (fun y => (0.1 : ℝ) * (0.5 * y ^ ((0.5 : ℝ) - 1))) (x := x)
      (((Real.hasDerivAt_rpow_const (Or.inl hx.ne')).const_mul 0.5).const_mul 0.1)).2

/-- The part of the mean of a step that comes from the diffusion. -/
theorem SynReduced.bias (i : Fin 2) : ∑ k, (1 / 2 : ℝ) * ((Diag15.partialxsigma SynReduced.sigma SynReduced.x0 * Diag15.partialxsigma SynReduced.sigma SynReduced.x0 *
      SynReduced.sigma SynReduced.x0) i k + Diag15.laplaceweighted SynReduced.sigma (Diag15.diagSigma SynReduced.sigma) SynReduced.x0 k) =
    -1 / (8000 * Real.sqrt 10) := by
  have hx : SynReduced.x0 1 = 10 := rfl
  have hpos : 0 < SynReduced.x0 1 := by rw [hx]; norm_num
  obtain ⟨r, hr⟩ : ∃ r, r = Real.sqrt 10 := ⟨_, rfl⟩
  have hr0 : 0 < r := by rw [hr]; positivity
  have hr2 : r ^ 2 = 10 := by rw [hr]; exact Real.sq_sqrt (by norm_num)
  have e1 : (10 : ℝ) ^ (0.5 : ℝ) = r := by rw [hr, Real.sqrt_eq_rpow]; norm_num
  have e2 : (10 : ℝ) ^ ((0.5 : ℝ) - 1) = r / 10 := by rw [Real.rpow_sub (by norm_num), e1, Real.rpow_one]
  have e3 : (10 : ℝ) ^ ((0.5 : ℝ) - 1 - 1) = r / 100 := by rw [Real.rpow_sub (by norm_num), e2, Real.rpow_one]; ring
  have hs : SynReduced.sigma SynReduced.x0 = !![0.1 * r, 0; 0, 0.1 * r] := by
    rw [← e1]; rfl
  have hl : ∀ k, Diag15.laplaceweighted SynReduced.sigma (Diag15.diagSigma SynReduced.sigma) SynReduced.x0 k =
      (0.1 * r) ^ 2 * (0.1 * (0.5 * (((0.5 : ℝ) - 1) * (r / 100)))) := fun k => by
    simp only [Diag15.laplaceweighted, dotProduct, Fin.sum_univ_two, (SynReduced.hess_eq hpos k).1, (SynReduced.hess_eq hpos k).2, hx, e3, hs]
    simp [mul_apply, Fin.sum_univ_two]
    exact Or.inl (by ring)
  rw [Fin.sum_univ_two, hl, hl, SynReduced.jac_eq hpos, hx, e2, hs, ← hr, eq_div_iff (by positivity)]
  have hr4 : r ^ 4 = 100 := by rw [show r ^ 4 = (r ^ 2) ^ 2 by ring, hr2]; norm_num
  have hi : i = 0 ∨ i = 1 := by fin_cases i <;> simp
  rcases hi with rfl | rfl
  · simp [mul_apply, Fin.sum_univ_two]
    ring_nf
    rw [hr4]
    norm_num
  · simp [mul_apply, Fin.sum_univ_two]
    ring_nf
    rw [hr4]
    norm_num

end Ivp

end Verif
