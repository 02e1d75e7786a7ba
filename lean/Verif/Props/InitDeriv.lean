import Verif.Props.EkfSde
import Verif.Lemmas.Taylor15

/-!
# Property C84, continued: initial derivatives of the filtering ODE solvers
-/

namespace Verif

open Matrix Spec Jnp

/-- The initial states are the value, the first derivative, and the part of the second derivative of the solution that does not
come from the time argument of the vector field; the time derivative of the vector field is left out. -/
theorem C84_derivatives {dim : ℕ} (x0 : Vec dim) (vf : Field dim) (L : Vec dim × ℝ →L[ℝ] Vec dim)
    (hL : HasFDerivAt (fun q : Vec dim × ℝ => vf q.1 q.2) L (x0, 0)) (y : ℝ → Vec dim) (h0 : y 0 = x0)
    (hy : ∀ t, HasDerivAt y (vf (y t) t) t) :
    let m := (Ekf.init3 x0 vf).mean
    stride 0 m = y 0 ∧ HasDerivAt y (stride 1 m) 0 ∧ HasDerivAt (deriv y) (stride 2 m + L (0, 1)) 0 ∧
    ∀ r, let n := (Ekf.init4 (r := r) x0 vf).mean
      stride 0 n = stride 0 m ∧ stride 1 n = stride 1 m ∧ stride ⟨2, by omega⟩ n = stride 2 m := by
  intro m
  have hs : ∀ s : Fin (1 + 2), stride s m = (![x0, vf x0 0, jac (fun z => vf z 0) x0 *ᵥ vf x0 0] : Fin 3 → Vec dim) s := by
    intro s; funext i
    simp only [m, stride, Ekf.init3, interlace_flat]
  have e0 : stride 0 m = x0 := hs 0
  have e1 : stride 1 m = vf x0 0 := hs 1
  have e2 : stride 2 m = jac (fun z => vf z 0) x0 *ᵥ vf x0 0 := hs 2
  have hx : HasFDerivAt (fun z : Vec dim => vf z 0) (L.comp (ContinuousLinearMap.inl ℝ (Vec dim) ℝ)) x0 := by
    have := HasFDerivAt.comp (g := fun q : Vec dim × ℝ => vf q.1 q.2) (f := fun e : Vec dim => (e, (0 : ℝ))) x0 hL
      (hasFDerivAt_prodMk_left x0 (0 : ℝ))
    exact this
  refine ⟨by rw [e0, h0], ?_, ?_, fun r => ?_⟩
  · rw [e1, ← h0]; exact hy 0
  · have hd : deriv y = fun t => vf (y t) t := funext fun t => (hy t).deriv
    rw [hd, e2, jac_mulVec hx.differentiableAt, hx.fderiv]
    have h1 : HasDerivAt (fun t => (y t, t)) (vf x0 0, (1 : ℝ)) 0 := by
      have := (hy 0).prodMk (hasDerivAt_id (0 : ℝ))
      rwa [h0] at this
    have h2 : HasFDerivAt (fun q : Vec dim × ℝ => vf q.1 q.2) L (y 0, 0) := by rw [h0]; exact hL
    have h3 := HasFDerivAt.comp_hasDerivAt (f := fun t : ℝ => (y t, t)) (0 : ℝ) h2 h1
    have e : L (vf x0 0, 1) = L.comp (ContinuousLinearMap.inl ℝ (Vec dim) ℝ) (vf x0 0) + L (0, 1) := by
      rw [ContinuousLinearMap.comp_apply, ContinuousLinearMap.inl_apply, ← map_add]
      simp
    rw [← e]
    exact h3
  · have hn : ∀ s : Fin ((r + 2) + 2), stride s (Ekf.init4 (r := r) x0 vf).mean = if s.1 = 0 then x0 else if s.1 = 1 then vf x0 0
        else if s.1 = 2 then jac (fun z => vf z 0) x0 *ᵥ vf x0 0 else 0 := by
      intro s; funext i
      simp only [stride, Ekf.init4, interlace_flat]
    refine ⟨by rw [hn, e0]; rfl, by rw [hn, e1]; rfl, by rw [hn, e2]; rfl⟩

/-- C84, what holds: for a vector field whose time derivative vanishes at the start, in particular an autonomous one, the third
state is the second derivative of the solution. -/
theorem C84_autonomous_partial {dim : ℕ} (x0 : Vec dim) (f : Vec dim → Vec dim) (hf : DifferentiableAt ℝ f x0) (y : ℝ → Vec dim)
    (h0 : y 0 = x0) (hy : ∀ t, HasDerivAt y (f (y t)) t) :
    let m := (Ekf.init3 x0 fun x _ => f x).mean
    stride 0 m = y 0 ∧ HasDerivAt y (stride 1 m) 0 ∧ HasDerivAt (deriv y) (stride 2 m) 0 := by
  intro m
  have hL : HasFDerivAt (fun q : Vec dim × ℝ => f q.1) ((fderiv ℝ f x0).comp (ContinuousLinearMap.fst ℝ (Vec dim) ℝ)) (x0, 0) :=
    HasFDerivAt.comp (x0, (0 : ℝ)) (f := Prod.fst) (g := f) hf.hasFDerivAt hasFDerivAt_fst
  obtain ⟨h1, h2, h3, -⟩ := C84_derivatives x0 (fun x _ => f x) _ hL y h0 hy
  refine ⟨h1, h2, ?_⟩
  have e : ((fderiv ℝ f x0).comp (ContinuousLinearMap.fst ℝ (Vec dim) ℝ)) (0, 1) = 0 := by simp
  rwa [e, add_zero] at h3

/-- C84 fails for the vector fields `sde_solver` integrates: with additive noise and an autonomous drift, the third state misses
the second derivative `-(2 √6 / δ²) Σ I` of the driving parabola, so it is wrong unless `Σ I = 0`. -/
theorem C84_fails_drift {dim d : ℕ} (x0 : Vec dim) (f : Vec dim → Vec dim) (hf : DifferentiableAt ℝ f x0) (S : Mat dim d) {δ : ℝ}
    (hδ : 0 < δ) (tk : ℝ) (W I : Vec d) (y : ℝ → Vec dim) (h0 : y 0 = x0)
    (hy : ∀ t, HasDerivAt y (intervalField (fun x _ => f x) (fun _ _ => S) (Foster.getApprox d) δ (W, I) tk (y t) t) t) :
    let m := (Ekf.init3 x0 (intervalField (fun x _ => f x) (fun _ _ => S) (Foster.getApprox d) δ (W, I) tk)).mean
    HasDerivAt (deriv y) (stride 2 m - (2 * √6 / δ ^ 2) • (S *ᵥ I)) 0 ∧ (HasDerivAt (deriv y) (stride 2 m) 0 ↔ S *ᵥ I = 0) := by
  intro m
  set vf := intervalField (fun x _ => f x) (fun _ _ => S) (Foster.getApprox d) δ (W, I) tk with hvf
  have hvf' : ∀ x t, vf x t = f x + S *ᵥ fun j => (W j + √6 * I j * (1 - 2 * t / δ)) / δ := by
    intro x t
    have h := jacT_evalParabola δ W I t
    simp only [hvf, intervalField, Foster.getApprox]
    rw [h]
  have hg : HasDerivAt (fun t : ℝ => S *ᵥ fun j => (W j + √6 * I j * (1 - 2 * t / δ)) / δ) (-((2 * √6 / δ ^ 2) • (S *ᵥ I))) 0 := by
    have e : (fun t : ℝ => S *ᵥ fun j => (W j + √6 * I j * (1 - 2 * t / δ)) / δ) = fun t : ℝ =>
        (S *ᵥ fun j => (W j + √6 * I j) / δ) + t • (-((2 * √6 / δ ^ 2) • (S *ᵥ I))) := by
      funext t
      rw [← mulVec_smul, ← mulVec_neg, ← mulVec_smul, ← mulVec_add]
      congr 1
      funext j
      simp only [Pi.add_apply, Pi.smul_apply, Pi.neg_apply, smul_eq_mul]
      field_simp
      ring
    rw [e]
    simpa using ((hasDerivAt_id (0 : ℝ)).smul_const (-((2 * √6 / δ ^ 2) • (S *ᵥ I)))).const_add (S *ᵥ fun j => (W j + √6 * I j) / δ)
  have hL : HasFDerivAt (fun q : Vec dim × ℝ => vf q.1 q.2) ((fderiv ℝ f x0).comp (ContinuousLinearMap.fst ℝ (Vec dim) ℝ) +
      (ContinuousLinearMap.toSpanSingleton ℝ (-((2 * √6 / δ ^ 2) • (S *ᵥ I)))).comp (ContinuousLinearMap.snd ℝ (Vec dim) ℝ)) (x0, 0) := by
    simp only [hvf']
    refine (HasFDerivAt.comp (x0, (0 : ℝ)) (f := Prod.fst) (g := f) hf.hasFDerivAt hasFDerivAt_fst).add ?_
    exact HasFDerivAt.comp (x0, (0 : ℝ)) (f := Prod.snd) hg.hasFDerivAt hasFDerivAt_snd
  obtain ⟨-, -, h3, -⟩ := C84_derivatives x0 vf _ hL y h0 hy
  have h4 : HasDerivAt (deriv y) (stride 2 m - (2 * √6 / δ ^ 2) • (S *ᵥ I)) 0 := by
    have e : ((fderiv ℝ f x0).comp (ContinuousLinearMap.fst ℝ (Vec dim) ℝ) +
      (ContinuousLinearMap.toSpanSingleton ℝ (-((2 * √6 / δ ^ 2) • (S *ᵥ I)))).comp (ContinuousLinearMap.snd ℝ (Vec dim) ℝ)) (0, 1) =
        -((2 * √6 / δ ^ 2) • (S *ᵥ I)) := by simp
    rw [e, ← sub_eq_add_neg] at h3
    exact h3
  refine ⟨h4, fun h => ?_, fun h => ?_⟩
  · have := h4.unique h
    have h5 : (2 * √6 / δ ^ 2) • (S *ᵥ I) = 0 := by
      rwa [sub_eq_self] at this
    rcases smul_eq_zero.mp h5 with h6 | h6
    · have : 0 < 2 * √6 / δ ^ 2 := by positivity
      exact absurd h6 this.ne'
    · exact h6
  · rw [h, smul_zero, sub_zero] at h4
    exact h4

/-! ## The hypotheses can be met -/

/-- Zero drift and unit diffusion: the solution is the parabola itself, and the second derivative is missed for `I = 1`. -/
example : ∃ y : ℝ → Vec 1, y 0 = 0 ∧ (∀ t, HasDerivAt y
    (intervalField (fun _ _ => 0) (fun _ _ => (1 : Mat 1 1)) (Foster.getApprox 1) 1 (0, 1) 0 (y t) t) t) ∧
    (1 : Mat 1 1) *ᵥ (1 : Vec 1) ≠ 0 := by
  refine ⟨fun t => Foster.evalParabola t 1 0 1, ?_, fun t => ?_, ?_⟩
  · funext j; simp [Foster.evalParabola, Foster.evalParabola1]
  · have h := jacT_evalParabola 1 (0 : Vec 1) 1 t
    simp only [intervalField, Foster.getApprox, one_mulVec, zero_add]
    rw [h]
    exact hasDerivAt_pi.2 fun j => Foster.hasDerivAt_evalParabola1 t 1 0 1
  · simp

/-- An autonomous field with a solution: exponential growth. -/
example : ∃ y : ℝ → Vec 1, y 0 = 1 ∧ ∀ t, HasDerivAt y (y t) t :=
  ⟨fun t _ => Real.exp t, by funext j; simp, fun t => hasDerivAt_pi.2 fun _ => Real.hasDerivAt_exp t⟩

end Verif
