import Verif.Lemmas.RosConsist
import Verif.Props.RosScheme
import Verif.Props.StrongEkf1

/-! EKF1 with several steps on a random field that is smooth at the times of the interval only; continuity of the scheme. -/

namespace Verif

open Matrix Spec Jnp Set

variable {d m : ℕ}

theorem KF.step_congr_at (la : LinAlg) {nx ny : ℕ} {obs obs' : ObsFn nx ny} (A Q : Mat nx nx) (xi : Vec nx) (R : Mat ny ny) (b : Bool)
    {t : ℝ} (h : ∀ x y, obs x y t = obs' x y t) (x : Gauss nx) : KF.step la obs A Q xi R b x t = KF.step la obs' A Q xi R b x t := by
  have e : (fun (x y : Vec nx) (_ : ℝ) => obs x y t) = fun x y _ => obs' x y t := funext fun x => funext fun y => funext fun _ => h x y
  have h1 : KF.step la (fun x y _ => obs x y t) A Q xi R b x t = KF.step la (fun x y _ => obs' x y t) A Q xi R b x t := by rw [e]
  exact h1

theorem KF.ekf_congr_at (la : LinAlg) {nx ny : ℕ} {obs obs' : ObsFn nx ny} (A Q : Mat nx nx) (xi : Vec nx) (R : Mat ny ny) (b : Bool)
    {ts : List ℝ} (h : ∀ t ∈ ts, ∀ x y, obs x y t = obs' x y t) (x : Gauss nx) :
    KF.ekf la x obs A Q xi R ts b = KF.ekf la x obs' A Q xi R ts b := by
  induction ts generalizing x with
  | nil => exact (KF.ekf_nil x obs A Q xi R b).trans (KF.ekf_nil x obs' A Q xi R b).symm
  | cons t ts ih =>
    have hs := KF.step_congr_at la A Q xi R b (h t List.mem_cons_self) x
    refine (KF.ekf_cons x obs A Q xi R t ts b).trans (Eq.trans ?_ (KF.ekf_cons x obs' A Q xi R t ts b).symm)
    rw [← hs]
    generalize KF.step la obs A Q xi R b x t = y
    exact ih (fun t ht => h t (List.mem_cons_of_mem _ ht)) y.1

/-- EKF1 evaluates the field only at the initial state at time 0 and at the times `h, …, N h`. -/
theorem ekf1_congr (la : LinAlg) (rng : Rng) (key : Option Key) {dim : ℕ} (hd : 0 < dim) {vf vf' : Field dim} {h : ℝ} {x0 : Vec dim} {N : ℕ}
    (h0 : vf x0 0 = vf' x0 0) (h1 : ∀ k < N, ∀ x, vf x ((k + 1) * h) = vf' x ((k + 1) * h)) (σ : ℝ) (sqrt : Bool) :
    Ekf.ekf1 la rng key x0 vf h N sqrt (some ⟨_, IOUP.transition 0 σ 1 h dim⟩) none =
      Ekf.ekf1 la rng key x0 vf' h N sqrt (some ⟨_, IOUP.transition 0 σ 1 h dim⟩) none := by
  have hinit : Ekf.init2 x0 vf = Ekf.init2 x0 vf' := by simp only [Ekf.init2, h0]
  have hobs : ∀ t ∈ linspace h (N * h) N, ∀ x y, Ekf.obsFn (r := 0) false vf x y t = Ekf.obsFn (r := 0) false vf' x y t := by
    intro t ht x y
    rw [Ekf.linspace_ts] at ht
    obtain ⟨k, hk, rfl⟩ := List.mem_map.mp ht
    simp only [Ekf.obsFn, Bool.false_eq_true, if_false, h1 k (List.mem_range.mp hk)]
  refine (Ekf.ekf1_two la rng key hd x0 vf h N sqrt (IOUP.transition 0 σ 1 h dim) none).trans
    (Eq.trans ?_ (Ekf.ekf1_two la rng key hd x0 vf' h N sqrt (IOUP.transition 0 σ 1 h dim) none).symm)
  refine congrArg (Except.map _) ((Ekf.solver_some (r := 0) la _ vf h N sqrt false (IOUP.transition 0 σ 1 h dim)).trans
    (Eq.trans (congrArg Except.ok ?_) (Ekf.solver_some (r := 0) la _ vf' h N sqrt false (IOUP.transition 0 σ 1 h dim)).symm))
  rw [hinit]
  exact KF.ekf_congr_at la _ _ _ _ _ hobs _

theorem rosScheme_congr {f g : Vec d → ℝ → Vec d} {h : ℝ} {s0 : RosState d} {N : ℕ} (hfg : ∀ k < N, ∀ x, f x ((k + 1) * h) = g x ((k + 1) * h))
    (n : ℕ) (hn : n ≤ N) : rosScheme f h s0 n = rosScheme g h s0 n := by
  induction n with
  | zero => rfl
  | succ n ih =>
    have e : ∀ x, f x ((n + 1) * h) = g x ((n + 1) * h) := hfg n hn
    simp only [rosScheme, ih (by omega), e]

/-- EKF1 with any number of steps, for a field that is differentiable at the times of the steps. -/
theorem ekf1_rosScheme {la : LinAlg} (hla : la.Correct) (rng : Rng) {dim : ℕ} (hd : 0 < dim) (vf : Field dim) {σ h : ℝ} {N : ℕ}
    (hf : ∀ k < N, Differentiable ℝ fun x => vf x ((k + 1) * h)) (hσ : σ ≠ 0) (hh : 0 < h) (x0 : Vec dim) (sqrt : Bool) :
    Ekf.ekf1 la rng none x0 vf h N sqrt (some ⟨_, IOUP.transition 0 σ 1 h dim⟩) none =
      .ok (rosScheme vf h ⟨x0, vf x0 0, 0, 0⟩ N).x := by
  classical
  obtain ⟨vf', hvf'⟩ : ∃ vf' : Field dim, ∀ x t, vf' x t = if ∃ k < N, t = (k + 1) * h then vf x t else vf x0 0 := ⟨_, fun _ _ => rfl⟩
  have e0 : ∀ x, vf' x 0 = vf x0 0 := fun x => by
    rw [hvf', if_neg]
    rintro ⟨k, -, hk⟩
    have : 0 < ((k : ℝ) + 1) * h := by positivity
    linarith
  have e1 : ∀ k < N, ∀ x, vf' x ((k + 1) * h) = vf x ((k + 1) * h) := fun k hk x => by rw [hvf', if_pos ⟨k, hk, rfl⟩]
  have hf' : ∀ t, Differentiable ℝ fun x => vf' x t := fun t => by
    by_cases ht : ∃ k < N, t = (k + 1) * h
    · obtain ⟨k, hk, rfl⟩ := ht
      simp only [e1 k hk]
      exact hf k hk
    · simp only [hvf', if_neg ht]; exact differentiable_const _
  rw [ekf1_congr la rng none hd (e0 x0).symm (fun k hk x => (e1 k hk x).symm) σ sqrt, C130_steps hla rng hd vf' hf' hσ hh x0 N sqrt, e0,
    rosScheme_congr e1 N le_rfl]

/-- The states of the scheme are continuous functions of the state and the coefficients. -/
theorem continuous_rosStates {f : Vec d → ℝ → Vec d} (hf : Continuous (Function.uncurry f)) (S : Mat d m) {a0 δ h : ℝ} (hh : 0 < h) {N : ℕ}
    {D : ℕ → Vec d → Vec d →L[ℝ] Vec d} (hD : ∀ k < N, ∀ x, HasFDerivAt (fun z => f z ((k + 1) * h + a0)) (D k x) x)
    (hDc : ∀ k < N, Continuous (D k)) {s : Vec d × Vec m × Vec m → ℕ → RosState d} (hs : s = fun p =>
    rosScheme (additiveField f S a0 δ p.2.1 p.2.2) h ⟨p.1, additiveField f S a0 δ p.2.1 p.2.2 p.1 0, 0, 0⟩) :
    ∀ n ≤ N, (Continuous fun p => (s p n).x) ∧ (Continuous fun p => (s p n).v) ∧ (Continuous fun p => (s p n).J) ∧
      Continuous fun p => (s p n).C := by
  have hv : ∀ t, Continuous fun p : Vec d × Vec m × Vec m => additiveField f S a0 δ p.2.1 p.2.2 p.1 t := fun t =>
    continuous_additiveField hf S a0 δ t
  intro n
  induction n with
  | zero =>
    intro _
    rw [hs]
    exact ⟨continuous_fst, hv 0, continuous_const, continuous_const⟩
  | succ n ih =>
    intro hn
    obtain ⟨hx, hw, hJ, hC⟩ := ih (by omega)
    have hpsd : ∀ p, (s p n).C.PosSemidef := fun p => by rw [hs]; exact rosScheme_psd _ hh PosSemidef.zero n
    have hz : Continuous fun p => (s p n).x + h • (s p n).v := hx.add (hw.const_smul h)
    have hfz : Continuous fun p => additiveField f S a0 δ p.2.1 p.2.2 ((s p n).x + h • (s p n).v) ((n + 1) * h) :=
      (hv ((n + 1) * h)).comp (hz.prodMk continuous_snd)
    have hJe : ∀ p, (s p (n + 1)).J = LinearMap.toMatrix' (D n ((s p n).x + h • (s p n).v) : Vec d →ₗ[ℝ] Vec d) := fun p => by
      rw [hs]
      exact jac_eq_toMatrix ((hD n hn _).add_const _)
    have hJ' : Continuous fun p => (s p (n + 1)).J := by
      simp only [hJe]
      have h1 : Continuous fun p => D n ((s p n).x + h • (s p n).v) := (hDc n hn).comp hz
      refine continuous_matrix fun i j => ?_
      simp only [LinearMap.toMatrix'_apply, ContinuousLinearMap.coe_coe]
      exact (continuous_apply i).comp (h1.clm_apply continuous_const)
    have hI : Continuous fun p => rosInn h (s p n).J (s p n).C (s p (n + 1)).J := by
      unfold rosInn rosW rosD
      fun_prop
    have hIi : Continuous fun p => (rosInn h (s p n).J (s p n).C (s p (n + 1)).J)⁻¹ := by
      simp only [Matrix.inv_def, Ring.inverse_eq_inv']
      exact (hI.matrix_det.inv₀ fun p => (rosInn_det h _ (hpsd p) _).ne_zero).smul hI.matrix_adjugate
    have hG : Continuous fun p => rosGain h (s p n).J (s p n).C (s p (n + 1)).J := by
      unfold rosGain
      refine Continuous.matrix_mul ?_ hIi
      unfold rosD
      fun_prop
    have he : Continuous fun p => rosGain h (s p n).J (s p n).C (s p (n + 1)).J *ᵥ
        (additiveField f S a0 δ p.2.1 p.2.2 ((s p n).x + h • (s p n).v) ((n + 1) * h) - (s p n).v) := hG.matrix_mulVec (hfz.sub hw)
    have ex : ∀ p, (s p (n + 1)).x = (s p n).x + h • (s p n).v + rosGain h (s p n).J (s p n).C (s p (n + 1)).J *ᵥ
        (additiveField f S a0 δ p.2.1 p.2.2 ((s p n).x + h • (s p n).v) ((n + 1) * h) - (s p n).v) := fun p => by rw [hs]; rfl
    have ev : ∀ p, (s p (n + 1)).v = additiveField f S a0 δ p.2.1 p.2.2 ((s p n).x + h • (s p n).v) ((n + 1) * h) +
        (s p (n + 1)).J *ᵥ (rosGain h (s p n).J (s p n).C (s p (n + 1)).J *ᵥ
        (additiveField f S a0 δ p.2.1 p.2.2 ((s p n).x + h • (s p n).v) ((n + 1) * h) - (s p n).v)) := fun p => by rw [hs]; rfl
    have eC : ∀ p, (s p (n + 1)).C = rosCov h (s p n).J (s p n).C (s p (n + 1)).J := fun p => by rw [hs]; rfl
    refine ⟨?_, ?_, hJ', ?_⟩
    · simp only [ex]
      exact hz.add he
    · simp only [ev]
      exact hfz.add (hJ'.matrix_mulVec he)
    · simp only [eC]
      unfold rosCov
      fun_prop

/-- The result of the interval is a continuous function of the state and the coefficients. -/
theorem continuous_rosScheme {f : Vec d → ℝ → Vec d} (hf : Continuous (Function.uncurry f)) (S : Mat d m) {a0 δ h : ℝ} (hh : 0 < h) {N : ℕ}
    {D : ℕ → Vec d → Vec d →L[ℝ] Vec d} (hD : ∀ k < N, ∀ x, HasFDerivAt (fun z => f z ((k + 1) * h + a0)) (D k x) x)
    (hDc : ∀ k < N, Continuous (D k)) :
    Continuous fun p : Vec d × Vec m × Vec m =>
      (rosScheme (additiveField f S a0 δ p.2.1 p.2.2) h ⟨p.1, additiveField f S a0 δ p.2.1 p.2.2 p.1 0, 0, 0⟩ N).x :=
  (continuous_rosStates hf S hh hD hDc rfl N le_rfl).1

end Verif
