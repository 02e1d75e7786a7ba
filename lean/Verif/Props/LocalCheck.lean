import Verif.Model.ScriptsChecks
import Verif.Lemmas.ExpEm
import Verif.Lemmas.FineLaw
import Verif.Props.ExpLipschitz
import Verif.Props.EkfWrappers
import Verif.Props.StrongEkf

/-!
# Property C113: the local order experiment

`scripts/local_order_experiment_from_scratch.py` draws one interval, solves along it with Euler-Maruyama on a fine grid and with one
call of EKF0 on the parabola, and stores both values.
-/

namespace Verif

open Matrix Spec Jnp Set MeasureTheory ProbabilityTheory Foster
open scoped NNReal

variable {Ω : Type*} [MeasurableSpace Ω] {P : Measure Ω} {R : Ω → Rng}

/-- The standard normal behind the `k`-th fine increment. -/
noncomputable def localDraw (rng : Rng) (fineN : ℕ) (key : Key) (k : ℕ) : ℝ := rng.normalMat ((key.child 1 0).child fineN k) 2 1 0 0

theorem localFine (rng : Rng) (fineN : ℕ) (key : Key) (δ : ℝ) :
    ((getApproxFine 1 fineN).coeffs rng (key.child 1 0) δ).2.2.1 =
      (List.range fineN).map fun k => (fun _ => Real.sqrt (δ / fineN) * localDraw rng fineN key k : Vec 1) := by
  have h : (getApproxFine 1 fineN).coeffs rng (key.child 1 0) δ = _ := parabolasFine_eq 1 fineN rng (key.child 1 0) δ
  rw [h]
  refine List.map_congr_left fun k _ => funext fun j => ?_
  rw [Subsingleton.elim j 0]
  exact mul_comm _ _

theorem localIncs_eq (rng : Rng) {fineN : ℕ} (hN : 1 ≤ fineN) (key : Key) {δ : ℝ} (hδ : 0 < δ) :
    Scripts.localIncs rng fineN key δ = (List.range fineN).map fun k => (fun _ => localDraw rng fineN key k : Vec 1) := by
  have hN0 : (0 : ℝ) < fineN := by exact_mod_cast hN
  have hh : 0 < δ / fineN := by positivity
  rw [Scripts.localIncs, localFine, List.map_map]
  refine List.map_congr_left fun k _ => funext fun j => ?_
  simp only [Function.comp_apply, Pi.smul_apply, smul_eq_mul]
  rw [← mul_assoc, ← Real.sqrt_mul (by positivity), one_div, inv_mul_cancel₀ hh.ne', Real.sqrt_one, one_mul]

/-- C113 fails: `local_step` raises TypeError for every key, as `ekf0` is called without a prior. -/
theorem C113_fails (la : LinAlg) (rng : Rng) (fineN : ℕ) (δ : ℝ) (N : ℕ) (key : Key) :
    Scripts.localStep la rng fineN δ N key = .error .typeError := by
  have hl : (Scripts.localIncs rng fineN key δ).length = fineN := by
    simp [Scripts.localIncs, localFine]
  simp only [Scripts.localStep, Scripts.localStepWith, Scripts.localReference]
  rw [emPathwise_eq _ _ _ _ _ _ _ hl]
  rfl

theorem localDraw_law (hR : IdealNormals P R) (fineN : ℕ) (key : Key) :
    (∀ k, HasLaw (fun ω => localDraw (R ω) fineN key k) (gaussianReal 0 1) P) ∧
      iIndepFun (fun (k : ℕ) ω => localDraw (R ω) fineN key k) P := by
  refine ⟨fun k => hR.law_mat _ _ _, ?_⟩
  have h := hR.indep_mats (ι := ℕ) (fun k => (key.child 1 0).child fineN k) (fun a b hab => Key.diverge_child _ fineN a b hab) 2 1
  exact h.precomp (g := fun k : ℕ => (k, (0 : Fin 2), (0 : Fin 1))) (fun a b h => by simpa using h)

/-- The last point of Euler-Maruyama along the given increments, one after the other. -/
theorem localEm (w : ℕ → Vec 1) (h : ℝ) (N : ℕ) (standard : Bool) : ∃ (ts : List ℝ) (xs : List (Vec 1)) (y : ℕ → ℝ),
    emPathwise ((List.range N).map w) Scripts.localX0 Scripts.localDrift Scripts.localSigma h N standard = .ok (ts, xs) ∧
    clampGet xs (xs.length - 1) = (fun _ => y N) ∧ y 0 = 1 ∧
    (∀ k < N, y (k + 1) = y k + h * Real.exp (y k) + (if standard then Real.sqrt h else 1) * w k 0) := by
  have hl : ((List.range N).map w).length = N := by simp
  refine ⟨_, _, fun k => emFold h Scripts.localDrift Scripts.localSigma Scripts.localX0 0
          ((if standard then ((List.range N).map w).map (Real.sqrt h • ·) else (List.range N).map w).take k) 0, emPathwise_eq _ _ _ _ h N standard hl, ?_, by
            simp [emFold, Scripts.localX0], fun k hk => ?_⟩
  · refine (funext fun j => ?_)
    rw [Subsingleton.elim j 0]
    simp [clampGet]
  · obtain ⟨ts, xs, h1, -, -, h4⟩ := (C18_pathwise_recursion ((List.range N).map w) Scripts.localX0 Scripts.localDrift Scripts.localSigma h N standard).2 hl
    rw [emPathwise_eq _ _ _ _ h N standard hl] at h1
    have e : xs = _ := (Prod.ext_iff.mp (Except.ok.inj h1)).2.symm
    have := h4 k _ (w k) (by rw [e, List.getElem?_map, List.getElem?_range (by omega)]; rfl)
      (by rw [List.getElem?_map, List.getElem?_range hk]; rfl)
    rw [e, List.getElem?_map, List.getElem?_range (by omega)] at this
    have := congrFun (Option.some.inj this) 0
    refine this.trans ?_
    cases standard <;> simp [Scripts.localDrift, Scripts.localSigma]

/-- C113 fails: `solver_pathwise` takes increments of variance one as those of the path, its flag `standard` being off. For an ideal
generator the value called `X_DELTA_EULER` is that of the scheme with a noise of variance one, not `fine_delta`, in each step; and it has
no mean. -/
theorem C113_reference_fails (hR : IdealNormals P R) {fineN : ℕ} (hN : 1 ≤ fineN) (key : Key) {δ : ℝ} (hδ : 0 < δ) :
    ∃ G X : ℕ → Ω → ℝ, (∀ k, HasLaw (G k) (gaussianReal 0 1) P) ∧ iIndepFun G P ∧
      (∀ ω, ((getApproxFine 1 fineN).coeffs (R ω) (key.child 1 0) δ).2.2.1 =
        (List.range fineN).map fun k => (fun _ => Real.sqrt (δ / fineN) * G k ω : Vec 1)) ∧
      (∀ ω, X 0 ω = 1) ∧ (∀ k < fineN, ∀ ω, X (k + 1) ω = X k ω + δ / fineN * Real.exp (X k ω) + G k ω) ∧
      (∀ ω, Scripts.localReference (R ω) fineN key δ = .ok fun _ => X fineN ω) ∧
      (3 ≤ fineN → ¬ Integrable (X fineN) P) := by
  have hN0 : (0 : ℝ) < fineN := by exact_mod_cast hN
  obtain ⟨hG, hi⟩ := localDraw_law hR fineN key
  choose ts xs y h1 h2 h3 h4 using fun ω => localEm (fun k => (fun _ => localDraw (R ω) fineN key k : Vec 1)) (δ / fineN) fineN false
  have h5 : ∀ k < fineN, ∀ ω, y ω (k + 1) = y ω k + δ / fineN * Real.exp (y ω k) + localDraw (R ω) fineN key k := fun k hk ω => by
    rw [h4 ω k hk]; simp
  refine ⟨fun k ω => localDraw (R ω) fineN key k, fun k ω => y ω k, hG, hi, fun ω => localFine _ _ _ _, h3, h5, fun ω => ?_, fun h => ?_⟩
  · simp only [Scripts.localReference]
    rw [localIncs_eq (R ω) hN key hδ, h1 ω]
    exact congrArg Except.ok (h2 ω)
  · refine not_integrable_exp_em (X := fun k ω => y ω k) h (s := 1) (x0 := 1) (h := δ / fineN) (by positivity) one_pos (fun k _ => hG k) (hi.indepFun (by norm_num)) h3 fun k hk ω => ?_
    rw [h5 k hk ω, one_mul]

/-- `local_step` with the two calls repaired: the once integrated Brownian motion as prior, and the increments announced as
standardised. -/
noncomputable def localStepFixed (la : LinAlg) (rng : Rng) (σ : ℝ) (fineN : ℕ) (δ : ℝ) (N : ℕ) (key : Key) (sqrt : Bool) :
    Except PyErr (Vec 1 × Vec 1) :=
  Scripts.localStepWith rng (fun init vf T N => Ekf.ekf0 la rng none init vf (T / N) N sqrt (some ⟨_, IOUP.transition 0 σ 1 (T / N) 1⟩)) true
    fineN δ N key

/-- What the repaired step returns. -/
theorem localStepFixed_eq {la : LinAlg} (hla : la.Correct) (rng : Rng) {σ : ℝ} (hσ : σ ≠ 0) {fineN : ℕ} (hN : 1 ≤ fineN) {δ : ℝ} (hδ : 0 < δ)
    {N : ℕ} (hN' : 1 ≤ N) (key : Key) (sqrt : Bool) : ∃ y : ℕ → ℝ,
    localStepFixed la rng σ fineN δ N key sqrt = .ok ((trapScheme (fun x t => Scripts.localDrift x t +
      jacT (fun t => (getApproxFine 1 fineN).eval t δ ((getApproxFine 1 fineN).coeffs rng (key.child 1 0) δ)) t) (δ / N) Scripts.localX0 N).1,
      fun _ => y fineN) ∧ y 0 = 1 ∧
    ∀ k < fineN, y (k + 1) = y k + δ / fineN * Real.exp (y k) + Real.sqrt (δ / fineN) * localDraw rng fineN key k := by
  have hN0 : (0 : ℝ) < N := by exact_mod_cast hN'
  obtain ⟨ts, xs, y, h1, h2, h3, h4⟩ := localEm (fun k => (fun _ => localDraw rng fineN key k : Vec 1)) (δ / fineN) fineN true
  refine ⟨y, ?_, h3, fun k hk => by simpa using h4 k hk⟩
  simp only [localStepFixed, Scripts.localStepWith, Scripts.localReference]
  rw [localIncs_eq rng hN key hδ, h1]
  simp only [Scripts.localSigma, one_mulVec]
  have := C43_trapezoidal hla rng one_pos (fun x t => Scripts.localDrift x t +
    jacT (fun t => (getApproxFine 1 fineN).eval t δ ((getApproxFine 1 fineN).coeffs rng (key.child 1 0) δ)) t) hσ (show 0 < δ / N by positivity)
    Scripts.localX0 N sqrt
  rw [← h2]
  simp only [bind, Except.bind, pure, Except.pure]
  rw [this]

/-- C113 with the two calls repaired: `local_step` returns, for every key, the value of the trapezoidal scheme for the equation driven by
the coarse parabola of the draw, and that of Euler-Maruyama along the fine increments of the same draw. -/
theorem C113_partial {la : LinAlg} (hla : la.Correct) (rng : Rng) {σ : ℝ} (hσ : σ ≠ 0) {fineN : ℕ} (hN : 1 ≤ fineN) {δ : ℝ} (hδ : 0 < δ)
    {N : ℕ} (hN' : 1 ≤ N) (key : Key) (sqrt : Bool) :
    let c := (getApproxFine 1 fineN).coeffs rng (key.child 1 0) δ
    ∃ y : ℕ → ℝ, localStepFixed la rng σ fineN δ N key sqrt = .ok ((trapScheme (fun x t => Scripts.localDrift x t +
        jacT (fun t => (getApproxFine 1 fineN).eval t δ c) t) (δ / N) Scripts.localX0 N).1, fun _ => y fineN) ∧
      y 0 = 1 ∧ ∀ k < fineN, ∃ w, c.2.2.1[k]? = some w ∧ y (k + 1) = y k + δ / fineN * Real.exp (y k) + w 0 := by
  intro c
  obtain ⟨y, h1, h2, h3⟩ := localStepFixed_eq hla rng hσ hN hδ hN' key sqrt
  refine ⟨y, h1, h2, fun k hk => ⟨fun _ => Real.sqrt (δ / fineN) * localDraw rng fineN key k, ?_, h3 k hk⟩⟩
  rw [show c.2.2.1 = _ from localFine rng fineN key δ, List.getElem?_map, List.getElem?_range hk]
  rfl

/-- The value of the filter has a mean. -/
theorem localHeun_integrable (hR : IdealNormals P R) {fineN : ℕ} (hN : 1 ≤ fineN) {δ : ℝ} (hδ : 0 < δ) (key : Key) :
    Integrable (fun ω => (trapScheme (fun x t => Scripts.localDrift x t +
      jacT (fun t => (getApproxFine 1 fineN).eval t δ ((getApproxFine 1 fineN).coeffs (R ω) (key.child 1 0) δ)) t) (δ / (1 : ℕ)) Scripts.localX0 1).1 0) P := by
  have hl := (C15_fine_law hR 1 fineN hN (key.child 1 0) δ hδ).1
  have h1 := slope_law_normal hl 1
  have h2 := slope_law_normal hl (-1)
  have hint : ∀ {G : Ω → ℝ} {v : ℝ≥0}, HasLaw G (gaussianReal 0 v) P → Integrable G P ∧ Integrable (fun ω => Real.exp (G ω)) P := fun {G v} hG => by
    have i1 := IsGaussian.integrable_id (μ := gaussianReal 0 v)
    have i2 := integrable_exp_mul_gaussianReal (μ := 0) (v := v) 1
    rw [← hG.map_eq] at i1 i2
    refine ⟨(integrable_map_measure (by fun_prop) hG.aemeasurable).mp i1, ?_⟩
    have := (integrable_map_measure (by fun_prop) hG.aemeasurable).mp i2
    simpa [Function.comp_def] using this
  obtain ⟨a, ha⟩ : ∃ a : Ω → ℝ, a = fun ω => ((getApproxFine 1 fineN).coeffs (R ω) (key.child 1 0) δ).1 0 := ⟨_, rfl⟩
  obtain ⟨b, hb⟩ : ∃ b : Ω → ℝ, b = fun ω => ((getApproxFine 1 fineN).coeffs (R ω) (key.child 1 0) δ).2.1 0 := ⟨_, rfl⟩
  have e : ∀ ω, (trapScheme (fun x t => Scripts.localDrift x t +
      jacT (fun t => (getApproxFine 1 fineN).eval t δ ((getApproxFine 1 fineN).coeffs (R ω) (key.child 1 0) δ)) t) (δ / (1 : ℕ)) Scripts.localX0 1).1 0 =
      1 + δ / 2 * Real.exp 1 + (a ω + Real.sqrt 6 * b ω * 1) * (1 / 2) + δ / 2 * (Real.exp (1 + δ * Real.exp 1) * Real.exp (a ω + Real.sqrt 6 * b ω * 1)) +
        (a ω + Real.sqrt 6 * b ω * -1) * (1 / 2) := fun ω => by
    have hj : ∀ t, jacT (fun t => (getApproxFine 1 fineN).eval t δ ((getApproxFine 1 fineN).coeffs (R ω) (key.child 1 0) δ)) t 0 =
        (a ω + Real.sqrt 6 * b ω * (1 - 2 * t / δ)) / δ := fun t => by
      rw [ha, hb]
      have := congrFun (jacT_evalParabola δ ((getApproxFine 1 fineN).coeffs (R ω) (key.child 1 0) δ).1
        ((getApproxFine 1 fineN).coeffs (R ω) (key.child 1 0) δ).2.1 t) 0
      refine Eq.trans this ?_
      simp only [Pi.smul_apply, Pi.add_apply, smul_eq_mul]
    simp only [trapScheme, Scripts.localDrift, Scripts.localX0, Pi.add_apply, Pi.smul_apply, smul_eq_mul, hj, Pi.one_apply, Nat.cast_zero, Nat.cast_one, zero_add, zero_mul, one_mul, div_one, mul_zero, zero_div, sub_zero, mul_one]
    rw [show 1 - 2 * δ / δ = -1 by field_simp; norm_num, show 1 + δ * (Real.exp 1 + (a ω + Real.sqrt 6 * b ω) / δ) =
      1 + δ * Real.exp 1 + (a ω + Real.sqrt 6 * b ω) by field_simp; ring, Real.exp_add]
    field_simp
    ring
  simp only [e]
  have : IsProbabilityMeasure P := h1.isProbabilityMeasure_iff.mpr inferInstance
  have i1 : Integrable (fun ω => a ω + Real.sqrt 6 * b ω * 1) P ∧ Integrable (fun ω => Real.exp (a ω + Real.sqrt 6 * b ω * 1)) P := by
    rw [ha, hb]; exact hint h1
  have i2 : Integrable (fun ω => a ω + Real.sqrt 6 * b ω * -1) P := by
    rw [ha, hb]; exact (hint h2).1
  exact (((integrable_const _).add (i1.1.mul_const _)).add ((i1.2.const_mul _).const_mul _)).add (i2.mul_const _)

/-- C113, the repaired step: although each value is as it should be, the distance between the two values has no mean as soon as the fine
grid has three steps, so that no order can be read off averages of it. -/
theorem C113_infinite_mean_fails {la : LinAlg} (hla : la.Correct) (hR : IdealNormals P R) {σ : ℝ} (hσ : σ ≠ 0) {fineN : ℕ} (hN : 3 ≤ fineN) {δ : ℝ}
    (hδ : 0 < δ) (key : Key) (sqrt : Bool) :
    ∃ x y : Ω → ℝ, (∀ ω, localStepFixed la (R ω) σ fineN δ 1 key sqrt = .ok (fun _ => x ω, fun _ => y ω)) ∧
      Integrable x P ∧ ¬ Integrable (fun ω => |x ω - y ω|) P := by
  have hN1 : 1 ≤ fineN := by omega
  have hN0 : (0 : ℝ) < fineN := by exact_mod_cast hN1
  obtain ⟨hG, hi⟩ := localDraw_law hR fineN key
  choose y h1 h2 h3 using fun ω => localStepFixed_eq hla (R ω) hσ hN1 hδ le_rfl key sqrt
  have hx := localHeun_integrable hR hN1 hδ key
  refine ⟨_, fun ω => y ω fineN, fun ω => (h1 ω).trans ?_, hx, fun hd => ?_⟩
  · refine congrArg (fun v => Except.ok (v, fun _ => y ω fineN)) (funext fun j => ?_)
    rw [Subsingleton.elim j 0]
  · have hs : 0 < Real.sqrt (δ / fineN) := Real.sqrt_pos.mpr (by positivity)
    have hni := not_integrable_exp_em (X := fun k ω => y ω k) hN (s := Real.sqrt (δ / fineN)) (x0 := 1) (h := δ / fineN) (by positivity) hs
      (fun k _ => hG k) (hi.indepFun (by norm_num)) h2 fun k hk ω => h3 ω k hk
    have hm : ∀ k ≤ fineN, AEMeasurable (fun ω => y ω k) P := fun k => by
      induction k with
      | zero => exact fun _ => by simp only [h2]; exact aemeasurable_const
      | succ k ih =>
        intro hk
        have := ih (by omega)
        simp only [h3 _ k (by omega : k < fineN)]
        exact (this.add (aemeasurable_const.mul (Real.measurable_exp.comp_aemeasurable this))).add (aemeasurable_const.mul (hG k).aemeasurable)
    have hxy : Integrable (fun ω => (trapScheme (fun x t => Scripts.localDrift x t + jacT (fun t => (getApproxFine 1 fineN).eval t δ
        ((getApproxFine 1 fineN).coeffs (R ω) (key.child 1 0) δ)) t) (δ / (1 : ℕ)) Scripts.localX0 1).1 0 - y ω fineN) P :=
      (integrable_norm_iff (hx.aestronglyMeasurable.sub (hm fineN le_rfl).aestronglyMeasurable)).mp hd
    refine hni ((hx.sub hxy).congr (Filter.Eventually.of_forall fun ω => ?_))
    simp

/-- The script's largest interval and its grid, an ideal generator. -/
example : ∃ la : LinAlg, la.Correct ∧ ∃ x y : Draws → ℝ,
    (∀ z, localStepFixed la (drawsRng z) 1 1000 0.1 1 [] true = .ok (fun _ => x z, fun _ => y z)) ∧
      Integrable x drawsMeasure ∧ ¬ Integrable (fun z => |x z - y z|) drawsMeasure := by
  obtain ⟨la, hla⟩ := exists_correct_linAlg
  exact ⟨la, hla, C113_infinite_mean_fails hla idealNormals_drawsRng one_ne_zero (by norm_num) (by norm_num) [] true⟩

end Verif
