import Verif.Model.ScriptsChecks
import Verif.Lemmas.ExpLipschitz
import Verif.Props.Foster
import Verif.Props.EkfSde

/-!
# Property C112: the expected Lipschitz constant of the flow

`scripts/experiment_exp_lipschitz.py` compares the mean of `exp(∫|P'|)`, `P` the parabola on an interval of length `delta`, with a bound of
the form `1 + c √delta`.
-/

namespace Verif

open Matrix Spec Jnp Set MeasureTheory ProbabilityTheory Foster
open scoped NNReal

variable {Ω : Type*} [MeasurableSpace Ω] {P : Measure Ω} {R : Ω → Rng}

/-- The total variation of the parabola on the interval. -/
noncomputable def parabolaVariation (rng : Rng) (key : Key) (δ : ℝ) : ℝ :=
  ∫ t in (0 : ℝ)..δ, |deriv (fun s => (getApprox 1).eval s δ ((getApprox 1).coeffs rng key δ) 0) t|

theorem slope_law_normal {X : Ω → Fin 2 × Fin 1 → ℝ} {δ : ℝ} (h : IsNormal P X 0 (diagonal (coeffVar 1 δ))) (w : ℝ) :
    HasLaw (fun ω => X ω (0, 0) + Real.sqrt 6 * X ω (1, 0) * w) (gaussianReal 0 (δ * (1 + 3 * w ^ 2)).toNNReal) P := by
  have h := (h.affine (0 : Unit → ℝ) (Matrix.of fun (_ : Unit) (p : Fin 2 × Fin 1) => ![1, Real.sqrt 6 * w] p.1)).eval ()
  have h6 := Real.sq_sqrt (show (0 : ℝ) ≤ 6 by norm_num)
  have hC : ((Matrix.of fun (_ : Unit) (p : Fin 2 × Fin 1) => ![1, Real.sqrt 6 * w] p.1) * diagonal (coeffVar 1 δ) *
      (Matrix.of fun (_ : Unit) (p : Fin 2 × Fin 1) => ![1, Real.sqrt 6 * w] p.1)ᵀ) () () = δ * (1 + 3 * w ^ 2) := by
    rw [Matrix.mul_apply, Fintype.sum_prod_type]
    simp only [Matrix.mul_diagonal, Matrix.of_apply, Matrix.transpose_apply, coeffVar, Fin.sum_univ_two, Finset.univ_unique, Finset.sum_singleton,
      Matrix.cons_val_zero, Matrix.cons_val_one]
    linear_combination (w ^ 2 * δ / 2) * h6
  have hX : (fun ω => ((0 : Unit → ℝ) + (Matrix.of fun (_ : Unit) (p : Fin 2 × Fin 1) => ![1, Real.sqrt 6 * w] p.1) *ᵥ X ω +
      (0 : Unit → ℝ)) ()) = fun ω => X ω (0, 0) + Real.sqrt 6 * X ω (1, 0) * w := by
    funext ω
    simp only [Pi.add_apply, Pi.zero_apply, mulVec, dotProduct, zero_add, add_zero, Matrix.of_apply]
    rw [Fintype.sum_prod_type]
    simp only [Fin.sum_univ_two, Finset.univ_unique, Finset.sum_singleton, Matrix.cons_val_zero, Matrix.cons_val_one]
    show (1 : ℝ) * X ω (0, 0) + Real.sqrt 6 * w * X ω (1, 0) = _
    ring
  rw [hC] at h
  simp only [add_zero, mulVec_zero] at h hX
  rw [hX] at h
  exact h

theorem slope_law (hR : IdealNormals P R) (key : Key) {δ : ℝ} (hδ : 0 ≤ δ) (w : ℝ) :
    HasLaw (fun ω => (parabolas 1 (R ω) key δ).1 0 + Real.sqrt 6 * (parabolas 1 (R ω) key δ).2 0 * w)
      (gaussianReal 0 (δ * (1 + 3 * w ^ 2)).toNNReal) P :=
  slope_law_normal (C13_coefficients_law hR 1 key δ hδ).1 w

/-- What the script averages, as a trapezoid sum on the unit interval. -/
theorem expLipschitz_eq (rng : Rng) (keys : List Key) {δ : ℝ} (hδ : 0 < δ) :
    Scripts.expLipschitz rng keys δ 0 = 1 / (keys.length : ℝ) * (keys.map fun k => Real.exp (trapW 99 fun u =>
      |(parabolas 1 rng k δ).1 0 + Real.sqrt 6 * (parabolas 1 rng k δ).2 0 * (1 - 2 * u)|)).sum := by
  have hs : ∀ l : List (Vec 1), l.sum 0 = (l.map fun v => v 0).sum := fun l => by
    induction l with
    | nil => rfl
    | cons v l ih => rw [List.sum_cons, List.map_cons, List.sum_cons, ← ih]; rfl
  simp only [Scripts.expLipschitz, Pi.smul_apply, smul_eq_mul, hs, List.map_map]
  congr 2
  refine List.map_congr_left fun k _ => ?_
  simp only [Function.comp_apply]
  congr 1
  rw [show (100 : ℕ) + 1 = 99 + 2 from rfl, trapezoid_linspace, Finset.sum_apply, trapW]
  refine Finset.sum_congr rfl fun j _ => ?_
  simp only [getApprox, jacT_evalParabola, Pi.smul_apply, Pi.add_apply, smul_eq_mul, abs_div, abs_of_pos hδ]
  have e : ∀ x : ℝ, 1 - 2 * (x * (δ / ((99 : ℕ) + 1))) / δ = 1 - 2 * (x / ((99 : ℕ) + 1)) := fun x => by field_simp
  rw [e, e]
  field_simp

theorem variation_eq (rng : Rng) (k : Key) {δ : ℝ} (hδ : 0 < δ) :
    parabolaVariation rng k δ = ∫ t in (0 : ℝ)..δ, |((parabolas 1 rng k δ).1 0 + Real.sqrt 6 * (parabolas 1 rng k δ).2 0) / δ +
      -2 * (Real.sqrt 6 * (parabolas 1 rng k δ).2 0) / δ ^ 2 * t| := by
  obtain ⟨a, ha⟩ : ∃ a, a = (parabolas 1 rng k δ).1 0 := ⟨_, rfl⟩
  obtain ⟨b, hb⟩ : ∃ b, b = Real.sqrt 6 * (parabolas 1 rng k δ).2 0 := ⟨_, rfl⟩
  have hd : ∀ t, deriv (fun s => (getApprox 1).eval s δ ((getApprox 1).coeffs rng k δ) 0) t = (a + b) / δ + -2 * b / δ ^ 2 * t := fun t => by
    have := congrFun (jacT_evalParabola δ (parabolas 1 rng k δ).1 (parabolas 1 rng k δ).2 t) 0
    rw [← ha, ← hb] at this
    refine Eq.trans this ?_
    field_simp
    ring
  rw [← ha, ← hb]
  simp only [parabolaVariation, hd]

theorem variation_continuous (δ : ℝ) :
    Continuous fun p : ℝ × ℝ => ∫ t in (0 : ℝ)..δ, |(p.1 + Real.sqrt 6 * p.2) / δ + -2 * (Real.sqrt 6 * p.2) / δ ^ 2 * t| := by
  refine intervalIntegral.continuous_parametric_intervalIntegral_of_continuous'
    (f := fun (p : ℝ × ℝ) (t : ℝ) => |(p.1 + Real.sqrt 6 * p.2) / δ + -2 * (Real.sqrt 6 * p.2) / δ ^ 2 * t|) ?_ 0 δ
  simp only [Function.uncurry_def]
  fun_prop

theorem variation_aemeas (hR : IdealNormals P R) (k : Key) {δ : ℝ} (hδ : 0 < δ) : AEMeasurable (fun ω => parabolaVariation (R ω) k δ) P := by
  have ha := (C13_coefficients_law hR 1 k δ hδ.le).1
  have h1 : AEMeasurable (fun ω => (parabolas 1 (R ω) k δ).1 0) P := (ha.eval (0, 0)).aemeasurable
  have h2 : AEMeasurable (fun ω => (parabolas 1 (R ω) k δ).2 0) P := (ha.eval (1, 0)).aemeasurable
  have h3 := (variation_continuous δ).measurable.comp_aemeasurable (h1.prodMk h2)
  refine h3.congr (Filter.Eventually.of_forall fun ω => ?_)
  exact (variation_eq (R ω) k hδ).symm

/-- The total variation lies between the modulus of the increment and the trapezoid sum. -/
theorem variation_le (rng : Rng) (k : Key) {δ : ℝ} (hδ : 0 < δ) :
    |(parabolas 1 rng k δ).1 0| ≤ parabolaVariation rng k δ ∧ parabolaVariation rng k δ ≤ trapW 99 fun u =>
      |(parabolas 1 rng k δ).1 0 + Real.sqrt 6 * (parabolas 1 rng k δ).2 0 * (1 - 2 * u)| := by
  rw [variation_eq rng k hδ]
  obtain ⟨a, ha⟩ : ∃ a, a = (parabolas 1 rng k δ).1 0 := ⟨_, rfl⟩
  obtain ⟨b, hb⟩ : ∃ b, b = Real.sqrt 6 * (parabolas 1 rng k δ).2 0 := ⟨_, rfl⟩
  rw [← ha, ← hb]
  have hc : Continuous fun t : ℝ => (a + b) / δ + -2 * b / δ ^ 2 * t := by fun_prop
  constructor
  · refine le_trans (le_of_eq ?_) (intervalIntegral.abs_integral_le_integral_abs hδ.le)
    rw [intervalIntegral.integral_add (Continuous.intervalIntegrable (by fun_prop) _ _) (Continuous.intervalIntegrable (by fun_prop) _ _),
      intervalIntegral.integral_const_mul, integral_id, intervalIntegral.integral_const]
    congr 1
    simp only [smul_eq_mul]
    field_simp
    ring
  · have hsum := intervalIntegral.sum_integral_adjacent_intervals (f := fun t : ℝ => |(a + b) / δ + -2 * b / δ ^ 2 * t|) (μ := volume)
      (a := fun j : ℕ => (j : ℝ) * (δ / 100)) (n := 100) (fun j _ => hc.abs.intervalIntegrable _ _)
    simp only [Nat.cast_zero, zero_mul] at hsum
    rw [show ((100 : ℕ) : ℝ) * (δ / 100) = δ by push_cast; field_simp] at hsum
    rw [← hsum, trapW]
    refine Finset.sum_le_sum fun j _ => ?_
    refine (integral_abs_affine_le _ _ _ _ (by push_cast; nlinarith)).trans (le_of_eq ?_)
    have e : ∀ x : ℝ, (a + b) / δ + -2 * b / δ ^ 2 * (x * (δ / 100)) = (a + b * (1 - 2 * (x / 100))) / δ := fun x => by field_simp; ring
    rw [e, e, abs_div, abs_div, abs_of_pos hδ, show ((99 : ℕ) : ℝ) + 1 = 100 by norm_num]
    push_cast
    field_simp
    ring

/-- The numerical part: the constants of the script leave room for the second order terms when `δ ≤ 1/50`. -/
theorem bound_numeric {δ : ℝ} (hδ : 0 < δ) (h : δ ≤ 1 / 50) :
    Real.sqrt (2 / Real.pi * (δ * (2 + 2 / 10000))) + (1 + 21 / 20 * (δ * (2 + 2 / 10000))) ≤ Scripts.theoreticalBound δ := by
  have h1 : (690 : ℝ) / 1000 ≤ Real.sqrt (3 / (2 * 3.1415)) := Real.le_sqrt_of_sq_le (by norm_num)
  have h2 : (797 : ℝ) / 1000 ≤ Real.sqrt (2 / 3.1415) := Real.le_sqrt_of_sq_le (by norm_num)
  have h3 : Real.sqrt (2 / Real.pi * (δ * (2 + 2 / 10000))) ≤ 113 / 100 * Real.sqrt δ := by
    rw [show (113 : ℝ) / 100 * Real.sqrt δ = Real.sqrt ((113 / 100) ^ 2 * δ) by
      rw [Real.sqrt_mul (by norm_num), Real.sqrt_sq (by norm_num)]]
    refine Real.sqrt_le_sqrt ?_
    have hp := Real.pi_gt_d2
    have h4 : 2 / Real.pi ≤ 2 / 3.14 := by gcongr
    have h5 : 2 / Real.pi * (δ * (2 + 2 / 10000)) ≤ 2 / 3.14 * (δ * (2 + 2 / 10000)) := mul_le_mul_of_nonneg_right h4 (by positivity)
    refine h5.trans ?_
    nlinarith
  have h4 : δ ≤ 3 / 20 * Real.sqrt δ := by
    have h5 : Real.sqrt δ ≤ 3 / 20 := by
      rw [Real.sqrt_le_left (by norm_num)]
      linarith
    have h6 := Real.mul_self_sqrt hδ.le
    nlinarith [Real.sqrt_nonneg δ]
  rw [Scripts.theoreticalBound, show (0.5 : ℝ) = 1 / 2 by norm_num, ← Real.sqrt_eq_rpow]
  have h7 : (690 / 1000 + 797 / 1000) * Real.sqrt δ ≤ (Real.sqrt (3 / (2 * 3.1415)) + Real.sqrt (2 / 3.1415)) * Real.sqrt δ :=
    mul_le_mul_of_nonneg_right (add_le_add h1 h2) (Real.sqrt_nonneg δ)
  nlinarith [Real.sqrt_nonneg δ]

/-- One parabola: the exponential moment of the trapezoid sum. -/
theorem variation_moment (hR : IdealNormals P R) (k : Key) {δ : ℝ} (hδ : 0 < δ) :
    let X := fun ω => trapW 99 fun u => |(parabolas 1 (R ω) k δ).1 0 + Real.sqrt 6 * (parabolas 1 (R ω) k δ).2 0 * (1 - 2 * u)|
    Integrable (fun ω => Real.exp (X ω)) P ∧ Real.exp (δ / 2) ≤ ∫ ω, Real.exp |(parabolas 1 (R ω) k δ).1 0| ∂P ∧
    Integrable (fun ω => Real.exp |(parabolas 1 (R ω) k δ).1 0|) P ∧
    (δ ≤ 1 / 50 → ∫ ω, Real.exp (X ω) ∂P ≤ Scripts.theoreticalBound δ) := by
  intro X
  have hlaw := fun w => slope_law hR k hδ.le w
  have he := fun w => integral_exp_abs_gaussian (hlaw w)
  have hJ := trapW_integral 99 (f := fun u ω => Real.exp |(parabolas 1 (R ω) k δ).1 0 + Real.sqrt 6 * (parabolas 1 (R ω) k δ).2 0 * (1 - 2 * u)|)
    (fun u => (he (1 - 2 * u)).1)
  have hle : ∀ ω, Real.exp (X ω) ≤ trapW 99 fun u => Real.exp |(parabolas 1 (R ω) k δ).1 0 + Real.sqrt 6 * (parabolas 1 (R ω) k δ).2 0 * (1 - 2 * u)| :=
    fun ω => trapW_exp 99 _
  have hXm : AEStronglyMeasurable (fun ω => Real.exp (X ω)) P := by
    refine Real.continuous_exp.comp_aestronglyMeasurable (f := X) ?_
    have := (trapW_integral 99 (P := P) (f := fun u ω => |(parabolas 1 (R ω) k δ).1 0 + Real.sqrt 6 * (parabolas 1 (R ω) k δ).2 0 * (1 - 2 * u)|)
      (fun u => ?_)).1
    · exact this.aestronglyMeasurable
    · have h2 : Integrable (fun x : ℝ => |x|) (gaussianReal 0 (δ * (1 + 3 * (1 - 2 * u) ^ 2)).toNNReal) := (IsGaussian.integrable_id (μ := gaussianReal 0 _)).abs
      rw [← (hlaw (1 - 2 * u)).map_eq] at h2
      exact h2.comp_aemeasurable (hlaw (1 - 2 * u)).aemeasurable
  have hXi : Integrable (fun ω => Real.exp (X ω)) P := hJ.1.mono' hXm (Filter.Eventually.of_forall fun ω => by
    rw [Real.norm_eq_abs, abs_of_pos (Real.exp_pos _)]; exact hle ω)
  have h0 := hlaw 0
  simp only [mul_zero, add_zero, ne_eq, OfNat.ofNat_ne_zero, not_false_eq_true, zero_pow, mul_one] at h0
  have hi0 := (integral_exp_abs_gaussian h0).1
  refine ⟨hXi, ?_, hi0, fun hs => ?_⟩
  · have hm := mgf_gaussianReal h0.map_eq 1
    simp only [mgf, one_mul, zero_mul, zero_add, one_pow, mul_one, Real.coe_toNNReal _ hδ.le] at hm
    rw [← hm]
    refine integral_mono_of_nonneg (Filter.Eventually.of_forall fun ω => (Real.exp_pos _).le) hi0 (Filter.Eventually.of_forall fun ω => ?_)
    exact Real.exp_le_exp.mpr (le_abs_self _)
  · refine (integral_mono hXi hJ.1 hle).trans ?_
    rw [hJ.2]
    refine le_trans ?_ (bound_numeric hδ hs)
    have hu : ∀ u ∈ Icc (0 : ℝ) 1, ∫ ω, Real.exp |(parabolas 1 (R ω) k δ).1 0 + Real.sqrt 6 * (parabolas 1 (R ω) k δ).2 0 * (1 - 2 * u)| ∂P ≤
        Real.sqrt (2 / Real.pi * (δ * (1 + 3 * (1 - 2 * u) ^ 2))) + (1 + 21 / 20 * (δ * (1 + 3 * (1 - 2 * u) ^ 2))) := fun u hu => by
      obtain ⟨v, hv⟩ : ∃ v, v = δ * (1 + 3 * (1 - 2 * u) ^ 2) := ⟨_, rfl⟩
      have hv0 : 0 ≤ v := by rw [hv]; positivity
      have hv1 : v ≤ 4 / 50 := by
        have : (1 - 2 * u) ^ 2 ≤ 1 := by nlinarith [hu.1, hu.2]
        rw [hv]
        nlinarith
      have h1 := (he (1 - 2 * u)).2
      rw [← hv, Real.coe_toNNReal _ hv0] at h1
      refine h1.trans ?_
      rw [← hv, show 2 * v / Real.pi = 2 / Real.pi * v by ring]
      have h2 : Real.exp (v / 2) ≤ 1 + 21 / 40 * v := by
        have := Real.exp_bound_div_one_sub_of_interval (x := v / 2) (by positivity) (by linarith)
        refine this.trans ?_
        rw [div_le_iff₀ (by linarith)]
        nlinarith
      linarith
    refine (trapW_mono 99 hu).trans ?_
    rw [trapW_add, trapW_add, trapW_const, trapW_mul, trapW_mul, trapW_add, trapW_const, trapW_mul, trapW_sq]
    have hsq := trapW_sqrt 99 (f := fun u => 2 / Real.pi * (δ * (1 + 3 * (1 - 2 * u) ^ 2))) (fun u => by have := Real.pi_pos; positivity)
    rw [trapW_mul, trapW_mul, trapW_add, trapW_const, trapW_mul, trapW_sq] at hsq
    have e : (1 : ℝ) + 3 * (1 / 3 + 2 / (3 * (((99 : ℕ) : ℝ) + 1) ^ 2)) = 2 + 2 / 10000 := by norm_num
    rw [e] at hsq ⊢
    exact add_le_add hsq le_rfl

theorem variation_integrable (hR : IdealNormals P R) (k : Key) {δ : ℝ} (hδ : 0 < δ) :
    Integrable (fun ω => Real.exp (parabolaVariation (R ω) k δ)) P :=
  (variation_moment hR k hδ).1.mono' (Real.measurable_exp.comp_aemeasurable (variation_aemeas hR k hδ)).aestronglyMeasurable
    (Filter.Eventually.of_forall fun ω => by
      rw [Real.norm_eq_abs, abs_of_pos (Real.exp_pos _)]; exact Real.exp_le_exp.mpr (variation_le (R ω) k hδ).2)

/-- C112 for short intervals, in particular those of the script: with an ideal generator, what the script computes, for any number of keys, has
an expectation below its `theoretical_bound`; so has the exponential of the total variation itself, without the trapezoid rule. -/
theorem C112_partial (hR : IdealNormals P R) {keys : List Key} (hk : keys ≠ []) {δ : ℝ} (hδ : 0 < δ) (hs : δ ≤ 1 / 50) :
    Integrable (fun ω => Scripts.expLipschitz (R ω) keys δ 0) P ∧
    ∫ ω, Scripts.expLipschitz (R ω) keys δ 0 ∂P ≤ Scripts.theoreticalBound δ ∧
    ∀ k, Integrable (fun ω => Real.exp (parabolaVariation (R ω) k δ)) P ∧
      ∫ ω, Real.exp (parabolaVariation (R ω) k δ) ∂P ≤ Scripts.theoreticalBound δ := by
  have hv := fun k => variation_moment hR k hδ
  have hl := integral_list_sum_le (P := P) (fun (k : Key) ω => Real.exp (trapW 99 fun u =>
    |(parabolas 1 (R ω) k δ).1 0 + Real.sqrt 6 * (parabolas 1 (R ω) k δ).2 0 * (1 - 2 * u)|)) (fun k => (hv k).1) keys
  have hlen : (0 : ℝ) < keys.length := by exact_mod_cast List.length_pos_iff.mpr hk
  simp only [expLipschitz_eq _ keys hδ]
  refine ⟨hl.1.const_mul _, ?_, fun k => ?_⟩
  · rw [integral_const_mul, hl.2, one_div, inv_mul_le_iff₀ hlen]
    have : ∀ l : List Key, (l.map fun k => ∫ ω, Real.exp (trapW 99 fun u =>
        |(parabolas 1 (R ω) k δ).1 0 + Real.sqrt 6 * (parabolas 1 (R ω) k δ).2 0 * (1 - 2 * u)|) ∂P).sum ≤ l.length * Scripts.theoreticalBound δ := fun l => by
      induction l with
      | nil => simp
      | cons k l ih =>
        have := (hv k).2.2.2 hs
        simp only [List.map_cons, List.sum_cons, List.length_cons]
        push_cast
        linarith
    exact this keys
  · exact ⟨variation_integrable hR k hδ, (integral_mono (variation_integrable hR k hδ) (hv k).1 fun ω =>
      Real.exp_le_exp.mpr (variation_le (R ω) k hδ).2).trans ((hv k).2.2.2 hs)⟩

/-- C112 fails for long intervals: from `δ = 9` on the expectation exceeds the bound, for the trapezoid rule and for the total variation. -/
theorem C112_fails (hR : IdealNormals P R) {keys : List Key} (hk : keys ≠ []) {δ : ℝ} (hs : 9 ≤ δ) :
    Scripts.theoreticalBound δ < ∫ ω, Scripts.expLipschitz (R ω) keys δ 0 ∂P ∧
    ∀ k, Scripts.theoreticalBound δ < ∫ ω, Real.exp (parabolaVariation (R ω) k δ) ∂P := by
  have hδ : 0 < δ := by linarith
  have hv := fun k => variation_moment hR k hδ
  have hb : Scripts.theoreticalBound δ < Real.exp (δ / 2) := by
    have h1 : Real.sqrt (3 / (2 * 3.1415)) ≤ 7 / 10 := by rw [Real.sqrt_le_left (by norm_num)]; norm_num
    have h2 : Real.sqrt (2 / 3.1415) ≤ 8 / 10 := by rw [Real.sqrt_le_left (by norm_num)]; norm_num
    have h3 := Real.mul_self_sqrt hδ.le
    have h4 : 3 ≤ Real.sqrt δ := Real.le_sqrt_of_sq_le (by linarith)
    have h5 : (Real.sqrt (3 / (2 * 3.1415)) + Real.sqrt (2 / 3.1415)) * Real.sqrt δ ≤ 15 / 10 * Real.sqrt δ :=
      mul_le_mul_of_nonneg_right (by linarith) (Real.sqrt_nonneg δ)
    have h6 := Real.add_one_lt_exp (show δ / 2 ≠ 0 by positivity)
    rw [Scripts.theoreticalBound, show (0.5 : ℝ) = 1 / 2 by norm_num, ← Real.sqrt_eq_rpow]
    nlinarith
  have hle : ∀ k, Real.exp (δ / 2) ≤ ∫ ω, Real.exp (trapW 99 fun u =>
      |(parabolas 1 (R ω) k δ).1 0 + Real.sqrt 6 * (parabolas 1 (R ω) k δ).2 0 * (1 - 2 * u)|) ∂P := fun k =>
    (hv k).2.1.trans (integral_mono (hv k).2.2.1 (hv k).1 fun ω => Real.exp_le_exp.mpr ((variation_le (R ω) k hδ).1.trans (variation_le (R ω) k hδ).2))
  have hl := integral_list_sum_le (P := P) (fun (k : Key) ω => Real.exp (trapW 99 fun u =>
    |(parabolas 1 (R ω) k δ).1 0 + Real.sqrt 6 * (parabolas 1 (R ω) k δ).2 0 * (1 - 2 * u)|)) (fun k => (hv k).1) keys
  have hlen : (0 : ℝ) < keys.length := by exact_mod_cast List.length_pos_iff.mpr hk
  constructor
  · simp only [expLipschitz_eq _ keys hδ]
    rw [integral_const_mul, hl.2, one_div]
    refine hb.trans_le ?_
    rw [← mul_inv_le_iff₀' (by positivity), inv_inv, mul_comm]
    have : ∀ l : List Key, l.length * Real.exp (δ / 2) ≤ (l.map fun k => ∫ ω, Real.exp (trapW 99 fun u =>
        |(parabolas 1 (R ω) k δ).1 0 + Real.sqrt 6 * (parabolas 1 (R ω) k δ).2 0 * (1 - 2 * u)|) ∂P).sum := fun l => by
      induction l with
      | nil => simp
      | cons k l ih =>
        have := hle k
        simp only [List.map_cons, List.sum_cons, List.length_cons]
        push_cast
        linarith
    exact this keys
  · exact fun k => hb.trans_le ((hv k).2.1.trans (integral_mono (hv k).2.2.1 (variation_integrable hR k hδ) fun ω =>
      Real.exp_le_exp.mpr (variation_le (R ω) k hδ).1))

/-- An ideal generator, the keys of the script, and the largest of its intervals. -/
example : ∫ z, Scripts.expLipschitz (drawsRng z) (Key.split [] 100000) (1 / 10000) 0 ∂drawsMeasure ≤ Scripts.theoreticalBound (1 / 10000) :=
  (C112_partial idealNormals_drawsRng (by simp [Key.split]) (by norm_num) (by norm_num)).2.1

end Verif
