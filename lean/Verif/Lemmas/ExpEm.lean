import Mathlib.Probability.Independence.Integration
import Verif.Lemmas.Gaussian
import Mathlib.Probability.Distributions.Gaussian.Real

/-! Helper lemmas: Euler-Maruyama for the drift `exp x` has no mean after three steps. -/

namespace Verif

open Real MeasureTheory ProbabilityTheory
open scoped NNReal

variable {Ω : Type*} [MeasurableSpace Ω] {P : Measure Ω}

/-- `y exp (h y)` has no mean for a lognormal `y`. -/
theorem not_integrable_exp_lognormal {G : Ω → ℝ} (hG : HasLaw G (gaussianReal 0 1) P) {h s : ℝ} (hh : 0 < h) (hs : 0 < s) (c : ℝ) :
    ¬ Integrable (fun ω => rexp (c + s * G ω) * rexp (h * rexp (c + s * G ω))) P := by
  intro hi
  have hμ : Integrable (fun x : ℝ => rexp (c + s * x) * rexp (h * rexp (c + s * x))) (gaussianReal 0 1) := by
    rw [← hG.map_eq] at *
    exact (integrable_map_measure (by fun_prop) hG.aemeasurable).mpr hi
  set I := ∫ x, rexp (c + s * x) * rexp (h * rexp (c + s * x)) ∂gaussianReal 0 1 with hI
  have hlow : ∀ n : ℕ, rexp ((n + 1) * c) * (h ^ n / n.factorial * rexp (((n + 1) * s) ^ 2 / 2)) ≤ I := fun n => by
    have h1 : ∀ x : ℝ, rexp ((n + 1) * c) * (h ^ n / n.factorial * rexp ((n + 1) * s * x)) ≤ rexp (c + s * x) * rexp (h * rexp (c + s * x)) := fun x => by
      have h2 := Real.pow_div_factorial_le_exp (h * rexp (c + s * x)) (by positivity) n
      have h3 : rexp ((n + 1) * c) * rexp ((n + 1) * s * x) = rexp (c + s * x) * rexp (c + s * x) ^ n := by
        rw [← Real.exp_nat_mul, ← Real.exp_add, ← Real.exp_add]; congr 1; ring
      calc rexp ((n + 1) * c) * (h ^ n / n.factorial * rexp ((n + 1) * s * x))
          = rexp ((n + 1) * c) * rexp ((n + 1) * s * x) * (h ^ n / n.factorial) := by ring
        _ = rexp (c + s * x) * ((h * rexp (c + s * x)) ^ n / n.factorial) := by rw [h3, mul_pow]; ring
        _ ≤ _ := mul_le_mul_of_nonneg_left h2 (by positivity)
    have h4 : Integrable (fun x : ℝ => rexp ((n + 1) * c) * (h ^ n / n.factorial * rexp ((n + 1) * s * x))) (gaussianReal 0 1) :=
      ((integrable_exp_mul_gaussianReal ((n + 1) * s)).const_mul _).const_mul _
    have h5 := integral_mono h4 hμ h1
    rw [integral_const_mul, integral_const_mul] at h5
    have h6 : ∫ x, rexp ((n + 1) * s * x) ∂gaussianReal 0 1 = rexp (((n + 1) * s) ^ 2 / 2) := by
      have := congrFun (mgf_id_gaussianReal (μ := 0) (v := 1)) (((n : ℝ) + 1) * s)
      simpa [mgf] using this
    rwa [h6] at h5
  -- the lower bound is at least `(e^c h e^{n s² / 2} / n)^n e^c`
  obtain ⟨n, hn⟩ := exists_nat_gt (max (max (I / rexp c) 1) (2 * 8 / (rexp c * h * s ^ 4)))
  have hn1 : I / rexp c < n := lt_of_le_of_lt ((le_max_left _ _).trans (le_max_left _ _)) hn
  have hn2 : (1 : ℝ) < n := lt_of_le_of_lt ((le_max_right _ _).trans (le_max_left _ _)) hn
  have hn3 : 2 * 8 / (rexp c * h * s ^ 4) < n := lt_of_le_of_lt (le_max_right _ _) hn
  have hn0 : (0 : ℝ) < n := by linarith
  have e1 : n * s ^ 4 / 8 * n ≤ rexp (n * s ^ 2 / 2) := by
    have := Real.quadratic_le_exp_of_nonneg (show 0 ≤ n * s ^ 2 / 2 by positivity)
    nlinarith [show 0 ≤ n * s ^ 2 / 2 by positivity]
  have e2 : 2 ≤ rexp c * h * rexp (n * s ^ 2 / 2) / n := by
    rw [le_div_iff₀ hn0]
    rw [div_lt_iff₀ (by positivity)] at hn3
    have := mul_le_mul_of_nonneg_left e1 (show 0 ≤ rexp c * h by positivity)
    nlinarith
  have e3 : (2 : ℝ) ^ n ≤ (rexp c * h * rexp (n * s ^ 2 / 2)) ^ n / n.factorial := by
    have h1 := pow_le_pow_left₀ (by norm_num) e2 n
    rw [div_pow] at h1
    refine h1.trans (div_le_div_of_nonneg_left (by positivity) (by positivity) ?_)
    exact_mod_cast Nat.factorial_le_pow n
  have e4 : (n : ℝ) < 2 ^ n := by exact_mod_cast Nat.lt_two_pow_self
  have e5 : rexp c * ((rexp c * h * rexp (n * s ^ 2 / 2)) ^ n / n.factorial) ≤ I := by
    refine le_trans ?_ (hlow n)
    rw [mul_pow, mul_pow, ← Real.exp_nat_mul, ← Real.exp_nat_mul]
    have : rexp c * (rexp (n * c) * h ^ n * rexp (n * (n * s ^ 2 / 2)) / n.factorial) =
        rexp ((n + 1) * c) * (h ^ n / n.factorial * rexp (n * (n * s ^ 2 / 2))) := by
      rw [show ((n : ℝ) + 1) * c = c + n * c by ring, Real.exp_add]; ring
    rw [this]
    refine mul_le_mul_of_nonneg_left (mul_le_mul_of_nonneg_left (Real.exp_le_exp.mpr ?_) (by positivity)) (by positivity)
    nlinarith [mul_pos hn0 (pow_pos hs 2), pow_pos hs 2]
  rw [div_lt_iff₀ (Real.exp_pos c)] at hn1
  nlinarith [Real.exp_pos c]

/-- Euler-Maruyama for the drift `exp x` and a constant diffusion: no mean from the third step on. -/
theorem not_integrable_exp_em {n : ℕ} (hn : 3 ≤ n) {G X : ℕ → Ω → ℝ} {h s x0 : ℝ} (hh : 0 < h) (hs : 0 < s)
    (hG : ∀ k < n, HasLaw (G k) (gaussianReal 0 1) P) (hi : IndepFun (G 0) (G 1) P)
    (h0 : ∀ ω, X 0 ω = x0) (hX : ∀ k < n, ∀ ω, X (k + 1) ω = X k ω + h * rexp (X k ω) + s * G k ω) :
    ¬ Integrable (X n) P := by
  intro hint
  have : IsProbabilityMeasure P := (hG 0 (by omega)).isProbabilityMeasure_iff.mpr inferInstance
  have iG : ∀ k < n, Integrable (G k) P := fun k hk => by
    have := (IsGaussian.integrable_id (μ := gaussianReal 0 1))
    rw [← (hG k hk).map_eq] at this
    exact (integrable_map_measure (by fun_prop) (hG k hk).aemeasurable).mp this
  have iE : Integrable (fun ω => rexp (s * G 0 ω)) P := by
    have := integrable_exp_mul_gaussianReal (μ := 0) (v := 1) s
    rw [← (hG 0 (by omega)).map_eq] at this
    exact (integrable_map_measure (by fun_prop) (hG 0 (by omega)).aemeasurable).mp this
  set c := x0 + h * rexp x0 with hc
  have x1 : ∀ ω, X 1 ω = c + s * G 0 ω := fun ω => by rw [hX 0 (by omega), h0]
  have x2 : ∀ ω, X 2 ω = c + s * G 0 ω + h * rexp (c + s * G 0 ω) + s * G 1 ω := fun ω => by rw [hX 1 (by omega), x1]
  have i2 : Integrable (X 2) P := by
    have : Integrable (fun ω => c + s * G 0 ω + h * (rexp c * rexp (s * G 0 ω)) + s * G 1 ω) P :=
      (((integrable_const c).add ((iG 0 (by omega)).const_mul s)).add ((iE.const_mul _).const_mul h)).add ((iG 1 (by omega)).const_mul s)
    refine this.congr (Filter.Eventually.of_forall fun ω => ?_)
    simp only [x2, Real.exp_add]
  have hup : ∀ k, 3 ≤ k → k ≤ n → ∀ ω, X 2 ω + h * rexp (X 2 ω) + ∑ i ∈ Finset.Ico 2 k, s * G i ω ≤ X k ω := by
    intro k hk
    induction k, hk using Nat.le_induction with
    | base => intro _ ω; rw [hX 2 (by omega), show Finset.Ico 2 3 = {2} from rfl, Finset.sum_singleton]
    | succ k hk ih =>
      intro hkn ω
      have := ih (by omega) ω
      rw [hX k (by omega), Finset.sum_Ico_succ_top (by omega)]
      nlinarith [Real.exp_pos (X k ω)]
  have iS : Integrable (fun ω => ∑ i ∈ Finset.Ico 2 n, s * G i ω) P :=
    integrable_finsetSum _ fun i hi => (iG i (Finset.mem_Ico.mp hi).2).const_mul s
  have iB : Integrable (fun ω => (X n ω - X 2 ω - ∑ i ∈ Finset.Ico 2 n, s * G i ω) * h⁻¹) P := ((hint.sub i2).sub iS).mul_const _
  have ie : Integrable (fun ω => rexp (X 2 ω)) P := by
    refine iB.mono' (Real.continuous_exp.comp_aestronglyMeasurable i2.aestronglyMeasurable) (Filter.Eventually.of_forall fun ω => ?_)
    rw [Real.norm_eq_abs, abs_of_pos (Real.exp_pos _), ← div_eq_mul_inv, le_div_iff₀ hh]
    linarith [hup n hn le_rfl ω]
  have hm : Measurable fun x : ℝ => rexp (c + s * x) * rexp (h * rexp (c + s * x)) := by fun_prop
  have hm' : Measurable fun x : ℝ => rexp (s * x) := by fun_prop
  have hind := hi.comp hm hm'
  refine not_integrable_exp_lognormal (hG 0 (by omega)) hh hs c ?_
  refine hind.integrable_left_of_integrable_op (fun x y => x * y) 1 one_ne_zero (fun x y => ?_) ?_
    (hm.comp_aemeasurable (hG 0 (by omega)).aemeasurable).aestronglyMeasurable
    (hm'.comp_aemeasurable (hG 1 (by omega)).aemeasurable).aestronglyMeasurable ?_
  · rw [enorm_mul]; simp
  · refine ie.congr (Filter.Eventually.of_forall fun ω => ?_)
    simp only [Function.comp_apply, x2, Real.exp_add]
  · intro hz
    have hne : ∀ ω, rexp (s * G 1 ω) ≠ 0 := fun ω => (Real.exp_pos _).ne'
    have : ∀ᵐ _ω ∂P, False := hz.mono fun ω hω => hne ω hω
    simp only [Filter.eventually_false_iff_eq_bot, ae_eq_bot] at this
    exact IsProbabilityMeasure.ne_zero P this

end Verif
