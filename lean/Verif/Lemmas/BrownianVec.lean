import Mathlib.MeasureTheory.Constructions.BorelSpace.Order
import Mathlib.MeasureTheory.Integral.IntervalIntegral.Basic
import Mathlib.Probability.Independence.InfinitePi
import Verif.Spec.BrownianVec

/-! Helper lemmas about Brownian motion in several dimensions: independence of the past and the future, random variables that
are limits of functions of the past. -/

namespace Verif

open MeasureTheory ProbabilityTheory Set Filter Spec
open scoped NNReal ENNReal Topology

variable {Ω : Type*} [MeasurableSpace Ω] {P : Measure Ω} {m : ℕ} {B : Fin m → ℝ≥0 → Ω → ℝ}

/-- Left Riemann sums converge. -/
theorem tendsto_riemann {g : ℝ → ℝ} (hg : Continuous g) {δ : ℝ} (hδ : 0 < δ) :
    Tendsto (fun n : ℕ => δ / (n + 1 : ℕ) * ∑ i ∈ Finset.range (n + 1), g (i * (δ / (n + 1 : ℕ)))) atTop
      (𝓝 (∫ t in (0 : ℝ)..δ, g t)) := by
  rw [Metric.tendsto_atTop]
  intro ε hε
  have huc := isCompact_Icc.uniformContinuousOn_of_continuous (s := Icc 0 δ) hg.continuousOn
  rw [Metric.uniformContinuousOn_iff] at huc
  obtain ⟨η, hη, hu⟩ := huc (ε / (2 * δ)) (by positivity)
  obtain ⟨n0, hn0⟩ := exists_nat_gt (δ / η)
  refine ⟨n0, fun n hn => ?_⟩
  have hn' : (0 : ℝ) < (n + 1 : ℕ) := by positivity
  obtain ⟨h, hh⟩ : ∃ h, h = δ / (n + 1 : ℕ) := ⟨_, rfl⟩
  rw [← hh]
  have hh0 : 0 < h := by rw [hh]; positivity
  have hhη : h < η := by
    rw [hh, div_lt_iff₀ hn']
    rw [div_lt_iff₀ hη] at hn0
    have : (n0 : ℝ) ≤ (n + 1 : ℕ) := by exact_mod_cast (by omega : n0 ≤ n + 1)
    nlinarith
  have hnh : ((n + 1 : ℕ) : ℝ) * h = δ := by rw [hh]; field_simp
  have hsplit : ∫ t in (0 : ℝ)..δ, g t = ∑ i ∈ Finset.range (n + 1), ∫ t in (i * h)..((i + 1 : ℕ) * h), g t := by
    rw [intervalIntegral.sum_integral_adjacent_intervals (a := fun i : ℕ => (i : ℝ) * h) fun i _ => hg.intervalIntegrable _ _]
    simp only [Nat.cast_zero, zero_mul]
    rw [hnh]
  rw [hsplit, Finset.mul_sum, Real.dist_eq, ← Finset.sum_sub_distrib]
  have hterm : ∀ i ∈ Finset.range (n + 1), |h * g (i * h) - ∫ t in (i * h)..((i + 1 : ℕ) * h), g t| ≤ ε / (2 * δ) * h := by
    intro i hi
    have hi' : ((i + 1 : ℕ) : ℝ) ≤ (n + 1 : ℕ) := by exact_mod_cast Finset.mem_range.mp hi
    have hlen : ((i + 1 : ℕ) : ℝ) * h - i * h = h := by push_cast; ring
    have hle : (i : ℝ) * h ≤ (i + 1 : ℕ) * h := by linarith
    have e : h * g (i * h) = ∫ _ in (i * h)..((i + 1 : ℕ) * h), g (i * h) := by
      rw [intervalIntegral.integral_const, hlen, smul_eq_mul]
    rw [e, ← intervalIntegral.integral_sub (by simp) (hg.intervalIntegrable _ _)]
    have := intervalIntegral.norm_integral_le_of_norm_le_const (a := i * h) (b := (i + 1 : ℕ) * h) (C := ε / (2 * δ))
      (f := fun t => g (i * h) - g t) fun t ht => by
        rw [uIoc_of_le hle] at ht
        have h1 : ((i + 1 : ℕ) : ℝ) * h ≤ δ := by rw [← hnh]; exact mul_le_mul_of_nonneg_right hi' hh0.le
        have h0 : (0 : ℝ) ≤ i * h := by positivity
        refine (hu _ ⟨h0, by linarith⟩ _ ⟨by linarith [ht.1], by linarith [ht.2]⟩ ?_).le
        rw [Real.dist_eq, abs_sub_lt_iff]
        constructor <;> linarith [ht.1, ht.2]
    rwa [hlen, abs_of_pos hh0, Real.norm_eq_abs] at this
  refine (Finset.abs_sum_le_sum_abs _ _).trans_lt ((Finset.sum_le_sum hterm).trans_lt ?_)
  rw [Finset.sum_const, Finset.card_range, nsmul_eq_mul]
  have : ((n + 1 : ℕ) : ℝ) * (ε / (2 * δ) * h) = ε / 2 := by
    rw [show ((n + 1 : ℕ) : ℝ) * (ε / (2 * δ) * h) = ε / (2 * δ) * ((n + 1 : ℕ) * h) by ring, hnh]
    field_simp
  rw [this]
  linarith

/-- An almost sure limit of functions that are measurable for `F` has a version that is measurable for `F`. -/
theorem exists_measurable_version {F : MeasurableSpace Ω} {U : ℕ → Ω → ℝ} {V : Ω → ℝ} (hU : ∀ n, Measurable[F] (U n))
    (h : ∀ᵐ ω ∂P, Tendsto (fun n => U n ω) atTop (𝓝 (V ω))) : ∃ V', Measurable[F] V' ∧ V =ᵐ[P] V' := by
  refine ⟨fun ω => limsup (fun n => U n ω) atTop, by
    letI := F
    exact Measurable.limsup hU, ?_⟩
  filter_upwards [h] with ω hω
  exact hω.limsup_eq.symm

/-- What has happened up to the time `a`. -/
def pastOf (B : Fin m → ℝ≥0 → Ω → ℝ) (a : ℝ≥0) (ω : Ω) (j : Fin m) (t : ℝ≥0) : ℝ := B j (min t a) ω

/-- The increments from the time `a` on. -/
def futureOf (B : Fin m → ℝ≥0 → Ω → ℝ) (a : ℝ≥0) (ω : Ω) (j : Fin m) (t : ℝ≥0) : ℝ := B j (a + t) ω - B j a ω

theorem Spec.IsBrownianVec.isProb (hB : IsBrownianVec B P) : IsProbabilityMeasure P := hB.indep.isProbabilityMeasure

theorem Spec.IsBrownianVec.indep_past_future (hB : IsBrownianVec B P) (a : ℝ≥0) :
    IndepFun (pastOf B a) (futureOf B a) P := by
  have hP := hB.isProb
  obtain ⟨X, hX⟩ : ∃ X : Fin m → Bool → Ω → ℝ≥0 → ℝ, ∀ j ω, X j true ω = (fun t => B j (min t a) ω) ∧
      X j false ω = fun t => B j (a + t) ω - B j a ω :=
    ⟨fun j s ω => if s then (fun t => B j (min t a) ω) else fun t => B j (a + t) ω - B j a ω, fun j ω => ⟨rfl, rfl⟩⟩
  have hm := hB.meas
  have ht : ∀ j, X j true = fun ω t => B j (min t a) ω := fun j => funext fun ω => (hX j ω).1
  have hf : ∀ j, X j false = fun ω t => B j (a + t) ω - B j a ω := fun j => funext fun ω => (hX j ω).2
  have mX : ∀ j s, Measurable (X j s) := by
    intro j s
    cases s
    · rw [hf]; exact measurable_pi_lambda _ fun t => (hm j _).sub (hm j _)
    · rw [ht]; exact measurable_pi_lambda _ fun t => hm j _
  have h1 : iIndepFun (fun j ω => (X j · ω)) P := by
    have := hB.indep.comp (fun j (p : ℝ≥0 → ℝ) (s : Bool) => if s then (fun t => p (min t a)) else fun t => p (a + t) - p a)
      (fun j => measurable_pi_lambda _ fun s => by
        cases s
        · simp only [Bool.false_eq_true, if_false]
          exact measurable_pi_lambda _ fun t => (measurable_pi_apply _).sub (measurable_pi_apply _)
        · simp only [if_true]
          exact measurable_pi_lambda _ fun t => measurable_pi_apply _)
    convert this using 3 with j ω
    funext s
    cases s
    · simp [hf]
    · simp [ht]
  have h2 : ∀ j, iIndepFun (X j) P := by
    intro j
    have hi : IndepFun (X j true) (X j false) P := by
      have := (hB.brownian j).indepFun_shift a
      rw [hf, ht]
      exact this.symm.comp (φ := fun (p : Iic a → ℝ) (t : ℝ≥0) => p ⟨min t a, Set.mem_Iic.mpr (min_le_right t a)⟩) (ψ := id)
        (measurable_pi_lambda _ fun t => measurable_pi_apply (X := fun _ : Iic a => ℝ) ⟨min t a, Set.mem_Iic.mpr (min_le_right t a)⟩)
        measurable_id
    rw [iIndepFun_iff_measure_inter_preimage_eq_mul]
    intro S sets hs
    have hi' := fun s s' (h : MeasurableSet s) (h' : MeasurableSet s') => hi.measure_inter_preimage_eq_mul s s' h h'
    have hS : S = ∅ ∨ S = {true} ∨ S = {false} ∨ S = {true, false} := by
      clear hs
      revert S; decide
    rcases hS with rfl | rfl | rfl | rfl
    · simp
    · simp
    · simp
    · simp only [Finset.mem_insert, Finset.mem_singleton, iInter_iInter_eq_or_left, iInter_iInter_eq_left]
      rw [hi' _ _ (hs true (by simp)) (hs false (by simp)), Finset.prod_pair (by simp)]
  have h3 := iIndepFun_uncurry' mX h1 h2
  have h4 := h3.indepFun_finset (Finset.univ.filter fun p => p.2 = true) (Finset.univ.filter fun p => p.2 = false)
    (by rw [Finset.disjoint_left]; intro p; simp) fun p => mX p.1 p.2
  have := h4.comp (φ := fun v (j : Fin m) => v ⟨(j, true), by simp⟩) (ψ := fun v (j : Fin m) => v ⟨(j, false), by simp⟩)
    (measurable_pi_lambda _ fun j => measurable_pi_apply _) (measurable_pi_lambda _ fun j => measurable_pi_apply _)
  convert this using 1
  · funext ω j
    simp only [Function.comp_apply, ht]
    rfl
  · funext ω j
    simp only [Function.comp_apply, hf]
    rfl

end Verif
