import Verif.Lemmas.Prior
import Verif.Lemmas.Scan
import Mathlib.MeasureTheory.Integral.IntervalIntegral.TrapezoidalRule
import Mathlib.Analysis.Calculus.IteratedDeriv.Lemmas

/-! Helper lemmas: `jnp.trapezoid` over `jnp.linspace`. -/

namespace Verif

open Matrix Jnp

/-- Trapezoids over mapped nodes as a sum over consecutive nodes. -/
theorem trapezoid_map_range {V : Type*} [AddCommGroup V] [Module ℝ V] (f : ℝ → V) (x : ℕ → ℝ) (n : ℕ) :
    trapezoid (((List.range (n + 1)).map x).map f) ((List.range (n + 1)).map x) =
      ∑ k ∈ Finset.range n, ((x (k + 1) - x k) / 2) • (f (x k) + f (x (k + 1))) := by
  induction n generalizing x with
  | zero => simp [trapezoid]
  | succ n ih =>
    have hr : List.range (n + 2) = 0 :: (List.range (n + 1)).map (· + 1) := by
      rw [List.range_succ_eq_map]
    have hr' : List.range (n + 1) = 0 :: (List.range n).map (· + 1) := by
      rw [List.range_succ_eq_map]
    have h2 := ih (fun k => x (k + 1))
    rw [Finset.sum_range_succ', ← h2, hr]
    simp only [List.map_cons, List.map_map]
    rw [hr']
    simp only [List.map_cons, List.map_map, trapezoid]
    rw [add_comm]
    rfl

theorem linspace_zero_eq (h : ℝ) (n : ℕ) :
    linspace 0 h (n + 2) = (List.range (n + 2)).map fun (k : ℕ) => (k : ℝ) * (h / ((n : ℝ) + 1)) := by
  unfold linspace
  refine List.map_congr_left fun k _ => ?_
  rw [if_neg (by omega)]
  push_cast
  have : (n : ℝ) + 2 - 1 = (n : ℝ) + 1 := by ring
  rw [this]
  ring

theorem linspace_one (h : ℝ) : linspace 0 h 1 = [0] := by simp [linspace]

/-- The trapezoid rule over `n + 2` equidistant nodes. -/
theorem trapezoid_linspace {V : Type*} [AddCommGroup V] [Module ℝ V] (f : ℝ → V) (h : ℝ) (n : ℕ) :
    trapezoid ((linspace 0 h (n + 2)).map f) (linspace 0 h (n + 2)) =
      ∑ k ∈ Finset.range (n + 1), (h / ((n : ℝ) + 1) / 2) •
        (f ((k : ℝ) * (h / ((n : ℝ) + 1))) + f (((k : ℝ) + 1) * (h / ((n : ℝ) + 1)))) := by
  rw [linspace_zero_eq, trapezoid_map_range]
  refine Finset.sum_congr rfl fun k _ => ?_
  push_cast
  congr 2
  ring

/-- The rule for real functions is Mathlib's. -/
theorem trapezoid_eq_mathlib (f : ℝ → ℝ) (h : ℝ) (n : ℕ) :
    ∑ k ∈ Finset.range (n + 1), (h / ((n : ℝ) + 1) / 2) •
        (f ((k : ℝ) * (h / ((n : ℝ) + 1))) + f (((k : ℝ) + 1) * (h / ((n : ℝ) + 1)))) =
      trapezoidal_integral f (n + 1) 0 h := by
  have h1 := sum_trapezoidal_integral_adjacent_intervals (f := f) (N := n + 1) (a := 0) (h := h / ((n : ℝ) + 1))
    (Nat.succ_pos n)
  have h2 : (0 : ℝ) + ((n + 1 : ℕ) : ℝ) * (h / ((n : ℝ) + 1)) = h := by
    push_cast
    have : (n : ℝ) + 1 ≠ 0 := by positivity
    field_simp
    ring
  rw [h2] at h1
  rw [← h1]
  refine Finset.sum_congr rfl fun k _ => ?_
  rw [trapezoidal_integral_one]
  simp only [zero_add, smul_eq_mul]
  ring

theorem iteratedDerivWithin_two_bounded {f : ℝ → ℝ} (hf : ContDiff ℝ 2 f) {h : ℝ} (h0 : (0 : ℝ) ≠ h) :
    ∃ ζ, ∀ x, |iteratedDerivWithin 2 f (Set.uIcc 0 h) x| ≤ ζ := by
  have hc := hf.contDiffOn (s := Set.uIcc 0 h)
  have hcont := hc.continuousOn_iteratedDerivWithin (m := 2) le_rfl (uniqueDiffOn_uIcc h0)
  obtain ⟨ζ, hζ⟩ := isCompact_uIcc.exists_bound_of_continuousOn hcont
  refine ⟨max ζ 0, fun x => ?_⟩
  by_cases hx : x ∈ Set.uIcc 0 h
  · exact (hζ x hx).trans (le_max_left _ _)
  · rw [iteratedDerivWithin_succ, derivWithin_zero_of_notMem_closure]
    · simp
    · rwa [IsClosed.closure_eq isCompact_uIcc.isClosed]

/-- The error of the trapezoid rule in terms of a bound of the second derivative. -/
theorem trapezoid_error_explicit {f : ℝ → ℝ} (hf : ContDiff ℝ 2 f) {h z : ℝ}
    (hz : ∀ s ∈ Set.uIcc 0 h, |iteratedDeriv 2 f s| ≤ z) (n : ℕ) :
    |∑ k ∈ Finset.range (n + 1), (h / ((n : ℝ) + 1) / 2) •
        (f ((k : ℝ) * (h / ((n : ℝ) + 1))) + f (((k : ℝ) + 1) * (h / ((n : ℝ) + 1)))) - ∫ x in (0 : ℝ)..h, f x| ≤
      |h| ^ 3 * z / (12 * ((n : ℝ) + 1) ^ 2) := by
  by_cases h0 : (0 : ℝ) = h
  · subst h0
    simp
  have hz' : ∀ x, |iteratedDerivWithin 2 f (Set.uIcc 0 h) x| ≤ z := by
    intro x
    by_cases hx : x ∈ Set.uIcc 0 h
    · rw [iteratedDerivWithin_eq_iteratedDeriv (uniqueDiffOn_uIcc h0) hf.contDiffAt hx]
      exact hz x hx
    · rw [iteratedDerivWithin_succ, derivWithin_zero_of_notMem_closure]
      · rw [abs_zero]
        exact (abs_nonneg _).trans (hz 0 Set.left_mem_uIcc)
      · have hcl : IsClosed (Set.uIcc (0 : ℝ) h) := isClosed_Icc
        rwa [hcl.closure_eq]
  have := trapezoidal_error_le_of_c2 (hf.contDiffOn (s := Set.uIcc 0 h)) hz' (Nat.succ_pos n)
  rw [trapezoid_eq_mathlib]
  rw [trapezoidal_error, sub_zero] at this
  refine this.trans (le_of_eq ?_)
  push_cast
  rfl

/-- The trapezoid rule converges quadratically for twice continuously differentiable integrands. -/
theorem trapezoid_error {f : ℝ → ℝ} (hf : ContDiff ℝ 2 f) (h : ℝ) :
    ∃ K : ℝ, ∀ n : ℕ, |∑ k ∈ Finset.range (n + 1), (h / ((n : ℝ) + 1) / 2) •
        (f ((k : ℝ) * (h / ((n : ℝ) + 1))) + f (((k : ℝ) + 1) * (h / ((n : ℝ) + 1)))) - ∫ x in (0 : ℝ)..h, f x| ≤
      K / ((n : ℝ) + 1) ^ 2 := by
  by_cases h0 : (0 : ℝ) = h
  · subst h0
    exact ⟨0, fun n => by simp⟩
  obtain ⟨ζ, hζ⟩ := iteratedDerivWithin_two_bounded hf h0
  refine ⟨|h| ^ 3 * ζ / 12, fun n => ?_⟩
  have := trapezoidal_error_le_of_c2 (hf.contDiffOn (s := Set.uIcc 0 h)) hζ (Nat.succ_pos n)
  rw [trapezoid_eq_mathlib]
  rw [trapezoidal_error, sub_zero] at this
  refine this.trans (le_of_eq ?_)
  push_cast
  field_simp

end Verif
