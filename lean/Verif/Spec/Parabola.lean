import Mathlib.Probability.Moments.Covariance
import Mathlib.Probability.Moments.Variance
import Mathlib.MeasureTheory.Integral.IntervalIntegral.Basic
import Verif.Basic

/-! Specification: a random path that looks like Brownian motion relative to its end point and its integral. -/

namespace Verif.Spec

open MeasureTheory ProbabilityTheory

/-- The covariances of the value at any time with the end point and with the integral are those of Brownian motion (`min` and its
integral), different coordinates are uncorrelated, and the variance at time `s` is at most `s`. -/
structure BrownianTo {dim : ℕ} {Ω : Type*} [MeasurableSpace Ω] (P : Measure Ω) (p : Ω → ℝ → Vec dim) (dt : ℝ) : Prop where
  incr : ∀ s, 0 ≤ s → s ≤ dt → ∀ i j, cov[fun ω => p ω s i, fun ω => p ω dt j; P] = if i = j then min s dt else 0
  area : ∀ s, 0 ≤ s → s ≤ dt → ∀ i j, cov[fun ω => p ω s i, fun ω => ∫ t in (0 : ℝ)..dt, p ω t j; P] =
    if i = j then ∫ t in (0 : ℝ)..dt, min s t else 0
  var_le : ∀ s, 0 ≤ s → s ≤ dt → ∀ i, Var[fun ω => p ω s i; P] ≤ s

end Verif.Spec
