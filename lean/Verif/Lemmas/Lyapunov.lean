import Verif.Lemmas.Prior
import Verif.Lemmas.Transition
import Verif.Spec.Lyapunov
import Mathlib.MeasureTheory.Integral.IntervalIntegral.FundThmCalculus
import Mathlib.Analysis.Calculus.IteratedDeriv.Defs

/-! Helper lemmas: the variance equation of a linear SDE. -/

namespace Verif

open Matrix Spec

variable {n l : ℕ}

theorem hasDerivAt_mul_entry {a b c : ℕ} {A A' : ℝ → Mat a b} {B B' : ℝ → Mat b c} {t : ℝ}
    (hA : ∀ i j, HasDerivAt (fun s => A s i j) (A' t i j) t) (hB : ∀ i j, HasDerivAt (fun s => B s i j) (B' t i j) t)
    (i : Fin a) (j : Fin c) : HasDerivAt (fun s => (A s * B s) i j) ((A' t * B t + A t * B' t) i j) t := by
  simp only [mul_apply, Matrix.add_apply, ← Finset.sum_add_distrib]
  exact HasDerivAt.fun_sum fun k _ => (hA i k).mul (hB k j)

/-- The integrand of the transition covariance. -/
noncomputable def covRate (F : Mat n n) (L : Mat n l) (s : ℝ) : Mat n n := expm (s • F) * L * (expm (s • F) * L)ᵀ

theorem covRate_zero (F : Mat n n) (L : Mat n l) : covRate F L 0 = L * Lᵀ := by
  rw [covRate, expm_zero_smul, Matrix.one_mul]

theorem covRate_hasDerivAt (F : Mat n n) (L : Mat n l) (t : ℝ) (i j : Fin n) :
    HasDerivAt (fun s => covRate F L s i j) ((F * covRate F L t + covRate F L t * Fᵀ) i j) t := by
  have hB : ∀ i k, HasDerivAt (fun s => (expm (s • F) * L) i k) ((F * (expm (t • F) * L)) i k) t := by
    intro i k
    have := hasDerivAt_mul_entry (A := fun s => expm (s • F)) (A' := fun s => F * expm (s • F)) (B := fun _ => L)
      (B' := fun _ => 0) (t := t) (expm_hasDerivAt F t) (fun i j => hasDerivAt_const t _) i k
    simpa [Matrix.mul_assoc] using this
  have := hasDerivAt_mul_entry (A := fun s => expm (s • F) * L) (A' := fun s => F * (expm (s • F) * L))
    (B := fun s => (expm (s • F) * L)ᵀ) (B' := fun s => (F * (expm (s • F) * L))ᵀ) (t := t) hB (fun i j => hB j i) i j
  have e : F * (expm (t • F) * L) * (expm (t • F) * L)ᵀ + expm (t • F) * L * (F * (expm (t • F) * L))ᵀ =
      F * covRate F L t + covRate F L t * Fᵀ := by
    rw [covRate, transpose_mul F]
    simp only [Matrix.mul_assoc]
  rw [← e]
  exact this

theorem transitionCov_hasDerivAt (F : Mat n n) (L : Mat n l) (t : ℝ) (i j : Fin n) :
    HasDerivAt (fun s => transitionCov F L s i j) (covRate F L t i j) t :=
  intervalIntegral.integral_hasDerivAt_right
    ((transitionCov_integrand_continuous F L i j).intervalIntegrable _ _)
    ((transitionCov_integrand_continuous F L i j).stronglyMeasurableAtFilter _ _)
    (transitionCov_integrand_continuous F L i j).continuousAt

theorem covRate_eq (F : Mat n n) (L : Mat n l) (t : ℝ) :
    covRate F L t = F * transitionCov F L t + transitionCov F L t * Fᵀ + L * Lᵀ := by
  ext i j
  have hd : ∀ s, HasDerivAt (fun s => (covRate F L s - (F * transitionCov F L s + transitionCov F L s * Fᵀ)) i j) 0 s := by
    intro s
    have h1 := hasDerivAt_mul_entry (A := fun _ => F) (A' := fun _ => 0) (B := fun s => transitionCov F L s)
      (B' := fun s => covRate F L s) (t := s) (fun i j => hasDerivAt_const s _) (transitionCov_hasDerivAt F L s) i j
    have h2 := hasDerivAt_mul_entry (B := fun _ => Fᵀ) (B' := fun _ => 0) (A := fun s => transitionCov F L s)
      (A' := fun s => covRate F L s) (t := s) (transitionCov_hasDerivAt F L s) (fun i j => hasDerivAt_const s _) i j
    have h3 := (covRate_hasDerivAt F L s i j).sub (h1.add h2)
    have e : (F * covRate F L s + covRate F L s * Fᵀ) i j - ((0 * transitionCov F L s + F * covRate F L s) i j +
        (covRate F L s * Fᵀ + transitionCov F L s * 0) i j) = 0 := by
      simp [Matrix.add_apply]
    rw [e] at h3
    exact h3
  have hc := is_const_of_deriv_eq_zero (fun s => (hd s).differentiableAt) (fun s => (hd s).deriv) t 0
  simp only [covRate_zero, transitionCov_zero, Matrix.mul_zero, Matrix.zero_mul, add_zero, sub_zero, Matrix.sub_apply,
    Matrix.add_apply, Matrix.zero_apply] at hc ⊢
  linarith

/-- The transition covariance solves the variance equation. -/
theorem transitionCov_solves (F : Mat n n) (L : Mat n l) : SolvesVarianceODE F L (transitionCov F L) := by
  refine ⟨transitionCov_zero F L, fun t i j => ?_⟩
  rw [← covRate_eq]
  exact transitionCov_hasDerivAt F L t i j

/-- It is the only solution. -/
theorem varianceODE_unique {F : Mat n n} {L : Mat n l} {V : ℝ → Mat n n} (hV : SolvesVarianceODE F L V) (t : ℝ) :
    V t = transitionCov F L t := by
  obtain ⟨hV0, hVd⟩ := hV
  set W : ℝ → Mat n n := fun s => V s - transitionCov F L s with hW
  have hWd : ∀ s i j, HasDerivAt (fun s => W s i j) ((F * W s + W s * Fᵀ) i j) s := by
    intro s i j
    have := (hVd s i j).sub ((transitionCov_solves F L).2 s i j)
    have e : (F * V s + V s * Fᵀ + L * Lᵀ) i j - (F * transitionCov F L s + transitionCov F L s * Fᵀ + L * Lᵀ) i j =
        (F * W s + W s * Fᵀ) i j := by
      simp only [hW, Matrix.mul_sub, Matrix.sub_mul, Matrix.add_apply, Matrix.sub_apply]
      ring
    rw [e] at this
    exact this
  have hE : ∀ s i k, HasDerivAt (fun s : ℝ => expm (-s • F) i k) ((-(expm (-s • F) * F)) i k) s := by
    intro s i k
    have := (expm_hasDerivAt' F (-s) i k).comp s (hasDerivAt_neg s)
    simpa [Function.comp_def] using this
  have hconst : ∀ t, expm (-t • F) * W t * (expm (-t • F))ᵀ = 0 := by
    intro t
    ext i j
    have hd : ∀ s, HasDerivAt (fun s => (expm (-s • F) * W s * (expm (-s • F))ᵀ) i j) 0 s := by
      intro s
      have h1 := hasDerivAt_mul_entry (A := fun s => expm (-s • F)) (A' := fun s => -(expm (-s • F) * F)) (B := W)
        (B' := fun s => F * W s + W s * Fᵀ) (t := s) (hE s) (hWd s)
      have h2 := hasDerivAt_mul_entry (A := fun s => expm (-s • F) * W s)
        (A' := fun s => -(expm (-s • F) * F) * W s + expm (-s • F) * (F * W s + W s * Fᵀ))
        (B := fun s => (expm (-s • F))ᵀ) (B' := fun s => (-(expm (-s • F) * F))ᵀ) (t := s) h1 (fun i j => hE s j i) i j
      have e : (-(expm (-s • F) * F) * W s + expm (-s • F) * (F * W s + W s * Fᵀ)) * (expm (-s • F))ᵀ +
          expm (-s • F) * W s * (-(expm (-s • F) * F))ᵀ = 0 := by
        rw [transpose_neg, transpose_mul]
        simp only [Matrix.mul_add, Matrix.add_mul, Matrix.neg_mul, Matrix.mul_neg, ← Matrix.mul_assoc]
        abel
      rw [e] at h2
      exact h2
    have hc := is_const_of_deriv_eq_zero (fun s => (hd s).differentiableAt) (fun s => (hd s).deriv) t 0
    have h0 : W 0 = 0 := by simp [hW, hV0, transitionCov_zero]
    rw [hc, h0]
    simp
  have h1 : W t = 0 := by
    have h2 := congrArg (fun M => expm (t • F) * M * (expm (t • F))ᵀ) (hconst t)
    have h3 : expm (t • F) * expm (-t • F) = 1 := by
      have := expm_neg_mul F (-t)
      rwa [neg_neg] at this
    have h4 : (expm (-t • F))ᵀ * (expm (t • F))ᵀ = 1 := by rw [← transpose_mul, h3, transpose_one]
    simp only [Matrix.mul_zero, Matrix.zero_mul] at h2
    rw [← h2, Matrix.mul_assoc, Matrix.mul_assoc, h4, Matrix.mul_one, ← Matrix.mul_assoc, h3, Matrix.one_mul]
  exact sub_eq_zero.mp h1

/-! ## Derivatives of the transition covariance -/

theorem covRate_hasDerivAt_two (F : Mat n n) (L : Mat n l) (t : ℝ) (i j : Fin n) :
    HasDerivAt (fun s => (F * covRate F L s + covRate F L s * Fᵀ) i j)
      ((F * (F * covRate F L t + covRate F L t * Fᵀ) + (F * covRate F L t + covRate F L t * Fᵀ) * Fᵀ) i j) t := by
  have h1 := hasDerivAt_mul_entry (A := fun _ => F) (A' := fun _ => 0) (B := fun s => covRate F L s)
    (B' := fun s => F * covRate F L s + covRate F L s * Fᵀ) (t := t) (fun i j => hasDerivAt_const t _)
    (covRate_hasDerivAt F L t) i j
  have h2 := hasDerivAt_mul_entry (B := fun _ => Fᵀ) (B' := fun _ => 0) (A := fun s => covRate F L s)
    (A' := fun s => F * covRate F L s + covRate F L s * Fᵀ) (t := t) (covRate_hasDerivAt F L t)
    (fun i j => hasDerivAt_const t _) i j
  have h3 := h1.add h2
  simp only [Matrix.zero_mul, zero_add, Matrix.mul_zero, add_zero] at h3
  exact h3

theorem deriv_transitionCov (F : Mat n n) (L : Mat n l) (i j : Fin n) :
    deriv (fun s => transitionCov F L s i j) = fun s => covRate F L s i j :=
  funext fun s => (transitionCov_hasDerivAt F L s i j).deriv

theorem deriv_covRate (F : Mat n n) (L : Mat n l) (i j : Fin n) :
    deriv (fun s => covRate F L s i j) = fun s => (F * covRate F L s + covRate F L s * Fᵀ) i j :=
  funext fun s => (covRate_hasDerivAt F L s i j).deriv

theorem deriv_deriv_covRate (F : Mat n n) (L : Mat n l) (i j : Fin n) :
    deriv (deriv (fun s => covRate F L s i j)) = fun s =>
      (F * (F * covRate F L s + covRate F L s * Fᵀ) + (F * covRate F L s + covRate F L s * Fᵀ) * Fᵀ) i j := by
  rw [deriv_covRate]
  exact funext fun s => (covRate_hasDerivAt_two F L s i j).deriv

/-- The first derivatives at zero of the transition covariance. -/
theorem iteratedDeriv_transitionCov_zero (F : Mat n n) (L : Mat n l) (i j : Fin n) :
    iteratedDeriv 0 (fun s => transitionCov F L s i j) 0 = 0 ∧
    iteratedDeriv 1 (fun s => transitionCov F L s i j) 0 = (L * Lᵀ) i j ∧
    iteratedDeriv 2 (fun s => transitionCov F L s i j) 0 = (F * (L * Lᵀ) + L * Lᵀ * Fᵀ) i j ∧
    iteratedDeriv 3 (fun s => transitionCov F L s i j) 0 =
      (F * (F * (L * Lᵀ) + L * Lᵀ * Fᵀ) + (F * (L * Lᵀ) + L * Lᵀ * Fᵀ) * Fᵀ) i j := by
  refine ⟨?_, ?_, ?_, ?_⟩
  · simp [iteratedDeriv_zero, transitionCov_zero]
  · rw [iteratedDeriv_one, deriv_transitionCov]
    show covRate F L 0 i j = _
    rw [covRate_zero]
  · rw [iteratedDeriv_succ', deriv_transitionCov, iteratedDeriv_one, deriv_covRate]
    show (F * covRate F L 0 + covRate F L 0 * Fᵀ) i j = _
    rw [covRate_zero]
  · rw [iteratedDeriv_succ', deriv_transitionCov, iteratedDeriv_succ', iteratedDeriv_one, deriv_deriv_covRate]
    show (F * (F * covRate F L 0 + covRate F L 0 * Fᵀ) + (F * covRate F L 0 + covRate F L 0 * Fᵀ) * Fᵀ) i j = _
    rw [covRate_zero]

theorem covRate_contDiff (F : Mat n n) (L : Mat n l) (i j : Fin n) : ContDiff ℝ 2 fun s => covRate F L s i j := by
  have hB : ∀ i k, ContDiff ℝ 2 fun s : ℝ => (expm (s • F) * L) i k := fun i k => by
    simp only [mul_apply]
    exact ContDiff.sum fun a _ => (expm_contDiff F i a).mul contDiff_const
  simp only [covRate, mul_apply (N := (_ : Matrix (Fin n) (Fin l) ℝ)ᵀ), transpose_apply]
  exact ContDiff.sum fun k _ => (hB i k).mul (hB j k)

/-- Error of the covariance computed by `computeTransition`, in terms of the third derivative of the exact covariance. -/
theorem computeTransition_error (F : Mat n n) (u : Vec n) (L : Mat n l) (h : ℝ) (i j : Fin n) {z : ℝ}
    (hz : ∀ s ∈ Set.uIcc 0 h, |iteratedDeriv 3 (fun s => transitionCov F L s i j) s| ≤ z) (m : ℕ) :
    |(computeTransition F u L h (m + 2)).Q i j - transitionCov F L h i j| ≤ |h| ^ 3 * z / (12 * ((m : ℝ) + 1) ^ 2) := by
  have h1 := trapezoid_error_explicit (covRate_contDiff F L i j) (h := h) (z := z) (fun s hs => by
    have := hz s hs
    rwa [iteratedDeriv_succ', deriv_transitionCov] at this) m
  refine (le_of_eq ?_).trans h1
  congr 2
  rw [computeTransition_Q_eq, Matrix.sum_apply]
  refine Finset.sum_congr rfl fun k _ => ?_
  simp only [covRate, Matrix.smul_apply, Matrix.add_apply, transpose_mul, Matrix.mul_assoc]

/-- The first derivatives at zero of a cubic polynomial without constant term. -/
theorem iteratedDeriv_cubic_zero (a b c : ℝ) :
    iteratedDeriv 0 (fun s : ℝ => a * s + b * s ^ 2 + c * s ^ 3) 0 = 0 ∧
    iteratedDeriv 1 (fun s : ℝ => a * s + b * s ^ 2 + c * s ^ 3) 0 = a ∧
    iteratedDeriv 2 (fun s : ℝ => a * s + b * s ^ 2 + c * s ^ 3) 0 = 2 * b ∧
    iteratedDeriv 3 (fun s : ℝ => a * s + b * s ^ 2 + c * s ^ 3) 0 = 6 * c := by
  have d1 : deriv (fun s : ℝ => a * s + b * s ^ 2 + c * s ^ 3) = fun s => a + 2 * b * s + 3 * c * s ^ 2 := by
    funext s
    have := (((hasDerivAt_id s).const_mul a).add ((hasDerivAt_pow 2 s).const_mul b)).add ((hasDerivAt_pow 3 s).const_mul c)
    refine (HasDerivAt.deriv this).trans ?_
    norm_num
    ring
  have d2 : deriv (fun s : ℝ => a + 2 * b * s + 3 * c * s ^ 2) = fun s => 2 * b + 6 * c * s := by
    funext s
    have := (((hasDerivAt_id s).const_mul (2 * b)).const_add a).add ((hasDerivAt_pow 2 s).const_mul (3 * c))
    refine (HasDerivAt.deriv this).trans ?_
    norm_num
    ring
  have d3 : deriv (fun s : ℝ => 2 * b + 6 * c * s) = fun _ => 6 * c := by
    funext s
    have := ((hasDerivAt_id s).const_mul (6 * c)).const_add (2 * b)
    refine (HasDerivAt.deriv this).trans ?_
    norm_num
  refine ⟨?_, ?_, ?_, ?_⟩
  · simp
  · rw [iteratedDeriv_one, d1]; simp
  · rw [iteratedDeriv_succ', d1, iteratedDeriv_one, d2]; simp
  · rw [iteratedDeriv_succ', d1, iteratedDeriv_succ', d2, iteratedDeriv_one, d3]

end Verif
