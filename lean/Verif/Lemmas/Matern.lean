import Verif.Lemmas.Prior
import Mathlib.LinearAlgebra.Matrix.Determinant.Basic
import Mathlib.Analysis.Calculus.Deriv.Polynomial
import Mathlib.Analysis.Calculus.Deriv.Mul

/-! Helper lemmas: Liouville's formula and the Matérn transition. -/

namespace Verif

open Matrix Spec Jnp

/-- Liouville's formula: the determinant of the exponential is the exponential of the trace. -/
theorem det_expm {n : ℕ} (F : Mat n n) (t : ℝ) : (expm (t • F)).det = Real.exp (t * F.trace) := by
  have h0 : HasDerivAt (fun s : ℝ => (expm (s • F)).det) F.trace 0 := by
    have hd : HasDerivAt (fun s : ℝ => ∑ σ : Equiv.Perm (Fin n), (σ.sign : ℝ) * ∏ i, expm (s • F) (σ i) i)
        (∑ σ : Equiv.Perm (Fin n), (σ.sign : ℝ) * ∑ i, (∏ j ∈ Finset.univ.erase i, expm ((0 : ℝ) • F) (σ j) j) •
          (F * expm ((0 : ℝ) • F)) (σ i) i) 0 := by
      refine HasDerivAt.fun_sum fun σ _ => HasDerivAt.const_mul _ ?_
      exact HasDerivAt.fun_finsetProd fun i _ => expm_hasDerivAt F 0 (σ i) i
    have he : ∑ σ : Equiv.Perm (Fin n), ((σ.sign : ℤ) : ℝ) * ∑ i, (∏ j ∈ Finset.univ.erase i, expm ((0 : ℝ) • F) (σ j) j) •
          (F * expm ((0 : ℝ) • F)) (σ i) i = F.trace := by
      rw [expm_zero_smul, Matrix.mul_one, Finset.sum_eq_single 1]
      · rw [Equiv.Perm.sign_one]
        simp only [Units.val_one, Int.cast_one, one_mul, trace, diag_apply]
        refine Finset.sum_congr rfl fun i _ => ?_
        have : (∏ j ∈ Finset.univ.erase i, (1 : Mat n n) ((1 : Equiv.Perm (Fin n)) j) j) = 1 :=
          Finset.prod_eq_one fun j _ => Matrix.one_apply_eq j
        rw [this, one_smul]
        rfl
      · intro σ _ hσ
        have : ∀ i, (∏ j ∈ Finset.univ.erase i, (1 : Mat n n) (σ j) j) = 0 := by
          intro i
          obtain ⟨j, hji, hj⟩ : ∃ j, j ≠ i ∧ σ j ≠ j := by
            by_contra hcon
            push Not at hcon
            refine hσ (Equiv.ext fun j => ?_)
            by_cases hji : j = i
            · subst hji
              by_contra hne
              have h1 := hcon (σ j) hne
              exact hne (σ.injective h1)
            · exact hcon j hji
          exact Finset.prod_eq_zero (Finset.mem_erase.2 ⟨hji, Finset.mem_univ j⟩) (Matrix.one_apply_ne hj)
        simp [this]
      · simp
    rw [he] at hd
    refine hd.congr_of_eventuallyEq (Filter.Eventually.of_forall fun s => ?_)
    simp only [det_apply']
  have hd : ∀ t : ℝ, HasDerivAt (fun s : ℝ => (expm (s • F)).det) ((expm (t • F)).det * F.trace) t := by
    intro t
    have h1 : HasDerivAt (fun s : ℝ => (expm (t • F)).det * (expm ((s - t) • F)).det) ((expm (t • F)).det * F.trace) t := by
      have h0' : HasDerivAt (fun s : ℝ => (expm (s • F)).det) F.trace (t - t) := by rwa [sub_self]
      exact (HasDerivAt.comp_sub_const (x := t) (a := t) h0').const_mul _
    refine h1.congr_of_eventuallyEq (Filter.Eventually.of_forall fun s => ?_)
    simp only
    rw [← det_mul, ← expm_add]
    congr 2
    ring_nf
  have hc : ∀ t : ℝ, HasDerivAt (fun s : ℝ => (expm (s • F)).det * Real.exp (-s * F.trace)) 0 t := by
    intro t
    have h2 : HasDerivAt (fun s : ℝ => Real.exp (-s * F.trace)) (Real.exp (-t * F.trace) * (-F.trace)) t := by
      have := ((hasDerivAt_id t).neg.mul_const F.trace).exp
      simpa using this
    refine ((hd t).mul h2).congr_deriv ?_
    ring
  have := is_const_of_deriv_eq_zero (fun s => (hc s).differentiableAt) (fun s => (hc s).deriv) t 0
  simp only [expm_zero_smul, det_one, neg_zero, zero_mul, Real.exp_zero, mul_one] at this
  rw [← mul_one (expm (t • F)).det, ← Real.exp_zero, show (0 : ℝ) = -t * F.trace + t * F.trace by ring, Real.exp_add,
    ← mul_assoc, this, one_mul]

/-! ## Matérn-3/2 -/

theorem maternDrift_one (l : ℝ) : maternDrift 1 l = !![0, 1; -l ^ 2, -2 * l] := by
  ext i j
  fin_cases i <;> fin_cases j <;> simp [maternDrift, Fin.ext_iff, Polynomial.coeff_X_add_C_pow] <;> ring

theorem hasDerivAt_exp_mul (c t : ℝ) : HasDerivAt (fun s : ℝ => Real.exp (c * s)) (Real.exp (c * t) * c) t := by
  have := (hasDerivAt_id t).const_mul c
  simpa using this.exp

theorem expm_matern_one (l t : ℝ) : expm (t • maternDrift 1 l) = Matern.A32 l t := by
  refine (expm_unique _ (Matern.A32 l) ?_ ?_ t).symm
  · ext i j
    fin_cases i <;> fin_cases j <;> simp [Matern.A32]
  · intro t i j
    rw [maternDrift_one]
    have he : ∀ s, Real.exp (-s * l) = Real.exp (-l * s) := fun s => by ring_nf
    have hE := hasDerivAt_exp_mul (-l) t
    have hid := hasDerivAt_id t
    fin_cases i <;> fin_cases j
    · refine (HasDerivAt.congr_deriv (f := fun s => Matern.A32 l s 0 0)
        (f' := Real.exp (-l * t) * -l * (1 + t * l) + Real.exp (-l * t) * (1 * l)) ?_ ?_)
      · simp only [Matern.A32, of_apply, cons_val', cons_val_zero, he]
        exact hE.mul ((hid.mul_const l).const_add 1)
      · simp [Matern.A32, Matrix.mul_apply, Fin.sum_univ_two, he]; ring
    · refine (HasDerivAt.congr_deriv (f := fun s => Matern.A32 l s 0 1)
        (f' := Real.exp (-l * t) * -l * t + Real.exp (-l * t) * 1) ?_ ?_)
      · simp only [Matern.A32, of_apply, cons_val', cons_val_zero, cons_val_one, he]
        exact hE.mul hid
      · simp [Matern.A32, Matrix.mul_apply, Fin.sum_univ_two, he]; ring
    · refine (HasDerivAt.congr_deriv (f := fun s => Matern.A32 l s 1 0)
        (f' := ((-(Real.exp (-l * t) * -l)) * t + -Real.exp (-l * t) * 1) * l ^ 2) ?_ ?_)
      · simp only [Matern.A32, of_apply, cons_val', cons_val_zero, cons_val_one, he]
        exact (hE.neg.mul hid).mul_const _
      · simp [Matern.A32, Matrix.mul_apply, Fin.sum_univ_two, he]; ring
    · refine (HasDerivAt.congr_deriv (f := fun s => Matern.A32 l s 1 1)
        (f' := Real.exp (-l * t) * -l * (1 - l * t) + Real.exp (-l * t) * (-(l * 1))) ?_ ?_)
      · simp only [Matern.A32, of_apply, cons_val', cons_val_zero, cons_val_one, he]
        exact hE.mul ((hid.const_mul l).const_sub 1)
      · simp [Matern.A32, Matrix.mul_apply, Fin.sum_univ_two, he]; ring

theorem transitionCov_matern_one (η : ℝ) {l : ℝ} (hl : l ≠ 0) (t : ℝ) :
    transitionCov (maternDrift 1 l) (lastNoise η 1) t = Matern.Q32 η l t := by
  have hint : ∀ (s : ℝ) (i j : Fin 2), (NormedSpace.exp (s • maternDrift 1 l) * lastNoise η 1 *
      (NormedSpace.exp (s • maternDrift 1 l) * lastNoise η 1)ᵀ) i j =
      η ^ 2 * (Matern.A32 l s i 1 * Matern.A32 l s j 1) := by
    intro s i j
    have h0 := expm_matern_one l s
    simp only [expm] at h0
    rw [h0]
    exact lastNoise_product (q := 1) η _ i j
  have hA : ∀ i j, Continuous fun s => Matern.A32 l s i j := by
    intro i j
    have := expm_continuous (maternDrift 1 l) i j
    simpa only [expm_matern_one] using this
  have key : ∀ (i j : Fin 2) (g : ℝ → ℝ), g 0 = 0 →
      (∀ s, HasDerivAt g (Matern.A32 l s i 1 * Matern.A32 l s j 1) s) →
      transitionCov (maternDrift 1 l) (lastNoise η 1) t i j = η ^ 2 * g t := by
    intro i j g hg0 hg
    simp only [transitionCov, hint]
    rw [intervalIntegral.integral_const_mul,
      intervalIntegral.integral_eq_sub_of_hasDerivAt (fun s _ => hg s)
        (((hA i 1).mul (hA j 1)).intervalIntegrable _ _), hg0, sub_zero]
  have he : ∀ s, Real.exp (-s * l) = Real.exp (-l * s) := fun s => by ring_nf
  have he2 : ∀ s, Real.exp (-l * s) * Real.exp (-l * s) = Real.exp (-2 * l * s) := fun s => by
    rw [← Real.exp_add]; ring_nf
  have he3 : ∀ s, Real.exp (-2 * s * l) = Real.exp (-2 * l * s) := fun s => by ring_nf
  have hE := fun s => hasDerivAt_exp_mul (-2 * l) s
  have hid := fun s : ℝ => hasDerivAt_id s
  ext i j
  fin_cases i <;> fin_cases j
  · refine (key 0 0 (fun s => (1 + Real.exp (-2 * l * s) * (-1 - 2 * s * l * (1 + s * l))) / (4 * l ^ 3)) (by simp) ?_).trans ?_
    · intro s
      have h1 : HasDerivAt (fun s : ℝ => -1 - 2 * s * l * (1 + s * l)) (-(2 * 1 * l * (1 + s * l) + 2 * s * l * (1 * l))) s :=
        (((((hid s).const_mul 2).mul_const l).mul (((hid s).mul_const l).const_add 1)).const_sub (-1))
      refine ((((hE s).mul h1).const_add 1).div_const (4 * l ^ 3)).congr_deriv ?_
      simp only [Matern.A32, of_apply, cons_val', cons_val_zero, cons_val_one, he]
      have := he2 s
      field_simp
      rw [show Real.exp (-(l * s)) ^ 2 = Real.exp (-(2 * l * s)) by rw [← Real.exp_nat_mul]; ring_nf]
      ring_nf
    · simp only [Matern.Q32, Matrix.smul_apply, of_apply, cons_val', cons_val_zero, cons_val_one, cons_val_fin_one, smul_eq_mul,
        Fin.mk_one, Fin.zero_eta, he3]
  · refine (key 0 1 (fun s => 0.5 * Real.exp (-2 * l * s) * s ^ 2) (by simp) ?_).trans ?_
    · intro s
      refine (((hE s).const_mul 0.5).mul (hasDerivAt_pow 2 s)).congr_deriv ?_
      simp only [Matern.A32, of_apply, cons_val', cons_val_zero, cons_val_one, he, ← he2]
      push_cast
      ring
    · simp only [Matern.Q32, Matrix.smul_apply, of_apply, cons_val', cons_val_zero, cons_val_one, cons_val_fin_one, smul_eq_mul,
        Fin.mk_one, Fin.zero_eta, he3]
  · refine (key 1 0 (fun s => 0.5 * Real.exp (-2 * l * s) * s ^ 2) (by simp) ?_).trans ?_
    · intro s
      refine (((hE s).const_mul 0.5).mul (hasDerivAt_pow 2 s)).congr_deriv ?_
      simp only [Matern.A32, of_apply, cons_val', cons_val_zero, cons_val_one, he, ← he2]
      push_cast
      ring
    · simp only [Matern.Q32, Matrix.smul_apply, of_apply, cons_val', cons_val_zero, cons_val_one, cons_val_fin_one, smul_eq_mul,
        Fin.mk_one, Fin.zero_eta, he3]
  · refine (key 1 1 (fun s => (1 + Real.exp (-2 * l * s) * (-1 - 2 * s * l * (-1 + s * l))) / (4 * l)) (by simp) ?_).trans ?_
    · intro s
      have h1 : HasDerivAt (fun s : ℝ => -1 - 2 * s * l * (-1 + s * l)) (-(2 * 1 * l * (-1 + s * l) + 2 * s * l * (1 * l))) s :=
        (((((hid s).const_mul 2).mul_const l).mul (((hid s).mul_const l).const_add (-1))).const_sub (-1))
      refine ((((hE s).mul h1).const_add 1).div_const (4 * l)).congr_deriv ?_
      simp only [Matern.A32, of_apply, cons_val', cons_val_zero, cons_val_one, he]
      field_simp
      rw [show Real.exp (-(l * s)) ^ 2 = Real.exp (-(2 * l * s)) by rw [← Real.exp_nat_mul]; ring_nf]
      ring_nf
    · have h5 : Real.exp (-2 * t * l) * Real.exp (2 * t * l) = 1 := by rw [← Real.exp_add]; simp
      have h6 : Real.exp (-2 * t * l) * (-1 + Real.exp (2 * t * l) - 2 * t * l * (-1 + t * l)) =
          1 + Real.exp (-2 * l * t) * (-1 - 2 * t * l * (-1 + t * l)) := by
        rw [← he3]; linear_combination h5
      simp only [Matern.Q32, Matrix.smul_apply, of_apply, cons_val', cons_val_one, smul_eq_mul, Fin.mk_one]
      simp only [cons_val_fin_one]
      rw [h6]

/-! ## The general branch -/

theorem matern_F_last (k : ℕ) {l : ℝ} (hl : l ≠ 0) : Matern.F k l = maternDrift k l⁻¹ := by
  ext i j
  have hi : i = Fin.last k ↔ ¬ i.1 < k := by
    rw [Fin.ext_iff, Fin.val_last]; have := i.2; omega
  simp only [Matern.F, maternDrift, hi, Polynomial.coeff_X_add_C_pow]
  split_ifs <;> try simp_all
  have hj := j.2
  rw [← zpow_natCast, ← _root_.zpow_neg, mul_comm]
  congr 2
  push_cast [Nat.cast_sub (show j.1 ≤ k + 1 by omega)]
  ring

theorem maternDrift_trace (k : ℕ) (l : ℝ) : (maternDrift k l).trace = -((k : ℝ) + 1) * l := by
  simp only [trace, diag_apply]
  rw [Finset.sum_eq_single (Fin.last k)]
  · simp [maternDrift, Polynomial.coeff_X_add_C_pow]; ring
  · intro i _ hi
    simp [maternDrift, hi]
  · simp

end Verif
