import Verif.Lemmas.Transition
import Mathlib.Analysis.Normed.Algebra.Exponential
import Mathlib.Analysis.Normed.Algebra.MatrixExponential

/-! Second order expansion of the matrix exponential, and the transition matrices of priors that integrate their last state. -/

namespace Verif

open Matrix Spec Jnp
open scoped Matrix.Norms.Operator

/-- Remainder of the exponential series after three terms. -/
theorem exp_taylor {𝔸 : Type*} [NormedRing 𝔸] [NormedAlgebra ℝ 𝔸] [CompleteSpace 𝔸] (x : 𝔸) :
    ‖NormedSpace.exp x - (1 + x + (1 / 2 : ℝ) • x ^ 2)‖ ≤ ‖x‖ ^ 3 * Real.exp ‖x‖ := by
  have hs : Summable fun n : ℕ => ((n.factorial : ℝ)⁻¹) • x ^ n := NormedSpace.expSeries_summable' (𝕂 := ℝ) x
  have hsr := Real.summable_pow_div_factorial ‖x‖
  have e : NormedSpace.exp x = ∑' n : ℕ, ((n.factorial : ℝ)⁻¹) • x ^ n := congrFun (NormedSpace.exp_eq_tsum (𝕂 := ℝ)) x
  have h3 := hs.sum_add_tsum_nat_add 3
  rw [← e] at h3
  have e3 : ∑ i ∈ Finset.range 3, ((i.factorial : ℝ)⁻¹) • x ^ i = 1 + x + (1 / 2 : ℝ) • x ^ 2 := by
    simp [Finset.sum_range_succ, Nat.factorial]
  rw [← h3, e3, add_sub_cancel_left]
  have hb : ∀ i : ℕ, ‖(((i + 3).factorial : ℝ)⁻¹) • x ^ (i + 3)‖ ≤ ‖x‖ ^ 3 * (‖x‖ ^ i / i.factorial) := fun i => by
    rw [norm_smul, Real.norm_of_nonneg (by positivity)]
    have h1 : ‖x ^ (i + 3)‖ ≤ ‖x‖ ^ (i + 3) := norm_pow_le' x (by omega)
    have h2 : (((i + 3).factorial : ℝ)⁻¹) ≤ ((i.factorial : ℝ)⁻¹) := by
      apply inv_anti₀ (by positivity)
      exact_mod_cast Nat.factorial_le (by omega)
    calc _ ≤ ((i.factorial : ℝ)⁻¹) * ‖x‖ ^ (i + 3) := by gcongr
      _ = _ := by rw [pow_add]; field_simp
  have hs2 : Summable fun i : ℕ => ‖x‖ ^ 3 * (‖x‖ ^ i / i.factorial) := hsr.mul_left _
  refine (tsum_of_norm_bounded hs2.hasSum hb).trans (le_of_eq ?_)
  rw [tsum_mul_left, Real.exp_eq_exp_ℝ, NormedSpace.exp_eq_tsum_div]

theorem abs_entry_le {n l : ℕ} (M : Mat n l) (i : Fin n) (j : Fin l) : |M i j| ≤ ‖M‖ := by
  rw [linfty_opNorm_def]
  have h1 : ‖M i j‖₊ ≤ ∑ j, ‖M i j‖₊ := Finset.single_le_sum (f := fun j => ‖M i j‖₊) (fun _ _ => zero_le') (Finset.mem_univ j)
  have h2 : (∑ j, ‖M i j‖₊) ≤ Finset.univ.sup fun i => ∑ j, ‖M i j‖₊ := Finset.le_sup (f := fun i => ∑ j, ‖M i j‖₊) (Finset.mem_univ i)
  exact_mod_cast h1.trans h2

/-- The transition matrix up to third order, entry by entry. -/
theorem expm_entry {n : ℕ} {F : Mat n n} {M T s : ℝ} (hF : ‖F‖ ≤ M) (hs : 0 ≤ s) (hsT : s ≤ T) (i j : Fin n) :
    |expm (s • F) i j - ((1 : Mat n n) i j + s * F i j + s ^ 2 / 2 * (F * F) i j)| ≤ M ^ 3 * Real.exp (T * M) * s ^ 3 := by
  have h := exp_taylor (s • F)
  have hn : ‖s • F‖ ≤ s * M := by
    rw [norm_smul, Real.norm_of_nonneg hs]
    gcongr
  have hM : 0 ≤ M := (norm_nonneg F).trans hF
  have e := abs_entry_le (NormedSpace.exp (s • F) - (1 + s • F + (1 / 2 : ℝ) • (s • F) ^ 2)) i j
  have e2 : (NormedSpace.exp (s • F) - (1 + s • F + (1 / 2 : ℝ) • (s • F) ^ 2) : Mat n n) i j =
      expm (s • F) i j - ((1 : Mat n n) i j + s * F i j + s ^ 2 / 2 * (F * F) i j) := by
    rw [pow_two, Matrix.sub_apply, Matrix.add_apply, Matrix.add_apply, Matrix.smul_apply, Matrix.smul_apply, smul_mul_smul_comm, Matrix.smul_apply]
    simp only [smul_eq_mul]
    ring
  rw [e2] at e
  refine e.trans (h.trans ?_)
  calc _ ≤ (s * M) ^ 3 * Real.exp (T * M) := by
        gcongr
        exact hn.trans (by gcongr)
    _ = _ := by ring

/-- The drift matrix of a process with three states that integrates the last state twice: only its last row is free. -/
structure IsChain3 (F : Mat 3 3) : Prop where
  f00 : F 0 0 = 0
  f01 : F 0 1 = 1
  f02 : F 0 2 = 0
  f10 : F 1 0 = 0
  f11 : F 1 1 = 0
  f12 : F 1 2 = 1

/-- The drift matrix of a process with two states that integrates the last state. -/
structure IsChain2 (F : Mat 2 2) : Prop where
  f00 : F 0 0 = 0
  f01 : F 0 1 = 1

theorem sq_entry_le {n : ℕ} {F : Mat n n} {M : ℝ} (hF : ‖F‖ ≤ M) (i j : Fin n) : |(F * F) i j| ≤ M ^ 2 :=
  (abs_entry_le _ i j).trans ((norm_mul_le F F).trans (by nlinarith [norm_nonneg F]))

/-- A bound on the transition matrix from its expansion. -/
theorem expm_near {n : ℕ} {F : Mat n n} {M T s : ℝ} (hF : ‖F‖ ≤ M) (hs : 0 ≤ s) (hsT : s ≤ T) (i j : Fin n) :
    |expm (s • F) i j - ((1 : Mat n n) i j + s * F i j)| ≤ (M ^ 2 + M ^ 3 * Real.exp (T * M)) * (1 + T) ^ 2 * s ^ 2 ∧
    |expm (s • F) i j - ((1 : Mat n n) i j + s * F i j + s ^ 2 / 2 * (F * F) i j)| ≤
      (M ^ 2 + M ^ 3 * Real.exp (T * M)) * (1 + T) ^ 2 * s ^ 3 := by
  have hM : 0 ≤ M := (norm_nonneg F).trans hF
  have hT : 0 ≤ T := hs.trans hsT
  have h1 := expm_entry hF hs hsT i j
  have h2 := sq_entry_le hF i j
  generalize expm (s • F) i j = e at *
  generalize (F * F) i j = u at *
  generalize hE : M ^ 3 * Real.exp (T * M) = E at *
  have hE0 : 0 ≤ E := by rw [← hE]; positivity
  have hT1 : 1 ≤ (1 + T) ^ 2 := by nlinarith
  have hT2 : T ≤ (1 + T) ^ 2 := by nlinarith
  constructor
  · have h3 : |s ^ 2 / 2 * u| ≤ s ^ 2 / 2 * M ^ 2 := by
      rw [abs_mul, abs_of_nonneg (by positivity)]
      gcongr
    rw [show e - ((1 : Mat n n) i j + s * F i j) = (e - ((1 : Mat n n) i j + s * F i j + s ^ 2 / 2 * u)) + s ^ 2 / 2 * u by ring]
    refine (abs_add_le _ _).trans ((add_le_add h1 h3).trans ?_)
    have h4 : E * s ^ 3 ≤ E * (1 + T) ^ 2 * s ^ 2 := by
      calc E * s ^ 3 = E * s * s ^ 2 := by ring
        _ ≤ E * (1 + T) ^ 2 * s ^ 2 := by gcongr; exact hsT.trans hT2
    have h5 : s ^ 2 / 2 * M ^ 2 ≤ M ^ 2 * (1 + T) ^ 2 * s ^ 2 := by
      have : M ^ 2 * s ^ 2 * 1 ≤ M ^ 2 * s ^ 2 * (1 + T) ^ 2 := by gcongr
      nlinarith [mul_nonneg (sq_nonneg M) (sq_nonneg s)]
    linarith
  · refine h1.trans ?_
    have h4 : E * 1 * s ^ 3 ≤ (M ^ 2 + E) * (1 + T) ^ 2 * s ^ 3 := by
      gcongr
      nlinarith [sq_nonneg M]
    linarith

/-- The constant of the expansions. -/
noncomputable def chainC (M T : ℝ) : ℝ := (M ^ 2 + M ^ 3 * Real.exp (T * M)) * (1 + T) ^ 2

theorem chainC_nonneg {M T : ℝ} (hM : 0 ≤ M) : 0 ≤ chainC M T := by unfold chainC; positivity

theorem chain3_expm {F : Mat 3 3} (hF : IsChain3 F) {M T s : ℝ} (hM : ‖F‖ ≤ M) (hs : 0 ≤ s) (hsT : s ≤ T) :
    |expm (s • F) 0 0 - 1| ≤ chainC M T * s ^ 2 ∧ |expm (s • F) 1 0| ≤ chainC M T * s ^ 2 ∧
    |expm (s • F) 0 1 - s| ≤ chainC M T * s ^ 2 ∧ |expm (s • F) 1 1 - 1| ≤ chainC M T * s ^ 2 ∧
    |expm (s • F) 0 2 - s ^ 2 / 2| ≤ chainC M T * s ^ 3 ∧ |expm (s • F) 1 2 - s| ≤ chainC M T * s ^ 2 := by
  have e : (F * F) 0 2 = 1 := by
    simp [mul_apply, Fin.sum_univ_three, hF.f00, hF.f01, hF.f02, hF.f12]
  have h := fun i j => (expm_near hM hs hsT i j).1
  have h2 := (expm_near hM hs hsT 0 2).2
  have h00 := h 0 0
  have h10 := h 1 0
  have h01 := h 0 1
  have h11 := h 1 1
  have h12 := h 1 2
  rw [e] at h2
  simp only [hF.f00, hF.f01, hF.f02, hF.f10, hF.f11, hF.f12, one_apply_eq, mul_zero, mul_one, add_zero] at h00 h10 h01 h11 h12 h2
  simp only [ne_eq, one_ne_zero, zero_ne_one, not_false_eq_true, one_apply_ne, zero_add, sub_zero, Fin.reduceEq] at h10 h01 h12 h2
  exact ⟨h00, h10, h01, h11, h2, h12⟩

theorem chain2_expm {F : Mat 2 2} (hF : IsChain2 F) {M T s : ℝ} (hM : ‖F‖ ≤ M) (hs : 0 ≤ s) (hsT : s ≤ T) :
    |expm (s • F) 0 0 - 1| ≤ chainC M T * s ^ 2 ∧ |expm (s • F) 1 0 - s * F 1 0| ≤ chainC M T * s ^ 2 ∧
    |expm (s • F) 0 1 - s| ≤ chainC M T * s ^ 2 ∧ |expm (s • F) 1 1 - (1 + s * F 1 1)| ≤ chainC M T * s ^ 2 ∧
    |expm (s • F) 0 1 - (s + s ^ 2 / 2 * F 1 1)| ≤ chainC M T * s ^ 3 := by
  have e : (F * F) 0 1 = F 1 1 := by
    simp [mul_apply, hF.f00, hF.f01]
  have h := fun i j => (expm_near hM hs hsT i j).1
  have h2 := (expm_near hM hs hsT 0 1).2
  have h00 := h 0 0
  have h10 := h 1 0
  have h01 := h 0 1
  have h11 := h 1 1
  rw [e] at h2
  simp only [hF.f00, hF.f01, one_apply_eq, mul_zero, mul_one, add_zero] at h00 h10 h01 h11 h2
  simp only [ne_eq, one_ne_zero, zero_ne_one, not_false_eq_true, one_apply_ne, zero_add, sub_zero] at h10 h01 h2
  exact ⟨h00, h10, h01, h11, h2⟩

end Verif
