import Verif.Model.Prior
import Mathlib.Analysis.SpecialFunctions.Exponential
import Mathlib.Analysis.Calculus.MeanValue
import Mathlib.Analysis.Calculus.Deriv.Mul
import Mathlib.Analysis.Calculus.Deriv.Add
import Mathlib.Analysis.Calculus.Deriv.Comp
import Mathlib.Analysis.SpecialFunctions.ExpDeriv
import Mathlib.Analysis.Calculus.ContDiff.Basic
import Mathlib.Analysis.Calculus.FDeriv.Analytic
import Mathlib.Analysis.Calculus.ContDiff.FiniteDimension

/-! Helper lemmas: the matrix exponential, entry by entry. -/

namespace Verif

open Matrix

variable {n : ℕ}

theorem expm_zero_smul (F : Mat n n) : expm ((0 : ℝ) • F) = 1 := by
  simp [expm, NormedSpace.exp_zero]

theorem expm_add (F : Mat n n) (s t : ℝ) : expm ((s + t) • F) = expm (s • F) * expm (t • F) := by
  rw [expm, add_smul, Matrix.exp_add_of_commute]
  exact (Commute.refl F).smul_left s |>.smul_right t

section
attribute [local instance] Matrix.linftyOpNormedRing Matrix.linftyOpNormedAlgebra

theorem expm_hasDerivAt (F : Mat n n) (t : ℝ) (i j : Fin n) :
    HasDerivAt (fun s => expm (s • F) i j) ((F * expm (t • F)) i j) t := by
  have h := hasDerivAt_exp_smul_const' (𝕂 := ℝ) F t
  have hl := (LinearMap.toContinuousLinearMap (Matrix.entryLinearMap ℝ ℝ i j : Mat n n →ₗ[ℝ] ℝ)).hasFDerivAt.comp_hasDerivAt t h
  exact hl

theorem expm_contDiff (F : Mat n n) (i j : Fin n) : ContDiff ℝ 2 fun s : ℝ => expm (s • F) i j := by
  have h1 : ContDiff ℝ 2 (NormedSpace.exp : Mat n n → Mat n n) :=
    contDiff_iff_contDiffAt.mpr fun x => (NormedSpace.exp_analytic (𝕂 := ℝ) x).contDiffAt
  have h2 : ContDiff ℝ 2 fun s : ℝ => s • F := contDiff_id.smul contDiff_const
  exact (LinearMap.toContinuousLinearMap (Matrix.entryLinearMap ℝ ℝ i j : Mat n n →ₗ[ℝ] ℝ)).contDiff.comp (h1.comp h2)

theorem expm_hasDerivAt' (F : Mat n n) (t : ℝ) (i j : Fin n) :
    HasDerivAt (fun s => expm (s • F) i j) ((expm (t • F) * F) i j) t := by
  have h := hasDerivAt_exp_smul_const (𝕂 := ℝ) F t
  have hl := (LinearMap.toContinuousLinearMap (Matrix.entryLinearMap ℝ ℝ i j : Mat n n →ₗ[ℝ] ℝ)).hasFDerivAt.comp_hasDerivAt t h
  exact hl
end

theorem expm_mul_comm (F : Mat n n) (t : ℝ) : F * expm (t • F) = expm (t • F) * F := by
  ext i j
  exact (expm_hasDerivAt F t i j).unique (expm_hasDerivAt' F t i j)

theorem expm_continuous (F : Mat n n) (i j : Fin n) : Continuous fun s : ℝ => expm (s • F) i j :=
  continuous_iff_continuousAt.mpr fun t => (expm_hasDerivAt F t i j).continuousAt

theorem expm_neg_mul (F : Mat n n) (t : ℝ) : expm (-t • F) * expm (t • F) = 1 := by
  rw [← expm_add, neg_add_cancel, expm_zero_smul]

/-- A solution of `M' = F M`, `M 0 = 1` is the matrix exponential. -/
theorem expm_unique (F : Mat n n) (M : ℝ → Mat n n) (h0 : M 0 = 1)
    (hM : ∀ t i j, HasDerivAt (fun s => M s i j) ((F * M t) i j) t) (t : ℝ) : M t = expm (t • F) := by
  have key : ∀ t, expm (-t • F) * M t = 1 := by
    intro t
    ext i j
    have hd : ∀ s, HasDerivAt (fun s => (expm (-s • F) * M s) i j) 0 s := by
      intro s
      have h1 : ∀ k, HasDerivAt (fun s : ℝ => expm (-s • F) i k) (-(expm (-s • F) * F) i k) s := by
        intro k
        have := (expm_hasDerivAt' F (-s) i k).comp s (hasDerivAt_neg s)
        simpa [Function.comp_def] using this
      have h2 : HasDerivAt (fun s => ∑ k, expm (-s • F) i k * M s k j)
          (∑ k, (-(expm (-s • F) * F) i k * M s k j + expm (-s • F) i k * (F * M s) k j)) s :=
        HasDerivAt.fun_sum fun k _ => (h1 k).mul (hM s k j)
      have h3 : ∑ k, (-(expm (-s • F) * F) i k * M s k j + expm (-s • F) i k * (F * M s) k j) = 0 := by
        rw [Finset.sum_add_distrib]
        simp only [neg_mul, Finset.sum_neg_distrib]
        rw [← Matrix.mul_apply, ← Matrix.mul_apply, Matrix.mul_assoc]
        ring
      rw [h3] at h2
      simpa only [Matrix.mul_apply] using h2
    have hc := is_const_of_deriv_eq_zero (fun s => (hd s).differentiableAt) (fun s => (hd s).deriv) t 0
    rw [hc, h0]
    simp [NormedSpace.exp_zero]
  have h1 := expm_neg_mul F (-t)
  rw [neg_neg] at h1
  calc M t = expm (t • F) * (expm (-t • F) * M t) := by rw [← Matrix.mul_assoc, h1, Matrix.one_mul]
    _ = expm (t • F) := by rw [key, Matrix.mul_one]

end Verif
