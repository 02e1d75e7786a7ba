import Verif.Basic
import Mathlib.Analysis.Normed.Algebra.GelfandFormula
import Mathlib.Analysis.Matrix.Normed
import Mathlib.LinearAlgebra.Matrix.ToLinearEquiv
import Mathlib.Analysis.SpecificLimits.Basic

/-! Helper lemma: powers of a real matrix whose complex eigenvalues have modulus less than one tend to zero. -/

namespace Verif

open Matrix Filter Topology

section

attribute [local instance] Matrix.linftyOpNormedAddCommGroup Matrix.linftyOpNormedRing Matrix.linftyOpNormedAlgebra

theorem tendsto_pow_of_eigenvalues_complex {d : ℕ} (A : Matrix (Fin d) (Fin d) ℂ)
    (h : ∀ (μ : ℂ) (v : Fin d → ℂ), v ≠ 0 → A *ᵥ v = μ • v → ‖μ‖ < 1) (i j : Fin d) :
    Tendsto (fun n : ℕ => (A ^ n) i j) atTop (𝓝 0) := by
  haveI : Nonempty (Fin d) := ⟨i⟩
  have hs : spectralRadius ℂ A < (1 : NNReal) := by
    refine spectrum.spectralRadius_lt_of_forall_lt A fun μ hμ => ?_
    rw [spectrum.mem_iff, Matrix.isUnit_iff_isUnit_det, isUnit_iff_ne_zero, not_not, ← Matrix.exists_mulVec_eq_zero_iff] at hμ
    obtain ⟨v, hv, hv2⟩ := hμ
    rw [Matrix.sub_mulVec, sub_eq_zero, Matrix.algebraMap_eq_diagonal] at hv2
    have h1 : A *ᵥ v = μ • v := by
      rw [← hv2]
      funext k
      simp [mulVec_diagonal]
    have := h μ v hv h1
    exact_mod_cast this
  obtain ⟨r, hr1, hr2⟩ := exists_between hs
  have hg := spectrum.pow_nnnorm_pow_one_div_tendsto_nhds_spectralRadius A
  have hr3 : r ≠ ⊤ := ne_top_of_lt hr2
  lift r to NNReal using hr3
  have hr1' : r < 1 := by exact_mod_cast hr2
  have hev : ∀ᶠ n : ℕ in atTop, ‖A ^ n‖ ≤ (r : ℝ) ^ n := by
    filter_upwards [hg.eventually (gt_mem_nhds hr1), eventually_gt_atTop 0] with n hn hn0
    have h1 : ((‖A ^ n‖₊ : ENNReal) ^ (1 / (n : ℝ))) ^ (n : ℝ) ≤ (r : ENNReal) ^ (n : ℝ) :=
      ENNReal.rpow_le_rpow hn.le (by positivity)
    rw [← ENNReal.rpow_mul, one_div, inv_mul_cancel₀ (by positivity), ENNReal.rpow_one, ENNReal.rpow_natCast] at h1
    exact_mod_cast h1
  have hz : Tendsto (fun n : ℕ => ‖A ^ n‖) atTop (𝓝 0) :=
    squeeze_zero' (Eventually.of_forall fun n => norm_nonneg _) hev
      (tendsto_pow_atTop_nhds_zero_of_lt_one r.2 (by exact_mod_cast hr1'))
  have h0 : Tendsto (fun n : ℕ => A ^ n) atTop (𝓝 0) := tendsto_zero_iff_norm_tendsto_zero.mpr hz
  have := ((continuous_id.matrix_elem i j).tendsto (0 : Matrix (Fin d) (Fin d) ℂ)).comp h0
  simpa [Function.comp_def] using this

end

theorem tendsto_pow_of_eigenvalues {d : ℕ} (A : Mat d d)
    (h : ∀ (μ : ℂ) (v : Fin d → ℂ), v ≠ 0 → A.map Complex.ofReal *ᵥ v = μ • v → ‖μ‖ < 1) (x : Vec d) :
    Tendsto (fun n : ℕ => A ^ n *ᵥ x) atTop (𝓝 0) := by
  refine tendsto_pi_nhds.mpr fun i => ?_
  have h1 : ∀ j, Tendsto (fun n : ℕ => (A ^ n) i j) atTop (𝓝 0) := fun j => by
    have h2 := tendsto_pow_of_eigenvalues_complex (A.map Complex.ofReal) h i j
    have h3 : ∀ n : ℕ, (A.map Complex.ofReal) ^ n = (A ^ n).map Complex.ofReal := fun n =>
      (map_pow (Complex.ofRealHom.mapMatrix (m := Fin d)) A n).symm
    simp only [h3, Matrix.map_apply] at h2
    exact_mod_cast (Complex.continuous_re.tendsto 0).comp h2
  have : Tendsto (fun n : ℕ => ∑ j, (A ^ n) i j * x j) atTop (𝓝 (∑ j, 0 * x j)) :=
    tendsto_finset_sum _ fun j _ => (h1 j).mul_const _
  simpa [mulVec, dotProduct] using this

end Verif
