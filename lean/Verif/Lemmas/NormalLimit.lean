import Mathlib.MeasureTheory.Measure.CharacteristicFunction.Basic
import Verif.Lemmas.Gaussian

/-! Almost sure limits of normal vectors are normal. -/

namespace Verif

open MeasureTheory ProbabilityTheory WithLp Matrix Spec Filter Complex
open scoped Topology RealInnerProductSpace

variable {Ω : Type*} [MeasurableSpace Ω] {P : Measure Ω} {ι : Type*} [Fintype ι] [DecidableEq ι]

theorem isNormal_of_tendsto {X : ℕ → Ω → ι → ℝ} {Y : Ω → ι → ℝ} {m : ι → ℝ} {C : ℕ → Matrix ι ι ℝ} {D : Matrix ι ι ℝ}
    (h : ∀ n, IsNormal P (X n) m (C n)) (hX : ∀ᵐ ω ∂P, ∀ i, Tendsto (fun n => X n ω i) atTop (𝓝 (Y ω i)))
    (hC : ∀ i j, Tendsto (fun n => C n i j) atTop (𝓝 (D i j))) : IsNormal P Y m D := by
  have hP := (h 0).isProb
  have hq : ∀ x : ι → ℝ, Tendsto (fun n => x ⬝ᵥ C n *ᵥ x) atTop (𝓝 (x ⬝ᵥ D *ᵥ x)) := fun x => by
    simp only [dotProduct, mulVec]
    refine tendsto_finsetSum _ fun i _ => Tendsto.const_mul _ (tendsto_finsetSum _ fun j _ => (hC i j).mul_const _)
  have hpsd : D.PosSemidef := by
    refine PosSemidef.of_dotProduct_mulVec_nonneg ?_ fun x => ?_
    · ext i j
      simp only [conjTranspose_apply, star_trivial]
      refine tendsto_nhds_unique (hC j i) ((hC i j).congr fun n => ?_)
      have := (h n).posSemidef.isHermitian.apply i j
      simpa using this.symm
    · refine ge_of_tendsto (hq x) (Eventually.of_forall fun n => ?_)
      have := (h n).posSemidef.dotProduct_mulVec_nonneg x
      simpa using this
  have hXm : ∀ n, AEMeasurable (fun ω => toLp 2 (X n ω)) P := fun n => (h n).hasLaw.aemeasurable
  have hlim : ∀ᵐ ω ∂P, Tendsto (fun n => toLp 2 (X n ω)) atTop (𝓝 (toLp 2 (Y ω))) := by
    filter_upwards [hX] with ω hω
    exact ((PiLp.continuous_toLp 2 fun _ : ι => ℝ).tendsto _).comp (tendsto_pi_nhds.mpr hω)
  have hYm : AEMeasurable (fun ω => toLp 2 (Y ω)) P := aemeasurable_of_tendsto_metrizable_ae atTop hXm hlim
  refine ⟨hpsd, ⟨hYm, ?_⟩⟩
  refine Measure.ext_of_charFun (funext fun x => ?_)
  have hchar : ∀ Z : Ω → EuclideanSpace ℝ ι, AEMeasurable Z P → charFun (P.map Z) x = ∫ ω, exp (⟪Z ω, x⟫ * I) ∂P := by
    intro Z hZ
    rw [charFun_apply, integral_map hZ (by fun_prop)]
  have h1 : Tendsto (fun n => charFun (P.map fun ω => toLp 2 (X n ω)) x) atTop (𝓝 (charFun (P.map fun ω => toLp 2 (Y ω)) x)) := by
    simp_rw [fun n => hchar _ (hXm n), hchar _ hYm]
    refine tendsto_integral_of_dominated_convergence (fun _ => 1) (fun n => ?_) (integrable_const _) (fun n => ?_) ?_
    · exact (Measurable.comp_aemeasurable (g := fun z : EuclideanSpace ℝ ι => exp (⟪z, x⟫ * I)) (by fun_prop) (hXm n)).aestronglyMeasurable
    · exact Eventually.of_forall fun ω => by rw [Complex.norm_exp_ofReal_mul_I]
    · filter_upwards [hlim] with ω hω
      have hc : Continuous fun z : EuclideanSpace ℝ ι => exp (⟪z, x⟫ * I) := by fun_prop
      exact (hc.tendsto _).comp hω
  have h2 : Tendsto (fun n => charFun (P.map fun ω => toLp 2 (X n ω)) x) atTop
      (𝓝 (charFun (multivariateGaussian (toLp 2 m) D) x)) := by
    simp_rw [fun n => (h n).hasLaw.map_eq]
    rw [charFun_multivariateGaussian hpsd]
    simp_rw [fun n => charFun_multivariateGaussian (μ := toLp 2 m) (h n).posSemidef x]
    refine (Continuous.tendsto (by fun_prop : Continuous exp) _).comp (Tendsto.const_sub _ ?_)
    exact ((Complex.continuous_ofReal.tendsto _).comp (hq x)).div_const _
  exact tendsto_nhds_unique h1 h2

theorem Spec.IsNormal.congr_ae {Ω : Type*} [MeasurableSpace Ω] {P : Measure Ω} {ι : Type*} [Fintype ι] [DecidableEq ι]
    {X Y : Ω → ι → ℝ} {m : ι → ℝ} {C : Matrix ι ι ℝ} (h : IsNormal P X m C) (hXY : ∀ᵐ ω ∂P, X ω = Y ω) : IsNormal P Y m C :=
  ⟨h.posSemidef, h.hasLaw.congr (by filter_upwards [hXY] with ω hω; rw [hω])⟩

end Verif
