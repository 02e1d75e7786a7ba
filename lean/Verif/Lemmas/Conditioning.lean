import Verif.Lemmas.Gaussian
import Mathlib.Probability.Kernel.CondDistrib
import Mathlib.Probability.Kernel.Composition.Prod
import Mathlib.LinearAlgebra.Matrix.SchurComplement

/-! Helper lemmas: conditional laws of jointly normal vectors. -/

namespace Verif

open MeasureTheory ProbabilityTheory WithLp Matrix Spec

variable {Ω : Type*} [MeasurableSpace Ω] {P : Measure Ω}

section normal

variable {ι κ : Type*} [Fintype ι] [DecidableEq ι] [Fintype κ] [DecidableEq κ]

/-- Independent normal vectors are jointly normal. -/
theorem Spec.IsNormal.sumElim {X : Ω → ι → ℝ} {Y : Ω → κ → ℝ} {m : ι → ℝ} {n : κ → ℝ} {C : Matrix ι ι ℝ}
    {D : Matrix κ κ ℝ} (hX : IsNormal P X m C) (hY : IsNormal P Y n D) (h : IndepFun X Y P) :
    IsNormal P (fun ω => Sum.elim (X ω) (Y ω)) (Sum.elim m n) (fromBlocks C 0 0 D) := by
  have hP := hX.isProb
  have hG := IndepFun.hasGaussianLaw hX.hasGaussianLaw hY.hasGaussianLaw h
  let L : ((ι → ℝ) × (κ → ℝ)) →L[ℝ] (ι ⊕ κ → ℝ) := ContinuousLinearMap.pi fun i =>
    match i with
    | Sum.inl a => (ContinuousLinearMap.proj a).comp (ContinuousLinearMap.fst ℝ _ _)
    | Sum.inr b => (ContinuousLinearMap.proj b).comp (ContinuousLinearMap.snd ℝ _ _)
  have hL : (fun ω => Sum.elim (X ω) (Y ω)) = fun ω => L (X ω, Y ω) := by
    funext ω i; cases i <;> rfl
  refine isNormal_of_moments (by rw [hL]; exact hG.map_fun L) ?_ ?_
  · rintro (i | i)
    · exact hX.mean i
    · exact hY.mean i
  · have hi : ∀ a b, IndepFun (fun ω => X ω a) (fun ω => Y ω b) P := fun a b =>
      h.comp (measurable_pi_apply a) (measurable_pi_apply b)
    rintro (i | i) (j | j)
    · exact hX.cov i j
    · exact (hi i j).covariance_eq_zero (hX.memLp i) (hY.memLp j)
    · exact (hi j i).symm.covariance_eq_zero (hY.memLp i) (hX.memLp j)
    · exact hY.cov i j

/-- Parts of a normal vector with block diagonal covariance are independent and normal. -/
theorem Spec.IsNormal.indep_of_fromBlocks {X : Ω → ι → ℝ} {Y : Ω → κ → ℝ} {m : ι → ℝ} {n : κ → ℝ} {C : Matrix ι ι ℝ}
    {D : Matrix κ κ ℝ} (h : IsNormal P (fun ω => Sum.elim (X ω) (Y ω)) (Sum.elim m n) (fromBlocks C 0 0 D)) :
    IndepFun X Y P ∧ IsNormal P X m C ∧ IsNormal P Y n D := by
  have hP := h.isProb
  let L1 : (ι ⊕ κ → ℝ) →L[ℝ] (ι → ℝ) := ContinuousLinearMap.pi fun i => ContinuousLinearMap.proj (Sum.inl i)
  let L2 : (ι ⊕ κ → ℝ) →L[ℝ] (κ → ℝ) := ContinuousLinearMap.pi fun i => ContinuousLinearMap.proj (Sum.inr i)
  have hX : HasGaussianLaw X P := h.hasGaussianLaw.map_fun L1
  have hY : HasGaussianLaw Y P := h.hasGaussianLaw.map_fun L2
  have hXY : HasGaussianLaw (fun ω => (X ω, Y ω)) P := h.hasGaussianLaw.map_fun (L1.prod L2)
  refine ⟨?_, isNormal_of_moments hX (fun i => h.mean (Sum.inl i)) (fun i j => h.cov (Sum.inl i) (Sum.inl j)),
    isNormal_of_moments hY (fun i => h.mean (Sum.inr i)) (fun i j => h.cov (Sum.inr i) (Sum.inr j))⟩
  exact HasGaussianLaw.indepFun_of_covariance_eval (X := fun i ω => X ω i) (Y := fun i ω => Y ω i) hXY
    fun i j => h.cov (Sum.inl i) (Sum.inr j)

end normal

/-- The conditional law of `g (Y, Z)` given `Y`, for `Z` independent of `Y`. -/
theorem exists_condDistrib_of_indep {α β γ : Type*} [MeasurableSpace α] [MeasurableSpace β] [MeasurableSpace γ]
    [StandardBorelSpace γ] [Nonempty γ] [IsProbabilityMeasure P] {Y : Ω → α} {Z : Ω → β} (hY : AEMeasurable Y P)
    (hZ : AEMeasurable Z P) (h : IndepFun Y Z P) (g : α × β → γ) (hg : Measurable g) :
    ∃ κ : Kernel α γ, (∀ y, κ y = (P.map Z).map fun z => g (y, z)) ∧
      condDistrib (fun ω => g (Y ω, Z ω)) Y P =ᵐ[P.map Y] κ := by
  have := Measure.isProbabilityMeasure_map (μ := P) hZ
  have := Measure.isProbabilityMeasure_map (μ := P) hY
  let κ : Kernel α γ := (Kernel.prod Kernel.id (Kernel.const α (P.map Z))).map g
  have hk : ∀ y, κ y = (P.map Z).map fun z => g (y, z) := by
    intro y
    simp only [κ]
    rw [Kernel.map_apply _ hg, Kernel.prod_apply, Kernel.id_apply, Kernel.const_apply, Measure.dirac_prod,
      Measure.map_map hg measurable_prodMk_left]
    rfl
  have hprob : IsMarkovKernel κ := Kernel.IsMarkovKernel.map _ hg
  refine ⟨κ, hk, condDistrib_ae_eq_of_measure_eq_compProd Y (by fun_prop) ?_⟩
  have hprod := (indepFun_iff_map_prod_eq_prod_map_map hY hZ).mp h
  have h1 : P.map (fun ω => (Y ω, g (Y ω, Z ω))) = ((P.map Y).prod (P.map Z)).map (fun p => (p.1, g p)) := by
    rw [← hprod, AEMeasurable.map_map_of_aemeasurable (by fun_prop) (by fun_prop)]
    rfl
  rw [h1]
  ext s hs
  rw [Measure.map_apply (by fun_prop) hs, Measure.prod_apply (by measurability), Measure.compProd_apply hs]
  refine lintegral_congr fun y => ?_
  rw [hk, Measure.map_apply (by fun_prop) (measurable_prodMk_left hs)]
  rfl

/-- Translating a normal law. -/
theorem multivariateGaussian_map_add {n : ℕ} (m b : Fin n → ℝ) (C : Mat n n) (hC : C.PosSemidef) :
    (multivariateGaussian (toLp 2 m) C).map (fun z => toLp 2 b + z) = multivariateGaussian (toLp 2 (b + m)) C := by
  have h : IsNormal (multivariateGaussian (toLp 2 m) C) (fun z => ofLp z) m C :=
    ⟨hC, ⟨by fun_prop, by simp [Measure.map_id']⟩⟩
  have h2 := (h.affine b (1 : Mat n n)).hasLaw.map_eq
  simpa using h2

end Verif
