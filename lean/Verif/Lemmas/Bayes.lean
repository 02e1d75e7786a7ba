import Verif.Spec.Filtering
import Verif.Props.Kalman
import Mathlib.Data.Matrix.ColumnRowPartitioned

/-! Helper lemmas: the exact posterior of a linear Gaussian state-space model. -/

namespace Verif

open Matrix Spec MeasureTheory ProbabilityTheory WithLp

/-- If `X` and `Y` are independent and the pair is independent of `Z`, then `X` is independent of `(Y, Z)`. -/
theorem indepFun_assoc {Ω α β γ : Type*} [MeasurableSpace Ω] [MeasurableSpace α] [MeasurableSpace β] [MeasurableSpace γ]
    {μ : Measure Ω} [IsProbabilityMeasure μ] {X : Ω → α} {Y : Ω → β} {Z : Ω → γ} (hX : AEMeasurable X μ)
    (hY : AEMeasurable Y μ) (hZ : AEMeasurable Z μ) (h1 : IndepFun X Y μ)
    (h2 : IndepFun (fun ω => (X ω, Y ω)) Z μ) : IndepFun X (fun ω => (Y ω, Z ω)) μ := by
  have := Measure.isProbabilityMeasure_map (μ := μ) hX
  have := Measure.isProbabilityMeasure_map (μ := μ) hY
  have := Measure.isProbabilityMeasure_map (μ := μ) hZ
  have e1 := (indepFun_iff_map_prod_eq_prod_map_map hX hY).1 h1
  have e2 := (indepFun_iff_map_prod_eq_prod_map_map (hX.prodMk hY) hZ).1 h2
  have h3 : IndepFun Y Z μ := h2.comp (φ := Prod.snd) (ψ := id) measurable_snd measurable_id
  have e3 := (indepFun_iff_map_prod_eq_prod_map_map hY hZ).1 h3
  rw [indepFun_iff_map_prod_eq_prod_map_map hX (hY.prodMk hZ), e3]
  have hm : (fun ω => (X ω, (Y ω, Z ω))) = MeasurableEquiv.prodAssoc ∘ fun ω => ((X ω, Y ω), Z ω) := rfl
  rw [hm, ← AEMeasurable.map_map_of_aemeasurable MeasurableEquiv.prodAssoc.measurable.aemeasurable ((hX.prodMk hY).prodMk hZ),
    e2, e1]
  exact (measurePreserving_prodAssoc _ _ _).map_eq

section

variable {nx ny : ℕ}

/-- The predicted covariance. -/
def predCov (A Q C : Mat nx nx) : Mat nx nx := A * C * Aᵀ + Q

/-- The Riccati recursion of the covariances. -/
noncomputable def ric (P A Q : Mat nx nx) (H : ℕ → Mat ny nx) (R : Mat ny ny) : ℕ → Mat nx nx
  | 0 => P
  | k + 1 => postCov (predCov A Q (ric P A Q H R k)) (H k) R

/-- The recursion of the means for the observations `y`. -/
noncomputable def mns (m : Vec nx) (P A Q : Mat nx nx) (xi : Vec nx) (H : ℕ → Mat ny nx) (c : ℕ → Vec ny) (R : Mat ny ny)
    (y : ℕ → Vec ny) : ℕ → Vec nx
  | 0 => m
  | k + 1 =>
    let p := A *ᵥ mns m P A Q xi H c R y k + xi
    postMean p (predCov A Q (ric P A Q H R k)) (H k *ᵥ p + c k - y k) (H k) R

variable {m : Vec nx} {P A Q : Mat nx nx} {xi : Vec nx} {H : ℕ → Mat ny nx} {c : ℕ → Vec ny} {R : Mat ny ny}

theorem mns_congr {y z : ℕ → Vec ny} (k : ℕ) (h : ∀ j < k, y j = z j) :
    mns m P A Q xi H c R y k = mns m P A Q xi H c R z k := by
  induction k with
  | zero => rfl
  | succ k ih => simp only [mns, ih fun j hj => h j (hj.trans (Nat.lt_succ_self k)), h k (Nat.lt_succ_self k)]

/-- A finite sequence continued by zeros. -/
def ext0 {k : ℕ} (y : Fin k → Vec ny) (j : ℕ) : Vec ny := if h : j < k then y ⟨j, h⟩ else 0

theorem mns_ext0 (y : ℕ → Vec ny) (k : ℕ) :
    mns m P A Q xi H c R (ext0 fun j : Fin k => y j) k = mns m P A Q xi H c R y k :=
  mns_congr k fun j hj => by simp [ext0, hj]

theorem continuous_mns (k : ℕ) : Continuous fun y : ℕ → Vec ny => mns m P A Q xi H c R y k := by
  induction k with
  | zero => exact continuous_const
  | succ k ih =>
    have h1 : Continuous fun y : ℕ → Vec ny => A *ᵥ mns m P A Q xi H c R y k + xi :=
      (Continuous.matrix_mulVec continuous_const ih).add continuous_const
    have h2 : Continuous fun y : ℕ → Vec ny => H k *ᵥ (A *ᵥ mns m P A Q xi H c R y k + xi) + c k - y k :=
      ((Continuous.matrix_mulVec continuous_const h1).add continuous_const).sub (continuous_apply k)
    exact h1.sub (Continuous.matrix_mulVec continuous_const h2)

theorem continuous_ext0 (k : ℕ) : Continuous (ext0 : (Fin k → Vec ny) → ℕ → Vec ny) := by
  refine continuous_pi fun j => ?_
  unfold ext0
  by_cases h : j < k
  · simp only [h, dif_pos]; exact continuous_apply _
  · simp only [h, dif_neg, not_false_eq_true]; exact continuous_const

theorem measurable_mns (k : ℕ) : Measurable fun y : Fin k → Vec ny => mns m P A Q xi H c R (ext0 y) k :=
  ((continuous_mns k).comp (continuous_ext0 k)).measurable

variable {Ω : Type*} [MeasurableSpace Ω] {μ : Measure Ω} {X : ℕ → Ω → Vec nx} {Y : ℕ → Ω → Vec ny} {ε : ℕ → Ω → Vec nx}
  {V : ℕ → Ω → Vec ny}

theorem Spec.IsNormal.aemeas {n : ℕ} {X : Ω → Vec n} {m : Vec n} {C : Mat n n} (h : IsNormal μ X m C) : AEMeasurable X μ :=
  h.hasGaussianLaw.aemeasurable

/-- Sums of independent normal vectors. -/
theorem Spec.IsNormal.linear_add {n k : ℕ} {X : Ω → Vec n} {Z : Ω → Vec k} {C : Mat n n} {D : Mat k k}
    (hX : IsNormal μ X 0 C) (hZ : IsNormal μ Z 0 D) (h : IndepFun X Z μ) (A : Mat k n) :
    IsNormal μ (fun ω => A *ᵥ X ω + Z ω) 0 (A * C * Aᵀ + D) := by
  have h1 := (hX.sumElim hZ h).affine (κ := Fin k) 0 (fromCols A 1)
  have e1 : ∀ ω, (0 : Vec k) + fromCols A 1 *ᵥ Sum.elim (X ω) (Z ω) = A *ᵥ X ω + Z ω := by
    intro ω; rw [fromCols_mulVec]; simp
  have e2 : (0 : Vec k) + fromCols A 1 *ᵥ Sum.elim (0 : Vec n) (0 : Vec k) = 0 := by
    rw [fromCols_mulVec]; simp
  have e3 : fromCols A 1 * fromBlocks C 0 0 D * (fromCols A 1)ᵀ = A * C * Aᵀ + D := by
    rw [transpose_fromCols, fromCols_mul_fromBlocks, fromCols_mul_fromRows]
    simp
  rw [e2, e3] at h1
  simpa only [e1] using h1

theorem Spec.LinearModel.aemeas (hm : LinearModel μ X Y m P A Q xi H c R ε V) (k : ℕ) : AEMeasurable (X k) μ := by
  induction k with
  | zero => exact hm.init.aemeas
  | succ k ih =>
    have : X (k + 1) = fun ω => A *ᵥ X k ω + xi + ε k ω := funext (hm.trans k)
    rw [this]
    have hA : Measurable fun v : Vec nx => A *ᵥ v := (by fun_prop : Continuous fun v : Vec nx => A *ᵥ v).measurable
    exact ((hA.comp_aemeasurable ih).add_const _).add (hm.stateNoise k).aemeas

theorem Spec.LinearModel.aemeas_obs (hm : LinearModel μ X Y m P A Q xi H c R ε V) (k : ℕ) : AEMeasurable (Y k) μ := by
  have : Y k = fun ω => H k *ᵥ X (k + 1) ω + c k + V k ω := funext (hm.obs k)
  rw [this]
  have hA : Measurable fun v : Vec nx => H k *ᵥ v := (by fun_prop : Continuous fun v : Vec nx => H k *ᵥ v).measurable
  exact ((hA.comp_aemeasurable (hm.aemeas (k + 1))).add_const _).add (hm.obsNoise k).aemeas

/-- The error of the posterior mean is normal with the Riccati covariance and independent of the observations. -/
theorem Spec.LinearModel.split (hm : LinearModel μ X Y m P A Q xi H c R ε V) (N : ℕ)
    (hS : ∀ k < N, (innovCov (predCov A Q (ric P A Q H R k)) (H k) R).PosDef) :
    IndepFun (fun ω (j : Fin N) => Y j ω) (fun ω => X N ω - mns m P A Q xi H c R (fun j => Y j ω) N) μ ∧
    IsNormal μ (fun ω => X N ω - mns m P A Q xi H c R (fun j => Y j ω) N) 0 (ric P A Q H R N) := by
  have := hm.init.isProb
  induction N with
  | zero =>
    constructor
    · have : (fun ω (j : Fin 0) => Y j ω) = fun _ => (fun j => j.elim0 : Fin 0 → Vec ny) := by
        funext ω j; exact j.elim0
      rw [this]
      exact indepFun_const_left _ _
    · have := hm.init.affine (-m) 1
      simp only [one_mulVec, Matrix.one_mul, transpose_one, Matrix.mul_one, neg_add_cancel] at this
      have e : (fun ω => X 0 ω - mns m P A Q xi H c R (fun j => Y j ω) 0) = fun ω => -m + X 0 ω := by
        funext ω; simp only [mns]; abel
      rw [e]; exact this
  | succ k ih =>
    obtain ⟨hind, hE⟩ := ih fun j hj => hS j (hj.trans (Nat.lt_succ_self k))
    set g : (Fin k → Vec ny) → Vec nx := fun y => mns m P A Q xi H c R (ext0 y) k with hg
    have hgm : Measurable g := measurable_mns k
    have hgY : ∀ ω, mns m P A Q xi H c R (fun j => Y j ω) k = g fun j : Fin k => Y j ω := fun ω => (mns_ext0 _ k).symm
    set E : Ω → Vec nx := fun ω => X k ω - mns m P A Q xi H c R (fun j => Y j ω) k with hEdef
    set T : Ω → Fin k → Vec ny := fun ω j => Y j ω with hT
    have hTm : AEMeasurable T μ := aemeasurable_pi_lambda _ fun j => hm.aemeas_obs j
    have hEm : AEMeasurable E μ := hE.aemeas
    have hεm := (hm.stateNoise k).aemeas
    have hVm := (hm.obsNoise k).aemeas
    -- the past observations, the error and the noises
    have h1 : IndepFun (fun ω => (T ω, E ω)) (fun ω => (ε k ω, V k ω)) μ := by
      have := (hm.indep_past k).comp (φ := fun q : Vec nx × (Fin k → Vec ny) => (q.2, q.1 - g q.2)) (ψ := id)
        (measurable_snd.prodMk (measurable_fst.sub (hgm.comp measurable_snd))) measurable_id
      have e : (fun ω => (T ω, E ω)) = (fun q : Vec nx × (Fin k → Vec ny) => (q.2, q.1 - g q.2)) ∘
          fun ω => (X k ω, T ω) := by
        funext ω; simp only [Function.comp, hEdef, hgY]; rfl
      rw [e]; exact this
    have h2 : IndepFun T (fun ω => (E ω, (ε k ω, V k ω))) μ :=
      indepFun_assoc hTm hEm (hεm.prodMk hVm) hind h1
    have h3 : IndepFun E (fun ω => (ε k ω, V k ω)) μ := h1.comp (φ := Prod.snd) (ψ := id) measurable_snd measurable_id
    have h4 : IndepFun E (ε k) μ := h3.comp (φ := id) (ψ := Prod.fst) measurable_id measurable_fst
    have h5 : IndepFun (V k) (fun ω => (ε k ω, E ω)) μ :=
      indepFun_assoc hVm hεm hEm (hm.indep_noises k).symm
        ((h3.symm).comp (φ := Prod.swap) (ψ := id) measurable_swap measurable_id)
    -- the prediction error
    set F : Ω → Vec nx := fun ω => A *ᵥ E ω + ε k ω with hF
    have hFn : IsNormal μ F 0 (predCov A Q (ric P A Q H R k)) := hE.linear_add (hm.stateNoise k) h4 A
    have hAm : Measurable fun v : Vec nx => A *ᵥ v := (by fun_prop : Continuous fun v : Vec nx => A *ᵥ v).measurable
    have hHm : Measurable fun v : Vec nx => H k *ᵥ v := (by fun_prop : Continuous fun v : Vec nx => H k *ᵥ v).measurable
    have h6 : IndepFun F (V k) μ := by
      have := h5.symm.comp (φ := fun q : Vec nx × Vec nx => A *ᵥ q.2 + q.1) (ψ := id)
        ((hAm.comp measurable_snd).add measurable_fst) measurable_id
      exact this
    set C := predCov A Q (ric P A Q H R k) with hC
    set K := gain C (H k) R with hK
    have hsp := conditioning_split F (V k) 0 C 0 (H k) R hFn (hm.obsNoise k) h6 (hS k (Nat.lt_succ_self k))
    simp only [zero_add, sub_zero] at hsp
    obtain ⟨hZI, hZ, hI⟩ := hsp
    set I : Ω → Vec ny := fun ω => H k *ᵥ F ω + V k ω with hIdef
    set Z : Ω → Vec nx := fun ω => F ω - K *ᵥ I ω with hZdef
    have hKm : Measurable fun v : Vec ny => K *ᵥ v := (by fun_prop : Continuous fun v : Vec ny => K *ᵥ v).measurable
    -- the new error
    have hXp : ∀ ω, X (k + 1) ω = A *ᵥ g (T ω) + xi + F ω := by
      intro ω
      rw [hm.trans, hF]
      simp only [hEdef, mulVec_sub, hgY]
      simp only [hT]
      abel
    have hYp : ∀ ω, Y k ω = H k *ᵥ (A *ᵥ g (T ω) + xi) + c k + I ω := by
      intro ω
      rw [hm.obs, hXp, mulVec_add (H k)]
      simp only [hIdef]
      abel
    have hnew : (fun ω => X (k + 1) ω - mns m P A Q xi H c R (fun j => Y j ω) (k + 1)) = Z := by
      funext ω
      simp only [mns, postMean, ← hC, ← hK, hgY]
      rw [hXp, hYp]
      simp only [hZdef]
      have : H k *ᵥ (A *ᵥ g (T ω) + xi) + c k - (H k *ᵥ (A *ᵥ g (T ω) + xi) + c k + I ω) = - I ω := by abel
      rw [show (fun j : Fin k => Y j ω) = T ω from rfl, this, mulVec_neg]
      abel
    rw [hnew]
    refine ⟨?_, hZ⟩
    have h7 : IndepFun T (fun ω => (Z ω, I ω)) μ := by
      have := h2.comp (φ := id) (ψ := fun q : Vec nx × (Vec nx × Vec ny) =>
        ((A *ᵥ q.1 + q.2.1) - K *ᵥ (H k *ᵥ (A *ᵥ q.1 + q.2.1) + q.2.2), H k *ᵥ (A *ᵥ q.1 + q.2.1) + q.2.2)) measurable_id (by
          have a : Measurable fun q : Vec nx × (Vec nx × Vec ny) => A *ᵥ q.1 + q.2.1 :=
            (hAm.comp measurable_fst).add (measurable_fst.comp measurable_snd)
          have b : Measurable fun q : Vec nx × (Vec nx × Vec ny) => H k *ᵥ (A *ᵥ q.1 + q.2.1) + q.2.2 :=
            (hHm.comp a).add (measurable_snd.comp measurable_snd)
          exact (a.sub (hKm.comp b)).prodMk b)
      exact this
    have h8 : IndepFun Z (fun ω => (I ω, T ω)) μ := indepFun_assoc hZ.aemeas hI.aemeas hTm hZI h7.symm
    have hS : (fun ω (j : Fin (k + 1)) => Y j ω) = (fun q : Vec ny × (Fin k → Vec ny) =>
        (Fin.snoc (α := fun _ => Vec ny) q.2 (H k *ᵥ (A *ᵥ g q.2 + xi) + c k + q.1) : Fin (k + 1) → Vec ny)) ∘
        fun ω => (I ω, T ω) := by
      funext ω j
      simp only [Function.comp]
      refine Fin.lastCases ?_ (fun i => ?_) j
      · rw [Fin.snoc_last, ← hYp]; rfl
      · rw [Fin.snoc_castSucc]; rfl
    rw [hS]
    refine (h8.comp (φ := id) measurable_id ?_).symm
    refine measurable_pi_lambda _ fun j => ?_
    refine Fin.lastCases ?_ (fun i => ?_) j
    · simp only [Fin.snoc_last]
      exact ((hHm.comp ((hAm.comp (hgm.comp measurable_snd)).add_const _)).add_const _).add measurable_fst
    · simp only [Fin.snoc_castSucc]
      exact (measurable_pi_apply i).comp measurable_snd

end

end Verif
