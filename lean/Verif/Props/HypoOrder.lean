import Verif.Lemmas.HypoGap
import Verif.Lemmas.LevyBrownian
import Verif.Props.Order15

/-!
# Property C138: the order of the scheme for hypoelliptic diffusions
-/

namespace Verif

open Matrix Spec Jnp Set MeasureTheory ProbabilityTheory Filter
open scoped NNReal Topology

variable {d m : ℕ}

/-- C138 (partial: order one, not the announced 1.5, see `C138_fails`): with an ideal generator, on any probability space, the law of the output of
`hypoelliptic_diffusion__diag_15_scheme.py`, with a constant diffusion that does not act on the first component, converges to the law of the
solution with order one, for every Lipschitz function. The Cholesky factors are assumed to depend measurably on the state. -/
theorem C138_partial {la : LinAlg} (hla : la.Correct) {Ω : Type*} [MeasurableSpace Ω] {P : Measure Ω} {B : Fin m → ℝ≥0 → Ω → ℝ}
    (hB : IsBrownianVec B P) {b : Vec (d + 1) → Vec (d + 1)} {S : Mat (d + 1) m} (hS : ∀ l, S 0 l = 0)
    (hG : (S.submatrix Fin.succ id * (S.submatrix Fin.succ id)ᵀ : Mat d d).PosDef)
    (hu : ∀ x, ∃ j : Fin d, fderiv ℝ (fun z => b z 0) x (Pi.single j.succ 1) ≠ 0)
    (hmeas : ∀ h, 0 < h → ∀ i j, Measurable fun x => la.cholesky (Hypo15.noiseCov b (fun _ => S) h x) i j)
    {T L K K3 K4 : ℝ} (hT : 0 < T) (hb : Smooth15 b S L K K3 K4) (x0 : Vec (d + 1))
    {X : Ω → ℝ → Vec (d + 1)} (hX : ∀ᵐ ω ∂P, SolvesAdditive (fun x _ => b x) S (fun t j => B j t.toNNReal ω) x0 T (X ω)) :
    ∃ A : ℝ, ∀ {Ω' : Type} [MeasurableSpace Ω'] {Q : Measure Ω'} {R : Ω' → Rng}, IdealNormals Q R → ∀ N : ℕ, 0 < N → ∀ (key : Key),
      ∀ n ≤ N, ∃ y : Ω' → Vec (d + 1),
        (∀ ω, (Hypo15.solver la (R ω) key x0 b (fun _ => S) (T / N) N).2[n]? = some (y ω)) ∧
        ∀ (κ : ℝ≥0) (g : Vec (d + 1) → ℝ), LipschitzWith κ g → Integrable (fun ω => g (y ω)) Q ∧
          Integrable (fun ω => g (X ω (n * (T / N)))) P ∧
          |∫ ω, g (y ω) ∂Q - ∫ ω, g (X ω (n * (T / N))) ∂P| ≤ A * κ * (T / N) := by
  have hP := hB.isProb
  have hbd : Differentiable ℝ b := hb.diff.differentiable (by norm_num)
  have hdc : Continuous (fderiv ℝ b) := hb.diff.continuous_fderiv (by norm_num)
  have hEc : Continuous fun x => firstRow (fderiv ℝ b x) := firstRow_continuous.comp hdc
  obtain ⟨A, hA0, hA⟩ := taylorWith_core hB hT hb x0 hEc (fun x => (firstRow_norm _).trans (hb.jac x)) hX
  refine ⟨Real.sqrt (A + 1), fun {Ω'} _ {Q} {R} hR N hN key n hn => ?_⟩
  have hQ : IsProbabilityMeasure Q := (normalVec_std hR [] 1).isProb
  have hN' : (0 : ℝ) < N := by exact_mod_cast hN
  have hA' := hA N hN
  obtain ⟨δ, hδdef⟩ : ∃ δ, δ = T / N := ⟨_, rfl⟩
  rw [← hδdef] at hA' ⊢
  have hδ : 0 < δ := by rw [hδdef]; positivity
  have hNδ : (N : ℝ) * δ = T := by rw [hδdef]; field_simp
  have hnT : (n : ℝ) * δ ∈ Icc 0 T := ⟨by positivity, by
    rw [← hNδ]; exact mul_le_mul_of_nonneg_right (by exact_mod_cast hn) hδ.le⟩
  have hC : ∀ x, (Hypo15.noiseCov b (fun _ => S) δ x).PosDef := fun x => C63_posDef b (fun _ => S) x hδ hG (hu x)
  choose Z hZ1 hZ2 hZ3 using fun ω => hypo_states la (R ω) key x0 hb.diff S δ N
  obtain ⟨I, hI⟩ : ∃ I : ℕ → Fin m × Fin 2 → Ω → ℝ, ∀ k q ω, I k q ω = incArea (fun t => B q.1 t.toNNReal ω) δ k q.2 := ⟨_, fun _ _ _ => rfl⟩
  obtain ⟨Φ, hΦ⟩ : ∃ Φ : Vec (d + 1) → (Fin m × Fin 2 → ℝ) → Vec (d + 1), ∀ y v, Φ y v = taylorWith b S (firstRow (fderiv ℝ b y)) δ y (fun j => v (j, 0))
      (δ • ((1 / 2 : ℝ) • (fun j => v (j, 0)) + (1 / Real.sqrt 6) • fun j => v (j, 1))) := ⟨_, fun _ _ => rfl⟩
  obtain ⟨Ψ, hΨ⟩ : ∃ Ψ : Vec (d + 1) → Vec (d + 1) → Vec (d + 1), ∀ y z, Ψ y z = hypoMean b S δ y +
      la.cholesky (Hypo15.noiseCov b (fun _ => S) δ y) *ᵥ z := ⟨_, fun _ _ => rfl⟩
  obtain ⟨Y, hY0, hY⟩ : ∃ Y : ℕ → Ω → Vec (d + 1), (∀ ω, Y 0 ω = x0) ∧ ∀ k ω, Y (k + 1) ω = Φ (Y k ω) fun q => I k q ω :=
    ⟨fun k ω => Nat.rec x0 (fun k y => Φ y fun q => I k q ω) k, fun _ => rfl, fun _ _ => rfl⟩
  have hΦm : Measurable (Function.uncurry Φ) := by
    have h1 : Continuous fun p : Vec (d + 1) × (Fin m × Fin 2 → ℝ) => ((p.1, (fun j => p.2 (j, 0)),
        (δ • ((1 / 2 : ℝ) • (fun j => p.2 (j, 0)) + (1 / Real.sqrt 6) • fun j => p.2 (j, 1)))) : Vec (d + 1) × Vec m × Vec m) := by fun_prop
    have h2 := ((taylorWith_continuous hb hEc δ).comp h1).measurable
    rw [show Function.uncurry Φ = _ from funext fun p => hΦ p.1 p.2]
    exact h2
  have hΨm : Measurable (Function.uncurry Ψ) := by
    have h1 : Continuous (hypoMean b S δ) := by
      have h2 := (itoTaylorStep_continuous hb δ).comp (Continuous.prodMk continuous_id (continuous_const (y := ((0, 0) : Vec m × Vec m))))
      refine h2.congr fun x => ?_
      simp [itoTaylorStep, hypoMean]
    rw [show Function.uncurry Ψ = _ from funext fun p => hΨ p.1 p.2]
    refine measurable_pi_lambda _ fun i => ?_
    simp only [Pi.add_apply, mulVec, dotProduct]
    refine ((measurable_pi_apply i).comp (h1.measurable.comp measurable_fst)).add (Finset.measurable_sum _ fun j _ => ?_)
    exact ((hmeas δ hδ i j).comp measurable_fst).mul ((measurable_pi_apply j).comp measurable_snd)
  have hl := hB.incArea_law hδ N
  have hIi : iIndepFun (fun (p : Fin N × (Fin m × Fin 2)) ω => I p.1 p.2 ω) P := by
    simp only [hI]
    exact hl.iIndepFun_of_diagonal
  have hIm : ∀ p : Fin N × (Fin m × Fin 2), AEMeasurable (fun ω => I p.1 p.2 ω) P := fun p => by
    simp only [hI]
    exact (hl.eval p).aemeasurable
  have hstep : ∀ k (hk : k < N) y, IdentDistrib (fun ω => Φ y fun q => I k q ω) (fun ω => Ψ y fun i => (R ω).normalVec ((key.child N k).child 1 0) (d + 1) i) P Q := by
    intro k hk y
    simp only [hΦ, hΨ]
    refine hypo_step_law hla hR ((key.child N k).child 1 0) hb.diff hS y (hC y) ?_
    have h6 : Real.sqrt 6 ≠ 0 := by positivity
    have h1 := (brownian_noise15 hB hδ N).reindex fun q : Fin 2 × Fin m => ((⟨k, hk⟩, q) : Fin N × (Fin 2 × Fin m))
    have e : (fun ω => coeffVec (fun j => I k (j, 0) ω) (δ • ((1 / 2 : ℝ) • (fun j => I k (j, 0) ω) + (1 / Real.sqrt 6) • fun j => I k (j, 1) ω))) =
        fun ω (q : Fin 2 × Fin m) => coeffVec (fun j => B j ((k : ℝ) * δ + δ).toNNReal ω - B j ((k : ℝ) * δ).toNNReal ω)
          (fun j => ∫ t in (0 : ℝ)..δ, (B j ((k : ℝ) * δ + t).toNNReal ω - B j ((k : ℝ) * δ).toNNReal ω)) q := by
      funext ω ⟨s, j⟩
      have hs : s = 0 ∨ s = 1 := by fin_cases s <;> simp
      rcases hs with rfl | rfl
      · simp [coeffVec, hI, incArea]
      · simp only [coeffVec, hI, incArea, cons_val_one, cons_val_zero, cons_val_fin_one, Pi.smul_apply, Pi.add_apply, smul_eq_mul]
        field_simp
        ring
    have e2 : bmCovDim m δ = (Matrix.of fun p q : Fin N × (Fin 2 × Fin m) => if p.1 = q.1 then bmCovDim m δ p.2 q.2 else 0).submatrix
        (fun q : Fin 2 × Fin m => ((⟨k, hk⟩, q) : Fin N × (Fin 2 × Fin m))) (fun q : Fin 2 × Fin m => ((⟨k, hk⟩, q) : Fin N × (Fin 2 × Fin m))) := by
      ext p q
      simp
    rw [e, e2]
    exact h1
  have hid := markov_identDistrib hIi hIm (hypo_draws hR key N (d + 1)) (fun p => hypo_draws_meas hR _ _ _) hΦm hΨm hY0
    (fun k _ ω => hY k ω) (Z := fun k ω => Z ω k) hZ2 (fun k hk ω => (hZ3 ω k hk).trans (hΨ _ _).symm) hstep n hn
  obtain ⟨hi, he⟩ := hA' Y (fun ω k j => I k (j, 0) ω) (fun ω k j => I k (j, 1) ω) (Eventually.of_forall hY0)
    (Eventually.of_forall fun ω k hk => by
      have h7 := exists_sameEndAndArea hδ.ne' (pathOf B ω) (k * δ)
      have e1 : (fun j => I k (j, 0) ω) = pathOf B ω (k * δ + δ) - pathOf B ω (k * δ) := by funext j; rw [hI]; rfl
      have e2 : (fun j => I k (j, 1) ω) = fun j => Real.sqrt 6 * ((∫ t in (0 : ℝ)..δ, (pathOf B ω (k * δ + t) j - pathOf B ω (k * δ) j)) / δ -
          (pathOf B ω (k * δ + δ) - pathOf B ω (k * δ)) j / 2) := by funext j; rw [hI]; rfl
      rw [e1, e2]
      exact h7)
    (Eventually.of_forall fun ω k hk => by rw [hY, hΦ]) n hn
  refine ⟨fun ω => Z ω n, fun ω => hZ1 ω n hn, fun κ g hg => ?_⟩
  have hr : 0 < Real.sqrt (A + 1) * δ := by positivity
  have hle : ∫ ω, ‖X ω (n * δ) - Y n ω‖ ^ 2 ∂P ≤ (Real.sqrt (A + 1) * δ) ^ 2 := by
    rw [mul_pow, Real.sq_sqrt (by positivity)]
    exact he.trans (mul_le_mul_of_nonneg_right (by linarith) (by positivity))
  obtain ⟨h1, h2, h3⟩ := weak_of_strong hid (solution_integrable hB hT (hb.field T) hb.L_nonneg S x0 hX hnT) hi hr hle hg
  exact ⟨h1, h2, h3.trans (le_of_eq (by ring))⟩

/-- The problem of the negative result: the velocity is a damped noisy variable, the position its integral. -/
theorem gap_drift (h : ℝ) (x : Vec 2) : hypoMean (fun x => Ivp.Harmonic.M 0 1 *ᵥ x) (Ivp.Harmonic.Csquare 1) h x 1 = (1 - h + h ^ 2 / 2) * x 1 ∧
    fderiv ℝ (fun x => Ivp.Harmonic.M 0 1 *ᵥ x) x = LinearMap.toContinuousLinearMap (Ivp.Harmonic.M 0 1).mulVecLin := by
  obtain ⟨A, hA⟩ : ∃ A : Vec 2 →L[ℝ] Vec 2, A = LinearMap.toContinuousLinearMap (Ivp.Harmonic.M 0 1).mulVecLin := ⟨_, rfl⟩
  have hAx : ∀ x, A x = Ivp.Harmonic.M 0 1 *ᵥ x := fun x => by rw [hA]; rfl
  have e : (fun x : Vec 2 => Ivp.Harmonic.M 0 1 *ᵥ x) = A := funext fun x => (hAx x).symm
  have hf1 : fderiv ℝ (A : Vec 2 → Vec 2) = fun _ => A := funext fun x => A.fderiv
  have hf2 : fderiv ℝ (fderiv ℝ (A : Vec 2 → Vec 2)) = fun _ => 0 := by rw [hf1]; exact funext fun x => fderiv_const_apply _
  rw [e, ← hA]
  refine ⟨?_, by rw [hf1]⟩
  rw [hypoMean, driftGenerator_eq, hf2, hf1]
  simp only [ContinuousLinearMap.zero_apply, Finset.sum_const_zero, smul_zero, add_zero, hAx]
  simp [Ivp.Harmonic.M, mulVec, dotProduct, Fin.sum_univ_two, vecHead, vecTail]
  ring

theorem gap_cov (h : ℝ) (hh : 0 < h) : (∀ x, Hypo15.noiseCov (fun x => Ivp.Harmonic.M 0 1 *ᵥ x) (fun _ => Ivp.Harmonic.Csquare 1) h x =
      Hypo15.noiseCov (fun x => Ivp.Harmonic.M 0 1 *ᵥ x) (fun _ => Ivp.Harmonic.Csquare 1) h 0) ∧
    (Hypo15.noiseCov (fun x => Ivp.Harmonic.M 0 1 *ᵥ x) (fun _ => Ivp.Harmonic.Csquare 1) h 0).PosDef ∧
    Hypo15.noiseCov (fun x => Ivp.Harmonic.M 0 1 *ᵥ x) (fun _ => Ivp.Harmonic.Csquare 1) h 0 1 1 = h := by
  have h1 : (fun z : Vec 2 => (Ivp.Harmonic.M 0 1 *ᵥ z) 0) = fun z => z 1 := by
    funext z
    simp [Ivp.Harmonic.M, mulVec, dotProduct, Fin.sum_univ_two]
  have h2 : ∀ x, fderiv ℝ (fun z : Vec 2 => z 1) x = ContinuousLinearMap.proj 1 := fun x =>
    (ContinuousLinearMap.proj (R := ℝ) (φ := fun _ : Fin 2 => ℝ) 1).fderiv
  have hu : ∀ x, fderiv ℝ (fun z : Vec 2 => (Ivp.Harmonic.M 0 1 *ᵥ z) 0) x (Pi.single 1 1) = 1 := fun x => by
    rw [h1, h2]
    simp
  have hpu : ∀ x, Hypo15.partialua (d := 1) (fun x => Ivp.Harmonic.M 0 1 *ᵥ x) x = fun _ => 1 := fun x => by
    funext j
    fin_cases j
    exact hu x
  have hG : ∀ x, Hypo15.GammaGammaT (d := 1) (fun _ => Ivp.Harmonic.Csquare 1) x = 1 := fun x => by
    ext i j
    fin_cases i; fin_cases j
    simp [Hypo15.GammaGammaT, Hypo15.Gamma, mul_apply, Ivp.Harmonic.Csquare]
  refine ⟨fun x => ?_, C63_posDef (d := 1) _ _ 0 hh (by rw [hG]; exact PosDef.one) ⟨0, by rw [show (Fin.succ 0 : Fin 2) = 1 from rfl, hu]; exact one_ne_zero⟩, ?_⟩
  · simp only [Hypo15.noiseCov, hpu, hG]
    rfl
  · have h3 : Hypo15.noiseCov (fun x => Ivp.Harmonic.M 0 1 *ᵥ x) (fun _ => Ivp.Harmonic.Csquare 1) h 0 1 1 =
      Hypo15.GammaGammaT (d := 1) (fun _ => Ivp.Harmonic.Csquare 1) (0 : Vec 2) 0 0 * h := rfl
    rw [h3, hG]
    simp

/-- C138 fails: the announced order 1.5 does not hold. For a damped noisy velocity and its integral, which meet the hypotheses of
`C138_partial`, the mean absolute velocity at time one is not approximated with an error of order `h ^ (3 / 2)`. -/
theorem C138_fails {la : LinAlg} (hla : la.Correct) {Ω : Type*} [MeasurableSpace Ω] {P : Measure Ω} {B : Fin 2 → ℝ≥0 → Ω → ℝ}
    (hB : IsBrownianVec B P) {X : Ω → ℝ → Vec 2} (hX : ∀ᵐ ω ∂P, SolvesAdditive (fun x _ => Ivp.Harmonic.M 0 1 *ᵥ x) (Ivp.Harmonic.Csquare 1)
      (fun t j => B j t.toNNReal ω) 0 1 (X ω))
    {Ω' : Type*} [MeasurableSpace Ω'] {Q : Measure Ω'} {R : Ω' → Rng} (hR : IdealNormals Q R) (key : Key) :
    ¬ ∃ A : ℝ, ∀ N : ℕ, 0 < N → ∀ y : Ω' → Vec 2,
      (∀ ω, (Hypo15.solver la (R ω) key (0 : Vec 2) (fun x => Ivp.Harmonic.M 0 1 *ᵥ x) (fun _ => Ivp.Harmonic.Csquare 1) (1 / N) N).2[N]? = some (y ω)) →
      |∫ ω, |y ω 1| ∂Q - ∫ ω, |X ω 1 1| ∂P| ≤ A * (1 / N : ℝ) ^ (3 / 2 : ℝ) := by
  rintro ⟨A, hA⟩
  have hP := hB.isProb
  have hQ : IsProbabilityMeasure Q := (normalVec_std hR [] 1).isProb
  obtain ⟨b, hbdef⟩ : ∃ b : Vec 2 → Vec 2, b = fun x => Ivp.Harmonic.M 0 1 *ᵥ x := ⟨_, rfl⟩
  obtain ⟨S, hS⟩ : ∃ S : Mat 2 2, S = Ivp.Harmonic.Csquare 1 := ⟨_, rfl⟩
  obtain ⟨L, K4, hb⟩ := smooth15_linear (Ivp.Harmonic.M 0 1) S
  have hX' : ∀ᵐ ω ∂P, SolvesAdditive (fun x _ => b x) S (fun t j => B j t.toNNReal ω) 0 1 (X ω) := by rw [hbdef, hS]; exact hX
  have hmean : ∀ h x, hypoMean b S h x 1 = (1 - h + h ^ 2 / 2) * x 1 := fun h x => by rw [hbdef, hS]; exact (gap_drift h x).1
  have hfd : ∀ x v, fderiv ℝ b x v = Ivp.Harmonic.M 0 1 *ᵥ v := fun x v => by rw [hbdef, (gap_drift 0 x).2]; rfl
  rw [← hbdef] at hb
  rw [← hbdef, ← hS] at hA
  obtain ⟨A', hA0', hA'⟩ := order15_core hB one_pos hb 0 hX'
  have hmc : ∀ δ, Continuous (hypoMean b S δ) := fun δ => by
    have h2 := (itoTaylorStep_continuous hb δ).comp (Continuous.prodMk continuous_id (continuous_const (y := ((0, 0) : Vec 2 × Vec 2))))
    refine h2.congr fun x => ?_
    simp [itoTaylorStep, hypoMean]
  have hcov : ∀ h, 0 < h → (∀ x, Hypo15.noiseCov b (fun _ => S) h x = Hypo15.noiseCov b (fun _ => S) h 0) ∧
      (Hypo15.noiseCov b (fun _ => S) h 0).PosDef ∧ Hypo15.noiseCov b (fun _ => S) h 0 1 1 = h := by
    rw [hbdef, hS]
    exact gap_cov
  -- the contradiction, from the estimate for every number of steps
  obtain ⟨μ, hμ⟩ : ∃ μ, μ = ∫ z, |z| ∂gaussianReal 0 1 := ⟨_, rfl⟩
  have hμ0 : 0 < μ := by rw [hμ]; exact abs_gauss_pos
  have key_est : ∀ N : ℕ, 0 < N → Real.exp (-2) / 3 * (1 / N) * μ ≤ (A + Real.sqrt (A' + 1)) * (1 / N : ℝ) ^ (3 / 2 : ℝ) := by
    intro N hN
    have hN' : (0 : ℝ) < N := by exact_mod_cast hN
    have hAN := hA N hN
    have hAN' := hA' N hN
    obtain ⟨δ, hδdef⟩ : ∃ δ : ℝ, δ = 1 / N := ⟨_, rfl⟩
    rw [← hδdef] at hAN hAN' ⊢
    have hδ : 0 < δ := by rw [hδdef]; positivity
    have hNδ : (N : ℝ) * δ = 1 := by rw [hδdef]; field_simp
    obtain ⟨q, hq⟩ : ∃ q, q = 1 - δ + δ ^ 2 / 2 := ⟨_, rfl⟩
    obtain ⟨c, hc⟩ : ∃ c : ℝ≥0, (c : ℝ) = q ^ 2 := ⟨⟨q ^ 2, sq_nonneg q⟩, rfl⟩
    have hGsum : ((∑ i ∈ Finset.range N, c ^ i : ℝ≥0) : ℝ) = ∑ i ∈ Finset.range N, (q ^ 2) ^ i := by
      push_cast
      rw [hc]
    have hgap := gap_sqrt hN hδdef hq hGsum
    -- the law of the output
    choose Z hZ1 hZ2 hZ3 using fun ω => hypo_states la (R ω) key (0 : Vec 2) hb.diff S δ N
    have hZlaw : HasLaw (fun ω => Z ω N 1) (gaussianReal 0 (δ.toNNReal * ∑ i ∈ Finset.range N, c ^ i)) Q := by
      obtain ⟨Λ, hΛ⟩ : ∃ Λ, Λ = la.cholesky (Hypo15.noiseCov b (fun _ => S) δ 0) := ⟨_, rfl⟩
      have hΛ2 : Λ * Λᵀ = Hypo15.noiseCov b (fun _ => S) δ 0 := by rw [hΛ]; exact hla.chol_mul _ (hcov δ hδ).2.1
      have hZ3' : ∀ k < N, ∀ ω, Z ω (k + 1) = hypoMean b S δ (Z ω k) + Λ *ᵥ (R ω).normalVec ((key.child N k).child 1 0) 2 := fun k hk ω => by
        rw [hZ3 ω k hk, (hcov δ hδ).1, ← hΛ]
      have hm : Measurable (Function.uncurry fun (y z : Vec 2) => hypoMean b S δ y + Λ *ᵥ z) := by
        have h1 : Continuous fun z : Vec 2 => Λ *ᵥ z := (Matrix.mulVecLin Λ).continuous_of_finiteDimensional
        exact ((hmc δ).comp continuous_fst).add (h1.comp continuous_snd) |>.measurable
      have hind := state_indep (hypo_draws hR key N 2) (fun p => hypo_draws_meas hR _ _ _) hm (Z := fun k ω => Z ω k) hZ2
        (fun k hk ω => hZ3' k hk ω)
      refine ar_law hc (U := fun k ω => Z ω k 1) (ε := fun k ω => (Λ *ᵥ (R ω).normalVec ((key.child N k).child 1 0) 2) 1) (fun ω => by rw [hZ2]; rfl)
        (fun k hk ω => by rw [hZ3' k hk ω, Pi.add_apply, hmean, ← hq]) (fun k hk => ?_) (fun k hk => ?_) N le_rfl
      · refine (hind k hk).comp (φ := fun y : Vec 2 => y 1) (ψ := fun z : Vec 2 => (Λ *ᵥ z) 1) (measurable_pi_apply 1) ?_
        have h1 : Continuous fun z : Vec 2 => Λ *ᵥ z := (Matrix.mulVecLin Λ).continuous_of_finiteDimensional
        exact ((continuous_apply 1).comp h1).measurable
      · have h1 := ((normalVec_std hR ((key.child N k).child 1 0) 2).affine 0 Λ).eval 1
        simp only [mulVec_zero, zero_add, Matrix.mul_one, hΛ2, (hcov δ hδ).2.2] at h1
        exact h1
    -- the law of the scheme of order 1.5
    obtain ⟨I, hI⟩ : ∃ I : ℕ → Fin 2 × Fin 2 → Ω → ℝ, ∀ k q ω, I k q ω = incArea (fun t => B q.1 t.toNNReal ω) δ k q.2 := ⟨_, fun _ _ _ => rfl⟩
    obtain ⟨Φ, hΦ⟩ : ∃ Φ : Vec 2 → (Fin 2 × Fin 2 → ℝ) → Vec 2, ∀ y v, Φ y v = itoTaylorStep b S δ y (fun j => v (j, 0))
        (δ • ((1 / 2 : ℝ) • (fun j => v (j, 0)) + (1 / Real.sqrt 6) • fun j => v (j, 1))) := ⟨_, fun _ _ => rfl⟩
    obtain ⟨Y, hY0, hY⟩ : ∃ Y : ℕ → Ω → Vec 2, (∀ ω, Y 0 ω = 0) ∧ ∀ k ω, Y (k + 1) ω = Φ (Y k ω) fun q => I k q ω :=
      ⟨fun k ω => Nat.rec 0 (fun k y => Φ y fun q => I k q ω) k, fun _ => rfl, fun _ _ => rfl⟩
    have hl := hB.incArea_law hδ N
    have hIi : iIndepFun (fun (p : Fin N × (Fin 2 × Fin 2)) ω => I p.1 p.2 ω) P := by
      simp only [hI]
      exact hl.iIndepFun_of_diagonal
    have hIm : ∀ p : Fin N × (Fin 2 × Fin 2), AEMeasurable (fun ω => I p.1 p.2 ω) P := fun p => by
      simp only [hI]
      exact (hl.eval p).aemeasurable
    have hΦm : Measurable (Function.uncurry Φ) := by
      have h1 : Continuous fun p : Vec 2 × (Fin 2 × Fin 2 → ℝ) => ((p.1, (fun j => p.2 (j, 0)),
          (δ • ((1 / 2 : ℝ) • (fun j => p.2 (j, 0)) + (1 / Real.sqrt 6) • fun j => p.2 (j, 1)))) : Vec 2 × Vec 2 × Vec 2) := by fun_prop
      rw [show Function.uncurry Φ = _ from funext fun p => hΦ p.1 p.2]
      exact ((itoTaylorStep_continuous hb δ).comp h1).measurable
    have hind := state_indep hIi hIm hΦm hY0 (fun k _ ω => hY k ω)
    have hYlaw : HasLaw (fun ω => Y N ω 1) (gaussianReal 0 ((δ - δ ^ 2 + δ ^ 3 / 3).toNNReal * ∑ i ∈ Finset.range N, c ^ i)) P := by
      refine ar_law hc (U := fun k ω => Y k ω 1) (ε := fun k ω => I k (0, 0) ω - δ * (1 / 2 * I k (0, 0) ω + 1 / Real.sqrt 6 * I k (0, 1) ω))
        (fun ω => by rw [hY0]; rfl) (fun k hk ω => ?_) (fun k hk => ?_) (fun k hk => ?_) N le_rfl
      · rw [hY, hΦ, itoTaylorStep, Pi.add_apply, Pi.add_apply, ← hypoMean, hmean, hfd, ← hq, hS]
        simp [Ivp.Harmonic.M, Ivp.Harmonic.Csquare, mulVec, dotProduct, Fin.sum_univ_two]
        ring
      · exact (hind k hk).comp (φ := fun y : Vec 2 => y 1) (ψ := fun v : Fin 2 × Fin 2 → ℝ => v (0, 0) - δ * (1 / 2 * v (0, 0) + 1 / Real.sqrt 6 * v (0, 1)))
          (measurable_pi_apply 1) (by fun_prop)
      · obtain ⟨ρ, hρ⟩ : ∃ ρ : Matrix (Fin 1) (Fin 2 × Fin 2) ℝ, ∀ i p, ρ i p = !![1 - δ / 2, -(δ / Real.sqrt 6); 0, 0] p.1 p.2 := ⟨fun i p => _, fun _ _ => rfl⟩
        have h1 := (((hl.reindex fun p : Fin 2 × Fin 2 => ((⟨k, hk⟩, p) : Fin N × (Fin 2 × Fin 2))).affine 0 ρ).eval 0)
        have h6 : Real.sqrt 6 * Real.sqrt 6 = 6 := Real.mul_self_sqrt (by norm_num)
        have h60 : Real.sqrt 6 ≠ 0 := by positivity
        convert h1 using 1
        · funext ω
          simp only [zero_add, mulVec, dotProduct, hρ, Fintype.sum_prod_type, Fin.sum_univ_two, hI]
          simp
          ring
        · congr 1
          · simp [mulVec, dotProduct]
          · congr 1
            simp only [mul_apply, transpose_apply, hρ, Fintype.sum_prod_type, Fin.sum_univ_two, submatrix_apply, diagonal_apply]
            simp
            field_simp
            rw [show Real.sqrt 6 ^ 2 = 6 by rw [sq, h6]]
            ring
    obtain ⟨hi, he⟩ := hAN' Y (fun ω k j => I k (j, 0) ω) (fun ω k j => I k (j, 1) ω) (Eventually.of_forall hY0)
      (Eventually.of_forall fun ω k hk => by
        have h7 := exists_sameEndAndArea hδ.ne' (pathOf B ω) (k * δ)
        have e1 : (fun j => I k (j, 0) ω) = pathOf B ω (k * δ + δ) - pathOf B ω (k * δ) := by funext j; rw [hI]; rfl
        have e2 : (fun j => I k (j, 1) ω) = fun j => Real.sqrt 6 * ((∫ t in (0 : ℝ)..δ, (pathOf B ω (k * δ + t) j - pathOf B ω (k * δ) j)) / δ -
            (pathOf B ω (k * δ + δ) - pathOf B ω (k * δ)) j / 2) := by funext j; rw [hI]; rfl
        rw [e1, e2]
        exact h7)
      (Eventually.of_forall fun ω k hk => by rw [hY, hΦ]) N le_rfl
    have hp : (δ ^ (3 / 2 : ℝ)) ^ 2 = δ ^ 3 := by
      rw [← Real.rpow_natCast, ← Real.rpow_mul hδ.le]
      norm_num
    have hr : 0 < Real.sqrt (A' + 1) * δ ^ (3 / 2 : ℝ) := by positivity
    have hle : ∫ ω, ‖X ω (N * δ) - Y N ω‖ ^ 2 ∂P ≤ (Real.sqrt (A' + 1) * δ ^ (3 / 2 : ℝ)) ^ 2 := by
      rw [mul_pow, Real.sq_sqrt (by positivity), hp]
      exact he.trans (mul_le_mul_of_nonneg_right (by linarith) (by positivity))
    have hYm : AEMeasurable (Y N) P := by
      have h1 : ∀ k ≤ N, AEMeasurable (Y k) P := fun k => by
        induction k with
        | zero => exact fun _ => by rw [show Y 0 = fun _ => 0 from funext hY0]; exact aemeasurable_const
        | succ k ih =>
          intro hk
          rw [show Y (k + 1) = _ from funext (hY k)]
          exact hΦm.comp_aemeasurable ((ih (by omega)).prodMk (aemeasurable_pi_lambda _ fun p => hIm (⟨k, hk⟩, p)))
      exact h1 N le_rfl
    have hlip : LipschitzWith 1 fun x : Vec 2 => |x 1| := LipschitzWith.of_dist_le_mul fun x y => by
      rw [NNReal.coe_one, one_mul, Real.dist_eq, dist_eq_norm]
      exact (abs_abs_sub_abs_le _ _).trans (norm_le_pi_norm (x - y) 1)
    obtain ⟨h1, h2, h3⟩ := weak_of_strong (IdentDistrib.refl hYm) (solution_integrable hB one_pos (hb.field 1) hb.L_nonneg S 0 hX'
      (by rw [hNδ]; exact ⟨zero_le_one, le_rfl⟩)) hi hr hle hlip
    have h4 := hAN (fun ω => Z ω N) (fun ω => hZ1 ω N le_rfl)
    rw [hNδ] at h3
    rw [abs_gauss hYlaw, ← hμ, NNReal.coe_one, one_mul] at h3
    rw [abs_gauss hZlaw, ← hμ] at h4
    have hpos : 0 ≤ δ - δ ^ 2 + δ ^ 3 / 3 := by
      have h5 : δ - δ ^ 2 + δ ^ 3 / 3 = δ * ((1 - δ / 2) ^ 2 + δ ^ 2 / 12) := by ring
      rw [h5]; positivity
    rw [NNReal.coe_mul, Real.coe_toNNReal _ hδ.le] at h4
    rw [NNReal.coe_mul, Real.coe_toNNReal _ hpos] at h3
    rw [abs_le] at h3 h4
    have h5 := mul_le_mul_of_nonneg_right hgap hμ0.le
    rw [sub_mul] at h5
    linarith only [h3.1, h4.2, h5]
  obtain ⟨C, hC⟩ : ∃ C, C = A + Real.sqrt (A' + 1) := ⟨_, rfl⟩
  obtain ⟨e, he⟩ : ∃ e, e = Real.exp (-2) / 3 * μ := ⟨_, rfl⟩
  have he0 : 0 < e := by rw [he]; positivity
  obtain ⟨N, hN⟩ := exists_nat_gt ((C / e) ^ 2)
  have hN0 : 0 < N := by exact_mod_cast (sq_nonneg _).trans_lt hN
  have hN' : (0 : ℝ) < N := by exact_mod_cast hN0
  have h1 := key_est N hN0
  have h2 : (1 / N : ℝ) ^ (3 / 2 : ℝ) = 1 / N * Real.sqrt (1 / N) := by
    rw [show (3 / 2 : ℝ) = 1 + 1 / 2 by norm_num, Real.rpow_add (by positivity), Real.rpow_one, Real.sqrt_eq_rpow]
  rw [h2, ← hC] at h1
  have h3 : e ≤ C * Real.sqrt (1 / N) := by
    have h4 : 1 / (N : ℝ) * e ≤ 1 / N * (C * Real.sqrt (1 / N)) := by rw [he]; linarith only [h1]
    exact le_of_mul_le_mul_left h4 (by positivity)
  have h5 : Real.sqrt (1 / N) ^ 2 = 1 / N := Real.sq_sqrt (by positivity)
  have h6 : e ^ 2 ≤ C ^ 2 * (1 / N) := by
    rw [← h5, ← mul_pow]
    exact pow_le_pow_left₀ he0.le h3 2
  rw [div_pow, div_lt_iff₀ (by positivity)] at hN
  have h7 : e ^ 2 * N ≤ C ^ 2 := by
    have := mul_le_mul_of_nonneg_right h6 hN'.le
    rwa [mul_assoc, one_div_mul_cancel hN'.ne', mul_one] at this
  linarith only [h7, hN]

/-- C138, the problem of the negative result meets the hypotheses of both theorems, with the constructed Brownian motion and generator. -/
example {la : LinAlg} : ∃ (B : Fin 2 → ℝ≥0 → (Fin 2 → ℕ × ℕ → ℝ) → ℝ) (X : (Fin 2 → ℕ × ℕ → ℝ) → ℝ → Vec 2),
    IsBrownianVec B (Measure.pi fun _ => Levy.noise) ∧ (∃ L K4, Smooth15 (fun x => Ivp.Harmonic.M 0 1 *ᵥ x) (Ivp.Harmonic.Csquare 1) L 0 0 K4) ∧
      (∀ᵐ ω ∂(Measure.pi fun _ : Fin 2 => Levy.noise), SolvesAdditive (fun x _ => Ivp.Harmonic.M 0 1 *ᵥ x) (Ivp.Harmonic.Csquare 1)
        (fun t j => B j t.toNNReal ω) 0 1 (X ω)) ∧
      (∀ l, Ivp.Harmonic.Csquare 1 0 l = 0) ∧
      ((Ivp.Harmonic.Csquare 1).submatrix (Fin.succ : Fin 1 → Fin 2) id * ((Ivp.Harmonic.Csquare 1).submatrix (Fin.succ : Fin 1 → Fin 2) id)ᵀ : Mat 1 1).PosDef ∧
      (∀ x, ∃ j : Fin 1, fderiv ℝ (fun z => (Ivp.Harmonic.M 0 1 *ᵥ z) 0) x (Pi.single j.succ 1) ≠ 0) ∧
      (∀ h, 0 < h → ∀ i j, Measurable fun x => la.cholesky (Hypo15.noiseCov (fun x => Ivp.Harmonic.M 0 1 *ᵥ x) (fun _ => Ivp.Harmonic.Csquare 1) h x) i j) ∧
      IdealNormals drawsMeasure drawsRng := by
  obtain ⟨B, hB⟩ := Levy.exists_brownianVec 2
  obtain ⟨L, K4, hb⟩ := smooth15_linear (Ivp.Harmonic.M 0 1) (Ivp.Harmonic.Csquare 1)
  have hex : ∀ ω, ∃ X, Continuous (fun (t : ℝ) (j : Fin 2) => B j t.toNNReal ω) →
      SolvesAdditive (fun (x : Vec 2) _ => Ivp.Harmonic.M 0 1 *ᵥ x) (Ivp.Harmonic.Csquare 1) (fun t j => B j t.toNNReal ω) 0 1 X := fun ω => by
    by_cases h : Continuous (fun (t : ℝ) (j : Fin 2) => B j t.toNNReal ω)
    · obtain ⟨X, hX⟩ := exists_solvesAdditive zero_le_one (hb.field 1).cont (hb.field 1).lip (Ivp.Harmonic.Csquare 1) h.continuousOn 0
      exact ⟨X, fun _ => hX⟩
    · exact ⟨0, fun h' => absurd h' h⟩
  choose X hX using hex
  refine ⟨B, X, hB, ⟨L, K4, hb⟩, ?_, fun l => by fin_cases l <;> simp [Ivp.Harmonic.Csquare], ?_, fun x => ⟨0, ?_⟩, fun h hh i j => ?_, idealNormals_drawsRng⟩
  · filter_upwards [ae_all_iff.mpr fun j => (hB.brownian j).cont] with ω hω
    exact hX ω (continuous_pi fun j => (hω j).comp continuous_real_toNNReal)
  · have : ((Ivp.Harmonic.Csquare 1).submatrix (Fin.succ : Fin 1 → Fin 2) id * ((Ivp.Harmonic.Csquare 1).submatrix (Fin.succ : Fin 1 → Fin 2) id)ᵀ : Mat 1 1) = 1 := by
      ext i j
      fin_cases i; fin_cases j
      simp [mul_apply, Ivp.Harmonic.Csquare]
    rw [this]
    exact PosDef.one
  · have h1 : (fun z : Vec 2 => (Ivp.Harmonic.M 0 1 *ᵥ z) 0) = fun z => z 1 := by
      funext z
      simp [Ivp.Harmonic.M, mulVec, dotProduct, Fin.sum_univ_two]
    have h2 : fderiv ℝ (fun z : Vec 2 => z 1) x = ContinuousLinearMap.proj 1 :=
      (ContinuousLinearMap.proj (R := ℝ) (φ := fun _ : Fin 2 => ℝ) 1).fderiv
    rw [h1, h2]
    simp
  · rw [show (fun x => la.cholesky (Hypo15.noiseCov (fun x => Ivp.Harmonic.M 0 1 *ᵥ x) (fun _ => Ivp.Harmonic.Csquare 1) h x) i j) = fun _ =>
      la.cholesky (Hypo15.noiseCov (fun x => Ivp.Harmonic.M 0 1 *ᵥ x) (fun _ => Ivp.Harmonic.Csquare 1) h 0) i j from funext fun x => by rw [(gap_cov h hh).1]]
    exact measurable_const

end Verif
