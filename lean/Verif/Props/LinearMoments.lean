import Verif.Lemmas.LinearSolution
import Verif.Lemmas.LawMoments
import Verif.Model.Tests
import Verif.Props.Ivp
import Verif.Props.EkfRun
import Verif.Props.StrongEkf1

/-! The closed forms of `ivp.py` and of the end to end test are the laws of the solutions; the moments of the runs. -/

namespace Verif

open Matrix Spec Jnp Set MeasureTheory ProbabilityTheory Filter
open scoped NNReal Topology

variable {d m : ℕ}

/-! ## C127 -/

/-- C127: the solution of a linear SDE with additive noise is normal at every time; its mean solves the linear equation from `x0` and its
covariance solves the variance equation from zero. -/
theorem C127_law {Ω : Type*} [MeasurableSpace Ω] {P : Measure Ω} {B : Fin m → ℝ≥0 → Ω → ℝ} (hB : IsBrownianVec B P) (F : Mat d d)
    (S : Mat d m) (x0 : Vec d) {T : ℝ} {X : Ω → ℝ → Vec d}
    (hX : ∀ᵐ ω ∂P, SolvesAdditive (fun x _ => F *ᵥ x) S (fun t j => B j t.toNNReal ω) x0 T (X ω))
    {V : ℝ → Mat d d} (hV : SolvesVarianceODE F S V) {t : ℝ} (ht : t ∈ Icc 0 T) :
    IsNormal P (fun ω => X ω t) (expm (t • F) *ᵥ x0) (V t) := by
  rw [varianceODE_unique hV t]
  exact linear_solution_law hB F S x0 hX ht

theorem expm_nilpotent2 (t : ℝ) : expm (t • (!![0, 1; 0, 0] : Mat 2 2)) = !![1, t; 0, 1] := by
  refine (expm_unique !![0, 1; 0, 0] (fun s => !![1, s; 0, 1]) ?_ (fun s i j => ?_) t).symm
  · ext i j; fin_cases i <;> fin_cases j <;> simp
  · fin_cases i <;> fin_cases j <;> simp [Matrix.mul_apply, Fin.sum_univ_two, hasDerivAt_const, hasDerivAt_id']

theorem expm_nilpotent3 (t : ℝ) : expm (t • (!![0, 1, 0; 0, 0, 1; 0, 0, 0] : Mat 3 3)) = !![1, t, t ^ 2 / 2; 0, 1, t; 0, 0, 1] := by
  refine (expm_unique !![0, 1, 0; 0, 0, 1; 0, 0, 0] (fun s => !![1, s, s ^ 2 / 2; 0, 1, s; 0, 0, 1]) ?_ (fun s i j => ?_) t).symm
  · ext i j; fin_cases i <;> fin_cases j <;> simp
  · have h2 := (hasDerivAt_pow 2 s).div_const 2
    norm_num at h2
    fin_cases i <;> fin_cases j <;> simp [Matrix.mul_apply, Fin.sum_univ_three, hasDerivAt_const, hasDerivAt_id', h2]

/-- C127 for `ibm`. -/
theorem C127_ibm {Ω : Type*} [MeasurableSpace Ω] {P : Measure Ω} {B : Fin 1 → ℝ≥0 → Ω → ℝ} (hB : IsBrownianVec B P) {T : ℝ}
    {X : Ω → ℝ → Vec 2}
    (hX : ∀ᵐ ω ∂P, SolvesAdditive Ivp.Ibm.drift (Ivp.Ibm.sigma 0 0) (fun t j => B j t.toNNReal ω) Ivp.Ibm.x0 T (X ω)) {t : ℝ}
    (ht : t ∈ Icc 0 T) : IsNormal P (fun ω => X ω t) ![1 + t, 1] (Ivp.Ibm.var t) := by
  obtain ⟨F, hF, -, -, hV, -⟩ := C64_ibm
  have hF' : F = !![0, 1; 0, 0] := by
    refine Matrix.toLin'.injective (LinearMap.ext fun x => ?_)
    rw [Matrix.toLin'_apply, Matrix.toLin'_apply, ← hF x 0]
    rfl
  subst hF'
  have h := C127_law hB _ _ _ hX hV ht
  rwa [expm_nilpotent2, show (!![1, t; 0, 1] : Mat 2 2) *ᵥ Ivp.Ibm.x0 = ![1 + t, 1] by
    ext i; fin_cases i <;> simp [Ivp.Ibm.x0, mulVec, dotProduct, Fin.sum_univ_two]] at h

/-- C127 for `double_ibm`. -/
theorem C127_double_ibm {Ω : Type*} [MeasurableSpace Ω] {P : Measure Ω} {B : Fin 1 → ℝ≥0 → Ω → ℝ} (hB : IsBrownianVec B P) {T : ℝ}
    {X : Ω → ℝ → Vec 3}
    (hX : ∀ᵐ ω ∂P, SolvesAdditive Ivp.DoubleIbm.drift (Ivp.DoubleIbm.sigma 0 0) (fun t j => B j t.toNNReal ω) Ivp.DoubleIbm.x0 T (X ω))
    {t : ℝ} (ht : t ∈ Icc 0 T) : IsNormal P (fun ω => X ω t) ![t ^ 2 / 2, t, 1] (Ivp.DoubleIbm.var t) := by
  obtain ⟨F, hF, -, hV, -⟩ := C64_double_ibm
  have hF' : F = !![0, 1, 0; 0, 0, 1; 0, 0, 0] := by
    refine Matrix.toLin'.injective (LinearMap.ext fun x => ?_)
    rw [Matrix.toLin'_apply, Matrix.toLin'_apply, ← hF x 0]
    rfl
  subst hF'
  have h := C127_law hB _ _ _ hX hV ht
  rwa [expm_nilpotent3, show (!![1, t, t ^ 2 / 2; 0, 1, t; 0, 0, 1] : Mat 3 3) *ᵥ Ivp.DoubleIbm.x0 = ![t ^ 2 / 2, t, 1] by
    ext i; fin_cases i <;> simp [Ivp.DoubleIbm.x0, mulVec, dotProduct, Fin.sum_univ_three]] at h

/-- C127 for the harmonic oscillators: `theoretical_mean` is the mean, `theoretical_variance` differs from the covariance by the error of
a trapezoidal rule with 999 cells, and `theoretical_variance_up_to_order3` has the derivatives of the covariance at zero up to order three. -/
theorem C127_harmonic {Ω : Type*} [MeasurableSpace Ω] {P : Measure Ω} {l : ℕ} {B : Fin l → ℝ≥0 → Ω → ℝ} (hB : IsBrownianVec B P)
    (D gamma : ℝ) (C : Mat 2 l) {T : ℝ} {X : Ω → ℝ → Vec 2}
    (hX : ∀ᵐ ω ∂P, SolvesAdditive (Ivp.Harmonic.drift D gamma) C (fun t j => B j t.toNNReal ω) Ivp.Harmonic.x0 T (X ω)) :
    ∃ V : ℝ → Mat 2 2, (∀ t ∈ Icc 0 T, IsNormal P (fun ω => X ω t) (Ivp.Harmonic.mean D gamma t) (V t)) ∧
      (∀ t i j z, (∀ s ∈ uIcc 0 t, |iteratedDeriv 3 (fun s => V s i j) s| ≤ z) →
        |Ivp.Harmonic.variance D gamma C t i j - V t i j| ≤ |t| ^ 3 * z / (12 * 999 ^ 2)) ∧
      ∀ sig : ℝ, C * Cᵀ = !![0, 0; 0, sig ^ 2] → ∀ k ≤ 3, ∀ i j,
        iteratedDeriv k (fun t => Ivp.Harmonic.var3 D gamma sig t i j) 0 = iteratedDeriv k (fun t => V t i j) 0 := by
  have hV := transitionCov_solves (Ivp.Harmonic.M D gamma) C
  refine ⟨_, fun t ht => C127_law hB _ C _ hX hV ht, fun t i j z hz => (C73_integrated D gamma C _ hV).2.2 t i j z hz, fun sig hC k hk i j => ?_⟩
  obtain ⟨V, hV1, -, hV3⟩ := C65_variance D gamma sig
  have : SolvesVarianceODE (Ivp.Harmonic.M D gamma) C V := by
    refine ⟨hV1.1, fun t i j => ?_⟩
    have h := hV1.2 t i j
    rwa [show Ivp.Harmonic.C sig * (Ivp.Harmonic.C sig)ᵀ = C * Cᵀ by
      rw [hC]; ext i j; fin_cases i <;> fin_cases j <;> simp [Ivp.Harmonic.C, Matrix.mul_apply]; ring] at h
  rw [hV3 k hk i j, funext (varianceODE_unique this)]

theorem harmonic_noise (sig : ℝ) : Ivp.Harmonic.C sig * (Ivp.Harmonic.C sig)ᵀ = !![0, 0; 0, sig ^ 2] ∧
    Ivp.Harmonic.Csquare sig * (Ivp.Harmonic.Csquare sig)ᵀ = !![0, 0; 0, sig ^ 2] := by
  constructor <;> ext i j <;> fin_cases i <;> fin_cases j <;> simp [Ivp.Harmonic.C, Ivp.Harmonic.Csquare, Matrix.mul_apply, Fin.sum_univ_two] <;> ring

theorem expm_scalar (a : ℝ) : expm (!![a] : Mat 1 1) = !![Real.exp a] := by
  have h := expm_unique !![a] (fun s => !![Real.exp (s * a)]) (by ext i j; fin_cases i; fin_cases j; simp) (fun s i j => by
    fin_cases i; fin_cases j
    have := ((hasDerivAt_id' s).mul_const a).exp
    simpa [Matrix.mul_apply, mul_comm] using this) 1
  rw [one_smul, one_mul] at h
  exact h.symm

/-- With additive noise the conversion the test makes changes nothing. -/
theorem endToEnd_problem (mu sig : ℝ) : EndToEnd.problem mu sig = (fun x _ => (!![mu] : Mat 1 1) *ᵥ x, fun _ _ => !![sig]) := by
  refine Prod.ext (funext fun x => funext fun t => ?_) rfl
  ext i
  fin_cases i
  simp [EndToEnd.problem, EndToEnd.drift, EndToEnd.sigma, toStratonovich, driftCorrection, Jnp.pd, mulVec, dotProduct]

/-- C127 for the scalar problem of the end to end test: the solution at `N δ` has the mean the test asserts, for every `mu`, and the
standard deviation it asserts for the parameters of the test. -/
theorem C127_test {Ω : Type*} [MeasurableSpace Ω] {P : Measure Ω} {B : Fin 1 → ℝ≥0 → Ω → ℝ} (hB : IsBrownianVec B P) {mu : ℝ} (hmu : mu ≠ 0)
    (sig : ℝ) {T : ℝ} {X : Ω → ℝ → Vec 1}
    (hX : ∀ᵐ ω ∂P, SolvesAdditive (EndToEnd.problem mu sig).1 ((EndToEnd.problem mu sig).2 0 0) (fun t j => B j t.toNNReal ω) EndToEnd.x0 T (X ω))
    {δ : ℝ} (N : ℕ) (ht : (N * δ : ℝ) ∈ Icc 0 T) :
    (∀ t ∈ Icc 0 T, IsNormal P (fun ω => X ω t) (fun _ => Real.exp (mu * t)) !![sig ^ 2 * ((Real.exp (2 * mu * t) - 1) / (2 * mu))]) ∧
    (∫ ω, X ω (N * δ) 0 ∂P = EndToEnd.refMean mu δ N 0) ∧
    ((mu, sig) = EndToEnd.params → Real.sqrt (Var[fun ω => X ω (N * δ) 0; P]) = EndToEnd.refStd sig δ N) := by
  rw [endToEnd_problem] at hX
  have hV : SolvesVarianceODE !![mu] (!![sig] : Mat 1 1) fun t => !![sig ^ 2 * ((Real.exp (2 * mu * t) - 1) / (2 * mu))] := by
    refine ⟨by ext i j; fin_cases i; fin_cases j; simp, fun t i j => ?_⟩
    have hi : i = 0 := Subsingleton.elim _ _
    have hj : j = 0 := Subsingleton.elim _ _
    subst hi hj
    have h := (((((hasDerivAt_id' t).const_mul (2 * mu)).exp).sub_const 1).div_const (2 * mu)).const_mul (sig ^ 2)
    refine h.congr_deriv ?_
    simp only [Matrix.add_apply, Matrix.mul_apply, transpose_apply, Finset.univ_unique, Fin.default_eq_zero, Finset.sum_singleton, of_apply, cons_val_zero]
    field_simp
    ring
  have hlaw : ∀ t ∈ Icc 0 T, IsNormal P (fun ω => X ω t) (fun _ => Real.exp (mu * t)) !![sig ^ 2 * ((Real.exp (2 * mu * t) - 1) / (2 * mu))] := by
    intro t ht
    have h := C127_law hB !![mu] !![sig] EndToEnd.x0 hX hV ht
    have e : expm (t • (!![mu] : Mat 1 1)) *ᵥ EndToEnd.x0 = fun _ => Real.exp (mu * t) := by
      rw [show t • (!![mu] : Mat 1 1) = !![mu * t] by ext i j; fin_cases i; fin_cases j; simp [mul_comm], expm_scalar]
      ext i
      fin_cases i
      simp [EndToEnd.x0, mulVec, dotProduct]
    rwa [e] at h
  refine ⟨hlaw, ?_, fun hp => ?_⟩
  · rw [(hlaw _ ht).mean]
    simp only [EndToEnd.refMean, EndToEnd.x0, Pi.smul_apply, Pi.one_apply, smul_eq_mul, mul_one]
    congr 1
    ring
  · have h1 : mu = 1 := (Prod.ext_iff.mp hp).1
    have h2 : sig = 1 := (Prod.ext_iff.mp hp).2
    subst h1 h2
    have hm := (hlaw _ ht).memLp 0
    rw [← covariance_self hm.1.aemeasurable, (hlaw _ ht).cov, EndToEnd.refStd]
    congr 1
    simp
    rw [show (2 * (N * δ) : ℝ) = N * δ * 2 by ring]
    ring

/-- C127: Brownian motions and solutions as in the theorems exist, here for the damped harmonic oscillator. -/
example : ∃ (B : Fin 1 → ℝ≥0 → (Fin 1 → ℕ × ℕ → ℝ) → ℝ) (X : (Fin 1 → ℕ × ℕ → ℝ) → ℝ → Vec 2),
    IsBrownianVec B (Measure.pi fun _ => Levy.noise) ∧ (∀ᵐ ω ∂(Measure.pi fun _ => Levy.noise), SolvesAdditive (Ivp.Harmonic.drift 1 1)
      (Ivp.Harmonic.C 2) (fun t j => B j t.toNNReal ω) Ivp.Harmonic.x0 10 (X ω)) ∧
    IsNormal (Measure.pi fun _ => Levy.noise) (fun ω => X ω 10) (Ivp.Harmonic.mean 1 1 10) (transitionCov (Ivp.Harmonic.M 1 1) (Ivp.Harmonic.C 2) 10) := by
  obtain ⟨B, hB⟩ := Levy.exists_brownianVec 1
  obtain ⟨L, hf⟩ := smooth_linear (Ivp.Harmonic.M 1 1) 10
  obtain ⟨X, hX⟩ := hB.exists_solution (by norm_num) hf (Ivp.Harmonic.C 2) Ivp.Harmonic.x0
  exact ⟨B, X, hB, hX, C127_law hB _ _ _ hX (transitionCov_solves _ _) ⟨by norm_num, le_rfl⟩⟩

/-! ## C128 -/

/-- Moment errors from mean square errors, with constants for all times up to `T`. -/
theorem moments_const (F : Mat d d) (S : Mat d m) (x0 : Vec d) {T : ℝ} (hT : 0 < T) (A0 : ℝ) : ∃ A : ℝ, 0 ≤ A ∧
    ∀ {Ω : Type} [MeasurableSpace Ω] {P : Measure Ω} {Ω' : Type} [MeasurableSpace Ω'] {Q : Measure Ω'} {X0 y : Ω → Vec d} {y' : Ω' → Vec d} {t δ : ℝ},
      t ∈ Icc 0 T → 0 < δ → δ ≤ T → IsNormal P X0 (expm (t • F) *ᵥ x0) (transitionCov F S t) → IdentDistrib y y' P Q →
      Integrable (fun ω => ‖X0 ω - y ω‖ ^ 2) P → ∫ ω, ‖X0 ω - y ω‖ ^ 2 ∂P ≤ A0 * δ ^ 2 → ∀ i j,
        MemLp (fun ω => y' ω i) 2 Q ∧ |∫ ω, y' ω i ∂Q - (expm (t • F) *ᵥ x0) i| ≤ A * δ ∧
        |cov[fun ω => y' ω i, fun ω => y' ω j; Q] - transitionCov F S t i j| ≤ A * δ := by
  have hb : ∀ i, ∃ b : ℝ, 0 ≤ b ∧ ∀ t ∈ Icc 0 T, transitionCov F S t i i ≤ b := fun i => by
    have hc : ContinuousOn (fun t => transitionCov F S t i i) (Icc 0 T) := fun t _ =>
      ((transitionCov_solves F S).2 t i i).continuousAt.continuousWithinAt
    obtain ⟨b, hb⟩ := (isCompact_Icc.image_of_continuousOn hc).bddAbove
    exact ⟨|b|, abs_nonneg _, fun t ht => (hb (mem_image_of_mem _ ht)).trans (le_abs_self b)⟩
  choose b hb0 hb using hb
  obtain ⟨c, hc⟩ : ∃ c, c = Real.sqrt (|A0| + 1) := ⟨_, rfl⟩
  have hc0 : 0 < c := by rw [hc]; positivity
  have hs0 : 0 ≤ 1 + ∑ i, b i := add_nonneg zero_le_one (Finset.sum_nonneg fun i _ => hb0 i)
  obtain ⟨s, hs⟩ : ∃ s, s = 1 + ∑ i, b i := ⟨_, rfl⟩
  rw [← hs] at hs0
  refine ⟨c * (1 + c * T + 2 * s), by positivity, ?_⟩
  intro Ω _ P Ω' _ Q X0 y y' t δ ht hδ hδT hX hid hint hle i j
  have hle' : ∫ ω, ‖X0 ω - y ω‖ ^ 2 ∂P ≤ (c * δ) ^ 2 := by
    rw [mul_pow, hc, Real.sq_sqrt (by positivity)]
    exact hle.trans (mul_le_mul_of_nonneg_right (by linarith [le_abs_self A0]) (by positivity))
  have hC : ∀ i, transitionCov F S t i i ≤ s ^ 2 := fun i => by
    have h1 := hb i t ht
    have h2 : b i ≤ ∑ i, b i := Finset.single_le_sum (fun i _ => hb0 i) (Finset.mem_univ i)
    nlinarith [hb0 i]
  obtain ⟨h1, h2, h3⟩ := moments_of_strong hid hX hint (by positivity : 0 < c * δ) hle' hs0 hC i j
  refine ⟨h1, h2.trans ?_, h3.trans ?_⟩
  · have : 0 ≤ c * δ * (c * T + 2 * s) := by positivity
    nlinarith
  · have h4 : c * δ + 2 * s ≤ 1 + c * T + 2 * s := by nlinarith
    calc c * δ * (c * δ + 2 * s) ≤ c * δ * (1 + c * T + 2 * s) := mul_le_mul_of_nonneg_left h4 (by positivity)
      _ = _ := by ring

/-- C128: on a linear SDE with additive noise the means and the covariances of the states of `sde_solver` with EKF0 and `get_approx`, run with
an ideal generator, are those of the solution up to a constant times the interval length. -/
theorem C128_ekf0 {la : LinAlg} (hla : la.Correct) (hd : 0 < d) (F : Mat d d) (S : Mat d m) (x0 : Vec d) {T : ℝ} (hT : 0 < T) :
    ∃ A : ℝ, ∀ {Ω : Type} [MeasurableSpace Ω] {Q : Measure Ω} {R : Ω → Rng}, IdealNormals Q R → ∀ N : ℕ, 0 < N → ∀ M : ℕ, 0 < M →
      ∀ σ : ℝ, σ ≠ 0 → ∀ (sqrt : Bool) (rng : Rng) (key : Key) (odeInt : OdeInt (Vec d) d),
      (∀ k x vf, Ekf.ekf0 la rng none x vf (T / N / M) M sqrt
        (some ⟨_, IOUP.transition 0 σ 1 (T / N / M) d⟩) none = .ok (odeInt k x vf (T / N))) →
      ∀ n ≤ N, ∃ y : Ω → Vec d,
        (∀ ω, (sdeSolver (R ω) key (fun x _ => F *ᵥ x) (fun _ _ => S) x0 (Foster.getApprox m) (T / N) N odeInt).2.1[n]? = some (y ω)) ∧
        ∀ i j, MemLp (fun ω => y ω i) 2 Q ∧ |∫ ω, y ω i ∂Q - (expm ((n * (T / N)) • F) *ᵥ x0) i| ≤ A * (T / N) ∧
          |cov[fun ω => y ω i, fun ω => y ω j; Q] - transitionCov F S (n * (T / N)) i j| ≤ A * (T / N) := by
  obtain ⟨L, hf⟩ := smooth_linear F T
  obtain ⟨Lt, htl⟩ : ∃ Lt, TimeLipschitz (fun x _ => F *ᵥ x) T Lt := ⟨_, timeLipschitz_linear F T⟩
  obtain ⟨B, hB⟩ := Levy.exists_brownianVec m
  obtain ⟨X, hX⟩ := hB.exists_solution hT.le hf S x0
  obtain ⟨A0, hA0⟩ := C92_ekf0_strong hla hB hd hT hf htl S x0 hX
  obtain ⟨A, -, hA⟩ := moments_const F S x0 hT A0
  refine ⟨A, ?_⟩
  intro Ω _ Q R hR N hN M hM σ hσ sqrt rng key odeInt hode n hn
  have hN' : (0 : ℝ) < N := by exact_mod_cast hN
  have hM' : (0 : ℝ) < M := by exact_mod_cast hM
  have hA0' := hA0 N hN M hM σ hσ sqrt rng
  obtain ⟨δ, hδdef⟩ : ∃ δ, δ = T / N := ⟨_, rfl⟩
  rw [← hδdef] at hode hA0' ⊢
  have hδ : 0 < δ := by rw [hδdef]; positivity
  have hNδ : (N : ℝ) * δ = T := by rw [hδdef]; field_simp
  have hδT : δ ≤ T := by rw [← hNδ]; exact le_mul_of_one_le_left hδ.le (by exact_mod_cast hN)
  have hnT : (n : ℝ) * δ ∈ Icc 0 T := ⟨by positivity, by
    rw [← hNδ]; exact mul_le_mul_of_nonneg_right (by exact_mod_cast hn) hδ.le⟩
  have hint : ∀ k x vf, odeInt k x vf δ = (trapScheme vf (δ / M) x M).1 := fun k x vf =>
    Except.ok.inj ((hode k x vf).symm.trans (C43_trapezoidal hla rng hd vf hσ (by positivity) x M sqrt))
  obtain ⟨R0, hm, hc⟩ := sde_law_coupling (Ω' := Ω) (Q := Q) hB (fun x _ => F *ᵥ x) S x0 hδ N key
    (J := fun k y a b => (trapScheme (additiveField (fun x _ => F *ᵥ x) S (k * δ) δ a b) (δ / M) y M).1)
    (fun k _ => (continuous_fst.comp (continuous_trapScheme hf.cont S (k * δ) δ (δ / M) M)).measurable) odeInt (fun κ x k _ a b => hint _ _ _)
  obtain ⟨y0, hy0, hy1, hy2⟩ := hA0' R0 key (Foster.getApprox m) Prod.fst Prod.snd (fun _ _ _ => rfl) odeInt hode
    (Eventually.of_forall hm) n hn
  obtain ⟨y, hy, -, hid⟩ := hc hR x0 id (fun _ _ => True) odeInt rfl trivial (fun κ x k _ _ a b => ⟨trivial, hint _ _ _⟩) n hn y0 hy0
  exact ⟨y, hy, hA hnT hδ hδT (linear_solution_law hB F S x0 hX hnT) hid hy1 hy2⟩

/-- C128 for EKF1 with one filter step per interval. -/
theorem C128_ekf1 {la : LinAlg} (hla : la.Correct) (hd : 0 < d) (F : Mat d d) (S : Mat d m) (x0 : Vec d) {T : ℝ} (hT : 0 < T) :
    ∃ A : ℝ, ∀ {Ω : Type} [MeasurableSpace Ω] {Q : Measure Ω} {R : Ω → Rng}, IdealNormals Q R → ∀ N : ℕ, 0 < N →
      ∀ σ : ℝ, σ ≠ 0 → ∀ (sqrt : Bool) (rng : Rng) (key : Key) (odeInt : OdeInt (Vec d) d),
      (∀ k x vf, Ekf.ekf1 la rng none x vf (T / N) 1 sqrt
        (some ⟨_, IOUP.transition 0 σ 1 (T / N) d⟩) none = .ok (odeInt k x vf (T / N))) →
      ∀ n ≤ N, ∃ y : Ω → Vec d,
        (∀ ω, (sdeSolver (R ω) key (fun x _ => F *ᵥ x) (fun _ _ => S) x0 (Foster.getApprox m) (T / N) N odeInt).2.1[n]? = some (y ω)) ∧
        ∀ i j, MemLp (fun ω => y ω i) 2 Q ∧ |∫ ω, y ω i ∂Q - (expm ((n * (T / N)) • F) *ᵥ x0) i| ≤ A * (T / N) ∧
          |cov[fun ω => y ω i, fun ω => y ω j; Q] - transitionCov F S (n * (T / N)) i j| ≤ A * (T / N) := by
  obtain ⟨L, hf⟩ := smooth_linear F T
  obtain ⟨Lt, htl⟩ : ∃ Lt, TimeLipschitz (fun x _ => F *ᵥ x) T Lt := ⟨_, timeLipschitz_linear F T⟩
  obtain ⟨B, hB⟩ := Levy.exists_brownianVec m
  obtain ⟨X, hX⟩ := hB.exists_solution hT.le hf S x0
  obtain ⟨A0, hA0⟩ := C106_strong hla hB hd hT hf htl S x0 hX
  obtain ⟨A, -, hA⟩ := moments_const F S x0 hT A0
  refine ⟨A, ?_⟩
  intro Ω _ Q R hR N hN σ hσ sqrt rng key odeInt hode n hn
  have hN' : (0 : ℝ) < N := by exact_mod_cast hN
  have hA0' := hA0 N hN σ hσ sqrt rng
  obtain ⟨δ, hδdef⟩ : ∃ δ, δ = T / N := ⟨_, rfl⟩
  rw [← hδdef] at hode hA0' ⊢
  have hδ : 0 < δ := by rw [hδdef]; positivity
  have hNδ : (N : ℝ) * δ = T := by rw [hδdef]; field_simp
  have hδT : δ ≤ T := by rw [← hNδ]; exact le_mul_of_one_le_left hδ.le (by exact_mod_cast hN)
  have hnT : (n : ℝ) * δ ∈ Icc 0 T := ⟨by positivity, by
    rw [← hNδ]; exact mul_le_mul_of_nonneg_right (by exact_mod_cast hn) hδ.le⟩
  have hD : ∀ x : Vec d, HasFDerivAt (fun z : Vec d => F *ᵥ z) (LinearMap.toContinuousLinearMap (Matrix.mulVecLin F)) x := fun x =>
    (LinearMap.toContinuousLinearMap (Matrix.mulVecLin F)).hasFDerivAt
  have hint : ∀ κ x, ∀ k < N, ∀ a b, odeInt κ x (additiveField (fun x _ => F *ᵥ x) S (k * δ) δ a b) δ =
      rosAdd (fun x _ => F *ᵥ x) S (k * δ) δ x a b := fun κ x k hk a b =>
    Except.ok.inj ((hode κ x _).symm.trans (C86_step hla rng hd _ (fun z => ((hD z).add_const _).differentiableAt) hσ hδ x sqrt))
  obtain ⟨R0, hm, hc⟩ := sde_law_coupling (Ω' := Ω) (Q := Q) hB (fun x _ => F *ᵥ x) S x0 hδ N key
    (J := fun k y a b => rosAdd (fun x _ => F *ᵥ x) S (k * δ) δ y a b)
    (fun k _ => (continuous_rosAdd hf.cont S (D := fun _ => LinearMap.toContinuousLinearMap (Matrix.mulVecLin F)) hD continuous_const).measurable)
    odeInt hint
  obtain ⟨y0, hy0, hy1, hy2⟩ := hA0' R0 key (Foster.getApprox m) Prod.fst Prod.snd (fun _ _ _ => rfl) odeInt hode
    (Eventually.of_forall hm) n hn
  obtain ⟨y, hy, -, hid⟩ := hc hR x0 id (fun _ _ => True) odeInt rfl trivial (fun κ x k hk _ a b => ⟨trivial, hint _ _ k hk _ _⟩) n hn y0 hy0
  exact ⟨y, hy, hA hnT hδ hδT (linear_solution_law hB F S x0 hX hnT) hid hy1 hy2⟩

/-- C128 for the EKF0 solver of Algorithm 3 as the tests call it, without key and without prior: the first component of the states. -/
theorem C128_ekf0_2 {la : LinAlg} (hla : la.Correct) (hd : 0 < d) (F : Mat d d) (S : Mat d m) (x0 : Vec d) {T : ℝ} (hT : 0 < T) :
    ∃ A : ℝ, ∀ {Ω : Type} [MeasurableSpace Ω] {Q : Measure Ω} {R : Ω → Rng}, IdealNormals Q R → ∀ N : ℕ, 0 < N → ∀ M : ℕ, 0 < M →
      ∀ (sqrt : Bool) (rng : Rng) (key : Key) (odeInt : OdeInt (Ekf.State3 d) d),
      (∀ k x vf, Ekf.ekf2 la rng true none x vf (T / N / M) M sqrt none none = .ok (odeInt k x vf (T / N))) →
      ∀ n ≤ N, ∃ y : Ω → Vec d,
        (∀ ω, (sdeSolver (R ω) key (fun x _ => F *ᵥ x) (fun _ _ => S) (x0, x0, 0) (Foster.getApprox m) (T / N) N odeInt).2.1[n]? =
          some (y ω, y ω, (n * (T / N) * (T / N / M) ^ 2 / 12) • 1)) ∧
        ∀ i j, MemLp (fun ω => y ω i) 2 Q ∧ |∫ ω, y ω i ∂Q - (expm ((n * (T / N)) • F) *ᵥ x0) i| ≤ A * (T / N) ∧
          |cov[fun ω => y ω i, fun ω => y ω j; Q] - transitionCov F S (n * (T / N)) i j| ≤ A * (T / N) := by
  obtain ⟨A, hA⟩ := C128_ekf0 hla hd F S x0 hT
  refine ⟨A, ?_⟩
  intro Ω _ Q R hR N hN M hM sqrt rng key odeInt hode n hn
  have hN' : (0 : ℝ) < N := by exact_mod_cast hN
  have hM' : (0 : ℝ) < M := by exact_mod_cast hM
  have hδ : 0 < T / N := by positivity
  have hode' : ∀ k x vf, Ekf.ekf2 la rng true none x vf (T / N / M) M sqrt (some ⟨_, IOUP.transition 0 1 1 (T / N / M) d⟩) none =
      .ok (odeInt k x vf (T / N)) := fun k x vf => ((C51_partial la rng none vf _ M sqrt true none).2 x).symm.trans (hode k x vf)
  obtain ⟨odeInt0, h0⟩ : ∃ odeInt0 : OdeInt (Vec d) d, ∀ k x vf, Ekf.ekf0 la rng none x vf (T / N / M) M sqrt
      (some ⟨_, IOUP.transition 0 1 1 (T / N / M) d⟩) none = .ok (odeInt0 k x vf (T / N)) :=
    ⟨fun _ x vf δ => (trapScheme vf (T / N / M) x M).1, fun k x vf =>
      C43_trapezoidal hla rng hd vf one_ne_zero (by positivity) x M sqrt⟩
  obtain ⟨y, hy, hmom⟩ := hA hR N hN M hM 1 one_ne_zero sqrt rng key odeInt0 h0 n hn
  refine ⟨y, fun ω => ?_, hmom⟩
  obtain ⟨h1, h2⟩ := C81_alg3_run hla (R ω) rng rng key hd (fun x _ => F *ᵥ x) (fun _ _ => S) (Foster.getApprox m) (x0, x0, 0)
    PosSemidef.zero hδ N M hM one_ne_zero sqrt sqrt (fun _ => none) odeInt odeInt0 hode' h0
  have h1' := congrArg (fun l => l[n]?) h1
  simp only [List.getElem?_map, hy ω] at h1'
  have h2' := h2 n hn
  obtain rfl | ⟨k, rfl⟩ : n = 0 ∨ ∃ k, n = k + 1 := by
    rcases n with _ | k
    · exact Or.inl rfl
    · exact Or.inr ⟨k, rfl⟩
  · have h3 := (C02_trajectory_shape (R ω) key (fun x _ => F *ᵥ x) (fun _ _ => S) (x0, x0, (0 : Mat d d)) (Foster.getApprox m) (T / N) N odeInt).2.1
    rw [List.head?_eq_getElem?] at h3
    rw [h3] at h1' ⊢
    have e3 : x0 = y ω := Option.some.inj h1'
    simp [← e3]
  obtain ⟨x, c, g1, -, -, g4⟩ := sdeSolver_interval (R ω) key (fun x _ => F *ᵥ x) (fun _ _ => S) (x0, x0, 0) (Foster.getApprox m) (T / N) N odeInt k (by omega)
  have hx : x.2.2.PosSemidef := by
    have := h2 k (by omega)
    rw [g1] at this
    have h3 : x.2.2 = (0 : Mat d d) + (1 ^ 2 * (k * (T / N)) * (T / N / M) ^ 2 / 12) • 1 := Option.some.inj this
    rw [h3, zero_add]
    exact PosSemidef.one.smul (by positivity)
  obtain ⟨μ, C, e1, -⟩ := C47_alg3 hla hR true (intervalField (fun x _ => F *ᵥ x) (fun _ _ => S) (Foster.getApprox m) (T / N) c ((k : ℝ) * (T / N)))
    (fun h => by cases h) (T / N / M) M sqrt (IOUP.transition 0 1 1 (T / N / M) d) (Ekf.ibm_Q_posDef one_ne_zero 1 (by positivity) d) x hx
  have e2 := Except.ok.inj ((hode' ((key.child N k).child 2 1) x _).symm.trans (e1 rng))
  rw [g4, e2] at h1' h2' ⊢
  have e3 : μ = y ω := Option.some.inj h1'
  have e4 := Option.some.inj h2'
  simp only [zero_add, one_pow, one_mul] at e4
  rw [e3, e4]

/-- C128 for the scalar problem of the end to end test: the mean and the standard deviation over the keys that the test compares with its
references converge to them, for the EKF0 solver of Algorithm 3. -/
theorem C128_test {la : LinAlg} (hla : la.Correct) : ∃ A : ℝ, ∀ {Ω : Type} [MeasurableSpace Ω] {Q : Measure Ω} {R : Ω → Rng}, IdealNormals Q R →
    ∀ N : ℕ, 0 < N → ∀ M : ℕ, 0 < M → ∀ (sqrt : Bool) (rng : Rng) (key : Key) (odeInt : OdeInt (Ekf.State3 1) 1),
      (∀ k x vf, Ekf.ekf2 la rng true none x vf (1 / N / M) M sqrt none none = .ok (odeInt k x vf (1 / N))) →
      ∃ y : Ω → Vec 1, (∀ ω, ∃ z, (sdeSolver (R ω) key (EndToEnd.problem EndToEnd.params.1 EndToEnd.params.2).1
          (EndToEnd.problem EndToEnd.params.1 EndToEnd.params.2).2 (EndToEnd.x0, EndToEnd.x0, 0) (Foster.getApprox 1) (1 / N) N odeInt).2.1[N]? =
          some (y ω, z)) ∧ MemLp (fun ω => y ω 0) 2 Q ∧ |∫ ω, y ω 0 ∂Q - EndToEnd.refMean EndToEnd.params.1 (1 / N) N 0| ≤ A / N ∧
          |Real.sqrt (Var[fun ω => y ω 0; Q]) - EndToEnd.refStd EndToEnd.params.2 (1 / N) N| ≤ A / N := by
  obtain ⟨A, hA⟩ := C128_ekf0_2 hla one_pos !![1] (!![1] : Mat 1 1) EndToEnd.x0 one_pos
  obtain ⟨B, hB⟩ := Levy.exists_brownianVec 1
  obtain ⟨L, hf⟩ := smooth_linear (!![1] : Mat 1 1) 1
  obtain ⟨X, hX⟩ := hB.exists_solution zero_le_one hf (!![1] : Mat 1 1) EndToEnd.x0
  have hprob := endToEnd_problem 1 1
  obtain ⟨hl, -, -⟩ := C127_test hB one_ne_zero 1 (T := 1) (X := X) (by rw [hprob]; exact hX) (δ := 1) 1 (by norm_num)
  have hl1 := hl 1 ⟨zero_le_one, le_rfl⟩
  have hl2 := linear_solution_law hB _ _ _ hX (t := 1) ⟨zero_le_one, le_rfl⟩
  have hmean : (expm ((1 : ℝ) • (!![1] : Mat 1 1)) *ᵥ EndToEnd.x0) 0 = Real.exp 1 := by
    rw [← hl2.mean 0, hl1.mean 0, one_mul]
  have hvar : transitionCov !![1] (!![1] : Mat 1 1) 1 0 0 = 0.5 * (Real.exp 2 - 1) := by
    rw [← hl2.cov 0 0, hl1.cov 0 0]
    norm_num
    ring
  have hv1 : 1 ≤ 0.5 * (Real.exp 2 - 1) := by
    have := Real.add_one_le_exp (2 : ℝ)
    have h3 : (3 : ℝ) ≤ Real.exp 2 := by linarith
    norm_num
    linarith
  refine ⟨A, ?_⟩
  intro Ω _ Q R hR N hN M hM sqrt rng key odeInt hode
  have hN' : (N : ℝ) ≠ 0 := by exact_mod_cast hN.ne'
  obtain ⟨y, hy, hmom⟩ := hA hR N hN M hM sqrt rng key odeInt hode N le_rfl
  obtain ⟨h1, h2, h3⟩ := hmom 0 0
  have hN1 : (N : ℝ) * (1 / N) = 1 := by field_simp
  rw [hN1] at h2 h3
  rw [hmean] at h2
  rw [hvar, covariance_self h1.1.aemeasurable] at h3
  have e1 : EndToEnd.refMean EndToEnd.params.1 (1 / N) N 0 = Real.exp 1 := by
    simp [EndToEnd.refMean, EndToEnd.params, EndToEnd.x0, hN']
  have e2 : EndToEnd.refStd EndToEnd.params.2 (1 / N) N = Real.sqrt (0.5 * (Real.exp 2 - 1)) := by
    simp [EndToEnd.refStd, EndToEnd.params, hN']
  refine ⟨y, fun ω => ⟨(y ω, (N * (1 / N) * (1 / N / M) ^ 2 / 12 : ℝ) • (1 : Mat 1 1)), ?_⟩, h1, ?_, ?_⟩
  · rw [show EndToEnd.problem EndToEnd.params.1 EndToEnd.params.2 = _ from hprob]
    exact hy ω
  · rw [e1, div_eq_mul_one_div]
    exact h2
  · rw [e2, div_eq_mul_one_div]
    refine le_trans ?_ h3
    obtain ⟨v, hv⟩ : ∃ v, v = Var[fun ω => y ω 0; Q] := ⟨_, rfl⟩
    obtain ⟨w, hw⟩ : ∃ w : ℝ, w = 0.5 * (Real.exp 2 - 1) := ⟨_, rfl⟩
    rw [← hw] at hv1 ⊢
    have hv0 : 0 ≤ v := by rw [hv]; exact variance_nonneg _ _
    rw [← hv]
    have hs1 : 1 ≤ Real.sqrt w := Real.one_le_sqrt.mpr hv1
    have hs2 := Real.sqrt_nonneg v
    have hd : v - w = (Real.sqrt v - Real.sqrt w) * (Real.sqrt v + Real.sqrt w) := by
      have h4 := Real.sq_sqrt hv0
      have h5 := Real.sq_sqrt (zero_le_one.trans hv1)
      linear_combination -h4 + h5
    rw [hd, abs_mul, abs_of_pos (by linarith : 0 < Real.sqrt v + Real.sqrt w)]
    exact le_mul_of_one_le_right (abs_nonneg _) (by linarith)

/-- C128: ideal generators and integrators as in the theorems exist. -/
example {la : LinAlg} (hla : la.Correct) : ∃ A : ℝ, ∀ N : ℕ, 0 < N → ∃ (odeInt : OdeInt (Ekf.State3 1) 1) (y : Draws → Vec 1),
    (∀ ω, ∃ z, (sdeSolver (drawsRng ω) [] (EndToEnd.problem 1 1).1 (EndToEnd.problem 1 1).2 (EndToEnd.x0, EndToEnd.x0, 0) (Foster.getApprox 1)
      (1 / N) N odeInt).2.1[N]? = some (y ω, z)) ∧ |∫ ω, y ω 0 ∂drawsMeasure - EndToEnd.refMean 1 (1 / N) N 0| ≤ A / N := by
  obtain ⟨A, hA⟩ := C128_test hla
  refine ⟨A, fun N hN => ?_⟩
  have : ∀ (k : Key) x vf, ∃ y, Ekf.ekf2 (dim := 1) la (drawsRng 0) true none x vf (1 / N / (5 : ℕ)) 5 true none none = .ok y := by
    intro k x vf
    rw [(C51_partial la _ none vf _ 5 true true none).2 x, Ekf.ekf2_eq, Ekf.solver_some]
    exact ⟨_, rfl⟩
  choose f hf using this
  obtain ⟨y, h1, -, h2, -⟩ := hA idealNormals_drawsRng N hN 5 (by norm_num) true _ [] (fun k x vf _ => f k x vf) hf
  exact ⟨_, y, h1, h2⟩

/-- C128 for Euler–Maruyama. -/
theorem C128_em (F : Mat d d) (S : Mat d m) (x0 : Vec d) {T : ℝ} (hT : 0 < T) :
    ∃ A : ℝ, ∀ {Ω : Type} [MeasurableSpace Ω] {Q : Measure Ω} {R : Ω → Rng}, IdealNormals Q R → ∀ N : ℕ, 0 < N → ∀ key : Key,
      ∀ n ≤ N, ∃ y : Ω → Vec d,
        (∀ ω, (emSolver (R ω) key x0 (fun x _ => F *ᵥ x) (fun _ _ => S) (T / N) N).2[n]? = some (y ω)) ∧
        ∀ i j, MemLp (fun ω => y ω i) 2 Q ∧ |∫ ω, y ω i ∂Q - (expm ((n * (T / N)) • F) *ᵥ x0) i| ≤ A * (T / N) ∧
          |cov[fun ω => y ω i, fun ω => y ω j; Q] - transitionCov F S (n * (T / N)) i j| ≤ A * (T / N) := by
  obtain ⟨L, hf⟩ := smooth_linear F T
  obtain ⟨Lt, htl⟩ : ∃ Lt, TimeLipschitz (fun x _ => F *ᵥ x) T Lt := ⟨_, timeLipschitz_linear F T⟩
  obtain ⟨B, hB⟩ := Levy.exists_brownianVec m
  obtain ⟨X, hX⟩ := hB.exists_solution hT.le hf S x0
  obtain ⟨A0, hA0⟩ := C93_em_strong hB hT hf htl S x0 hX
  obtain ⟨A, -, hA⟩ := moments_const F S x0 hT A0
  refine ⟨A, ?_⟩
  intro Ω _ Q R hR N hN key n hn
  have hN' : (0 : ℝ) < N := by exact_mod_cast hN
  obtain ⟨y0, hy0, hy1, hy2⟩ := hA0 N hN n hn
  obtain ⟨δ, hδdef⟩ : ∃ δ, δ = T / N := ⟨_, rfl⟩
  rw [← hδdef] at hy0 hy1 hy2 ⊢
  have hδ : 0 < δ := by rw [hδdef]; positivity
  have hNδ : (N : ℝ) * δ = T := by rw [hδdef]; field_simp
  have hδT : δ ≤ T := by rw [← hNδ]; exact le_mul_of_one_le_left hδ.le (by exact_mod_cast hN)
  have hnT : (n : ℝ) * δ ∈ Icc 0 T := ⟨by positivity, by
    rw [← hNδ]; exact mul_le_mul_of_nonneg_right (by exact_mod_cast hn) hδ.le⟩
  have hid := (hB.inc_law hδ N).identDistrib (em_inc_law hR key hδ N m)
  choose ts Y hY1 hY2 hY3 using fun ω => emPathwise_states
    (fun k j => B j ((k + 1 : ℕ) * δ).toNNReal ω - B j (k * δ).toNNReal ω) x0 (fun x _ => F *ᵥ x) (fun _ _ => S) δ N
  choose Z hZ1 hZ2 hZ3 using fun ω => emSolver_states (R ω) key x0 (fun x _ => F *ᵥ x) (fun _ _ => S) δ N
  obtain ⟨Ψ, hΨ⟩ : ∃ Ψ : ℕ → Vec d → (Fin N × Fin m → ℝ) → Vec d, ∀ k y z, Ψ k y z =
      y + δ • (F *ᵥ y) + S *ᵥ fun j => if h : k < N then z (⟨k, h⟩, j) else 0 := ⟨_, fun _ _ _ => rfl⟩
  have hΨm : ∀ k, Measurable fun p : Vec d × (Fin N × Fin m → ℝ) => Ψ k p.1 p.2 := fun k => by
    simp only [hΨ]
    have hm : ∀ j : Fin m, Measurable fun p : Vec d × (Fin N × Fin m → ℝ) => if h : k < N then p.2 (⟨k, h⟩, j) else 0 := fun j => by
      split_ifs with h
      · exact (measurable_pi_apply ((⟨k, h⟩, j) : Fin N × Fin m)).comp measurable_snd
      · exact measurable_const
    have hF : Measurable fun v : Vec d => F *ᵥ v := (Matrix.mulVecLin F).continuous_of_finiteDimensional.measurable
    have hS : Measurable fun v : Vec m => S *ᵥ v := (Matrix.mulVecLin S).continuous_of_finiteDimensional.measurable
    exact (measurable_fst.add ((hF.comp measurable_fst).const_smul δ)).add (hS.comp (measurable_pi_lambda _ hm))
  have hidn := scheme_identDistrib hid hΨm (N := N) (Y := fun k ω => Y ω k) (Y' := fun k ω => Z ω k) hY2 hZ2
    (fun k hk ω => by rw [hY3 ω k hk, hΨ]; simp [hk]) (fun k hk ω => by rw [hZ3 ω k hk, hΨ]; simp only [hk, dite_true]) n hn
  have hYy : (fun ω => Y ω n) = y0 := funext fun ω => by
    obtain ⟨ts', xs, h1, h2⟩ := hy0 ω
    have e := Except.ok.inj ((hY1 ω).symm.trans h1)
    have e2 : (List.range (N + 1)).map (Y ω) = xs := (Prod.ext_iff.mp e).2
    rw [← e2, List.getElem?_map, List.getElem?_range (by omega)] at h2
    exact Option.some.inj h2
  rw [hYy] at hidn
  exact ⟨fun ω => Z ω n, fun ω => by rw [hZ1 ω, List.getElem?_map, List.getElem?_range (by omega)]; rfl,
    hA hnT hδ hδT (linear_solution_law hB F S x0 hX hnT) hidn hy1 hy2⟩

end Verif
