import Verif.Lemmas.EulerLinear
import Verif.Lemmas.EulerHarmonic
import Verif.Lemmas.LinearSolution
import Verif.Lemmas.LevyBrownian
import Verif.Props.Lin15

/-! C142: `sde_solver` with Euler steps inside each interval on linear problems: the law of every state, the order of its moments, and the
covariance asserted by `test_harmonic_oscillator_euler`. -/

namespace Verif

open Matrix Spec Jnp Set MeasureTheory ProbabilityTheory Filter Scripts
open scoped NNReal Topology

variable {d m : ℕ}

/-- C142, the law: with an ideal generator every state is normal. With `E = 1 + (δ/M)F` the Euler step, its mean is `E^(Mn) x0`; each interval adds the
covariance of `A S ξ √δ + B S ζ √(3δ)`, where `A` is the mean of the powers `E^0, …, E^(M-1)` and `B` the mean of the same powers with the
weights `1 - 2i/M` of the slope of the parabola at the `i`-th Euler point. -/
theorem C142_law {Ω : Type*} [MeasurableSpace Ω] {P : Measure Ω} {R : Ω → Rng} (hR : IdealNormals P R) (key : Key) (x0 : Vec d) (F : Mat d d) (S : Mat d m)
    {δ : ℝ} (hδ : 0 < δ) (N : ℕ) {M : ℕ} (hM : 0 < M) {E A B V : Mat d d} (hE : E = 1 + (δ / M) • F)
    (hA : A = (1 / M : ℝ) • ∑ i ∈ Finset.range M, E ^ (M - 1 - i)) (hB : B = (1 / M : ℝ) • ∑ i ∈ Finset.range M, (1 - 2 * i / M : ℝ) • E ^ (M - 1 - i))
    (hV : V = δ • (A * (S * Sᵀ) * Aᵀ) + (3 * δ) • (B * (S * Sᵀ) * Bᵀ)) (n : ℕ) (hn : n ≤ N) : ∃ y : Ω → Vec d,
      (∀ ω, (sdeSolver (R ω) key (fun x _ => F *ᵥ x) (fun _ _ => S) x0 (Foster.getApprox m) δ N (eulerInt M)).2.1[n]? = some (y ω)) ∧
      IsNormal P y ((E ^ M) ^ n *ᵥ x0) (∑ i ∈ Finset.range n, (E ^ M) ^ i * V * ((E ^ M) ^ i)ᵀ) := by
  have h := euler_linear_law hR key x0 F S hδ N hM n hn
  have hA' : A = eulerMeanPow F δ M fun _ => 1 := by
    rw [hA, eulerMeanPow, hE]
    simp only [one_smul]
    rfl
  have hB' : B = eulerMeanPow F δ M (areaWeight M) := by
    rw [hB, eulerMeanPow, hE]
    rfl
  have hV' : V = eulerCov F (S * Sᵀ) δ M := by rw [hV, eulerCov, hA', hB']
  rw [hV', hE]
  exact h

/-- C142, the order: means within `C δ/M` and covariances within `C (δ² + 1/M²)` of those of the solution of the SDE, at every grid point. -/
theorem C142_order {Ω : Type*} [MeasurableSpace Ω] {P : Measure Ω} {B : Fin m → ℝ≥0 → Ω → ℝ} (hB : IsBrownianVec B P) (F : Mat d d) (S : Mat d m) (x0 : Vec d)
    {T : ℝ} (hT : 0 < T) {X : Ω → ℝ → Vec d} (hX : ∀ᵐ ω ∂P, SolvesAdditive (fun x _ => F *ᵥ x) S (fun t j => B j t.toNNReal ω) x0 T (X ω)) :
    ∃ C : ℝ, ∀ {Ω' : Type} [MeasurableSpace Ω'] {P' : Measure Ω'} {R : Ω' → Rng}, IdealNormals P' R → ∀ (key : Key) (N : ℕ), 0 < N → ∀ M : ℕ, 0 < M →
      ∀ n ≤ N, ∃ y : Ω' → Vec d,
        (∀ ω, (sdeSolver (R ω) key (fun x _ => F *ᵥ x) (fun _ _ => S) x0 (Foster.getApprox m) (T / N) N (eulerInt M)).2.1[n]? = some (y ω)) ∧
        (∀ j, |∫ ω, y ω j ∂P' - ∫ ω, X ω (n * (T / N)) j ∂P| ≤ C * ((T / N) / M)) ∧
        ∀ i j, |cov[fun ω => y ω i, fun ω => y ω j; P'] - cov[fun ω => X ω (n * (T / N)) i, fun ω => X ω (n * (T / N)) j; P]| ≤ C * ((T / N) ^ 2 + (1 / M) ^ 2) := by
  obtain ⟨C, hC0, hC⟩ := euler_linear_moments F S hT
  refine ⟨max (C * ‖x0‖) C, fun {Ω'} _ {P'} {R} hR key N hN M hM n hn => ?_⟩
  have hN' : (0 : ℝ) < N := by exact_mod_cast hN
  obtain ⟨y, hy1, hy⟩ := euler_linear_law hR key x0 F S (δ := T / N) (by positivity) N hM n hn
  obtain ⟨h1, h2⟩ := hC N hN M hM n hn
  have hnT : (n : ℝ) * (T / N) ∈ Icc 0 T := ⟨by positivity, by
    have : (n : ℝ) ≤ N := by exact_mod_cast hn
    calc (n : ℝ) * (T / N) ≤ N * (T / N) := by gcongr
      _ = T := by field_simp⟩
  have hlaw := linear_solution_law hB F S x0 hX hnT
  refine ⟨y, hy1, fun j => ?_, fun i j => ?_⟩
  · rw [hy.mean, hlaw.mean]
    have e : ((eulerOne F (T / N) M ^ M) ^ n *ᵥ x0) j - (expm ((n * (T / N)) • F) *ᵥ x0) j = (((eulerOne F (T / N) M ^ M) ^ n - expm ((n * (T / N)) • F)) *ᵥ x0) j := by
      rw [sub_mulVec]; rfl
    rw [e, ← Real.norm_eq_abs]
    open scoped Matrix.Norms.Operator in
    refine (norm_le_pi_norm _ j).trans ((linfty_opNorm_mulVec _ x0).trans ?_)
    have h3 := mul_le_mul_of_nonneg_right h1 (norm_nonneg x0)
    refine h3.trans ?_
    calc C * (T / N / M) * ‖x0‖ = C * ‖x0‖ * (T / N / M) := by ring
      _ ≤ _ := by gcongr; exact le_max_left _ _
  · rw [hy.cov, hlaw.cov, ← Matrix.sub_apply]
    refine (abs_entry_le _ i j).trans (h2.trans ?_)
    gcongr
    exact le_max_right _ _

/-- C142, the term in `1/M²` is there: without drift the covariance at the `n`-th grid point is `(1 + 3/M²) n δ S Sᵀ`, whatever the step. -/
theorem C142_sharp {Ω : Type*} [MeasurableSpace Ω] {P : Measure Ω} {R : Ω → Rng} (hR : IdealNormals P R) (key : Key) (x0 : Vec d) (S : Mat d m)
    {δ : ℝ} (hδ : 0 < δ) (N : ℕ) {M : ℕ} (hM : 0 < M) (n : ℕ) (hn : n ≤ N) : ∃ y : Ω → Vec d,
      (∀ ω, (sdeSolver (R ω) key (fun _ _ => 0) (fun _ _ => S) x0 (Foster.getApprox m) δ N (eulerInt M)).2.1[n]? = some (y ω)) ∧
      IsNormal P y x0 (((1 + 3 / (M : ℝ) ^ 2) * (n * δ)) • (S * Sᵀ)) := by
  have hM' : (0 : ℝ) < M := by exact_mod_cast hM
  obtain ⟨y, h1, h2⟩ := C142_law hR key x0 (0 : Mat d d) S hδ N hM rfl rfl rfl rfl n hn
  refine ⟨y, fun ω => ?_, ?_⟩
  · rw [← h1 ω]
    simp only [zero_mulVec]
  · have hs1 : (1 / M : ℝ) • ∑ i ∈ Finset.range M, (1 + (δ / M) • (0 : Mat d d)) ^ (M - 1 - i) = 1 := by
      simp only [smul_zero, add_zero, one_pow, Finset.sum_const, Finset.card_range, ← Nat.cast_smul_eq_nsmul ℝ, smul_smul]
      rw [one_div_mul_cancel hM'.ne', one_smul]
    have hs2 : (1 / M : ℝ) • ∑ i ∈ Finset.range M, (1 - 2 * i / M : ℝ) • (1 + (δ / M) • (0 : Mat d d)) ^ (M - 1 - i) = (1 / M : ℝ) • 1 := by
      simp only [smul_zero, add_zero, one_pow, ← Finset.sum_smul]
      have h2 : (∑ k ∈ Finset.range M, (k : ℝ)) * 2 = M * (M - 1) := by
        have h3 := congrArg (Nat.cast (R := ℝ)) (Finset.sum_range_id_mul_two M)
        rw [Nat.cast_mul, Nat.cast_mul, Nat.cast_sub hM] at h3
        simpa using h3
      have h4 : ∑ i ∈ Finset.range M, (1 - 2 * i / M : ℝ) = 1 := by
        simp only [Finset.sum_sub_distrib, Finset.sum_const, Finset.card_range, nsmul_eq_mul, mul_one, mul_div_assoc, ← Finset.mul_sum]
        rw [← Finset.sum_div]
        field_simp
        linarith only [h2]
      rw [h4, one_smul]
    rw [hs1, hs2] at h2
    simp only [smul_zero, add_zero, one_pow, one_mulVec, Matrix.one_mul, Matrix.mul_one, transpose_one, transpose_smul, Finset.sum_const, Finset.card_range] at h2
    refine (congrArg (fun C => IsNormal P y x0 C) ?_).mp h2
    rw [Matrix.smul_mul, Matrix.mul_smul, Matrix.one_mul, Matrix.mul_one, smul_smul, smul_smul, ← add_smul, ← Nat.cast_smul_eq_nsmul ℝ, smul_smul]
    congr 1
    field_simp

/-- C142, `test_harmonic_oscillator_euler`: with the 100 Euler steps of the test and any interval up to the 1/1000 of the test, every entry of the covariance of the first state
is within ten per cent of the reference variance, the relative tolerance of the test. -/
theorem C142_test {Ω : Type*} [MeasurableSpace Ω] {P : Measure Ω} {R : Ω → Rng} (hR : IdealNormals P R) (key : Key) {δ : ℝ} (hδ : 0 < δ) (hδ1 : δ ≤ 1 / 1000)
    {N : ℕ} (hN : 0 < N) : ∃ y : Ω → Vec 2,
      (∀ ω, (sdeSolver (R ω) key (Ivp.Harmonic.drift 0.1 0.1) (fun _ _ => Ivp.Harmonic.C 1) Ivp.Harmonic.x0 (Foster.getApprox 1) δ N (eulerInt 100)).2.1[1]? = some (y ω)) ∧
      ∀ i j, |cov[fun ω => y ω i, fun ω => y ω j; P] - Ivp.Harmonic.variance 0.1 0.1 (Ivp.Harmonic.C 1) δ i j| ≤
        1 / 10 * |Ivp.Harmonic.variance 0.1 0.1 (Ivp.Harmonic.C 1) δ i j| := by
  obtain ⟨y, h1, h2⟩ := euler_linear_law hR key Ivp.Harmonic.x0 (Ivp.Harmonic.M 0.1 0.1) (Ivp.Harmonic.C 1) hδ N (by norm_num : 0 < 100) 1 hN
  refine ⟨y, h1, fun i j => ?_⟩
  rw [h2.cov]
  simp only [Finset.sum_range_one, pow_zero, Matrix.one_mul, transpose_one, Matrix.mul_one]
  obtain ⟨a00, a01, a10, a11⟩ := harmonic_eulerCov hδ hδ1
  obtain ⟨b00, b01, b10, b11⟩ := harmonic_variance hδ hδ1
  have key : ∀ {u v g w : ℝ}, 0 ≤ g → g * (1 / 3) ≤ w → |u - w| ≤ 26 / 1000 * g → |v - w| ≤ 4 / 1000 * g → |u - v| ≤ 1 / 10 * |v| := fun {u v g w} hg h5 hu hv => by
    have h3 := abs_le.mp hu
    have h4 := abs_le.mp hv
    have h6 := le_abs_self v
    rw [abs_le]
    constructor <;> linarith [h3.1, h3.2, h4.1, h4.2]
  fin_cases i <;> fin_cases j
  · exact key (by positivity) (by linarith) a00 b00
  · exact key (by positivity) (by linarith [sq_nonneg δ]) a01 b01
  · exact key (by positivity) (by linarith [sq_nonneg δ]) a10 b10
  · exact key hδ.le (by linarith) a11 b11

/-- C142: the hypotheses hold for the oscillator of the test, on the Brownian motion of `Levy` and for the generator of the draws. -/
example : ∃ (B : Fin 1 → ℝ≥0 → (Fin 1 → ℕ × ℕ → ℝ) → ℝ) (X : (Fin 1 → ℕ × ℕ → ℝ) → ℝ → Vec 2),
    IsBrownianVec B (Measure.pi fun _ => Levy.noise) ∧
      (∀ᵐ ω ∂(Measure.pi fun _ : Fin 1 => Levy.noise), SolvesAdditive (fun x _ => Ivp.Harmonic.M 0.1 0.1 *ᵥ x) (Ivp.Harmonic.C 1)
        (fun t j => B j t.toNNReal ω) Ivp.Harmonic.x0 1 (X ω)) ∧
      IdealNormals drawsMeasure drawsRng := by
  obtain ⟨B, hB⟩ := Levy.exists_brownianVec 1
  obtain ⟨L, K4, hb⟩ := smooth15_linear (Ivp.Harmonic.M 0.1 0.1) (Ivp.Harmonic.C 1)
  have hex : ∀ ω, ∃ X, Continuous (fun (t : ℝ) (j : Fin 1) => B j t.toNNReal ω) →
      SolvesAdditive (fun (x : Vec 2) _ => Ivp.Harmonic.M 0.1 0.1 *ᵥ x) (Ivp.Harmonic.C 1) (fun t j => B j t.toNNReal ω) Ivp.Harmonic.x0 1 X := fun ω => by
    by_cases h : Continuous (fun (t : ℝ) (j : Fin 1) => B j t.toNNReal ω)
    · obtain ⟨X, hX⟩ := exists_solvesAdditive zero_le_one (hb.field 1).cont (hb.field 1).lip (Ivp.Harmonic.C 1) h.continuousOn Ivp.Harmonic.x0
      exact ⟨X, fun _ => hX⟩
    · exact ⟨0, fun h' => absurd h' h⟩
  choose X hX using hex
  refine ⟨B, X, hB, ?_, idealNormals_drawsRng⟩
  filter_upwards [ae_all_iff.mpr fun j => (hB.brownian j).cont] with ω hω
  exact hX ω (continuous_pi fun j => (hω j).comp continuous_real_toNNReal)

end Verif
