import Verif.Lemmas.LinEuler
import Verif.Lemmas.EulerMaruyama
import Mathlib.Analysis.Complex.ExponentialBounds
import Verif.Props.WeakBias
import Verif.Model.ScriptsPathwise

/-!
# Property C134: the moments asserted by `tests/test_sde_solver_foster.py` for geometric Brownian motion with Euler steps
-/

namespace Verif

open Matrix Spec Jnp MeasureTheory ProbabilityTheory Filter Topology Scripts

/-- `M` Euler steps on one interval of the linear problem multiply the state by the growth factor. -/
theorem euler_linear_interval (rng : Rng) (key : Key) (μ s : ℝ) {δ : ℝ} (hδ : 0 < δ) (N M k : ℕ) (hM : 0 < M) (κ : Key) (x : Vec 1) :
    eulerInt M κ x (intervalField (fun z _ => μ • z) (fun z _ => s • diagonal z) (Foster.getApprox 1) δ
      (Foster.parabolas 1 rng ((key.child N k).child 2 0) δ) (k * δ)) δ = polyGrowth (LinEuler.y μ s M M) rng key δ N k • x := by
  have hM' : (0 : ℝ) < M := by exact_mod_cast hM
  show eulerSolver _ _ _ _ = _
  rw [polyGrowth]
  set ξ := rng.normalMat ((key.child N k).child 2 0) 2 1 0 0 with hξ
  set ζ := rng.normalMat ((key.child N k).child 2 0) 2 1 1 0 with hζ
  have hf : intervalField (fun z _ => μ • z) (fun z _ => s • diagonal z) (Foster.getApprox 1) δ
      (Foster.parabolas 1 rng ((key.child N k).child 2 0) δ) (k * δ) = fun z t =>
      (μ + s * ((Real.sqrt δ * ξ + Real.sqrt 6 * (Real.sqrt (0.5 * δ) * ζ) * (1 - 2 * t / δ)) / δ)) • z := by
    funext z t j
    have := jacT_evalParabola δ (Foster.parabolas 1 rng ((key.child N k).child 2 0) δ).1
      (Foster.parabolas 1 rng ((key.child N k).child 2 0) δ).2 t
    simp only [intervalField, Foster.getApprox, this]
    fin_cases j
    simp only [Foster.parabolas, Pi.add_apply, Pi.smul_apply, smul_mulVec, mulVec_diagonal, smul_eq_mul, Fin.zero_eta]
    rw [← hξ, ← hζ]
    ring
  rw [hf]
  have h6 : Real.sqrt 6 * Real.sqrt (0.5 * δ) = Real.sqrt 3 * Real.sqrt δ := by
    rw [← Real.sqrt_mul (by norm_num), ← Real.sqrt_mul (by norm_num)]
    congr 1
    ring
  have hs : Real.sqrt δ ^ 2 = δ := Real.sq_sqrt hδ.le
  have key2 : ∀ n, eulerSolver x (fun z t =>
      (μ + s * ((Real.sqrt δ * ξ + Real.sqrt 6 * (Real.sqrt (0.5 * δ) * ζ) * (1 - 2 * t / δ)) / δ)) • z) (δ / M) n =
      (LinEuler.y μ s M n).eval₂ (MvPolynomial.eval ![ξ, ζ]) (Real.sqrt δ) • x := by
    intro n
    induction n with
    | zero => rw [eulerSolver_zero, LinEuler.y, Polynomial.eval₂_one, one_smul]
    | succ n ih =>
      rw [eulerSolver_succ, ih, LinEuler.y, Polynomial.eval₂_add, Polynomial.eval₂_mul]
      have hu : Polynomial.eval₂ (MvPolynomial.eval ![ξ, ζ]) (Real.sqrt δ) (LinTrap.u μ s M n) =
          δ / M * (μ + s * ((Real.sqrt δ * ξ + Real.sqrt 6 * (Real.sqrt (0.5 * δ) * ζ) * (1 - 2 * (n * (δ / M)) / δ)) / δ)) := by
        rw [← mul_assoc (Real.sqrt 6), h6]
        simp only [LinTrap.u, LinTrap.w, Polynomial.eval₂_add, Polynomial.eval₂_mul, Polynomial.eval₂_C, Polynomial.eval₂_X,
          Polynomial.eval₂_pow, MvPolynomial.eval_C, map_add, map_mul, MvPolynomial.eval_X, cons_val_zero, cons_val_one, hs]
        field_simp
      rw [hu]
      funext j
      simp only [Pi.add_apply, Pi.smul_apply, smul_eq_mul]
      ring
  exact key2 M

/-- The states of `sde_solver` with Euler steps on the linear problem. -/
theorem euler_linear_traj (rng : Rng) (key : Key) (μ s : ℝ) {δ : ℝ} (hδ : 0 < δ) (N M : ℕ) (hM : 0 < M) (x0 : Vec 1) (k : ℕ) (hk : k ≤ N) :
    (sdeSolver rng key (fun z _ => μ • z) (fun z _ => s • diagonal z) x0 (Foster.getApprox 1) δ N (eulerInt M)).2.1[k]? =
      some ((∏ i ∈ Finset.range k, polyGrowth (LinEuler.y μ s M M) rng key δ N i) • x0) := by
  induction k with
  | zero =>
    have := (C02_trajectory_shape rng key (fun z _ => μ • z) (fun z _ => s • diagonal z) x0 (Foster.getApprox 1) δ N (eulerInt M)).2.1
    rw [List.head?_eq_getElem?] at this
    simpa using this
  | succ k ih =>
    obtain ⟨x, c, h1, -, h3, h4⟩ := sdeSolver_interval rng key (fun z _ => μ • z) (fun z _ => s • diagonal z) x0
      (Foster.getApprox 1) δ N (eulerInt M) k (by omega)
    have hx := Option.some.inj (h1.symm.trans (ih (by omega)))
    rw [h4, h3]
    refine congrArg some ((euler_linear_interval rng key μ s hδ N M k hM _ x).trans ?_)
    rw [hx, Finset.prod_range_succ, smul_smul, mul_comm]

/-- C134, what happens: with `M` Euler steps per interval, on `dx = μ x dt + s x ∘ dW`, the mean of the final state tends to
`x0 exp ((μ + s² (1/2 - 1/M + 3/(2 M²) - 1/M³)) T)` and its second moment to `x0² exp ((2 μ + s² (2 - 2/M + 6/M² - 2/M³)) T)` as the
number of intervals grows. The values for the SDE are those without the terms in `M`. -/
theorem C134_limits {Ω : Type*} [MeasurableSpace Ω] {P : Measure Ω} {R : Ω → Rng} (hR : IdealNormals P R) (key : Key) (μ s : ℝ) {T : ℝ}
    (hT : 0 < T) (M : ℕ) (hM : 0 < M) (x0 : Vec 1) :
    ∃ X : ℕ → Ω → Vec 1, (∀ (N : ℕ) ω, (sdeSolver (R ω) key (fun z _ => μ • z) (fun z _ => s • diagonal z) x0 (Foster.getApprox 1)
        (T / N) N (eulerInt M)).2.1[N]? = some (X N ω)) ∧
      (∀ N, MemLp (fun ω => X N ω 0) 2 P) ∧
      Tendsto (fun N => ∫ ω, X N ω 0 ∂P) atTop
        (𝓝 (x0 0 * Real.exp ((μ + s ^ 2 * (1 / 2 - 1 / M + 3 / (2 * M ^ 2) - 1 / M ^ 3)) * T))) ∧
      Tendsto (fun N => ∫ ω, X N ω 0 ^ 2 ∂P) atTop
        (𝓝 (x0 0 ^ 2 * Real.exp ((2 * μ + s ^ 2 * (2 - 2 / M + 6 / M ^ 2 - 2 / M ^ 3)) * T))) := by
  have hM' : (M : ℝ) ≠ 0 := by exact_mod_cast hM.ne'
  obtain ⟨q, hq⟩ : ∃ q, q = LinEuler.y μ s M M := ⟨_, rfl⟩
  have hc := LinEuler.coeff_y μ s hM M
  have hc2 := fun {Ω' : Type _} [MeasurableSpace Ω'] {P' : Measure Ω'} {ξ ζ : Ω' → ℝ} (hξ : HasLaw ξ (gaussianReal 0 1) P')
    (hζ : HasLaw ζ (gaussianReal 0 1) P') (hi : IndepFun ξ ζ P') => LinEuler.mean_y2 hξ hζ hi μ s hM M
  obtain ⟨ξ, ζ, hξ, hζ, hi, r, hr1, hr⟩ := polyGrowth_mean hR key q
  obtain ⟨ξ', ζ', hξ', hζ', hi', r', hr1', hr'⟩ := polyGrowth_mean hR key (q ^ 2)
  have hsq := coeff_sq q (by rw [hq]; exact hc.1)
  have hW : ∀ {Ω' : Type _} [MeasurableSpace Ω'] {P' : Measure Ω'} {ξ ζ : Ω' → ℝ} (hξ : HasLaw ξ (gaussianReal 0 1) P')
    (hζ : HasLaw ζ (gaussianReal 0 1) P') (hi : IndepFun ξ ζ P'), polyMean hξ hζ hi (LinEuler.W M M) = 0 := fun hξ hζ hi => by
    rw [LinEuler.W, polyMean_lin]
  have a0 : r.coeff 0 = 1 := by rw [hr1, hq, hc.1]; exact polyMean_C _ _ _ 1
  have a1 : r.coeff 1 = 0 := by rw [hr1, hq, hc.2, ← MvPolynomial.smul_eq_C_mul, map_smul, hW, smul_zero]
  have a2 : r.coeff 2 = μ + s ^ 2 * (1 / 2 - 1 / M + 3 / (2 * M ^ 2) - 1 / M ^ 3) := by
    rw [hr1, hq, hc2]
    field_simp
    ring
  have b0 : r'.coeff 0 = 1 := by rw [hr1', hsq.1]; exact polyMean_C _ _ _ 1
  have b1 : r'.coeff 1 = 0 := by
    have e : (2 : MvPolynomial (Fin 2) ℝ) * q.coeff 1 = (2 * s) • LinEuler.W M M := by
      rw [hq, hc.2, MvPolynomial.smul_eq_C_mul, map_mul]
      simp only [map_ofNat]
      ring
    rw [hr1', hsq.2.1, e, map_smul, hW, smul_zero]
  have b2 : r'.coeff 2 = 2 * μ + s ^ 2 * (2 - 2 / M + 6 / M ^ 2 - 2 / M ^ 3) := by
    have e : (2 : MvPolynomial (Fin 2) ℝ) * q.coeff 2 + q.coeff 1 * q.coeff 1 =
        (2 : ℝ) • q.coeff 2 + (s ^ 2) • (LinEuler.W M M * LinEuler.W M M) := by
      conv_lhs => rw [show q.coeff 1 = MvPolynomial.C s * LinEuler.W M M by rw [hq, hc.2]]
      rw [MvPolynomial.smul_eq_C_mul, MvPolynomial.smul_eq_C_mul, map_pow]
      simp only [map_ofNat]
      ring
    rw [hr1', hsq.2.2, e, map_add, map_smul, map_smul, hq, hc2, LinEuler.mean_W2, smul_eq_mul, smul_eq_mul]
    field_simp
    ring
  have hg2 : ∀ ω δ N i, polyGrowth (q ^ 2) (R ω) key δ N i = polyGrowth q (R ω) key δ N i ^ 2 := fun ω δ N i => by
    rw [polyGrowth, polyGrowth, Polynomial.eval₂_pow]
  have hprod : ∀ ω δ N k, ∏ i ∈ Finset.range k, polyGrowth (q ^ 2) (R ω) key δ N i =
      (∏ i ∈ Finset.range k, polyGrowth q (R ω) key δ N i) ^ 2 := fun ω δ N k => by
    rw [← Finset.prod_pow]
    exact Finset.prod_congr rfl fun i _ => hg2 ω δ N i
  refine ⟨fun N ω => (∏ i ∈ Finset.range N, polyGrowth q (R ω) key (T / N) N i) • x0, fun N ω => ?_, fun N => ?_, ?_, ?_⟩
  · rcases Nat.eq_zero_or_pos N with rfl | hN
    · have := (C02_trajectory_shape (R ω) key (fun z _ => μ • z) (fun z _ => s • diagonal z) x0 (Foster.getApprox 1)
        (T / (0 : ℕ)) 0 (eulerInt M)).2.1
      rw [List.head?_eq_getElem?] at this
      simpa using this
    · have hN' : (0 : ℝ) < N := by exact_mod_cast hN
      rw [hq]
      exact euler_linear_traj (R ω) key μ s (by positivity) N M hM x0 N le_rfl
  · have h1 := (hr (T / N) N N).1
    have h2 := (hr' (T / N) N N).1
    simp only [hprod] at h2
    simp only [Pi.smul_apply, smul_eq_mul]
    exact ((memLp_two_iff_integrable_sq h1.aestronglyMeasurable).mpr h2).mul_const _
  · have h3 := (tendsto_poly_pow r a0 a1 hT.le).const_mul (x0 0)
    rw [a2] at h3
    refine h3.congr fun N => ?_
    simp only [Pi.smul_apply, smul_eq_mul]
    rw [integral_mul_const, (hr (T / N) N N).2, mul_comm]
  · have h3 := (tendsto_poly_pow r' b0 b1 hT.le).const_mul (x0 0 ^ 2)
    rw [b2] at h3
    refine h3.congr fun N => ?_
    simp only [Pi.smul_apply, smul_eq_mul, mul_pow]
    rw [integral_mul_const, ← (hr' (T / N) N N).2, mul_comm]
    simp only [hprod]

/-- The limits of the mean and of the variance, for the problem `gbm` of `ivp.py` converted by `to_stratonovich`. -/
theorem gbm_euler_limits {Ω : Type*} [MeasurableSpace Ω] {P : Measure Ω} {R : Ω → Rng} (hR : IdealNormals P R) (key : Key) {T : ℝ} (hT : 0 < T)
    (M : ℕ) (hM : 0 < M) (X : ℕ → Ω → Vec 1)
    (hX : ∀ (N : ℕ) ω, (sdeSolver (R ω) key (toStratonovich Ivp.Gbm.drift Ivp.Gbm.sigma).1 (toStratonovich Ivp.Gbm.drift Ivp.Gbm.sigma).2
      Ivp.Gbm.x0 (Foster.getApprox 1) (T / N) N (eulerInt M)).2.1[N]? = some (X N ω)) :
    Tendsto (fun N => ∫ ω, X N ω 0 ∂P) atTop (𝓝 (Real.exp ((1 - (1 / M - 3 / (2 * M ^ 2) + 1 / M ^ 3)) * T))) ∧
    Tendsto (fun N => Var[fun ω => X N ω 0; P]) atTop (𝓝 (Real.exp ((3 - (2 / M - 6 / M ^ 2 + 2 / M ^ 3)) * T) -
      Real.exp (2 * (1 - (1 / M - 3 / (2 * M ^ 2) + 1 / M ^ 3)) * T))) := by
  obtain ⟨Y, h1, h2, h3, h4⟩ := C134_limits hR key (Ivp.Gbm.a - Ivp.Gbm.b ^ 2 / 2) Ivp.Gbm.b hT M hM Ivp.Gbm.x0
  have hXY : X = Y := by
    funext N ω
    have h := hX N ω
    rw [gbm_stratonovich] at h
    exact Option.some.inj (h.symm.trans (h1 N ω))
  subst hXY
  have hP : IsProbabilityMeasure P := (hR.law [] [1] 0 (by simp)).isProbabilityMeasure
  simp only [Ivp.Gbm.x0, Ivp.Gbm.a, Ivp.Gbm.b, Pi.one_apply, one_pow, one_mul] at h3 h4
  have e1 : (1 - 1 / 2 + (1 / 2 - 1 / (M : ℝ) + 3 / (2 * M ^ 2) - 1 / M ^ 3)) * T = (1 - (1 / M - 3 / (2 * M ^ 2) + 1 / M ^ 3)) * T := by ring
  have e2 : (2 * (1 - 1 / 2) + (2 - 2 / (M : ℝ) + 6 / M ^ 2 - 2 / M ^ 3)) * T = (3 - (2 / M - 6 / M ^ 2 + 2 / M ^ 3)) * T := by ring
  rw [e1] at h3
  rw [e2] at h4
  refine ⟨h3, ?_⟩
  have h5 := h4.sub (h3.pow 2)
  rw [← Real.exp_nat_mul] at h5
  refine (h5.congr fun N => ?_).trans_eq ?_
  · rw [variance_eq_sub (h2 N)]
    rfl
  · push_cast
    rw [mul_assoc]

/-- C134 is false, whatever the number `M` of Euler steps per interval (the test has `M = 100`): the mean of the final state does not
tend to `mean(T)` as the number of intervals grows; it stays below by the factor `exp (-(1/M - 3/(2 M²) + 1/M³) T)`. -/
theorem C134_fails {Ω : Type*} [MeasurableSpace Ω] {P : Measure Ω} {R : Ω → Rng} (hR : IdealNormals P R) (key : Key) {T : ℝ} (hT : 0 < T)
    (M : ℕ) (hM : 0 < M) (X : ℕ → Ω → Vec 1)
    (hX : ∀ (N : ℕ) ω, (sdeSolver (R ω) key (toStratonovich Ivp.Gbm.drift Ivp.Gbm.sigma).1 (toStratonovich Ivp.Gbm.drift Ivp.Gbm.sigma).2
      Ivp.Gbm.x0 (Foster.getApprox 1) (T / N) N (eulerInt M)).2.1[N]? = some (X N ω)) :
    ¬ Tendsto (fun N => ∫ ω, X N ω 0 ∂P) atTop (𝓝 (Ivp.Gbm.mean T 0)) := by
  intro h
  have he := tendsto_nhds_unique h (gbm_euler_limits hR key hT M hM X hX).1
  simp only [Ivp.Gbm.mean, Ivp.Gbm.x0, Ivp.Gbm.a, Pi.smul_apply, Pi.one_apply, smul_eq_mul, mul_one, one_mul] at he
  have he' := Real.exp_injective he
  have hM' : (1 : ℝ) ≤ M := by exact_mod_cast hM
  have hpos : (0 : ℝ) < 1 / M - 3 / (2 * M ^ 2) + 1 / M ^ 3 := by
    have e : (1 : ℝ) / M - 3 / (2 * M ^ 2) + 1 / M ^ 3 = (2 * M ^ 2 - 3 * M + 2) / (2 * M ^ 3) := by
      field_simp
    rw [e]
    refine div_pos ?_ (by positivity)
    nlinarith [sq_nonneg ((M : ℝ) - 1)]
  nlinarith

/-- C134, what holds: the limits tend to the mean and to the variance of `ivp.py` as the number `M` of Euler steps grows. -/
theorem C134_partial {Ω : Type*} [MeasurableSpace Ω] {P : Measure Ω} {R : Ω → Rng} (hR : IdealNormals P R) (key : Key) {T : ℝ} (hT : 0 < T)
    (X : ℕ → ℕ → Ω → Vec 1)
    (hX : ∀ (M N : ℕ) ω, (sdeSolver (R ω) key (toStratonovich Ivp.Gbm.drift Ivp.Gbm.sigma).1 (toStratonovich Ivp.Gbm.drift Ivp.Gbm.sigma).2
      Ivp.Gbm.x0 (Foster.getApprox 1) (T / N) N (eulerInt M)).2.1[N]? = some (X M N ω)) :
    ∃ l v : ℕ → ℝ, (∀ M > 0, Tendsto (fun N => ∫ ω, X M N ω 0 ∂P) atTop (𝓝 (l M)) ∧
        Tendsto (fun N => Var[fun ω => X M N ω 0; P]) atTop (𝓝 (v M))) ∧
      Tendsto l atTop (𝓝 (Ivp.Gbm.mean T 0)) ∧ Tendsto v atTop (𝓝 (Ivp.Gbm.variance T 0)) := by
  refine ⟨_, _, fun M hM => gbm_euler_limits hR key hT M hM (X M) (hX M), ?_, ?_⟩
  all_goals
    have h1 : Tendsto (fun M : ℕ => (1 : ℝ) / M) atTop (𝓝 0) := tendsto_one_div_atTop_nhds_zero_nat
    have h2 : Tendsto (fun M : ℕ => (1 : ℝ) / M - 3 / (2 * M ^ 2) + 1 / M ^ 3) atTop (𝓝 0) := by
      have := (h1.sub ((h1.pow 2).const_mul (3 / 2))).add (h1.pow 3)
      simp only [ne_eq, OfNat.ofNat_ne_zero, not_false_eq_true, zero_pow, mul_zero, sub_zero, add_zero] at this
      refine this.congr fun M => ?_
      ring
  · have h3 := (Real.continuous_exp.tendsto _).comp ((h2.const_sub 1).mul_const T)
    simp only [sub_zero, one_mul] at h3
    have e : Ivp.Gbm.mean T 0 = Real.exp T := by simp [Ivp.Gbm.mean, Ivp.Gbm.x0, Ivp.Gbm.a]
    rw [e]
    exact h3
  · have h4 : Tendsto (fun M : ℕ => (2 : ℝ) / M - 6 / M ^ 2 + 2 / M ^ 3) atTop (𝓝 0) := by
      have := ((h1.const_mul 2).sub ((h1.pow 2).const_mul 6)).add ((h1.pow 3).const_mul 2)
      simp only [ne_eq, OfNat.ofNat_ne_zero, not_false_eq_true, zero_pow, mul_zero, sub_zero, add_zero] at this
      refine this.congr fun M => ?_
      ring
    have h5 := ((Real.continuous_exp.tendsto _).comp ((h4.const_sub 3).mul_const T)).sub
      ((Real.continuous_exp.tendsto _).comp (((h2.const_sub 1).const_mul 2).mul_const T))
    have e : Ivp.Gbm.variance T 0 = Real.exp ((3 - 0) * T) - Real.exp (2 * (1 - 0) * T) := by
      simp only [Ivp.Gbm.variance, Ivp.Gbm.x0, Ivp.Gbm.a, Ivp.Gbm.b, Pi.smul_apply, Pi.pow_apply, Pi.one_apply, smul_eq_mul, one_pow, mul_one,
        one_mul, sub_zero, sub_mul]
      rw [← Real.exp_add]
      ring_nf
    rw [e]
    exact h5

/-- C134: the assertions of the test, which ask for one decimal (`|actual - desired| < 1.5 * 10 ** (-1)`), hold of the limits at `T = 1`
for `M ≥ 100`, as in the test. -/
theorem C134_tolerance {Ω : Type*} [MeasurableSpace Ω] {P : Measure Ω} {R : Ω → Rng} (hR : IdealNormals P R) (key : Key) (M : ℕ) (hM : 100 ≤ M)
    (X : ℕ → Ω → Vec 1)
    (hX : ∀ (N : ℕ) ω, (sdeSolver (R ω) key (toStratonovich Ivp.Gbm.drift Ivp.Gbm.sigma).1 (toStratonovich Ivp.Gbm.drift Ivp.Gbm.sigma).2
      Ivp.Gbm.x0 (Foster.getApprox 1) (1 / N) N (eulerInt M)).2.1[N]? = some (X N ω)) :
    ∀ᶠ N in atTop, |∫ ω, X N ω 0 ∂P - Ivp.Gbm.mean 1 0| < 0.15 ∧
      |Real.sqrt (Var[fun ω => X N ω 0; P]) - Real.sqrt (Ivp.Gbm.variance 1 0)| < 0.15 := by
  obtain ⟨h1, h2⟩ := gbm_euler_limits hR key one_pos M (by omega) X hX
  have hM' : (100 : ℝ) ≤ M := by exact_mod_cast hM
  obtain ⟨c, hc⟩ : ∃ c : ℝ, c = 1 / M - 3 / (2 * M ^ 2) + 1 / M ^ 3 := ⟨_, rfl⟩
  obtain ⟨b, hb⟩ : ∃ b : ℝ, b = 2 / M - 6 / M ^ 2 + 2 / M ^ 3 := ⟨_, rfl⟩
  rw [← hc, mul_one] at h1
  rw [← hc, ← hb, mul_one, mul_one] at h2
  obtain ⟨x, hx⟩ : ∃ x : ℝ, x = 1 / M := ⟨_, rfl⟩
  have hx0 : 0 < x := by rw [hx]; positivity
  have hx1 : x ≤ 0.01 := by
    rw [hx, div_le_iff₀ (by positivity)]
    linarith
  have hcx : c = x - 3 / 2 * x ^ 2 + x ^ 3 := by rw [hc, hx]; field_simp
  have hbx : b = 2 * x - 6 * x ^ 2 + 2 * x ^ 3 := by rw [hb, hx]; field_simp
  have hc0 : 0 ≤ c := by rw [hcx]; nlinarith [sq_nonneg x, pow_pos hx0 3]
  have hc1 : c ≤ 0.01 := by rw [hcx]; nlinarith [sq_nonneg x, pow_pos hx0 3, mul_pos hx0 hx0]
  have hb0 : 0 ≤ b := by rw [hbx]; nlinarith [sq_nonneg x, pow_pos hx0 3]
  have hb1 : b ≤ 0.02 := by rw [hbx]; nlinarith [sq_nonneg x, pow_pos hx0 3, mul_pos hx0 hx0]
  have he := Real.exp_one_lt_d9
  have he' := Real.exp_one_gt_d9
  -- a decrease of the exponent by `c` lowers the exponential by at most the fraction `c`
  have hexp : ∀ y z : ℝ, 0 ≤ z → Real.exp y * (1 - z) ≤ Real.exp (y - z) ∧ Real.exp (y - z) ≤ Real.exp y := fun y z hz => by
    refine ⟨?_, Real.exp_le_exp.mpr (by linarith)⟩
    rw [sub_eq_add_neg y, Real.exp_add]
    refine mul_le_mul_of_nonneg_left ?_ (Real.exp_pos y).le
    have := Real.add_one_le_exp (-z)
    linarith
  have e2 : Real.exp 2 = Real.exp 1 ^ 2 := by rw [← Real.exp_nat_mul]; norm_num
  have e3 : Real.exp 3 = Real.exp 1 ^ 3 := by rw [← Real.exp_nat_mul]; norm_num
  have hm : Ivp.Gbm.mean 1 0 = Real.exp 1 := by simp [Ivp.Gbm.mean, Ivp.Gbm.x0, Ivp.Gbm.a]
  have hv : Ivp.Gbm.variance 1 0 = Real.exp 3 - Real.exp 2 := by
    simp only [Ivp.Gbm.variance, Ivp.Gbm.x0, Ivp.Gbm.a, Ivp.Gbm.b, Pi.smul_apply, Pi.pow_apply, Pi.one_apply, smul_eq_mul, one_pow, mul_one,
      sub_mul, one_mul]
    rw [← Real.exp_add]
    norm_num
  rw [hm, hv]
  have l1 : |Real.exp (1 - c) - Real.exp 1| < 0.15 := by
    obtain ⟨p1, p2⟩ := hexp 1 c hc0
    have p3 : Real.exp 1 * c ≤ 2.72 * 0.01 := mul_le_mul (by linarith) hc1 hc0 (by norm_num)
    rw [mul_sub, mul_one] at p1
    rw [abs_lt]
    constructor <;> linarith
  have he2 : Real.exp 2 < 7.3891 := by rw [e2]; nlinarith
  have he2' : 7.389 < Real.exp 2 := by rw [e2]; nlinarith
  have he3 : Real.exp 3 < 20.0856 := by rw [e3, pow_succ, ← e2]; nlinarith
  have he3' : 20.085 < Real.exp 3 := by rw [e3, pow_succ, ← e2]; nlinarith
  obtain ⟨w, hw⟩ : ∃ w, w = Real.exp (3 - b) - Real.exp (2 * (1 - c)) := ⟨_, rfl⟩
  have hw1 : 12.1 < w ∧ w < 12.9 := by
    obtain ⟨p1, p2⟩ := hexp 3 b hb0
    obtain ⟨p3, p4⟩ := hexp 2 (2 * c) (by positivity)
    rw [show 2 * (1 - c) = 2 - 2 * c by ring] at hw
    have p5 : Real.exp 3 * b ≤ 20.0856 * 0.02 := mul_le_mul he3.le hb1 hb0 (by norm_num)
    have p6 : Real.exp 2 * (2 * c) ≤ 7.3891 * 0.02 := mul_le_mul he2.le (by linarith) (by positivity) (by norm_num)
    rw [mul_sub, mul_one] at p1 p3
    constructor <;> linarith
  have l2 : |Real.sqrt w - Real.sqrt (Real.exp 3 - Real.exp 2)| < 0.15 := by
    have s1 : Real.sqrt w < 3.6 := by rw [Real.sqrt_lt' (by norm_num)]; norm_num; linarith
    have s2 : 3.47 < Real.sqrt w := by rw [Real.lt_sqrt (by norm_num)]; norm_num; linarith
    have s3 : Real.sqrt (Real.exp 3 - Real.exp 2) < 3.57 := by rw [Real.sqrt_lt' (by norm_num)]; norm_num; linarith
    have s4 : 3.55 < Real.sqrt (Real.exp 3 - Real.exp 2) := by rw [Real.lt_sqrt (by norm_num)]; norm_num; linarith
    rw [abs_lt]
    constructor <;> linarith
  rw [← hw] at h2
  have t1 := ((h1.sub_const (Real.exp 1)).abs).eventually_lt_const l1
  have t2 := (((Real.continuous_sqrt.tendsto _).comp h2).sub_const (Real.sqrt (Real.exp 3 - Real.exp 2))).abs.eventually_lt_const l2
  filter_upwards [t1, t2] with N q1 q2
  exact ⟨q1, q2⟩

/-- C134: a concrete case, the test itself: the generator of independent draws, `M = 100`; the run always returns a state at the last
grid point. -/
example : ∃ X : ℕ → _ → Vec 1, (∀ (N : ℕ) ω, (sdeSolver (drawsRng ω) [] (toStratonovich Ivp.Gbm.drift Ivp.Gbm.sigma).1
      (toStratonovich Ivp.Gbm.drift Ivp.Gbm.sigma).2 Ivp.Gbm.x0 (Foster.getApprox 1) (1 / N) N (eulerInt 100)).2.1[N]? = some (X N ω)) ∧
    ∀ᶠ N in atTop, |∫ ω, X N ω 0 ∂drawsMeasure - Ivp.Gbm.mean 1 0| < 0.15 := by
  obtain ⟨X, h1, -, -, -⟩ := C134_limits idealNormals_drawsRng [] (Ivp.Gbm.a - Ivp.Gbm.b ^ 2 / 2) Ivp.Gbm.b one_pos 100 (by norm_num) Ivp.Gbm.x0
  have h2 : ∀ (N : ℕ) ω, (sdeSolver (drawsRng ω) [] (toStratonovich Ivp.Gbm.drift Ivp.Gbm.sigma).1
      (toStratonovich Ivp.Gbm.drift Ivp.Gbm.sigma).2 Ivp.Gbm.x0 (Foster.getApprox 1) (1 / N) N (eulerInt 100)).2.1[N]? = some (X N ω) := by
    rw [gbm_stratonovich]
    exact h1
  refine ⟨X, h2, ?_⟩
  filter_upwards [C134_tolerance idealNormals_drawsRng [] 100 le_rfl X h2] with N h
  exact h.1

end Verif
