import Verif.Props.EkfSde
import Verif.Lemmas.LinTrap
import Verif.Model.Ivp
import Mathlib.Topology.Algebra.MvPolynomial

/-!
# Property C76: weak error of `sde_solver` with a fixed number of EKF0 steps per interval
-/

namespace Verif

open Matrix Spec Jnp MeasureTheory ProbabilityTheory Filter Topology

/-- The growth factor of interval `k`: the linear scheme applied to the two normals of that interval. -/
noncomputable def growth (μ s : ℝ) (M : ℕ) (rng : Rng) (key : Key) (δ : ℝ) (N k : ℕ) : ℝ :=
  (LinTrap.y μ s M M).1.eval₂ (MvPolynomial.eval ![rng.normalMat ((key.child N k).child 2 0) 2 1 0 0,
    rng.normalMat ((key.child N k).child 2 0) 2 1 1 0]) (Real.sqrt δ)

theorem growth_eq (μ s : ℝ) (M : ℕ) (rng : Rng) (key : Key) (δ : ℝ) (N k : ℕ) :
    growth μ s M rng key δ N k = (linTrap (1 / 2) (fun n : ℕ => μ / M * Real.sqrt δ ^ 2 +
      s * (1 / M * rng.normalMat ((key.child N k).child 2 0) 2 1 0 0 +
        Real.sqrt 3 * (1 - 2 * (n / M)) / M * rng.normalMat ((key.child N k).child 2 0) 2 1 1 0) * Real.sqrt δ) M).1 := by
  have h := linTrap_map (Polynomial.eval₂RingHom (MvPolynomial.eval ![rng.normalMat ((key.child N k).child 2 0) 2 1 0 0,
    rng.normalMat ((key.child N k).child 2 0) 2 1 1 0]) (Real.sqrt δ)) (Polynomial.C (MvPolynomial.C (1 / 2))) (LinTrap.u μ s M) M
  have h1 := congrArg Prod.fst h
  simp only [Polynomial.coe_eval₂RingHom, Polynomial.eval₂_C, MvPolynomial.eval_C] at h1
  rw [growth, LinTrap.y, h1]
  simp [LinTrap.u, LinTrap.w]

/-- One interval of `sde_solver` on the linear problem multiplies the state by the growth factor. -/
theorem linear_interval {la : LinAlg} (hla : la.Correct) (rng rng' : Rng) (key : Key) (μ s : ℝ) {δ : ℝ} (hδ : 0 < δ)
    (N M k : ℕ) (hM : 0 < M) {σ : ℝ} (hσ : σ ≠ 0) (sqrt : Bool) (x : Vec 1) :
    Ekf.ekf0 la rng' none x (intervalField (fun z _ => μ • z) (fun z _ => s • diagonal z) (Foster.getApprox 1) δ
      (Foster.parabolas 1 rng ((key.child N k).child 2 0) δ) (k * δ)) (δ / M) M sqrt (some ⟨_, IOUP.transition 0 σ 1 (δ / M) 1⟩)
      none = .ok (growth μ s M rng key δ N k • x) := by
  have hM' : (0 : ℝ) < M := by exact_mod_cast hM
  have hh : 0 < δ / M := by positivity
  rw [C43_trapezoidal hla rng' one_pos _ hσ hh]
  set ξ := rng.normalMat ((key.child N k).child 2 0) 2 1 0 0 with hξ
  set ζ := rng.normalMat ((key.child N k).child 2 0) 2 1 1 0 with hζ
  have hf : intervalField (fun z _ => μ • z) (fun z _ => s • diagonal z) (Foster.getApprox 1) δ
      (Foster.parabolas 1 rng ((key.child N k).child 2 0) δ) (k * δ) = fun z t =>
      (μ + s * ((Real.sqrt δ * ξ + Real.sqrt 6 * (Real.sqrt (0.5 * δ) * ζ) * (1 - 2 * t / δ)) / δ)) • z := by
    funext z t j
    have := jacT_evalParabola δ (Foster.parabolas 1 rng ((key.child N k).child 2 0) δ).1
      (Foster.parabolas 1 rng ((key.child N k).child 2 0) δ).2 t
    simp only [intervalField, Foster.getApprox, this]
    fin_cases j
    simp only [Foster.parabolas, Pi.add_apply, Pi.smul_apply, smul_mulVec, mulVec_diagonal, smul_eq_mul, Fin.zero_eta]
    rw [← hξ, ← hζ]
    ring
  rw [hf, trapScheme_linear _ hh.ne', growth_eq, ← hξ, ← hζ]
  refine congrArg Except.ok ?_
  simp only
  congr 3
  funext n
  have h6 : Real.sqrt 6 * Real.sqrt (0.5 * δ) = Real.sqrt 3 * Real.sqrt δ := by
    rw [← Real.sqrt_mul (by norm_num), ← Real.sqrt_mul (by norm_num)]
    congr 1
    ring
  have hs : Real.sqrt δ ^ 2 = δ := Real.sq_sqrt hδ.le
  rw [← mul_assoc (Real.sqrt 6), h6, hs]
  field_simp

/-- The states of `sde_solver` on the linear problem. -/
theorem linear_traj {la : LinAlg} (hla : la.Correct) (rng rng' : Rng) (key : Key) (μ s : ℝ) {δ : ℝ} (hδ : 0 < δ)
    (N M : ℕ) (hM : 0 < M) {σ : ℝ} (hσ : σ ≠ 0) (sqrt : Bool) (x0 : Vec 1) (odeInt : OdeInt (Vec 1) 1)
    (hode : ∀ k x vf, Ekf.ekf0 la rng' none x vf (δ / M) M sqrt (some ⟨_, IOUP.transition 0 σ 1 (δ / M) 1⟩) none =
      .ok (odeInt k x vf δ)) (k : ℕ) (hk : k ≤ N) :
    (sdeSolver rng key (fun z _ => μ • z) (fun z _ => s • diagonal z) x0 (Foster.getApprox 1) δ N odeInt).2.1[k]? =
      some ((∏ i ∈ Finset.range k, growth μ s M rng key δ N i) • x0) := by
  induction k with
  | zero =>
    have := (C02_trajectory_shape rng key (fun z _ => μ • z) (fun z _ => s • diagonal z) x0 (Foster.getApprox 1) δ N odeInt).2.1
    rw [List.head?_eq_getElem?] at this
    simpa using this
  | succ k ih =>
    obtain ⟨x, c, h1, -, h3, h4⟩ := sdeSolver_interval rng key (fun z _ => μ • z) (fun z _ => s • diagonal z) x0
      (Foster.getApprox 1) δ N odeInt k (by omega)
    have hx := Option.some.inj (h1.symm.trans (ih (by omega)))
    rw [h4]
    have h5 := hode ((key.child N k).child 2 1) x (intervalField (fun z _ => μ • z) (fun z _ => s • diagonal z)
      (Foster.getApprox 1) δ c (k * δ))
    rw [show c = Foster.parabolas 1 rng ((key.child N k).child 2 0) δ from h3,
      linear_interval hla rng rng' key μ s hδ N M k hM hσ sqrt] at h5
    rw [h3]
    refine congrArg some ((Except.ok.inj h5).symm.trans ?_)
    rw [hx, Finset.prod_range_succ, smul_smul, mul_comm]

/-- The mean of the growth factor is a polynomial in `√δ` that does not depend on the interval. -/
theorem growth_mean {Ω : Type*} [MeasurableSpace Ω] {P : Measure Ω} {R : Ω → Rng} (hR : IdealNormals P R) (key : Key)
    (μ s : ℝ) {M : ℕ} (hM : 0 < M) :
    ∃ r : Polynomial ℝ, r.coeff 0 = 1 ∧ r.coeff 1 = 0 ∧ r.coeff 2 = μ + s ^ 2 * (1 / 2 - 3 / (2 * M ^ 3)) ∧
      ∀ (δ : ℝ) (N k : ℕ), Integrable (fun ω => ∏ i ∈ Finset.range k, growth μ s M (R ω) key δ N i) P ∧
        ∫ ω, ∏ i ∈ Finset.range k, growth μ s M (R ω) key δ N i ∂P = r.eval (Real.sqrt δ) ^ k := by
  have hM' : (M : ℝ) ≠ 0 := by exact_mod_cast hM.ne'
  have hb : ∀ k : Key, HasLaw (fun ω => (R ω).normalMat k 2 1 0 0) (gaussianReal 0 1) P ∧
      HasLaw (fun ω => (R ω).normalMat k 2 1 1 0) (gaussianReal 0 1) P ∧
      IndepFun (fun ω => (R ω).normalMat k 2 1 0 0) (fun ω => (R ω).normalMat k 2 1 1 0) P := fun k => by
    have hi := hR.indep_mats (ι := Unit) (fun _ => k) (fun a b h => (h (Subsingleton.elim a b)).elim) 2 1
    exact ⟨hR.law_mat k 0 0, hR.law_mat k 1 0, hi.indepFun (i := ((), 0, 0)) (j := ((), 1, 0)) (by simp)⟩
  obtain ⟨m, rfl⟩ : ∃ m, M = m + 1 := ⟨M - 1, by omega⟩
  -- the polynomial is determined by its coefficients, the same for every key
  have hr : ∀ k : Key, _ := fun k => (exists_mean_poly (hb k).1 (hb k).2.1 (hb k).2.2 (LinTrap.y μ s (m + 1) (m + 1)).1).2
  have hri : ∀ k : Key, _ := fun k => (exists_mean_poly (hb k).1 (hb k).2.1 (hb k).2.2 (LinTrap.y μ s (m + 1) (m + 1)).1).1
  have hlaw : ∀ (k k' : Key) (g : MvPolynomial (Fin 2) ℝ),
      ∫ ω, MvPolynomial.eval ![(R ω).normalMat k 2 1 0 0, (R ω).normalMat k 2 1 1 0] g ∂P =
      ∫ ω, MvPolynomial.eval ![(R ω).normalMat k' 2 1 0 0, (R ω).normalMat k' 2 1 1 0] g ∂P := fun k k' g => by
    have e : ∀ k : Key, ∫ ω, MvPolynomial.eval ![(R ω).normalMat k 2 1 0 0, (R ω).normalMat k 2 1 1 0] g ∂P =
        ∫ z, MvPolynomial.eval ![z.1, z.2] g ∂((gaussianReal 0 1).prod (gaussianReal 0 1)) := fun k => by
      have := (hb k).1.isProbabilityMeasure
      have h1 := (indepFun_iff_map_prod_eq_prod_map_map (hb k).1.aemeasurable (hb k).2.1.aemeasurable).mp (hb k).2.2
      rw [(hb k).1.map_eq, (hb k).2.1.map_eq] at h1
      rw [← h1, integral_map ((hb k).1.aemeasurable.prodMk (hb k).2.1.aemeasurable)]
      have hm : Measurable fun z : ℝ × ℝ => MvPolynomial.eval ![z.1, z.2] g :=
        (MvPolynomial.continuous_eval g).measurable.comp (measurable_pi_lambda _ fun i => by
          fin_cases i
          · exact measurable_fst
          · exact measurable_snd)
      exact hm.aestronglyMeasurable
    rw [e, e]
  obtain ⟨r, hr1, hr2⟩ := hr []
  have hall : ∀ (k : Key) (ε : ℝ), ∫ ω, (LinTrap.y μ s (m + 1) (m + 1)).1.eval₂
      (MvPolynomial.eval ![(R ω).normalMat k 2 1 0 0, (R ω).normalMat k 2 1 1 0]) ε ∂P = r.eval ε := fun k ε => by
    obtain ⟨r', h1, h2⟩ := hr k
    have : r' = r := Polynomial.ext fun i => by rw [h1, hr1]; exact hlaw k [] _
    rw [h2, this]
  refine ⟨r, ?_, ?_, ?_, fun δ N k => ?_⟩
  · rw [hr1, (LinTrap.coeff_y μ s hM (m + 1)).1]
    exact polyMean_C _ _ _ 1
  · rw [hr1, (LinTrap.coeff_y μ s hM (m + 1)).2.2.2, ← MvPolynomial.smul_eq_C_mul, map_smul, LinTrap.W, polyMean_lin, smul_zero]
  · rw [hr1, LinTrap.mean_y2 _ _ _ μ s hM m]
    push_cast
    field_simp
    ring
  · have hi := hR.indep_mats (ι := ℕ) (fun i => (key.child N i).child 2 0)
      (fun a b hab => ((Key.diverge_child key N a b hab).child_left 2 0).child_right 2 0) 2 1
    have h := integral_prod_groups (P := P) hi (fun p => (hR.law_mat _ _ _).aemeasurable)
      (fun z => (LinTrap.y μ s (m + 1) (m + 1)).1.eval₂ (MvPolynomial.eval ![z (0, 0), z (1, 0)]) (Real.sqrt δ)) ?_
      (fun i => hri _ _) k
    · refine ⟨h.1, h.2.trans ?_⟩
      simp only [hall, Finset.prod_const, Finset.card_range]
    · simp only [Polynomial.eval₂_eq_sum_range]
      refine Finset.measurable_fun_sum _ fun i _ => Measurable.mul_const ?_ _
      refine (MvPolynomial.continuous_eval _).measurable.comp (measurable_pi_lambda _ fun i => ?_)
      fin_cases i
      · exact measurable_pi_apply _
      · exact measurable_pi_apply _

/-- C76, what happens: with `M` EKF0 steps per interval the mean of the final state on `dx = μ x dt + s x ∘ dW` tends to
`x0 exp((μ + s² (1/2 - 3/(2 M³))) T)` as the number `N` of intervals grows. The exact mean is `x0 exp((μ + s²/2) T)`. -/
theorem C76_limit_mean {Ω : Type*} [MeasurableSpace Ω] {P : Measure Ω} {R : Ω → Rng} (hR : IdealNormals P R) {la : LinAlg}
    (hla : la.Correct) (rng : Rng) (key : Key) (μ s : ℝ) {T : ℝ} (hT : 0 < T) (M : ℕ) (hM : 0 < M) {σ : ℝ} (hσ : σ ≠ 0)
    (sqrt : Bool) (x0 : Vec 1) (odeInt : ℝ → OdeInt (Vec 1) 1)
    (hode : ∀ δ > 0, ∀ k x vf, Ekf.ekf0 la rng none x vf (δ / M) M sqrt (some ⟨_, IOUP.transition 0 σ 1 (δ / M) 1⟩) none =
      .ok (odeInt δ k x vf δ)) :
    ∃ X : ℕ → Ω → Vec 1, (∀ (N : ℕ) ω, (sdeSolver (R ω) key (fun z _ => μ • z) (fun z _ => s • diagonal z) x0 (Foster.getApprox 1)
        (T / N) N (odeInt (T / N))).2.1[N]? = some (X N ω)) ∧
      (∀ N, Integrable (fun ω => X N ω 0) P) ∧
      Tendsto (fun N => ∫ ω, X N ω 0 ∂P) atTop (𝓝 (x0 0 * Real.exp ((μ + s ^ 2 * (1 / 2 - 3 / (2 * M ^ 3))) * T))) := by
  obtain ⟨r, h0, h1, h2, hr⟩ := growth_mean hR key μ s hM
  refine ⟨fun N ω => (∏ i ∈ Finset.range N, growth μ s M (R ω) key (T / N) N i) • x0, fun N ω => ?_, fun N => ?_, ?_⟩
  · rcases Nat.eq_zero_or_pos N with rfl | hN
    · have := (C02_trajectory_shape (R ω) key (fun z _ => μ • z) (fun z _ => s • diagonal z) x0 (Foster.getApprox 1)
        (T / (0 : ℕ)) 0 (odeInt (T / (0 : ℕ)))).2.1
      rw [List.head?_eq_getElem?] at this
      simpa using this
    · have hN' : (0 : ℝ) < N := by exact_mod_cast hN
      exact linear_traj hla (R ω) rng key μ s (by positivity) N M hM hσ sqrt x0 _ (hode _ (by positivity)) N le_rfl
  · exact (hr (T / N) N N).1.mul_const _
  · have h3 := (tendsto_poly_pow r h0 h1 hT.le).const_mul (x0 0)
    rw [h2] at h3
    refine h3.congr fun N => ?_
    simp only [Pi.smul_apply, smul_eq_mul]
    rw [integral_mul_const, (hr (T / N) N N).2, mul_comm]

/-- The gbm problem of `ivp.py` after `to_stratonovich`. -/
theorem gbm_stratonovich : toStratonovich Ivp.Gbm.drift Ivp.Gbm.sigma =
    (fun z _ => (Ivp.Gbm.a - Ivp.Gbm.b ^ 2 / 2) • z, fun z _ => Ivp.Gbm.b • diagonal z) := by
  refine Prod.ext ?_ rfl
  funext z t i
  have hd : ∀ j : Fin 1, pd j (fun z : Vec 1 => Ivp.Gbm.sigma z t i 0) z = Ivp.Gbm.b := fun j => by
    have e : (fun z : Vec 1 => Ivp.Gbm.sigma z t i 0) = fun z => Ivp.Gbm.b * z 0 := by
      funext z
      fin_cases i
      simp [Ivp.Gbm.sigma]
    have h : HasFDerivAt (fun z : Vec 1 => Ivp.Gbm.b * z 0) (Ivp.Gbm.b • ContinuousLinearMap.proj (R := ℝ) (φ := fun _ : Fin 1 => ℝ) 0) z :=
      (ContinuousLinearMap.proj (R := ℝ) (φ := fun _ : Fin 1 => ℝ) 0).hasFDerivAt.const_mul _
    rw [e, pd, h.fderiv]
    fin_cases j
    simp
  fin_cases i
  simp only [Fin.zero_eta, Fin.isValue] at hd
  simp only [toStratonovich, driftCorrection, Fin.zero_eta, Finset.univ_unique, Fin.default_eq_zero, Finset.sum_singleton,
    Pi.sub_apply, Pi.smul_apply, hd]
  simp [Ivp.Gbm.drift, Ivp.Gbm.sigma]
  ring

/-- C76 is false, whatever the number `M` of EKF0 steps per interval: the mean of the final state of `sde_solver` on the gbm
problem of `ivp.py` (drift converted by `to_stratonovich`) does not tend to its mean `theoretical_mean(T)`. -/
theorem C76_fails {Ω : Type*} [MeasurableSpace Ω] {P : Measure Ω} {R : Ω → Rng} (hR : IdealNormals P R) {la : LinAlg}
    (hla : la.Correct) (rng : Rng) (key : Key) {T : ℝ} (hT : 0 < T) (M : ℕ) (hM : 0 < M) {σ : ℝ} (hσ : σ ≠ 0) (sqrt : Bool)
    (odeInt : ℝ → OdeInt (Vec 1) 1)
    (hode : ∀ δ > 0, ∀ k x vf, Ekf.ekf0 la rng none x vf (δ / M) M sqrt (some ⟨_, IOUP.transition 0 σ 1 (δ / M) 1⟩) none =
      .ok (odeInt δ k x vf δ)) (X : ℕ → Ω → Vec 1)
    (hX : ∀ (N : ℕ) ω, (sdeSolver (R ω) key (toStratonovich Ivp.Gbm.drift Ivp.Gbm.sigma).1
      (toStratonovich Ivp.Gbm.drift Ivp.Gbm.sigma).2 Ivp.Gbm.x0 (Foster.getApprox 1) (T / N) N (odeInt (T / N))).2.1[N]? =
        some (X N ω)) :
    ¬ Tendsto (fun N => ∫ ω, X N ω 0 ∂P) atTop (𝓝 (Ivp.Gbm.mean T 0)) := by
  obtain ⟨Y, h1, -, h3⟩ := C76_limit_mean hR hla rng key (Ivp.Gbm.a - Ivp.Gbm.b ^ 2 / 2) Ivp.Gbm.b hT M hM hσ sqrt Ivp.Gbm.x0
    odeInt hode
  have hXY : X = Y := by
    funext N ω
    have h := hX N ω
    rw [gbm_stratonovich] at h
    exact Option.some.inj (h.symm.trans (h1 N ω))
  rw [hXY]
  intro h
  have he := tendsto_nhds_unique h h3
  have hM' : (0 : ℝ) < M := by exact_mod_cast hM
  simp only [Ivp.Gbm.mean, Ivp.Gbm.x0, Ivp.Gbm.a, Ivp.Gbm.b, Pi.smul_apply, Pi.one_apply, smul_eq_mul, mul_one, one_mul] at he
  have he' := Real.exp_injective he
  have : (0 : ℝ) < 3 / (2 * M ^ 3) := by positivity
  nlinarith

/-- C76, what remains: for every `M` the mean of the final state has a limit `ℓ M` as `N` grows, and `ℓ M` tends to
`theoretical_mean(T)` as `M` grows. -/
theorem C76_partial {Ω : Type*} [MeasurableSpace Ω] {P : Measure Ω} {R : Ω → Rng} (hR : IdealNormals P R) {la : LinAlg}
    (hla : la.Correct) (rng : Rng) (key : Key) {T : ℝ} (hT : 0 < T) {σ : ℝ} (hσ : σ ≠ 0) (sqrt : Bool)
    (odeInt : ℕ → ℝ → OdeInt (Vec 1) 1)
    (hode : ∀ M : ℕ, M > 0 → ∀ δ > 0, ∀ k x vf, Ekf.ekf0 la rng none x vf (δ / M) M sqrt
      (some ⟨_, IOUP.transition 0 σ 1 (δ / M) 1⟩) none = .ok (odeInt M δ k x vf δ)) (X : ℕ → ℕ → Ω → Vec 1)
    (hX : ∀ (M N : ℕ) ω, (sdeSolver (R ω) key (toStratonovich Ivp.Gbm.drift Ivp.Gbm.sigma).1
      (toStratonovich Ivp.Gbm.drift Ivp.Gbm.sigma).2 Ivp.Gbm.x0 (Foster.getApprox 1) (T / N) N (odeInt M (T / N))).2.1[N]? =
        some (X M N ω)) :
    ∃ l : ℕ → ℝ, (∀ M > 0, Tendsto (fun N => ∫ ω, X M N ω 0 ∂P) atTop (𝓝 (l M))) ∧
      Tendsto l atTop (𝓝 (Ivp.Gbm.mean T 0)) := by
  refine ⟨fun M => Ivp.Gbm.x0 0 * Real.exp ((Ivp.Gbm.a - Ivp.Gbm.b ^ 2 / 2 +
      Ivp.Gbm.b ^ 2 * (1 / 2 - 3 / (2 * M ^ 3))) * T), fun M hM => ?_, ?_⟩
  · obtain ⟨Y, h1, -, h3⟩ := C76_limit_mean hR hla rng key (Ivp.Gbm.a - Ivp.Gbm.b ^ 2 / 2) Ivp.Gbm.b hT M hM hσ sqrt Ivp.Gbm.x0
      (odeInt M) (hode M hM)
    have hXY : X M = Y := by
      funext N ω
      have h := hX M N ω
      rw [gbm_stratonovich] at h
      exact Option.some.inj (h.symm.trans (h1 N ω))
    rw [hXY]
    exact h3
  have h1 : Tendsto (fun M : ℕ => (3 : ℝ) / (2 * M ^ 3)) atTop (𝓝 0) := by
    refine Tendsto.div_atTop tendsto_const_nhds (Tendsto.const_mul_atTop two_pos ?_)
    exact (tendsto_pow_atTop (by norm_num)).comp tendsto_natCast_atTop_atTop
  have h2 := (((h1.const_sub (1 / 2)).const_mul (Ivp.Gbm.b ^ 2)).const_add (Ivp.Gbm.a - Ivp.Gbm.b ^ 2 / 2)).mul_const T
  have h3 := ((Real.continuous_exp.tendsto _).comp h2).const_mul (Ivp.Gbm.x0 0)
  have e : Ivp.Gbm.x0 0 * Real.exp ((Ivp.Gbm.a - Ivp.Gbm.b ^ 2 / 2 + Ivp.Gbm.b ^ 2 * (1 / 2 - 0)) * T) = Ivp.Gbm.mean T 0 := by
    simp only [Ivp.Gbm.mean, Ivp.Gbm.x0, Pi.smul_apply, Pi.one_apply, smul_eq_mul, mul_one, one_mul]
    ring_nf
  rw [← e]
  exact h3

/-- C76: the hypotheses can be met. -/
example (M : ℕ) (hM : 0 < M) {la : LinAlg} (hla : la.Correct) (rng : Rng) (sqrt : Bool) :
    ∃ odeInt : ℝ → OdeInt (Vec 1) 1, ∀ δ > 0, ∀ k x vf,
      Ekf.ekf0 la rng none x vf (δ / M) M sqrt (some ⟨_, IOUP.transition 0 1 1 (δ / M) 1⟩) none = .ok (odeInt δ k x vf δ) :=
  ⟨fun δ _ x vf _ => (trapScheme vf (δ / M) x M).1, fun δ hδ k x vf => C43_trapezoidal hla rng one_pos vf one_ne_zero
    (div_pos hδ (by exact_mod_cast hM)) x M sqrt⟩

end Verif
