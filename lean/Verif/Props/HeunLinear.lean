import Verif.Lemmas.HeunLinear
import Verif.Lemmas.TestSsm
import Verif.Lemmas.LevyBrownian
import Verif.Props.Lin15
import Verif.Props.SsmOrder

/-! C144, C145: one EKF0 step per interval on linear problems, in `sde_solver` and in the solver of Algorithm 4, and the moments asserted by
`tests/test_ssm_parabola_ode.py`. -/

namespace Verif

open Matrix Spec Jnp Set MeasureTheory ProbabilityTheory Filter Scripts
open scoped NNReal Topology

variable {d m : ℕ}

private theorem ode_heun {la : LinAlg} (hla : la.Correct) (rng : Rng) (hd : 0 < d) {σ δ : ℝ} (hσ : σ ≠ 0) (hδ : 0 < δ) (sqrt : Bool) {ode : OdeInt (Vec d) d}
    (hode : ∀ κ x vf, Ekf.ekf0 la rng none x vf δ 1 sqrt (some ⟨_, IOUP.transition 0 σ 1 δ d⟩) none = .ok (ode κ x vf δ)) (κ : Key) (x : Vec d) (vf : Field d) :
    ode κ x vf δ = x + (δ / 2) • (vf x 0 + vf (x + δ • vf x 0) δ) :=
  (Except.ok.inj ((C43_heun hla rng hd vf hσ hδ x sqrt).symm.trans (hode κ x vf))).symm

/-- C144, the law: every state of `sde_solver` with parabolas and one EKF0 step per interval is normal. With `E = 1 + δF + δ²F²/2` its mean is `Eⁿ x0`
and each interval adds the covariance `δ (1 + δF/2) SSᵀ (1 + δF/2)ᵀ + (3δ³/4) F SSᵀ Fᵀ`. -/
theorem C144_law {la : LinAlg} (hla : la.Correct) {Ω : Type*} [MeasurableSpace Ω] {P : Measure Ω} {R : Ω → Rng} (hR : IdealNormals P R) (rng : Rng) (key : Key)
    (hd : 0 < d) (x0 : Vec d) (F : Mat d d) (S : Mat d m) {δ σ : ℝ} (hδ : 0 < δ) (hσ : σ ≠ 0) (sqrt : Bool) (N : ℕ) (ode : OdeInt (Vec d) d)
    (hode : ∀ κ x vf, Ekf.ekf0 la rng none x vf δ 1 sqrt (some ⟨_, IOUP.transition 0 σ 1 δ d⟩) none = .ok (ode κ x vf δ))
    {E A V : Mat d d} (hE : E = 1 + δ • F + (δ ^ 2 / 2) • (F * F)) (hA : A = 1 + (δ / 2) • F)
    (hV : V = δ • (A * (S * Sᵀ) * Aᵀ) + (3 * δ ^ 3 / 4) • (F * (S * Sᵀ) * Fᵀ)) (n : ℕ) (hn : n ≤ N) : ∃ y : Ω → Vec d,
      (∀ ω, (sdeSolver (R ω) key (fun x _ => F *ᵥ x) (fun _ _ => S) x0 (Foster.getApprox m) δ N ode).2.1[n]? = some (y ω)) ∧
      IsNormal P y (E ^ n *ᵥ x0) (∑ i ∈ Finset.range n, E ^ i * V * (E ^ i)ᵀ) := by
  subst hE hA hV
  exact heun_linear_law hR key x0 F S hδ N ode (ode_heun hla rng hd hσ hδ sqrt hode) n hn

/-- C144, the order: the means and covariances are those of the solution of the SDE up to `C δ²`, at every grid point. -/
theorem C144_order {la : LinAlg} (hla : la.Correct) {Ω : Type*} [MeasurableSpace Ω] {P : Measure Ω} {B : Fin m → ℝ≥0 → Ω → ℝ} (hB : IsBrownianVec B P)
    (hd : 0 < d) (F : Mat d d) (S : Mat d m) (x0 : Vec d) {T : ℝ} (hT : 0 < T) {X : Ω → ℝ → Vec d}
    (hX : ∀ᵐ ω ∂P, SolvesAdditive (fun x _ => F *ᵥ x) S (fun t j => B j t.toNNReal ω) x0 T (X ω)) :
    ∃ C : ℝ, ∀ {Ω' : Type} [MeasurableSpace Ω'] {P' : Measure Ω'} {R : Ω' → Rng}, IdealNormals P' R → ∀ (rng : Rng) (key : Key) (N : ℕ), 0 < N →
      ∀ (σ : ℝ), σ ≠ 0 → ∀ (sqrt : Bool) (ode : OdeInt (Vec d) d),
      (∀ κ x vf, Ekf.ekf0 la rng none x vf (T / N) 1 sqrt (some ⟨_, IOUP.transition 0 σ 1 (T / N) d⟩) none = .ok (ode κ x vf (T / N))) →
      ∀ n ≤ N, ∃ y : Ω' → Vec d,
        (∀ ω, (sdeSolver (R ω) key (fun x _ => F *ᵥ x) (fun _ _ => S) x0 (Foster.getApprox m) (T / N) N ode).2.1[n]? = some (y ω)) ∧
        (∀ j, |∫ ω, y ω j ∂P' - ∫ ω, X ω (n * (T / N)) j ∂P| ≤ C * (T / N) ^ 2) ∧
        ∀ i j, |cov[fun ω => y ω i, fun ω => y ω j; P'] - cov[fun ω => X ω (n * (T / N)) i, fun ω => X ω (n * (T / N)) j; P]| ≤ C * (T / N) ^ 2 := by
  obtain ⟨c, hc⟩ := heunCov_local F S hT
  obtain ⟨C, hC⟩ := moments_of_laws hB F S x0 hT hX (by norm_num) (heunCov F (S * Sᵀ)) hc
  refine ⟨C, fun {Ω'} _ {P'} {R} hR rng key N hN σ hσ sqrt ode hode n hn => ?_⟩
  have hN' : (0 : ℝ) < N := by exact_mod_cast hN
  have hδ : 0 < T / N := by positivity
  obtain ⟨y, hy1, hy⟩ := heun_linear_law hR key x0 F S hδ N ode (ode_heun hla rng hd hσ hδ sqrt hode) n hn
  obtain ⟨h1, h2⟩ := hC N hN n hn hy
  exact ⟨y, hy1, h1, h2⟩

/-- C144: the hypotheses are met by the harmonic oscillator with noise on the velocity, the ideal generator, a Brownian motion with its solution, and the filter itself. -/
example (rng : Rng) (key : Key) : ∃ la : LinAlg, la.Correct ∧ ∃ C : ℝ, ∀ N : ℕ, 0 < N → ∀ n ≤ N, ∃ (ode : OdeInt (Vec 2) 2) (y : _ → Vec 2),
    (∀ κ x vf, Ekf.ekf0 la rng none x vf (1 / N) 1 true (some ⟨_, IOUP.transition 0 1 1 (1 / N) 2⟩) none = .ok (ode κ x vf (1 / N))) ∧
    (∀ ω, (sdeSolver (drawsRng ω) key (fun x _ => Ivp.Harmonic.M 1 1 *ᵥ x) (fun _ _ => Ivp.Harmonic.Csquare 2) Ivp.Harmonic.x0 (Foster.getApprox 2) (1 / N) N ode).2.1[n]? =
      some (y ω)) ∧
    ∃ a : Vec 2, ∀ j, |∫ ω, y ω j ∂drawsMeasure - a j| ≤ C * (1 / N) ^ 2 := by
  obtain ⟨la, hla⟩ := exists_correct_linAlg
  obtain ⟨B, hB⟩ := Levy.exists_brownianVec 2
  obtain ⟨L, K4, hb⟩ := smooth15_linear (Ivp.Harmonic.M 1 1) (Ivp.Harmonic.Csquare 2)
  obtain ⟨X, hX⟩ := hB.exists_solution zero_le_one (hb.field 1) (Ivp.Harmonic.Csquare 2) Ivp.Harmonic.x0
  obtain ⟨C, hC⟩ := C144_order hla hB two_pos (Ivp.Harmonic.M 1 1) (Ivp.Harmonic.Csquare 2) Ivp.Harmonic.x0 one_pos hX
  refine ⟨la, hla, C, fun N hN n hn => ?_⟩
  have hN' : (0 : ℝ) < N := by exact_mod_cast hN
  have hode : ∀ (κ : Key) (x : Vec 2) vf, Ekf.ekf0 la rng none x vf (1 / N) 1 true (some ⟨_, IOUP.transition 0 1 1 (1 / N) 2⟩) none =
      .ok (x + ((1 / N : ℝ) / 2) • (vf x 0 + vf (x + (1 / N : ℝ) • vf x 0) (1 / N))) := fun κ x vf =>
    C43_heun hla rng two_pos vf one_ne_zero (by positivity) x true
  obtain ⟨y, h1, h2, -⟩ := hC idealNormals_drawsRng rng key N hN 1 one_ne_zero true
    (fun _ x vf δ => x + (δ / 2) • (vf x 0 + vf (x + δ • vf x 0) δ)) hode n hn
  exact ⟨_, y, hode, h1, _, h2⟩

/-! ## C145 -/

/-- C145 (negation): the solver of the three tests raises `TypeError` on every input, and so does the call of `ekf0` without a prior in
`test_linear_sde_unidimensional`. -/
theorem C145_fails (la : LinAlg) (rng : Rng) :
    (∀ (key : Key) (init : Vec d) (drift : Field d) (diffusion : Diffusion d d) (T : ℝ),
      TestSsm.solver (fun k x δ f g h N => Ssm.wrapper la rng true (some k) x δ f g h N true) key init drift diffusion T = .error .typeError) ∧
    ∀ (init : Vec d) (vf : Field d) (T : ℝ), Ekf.ekf0 la rng none init vf (T / 1) 1 true = .error .typeError :=
  ⟨fun _ _ _ _ _ => (C58_fails la rng true _ _ _ _ _ _ _ true none none).2 rfl (Or.inl rfl), fun _ _ _ => rfl⟩

/-- C145, the law of Algorithm 4 if its wrapper received the increment it lacks: with EKF0 and one filter step per interval every state is normal. With
`E = 1 + δF + δ²F²/2` its mean is `Eⁿ x0` and each interval adds the covariance `δ SSᵀ + c²δ³/12`. Missing: the code raises. -/
theorem C145_partial {la : LinAlg} (hla : la.Correct) {Ω : Type*} [MeasurableSpace Ω] {P : Measure Ω} {R : Ω → Rng} (hR : IdealNormals P R) (key : Key)
    (x0 : Vec d) (F S : Mat d d) {δ : ℝ} (hδ : 0 < δ) (N : ℕ) {c : ℝ} (hc : c ≠ 0) (sqrt : Bool) (solver : Ω → Ssm.SsmInt (Vec d) (Vec d × Vec d) d d)
    (hs : ∀ ω k x f g, Ssm.wrapperFixed la (R ω) true (some k) x δ f g δ 1 sqrt (some ⟨2, IOUP.transition 0 c 1 δ 1⟩) none = .ok (solver ω k x f g δ))
    {E V : Mat d d} (hE : E = 1 + δ • F + (δ ^ 2 / 2) • (F * F)) (hV : V = δ • (S * Sᵀ) + (c ^ 2 * δ ^ 3 / 12) • 1) (n : ℕ) (hn : n ≤ N) : ∃ y : Ω → Vec d,
      (∀ ω, (Ssm.sdeSolver key (fun x _ => F *ᵥ x) (fun _ _ => S) x0 δ N (solver ω)).2[n]? = some (y ω)) ∧
      IsNormal P y (E ^ n *ᵥ x0) (∑ i ∈ Finset.range n, E ^ i * V * (E ^ i)ᵀ) := by
  subst hE hV
  exact par_linear_law hla hR key x0 F S hδ N hc sqrt solver hs n hn

/-- C145, the order: the means are those of the solution of the SDE up to `C δ²`, the covariances up to `C δ`, at every grid point. Missing: the code raises. -/
theorem C145_order_partial {la : LinAlg} (hla : la.Correct) {Ω : Type*} [MeasurableSpace Ω] {P : Measure Ω} {B : Fin d → ℝ≥0 → Ω → ℝ} (hB : IsBrownianVec B P)
    (F S : Mat d d) (x0 : Vec d) {T : ℝ} (hT : 0 < T) {X : Ω → ℝ → Vec d}
    (hX : ∀ᵐ ω ∂P, SolvesAdditive (fun x _ => F *ᵥ x) S (fun t j => B j t.toNNReal ω) x0 T (X ω)) {c : ℝ} (hc : c ≠ 0) :
    ∃ C : ℝ, ∀ {Ω' : Type} [MeasurableSpace Ω'] {P' : Measure Ω'} {R : Ω' → Rng}, IdealNormals P' R → ∀ (key : Key) (N : ℕ), 0 < N →
      ∀ (sqrt : Bool) (solver : Ω' → Ssm.SsmInt (Vec d) (Vec d × Vec d) d d),
      (∀ ω k x f g, Ssm.wrapperFixed la (R ω) true (some k) x (T / N) f g (T / N) 1 sqrt (some ⟨2, IOUP.transition 0 c 1 (T / N) 1⟩) none =
        .ok (solver ω k x f g (T / N))) →
      ∀ n ≤ N, ∃ y : Ω' → Vec d,
        (∀ ω, (Ssm.sdeSolver key (fun x _ => F *ᵥ x) (fun _ _ => S) x0 (T / N) N (solver ω)).2[n]? = some (y ω)) ∧
        (∀ j, |∫ ω, y ω j ∂P' - ∫ ω, X ω (n * (T / N)) j ∂P| ≤ C * (T / N) ^ 2) ∧
        ∀ i j, |cov[fun ω => y ω i, fun ω => y ω j; P'] - cov[fun ω => X ω (n * (T / N)) i, fun ω => X ω (n * (T / N)) j; P]| ≤ C * (T / N) := by
  obtain ⟨s, hs⟩ := parCov_local F S c hT
  obtain ⟨C, hC⟩ := moments_of_laws hB F S x0 hT hX (by norm_num) (parCov (S * Sᵀ) c) hs
  refine ⟨C, fun {Ω'} _ {P'} {R} hR key N hN sqrt solver hsol n hn => ?_⟩
  have hN' : (0 : ℝ) < N := by exact_mod_cast hN
  obtain ⟨y, hy1, hy⟩ := par_linear_law hla hR key x0 F S (δ := T / N) (by positivity) N hc sqrt solver hsol n hn
  obtain ⟨h1, h2⟩ := hC N hN n hn hy
  refine ⟨y, hy1, h1, fun i j => ?_⟩
  simpa using h2 i j

private theorem mean_close {E G δ : ℝ} (hE : 0 < E) (hδ : 0 < δ) (hδ1 : δ ≤ 1 / 100) (h1 : E * (1 - δ ^ 2) ≤ G) (h2 : G ≤ E) :
    |G - 1 * E| ≤ 1 / 10 * |1 * E| := by
  rw [one_mul, abs_of_pos hE, abs_le]
  have : δ ^ 2 ≤ 1 / 10 := by nlinarith
  constructor <;> nlinarith

/-- C145, `test_linear_sde_unidimensional` and `test_multidimensional_sde`, if the wrapper received the increment it lacks and `ekf0` a prior: for every interval
up to the 1/100 of the tests, with the drift, the diffusion and the initial value of the tests, the mean at time one is within ten per cent of the reference,
the standard deviation within ten per cent, the covariance within one, and the mean and the variance of `sde_solver` within ten per cent of them.
Missing: the code raises. -/
theorem C145_tests_partial {la : LinAlg} (hla : la.Correct) {Ω : Type*} [MeasurableSpace Ω] {P : Measure Ω} {R : Ω → Rng} (hR : IdealNormals P R) (key : Key)
    {δ : ℝ} (hδ : 0 < δ) (hδ1 : δ ≤ 1 / 100) {N : ℕ} (hN : (N : ℝ) * δ = 1) :
    (∀ (solver : Ω → Ssm.SsmInt (Vec 1) (Vec 1 × Vec 1) 1 1) (rng : Rng) (ode : OdeInt (Vec 1) 1),
      (∀ ω k x f g, TestSsm.solver (fun k x δ f g h N => Ssm.wrapperFixed la (R ω) true (some k) x δ f g h N true) k x f g δ = .ok (solver ω k x f g δ)) →
      (∀ κ x vf, Ekf.ekf0 la rng none x vf (δ / 1) 1 true (some ⟨_, IOUP.transition 0 1 1 (δ / 1) 1⟩) none = .ok (ode κ x vf δ)) →
      ∃ y z : Ω → Vec 1,
        (∀ ω, (Ssm.sdeSolver key TestSsm.drift TestSsm.sigma TestSsm.x0 δ N (solver ω)).2[N]? = some (y ω)) ∧
        (∀ ω, (sdeSolver (R ω) key TestSsm.drift TestSsm.sigma TestSsm.x0 (Foster.getApprox 1) δ N ode).2.1[N]? = some (z ω)) ∧
        (∀ j, |∫ ω, y ω j ∂P - TestSsm.refMean δ N j| ≤ 10e-2 * |TestSsm.refMean (d := 1) δ N j|) ∧
        (∀ j, |√(cov[fun ω => y ω j, fun ω => y ω j; P]) - TestSsm.refStd δ N| ≤ 10e-2 * |TestSsm.refStd δ N|) ∧
        (∀ j, |∫ ω, z ω j ∂P - ∫ ω, y ω j ∂P| ≤ 10e-2 * |∫ ω, y ω j ∂P|) ∧
        ∀ i j, |cov[fun ω => z ω i, fun ω => z ω j; P] - cov[fun ω => y ω i, fun ω => y ω j; P]| ≤ 10e-2 * |cov[fun ω => y ω i, fun ω => y ω j; P]|) ∧
    (∀ (solver : Ω → Ssm.SsmInt (Vec 2) (Vec 2 × Vec 2) 2 2),
      (∀ ω k x f g, TestSsm.solver (fun k x δ f g h N => Ssm.wrapperFixed la (R ω) true (some k) x δ f g h N true) k x f g δ = .ok (solver ω k x f g δ)) →
      ∃ y : Ω → Vec 2,
        (∀ ω, (Ssm.sdeSolver key TestSsm.drift TestSsm.sigma TestSsm.x0 δ N (solver ω)).2[N]? = some (y ω)) ∧
        (∀ j, |∫ ω, y ω j ∂P - TestSsm.refMean δ N j| ≤ 10e-2 * |TestSsm.refMean (d := 2) δ N j|) ∧
        ∀ i j, |cov[fun ω => y ω i, fun ω => y ω j; P] - TestSsm.refCov δ N i j| ≤ 10e-1) := by
  obtain ⟨g1, g2⟩ := grow_pow hδ hδ1 hN
  have hpar := grow_var hδ hδ1 hN (w := δ + 1 ^ 2 * δ ^ 3 / 12) (a := 98 / 200) (b := 1 / 2) (by norm_num)
    (by nlinarith [pow_pos hδ 2, pow_pos hδ 3, pow_pos hδ 4]) (by nlinarith [pow_pos hδ 2, pow_pos hδ 3, pow_pos hδ 4])
  have hheun := grow_var hδ hδ1 hN (w := δ + δ ^ 2 + δ ^ 3) (a := 98 / 200) (b := 102 / 200) (by norm_num)
    (by nlinarith [pow_pos hδ 2, pow_pos hδ 3, pow_pos hδ 4]) (by nlinarith [pow_pos hδ 2, pow_pos hδ 3, pow_pos hδ 4])
  obtain ⟨G, hG⟩ : ∃ G, G = grow δ ^ N := ⟨_, rfl⟩
  obtain ⟨v, hv⟩ : ∃ v, v = (∑ i ∈ Finset.range N, grow δ ^ i * grow δ ^ i) * (δ + 1 ^ 2 * δ ^ 3 / 12) := ⟨_, rfl⟩
  obtain ⟨w, hw⟩ : ∃ w, w = (∑ i ∈ Finset.range N, grow δ ^ i * grow δ ^ i) * (δ + δ ^ 2 + δ ^ 3) := ⟨_, rfl⟩
  rw [← hG] at g1 g2
  rw [← hv] at hpar
  rw [← hw] at hheun
  have he : (6 : ℝ) ≤ Real.exp 2 - 1 := by
    have h1 : Real.exp 2 = Real.exp 1 ^ 2 := by rw [← Real.exp_nat_mul]; norm_num
    have := Real.exp_one_gt_d9
    rw [h1]
    nlinarith
  have he' : Real.exp 2 - 1 ≤ 7 := by
    have h1 : Real.exp 2 = Real.exp 1 ^ 2 := by rw [← Real.exp_nat_mul]; norm_num
    have := Real.exp_one_lt_d9
    have := Real.exp_pos 1
    rw [h1]
    nlinarith
  obtain ⟨r, hr⟩ : ∃ r, r = Real.exp 2 - 1 := ⟨_, rfl⟩
  rw [← hr] at hpar hheun he he'
  have hmean : ∀ {D : ℕ} (j : Fin D), ((grow δ ^ N • (1 : Mat D D)) *ᵥ TestSsm.x0) j = G := fun {D} j => by
    rw [← hG, smul_mulVec, one_mulVec]
    simp [TestSsm.x0]
  have href : ∀ {D : ℕ} (j : Fin D), TestSsm.refMean δ N j = 1 * Real.exp 1 := fun {D} j => by
    rw [TestSsm.refMean, TestSsm.x0, one_mul δ, mul_comm δ, hN]
    rfl
  have hr2 : 0.5 * (Real.exp (1 * N * δ * 2) - 1) = 1 / 2 * r := by
    rw [hr, one_mul, hN]; norm_num
  have hstd : TestSsm.refStd δ N = √(1 / 2 * r) := by
    rw [TestSsm.refStd, hr2, Real.sqrt_eq_rpow]; norm_num
  have hdr : ∀ {D : ℕ}, (TestSsm.drift : Field D) = fun x _ => (1 : Mat D D) *ᵥ x := fun {D} => by
    funext x t; rw [one_mulVec]; rfl
  have hsig : ∀ {D : ℕ}, (TestSsm.sigma : Diffusion D D) = fun _ _ => (1 : Mat D D) := rfl
  have hN0 : 0 < N := by
    rcases Nat.eq_zero_or_pos N with h | h
    · subst h; simp at hN
    · exact h
  have hlaw : ∀ {D : ℕ} (solver : Ω → Ssm.SsmInt (Vec D) (Vec D × Vec D) D D),
      (∀ ω k x f g, TestSsm.solver (fun k x δ f g h N => Ssm.wrapperFixed la (R ω) true (some k) x δ f g h N true) k x f g δ = .ok (solver ω k x f g δ)) →
      ∃ y : Ω → Vec D, (∀ ω, (Ssm.sdeSolver key TestSsm.drift TestSsm.sigma TestSsm.x0 δ N (solver ω)).2[N]? = some (y ω)) ∧
        (∀ j, ∫ ω, y ω j ∂P = G) ∧ ∀ i j, cov[fun ω => y ω i, fun ω => y ω j; P] = if i = j then v else 0 := fun {D} solver hs => by
    obtain ⟨y, h1, h2⟩ := par_linear_law hla hR key TestSsm.x0 (1 : Mat D D) 1 hδ N (c := 1) one_ne_zero true solver
      (fun ω k x f g => (Ssm.wrapperFixed_default ..).symm.trans (hs ω k x f g)) N le_rfl
    rw [parCov_one, trans15_one_cov, trans15_one_pow, ← hv] at h2
    refine ⟨y, fun ω => by rw [hdr]; exact h1 ω, fun j => ?_, fun i j => ?_⟩
    · rw [h2.mean, hmean]
    · rw [h2.cov, Matrix.smul_apply, Matrix.one_apply]
      split_ifs <;> simp
  have h02 : (10e-2 : ℝ) = 1 / 10 := by norm_num
  have hmc := mean_close (Real.exp_pos 1) hδ hδ1 g1 g2
  refine ⟨fun solver rng ode hs hode => ?_, fun solver hs => ?_⟩
  · obtain ⟨y, hy1, hym, hyc⟩ := hlaw solver hs
    rw [div_one] at hode
    obtain ⟨z, hz1, hz⟩ := heun_linear_law hR key TestSsm.x0 (1 : Mat 1 1) (1 : Mat 1 1) hδ N ode
      (ode_heun hla rng one_pos one_ne_zero hδ true hode) N le_rfl
    rw [heunCov_one, trans15_one_cov, trans15_one_pow, ← hw] at hz
    refine ⟨y, z, hy1, fun ω => by rw [hdr]; exact hz1 ω, fun j => ?_, fun j => ?_, fun j => ?_, fun i j => ?_⟩
    · rw [hym, href]
      refine hmc.trans (le_of_eq ?_)
      norm_num
    · rw [hyc, if_pos rfl, hstd, abs_of_nonneg (Real.sqrt_nonneg _), abs_le]
      have hr0 : 0 ≤ 1 / 2 * r := by linarith
      have hlow : (9 / 10) * √(1 / 2 * r) ≤ √v := by
        refine Real.le_sqrt_of_sq_le ?_
        rw [mul_pow, Real.sq_sqrt hr0]
        linarith [hpar.1]
      have hup : √v ≤ √(1 / 2 * r) := Real.sqrt_le_sqrt hpar.2
      have hs0 := Real.sqrt_nonneg (1 / 2 * r)
      rw [h02]
      constructor <;> linarith only [hlow, hup, hs0]
    · rw [hz.mean, hmean, hym, sub_self, abs_zero]
      positivity
    · rw [hz.cov, hyc, Matrix.smul_apply, Matrix.one_apply, Subsingleton.elim i j, if_pos rfl, if_pos rfl, smul_eq_mul, mul_one]
      have hv0 : 0 ≤ v := by linarith [hpar.1]
      rw [abs_of_nonneg hv0, abs_le, h02]
      constructor <;> linarith [hpar.1, hpar.2, hheun.1, hheun.2]
  · obtain ⟨y, hy1, hym, hyc⟩ := hlaw solver hs
    refine ⟨y, hy1, fun j => ?_, fun i j => ?_⟩
    · rw [hym, href]
      refine hmc.trans (le_of_eq ?_)
      norm_num
    · have hvr : |v - 1 / 2 * r| ≤ 1 := by
        rw [abs_le]
        constructor <;> linarith [hpar.1, hpar.2]
      rw [hyc, TestSsm.refCov, hr2]
      simp only [TestSsm.x0, Pi.one_apply, one_pow, one_mul]
      have h10 : (10e-1 : ℝ) = 1 := by norm_num
      rw [h10]
      fin_cases i <;> fin_cases j
      · exact hvr
      · simp
      · simp
      · exact hvr

/-- C145, `test_ibm`, if the wrapper received the increment it lacks: for every interval up to the 1/100 of the test the mean at time one is the reference exactly
and every entry of the covariance is within ten per cent of the reference. The order of the covariance in `C145_order_partial` is sharp: the covariance of the two
components falls short of the exact one by `δ/3` at least. Missing: the code raises. -/
theorem C145_ibm_partial {la : LinAlg} (hla : la.Correct) {Ω : Type*} [MeasurableSpace Ω] {P : Measure Ω} {R : Ω → Rng} (hR : IdealNormals P R) (key : Key)
    {δ : ℝ} (hδ : 0 < δ) (hδ1 : δ ≤ 1 / 100) {N : ℕ} (hN : (N : ℝ) * δ = 1) (solver : Ω → Ssm.SsmInt (Vec 2) (Vec 2 × Vec 2) 2 2)
    (hs : ∀ ω k x f g, TestSsm.solver (fun k x δ f g h N => Ssm.wrapperFixed la (R ω) true (some k) x δ f g h N true) k x f g δ = .ok (solver ω k x f g δ)) :
    ∃ y : Ω → Vec 2,
      (∀ ω, (Ssm.sdeSolver key Ivp.Ibm.drift Ivp.Ibm.sigmaSquare Ivp.Ibm.x0 δ N (solver ω)).2[N]? = some (y ω)) ∧
      (∀ j, ∫ ω, y ω j ∂P = TestSsm.ibmMean δ N j) ∧
      (∀ i j, |cov[fun ω => y ω i, fun ω => y ω j; P] - TestSsm.ibmCov δ N i j| ≤ 10e-2 * |TestSsm.ibmCov δ N i j|) ∧
      cov[fun ω => y ω 0, fun ω => y ω 1; P] + δ / 3 ≤ TestSsm.ibmCov δ N 0 1 := by
  obtain ⟨y, h1, h2⟩ := par_linear_law hla hR key Ivp.Ibm.x0 !![0, 1; 0, 0] !![0, 0; 1, 0] hδ N (c := 1) one_ne_zero true solver
    (fun ω k x f g => (Ssm.wrapperFixed_default ..).symm.trans (hs ω k x f g)) N le_rfl
  rw [ibm_cov hN, ibm_trans, hN] at h2
  have hsig : Ivp.Ibm.sigmaSquare = fun _ _ => !![0, 0; 1, 0] := by
    funext x t
    simp [Ivp.Ibm.sigmaSquare, Ivp.Ibm.sigma]
  have hcov : TestSsm.ibmCov δ N = !![1 / 3, 1 / 2; 1 / 2, 1] := by
    rw [TestSsm.ibmCov, hN, Ivp.Ibm.var]
    norm_num
  have hd2 : δ ^ 2 ≤ 1 / 10000 := by nlinarith
  refine ⟨y, fun ω => by rw [hsig]; exact h1 ω, fun j => ?_, fun i j => ?_, ?_⟩
  · rw [h2.mean, TestSsm.ibmMean, hN]
    fin_cases j <;> simp [Ivp.Ibm.x0, mulVec, dotProduct, Fin.sum_univ_two]
  · rw [h2.cov, hcov]
    have k1 : |δ ^ 2 / 12 + (1 + δ ^ 2 / 12) * ((1 - δ) * (2 - δ) / 6) - 1 / 3| ≤ 10e-2 * |(1 : ℝ) / 3| := by
      norm_num [abs_le]
      constructor <;> nlinarith [pow_pos hδ 2, pow_pos hδ 3, pow_pos hδ 4]
    have k2 : |(1 + δ ^ 2 / 12) * ((1 - δ) / 2) - 1 / 2| ≤ 10e-2 * |(1 : ℝ) / 2| := by
      norm_num [abs_le]
      constructor <;> nlinarith [pow_pos hδ 2, pow_pos hδ 3]
    have k3 : |1 + δ ^ 2 / 12 - 1| ≤ 10e-2 * |(1 : ℝ)| := by
      norm_num [abs_le]
      constructor <;> nlinarith [pow_pos hδ 2]
    fin_cases i <;> fin_cases j
    · exact k1
    · exact k2
    · exact k2
    · exact k3
  · rw [h2.cov, hcov]
    show (1 + δ ^ 2 / 12) * ((1 - δ) / 2) + δ / 3 ≤ 1 / 2
    nlinarith [pow_pos hδ 2, pow_pos hδ 3]

/-- C145: the hypotheses of the three theorems are met by the step 1/100 of the tests, the ideal generator and the wrapper with the increment. -/
example (key : Key) : ∃ la : LinAlg, la.Correct ∧ ∃ (solver : _ → Ssm.SsmInt (Vec 2) (Vec 2 × Vec 2) 2 2) (y z : _ → Vec 2),
    (∀ ω, (Ssm.sdeSolver key TestSsm.drift TestSsm.sigma TestSsm.x0 (1 / 100) 100 (solver ω)).2[100]? = some (y ω)) ∧
    (∀ ω, (Ssm.sdeSolver key Ivp.Ibm.drift Ivp.Ibm.sigmaSquare Ivp.Ibm.x0 (1 / 100) 100 (solver ω)).2[100]? = some (z ω)) ∧
    (∀ i j, |cov[fun ω => y ω i, fun ω => y ω j; drawsMeasure] - TestSsm.refCov (1 / 100) 100 i j| ≤ 10e-1) ∧
    cov[fun ω => z ω 0, fun ω => z ω 1; drawsMeasure] + 1 / 100 / 3 ≤ TestSsm.ibmCov (1 / 100) 100 0 1 := by
  obtain ⟨la, hla⟩ := exists_correct_linAlg
  obtain ⟨solver, hs⟩ := exists_ssm_int (d := 2) la true drawsRng (1 / 100) 1 true
  have hs' : ∀ ω k x f g, TestSsm.solver (fun k x δ f g h N => Ssm.wrapperFixed la (drawsRng ω) true (some k) x δ f g h N true) k x f g (1 / 100) =
      .ok (solver ω k x f g (1 / 100)) := fun ω k x f g => (Ssm.wrapperFixed_default ..).trans (hs ω k x f g)
  obtain ⟨y, h1, -, h2⟩ := (C145_tests_partial hla idealNormals_drawsRng key (δ := 1 / 100) (N := 100) (by norm_num) le_rfl (by norm_num)).2 solver hs'
  obtain ⟨z, k1, -, -, k2⟩ := C145_ibm_partial hla idealNormals_drawsRng key (δ := 1 / 100) (N := 100) (by norm_num) le_rfl (by norm_num) solver hs'
  exact ⟨la, hla, solver, y, z, h1, k1, h2, k2⟩

end Verif
