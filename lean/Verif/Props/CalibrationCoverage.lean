import Verif.Props.CalibratedLipschitz

/-!
# Property C120: the calibrated bands are too wide by any factor
-/

namespace Verif

open Matrix Spec Jnp Scripts MeasureTheory ProbabilityTheory Set Filter Topology
open scoped Matrix.Norms.Operator

variable {d m : ℕ}

/-- C120: the means that the calibration experiment saves and every `fine`-th state of its fine Euler-Maruyama solution are the two
trajectories of the low-memory pathwise script with the same prior and the first key. -/
theorem C120_pairing {la : LinAlg} (rng : Rng) (k0 : Key) (ks : List Key) (f : Field d) (S : Mat d m) (x0 : Vec d) (δ : ℝ) (N : ℕ) {fine : ℕ}
    (hfine : 1 ≤ fine) (σ : ℝ) {odeInt : OdeInt (Ekf.State3 d) d}
    (hode : ∀ k x vf, Ekf.ekf2 la rng false (some k) x vf δ 1 true (some ⟨_, IOUP.transition 0 σ 1 δ d⟩) none = .ok (odeInt k x vf δ)) :
    ∃ o ts traj traj2, calibrationExperiment la rng (k0 :: ks) f (fun _ _ => S) x0 δ N 1 fine σ = .ok o ∧
      ramSolver rng k0 f (fun _ _ => S) ((x0, x0, 0) : Ekf.State3 d) x0 δ N fine odeInt = .ok (ts, traj, traj2) ∧
      ∀ k < N, ∃ y mu V z, traj[k + 1]? = some (y, stride 0 mu, strideMat 0 0 V) ∧ traj2[k + 1]? = some z ∧ o.mean[k]? = some mu ∧
        o.var[k]? = some V ∧ o.refs.sols2[(k + 1) * fine]? = some z := by
  have hst : toStratonovich f (fun _ _ => S) = (f, fun _ _ => S) := Prod.ext (C10_additive_noise f (fun _ => S)).2 rfl
  obtain ⟨o, l, h1, h2, -, -, h3, -⟩ := C116_filter la rng k0 ks f (fun _ _ => S) x0 δ N 1 fine σ odeInt
    (fun k x vf => by simp only [Nat.cast_one, div_one]; exact hode k x vf)
  obtain ⟨r, ts2, -, g1, -, -, -, -, -, -, g2, -⟩ := C116_references rng k0 ks f (fun _ _ => S) x0 δ N fine
  obtain rfl : r = o.refs := Except.ok.inj (g1.symm.trans h2)
  obtain ⟨traj2, ts3, xs, e1, e2, e3, e4⟩ := C99_low_memory rng k0 f (fun _ _ => S) ((x0, x0, 0) : Ekf.State3 d) x0 δ N fine hfine odeInt
  simp only [hst] at h3 g2
  rw [sdeSolver_coeffs, mul_comm fine N] at g2
  rw [sdeSolver_coeffs] at e2
  have e5 := Except.ok.inj (g2.symm.trans e2)
  have e6 : o.refs.sols2 = xs := (Prod.ext_iff.mp e5).2
  refine ⟨o, _, _, traj2, h1, e1, fun k hk => ?_⟩
  obtain ⟨y, mu, V, a1, a2, a3, a4, a5⟩ := h3 k hk
  obtain ⟨b1, b2⟩ := e4 (k + 1) hk
  obtain ⟨z, hz⟩ := Option.isSome_iff_exists.mp b2
  refine ⟨y.1, mu, V, z, ?_, hz, a2, a3, by rw [e6, ← b1, hz]⟩
  rw [a1, ← a4, ← a5]

/-- C120: the calibration experiment, one filter step per interval, on the terms of `C119_prob`. Fix a factor `η`, as small as desired, and a
time `t0 > 0`. At every grid time from `t0` on, with a probability as close to one as desired for small steps, the fine reference solution
lies within `η` calibrated standard deviations of the mean, in every direction of the state space. -/
theorem C120_prob {Ω : Type} [MeasurableSpace Ω] {P : Measure Ω} {R : Ω → Rng} (hR : IdealNormals P R) {la : LinAlg} (hla : la.Correct)
    {f : Field d} (hf : ContDiff ℝ 2 (Function.uncurry f)) {T : ℝ} (hT : 0 < T) {S : Mat d m} (hS : S ≠ 0) (x0 : Vec d)
    (hsol : ∀ w : ℝ → Vec m, Continuous w → ∃ x, SolvesAdditive f S w x0 T x)
    (hnoise : ∀ x v, ∀ t ∈ Icc 0 T, fderiv ℝ (fun z => f z t) (x + S *ᵥ v) = fderiv ℝ (fun z => f z t) x) {ε η t0 : ℝ} (hε : 0 < ε) (hη : 0 < η)
    (ht0 : 0 < t0) :
    ∃ N0 : ℕ, ∀ N ≥ N0, ∀ fine ≥ 1, ∀ (k0 : Key) (ks : List Key), ∀ k < N, t0 ≤ (k + 1) * (T / N) → ∃ A : Set Ω, P.real Aᶜ ≤ ε ∧ ∀ ω ∈ A,
      ∃ o o' mu V z, calibrationMain la (R ω) (k0 :: ks) f (fun _ _ => S) x0 (T / N) N 1 fine = .ok (o, o') ∧ o'.mean[k]? = some mu ∧
        o'.var[k]? = some V ∧ o'.refs.sols2[(k + 1) * fine]? = some z ∧
        ∀ u : Vec d, (u ⬝ᵥ (stride 0 mu - z)) ^ 2 ≤ η ^ 2 * (u ⬝ᵥ (strideMat 0 0 V *ᵥ u)) := by
  haveI : IsProbabilityMeasure P := (hR.law [] [1] 0 one_pos).isProbabilityMeasure
  obtain ⟨c, hc, N1, h1⟩ := C119_prob hR hla hf hT hS x0 hsol hnoise (half_pos hε)
  obtain ⟨A, N2, h2⟩ := C111_prob_partial hla hf hT S x0 hsol hnoise (√10) (half_pos hε)
  have hδ0 : Tendsto (fun N : ℕ => T / N) atTop (𝓝 0) := tendsto_const_div_atTop_nhds_zero_nat T
  have l1 : ∀ᶠ N : ℕ in atTop, (d * (A * (T / N))) ^ 2 < η ^ 2 * (c * t0) := by
    have := ((hδ0.const_mul A).const_mul (d : ℝ)).pow 2
    simp only [mul_zero, ne_eq, OfNat.ofNat_ne_zero, not_false_eq_true, zero_pow] at this
    exact this.eventually_lt_const (by positivity)
  obtain ⟨N0, hN0⟩ := eventually_atTop.mp ((l1.and (eventually_ge_atTop N1)).and ((eventually_ge_atTop N2).and (eventually_gt_atTop 0)))
  refine ⟨N0, fun N hN fine hfine k0 ks k hk hkt => ?_⟩
  obtain ⟨⟨b1, b2⟩, b3, b4⟩ := hN0 N hN
  have hN' : (0 : ℝ) < N := by exact_mod_cast b4
  obtain ⟨A1, a1, a2⟩ := h1 N b2 fine hfine k0 ks
  choose odeInt hode using fun ω => exists_ekf2Int (d := d) la (R ω) 1 (T / N) (IOUP.transition 0 (√10) 1 (T / N) d)
  simp only [Nat.cast_one, div_one] at hode
  obtain ⟨y, μ, z, C, g1, -, -, g2, -⟩ := h2 hR N b3 fine hfine (√10) (by positivity) (le_of_eq (abs_of_nonneg (Real.sqrt_nonneg _))) true k0 odeInt hode (k + 1) hk
  refine ⟨A1 ∩ {ω | A * (T / N) < ‖μ ω - z ω‖}ᶜ, ?_, ?_⟩
  · rw [compl_inter, compl_compl]
    refine (measureReal_union_le _ _).trans ?_
    have g3 := ENNReal.toReal_mono ENNReal.ofReal_ne_top g2
    rw [ENNReal.toReal_ofReal (by positivity)] at g3
    have g4 : P.real {ω | A * (T / N) < ‖μ ω - z ω‖} ≤ ε / 2 := g3
    linarith
  · rintro ω ⟨w1, w2⟩
    have w2' : ‖μ ω - z ω‖ ≤ A * (T / N) := not_lt.mp w2
    obtain ⟨o, o', m1, m2, m3, m4⟩ := a2 ω w1
    obtain ⟨V, v1, v2⟩ := m4 k hk
    obtain ⟨o1, ts, traj, traj2, p1, p2, p3⟩ := C120_pairing (R ω) k0 ks f S x0 (T / N) N hfine (√10) (hode ω)
    obtain ⟨y', mu, V', z', q1, q2, q3, -, q5⟩ := p3 k hk
    obtain rfl : o1 = o := by
      rw [calibrationMain, p1] at m1
      obtain ⟨o2, -, e⟩ : ∃ o2, calibrationExperiment la (R ω) (k0 :: ks) f (fun _ _ => S) x0 (T / N) N 1 fine (o1.mle ^ (0.5 : ℝ)) = .ok o2 ∧ (o1, o2) = (o, o') := by
        revert m1
        show (calibrationExperiment la (R ω) (k0 :: ks) f (fun _ _ => S) x0 (T / N) N 1 fine (o1.mle ^ (0.5 : ℝ)) >>= fun c => pure (o1, c)) = .ok (o, o') → _
        cases h : calibrationExperiment la (R ω) (k0 :: ks) f (fun _ _ => S) x0 (T / N) N 1 fine (o1.mle ^ (0.5 : ℝ)) with
        | error e => intro h; cases h
        | ok c => intro h; exact ⟨c, rfl, Except.ok.inj h⟩
      exact (Prod.ext_iff.mp e).1
    obtain ⟨ts', tr, tr2, s1, -, s2, s3⟩ := g1 ω
    have e := Except.ok.inj (s1.symm.trans p2)
    have e1 : tr = traj := (Prod.ext_iff.mp (Prod.ext_iff.mp e).2).1
    have e2 : tr2 = traj2 := (Prod.ext_iff.mp (Prod.ext_iff.mp e).2).2
    rw [e1, q1] at s2
    rw [e2, q2] at s3
    have e3 : stride 0 mu = μ ω := (Prod.ext_iff.mp (Prod.ext_iff.mp (Option.some.inj s2)).2).1
    have e4 : z' = z ω := Option.some.inj s3
    refine ⟨o1, o', mu, V, z', m1, by rw [m2, q3], v1, by rw [m3, q5], fun u => ?_⟩
    rw [e3, e4]
    have hu : 0 ≤ u ⬝ᵥ u := Finset.sum_nonneg fun i _ => mul_self_nonneg _
    calc (u ⬝ᵥ (μ ω - z ω)) ^ 2 = |u ⬝ᵥ (μ ω - z ω)| ^ 2 := (sq_abs _).symm
      _ ≤ (d * (‖u‖ * (A * (T / N)))) ^ 2 := by
          refine pow_le_pow_left₀ (abs_nonneg _) ((abs_dot_le _ _).trans ?_) 2
          gcongr
      _ = (d * (A * (T / N))) ^ 2 * ‖u‖ ^ 2 := by ring
      _ ≤ η ^ 2 * (c * t0) * (u ⬝ᵥ u) := mul_le_mul b1.le (norm_sq_le_dot u) (sq_nonneg _) (by positivity)
      _ ≤ η ^ 2 * (c * ((k + 1) * (T / N)) * (u ⬝ᵥ u)) := by
          rw [mul_assoc]
          gcongr
      _ ≤ _ := by
          gcongr
          exact v2 u

/-- C120: the FitzHugh-Nagumo model, on which uncertainty_calibration.py runs. -/
theorem C120_fhn {Ω : Type} [MeasurableSpace Ω] {P : Measure Ω} {R : Ω → Rng} (hR : IdealNormals P R) {la : LinAlg} (hla : la.Correct)
    {T ε η t0 : ℝ} (hT : 0 < T) (hε : 0 < ε) (hη : 0 < η) (ht0 : 0 < t0) :
    ∃ N0 : ℕ, ∀ N ≥ N0, ∀ fine ≥ 1, ∀ (k0 : Key) (ks : List Key), ∀ k < N, t0 ≤ (k + 1) * (T / N) → ∃ A : Set Ω, P.real Aᶜ ≤ ε ∧ ∀ ω ∈ A,
      ∃ o o' mu V z, calibrationMain la (R ω) (k0 :: ks) Ivp.Fhn.drift Ivp.Fhn.sigma Ivp.Fhn.x0 (T / N) N 1 fine = .ok (o, o') ∧
        o'.mean[k]? = some mu ∧ o'.var[k]? = some V ∧ o'.refs.sols2[(k + 1) * fine]? = some z ∧
        ∀ u : Vec 2, (u ⬝ᵥ (stride 0 mu - z)) ^ 2 ≤ η ^ 2 * (u ⬝ᵥ (strideMat 0 0 V *ᵥ u)) :=
  C120_prob hR hla Ivp.Fhn.contDiff_drift hT (S := !![0; Ivp.Fhn.sig]) (fun h => by
      have := congrFun (congrFun h 1) 0
      norm_num [Ivp.Fhn.sig] at this) Ivp.Fhn.x0
    (fun w hw => Ivp.Fhn.exists_solution hT.le _ (fun j => by fin_cases j; rfl) w hw _)
    (fun x v t _ => fhn_noise _ (fun j => by fin_cases j; rfl) x v t) hε hη ht0

/-- C120: at the end of the unit interval, with the normals of `drawsRng`, a tenth of a standard deviation is enough but for an event of
probability one in a hundred. -/
example : ∃ la : LinAlg, la.Correct ∧ ∃ N0 : ℕ, ∀ N ≥ N0, 0 < N → ∀ k0 : Key, ∃ A : Set Draws, drawsMeasure.real Aᶜ ≤ 1 / 100 ∧ ∀ ω ∈ A,
    ∃ o o' mu V z, calibrationMain la (drawsRng ω) [k0] Ivp.Fhn.drift Ivp.Fhn.sigma Ivp.Fhn.x0 (1 / N) N 1 1 = .ok (o, o') ∧
      o'.mean[N - 1]? = some mu ∧ o'.var[N - 1]? = some V ∧ o'.refs.sols2[N]? = some z ∧
      ∀ u : Vec 2, (u ⬝ᵥ (stride 0 mu - z)) ^ 2 ≤ (1 / 10) ^ 2 * (u ⬝ᵥ (strideMat 0 0 V *ᵥ u)) := by
  obtain ⟨la, hla⟩ := exists_correct_linAlg
  obtain ⟨N0, h⟩ := C120_fhn idealNormals_drawsRng hla (T := 1) (ε := 1 / 100) (η := 1 / 10) (t0 := 1) one_pos (by norm_num) (by norm_num) one_pos
  refine ⟨la, hla, N0, fun N hN hN0 k0 => ?_⟩
  have hN' : (0 : ℝ) < N := by exact_mod_cast hN0
  have := h N hN 1 le_rfl k0 [] (N - 1) (by omega) (by
    rw [Nat.cast_sub (by omega : 1 ≤ N)]
    push_cast
    rw [sub_add_cancel, mul_one_div_cancel hN'.ne'])
  rwa [show (N - 1 + 1) * 1 = N by omega] at this

end Verif
