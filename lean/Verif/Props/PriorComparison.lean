import Verif.Lemmas.BlockTransfer

/-! C115: the comparison of two priors for EKF0 (`comparison_2_RAM_setup_in_the_response_to_the_reviewer.py`). -/

namespace Verif

open Matrix Spec Jnp Set MeasureTheory ProbabilityTheory Scripts Filter
open scoped NNReal ENNReal

variable {m : ℕ}

/-- Both priors of the script, for a diffusion that leaves the first coordinate without noise. -/
theorem review_good {S : Mat 2 m} (hS : ∀ j, S 0 j = 0) (θ : ℝ) {σ : ℝ} (hσ : σ ≠ 0) (l2 l1 : ℝ) {mag : ℝ} (hmag : mag ≠ 0) {T : ℝ} (hT : 0 < T) :
    ∃ c γ : ℝ, ∃ N0 : ℕ, 0 ≤ c ∧ 0 ≤ γ ∧ ∀ N ≥ N0, 0 < N → ∀ pr,
      reviewPriorIoup θ σ (T / N) = .ok pr ∨ reviewPriorMatern mag l2 l1 (T / N) = .ok pr → GoodBlocks S c γ (T / N) pr := by
  obtain ⟨c1, γ1, hc1, hγ1, h1⟩ := goodBlocks_ioup hS θ hσ hT
  obtain ⟨c2, γ2, h0, hc2, hγ2, hh0, h2⟩ := goodBlocks_matern hS l2 l1 hmag
  obtain ⟨N0, hN0⟩ := exists_small_step 1 hT hh0
  have mono : ∀ {c γ c' γ' h : ℝ} {pr}, 0 < h → c ≤ c' → γ ≤ γ' → GoodBlocks S c γ h pr → GoodBlocks S c' γ' h pr := by
    rintro c γ c' γ' h pr hh hcc hγγ ⟨p, A, Q, e, hA, hQ, hx, hp, hq, ok, hr⟩
    refine ⟨p, A, Q, e, hA, hQ, hx, hp, hq, ⟨fun i => (ok.a00 i).trans (by gcongr), fun i => (ok.a10 i).trans (by gcongr),
      fun i => (ok.a01 i).trans (by gcongr), fun i => (ok.a11 i).trans (by gcongr), fun i => ?_⟩, hr.trans (by gcongr)⟩
    rcases ok.kind i with ⟨k1, k2, k3, k4⟩ | ⟨k1, k2, k3, k4⟩
    · exact Or.inl ⟨k1, k2.trans (by gcongr), k3.trans (by gcongr), k4.trans (by gcongr)⟩
    · exact Or.inr ⟨k1, k2, k3.trans (by gcongr), k4.trans (by gcongr)⟩
  refine ⟨max c1 c2, max γ1 γ2, N0, le_max_of_le_left hc1, le_max_of_le_left hγ1, fun N hN hN1 pr hpr => ?_⟩
  have hN' : (1 : ℝ) ≤ N := by exact_mod_cast hN1
  have hδ : 0 < T / N := by positivity
  rcases hpr with hpr | hpr
  · obtain ⟨pr', e, hg⟩ := h1 (T / N) hδ (div_le_self hT.le hN')
    rw [hpr] at e
    exact mono hδ (le_max_left _ _) (le_max_left _ _) (Except.ok.inj e ▸ hg)
  · have := hN0 N hN hN1
    rw [mul_one] at this
    obtain ⟨pr', e, hg⟩ := h2 (T / N) hδ this
    rw [hpr] at e
    exact mono hδ (le_max_right _ _) (le_max_right _ _) (Except.ok.inj e ▸ hg)

/-- C115: building the two priors raises no exception, for any parameters. -/
theorem C115_priors (θ σ mag l2 l1 dt : ℝ) : (∃ pr, reviewPriorIoup θ σ dt = .ok pr) ∧ ∃ pr, reviewPriorMatern mag l2 l1 dt = .ok pr := by
  have h : ∀ (p0 : Prior (1 * (2 + 1))) (p1 : Prior (1 * (1 + 1))), ∃ pr, (padPrior p1 2 >>= fun r => factorizedPrior [⟨_, p0⟩, ⟨_, r⟩]) = .ok pr :=
    fun p0 p1 => by
      obtain ⟨r, hr, -⟩ := C39_padded p1 2 (by norm_num)
      rw [hr]
      exact ⟨_, rfl⟩
  exact ⟨h _ _, h _ _⟩

/-- C115: the script compares EKF0 with two priors, one filter step per interval and a draw from the posterior, with Euler-Maruyama on the fine
increments of the same path. For a smooth drift and noise in the second coordinate only, the mean square distance of the two trajectories
is at most `A δ²` for either prior, any number of fine steps, and all large numbers of intervals. -/
theorem C115_measured {la : LinAlg} (hla : la.Correct) {f : Field 2} {Df : Vec 2 → ℝ → Vec 2 →L[ℝ] Vec 2}
    {T L K Lt : ℝ} (hT : 0 < T) (hf : SmoothField f Df T L K) (htl : TimeLipschitz f T Lt) (S : Mat 2 m) (hS : ∀ j, S 0 j = 0) (x0 : Vec 2)
    (θ : ℝ) {σ : ℝ} (hσ : σ ≠ 0) (l2 l1 : ℝ) {mag : ℝ} (hmag : mag ≠ 0) :
    ∃ (A : ℝ) (N0 : ℕ), ∀ {Ω : Type} [MeasurableSpace Ω] {Q : Measure Ω} {R : Ω → Rng}, IdealNormals Q R → ∀ N ≥ N0, 0 < N →
      ∀ r : ℕ, 0 < r → ∀ pr, reviewPriorIoup θ σ (T / N) = .ok pr ∨ reviewPriorMatern mag l2 l1 (T / N) = .ok pr →
      ∀ (key : Key) (odeInt : Ω → OdeInt (Vec 2) 2),
      (∀ ω k x vf, Ekf.ekf0 la (R ω) (some k) x vf (T / N) 1 false (some pr) none = .ok (odeInt ω k x vf (T / N))) →
      ∀ n ≤ N, ∃ y z : Ω → Vec 2,
        (∀ ω, ∃ ts traj traj2, ramSolver (R ω) key f (fun _ _ => S) x0 x0 (T / N) N r (odeInt ω) = .ok (ts, traj, traj2) ∧
          ts[n]? = some (n * (T / N)) ∧ traj[n]? = some (y ω) ∧ traj2[n]? = some (z ω)) ∧
        Integrable (fun ω => ‖y ω - z ω‖ ^ 2) Q ∧ ∫ ω, ‖y ω - z ω‖ ^ 2 ∂Q ≤ A * (T / N) ^ 2 := by
  obtain ⟨c, γ, N0, hc, hγ, hg⟩ := review_good hS θ hσ l2 l1 hmag hT
  obtain ⟨A, hA⟩ := block_measured hla (by norm_num : 0 < 2) hT hf htl S x0 hc hγ
  exact ⟨A, N0, fun hR N hN hN0 r hr pr hpr key odeInt hode n hn => hA hR N hN0 r hr pr (hg N hN hN0 pr hpr) key odeInt hode n hn⟩

/-- C115: the same quantity in probability, for a drift with two continuous derivatives whose equation has a solution along every continuous
path of the noise. -/
theorem C115_prob {la : LinAlg} (hla : la.Correct) {f : Field 2} (hf : ContDiff ℝ 2 (Function.uncurry f)) {T : ℝ}
    (hT : 0 < T) (S : Mat 2 m) (hS : ∀ j, S 0 j = 0) (x0 : Vec 2) (hsol : ∀ w : ℝ → Vec m, Continuous w → ∃ x, SolvesAdditive f S w x0 T x)
    (θ : ℝ) {σ : ℝ} (hσ : σ ≠ 0) (l2 l1 : ℝ) {mag : ℝ} (hmag : mag ≠ 0) {ε : ℝ} (hε : 0 < ε) :
    ∃ (A : ℝ) (N0 : ℕ), ∀ {Ω : Type} [MeasurableSpace Ω] {Q : Measure Ω} {R : Ω → Rng}, IdealNormals Q R → ∀ N ≥ N0, 0 < N →
      ∀ r : ℕ, 0 < r → ∀ pr, reviewPriorIoup θ σ (T / N) = .ok pr ∨ reviewPriorMatern mag l2 l1 (T / N) = .ok pr →
      ∀ (key : Key) (odeInt : Ω → OdeInt (Vec 2) 2),
      (∀ ω k x vf, Ekf.ekf0 la (R ω) (some k) x vf (T / N) 1 false (some pr) none = .ok (odeInt ω k x vf (T / N))) →
      ∀ n ≤ N, ∃ y z : Ω → Vec 2,
        (∀ ω, ∃ ts traj traj2, ramSolver (R ω) key f (fun _ _ => S) x0 x0 (T / N) N r (odeInt ω) = .ok (ts, traj, traj2) ∧
          ts[n]? = some (n * (T / N)) ∧ traj[n]? = some (y ω) ∧ traj2[n]? = some (z ω)) ∧
        Q {ω | A * (T / N) < ‖y ω - z ω‖} ≤ ENNReal.ofReal ε := by
  obtain ⟨c, γ, N0, hc, hγ, hg⟩ := review_good hS θ hσ l2 l1 hmag hT
  obtain ⟨A, N1, hA⟩ := block_prob hla (by norm_num : 0 < 2) hf hT S x0 hsol hc hγ hε
  exact ⟨A, N0 + N1, fun hR N hN hN0 r hr pr hpr key odeInt hode n hn =>
    hA hR N (by omega) r hr pr (hg N (by omega) hN0 pr hpr) key odeInt hode n hn⟩

/-- C115: the script itself: FitzHugh-Nagumo with its own diffusion, `theta = sigma = 1` against Matérn processes of magnitude 1 and lengths
`sqrt(5) / 3` and `sqrt(3) / 2`, up to time 1. -/
theorem C115_fhn {la : LinAlg} (hla : la.Correct) {ε : ℝ} (hε : 0 < ε) :
    ∃ (A : ℝ) (N0 : ℕ), ∀ {Ω : Type} [MeasurableSpace Ω] {Q : Measure Ω} {R : Ω → Rng}, IdealNormals Q R → ∀ N ≥ N0, 0 < N →
      ∀ r : ℕ, 0 < r → ∀ pr, reviewPriorIoup 1 1 (1 / N) = .ok pr ∨ reviewPriorMatern 1 (Real.sqrt 5 / 3) (Real.sqrt 3 / 2) (1 / N) = .ok pr →
      ∀ (key : Key) (odeInt : Ω → OdeInt (Vec 2) 2),
      (∀ ω k x vf, Ekf.ekf0 la (R ω) (some k) x vf (1 / N) 1 false (some pr) none = .ok (odeInt ω k x vf (1 / N))) →
      ∀ n ≤ N, ∃ y z : Ω → Vec 2,
        (∀ ω, ∃ ts traj traj2, ramSolver (R ω) key Ivp.Fhn.drift Ivp.Fhn.sigma Ivp.Fhn.x0 Ivp.Fhn.x0 (1 / N) N r (odeInt ω) =
            .ok (ts, traj, traj2) ∧
          ts[n]? = some ((n : ℝ) * (1 / N)) ∧ traj[n]? = some (y ω) ∧ traj2[n]? = some (z ω)) ∧
        Q {ω | A * (1 / N) < ‖y ω - z ω‖} ≤ ENNReal.ofReal ε :=
  C115_prob hla Ivp.Fhn.contDiff_drift one_pos (!![0; Ivp.Fhn.sig]) (fun j => by fin_cases j; rfl) Ivp.Fhn.x0
    (fun w hw => Ivp.Fhn.exists_solution zero_le_one _ (fun j => by fin_cases j; rfl) w hw _) 1 one_ne_zero _ _ one_ne_zero hε

/-- With a prior of independent coordinates and any key and generator, EKF0 returns a state. -/
theorem exists_ekf0_review {la : LinAlg} (hla : la.Correct) {c γ h : ℝ} {S : Mat 2 m} {pr : (s : ℕ) × Prior s} (hpr : GoodBlocks S c γ h pr) :
    ∃ F : Rng → Key → Vec 2 → Field 2 → Vec 2, ∀ rng k x vf, Ekf.ekf0 la rng (some k) x vf h 1 false (some pr) none = .ok (F rng k x vf) := by
  obtain ⟨A, g, U, -, -, hs⟩ := block_step hla (by norm_num) hpr
  exact ⟨_, hs⟩

/-- C115: factorisations, a generator, priors and filters that satisfy the hypotheses, for FitzHugh-Nagumo and the Matérn prior, with as many
fine steps as intervals. -/
example : ∃ (la : LinAlg) (A : ℝ) (N0 : ℕ), la.Correct ∧ ∀ N ≥ N0, 0 < N → ∃ pr, ∃ (odeInt : _ → OdeInt (Vec 2) 2) (y z : _ → Vec 2),
    reviewPriorMatern 1 (Real.sqrt 5 / 3) (Real.sqrt 3 / 2) (1 / N) = .ok pr ∧
    (∀ ω k x vf, Ekf.ekf0 la (drawsRng ω) (some k) x vf (1 / N) 1 false (some pr) none = .ok (odeInt ω k x vf (1 / N))) ∧
    (∀ ω, ∃ ts traj traj2, ramSolver (drawsRng ω) [] Ivp.Fhn.drift Ivp.Fhn.sigma Ivp.Fhn.x0 Ivp.Fhn.x0 (1 / N) N N
      (odeInt ω) = .ok (ts, traj, traj2) ∧ traj[N]? = some (y ω) ∧ traj2[N]? = some (z ω)) ∧
    drawsMeasure {ω | A * (1 / N) < ‖y ω - z ω‖} ≤ ENNReal.ofReal 0.01 := by
  obtain ⟨A, N0, hA⟩ := C115_fhn measurableLinAlg_correct (by norm_num : (0 : ℝ) < 0.01)
  obtain ⟨c, γ, N1, -, -, hg⟩ := review_good (S := (!![0; Ivp.Fhn.sig] : Mat 2 1)) (fun j => by fin_cases j; rfl) 1 one_ne_zero (Real.sqrt 5 / 3)
    (Real.sqrt 3 / 2) one_ne_zero one_pos
  refine ⟨measurableLinAlg, A, N0 + N1, measurableLinAlg_correct, fun N hN hN0 => ?_⟩
  obtain ⟨pr, hpr⟩ := (C115_priors 1 1 1 (Real.sqrt 5 / 3) (Real.sqrt 3 / 2) (1 / N)).2
  obtain ⟨F, hF⟩ := exists_ekf0_review measurableLinAlg_correct (hg N (by omega) hN0 pr (Or.inr hpr))
  obtain ⟨y, z, h1, h2⟩ := hA idealNormals_drawsRng N (by omega) hN0 N hN0 pr (Or.inr hpr) []
    (fun ω k x vf _ => F (drawsRng ω) k x vf) (fun ω k x vf => hF (drawsRng ω) k x vf) N le_rfl
  refine ⟨pr, fun ω k x vf _ => F (drawsRng ω) k x vf, y, z, hpr, fun ω k x vf => hF (drawsRng ω) k x vf, fun ω => ?_, h2⟩
  obtain ⟨ts, traj, traj2, g1, -, g2, g3⟩ := h1 ω
  exact ⟨ts, traj, traj2, g1, g2, g3⟩

/-- C115: the same in mean square for a linear drift and the integrated Ornstein-Uhlenbeck prior. -/
example : ∃ (la : LinAlg) (A : ℝ) (N0 : ℕ), la.Correct ∧ ∀ N ≥ N0, 0 < N → ∃ pr, ∃ (odeInt : _ → OdeInt (Vec 2) 2) (y z : _ → Vec 2),
    reviewPriorIoup 1 1 (1 / N) = .ok pr ∧
    (∀ ω k x vf, Ekf.ekf0 la (drawsRng ω) (some k) x vf (1 / N) 1 false (some pr) none = .ok (odeInt ω k x vf (1 / N))) ∧
    (∀ ω, ∃ ts traj traj2, ramSolver (drawsRng ω) [] (fun (x : Vec 2) (t : ℝ) => -(t • x)) (fun _ _ => (!![0; 1] : Mat 2 1)) 0 0 (1 / N) N 7
      (odeInt ω) = .ok (ts, traj, traj2) ∧ traj[N]? = some (y ω) ∧ traj2[N]? = some (z ω)) ∧
    ∫ ω, ‖y ω - z ω‖ ^ 2 ∂drawsMeasure ≤ A * (1 / N) ^ 2 := by
  have hS : ∀ j, (!![0; 1] : Mat 2 1) 0 j = 0 := fun j => by fin_cases j; rfl
  obtain ⟨A, N0, hA⟩ := C115_measured measurableLinAlg_correct one_pos smooth_decay timeLipschitz_decay (!![0; 1] : Mat 2 1) hS 0 1 one_ne_zero 1 1
    one_ne_zero
  obtain ⟨c, γ, N1, -, -, hg⟩ := review_good hS 1 one_ne_zero 1 1 one_ne_zero one_pos
  refine ⟨measurableLinAlg, A, N0 + N1, measurableLinAlg_correct, fun N hN hN0 => ?_⟩
  obtain ⟨pr, hpr⟩ := (C115_priors 1 1 1 1 1 (1 / N)).1
  obtain ⟨F, hF⟩ := exists_ekf0_review measurableLinAlg_correct (hg N (by omega) hN0 pr (Or.inl hpr))
  obtain ⟨y, z, h1, -, h2⟩ := hA idealNormals_drawsRng N (by omega) hN0 7 (by norm_num) pr (Or.inl hpr) []
    (fun ω k x vf _ => F (drawsRng ω) k x vf) (fun ω k x vf => hF (drawsRng ω) k x vf) N le_rfl
  refine ⟨pr, fun ω k x vf _ => F (drawsRng ω) k x vf, y, z, hpr, fun ω k x vf => hF (drawsRng ω) k x vf, fun ω => ?_, h2⟩
  obtain ⟨ts, traj, traj2, g1, -, g2, g3⟩ := h1 ω
  exact ⟨ts, traj, traj2, g1, g2, g3⟩

end Verif
