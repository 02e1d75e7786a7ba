import Verif.Lemmas.GainPriors
import Verif.Lemmas.GapSpread

/-! C126: the comparison of two priors that integrate every coordinate twice (`comparison_2_RAM.py`). -/

namespace Verif

open Matrix Spec Jnp Set MeasureTheory ProbabilityTheory Scripts Filter
open scoped NNReal ENNReal

variable {d m : ℕ}

/-- The limit of the pair of trajectories for any prior of independent coordinates whose gain is near `γ` steps. -/
theorem gain_blocks_limit {la : LinAlg} (hla : la.Correct) (hd : 0 < d) {f : Field d} (hf : ContDiff ℝ 2 (Function.uncurry f)) {T : ℝ} (hT : 0 < T)
    (S : Mat d m) (x0 : Vec d) (hsol : ∀ w : ℝ → Vec m, Continuous w → ∃ x, SolvesAdditive f S w x0 T x) {γ s : ℝ}
    (hs : s = Real.sqrt 3 * (1 - 2 * γ))
    (hsolK : ∀ w : ℝ → Vec (m + m), Continuous w → ∃ x, SolvesAdditive f (KF.hcat S (s • S)) w x0 T x)
    {Ω' : Type*} [MeasurableSpace Ω'] {P' : Measure Ω'} {W : Fin (m + m) → ℝ≥0 → Ω' → ℝ} (hW : IsBrownianVec W P')
    {X X' : Ω' → ℝ → Vec d} (hX : ∀ᵐ ω ∂P', SolvesAdditive f S (fun t j => W (Fin.castAdd m j) t.toNNReal ω) x0 T (X ω))
    (hX' : ∀ᵐ ω ∂P', SolvesAdditive f (KF.hcat S (s • S)) (fun t j => W j t.toNNReal ω) x0 T (X' ω))
    {c γ0 : ℝ} (hc : 0 ≤ c) (hγ0 : 0 ≤ γ0) {ε : ℝ} (hε : 0 < ε) :
    ∃ N0 : ℕ, ∀ {Ω : Type} [MeasurableSpace Ω] {Q : Measure Ω} {R : Ω → Rng}, IdealNormals Q R → ∀ N ≥ N0,
      ∀ pr, GainBlocks (d := d) c γ0 (T / N) (fun _ => γ) pr → ∀ r : ℕ, 0 < r → ∀ (sqrt : Bool) (key : Key) (odeInt : Ω → OdeInt (Vec d) d),
      (∀ ω k x vf, Ekf.ekf0 la (R ω) (some k) x vf (T / N) 1 sqrt (some pr) none = .ok (odeInt ω k x vf (T / N))) →
      ∃ y z : Ω → Vec d,
        (∀ ω, ∃ ts traj traj2, ramSolver (R ω) key f (fun _ _ => S) x0 x0 (T / N) N r (odeInt ω) = .ok (ts, traj, traj2) ∧
          ts[N]? = some T ∧ traj[N]? = some (y ω) ∧ traj2[N]? = some (z ω)) ∧
        AEMeasurable (fun ω => (y ω, z ω)) Q ∧
        ∀ g : Vec d × Vec d → ℝ, LipschitzWith 1 g → (∀ x, |g x| ≤ 1) →
          |∫ ω, g (y ω, z ω) ∂Q - ∫ ω, g (X' ω T, X ω T) ∂P'| ≤ ε := by
  choose C hC0 hC using fun ρ => gain_step hf hT S hc ρ
  obtain ⟨u, hu⟩ : ∃ u : ℝ, u = Real.sqrt (γ0 * (d * (1 + 2) : ℕ)) := ⟨_, rfl⟩
  have hu0 : 0 ≤ u := by rw [hu]; positivity
  have hK : ∀ b : Vec m, Real.sqrt 2 • ((s • S) *ᵥ b) = extraNoise S (fun _ : Fin d => γ) *ᵥ b := fun b => by
    funext i
    rw [extraNoise_mulVec, smul_mulVec, Pi.smul_apply, Pi.smul_apply, smul_eq_mul, smul_eq_mul, hs,
      show (6 : ℝ) = 2 * 3 by norm_num, Real.sqrt_mul (by norm_num)]
    ring
  obtain ⟨N0, hN0⟩ := gain_limit (q := d * (1 + 2)) hf hT S (s • S) x0 hsol hsolK hW hX hX'
    (ι := (Fin d → Mat 3 3) × (Fin d → ℝ) × Mat d (d * (1 + 2)))
    (Adm := fun N p => GainOk c (T / N) p.1 p.2.1 (fun _ => γ) ∧ ∑ i, ∑ j, p.2.2 i j ^ 2 ≤ γ0 * (T / N) ^ 3)
    (J := fun (N : ℕ) (p : (Fin d → Mat 3 3) × (Fin d → ℝ) × Mat d (d * (1 + 2))) k y a b ξ =>
      blockAdd f S (k * (T / N)) (T / N) p.1 p.2.1 y a b + p.2.2 *ᵥ ξ)
    (C := fun ρ => C ρ + u) (fun ρ => add_nonneg (hC0 ρ) hu0)
    (fun N p hp k _ => (continuous_blockDraw hf.continuous S (fun x => hasFDerivAt_left hf x _) (continuous_fderiv_left hf _) p.1 p.2.1
      p.2.2).measurable)
    (fun N p hp k hk ρ y a b ξ hy ha hb => by
      have hN' : (0 : ℝ) < N := by exact_mod_cast (by omega : 0 < N)
      obtain ⟨δ, hδ⟩ : ∃ δ, δ = T / N := ⟨_, rfl⟩
      have hδ0 : 0 < δ := by rw [hδ]; positivity
      have hend : (k : ℝ) * δ + δ ≤ T := by
        have h1 : ((k + 1 : ℕ) : ℝ) * (T / N) ≤ N * (T / N) := mul_le_mul_of_nonneg_right (by exact_mod_cast hk) (by positivity)
        rw [mul_div_cancel₀ T hN'.ne', ← hδ] at h1
        push_cast at h1
        linarith
      have h1 := hC ρ δ (k * δ) p.1 p.2.1 (fun _ => γ) hδ0 (by positivity) hend (by rw [hδ]; exact hp.1) y a b hy ha hb
      have h2 := mulVec_le_frobenius p.2.2 hp.2 ξ
      rw [← hδ] at h2 ⊢
      rw [hK]
      have h3 : Real.sqrt (γ0 * δ ^ 3 * (d * (1 + 2) : ℕ)) = u * (δ * Real.sqrt δ) := by
        rw [hu, show γ0 * δ ^ 3 * ((d * (1 + 2) : ℕ) : ℝ) = γ0 * ((d * (1 + 2) : ℕ) : ℝ) * (δ ^ 2 * δ) by ring,
          Real.sqrt_mul (by positivity) (δ ^ 2 * δ), Real.sqrt_mul (by positivity) δ, Real.sqrt_sq hδ0.le]
      rw [h3] at h2
      have h4 : 0 ≤ C ρ * (δ * (Real.sqrt δ * ‖ξ‖)) := mul_nonneg (hC0 ρ) (by positivity)
      have h5 : 0 ≤ u * (δ * (δ + ‖a‖ + ‖b‖)) := by positivity
      calc _ = ‖(blockAdd f S (k * δ) δ p.1 p.2.1 y a b - (y + δ • f y (k * δ) + S *ᵥ a + extraNoise S (fun _ => γ) *ᵥ b)) + p.2.2 *ᵥ ξ‖ := by
              congr 1; abel
        _ ≤ C ρ * (δ * (δ + ‖a‖ + ‖b‖)) + u * (δ * Real.sqrt δ) * ‖ξ‖ := (norm_add_le _ _).trans (add_le_add h1 h2)
        _ ≤ _ := by linarith [show (C ρ + u) * (δ * (δ + ‖a‖ + ‖b‖ + Real.sqrt δ * ‖ξ‖)) = C ρ * (δ * (δ + ‖a‖ + ‖b‖)) + C ρ * (δ * (Real.sqrt δ * ‖ξ‖))
              + u * (δ * (δ + ‖a‖ + ‖b‖)) + u * (δ * Real.sqrt δ) * ‖ξ‖ by ring]) hε
  refine ⟨N0, ?_⟩
  intro Ω _ Q R hR N hN pr hpr r hr sqrt key odeInt hode
  obtain ⟨B, g, U, hok, hU, hstep⟩ := gain_block_step hla hd hpr sqrt
  exact hN0 hR N hN (B, g, U) ⟨hok, hU⟩ r hr key odeInt (fun ω κ x k hk a b =>
    Except.ok.inj ((hode ω κ x _).symm.trans (hstep (R ω) κ x _)))

/-- Both priors of the script, for small steps. -/
theorem compare_good (θ : ℝ) {σ : ℝ} (hσ : σ ≠ 0) (len : ℝ) {mag : ℝ} (hmag : mag ≠ 0) {T : ℝ} (hT : 0 < T) :
    ∃ c γ0 : ℝ, ∃ N0 : ℕ, 0 ≤ c ∧ 0 ≤ γ0 ∧ ∀ N ≥ N0, 0 < N → GainBlocks (d := d) c γ0 (T / N) (fun _ => 3 / 8) (comparePriorIoup θ σ (T / N) d) ∧
      GainBlocks (d := d) c γ0 (T / N) (fun _ => gainLimit 9998) (comparePriorMatern mag len (T / N) d) := by
  obtain ⟨c1, γ1, hc1, hγ1, h1⟩ := gainBlocks_ioup (d := d) θ hσ
  obtain ⟨c2, γ2, h0, hc2, hγ2, hh0, h2⟩ := gainBlocks_matern (d := d) len hmag
  obtain ⟨N0, hN0⟩ := exists_small_step 1 hT (lt_min one_pos hh0)
  have mono : ∀ {c g c' g' h : ℝ} {γ : Fin d → ℝ} {pr}, 0 < h → c ≤ c' → g ≤ g' → GainBlocks c g h γ pr → GainBlocks c' g' h γ pr := by
    rintro c g c' g' h γ pr hh hcc hgg ⟨p, A, Q, e, hA, hQ, hx, hp, hq, hpd, ok, hr⟩
    exact ⟨p, A, Q, e, hA, hQ, hx, hp, hq, hpd, ok.mono hh.le hcc, hr.trans (by gcongr)⟩
  refine ⟨max c1 c2, max γ1 γ2, N0, le_max_of_le_left hc1, le_max_of_le_left hγ1, fun N hN hN1 => ?_⟩
  have hN' : (1 : ℝ) ≤ N := by exact_mod_cast hN1
  have hδ : 0 < T / N := by positivity
  have hs := hN0 N hN hN1
  rw [mul_one] at hs
  exact ⟨mono hδ (le_max_left _ _) (le_max_left _ _) (h1 _ hδ (hs.trans (min_le_left _ _))),
    mono hδ (le_max_right _ _) (le_max_right _ _) (h2 _ hδ (hs.trans (min_le_right _ _)))⟩

/-- The factor by which a second, independent noise enters the limit of the filter with the IOUP prior. -/
noncomputable def ioupExcess : ℝ := Real.sqrt 3 / 4

/-- The same for the Matérn prior, whose covariance is a trapezoid sum over 9999 intervals. -/
noncomputable def maternExcess : ℝ := Real.sqrt 3 * (9999 ^ 2 - 1) / (2 * (2 * 9999 ^ 2 + 1))

theorem ioupExcess_pos : 0 < ioupExcess := by unfold ioupExcess; positivity

theorem maternExcess_pos : 0 < maternExcess := by
  unfold maternExcess
  have : 0 < Real.sqrt 3 := by positivity
  norm_num

theorem ioupExcess_eq : ioupExcess = Real.sqrt 3 * (1 - 2 * (3 / 8)) := by unfold ioupExcess; ring

theorem maternExcess_eq : maternExcess = Real.sqrt 3 * (1 - 2 * gainLimit 9998) := by
  unfold maternExcess gainLimit
  norm_num
  ring

theorem hcat_row_zero {S : Mat d m} {i : Fin d} (hi : S i = 0) (s : ℝ) : KF.hcat S (s • S) i = 0 := by
  funext j
  refine Fin.addCases (fun j => ?_) (fun j => ?_) j
  · simp only [KF.hcat, Fin.append_left, hi]
    rfl
  · simp only [KF.hcat, Fin.append_right, Matrix.smul_apply, hi]
    simp

/-- C126 in part: what the runs of the script tend to. Take a drift with two continuous derivatives, additive noise and equations that have
solutions along every continuous path whenever the noise enters the same coordinates. Then, as the number `N` of intervals grows, the final
states of the filter and of Euler-Maruyama on the fine increments of the same path tend jointly in law to the final states `X'` and `X` of two
equations: `X` solves the equation with the diffusion `S` and the Brownian motion of the path, and `X'` has, besides, the noise `s S` of an
independent Brownian motion, with `s = √3 / 4` for the IOUP prior. The deviation of the expectations is uniform over 1-Lipschitz functions
bounded by 1. -/
theorem C126_ioup_partial {la : LinAlg} (hla : la.Correct) (hd : 0 < d) {f : Field d} (hf : ContDiff ℝ 2 (Function.uncurry f)) {T : ℝ} (hT : 0 < T)
    (S : Mat d m) (x0 : Vec d) (hsol : ∀ (n : ℕ) (S' : Mat d n), (∀ i, S i = 0 → S' i = 0) → ∀ w : ℝ → Vec n, Continuous w →
      ∃ x, SolvesAdditive f S' w x0 T x) (θ : ℝ) {σ : ℝ} (hσ : σ ≠ 0)
    {Ω' : Type*} [MeasurableSpace Ω'] {P' : Measure Ω'} {W : Fin (m + m) → ℝ≥0 → Ω' → ℝ} (hW : IsBrownianVec W P')
    {X X' : Ω' → ℝ → Vec d} (hX : ∀ᵐ ω ∂P', SolvesAdditive f S (fun t j => W (Fin.castAdd m j) t.toNNReal ω) x0 T (X ω))
    (hX' : ∀ᵐ ω ∂P', SolvesAdditive f (KF.hcat S (ioupExcess • S)) (fun t j => W j t.toNNReal ω) x0 T (X' ω)) {ε : ℝ} (hε : 0 < ε) :
    ∃ N0 : ℕ, ∀ {Ω : Type} [MeasurableSpace Ω] {Q : Measure Ω} {R : Ω → Rng}, IdealNormals Q R → ∀ N ≥ N0,
      ∀ r : ℕ, 0 < r → ∀ (sqrt : Bool) (key : Key) (odeInt : Ω → OdeInt (Vec d) d),
      (∀ ω k x vf, Ekf.ekf0 la (R ω) (some k) x vf (T / N) 1 sqrt (some (comparePriorIoup θ σ (T / N) d)) none = .ok (odeInt ω k x vf (T / N))) →
      ∃ y z : Ω → Vec d,
        (∀ ω, ∃ ts traj traj2, ramSolver (R ω) key f (fun _ _ => S) x0 x0 (T / N) N r (odeInt ω) = .ok (ts, traj, traj2) ∧
          ts[N]? = some T ∧ traj[N]? = some (y ω) ∧ traj2[N]? = some (z ω)) ∧
        AEMeasurable (fun ω => (y ω, z ω)) Q ∧
        ∀ g : Vec d × Vec d → ℝ, LipschitzWith 1 g → (∀ x, |g x| ≤ 1) →
          |∫ ω, g (y ω, z ω) ∂Q - ∫ ω, g (X' ω T, X ω T) ∂P'| ≤ ε := by
  obtain ⟨c, γ0, N1, hc, hγ0, hg⟩ := compare_good (d := d) θ hσ 1 one_ne_zero hT
  obtain ⟨N0, h⟩ := gain_blocks_limit hla hd hf hT S x0 (hsol m S fun _ h => h) ioupExcess_eq (hsol (m + m) _ fun i hi => hcat_row_zero hi _)
    hW hX hX' hc hγ0 hε
  refine ⟨N0 + N1 + 1, ?_⟩
  intro Ω _ Q R hR N hN r hr sqrt key odeInt hode
  exact h hR N (by omega) _ (hg N (by omega) (by omega)).1 r hr sqrt key odeInt hode

/-- C126 in part: the same for the Matérn prior, with `s = √3 (9999² - 1) / (2 (2·9999² + 1))`, slightly less than `√3 / 4`. -/
theorem C126_matern_partial {la : LinAlg} (hla : la.Correct) (hd : 0 < d) {f : Field d} (hf : ContDiff ℝ 2 (Function.uncurry f)) {T : ℝ} (hT : 0 < T)
    (S : Mat d m) (x0 : Vec d) (hsol : ∀ (n : ℕ) (S' : Mat d n), (∀ i, S i = 0 → S' i = 0) → ∀ w : ℝ → Vec n, Continuous w →
      ∃ x, SolvesAdditive f S' w x0 T x) (len : ℝ) {mag : ℝ} (hmag : mag ≠ 0)
    {Ω' : Type*} [MeasurableSpace Ω'] {P' : Measure Ω'} {W : Fin (m + m) → ℝ≥0 → Ω' → ℝ} (hW : IsBrownianVec W P')
    {X X' : Ω' → ℝ → Vec d} (hX : ∀ᵐ ω ∂P', SolvesAdditive f S (fun t j => W (Fin.castAdd m j) t.toNNReal ω) x0 T (X ω))
    (hX' : ∀ᵐ ω ∂P', SolvesAdditive f (KF.hcat S (maternExcess • S)) (fun t j => W j t.toNNReal ω) x0 T (X' ω)) {ε : ℝ} (hε : 0 < ε) :
    ∃ N0 : ℕ, ∀ {Ω : Type} [MeasurableSpace Ω] {Q : Measure Ω} {R : Ω → Rng}, IdealNormals Q R → ∀ N ≥ N0,
      ∀ r : ℕ, 0 < r → ∀ (sqrt : Bool) (key : Key) (odeInt : Ω → OdeInt (Vec d) d),
      (∀ ω k x vf, Ekf.ekf0 la (R ω) (some k) x vf (T / N) 1 sqrt (some (comparePriorMatern mag len (T / N) d)) none = .ok (odeInt ω k x vf (T / N))) →
      ∃ y z : Ω → Vec d,
        (∀ ω, ∃ ts traj traj2, ramSolver (R ω) key f (fun _ _ => S) x0 x0 (T / N) N r (odeInt ω) = .ok (ts, traj, traj2) ∧
          ts[N]? = some T ∧ traj[N]? = some (y ω) ∧ traj2[N]? = some (z ω)) ∧
        AEMeasurable (fun ω => (y ω, z ω)) Q ∧
        ∀ g : Vec d × Vec d → ℝ, LipschitzWith 1 g → (∀ x, |g x| ≤ 1) →
          |∫ ω, g (y ω, z ω) ∂Q - ∫ ω, g (X' ω T, X ω T) ∂P'| ≤ ε := by
  obtain ⟨c, γ0, N1, hc, hγ0, hg⟩ := compare_good (d := d) 0 one_ne_zero len hmag hT
  obtain ⟨N0, h⟩ := gain_blocks_limit hla hd hf hT S x0 (hsol m S fun _ h => h) maternExcess_eq (hsol (m + m) _ fun i hi => hcat_row_zero hi _)
    hW hX hX' hc hγ0 hε
  refine ⟨N0 + N1 + 1, ?_⟩
  intro Ω _ Q R hR N hN r hr sqrt key odeInt hode
  exact h hR N (by omega) _ (hg N (by omega) (by omega)).2 r hr sqrt key odeInt hode

/-- The distance of the two final states, for a limit of that form. -/
theorem gain_blocks_gap {la : LinAlg} (hla : la.Correct) (hd : 0 < d) {f : Field d} (hf : ContDiff ℝ 2 (Function.uncurry f)) {T : ℝ} (hT : 0 < T)
    (S : Mat d m) (x0 : Vec d) (hsol : ∀ (n : ℕ) (S' : Mat d n), (∀ i, S i = 0 → S' i = 0) → ∀ w : ℝ → Vec n, Continuous w →
      ∃ x, SolvesAdditive f S' w x0 T x) {i : Fin d} (hi : S i ≠ 0) {γ s : ℝ} (hs : s = Real.sqrt 3 * (1 - 2 * γ)) (hs0 : 0 < s)
    {c γ0 : ℝ} (hc : 0 ≤ c) (hγ0 : 0 ≤ γ0) {ε : ℝ} (hε : 0 < ε) :
    ∃ κ > 0, ∃ N0 : ℕ, ∀ {Ω : Type} [MeasurableSpace Ω] {Q : Measure Ω} {R : Ω → Rng}, IdealNormals Q R → ∀ N ≥ N0,
      ∀ pr, GainBlocks (d := d) c γ0 (T / N) (fun _ => γ) pr → ∀ r : ℕ, 0 < r → ∀ (sqrt : Bool) (key : Key) (odeInt : Ω → OdeInt (Vec d) d),
      (∀ ω k x vf, Ekf.ekf0 la (R ω) (some k) x vf (T / N) 1 sqrt (some pr) none = .ok (odeInt ω k x vf (T / N))) →
      ∃ y z : Ω → Vec d,
        (∀ ω, ∃ ts traj traj2, ramSolver (R ω) key f (fun _ _ => S) x0 x0 (T / N) N r (odeInt ω) = .ok (ts, traj, traj2) ∧
          ts[N]? = some T ∧ traj[N]? = some (y ω) ∧ traj2[N]? = some (z ω)) ∧
        AEMeasurable (fun ω => (y ω, z ω)) Q ∧ Q {ω | ‖y ω - z ω‖ ≤ κ} ≤ ENNReal.ofReal ε := by
  obtain ⟨W, hW⟩ := Levy.exists_brownianVec (m + m)
  obtain ⟨P, hP⟩ : ∃ P : Measure (Fin (m + m) → ℕ × ℕ → ℝ), P = Measure.pi fun _ => Levy.noise := ⟨_, rfl⟩
  rw [← hP] at hW
  have : IsProbabilityMeasure P := hW.isProb
  have hW1 := hW.comp_inj (Fin.castAdd_injective m m)
  obtain ⟨X, hX⟩ := hW1.exists_solution_of_paths (hsol m S fun _ h => h)
  obtain ⟨X', hX'⟩ := hW.exists_solution_of_paths (hsol (m + m) _ fun i hi => hcat_row_zero hi s)
  obtain ⟨κ, hκ, hsp⟩ := gap_spread hW hf hT S (s • S) x0 hX hX' (i := i) (fun h => hi (funext fun j => by
    have := congrFun h j
    rw [Matrix.smul_apply] at this
    exact (smul_eq_zero.mp this).resolve_left hs0.ne')) (half_pos hε)
  obtain ⟨N0, h⟩ := gain_blocks_limit hla hd hf hT S x0 (hsol m S fun _ h => h) hs (hsol (m + m) _ fun i hi => hcat_row_zero hi s) hW hX hX' hc hγ0
    (ε := min (κ / 2) 1 / 2 * (ε / 2)) (by positivity)
  refine ⟨κ / 2, by positivity, N0, ?_⟩
  intro Ω _ Q R hR N hN pr hpr r hr sqrt key odeInt hode
  have : IsProbabilityMeasure Q := (hR.law [] [1] 0 one_pos).isProbabilityMeasure
  obtain ⟨y, z, h1, h2, h3⟩ := h hR N hN pr hpr r hr sqrt key odeInt hode
  refine ⟨y, z, h1, h2, ?_⟩
  have := gap_of_weak h2 ((solution_aemeasurable hW hf hT _ x0 hX' ⟨hT.le, le_rfl⟩).prodMk (solution_aemeasurable hW1 hf hT S x0 hX ⟨hT.le, le_rfl⟩))
    hκ (half_pos hε).le hsp h3
  rwa [show 2 * (ε / 2) = ε by ring] at this

/-- C126 fails: with either prior of the script the filter does not approach the Euler-Maruyama solution of the same path, however many
intervals are taken. For every `ε` there is a distance `κ` that the final states exceed with probability at least `1 - ε`, for all large `N`.
The drift and the noise are as in `C126_ioup_partial`, and some coordinate is noisy. -/
theorem C126_fails {la : LinAlg} (hla : la.Correct) (hd : 0 < d) {f : Field d} (hf : ContDiff ℝ 2 (Function.uncurry f)) {T : ℝ} (hT : 0 < T)
    (S : Mat d m) (x0 : Vec d) (hsol : ∀ (n : ℕ) (S' : Mat d n), (∀ i, S i = 0 → S' i = 0) → ∀ w : ℝ → Vec n, Continuous w →
      ∃ x, SolvesAdditive f S' w x0 T x) {i : Fin d} (hi : S i ≠ 0) (θ : ℝ) {σ : ℝ} (hσ : σ ≠ 0) (len : ℝ) {mag : ℝ} (hmag : mag ≠ 0)
    {ε : ℝ} (hε : 0 < ε) :
    ∃ κ > 0, ∃ N0 : ℕ, ∀ {Ω : Type} [MeasurableSpace Ω] {Q : Measure Ω} {R : Ω → Rng}, IdealNormals Q R → ∀ N ≥ N0,
      ∀ pr, pr = comparePriorIoup θ σ (T / N) d ∨ pr = comparePriorMatern mag len (T / N) d →
      ∀ r : ℕ, 0 < r → ∀ (sqrt : Bool) (key : Key) (odeInt : Ω → OdeInt (Vec d) d),
      (∀ ω k x vf, Ekf.ekf0 la (R ω) (some k) x vf (T / N) 1 sqrt (some pr) none = .ok (odeInt ω k x vf (T / N))) →
      ∃ y z : Ω → Vec d,
        (∀ ω, ∃ ts traj traj2, ramSolver (R ω) key f (fun _ _ => S) x0 x0 (T / N) N r (odeInt ω) = .ok (ts, traj, traj2) ∧
          ts[N]? = some T ∧ traj[N]? = some (y ω) ∧ traj2[N]? = some (z ω)) ∧
        AEMeasurable (fun ω => (y ω, z ω)) Q ∧ Q {ω | ‖y ω - z ω‖ ≤ κ} ≤ ENNReal.ofReal ε := by
  obtain ⟨c, γ0, N1, hc, hγ0, hg⟩ := compare_good (d := d) θ hσ len hmag hT
  obtain ⟨κ1, hκ1, M1, h1⟩ := gain_blocks_gap hla hd hf hT S x0 hsol hi ioupExcess_eq ioupExcess_pos hc hγ0 hε
  obtain ⟨κ2, hκ2, M2, h2⟩ := gain_blocks_gap hla hd hf hT S x0 hsol hi maternExcess_eq maternExcess_pos hc hγ0 hε
  refine ⟨min κ1 κ2, lt_min hκ1 hκ2, N1 + M1 + M2 + 1, ?_⟩
  intro Ω _ Q R hR N hN pr hpr r hr sqrt key odeInt hode
  obtain ⟨g1, g2⟩ := hg N (by omega) (by omega)
  rcases hpr with rfl | rfl
  · obtain ⟨y, z, e1, e2, e3⟩ := h1 hR N (by omega) _ g1 r hr sqrt key odeInt hode
    refine ⟨y, z, e1, e2, le_trans (measure_mono fun ω h => ?_) e3⟩
    rw [mem_setOf_eq] at h ⊢
    exact h.trans (min_le_left _ _)
  · obtain ⟨y, z, e1, e2, e3⟩ := h2 hR N (by omega) _ g2 r hr sqrt key odeInt hode
    refine ⟨y, z, e1, e2, le_trans (measure_mono fun ω h => ?_) e3⟩
    rw [mem_setOf_eq] at h ⊢
    exact h.trans (min_le_right _ _)

/-- Two random vectors that are apart with probability one half have a mean distance. -/
theorem mean_of_apart {Ω : Type*} [MeasurableSpace Ω] {Q : Measure Ω} [IsProbabilityMeasure Q] {y z : Ω → Vec d}
    (hm : AEMeasurable (fun ω => (y ω, z ω)) Q) {κ : ℝ} (hκ : 0 < κ) (h : Q {ω | ‖y ω - z ω‖ ≤ κ} ≤ ENNReal.ofReal (1 / 2)) :
    ENNReal.ofReal (κ / 2) ≤ ∫⁻ ω, ENNReal.ofReal ‖y ω - z ω‖ ∂Q := by
  have hm : AEMeasurable (fun ω => ENNReal.ofReal ‖y ω - z ω‖) Q := (hm.fst.sub hm.snd).norm.ennreal_ofReal
  have hmk := mul_meas_ge_le_lintegral₀ hm (ENNReal.ofReal κ)
  refine le_trans ?_ hmk
  have hhalf : ENNReal.ofReal (1 / 2) ≤ Q {ω | ENNReal.ofReal κ ≤ ENNReal.ofReal ‖y ω - z ω‖} := by
    have hcov : (1 : ℝ≥0∞) ≤ Q {ω | ENNReal.ofReal κ ≤ ENNReal.ofReal ‖y ω - z ω‖} + Q {ω | ‖y ω - z ω‖ ≤ κ} := by
      rw [← measure_univ (μ := Q)]
      refine (measure_mono fun ω _ => ?_).trans (measure_union_le _ _)
      rcases le_total κ ‖y ω - z ω‖ with hle | hle
      · exact Or.inl (ENNReal.ofReal_le_ofReal hle)
      · exact Or.inr hle
    have h1e : (1 : ℝ≥0∞) = ENNReal.ofReal (1 / 2) + ENNReal.ofReal (1 / 2) := by
      rw [← ENNReal.ofReal_add (by norm_num) (by norm_num)]
      norm_num
    have hcov2 := hcov.trans (add_le_add_right h _)
    rw [h1e] at hcov2
    exact (ENNReal.add_le_add_iff_right ENNReal.ofReal_ne_top).1 hcov2
  calc ENNReal.ofReal (κ / 2) = ENNReal.ofReal κ * ENNReal.ofReal (1 / 2) := by
        rw [← ENNReal.ofReal_mul hκ.le]
        congr 1
        ring
    _ ≤ _ := mul_le_mul_right hhalf _

/-- C126 fails for the script as it stands: FitzHugh-Nagumo at `T = 1`, the parameters of lines 94 and 95, factors instead of covariances. With
either prior the expected distance of the final states stays above a positive constant. -/
theorem C126_fhn_fails {la : LinAlg} (hla : la.Correct) :
    ∃ κ > 0, ∃ N0 : ℕ, ∀ {Ω : Type} [MeasurableSpace Ω] {Q : Measure Ω} {R : Ω → Rng}, IdealNormals Q R → ∀ N ≥ N0,
      ∀ pr, pr = comparePriorIoup 0 1 (1 / N) 2 ∨ pr = comparePriorMatern 1 1 (1 / N) 2 →
      ∀ r : ℕ, 0 < r → ∀ (key : Key) (odeInt : Ω → OdeInt (Vec 2) 2),
      (∀ ω k x vf, Ekf.ekf0 la (R ω) (some k) x vf (1 / N) 1 true (some pr) none = .ok (odeInt ω k x vf (1 / N))) →
      ∃ y z : Ω → Vec 2,
        (∀ ω, ∃ ts traj traj2, ramSolver (R ω) key Ivp.Fhn.drift Ivp.Fhn.sigma Ivp.Fhn.x0 Ivp.Fhn.x0 (1 / N) N r (odeInt ω) =
            .ok (ts, traj, traj2) ∧ ts[N]? = some 1 ∧ traj[N]? = some (y ω) ∧ traj2[N]? = some (z ω)) ∧
        ENNReal.ofReal κ ≤ ∫⁻ ω, ENNReal.ofReal ‖y ω - z ω‖ ∂Q := by
  obtain ⟨κ, hκ, N0, h⟩ := C126_fails hla (by norm_num : 0 < 2) Ivp.Fhn.contDiff_drift one_pos (!![0; Ivp.Fhn.sig]) Ivp.Fhn.x0
    (fun n S' hS' w hw => Ivp.Fhn.exists_solution zero_le_one S' (fun j => congrFun (hS' 0 (by funext j; fin_cases j; rfl)) j) w hw _) (i := 1)
    (fun h => by
      have := congrFun h 0
      simp [Ivp.Fhn.sig] at this
      norm_num at this) 0 one_ne_zero 1 one_ne_zero (ε := 1 / 2) (by norm_num)
  refine ⟨κ / 2, by positivity, N0, ?_⟩
  intro Ω _ Q R hR N hN pr hpr r hr key odeInt hode
  have : IsProbabilityMeasure Q := (hR.law [] [1] 0 one_pos).isProbabilityMeasure
  obtain ⟨y, z, h1, h2, h3⟩ := h hR N hN pr hpr r hr true key odeInt hode
  exact ⟨y, z, h1, mean_of_apart h2 hκ h3⟩

/-- C126: factorisations, a generator and filters that satisfy the hypotheses, for FitzHugh-Nagumo with as many fine steps as intervals. -/
example : ∃ (la : LinAlg) (κ : ℝ) (N0 : ℕ), la.Correct ∧ 0 < κ ∧ ∀ N ≥ N0, 0 < N → ∃ (odeInt : _ → OdeInt (Vec 2) 2) (y z : _ → Vec 2),
    (∀ ω k x vf, Ekf.ekf0 la (drawsRng ω) (some k) x vf (1 / N) 1 true (some (comparePriorMatern 1 1 (1 / N) 2)) none =
      .ok (odeInt ω k x vf (1 / N))) ∧
    (∀ ω, ∃ ts traj traj2, ramSolver (drawsRng ω) [] Ivp.Fhn.drift Ivp.Fhn.sigma Ivp.Fhn.x0 Ivp.Fhn.x0 (1 / N) N N
      (odeInt ω) = .ok (ts, traj, traj2) ∧ traj[N]? = some (y ω) ∧ traj2[N]? = some (z ω)) ∧
    ENNReal.ofReal κ ≤ ∫⁻ ω, ENNReal.ofReal ‖y ω - z ω‖ ∂drawsMeasure := by
  obtain ⟨κ, hκ, N0, h⟩ := C126_fhn_fails measurableLinAlg_correct
  obtain ⟨c, γ0, N1, hc, hγ0, hg⟩ := compare_good (d := 2) 0 one_ne_zero 1 one_ne_zero one_pos
  refine ⟨measurableLinAlg, κ, N0 + N1, measurableLinAlg_correct, hκ, fun N hN hN0 => ?_⟩
  obtain ⟨A, g, U, -, -, hs⟩ := gain_block_step measurableLinAlg_correct (by norm_num) (hg N (by omega) hN0).2 true
  obtain ⟨y, z, h1, h2⟩ := h idealNormals_drawsRng N (by omega) _ (Or.inr rfl) N hN0 []
    (fun ω k x vf _ => blockStep A g vf (1 / N) x + U *ᵥ (drawsRng ω).normalVec k (2 * (1 + 2))) (fun ω k x vf => hs (drawsRng ω) k x vf)
  refine ⟨fun ω k x vf _ => blockStep A g vf (1 / N) x + U *ᵥ (drawsRng ω).normalVec k (2 * (1 + 2)), y, z, fun ω k x vf => hs (drawsRng ω) k x vf, fun ω => ?_, h2⟩
  obtain ⟨ts, traj, traj2, g1, -, g2, g3⟩ := h1 ω
  exact ⟨ts, traj, traj2, g1, g2, g3⟩

/-- C126: the limits exist, for FitzHugh-Nagumo and both priors. -/
example : ∃ (Ω : Type) (_ : MeasurableSpace Ω) (P : Measure Ω) (W : Fin (1 + 1) → ℝ≥0 → Ω → ℝ) (X X' X'' : Ω → ℝ → Vec 2), IsBrownianVec W P ∧
    (∀ᵐ ω ∂P, SolvesAdditive Ivp.Fhn.drift (!![0; Ivp.Fhn.sig]) (fun t j => W (Fin.castAdd 1 j) t.toNNReal ω) Ivp.Fhn.x0 1 (X ω)) ∧
    (∀ᵐ ω ∂P, SolvesAdditive Ivp.Fhn.drift (KF.hcat (!![0; Ivp.Fhn.sig]) (ioupExcess • !![0; Ivp.Fhn.sig])) (fun t j => W j t.toNNReal ω) Ivp.Fhn.x0 1
      (X' ω)) ∧
    ∀ᵐ ω ∂P, SolvesAdditive Ivp.Fhn.drift (KF.hcat (!![0; Ivp.Fhn.sig]) (maternExcess • !![0; Ivp.Fhn.sig])) (fun t j => W j t.toNNReal ω) Ivp.Fhn.x0 1
      (X'' ω) := by
  obtain ⟨W, hW⟩ := Levy.exists_brownianVec (1 + 1)
  have h0 : (!![0; Ivp.Fhn.sig] : Mat 2 1) 0 = 0 := by funext j; fin_cases j; rfl
  obtain ⟨X, hX⟩ := (hW.comp_inj (Fin.castAdd_injective 1 1)).exists_solution_of_paths
    fun w hw => Ivp.Fhn.exists_solution zero_le_one (!![0; Ivp.Fhn.sig]) (fun j => congrFun h0 j) w hw Ivp.Fhn.x0
  obtain ⟨X', hX'⟩ := hW.exists_solution_of_paths
    fun w hw => Ivp.Fhn.exists_solution zero_le_one _ (fun j => congrFun (hcat_row_zero h0 ioupExcess) j) w hw Ivp.Fhn.x0
  obtain ⟨X'', hX''⟩ := hW.exists_solution_of_paths
    fun w hw => Ivp.Fhn.exists_solution zero_le_one _ (fun j => congrFun (hcat_row_zero h0 maternExcess) j) w hw Ivp.Fhn.x0
  exact ⟨_, _, _, W, X, X', X'', hW, hX, hX', hX''⟩

end Verif
