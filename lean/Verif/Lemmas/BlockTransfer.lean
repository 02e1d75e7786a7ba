import Verif.Lemmas.BlockEkf
import Verif.Lemmas.BlockStrong
import Verif.Lemmas.QuadGain

/-! The low-memory solver with EKF0 and a prior of independent coordinates. -/

namespace Verif

open Matrix Spec Jnp Set MeasureTheory ProbabilityTheory Scripts Filter
open scoped NNReal ENNReal

variable {d m : ℕ}

theorem block_step {la : LinAlg} (hla : la.Correct) (hd : 0 < d) {S : Mat d m} {c γ h : ℝ} {pr : (s : ℕ) × Prior s} (hpr : GoodBlocks S c γ h pr) :
    ∃ (A : Fin d → Mat 3 3) (g : Fin d → ℝ) (U : Mat d (d * (1 + 2))), BlockOk S c h A g ∧ ∑ i, ∑ j, U i j ^ 2 ≤ γ * h ^ 3 ∧
      ∀ rng k x vf, Ekf.ekf0 la rng (some k) x vf h 1 false (some pr) none = .ok (blockStep A g vf h x + U *ᵥ rng.normalVec k (d * (1 + 2))) := by
  obtain ⟨p, A, Q, rfl, hA, hQ, hxi, hpsd, hpos, hok, hres⟩ := hpr
  obtain ⟨U, hU, hs⟩ := Ekf.ekf0_blocks hla hd hA hQ hxi hpsd hpos h
  exact ⟨A, _, U, hok, hU.trans_le hres, hs⟩

/-- Mean square distance of the two trajectories for smooth drifts. -/
theorem block_measured {la : LinAlg} (hla : la.Correct) (hd : 0 < d) {f : Field d} {Df : Vec d → ℝ → Vec d →L[ℝ] Vec d}
    {T L K Lt : ℝ} (hT : 0 < T) (hf : SmoothField f Df T L K) (htl : TimeLipschitz f T Lt) (S : Mat d m) (x0 : Vec d) {c γ : ℝ} (hc : 0 ≤ c) (hγ : 0 ≤ γ) :
    ∃ A : ℝ, ∀ {Ω : Type} [MeasurableSpace Ω] {Q : Measure Ω} {R : Ω → Rng}, IdealNormals Q R → ∀ N : ℕ, 0 < N →
      ∀ r : ℕ, 0 < r → ∀ pr, GoodBlocks S c γ (T / N) pr → ∀ (key : Key) (odeInt : Ω → OdeInt (Vec d) d),
      (∀ ω k x vf, Ekf.ekf0 la (R ω) (some k) x vf (T / N) 1 false (some pr) none = .ok (odeInt ω k x vf (T / N))) →
      ∀ n ≤ N, ∃ y z : Ω → Vec d,
        (∀ ω, ∃ ts traj traj2, ramSolver (R ω) key f (fun _ _ => S) x0 x0 (T / N) N r (odeInt ω) = .ok (ts, traj, traj2) ∧
          ts[n]? = some (n * (T / N)) ∧ traj[n]? = some (y ω) ∧ traj2[n]? = some (z ω)) ∧
        Integrable (fun ω => ‖y ω - z ω‖ ^ 2) Q ∧ ∫ ω, ‖y ω - z ω‖ ^ 2 ∂Q ≤ A * (T / N) ^ 2 := by
  have hkI : ∀ N k : ℕ, k < N → 0 + (k : ℝ) * (T / N) ∈ Icc 0 T := fun N k hk => by
    have hN' : (0 : ℝ) < N := by exact_mod_cast (by omega : 0 < N)
    refine ⟨by positivity, ?_⟩
    have h1 : (k : ℝ) * (T / N) ≤ N * (T / N) := mul_le_mul_of_nonneg_right (by exact_mod_cast hk.le) (by positivity)
    rw [mul_div_cancel₀ T hN'.ne'] at h1
    linarith
  obtain ⟨A, hA⟩ := measured_ms_draw (q := d * (1 + 2)) hT hf htl S x0 (ι := (Fin d → Mat 3 3) × (Fin d → ℝ) × Mat d (d * (1 + 2)))
    (Adm := fun N p => BlockOk S c (T / N) p.1 p.2.1 ∧ ∑ i, ∑ j, p.2.2 i j ^ 2 ≤ γ * (T / N) ^ 3)
    (J := fun (N : ℕ) (p : (Fin d → Mat 3 3) × (Fin d → ℝ) × Mat d (d * (1 + 2))) k y a b ξ =>
      blockAdd f S (k * (T / N)) (T / N) p.1 p.2.1 y a b + p.2.2 *ᵥ ξ)
    (v := fun _ => 0) (fun N p hp k hk => (continuous_blockDraw (D := fun x => Df x (0 + k * (T / N))) hf.cont S
      (fun x => hf.deriv x _ (hkI N k hk)) (hf.continuous_jac hT (hkI N k hk)) p.1 p.2.1 p.2.2).measurable) (fun hB X hX => by
      obtain ⟨A, -, hA⟩ := block_draw_strong hB hT hf htl S x0 hX hc hγ
      refine ⟨A, fun N hN p hp c hc Y hY0 hYs n hn => ?_⟩
      have := hA N hN p.1 p.2.1 p.2.2 hp.1 hp.2 c hc Y hY0 hYs n hn
      rw [zero_pow two_ne_zero, add_zero, mul_one]
      exact this)
  refine ⟨A, ?_⟩
  intro Ω _ Q R hR N hN r hr pr hpr key odeInt hode n hn
  obtain ⟨B, g, U, hok, hU, hstep⟩ := block_step hla hd hpr
  have h := hA hR N hN (B, g, U) ⟨hok, hU⟩ r hr key odeInt (fun ω κ x k hk a b =>
    Except.ok.inj ((hode ω κ x _).symm.trans (hstep (R ω) κ x _))) n hn
  simp only [zero_pow two_ne_zero, add_zero, mul_one] at h
  exact h

set_option maxHeartbeats 1000000 in
/-- The distance in probability for drifts with two continuous derivatives. -/
theorem block_prob {la : LinAlg} (hla : la.Correct) (hd : 0 < d) {f : Field d} (hf : ContDiff ℝ 2 (Function.uncurry f)) {T : ℝ}
    (hT : 0 < T) (S : Mat d m) (x0 : Vec d) (hsol : ∀ w : ℝ → Vec m, Continuous w → ∃ x, SolvesAdditive f S w x0 T x) {c γ : ℝ} (hc : 0 ≤ c)
    (hγ : 0 ≤ γ) {ε : ℝ} (hε : 0 < ε) :
    ∃ (A : ℝ) (N0 : ℕ), ∀ {Ω : Type} [MeasurableSpace Ω] {Q : Measure Ω} {R : Ω → Rng}, IdealNormals Q R → ∀ N ≥ N0,
      ∀ r : ℕ, 0 < r → ∀ pr, GoodBlocks S c γ (T / N) pr → ∀ (key : Key) (odeInt : Ω → OdeInt (Vec d) d),
      (∀ ω k x vf, Ekf.ekf0 la (R ω) (some k) x vf (T / N) 1 false (some pr) none = .ok (odeInt ω k x vf (T / N))) →
      ∀ n ≤ N, ∃ y z : Ω → Vec d,
        (∀ ω, ∃ ts traj traj2, ramSolver (R ω) key f (fun _ _ => S) x0 x0 (T / N) N r (odeInt ω) = .ok (ts, traj, traj2) ∧
          ts[n]? = some (n * (T / N)) ∧ traj[n]? = some (y ω) ∧ traj2[n]? = some (z ω)) ∧
        Q {ω | A * (T / N) < ‖y ω - z ω‖} ≤ ENNReal.ofReal ε := by
  obtain ⟨s, hs, hS⟩ := exists_mulVec_bound S
  obtain ⟨A, N0, hA⟩ := measured_prob_draw (q := d * (1 + 2)) hf hT S x0 hsol hε (ι := (Fin d → Mat 3 3) × (Fin d → ℝ) × Mat d (d * (1 + 2)))
    (Adm := fun N p => BlockOk S c (T / N) p.1 p.2.1 ∧ ∑ i, ∑ j, p.2.2 i j ^ 2 ≤ γ * (T / N) ^ 3)
    (J := fun (N : ℕ) (p : (Fin d → Mat 3 3) × (Fin d → ℝ) × Mat d (d * (1 + 2))) k y a b ξ =>
      blockAdd f S (k * (T / N)) (T / N) p.1 p.2.1 y a b + p.2.2 *ᵥ ξ)
    (fun N p hp k _ => (continuous_blockDraw hf.continuous S (fun x => hasFDerivAt_left hf x _) (continuous_fderiv_left hf _) p.1 p.2.1
      p.2.2).measurable) (fun hB X hX =>
      prob_order_draw hB hf hT S x0 hX
        (J := fun (f : Field d) (N : ℕ) (p : (Fin d → Mat 3 3) × (Fin d → ℝ) × Mat d (d * (1 + 2))) k y a b ξ =>
          blockAdd f S (k * (T / N)) (T / N) p.1 p.2.1 y a b + p.2.2 *ᵥ ξ)
        (κ := 1 / (80 * (s + 1))) (by positivity) (fun g Dg L K X' hL hg hgt hX' => by
          obtain ⟨A, hA0, hA⟩ := block_draw_strong hB hT hg hgt S x0 hX' hc hγ
          exact ⟨A, fun N hN p hp c hc Y hY0 hYs n hn => hA N hN p.1 p.2.1 p.2.2 hp.1 hp.2 c hc Y hY0 hYs n hn⟩)
        (fun g Dg L K F ρ hF hg _ _ hgF heq => by
          have hL' : SmoothField g Dg T |L| K := ⟨hg.cont, fun x y t ht => (hg.lip x y t ht).trans
            (mul_le_mul_of_nonneg_right (le_abs_self L) (norm_nonneg _)), hg.deriv, hg.jac⟩
          obtain ⟨N3, hN3⟩ := exists_small_step F hT (by norm_num : (0 : ℝ) < 1 / 16)
          obtain ⟨N4, hN4⟩ := exists_small_step (c * T * (|ρ| + 1 / 2) + (c + (1 + c * T) * |L|)) hT (by norm_num : (0 : ℝ) < 1 / 16)
          refine ⟨N3 + N4, fun N hN hN0 p hp k hk y a b ξ hy hsl => ?_⟩
          have hN' : (0 : ℝ) < N := by exact_mod_cast hN0
          have hN1 : (1 : ℝ) ≤ N := by exact_mod_cast hN0
          have hTN : T / N ≤ T := div_le_self hT.le hN1
          have h4 := hN4 N (by omega) hN0
          have h1 := block_local (abs_nonneg L) hc hL' hs hS hgF heq (by positivity : 0 < T / N) (hN3 N (by omega) hN0)
            (le_trans (mul_le_mul_of_nonneg_left (add_le_add_left (by
              have e1 : c * (T / N) * (ρ + 1 / 2) ≤ c * (T / N) * (|ρ| + 1 / 2) := by
                gcongr
                exact le_abs_self ρ
              exact e1.trans (by gcongr)) _) (by positivity)) h4)
            (by positivity : 0 ≤ (k : ℝ) * (T / N))
            (by
              have h1 : ((k + 1 : ℕ) : ℝ) * (T / N) ≤ N * (T / N) := mul_le_mul_of_nonneg_right (by exact_mod_cast hk) (by positivity)
              rw [mul_div_cancel₀ T hN'.ne'] at h1
              push_cast at h1
              linarith) hp.1 hy hsl
          simp only [h1]) (half_pos hε))
  refine ⟨A, N0 + 1, ?_⟩
  intro Ω _ Q R hR N hN r hr pr hpr key odeInt hode n hn
  obtain ⟨B, g, U, hok, hU, hstep⟩ := block_step hla hd hpr
  exact hA hR N (by omega) (B, g, U) ⟨hok, hU⟩ r hr key odeInt (fun ω κ x k hk a b =>
    Except.ok.inj ((hode ω κ x _).symm.trans (hstep (R ω) κ x _))) n hn

end Verif
