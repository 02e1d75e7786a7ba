import Verif.Lemmas.DrawStrong
import Verif.Lemmas.Perturbed

/-!
# Property C108: the errors measured by the pathwise experiments, with EKF0 drawing from its posterior
-/

namespace Verif

open Matrix Spec Jnp Set MeasureTheory ProbabilityTheory Scripts Filter
open scoped NNReal ENNReal

variable {d m q : ℕ}

theorem continuous_trapDraw {f : Field d} (hf : Continuous (Function.uncurry f)) (S : Mat d m) (U : Mat d q) (a0 δ h : ℝ) (M : ℕ) :
    Continuous fun z : Vec d × Vec m × Vec m × Vec q => (trapScheme (additiveField f S a0 δ z.2.1 z.2.2.1) h z.1 M).1 + U *ᵥ z.2.2.2 := by
  have h1 : Continuous fun z : Vec d × Vec m × Vec m => (trapScheme (additiveField f S a0 δ z.2.1 z.2.2) h z.1 M).1 :=
    continuous_fst.comp (continuous_trapScheme hf S a0 δ h M)
  have h2 : Continuous fun z : Vec d × Vec m × Vec m × Vec q => ((z.1, z.2.1, z.2.2.1) : Vec d × Vec m × Vec m) := by fun_prop
  have h3 : Continuous fun v : Vec q => U *ᵥ v := continuous_const.matrix_mulVec continuous_id
  exact (h1.comp h2).add (h3.comp (continuous_snd.comp (continuous_snd.comp continuous_snd)))

set_option maxHeartbeats 1000000 in
/-- Mean square error of the trapezoidal scheme with a normal perturbation in every interval. -/
theorem trap_draw_strong {Ω : Type*} [MeasurableSpace Ω] {P : Measure Ω} {B : Fin (m + q) → ℝ≥0 → Ω → ℝ}
    (hB : IsBrownianVec B P) {f : Field d} {Df : Vec d → ℝ → Vec d →L[ℝ] Vec d} {T L K Lt : ℝ} (hT : 0 < T)
    (hf : SmoothField f Df T L K) (htl : TimeLipschitz f T Lt) (S : Mat d m) (x0 : Vec d)
    {X : Ω → ℝ → Vec d} (hX : ∀ᵐ ω ∂P, SolvesAdditive f S (fun t j => B (Fin.castAdd q j) t.toNNReal ω) x0 T (X ω)) :
    ∃ A : ℝ, 0 ≤ A ∧ ∀ N : ℕ, 0 < N → ∀ M : ℕ, 0 < M → ∀ (σ : ℝ) (U : Mat d q), ∑ i, ∑ j, U i j ^ 2 ≤ d * (σ ^ 2 * M * (T / N / M) ^ 3 / 12) →
      ∀ c : Ω → ℕ → Vec (m + q) × Vec (m + q),
      (∀ᵐ ω ∂P, ∀ k < N, SameEndAndArea (fun t => Foster.evalParabola t (T / N) (c ω k).1 (c ω k).2) (fun t j => B j t.toNNReal ω)
        (k * (T / N)) (T / N)) →
      ∀ Y : ℕ → Ω → Vec d, (∀ ω, Y 0 ω = x0) → (∀ k < N, ∀ ω, Y (k + 1) ω =
        (trapScheme (additiveField f S (k * (T / N)) (T / N) (firstV (c ω k).1) (firstV (c ω k).2)) (T / N / M) (Y k ω) M).1 +
          U *ᵥ ((1 / Real.sqrt (T / N)) • lastV (c ω k).1)) →
      ∀ n ≤ N, Integrable (fun ω => ‖X ω (n * (T / N)) - Y n ω‖ ^ 2) P ∧
        ∫ ω, ‖X ω (n * (T / N)) - Y n ω‖ ^ 2 ∂P ≤ A * (1 + (σ / M) ^ 2) * (T / N) ^ 2 := by
  wlog hL : 0 ≤ L generalizing L
  · refine this (L := 0) ⟨hf.cont, fun x y t ht => (hf.lip x y t ht).trans ?_, hf.deriv, hf.jac⟩ le_rfl
    exact mul_le_mul_of_nonneg_right (not_le.mp hL).le (norm_nonneg _)
  wlog hLt : 0 ≤ Lt generalizing Lt
  · refine this (Lt := 0) (fun x s hs t ht => (htl x s hs t ht).trans ?_) le_rfl
    refine mul_le_mul_of_nonneg_right (mul_le_mul_of_nonneg_right (not_le.mp hLt).le ?_) (abs_nonneg _)
    positivity
  have hK := hf.jac_const_nonneg hT
  obtain ⟨s, hs, hS⟩ := exists_mulVec_bound S
  obtain ⟨C1, hC1, hcons⟩ := trap_expansion hf hL hK hLt hT.le htl hs hS
  obtain ⟨A, hA0, hA⟩ := strong_noisy (hB.comp_inj (Fin.castAdd_injective m q)) hT hf hL hLt htl S x0 hX
    (C0 := L * Real.exp (3 * L / 2 * T) * (1 + L * T)) (by positivity) hC1 (by norm_num : (0 : ℝ) ≤ 4)
  refine ⟨A * (1 + T * d / 12), by positivity, ?_⟩
  intro N hN M hM σ U hU c hc Y hY0 hYs n hn
  have hN' : (0 : ℝ) < N := by exact_mod_cast hN
  have hM' : (0 : ℝ) < M := by exact_mod_cast hM
  obtain ⟨δ, hδdef⟩ : ∃ δ, δ = T / N := ⟨_, rfl⟩
  have hA' := hA N hN (lam := 1 / 2) (mu := 1 / Real.sqrt 6 + trapExcess M)
  rw [← hδdef] at hU hc hYs hA' ⊢
  have hδ : 0 < δ := by rw [hδdef]; positivity
  have hNδ : (N : ℝ) * δ = T := by rw [hδdef]; field_simp
  have hkδ : ∀ k < N, (k : ℝ) * δ + δ ≤ T := fun k hk => by
    have : ((k + 1 : ℕ) : ℝ) * δ ≤ N * δ := mul_le_mul_of_nonneg_right (by exact_mod_cast hk) hδ.le
    rw [hNδ] at this
    push_cast at this
    linarith
  have h6 : |1 / Real.sqrt 6| ≤ 1 := by
    rw [abs_of_pos (by positivity), div_le_one (by positivity)]
    exact Real.one_le_sqrt.mpr (by norm_num)
  have hcont : ∀ k : ℕ, Continuous fun p : Vec d × Vec m × Vec m => (trapScheme (additiveField f S (k * δ) δ p.2.1 p.2.2) (δ / M) p.1 M).1 :=
    fun k => continuous_fst.comp (continuous_trapScheme hf.cont S (k * δ) δ (δ / M) M)
  have hsel : Continuous fun z : Vec d × Vec (m + q) × Vec (m + q) => ((z.1, firstV z.2.1, firstV z.2.2, (1 / Real.sqrt δ) • lastV z.2.1) :
      Vec d × Vec m × Vec m × Vec q) := by
    have h1 := continuous_firstV (m := m) (q := q)
    have h2 := continuous_lastV (m := m) (q := q)
    exact continuous_fst.prodMk ((h1.comp (continuous_fst.comp continuous_snd)).prodMk ((h1.comp (continuous_snd.comp continuous_snd)).prodMk
      ((continuous_const_smul (1 / Real.sqrt δ)).comp (h2.comp (continuous_fst.comp continuous_snd)))))
  obtain ⟨hYm, hsum⟩ := draw_sum hB hδ hc (Θ := fun k y a b => (trapScheme (additiveField f S (k * δ) δ (firstV a) (firstV b)) (δ / M) y M).1 +
      U *ᵥ ((1 / Real.sqrt δ) • lastV a)) (fun k _ => ((continuous_trapDraw hf.cont S U (k * δ) δ (δ / M) M).comp hsel).measurable) hY0 hYs (G := fun _ _ _ _ => U) (fun _ _ _ _ => measurable_const) (γ := d * (σ ^ 2 * M * (δ / M) ^ 3 / 12))
    (fun _ _ _ _ _ => hU)
  obtain ⟨v, hv⟩ : ∃ v, v = T * (d * ((σ / M) ^ 2 * δ ^ 2 / 12)) := ⟨_, rfl⟩
  have hv0 : 0 ≤ v := by rw [hv]; positivity
  have hvn : ∀ k ≤ N, (k : ℝ) * (d * (σ ^ 2 * M * (δ / M) ^ 3 / 12)) ≤ v := fun k hk => by
    have e : v = N * (d * (σ ^ 2 * M * (δ / M) ^ 3 / 12)) := by rw [hv, ← hNδ]; field_simp
    rw [e]
    exact mul_le_mul_of_nonneg_right (by exact_mod_cast hk) (by positivity)
  have h := hA' (by rw [abs_of_pos (by norm_num)]; norm_num) ((abs_add_le _ _).trans (by linarith [trapExcess_bound hM]))
    (fun k y a b => (trapScheme (additiveField f S (k * δ) δ a b) (δ / M) y M).1)
    (fun k => (hcont k).measurable)
    (fun k hk a b y y' => trap_stable hL hf.lip S hδ (by positivity) (hkδ k hk) hM a b y y')
    (fun k hk a b y => hcons hδ (by positivity) (hkδ k hk) hM a b y le_rfl) v Y (fun ω k => firstV (c ω k).1) (fun ω k => firstV (c ω k).2)
    (fun ω k => U *ᵥ ((1 / Real.sqrt δ) • lastV (c ω k).1))
    (Eventually.of_forall hY0) (by
      filter_upwards [hc] with ω hω k hk
      exact (hω k hk).comp (Fin.castAdd q)) (Eventually.of_forall fun ω k hk => hYs k hk ω) hYm
    (fun k hk => ⟨(hsum k hk).1, (hsum k hk).2.trans (hvn k hk)⟩) n hn
  refine ⟨h.1, h.2.trans ?_⟩
  rw [show A * (1 + T * d / 12) * (1 + (σ / M) ^ 2) * δ ^ 2 = A * (δ ^ 2 + v) + A * (((σ / M) ^ 2 + T * d / 12) * δ ^ 2) by rw [hv]; ring]
  have : 0 ≤ A * (((σ / M) ^ 2 + T * d / 12) * δ ^ 2) := by positivity
  linarith

theorem frobenius_of_mul_transpose {U : Mat d q} {s : ℝ} (h : U * Uᵀ = s • 1) : ∑ i, ∑ j, U i j ^ 2 = d * s := by
  have h1 : ∀ i, ∑ j, U i j ^ 2 = s := fun i => by
    have := congrFun (congrFun h i) i
    simpa [mul_apply, sq] using this
  simp [h1]

set_option maxHeartbeats 1000000 in
/-- C108: the quantity plotted by the pathwise experiments, which pass a key to the filter, so that every interval ends with a draw from
the posterior. The mean square distance between the trajectory of the draws and the Euler-Maruyama reference is at most
`A (1 + (σ / M)²) δ²`, with one constant for all numbers of intervals, filter steps and fine steps and all prior scales. -/
theorem C108_measured {la : LinAlg} (hla : la.Correct) (hd : 0 < d) {f : Field d} {Df : Vec d → ℝ → Vec d →L[ℝ] Vec d} {T L K Lt : ℝ}
    (hT : 0 < T) (hf : SmoothField f Df T L K) (htl : TimeLipschitz f T Lt) (S : Mat d m) (x0 : Vec d) :
    ∃ A : ℝ, ∀ {Ω : Type} [MeasurableSpace Ω] {Q : Measure Ω} {R : Ω → Rng}, IdealNormals Q R → ∀ N : ℕ, 0 < N → ∀ M : ℕ, 0 < M →
      ∀ r : ℕ, 0 < r → ∀ σ : ℝ, σ ≠ 0 → ∀ (sqrt : Bool) (key : Key) (odeInt : Ω → OdeInt (Vec d) d),
      (∀ ω k x vf, Ekf.ekf0 la (R ω) (some k) x vf (T / N / M) M sqrt
        (some ⟨_, IOUP.transition 0 σ 1 (T / N / M) d⟩) none = .ok (odeInt ω k x vf (T / N))) →
      ∀ n ≤ N, ∃ y z : Ω → Vec d,
        (∀ ω, ∃ ts traj traj2, ramSolver (R ω) key f (fun _ _ => S) x0 x0 (T / N) N r (odeInt ω) = .ok (ts, traj, traj2) ∧
          ts[n]? = some (n * (T / N)) ∧ traj[n]? = some (y ω) ∧ traj2[n]? = some (z ω)) ∧
        Integrable (fun ω => ‖y ω - z ω‖ ^ 2) Q ∧ ∫ ω, ‖y ω - z ω‖ ^ 2 ∂Q ≤ A * (1 + (σ / M) ^ 2) * (T / N) ^ 2 := by
  obtain ⟨A, hA⟩ := measured_ms_draw (q := d * (0 + 2)) hT hf htl S x0 (ι := ℕ × ℝ × Mat d (d * (0 + 2)))
    (Adm := fun N p => 0 < p.1 ∧ ∑ i, ∑ j, p.2.2 i j ^ 2 ≤ d * (p.2.1 ^ 2 * p.1 * (T / N / p.1) ^ 3 / 12))
    (J := fun (N : ℕ) (p : ℕ × ℝ × Mat d (d * (0 + 2))) k y a b ξ => (trapScheme (additiveField f S (k * (T / N)) (T / N) a b) (T / N / p.1) y p.1).1 + p.2.2 *ᵥ ξ)
    (v := fun p => p.2.1 / p.1) (fun N p _ k _ => (continuous_trapDraw hf.cont S _ _ _ _ _).measurable) (fun hB X hX => by
      obtain ⟨A, -, hA⟩ := trap_draw_strong hB hT hf htl S x0 hX
      exact ⟨A, fun N hN p hp c hc Y hY0 hYs n hn => hA N hN p.1 hp.1 p.2.1 p.2.2 hp.2 c hc Y hY0 hYs n hn⟩)
  refine ⟨A, ?_⟩
  intro Ω _ Q R hR N hN M hM r hr σ hσ sqrt key odeInt hode n hn
  have hN' : (0 : ℝ) < N := by exact_mod_cast hN
  have hM' : (0 : ℝ) < M := by exact_mod_cast hM
  obtain ⟨U, hU, hstep⟩ := ekf0_noise hla hd hσ (by positivity : 0 < T / N / M) M sqrt
  exact hA hR N hN (M, σ, U) ⟨hM, (frobenius_of_mul_transpose hU).le⟩ r hr key odeInt (fun ω κ x k hk a b =>
    Except.ok.inj ((hode ω κ x _).symm.trans (hstep (R ω) κ x _))) n hn

/-- The trapezoidal scheme only evaluates the field near its starting point. -/
theorem trap_local {f g : Field d} {T F ρ s : ℝ} (hF : 0 ≤ F) (hs : 0 ≤ s) {S : Mat d m} (hS : ∀ v, ‖S *ᵥ v‖ ≤ s * ‖v‖) (hgF : ∀ x t, ‖g x t‖ ≤ F)
    (heq : ∀ x, ‖x‖ ≤ ρ + 1 → ∀ t ∈ Icc 0 T, g x t = f x t) {δ a0 : ℝ} (hδ : 0 < δ) (hδF : δ * F ≤ 1 / 4) (ha0 : 0 ≤ a0) (haT : a0 + δ ≤ T) {M : ℕ}
    (hM : 0 < M) {y : Vec d} (hy : ‖y‖ ≤ ρ + 1 / 2) {a b : Vec m}
    (hsl : ∀ t ∈ Icc 0 δ, ‖jacT (fun s => Foster.evalParabola s δ a b) t‖ ≤ 10 * (1 / (40 * (s + 1))) / δ) :
    trapScheme (additiveField f S a0 δ a b) (δ / M) y M = trapScheme (additiveField g S a0 δ a b) (δ / M) y M := by
  have hM' : (0 : ℝ) < M := by exact_mod_cast hM
  have hMh : (M : ℝ) * (δ / M) = δ := by field_simp
  have hsκ : s * (10 * (1 / (40 * (s + 1))) / δ) * δ ≤ 1 / 4 := by
    have h1 : s * (10 * (1 / (40 * (s + 1))) / δ) * δ = s / (s + 1) * (1 / 4) := by field_simp; ring
    rw [h1]
    have h2 : s / (s + 1) ≤ 1 := (div_le_one (by positivity)).mpr (by linarith)
    linarith
  have hjac : ∀ t ∈ Icc 0 δ, ‖S *ᵥ jacT (fun s => Foster.evalParabola s δ a b) t‖ ≤ s * (10 * (1 / (40 * (s + 1))) / δ) := fun t ht =>
    (hS _).trans (mul_le_mul_of_nonneg_left (hsl t ht) hs)
  refine ((trapScheme_congr (vf := additiveField g S a0 δ a b) (vf' := additiveField f S a0 δ a b)
    (y := y) (h := δ / M) (V := F + s * (10 * (1 / (40 * (s + 1))) / δ)) (ρ := 1 / 2) (M := M) (by positivity)
    (fun x t ht => by
      rw [hMh] at ht
      exact (norm_add_le _ _).trans (add_le_add (hgF _ _) (hjac t ht)))
    (by
      rw [hMh, mul_add, mul_comm δ (s * _)]
      linarith)
    (fun x hx t ht => by
      rw [hMh] at ht
      simp only [additiveField]
      rw [heq x _ (t + a0) ⟨by have := ht.1; positivity, by linarith [ht.2]⟩]
      have : x = (x - y) + y := by abel
      rw [this]
      refine (norm_add_le _ _).trans ?_
      linarith) M le_rfl).1).symm

theorem exists_small_step (F : ℝ) {T κ : ℝ} (hT : 0 < T) (hκ : 0 < κ) : ∃ N3 : ℕ, ∀ N ≥ N3, 0 < N → T / N * F ≤ κ := by
  obtain ⟨N3, hN3⟩ := exists_nat_ge (T * F / κ)
  refine ⟨N3, fun N hN hN0 => ?_⟩
  have hN' : (0 : ℝ) < N := by exact_mod_cast hN0
  have h : T * F / κ ≤ N := hN3.trans (by exact_mod_cast hN)
  rw [div_le_iff₀ hκ] at h
  rw [div_mul_eq_mul_div, div_le_iff₀ hN']
  linarith

set_option maxHeartbeats 1000000 in
/-- C108: the same quantity for a drift with two continuous derivatives whose equation has a solution along every continuous path of the
noise. For every level `ε` the distance exceeds `A δ` with probability at most `ε`, with one constant for all numbers of filter steps
and fine steps, all sufficiently large numbers of intervals, and all prior scales `|σ| ≤ s₀ M`. -/
theorem C108_prob {la : LinAlg} (hla : la.Correct) (hd : 0 < d) {f : Field d} (hf : ContDiff ℝ 2 (Function.uncurry f)) {T : ℝ}
    (hT : 0 < T) (S : Mat d m) (x0 : Vec d) (hsol : ∀ w : ℝ → Vec m, Continuous w → ∃ x, SolvesAdditive f S w x0 T x) (s0 : ℝ) {ε : ℝ}
    (hε : 0 < ε) :
    ∃ (A : ℝ) (N0 : ℕ), ∀ {Ω : Type} [MeasurableSpace Ω] {Q : Measure Ω} {R : Ω → Rng}, IdealNormals Q R → ∀ N ≥ N0, ∀ M : ℕ, 0 < M →
      ∀ r : ℕ, 0 < r → ∀ σ : ℝ, σ ≠ 0 → |σ| ≤ s0 * M → ∀ (sqrt : Bool) (key : Key) (odeInt : Ω → OdeInt (Vec d) d),
      (∀ ω k x vf, Ekf.ekf0 la (R ω) (some k) x vf (T / N / M) M sqrt
        (some ⟨_, IOUP.transition 0 σ 1 (T / N / M) d⟩) none = .ok (odeInt ω k x vf (T / N))) →
      ∀ n ≤ N, ∃ y z : Ω → Vec d,
        (∀ ω, ∃ ts traj traj2, ramSolver (R ω) key f (fun _ _ => S) x0 x0 (T / N) N r (odeInt ω) = .ok (ts, traj, traj2) ∧
          ts[n]? = some (n * (T / N)) ∧ traj[n]? = some (y ω) ∧ traj2[n]? = some (z ω)) ∧
        Q {ω | A * (T / N) < ‖y ω - z ω‖} ≤ ENNReal.ofReal ε := by
  obtain ⟨s, hs, hS⟩ := exists_mulVec_bound S
  obtain ⟨A, N0, hA⟩ := measured_prob_draw (q := d * (0 + 2)) hf hT S x0 hsol hε (ι := ℕ × ℝ × Mat d (d * (0 + 2)))
    (Adm := fun N p => (0 < p.1 ∧ |p.2.1| ≤ s0 * p.1) ∧ ∑ i, ∑ j, p.2.2 i j ^ 2 ≤ d * (p.2.1 ^ 2 * p.1 * (T / N / p.1) ^ 3 / 12))
    (J := fun (N : ℕ) (p : ℕ × ℝ × Mat d (d * (0 + 2))) k y a b ξ => (trapScheme (additiveField f S (k * (T / N)) (T / N) a b) (T / N / p.1) y p.1).1 + p.2.2 *ᵥ ξ)
    (fun N p _ k _ => (continuous_trapDraw hf.continuous S _ _ _ _ _).measurable) (fun hB X hX =>
      prob_order_draw hB hf hT S x0 hX
        (J := fun (f : Field d) (N : ℕ) (p : ℕ × ℝ × Mat d (d * (0 + 2))) k y a b ξ => (trapScheme (additiveField f S (k * (T / N)) (T / N) a b) (T / N / p.1) y p.1).1 + p.2.2 *ᵥ ξ)
        (κ := 1 / (40 * (s + 1))) (by positivity) (fun g Dg L K X' hL hg hgt hX' => by
          obtain ⟨A, hA0, hA⟩ := trap_draw_strong hB hT hg hgt S x0 hX'
          refine ⟨A * (1 + s0 ^ 2), fun N hN p hp c hc Y hY0 hYs n hn => ?_⟩
          obtain ⟨h1, h2⟩ := hA N hN p.1 hp.1.1 p.2.1 p.2.2 hp.2 c hc Y hY0 hYs n hn
          refine ⟨h1, h2.trans (mul_le_mul_of_nonneg_right (mul_le_mul_of_nonneg_left ?_ hA0) (sq_nonneg _))⟩
          have hM' : (0 : ℝ) < p.1 := by exact_mod_cast hp.1.1
          have h3 : |p.2.1 / p.1| ≤ s0 := by
            rw [abs_div, abs_of_pos hM', div_le_iff₀ hM']
            exact hp.1.2
          rw [← sq_abs (p.2.1 / (p.1 : ℝ))]
          have := pow_le_pow_left₀ (abs_nonneg _) h3 2
          linarith)
        (fun g Dg L K F ρ hF hg _ _ hgF heq => by
          obtain ⟨N3, hN3⟩ := exists_small_step F hT (by norm_num : (0 : ℝ) < 1 / 4)
          refine ⟨N3, fun N hN hN0 p hp k hk y a b ξ hy hsl => ?_⟩
          have hN' : (0 : ℝ) < N := by exact_mod_cast hN0
          have h := trap_local hF hs hS hgF heq (by positivity : 0 < T / N) (hN3 N hN hN0) (by positivity : 0 ≤ (k : ℝ) * (T / N))
            (by
              have h1 : ((k + 1 : ℕ) : ℝ) * (T / N) ≤ N * (T / N) := mul_le_mul_of_nonneg_right (by exact_mod_cast hk) (by positivity)
              rw [mul_div_cancel₀ T hN'.ne'] at h1
              push_cast at h1
              linarith) hp.1.1 hy hsl
          simp only [h]) (half_pos hε))
  refine ⟨A, N0 + 1, ?_⟩
  intro Ω _ Q R hR N hN M hM r hr σ hσ hσM sqrt key odeInt hode n hn
  have hN' : (0 : ℝ) < N := by exact_mod_cast (by omega : 0 < N)
  have hM' : (0 : ℝ) < M := by exact_mod_cast hM
  obtain ⟨U, hU, hstep⟩ := ekf0_noise hla hd hσ (by positivity : 0 < T / N / M) M sqrt
  exact hA hR N (by omega) (M, σ, U) ⟨⟨hM, hσM⟩, (frobenius_of_mul_transpose hU).le⟩ r hr key odeInt (fun ω κ x k hk a b =>
    Except.ok.inj ((hode ω κ x _).symm.trans (hstep (R ω) κ x _))) n hn

/-- C108: FitzHugh-Nagumo itself, as `ivp.py` defines it, with its own diffusion or with the padded square one. -/
theorem C108_fhn {la : LinAlg} (hla : la.Correct) {T : ℝ} (hT : 0 < T) (s0 : ℝ) {ε : ℝ} (hε : 0 < ε) :
    (∃ (A : ℝ) (N0 : ℕ), ∀ {Ω : Type} [MeasurableSpace Ω] {Q : Measure Ω} {R : Ω → Rng}, IdealNormals Q R → ∀ N ≥ N0, ∀ M : ℕ, 0 < M →
      ∀ r : ℕ, 0 < r → ∀ σ : ℝ, σ ≠ 0 → |σ| ≤ s0 * M → ∀ (sqrt : Bool) (key : Key) (odeInt : Ω → OdeInt (Vec 2) 2),
      (∀ ω k x vf, Ekf.ekf0 la (R ω) (some k) x vf (T / N / M) M sqrt
        (some ⟨_, IOUP.transition 0 σ 1 (T / N / M) 2⟩) none = .ok (odeInt ω k x vf (T / N))) →
      ∀ n ≤ N, ∃ y z : Ω → Vec 2,
        (∀ ω, ∃ ts traj traj2, ramSolver (R ω) key Ivp.Fhn.drift Ivp.Fhn.sigma Ivp.Fhn.x0 Ivp.Fhn.x0 (T / N) N r (odeInt ω) =
            .ok (ts, traj, traj2) ∧
          ts[n]? = some (n * (T / N)) ∧ traj[n]? = some (y ω) ∧ traj2[n]? = some (z ω)) ∧
        Q {ω | A * (T / N) < ‖y ω - z ω‖} ≤ ENNReal.ofReal ε) ∧
    (∃ (A : ℝ) (N0 : ℕ), ∀ {Ω : Type} [MeasurableSpace Ω] {Q : Measure Ω} {R : Ω → Rng}, IdealNormals Q R → ∀ N ≥ N0, ∀ M : ℕ, 0 < M →
      ∀ r : ℕ, 0 < r → ∀ σ : ℝ, σ ≠ 0 → |σ| ≤ s0 * M → ∀ (sqrt : Bool) (key : Key) (odeInt : Ω → OdeInt (Vec 2) 2),
      (∀ ω k x vf, Ekf.ekf0 la (R ω) (some k) x vf (T / N / M) M sqrt
        (some ⟨_, IOUP.transition 0 σ 1 (T / N / M) 2⟩) none = .ok (odeInt ω k x vf (T / N))) →
      ∀ n ≤ N, ∃ y z : Ω → Vec 2,
        (∀ ω, ∃ ts traj traj2, ramSolver (R ω) key Ivp.Fhn.drift Ivp.Fhn.sigmaSquare Ivp.Fhn.x0 Ivp.Fhn.x0 (T / N) N r (odeInt ω) =
            .ok (ts, traj, traj2) ∧
          ts[n]? = some (n * (T / N)) ∧ traj[n]? = some (y ω) ∧ traj2[n]? = some (z ω)) ∧
        Q {ω | A * (T / N) < ‖y ω - z ω‖} ≤ ENNReal.ofReal ε) := by
  have e2 : Ivp.Fhn.sigmaSquare = fun _ _ => !![0, 0; Ivp.Fhn.sig, 0] := by
    funext x t
    simp [Ivp.Fhn.sigmaSquare, Ivp.Fhn.sigma]
  constructor
  · exact C108_prob hla (by norm_num) Ivp.Fhn.contDiff_drift hT (!![0; Ivp.Fhn.sig]) Ivp.Fhn.x0
      (fun w hw => Ivp.Fhn.exists_solution hT.le _ (fun j => by fin_cases j; rfl) w hw _) s0 hε
  · rw [e2]
    exact C108_prob hla (by norm_num) Ivp.Fhn.contDiff_drift hT (!![0, 0; Ivp.Fhn.sig, 0]) Ivp.Fhn.x0
      (fun w hw => Ivp.Fhn.exists_solution hT.le _ (fun j => by fin_cases j <;> rfl) w hw _) s0 hε

/-- C108: a generator and a filter that satisfy the hypotheses, for a smooth drift. The integrator really depends on the draws. -/
example {la : LinAlg} (hla : la.Correct) : ∃ A : ℝ, ∀ N : ℕ, 0 < N → ∃ (odeInt : _ → OdeInt (Vec 2) 2) (y z : _ → Vec 2),
    (∀ ω k x vf, Ekf.ekf0 la (drawsRng ω) (some k) x vf (1 / N) 1 true (some ⟨_, IOUP.transition 0 1 1 (1 / N) 2⟩) none =
      .ok (odeInt ω k x vf (1 / N))) ∧
    (∀ ω, ∃ ts traj traj2, ramSolver (drawsRng ω) [] (fun (x : Vec 2) (t : ℝ) => -(t • x)) (fun _ _ => (1 : Mat 2 2)) 0 0 (1 / N) N 7
      (odeInt ω) = .ok (ts, traj, traj2) ∧ traj[N]? = some (y ω) ∧ traj2[N]? = some (z ω)) ∧
    ∫ ω, ‖y ω - z ω‖ ^ 2 ∂drawsMeasure ≤ A * (1 / N) ^ 2 := by
  obtain ⟨A, hA⟩ := C108_measured hla (by norm_num : 0 < 2) one_pos smooth_decay timeLipschitz_decay (1 : Mat 2 2) 0
  refine ⟨A * (1 + (1 / (1 : ℕ)) ^ 2), fun N hN => ?_⟩
  have hN' : (0 : ℝ) < N := by exact_mod_cast hN
  obtain ⟨U, -, hU⟩ := ekf0_noise hla (by norm_num : 0 < 2) one_ne_zero (by positivity : (0 : ℝ) < 1 / N / (1 : ℕ)) 1 true
  obtain ⟨odeInt, hode⟩ : ∃ odeInt : Draws → OdeInt (Vec 2) 2, ∀ ω k x vf, Ekf.ekf0 la (drawsRng ω) (some k) x vf (1 / N / (1 : ℕ)) 1 true
      (some ⟨_, IOUP.transition 0 1 1 (1 / N / (1 : ℕ)) 2⟩) none = .ok (odeInt ω k x vf (1 / N)) :=
    ⟨fun ω k x vf _ => (trapScheme vf (1 / N / (1 : ℕ)) x 1).1 + U *ᵥ (drawsRng ω).normalVec k (2 * (0 + 2)),
      fun ω k x vf => hU (drawsRng ω) k x vf⟩
  obtain ⟨y, z, h1, -, h2⟩ := hA idealNormals_drawsRng N hN 1 one_pos 7 (by norm_num) 1 one_ne_zero true []
    odeInt hode N le_rfl
  refine ⟨odeInt, y, z, fun ω k x vf => ?_, fun ω => ?_, h2⟩
  · have := hode ω k x vf
    rw [Nat.cast_one, div_one] at this
    exact this
  · obtain ⟨ts, traj, traj2, g1, -, g2, g3⟩ := h1 ω
    exact ⟨ts, traj, traj2, g1, g2, g3⟩

/-- C108: the same for FitzHugh-Nagumo, with the settings of the scripts: one filter step per interval, prior scale 1, square roots. -/
example {la : LinAlg} (hla : la.Correct) : ∃ (A : ℝ) (N0 : ℕ), ∀ N ≥ N0, 0 < N → ∃ (odeInt : _ → OdeInt (Vec 2) 2) (y z : _ → Vec 2),
    (∀ ω k x vf, Ekf.ekf0 la (drawsRng ω) (some k) x vf (1 / N) 1 true (some ⟨_, IOUP.transition 0 1 1 (1 / N) 2⟩) none =
      .ok (odeInt ω k x vf (1 / N))) ∧
    (∀ ω, ∃ ts traj traj2, ramSolver (drawsRng ω) [] Ivp.Fhn.drift Ivp.Fhn.sigma Ivp.Fhn.x0 Ivp.Fhn.x0 (1 / N) N N
      (odeInt ω) = .ok (ts, traj, traj2) ∧ traj[N]? = some (y ω) ∧ traj2[N]? = some (z ω)) ∧
    drawsMeasure {ω | A * (1 / N) < ‖y ω - z ω‖} ≤ ENNReal.ofReal 0.01 := by
  obtain ⟨A, N0, hA⟩ := (C108_fhn hla one_pos 1 (by norm_num : (0 : ℝ) < 0.01)).1
  refine ⟨A, N0, fun N hN hN0 => ?_⟩
  have hN' : (0 : ℝ) < N := by exact_mod_cast hN0
  obtain ⟨U, -, hU⟩ := ekf0_noise hla (by norm_num : 0 < 2) one_ne_zero (by positivity : (0 : ℝ) < 1 / N / (1 : ℕ)) 1 true
  obtain ⟨odeInt, hode⟩ : ∃ odeInt : Draws → OdeInt (Vec 2) 2, ∀ ω k x vf, Ekf.ekf0 la (drawsRng ω) (some k) x vf (1 / N / (1 : ℕ)) 1 true
      (some ⟨_, IOUP.transition 0 1 1 (1 / N / (1 : ℕ)) 2⟩) none = .ok (odeInt ω k x vf (1 / N)) :=
    ⟨fun ω k x vf _ => (trapScheme vf (1 / N / (1 : ℕ)) x 1).1 + U *ᵥ (drawsRng ω).normalVec k (2 * (0 + 2)),
      fun ω k x vf => hU (drawsRng ω) k x vf⟩
  obtain ⟨y, z, h1, h2⟩ := hA idealNormals_drawsRng N hN 1 one_pos N hN0 1 one_ne_zero (by simp) true []
    odeInt hode N le_rfl
  refine ⟨odeInt, y, z, fun ω k x vf => ?_, fun ω => ?_, h2⟩
  · have := hode ω k x vf
    rw [Nat.cast_one, div_one] at this
    exact this
  · obtain ⟨ts, traj, traj2, g1, -, g2, g3⟩ := h1 ω
    exact ⟨ts, traj, traj2, g1, g2, g3⟩

end Verif
