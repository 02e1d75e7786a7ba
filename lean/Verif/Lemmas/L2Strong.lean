import Verif.Lemmas.L2Core

/-! Strong order one in mean square for one step schemes, for SDEs with additive noise: the expectations. -/

namespace Verif

open Matrix Spec Jnp Set MeasureTheory ProbabilityTheory Filter
open scoped NNReal Topology

variable {d m : ℕ} {Ω : Type*} [MeasurableSpace Ω] {P : Measure Ω} {B : Fin m → ℝ≥0 → Ω → ℝ}

/-- The states of a one step scheme driven by the matched coefficients are determined by the noise up to then. -/
theorem scheme_adapted {α : Type*} [MeasurableSpace α] (hB : IsBrownianVec B P) {δ : ℝ} (hδ : 0 < δ) (N : ℕ) {Φ : ℕ → α → Vec m → Vec m → α}
    (hΦ : ∀ k, Measurable fun p : α × Vec m × Vec m => Φ k p.1 p.2.1 p.2.2) {Y : ℕ → Ω → α} {a b : Ω → ℕ → Vec m} {x0 : α}
    (hY0 : ∀ᵐ ω ∂P, Y 0 ω = x0)
    (hm : ∀ᵐ ω ∂P, ∀ k < N, SameEndAndArea (fun t => Foster.evalParabola t δ (a ω k) (b ω k)) (fun t j => B j t.toNNReal ω) (k * δ) δ)
    (hY : ∀ᵐ ω ∂P, ∀ k < N, Y (k + 1) ω = Φ k (Y k ω) (a ω k) (b ω k)) (k : ℕ) (hk : k ≤ N) :
    ∃ V, Measurable[pastAlg B (k * δ).toNNReal] V ∧ Y k =ᵐ[P] V := by
  induction k with
  | zero => exact ⟨fun _ => x0, measurable_const, hY0⟩
  | succ k ih =>
    obtain ⟨V, hV1, hV2⟩ := ih (by omega)
    choose A hA1 hA2 using fun j => coeff_past hB hδ k j 0
    choose C hC1 hC2 using fun j => coeff_past hB hδ k j 1
    have hV1' : Measurable[pastAlg B ((k + 1 : ℕ) * δ).toNNReal] V :=
      hV1.mono (pastAlg_mono (Real.toNNReal_le_toNNReal (by push_cast; linarith))) le_rfl
    refine ⟨fun ω => Φ k (V ω) (fun j => A j ω) (fun j => C j ω), ?_, ?_⟩
    · letI := pastAlg B ((k + 1 : ℕ) * δ).toNNReal
      exact (hΦ k).comp (hV1'.prodMk ((measurable_pi_lambda _ fun j => hA1 j).prodMk (measurable_pi_lambda _ fun j => hC1 j)))
    · filter_upwards [hY, hm, hV2, ae_all_iff.mpr hA2, ae_all_iff.mpr hC2] with ω h1 h2 h3 h4 h5
      have e1 : a ω k = fun j => A j ω := funext fun j => by
        rw [← h4 j, ← sameEndAndArea_coeffs hδ.ne' (h2 k (by omega)) j 0]; rfl
      have e2 : b ω k = fun j => C j ω := funext fun j => by
        rw [← h5 j, ← sameEndAndArea_coeffs hδ.ne' (h2 k (by omega)) j 1]; rfl
      rw [h1 k (by omega), h3, e1, e2]

theorem growth_le {x n0 T α β b0 s : ℝ} (hn : 0 ≤ n0) (hT : 0 ≤ T) (hα : 0 ≤ α) (hβ : 0 ≤ β) (hs : 0 ≤ s) (hb : 0 ≤ b0)
    (hx : x ≤ n0 + T * (α + β * b0) + s * b0) : 1 + x + (α + β * b0) ≤ (1 + n0 + (T + 1) * (α + β) + s) * (1 + b0) := by
  have h2 : 0 ≤ n0 * b0 := by positivity
  have h3 : 0 ≤ (T + 1) * α * b0 := by positivity
  have h4 : 0 ≤ (T + 1) * β := by positivity
  linarith

set_option maxHeartbeats 1000000 in
/-- One step schemes that are stable and consistent with the SDE, up to the weights of the two coefficients in the term with the
Jacobian, converge with strong order one in mean square. -/
theorem strong_core (hB : IsBrownianVec B P) {f : Vec d → ℝ → Vec d} {Df : Vec d → ℝ → Vec d →L[ℝ] Vec d} {T L K Lt : ℝ} (hT : 0 < T)
    (hf : SmoothField f Df T L K) (hL : 0 ≤ L) (hLt : 0 ≤ Lt) (htl : TimeLipschitz f T Lt) (S : Mat d m) (x0 : Vec d)
    {X : Ω → ℝ → Vec d} (hX : ∀ᵐ ω ∂P, SolvesAdditive f S (fun t j => B j t.toNNReal ω) x0 T (X ω)) {C0 C1 κ0 : ℝ}
    (hC1 : 0 ≤ C1) (hκ0 : 0 ≤ κ0) :
    ∃ A : ℝ, 0 ≤ A ∧ ∀ N : ℕ, 0 < N → ∀ {lam mu : ℝ}, |lam| ≤ κ0 → |mu| ≤ κ0 → ∀ Φ : ℕ → Vec d → Vec m → Vec m → Vec d,
      (∀ k, Measurable fun p : Vec d × Vec m × Vec m => Φ k p.1 p.2.1 p.2.2) →
      (∀ k < N, ∀ a b y y', ‖Φ k y a b - y - (Φ k y' a b - y')‖ ≤ C0 * (T / N) * ‖y - y'‖) →
      (∀ k < N, ∀ a b y, ‖Φ k y a b - (y + S *ᵥ a + (T / N) • f y (k * (T / N)) + (T / N) • Df y (k * (T / N))
        (S *ᵥ (lam • a + mu • b)))‖ ≤
        T / N * (C1 * (T / N * (1 + ‖y‖ + ‖f y (k * (T / N))‖) ^ 2 + (‖a‖ + 4 * ‖b‖) ^ 2))) →
      ∀ (Y : ℕ → Ω → Vec d) (a b : Ω → ℕ → Vec m), (∀ᵐ ω ∂P, Y 0 ω = x0) →
      (∀ᵐ ω ∂P, ∀ k < N, SameEndAndArea (fun t => Foster.evalParabola t (T / N) (a ω k) (b ω k)) (fun t j => B j t.toNNReal ω)
        (k * (T / N)) (T / N)) →
      (∀ᵐ ω ∂P, ∀ k < N, Y (k + 1) ω = Φ k (Y k ω) (a ω k) (b ω k)) →
      ∀ n ≤ N, Integrable (fun ω => ‖X ω (n * (T / N)) - Y n ω‖ ^ 2) P ∧
        ∫ ω, ‖X ω (n * (T / N)) - Y n ω‖ ^ 2 ∂P ≤ A * (T / N) ^ 2 := by
  have hP := hB.isProb
  have hK := hf.jac_const_nonneg hT
  obtain ⟨s, hs, hS⟩ := exists_mulVec_bound S
  obtain ⟨α, β, hα, hβ, hαβ⟩ := field_le hT.le hf hL hs hS x0
  obtain ⟨G0, hG0i, hG00, hG0e, hG0⟩ := brownian_sup_vec hB.brownian 0 T.toNNReal
  obtain ⟨C2, hC2, hpt⟩ := l2_pointwise (C0 := C0) hf hL hK hLt hT.le htl hs hS hC1
  have hcT : (T.toNNReal : ℝ) = T := Real.coe_toNNReal _ hT.le
  have hc := supConst_nonneg
  obtain ⟨κ, hκ⟩ : ∃ κ, κ = (m : ℝ) * supConst := ⟨_, rfl⟩
  have hκn : 0 ≤ κ := by rw [hκ]; positivity
  obtain ⟨c5, hc5⟩ : ∃ c5, c5 = 1 + ‖x0‖ + (T + 1) * (α + β) + s := ⟨_, rfl⟩
  have hc50 : 0 ≤ c5 := by rw [hc5]; positivity
  obtain ⟨C3, hC3⟩ : ∃ C3, C3 = 2 + d * C0 ^ 2 * (1 + 3 * T) := ⟨_, rfl⟩
  have hC30 : 0 ≤ C3 := by rw [hC3]; positivity
  obtain ⟨C4, hC4⟩ : ∃ C4, C4 = 3 * d * (L * s) ^ 2 * (2 * (κ0 + 1) ^ 2) := ⟨_, rfl⟩
  have hC40 : 0 ≤ C4 := by rw [hC4]; positivity
  obtain ⟨C6, hC6⟩ : ∃ C6, C6 = (3 * T + 1) * d * C2 ^ 2 := ⟨_, rfl⟩
  have hC60 : 0 ≤ C6 := by rw [hC6]; positivity
  obtain ⟨A5, hA5⟩ : ∃ A5, A5 = C4 * (m * 2) + C6 * (16 * c5 ^ 4 * (1 + κ * T ^ 2) + 2 * κ) := ⟨_, rfl⟩
  have hA50 : 0 ≤ A5 := by rw [hA5]; positivity
  refine ⟨Real.exp (C3 * T) * (T * A5), by positivity, ?_⟩
  intro N hN lam mu hlam hmu Φ hΦm hΦs hΦc Y a b hY0 hm hY
  have hN' : (0 : ℝ) < N := by exact_mod_cast hN
  obtain ⟨δ, hδdef⟩ : ∃ δ, δ = T / N := ⟨_, rfl⟩
  rw [← hδdef] at hΦs hΦc hm ⊢
  have hδ : 0 < δ := by rw [hδdef]; positivity
  have hNδ : (N : ℝ) * δ = T := by rw [hδdef]; field_simp
  have hδT : δ ≤ T := by rw [hδdef]; exact div_le_self hT.le (by exact_mod_cast hN)
  have hcδ : (δ.toNNReal : ℝ) = δ := Real.coe_toNNReal _ hδ.le
  have hkT : ∀ k ≤ N, (k : ℝ) * δ ≤ T := fun k hk => by
    rw [← hNδ]; exact mul_le_mul_of_nonneg_right (by exact_mod_cast hk) hδ.le
  -- versions
  have hXv : ∀ k, ∃ V : Ω → Vec d, k ≤ N → Measurable[pastAlg B (k * δ).toNNReal] V ∧ (fun ω => X ω (k * δ)) =ᵐ[P] V := fun k => by
    by_cases hk : k ≤ N
    · obtain ⟨V, hV⟩ := solution_adapted hB hf.cont hL hf.lip hT hX (t := k * δ) (by positivity) (hkT k hk)
      exact ⟨V, fun _ => hV⟩
    · exact ⟨fun _ => 0, fun h => absurd h hk⟩
  have hYv : ∀ k, ∃ V : Ω → Vec d, k ≤ N → Measurable[pastAlg B (k * δ).toNNReal] V ∧ Y k =ᵐ[P] V := fun k => by
    by_cases hk : k ≤ N
    · obtain ⟨V, hV⟩ := scheme_adapted hB hδ N hΦm hY0 hm hY k hk
      exact ⟨V, fun _ => hV⟩
    · exact ⟨fun _ => 0, fun h => absurd h hk⟩
  choose Xv hXv using hXv
  choose Yv hYv using hYv
  obtain ⟨e, he⟩ : ∃ e : ℕ → Ω → Vec d, ∀ k ω, e k ω = Xv k ω - Yv k ω := ⟨_, fun _ _ => rfl⟩
  have hem : ∀ k ≤ N, Measurable[pastAlg B (k * δ).toNNReal] (e k) := fun k hk => by
    have h1 : e k = fun ω => Xv k ω - Yv k ω := funext fun ω => he k ω
    have h2 := (hXv k hk).1
    have h3 := (hYv k hk).1
    rw [h1]
    letI := pastAlg B (k * δ).toNNReal
    exact h2.sub h3
  have heq : ∀ k ≤ N, ∀ᵐ ω ∂P, e k ω = X ω (k * δ) - Y k ω := fun k hk => by
    filter_upwards [(hXv k hk).2, (hYv k hk).2] with ω h1 h2
    rw [he, ← h1, ← h2]
  have hQm : ∀ k ≤ N, AEStronglyMeasurable (fun ω => e k ω ⬝ᵥ e k ω) P := fun k hk => by
    have h1 := (hem k hk).mono (hB.pastAlg_le _) le_rfl
    have h2 : Measurable fun ω => e k ω ⬝ᵥ e k ω :=
      Finset.measurable_fun_sum _ fun i _ => ((measurable_pi_apply i).comp h1).mul ((measurable_pi_apply i).comp h1)
    exact h2.aestronglyMeasurable
  choose Gk hGki hGk0 hGke hGk using fun k : ℕ => brownian_sup_vec hB.brownian ((k * δ).toNNReal) δ.toNNReal
  obtain ⟨c, hcdef⟩ : ∃ c : Fin 2 → ℝ, c = ![1 / 2 - lam, 1 / Real.sqrt 6 - mu] := ⟨_, rfl⟩
  have hs6 : |1 / Real.sqrt 6| ≤ 1 := by
    rw [abs_of_pos (by positivity), div_le_one (by positivity)]
    exact Real.one_le_sqrt.mpr (by norm_num)
  have hc0 : |c 0| ≤ κ0 + 1 := by
    rw [hcdef]
    have := abs_sub (1 / 2) lam
    rw [abs_of_pos (by norm_num : (0 : ℝ) < 1 / 2)] at this
    simp only [cons_val_zero]
    linarith
  have hc1 : |c 1| ≤ κ0 + 1 := by
    rw [hcdef]
    have := abs_sub (1 / Real.sqrt 6) mu
    simp only [cons_val_one, cons_val_fin_one]
    linarith
  obtain ⟨I, hI⟩ : ∃ I : ℕ → Fin m → Fin 2 → Ω → ℝ, ∀ k j s ω, I k j s ω = incArea (fun t => B j t.toNNReal ω) δ k s :=
    ⟨_, fun _ _ _ _ => rfl⟩
  have hIm : ∀ k j s, MemLp (I k j s) 2 P ∧ ∫ ω, I k j s ω ^ 2 ∂P ≤ δ := fun k j s => by
    have h1 := coeff_moments hB hδ k j s
    have h2 : I k j s = fun ω => incArea (fun t => B j t.toNNReal ω) δ k s := funext fun ω => hI k j s ω
    rw [h2]
    exact ⟨h1.1, h1.2.2⟩
  have hIi : ∀ k j s, Integrable (fun ω => I k j s ω ^ 2) P := fun k j s => (hIm k j s).1.integrable_sq
  -- the bound on one step
  obtain ⟨M1, hM1⟩ : ∃ M1 : ℕ → Ω → ℝ, ∀ k ω, M1 k ω = e k ω ⬝ᵥ Df (Xv k ω) (k * δ) (S *ᵥ fun j => ∑ s, c s * I k j s ω) :=
    ⟨_, fun _ _ => rfl⟩
  have hstep : ∀ k < N, ∀ᵐ ω ∂P, e (k + 1) ω ⬝ᵥ e (k + 1) ω ≤ (1 + C3 * δ) * (e k ω ⬝ᵥ e k ω) + 2 * δ * M1 k ω +
      C4 * δ ^ 2 * (∑ j, (I k j 0 ω ^ 2 + I k j 1 ω ^ 2)) + C6 * δ * (16 * c5 ^ 4 * δ ^ 2 * (1 + G0 ω) + 2 * Gk k ω) := by
    intro k hk
    filter_upwards [hX, hm, hG0, hGk k, ae_all_iff.mpr fun j => (hB.brownian j).cont, hY, heq k hk.le, heq (k + 1) hk, (hXv k hk.le).2]
      with ω hXω hmω hG0ω hGkω hcω hYω he1 he2 hXvω
    obtain ⟨w, hw⟩ : ∃ w : ℝ → Vec m, w = fun t j => B j t.toNNReal ω := ⟨_, rfl⟩
    rw [← hw] at hXω
    have hmk := hmω k hk
    rw [← hw] at hmk
    have hwc : Continuous w := by rw [hw]; exact continuous_pi fun j => (hcω j).comp continuous_real_toNNReal
    have hWb : ∀ t ∈ Icc 0 δ, ‖w (k * δ + t) - w (k * δ)‖ ≤ Real.sqrt (Real.sqrt (Gk k ω)) := fun t ht => by
      have h1 := hGkω t.toNNReal (Real.toNNReal_le_toNNReal ht.2)
      rw [← Real.toNNReal_add (by positivity) ht.1] at h1
      rw [hw]
      exact h1
    have hb : ∀ t ∈ Icc 0 T, ‖w t - w 0‖ ≤ Real.sqrt (Real.sqrt (G0 ω)) := fun t ht => by
      have h1 := hG0ω t.toNNReal (Real.toNNReal_le_toNNReal ht.2)
      rw [zero_add] at h1
      have h2 : w 0 = fun j => B j 0 ω := by funext j; simp [hw]
      rw [h2, hw]
      exact h1
    have hF := hαβ hwc.continuousOn hXω hb
    obtain ⟨b0, hb0⟩ : ∃ b0, b0 = Real.sqrt (Real.sqrt (G0 ω)) := ⟨_, rfl⟩
    rw [← hb0] at hF hb
    have hb00 : 0 ≤ b0 := by rw [hb0]; exact Real.sqrt_nonneg _
    have hk0 : (0 : ℝ) ≤ k * δ := by positivity
    have hkδ : (k : ℝ) * δ + δ ≤ T := by
      have := hkT (k + 1) hk
      push_cast at this
      linarith
    have hkm : (k : ℝ) * δ ∈ Icc 0 T := ⟨hk0, by linarith⟩
    have h1 := hpt hwc.continuousOn hXω hδ hk0 hkδ hmk hWb hF (Φ := fun y => Φ k y (a ω k) (b ω k))
      (hΦs k hk _ _) (hΦc k hk _ _) (Y k ω)
    have e3 : ((k + 1 : ℕ) : ℝ) * δ = k * δ + δ := by push_cast; ring
    have hv : (1 / 2 - lam) • a ω k + (1 / Real.sqrt 6 - mu) • b ω k = fun j => ∑ s, c s * I k j s ω := by
      funext j
      have i1 := sameEndAndArea_coeffs hδ.ne' hmk j 0
      have i2 := sameEndAndArea_coeffs hδ.ne' hmk j 1
      simp only [cons_val_zero, cons_val_one, cons_val_fin_one] at i1 i2
      rw [hw] at i1 i2
      rw [Fin.sum_univ_two, hI, hI, ← i1, ← i2, hcdef]
      simp
    rw [hv, ← e3, ← hYω k hk, ← he1, ← he2] at h1
    have hM : e k ω ⬝ᵥ Df (X ω (k * δ)) (k * δ) (S *ᵥ fun j => ∑ s, c s * I k j s ω) = M1 k ω := by rw [hM1, ← hXvω]
    rw [hM, ← hC3] at h1
    refine h1.trans ?_
    have hvn : ‖fun j => ∑ s, c s * I k j s ω‖ ^ 2 ≤ 2 * (κ0 + 1) ^ 2 * ∑ j, (I k j 0 ω ^ 2 + I k j 1 ω ^ 2) := by
      refine (sq_norm_le_dot _).trans ?_
      rw [Finset.mul_sum]
      refine Finset.sum_le_sum fun j _ => ?_
      have h2 : (∑ s, c s * I k j s ω) = c 0 * I k j 0 ω + c 1 * I k j 1 ω := Fin.sum_univ_two _
      rw [← sq]
      refine le_trans (le_of_eq ?_) (comb_sq_le hc0 hc1)
      exact congrArg (· ^ 2) h2
    have t1 : 3 * d * (δ * (L * s)) ^ 2 * ‖fun j => ∑ s, c s * I k j s ω‖ ^ 2 ≤ C4 * δ ^ 2 * ∑ j, (I k j 0 ω ^ 2 + I k j 1 ω ^ 2) := by
      refine (mul_le_mul_of_nonneg_left hvn (by positivity)).trans (le_of_eq ?_)
      rw [hC4]; ring
    have hxn : ‖X ω (k * δ)‖ ≤ ‖x0‖ + T * (α + β * b0) + s * b0 := by
      rw [hXω.eq _ hkm]
      refine (norm_add_le _ _).trans (add_le_add ((norm_add_le _ _).trans (add_le_add le_rfl ?_)) ?_)
      · have := intervalIntegral.norm_integral_le_of_norm_le_const (a := 0) (b := k * δ) (C := α + β * b0)
          (f := fun s => f (X ω s) s) fun r hr => by
            rw [uIoc_of_le hk0] at hr
            exact hF r ⟨hr.1.le, hr.2.trans hkm.2⟩
        rw [sub_zero, abs_of_nonneg hk0] at this
        refine this.trans ?_
        rw [mul_comm T]
        exact mul_le_mul_of_nonneg_left hkm.2 (by positivity)
      · exact (hS _).trans (mul_le_mul_of_nonneg_left (hb _ hkm) hs)
    have hH : 1 + ‖X ω (k * δ)‖ + (α + β * b0) ≤ c5 * (1 + b0) := by
      rw [hc5]
      exact growth_le (norm_nonneg x0) hT.le hα hβ hs hb00 hxn
    have hcomb := sq_comb_le (W := Real.sqrt (Real.sqrt (Gk k ω))) hδ.le (by positivity : 0 ≤ 1 + ‖X ω (k * δ)‖ + (α + β * b0)) hc50 hH hb00
    rw [sqrt_sqrt_pow4 (hGk0 k ω)] at hcomb
    have hb4 : b0 ^ 4 = G0 ω := by rw [hb0]; exact sqrt_sqrt_pow4 (hG00 ω)
    rw [hb4] at hcomb
    have t2 := mul_le_mul_of_nonneg_left (mul_le_mul_of_nonneg_left hcomb hδ.le) hC60
    rw [hC6] at t2 ⊢
    linarith
  have hrec : ∀ k < N, Integrable (fun ω => e k ω ⬝ᵥ e k ω) P → Integrable (fun ω => e (k + 1) ω ⬝ᵥ e (k + 1) ω) P ∧
      ∫ ω, e (k + 1) ω ⬝ᵥ e (k + 1) ω ∂P ≤ (1 + C3 * δ) * ∫ ω, e k ω ⬝ᵥ e k ω ∂P + A5 * δ ^ 3 := by
    intro k hk hint
    have hkm : (k : ℝ) * δ ∈ Icc 0 T := ⟨by positivity, hkT k hk.le⟩
    have hDc : Continuous fun x => Df x (k * δ) := by
      refine continuous_iff_continuousAt.mpr fun x => ?_
      rw [Metric.continuousAt_iff]
      intro ε hε
      refine ⟨ε / (K + 1), by positivity, fun {y} hy => ?_⟩
      rw [dist_eq_norm] at hy ⊢
      have h1 := hf.jac y x _ hkm _ hkm
      rw [sub_self, abs_zero, add_zero] at h1
      rw [lt_div_iff₀ (by positivity), mul_comm, add_mul, one_mul] at hy
      have := norm_nonneg (y - x)
      linarith
    obtain ⟨hMi, hM0⟩ := martingale_term hB hδ k (hem k hk.le) (hXv k hk.le).1 hint hDc (fun x => hf.norm_jac_le hL hkm x) S c
    have hM1e : M1 k = fun ω => e k ω ⬝ᵥ Df (Xv k ω) (k * δ) (S *ᵥ fun j => ∑ s, c s * incArea (fun t => B j t.toNNReal ω) δ k s) := by
      funext ω
      rw [hM1]
      simp only [hI]
    rw [← hM1e] at hMi
    have hM0' : ∫ ω, M1 k ω ∂P = 0 := by rw [hM1e]; exact hM0
    have i1 : Integrable (fun ω => (1 + C3 * δ) * (e k ω ⬝ᵥ e k ω)) P := hint.const_mul _
    have i2 : Integrable (fun ω => 2 * δ * M1 k ω) P := hMi.const_mul _
    have i3' : ∀ j, Integrable (fun ω => I k j 0 ω ^ 2 + I k j 1 ω ^ 2) P := fun j => (hIi k j 0).add (hIi k j 1)
    have i3 : Integrable (fun ω => C4 * δ ^ 2 * (∑ j, (I k j 0 ω ^ 2 + I k j 1 ω ^ 2))) P :=
      (integrable_finsetSum _ fun j _ => i3' j).const_mul _
    have i4a : Integrable (fun ω => 16 * c5 ^ 4 * δ ^ 2 * (1 + G0 ω)) P := ((integrable_const (1 : ℝ)).add hG0i).const_mul _
    have i4b : Integrable (fun ω => 2 * Gk k ω) P := (hGki k).const_mul _
    have i4 : Integrable (fun ω => C6 * δ * (16 * c5 ^ 4 * δ ^ 2 * (1 + G0 ω) + 2 * Gk k ω)) P := (i4a.add i4b).const_mul _
    have i12 : Integrable (fun ω => (1 + C3 * δ) * (e k ω ⬝ᵥ e k ω) + 2 * δ * M1 k ω) P := i1.add i2
    have i123 : Integrable (fun ω => (1 + C3 * δ) * (e k ω ⬝ᵥ e k ω) + 2 * δ * M1 k ω +
        C4 * δ ^ 2 * (∑ j, (I k j 0 ω ^ 2 + I k j 1 ω ^ 2))) P := i12.add i3
    have hall := i123.add i4
    have hnn : ∀ k ω, 0 ≤ e k ω ⬝ᵥ e k ω := fun k ω => (sq_nonneg _).trans (sq_norm_le_dot _)
    have hint' : Integrable (fun ω => e (k + 1) ω ⬝ᵥ e (k + 1) ω) P := by
      refine hall.mono' (hQm (k + 1) hk) ?_
      filter_upwards [hstep k hk] with ω hω
      rw [Real.norm_of_nonneg (hnn _ _)]
      exact hω
    refine ⟨hint', (integral_mono_ae hint' hall (hstep k hk)).trans ?_⟩
    have e1 : ∫ ω, ∑ j, (I k j 0 ω ^ 2 + I k j 1 ω ^ 2) ∂P ≤ m * 2 * δ := by
      rw [integral_finsetSum _ fun j _ => i3' j]
      have : ∀ j ∈ Finset.univ, ∫ ω, (I k j 0 ω ^ 2 + I k j 1 ω ^ 2) ∂P ≤ 2 * δ := fun j _ => by
        rw [integral_add (hIi k j 0) (hIi k j 1)]
        linarith [(hIm k j 0).2, (hIm k j 1).2]
      refine (Finset.sum_le_sum this).trans (le_of_eq ?_)
      simp [mul_assoc]
    have hsplit : ∫ ω, (((1 + C3 * δ) * (e k ω ⬝ᵥ e k ω) + 2 * δ * M1 k ω +
        C4 * δ ^ 2 * (∑ j, (I k j 0 ω ^ 2 + I k j 1 ω ^ 2))) + C6 * δ * (16 * c5 ^ 4 * δ ^ 2 * (1 + G0 ω) + 2 * Gk k ω)) ∂P =
        (1 + C3 * δ) * ∫ ω, e k ω ⬝ᵥ e k ω ∂P + C4 * δ ^ 2 * (∫ ω, ∑ j, (I k j 0 ω ^ 2 + I k j 1 ω ^ 2) ∂P) +
        C6 * δ * (16 * c5 ^ 4 * δ ^ 2 * (1 + ∫ ω, G0 ω ∂P) + 2 * ∫ ω, Gk k ω ∂P) := by
      rw [integral_add i123 i4, integral_add i12 i3, integral_add i1 i2, integral_const_mul, integral_const_mul, integral_const_mul,
        integral_const_mul, integral_add i4a i4b, integral_const_mul, integral_const_mul, integral_add (integrable_const _) hG0i,
        integral_const, hM0']
      simp only [probReal_univ, one_smul]
      ring
    refine (le_of_eq hsplit).trans ?_
    have hg0 : ∫ ω, G0 ω ∂P ≤ κ * T ^ 2 := by rw [hcT] at hG0e; rw [hκ]; exact hG0e
    have hgk : ∫ ω, Gk k ω ∂P ≤ κ * δ ^ 2 := by have := hGke k; rw [hcδ] at this; rw [hκ]; exact this
    have t1 : C4 * δ ^ 2 * (∫ ω, ∑ j, (I k j 0 ω ^ 2 + I k j 1 ω ^ 2) ∂P) ≤ C4 * δ ^ 2 * (m * 2 * δ) :=
      mul_le_mul_of_nonneg_left e1 (by positivity)
    have t2 : C6 * δ * (16 * c5 ^ 4 * δ ^ 2 * (1 + ∫ ω, G0 ω ∂P) + 2 * ∫ ω, Gk k ω ∂P) ≤
        C6 * δ * (16 * c5 ^ 4 * δ ^ 2 * (1 + κ * T ^ 2) + 2 * (κ * δ ^ 2)) := by gcongr
    rw [hA5]
    linarith
  have hall : ∀ k ≤ N, Integrable (fun ω => e k ω ⬝ᵥ e k ω) P := by
    intro k
    induction k with
    | zero =>
      intro h0
      refine (integrable_zero Ω ℝ P).congr ?_
      filter_upwards [heq 0 h0, hY0, hX] with ω h1 h2 h3
      have h4 := h3.eq 0 ⟨le_rfl, hT.le⟩
      simp only [intervalIntegral.integral_same, sub_self, mulVec_zero, add_zero] at h4
      rw [h1, h2, Nat.cast_zero, zero_mul, h4, sub_self]
      simp
    | succ k ih => exact fun hk => (hrec k hk (ih (by omega))).1
  have h00 : ∫ ω, e 0 ω ⬝ᵥ e 0 ω ∂P ≤ 0 := by
    refine le_of_eq ?_
    rw [← integral_zero Ω ℝ (μ := P)]
    refine integral_congr_ae ?_
    filter_upwards [heq 0 (Nat.zero_le _), hY0, hX] with ω h1 h2 h3
    have h4 := h3.eq 0 ⟨le_rfl, hT.le⟩
    simp only [intervalIntegral.integral_same, sub_self, mulVec_zero, add_zero] at h4
    rw [h1, h2, Nat.cast_zero, zero_mul, h4, sub_self]
    simp
  intro n hn
  have hgr := discrete_gronwall (e := fun k => ∫ ω, e k ω ⬝ᵥ e k ω ∂P) (l := fun _ => A5 * δ ^ 3) (q := C3 * δ) (by positivity) N
    (fun _ _ => by positivity) h00 (fun k hk => (hrec k hk (hall k hk.le)).2) n hn
  have hne : (fun ω => ‖X ω (n * δ) - Y n ω‖ ^ 2) =ᵐ[P] fun ω => ‖e n ω‖ ^ 2 := by
    filter_upwards [heq n hn] with ω hω
    rw [hω]
  have hnm : AEStronglyMeasurable (fun ω => ‖e n ω‖ ^ 2) P :=
    (((hem n hn).mono (hB.pastAlg_le _) le_rfl).norm.pow_const 2).aestronglyMeasurable
  have hni : Integrable (fun ω => ‖e n ω‖ ^ 2) P := (hall n hn).mono' hnm (Eventually.of_forall fun ω => by
    rw [Real.norm_of_nonneg (sq_nonneg _)]
    exact sq_norm_le_dot _)
  refine ⟨hni.congr hne.symm, ?_⟩
  rw [integral_congr_ae hne]
  refine (integral_mono hni (hall n hn) fun ω => sq_norm_le_dot _).trans (hgr.trans ?_)
  rw [Finset.sum_const, Finset.card_range, nsmul_eq_mul]
  have h5 := hkT n hn
  calc Real.exp (C3 * δ * n) * (n * (A5 * δ ^ 3)) = Real.exp (C3 * (n * δ)) * ((n * δ) * A5) * δ ^ 2 := by ring_nf
    _ ≤ Real.exp (C3 * T) * (T * A5) * δ ^ 2 := by gcongr

end Verif
