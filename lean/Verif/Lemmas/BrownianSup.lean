import Mathlib.Probability.BrownianMotion.Basic
import Mathlib.Analysis.SpecificLimits.Basic
import Mathlib.MeasureTheory.Integral.Bochner.Basic
import Mathlib.Probability.Distributions.Gaussian.Real

/-! The fourth moment of the largest deviation of a Brownian path over an interval, by chaining along dyadic points. -/

namespace Verif

open MeasureTheory ProbabilityTheory Set Filter
open scoped NNReal ENNReal Topology

/-- Chaining: a function on the dyadic points of `[0, 1]` whose increments at level `n` are at most `H θⁿ`. -/
theorem chaining_dyadic {g : ℝ → ℝ} {H : ℝ} (h0 : g 0 = 0)
    (h : ∀ n k : ℕ, k < 2 ^ n → |g ((k + 1) / 2 ^ n) - g (k / 2 ^ n)| ≤ H * (9 / 10) ^ n) (n k : ℕ) (hk : k ≤ 2 ^ n) :
    |g (k / 2 ^ n)| ≤ H * ∑ i ∈ Finset.range (n + 1), (9 / 10 : ℝ) ^ i := by
  have hH : 0 ≤ H := by
    have := (abs_nonneg _).trans (h 0 0 (by norm_num))
    simpa using this
  induction n generalizing k with
  | zero =>
    rcases Nat.le_one_iff_eq_zero_or_eq_one.mp (by simpa using hk) with rfl | rfl
    · simpa [h0] using hH
    · have := h 0 0 (by norm_num)
      simpa [h0] using this
  | succ n ih =>
    have hθ : 0 ≤ H * (9 / 10) ^ (n + 1) := by positivity
    rw [Finset.sum_range_succ, mul_add]
    rcases Nat.even_or_odd' k with ⟨j, rfl | rfl⟩
    · have e : ((2 * j : ℕ) : ℝ) / 2 ^ (n + 1) = j / 2 ^ n := by push_cast; rw [pow_succ]; field_simp
      rw [e]
      have := ih j (by rw [pow_succ] at hk; omega)
      linarith
    · have e : ((2 * j : ℕ) : ℝ) / 2 ^ (n + 1) = j / 2 ^ n := by push_cast; rw [pow_succ]; field_simp
      have h1 := ih j (by rw [pow_succ] at hk; omega)
      have h2 := h (n + 1) (2 * j) (by omega)
      rw [e] at h2
      push_cast
      have h3 := abs_add_le (g ((2 * j + 1) / 2 ^ (n + 1)) - g (j / 2 ^ n)) (g (j / 2 ^ n))
      rw [sub_add_cancel] at h3
      push_cast at h2
      linarith

/-- The same for a continuous function, at all points. -/
theorem chaining {g : ℝ → ℝ} {H : ℝ} (hc : ContinuousOn g (Icc 0 1)) (h0 : g 0 = 0)
    (h : ∀ n k : ℕ, k < 2 ^ n → |g ((k + 1) / 2 ^ n) - g (k / 2 ^ n)| ≤ H * (9 / 10) ^ n) {t : ℝ} (ht : t ∈ Icc (0 : ℝ) 1) :
    |g t| ≤ 10 * H := by
  have hH : 0 ≤ H := by
    have := (abs_nonneg _).trans (h 0 0 (by norm_num))
    simpa using this
  have hsum : ∀ n, ∑ i ∈ Finset.range n, (9 / 10 : ℝ) ^ i ≤ 10 := fun n => by
    have := (summable_geometric_of_lt_one (by norm_num) (by norm_num : (9 / 10 : ℝ) < 1)).sum_le_tsum (Finset.range n)
      (fun i _ => by positivity)
    rw [tsum_geometric_of_lt_one (by norm_num) (by norm_num)] at this
    norm_num at this
    exact this
  have hk : ∀ n : ℕ, ⌊t * 2 ^ n⌋₊ ≤ 2 ^ n := fun n => by
    refine Nat.floor_le_of_le ?_
    push_cast
    have : (0 : ℝ) < 2 ^ n := by positivity
    nlinarith [ht.2]
  have hlim : Tendsto (fun n : ℕ => (⌊t * 2 ^ n⌋₊ : ℝ) / 2 ^ n) atTop (𝓝 t) := by
    have := (tendsto_nat_floor_mul_div_atTop (R := ℝ) ht.1).comp (tendsto_pow_atTop_atTop_of_one_lt (by norm_num : (1 : ℝ) < 2))
    exact this
  have hmem : ∀ n : ℕ, (⌊t * 2 ^ n⌋₊ : ℝ) / 2 ^ n ∈ Icc (0 : ℝ) 1 := fun n => by
    refine ⟨by positivity, (div_le_one (by positivity)).mpr ?_⟩
    exact_mod_cast hk n
  have hg : Tendsto (fun n : ℕ => |g ((⌊t * 2 ^ n⌋₊ : ℝ) / 2 ^ n)|) atTop (𝓝 |g t|) :=
    ((hc t ht).tendsto.comp (tendsto_nhdsWithin_iff.mpr ⟨hlim, Eventually.of_forall hmem⟩)).abs
  refine le_of_tendsto hg (Eventually.of_forall fun n => (chaining_dyadic h0 h n _ (hk n)).trans ?_)
  rw [mul_comm]
  exact mul_le_mul_of_nonneg_right (hsum _) hH

/-- The fourth moment of a standard normal variable. -/
noncomputable def gaussMoment4 : ℝ := ∫ x, x ^ 4 ∂(gaussianReal 0 1)

theorem gaussMoment4_nonneg : 0 ≤ gaussMoment4 := integral_nonneg fun x => by positivity

theorem integrable_pow4_gaussian (v : ℝ≥0) : Integrable (fun x : ℝ => x ^ 4) (gaussianReal 0 v) := by
  have h := (memLp_id_gaussianReal (μ := 0) (v := v) 4).integrable_norm_pow (by norm_num)
  refine h.congr (Eventually.of_forall fun x => ?_)
  simp [Even.pow_abs (show Even 4 by decide)]

/-- The fourth moment of a centred normal variable. -/
theorem gaussian_pow4 (v : ℝ≥0) : ∫ x, x ^ 4 ∂(gaussianReal 0 v) = (v : ℝ) ^ 2 * gaussMoment4 := by
  have h : gaussianReal 0 v = (gaussianReal 0 1).map (Real.sqrt v * ·) := by
    rw [gaussianReal_map_const_mul]
    congr 1
    · simp
    · ext; simp
  rw [h, integral_map (by fun_prop) (by fun_prop), gaussMoment4, ← integral_const_mul]
  refine integral_congr_ae (Eventually.of_forall fun x => ?_)
  have : Real.sqrt v ^ 4 = (v : ℝ) ^ 2 := by
    rw [show Real.sqrt v ^ 4 = (Real.sqrt v ^ 2) ^ 2 by ring, Real.sq_sqrt (NNReal.coe_nonneg v)]
  simp only [mul_pow, this]

variable {Ω : Type*} {mΩ : MeasurableSpace Ω} {P : Measure Ω} {B : ℝ≥0 → Ω → ℝ}

theorem brownian_pow4 (hB : IsPreBrownianReal B P) (s t : ℝ≥0) :
    Integrable (fun ω => (B s ω - B t ω) ^ 4) P ∧ ∫ ω, (B s ω - B t ω) ^ 4 ∂P = (nndist (s : ℝ) t : ℝ) ^ 2 * gaussMoment4 := by
  have hl := hB.hasLaw_sub s t
  refine ⟨?_, ?_⟩
  · have := integrable_pow4_gaussian (nndist s.1 t.1)
    rw [← hl.map_eq] at this
    exact this.comp_aemeasurable hl.aemeasurable
  · have h1 := integral_map (μ := P) hl.aemeasurable (f := fun x : ℝ => x ^ 4) (by fun_prop)
    rw [hl.map_eq, gaussian_pow4] at h1
    exact h1.symm

/-- The constant in the bound on the largest deviation. -/
noncomputable def supConst : ℝ := 10 ^ 4 * (gaussMoment4 * (1 - 1 / (2 * (9 / 10) ^ 4))⁻¹)

theorem supConst_nonneg : 0 ≤ supConst := by
  have := gaussMoment4_nonneg
  unfold supConst
  norm_num
  positivity

/-- The largest deviation of a Brownian path from its value at the start of an interval of length `δ` has a fourth
moment of order `δ²`. -/
theorem brownian_sup (hB : IsBrownianReal B P) (t0 δ : ℝ≥0) :
    ∃ G : Ω → ℝ, Integrable G P ∧ (∀ ω, 0 ≤ G ω) ∧ ∫ ω, G ω ∂P ≤ supConst * δ ^ 2 ∧
      ∀ᵐ ω ∂P, ∀ t ≤ δ, (B (t0 + t) ω - B t0 ω) ^ 4 ≤ G ω := by
  obtain ⟨D, hD⟩ : ∃ D : ℕ → ℕ → Ω → ℝ, ∀ n k, D n k = fun ω => B (t0 + (k + 1) / 2 ^ n * δ) ω - B (t0 + k / 2 ^ n * δ) ω :=
    ⟨_, fun _ _ => rfl⟩
  have hDi : ∀ n k, Integrable (fun ω => D n k ω ^ 4) P := fun n k => by
    rw [hD]; exact (brownian_pow4 hB.toIsPreBrownianReal _ _).1
  have hDe : ∀ n k, ∫ ω, D n k ω ^ 4 ∂P = (δ / 2 ^ n) ^ 2 * gaussMoment4 := fun n k => by
    rw [hD, (brownian_pow4 hB.toIsPreBrownianReal _ _).2]
    congr 2
    rw [coe_nndist, Real.dist_eq]
    push_cast
    rw [show (t0 : ℝ) + (k + 1) / 2 ^ n * δ - (t0 + k / 2 ^ n * δ) = δ / 2 ^ n by ring, abs_of_nonneg (by positivity)]
  obtain ⟨F, hF⟩ : ∃ F : ℕ → Ω → ℝ, ∀ n, F n = fun ω => (((9 / 10 : ℝ) ^ 4) ^ n)⁻¹ * ∑ k ∈ Finset.range (2 ^ n), D n k ω ^ 4 :=
    ⟨_, fun _ => rfl⟩
  have hF0 : ∀ n ω, 0 ≤ F n ω := fun n ω => by
    rw [hF]
    have : 0 ≤ ∑ k ∈ Finset.range (2 ^ n), D n k ω ^ 4 := Finset.sum_nonneg fun k _ => by positivity
    positivity
  have hFi : ∀ n, Integrable (F n) P := fun n => by
    rw [hF]; exact (integrable_finsetSum _ fun k _ => hDi n k).const_mul _
  have hFe : ∀ n, ∫ ω, F n ω ∂P = (1 / (2 * (9 / 10) ^ 4)) ^ n * (gaussMoment4 * δ ^ 2) := fun n => by
    rw [hF, integral_const_mul, integral_finsetSum _ fun k _ => hDi n k]
    simp only [hDe, Finset.sum_const, Finset.card_range, nsmul_eq_mul]
    push_cast
    generalize (9 / 10 : ℝ) ^ 4 = θ
    rw [div_pow 1, one_pow, mul_pow 2 θ]
    field_simp
  -- the sum of the terms
  have hr : (0 : ℝ) ≤ 1 / (2 * (9 / 10) ^ 4) ∧ (1 : ℝ) / (2 * (9 / 10) ^ 4) < 1 := by norm_num
  have hm := gaussMoment4_nonneg
  have hlin : ∫⁻ ω, ∑' n, ENNReal.ofReal (F n ω) ∂P = ENNReal.ofReal ((1 - 1 / (2 * (9 / 10) ^ 4))⁻¹ * (gaussMoment4 * δ ^ 2)) := by
    rw [lintegral_tsum fun n => (hFi n).aemeasurable.ennreal_ofReal]
    have : ∀ n, ∫⁻ ω, ENNReal.ofReal (F n ω) ∂P = ENNReal.ofReal ((1 / (2 * (9 / 10) ^ 4)) ^ n * (gaussMoment4 * δ ^ 2)) :=
      fun n => by rw [← ofReal_integral_eq_lintegral_ofReal (hFi n) (Eventually.of_forall (hF0 n)), hFe]
    simp only [this]
    rw [← ENNReal.ofReal_tsum_of_nonneg (fun n => by positivity) ((summable_geometric_of_lt_one hr.1 hr.2).mul_right _),
      tsum_mul_right, tsum_geometric_of_lt_one hr.1 hr.2]
  have hmeas : AEMeasurable (fun ω => ∑' n, ENNReal.ofReal (F n ω)) P :=
    AEMeasurable.ennreal_tsum fun n => (hFi n).aemeasurable.ennreal_ofReal
  have hne : ∫⁻ ω, ∑' n, ENNReal.ofReal (F n ω) ∂P ≠ ⊤ := by rw [hlin]; exact ENNReal.ofReal_ne_top
  refine ⟨fun ω => 10 ^ 4 * (∑' n, ENNReal.ofReal (F n ω)).toReal, (integrable_toReal_of_lintegral_ne_top hmeas hne).const_mul _,
    fun ω => by positivity, ?_, ?_⟩
  · rw [integral_const_mul, integral_toReal hmeas (ae_lt_top' hmeas hne), hlin, ENNReal.toReal_ofReal (by
      have := sub_pos.mpr hr.2
      positivity), supConst]
    refine le_of_eq ?_
    ring
  · filter_upwards [ae_lt_top' hmeas hne, hB.cont] with ω hfin hcont t ht
    set G := (∑' n, ENNReal.ofReal (F n ω)).toReal with hG
    have hG0 : 0 ≤ G := ENNReal.toReal_nonneg
    have hFG : ∀ n, F n ω ≤ G := fun n => by
      rw [hG, ← ENNReal.ofReal_le_iff_le_toReal hfin.ne]
      exact ENNReal.le_tsum n
    have hDG : ∀ n k, k < 2 ^ n → |D n k ω| ≤ Real.sqrt (Real.sqrt G) * (9 / 10) ^ n := fun n k hk => by
      have h1 : D n k ω ^ 4 ≤ G * ((9 / 10) ^ n) ^ 4 := by
        have h2 := hFG n
        rw [hF] at h2
        have h3 : D n k ω ^ 4 ≤ ∑ k ∈ Finset.range (2 ^ n), D n k ω ^ 4 :=
          Finset.single_le_sum (f := fun k => D n k ω ^ 4) (fun k _ => by positivity) (Finset.mem_range.mpr hk)
        rw [inv_mul_le_iff₀ (by positivity)] at h2
        rw [← pow_mul, mul_comm n 4, pow_mul, mul_comm]
        exact h3.trans h2
      refine le_of_pow_le_pow_left₀ (n := 4) (by norm_num) (by positivity) ?_
      rw [Even.pow_abs (by decide), mul_pow]
      have : Real.sqrt (Real.sqrt G) ^ 4 = G := by
        rw [show Real.sqrt (Real.sqrt G) ^ 4 = (Real.sqrt (Real.sqrt G) ^ 2) ^ 2 by ring, Real.sq_sqrt (Real.sqrt_nonneg _),
          Real.sq_sqrt hG0]
      rwa [this]
    rcases eq_or_ne δ 0 with h0 | h0
    · have : t = 0 := le_antisymm (h0 ▸ ht) zero_le
      rw [this, add_zero, sub_self, zero_pow (by norm_num)]
      positivity
    · have hδ : 0 < (δ : ℝ) := lt_of_le_of_ne δ.2 (fun h => h0 (NNReal.coe_eq_zero.mp h.symm))
      have hch := chaining (g := fun u => B (t0 + (u * δ).toNNReal) ω - B t0 ω) (H := Real.sqrt (Real.sqrt G)) (by
        refine Continuous.continuousOn ?_
        exact (hcont.comp (by fun_prop)).sub continuous_const) (by simp) (fun n k hk => by
          have h1 := hDG n k hk
          rw [hD] at h1
          have e : ∀ j : ℝ≥0, ((j : ℝ) / 2 ^ n * δ).toNNReal = j / 2 ^ n * δ := fun j => by
            ext; rw [Real.coe_toNNReal _ (by positivity)]; push_cast; ring
          have e1 := e k
          have e2 := e (k + 1)
          push_cast at e1 e2
          rw [e1, e2, sub_sub_sub_cancel_right]
          exact h1) (t := t / δ) ⟨by positivity, (div_le_one hδ).mpr (by exact_mod_cast ht)⟩
      have e3 : ((t : ℝ) / δ * δ).toNNReal = t := by rw [div_mul_cancel₀ _ hδ.ne', Real.toNNReal_coe]
      rw [e3] at hch
      have h4 := pow_le_pow_left₀ (abs_nonneg _) hch 4
      rw [Even.pow_abs (by decide), mul_pow] at h4
      have : Real.sqrt (Real.sqrt G) ^ 4 = G := by
        rw [show Real.sqrt (Real.sqrt G) ^ 4 = (Real.sqrt (Real.sqrt G) ^ 2) ^ 2 by ring, Real.sq_sqrt (Real.sqrt_nonneg _),
          Real.sq_sqrt hG0]
      rwa [this] at h4

end Verif
