import Mathlib.MeasureTheory.Integral.Indicator
import Mathlib.MeasureTheory.Integral.Bochner.Basic
import Mathlib.Topology.Instances.RealVectorSpace
import Verif.Lemmas.Cutoff
import Verif.Props.StrongEkf

/-! Localisation: events on which a solution stays in a ball and the noise moves little over each interval, and schemes that only use
values of the field in that ball. -/

namespace Verif

open Matrix Spec Jnp Set MeasureTheory ProbabilityTheory Filter
open scoped NNReal ENNReal Topology

variable {d m : ℕ}

/-- A scheme whose stages stay in a ball only uses the values of the field in that ball. -/
theorem trapScheme_congr {vf vf' : Vec d → ℝ → Vec d} {y : Vec d} {h V ρ : ℝ} {M : ℕ} (hh : 0 ≤ h)
    (hV : ∀ x, ∀ t ∈ Icc 0 (M * h), ‖vf x t‖ ≤ V) (hρ : M * h * V ≤ ρ)
    (heq : ∀ x, ‖x - y‖ ≤ ρ → ∀ t ∈ Icc 0 (M * h), vf x t = vf' x t) :
    ∀ n ≤ M, trapScheme vf h y n = trapScheme vf' h y n ∧ ‖(trapScheme vf h y n).1 - y‖ ≤ n * h * V ∧ ‖(trapScheme vf h y n).2‖ ≤ V := by
  have hV0 : 0 ≤ V := (norm_nonneg _).trans (hV y 0 ⟨le_rfl, by positivity⟩)
  have hle : ∀ n ≤ M, (n : ℝ) * h * V ≤ ρ := fun n hn => by
    refine le_trans ?_ hρ
    gcongr
  intro n
  induction n with
  | zero =>
    intro _
    have h0 : (0 : ℝ) ∈ Icc 0 (M * h) := ⟨le_rfl, by positivity⟩
    refine ⟨?_, by simp [trapScheme], hV y 0 h0⟩
    show (y, vf y 0) = (y, vf' y 0)
    rw [heq y (by simpa using (hle 0 (Nat.zero_le _))) 0 h0]
  | succ n ih =>
    intro hn
    obtain ⟨e, h1, h2⟩ := ih (by omega)
    obtain ⟨x, hx⟩ : ∃ x, x = (trapScheme vf h y n).1 := ⟨_, rfl⟩
    obtain ⟨v, hv⟩ : ∃ v, v = (trapScheme vf h y n).2 := ⟨_, rfl⟩
    have ht : ((n + 1 : ℝ) * h) ∈ Icc 0 (M * h) := ⟨by positivity, mul_le_mul_of_nonneg_right (by exact_mod_cast hn) hh⟩
    rw [trapScheme_succ, trapScheme_succ, ← e, ← hx, ← hv]
    rw [← hx] at h1
    rw [← hv] at h2
    have hin : ‖x + h • v - y‖ ≤ ρ := by
      rw [add_sub_right_comm]
      refine (norm_add_le _ _).trans (le_trans ?_ (hle (n + 1) hn))
      rw [norm_smul, Real.norm_of_nonneg hh]
      push_cast
      nlinarith [mul_le_mul_of_nonneg_left h2 hh]
    have hv' := hV (x + h • v) _ ht
    refine ⟨by rw [heq _ hin _ ht], ?_, hv'⟩
    show ‖x + (h / 2) • (v + vf (x + h • v) ((n + 1) * h)) - y‖ ≤ _
    rw [add_sub_right_comm]
    refine (norm_add_le _ _).trans ?_
    rw [norm_smul, Real.norm_of_nonneg (by positivity)]
    have h3 := (norm_add_le v (vf (x + h • v) ((n + 1) * h))).trans (add_le_add h2 hv')
    push_cast
    nlinarith [mul_le_mul_of_nonneg_left h3 (by positivity : (0 : ℝ) ≤ h / 2)]

/-- The slope of a parabola that matches a path which moves little. -/
theorem matched_slope {δ κ : ℝ} (hδ : 0 < δ) {w : ℝ → Vec m} {a0 : ℝ} {a b : Vec m}
    (hm : SameEndAndArea (fun t => Foster.evalParabola t δ a b) w a0 δ)
    (hw : ∀ t ∈ Icc 0 δ, ∀ j, |w (a0 + t) j - w a0 j| ≤ κ) : ∀ t ∈ Icc 0 δ, ∀ j,
      |(a j + Real.sqrt 6 * b j * (1 - 2 * t / δ)) / δ| ≤ 10 * κ / δ := by
  intro t ht j
  have ha : |a j| ≤ κ := by
    have h1 := congrFun hm.atEnd j
    simp only [evalParabola_end hδ.ne', Pi.sub_apply] at h1
    rw [h1]
    exact hw δ ⟨hδ.le, le_rfl⟩ j
  have hκ : 0 ≤ κ := (abs_nonneg _).trans ha
  have h6 : (0 : ℝ) < Real.sqrt 6 := by positivity
  have h66 : Real.sqrt 6 * Real.sqrt 6 = 6 := Real.mul_self_sqrt (by norm_num)
  have hb : |Real.sqrt 6 * b j| ≤ 9 * κ := by
    have h1 := hm.area j
    have h2 : ∫ t in (0 : ℝ)..δ, Foster.evalParabola t δ a b j = δ * (a j / 2 + b j / Real.sqrt 6) :=
      Foster.integral_evalParabola1 δ _ _ hδ.ne'
    have h3 := intervalIntegral.norm_integral_le_of_norm_le_const (a := 0) (b := δ) (C := κ)
      (f := fun t => w (a0 + t) j - w a0 j) fun s hs => by
        rw [uIoc_of_le hδ.le] at hs
        exact hw s ⟨hs.1.le, hs.2⟩ j
    rw [← h1, h2, sub_zero, abs_of_pos hδ, Real.norm_eq_abs, abs_mul, abs_of_pos hδ, mul_comm κ δ] at h3
    have h4 := le_of_mul_le_mul_left h3 hδ
    have h5 : Real.sqrt 6 * b j = 6 * (b j / Real.sqrt 6) := by
      field_simp
      rw [sq, h66, mul_comm]
    rw [h5, abs_mul, abs_of_pos (by norm_num : (0 : ℝ) < 6)]
    have h7 := abs_le.mp h4
    have h8 := abs_le.mp ha
    have : |b j / Real.sqrt 6| ≤ 3 / 2 * κ := abs_le.mpr ⟨by linarith [h7.1, h8.2], by linarith [h7.2, h8.1]⟩
    linarith
  have hc : |1 - 2 * t / δ| ≤ 1 := by
    have h1 : 0 ≤ t / δ := div_nonneg ht.1 hδ.le
    have h2 : t / δ ≤ 1 := (div_le_one hδ).mpr ht.2
    rw [mul_div_assoc]
    exact abs_le.mpr ⟨by linarith, by linarith⟩
  rw [abs_div, abs_of_pos hδ]
  refine div_le_div_of_nonneg_right ?_ hδ.le
  refine (abs_add_le _ _).trans ?_
  rw [abs_mul]
  nlinarith [abs_nonneg (Real.sqrt 6 * b j), abs_nonneg (1 - 2 * t / δ)]

/-- A bound at rational points of the unit interval. -/
theorem forall_unit_of_rat {φ : ℝ → ℝ} (hφ : ContinuousOn φ (Icc 0 1)) {κ : ℝ} (h : ∀ q : ℚ, (q : ℝ) ∈ Icc (0 : ℝ) 1 → φ q ≤ κ) :
    ∀ u ∈ Icc (0 : ℝ) 1, φ u ≤ κ := by
  have hc : Continuous fun u : ℝ => φ (max 0 (min 1 u)) := hφ.comp_continuous (by fun_prop) fun u =>
    ⟨le_max_left _ _, max_le zero_le_one (min_le_left _ _)⟩
  have hall : ∀ u : ℝ, φ (max 0 (min 1 u)) ≤ κ := by
    intro u
    refine Rat.denseRange_cast.induction_on (p := fun u : ℝ => φ (max 0 (min 1 u)) ≤ κ) u (isClosed_le hc continuous_const) fun q => ?_
    have e : (max 0 (min 1 (q : ℝ))) = ((max 0 (min 1 q) : ℚ) : ℝ) := by push_cast; rfl
    rw [e]
    refine h _ ?_
    rw [← e]
    exact ⟨le_max_left _ _, max_le zero_le_one (min_le_left _ _)⟩
  intro u hu
  have := hall u
  rwa [min_eq_right hu.2, max_eq_right hu.1] at this

/-- A continuous path moves little over each of sufficiently many intervals. -/
theorem path_moves_little {w : ℝ → Vec m} (hw : Continuous w) {T κ : ℝ} (hT : 0 < T) (hκ : 0 < κ) : ∀ᶠ N : ℕ in atTop, ∀ k < N,
    ∀ t ∈ Icc 0 (T / N), ∀ j, |w (k * (T / N) + t) j - w (k * (T / N)) j| ≤ κ := by
  have huc := isCompact_Icc.uniformContinuousOn_of_continuous (s := Icc 0 T) hw.continuousOn
  rw [Metric.uniformContinuousOn_iff] at huc
  obtain ⟨η, hη, hu⟩ := huc κ hκ
  obtain ⟨n0, hn0⟩ := exists_nat_gt (T / η)
  filter_upwards [eventually_ge_atTop (n0 + 1)] with N hN k hk t ht j
  have hN' : (0 : ℝ) < N := by exact_mod_cast (by omega : 0 < N)
  have hlt : T / N < η := by
    rw [div_lt_iff₀ hN']
    rw [div_lt_iff₀ hη] at hn0
    have hn0N : (n0 : ℝ) ≤ N := by exact_mod_cast (by omega : n0 ≤ N)
    nlinarith
  have hδ : 0 < T / N := by positivity
  have hk1 : (k : ℝ) * (T / N) + T / N ≤ T := by
    have : ((k + 1 : ℕ) : ℝ) * (T / N) ≤ N * (T / N) := mul_le_mul_of_nonneg_right (by exact_mod_cast hk) hδ.le
    rw [mul_div_cancel₀ _ hN'.ne'] at this
    push_cast at this
    linarith
  have hk0 : (0 : ℝ) ≤ k * (T / N) := by positivity
  have := hu (k * (T / N) + t) ⟨by linarith [ht.1], by linarith [ht.2]⟩ (k * (T / N)) ⟨hk0, by linarith⟩ (by
    rw [Real.dist_eq, add_sub_cancel_left, abs_of_nonneg ht.1]
    linarith [ht.2])
  rw [dist_eq_norm] at this
  exact (norm_le_pi_norm (w (k * (T / N) + t) - w (k * (T / N))) j).trans this.le

variable {Ω : Type*} [MeasurableSpace Ω] {P : Measure Ω}

/-- Events that almost surely happen from some index on. -/
theorem tendsto_compl_of_eventually [IsFiniteMeasure P] {A : ℕ → Set Ω} (hA : ∀ n, MeasurableSet (A n))
    (h : ∀ᵐ ω ∂P, ∀ᶠ n in atTop, ω ∈ A n) : Tendsto (fun n => P (A n)ᶜ) atTop (𝓝 0) := by
  have := tendsto_measure_of_ae_tendsto_indicator_of_isFiniteMeasure (μ := P) (A := ∅) (As := fun n => (A n)ᶜ) atTop MeasurableSet.empty
    (fun n => (hA n).compl) (by
      filter_upwards [h] with ω hω
      filter_upwards [hω] with n hn
      simp [hn])
  simpa using this

/-- Chebyshev's inequality for a mean square error. -/
theorem prob_of_meanSquare {e : Ω → ℝ} {a c : ℝ} (hc : 0 < c) (hi : Integrable (fun ω => e ω ^ 2) P) (ha : ∫ ω, e ω ^ 2 ∂P ≤ a)
    [IsFiniteMeasure P] : P {ω | c < e ω} ≤ ENNReal.ofReal (a / c ^ 2) := by
  have h1 := mul_meas_ge_le_integral_of_nonneg (Eventually.of_forall fun ω => sq_nonneg (e ω)) hi (c ^ 2)
  have h2 : P {ω | c < e ω} ≤ P {ω | c ^ 2 ≤ e ω ^ 2} := measure_mono fun ω (hω : c < e ω) => by
    exact pow_le_pow_left₀ hc.le hω.le 2
  refine h2.trans ?_
  have h3 : P.real {ω | c ^ 2 ≤ e ω ^ 2} ≤ a / c ^ 2 := by
    rw [le_div_iff₀ (by positivity), mul_comm]
    exact h1.trans ha
  rw [← ofReal_measureReal (measure_ne_top _ _)]
  exact ENNReal.ofReal_le_ofReal h3

variable {B : Fin m → ℝ≥0 → Ω → ℝ}

/-- Events of large probability on which the solution of an equation with a smooth field is the solution of a cut off equation, stays in
the ball where the fields agree, and the noise moves little. -/
theorem exists_good (hB : IsBrownianVec B P) {f : Field d} (hf : ContDiff ℝ 2 (Function.uncurry f)) {T : ℝ} (hT : 0 < T) (S : Mat d m)
    (x0 : Vec d) {X : Ω → ℝ → Vec d} (hX : ∀ᵐ ω ∂P, SolvesAdditive f S (fun t j => B j t.toNNReal ω) x0 T (X ω)) {ε κ : ℝ} (hε : 0 < ε)
    (hκ : 0 < κ) : ∃ (R : ℝ) (g : Field d) (Dg : Vec d → ℝ → Vec d →L[ℝ] Vec d) (L K F : ℝ) (X' : Ω → ℝ → Vec d), 0 ≤ L ∧ 0 ≤ F ∧
      SmoothField g Dg T L K ∧ TimeLipschitz g T L ∧ (∀ x t, ‖g x t‖ ≤ F) ∧ (∀ x, ‖x‖ ≤ R + 1 → ∀ t ∈ Icc 0 T, g x t = f x t) ∧
      (∀ᵐ ω ∂P, SolvesAdditive g S (fun t j => B j t.toNNReal ω) x0 T (X' ω)) ∧
      ∃ N1 : ℕ, ∀ N ≥ N1, ∃ A : Set Ω, P Aᶜ ≤ ENNReal.ofReal ε ∧ ∀ ω ∈ A, (∀ t ∈ Icc 0 T, X ω t = X' ω t ∧ ‖X ω t‖ ≤ R) ∧
        ∀ k < N, ∀ t ∈ Icc 0 (T / N), ∀ j, |B j (k * (T / N) + t).toNNReal ω - B j (k * (T / N)).toNNReal ω| ≤ κ := by
  haveI : IsProbabilityMeasure P := hB.isProb
  have hcont : ∀ᵐ ω ∂P, ∀ j, Continuous fun t => B j t ω := ae_all_iff.mpr fun j => (hB.brownian j).cont
  choose g Dg χ L K F hL hF hg hgt hgF heq hχ using fun n : ℕ => exists_cutoff hf T ((n : ℝ) + 1)
  choose X' hX' using fun n : ℕ => hB.exists_solution hT.le (hg n) S x0
  have hver : ∀ (n : ℕ) (q : ℚ), ∃ V : Ω → Vec d, Measurable V ∧ ((q : ℝ) ∈ Icc (0 : ℝ) 1 → (fun ω => X' n ω (q * T)) =ᵐ[P] V) := fun n q => by
    by_cases hq : (q : ℝ) ∈ Icc (0 : ℝ) 1
    · obtain ⟨V, h1, h2⟩ := solution_adapted hB (hg n).cont (hL n) (hg n).lip hT (hX' n) (t := q * T) (mul_nonneg hq.1 hT.le)
        (mul_le_of_le_one_left hT.le hq.2)
      exact ⟨V, h1.mono (hB.pastAlg_le _) le_rfl, fun _ => h2⟩
    · exact ⟨fun _ => 0, measurable_const, fun h => absurd h hq⟩
  choose V hV1 hV2 using hver
  have hVae : ∀ᵐ ω ∂P, ∀ (n : ℕ) (q : ℚ), (q : ℝ) ∈ Icc (0 : ℝ) 1 → X' n ω (q * T) = V n q ω := by
    refine ae_all_iff.mpr fun n => ae_all_iff.mpr fun q => ?_
    by_cases hq : (q : ℝ) ∈ Icc (0 : ℝ) 1
    · filter_upwards [hV2 n q hq] with ω hω _
      exact hω
    · exact Eventually.of_forall fun ω h => absurd h hq
  -- the solution stays in a ball
  obtain ⟨G, hG⟩ : ∃ G : ℕ → Set Ω, ∀ n, G n = {ω | ∀ q : ℚ, (q : ℝ) ∈ Icc (0 : ℝ) 1 → ‖V n q ω‖ ≤ n} := ⟨_, fun _ => rfl⟩
  have hGm : ∀ n, MeasurableSet (G n) := fun n => by
    rw [hG, setOf_forall]
    refine MeasurableSet.iInter fun q => ?_
    by_cases hq : (q : ℝ) ∈ Icc (0 : ℝ) 1
    · simp only [hq, true_imp_iff]
      exact measurableSet_le (hV1 n q).norm measurable_const
    · simp [hq]
  have hGall : ∀ᵐ ω ∂P, ∀ n : ℕ, ω ∈ G n → ∀ t ∈ Icc 0 T, X ω t = X' n ω t ∧ ‖X ω t‖ ≤ n := by
    filter_upwards [hX, hVae, ae_all_iff.mpr hX'] with ω h1 h2 h3 n hn
    rw [hG] at hn
    have hb : ∀ u ∈ Icc (0 : ℝ) 1, ‖X' n ω (u * T)‖ ≤ n := by
      refine forall_unit_of_rat ?_ fun q hq => by rw [h2 n q hq]; exact hn q hq
      refine ((h3 n).cont.comp (by fun_prop) fun u hu => ?_).norm
      exact ⟨mul_nonneg hu.1 hT.le, mul_le_of_le_one_left hT.le hu.2⟩
    have hb' : ∀ t ∈ Icc 0 T, ‖X' n ω t‖ ≤ n := fun t ht => by
      have := hb (t / T) ⟨div_nonneg ht.1 hT.le, (div_le_one hT).mpr ht.2⟩
      rwa [div_mul_cancel₀ _ hT.ne'] at this
    have h4 : SolvesAdditive f S (fun t j => B j t.toNNReal ω) x0 T (X' n ω) := (h3 n).congr_field fun t ht =>
      (heq n _ ((hb' t ht).trans (by linarith)) t ht).symm
    intro t ht
    have h5 := h1.unique_smooth hf hT h4 t ht
    exact ⟨h5, by rw [h5]; exact hb' t ht⟩
  have hGev : ∀ᵐ ω ∂P, ∀ᶠ n in atTop, ω ∈ G n := by
    filter_upwards [hX, hVae, ae_all_iff.mpr hX'] with ω h1 h2 h3
    obtain ⟨b, hb⟩ := isCompact_Icc.exists_bound_of_continuousOn h1.cont
    obtain ⟨n0, hn0⟩ := exists_nat_ge b
    filter_upwards [eventually_ge_atTop n0] with n hn
    have hnb : b ≤ n := hn0.trans (by exact_mod_cast hn)
    have h4 : SolvesAdditive (g n) S (fun t j => B j t.toNNReal ω) x0 T (X ω) := h1.congr_field fun t ht =>
      heq n _ (((hb t ht).trans hnb).trans (by linarith)) t ht
    rw [hG]
    intro q hq
    have ht : (q : ℝ) * T ∈ Icc 0 T := ⟨mul_nonneg hq.1 hT.le, mul_le_of_le_one_left hT.le hq.2⟩
    rw [← h2 n q hq, ← h4.unique (hg n).cont (hL n) (hg n).lip hT (h3 n) _ ht]
    exact (hb _ ht).trans hnb
  have hlim := tendsto_compl_of_eventually hGm hGev
  obtain ⟨n, hn⟩ := ((ENNReal.tendsto_atTop_zero.mp hlim) (ENNReal.ofReal (ε / 2)) (by positivity))
  have hPn := hn n le_rfl
  -- the noise moves little
  obtain ⟨H, hH⟩ : ∃ H : ℕ → Set Ω, ∀ N, H N = {ω | ∀ k : ℕ, ∀ q : ℚ, ∀ j, k < N → (q : ℝ) ∈ Icc (0 : ℝ) 1 →
      |B j (k * (T / N) + q * (T / N)).toNNReal ω - B j (k * (T / N)).toNNReal ω| ≤ κ} := ⟨_, fun _ => rfl⟩
  have hHm : ∀ N, MeasurableSet (H N) := fun N => by
    rw [hH]
    simp only [setOf_forall]
    refine MeasurableSet.iInter fun k => MeasurableSet.iInter fun q => MeasurableSet.iInter fun j => MeasurableSet.iInter fun _ =>
      MeasurableSet.iInter fun _ => ?_
    exact measurableSet_le (((hB.meas j _).sub (hB.meas j _)).abs) measurable_const
  have hHev : ∀ᵐ ω ∂P, ∀ᶠ N in atTop, ω ∈ H N := by
    filter_upwards [hcont] with ω hω
    filter_upwards [path_moves_little (w := fun t j => B j t.toNNReal ω) (continuous_pi fun j => (hω j).comp continuous_real_toNNReal) hT hκ]
      with N hN
    rw [hH]
    intro k q j hk hq
    have hδ : 0 ≤ T / (N : ℝ) := by positivity
    exact hN k hk (q * (T / N)) ⟨mul_nonneg hq.1 hδ, mul_le_of_le_one_left hδ hq.2⟩ j
  have hHlim := tendsto_compl_of_eventually hHm hHev
  obtain ⟨N1, hN1⟩ := ((ENNReal.tendsto_atTop_zero.mp hHlim) (ENNReal.ofReal (ε / 2)) (by positivity))
  refine ⟨n, g n, Dg n, L n, K n, F n, X' n, hL n, hF n, hg n, hgt n, hgF n, heq n, hX' n, N1 + 1, fun N hN => ?_⟩
  refine ⟨G n ∩ H N ∩ {ω | (∀ n : ℕ, ω ∈ G n → ∀ t ∈ Icc 0 T, X ω t = X' n ω t ∧ ‖X ω t‖ ≤ n) ∧ ∀ j, Continuous fun t => B j t ω}, ?_, ?_⟩
  · rw [compl_inter, compl_inter]
    refine (measure_union_le _ _).trans ?_
    have h0 : P {ω | (∀ n : ℕ, ω ∈ G n → ∀ t ∈ Icc 0 T, X ω t = X' n ω t ∧ ‖X ω t‖ ≤ n) ∧ ∀ j, Continuous fun t => B j t ω}ᶜ = 0 := by
      have := hGall.and hcont
      exact mem_ae_iff.mp this
    rw [h0, add_zero]
    refine (measure_union_le _ _).trans ((add_le_add hPn (hN1 N (by omega))).trans ?_)
    rw [← ENNReal.ofReal_add (by positivity) (by positivity), add_halves]
  · rintro ω ⟨⟨h1, h2⟩, h3, h4⟩
    refine ⟨h3 n h1, fun k hk t ht j => ?_⟩
    have hN' : (0 : ℝ) < N := by exact_mod_cast (by omega : 0 < N)
    have hδ : 0 < T / (N : ℝ) := by positivity
    rw [hH] at h2
    have h5 := forall_unit_of_rat (φ := fun u => |B j (k * (T / N) + u * (T / N)).toNNReal ω - B j (k * (T / N)).toNNReal ω|) (κ := κ) (by
      refine Continuous.continuousOn ?_
      have := (h4 j).comp continuous_real_toNNReal
      exact ((this.comp (by fun_prop : Continuous fun u : ℝ => (k : ℝ) * (T / N) + u * (T / N))).sub continuous_const).abs)
      (fun q hq => h2 k q j hk hq) (t / (T / N)) ⟨div_nonneg ht.1 hδ.le, (div_le_one hδ).mpr ht.2⟩
    simpa only [div_mul_cancel₀ _ hδ.ne'] using h5

end Verif
