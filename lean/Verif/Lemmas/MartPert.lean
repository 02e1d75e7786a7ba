import Verif.Lemmas.Perturbed

/-! One step schemes for SDEs with additive noise that differ from a stable scheme by a term that is linear in the second
coefficient of the parabola and depends on the state. -/

namespace Verif

open Matrix Spec Jnp Set MeasureTheory ProbabilityTheory Filter
open scoped NNReal

variable {d m : ℕ} {Ω : Type*} [MeasurableSpace Ω] {P : Measure Ω} {B : Fin m → ℝ≥0 → Ω → ℝ}

/-- A linear map applied to a vector, by its values on the basis. -/
theorem clm_apply_eq_sum (D : Vec d →L[ℝ] Vec d) (v : Vec d) : D v = ∑ l, v l • D (Pi.single l 1) := by
  have h : v = ∑ l, v l • (Pi.single l 1 : Vec d) := by
    funext i
    simp [Finset.sum_apply, Pi.single_apply]
  conv_lhs => rw [h]
  rw [map_sum]
  simp only [map_smul]

/-- The sum of terms that are linear in the coefficients of the intervals, with factors that depend on the past, has a second moment
that grows linearly. -/
theorem mart_sum_adapted (hB : IsBrownianVec B P) {δ : ℝ} (hδ : 0 < δ) {S : Mat d m} {s κ κ0 : ℝ} (hs : 0 ≤ s) (hS : ∀ v, ‖S *ᵥ v‖ ≤ s * ‖v‖)
    (hκ : 0 ≤ κ) {c : Fin 2 → ℝ} (hc : ∀ i, |c i| ≤ κ0) {N : ℕ} {D : ℕ → Ω → Vec d →L[ℝ] Vec d}
    (hD : ∀ k < N, ∀ v, Measurable[pastAlg B (k * δ).toNNReal] fun ω => D k ω v) (hDκ : ∀ k < N, ∀ᵐ ω ∂P, ‖D k ω‖ ≤ κ) (n : ℕ) (hn : n ≤ N) :
    ∃ E : Ω → Vec d, Measurable[pastAlg B (n * δ).toNNReal] E ∧ (∀ᵐ ω ∂P, E ω = ∑ k ∈ Finset.range n,
        D k ω (S *ᵥ fun j => ∑ i, c i * incArea (fun t => B j t.toNNReal ω) δ k i)) ∧
      Integrable (fun ω => E ω ⬝ᵥ E ω) P ∧ ∫ ω, E ω ⬝ᵥ E ω ∂P ≤ n * (d * (κ * s) ^ 2 * (2 * κ0 ^ 2) * (m * 2 * δ)) := by
  have hP := hB.isProb
  induction n with
  | zero => exact ⟨fun _ => 0, measurable_const, Eventually.of_forall fun ω => by simp, by simp, by simp⟩
  | succ n ih =>
    obtain ⟨E, hE1, hE2, hE3, hE4⟩ := ih (by omega)
    have hk : n < N := by omega
    obtain ⟨hMi, hM0⟩ := martingale_term_adapted hB hδ n hE1 (hD n hk) hE3 hκ (hDκ n hk) S c
    choose A hA1 hA2 using fun j i => coeff_past hB hδ n j i
    obtain ⟨ξ, hξ⟩ : ∃ ξ : Ω → Vec d, ∀ ω, ξ ω = D n ω (S *ᵥ fun j => ∑ i, c i * A j i ω) := ⟨_, fun _ => rfl⟩
    have hmono : pastAlg B (n * δ).toNNReal ≤ pastAlg B ((n + 1 : ℕ) * δ).toNNReal :=
      pastAlg_mono (Real.toNNReal_le_toNNReal (by push_cast; linarith))
    have hξm : Measurable[pastAlg B ((n + 1 : ℕ) * δ).toNNReal] ξ := by
      have h1 : ∀ v, Measurable[pastAlg B ((n + 1 : ℕ) * δ).toNNReal] fun ω => D n ω v := fun v => (hD n hk v).mono hmono le_rfl
      have h3 : ξ = fun ω => ∑ l, (S *ᵥ fun j => ∑ i, c i * A j i ω) l • D n ω (Pi.single l 1) := funext fun ω => by
        rw [hξ]
        exact clm_apply_eq_sum _ _
      rw [h3]
      letI := pastAlg B ((n + 1 : ℕ) * δ).toNNReal
      have h2 : Continuous fun p : Fin m → Fin 2 → ℝ => S *ᵥ fun j => ∑ i, c i * p j i := by fun_prop
      have h4 := h2.measurable.comp (measurable_pi_lambda _ fun j => measurable_pi_lambda _ fun i => hA1 j i)
      exact Finset.measurable_fun_sum _ fun l _ => ((measurable_pi_apply l).comp h4).smul (h1 _)
    have hξe : ∀ᵐ ω ∂P, ξ ω = D n ω (S *ᵥ fun j => ∑ i, c i * incArea (fun t => B j t.toNNReal ω) δ n i) := by
      filter_upwards [ae_all_iff.mpr fun j => ae_all_iff.mpr (hA2 j)] with ω h
      rw [hξ]
      simp only [h]
    have hE1' : Measurable[pastAlg B ((n + 1 : ℕ) * δ).toNNReal] E := hE1.mono hmono le_rfl
    have hsm : Measurable[pastAlg B ((n + 1 : ℕ) * δ).toNNReal] fun ω => E ω + ξ ω := by
      letI := pastAlg B ((n + 1 : ℕ) * δ).toNNReal
      exact hE1'.add hξm
    have hMi' : Integrable (fun ω => E ω ⬝ᵥ ξ ω) P := hMi.congr (hξe.mono fun ω h => by simp only [h])
    have hM0' : ∫ ω, E ω ⬝ᵥ ξ ω ∂P = 0 := by
      rw [← hM0]
      exact integral_congr_ae (hξe.mono fun ω h => by simp only [h])
    have hIm := fun j i => coeff_moments hB hδ n j i
    have hJi : ∀ j, Integrable (fun ω => incArea (fun t => B j t.toNNReal ω) δ n 0 ^ 2 +
        incArea (fun t => B j t.toNNReal ω) δ n 1 ^ 2) P := fun j => (hIm j 0).1.integrable_sq.add (hIm j 1).1.integrable_sq
    have hJ : Integrable (fun ω => d * (κ * s) ^ 2 * (2 * κ0 ^ 2) * ∑ j, (incArea (fun t => B j t.toNNReal ω) δ n 0 ^ 2 +
        incArea (fun t => B j t.toNNReal ω) δ n 1 ^ 2)) P := (integrable_finsetSum _ fun j _ => hJi j).const_mul _
    have hξb : ∀ᵐ ω ∂P, ξ ω ⬝ᵥ ξ ω ≤ d * (κ * s) ^ 2 * (2 * κ0 ^ 2) * ∑ j, (incArea (fun t => B j t.toNNReal ω) δ n 0 ^ 2 +
        incArea (fun t => B j t.toNNReal ω) δ n 1 ^ 2) := by
      filter_upwards [hξe, hDκ n hk] with ω h hκω
      set v : Vec m := fun j => ∑ i, c i * incArea (fun t => B j t.toNNReal ω) δ n i with hv
      have h1 : ‖ξ ω‖ ≤ κ * s * ‖v‖ := by
        rw [h, mul_assoc]
        exact ((D n ω).le_opNorm _).trans (mul_le_mul hκω (hS v) (norm_nonneg _) hκ)
      have h2 : ‖v‖ ^ 2 ≤ 2 * κ0 ^ 2 * ∑ j, (incArea (fun t => B j t.toNNReal ω) δ n 0 ^ 2 +
          incArea (fun t => B j t.toNNReal ω) δ n 1 ^ 2) := by
        refine (sq_norm_le_dot _).trans ?_
        rw [Finset.mul_sum]
        refine Finset.sum_le_sum fun j _ => ?_
        rw [← sq]
        refine le_trans (le_of_eq ?_) (comb_sq_le (hc 0) (hc 1))
        exact congrArg (· ^ 2) (Fin.sum_univ_two _)
      have h3 := pow_le_pow_left₀ (norm_nonneg _) h1 2
      calc ξ ω ⬝ᵥ ξ ω ≤ d * ‖ξ ω‖ ^ 2 := dot_le_sq_norm _
        _ ≤ d * (κ * s * ‖v‖) ^ 2 := mul_le_mul_of_nonneg_left h3 (Nat.cast_nonneg d)
        _ = d * (κ * s) ^ 2 * ‖v‖ ^ 2 := by ring
        _ ≤ d * (κ * s) ^ 2 * (2 * κ0 ^ 2 * ∑ j, (incArea (fun t => B j t.toNNReal ω) δ n 0 ^ 2 +
          incArea (fun t => B j t.toNNReal ω) δ n 1 ^ 2)) := mul_le_mul_of_nonneg_left h2 (by positivity)
        _ = _ := by ring
    have hξm' := hξm.mono (hB.pastAlg_le _) le_rfl
    have hξd : Measurable fun ω => ξ ω ⬝ᵥ ξ ω :=
      Finset.measurable_fun_sum _ fun i _ => ((measurable_pi_apply i).comp hξm').mul ((measurable_pi_apply i).comp hξm')
    have hξi : Integrable (fun ω => ξ ω ⬝ᵥ ξ ω) P := hJ.mono' hξd.aestronglyMeasurable (hξb.mono fun ω h => by
      rw [Real.norm_of_nonneg ((sq_nonneg _).trans (sq_norm_le_dot _))]
      exact h)
    have hξI : ∫ ω, ξ ω ⬝ᵥ ξ ω ∂P ≤ d * (κ * s) ^ 2 * (2 * κ0 ^ 2) * (m * 2 * δ) := by
      refine (integral_mono_ae hξi hJ hξb).trans ?_
      rw [integral_const_mul]
      refine mul_le_mul_of_nonneg_left ?_ (by positivity)
      rw [integral_finsetSum _ fun j _ => hJi j]
      have : ∀ j ∈ Finset.univ, ∫ ω, (incArea (fun t => B j t.toNNReal ω) δ n 0 ^ 2 +
          incArea (fun t => B j t.toNNReal ω) δ n 1 ^ 2) ∂P ≤ 2 * δ := fun j _ => by
        rw [integral_add (hIm j 0).1.integrable_sq (hIm j 1).1.integrable_sq]
        linarith [(hIm j 0).2.2, (hIm j 1).2.2]
      refine (Finset.sum_le_sum this).trans (le_of_eq ?_)
      simp [mul_assoc]
    have hexp : ∀ ω, (E ω + ξ ω) ⬝ᵥ (E ω + ξ ω) = E ω ⬝ᵥ E ω + 2 * (E ω ⬝ᵥ ξ ω) + ξ ω ⬝ᵥ ξ ω := fun ω => by
      rw [add_dotProduct, dotProduct_add, dotProduct_add, dotProduct_comm (ξ ω) (E ω)]
      ring
    have i1 : Integrable (fun ω => E ω ⬝ᵥ E ω + 2 * (E ω ⬝ᵥ ξ ω)) P := hE3.add (hMi'.const_mul 2)
    refine ⟨fun ω => E ω + ξ ω, hsm, ?_, ?_, ?_⟩
    · filter_upwards [hE2, hξe] with ω h1 h2
      rw [Finset.sum_range_succ, h1, h2]
    · simp only [hexp]
      exact i1.add hξi
    · simp only [hexp]
      rw [integral_add i1 hξi, integral_add hE3 (hMi'.const_mul 2), integral_const_mul, hM0', mul_zero, add_zero]
      push_cast
      linarith

/-- The states of a scheme whose steps grow at most linearly are bounded by an affine function of the largest value of the noise. -/
theorem scheme_growth {S : Mat d m} {s C2 δ b0 T : ℝ} (hs : 0 ≤ s) (hS : ∀ v, ‖S *ᵥ v‖ ≤ s * ‖v‖) (hC2 : 0 ≤ C2) (hδ : 0 < δ) (hb0 : 0 ≤ b0)
    {N : ℕ} (hNδ : (N : ℝ) * δ = T) {w : ℝ → Vec m} (hw : ∀ t ∈ Icc 0 T, ‖w t - w 0‖ ≤ b0) {a b : ℕ → Vec m}
    (hm : ∀ k < N, SameEndAndArea (fun t => Foster.evalParabola t δ (a k) (b k)) w (k * δ) δ) {Y : ℕ → Vec d}
    (hY : ∀ k < N, ‖Y (k + 1) - Y k - S *ᵥ a k‖ ≤ δ * (C2 * (1 + ‖Y k‖ + (‖a k‖ + 4 * ‖b k‖)))) {n : ℕ} (hn : n ≤ N) :
    ‖Y n‖ ≤ ‖Y 0‖ + s * b0 + Real.exp (C2 * T) * (T * (C2 * (1 + ‖Y 0‖ + s * b0 + 34 * b0))) := by
  have hT : 0 ≤ T := by rw [← hNδ]; positivity
  have hkT : ∀ k ≤ N, (k : ℝ) * δ ≤ T := fun k hk => by
    rw [← hNδ]; exact mul_le_mul_of_nonneg_right (by exact_mod_cast hk) hδ.le
  have hq : ∀ k < N, ‖a k‖ + 4 * ‖b k‖ ≤ 34 * b0 := fun k hk => by
    have h := matched_coeff_le hδ (hm k hk) (W := 2 * b0) fun t ht => by
      have h1 : (k : ℝ) * δ + δ ≤ T := by have := hkT (k + 1) hk; push_cast at this; linarith
      have h0 : (0 : ℝ) ≤ k * δ := by positivity
      have h2 := hw (k * δ + t) ⟨by linarith [ht.1], by linarith [ht.2]⟩
      have h3 := hw (k * δ) ⟨h0, by linarith⟩
      calc ‖w (k * δ + t) - w (k * δ)‖ = ‖(w (k * δ + t) - w 0) - (w (k * δ) - w 0)‖ := by congr 1; abel
        _ ≤ _ := norm_sub_le _ _
        _ ≤ 2 * b0 := by linarith
    linarith [h.1, h.2]
  have hyb : ∀ k ≤ N, ‖Y k‖ ≤ ‖Y k - Y 0 - S *ᵥ (w (k * δ) - w 0)‖ + (‖Y 0‖ + s * b0) := fun k hk => by
    have e : Y k = (Y k - Y 0 - S *ᵥ (w (k * δ) - w 0)) + (Y 0 + S *ᵥ (w (k * δ) - w 0)) := by abel
    conv_lhs => rw [e]
    refine (norm_add_le _ _).trans (add_le_add le_rfl ((norm_add_le _ _).trans (add_le_add le_rfl ?_)))
    exact (hS _).trans (mul_le_mul_of_nonneg_left (hw _ ⟨by positivity, hkT k hk⟩) hs)
  have h := discrete_gronwall (e := fun k => ‖Y k - Y 0 - S *ᵥ (w (k * δ) - w 0)‖)
    (l := fun _ => δ * (C2 * (1 + ‖Y 0‖ + s * b0 + 34 * b0))) (q := C2 * δ) (by positivity) N (fun _ _ => by positivity) (by simp)
    (fun k hk => by
      have e1 : w ((k + 1 : ℕ) * δ) - w 0 = (w (k * δ) - w 0) + a k := by
        have h1 := (hm k hk).atEnd
        rw [evalParabola_end hδ.ne'] at h1
        rw [h1]
        have : ((k + 1 : ℕ) : ℝ) * δ = k * δ + δ := by push_cast; ring
        rw [this]
        abel
      have e2 : Y (k + 1) - Y 0 - S *ᵥ (w ((k + 1 : ℕ) * δ) - w 0) = (Y k - Y 0 - S *ᵥ (w (k * δ) - w 0)) +
          (Y (k + 1) - Y k - S *ᵥ a k) := by
        rw [e1, mulVec_add]
        abel
      rw [e2]
      refine (norm_add_le _ _).trans ?_
      have h1 := hY k hk
      have h2 : δ * (C2 * (1 + ‖Y k‖ + (‖a k‖ + 4 * ‖b k‖))) ≤
          δ * (C2 * (1 + (‖Y k - Y 0 - S *ᵥ (w (k * δ) - w 0)‖ + (‖Y 0‖ + s * b0)) + 34 * b0)) := by
        have h3 := hyb k hk.le
        have h4 := hq k hk
        gcongr
      have e3 : δ * (C2 * (1 + (‖Y k - Y 0 - S *ᵥ (w (k * δ) - w 0)‖ + (‖Y 0‖ + s * b0)) + 34 * b0)) =
        C2 * δ * ‖Y k - Y 0 - S *ᵥ (w (k * δ) - w 0)‖ + δ * (C2 * (1 + ‖Y 0‖ + s * b0 + 34 * b0)) := by ring
      linarith) n hn
  rw [Finset.sum_const, Finset.card_range, nsmul_eq_mul] at h
  have h1 := hyb n hn
  have h2 : Real.exp (C2 * δ * n) * (n * (δ * (C2 * (1 + ‖Y 0‖ + s * b0 + 34 * b0)))) ≤
      Real.exp (C2 * T) * (T * (C2 * (1 + ‖Y 0‖ + s * b0 + 34 * b0))) := by
    have h3 := hkT n hn
    calc _ = Real.exp (C2 * (n * δ)) * ((n * δ) * (C2 * (1 + ‖Y 0‖ + s * b0 + 34 * b0))) := by ring_nf
      _ ≤ _ := by gcongr
  linarith

/-- The coefficients of the parabolas matched to a Brownian motion are measurable. -/
theorem aemeasurable_coeffs (hB : IsBrownianVec B P) {δ : ℝ} (hδ : 0 < δ) {N : ℕ} {a b : Ω → ℕ → Vec m}
    (hm : ∀ᵐ ω ∂P, ∀ k < N, SameEndAndArea (fun t => Foster.evalParabola t δ (a ω k) (b ω k)) (fun t j => B j t.toNNReal ω) (k * δ) δ)
    (i : ℕ) (hi : i < N) : AEMeasurable (fun ω => (a ω i, b ω i)) P := by
  choose A' hA1' hA2' using fun j => coeff_past hB hδ i j 0
  choose C' hC1' hC2' using fun j => coeff_past hB hδ i j 1
  refine ⟨fun ω => (fun j => A' j ω, fun j => C' j ω), ?_, ?_⟩
  · exact (measurable_pi_lambda _ fun j => (hA1' j).mono (hB.pastAlg_le _) le_rfl).prodMk
      (measurable_pi_lambda _ fun j => (hC1' j).mono (hB.pastAlg_le _) le_rfl)
  · filter_upwards [hm, ae_all_iff.mpr hA2', ae_all_iff.mpr hC2'] with ω h2 h4 h5
    refine Prod.ext (funext fun j => ?_) (funext fun j => ?_)
    · show a ω i j = A' j ω
      rw [← h4 j, ← sameEndAndArea_coeffs hδ.ne' (h2 i hi) j 0]; rfl
    · show b ω i j = C' j ω
      rw [← h5 j, ← sameEndAndArea_coeffs hδ.ne' (h2 i hi) j 1]; rfl

set_option maxHeartbeats 1000000 in
/-- Strong convergence of a sequence whose steps differ from those of a stable and consistent scheme `Ψ` by `δ D S b`, up to terms of
second order, and are perturbed by `Z k`. The factors `D` are bounded and depend on the past. -/
theorem strong_mart_adapted (hB : IsBrownianVec B P) {f : Vec d → ℝ → Vec d} {Df : Vec d → ℝ → Vec d →L[ℝ] Vec d} {T L K Lt : ℝ} (hT : 0 < T)
    (hf : SmoothField f Df T L K) (hL : 0 ≤ L) (hLt : 0 ≤ Lt) (htl : TimeLipschitz f T Lt) (S : Mat d m) (x0 : Vec d)
    {X : Ω → ℝ → Vec d} (hX : ∀ᵐ ω ∂P, SolvesAdditive f S (fun t j => B j t.toNNReal ω) x0 T (X ω)) {C0 C1 C2 κ0 κ1 : ℝ} (hC0 : 0 ≤ C0)
    (hC1 : 0 ≤ C1) (hC2 : 0 ≤ C2) (hκ0 : 0 ≤ κ0) (hκ1 : 0 ≤ κ1) :
    ∃ A : ℝ, 0 ≤ A ∧ ∀ N : ℕ, 0 < N → ∀ {lam mu : ℝ}, |lam| ≤ κ0 → |mu| ≤ κ0 → ∀ Ψ : ℕ → Vec d → Vec m → Vec m → Vec d,
      (∀ k, Measurable fun p : Vec d × Vec m × Vec m => Ψ k p.1 p.2.1 p.2.2) →
      (∀ k < N, ∀ a b y y', ‖Ψ k y a b - y - (Ψ k y' a b - y')‖ ≤ C0 * (T / N) * ‖y - y'‖) →
      (∀ k < N, ∀ a b y, ‖Ψ k y a b - (y + S *ᵥ a + (T / N) • f y (k * (T / N)) + (T / N) • Df y (k * (T / N))
        (S *ᵥ (lam • a + mu • b)))‖ ≤
        T / N * (C1 * (T / N * (1 + ‖y‖ + ‖f y (k * (T / N))‖) ^ 2 + (‖a‖ + 4 * ‖b‖) ^ 2))) →
      ∀ D : ℕ → Ω → Vec d →L[ℝ] Vec d, (∀ k < N, ∀ v, Measurable[pastAlg B (k * (T / N)).toNNReal] fun ω => D k ω v) →
      (∀ k < N, ∀ᵐ ω ∂P, ‖D k ω‖ ≤ κ1) → ∀ (v : ℝ) (Y : ℕ → Ω → Vec d) (a b : Ω → ℕ → Vec m) (Z : Ω → ℕ → Vec d), (∀ᵐ ω ∂P, Y 0 ω = x0) →
      (∀ᵐ ω ∂P, ∀ k < N, SameEndAndArea (fun t => Foster.evalParabola t (T / N) (a ω k) (b ω k)) (fun t j => B j t.toNNReal ω)
        (k * (T / N)) (T / N)) →
      (∀ᵐ ω ∂P, ∀ k < N, ‖Y (k + 1) ω - Z ω k - (Ψ k (Y k ω) (a ω k) (b ω k) + (T / N) • D k ω (S *ᵥ b ω k))‖ ≤
        T / N * (C1 * (T / N * (1 + ‖Y k ω‖ + ‖f (Y k ω) (k * (T / N))‖) ^ 2 + (‖a ω k‖ + 4 * ‖b ω k‖) ^ 2))) →
      (∀ᵐ ω ∂P, ∀ k < N, ‖Y (k + 1) ω - Y k ω - S *ᵥ a ω k‖ ≤ T / N * (C2 * (1 + ‖Y k ω‖ + (‖a ω k‖ + 4 * ‖b ω k‖)))) →
      (∀ k ≤ N, AEMeasurable (Y k) P) → (∀ k < N, AEMeasurable (fun ω => Z ω k) P) →
      (∀ n ≤ N, Integrable (fun ω => ‖∑ k ∈ Finset.range n, Z ω k‖ ^ 2) P ∧ ∫ ω, ‖∑ k ∈ Finset.range n, Z ω k‖ ^ 2 ∂P ≤ v) →
      ∀ n ≤ N, Integrable (fun ω => ‖X ω (n * (T / N)) - Y n ω‖ ^ 2) P ∧
        ∫ ω, ‖X ω (n * (T / N)) - Y n ω‖ ^ 2 ∂P ≤ A * ((T / N) ^ 2 + v) := by
  have hP := hB.isProb
  obtain ⟨s, hs, hS⟩ := exists_mulVec_bound S
  obtain ⟨A, hA0, hA⟩ := strong_noisy hB hT hf hL hLt htl S x0 hX hC0 hC1 hκ0
  obtain ⟨G0, hG0i, hG00, hG0e, hG0⟩ := brownian_sup_vec hB.brownian 0 T.toNNReal
  obtain ⟨F0, hF0⟩ := isCompact_Icc.exists_bound_of_continuousOn (s := Icc 0 T) (f := fun t => f 0 t)
    (hf.cont.comp (by fun_prop : Continuous fun t : ℝ => ((0 : Vec d), t))).continuousOn
  have hF00 : 0 ≤ F0 := (norm_nonneg _).trans (hF0 0 ⟨le_rfl, hT.le⟩)
  have hcT : (T.toNNReal : ℝ) = T := Real.coe_toNNReal _ hT.le
  have hc := supConst_nonneg
  obtain ⟨κ, hκ⟩ : ∃ κ, κ = (m : ℝ) * supConst := ⟨_, rfl⟩
  have hκn : 0 ≤ κ := by rw [hκ]; positivity
  obtain ⟨g, hg⟩ : ∃ g, g = Real.exp (C2 * T) * (T * C2) := ⟨_, rfl⟩
  have hg0 : 0 ≤ g := by rw [hg]; positivity
  obtain ⟨c5, hc5⟩ : ∃ c5, c5 = 1 + F0 + (1 + L) * (‖x0‖ + s + g * (1 + ‖x0‖ + s + 34)) := ⟨_, rfl⟩
  have hc50 : 0 ≤ c5 := by rw [hc5]; positivity
  obtain ⟨A1, hA1⟩ : ∃ A1, A1 = d * (κ1 * s) ^ 2 * (2 * 1 ^ 2) * (m * 2) := ⟨_, rfl⟩
  have hA10 : 0 ≤ A1 := by rw [hA1]; positivity
  obtain ⟨A2, hA2⟩ : ∃ A2, A2 = 16 * c5 ^ 4 * (1 + κ * T ^ 2) + 2 * 17 ^ 4 * κ := ⟨_, rfl⟩
  have hA20 : 0 ≤ A2 := by rw [hA2]; positivity
  refine ⟨A * (2 + 2 * (2 * (T * A1) + 2 * (T ^ 2 * C1 ^ 2 * A2))), by positivity, ?_⟩
  intro N hN lam mu hlam hmu Ψ hΨm hΨs hΨc D hDm hDκ v Y a b Z hY0 hm hY hgr hYm hZm hZ n hn
  have hN' : (0 : ℝ) < N := by exact_mod_cast hN
  have hA' := hA N hN hlam hmu Ψ hΨm hΨs hΨc
  obtain ⟨δ, hδdef⟩ : ∃ δ, δ = T / N := ⟨_, rfl⟩
  rw [← hδdef] at hDm hY hgr hm hA' ⊢
  have hδ : 0 < δ := by rw [hδdef]; positivity
  have hNδ : (N : ℝ) * δ = T := by rw [hδdef]; field_simp
  have hcδ : (δ.toNNReal : ℝ) = δ := Real.coe_toNNReal _ hδ.le
  have hkT : ∀ k ≤ N, (k : ℝ) * δ ≤ T := fun k hk => by
    rw [← hNδ]; exact mul_le_mul_of_nonneg_right (by exact_mod_cast hk) hδ.le
  choose Gk hGki hGk0 hGke hGk using fun k : ℕ => brownian_sup_vec hB.brownian ((k * δ).toNNReal) δ.toNNReal
  obtain ⟨E, hE⟩ : ∃ E : Ω → ℕ → Vec d, ∀ ω k, E ω k = Y (k + 1) ω - Z ω k - Ψ k (Y k ω) (a ω k) (b ω k) := ⟨_, fun _ _ => rfl⟩
  -- the remainder, path by path
  have hrem : ∀ᵐ ω ∂P, ∀ k < N, ‖E ω k - δ • D k ω (S *ᵥ b ω k)‖ ^ 2 ≤
      δ ^ 2 * C1 ^ 2 * (16 * c5 ^ 4 * δ ^ 2 * (1 + G0 ω) + 2 * 17 ^ 4 * Gk k ω) := by
    filter_upwards [hY0, hgr, hm, hG0, ae_all_iff.mpr hGk, hY] with ω h0 hgω hmω hG0ω hGkω hYω k hk
    obtain ⟨w, hw⟩ : ∃ w : ℝ → Vec m, w = fun t j => B j t.toNNReal ω := ⟨_, rfl⟩
    rw [← hw] at hmω
    obtain ⟨b0, hb0⟩ : ∃ b0, b0 = Real.sqrt (Real.sqrt (G0 ω)) := ⟨_, rfl⟩
    have hb00 : 0 ≤ b0 := by rw [hb0]; exact Real.sqrt_nonneg _
    have hb : ∀ t ∈ Icc 0 T, ‖w t - w 0‖ ≤ b0 := fun t ht => by
      have h1 := hG0ω t.toNNReal (Real.toNNReal_le_toNNReal ht.2)
      rw [zero_add] at h1
      have h2 : w 0 = fun j => B j 0 ω := by funext j; simp [hw]
      rw [h2, hw, hb0]
      exact h1
    have hWb : ∀ t ∈ Icc 0 δ, ‖w (k * δ + t) - w (k * δ)‖ ≤ Real.sqrt (Real.sqrt (Gk k ω)) := fun t ht => by
      have h1 := hGkω k t.toNNReal (Real.toNNReal_le_toNNReal ht.2)
      rw [← Real.toNNReal_add (by positivity) ht.1] at h1
      rw [hw]
      exact h1
    have hyn := scheme_growth hs hS hC2 hδ hb00 hNδ hb hmω (Y := fun k => Y k ω) hgω hk.le
    simp only [h0] at hyn
    have hkm : (k : ℝ) * δ ∈ Icc 0 T := ⟨by positivity, hkT k hk.le⟩
    have hfn : ‖f (Y k ω) (k * δ)‖ ≤ F0 + L * ‖Y k ω‖ := by
      have h1 := hf.lip (Y k ω) 0 _ hkm
      have h2 := hF0 _ hkm
      rw [sub_zero] at h1
      have h3 := norm_le_norm_add_norm_sub' (f (Y k ω) (k * δ)) (f 0 (k * δ))
      linarith
    have hH : 1 + ‖Y k ω‖ + ‖f (Y k ω) (k * δ)‖ ≤ c5 * (1 + b0) := by
      have e1 : ‖Y k ω‖ ≤ ‖x0‖ + s * b0 + g * (1 + ‖x0‖ + s * b0 + 34 * b0) := by
        rw [hg]
        refine hyn.trans (le_of_eq ?_)
        ring
      have e2 : ‖x0‖ + s * b0 + g * (1 + ‖x0‖ + s * b0 + 34 * b0) ≤ (‖x0‖ + s + g * (1 + ‖x0‖ + s + 34)) * (1 + b0) := by
        have i1 : 0 ≤ ‖x0‖ * b0 := by positivity
        have i2 : 0 ≤ g * (1 + ‖x0‖) * b0 := by positivity
        have i3 : 0 ≤ g * (s + 34) := by positivity
        nlinarith
      have e3 := mul_le_mul_of_nonneg_left (e1.trans e2) (by positivity : 0 ≤ 1 + L)
      rw [hc5]
      have i4 : 0 ≤ (1 + F0) * b0 := by positivity
      nlinarith
    obtain ⟨hqa, hqb⟩ := matched_coeff_le hδ (hmω k hk) hWb
    have hq : ‖a ω k‖ + 4 * ‖b ω k‖ ≤ 17 * Real.sqrt (Real.sqrt (Gk k ω)) := by linarith
    have hcomb := sq_comb_le (W := ‖a ω k‖ + 4 * ‖b ω k‖) hδ.le
      (by positivity : 0 ≤ 1 + ‖Y k ω‖ + ‖f (Y k ω) (k * δ)‖) hc50 hH hb00
    have hb4 : b0 ^ 4 = G0 ω := by rw [hb0]; exact sqrt_sqrt_pow4 (hG00 ω)
    rw [hb4] at hcomb
    have hq4 : (‖a ω k‖ + 4 * ‖b ω k‖) ^ 4 ≤ 17 ^ 4 * Gk k ω := by
      have := pow_le_pow_left₀ (by positivity) hq 4
      rwa [mul_pow, sqrt_sqrt_pow4 (hGk0 k ω)] at this
    have h1 := hYω k hk
    rw [← sub_sub] at h1
    rw [hE]
    have h2 := pow_le_pow_left₀ (norm_nonneg _) h1 2
    refine h2.trans ?_
    calc _ = δ ^ 2 * C1 ^ 2 * (δ * (1 + ‖Y k ω‖ + ‖f (Y k ω) (k * δ)‖) ^ 2 + (‖a ω k‖ + 4 * ‖b ω k‖) ^ 2) ^ 2 := by ring
      _ ≤ _ := by
        refine mul_le_mul_of_nonneg_left ?_ (by positivity)
        linarith
  have hcoef : ∀ᵐ ω ∂P, ∀ k < N, b ω k = fun j => ∑ i, (![0, 1] : Fin 2 → ℝ) i * incArea (fun t => B j t.toNNReal ω) δ k i := by
    filter_upwards [hm] with ω h k hk
    funext j
    have i2 := sameEndAndArea_coeffs hδ.ne' (h k hk) j 1
    simp only [cons_val_one, cons_val_fin_one] at i2
    rw [Fin.sum_univ_two]
    simp [i2]
  have hgi0 : Integrable (fun ω => 1 + G0 ω) P := (integrable_const 1).add hG0i
  have hRi : ∀ k, Integrable (fun ω => δ ^ 2 * C1 ^ 2 * (16 * c5 ^ 4 * δ ^ 2 * (1 + G0 ω) + 2 * 17 ^ 4 * Gk k ω)) P := fun k =>
    ((hgi0.const_mul _).add ((hGki k).const_mul _)).const_mul _
  have hRe : ∀ k, ∫ ω, δ ^ 2 * C1 ^ 2 * (16 * c5 ^ 4 * δ ^ 2 * (1 + G0 ω) + 2 * 17 ^ 4 * Gk k ω) ∂P ≤ δ ^ 4 * (C1 ^ 2 * A2) := fun k => by
    rw [integral_const_mul, integral_add (hgi0.const_mul _) ((hGki k).const_mul _), integral_const_mul, integral_const_mul,
      integral_add (integrable_const _) hG0i, integral_const]
    simp only [probReal_univ, one_smul]
    have h1 : ∫ ω, G0 ω ∂P ≤ κ * T ^ 2 := by rw [hcT] at hG0e; rw [hκ]; exact hG0e
    have h2 : ∫ ω, Gk k ω ∂P ≤ κ * δ ^ 2 := by have := hGke k; rw [hcδ] at this; rw [hκ]; exact this
    calc _ ≤ δ ^ 2 * C1 ^ 2 * (16 * c5 ^ 4 * δ ^ 2 * (1 + κ * T ^ 2) + 2 * 17 ^ 4 * (κ * δ ^ 2)) := by gcongr
      _ = _ := by rw [hA2]; ring
  have hab : ∀ i < N, AEMeasurable (fun ω => (a ω i, b ω i)) P := aemeasurable_coeffs hB hδ hm
  have hsum : ∀ k ≤ N, Integrable (fun ω => ‖∑ i ∈ Finset.range k, E ω i‖ ^ 2) P ∧
      ∫ ω, ‖∑ i ∈ Finset.range k, E ω i‖ ^ 2 ∂P ≤ (2 * (T * A1) + 2 * (T ^ 2 * C1 ^ 2 * A2)) * δ ^ 2 := fun k hk => by
    obtain ⟨Mk, hM1, hM2, hM3, hM4⟩ := mart_sum_adapted hB hδ hs hS hκ1 (c := ![0, 1]) (κ0 := 1) (by intro i; fin_cases i <;> simp) (N := N)
      hDm hDκ k hk
    have hRs : Integrable (fun ω => ∑ i ∈ Finset.range k, δ ^ 2 * C1 ^ 2 * (16 * c5 ^ 4 * δ ^ 2 * (1 + G0 ω) + 2 * 17 ^ 4 * Gk i ω)) P :=
      integrable_finsetSum _ fun i _ => hRi i
    have hbi : Integrable (fun ω => 2 * δ ^ 2 * (Mk ω ⬝ᵥ Mk ω) + 2 * k * ∑ i ∈ Finset.range k,
        δ ^ 2 * C1 ^ 2 * (16 * c5 ^ 4 * δ ^ 2 * (1 + G0 ω) + 2 * 17 ^ 4 * Gk i ω)) P := (hM3.const_mul _).add (hRs.const_mul _)
    have hle : ∀ᵐ ω ∂P, ‖∑ i ∈ Finset.range k, E ω i‖ ^ 2 ≤ 2 * δ ^ 2 * (Mk ω ⬝ᵥ Mk ω) + 2 * k * ∑ i ∈ Finset.range k,
        δ ^ 2 * C1 ^ 2 * (16 * c5 ^ 4 * δ ^ 2 * (1 + G0 ω) + 2 * 17 ^ 4 * Gk i ω) := by
      filter_upwards [hrem, hcoef, hM2] with ω h1 h2 h3
      have e1 : ∑ i ∈ Finset.range k, E ω i = δ • Mk ω + ∑ i ∈ Finset.range k, (E ω i - δ • D i ω (S *ᵥ b ω i)) := by
        rw [Finset.sum_sub_distrib, h3, Finset.smul_sum]
        have : ∑ i ∈ Finset.range k, δ • D i ω (S *ᵥ b ω i) = ∑ i ∈ Finset.range k, δ • D i ω
            (S *ᵥ fun j => ∑ l, (![0, 1] : Fin 2 → ℝ) l * incArea (fun t => B j t.toNNReal ω) δ i l) :=
          Finset.sum_congr rfl fun i hi => by rw [← h2 i (by have := Finset.mem_range.mp hi; omega)]
        rw [this]
        abel
      have h4 : ‖∑ i ∈ Finset.range k, E ω i‖ ≤ δ * ‖Mk ω‖ + ∑ i ∈ Finset.range k, ‖E ω i - δ • D i ω (S *ᵥ b ω i)‖ := by
        rw [e1]
        refine (norm_add_le _ _).trans (add_le_add ?_ (norm_sum_le _ _))
        rw [norm_smul, Real.norm_of_nonneg hδ.le]
      have h5 := pow_le_pow_left₀ (norm_nonneg _) h4 2
      have h6 := add_sq_le (a := δ * ‖Mk ω‖) (b := ∑ i ∈ Finset.range k, ‖E ω i - δ • D i ω (S *ᵥ b ω i)‖)
      have h7 := sq_sum_le_card_mul_sum_sq (s := Finset.range k) (f := fun i => ‖E ω i - δ • D i ω (S *ᵥ b ω i)‖)
      rw [Finset.card_range] at h7
      have h8 : ∑ i ∈ Finset.range k, ‖E ω i - δ • D i ω (S *ᵥ b ω i)‖ ^ 2 ≤ ∑ i ∈ Finset.range k,
          δ ^ 2 * C1 ^ 2 * (16 * c5 ^ 4 * δ ^ 2 * (1 + G0 ω) + 2 * 17 ^ 4 * Gk i ω) :=
        Finset.sum_le_sum fun i hi => h1 i (by have := Finset.mem_range.mp hi; omega)
      have h9 := mul_le_mul_of_nonneg_left h8 (Nat.cast_nonneg k : (0 : ℝ) ≤ k)
      have h10 := mul_le_mul_of_nonneg_left (sq_norm_le_dot (Mk ω)) (sq_nonneg δ)
      nlinarith
    have hEm : AEStronglyMeasurable (fun ω => ‖∑ i ∈ Finset.range k, E ω i‖ ^ 2) P := by
      have hEi : ∀ i ∈ Finset.range k, AEMeasurable (fun ω => E ω i) P := fun i hi => by
        have hi' : i < N := by have := Finset.mem_range.mp hi; omega
        have h1 : (fun ω => E ω i) = fun ω => Y (i + 1) ω - Z ω i - Ψ i (Y i ω) (a ω i) (b ω i) := funext fun ω => hE ω i
        rw [h1]
        exact ((hYm (i + 1) hi').sub (hZm i hi')).sub ((hΨm i).comp_aemeasurable ((hYm i hi'.le).prodMk (hab i hi')))
      exact ((Finset.aemeasurable_fun_sum _ hEi).norm.pow_const 2).aestronglyMeasurable
    have hi := hbi.mono' hEm (hle.mono fun ω h => by rw [Real.norm_of_nonneg (by positivity)]; exact h)
    refine ⟨hi, (integral_mono_ae hi hbi hle).trans ?_⟩
    rw [integral_add (hM3.const_mul _) (hRs.const_mul _), integral_const_mul, integral_const_mul, integral_finsetSum _ fun i _ => hRi i]
    have h1 : ∑ i ∈ Finset.range k, ∫ ω, δ ^ 2 * C1 ^ 2 * (16 * c5 ^ 4 * δ ^ 2 * (1 + G0 ω) + 2 * 17 ^ 4 * Gk i ω) ∂P ≤
        k * (δ ^ 4 * (C1 ^ 2 * A2)) := by
      refine (Finset.sum_le_sum fun i _ => hRe i).trans (le_of_eq ?_)
      rw [Finset.sum_const, Finset.card_range, nsmul_eq_mul]
    have hkδ := hkT k hk
    have h2 : ∫ ω, Mk ω ⬝ᵥ Mk ω ∂P ≤ T * A1 := by
      refine hM4.trans ?_
      calc (k : ℝ) * (d * (κ1 * s) ^ 2 * (2 * 1 ^ 2) * (m * 2 * δ)) = (k * δ) * A1 := by rw [hA1]; ring
        _ ≤ _ := mul_le_mul_of_nonneg_right hkδ hA10
    have h3 : (k * δ) ^ 2 ≤ T ^ 2 := pow_le_pow_left₀ (by positivity) hkδ 2
    calc _ ≤ 2 * δ ^ 2 * (T * A1) + 2 * k * (k * (δ ^ 4 * (C1 ^ 2 * A2))) := by gcongr
      _ = 2 * (T * A1) * δ ^ 2 + 2 * ((k * δ) ^ 2 * C1 ^ 2 * A2) * δ ^ 2 := by ring
      _ ≤ 2 * (T * A1) * δ ^ 2 + 2 * (T ^ 2 * C1 ^ 2 * A2) * δ ^ 2 := by gcongr
      _ = _ := by ring
  have hEZ : ∀ k < N, AEMeasurable (fun ω => E ω k + Z ω k) P := fun k hk => by
    have h2 := (hYm k hk.le).prodMk (hab k hk)
    refine ((hYm (k + 1) hk).sub ((hΨm k).comp_aemeasurable h2)).congr (Eventually.of_forall fun ω => ?_)
    show Y (k + 1) ω - Ψ k (Y k ω) (a ω k) (b ω k) = E ω k + Z ω k
    rw [hE]
    abel
  have htot : ∀ k ≤ N, Integrable (fun ω => ‖∑ i ∈ Finset.range k, (E ω i + Z ω i)‖ ^ 2) P ∧
      ∫ ω, ‖∑ i ∈ Finset.range k, (E ω i + Z ω i)‖ ^ 2 ∂P ≤ 2 * ((2 * (T * A1) + 2 * (T ^ 2 * C1 ^ 2 * A2)) * δ ^ 2) + 2 * v := fun k hk => by
    obtain ⟨i1, b1⟩ := hsum k hk
    obtain ⟨i2, b2⟩ := hZ k hk
    have hm' : AEStronglyMeasurable (fun ω => ‖∑ i ∈ Finset.range k, (E ω i + Z ω i)‖ ^ 2) P :=
      ((Finset.aemeasurable_fun_sum _ fun i hi => hEZ i (by have := Finset.mem_range.mp hi; omega)).norm.pow_const 2).aestronglyMeasurable
    have hle : ∀ ω, ‖∑ i ∈ Finset.range k, (E ω i + Z ω i)‖ ^ 2 ≤ 2 * ‖∑ i ∈ Finset.range k, E ω i‖ ^ 2 +
        2 * ‖∑ i ∈ Finset.range k, Z ω i‖ ^ 2 := fun ω => by
      rw [Finset.sum_add_distrib]
      have h3 := norm_add_le (∑ i ∈ Finset.range k, E ω i) (∑ i ∈ Finset.range k, Z ω i)
      have h4 := pow_le_pow_left₀ (norm_nonneg _) h3 2
      linarith [add_sq_le (a := ‖∑ i ∈ Finset.range k, E ω i‖) (b := ‖∑ i ∈ Finset.range k, Z ω i‖)]
    have i12 : Integrable (fun ω => 2 * ‖∑ i ∈ Finset.range k, E ω i‖ ^ 2 + 2 * ‖∑ i ∈ Finset.range k, Z ω i‖ ^ 2) P :=
      (i1.const_mul 2).add (i2.const_mul 2)
    have hi := i12.mono' hm' (Eventually.of_forall fun ω => by rw [Real.norm_of_nonneg (by positivity)]; exact hle ω)
    refine ⟨hi, (integral_mono hi i12 hle).trans ?_⟩
    rw [integral_add (i1.const_mul 2) (i2.const_mul 2), integral_const_mul, integral_const_mul]
    linarith
  have hv0 : 0 ≤ v := (integral_nonneg fun ω => sq_nonneg _).trans (hZ 0 (Nat.zero_le _)).2
  obtain ⟨h1, h2⟩ := hA' _ Y a b (fun ω k => E ω k + Z ω k) hY0 hm (Eventually.of_forall fun ω k hk => by rw [hE]; abel) hYm htot n hn
  refine ⟨h1, h2.trans ?_⟩
  have e1 : 0 ≤ A * (δ ^ 2 + 2 * (2 * (T * A1) + 2 * (T ^ 2 * C1 ^ 2 * A2)) * v) := by positivity
  rw [show A * (2 + 2 * (2 * (T * A1) + 2 * (T ^ 2 * C1 ^ 2 * A2))) * (δ ^ 2 + v) =
    A * (δ ^ 2 + (2 * ((2 * (T * A1) + 2 * (T ^ 2 * C1 ^ 2 * A2)) * δ ^ 2) + 2 * v)) +
      A * (δ ^ 2 + 2 * (2 * (T * A1) + 2 * (T ^ 2 * C1 ^ 2 * A2)) * v) by ring]
  linarith

/-- Strong convergence of a scheme `Θ` that differs from a stable and consistent scheme `Ψ` by `δ D(y) S b`, up to terms of second
order, and is perturbed by `Z k` in every step. The scheme `Θ` itself need not be stable. -/
theorem strong_mart_noise (hB : IsBrownianVec B P) {f : Vec d → ℝ → Vec d} {Df : Vec d → ℝ → Vec d →L[ℝ] Vec d} {T L K Lt : ℝ} (hT : 0 < T)
    (hf : SmoothField f Df T L K) (hL : 0 ≤ L) (hLt : 0 ≤ Lt) (htl : TimeLipschitz f T Lt) (S : Mat d m) (x0 : Vec d)
    {X : Ω → ℝ → Vec d} (hX : ∀ᵐ ω ∂P, SolvesAdditive f S (fun t j => B j t.toNNReal ω) x0 T (X ω)) {C0 C1 C2 κ0 κ1 : ℝ} (hC0 : 0 ≤ C0)
    (hC1 : 0 ≤ C1) (hC2 : 0 ≤ C2) (hκ0 : 0 ≤ κ0) (hκ1 : 0 ≤ κ1) :
    ∃ A : ℝ, 0 ≤ A ∧ ∀ N : ℕ, 0 < N → ∀ {lam mu : ℝ}, |lam| ≤ κ0 → |mu| ≤ κ0 → ∀ Ψ Θ : ℕ → Vec d → Vec m → Vec m → Vec d,
      (∀ k, Measurable fun p : Vec d × Vec m × Vec m => Ψ k p.1 p.2.1 p.2.2) →
      (∀ k, Measurable fun p : Vec d × Vec m × Vec m => Θ k p.1 p.2.1 p.2.2) →
      (∀ k < N, ∀ a b y y', ‖Ψ k y a b - y - (Ψ k y' a b - y')‖ ≤ C0 * (T / N) * ‖y - y'‖) →
      (∀ k < N, ∀ a b y, ‖Ψ k y a b - (y + S *ᵥ a + (T / N) • f y (k * (T / N)) + (T / N) • Df y (k * (T / N))
        (S *ᵥ (lam • a + mu • b)))‖ ≤
        T / N * (C1 * (T / N * (1 + ‖y‖ + ‖f y (k * (T / N))‖) ^ 2 + (‖a‖ + 4 * ‖b‖) ^ 2))) →
      ∀ D : ℕ → Vec d → Vec d →L[ℝ] Vec d, (∀ k < N, Continuous (D k)) → (∀ k < N, ∀ y, ‖D k y‖ ≤ κ1) →
      (∀ k < N, ∀ a b y, ‖Θ k y a b - (Ψ k y a b + (T / N) • D k y (S *ᵥ b))‖ ≤
        T / N * (C1 * (T / N * (1 + ‖y‖ + ‖f y (k * (T / N))‖) ^ 2 + (‖a‖ + 4 * ‖b‖) ^ 2))) →
      ∀ (v : ℝ) (Y : ℕ → Ω → Vec d) (a b : Ω → ℕ → Vec m) (Z : Ω → ℕ → Vec d), (∀ᵐ ω ∂P, Y 0 ω = x0) →
      (∀ᵐ ω ∂P, ∀ k < N, SameEndAndArea (fun t => Foster.evalParabola t (T / N) (a ω k) (b ω k)) (fun t j => B j t.toNNReal ω)
        (k * (T / N)) (T / N)) →
      (∀ᵐ ω ∂P, ∀ k < N, Y (k + 1) ω = Θ k (Y k ω) (a ω k) (b ω k) + Z ω k) →
      (∀ᵐ ω ∂P, ∀ k < N, ‖Y (k + 1) ω - Y k ω - S *ᵥ a ω k‖ ≤ T / N * (C2 * (1 + ‖Y k ω‖ + (‖a ω k‖ + 4 * ‖b ω k‖)))) →
      (∀ k ≤ N, ∃ V : Ω → Vec d, Measurable[pastAlg B (k * (T / N)).toNNReal] V ∧ Y k =ᵐ[P] V) →
      (∀ n ≤ N, Integrable (fun ω => ‖∑ k ∈ Finset.range n, Z ω k‖ ^ 2) P ∧ ∫ ω, ‖∑ k ∈ Finset.range n, Z ω k‖ ^ 2 ∂P ≤ v) →
      ∀ n ≤ N, Integrable (fun ω => ‖X ω (n * (T / N)) - Y n ω‖ ^ 2) P ∧
        ∫ ω, ‖X ω (n * (T / N)) - Y n ω‖ ^ 2 ∂P ≤ A * ((T / N) ^ 2 + v) := by
  obtain ⟨A, hA0, hA⟩ := strong_mart_adapted hB hT hf hL hLt htl S x0 hX hC0 hC1 hC2 hκ0 hκ1
  refine ⟨A, hA0, ?_⟩
  intro N hN lam mu hlam hmu Ψ Θ hΨm hΘm hΨs hΨc D hDc hDκ hΘ v Y a b Z hY0 hm hY hgr hYv0 hZ n hn
  have hN' : (0 : ℝ) < N := by exact_mod_cast hN
  have hYv : ∀ k, ∃ V : Ω → Vec d, k ≤ N → Measurable[pastAlg B (k * (T / N)).toNNReal] V ∧ Y k =ᵐ[P] V := fun k => by
    by_cases hk : k ≤ N
    · obtain ⟨V, hV⟩ := hYv0 k hk
      exact ⟨V, fun _ => hV⟩
    · exact ⟨fun _ => 0, fun h => absurd h hk⟩
  choose V hV using hYv
  have hYm : ∀ k ≤ N, AEMeasurable (Y k) P := fun k hk => ⟨V k, (hV k hk).1.mono (hB.pastAlg_le _) le_rfl, (hV k hk).2⟩
  have hVae : ∀ᵐ ω ∂P, ∀ k ≤ N, Y k ω = V k ω := by
    refine ae_all_iff.mpr fun k => ?_
    by_cases hk : k ≤ N
    · exact (hV k hk).2.mono fun ω h _ => h
    · exact Eventually.of_forall fun ω h => absurd h hk
  refine hA N hN hlam hmu Ψ hΨm hΨs hΨc (fun k ω => D k (V k ω)) (fun k hk u => ?_) (fun k hk => Eventually.of_forall fun ω => hDκ k hk _) v Y a b Z
    hY0 hm ?_ hgr hYm (fun k hk => ?_) hZ n hn
  · have h2 : Continuous fun x => D k x u := (hDc k hk).clm_apply continuous_const
    letI := pastAlg B (k * (T / N)).toNNReal
    exact h2.measurable.comp (hV k hk.le).1
  · filter_upwards [hY, hVae] with ω h1 h2 k hk
    rw [h1 k hk, ← h2 k hk.le, add_sub_cancel_right]
    exact hΘ k hk _ _ _
  · have h2 := (hYm k hk.le).prodMk (aemeasurable_coeffs hB (by positivity) hm k hk)
    refine ((hYm (k + 1) hk).sub ((hΘm k).comp_aemeasurable h2)).congr ?_
    filter_upwards [hY] with ω h
    show Y (k + 1) ω - Θ k (Y k ω) (a ω k) (b ω k) = _
    rw [h k hk]
    abel

/-- Strong convergence of a scheme `Θ` that differs from a stable and consistent scheme `Ψ` by `δ D(y) S b`, up to terms of second
order. The scheme `Θ` itself need not be stable. -/
theorem strong_mart (hB : IsBrownianVec B P) {f : Vec d → ℝ → Vec d} {Df : Vec d → ℝ → Vec d →L[ℝ] Vec d} {T L K Lt : ℝ} (hT : 0 < T)
    (hf : SmoothField f Df T L K) (hL : 0 ≤ L) (hLt : 0 ≤ Lt) (htl : TimeLipschitz f T Lt) (S : Mat d m) (x0 : Vec d)
    {X : Ω → ℝ → Vec d} (hX : ∀ᵐ ω ∂P, SolvesAdditive f S (fun t j => B j t.toNNReal ω) x0 T (X ω)) {C0 C1 C2 κ0 κ1 : ℝ} (hC0 : 0 ≤ C0)
    (hC1 : 0 ≤ C1) (hC2 : 0 ≤ C2) (hκ0 : 0 ≤ κ0) (hκ1 : 0 ≤ κ1) :
    ∃ A : ℝ, 0 ≤ A ∧ ∀ N : ℕ, 0 < N → ∀ {lam mu : ℝ}, |lam| ≤ κ0 → |mu| ≤ κ0 → ∀ Ψ Θ : ℕ → Vec d → Vec m → Vec m → Vec d,
      (∀ k, Measurable fun p : Vec d × Vec m × Vec m => Ψ k p.1 p.2.1 p.2.2) →
      (∀ k, Measurable fun p : Vec d × Vec m × Vec m => Θ k p.1 p.2.1 p.2.2) →
      (∀ k < N, ∀ a b y y', ‖Ψ k y a b - y - (Ψ k y' a b - y')‖ ≤ C0 * (T / N) * ‖y - y'‖) →
      (∀ k < N, ∀ a b y, ‖Ψ k y a b - (y + S *ᵥ a + (T / N) • f y (k * (T / N)) + (T / N) • Df y (k * (T / N))
        (S *ᵥ (lam • a + mu • b)))‖ ≤
        T / N * (C1 * (T / N * (1 + ‖y‖ + ‖f y (k * (T / N))‖) ^ 2 + (‖a‖ + 4 * ‖b‖) ^ 2))) →
      ∀ D : ℕ → Vec d → Vec d →L[ℝ] Vec d, (∀ k < N, Continuous (D k)) → (∀ k < N, ∀ y, ‖D k y‖ ≤ κ1) →
      (∀ k < N, ∀ a b y, ‖Θ k y a b - (Ψ k y a b + (T / N) • D k y (S *ᵥ b))‖ ≤
        T / N * (C1 * (T / N * (1 + ‖y‖ + ‖f y (k * (T / N))‖) ^ 2 + (‖a‖ + 4 * ‖b‖) ^ 2))) →
      (∀ k < N, ∀ a b y, ‖Θ k y a b - y - S *ᵥ a‖ ≤ T / N * (C2 * (1 + ‖y‖ + (‖a‖ + 4 * ‖b‖)))) →
      ∀ (Y : ℕ → Ω → Vec d) (a b : Ω → ℕ → Vec m), (∀ᵐ ω ∂P, Y 0 ω = x0) →
      (∀ᵐ ω ∂P, ∀ k < N, SameEndAndArea (fun t => Foster.evalParabola t (T / N) (a ω k) (b ω k)) (fun t j => B j t.toNNReal ω)
        (k * (T / N)) (T / N)) →
      (∀ᵐ ω ∂P, ∀ k < N, Y (k + 1) ω = Θ k (Y k ω) (a ω k) (b ω k)) →
      ∀ n ≤ N, Integrable (fun ω => ‖X ω (n * (T / N)) - Y n ω‖ ^ 2) P ∧
        ∫ ω, ‖X ω (n * (T / N)) - Y n ω‖ ^ 2 ∂P ≤ A * (T / N) ^ 2 := by
  obtain ⟨A, hA0, hA⟩ := strong_mart_noise hB hT hf hL hLt htl S x0 hX hC0 hC1 hC2 hκ0 hκ1
  refine ⟨A, hA0, ?_⟩
  intro N hN lam mu hlam hmu Ψ Θ hΨm hΘm hΨs hΨc D hDc hDκ hΘ hgr Y a b hY0 hm hY n hn
  have hN' : (0 : ℝ) < N := by exact_mod_cast hN
  have h := hA N hN hlam hmu Ψ Θ hΨm hΘm hΨs hΨc D hDc hDκ hΘ 0 Y a b (fun _ _ => 0) hY0 hm
    (hY.mono fun ω h k hk => by rw [h k hk, add_zero]) (hY.mono fun ω h k hk => by rw [h k hk]; exact hgr k hk _ _ _)
    (fun k hk => scheme_adapted hB (by positivity) N hΘm hY0 hm hY k hk) (fun n _ => by simp) n hn
  rwa [add_zero] at h

end Verif
