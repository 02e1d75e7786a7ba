import Verif.Lemmas.Order15Local

/-! Moments of the noise in the local error of the scheme of order 1.5. -/

namespace Verif

open Matrix Spec Jnp Set MeasureTheory ProbabilityTheory Filter
open scoped NNReal Topology

variable {d m : ℕ} {Ω : Type*} [MeasurableSpace Ω] {P : Measure Ω} {B : Fin m → ℝ≥0 → Ω → ℝ}

theorem gaussian_sq (v : ℝ≥0) : Integrable (fun x : ℝ => x ^ 2) (gaussianReal 0 v) ∧ ∫ x, x ^ 2 ∂(gaussianReal 0 v) = v := by
  have hm := memLp_id_gaussianReal (μ := 0) (v := v) 2
  have hm' : MemLp (id : ℝ → ℝ) 2 (gaussianReal 0 v) := by simpa using hm
  refine ⟨hm'.integrable_sq, ?_⟩
  have h1 := variance_id_gaussianReal (μ := 0) (v := v)
  rw [variance_of_integral_eq_zero aemeasurable_id (by simp)] at h1
  simpa using h1

/-- Second moments of the increments from a given time. -/
theorem brownian_inc_moments (hB : IsBrownianVec B P) (s t : ℝ≥0) (l l' : Fin m) :
    ∫ ω, (B l t ω - B l s ω) * (B l' t ω - B l' s ω) ∂P = if l = l' then |(t : ℝ) - s| else 0 := by
  have hP := hB.isProb
  have hl := fun j => (hB.brownian j).toIsPreBrownianReal.hasLaw_sub t s
  split_ifs with h
  · subst h
    have h1 := integral_map (μ := P) (hl l).aemeasurable (f := fun x : ℝ => x ^ 2) (by fun_prop)
    rw [(hl l).map_eq, (gaussian_sq _).2] at h1
    have h2 : ((nndist (t : ℝ) s : ℝ≥0) : ℝ) = |(t : ℝ) - s| := by rw [coe_nndist, Real.dist_eq]
    rw [← h2]
    refine Eq.trans ?_ h1.symm
    refine integral_congr_ae (Eventually.of_forall fun ω => ?_)
    simp only [Pi.sub_apply]
    ring
  · have hi := (hB.indep.indepFun h).comp (φ := fun p : ℝ≥0 → ℝ => p t - p s) (ψ := fun p : ℝ≥0 → ℝ => p t - p s)
      (by fun_prop) (by fun_prop)
    have h0 : ∫ ω, (B l t ω - B l s ω) ∂P = 0 := by
      have h1 := integral_map (μ := P) (hl l).aemeasurable (f := fun x : ℝ => x) (by fun_prop)
      rw [(hl l).map_eq, integral_id_gaussianReal] at h1
      exact h1.symm
    have h2 := hi.integral_fun_mul_eq_mul_integral ((hB.meas l t).sub (hB.meas l s)).aestronglyMeasurable
      ((hB.meas l' t).sub (hB.meas l' s)).aestronglyMeasurable
    simp only [Function.comp_apply] at h2
    rw [h2, h0, zero_mul]

theorem sq_le_one_add_pow6 (x : ℝ) : x ^ 2 ≤ 1 + x ^ 6 := by
  have := sq_nonneg (x ^ 2 - 1)
  have h2 := sq_nonneg x
  nlinarith [mul_nonneg h2 this, sq_nonneg x]

theorem quadNoise_le {w : ℝ → Vec m} {a0 δ W : ℝ} (hδ : 0 < δ) (hW : ∀ t ∈ Icc 0 δ, ‖w (a0 + t) - w a0‖ ≤ W) (l l' : Fin m) :
    |quadNoise w a0 δ l l'| ≤ δ * W ^ 2 + δ ^ 2 := by
  have h1 : ∀ t ∈ uIoc 0 δ, ‖(w (a0 + t) l - w a0 l) * (w (a0 + t) l' - w a0 l')‖ ≤ W ^ 2 := fun t ht => by
    rw [uIoc_of_le hδ.le] at ht
    have h2 := hW t (Ioc_subset_Icc_self ht)
    have h3 : ∀ j, ‖w (a0 + t) j - w a0 j‖ ≤ W := fun j => (norm_le_pi_norm (w (a0 + t) - w a0) j).trans h2
    rw [norm_mul, sq]
    exact mul_le_mul (h3 l) (h3 l') (norm_nonneg _) ((norm_nonneg _).trans h2)
  have h2 := intervalIntegral.norm_integral_le_of_norm_le_const h1
  rw [sub_zero, abs_of_pos hδ, Real.norm_eq_abs] at h2
  rw [quadNoise]
  have h3 : |(if l = l' then δ ^ 2 / 2 else 0 : ℝ)| ≤ δ ^ 2 := by
    split_ifs
    · rw [abs_of_nonneg (by positivity)]
      have := sq_nonneg δ
      linarith
    · simpa using sq_nonneg δ
  have := abs_sub (∫ t in (0 : ℝ)..δ, (w (a0 + t) l - w a0 l) * (w (a0 + t) l' - w a0 l')) (if l = l' then δ ^ 2 / 2 else 0)
  linarith

/-- Riemann sums of the second order noise. -/
noncomputable def quadSum (w : ℝ → Vec m) (a0 δ : ℝ) (l l' : Fin m) (n : ℕ) : ℝ :=
  δ / (n + 1 : ℕ) * ∑ i ∈ Finset.range (n + 1), (w (a0 + i * (δ / (n + 1 : ℕ))) l - w a0 l) * (w (a0 + i * (δ / (n + 1 : ℕ))) l' - w a0 l') -
    if l = l' then δ ^ 2 / 2 else 0

theorem node_mem {δ : ℝ} (hδ : 0 < δ) {n i : ℕ} (hi : i ∈ Finset.range (n + 1)) : (i : ℝ) * (δ / (n + 1 : ℕ)) ∈ Icc 0 δ := by
  refine ⟨by positivity, ?_⟩
  have h2 : (i : ℝ) ≤ (n + 1 : ℕ) := by exact_mod_cast (Finset.mem_range.mp hi).le
  rw [mul_div_assoc', div_le_iff₀ (by positivity), mul_comm δ]
  exact mul_le_mul_of_nonneg_right h2 hδ.le

theorem quadSum_le {w : ℝ → Vec m} {a0 δ W : ℝ} (hδ : 0 < δ) (hW : ∀ t ∈ Icc 0 δ, ‖w (a0 + t) - w a0‖ ≤ W) (l l' : Fin m) (n : ℕ) :
    |quadSum w a0 δ l l' n| ≤ δ * W ^ 2 + δ ^ 2 := by
  have h1 : ∀ i ∈ Finset.range (n + 1), |(w (a0 + i * (δ / (n + 1 : ℕ))) l - w a0 l) * (w (a0 + i * (δ / (n + 1 : ℕ))) l' - w a0 l')| ≤ W ^ 2 :=
    fun i hi => by
    have h2 := hW _ (node_mem hδ hi)
    have h3 : ∀ j, |w (a0 + i * (δ / (n + 1 : ℕ))) j - w a0 j| ≤ W := fun j =>
      (norm_le_pi_norm (w (a0 + i * (δ / (n + 1 : ℕ))) - w a0) j).trans h2
    rw [abs_mul, sq]
    exact mul_le_mul (h3 l) (h3 l') (abs_nonneg _) ((norm_nonneg _).trans h2)
  have h2 := (Finset.abs_sum_le_sum_abs _ _).trans (Finset.sum_le_sum h1)
  rw [Finset.sum_const, Finset.card_range, nsmul_eq_mul] at h2
  have h3 : |(if l = l' then δ ^ 2 / 2 else 0 : ℝ)| ≤ δ ^ 2 := by
    split_ifs
    · rw [abs_of_nonneg (by positivity)]
      have := sq_nonneg δ
      linarith
    · simpa using sq_nonneg δ
  rw [quadSum]
  refine (abs_sub _ _).trans (add_le_add ?_ h3)
  rw [abs_mul, abs_of_nonneg (by positivity : 0 ≤ δ / ((n + 1 : ℕ) : ℝ))]
  refine (mul_le_mul_of_nonneg_left h2 (by positivity)).trans (le_of_eq ?_)
  field_simp

theorem quadSum_tendsto {w : ℝ → Vec m} (hw : Continuous w) {a0 δ : ℝ} (hδ : 0 < δ) (l l' : Fin m) :
    Tendsto (fun n => quadSum w a0 δ l l' n) atTop (𝓝 (quadNoise w a0 δ l l')) := by
  have hg : Continuous fun t : ℝ => (w (a0 + t) l - w a0 l) * (w (a0 + t) l' - w a0 l') := by fun_prop
  exact (tendsto_riemann hg hδ).sub_const _

variable (B) in
/-- The path of the noise as a function of real time. -/
noncomputable def pathOf (ω : Ω) (t : ℝ) : Vec m := fun j => B j t.toNNReal ω

/-- The second order noise of an interval is determined by the increments over the interval, has mean zero, and is square
integrable. -/
theorem quadNoise_moments (hB : IsBrownianVec B P) {δ : ℝ} (hδ : 0 < δ) (k : ℕ) (l l' : Fin m) :
    (∃ V, Measurable[futureAlg B (k * δ).toNNReal] V ∧ (fun ω => quadNoise (pathOf B ω) (k * δ) δ l l') =ᵐ[P] V) ∧
      MemLp (fun ω => quadNoise (pathOf B ω) (k * δ) δ l l') 2 P ∧ ∫ ω, quadNoise (pathOf B ω) (k * δ) δ l l' ∂P = 0 := by
  have hP := hB.isProb
  have hk0 : (0 : ℝ) ≤ k * δ := by positivity
  have hcont : ∀ᵐ ω ∂P, Continuous (pathOf B ω) := by
    filter_upwards [ae_all_iff.mpr fun j => (hB.brownian j).cont] with ω hω
    exact continuous_pi fun j => (hω j).comp continuous_real_toNNReal
  have hlim : ∀ᵐ ω ∂P, Tendsto (fun n => quadSum (pathOf B ω) (k * δ) δ l l' n) atTop (𝓝 (quadNoise (pathOf B ω) (k * δ) δ l l')) := by
    filter_upwards [hcont] with ω hω
    exact quadSum_tendsto hω hδ l l'
  have hinc : ∀ (n i : ℕ) (j : Fin m), Measurable[futureAlg B (k * δ).toNNReal]
      fun ω => pathOf B ω (k * δ + i * (δ / (n + 1 : ℕ))) j - pathOf B ω (k * δ) j := fun n i j =>
    measurable_futureAlg (Real.toNNReal_le_toNNReal (by linarith [show (0 : ℝ) ≤ i * (δ / (n + 1 : ℕ)) by positivity])) j
  have hUm : ∀ n, Measurable[futureAlg B (k * δ).toNNReal] fun ω => quadSum (pathOf B ω) (k * δ) δ l l' n := fun n => by
    have h1 := fun i => hinc n i l
    have h2 := fun i => hinc n i l'
    letI := futureAlg B (k * δ).toNNReal
    exact ((Finset.measurable_fun_sum _ fun i _ => (h1 i).mul (h2 i)).const_mul _).sub_const _
  obtain ⟨V, hV1, hV2⟩ := exists_measurable_version hUm hlim
  have hVm : AEStronglyMeasurable (fun ω => quadNoise (pathOf B ω) (k * δ) δ l l') P :=
    ((hV1.mono (hB.futureAlg_le _) le_rfl).aestronglyMeasurable).congr hV2.symm
  obtain ⟨G, hGi, hG0, -, hG⟩ := brownian_sup6_vec hB.brownian ((k * δ).toNNReal) δ.toNNReal
  have hWb : ∀ᵐ ω ∂P, ∀ t ∈ Icc 0 δ, ‖pathOf B ω (k * δ + t) - pathOf B ω (k * δ)‖ ≤ G ω ^ (1 / 6 : ℝ) := by
    filter_upwards [hG] with ω hω t ht
    have h1 := hω t.toNNReal (Real.toNNReal_le_toNNReal ht.2)
    rw [← Real.toNNReal_add hk0 ht.1] at h1
    exact h1
  refine ⟨⟨V, hV1, hV2⟩, ?_, ?_⟩
  · rw [memLp_two_iff_integrable_sq hVm]
    have hi : Integrable (fun ω => 2 * δ ^ 2 * (1 + G ω) + 2 * δ ^ 4) P :=
      (((integrable_const (1 : ℝ)).add hGi).const_mul (2 * δ ^ 2)).add (integrable_const _)
    refine hi.mono' (hVm.pow 2) ?_
    filter_upwards [hWb] with ω hω
    rw [Real.norm_of_nonneg (sq_nonneg _)]
    have h1 := pow_le_pow_left₀ (abs_nonneg _) (quadNoise_le hδ hω l l') 2
    rw [sq_abs] at h1
    refine h1.trans ?_
    have h2 := sixth_root_pow (hG0 ω)
    generalize G ω ^ (1 / 6 : ℝ) = W at h2
    rw [← h2]
    have h3 : W ^ 4 ≤ 1 + W ^ 6 := by nlinarith [sq_nonneg (W ^ 2 - 1), sq_nonneg W, mul_nonneg (sq_nonneg W) (sq_nonneg (W ^ 2 - 1)), sq_nonneg (W ^ 2)]
    have h4 : (δ * W ^ 2 + δ ^ 2) ^ 2 ≤ 2 * δ ^ 2 * W ^ 4 + 2 * δ ^ 4 := by nlinarith [sq_nonneg (δ * W ^ 2 - δ ^ 2)]
    have h5 := mul_le_mul_of_nonneg_left h3 (by positivity : 0 ≤ 2 * δ ^ 2)
    linarith
  · have hbd : Integrable (fun ω => δ * (1 + G ω) + δ ^ 2) P := (((integrable_const (1 : ℝ)).add hGi).const_mul δ).add (integrable_const _)
    have hdom := tendsto_integral_of_dominated_convergence (μ := P) (F := fun n ω => quadSum (pathOf B ω) (k * δ) δ l l' n)
      (f := fun ω => quadNoise (pathOf B ω) (k * δ) δ l l') (fun ω => δ * (1 + G ω) + δ ^ 2)
      (fun n => ((hUm n).mono (hB.futureAlg_le _) le_rfl).aestronglyMeasurable) hbd (fun n => by
        filter_upwards [hWb] with ω hω
        rw [Real.norm_eq_abs]
        refine (quadSum_le hδ hω l l' n).trans ?_
        have h1 := sq_le_one_add_pow6 (G ω ^ (1 / 6 : ℝ))
        rw [sixth_root_pow (hG0 ω)] at h1
        have := mul_le_mul_of_nonneg_left h1 hδ.le
        linarith) hlim
    have hval : ∀ n : ℕ, ∫ ω, quadSum (pathOf B ω) (k * δ) δ l l' n ∂P = if l = l' then
        δ / (n + 1 : ℕ) * ∑ i ∈ Finset.range (n + 1), ((i : ℝ) * (δ / (n + 1 : ℕ))) - δ ^ 2 / 2 else 0 := fun n => by
      have hL2 : ∀ i j, MemLp (fun ω => pathOf B ω (k * δ + i * (δ / (n + 1 : ℕ))) j - pathOf B ω (k * δ) j) 2 P := fun i j => by
        have hl := (hB.brownian j).toIsPreBrownianReal.hasLaw_sub (k * δ + i * (δ / (n + 1 : ℕ))).toNNReal (k * δ).toNNReal
        have h1 : MemLp (id : ℝ → ℝ) 2 (gaussianReal 0 (nndist (k * δ + i * (δ / (n + 1 : ℕ))).toNNReal.1 (k * δ).toNNReal.1)) := by
          simpa using memLp_id_gaussianReal (μ := 0) 2
        rw [← hl.map_eq] at h1
        exact h1.comp_of_map hl.aemeasurable
      have hi : ∀ i ∈ Finset.range (n + 1), Integrable (fun ω => (pathOf B ω (k * δ + i * (δ / (n + 1 : ℕ))) l - pathOf B ω (k * δ) l) *
          (pathOf B ω (k * δ + i * (δ / (n + 1 : ℕ))) l' - pathOf B ω (k * δ) l')) P := fun i _ => (hL2 i l).integrable_mul (hL2 i l')
      simp only [quadSum]
      rw [integral_sub ((integrable_finsetSum _ hi).const_mul _) (integrable_const _), integral_const_mul, integral_finsetSum _ hi,
        integral_const]
      have he : ∀ i ∈ Finset.range (n + 1), ∫ ω, (pathOf B ω (k * δ + i * (δ / (n + 1 : ℕ))) l - pathOf B ω (k * δ) l) *
          (pathOf B ω (k * δ + i * (δ / (n + 1 : ℕ))) l' - pathOf B ω (k * δ) l') ∂P = if l = l' then (i : ℝ) * (δ / (n + 1 : ℕ)) else 0 :=
        fun i _ => by
        have h1 := brownian_inc_moments hB (k * δ).toNNReal (k * δ + i * (δ / (n + 1 : ℕ))).toNNReal l l'
        have hi0 : (0 : ℝ) ≤ i * (δ / (n + 1 : ℕ)) := by positivity
        rw [Real.coe_toNNReal _ hk0, Real.coe_toNNReal _ (by positivity), add_sub_cancel_left, abs_of_nonneg hi0] at h1
        exact h1
      rw [Finset.sum_congr rfl he]
      split_ifs <;> simp
    have hlim2 : Tendsto (fun n : ℕ => ∫ ω, quadSum (pathOf B ω) (k * δ) δ l l' n ∂P) atTop (𝓝 0) := by
      simp only [hval]
      split_ifs
      · have h1 := (tendsto_riemann continuous_id hδ).sub_const (δ ^ 2 / 2)
        simp only [id] at h1
        rw [integral_id] at h1
        have h2 : (δ ^ 2 - 0 ^ 2) / 2 - δ ^ 2 / 2 = 0 := by ring
        rwa [h2] at h1
      · exact tendsto_const_nhds
    exact tendsto_nhds_unique hdom hlim2

/-- The term of the error that is quadratic in the noise of the interval has expectation zero. -/
theorem martingale_quad (hB : IsBrownianVec B P) {δ : ℝ} (hδ : 0 < δ) (k : ℕ) {E : Ω → Vec d}
    (hE : Measurable[pastAlg B (k * δ).toNNReal] E) {A : Ω → Vec d →L[ℝ] Vec d →L[ℝ] Vec d}
    (hA : ∀ u v, Measurable[pastAlg B (k * δ).toNNReal] fun ω => A ω u v)
    (hEi : Integrable (fun ω => E ω ⬝ᵥ E ω) P) {K : ℝ} (hK0 : 0 ≤ K) (hAK : ∀ ω, ‖A ω‖ ≤ K) (S : Mat d m) :
    Integrable (fun ω => E ω ⬝ᵥ quadTerm (A ω) S (quadNoise (pathOf B ω) (k * δ) δ)) P ∧
      ∫ ω, E ω ⬝ᵥ quadTerm (A ω) S (quadNoise (pathOf B ω) (k * δ) δ) ∂P = 0 := by
  have hP := hB.isProb
  obtain ⟨c, hc⟩ : ∃ c : Fin m → Vec d, ∀ l, c l = S *ᵥ (Pi.single l 1 : Vec m) := ⟨_, fun _ => rfl⟩
  obtain ⟨g, hg⟩ : ∃ g : Fin m → Fin m → Ω → ℝ, ∀ l l' ω, g l l' ω = E ω ⬝ᵥ A ω (c l) (c l') := ⟨_, fun _ _ _ => rfl⟩
  have hle := hB.pastAlg_le (k * δ).toNNReal
  have hgm : ∀ l l', Measurable[pastAlg B (k * δ).toNNReal] (g l l') := fun l l' => by
    have h1 : g l l' = fun ω => E ω ⬝ᵥ A ω (c l) (c l') := funext fun ω => hg l l' ω
    rw [h1]
    letI := pastAlg B (k * δ).toNNReal
    refine Finset.measurable_fun_sum _ fun i _ => ?_
    exact ((measurable_pi_apply i).comp hE).mul ((measurable_pi_apply i).comp (hA _ _))
  have hgb : ∀ l l' ω, g l l' ω ^ 2 ≤ (d : ℝ) ^ 2 * (K * ‖c l‖ * ‖c l'‖) ^ 2 * (E ω ⬝ᵥ E ω) := fun l l' ω => by
    have h1 : |g l l' ω| ≤ d * (‖E ω‖ * (K * ‖c l‖ * ‖c l'‖)) := by
      rw [hg]
      refine (Finset.abs_sum_le_sum_abs _ _).trans ?_
      have : ∀ i ∈ Finset.univ, |E ω i * A ω (c l) (c l') i| ≤ ‖E ω‖ * (K * ‖c l‖ * ‖c l'‖) := fun i _ => by
        rw [abs_mul]
        refine mul_le_mul (norm_le_pi_norm (E ω) i) ?_ (abs_nonneg _) (norm_nonneg _)
        refine (norm_le_pi_norm (A ω (c l) (c l')) i).trans (((A ω (c l)).le_opNorm _).trans ?_)
        refine mul_le_mul_of_nonneg_right (((A ω).le_opNorm _).trans ?_) (norm_nonneg _)
        exact mul_le_mul_of_nonneg_right (hAK ω) (norm_nonneg _)
      refine (Finset.sum_le_sum this).trans (le_of_eq ?_)
      simp
    have h2 := pow_le_pow_left₀ (abs_nonneg _) h1 2
    rw [sq_abs] at h2
    refine h2.trans ?_
    have h3 := sq_norm_le_dot (E ω)
    calc _ = (d : ℝ) ^ 2 * (K * ‖c l‖ * ‖c l'‖) ^ 2 * ‖E ω‖ ^ 2 := by ring
      _ ≤ _ := mul_le_mul_of_nonneg_left h3 (by positivity)
  have hgL : ∀ l l', MemLp (g l l') 2 P := fun l l' => by
    have hm : AEStronglyMeasurable (g l l') P := ((hgm l l').mono hle le_rfl).aestronglyMeasurable
    rw [memLp_two_iff_integrable_sq hm]
    refine (hEi.const_mul ((d : ℝ) ^ 2 * (K * ‖c l‖ * ‖c l'‖) ^ 2)).mono' (hm.pow 2) (Eventually.of_forall fun ω => ?_)
    rw [Real.norm_of_nonneg (sq_nonneg _)]
    exact hgb l l' ω
  have hterm : ∀ l l', Integrable (fun ω => g l l' ω * quadNoise (pathOf B ω) (k * δ) δ l l') P ∧
      ∫ ω, g l l' ω * quadNoise (pathOf B ω) (k * δ) δ l l' ∂P = 0 := fun l l' => by
    obtain ⟨⟨V, hV1, hV2⟩, h1, h2⟩ := quadNoise_moments hB hδ k l l'
    refine ⟨(hgL l l').integrable_mul h1, ?_⟩
    have hi := hB.indep_of (hgm l l') hV1
    have h3 : ∫ ω, g l l' ω * quadNoise (pathOf B ω) (k * δ) δ l l' ∂P = ∫ ω, g l l' ω * V ω ∂P := by
      refine integral_congr_ae ?_
      filter_upwards [hV2] with ω hω
      rw [hω]
    have h4 : ∫ ω, V ω ∂P = 0 := by rw [← h2]; exact (integral_congr_ae hV2).symm
    rw [h3, hi.integral_fun_mul_eq_mul_integral (hgL l l').aestronglyMeasurable
      (hV1.mono (hB.futureAlg_le _) le_rfl).aestronglyMeasurable, h4, mul_zero]
  have he : (fun ω => E ω ⬝ᵥ quadTerm (A ω) S (quadNoise (pathOf B ω) (k * δ) δ)) =
      fun ω => ∑ l, ∑ l', (1 / 2 : ℝ) * (g l l' ω * quadNoise (pathOf B ω) (k * δ) δ l l') := by
    funext ω
    simp only [quadTerm, ← hc, dotProduct_smul, dotProduct_sum, ← hg, smul_eq_mul, Finset.mul_sum]
    refine Finset.sum_congr rfl fun l _ => Finset.sum_congr rfl fun l' _ => ?_
    ring
  rw [he]
  have hti : ∀ l l', Integrable (fun ω => (1 / 2 : ℝ) * (g l l' ω * quadNoise (pathOf B ω) (k * δ) δ l l')) P := fun l l' => (hterm l l').1.const_mul _
  refine ⟨integrable_finsetSum _ fun l _ => integrable_finsetSum _ fun l' _ => hti l l', ?_⟩
  rw [integral_finsetSum _ fun l _ => integrable_finsetSum _ fun l' _ => hti l l']
  refine Finset.sum_eq_zero fun l _ => ?_
  rw [integral_finsetSum _ fun l' _ => hti l l']
  refine Finset.sum_eq_zero fun l' _ => ?_
  rw [integral_const_mul, (hterm l l').2, mul_zero]

/-- The square of the noise of the interval times a square integrable factor that depends on the past. -/
theorem past_mul_sq (hB : IsBrownianVec B P) {δ : ℝ} (hδ : 0 < δ) (k : ℕ) {Q : Ω → ℝ} (hQ : Measurable[pastAlg B (k * δ).toNNReal] Q)
    (hQi : Integrable Q P) (hQ0 : ∀ ω, 0 ≤ Q ω) (j : Fin m) (s : Fin 2) :
    Integrable (fun ω => Q ω * incArea (fun t => B j t.toNNReal ω) δ k s ^ 2) P ∧
      ∫ ω, Q ω * incArea (fun t => B j t.toNNReal ω) δ k s ^ 2 ∂P ≤ δ * ∫ ω, Q ω ∂P := by
  have hP := hB.isProb
  obtain ⟨h1, -, h3⟩ := coeff_moments hB hδ k j s
  obtain ⟨V, hV1, hV2⟩ := coeff_future hB hδ k j s
  have hV1' : Measurable[futureAlg B (k * δ).toNNReal] fun ω => V ω ^ 2 := by
    letI := futureAlg B (k * δ).toNNReal
    exact hV1.pow_const 2
  have hi := hB.indep_of hQ hV1'
  have hVi : Integrable (fun ω => V ω ^ 2) P := h1.integrable_sq.congr (by filter_upwards [hV2] with ω hω; rw [hω])
  have hc : (fun ω => Q ω * incArea (fun t => B j t.toNNReal ω) δ k s ^ 2) =ᵐ[P] fun ω => Q ω * V ω ^ 2 := by
    filter_upwards [hV2] with ω hω
    rw [hω]
  refine ⟨(hi.integrable_mul hQi hVi).congr hc.symm, ?_⟩
  rw [integral_congr_ae hc, hi.integral_fun_mul_eq_mul_integral hQi.aestronglyMeasurable hVi.aestronglyMeasurable, mul_comm]
  refine mul_le_mul_of_nonneg_right ?_ (integral_nonneg hQ0)
  have h4 : ∫ ω, V ω ^ 2 ∂P = ∫ ω, incArea (fun t => B j t.toNNReal ω) δ k s ^ 2 ∂P :=
    integral_congr_ae (by filter_upwards [hV2] with ω hω; rw [hω])
  rw [h4]
  exact h3

end Verif
