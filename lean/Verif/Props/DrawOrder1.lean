import Verif.Lemmas.DrawStrong
import Verif.Lemmas.Ekf1Draw
import Verif.Props.DrawOrder
import Verif.Props.StrongEkf1

/-!
# Property C109: the errors measured by the pathwise experiments, with EKF1 drawing from its posterior
-/

namespace Verif

open Matrix Spec Jnp Set MeasureTheory ProbabilityTheory Scripts Filter
open scoped NNReal ENNReal

variable {d m q : ℕ}

/-- The Jacobian at the Euler prediction. -/
noncomputable def rosJac (f : Vec d → ℝ → Vec d) (S : Mat d m) (a0 δ : ℝ) (y : Vec d) (a b : Vec m) : Mat d d :=
  jac (fun z => additiveField f S a0 δ a b z δ) (y + δ • additiveField f S a0 δ a b y 0)

theorem continuous_rosJac {f : Vec d → ℝ → Vec d} (hf : Continuous (Function.uncurry f)) (S : Mat d m) {a0 δ : ℝ}
    {D : Vec d → Vec d →L[ℝ] Vec d} (hD : ∀ x, HasFDerivAt (fun z => f z (δ + a0)) (D x) x) (hDc : Continuous D) :
    Continuous fun p : Vec d × Vec m × Vec m => rosJac f S a0 δ p.1 p.2.1 p.2.2 := by
  have hz : Continuous fun p : Vec d × Vec m × Vec m => p.1 + δ • additiveField f S a0 δ p.2.1 p.2.2 p.1 0 :=
    continuous_fst.add ((continuous_additiveField hf S a0 δ 0).const_smul δ)
  have hJe : ∀ (a b : Vec m) (x : Vec d), jac (fun z => additiveField f S a0 δ a b z δ) x = LinearMap.toMatrix' (D x : Vec d →ₗ[ℝ] Vec d) :=
    fun a b x => jac_eq_toMatrix ((hD x).add_const _)
  have h1 : Continuous fun p : Vec d × Vec m × Vec m => D (p.1 + δ • additiveField f S a0 δ p.2.1 p.2.2 p.1 0) := hDc.comp hz
  simp only [rosJac, hJe]
  refine continuous_matrix fun i j => ?_
  simp only [LinearMap.toMatrix'_apply, ContinuousLinearMap.coe_coe]
  exact (continuous_apply i).comp (h1.clm_apply continuous_const)

theorem measurable_comp_rosJac {f : Vec d → ℝ → Vec d} (hf : Continuous (Function.uncurry f)) (S : Mat d m) {a0 δ : ℝ}
    {D : Vec d → Vec d →L[ℝ] Vec d} (hD : ∀ x, HasFDerivAt (fun z => f z (δ + a0)) (D x) x) (hDc : Continuous D) {G : Mat d d → Mat d q}
    (hG : ∀ i j, Measurable fun J : Fin d → Fin d → ℝ => G (of J) i j) (i : Fin d) (j : Fin q) :
    Measurable fun p : Vec d × Vec m × Vec m => G (rosJac f S a0 δ p.1 p.2.1 p.2.2) i j := by
  have h1 := continuous_rosJac hf S hD hDc
  have h2 : Continuous fun p : Vec d × Vec m × Vec m => ((fun a b => rosJac f S a0 δ p.1 p.2.1 p.2.2 a b) : Fin d → Fin d → ℝ) :=
    continuous_pi fun a => continuous_pi fun b => h1.matrix_elem a b
  exact (hG i j).comp h2.measurable

/-- The draw is a measurable function of the state, the coefficients and the normals. -/
theorem measurable_rosDraw {f : Vec d → ℝ → Vec d} (hf : Continuous (Function.uncurry f)) (S : Mat d m) {a0 δ : ℝ}
    {D : Vec d → Vec d →L[ℝ] Vec d} (hD : ∀ x, HasFDerivAt (fun z => f z (δ + a0)) (D x) x) (hDc : Continuous D) {G : Mat d d → Mat d q}
    (hG : ∀ i j, Measurable fun J : Fin d → Fin d → ℝ => G (of J) i j) :
    Measurable fun z : Vec d × Vec m × Vec m × Vec q => rosAdd f S a0 δ z.1 z.2.1 z.2.2.1 + G (rosJac f S a0 δ z.1 z.2.1 z.2.2.1) *ᵥ z.2.2.2 := by
  have hp : Measurable fun z : Vec d × Vec m × Vec m × Vec q => ((z.1, z.2.1, z.2.2.1) : Vec d × Vec m × Vec m) := by fun_prop
  have h1 := (continuous_rosAdd hf S hD hDc).measurable.comp hp
  refine Measurable.add h1 (measurable_pi_lambda _ fun i => ?_)
  simp only [mulVec, dotProduct]
  refine Finset.measurable_fun_sum _ fun j _ => ?_
  have h2 := (measurable_comp_rosJac hf S hD hDc hG i j).comp hp
  exact Measurable.mul h2 (by fun_prop)

theorem mulVec_le_frobenius (G : Mat d q) {γ : ℝ} (hG : ∑ i, ∑ j, G i j ^ 2 ≤ γ) (v : Vec q) : ‖G *ᵥ v‖ ≤ Real.sqrt (γ * q) * ‖v‖ := by
  have hγ : 0 ≤ γ := (Finset.sum_nonneg fun _ _ => Finset.sum_nonneg fun _ _ => sq_nonneg _).trans hG
  rw [pi_norm_le_iff_of_nonneg (by positivity)]
  intro i
  have h1 : (∑ j, G i j * v j) ^ 2 ≤ (∑ j, G i j ^ 2) * ∑ j, v j ^ 2 := Finset.sum_mul_sq_le_sq_mul_sq _ _ _
  have h2 : ∑ j, G i j ^ 2 ≤ γ := (Finset.single_le_sum (f := fun i => ∑ j, G i j ^ 2)
    (fun _ _ => Finset.sum_nonneg fun _ _ => sq_nonneg _) (Finset.mem_univ i)).trans hG
  have h3 : ∑ j, v j ^ 2 ≤ q * ‖v‖ ^ 2 := by
    refine (Finset.sum_le_sum fun j _ => ?_).trans (le_of_eq (by rw [Finset.sum_const, Finset.card_univ, Fintype.card_fin, nsmul_eq_mul]))
    rw [← sq_abs]
    exact pow_le_pow_left₀ (abs_nonneg _) (norm_le_pi_norm v j) 2
  have h4 : (∑ j, G i j * v j) ^ 2 ≤ (Real.sqrt (γ * q) * ‖v‖) ^ 2 := by
    rw [mul_pow, Real.sq_sqrt (by positivity)]
    refine h1.trans ?_
    calc _ ≤ γ * (q * ‖v‖ ^ 2) := mul_le_mul h2 h3 (Finset.sum_nonneg fun _ _ => sq_nonneg _) hγ
      _ = _ := by ring
  exact abs_le_of_sq_le_sq h4 (by positivity)

theorem hcat_mulVec (S : Mat d m) (v : Vec (m + q)) : KF.hcat S (0 : Mat d q) *ᵥ v = S *ᵥ firstV v := by
  funext i
  simp only [mulVec, dotProduct, KF.hcat, firstV]
  rw [Fin.sum_univ_add]
  simp

set_option maxHeartbeats 2000000 in
/-- Mean square error of the linearly implicit scheme with a normal perturbation in every interval, whose factor depends on the Jacobian. -/
theorem ros_draw_strong {Ω : Type*} [MeasurableSpace Ω] {P : Measure Ω} {B : Fin (m + q) → ℝ≥0 → Ω → ℝ}
    (hB : IsBrownianVec B P) {f : Field d} {Df : Vec d → ℝ → Vec d →L[ℝ] Vec d} {T L K Lt : ℝ} (hT : 0 < T)
    (hf : SmoothField f Df T L K) (htl : TimeLipschitz f T Lt) (S : Mat d m) (x0 : Vec d)
    {X : Ω → ℝ → Vec d} (hX : ∀ᵐ ω ∂P, SolvesAdditive f S (fun t j => B (Fin.castAdd q j) t.toNNReal ω) x0 T (X ω)) (s0 : ℝ) :
    ∃ A : ℝ, 0 ≤ A ∧ ∀ N : ℕ, 0 < N → ∀ (σ : ℝ), |σ| ≤ s0 → ∀ G : Mat d d → Mat d q,
      (∀ i j, Measurable fun J : Fin d → Fin d → ℝ => G (of J) i j) → (∀ J, ∑ i, ∑ j, G J i j ^ 2 ≤ d * (σ ^ 2 * (T / N) ^ 3 / 3)) →
      ∀ c : Ω → ℕ → Vec (m + q) × Vec (m + q),
      (∀ᵐ ω ∂P, ∀ k < N, SameEndAndArea (fun t => Foster.evalParabola t (T / N) (c ω k).1 (c ω k).2) (fun t j => B j t.toNNReal ω)
        (k * (T / N)) (T / N)) →
      ∀ Y : ℕ → Ω → Vec d, (∀ ω, Y 0 ω = x0) → (∀ k < N, ∀ ω, Y (k + 1) ω =
        rosAdd f S (k * (T / N)) (T / N) (Y k ω) (firstV (c ω k).1) (firstV (c ω k).2) +
          G (rosJac f S (k * (T / N)) (T / N) (Y k ω) (firstV (c ω k).1) (firstV (c ω k).2)) *ᵥ ((1 / Real.sqrt (T / N)) • lastV (c ω k).1)) →
      ∀ n ≤ N, Integrable (fun ω => ‖X ω (n * (T / N)) - Y n ω‖ ^ 2) P ∧
        ∫ ω, ‖X ω (n * (T / N)) - Y n ω‖ ^ 2 ∂P ≤ A * (T / N) ^ 2 := by
  wlog hL : 0 ≤ L generalizing L
  · refine this (L := 0) ⟨hf.cont, fun x y t ht => (hf.lip x y t ht).trans ?_, hf.deriv, hf.jac⟩ le_rfl
    exact mul_le_mul_of_nonneg_right (not_le.mp hL).le (norm_nonneg _)
  wlog hLt : 0 ≤ Lt generalizing Lt
  · refine this (Lt := 0) (fun x s hs t ht => (htl x s hs t ht).trans ?_) le_rfl
    refine mul_le_mul_of_nonneg_right (mul_le_mul_of_nonneg_right (not_le.mp hLt).le ?_) (abs_nonneg _)
    positivity
  have hK := hf.jac_const_nonneg hT
  obtain ⟨s, hs, hS⟩ := exists_mulVec_bound S
  obtain ⟨C1, hC1, hcons⟩ := trap_expansion hf hL hK hLt hT.le htl hs hS
  obtain ⟨C2, hC2, hros⟩ := ros_expansion hf hL hK hLt hT.le htl hs hS
  obtain ⟨κ1, hκ1, hlin⟩ := rosLin_bound (d := d)
  have hX' : ∀ᵐ ω ∂P, SolvesAdditive f (KF.hcat S (0 : Mat d q)) (fun t j => B j t.toNNReal ω) x0 T (X ω) := by
    filter_upwards [hX] with ω h
    refine ⟨h.cont, fun t ht => ?_⟩
    rw [hcat_mulVec]
    exact h.eq t ht
  obtain ⟨g, hg⟩ : ∃ g, g = Real.sqrt (d * s0 ^ 2 / 3 * q) := ⟨_, rfl⟩
  have hg0 : 0 ≤ g := by rw [hg]; exact Real.sqrt_nonneg _
  obtain ⟨A, hA0, hA⟩ := strong_mart_noise hB hT hf hL hLt htl (KF.hcat S (0 : Mat d q)) x0 hX' (C0 := L * Real.exp (3 * L / 2 * T) * (1 + L * T)) (by positivity)
    (add_nonneg hC1 hC2) (add_nonneg hC2 hg0) (by norm_num : (0 : ℝ) ≤ 4) (mul_nonneg hκ1 hL)
  refine ⟨A * (1 + T * (d * (s0 ^ 2 / 3))), by positivity, ?_⟩
  intro N hN σ hσ G hGm hG c hc Y hY0 hYs n hn
  have hσ2 : σ ^ 2 ≤ s0 ^ 2 := by
    rw [← sq_abs σ]
    exact pow_le_pow_left₀ (abs_nonneg _) hσ 2
  have hN' : (0 : ℝ) < N := by exact_mod_cast hN
  obtain ⟨δ, hδdef⟩ : ∃ δ, δ = T / N := ⟨_, rfl⟩
  have hA' := hA N hN (lam := 1 / 2) (mu := 1 / Real.sqrt 6 + trapExcess 1)
  rw [← hδdef] at hG hc hYs hA' ⊢
  have hδ : 0 < δ := by rw [hδdef]; positivity
  have hNδ : (N : ℝ) * δ = T := by rw [hδdef]; field_simp
  have hkδ : ∀ k < N, (k : ℝ) * δ + δ ≤ T := fun k hk => by
    have : ((k + 1 : ℕ) : ℝ) * δ ≤ N * δ := mul_le_mul_of_nonneg_right (by exact_mod_cast hk) hδ.le
    rw [hNδ] at this
    push_cast at this
    linarith
  have hkI : ∀ k < N, δ + (k : ℝ) * δ ∈ Icc 0 T := fun k hk => ⟨by positivity, by linarith [hkδ k hk]⟩
  have hDc : ∀ k < N, Continuous fun x => Df x (δ + k * δ) := fun k hk => hf.continuous_jac hT (hkI k hk)
  have h6 : |1 / Real.sqrt 6| ≤ 1 := by
    rw [abs_of_pos (by positivity), div_le_one (by positivity)]
    exact Real.one_le_sqrt.mpr (by norm_num)
  have hδ1 : δ / (1 : ℕ) = δ := by simp
  have hsel : Continuous fun z : Vec d × Vec (m + q) × Vec (m + q) => ((z.1, firstV z.2.1, firstV z.2.2) : Vec d × Vec m × Vec m) := by
    have h1 := continuous_firstV (m := m) (q := q)
    exact continuous_fst.prodMk ((h1.comp (continuous_fst.comp continuous_snd)).prodMk (h1.comp (continuous_snd.comp continuous_snd)))
  have hsel2 : Continuous fun z : Vec d × Vec (m + q) × Vec (m + q) => ((z.1, firstV z.2.1, firstV z.2.2, (1 / Real.sqrt δ) • lastV z.2.1) :
      Vec d × Vec m × Vec m × Vec q) := by
    have h1 := continuous_firstV (m := m) (q := q)
    have h2 := continuous_lastV (m := m) (q := q)
    exact continuous_fst.prodMk ((h1.comp (continuous_fst.comp continuous_snd)).prodMk ((h1.comp (continuous_snd.comp continuous_snd)).prodMk
      ((continuous_const_smul (1 / Real.sqrt δ)).comp (h2.comp (continuous_fst.comp continuous_snd)))))
  obtain ⟨Φ, hΦ⟩ : ∃ Φ : ℕ → Vec d → Vec (m + q) → Vec (m + q) → Vec d, ∀ k y a b, Φ k y a b = if k < N then
      rosAdd f S (k * δ) δ y (firstV a) (firstV b) + G (rosJac f S (k * δ) δ y (firstV a) (firstV b)) *ᵥ ((1 / Real.sqrt δ) • lastV a) else y :=
    ⟨_, fun _ _ _ _ => rfl⟩
  have hΦm : ∀ k, Measurable fun p : Vec d × Vec (m + q) × Vec (m + q) => Φ k p.1 p.2.1 p.2.2 := fun k => by
    simp only [hΦ]
    by_cases hk : k < N
    · simp only [if_pos hk]
      have h1 := measurable_rosDraw (D := fun x => Df x (δ + k * δ)) hf.cont S (fun x => hf.deriv x _ (hkI k hk)) (hDc k hk) hGm
      have h2 := h1.comp hsel2.measurable
      exact h2
    · simp only [if_neg hk]
      exact measurable_fst
  have hYs' : ∀ k < N, ∀ ω, Y (k + 1) ω = Φ k (Y k ω) (c ω k).1 (c ω k).2 := fun k hk ω => by rw [hΦ, if_pos hk]; exact hYs k hk ω
  obtain ⟨-, hsum⟩ := draw_sum hB hδ hc (Θ := Φ) (fun k _ => hΦm k) hY0 hYs' (G := fun k y a b => G (rosJac f S (k * δ) δ y a b))
    (fun k hk i j => measurable_comp_rosJac (D := fun x => Df x (δ + k * δ)) hf.cont S (fun x => hf.deriv x _ (hkI k hk)) (hDc k hk) hGm i j)
    (γ := d * (σ ^ 2 * δ ^ 3 / 3)) (fun _ _ _ _ _ => hG _)
  obtain ⟨v, hv⟩ : ∃ v, v = T * (d * (s0 ^ 2 / 3)) * δ ^ 2 := ⟨_, rfl⟩
  have hvn : ∀ k ≤ N, (k : ℝ) * (d * (σ ^ 2 * δ ^ 3 / 3)) ≤ v := fun k hk => by
    have e : v = N * (d * (s0 ^ 2 * δ ^ 3 / 3)) := by rw [hv, ← hNδ]; ring
    rw [e]
    have hk' : (k : ℝ) ≤ N := by exact_mod_cast hk
    gcongr
  have hmono : ∀ {C C' : ℝ} (y : Vec d) (t : ℝ) (a b : Vec (m + q)), 0 ≤ C → 0 ≤ C' →
      δ * (C * (δ * (1 + ‖y‖ + ‖f y t‖) ^ 2 + (‖firstV a‖ + 4 * ‖firstV b‖) ^ 2)) ≤
      δ * ((C + C') * (δ * (1 + ‖y‖ + ‖f y t‖) ^ 2 + (‖a‖ + 4 * ‖b‖) ^ 2)) := fun y t a b hC hC' => by
    have h1 := norm_firstV_le a
    have h2 := norm_firstV_le b
    gcongr
    linarith
  have hnoise : ∀ (J : Mat d d) (a : Vec (m + q)), ‖G J *ᵥ ((1 / Real.sqrt δ) • lastV a)‖ ≤ δ * (g * ‖a‖) := fun J a => by
    have h1 := mulVec_le_frobenius (G J) (γ := d * s0 ^ 2 / 3 * δ ^ 3) ((hG J).trans (by
      rw [show (d : ℝ) * s0 ^ 2 / 3 * δ ^ 3 = d * (s0 ^ 2 * δ ^ 3 / 3) by ring]
      gcongr)) ((1 / Real.sqrt δ) • lastV a)
    rw [norm_smul, Real.norm_of_nonneg (by positivity)] at h1
    have e1 : Real.sqrt (d * s0 ^ 2 / 3 * δ ^ 3 * q) = g * (δ * Real.sqrt δ) := by
      rw [hg, show (d : ℝ) * s0 ^ 2 / 3 * δ ^ 3 * q = d * s0 ^ 2 / 3 * q * δ ^ 3 by ring, Real.sqrt_mul (by positivity)]
      congr 1
      rw [show δ ^ 3 = δ ^ 2 * δ by ring, Real.sqrt_mul (by positivity), Real.sqrt_sq hδ.le]
    rw [e1] at h1
    refine h1.trans ?_
    have hsq : Real.sqrt δ ≠ 0 := by positivity
    calc g * (δ * Real.sqrt δ) * (1 / Real.sqrt δ * ‖lastV a‖) = δ * (g * ‖lastV a‖) := by field_simp
      _ ≤ _ := by have := norm_lastV_le a; gcongr
  have h := hA' (by rw [abs_of_pos (by norm_num)]; norm_num) ((abs_add_le _ _).trans (by linarith [trapExcess_bound one_pos]))
    (fun k y a b => (trapScheme (additiveField f S (k * δ) δ (firstV a) (firstV b)) (δ / (1 : ℕ)) y 1).1)
    (fun k y a b => if k < N then rosAdd f S (k * δ) δ y (firstV a) (firstV b) else y)
    (fun k => ((continuous_fst.comp (continuous_trapScheme hf.cont S (k * δ) δ (δ / (1 : ℕ)) 1)).comp hsel).measurable)
    (fun k => by
      by_cases hk : k < N
      · simp only [if_pos hk]
        have h1 := continuous_rosAdd (D := fun x => Df x (δ + k * δ)) hf.cont S (fun x => hf.deriv x _ (hkI k hk)) (hDc k hk)
        have h2 := h1.comp hsel
        exact h2.measurable
      · simp only [if_neg hk]
        exact measurable_fst)
    (fun k hk a b y y' => trap_stable hL hf.lip S hδ (by positivity) (hkδ k hk) one_pos _ _ y y')
    (fun k hk a b y => by
      rw [hcat_mulVec, hcat_mulVec]
      exact (hcons hδ (by positivity) (hkδ k hk) one_pos (firstV a) (firstV b) y le_rfl).trans (hmono y _ a b hC1 hC2))
    (fun k y => rosLin d (Df y (δ + k * δ))) (fun k hk => rosLin_continuous.comp (hDc k hk))
    (fun k hk y => (hlin _).trans (mul_le_mul_of_nonneg_left (hf.norm_jac_le hL (hkI k hk) y) hκ1))
    (fun k hk a b y => by
      rw [if_pos hk, hδ1, add_comm C1 C2, hcat_mulVec]
      exact ((hros hδ (by positivity) (hkδ k hk) (firstV a) (firstV b) y).1).trans (hmono y _ a b hC2 hC1))
    v Y (fun ω k => (c ω k).1) (fun ω k => (c ω k).2)
    (fun ω k => G (rosJac f S (k * δ) δ (Y k ω) (firstV (c ω k).1) (firstV (c ω k).2)) *ᵥ ((1 / Real.sqrt δ) • lastV (c ω k).1))
    (Eventually.of_forall hY0) hc (Eventually.of_forall fun ω k hk => by rw [if_pos hk]; exact hYs k hk ω)
    (Eventually.of_forall fun ω k hk => by
      rw [hYs k hk, hcat_mulVec]
      have h1 := (hros hδ (by positivity) (hkδ k hk) (firstV (c ω k).1) (firstV (c ω k).2) (Y k ω)).2
      have h2 := hnoise (rosJac f S (k * δ) δ (Y k ω) (firstV (c ω k).1) (firstV (c ω k).2)) (c ω k).1
      have h3 := norm_firstV_le (c ω k).1
      have h4 := norm_firstV_le (c ω k).2
      have h5 : δ * (C2 * (1 + ‖Y k ω‖ + (‖firstV (c ω k).1‖ + 4 * ‖firstV (c ω k).2‖))) ≤
          δ * (C2 * (1 + ‖Y k ω‖ + (‖(c ω k).1‖ + 4 * ‖(c ω k).2‖))) := by gcongr
      have h6 : δ * (g * ‖(c ω k).1‖) ≤ δ * (g * (1 + ‖Y k ω‖ + (‖(c ω k).1‖ + 4 * ‖(c ω k).2‖))) := by
        gcongr
        linarith [norm_nonneg (Y k ω), norm_nonneg (c ω k).2]
      rw [add_mul C2 g, mul_add]
      generalize rosAdd f S (k * δ) δ (Y k ω) (firstV (c ω k).1) (firstV (c ω k).2) = u at h1
      generalize G (rosJac f S (k * δ) δ (Y k ω) (firstV (c ω k).1) (firstV (c ω k).2)) *ᵥ ((1 / Real.sqrt δ) • lastV (c ω k).1) = w at h2
      rw [show u + w - Y k ω - S *ᵥ firstV (c ω k).1 = (u - Y k ω - S *ᵥ firstV (c ω k).1) + w by abel]
      refine (norm_add_le _ _).trans ?_
      linarith)
    (fun k hk => scheme_adapted hB hδ N hΦm (Eventually.of_forall hY0) hc (Eventually.of_forall fun ω k hk => hYs' k hk ω) k hk)
    (fun k hk => ⟨(hsum k hk).1, (hsum k hk).2.trans (hvn k hk)⟩) n hn
  refine ⟨h.1, h.2.trans (le_of_eq ?_)⟩
  rw [hv]
  ring

set_option maxHeartbeats 1000000 in
/-- C109: the quantity plotted by the pathwise experiments for EKF1, which draws from its posterior at the end of every interval. The mean
square distance between the trajectory of the draws and the Euler-Maruyama reference is at most `A δ²`, with one constant for all numbers
of intervals and fine steps and all prior scales `|σ| ≤ s₀`. -/
theorem C109_measured {la : LinAlg} (hla : la.Correct) (hm : la.MeasurableQr) (hd : 0 < d) {f : Field d} {Df : Vec d → ℝ → Vec d →L[ℝ] Vec d}
    {T L K Lt : ℝ} (hT : 0 < T) (hf : SmoothField f Df T L K) (htl : TimeLipschitz f T Lt) (S : Mat d m) (x0 : Vec d) (s0 : ℝ) :
    ∃ A : ℝ, ∀ {Ω : Type} [MeasurableSpace Ω] {Q : Measure Ω} {R : Ω → Rng}, IdealNormals Q R → ∀ N : ℕ, 0 < N →
      ∀ r : ℕ, 0 < r → ∀ σ : ℝ, σ ≠ 0 → |σ| ≤ s0 → ∀ (sqrt : Bool) (key : Key) (odeInt : Ω → OdeInt (Vec d) d),
      (∀ ω k x vf, Ekf.ekf1 la (R ω) (some k) x vf (T / N) 1 sqrt
        (some ⟨_, IOUP.transition 0 σ 1 (T / N) d⟩) none = .ok (odeInt ω k x vf (T / N))) →
      ∀ n ≤ N, ∃ y z : Ω → Vec d,
        (∀ ω, ∃ ts traj traj2, ramSolver (R ω) key f (fun _ _ => S) x0 x0 (T / N) N r (odeInt ω) = .ok (ts, traj, traj2) ∧
          ts[n]? = some (n * (T / N)) ∧ traj[n]? = some (y ω) ∧ traj2[n]? = some (z ω)) ∧
        Integrable (fun ω => ‖y ω - z ω‖ ^ 2) Q ∧ ∫ ω, ‖y ω - z ω‖ ^ 2 ∂Q ≤ A * (T / N) ^ 2 := by
  have hkI : ∀ N k : ℕ, k < N → T / N + (k : ℝ) * (T / N) ∈ Icc 0 T := fun N k hk => by
    have hN' : (0 : ℝ) < N := by exact_mod_cast (by omega : 0 < N)
    refine ⟨by positivity, ?_⟩
    have h1 : ((k + 1 : ℕ) : ℝ) * (T / N) ≤ N * (T / N) := mul_le_mul_of_nonneg_right (by exact_mod_cast hk) (by positivity)
    rw [mul_div_cancel₀ T hN'.ne'] at h1
    push_cast at h1
    linarith
  obtain ⟨A, hA⟩ := measured_ms_draw (q := d * (0 + 2)) hT hf htl S x0 (ι := ℝ × (Mat d d → Mat d (d * (0 + 2))))
    (Adm := fun N p => |p.1| ≤ s0 ∧ (∀ i j, Measurable fun J : Fin d → Fin d → ℝ => p.2 (of J) i j) ∧
      ∀ J, ∑ i, ∑ j, p.2 J i j ^ 2 ≤ d * (p.1 ^ 2 * (T / N) ^ 3 / 3))
    (J := fun (N : ℕ) (p : ℝ × (Mat d d → Mat d (d * (0 + 2)))) k y a b ξ => rosAdd f S (k * (T / N)) (T / N) y a b +
      p.2 (rosJac f S (k * (T / N)) (T / N) y a b) *ᵥ ξ)
    (v := fun _ => 0) (fun N p hp k hk => measurable_rosDraw (D := fun x => Df x (T / N + k * (T / N))) hf.cont S
      (fun x => hf.deriv x _ (hkI N k hk)) (hf.continuous_jac hT (hkI N k hk)) hp.2.1) (fun hB X hX => by
      obtain ⟨A, -, hA⟩ := ros_draw_strong hB hT hf htl S x0 hX s0
      refine ⟨A, fun N hN p hp c hc Y hY0 hYs n hn => ?_⟩
      have := hA N hN p.1 hp.1 p.2 hp.2.1 hp.2.2 c hc Y hY0 hYs n hn
      rw [zero_pow two_ne_zero, add_zero, mul_one]
      exact this)
  refine ⟨A, ?_⟩
  intro Ω _ Q R hR N hN r hr σ hσ hσ0 sqrt key odeInt hode n hn
  have hN' : (0 : ℝ) < N := by exact_mod_cast hN
  obtain ⟨G, hGm, hG, hstep⟩ := ekf1_noise hla hm hd hσ (by positivity : 0 < T / N) sqrt
  have hGf : ∀ J, ∑ i, ∑ j, G J i j ^ 2 ≤ d * (σ ^ 2 * (T / N) ^ 3 / 3) := fun J =>
    (frobenius_draw (by positivity) (hG J)).trans (le_of_eq (by ring))
  have h := hA hR N hN (σ, G) ⟨hσ0, hGm, hGf⟩ r hr key odeInt (fun ω κ x k hk a b =>
    Except.ok.inj ((hode ω κ x _).symm.trans (hstep (R ω) κ x _ fun z => ((hf.deriv z _ (hkI N k hk)).add_const _).differentiableAt))) n hn
  simp only [zero_pow two_ne_zero, add_zero, mul_one] at h
  exact h

/-- The Jacobian at the prediction only depends on the field near the prediction. -/
theorem rosJac_congr {f g : Vec d → ℝ → Vec d} (S : Mat d m) {a0 δ r : ℝ} (y : Vec d) (a b : Vec m) {A : Vec d →L[ℝ] Vec d}
    (h0 : g y (0 + a0) = f y (0 + a0)) (h1 : ∀ x, ‖x‖ < r → g x (δ + a0) = f x (δ + a0))
    (hz : ‖y + δ • additiveField g S a0 δ a b y 0‖ < r)
    (hA : HasFDerivAt (fun z => g z (δ + a0)) A (y + δ • additiveField g S a0 δ a b y 0)) :
    rosJac g S a0 δ y a b = rosJac f S a0 δ y a b := by
  have e0 : additiveField f S a0 δ a b y 0 = additiveField g S a0 δ a b y 0 := by simp only [additiveField, h0]
  have hev : (fun x => f x (δ + a0)) =ᶠ[nhds (y + δ • additiveField g S a0 δ a b y 0)] fun x => g x (δ + a0) := by
    filter_upwards [(isOpen_lt continuous_norm continuous_const).mem_nhds hz] with x hx
    exact (h1 x hx).symm
  have ej : jac (fun z => additiveField f S a0 δ a b z δ) (y + δ • additiveField g S a0 δ a b y 0) =
      jac (fun z => additiveField g S a0 δ a b z δ) (y + δ • additiveField g S a0 δ a b y 0) :=
    (jac_eq_toMatrix ((hA.congr_of_eventuallyEq hev).add_const _)).trans (jac_eq_toMatrix (hA.add_const _)).symm
  simp only [rosJac, e0, ej]

/-- The linearly implicit step and its Jacobian only evaluate the field near the starting point. -/
theorem ros_local {f g : Field d} {Dg : Vec d → ℝ → Vec d →L[ℝ] Vec d} {T L K F ρ s : ℝ} (hg : SmoothField g Dg T L K) (hs : 0 ≤ s) {S : Mat d m}
    (hS : ∀ v, ‖S *ᵥ v‖ ≤ s * ‖v‖) (hgF : ∀ x t, ‖g x t‖ ≤ F)
    (heq : ∀ x, ‖x‖ ≤ ρ + 1 → ∀ t ∈ Icc 0 T, g x t = f x t) {δ a0 : ℝ} (hδ : 0 < δ) (hδF : δ * F ≤ 1 / 8) (ha0 : 0 ≤ a0) (haT : a0 + δ ≤ T)
    {y : Vec d} (hy : ‖y‖ ≤ ρ + 1 / 2) {a b : Vec m}
    (hsl : ∀ t ∈ Icc 0 δ, ‖jacT (fun s => Foster.evalParabola s δ a b) t‖ ≤ 10 * (1 / (40 * (s + 1))) / δ) :
    rosAdd f S a0 δ y a b = rosAdd g S a0 δ y a b ∧ rosJac f S a0 δ y a b = rosJac g S a0 δ y a b := by
  have hsκ : s * (10 * (1 / (40 * (s + 1))) / δ) * δ ≤ 1 / 4 := by
    have h1 : s * (10 * (1 / (40 * (s + 1))) / δ) * δ = s / (s + 1) * (1 / 4) := by field_simp; ring
    rw [h1]
    have h2 : s / (s + 1) ≤ 1 := (div_le_one (by positivity)).mpr (by linarith)
    linarith
  have hz : ‖y + δ • additiveField g S a0 δ a b y 0‖ < ρ + 1 := by
    have h1 : ‖additiveField g S a0 δ a b y 0‖ ≤ F + s * (10 * (1 / (40 * (s + 1))) / δ) :=
      (norm_add_le _ _).trans (add_le_add (hgF _ _) ((hS _).trans (mul_le_mul_of_nonneg_left (hsl 0 ⟨le_rfl, hδ.le⟩) hs)))
    have h2 : ‖δ • additiveField g S a0 δ a b y 0‖ ≤ 1 / 8 + 1 / 4 := by
      rw [norm_smul, Real.norm_eq_abs, abs_of_pos hδ]
      refine (mul_le_mul_of_nonneg_left h1 hδ.le).trans ?_
      rw [mul_add, mul_comm δ (s * _)]
      linarith
    refine (norm_add_le _ _).trans_lt ?_
    linarith
  have hI : δ + a0 ∈ Icc 0 T := ⟨by positivity, by linarith⟩
  have h0 := heq y (hy.trans (by linarith)) (0 + a0) (by rw [zero_add]; exact ⟨ha0, by linarith⟩)
  exact ⟨(rosAdd_congr S y a b h0 (fun x hx => heq x hx.le _ hI) hz (hg.deriv _ _ hI)).symm,
    (rosJac_congr S y a b h0 (fun x hx => heq x hx.le _ hI) hz (hg.deriv _ _ hI)).symm⟩

set_option maxHeartbeats 1000000 in
/-- C109: the same quantity for a drift with two continuous derivatives whose equation has a solution along every continuous path of the
noise. For every level `ε` the distance exceeds `A δ` with probability at most `ε`, with one constant for all numbers of fine steps, all
sufficiently large numbers of intervals, and all prior scales `|σ| ≤ s₀`. -/
theorem C109_prob {la : LinAlg} (hla : la.Correct) (hm : la.MeasurableQr) (hd : 0 < d) {f : Field d} (hf : ContDiff ℝ 2 (Function.uncurry f)) {T : ℝ}
    (hT : 0 < T) (S : Mat d m) (x0 : Vec d) (hsol : ∀ w : ℝ → Vec m, Continuous w → ∃ x, SolvesAdditive f S w x0 T x) (s0 : ℝ) {ε : ℝ}
    (hε : 0 < ε) :
    ∃ (A : ℝ) (N0 : ℕ), ∀ {Ω : Type} [MeasurableSpace Ω] {Q : Measure Ω} {R : Ω → Rng}, IdealNormals Q R → ∀ N ≥ N0,
      ∀ r : ℕ, 0 < r → ∀ σ : ℝ, σ ≠ 0 → |σ| ≤ s0 → ∀ (sqrt : Bool) (key : Key) (odeInt : Ω → OdeInt (Vec d) d),
      (∀ ω k x vf, Ekf.ekf1 la (R ω) (some k) x vf (T / N) 1 sqrt
        (some ⟨_, IOUP.transition 0 σ 1 (T / N) d⟩) none = .ok (odeInt ω k x vf (T / N))) →
      ∀ n ≤ N, ∃ y z : Ω → Vec d,
        (∀ ω, ∃ ts traj traj2, ramSolver (R ω) key f (fun _ _ => S) x0 x0 (T / N) N r (odeInt ω) = .ok (ts, traj, traj2) ∧
          ts[n]? = some (n * (T / N)) ∧ traj[n]? = some (y ω) ∧ traj2[n]? = some (z ω)) ∧
        Q {ω | A * (T / N) < ‖y ω - z ω‖} ≤ ENNReal.ofReal ε := by
  obtain ⟨s, hs, hS⟩ := exists_mulVec_bound S
  obtain ⟨A, N0, hA⟩ := measured_prob_draw (q := d * (0 + 2)) hf hT S x0 hsol hε (ι := ℝ × (Mat d d → Mat d (d * (0 + 2))))
    (Adm := fun N p => |p.1| ≤ s0 ∧ (∀ i j, Measurable fun J : Fin d → Fin d → ℝ => p.2 (of J) i j) ∧
      ∀ J, ∑ i, ∑ j, p.2 J i j ^ 2 ≤ d * (p.1 ^ 2 * (T / N) ^ 3 / 3))
    (J := fun (N : ℕ) (p : ℝ × (Mat d d → Mat d (d * (0 + 2)))) k y a b ξ => rosAdd f S (k * (T / N)) (T / N) y a b +
      p.2 (rosJac f S (k * (T / N)) (T / N) y a b) *ᵥ ξ)
    (fun N p hp k _ => measurable_rosDraw hf.continuous S (fun x => hasFDerivAt_left hf x _) (continuous_fderiv_left hf _) hp.2.1) (fun hB X hX =>
      prob_order_draw hB hf hT S x0 hX
        (J := fun (f : Field d) (N : ℕ) (p : ℝ × (Mat d d → Mat d (d * (0 + 2)))) k y a b ξ => rosAdd f S (k * (T / N)) (T / N) y a b +
          p.2 (rosJac f S (k * (T / N)) (T / N) y a b) *ᵥ ξ)
        (κ := 1 / (40 * (s + 1))) (by positivity) (fun g Dg L K X' hL hg hgt hX' => by
          obtain ⟨A, hA0, hA⟩ := ros_draw_strong hB hT hg hgt S x0 hX' s0
          exact ⟨A, fun N hN p hp c hc Y hY0 hYs n hn => hA N hN p.1 hp.1 p.2 hp.2.1 hp.2.2 c hc Y hY0 hYs n hn⟩)
        (fun g Dg L K F ρ hF hg _ _ hgF heq => by
          obtain ⟨N3, hN3⟩ := exists_small_step F hT (by norm_num : (0 : ℝ) < 1 / 8)
          refine ⟨N3, fun N hN hN0 p hp k hk y a b ξ hy hsl => ?_⟩
          have hN' : (0 : ℝ) < N := by exact_mod_cast hN0
          obtain ⟨h1, h2⟩ := ros_local hg hs hS hgF heq (by positivity : 0 < T / N) (hN3 N hN hN0) (by positivity : 0 ≤ (k : ℝ) * (T / N))
            (by
              have h1 : ((k + 1 : ℕ) : ℝ) * (T / N) ≤ N * (T / N) := mul_le_mul_of_nonneg_right (by exact_mod_cast hk) (by positivity)
              rw [mul_div_cancel₀ T hN'.ne'] at h1
              push_cast at h1
              linarith) hy hsl
          simp only [h1, h2]) (half_pos hε))
  refine ⟨A, N0 + 1, ?_⟩
  intro Ω _ Q R hR N hN r hr σ hσ hσ0 sqrt key odeInt hode n hn
  have hN' : (0 : ℝ) < N := by exact_mod_cast (by omega : 0 < N)
  obtain ⟨G, hGm, hG, hstep⟩ := ekf1_noise hla hm hd hσ (by positivity : 0 < T / N) sqrt
  have hGf : ∀ J, ∑ i, ∑ j, G J i j ^ 2 ≤ d * (σ ^ 2 * (T / N) ^ 3 / 3) := fun J =>
    (frobenius_draw (by positivity) (hG J)).trans (le_of_eq (by ring))
  exact hA hR N (by omega) (σ, G) ⟨hσ0, hGm, hGf⟩ r hr key odeInt (fun ω κ x k hk a b =>
    Except.ok.inj ((hode ω κ x _).symm.trans (hstep (R ω) κ x _ fun z => ((hasFDerivAt_left hf z _).add_const _).differentiableAt))) n hn

/-- C109: FitzHugh-Nagumo itself, as `ivp.py` defines it, with its own diffusion or with the padded square one. -/
theorem C109_fhn {la : LinAlg} (hla : la.Correct) (hm : la.MeasurableQr) {T : ℝ} (hT : 0 < T) (s0 : ℝ) {ε : ℝ} (hε : 0 < ε) :
    (∃ (A : ℝ) (N0 : ℕ), ∀ {Ω : Type} [MeasurableSpace Ω] {Q : Measure Ω} {R : Ω → Rng}, IdealNormals Q R → ∀ N ≥ N0,
      ∀ r : ℕ, 0 < r → ∀ σ : ℝ, σ ≠ 0 → |σ| ≤ s0 → ∀ (sqrt : Bool) (key : Key) (odeInt : Ω → OdeInt (Vec 2) 2),
      (∀ ω k x vf, Ekf.ekf1 la (R ω) (some k) x vf (T / N) 1 sqrt
        (some ⟨_, IOUP.transition 0 σ 1 (T / N) 2⟩) none = .ok (odeInt ω k x vf (T / N))) →
      ∀ n ≤ N, ∃ y z : Ω → Vec 2,
        (∀ ω, ∃ ts traj traj2, ramSolver (R ω) key Ivp.Fhn.drift Ivp.Fhn.sigma Ivp.Fhn.x0 Ivp.Fhn.x0 (T / N) N r (odeInt ω) =
            .ok (ts, traj, traj2) ∧
          ts[n]? = some (n * (T / N)) ∧ traj[n]? = some (y ω) ∧ traj2[n]? = some (z ω)) ∧
        Q {ω | A * (T / N) < ‖y ω - z ω‖} ≤ ENNReal.ofReal ε) ∧
    (∃ (A : ℝ) (N0 : ℕ), ∀ {Ω : Type} [MeasurableSpace Ω] {Q : Measure Ω} {R : Ω → Rng}, IdealNormals Q R → ∀ N ≥ N0,
      ∀ r : ℕ, 0 < r → ∀ σ : ℝ, σ ≠ 0 → |σ| ≤ s0 → ∀ (sqrt : Bool) (key : Key) (odeInt : Ω → OdeInt (Vec 2) 2),
      (∀ ω k x vf, Ekf.ekf1 la (R ω) (some k) x vf (T / N) 1 sqrt
        (some ⟨_, IOUP.transition 0 σ 1 (T / N) 2⟩) none = .ok (odeInt ω k x vf (T / N))) →
      ∀ n ≤ N, ∃ y z : Ω → Vec 2,
        (∀ ω, ∃ ts traj traj2, ramSolver (R ω) key Ivp.Fhn.drift Ivp.Fhn.sigmaSquare Ivp.Fhn.x0 Ivp.Fhn.x0 (T / N) N r (odeInt ω) =
            .ok (ts, traj, traj2) ∧
          ts[n]? = some (n * (T / N)) ∧ traj[n]? = some (y ω) ∧ traj2[n]? = some (z ω)) ∧
        Q {ω | A * (T / N) < ‖y ω - z ω‖} ≤ ENNReal.ofReal ε) := by
  have e2 : Ivp.Fhn.sigmaSquare = fun _ _ => !![0, 0; Ivp.Fhn.sig, 0] := by
    funext x t
    simp [Ivp.Fhn.sigmaSquare, Ivp.Fhn.sigma]
  constructor
  · exact C109_prob hla hm (by norm_num) Ivp.Fhn.contDiff_drift hT (!![0; Ivp.Fhn.sig]) Ivp.Fhn.x0
      (fun w hw => Ivp.Fhn.exists_solution hT.le _ (fun j => by fin_cases j; rfl) w hw _) s0 hε
  · rw [e2]
    exact C109_prob hla hm (by norm_num) Ivp.Fhn.contDiff_drift hT (!![0, 0; Ivp.Fhn.sig, 0]) Ivp.Fhn.x0
      (fun w hw => Ivp.Fhn.exists_solution hT.le _ (fun j => by fin_cases j <;> rfl) w hw _) s0 hε

/-- With any key and generator, EKF1 returns a state. -/
theorem exists_ekf1 (la : LinAlg) (sqrt : Bool) (σ h : ℝ) : ∃ F : Rng → Key → Vec 2 → Field 2 → Vec 2, ∀ rng k x vf,
    Ekf.ekf1 la rng (some k) x vf h 1 sqrt (some ⟨_, IOUP.transition 0 σ 1 h 2⟩) none = .ok (F rng k x vf) := by
  have hex : ∀ rng k (x : Vec 2) vf, ∃ y, Ekf.ekf1 la rng (some k) x vf h 1 sqrt (some ⟨_, IOUP.transition 0 σ 1 h 2⟩) none =
      .ok y := fun rng k x vf => by
    have h := Ekf.ekf1_two la rng (some k) (by norm_num : 0 < 2) x vf h 1 sqrt (IOUP.transition 0 σ 1 h 2) none
    rw [Ekf.solver_some] at h
    exact ⟨_, h⟩
  choose F hF using hex
  exact ⟨F, hF⟩

/-- C109: a factorisation, a generator and a filter that satisfy the hypotheses, for a smooth drift. -/
example : ∃ (la : LinAlg) (A : ℝ), la.Correct ∧ la.MeasurableQr ∧ ∀ N : ℕ, 0 < N → ∃ (odeInt : _ → OdeInt (Vec 2) 2) (y z : _ → Vec 2),
    (∀ ω k x vf, Ekf.ekf1 la (drawsRng ω) (some k) x vf (1 / N) 1 true (some ⟨_, IOUP.transition 0 1 1 (1 / N) 2⟩) none =
      .ok (odeInt ω k x vf (1 / N))) ∧
    (∀ ω, ∃ ts traj traj2, ramSolver (drawsRng ω) [] (fun (x : Vec 2) (t : ℝ) => -(t • x)) (fun _ _ => (1 : Mat 2 2)) 0 0 (1 / N) N 7
      (odeInt ω) = .ok (ts, traj, traj2) ∧ traj[N]? = some (y ω) ∧ traj2[N]? = some (z ω)) ∧
    ∫ ω, ‖y ω - z ω‖ ^ 2 ∂drawsMeasure ≤ A * (1 / N) ^ 2 := by
  obtain ⟨A, hA⟩ := C109_measured measurableLinAlg_correct measurableLinAlg_measurable (by norm_num : 0 < 2) one_pos smooth_decay timeLipschitz_decay
    (1 : Mat 2 2) 0 1
  refine ⟨measurableLinAlg, A, measurableLinAlg_correct, measurableLinAlg_measurable, fun N hN => ?_⟩
  obtain ⟨F, hF⟩ := exists_ekf1 measurableLinAlg true 1 (1 / N)
  obtain ⟨y, z, h1, -, h2⟩ := hA idealNormals_drawsRng N hN 7 (by norm_num) 1 one_ne_zero (by simp) true []
    (fun ω k x vf _ => F (drawsRng ω) k x vf) (fun ω k x vf => hF (drawsRng ω) k x vf) N le_rfl
  refine ⟨fun ω k x vf _ => F (drawsRng ω) k x vf, y, z, fun ω k x vf => hF (drawsRng ω) k x vf, fun ω => ?_, h2⟩
  obtain ⟨ts, traj, traj2, g1, -, g2, g3⟩ := h1 ω
  exact ⟨ts, traj, traj2, g1, g2, g3⟩

/-- C109: the same for FitzHugh-Nagumo, with the settings of the scripts: one filter step per interval, prior scale 1, square roots, as many
fine steps as intervals. -/
example : ∃ (la : LinAlg) (A : ℝ) (N0 : ℕ), la.Correct ∧ la.MeasurableQr ∧ ∀ N ≥ N0, 0 < N → ∃ (odeInt : _ → OdeInt (Vec 2) 2) (y z : _ → Vec 2),
    (∀ ω k x vf, Ekf.ekf1 la (drawsRng ω) (some k) x vf (1 / N) 1 true (some ⟨_, IOUP.transition 0 1 1 (1 / N) 2⟩) none =
      .ok (odeInt ω k x vf (1 / N))) ∧
    (∀ ω, ∃ ts traj traj2, ramSolver (drawsRng ω) [] Ivp.Fhn.drift Ivp.Fhn.sigma Ivp.Fhn.x0 Ivp.Fhn.x0 (1 / N) N N
      (odeInt ω) = .ok (ts, traj, traj2) ∧ traj[N]? = some (y ω) ∧ traj2[N]? = some (z ω)) ∧
    drawsMeasure {ω | A * (1 / N) < ‖y ω - z ω‖} ≤ ENNReal.ofReal 0.01 := by
  obtain ⟨A, N0, hA⟩ := (C109_fhn measurableLinAlg_correct measurableLinAlg_measurable one_pos 1 (by norm_num : (0 : ℝ) < 0.01)).1
  refine ⟨measurableLinAlg, A, N0, measurableLinAlg_correct, measurableLinAlg_measurable, fun N hN hN0 => ?_⟩
  obtain ⟨F, hF⟩ := exists_ekf1 measurableLinAlg true 1 (1 / N)
  obtain ⟨y, z, h1, h2⟩ := hA idealNormals_drawsRng N hN N hN0 1 one_ne_zero (by simp) true []
    (fun ω k x vf _ => F (drawsRng ω) k x vf) (fun ω k x vf => hF (drawsRng ω) k x vf) N le_rfl
  refine ⟨fun ω k x vf _ => F (drawsRng ω) k x vf, y, z, fun ω k x vf => hF (drawsRng ω) k x vf, fun ω => ?_, h2⟩
  obtain ⟨ts, traj, traj2, g1, -, g2, g3⟩ := h1 ω
  exact ⟨ts, traj, traj2, g1, g2, g3⟩

end Verif
