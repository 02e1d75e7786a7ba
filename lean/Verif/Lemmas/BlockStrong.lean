import Verif.Lemmas.BlockStep
import Verif.Props.DrawOrder1

/-! Mean square error and localisation of the filter with independent coordinates. -/

namespace Verif

open Matrix Spec Jnp Set MeasureTheory ProbabilityTheory Scripts Filter
open scoped NNReal ENNReal

variable {d m q : ℕ}

theorem continuous_blockAdd {f : Vec d → ℝ → Vec d} (hf : Continuous (Function.uncurry f)) (S : Mat d m) {a0 δ : ℝ}
    {D : Vec d → Vec d →L[ℝ] Vec d} (hD : ∀ x, HasFDerivAt (fun z => f z (0 + a0)) (D x) x) (hDc : Continuous D) (A : Fin d → Mat 3 3)
    (g : Fin d → ℝ) : Continuous fun p : Vec d × Vec m × Vec m => blockAdd f S a0 δ A g p.1 p.2.1 p.2.2 := by
  have hv : ∀ t, Continuous fun p : Vec d × Vec m × Vec m => additiveField f S a0 δ p.2.1 p.2.2 p.1 t := fun t =>
    continuous_additiveField hf S a0 δ t
  have hJe : ∀ (a b : Vec m) (x : Vec d), jac (fun z => additiveField f S a0 δ a b z 0) x = LinearMap.toMatrix' (D x : Vec d →ₗ[ℝ] Vec d) :=
    fun a b x => jac_eq_toMatrix ((hD x).add_const _)
  have hw : Continuous fun p : Vec d × Vec m × Vec m => D p.1 (additiveField f S a0 δ p.2.1 p.2.2 p.1 0) :=
    (hDc.comp continuous_fst).clm_apply (hv 0)
  have h1 : ∀ (s : Fin 3) i, Continuous fun p : Vec d × Vec m × Vec m => A i s 0 * p.1 i + A i s 1 * additiveField f S a0 δ p.2.1 p.2.2 p.1 0 i +
      A i s 2 * D p.1 (additiveField f S a0 δ p.2.1 p.2.2 p.1 0) i := fun s i => by
    have e0 : Continuous fun p : Vec d × Vec m × Vec m => p.1 i := by fun_prop
    have e1 := (continuous_apply i).comp (hv 0)
    have e2 := (continuous_apply i).comp hw
    exact ((e0.const_mul _).add (e1.const_mul _)).add (e2.const_mul _)
  simp only [blockAdd, blockStep, hJe, toMatrix_mulVec]
  refine continuous_pi fun i => ((h1 0 i).add (Continuous.const_mul (Continuous.sub ?_ (h1 1 i)) _))
  have h2 : Continuous fun p : Vec d × Vec m × Vec m => ((fun i => A i 0 0 * p.1 i + A i 0 1 * additiveField f S a0 δ p.2.1 p.2.2 p.1 0 i +
      A i 0 2 * D p.1 (additiveField f S a0 δ p.2.1 p.2.2 p.1 0) i) : Vec d) := continuous_pi fun i => h1 0 i
  exact (continuous_apply i).comp ((hv δ).comp (h2.prodMk continuous_snd))

/-- The draw is a continuous function of the state, the coefficients and the normals. -/
theorem continuous_blockDraw {f : Vec d → ℝ → Vec d} (hf : Continuous (Function.uncurry f)) (S : Mat d m) {a0 δ : ℝ}
    {D : Vec d → Vec d →L[ℝ] Vec d} (hD : ∀ x, HasFDerivAt (fun z => f z (0 + a0)) (D x) x) (hDc : Continuous D) (A : Fin d → Mat 3 3)
    (g : Fin d → ℝ) (U : Mat d q) :
    Continuous fun z : Vec d × Vec m × Vec m × Vec q => blockAdd f S a0 δ A g z.1 z.2.1 z.2.2.1 + U *ᵥ z.2.2.2 := by
  have h2 : Continuous fun z : Vec d × Vec m × Vec m × Vec q => ((z.1, z.2.1, z.2.2.1) : Vec d × Vec m × Vec m) := by fun_prop
  have h3 : Continuous fun v : Vec q => U *ᵥ v := continuous_const.matrix_mulVec continuous_id
  exact ((continuous_blockAdd hf S hD hDc A g).comp h2).add (h3.comp (continuous_snd.comp (continuous_snd.comp continuous_snd)))

set_option maxHeartbeats 2000000 in
/-- Mean square error of the filter with independent coordinates and a normal perturbation in every interval. -/
theorem block_draw_strong {Ω : Type*} [MeasurableSpace Ω] {P : Measure Ω} {B : Fin (m + q) → ℝ≥0 → Ω → ℝ}
    (hB : IsBrownianVec B P) {f : Field d} {Df : Vec d → ℝ → Vec d →L[ℝ] Vec d} {T L K Lt : ℝ} (hT : 0 < T)
    (hf : SmoothField f Df T L K) (htl : TimeLipschitz f T Lt) (S : Mat d m) (x0 : Vec d)
    {X : Ω → ℝ → Vec d} (hX : ∀ᵐ ω ∂P, SolvesAdditive f S (fun t j => B (Fin.castAdd q j) t.toNNReal ω) x0 T (X ω)) {c0 γ0 : ℝ} (hc0 : 0 ≤ c0)
    (hγ0 : 0 ≤ γ0) :
    ∃ A0 : ℝ, 0 ≤ A0 ∧ ∀ N : ℕ, 0 < N → ∀ (A : Fin d → Mat 3 3) (g : Fin d → ℝ) (U : Mat d q), BlockOk S c0 (T / N) A g →
      ∑ i, ∑ j, U i j ^ 2 ≤ γ0 * (T / N) ^ 3 → ∀ c : Ω → ℕ → Vec (m + q) × Vec (m + q),
      (∀ᵐ ω ∂P, ∀ k < N, SameEndAndArea (fun t => Foster.evalParabola t (T / N) (c ω k).1 (c ω k).2) (fun t j => B j t.toNNReal ω)
        (k * (T / N)) (T / N)) →
      ∀ Y : ℕ → Ω → Vec d, (∀ ω, Y 0 ω = x0) → (∀ k < N, ∀ ω, Y (k + 1) ω =
        blockAdd f S (k * (T / N)) (T / N) A g (Y k ω) (firstV (c ω k).1) (firstV (c ω k).2) +
          U *ᵥ ((1 / Real.sqrt (T / N)) • lastV (c ω k).1)) →
      ∀ n ≤ N, Integrable (fun ω => ‖X ω (n * (T / N)) - Y n ω‖ ^ 2) P ∧
        ∫ ω, ‖X ω (n * (T / N)) - Y n ω‖ ^ 2 ∂P ≤ A0 * (T / N) ^ 2 := by
  wlog hL : 0 ≤ L generalizing L
  · refine this (L := 0) ⟨hf.cont, fun x y t ht => (hf.lip x y t ht).trans ?_, hf.deriv, hf.jac⟩ le_rfl
    exact mul_le_mul_of_nonneg_right (not_le.mp hL).le (norm_nonneg _)
  wlog hLt : 0 ≤ Lt generalizing Lt
  · refine this (Lt := 0) (fun x s hs t ht => (htl x s hs t ht).trans ?_) le_rfl
    refine mul_le_mul_of_nonneg_right (mul_le_mul_of_nonneg_right (not_le.mp hLt).le ?_) (abs_nonneg _)
    positivity
  have hK := hf.jac_const_nonneg hT
  obtain ⟨s, hs, hS⟩ := exists_mulVec_bound S
  obtain ⟨C1, hC1, hcons⟩ := trap_expansion hf hL hK hLt hT.le htl hs hS
  obtain ⟨C2, hC2, hblock⟩ := block_expansion hf hL hK hLt hT.le htl hs hS hc0
  have hX' : ∀ᵐ ω ∂P, SolvesAdditive f (KF.hcat S (0 : Mat d q)) (fun t j => B j t.toNNReal ω) x0 T (X ω) := by
    filter_upwards [hX] with ω h
    refine ⟨h.cont, fun t ht => ?_⟩
    rw [hcat_mulVec]
    exact h.eq t ht
  obtain ⟨r, hr⟩ : ∃ r, r = Real.sqrt (γ0 * q) := ⟨_, rfl⟩
  have hr0 : 0 ≤ r := by rw [hr]; exact Real.sqrt_nonneg _
  obtain ⟨A1, hA0, hA⟩ := strong_mart_noise hB hT hf hL hLt htl (KF.hcat S (0 : Mat d q)) x0 hX' (C0 := L * Real.exp (3 * L / 2 * T) * (1 + L * T)) (by positivity)
    (add_nonneg hC1 hC2) (add_nonneg hC2 hr0) (by norm_num : (0 : ℝ) ≤ 4) (by positivity : 0 ≤ 6 * c0)
  refine ⟨A1 * (1 + T * γ0), by positivity, ?_⟩
  intro N hN A g U hok hU c hc Y hY0 hYs n hn
  have hN' : (0 : ℝ) < N := by exact_mod_cast hN
  obtain ⟨δ, hδdef⟩ : ∃ δ, δ = T / N := ⟨_, rfl⟩
  have hA' := hA N hN (lam := 1 / 2) (mu := 1 / Real.sqrt 6 + trapExcess 1)
  rw [← hδdef] at hU hok hc hYs hA' ⊢
  have hδ : 0 < δ := by rw [hδdef]; positivity
  have hNδ : (N : ℝ) * δ = T := by rw [hδdef]; field_simp
  have hkδ : ∀ k < N, (k : ℝ) * δ + δ ≤ T := fun k hk => by
    have : ((k + 1 : ℕ) : ℝ) * δ ≤ N * δ := mul_le_mul_of_nonneg_right (by exact_mod_cast hk) hδ.le
    rw [hNδ] at this
    push_cast at this
    linarith
  obtain ⟨D, hDn, hros⟩ := hblock hδ hok
  have hkI : ∀ k < N, (0 : ℝ) + (k : ℝ) * δ ∈ Icc 0 T := fun k hk => by
    rw [zero_add]
    exact ⟨by positivity, by linarith [hkδ k hk]⟩
  have hDc : ∀ k < N, Continuous fun x => Df x (0 + k * δ) := fun k hk => hf.continuous_jac hT (hkI k hk)
  have h6 : |1 / Real.sqrt 6| ≤ 1 := by
    rw [abs_of_pos (by positivity), div_le_one (by positivity)]
    exact Real.one_le_sqrt.mpr (by norm_num)
  have hδ1 : δ / (1 : ℕ) = δ := by simp
  have hsel : Continuous fun z : Vec d × Vec (m + q) × Vec (m + q) => ((z.1, firstV z.2.1, firstV z.2.2) : Vec d × Vec m × Vec m) := by
    have h1 := continuous_firstV (m := m) (q := q)
    exact continuous_fst.prodMk ((h1.comp (continuous_fst.comp continuous_snd)).prodMk (h1.comp (continuous_snd.comp continuous_snd)))
  have hsel2 : Continuous fun z : Vec d × Vec (m + q) × Vec (m + q) => ((z.1, firstV z.2.1, firstV z.2.2, (1 / Real.sqrt δ) • lastV z.2.1) :
      Vec d × Vec m × Vec m × Vec q) := by
    have h1 := continuous_firstV (m := m) (q := q)
    have h2 := continuous_lastV (m := m) (q := q)
    exact continuous_fst.prodMk ((h1.comp (continuous_fst.comp continuous_snd)).prodMk ((h1.comp (continuous_snd.comp continuous_snd)).prodMk
      ((continuous_const_smul (1 / Real.sqrt δ)).comp (h2.comp (continuous_fst.comp continuous_snd)))))
  obtain ⟨Φ, hΦ⟩ : ∃ Φ : ℕ → Vec d → Vec (m + q) → Vec (m + q) → Vec d, ∀ k y a b, Φ k y a b = if k < N then
      blockAdd f S (k * δ) δ A g y (firstV a) (firstV b) + U *ᵥ ((1 / Real.sqrt δ) • lastV a) else y :=
    ⟨_, fun _ _ _ _ => rfl⟩
  have hΦm : ∀ k, Measurable fun p : Vec d × Vec (m + q) × Vec (m + q) => Φ k p.1 p.2.1 p.2.2 := fun k => by
    simp only [hΦ]
    by_cases hk : k < N
    · simp only [if_pos hk]
      have h1 := continuous_blockDraw (D := fun x => Df x (0 + k * δ)) hf.cont S (δ := δ) (fun x => hf.deriv x _ (hkI k hk)) (hDc k hk) A g U
      have h2 := h1.comp hsel2
      exact h2.measurable
    · simp only [if_neg hk]
      exact measurable_fst
  have hYs' : ∀ k < N, ∀ ω, Y (k + 1) ω = Φ k (Y k ω) (c ω k).1 (c ω k).2 := fun k hk ω => by rw [hΦ, if_pos hk]; exact hYs k hk ω
  obtain ⟨-, hsum⟩ := draw_sum hB hδ hc (Θ := Φ) (fun k _ => hΦm k) hY0 hYs' (G := fun _ _ _ _ => U)
    (fun _ _ _ _ => measurable_const) (γ := γ0 * δ ^ 3) (fun _ _ _ _ _ => hU)
  obtain ⟨v, hv⟩ : ∃ v, v = T * γ0 * δ ^ 2 := ⟨_, rfl⟩
  have hvn : ∀ k ≤ N, (k : ℝ) * (γ0 * δ ^ 3) ≤ v := fun k hk => by
    have e : v = N * (γ0 * δ ^ 3) := by rw [hv, ← hNδ]; ring
    rw [e]
    have hk' : (k : ℝ) ≤ N := by exact_mod_cast hk
    gcongr
  have hmono : ∀ {C C' : ℝ} (y : Vec d) (t : ℝ) (a b : Vec (m + q)), 0 ≤ C → 0 ≤ C' →
      δ * (C * (δ * (1 + ‖y‖ + ‖f y t‖) ^ 2 + (‖firstV a‖ + 4 * ‖firstV b‖) ^ 2)) ≤
      δ * ((C + C') * (δ * (1 + ‖y‖ + ‖f y t‖) ^ 2 + (‖a‖ + 4 * ‖b‖) ^ 2)) := fun y t a b hC hC' => by
    have h1 := norm_firstV_le a
    have h2 := norm_firstV_le b
    gcongr
    linarith
  have hnoise : ∀ (a : Vec (m + q)), ‖U *ᵥ ((1 / Real.sqrt δ) • lastV a)‖ ≤ δ * (r * ‖a‖) := fun a => by
    have h1 := mulVec_le_frobenius U hU ((1 / Real.sqrt δ) • lastV a)
    rw [norm_smul, Real.norm_of_nonneg (by positivity)] at h1
    have e1 : Real.sqrt (γ0 * δ ^ 3 * q) = r * (δ * Real.sqrt δ) := by
      rw [hr, show γ0 * δ ^ 3 * q = γ0 * q * δ ^ 3 by ring, Real.sqrt_mul (by positivity)]
      congr 1
      rw [show δ ^ 3 = δ ^ 2 * δ by ring, Real.sqrt_mul (by positivity), Real.sqrt_sq hδ.le]
    rw [e1] at h1
    refine h1.trans ?_
    have hsq : Real.sqrt δ ≠ 0 := by positivity
    calc r * (δ * Real.sqrt δ) * (1 / Real.sqrt δ * ‖lastV a‖) = δ * (r * ‖lastV a‖) := by field_simp
      _ ≤ _ := by have := norm_lastV_le a; gcongr
  have h := hA' (by rw [abs_of_pos (by norm_num)]; norm_num) ((abs_add_le _ _).trans (by linarith [trapExcess_bound one_pos]))
    (fun k y a b => (trapScheme (additiveField f S (k * δ) δ (firstV a) (firstV b)) (δ / (1 : ℕ)) y 1).1)
    (fun k y a b => if k < N then blockAdd f S (k * δ) δ A g y (firstV a) (firstV b) else y)
    (fun k => ((continuous_fst.comp (continuous_trapScheme hf.cont S (k * δ) δ (δ / (1 : ℕ)) 1)).comp hsel).measurable)
    (fun k => by
      by_cases hk : k < N
      · simp only [if_pos hk]
        have h1 := continuous_blockAdd (D := fun x => Df x (0 + k * δ)) hf.cont S (δ := δ) (fun x => hf.deriv x _ (hkI k hk)) (hDc k hk) A g
        have h2 := h1.comp hsel
        exact h2.measurable
      · simp only [if_neg hk]
        exact measurable_fst)
    (fun k hk a b y y' => trap_stable hL hf.lip S hδ (by positivity) (hkδ k hk) one_pos _ _ y y')
    (fun k hk a b y => by
      rw [hcat_mulVec, hcat_mulVec]
      exact (hcons hδ (by positivity) (hkδ k hk) one_pos (firstV a) (firstV b) y le_rfl).trans (hmono y _ a b hC1 hC2))
    (fun _ _ => D) (fun _ _ => continuous_const) (fun _ _ _ => hDn)
    (fun k hk a b y => by
      rw [if_pos hk, hδ1, add_comm C1 C2, hcat_mulVec]
      exact ((hros (by positivity) (hkδ k hk) (firstV a) (firstV b) y).1).trans (hmono y _ a b hC2 hC1))
    v Y (fun ω k => (c ω k).1) (fun ω k => (c ω k).2)
    (fun ω k => U *ᵥ ((1 / Real.sqrt δ) • lastV (c ω k).1))
    (Eventually.of_forall hY0) hc (Eventually.of_forall fun ω k hk => by rw [if_pos hk]; exact hYs k hk ω)
    (Eventually.of_forall fun ω k hk => by
      rw [hYs k hk, hcat_mulVec]
      have h1 := (hros (by positivity) (hkδ k hk) (firstV (c ω k).1) (firstV (c ω k).2) (Y k ω)).2
      have h2 := hnoise (c ω k).1
      have h3 := norm_firstV_le (c ω k).1
      have h4 := norm_firstV_le (c ω k).2
      have h5 : δ * (C2 * (1 + ‖Y k ω‖ + (‖firstV (c ω k).1‖ + 4 * ‖firstV (c ω k).2‖))) ≤
          δ * (C2 * (1 + ‖Y k ω‖ + (‖(c ω k).1‖ + 4 * ‖(c ω k).2‖))) := by gcongr
      have h6 : δ * (r * ‖(c ω k).1‖) ≤ δ * (r * (1 + ‖Y k ω‖ + (‖(c ω k).1‖ + 4 * ‖(c ω k).2‖))) := by
        gcongr
        linarith [norm_nonneg (Y k ω), norm_nonneg (c ω k).2]
      rw [add_mul C2 r, mul_add]
      generalize blockAdd f S (k * δ) δ A g (Y k ω) (firstV (c ω k).1) (firstV (c ω k).2) = u at h1
      generalize U *ᵥ ((1 / Real.sqrt δ) • lastV (c ω k).1) = w at h2
      rw [show u + w - Y k ω - S *ᵥ firstV (c ω k).1 = (u - Y k ω - S *ᵥ firstV (c ω k).1) + w by abel]
      refine (norm_add_le _ _).trans ?_
      linarith)
    (fun k hk => scheme_adapted hB hδ N hΦm (Eventually.of_forall hY0) hc (Eventually.of_forall fun ω k hk => hYs' k hk ω) k hk)
    (fun k hk => ⟨(hsum k hk).1, (hsum k hk).2.trans (hvn k hk)⟩) n hn
  refine ⟨h.1, h.2.trans (le_of_eq ?_)⟩
  rw [hv]
  ring

/-- The filter only evaluates the field near the starting point. -/
theorem block_local {f g : Field d} {Dg : Vec d → ℝ → Vec d →L[ℝ] Vec d} {T L K F ρ s c0 : ℝ} (hL : 0 ≤ L) (hc0 : 0 ≤ c0) (hg : SmoothField g Dg T L K) (hs : 0 ≤ s)
    {S : Mat d m} (hS : ∀ v, ‖S *ᵥ v‖ ≤ s * ‖v‖) (hgF : ∀ x t, ‖g x t‖ ≤ F)
    (heq : ∀ x, ‖x‖ ≤ ρ + 1 → ∀ t ∈ Icc 0 T, g x t = f x t) {δ a0 : ℝ} (hδ : 0 < δ) (hδF : δ * F ≤ 1 / 16)
    (hδc : δ * (c0 * δ * (ρ + 1 / 2) + (c0 + (1 + c0 * T) * L)) ≤ 1 / 16) (ha0 : 0 ≤ a0) (haT : a0 + δ ≤ T)
    {A : Fin d → Mat 3 3} {w : Fin d → ℝ} (hok : BlockOk S c0 δ A w)
    {y : Vec d} (hy : ‖y‖ ≤ ρ + 1 / 2) {a b : Vec m}
    (hsl : ∀ t ∈ Icc 0 δ, ‖jacT (fun s => Foster.evalParabola s δ a b) t‖ ≤ 10 * (1 / (80 * (s + 1))) / δ) :
    blockAdd f S a0 δ A w y a b = blockAdd g S a0 δ A w y a b := by
  have hsκ : s * (10 * (1 / (80 * (s + 1))) / δ) * δ ≤ 1 / 8 := by
    have h1 : s * (10 * (1 / (80 * (s + 1))) / δ) * δ = s / (s + 1) * (1 / 8) := by field_simp; ring
    rw [h1]
    have h2 : s / (s + 1) ≤ 1 := (div_le_one (by positivity)).mpr (by linarith)
    linarith
  have hI0 : 0 + a0 ∈ Icc 0 T := by rw [zero_add]; exact ⟨ha0, by linarith⟩
  have hI : δ + a0 ∈ Icc 0 T := ⟨by positivity, by linarith⟩
  have h0 := heq y (hy.trans (by linarith)) (0 + a0) hI0
  have ev : additiveField f S a0 δ a b y 0 = additiveField g S a0 δ a b y 0 := by simp only [additiveField, h0]
  have hev : (fun x => f x (0 + a0)) =ᶠ[nhds y] fun x => g x (0 + a0) := by
    have : ‖y‖ < ρ + 1 := by linarith
    filter_upwards [(isOpen_lt continuous_norm continuous_const).mem_nhds this] with x hx
    exact (heq x (le_of_lt hx) _ hI0).symm
  have ejg : jac (fun z => additiveField g S a0 δ a b z 0) y = LinearMap.toMatrix' (Dg y (0 + a0) : Vec d →ₗ[ℝ] Vec d) :=
    jac_eq_toMatrix ((hg.deriv y _ hI0).add_const _)
  have ej : jac (fun z => additiveField f S a0 δ a b z 0) y = jac (fun z => additiveField g S a0 δ a b z 0) y :=
    (jac_eq_toMatrix (((hg.deriv y _ hI0).congr_of_eventuallyEq hev).add_const _)).trans ejg.symm
  obtain ⟨v, hv⟩ : ∃ v, v = additiveField g S a0 δ a b y 0 := ⟨_, rfl⟩
  have hvn : δ * ‖v‖ ≤ 3 / 16 := by
    have h1 : ‖v‖ ≤ F + s * (10 * (1 / (80 * (s + 1))) / δ) := by
      rw [hv]
      exact (norm_add_le _ _).trans (add_le_add (hgF _ _) ((hS _).trans (mul_le_mul_of_nonneg_left (hsl 0 ⟨le_rfl, hδ.le⟩) hs)))
    refine (mul_le_mul_of_nonneg_left h1 hδ.le).trans ?_
    rw [mul_add, mul_comm δ (s * _)]
    linarith
  have hwn : ∀ i, |(jac (fun z => additiveField g S a0 δ a b z 0) y *ᵥ v) i| ≤ L * ‖v‖ := fun i => by
    rw [ejg, toMatrix_mulVec]
    exact (norm_le_pi_norm _ i).trans (((Dg y (0 + a0)).le_opNorm _).trans (mul_le_mul_of_nonneg_right (hg.norm_jac_le hL hI0 _) (norm_nonneg _)))
  have hδT : δ ≤ T := by linarith
  have hT : 0 ≤ T := hδ.le.trans hδT
  have hkT : c0 * δ ≤ c0 * T := by gcongr
  have h02 : ∀ i, |A i 0 2| ≤ (1 + c0 * T) * δ ^ 2 := fun i => by
    rcases hok.kind i with ⟨-, h, -⟩ | ⟨h, -⟩
    · refine near_le (by positivity) h ?_
      have h1 : c0 * δ ^ 3 ≤ c0 * T * δ ^ 2 := by
        calc _ = c0 * δ * δ ^ 2 := by ring
          _ ≤ c0 * T * δ ^ 2 := by gcongr
      linarith [sq_nonneg δ]
    · rw [h, abs_zero]; positivity
  have hpred : ‖((fun i => A i 0 0 * y i + A i 0 1 * v i + A i 0 2 * (jac (fun z => additiveField g S a0 δ a b z 0) y *ᵥ v) i) : Vec d)‖ ≤ ρ + 1 := by
    have hn0 : 0 ≤ ρ + 1 := (norm_nonneg y).trans (by linarith)
    rw [pi_norm_le_iff_of_nonneg hn0]
    intro i
    rw [Real.norm_eq_abs, show A i 0 0 * y i + A i 0 1 * v i + A i 0 2 * (jac (fun z => additiveField g S a0 δ a b z 0) y *ᵥ v) i =
      y i + ((A i 0 0 - 1) * y i + (A i 0 1 - δ) * v i + A i 0 2 * (jac (fun z => additiveField g S a0 δ a b z 0) y *ᵥ v) i + δ * v i) by ring]
    have hyi : |y i| ≤ ρ + 1 / 2 := (norm_le_pi_norm y i).trans hy
    have t1 := abs_mul_le' (hok.a00 i) hyi
    have t2 := abs_mul_le' (hok.a01 i) (norm_le_pi_norm v i)
    have t3 := abs_mul_le' (h02 i) (hwn i)
    have t4 : |δ * v i| ≤ δ * ‖v‖ := abs_mul_le' (abs_of_pos hδ).le (norm_le_pi_norm v i)
    have b1 : c0 * δ ^ 2 * (ρ + 1 / 2) + c0 * δ ^ 2 * ‖v‖ + (1 + c0 * T) * δ ^ 2 * (L * ‖v‖) ≤
        δ * (c0 * δ * (ρ + 1 / 2) + (c0 + (1 + c0 * T) * L)) := by
      have h1 : (c0 + (1 + c0 * T) * L) * (δ * ‖v‖) ≤ (c0 + (1 + c0 * T) * L) * 1 := by
        gcongr
        linarith
      have h2 := mul_le_mul_of_nonneg_left h1 hδ.le
      linarith
    refine (abs_add_le _ _).trans ((add_le_add_right ((abs_add_le _ _).trans (add_le_add_left ((abs_add_le _ _).trans
      (add_le_add_left (abs_add_le _ _) _)) _)) _).trans ?_)
    linarith
  simp only [blockAdd, blockStep]
  rw [ej, ev, ← hv]
  funext i
  have e2 : additiveField f S a0 δ a b (fun i => A i 0 0 * y i + A i 0 1 * v i + A i 0 2 * (jac (fun z => additiveField g S a0 δ a b z 0) y *ᵥ v) i) δ =
      additiveField g S a0 δ a b (fun i => A i 0 0 * y i + A i 0 1 * v i + A i 0 2 * (jac (fun z => additiveField g S a0 δ a b z 0) y *ᵥ v) i) δ := by
    exact congrArg (· + S *ᵥ jacT (fun s => Foster.evalParabola s δ a b) δ) (heq _ hpred _ hI).symm
  rw [e2]

end Verif
