import Verif.Lemmas.RosDraw
import Verif.Props.DrawOrder1
import Verif.Props.StrongRosProb

/-!
# Property C133: the errors measured by the pathwise experiments, with EKF1 and any number of filter steps drawing from its posterior
-/

namespace Verif

open Matrix Spec Jnp Set MeasureTheory ProbabilityTheory Scripts Filter
open scoped NNReal ENNReal

variable {d m q : ℕ}

/-- The states of the linearly implicit scheme on one interval. -/
noncomputable def rosRun (f : Vec d → ℝ → Vec d) (S : Mat d m) (a0 δ h : ℝ) (y : Vec d) (a b : Vec m) : ℕ → RosState d :=
  rosScheme (additiveField f S a0 δ a b) h ⟨y, additiveField f S a0 δ a b y 0, 0, 0⟩

/-- The Jacobians at the predictions of the `M` steps of one interval. -/
noncomputable def rosJs (f : Vec d → ℝ → Vec d) (S : Mat d m) (a0 δ h : ℝ) (M : ℕ) (y : Vec d) (a b : Vec m) (n : ℕ) : Mat d d :=
  if n < M then (rosRun f S a0 δ h y a b (n + 1)).J else 0

theorem measurable_comp_rosJs {f : Vec d → ℝ → Vec d} (hf : Continuous (Function.uncurry f)) (S : Mat d m) {a0 δ h : ℝ} (hh : 0 < h) {M : ℕ}
    {D : ℕ → Vec d → Vec d →L[ℝ] Vec d} (hD : ∀ k < M, ∀ x, HasFDerivAt (fun z => f z ((k + 1) * h + a0)) (D k x) x)
    (hDc : ∀ k < M, Continuous (D k)) {G : (ℕ → Mat d d) → Mat d q}
    (hG : ∀ i j, Measurable fun Js : ℕ → Fin d → Fin d → ℝ => G (fun n => of (Js n)) i j) (i : Fin d) (j : Fin q) :
    Measurable fun p : Vec d × Vec m × Vec m => G (rosJs f S a0 δ h M p.1 p.2.1 p.2.2) i j := by
  have h1 : Measurable fun p : Vec d × Vec m × Vec m => (fun n a b => rosJs f S a0 δ h M p.1 p.2.1 p.2.2 n a b : ℕ → Fin d → Fin d → ℝ) := by
    refine measurable_pi_lambda _ fun n => measurable_pi_lambda _ fun a => measurable_pi_lambda _ fun b => ?_
    simp only [rosJs]
    by_cases hn : n < M
    · simp only [if_pos hn]
      have h2 := (continuous_rosStates hf S hh hD hDc (δ := δ) rfl (n + 1) hn).2.2.1
      exact (h2.matrix_elem a b).measurable
    · simp only [if_neg hn]
      exact measurable_const
  exact (hG i j).comp h1

theorem measurable_rosStepsDraw {f : Vec d → ℝ → Vec d} (hf : Continuous (Function.uncurry f)) (S : Mat d m) {a0 δ h : ℝ} (hh : 0 < h) {M : ℕ}
    {D : ℕ → Vec d → Vec d →L[ℝ] Vec d} (hD : ∀ k < M, ∀ x, HasFDerivAt (fun z => f z ((k + 1) * h + a0)) (D k x) x)
    (hDc : ∀ k < M, Continuous (D k)) {G : (ℕ → Mat d d) → Mat d q}
    (hG : ∀ i j, Measurable fun Js : ℕ → Fin d → Fin d → ℝ => G (fun n => of (Js n)) i j) :
    Measurable fun z : Vec d × Vec m × Vec m × Vec q => (rosRun f S a0 δ h z.1 z.2.1 z.2.2.1 M).x +
      G (rosJs f S a0 δ h M z.1 z.2.1 z.2.2.1) *ᵥ z.2.2.2 := by
  have hp : Measurable fun z : Vec d × Vec m × Vec m × Vec q => ((z.1, z.2.1, z.2.2.1) : Vec d × Vec m × Vec m) := by fun_prop
  have h1 := (continuous_rosScheme hf S hh hD hDc (δ := δ)).measurable.comp hp
  refine Measurable.add h1 (measurable_pi_lambda _ fun i => ?_)
  simp only [mulVec, dotProduct]
  refine Finset.measurable_fun_sum _ fun j _ => ?_
  have h2 := (measurable_comp_rosJs hf S hh hD hDc (δ := δ) hG i j).comp hp
  exact Measurable.mul h2 (by fun_prop)

/-- The Jacobians of a smooth field are bounded by its Lipschitz constant. -/
theorem rosJs_le {f : Vec d → ℝ → Vec d} {Df : Vec d → ℝ → Vec d →L[ℝ] Vec d} {T L K : ℝ} (hf : SmoothField f Df T L K) (hL : 0 ≤ L)
    (S : Mat d m) {a0 δ h : ℝ} {M : ℕ} (hI : ∀ j < M, ((j : ℝ) + 1) * h + a0 ∈ Icc 0 T) (y : Vec d) (a b : Vec m) :
    ∀ n < M, ∀ u, ‖rosJs f S a0 δ h M y a b n *ᵥ u‖ ≤ L * ‖u‖ := by
  intro n hn u
  have e : rosJs f S a0 δ h M y a b n = LinearMap.toMatrix' (Df ((rosRun f S a0 δ h y a b n).x + h • (rosRun f S a0 δ h y a b n).v)
      ((n + 1) * h + a0) : Vec d →ₗ[ℝ] Vec d) := by
    rw [rosJs, if_pos hn]
    exact jac_eq_toMatrix ((hf.deriv _ _ (hI n hn)).add_const _)
  rw [e, toMatrix_mulVec]
  exact (ContinuousLinearMap.le_opNorm _ _).trans (mul_le_mul_of_nonneg_right (hf.norm_jac_le hL (hI n hn) _) (norm_nonneg _))

set_option maxHeartbeats 2000000 in
/-- Mean square error of the linearly implicit scheme with several steps and a normal perturbation in every interval, whose factor depends on the
Jacobians. -/
theorem rosSteps_draw_strong {Ω : Type*} [MeasurableSpace Ω] {P : Measure Ω} {B : Fin (m + q) → ℝ≥0 → Ω → ℝ}
    (hB : IsBrownianVec B P) {f : Field d} {Df : Vec d → ℝ → Vec d →L[ℝ] Vec d} {T L K Lt : ℝ} (hT : 0 < T)
    (hf : SmoothField f Df T L K) (hL : 0 ≤ L) (htl : TimeLipschitz f T Lt) (S : Mat d m) (x0 : Vec d)
    {X : Ω → ℝ → Vec d} (hX : ∀ᵐ ω ∂P, SolvesAdditive f S (fun t j => B (Fin.castAdd q j) t.toNNReal ω) x0 T (X ω)) {γ0 : ℝ} (hγ0 : 0 ≤ γ0) :
    ∃ A : ℝ, 0 ≤ A ∧ ∀ N : ℕ, 0 < N → ∀ M : ℕ, 0 < M → ∀ G : (ℕ → Mat d d) → Mat d q,
      (∀ i j, Measurable fun Js : ℕ → Fin d → Fin d → ℝ => G (fun n => of (Js n)) i j) →
      (∀ Js, (∀ n < M, ∀ u, ‖Js n *ᵥ u‖ ≤ L * ‖u‖) → ∑ i, ∑ j, G Js i j ^ 2 ≤ γ0 * (T / N) ^ 3) →
      ∀ c : Ω → ℕ → Vec (m + q) × Vec (m + q),
      (∀ᵐ ω ∂P, ∀ k < N, SameEndAndArea (fun t => Foster.evalParabola t (T / N) (c ω k).1 (c ω k).2) (fun t j => B j t.toNNReal ω)
        (k * (T / N)) (T / N)) →
      ∀ Y : ℕ → Ω → Vec d, (∀ ω, Y 0 ω = x0) → (∀ k < N, ∀ ω, Y (k + 1) ω =
        (rosRun f S (k * (T / N)) (T / N) (T / N / M) (Y k ω) (firstV (c ω k).1) (firstV (c ω k).2) M).x +
          G (rosJs f S (k * (T / N)) (T / N) (T / N / M) M (Y k ω) (firstV (c ω k).1) (firstV (c ω k).2)) *ᵥ ((1 / Real.sqrt (T / N)) • lastV (c ω k).1)) →
      ∀ n ≤ N, Integrable (fun ω => ‖X ω (n * (T / N)) - Y n ω‖ ^ 2) P ∧
        ∫ ω, ‖X ω (n * (T / N)) - Y n ω‖ ^ 2 ∂P ≤ A * (T / N) ^ 2 := by
  wlog hLt : 0 ≤ Lt generalizing Lt
  · refine this (Lt := 0) (fun x s hs t ht => (htl x s hs t ht).trans ?_) le_rfl
    refine mul_le_mul_of_nonneg_right (mul_le_mul_of_nonneg_right (not_le.mp hLt).le ?_) (abs_nonneg _)
    positivity
  have hK := hf.jac_const_nonneg hT
  obtain ⟨s, hs, hS⟩ := exists_mulVec_bound S
  obtain ⟨C1, hC1, hcons⟩ := trap_expansion hf hL hK hLt hT.le htl hs hS
  obtain ⟨C2, hC2, hros⟩ := ros_steps_expansion hf hL hK hLt hT.le htl hs hS
  obtain ⟨κ1, hκ1, hlin⟩ := rosLin_bound (d := d)
  obtain ⟨F0, hF0⟩ := isCompact_Icc.exists_bound_of_continuousOn (s := Icc 0 T) (f := fun t => f 0 t)
    (hf.cont.comp (by fun_prop : Continuous fun t : ℝ => ((0 : Vec d), t))).continuousOn
  have hF00 : 0 ≤ F0 := (norm_nonneg _).trans (hF0 0 ⟨le_rfl, hT.le⟩)
  have hX' : ∀ᵐ ω ∂P, SolvesAdditive f (KF.hcat S (0 : Mat d q)) (fun t j => B j t.toNNReal ω) x0 T (X ω) := by
    filter_upwards [hX] with ω h
    refine ⟨h.cont, fun t ht => ?_⟩
    rw [hcat_mulVec]
    exact h.eq t ht
  obtain ⟨g, hg⟩ : ∃ g, g = Real.sqrt (γ0 * q) := ⟨_, rfl⟩
  have hg0 : 0 ≤ g := by rw [hg]; exact Real.sqrt_nonneg _
  obtain ⟨A, hA0, hA⟩ := strong_mart_noise hB hT hf hL hLt htl (KF.hcat S (0 : Mat d q)) x0 hX' (C0 := L * Real.exp (3 * L / 2 * T) * (1 + L * T)) (by positivity)
    (C1 := C1 + C2) (C2 := C2 * (2 + F0 + L) + g) (κ0 := 4) (κ1 := (κ1 + 2) * L)
    (add_nonneg hC1 hC2) (by positivity) (by norm_num : (0 : ℝ) ≤ 4) (by positivity)
  refine ⟨A * (1 + T * γ0), by positivity, ?_⟩
  intro N hN M hM G hGm hG c hc Y hY0 hYs n hn
  have hM' : (0 : ℝ) < M := by exact_mod_cast hM
  have hN' : (0 : ℝ) < N := by exact_mod_cast hN
  obtain ⟨δ, hδdef⟩ : ∃ δ, δ = T / N := ⟨_, rfl⟩
  have hA' := hA N hN (lam := 1 / 2) (mu := 1 / Real.sqrt 6 + trapExcess M)
  rw [← hδdef] at hG hc hYs hA' ⊢
  have hδ : 0 < δ := by rw [hδdef]; positivity
  have hNδ : (N : ℝ) * δ = T := by rw [hδdef]; field_simp
  have hkδ : ∀ k < N, (k : ℝ) * δ + δ ≤ T := fun k hk => by
    have : ((k + 1 : ℕ) : ℝ) * δ ≤ N * δ := mul_le_mul_of_nonneg_right (by exact_mod_cast hk) hδ.le
    rw [hNδ] at this
    push_cast at this
    linarith
  have hkI : ∀ k < N, (k : ℝ) * δ ∈ Icc 0 T := fun k hk => ⟨by positivity, by linarith [hkδ k hk]⟩
  have hjI : ∀ k < N, ∀ j < M, ((j : ℝ) + 1) * (δ / M) + k * δ ∈ Icc 0 T := fun k hk j hj => by
    have h1 : ((j + 1 : ℕ) : ℝ) * (δ / M) ≤ M * (δ / M) := mul_le_mul_of_nonneg_right (by exact_mod_cast hj) (by positivity)
    have h2 : (M : ℝ) * (δ / M) = δ := by field_simp
    push_cast at h1
    exact ⟨by positivity, by linarith [hkδ k hk]⟩
  have hDc : ∀ k < N, Continuous fun x => Df x (k * δ) := fun k hk => hf.continuous_jac hT (hkI k hk)
  have hGk : ∀ k < N, ∀ y a b, ∑ i, ∑ j, G (rosJs f S (k * δ) δ (δ / M) M y a b) i j ^ 2 ≤ γ0 * δ ^ 3 := fun k hk y a b =>
    hG _ (rosJs_le hf hL S (hjI k hk) y a b)
  have h6 : |1 / Real.sqrt 6| ≤ 1 := by
    rw [abs_of_pos (by positivity), div_le_one (by positivity)]
    exact Real.one_le_sqrt.mpr (by norm_num)
  have hsel : Continuous fun z : Vec d × Vec (m + q) × Vec (m + q) => ((z.1, firstV z.2.1, firstV z.2.2) : Vec d × Vec m × Vec m) := by
    have h1 := continuous_firstV (m := m) (q := q)
    exact continuous_fst.prodMk ((h1.comp (continuous_fst.comp continuous_snd)).prodMk (h1.comp (continuous_snd.comp continuous_snd)))
  have hsel2 : Continuous fun z : Vec d × Vec (m + q) × Vec (m + q) => ((z.1, firstV z.2.1, firstV z.2.2, (1 / Real.sqrt δ) • lastV z.2.1) :
      Vec d × Vec m × Vec m × Vec q) := by
    have h1 := continuous_firstV (m := m) (q := q)
    have h2 := continuous_lastV (m := m) (q := q)
    exact continuous_fst.prodMk ((h1.comp (continuous_fst.comp continuous_snd)).prodMk ((h1.comp (continuous_snd.comp continuous_snd)).prodMk
      ((continuous_const_smul (1 / Real.sqrt δ)).comp (h2.comp (continuous_fst.comp continuous_snd)))))
  obtain ⟨Φ, hΦ⟩ : ∃ Φ : ℕ → Vec d → Vec (m + q) → Vec (m + q) → Vec d, ∀ k y a b, Φ k y a b = if k < N then
      (rosRun f S (k * δ) δ (δ / M) y (firstV a) (firstV b) M).x +
        G (rosJs f S (k * δ) δ (δ / M) M y (firstV a) (firstV b)) *ᵥ ((1 / Real.sqrt δ) • lastV a) else y :=
    ⟨_, fun _ _ _ _ => rfl⟩
  have hΦm : ∀ k, Measurable fun p : Vec d × Vec (m + q) × Vec (m + q) => Φ k p.1 p.2.1 p.2.2 := fun k => by
    simp only [hΦ]
    by_cases hk : k < N
    · simp only [if_pos hk]
      have h1 := measurable_rosStepsDraw hf.cont S (by positivity : 0 < δ / M) (D := fun j x => Df x ((j + 1) * (δ / M) + k * δ)) (δ := δ)
        (fun j hj x => hf.deriv x _ (hjI k hk j hj)) (fun j hj => hf.continuous_jac hT (hjI k hk j hj)) hGm
      have h2 := h1.comp hsel2.measurable
      exact h2
    · simp only [if_neg hk]
      exact measurable_fst
  have hYs' : ∀ k < N, ∀ ω, Y (k + 1) ω = Φ k (Y k ω) (c ω k).1 (c ω k).2 := fun k hk ω => by rw [hΦ, if_pos hk]; exact hYs k hk ω
  obtain ⟨-, hsum⟩ := draw_sum hB hδ hc (Θ := Φ) (fun k _ => hΦm k) hY0 hYs' (G := fun k y a b => G (rosJs f S (k * δ) δ (δ / M) M y a b))
    (fun k hk i j => measurable_comp_rosJs hf.cont S (by positivity : 0 < δ / M) (D := fun j x => Df x ((j + 1) * (δ / M) + k * δ))
      (fun j hj x => hf.deriv x _ (hjI k hk j hj)) (fun j hj => hf.continuous_jac hT (hjI k hk j hj)) hGm i j)
    (γ := γ0 * δ ^ 3) hGk
  obtain ⟨v, hv⟩ : ∃ v, v = T * γ0 * δ ^ 2 := ⟨_, rfl⟩
  have hvn : ∀ k ≤ N, (k : ℝ) * (γ0 * δ ^ 3) ≤ v := fun k hk => by
    have e : v = N * (γ0 * δ ^ 3) := by rw [hv, ← hNδ]; ring
    rw [e]
    have hk' : (k : ℝ) ≤ N := by exact_mod_cast hk
    gcongr
  have hmono : ∀ {C C' : ℝ} (y : Vec d) (t : ℝ) (a b : Vec (m + q)), 0 ≤ C → 0 ≤ C' →
      δ * (C * (δ * (1 + ‖y‖ + ‖f y t‖) ^ 2 + (‖firstV a‖ + 4 * ‖firstV b‖) ^ 2)) ≤
      δ * ((C + C') * (δ * (1 + ‖y‖ + ‖f y t‖) ^ 2 + (‖a‖ + 4 * ‖b‖) ^ 2)) := fun y t a b hC hC' => by
    have h1 := norm_firstV_le a
    have h2 := norm_firstV_le b
    gcongr
    linarith
  have hnoise : ∀ (Γ : Mat d q), ∑ i, ∑ j, Γ i j ^ 2 ≤ γ0 * δ ^ 3 → ∀ a : Vec (m + q), ‖Γ *ᵥ ((1 / Real.sqrt δ) • lastV a)‖ ≤ δ * (g * ‖a‖) :=
    fun Γ hΓ a => by
      have h1 := mulVec_le_frobenius Γ hΓ ((1 / Real.sqrt δ) • lastV a)
      rw [norm_smul, Real.norm_of_nonneg (by positivity)] at h1
      have e1 : Real.sqrt (γ0 * δ ^ 3 * q) = g * (δ * Real.sqrt δ) := by
        rw [hg, show γ0 * δ ^ 3 * q = γ0 * q * δ ^ 3 by ring, Real.sqrt_mul (by positivity)]
        congr 1
        rw [show δ ^ 3 = δ ^ 2 * δ by ring, Real.sqrt_mul (by positivity), Real.sqrt_sq hδ.le]
      rw [e1] at h1
      refine h1.trans ?_
      have hsq : Real.sqrt δ ≠ 0 := by positivity
      calc g * (δ * Real.sqrt δ) * (1 / Real.sqrt δ * ‖lastV a‖) = δ * (g * ‖lastV a‖) := by field_simp
        _ ≤ _ := by have := norm_lastV_le a; gcongr
  obtain ⟨Θ, hΘ⟩ : ∃ Θ : ℕ → Vec d → Vec m → Vec m → Vec d, ∀ k y a b, Θ k y a b = (rosRun f S (k * δ) δ (δ / M) y a b M).x :=
    ⟨_, fun _ _ _ _ => rfl⟩
  have hΘm : ∀ k < N, Continuous fun p : Vec d × Vec m × Vec m => Θ k p.1 p.2.1 p.2.2 := fun k hk => by
    simp only [hΘ]
    exact continuous_rosScheme hf.cont S (by positivity) (D := fun j x => Df x ((j + 1) * (δ / M) + k * δ))
      (fun j hj x => hf.deriv x _ (hjI k hk j hj)) (fun j hj => hf.continuous_jac hT (hjI k hk j hj))
  have hgrow : ∀ k < N, ∀ y a b, ‖Θ k y a b - y - S *ᵥ a‖ ≤ δ * (C2 * (2 + F0 + L) * (1 + ‖y‖ + (‖a‖ + 4 * ‖b‖))) := fun k hk y a b => by
    have hfy : ‖f y (k * δ)‖ ≤ F0 + L * ‖y‖ := by
      have h1 := hf.lip y 0 _ (hkI k hk)
      rw [sub_zero] at h1
      have h2 := hF0 _ (hkI k hk)
      have h3 : ‖f y (k * δ)‖ ≤ ‖f y (k * δ) - f 0 (k * δ)‖ + ‖f 0 (k * δ)‖ := by
        conv_lhs => rw [← sub_add_cancel (f y (k * δ)) (f 0 (k * δ))]
        exact norm_add_le _ _
      linarith
    have i1 := (hros hδ (by positivity) (hkδ k hk) hM a b y (H := 1 + ‖y‖ + (F0 + L * ‖y‖)) (by linarith) _ (hΘ k y a b)).2.1
    refine i1.trans (mul_le_mul_of_nonneg_left ?_ hδ.le)
    rw [mul_assoc]
    refine mul_le_mul_of_nonneg_left ?_ hC2
    have hy := norm_nonneg y
    obtain ⟨q, hq⟩ : ∃ q, q = ‖a‖ + 4 * ‖b‖ := ⟨_, rfl⟩
    have hq0 : 0 ≤ q := by rw [hq]; positivity
    rw [← hq]
    have := mul_nonneg hF00 hy
    have := mul_nonneg hF00 hq0
    have := mul_nonneg hL hq0
    nlinarith
  have hLc : ∀ k < N, Continuous fun y => (1 / (M : ℝ) ^ 2) • rosLin d (Df y (k * δ)) -
      (Real.sqrt 6 * (M - 1) / (2 * (M : ℝ) ^ 3)) • Df y (k * δ) := fun k hk => by
    have h1 : Continuous fun y => rosLin d (Df y (k * δ)) := rosLin_continuous.comp (hDc k hk)
    have h2 := hDc k hk
    exact (h1.fun_const_smul _).fun_sub (h2.fun_const_smul _)
  have hdiff : ∀ k < N, ∀ y a b, ‖Θ k y a b - ((trapScheme (additiveField f S (k * δ) δ a b) (δ / M) y M).1 +
      δ • ((1 / (M : ℝ) ^ 2) • rosLin d (Df y (k * δ)) - (Real.sqrt 6 * (M - 1) / (2 * (M : ℝ) ^ 3)) • Df y (k * δ)) (S *ᵥ b))‖ ≤
      δ * ((C1 + C2) * (δ * (1 + ‖y‖ + ‖f y (k * δ)‖) ^ 2 + (‖a‖ + 4 * ‖b‖) ^ 2)) := fun k hk y a b => by
    have i1 := (hros hδ (by positivity) (hkδ k hk) hM a b y le_rfl _ (hΘ k y a b)).1
    have i2 := hcons hδ (by positivity) (hkδ k hk) hM a b y le_rfl
    obtain ⟨W, hW⟩ : ∃ W, W = y + S *ᵥ a + δ • f y (k * δ) +
      δ • Df y (k * δ) (S *ᵥ ((1 / 2 : ℝ) • a + (1 / Real.sqrt 6 + trapExcess M) • b)) := ⟨_, rfl⟩
    rw [← hW] at i1 i2
    obtain ⟨Z, hZ⟩ : ∃ Z, Z = δ * (1 + ‖y‖ + ‖f y (k * δ)‖) ^ 2 + (‖a‖ + 4 * ‖b‖) ^ 2 := ⟨_, rfl⟩
    rw [← hZ] at i1 i2 ⊢
    rw [ContinuousLinearMap.sub_apply, ContinuousLinearMap.smul_apply, ContinuousLinearMap.smul_apply]
    generalize δ • ((1 / (M : ℝ) ^ 2) • (rosLin d (Df y (k * δ))) (S *ᵥ b) -
      (Real.sqrt 6 * (M - 1) / (2 * (M : ℝ) ^ 3)) • (Df y (k * δ)) (S *ᵥ b)) = V at i1 ⊢
    have e : Θ k y a b - ((trapScheme (additiveField f S (k * δ) δ a b) (δ / M) y M).1 + V) =
        (Θ k y a b - (W + V)) - ((trapScheme (additiveField f S (k * δ) δ a b) (δ / M) y M).1 - W) := by abel
    rw [e]
    refine (norm_sub_le _ _).trans ((add_le_add i1 i2).trans (le_of_eq ?_))
    ring
  have h := hA' (by rw [abs_of_pos (by norm_num)]; norm_num) ((abs_add_le _ _).trans (by linarith [trapExcess_bound hM]))
    (fun k y a b => (trapScheme (additiveField f S (k * δ) δ (firstV a) (firstV b)) (δ / M) y M).1)
    (fun k y a b => if k < N then Θ k y (firstV a) (firstV b) else y)
    (fun k => ((continuous_fst.comp (continuous_trapScheme hf.cont S (k * δ) δ (δ / M) M)).comp hsel).measurable)
    (fun k => by
      by_cases hk : k < N
      · simp only [if_pos hk]
        have h2 := (hΘm k hk).comp hsel
        exact h2.measurable
      · simp only [if_neg hk]
        exact measurable_fst)
    (fun k hk a b y y' => trap_stable hL hf.lip S hδ (by positivity) (hkδ k hk) hM _ _ y y')
    (fun k hk a b y => by
      rw [hcat_mulVec, hcat_mulVec]
      exact (hcons hδ (by positivity) (hkδ k hk) hM (firstV a) (firstV b) y le_rfl).trans (hmono y _ a b hC1 hC2))
    (fun k y => (1 / (M : ℝ) ^ 2) • rosLin d (Df y (k * δ)) - (Real.sqrt 6 * (M - 1) / (2 * (M : ℝ) ^ 3)) • Df y (k * δ)) hLc
    (fun k hk y => by
      obtain ⟨r1, r2⟩ := rosCoeff_le hM
      have hD := hf.norm_jac_le hL (hkI k hk) y
      refine (norm_sub_le _ _).trans ?_
      rw [norm_smul, norm_smul, Real.norm_eq_abs, Real.norm_eq_abs]
      have i1 : |1 / (M : ℝ) ^ 2| * ‖rosLin d (Df y (k * δ))‖ ≤ 1 * (κ1 * L) :=
        mul_le_mul r2 ((hlin _).trans (mul_le_mul_of_nonneg_left hD hκ1)) (norm_nonneg _) zero_le_one
      have i2 : |Real.sqrt 6 * (M - 1) / (2 * (M : ℝ) ^ 3)| * ‖Df y (k * δ)‖ ≤ 2 * L := mul_le_mul r1 hD (norm_nonneg _) (by norm_num)
      linarith)
    (fun k hk a b y => by
      rw [if_pos hk, hcat_mulVec]
      refine (hdiff k hk y (firstV a) (firstV b)).trans ?_
      have h1 := norm_firstV_le a
      have h2 := norm_firstV_le b
      gcongr)
    v Y (fun ω k => (c ω k).1) (fun ω k => (c ω k).2)
    (fun ω k => G (rosJs f S (k * δ) δ (δ / M) M (Y k ω) (firstV (c ω k).1) (firstV (c ω k).2)) *ᵥ ((1 / Real.sqrt δ) • lastV (c ω k).1))
    (Eventually.of_forall hY0) hc (Eventually.of_forall fun ω k hk => by rw [if_pos hk, hΘ]; exact hYs k hk ω)
    (Eventually.of_forall fun ω k hk => by
      rw [hYs k hk, hcat_mulVec, ← hΘ]
      have h1 := hgrow k hk (Y k ω) (firstV (c ω k).1) (firstV (c ω k).2)
      have h2 := hnoise _ (hGk k hk (Y k ω) (firstV (c ω k).1) (firstV (c ω k).2)) (c ω k).1
      have h3 := norm_firstV_le (c ω k).1
      have h4 := norm_firstV_le (c ω k).2
      have h5 : δ * (C2 * (2 + F0 + L) * (1 + ‖Y k ω‖ + (‖firstV (c ω k).1‖ + 4 * ‖firstV (c ω k).2‖))) ≤
          δ * (C2 * (2 + F0 + L) * (1 + ‖Y k ω‖ + (‖(c ω k).1‖ + 4 * ‖(c ω k).2‖))) := by gcongr
      have h6 : δ * (g * ‖(c ω k).1‖) ≤ δ * (g * (1 + ‖Y k ω‖ + (‖(c ω k).1‖ + 4 * ‖(c ω k).2‖))) := by
        gcongr
        linarith [norm_nonneg (Y k ω), norm_nonneg (c ω k).2]
      rw [add_mul _ g, mul_add]
      generalize Θ k (Y k ω) (firstV (c ω k).1) (firstV (c ω k).2) = u at h1
      generalize G (rosJs f S (k * δ) δ (δ / M) M (Y k ω) (firstV (c ω k).1) (firstV (c ω k).2)) *ᵥ ((1 / Real.sqrt δ) • lastV (c ω k).1) = w at h2
      rw [show u + w - Y k ω - S *ᵥ firstV (c ω k).1 = (u - Y k ω - S *ᵥ firstV (c ω k).1) + w by abel]
      refine (norm_add_le _ _).trans ?_
      linarith)
    (fun k hk => scheme_adapted hB hδ N hΦm (Eventually.of_forall hY0) hc (Eventually.of_forall fun ω k hk => hYs' k hk ω) k hk)
    (fun k hk => ⟨(hsum k hk).1, (hsum k hk).2.trans (hvn k hk)⟩) n hn
  refine ⟨h.1, h.2.trans (le_of_eq ?_)⟩
  rw [hv]
  ring

/-- The times of the filter steps lie in the interval of the experiment. -/
theorem steps_mem {T : ℝ} (hT : 0 < T) {N k M j : ℕ} (hk : k < N) (hj : j < M) : ((j : ℝ) + 1) * (T / N / M) + k * (T / N) ∈ Icc 0 T := by
  have hN' : (0 : ℝ) < N := by exact_mod_cast (by omega : 0 < N)
  have hM' : (0 : ℝ) < M := by exact_mod_cast (by omega : 0 < M)
  have h1 : ((j + 1 : ℕ) : ℝ) * (T / N / M) ≤ M * (T / N / M) := mul_le_mul_of_nonneg_right (by exact_mod_cast hj) (by positivity)
  have h2 : (M : ℝ) * (T / N / M) = T / N := by field_simp
  have h3 : ((k + 1 : ℕ) : ℝ) * (T / N) ≤ N * (T / N) := mul_le_mul_of_nonneg_right (by exact_mod_cast hk) (by positivity)
  rw [mul_div_cancel₀ T hN'.ne'] at h3
  push_cast at h1 h3
  exact ⟨by positivity, by linarith⟩

/-- The factor of the draw of EKF1 satisfies the bounds of the error analysis, uniformly in the number of steps. -/
theorem ekf1_steps_adm {la : LinAlg} (hla : la.Correct) (hm : la.MeasurableQr) (hd : 0 < d) {T : ℝ} (hT : 0 < T) {φ : ℝ → ℝ} (hφ0 : ∀ l, 0 ≤ φ l)
    (hφ : ∀ {q : ℕ} (l : ℝ), 0 ≤ l → ∀ {G : Mat d q} {s h : ℝ}, 0 ≤ s →
      0 < h → ∀ {M : ℕ}, M * h ≤ T → ∀ {Js : ℕ → Mat d d}, (∀ n < M, ∀ u, ‖Js n *ᵥ u‖ ≤ l * ‖u‖) → G * Gᵀ = s • rosCs h Js M →
      ∑ i, ∑ j, G i j ^ 2 ≤ φ l * (s * M)) {N M : ℕ} (hN : 0 < N) (hM : 0 < M) {σ s0 : ℝ} (hσ : σ ≠ 0) (hσ0 : |σ| ≤ s0) (sqrt : Bool) :
    ∃ G : (ℕ → Mat d d) → Mat d (d * (0 + 2)), (∀ i j, Measurable fun Js : ℕ → Fin d → Fin d → ℝ => G (fun n => of (Js n)) i j) ∧
      (∀ l, 0 ≤ l → ∀ Js, (∀ n < M, ∀ u, ‖Js n *ᵥ u‖ ≤ l * ‖u‖) → ∑ i, ∑ j, G Js i j ^ 2 ≤ φ l * s0 ^ 2 * (T / N) ^ 3) ∧
      ∀ (rng : Rng) (k : Key) (x : Vec d) (f : Field d) {m : ℕ} (S : Mat d m) (a0 : ℝ) (a b : Vec m),
        (∀ j < M, Differentiable ℝ fun x => f x ((j + 1) * (T / N / M) + a0)) →
        Ekf.ekf1 la rng (some k) x (additiveField f S a0 (T / N) a b) (T / N / M) M sqrt (some ⟨_, IOUP.transition 0 σ 1 (T / N / M) d⟩) none =
          .ok ((rosRun f S a0 (T / N) (T / N / M) x a b M).x + G (rosJs f S a0 (T / N) (T / N / M) M x a b) *ᵥ rng.normalVec k (d * (0 + 2))) := by
  have hN' : (0 : ℝ) < N := by exact_mod_cast hN
  have hN1 : (1 : ℝ) ≤ N := by exact_mod_cast hN
  have hM' : (0 : ℝ) < M := by exact_mod_cast hM
  have hM1 : (1 : ℝ) ≤ M := by exact_mod_cast hM
  obtain ⟨G, hGm, hG, hstep⟩ := ekf1_steps_noise hla hm hd hσ (by positivity : 0 < T / N / M) sqrt M
  refine ⟨G, hGm, fun l hl Js hJs => ?_, fun rng k x f m S a0 a b hf => ?_⟩
  · refine (hφ l hl (by positivity) (by positivity : 0 < T / N / M) ?_ hJs (hG Js)).trans ?_
    · rw [mul_div_cancel₀ _ hM'.ne']
      exact div_le_self hT.le hN1
    · rw [mul_assoc (φ l) (s0 ^ 2)]
      refine mul_le_mul_of_nonneg_left ?_ (hφ0 l)
      have hσ2 : σ ^ 2 ≤ s0 ^ 2 := by
        rw [← sq_abs σ]
        exact pow_le_pow_left₀ (abs_nonneg _) hσ0 2
      have e : σ ^ 2 * (T / N / M) ^ 3 * M = σ ^ 2 * (T / N) ^ 3 / M ^ 2 := by field_simp
      rw [e]
      exact (div_le_self (by positivity) (one_le_pow₀ hM1)).trans (mul_le_mul_of_nonneg_right hσ2 (by positivity))
  · exact hstep rng k x _ (fun j hj => (hf j hj).add_const _) _ fun n hn => by rw [rosJs, if_pos hn]; rfl

set_option maxHeartbeats 1000000 in
/-- C133: the quantity plotted by the pathwise experiments for EKF1 with any number `M` of filter steps per interval, which draws from its
posterior at the end of every interval. The mean square distance between the trajectory of the draws and the Euler-Maruyama reference is at
most `A δ²`, with one constant for all numbers of intervals, filter steps and fine steps and all prior scales `|σ| ≤ s₀`. -/
theorem C133_measured {la : LinAlg} (hla : la.Correct) (hm : la.MeasurableQr) (hd : 0 < d) {f : Field d} {Df : Vec d → ℝ → Vec d →L[ℝ] Vec d}
    {T L K Lt : ℝ} (hT : 0 < T) (hf : SmoothField f Df T L K) (htl : TimeLipschitz f T Lt) (S : Mat d m) (x0 : Vec d) (s0 : ℝ) :
    ∃ A : ℝ, ∀ {Ω : Type} [MeasurableSpace Ω] {Q : Measure Ω} {R : Ω → Rng}, IdealNormals Q R → ∀ N : ℕ, 0 < N →
      ∀ r : ℕ, 0 < r → ∀ M : ℕ, 0 < M → ∀ σ : ℝ, σ ≠ 0 → |σ| ≤ s0 → ∀ (sqrt : Bool) (key : Key) (odeInt : Ω → OdeInt (Vec d) d),
      (∀ ω k x vf, Ekf.ekf1 la (R ω) (some k) x vf (T / N / M) M sqrt
        (some ⟨_, IOUP.transition 0 σ 1 (T / N / M) d⟩) none = .ok (odeInt ω k x vf (T / N))) →
      ∀ n ≤ N, ∃ y z : Ω → Vec d,
        (∀ ω, ∃ ts traj traj2, ramSolver (R ω) key f (fun _ _ => S) x0 x0 (T / N) N r (odeInt ω) = .ok (ts, traj, traj2) ∧
          ts[n]? = some (n * (T / N)) ∧ traj[n]? = some (y ω) ∧ traj2[n]? = some (z ω)) ∧
        Integrable (fun ω => ‖y ω - z ω‖ ^ 2) Q ∧ ∫ ω, ‖y ω - z ω‖ ^ 2 ∂Q ≤ A * (T / N) ^ 2 := by
  have hf' : SmoothField f Df T |L| K := ⟨hf.cont, fun x y t ht => (hf.lip x y t ht).trans
    (mul_le_mul_of_nonneg_right (le_abs_self L) (norm_nonneg _)), hf.deriv, hf.jac⟩
  obtain ⟨φ, hφ0, hφ⟩ := frobenius_rosCs d hT.le
  obtain ⟨A, hA⟩ := measured_ms_draw (q := d * (0 + 2)) hT hf htl S x0 (ι := ℕ × ((ℕ → Mat d d) → Mat d (d * (0 + 2))))
    (Adm := fun N p => 0 < p.1 ∧ (∀ i j, Measurable fun Js : ℕ → Fin d → Fin d → ℝ => p.2 (fun n => of (Js n)) i j) ∧
      ∀ l, 0 ≤ l → ∀ Js, (∀ n < p.1, ∀ u, ‖Js n *ᵥ u‖ ≤ l * ‖u‖) → ∑ i, ∑ j, p.2 Js i j ^ 2 ≤ φ l * s0 ^ 2 * (T / N) ^ 3)
    (J := fun (N : ℕ) (p : ℕ × ((ℕ → Mat d d) → Mat d (d * (0 + 2)))) k y a b ξ => (rosRun f S (k * (T / N)) (T / N) (T / N / p.1) y a b p.1).x +
      p.2 (rosJs f S (k * (T / N)) (T / N) (T / N / p.1) p.1 y a b) *ᵥ ξ)
    (v := fun _ => 0) (fun N p hp k hk => by
      have hN' : (0 : ℝ) < N := by exact_mod_cast (by omega : 0 < N)
      have hp' : (0 : ℝ) < p.1 := by exact_mod_cast hp.1
      exact measurable_rosStepsDraw hf.cont S (by positivity) (D := fun j x => Df x ((j + 1) * (T / N / p.1) + k * (T / N)))
        (fun j hj x => hf.deriv x _ (steps_mem hT hk hj)) (fun j hj => hf.continuous_jac hT (steps_mem hT hk hj)) hp.2.1) (fun hB X hX => by
      obtain ⟨A, -, hA⟩ := rosSteps_draw_strong hB hT hf' (abs_nonneg L) htl S x0 hX (mul_nonneg (hφ0 |L|) (sq_nonneg s0))
      refine ⟨A, fun N hN p hp c hc Y hY0 hYs n hn => ?_⟩
      have := hA N hN p.1 hp.1 p.2 hp.2.1 (hp.2.2 |L| (abs_nonneg L)) c hc Y hY0 hYs n hn
      rw [zero_pow two_ne_zero, add_zero, mul_one]
      exact this)
  refine ⟨A, ?_⟩
  intro Ω _ Q R hR N hN r hr M hM σ hσ hσ0 sqrt key odeInt hode n hn
  obtain ⟨G, hGm, hGf, hstep⟩ := ekf1_steps_adm hla hm hd hT hφ0 hφ hN hM hσ hσ0 sqrt
  have h := hA hR N hN (M, G) ⟨hM, hGm, hGf⟩ r hr key odeInt (fun ω κ x k hk a b =>
    Except.ok.inj ((hode ω κ x _).symm.trans (hstep (R ω) κ x f S _ a b fun j hj z => (hf.deriv z _ (steps_mem hT hk hj)).differentiableAt))) n hn
  simp only [zero_pow two_ne_zero, add_zero, mul_one] at h
  exact h

set_option maxHeartbeats 1000000 in
/-- The steps of an interval and their Jacobians only evaluate the field near the starting point. -/
theorem rosRun_local {f g : Field d} {Dg : Vec d → ℝ → Vec d →L[ℝ] Vec d} {T L K F ρ s : ℝ} (hT : 0 < T) (hg : SmoothField g Dg T L K) (hF : 0 ≤ F)
    (hs : 0 ≤ s) {S : Mat d m} (hS : ∀ v, ‖S *ᵥ v‖ ≤ s * ‖v‖) (hgF : ∀ x t, ‖g x t‖ ≤ F) (hL : 0 ≤ L) (hgt : TimeLipschitz g T L)
    (heq : ∀ x, ‖x‖ ≤ ρ + 1 → ∀ t ∈ Icc 0 T, g x t = f x t) :
    ∃ N3 : ℕ, ∀ N ≥ N3, 0 < N → ∀ M : ℕ, 0 < M → ∀ k < N, ∀ y a b, ‖y‖ ≤ ρ + 1 / 2 →
      (∀ t ∈ Icc 0 (T / N), ‖jacT (fun s => Foster.evalParabola s (T / N) a b) t‖ ≤ 10 * (1 / (200 * (s + 1))) / (T / N)) → ∀ n ≤ M,
      rosRun f S (k * (T / N)) (T / N) (T / N / M) y a b n = rosRun g S (k * (T / N)) (T / N) (T / N / M) y a b n := by
  obtain ⟨C2, hC2, hros⟩ := ros_steps_expansion hg hL (hg.jac_const_nonneg hT) hL hT.le hgt hs hS
  obtain ⟨N3, hN3⟩ := exists_small_step (C2 * (|ρ| + F + 3)) hT (by norm_num : (0 : ℝ) < 1 / 8)
  refine ⟨N3, ?_⟩
  intro N hN hN0 M hM k hk y a b hy hsl0
  have hδF := hN3 N hN hN0
  have hN' : (0 : ℝ) < N := by exact_mod_cast hN0
  have hM' : (0 : ℝ) < M := by exact_mod_cast hM
  have hjI : ∀ j < M, ((j : ℝ) + 1) * (T / N / M) + k * (T / N) ∈ Icc 0 T := fun j hj => steps_mem hT hk hj
  obtain ⟨δ, hδdef⟩ : ∃ δ, δ = T / N := ⟨_, rfl⟩
  rw [← hδdef] at hδF hsl0 hjI ⊢
  have hδ : 0 < δ := by rw [hδdef]; positivity
  have hNδ : (N : ℝ) * δ = T := by rw [hδdef]; field_simp
  have hkδ : (k : ℝ) * δ + δ ≤ T := by
    have : ((k + 1 : ℕ) : ℝ) * δ ≤ N * δ := mul_le_mul_of_nonneg_right (by exact_mod_cast hk) hδ.le
    rw [hNδ] at this
    push_cast at this
    linarith
  obtain ⟨κ, hκ⟩ : ∃ κ, κ = 1 / (200 * (s + 1)) := ⟨_, rfl⟩
  have hκ0 : 0 < κ := by rw [hκ]; positivity
  rw [← hκ] at hsl0
  have hsl : ∀ t ∈ Icc 0 δ, ∀ j, |(a j + Real.sqrt 6 * b j * (1 - 2 * t / δ)) / δ| ≤ 10 * κ / δ := fun t ht j => by
    have h1 := (norm_le_pi_norm _ j).trans (hsl0 t ht)
    rw [jacT_evalParabola] at h1
    exact h1
  have hab := matched_coeffs hδ hκ0.le hsl
  have hsκ : s * (50 * κ) ≤ 1 / 4 := by
    have h1 : s * (50 * κ) = s / (s + 1) * (1 / 4) := by
      rw [hκ]
      field_simp
      ring
    rw [h1]
    have h2 : s / (s + 1) ≤ 1 := (div_le_one (by positivity)).mpr (by linarith)
    linarith
  have hκ1 : 50 * κ ≤ 1 := by
    rw [hκ, mul_one_div, div_le_one (by positivity)]
    linarith
  have hz : ∀ n < M, ‖(rosRun g S (k * δ) δ (δ / M) y a b n).x + (δ / M) • (rosRun g S (k * δ) δ (δ / M) y a b n).v‖ < ρ + 1 := fun n hn => by
    have h1 := (hros hδ (by positivity) hkδ hM a b y (H := |ρ| + F + 2) (by
      linarith [hgF y (k * δ), le_abs_self ρ]) _ rfl).2.2 n hn
    have h1' : ‖(rosRun g S (k * δ) δ (δ / M) y a b n).x + (δ / M) • (rosRun g S (k * δ) δ (δ / M) y a b n).v - y‖ ≤ _ := h1
    generalize (rosRun g S (k * δ) δ (δ / M) y a b n).x + (δ / M) • (rosRun g S (k * δ) δ (δ / M) y a b n).v = Z at h1' ⊢
    have h2 : δ * (C2 * (|ρ| + F + 2 + (‖a‖ + 4 * ‖b‖))) ≤ δ * (C2 * (|ρ| + F + 3)) :=
      mul_le_mul_of_nonneg_left (mul_le_mul_of_nonneg_left (by linarith) hC2) hδ.le
    have h3 : s * (‖a‖ + 4 * ‖b‖) ≤ s * (50 * κ) := mul_le_mul_of_nonneg_left hab hs
    have h4 : ‖Z‖ ≤ ‖Z - y‖ + ‖y‖ := by
      conv_lhs => rw [← sub_add_cancel Z y]
      exact norm_add_le _ _
    linarith
  have e0 : additiveField f S (k * δ) δ a b y 0 = additiveField g S (k * δ) δ a b y 0 := by
    simp only [additiveField]
    rw [heq _ (hy.trans (by linarith)) _ (by rw [zero_add]; exact ⟨by positivity, by linarith⟩)]
  intro n hn
  have hcg := rosScheme_congr_ball (f := additiveField f S (k * δ) δ a b) (r := ρ + 1) (fun j hj x hx => by
    simp only [additiveField]
    rw [heq x hx.le _ (hjI j hj)]) hz n hn
  rw [rosRun, e0, hcg]
  rfl

set_option maxHeartbeats 1000000 in
/-- C133: the same quantity for a drift with two continuous derivatives whose equation has a solution along every continuous path of the
noise. For every level `ε` the distance exceeds `A δ` with probability at most `ε`, with one constant for all numbers of filter steps and fine
steps, all sufficiently large numbers of intervals, and all prior scales `|σ| ≤ s₀`. -/
theorem C133_prob {la : LinAlg} (hla : la.Correct) (hm : la.MeasurableQr) (hd : 0 < d) {f : Field d} (hf : ContDiff ℝ 2 (Function.uncurry f)) {T : ℝ}
    (hT : 0 < T) (S : Mat d m) (x0 : Vec d) (hsol : ∀ w : ℝ → Vec m, Continuous w → ∃ x, SolvesAdditive f S w x0 T x) (s0 : ℝ) {ε : ℝ}
    (hε : 0 < ε) :
    ∃ (A : ℝ) (N0 : ℕ), ∀ {Ω : Type} [MeasurableSpace Ω] {Q : Measure Ω} {R : Ω → Rng}, IdealNormals Q R → ∀ N ≥ N0,
      ∀ r : ℕ, 0 < r → ∀ M : ℕ, 0 < M → ∀ σ : ℝ, σ ≠ 0 → |σ| ≤ s0 → ∀ (sqrt : Bool) (key : Key) (odeInt : Ω → OdeInt (Vec d) d),
      (∀ ω k x vf, Ekf.ekf1 la (R ω) (some k) x vf (T / N / M) M sqrt
        (some ⟨_, IOUP.transition 0 σ 1 (T / N / M) d⟩) none = .ok (odeInt ω k x vf (T / N))) →
      ∀ n ≤ N, ∃ y z : Ω → Vec d,
        (∀ ω, ∃ ts traj traj2, ramSolver (R ω) key f (fun _ _ => S) x0 x0 (T / N) N r (odeInt ω) = .ok (ts, traj, traj2) ∧
          ts[n]? = some (n * (T / N)) ∧ traj[n]? = some (y ω) ∧ traj2[n]? = some (z ω)) ∧
        Q {ω | A * (T / N) < ‖y ω - z ω‖} ≤ ENNReal.ofReal ε := by
  obtain ⟨s, hs, hS⟩ := exists_mulVec_bound S
  obtain ⟨φ, hφ0, hφ⟩ := frobenius_rosCs d hT.le
  obtain ⟨A, N0, hA⟩ := measured_prob_draw (q := d * (0 + 2)) hf hT S x0 hsol hε (ι := ℕ × ((ℕ → Mat d d) → Mat d (d * (0 + 2))))
    (Adm := fun N p => 0 < N ∧ 0 < p.1 ∧ (∀ i j, Measurable fun Js : ℕ → Fin d → Fin d → ℝ => p.2 (fun n => of (Js n)) i j) ∧
      ∀ l, 0 ≤ l → ∀ Js, (∀ n < p.1, ∀ u, ‖Js n *ᵥ u‖ ≤ l * ‖u‖) → ∑ i, ∑ j, p.2 Js i j ^ 2 ≤ φ l * s0 ^ 2 * (T / N) ^ 3)
    (J := fun (N : ℕ) (p : ℕ × ((ℕ → Mat d d) → Mat d (d * (0 + 2)))) k y a b ξ => (rosRun f S (k * (T / N)) (T / N) (T / N / p.1) y a b p.1).x +
      p.2 (rosJs f S (k * (T / N)) (T / N) (T / N / p.1) p.1 y a b) *ᵥ ξ)
    (fun N p hp k _ => by
      have hN' : (0 : ℝ) < N := by exact_mod_cast hp.1
      have hp' : (0 : ℝ) < p.1 := by exact_mod_cast hp.2.1
      exact measurable_rosStepsDraw hf.continuous S (by positivity) (fun j _ x => hasFDerivAt_left hf x _)
        (fun j _ => continuous_fderiv_left hf _) hp.2.2.1) (fun hB X hX =>
      prob_order_draw hB hf hT S x0 hX
        (J := fun (f : Field d) (N : ℕ) (p : ℕ × ((ℕ → Mat d d) → Mat d (d * (0 + 2)))) k y a b ξ => (rosRun f S (k * (T / N)) (T / N) (T / N / p.1) y a b p.1).x +
          p.2 (rosJs f S (k * (T / N)) (T / N) (T / N / p.1) p.1 y a b) *ᵥ ξ)
        (κ := 1 / (200 * (s + 1))) (by positivity) (fun g Dg L K X' hL hg hgt hX' => by
          obtain ⟨A, hA0, hA⟩ := rosSteps_draw_strong hB hT hg hL hgt S x0 hX' (mul_nonneg (hφ0 L) (sq_nonneg s0))
          exact ⟨A, fun N hN p hp c hc Y hY0 hYs n hn => hA N hN p.1 hp.2.1 p.2 hp.2.2.1 (hp.2.2.2 L hL) c hc Y hY0 hYs n hn⟩)
        (fun g Dg L K F ρ hF hg hL hgt hgF heq => by
          obtain ⟨N3, hN3⟩ := rosRun_local hT hg hF hs hS hgF hL hgt heq
          refine ⟨N3, fun N hN hN0 p hp k hk y a b ξ hy hsl => ?_⟩
          have h1 := hN3 N hN hN0 p.1 hp.2.1 k hk y a b hy hsl
          have h2 : rosJs f S (k * (T / N)) (T / N) (T / N / p.1) p.1 y a b = rosJs g S (k * (T / N)) (T / N) (T / N / p.1) p.1 y a b := by
            funext n
            simp only [rosJs]
            by_cases hn : n < p.1
            · rw [if_pos hn, if_pos hn, h1 (n + 1) hn]
            · rw [if_neg hn, if_neg hn]
          simp only [h1 p.1 le_rfl, h2]) (half_pos hε))
  refine ⟨A, N0 + 1, ?_⟩
  intro Ω _ Q R hR N hN r hr M hM σ hσ hσ0 sqrt key odeInt hode n hn
  obtain ⟨G, hGm, hGf, hstep⟩ := ekf1_steps_adm hla hm hd hT hφ0 hφ (by omega : 0 < N) hM hσ hσ0 sqrt
  exact hA hR N (by omega) (M, G) ⟨by omega, hM, hGm, hGf⟩ r hr key odeInt (fun ω κ x k hk a b =>
    Except.ok.inj ((hode ω κ x _).symm.trans (hstep (R ω) κ x f S _ a b fun j _ z => (hasFDerivAt_left hf z _).differentiableAt))) n hn

/-- C133: FitzHugh-Nagumo itself, as `ivp.py` defines it, with its own diffusion or with the padded square one. -/
theorem C133_fhn {la : LinAlg} (hla : la.Correct) (hm : la.MeasurableQr) {T : ℝ} (hT : 0 < T) (s0 : ℝ) {ε : ℝ} (hε : 0 < ε) :
    (∃ (A : ℝ) (N0 : ℕ), ∀ {Ω : Type} [MeasurableSpace Ω] {Q : Measure Ω} {R : Ω → Rng}, IdealNormals Q R → ∀ N ≥ N0,
      ∀ r : ℕ, 0 < r → ∀ M : ℕ, 0 < M → ∀ σ : ℝ, σ ≠ 0 → |σ| ≤ s0 → ∀ (sqrt : Bool) (key : Key) (odeInt : Ω → OdeInt (Vec 2) 2),
      (∀ ω k x vf, Ekf.ekf1 la (R ω) (some k) x vf (T / N / M) M sqrt
        (some ⟨_, IOUP.transition 0 σ 1 (T / N / M) 2⟩) none = .ok (odeInt ω k x vf (T / N))) →
      ∀ n ≤ N, ∃ y z : Ω → Vec 2,
        (∀ ω, ∃ ts traj traj2, ramSolver (R ω) key Ivp.Fhn.drift Ivp.Fhn.sigma Ivp.Fhn.x0 Ivp.Fhn.x0 (T / N) N r (odeInt ω) = .ok (ts, traj, traj2) ∧
          ts[n]? = some (n * (T / N)) ∧ traj[n]? = some (y ω) ∧ traj2[n]? = some (z ω)) ∧
        Q {ω | A * (T / N) < ‖y ω - z ω‖} ≤ ENNReal.ofReal ε) ∧
    (∃ (A : ℝ) (N0 : ℕ), ∀ {Ω : Type} [MeasurableSpace Ω] {Q : Measure Ω} {R : Ω → Rng}, IdealNormals Q R → ∀ N ≥ N0,
      ∀ r : ℕ, 0 < r → ∀ M : ℕ, 0 < M → ∀ σ : ℝ, σ ≠ 0 → |σ| ≤ s0 → ∀ (sqrt : Bool) (key : Key) (odeInt : Ω → OdeInt (Vec 2) 2),
      (∀ ω k x vf, Ekf.ekf1 la (R ω) (some k) x vf (T / N / M) M sqrt
        (some ⟨_, IOUP.transition 0 σ 1 (T / N / M) 2⟩) none = .ok (odeInt ω k x vf (T / N))) →
      ∀ n ≤ N, ∃ y z : Ω → Vec 2,
        (∀ ω, ∃ ts traj traj2, ramSolver (R ω) key Ivp.Fhn.drift Ivp.Fhn.sigmaSquare Ivp.Fhn.x0 Ivp.Fhn.x0 (T / N) N r (odeInt ω) = .ok (ts, traj, traj2) ∧
          ts[n]? = some (n * (T / N)) ∧ traj[n]? = some (y ω) ∧ traj2[n]? = some (z ω)) ∧
        Q {ω | A * (T / N) < ‖y ω - z ω‖} ≤ ENNReal.ofReal ε) := by
  have e2 : Ivp.Fhn.sigmaSquare = fun _ _ => !![0, 0; Ivp.Fhn.sig, 0] := by
    funext x t
    simp [Ivp.Fhn.sigmaSquare, Ivp.Fhn.sigma]
  constructor
  · exact C133_prob hla hm (by norm_num) Ivp.Fhn.contDiff_drift hT (!![0; Ivp.Fhn.sig]) Ivp.Fhn.x0
      (fun w hw => Ivp.Fhn.exists_solution hT.le _ (fun j => by fin_cases j; rfl) w hw _) s0 hε
  · rw [e2]
    exact C133_prob hla hm (by norm_num) Ivp.Fhn.contDiff_drift hT (!![0, 0; Ivp.Fhn.sig, 0]) Ivp.Fhn.x0
      (fun w hw => Ivp.Fhn.exists_solution hT.le _ (fun j => by fin_cases j <;> rfl) w hw _) s0 hε

/-- With any key and generator, EKF1 with any number of steps returns a state. -/
theorem exists_ekf1_steps (la : LinAlg) (sqrt : Bool) (σ h : ℝ) (M : ℕ) : ∃ F : Rng → Key → Vec 2 → Field 2 → Vec 2, ∀ rng k x vf,
    Ekf.ekf1 la rng (some k) x vf h M sqrt (some ⟨_, IOUP.transition 0 σ 1 h 2⟩) none = .ok (F rng k x vf) := by
  have hex : ∀ rng k (x : Vec 2) vf, ∃ y, Ekf.ekf1 la rng (some k) x vf h M sqrt (some ⟨_, IOUP.transition 0 σ 1 h 2⟩) none =
      .ok y := fun rng k x vf => by
    have h := Ekf.ekf1_two la rng (some k) (by norm_num : 0 < 2) x vf h M sqrt (IOUP.transition 0 σ 1 h 2) none
    rw [Ekf.solver_some] at h
    exact ⟨_, h⟩
  choose F hF using hex
  exact ⟨F, hF⟩

/-- C133: a factorisation, a generator and a filter that satisfy the hypotheses, for a smooth drift and as many filter steps as intervals. -/
example : ∃ (la : LinAlg) (A : ℝ), la.Correct ∧ la.MeasurableQr ∧ ∀ N : ℕ, 0 < N → ∃ (odeInt : _ → OdeInt (Vec 2) 2) (y z : _ → Vec 2),
    (∀ ω k x vf, Ekf.ekf1 la (drawsRng ω) (some k) x vf (1 / N / N) N true (some ⟨_, IOUP.transition 0 1 1 (1 / N / N) 2⟩) none =
      .ok (odeInt ω k x vf (1 / N))) ∧
    (∀ ω, ∃ ts traj traj2, ramSolver (drawsRng ω) [] (fun (x : Vec 2) (t : ℝ) => -(t • x)) (fun _ _ => (1 : Mat 2 2)) 0 0 (1 / N) N 7
      (odeInt ω) = .ok (ts, traj, traj2) ∧ traj[N]? = some (y ω) ∧ traj2[N]? = some (z ω)) ∧
    ∫ ω, ‖y ω - z ω‖ ^ 2 ∂drawsMeasure ≤ A * (1 / N) ^ 2 := by
  obtain ⟨A, hA⟩ := C133_measured measurableLinAlg_correct measurableLinAlg_measurable (by norm_num : 0 < 2) one_pos smooth_decay timeLipschitz_decay
    (1 : Mat 2 2) 0 1
  refine ⟨measurableLinAlg, A, measurableLinAlg_correct, measurableLinAlg_measurable, fun N hN => ?_⟩
  obtain ⟨F, hF⟩ := exists_ekf1_steps measurableLinAlg true 1 (1 / N / N) N
  obtain ⟨y, z, h1, -, h2⟩ := hA idealNormals_drawsRng N hN 7 (by norm_num) N hN 1 one_ne_zero (by simp) true []
    (fun ω k x vf _ => F (drawsRng ω) k x vf) (fun ω k x vf => hF (drawsRng ω) k x vf) N le_rfl
  refine ⟨fun ω k x vf _ => F (drawsRng ω) k x vf, y, z, fun ω k x vf => hF (drawsRng ω) k x vf, fun ω => ?_, h2⟩
  obtain ⟨ts, traj, traj2, g1, -, g2, g3⟩ := h1 ω
  exact ⟨ts, traj, traj2, g1, g2, g3⟩

/-- C133: the same for FitzHugh-Nagumo, with prior scale 1, square roots, as many fine steps as intervals and ten filter steps. -/
example : ∃ (la : LinAlg) (A : ℝ) (N0 : ℕ), la.Correct ∧ la.MeasurableQr ∧ ∀ N ≥ N0, 0 < N → ∃ (odeInt : _ → OdeInt (Vec 2) 2) (y z : _ → Vec 2),
    (∀ ω k x vf, Ekf.ekf1 la (drawsRng ω) (some k) x vf (1 / N / (10 : ℕ)) 10 true (some ⟨_, IOUP.transition 0 1 1 (1 / (N : ℝ) / (10 : ℕ)) 2⟩) none =
      .ok (odeInt ω k x vf (1 / N))) ∧
    (∀ ω, ∃ ts traj traj2, ramSolver (drawsRng ω) [] Ivp.Fhn.drift Ivp.Fhn.sigma Ivp.Fhn.x0 Ivp.Fhn.x0 (1 / N) N N
      (odeInt ω) = .ok (ts, traj, traj2) ∧ traj[N]? = some (y ω) ∧ traj2[N]? = some (z ω)) ∧
    drawsMeasure {ω | A * (1 / N) < ‖y ω - z ω‖} ≤ ENNReal.ofReal 0.01 := by
  obtain ⟨A, N0, hA⟩ := (C133_fhn measurableLinAlg_correct measurableLinAlg_measurable one_pos 1 (by norm_num : (0 : ℝ) < 0.01)).1
  refine ⟨measurableLinAlg, A, N0, measurableLinAlg_correct, measurableLinAlg_measurable, fun N hN hN0 => ?_⟩
  obtain ⟨F, hF⟩ := exists_ekf1_steps measurableLinAlg true 1 (1 / N / (10 : ℕ)) 10
  obtain ⟨y, z, h1, h2⟩ := hA idealNormals_drawsRng N hN N hN0 10 (by norm_num) 1 one_ne_zero (by simp) true []
    (fun ω k x vf _ => F (drawsRng ω) k x vf) (fun ω k x vf => hF (drawsRng ω) k x vf) N le_rfl
  refine ⟨fun ω k x vf _ => F (drawsRng ω) k x vf, y, z, fun ω k x vf => hF (drawsRng ω) k x vf, fun ω => ?_, h2⟩
  obtain ⟨ts, traj, traj2, g1, -, g2, g3⟩ := h1 ω
  exact ⟨ts, traj, traj2, g1, g2, g3⟩

end Verif
