import Verif.Lemmas.SolutionSpread
import Verif.Props.DrawOrder
import Verif.Props.SsmOrder

/-! Algorithm 4 for locally smooth drifts: the law of its runs, and the independence of its runs from the reference trajectory that the
pathwise experiments compute from the same key. -/

namespace Verif

open Matrix Spec Jnp Set MeasureTheory ProbabilityTheory Scripts Filter
open scoped NNReal ENNReal

variable {d m q : ℕ}

set_option maxHeartbeats 1000000 in
/-- Mean square error of Heun's scheme with a normal perturbation in every interval. -/
theorem heun_draw_strong {Ω : Type*} [MeasurableSpace Ω] {P : Measure Ω} {B : Fin (m + q) → ℝ≥0 → Ω → ℝ}
    (hB : IsBrownianVec B P) {f : Field d} {Df : Vec d → ℝ → Vec d →L[ℝ] Vec d} {T L K Lt : ℝ} (hT : 0 < T)
    (hf : SmoothField f Df T L K) (htl : TimeLipschitz f T Lt) (S : Mat d m) (x0 : Vec d)
    {X : Ω → ℝ → Vec d} (hX : ∀ᵐ ω ∂P, SolvesAdditive f S (fun t j => B (Fin.castAdd q j) t.toNNReal ω) x0 T (X ω)) (σ : ℝ) :
    ∃ A : ℝ, 0 ≤ A ∧ ∀ N : ℕ, 0 < N → ∀ U : Mat d q, ∑ i, ∑ j, U i j ^ 2 ≤ d * (σ ^ 2 * (T / N) ^ 3 / 12) →
      ∀ c : Ω → ℕ → Vec (m + q) × Vec (m + q),
      (∀ᵐ ω ∂P, ∀ k < N, SameEndAndArea (fun t => Foster.evalParabola t (T / N) (c ω k).1 (c ω k).2) (fun t j => B j t.toNNReal ω)
        (k * (T / N)) (T / N)) →
      ∀ Y : ℕ → Ω → Vec d, (∀ ω, Y 0 ω = x0) → (∀ k < N, ∀ ω, Y (k + 1) ω =
        Ssm.heun f (T / N) (k * (T / N)) (Y k ω) + S *ᵥ firstV (c ω k).1 + U *ᵥ ((1 / Real.sqrt (T / N)) • lastV (c ω k).1)) →
      ∀ n ≤ N, Integrable (fun ω => ‖X ω (n * (T / N)) - Y n ω‖ ^ 2) P ∧
        ∫ ω, ‖X ω (n * (T / N)) - Y n ω‖ ^ 2 ∂P ≤ A * (T / N) ^ 2 := by
  wlog hL : 0 ≤ L generalizing L
  · refine this (L := 0) ⟨hf.cont, fun x y t ht => (hf.lip x y t ht).trans ?_, hf.deriv, hf.jac⟩ le_rfl
    exact mul_le_mul_of_nonneg_right (not_le.mp hL).le (norm_nonneg _)
  wlog hLt : 0 ≤ Lt generalizing Lt
  · refine this (Lt := 0) (fun x s hs t ht => (htl x s hs t ht).trans ?_) le_rfl
    refine mul_le_mul_of_nonneg_right (mul_le_mul_of_nonneg_right (not_le.mp hLt).le ?_) (abs_nonneg _)
    positivity
  obtain ⟨A, hA0, hA⟩ := strong_noisy (hB.comp_inj (Fin.castAdd_injective m q)) hT hf hL hLt htl S x0 hX
    (C0 := L * (1 + L * T)) (C1 := L + Lt) (κ0 := 0) (by positivity) (by positivity) le_rfl
  refine ⟨A * (1 + T * d / 12 * σ ^ 2), by positivity, ?_⟩
  intro N hN U hU c hc Y hY0 hYs n hn
  have hN' : (0 : ℝ) < N := by exact_mod_cast hN
  obtain ⟨δ, hδdef⟩ : ∃ δ, δ = T / N := ⟨_, rfl⟩
  have hA' := hA N hN (lam := 0) (mu := 0) (by simp) (by simp)
  rw [← hδdef] at hU hc hYs hA' ⊢
  have hδ : 0 < δ := by rw [hδdef]; positivity
  have hNδ : (N : ℝ) * δ = T := by rw [hδdef]; field_simp
  have hkδ : ∀ k < N, (k : ℝ) * δ + δ ≤ T := fun k hk => by
    have : ((k + 1 : ℕ) : ℝ) * δ ≤ N * δ := mul_le_mul_of_nonneg_right (by exact_mod_cast hk) hδ.le
    rw [hNδ] at this
    push_cast at this
    linarith
  have hSm : Continuous fun v : Vec m => S *ᵥ v := (Matrix.mulVecLin S).continuous_of_finiteDimensional
  have hUm : Continuous fun v : Vec q => U *ᵥ v := (Matrix.mulVecLin U).continuous_of_finiteDimensional
  have hcont : ∀ k : ℕ, Continuous fun p : Vec d × Vec m × Vec m => Ssm.heun f δ (k * δ) p.1 + S *ᵥ p.2.1 := fun k =>
    ((Ssm.heun_continuous hf.cont δ (k * δ)).comp continuous_fst).add (hSm.comp (continuous_fst.comp continuous_snd))
  have hdraw : ∀ k : ℕ, Continuous fun z : Vec d × Vec (m + q) × Vec (m + q) => Ssm.heun f δ (k * δ) z.1 + S *ᵥ firstV z.2.1 +
      U *ᵥ ((1 / Real.sqrt δ) • lastV z.2.1) := fun k => by
    have h1 := continuous_firstV (m := m) (q := q)
    have h2 := continuous_lastV (m := m) (q := q)
    exact (((Ssm.heun_continuous hf.cont δ (k * δ)).comp continuous_fst).add
      (hSm.comp (h1.comp (continuous_fst.comp continuous_snd)))).add
      (hUm.comp ((continuous_const_smul (1 / Real.sqrt δ)).comp (h2.comp (continuous_fst.comp continuous_snd))))
  obtain ⟨hYm, hsum⟩ := draw_sum hB hδ hc (Θ := fun k y a b => Ssm.heun f δ (k * δ) y + S *ᵥ firstV a +
      U *ᵥ ((1 / Real.sqrt δ) • lastV a)) (fun k _ => (hdraw k).measurable) hY0 hYs (G := fun _ _ _ _ => U)
    (fun _ _ _ _ => measurable_const) (γ := d * (σ ^ 2 * δ ^ 3 / 12)) (fun _ _ _ _ _ => hU)
  obtain ⟨v, hv⟩ : ∃ v, v = T * d / 12 * σ ^ 2 * δ ^ 2 := ⟨_, rfl⟩
  have hvn : ∀ k ≤ N, (k : ℝ) * (d * (σ ^ 2 * δ ^ 3 / 12)) ≤ v := fun k hk => by
    have e : v = N * (d * (σ ^ 2 * δ ^ 3 / 12)) := by rw [hv, ← hNδ]; ring
    rw [e]
    exact mul_le_mul_of_nonneg_right (by exact_mod_cast hk) (by positivity)
  have h := hA' (fun k y a _ => Ssm.heun f δ (k * δ) y + S *ᵥ a) (fun k => (hcont k).measurable)
    (fun k hk a _ y y' => by
      have := Ssm.heun_stable hL hf.lip hδ (by positivity : 0 ≤ (k : ℝ) * δ) (hkδ k hk) y y'
      rwa [show Ssm.heun f δ (k * δ) y + S *ᵥ a - y - (Ssm.heun f δ (k * δ) y' + S *ᵥ a - y') =
        Ssm.heun f δ (k * δ) y - y - (Ssm.heun f δ (k * δ) y' - y') by abel])
    (fun k hk a b y => by
      rw [zero_smul, zero_smul, add_zero, mulVec_zero, map_zero, smul_zero, add_zero]
      have := Ssm.heun_consistent hL hLt hf.lip htl hδ (by positivity : 0 ≤ (k : ℝ) * δ) (hkδ k hk) y
      rw [show Ssm.heun f δ (k * δ) y + S *ᵥ a - (y + S *ᵥ a + δ • f y (k * δ)) = Ssm.heun f δ (k * δ) y - (y + δ • f y (k * δ)) by abel]
      refine this.trans ?_
      have : 0 ≤ (‖a‖ + 4 * ‖b‖) ^ 2 := sq_nonneg _
      gcongr
      linarith) v Y (fun ω k => firstV (c ω k).1) (fun ω k => firstV (c ω k).2)
    (fun ω k => U *ᵥ ((1 / Real.sqrt δ) • lastV (c ω k).1))
    (Eventually.of_forall hY0) (by
      filter_upwards [hc] with ω hω k hk
      exact (hω k hk).comp (Fin.castAdd q)) (Eventually.of_forall fun ω k hk => hYs k hk ω) hYm
    (fun k hk => ⟨(hsum k hk).1, (hsum k hk).2.trans (hvn k hk)⟩) n hn
  refine ⟨h.1, h.2.trans (le_of_eq ?_)⟩
  rw [hv]
  ring

/-- Order one in probability of Heun's scheme with small normal perturbations, for locally smooth drifts. -/
theorem heun_prob {Ω : Type*} [MeasurableSpace Ω] {P : Measure Ω} {B : Fin (m + d) → ℝ≥0 → Ω → ℝ} (hB : IsBrownianVec B P)
    {f : Field d} (hf : ContDiff ℝ 2 (Function.uncurry f)) {T : ℝ} (hT : 0 < T) (S : Mat d m) (x0 : Vec d) {X : Ω → ℝ → Vec d}
    (hX : ∀ᵐ ω ∂P, SolvesAdditive f S (fun t j => B (Fin.castAdd d j) t.toNNReal ω) x0 T (X ω)) (σ : ℝ) {ε : ℝ} (hε : 0 < ε) :
    ∃ (A : ℝ) (N0 : ℕ), ∀ N ≥ N0, ∀ Y : ℕ → Ω → Vec d, (∀ ω, Y 0 ω = x0) → (∀ k < N, ∀ ω, Y (k + 1) ω =
        Ssm.heun f (T / N) (k * (T / N)) (Y k ω) +
          S *ᵥ (fun j => B (Fin.castAdd d j) ((k + 1 : ℕ) * (T / N)).toNNReal ω - B (Fin.castAdd d j) (k * (T / N)).toNNReal ω) +
          (σ * Real.sqrt ((T / N) ^ 3 / 12) * (1 / Real.sqrt (T / N))) •
            fun j => B (Fin.natAdd m j) ((k + 1 : ℕ) * (T / N)).toNNReal ω - B (Fin.natAdd m j) (k * (T / N)).toNNReal ω) →
      ∀ n ≤ N, P {ω | A * (T / N) < ‖X ω (n * (T / N)) - Y n ω‖} ≤ ENNReal.ofReal ε := by
  obtain ⟨A, N0, hA⟩ := prob_order_draw hB hf hT S x0 hX (ι := Unit) (Adm := fun N _ => 0 < N)
    (J := fun g N _ k y a _ ξ => Ssm.heun g (T / N) (k * (T / N)) y + S *ᵥ a +
      ((σ * Real.sqrt ((T / N) ^ 3 / 12)) • (1 : Mat d d)) *ᵥ ξ) one_pos
    (fun g Dg L K X' _ hg hgt hX' => by
      obtain ⟨A, -, hA⟩ := heun_draw_strong hB hT hg hgt S x0 hX' σ
      refine ⟨A, fun N hN _ _ c hc Y hY0 hYs n hn => hA N hN _ (le_of_eq ?_) c hc Y hY0 hYs n hn⟩
      refine (frobenius_of_mul_transpose (s := σ ^ 2 * (T / N) ^ 3 / 12) ?_)
      rw [transpose_smul, transpose_one, Matrix.smul_mul, Matrix.one_mul, smul_smul]
      congr 1
      have := Real.mul_self_sqrt (by positivity : (0 : ℝ) ≤ (T / N) ^ 3 / 12)
      linear_combination σ ^ 2 * this)
    (fun g Dg L K F ρ hF hg _ _ hgF heq => by
      obtain ⟨N3, hN3⟩ := exists_nat_gt (4 * (T * F))
      refine ⟨N3, fun N hN hN0 _ _ k hk y a b ξ hy _ => ?_⟩
      have hN' : (0 : ℝ) < N := by exact_mod_cast hN0
      have hNN : (N3 : ℝ) ≤ N := by exact_mod_cast hN
      have hδ : 0 < T / N := by positivity
      have hδF : T / N * F ≤ 1 / 4 := by
        rw [div_mul_eq_mul_div, div_le_iff₀ hN']
        linarith
      have hk1 : ((k + 1 : ℕ) : ℝ) * (T / N) ≤ T := by
        have h1 : ((k + 1 : ℕ) : ℝ) * (T / N) ≤ N * (T / N) := mul_le_mul_of_nonneg_right (by exact_mod_cast hk) hδ.le
        have h2 : (N : ℝ) * (T / N) = T := by field_simp
        linarith
      have hk2 : (k : ℝ) * (T / N) + T / N ≤ T := by
        push_cast at hk1
        linarith
      have hk0 : (0 : ℝ) ≤ k * (T / N) := by positivity
      have e1 : g y (k * (T / N)) = f y (k * (T / N)) := heq y (by linarith) _ ⟨hk0, by linarith⟩
      have e2 : g (y + (T / N) • g y (k * (T / N))) (k * (T / N) + T / N) = f (y + (T / N) • g y (k * (T / N))) (k * (T / N) + T / N) := by
        refine heq _ ?_ _ ⟨by linarith, hk2⟩
        refine (norm_add_le _ _).trans ?_
        rw [norm_smul, Real.norm_eq_abs, abs_of_pos hδ]
        have := mul_le_mul_of_nonneg_left (hgF y (k * (T / N))) hδ.le
        linarith
      congr 2
      simp only [Ssm.heun]
      rw [← e1, e2]) hε
  refine ⟨A, max N0 1, fun N hN Y hY0 hYs n hn => ?_⟩
  have hN0 : 0 < N := lt_of_lt_of_le one_pos ((le_max_right N0 1).trans hN)
  have hN' : (0 : ℝ) < N := by exact_mod_cast hN0
  have hδ : 0 < T / N := by positivity
  refine hA N ((le_max_left N0 1).trans hN) () hN0 (fun ω k => ((fun j => B j (k * (T / N) + T / N).toNNReal ω) - (fun j => B j (k * (T / N)).toNNReal ω),
    fun j => Real.sqrt 6 * ((∫ t in (0 : ℝ)..(T / N), (B j (k * (T / N) + t).toNNReal ω - B j (k * (T / N)).toNNReal ω)) / (T / N) -
      ((fun j => B j (k * (T / N) + T / N).toNNReal ω) - (fun j => B j (k * (T / N)).toNNReal ω)) j / 2)))
    (Eventually.of_forall fun ω k _ => exists_sameEndAndArea hδ.ne' (fun t j => B j t.toNNReal ω) (k * (T / N))) Y hY0 (fun k hk ω => ?_) n hn
  have e : ((k + 1 : ℕ) : ℝ) * (T / N) = k * (T / N) + T / N := by push_cast; ring
  rw [hYs k hk ω, e]
  congr 1
  rw [smul_mulVec, one_mulVec, smul_smul]
  rfl

/-- The noise of Algorithm 4 read off from the increments of a Brownian motion. -/
theorem brownian_noise_law {Ω : Type*} [MeasurableSpace Ω] {P : Measure Ω} {B : Fin (d + d) → ℝ≥0 → Ω → ℝ} (hB : IsBrownianVec B P) {δ : ℝ} (hδ : 0 < δ)
    (N : ℕ) (σ : ℝ) : IsNormal P (fun ω (p : Fin N × (Fin d ⊕ Fin d)) => Sum.elim
      (fun j => (σ * Real.sqrt (δ ^ 3 / 12) * (1 / Real.sqrt δ)) *
        (B (Fin.natAdd d j) (((p.1 : ℕ) + 1 : ℕ) * δ).toNNReal ω - B (Fin.natAdd d j) ((p.1 : ℕ) * δ).toNNReal ω))
      (fun j => B (Fin.castAdd d j) (((p.1 : ℕ) + 1 : ℕ) * δ).toNNReal ω - B (Fin.castAdd d j) ((p.1 : ℕ) * δ).toNNReal ω) p.2) 0
      (diagonal fun p => Sum.elim (fun _ => σ ^ 2 * δ ^ 3 / 12) (fun _ => δ) p.2) := by
  have h := ((hB.inc_law hδ N).reindex (fun p : Fin N × (Fin d ⊕ Fin d) => (p.1, Sum.elim (Fin.natAdd d) (Fin.castAdd d) p.2))).affine 0
    (diagonal fun p => Sum.elim (fun _ => σ * Real.sqrt (δ ^ 3 / 12) * (1 / Real.sqrt δ)) (fun _ => 1) p.2)
  refine (congrArg₂ (fun (μ : Fin N × (Fin d ⊕ Fin d) → ℝ) C => IsNormal P _ μ C) ?_ ?_).mp (h.congr_ae (Eventually.of_forall fun ω => ?_))
  · funext p
    simp [mulVec_diagonal]
  · rw [submatrix_diagonal _ _ (fun p p' hp => by
        simp only [Prod.mk.injEq] at hp
        refine Prod.ext hp.1 ?_
        obtain ⟨k, j | j⟩ := p <;> obtain ⟨k', j' | j'⟩ := p'
        · exact congrArg Sum.inl ((Fin.natAdd_inj d).1 hp.2)
        · have h1 := congrArg (fun i : Fin (d + d) => (i : ℕ)) hp.2
          simp only [Sum.elim_inl, Sum.elim_inr, Fin.val_castAdd, Fin.val_natAdd] at h1
          have := j'.2
          omega
        · have h1 := congrArg (fun i : Fin (d + d) => (i : ℕ)) hp.2
          simp only [Sum.elim_inl, Sum.elim_inr, Fin.val_castAdd, Fin.val_natAdd] at h1
          have := j.2
          omega
        · exact congrArg Sum.inr (Fin.castAdd_injective d d hp.2)), diagonal_transpose, diagonal_mul_diagonal, diagonal_mul_diagonal]
    congr 1
    funext p
    obtain ⟨k, j | j⟩ := p
    · simp only [Function.comp_def, Sum.elim_inl]
      have h1 := Real.mul_self_sqrt (by positivity : (0 : ℝ) ≤ δ ^ 3 / 12)
      have h2 : (1 / Real.sqrt δ) * δ * (1 / Real.sqrt δ) = 1 := by
        rw [one_div, mul_assoc, mul_comm δ, ← mul_assoc, ← mul_inv, Real.mul_self_sqrt hδ.le, inv_mul_cancel₀ hδ.ne']
      linear_combination σ ^ 2 * h1 + σ ^ 2 * (Real.sqrt (δ ^ 3 / 12) * Real.sqrt (δ ^ 3 / 12)) * h2
    · simp
  · funext p
    obtain ⟨k, j | j⟩ := p <;> simp [mulVec_diagonal]

/-- The states of a run of Algorithm 4 (EKF0, one filter step, additive noise): they are functions of the draws at the sample keys, with the
law of Heun's scheme fed with a Brownian motion. -/
theorem ssm_run_law {la : LinAlg} (hla : la.Correct) {Ω : Type*} [MeasurableSpace Ω] {Q : Measure Ω} {R : Ω → Rng} (hR : IdealNormals Q R)
    (key : Key) {δ : ℝ} (hδ : 0 < δ) (N : ℕ) {σ : ℝ} (hσ : σ ≠ 0) (sqrt : Bool) {f : Field d} (hf : Continuous (Function.uncurry f)) (S : Mat d d)
    (x0 : Vec d) {z : Ω → ℕ → Vec d} (hz0 : ∀ ω, z ω 0 = x0)
    (hzs : ∀ ω, ∀ k < N, ∃ i, Ssm.wrapperFixed la (R ω) true (some ((key.child N k).child 2 1)) (z ω k) δ (fun x t => f x (t + k * δ))
      (fun _ _ => S) δ 1 sqrt (some ⟨2, IOUP.transition 0 σ 1 δ 1⟩) none = .ok (z ω (k + 1), i)) :
    ∃ H : ℕ → (Fin N × Fin (d * (2 + 2)) → ℝ) → Vec d, (∀ n, Measurable (H n)) ∧
      (∀ n ≤ N, ∀ ω, z ω n = H n fun p => (R ω).normalVec ((key.child N p.1).child 2 1) (d * (2 + 2)) p.2) ∧
      ∀ {Ω' : Type} [MeasurableSpace Ω'] {P : Measure Ω'} {B : Fin (d + d) → ℝ≥0 → Ω' → ℝ}, IsBrownianVec B P →
        ∀ Y : ℕ → Ω' → Vec d, (∀ ω, Y 0 ω = x0) → (∀ k < N, ∀ ω, Y (k + 1) ω =
          Ssm.heun f δ (k * δ) (Y k ω) +
            S *ᵥ (fun j => B (Fin.castAdd d j) ((k + 1 : ℕ) * δ).toNNReal ω - B (Fin.castAdd d j) (k * δ).toNNReal ω) +
            (σ * Real.sqrt (δ ^ 3 / 12) * (1 / Real.sqrt δ)) •
              fun j => B (Fin.natAdd d j) ((k + 1 : ℕ) * δ).toNNReal ω - B (Fin.natAdd d j) (k * δ).toNNReal ω) →
        ∀ n ≤ N, IdentDistrib (fun ω => z ω n) (Y n) Q P := by
  obtain ⟨G, hG, hwr⟩ := Ssm.wrapper_heun hla sqrt hδ hσ S
  obtain ⟨Ψ, hΨ⟩ : ∃ Ψ : ℕ → Vec d → (Fin N × (Fin d ⊕ Fin d) → ℝ) → Vec d, ∀ k x w, Ψ k x w = Ssm.heun f δ (k * δ) x +
      S *ᵥ (fun j => if h : k < N then w (⟨k, h⟩, Sum.inr j) else 0) + (fun j => if h : k < N then w (⟨k, h⟩, Sum.inl j) else 0) :=
    ⟨_, fun _ _ _ => rfl⟩
  have hΨm : ∀ k, Measurable fun p : Vec d × (Fin N × (Fin d ⊕ Fin d) → ℝ) => Ψ k p.1 p.2 := fun k => by
    simp only [hΨ]
    have hc : ∀ s : Fin d → Fin d ⊕ Fin d, Measurable fun (p : Vec d × (Fin N × (Fin d ⊕ Fin d) → ℝ)) (j : Fin d) =>
        if h : k < N then p.2 (⟨k, h⟩, s j) else 0 := fun s => measurable_pi_lambda _ fun j => by
      split_ifs with h
      · exact (measurable_pi_apply _).comp measurable_snd
      · exact measurable_const
    have hSm : Measurable fun v : Vec d => S *ᵥ v := (Matrix.mulVecLin S).continuous_of_finiteDimensional.measurable
    exact (((Ssm.heun_continuous hf δ (k * δ)).measurable.comp measurable_fst).add (hSm.comp (hc Sum.inr))).add (hc Sum.inl)
  obtain ⟨c, hc⟩ : ∃ c : Ω → Fin N × (Fin d ⊕ Fin d) → ℝ, ∀ ω p, c ω p =
      (G *ᵥ (R ω).normalVec ((key.child N p.1).child 2 1) (d * (2 + 2))) p.2 := ⟨_, fun _ _ => rfl⟩
  have hzΨ : ∀ k < N, ∀ ω, z ω (k + 1) = Ψ k (z ω k) (c ω) := fun k hk ω => by
    obtain ⟨i, hi⟩ := hzs ω k hk
    obtain ⟨i', hi'⟩ := hwr (R ω) ((key.child N k).child 2 1) (z ω k) (fun x t => f x (t + k * δ))
    have e := (Prod.ext_iff.mp (Except.ok.inj (hi.symm.trans hi'))).1
    refine e.trans ?_
    rw [hΨ]
    simp only [dif_pos hk, hc, Ssm.heun, zero_add, add_comm δ]
  obtain ⟨F, hF1, hF2⟩ := exists_scheme_map (N := N) hΨm x0
  have hGm : Measurable fun (v : Fin N × Fin (d * (2 + 2)) → ℝ) (p : Fin N × (Fin d ⊕ Fin d)) => (G *ᵥ fun j => v (p.1, j)) p.2 :=
    measurable_pi_lambda _ fun p => by
      simp only [mulVec, dotProduct]
      exact Finset.measurable_fun_sum _ fun j _ => (measurable_pi_apply _).const_mul _
  refine ⟨fun n v => F n fun p => (G *ᵥ fun j => v (p.1, j)) p.2, fun n => (hF1 n).comp hGm, fun n hn ω => ?_, ?_⟩
  · have := hF2 (fun k => z ω k) (c ω) (hz0 ω) (fun k hk => hzΨ k hk ω) n hn
    rw [this]
    congr 1
    funext p
    rw [hc]
  · intro Ω' _ P B hB Y hY0 hYs n hn
    have hl1 := Ssm.noise_law hR key N hG
    have hl2 := brownian_noise_law hB hδ N σ
    have hid := hl1.identDistrib hl2
    rw [← show c = _ from funext fun ω => funext fun p => hc ω p] at hid
    refine scheme_identDistrib hid hΨm (N := N) (Y := fun n ω => z ω n) hz0 hY0 hzΨ (fun k hk ω => ?_) n hn
    rw [hYs k hk ω, hΨ]
    simp only [dif_pos hk, Sum.elim_inl, Sum.elim_inr]
    rfl

set_option maxHeartbeats 1000000 in
/-- The reference trajectory of the low-memory solver is independent of the draws at the sample keys of the same run. -/
theorem ram_reference_indep {f : Field d} (hf : Continuous (Function.uncurry f)) (S : Mat d m) (x0 : Vec d) {Ω : Type*} [MeasurableSpace Ω] {Q : Measure Ω}
    {R : Ω → Rng} (hR : IdealNormals Q R) {δ : ℝ} (N : ℕ) {r : ℕ} (hr : 0 < r) (key : Key) {α : Type} (init : α)
    (odeInt : Ω → OdeInt α d) {n : ℕ} (hn : n ≤ N) (q : ℕ) :
    ∃ z : Ω → Vec d, (∀ ω, ∃ ts traj traj2, ramSolver (R ω) key f (fun _ _ => S) init x0 δ N r (odeInt ω) = .ok (ts, traj, traj2) ∧
        traj2[n]? = some (z ω)) ∧ AEMeasurable z Q ∧
      AEMeasurable (fun ω (p : Fin N × Fin q) => (R ω).normalVec ((key.child N p.1).child 2 1) q p.2) Q ∧
      IndepFun z (fun ω (p : Fin N × Fin q) => (R ω).normalVec ((key.child N p.1).child 2 1) q p.2) Q := by
  obtain ⟨η, hη⟩ : ∃ η, η = δ / r := ⟨_, rfl⟩
  obtain ⟨c1, hc1⟩ : ∃ c1 : Ω → ℕ → Vec m × Vec m, ∀ ω p, c1 ω p =
    finePiece m r (R ω) ((key.child N (p / r)).child 2 0) δ (p % r) := ⟨_, fun _ _ => rfl⟩
  obtain ⟨u1, hu1⟩ : ∃ u1 : Ω → Fin (N * r) × Fin m × Fin 2 → ℝ, ∀ ω p, u1 ω p =
    ![(c1 ω p.1).1 p.2.1, (c1 ω p.1).2 p.2.1] p.2.2 := ⟨_, fun _ _ => rfl⟩
  have hR1 : ∀ ω, ∀ k < N, ∀ i < r, finePiece m r (R ω) ((key.child N k).child 2 0) δ i = c1 ω (k * r + i) := fun ω k _ i hi => by
    rw [hc1, Nat.mul_comm, Nat.mul_add_div hr, Nat.div_eq_of_lt hi, add_zero, Nat.mul_add_mod, Nat.mod_eq_of_lt hi]
  have hZ : iIndepFun (fun (p : (Fin N × Fin q) ⊕ (Fin (N * r) × Fin 2 × Fin m)) ω => Sum.elim
      (fun p => (R ω).normalVec ((key.child N p.1).child 2 1) q p.2)
      (fun p => (R ω).normalMat (((key.child N ((p.1 : ℕ) / r)).child 2 0).child r ((p.1 : ℕ) % r)) 2 m p.2.1 p.2.2) p) Q := by
    refine hR.indep_vecs_mats (fun a : Fin N => (key.child N a).child 2 1)
      (fun a : Fin (N * r) => ((key.child N ((a : ℕ) / r)).child 2 0).child r ((a : ℕ) % r)) (fun a b hab =>
        ((Key.diverge_child key N _ _ fun e => hab (Fin.ext e)).child_left 2 _).child_right 2 _) (fun a b hab => ?_) (fun a b => ?_) q 2 m
    · by_cases h1 : (a : ℕ) / r = b / r
      · have h2 : (a : ℕ) % r ≠ b % r := fun h2 => hab (Fin.ext (by rw [← Nat.div_add_mod (a : ℕ) r, ← Nat.div_add_mod (b : ℕ) r, h1, h2]))
        show (((key.child N ((a : ℕ) / r)).child 2 0).child r ((a : ℕ) % r)).Diverge _
        rw [h1]
        exact Key.diverge_child _ r _ _ h2
      · exact (((((Key.diverge_child key N _ _ h1).child_left 2 0).child_right 2 0).child_left r _).child_right r _)
    · by_cases h1 : (a : ℕ) = b / r
      · rw [← h1]
        exact (Key.diverge_child _ 2 1 0 one_ne_zero).child_right r _
      · exact (((Key.diverge_child key N _ _ h1).child_left 2 _).child_right 2 _).child_right r _
  have hZl : ∀ p : (Fin N × Fin q) ⊕ (Fin (N * r) × Fin 2 × Fin m), HasLaw (fun ω => Sum.elim
      (fun p : Fin N × Fin q => (R ω).normalVec ((key.child N p.1).child 2 1) q p.2)
      (fun p : Fin (N * r) × Fin 2 × Fin m => (R ω).normalMat (((key.child N ((p.1 : ℕ) / r)).child 2 0).child r ((p.1 : ℕ) % r)) 2 m
        p.2.1 p.2.2) p) (gaussianReal 0 1) Q := by
    rintro (p | p)
    · exact hR.law _ _ _ (by simp)
    · exact hR.law_mat _ _ _
  have hZn := isNormal_std hZl hZ
  rw [← diagonal_one] at hZn
  obtain ⟨φ, hφ⟩ : ∃ φ : (Fin (N * r) × Fin 2 × Fin m → ℝ) → Fin (N * r) × Fin m × Fin 2 → ℝ, ∀ v p, φ v p =
      ![Real.sqrt (δ / r) * v (p.1, 0, p.2.1), Real.sqrt (0.5 * (δ / r)) * v (p.1, 1, p.2.1)] p.2.2 := ⟨_, fun _ _ => rfl⟩
  have hφm : Measurable φ := by
    refine measurable_pi_lambda _ fun p => ?_
    simp only [hφ]
    obtain ⟨k, j, s⟩ := p
    fin_cases s
    · exact (measurable_pi_apply _).const_mul _
    · exact (measurable_pi_apply _).const_mul _
  have hu : ∀ ω, u1 ω = φ fun p : Fin (N * r) × Fin 2 × Fin m =>
      (R ω).normalMat (((key.child N ((p.1 : ℕ) / r)).child 2 0).child r ((p.1 : ℕ) % r)) 2 m p.2.1 p.2.2 := fun ω => by
    funext p
    rw [hu1, hc1, hφ]
    obtain ⟨k, j, s⟩ := p
    fin_cases s
    · simp [finePiece, Foster.getApprox, Foster.parabolas, mul_comm]
    · simp [finePiece, Foster.getApprox, Foster.parabolas, mul_comm]
  have hi1 := hZn.indep_coords (Sum.inr : Fin (N * r) × Fin 2 × Fin m → _) (Sum.inl : Fin N × Fin q → _) (fun a b => Sum.inr_ne_inl)
  simp only [Sum.elim_inl, Sum.elim_inr] at hi1
  obtain ⟨Φ, hΦ⟩ : ∃ Φ : ℕ → Vec d → (Fin (N * r) × Fin m × Fin 2 → ℝ) → Vec d, ∀ k y z, Φ k y z =
      y + η • f y (k * η) + S *ᵥ (fun j => if h : k < N * r then z (⟨k, h⟩, j, 0) else 0) := ⟨_, fun _ _ _ => rfl⟩
  obtain ⟨G, hG1, hG2⟩ := exists_scheme_map (N := N * r) (Ψ := Φ) (fun k => by
    simp only [hΦ]
    have hfm : Measurable fun p : Vec d × (Fin (N * r) × Fin m × Fin 2 → ℝ) => f p.1 (k * η) := by
      have : Continuous fun x : Vec d => f x (k * η) := hf.comp (by fun_prop : Continuous fun x : Vec d => (x, (k : ℝ) * η))
      exact this.measurable.comp measurable_fst
    have hwm : Measurable fun (p : Vec d × (Fin (N * r) × Fin m × Fin 2 → ℝ)) (j : Fin m) =>
        if h : k < N * r then p.2 (⟨k, h⟩, j, 0) else 0 := measurable_pi_lambda _ fun j => by
      split_ifs with h
      · exact (measurable_pi_apply ((⟨k, h⟩, j, 0) : Fin (N * r) × Fin m × Fin 2)).comp measurable_snd
      · exact measurable_const
    have hSm : Measurable fun v : Vec m => S *ᵥ v := (by fun_prop : Continuous fun v : Vec m => S *ᵥ v).measurable
    exact (measurable_fst.add (hfm.const_smul η)).add (hSm.comp hwm)) x0
  choose tr ts2 xs g1 g2 g3 g4 using fun ω => C99_low_memory (R ω) key f (fun _ _ => S) init x0 δ N r hr (odeInt ω)
  choose z hz using fun ω => Option.isSome_iff_exists.mp (g4 ω n hn).2
  have hz1G : ∀ ω, z ω = G (n * r) (u1 ω) := fun ω => by
    have hem : emPathwise ((List.range (N * r)).map fun q => (c1 ω q).1) x0 f (fun _ _ => S) η (N * r) = .ok (ts2 ω, xs ω) := by
      have := g2 ω
      rw [sdeSolver_coeffs, List.map_map, ← hη] at this
      rw [← this, ← flatten_blocks (fun q => (c1 ω q).1)]
      congr 2
      refine List.map_congr_left fun k hk => ?_
      simp only [Function.comp_def]
      rw [(coeffs_foldFine (m := m) r (R ω) ((key.child N k).child 2 0) δ).2.2]
      refine List.map_congr_left fun i hi => ?_
      rw [hR1 ω k (List.mem_range.mp hk) i (List.mem_range.mp hi)]
    have hxs : (xs ω)[n * r]? = some (z ω) := by rw [← (g4 ω n hn).1]; exact hz ω
    obtain ⟨ts', Y, hY1, hY2, hY3⟩ := emPathwise_states (fun q => (c1 ω q).1) x0 f (fun _ _ => S) η (N * r)
    have hnr : n * r ≤ N * r := Nat.mul_le_mul_right r hn
    have e : xs ω = (List.range (N * r + 1)).map Y := (Prod.ext_iff.mp (Except.ok.inj (hem.symm.trans hY1))).2
    rw [e, List.getElem?_map, List.getElem?_range (by omega)] at hxs
    rw [← Option.some.inj hxs]
    refine hG2 Y _ hY2 (fun k hk => ?_) (n * r) hnr
    rw [hY3 k hk, hΦ]
    simp [hk, hu1]
  have hzf : z = (fun v => G (n * r) (φ v)) ∘ fun ω (p : Fin (N * r) × Fin 2 × Fin m) =>
      (R ω).normalMat (((key.child N ((p.1 : ℕ) / r)).child 2 0).child r ((p.1 : ℕ) % r)) 2 m p.2.1 p.2.2 := by
    funext ω
    rw [hz1G, hu]
    rfl
  refine ⟨z, fun ω => ⟨_, _, tr ω, g1 ω, hz ω⟩, ?_, aemeasurable_pi_lambda _ fun p => (hZl (Sum.inl p)).aemeasurable, ?_⟩
  · rw [hzf]
    exact ((hG1 _).comp hφm).comp_aemeasurable (aemeasurable_pi_lambda _ fun p => (hZl (Sum.inr p)).aemeasurable)
  · rw [hzf]
    exact hi1.comp ((hG1 _).comp hφm) measurable_id

/-- The value of a solution at a time of the grid is measurable, for locally smooth drifts. -/
theorem solution_aemeasurable {Ω : Type*} [MeasurableSpace Ω] {P : Measure Ω} {B : Fin m → ℝ≥0 → Ω → ℝ} (hB : IsBrownianVec B P) {f : Field d}
    (hf : ContDiff ℝ 2 (Function.uncurry f)) {T : ℝ} (hT : 0 < T) (S : Mat d m) (x0 : Vec d) {X : Ω → ℝ → Vec d}
    (hX : ∀ᵐ ω ∂P, SolvesAdditive f S (fun t j => B j t.toNNReal ω) x0 T (X ω)) {t : ℝ} (ht : t ∈ Icc 0 T) :
    AEMeasurable (fun ω => X ω t) P := by
  have h : ∀ k : ℕ, ∃ V : Ω → Vec d, AEMeasurable V P ∧ P {ω | X ω t ≠ V ω} ≤ ENNReal.ofReal (1 / (k + 1)) := fun k => by
    obtain ⟨ρ, g, Dg, L, K, F, X', hL, hF, hg, hgt, hgF, heq, hX', N1, hN1⟩ := exists_good hB hf hT S x0 hX (ε := 1 / ((k : ℝ) + 1)) (κ := 1)
      (by positivity) one_pos
    obtain ⟨G, hG, hG1⟩ := hN1 N1 le_rfl
    obtain ⟨V, hV1, hV2⟩ := solution_adapted hB hg.cont hL hg.lip hT hX' ht.1 ht.2
    refine ⟨fun ω => X' ω t, ((hV1.mono (hB.pastAlg_le _) le_rfl).aemeasurable).congr hV2.symm, (measure_mono fun ω hω => ?_).trans hG⟩
    exact fun hcon => hω ((hG1 ω hcon).1 t ht).1
  choose V hV1 hV2 using h
  have hm : TendstoInMeasure P V atTop fun ω => X ω t := by
    intro ε hε
    have h0 : Tendsto (fun k : ℕ => ENNReal.ofReal (1 / ((k : ℝ) + 1))) atTop (nhds 0) := by
      have := ENNReal.tendsto_ofReal tendsto_one_div_add_atTop_nhds_zero_nat
      rwa [ENNReal.ofReal_zero] at this
    refine tendsto_of_tendsto_of_tendsto_of_le_of_le tendsto_const_nhds h0 (fun _ => zero_le) fun k => ?_
    refine (measure_mono fun ω hω => ?_).trans (hV2 k)
    intro hcon
    have hω : ε ≤ edist (V k ω) (X ω t) := hω
    rw [hcon, edist_self] at hω
    exact absurd hω (not_le.2 hε)
  obtain ⟨ns, -, hns⟩ := hm.exists_seq_tendsto_ae
  exact aemeasurable_of_tendsto_metrizable_ae atTop (fun k => hV1 (ns k)) hns

/-- A vector with a spread coordinate is far from every independent vector. -/
theorem indep_far {Ω : Type*} [MeasurableSpace Ω] {Q : Measure Ω} [IsProbabilityMeasure Q] {U Z : Ω → Vec d} (hU : AEMeasurable U Q)
    (hZ : AEMeasurable Z Q) (hi : IndepFun U Z Q) (i : Fin d) {κ : ℝ} {p : ℝ≥0∞} (hs : ∀ a : ℝ, Q {ω | |Z ω i - a| ≤ κ} ≤ p) :
    Q {ω | ‖Z ω - U ω‖ ≤ κ} ≤ p := by
  have hpair := (indepFun_iff_map_prod_eq_prod_map_map hU hZ).1 hi
  have hm : MeasurableSet {x : Vec d × Vec d | |x.2 i - x.1 i| ≤ κ} := measurableSet_le (by fun_prop) measurable_const
  have h1 : Q {ω | |Z ω i - U ω i| ≤ κ} = Q.map (fun ω => (U ω, Z ω)) {x : Vec d × Vec d | |x.2 i - x.1 i| ≤ κ} :=
    (Measure.map_apply_of_aemeasurable (hU.prodMk hZ) hm).symm
  have : IsProbabilityMeasure (Q.map U) := Measure.isProbabilityMeasure_map hU
  have : IsProbabilityMeasure (Q.map Z) := Measure.isProbabilityMeasure_map hZ
  have hsub : {ω | ‖Z ω - U ω‖ ≤ κ} ⊆ {ω | |Z ω i - U ω i| ≤ κ} := fun ω hω => (norm_le_pi_norm (Z ω - U ω) i).trans hω
  refine (measure_mono hsub).trans ?_
  rw [h1, hpair, Measure.prod_apply hm]
  calc ∫⁻ u, Q.map Z (Prod.mk u ⁻¹' {x : Vec d × Vec d | |x.2 i - x.1 i| ≤ κ}) ∂(Q.map U) ≤ ∫⁻ _, p ∂(Q.map U) := lintegral_mono fun u => by
        have hmu : MeasurableSet {v : Vec d | |v i - u i| ≤ κ} := measurableSet_le (by fun_prop) measurable_const
        refine le_trans (le_of_eq ?_) (hs (u i))
        exact Measure.map_apply_of_aemeasurable hZ hmu
    _ = p := by rw [lintegral_const, measure_univ, mul_one]

/-- Expectations of bounded Lipschitz functions of variables that are close with high probability. -/
theorem weak_of_prob {Ω : Type*} [MeasurableSpace Ω] {P : Measure Ω} [IsProbabilityMeasure P] {E : Type*} [NormedAddCommGroup E]
    [MeasurableSpace E] [BorelSpace E] [SecondCountableTopology E] {U V : Ω → E} (hU : AEMeasurable U P)
    (hV : AEMeasurable V P) {a ε : ℝ} (ha : 0 ≤ a) (hε : 0 ≤ ε) (h : P {ω | a < ‖U ω - V ω‖} ≤ ENNReal.ofReal ε) {g : E → ℝ}
    (hg : LipschitzWith 1 g) (hb : ∀ x, |g x| ≤ 1) : |∫ ω, g (U ω) ∂P - ∫ ω, g (V ω) ∂P| ≤ a + 2 * ε := by
  have hgm := hg.continuous.measurable
  have hi : ∀ W : Ω → E, AEMeasurable W P → Integrable (fun ω => g (W ω)) P := fun W hW =>
    Integrable.of_bound (hgm.comp_aemeasurable hW).aestronglyMeasurable 1 (Eventually.of_forall fun ω => by
      rw [Real.norm_eq_abs]
      exact hb _)
  obtain ⟨D, hD⟩ : ∃ D, D = {ω | a < ‖U ω - V ω‖} := ⟨_, rfl⟩
  have hDm : NullMeasurableSet D P := by
    rw [hD]
    exact nullMeasurableSet_lt aemeasurable_const (hU.sub hV).norm
  rw [← hD] at h
  have hreal : P.real D ≤ ε := by
    rw [Measure.real]
    exact ENNReal.toReal_le_of_le_ofReal hε h
  have hind : Integrable (D.indicator fun _ => (2 : ℝ)) P := (integrable_const 2).indicator₀ hDm
  rw [← integral_sub (hi U hU) (hi V hV)]
  calc |∫ ω, (g (U ω) - g (V ω)) ∂P| ≤ ∫ ω, |g (U ω) - g (V ω)| ∂P := abs_integral_le_integral_abs
    _ ≤ ∫ ω, (a + D.indicator (fun _ => (2 : ℝ)) ω) ∂P := by
        refine integral_mono ((hi U hU).sub (hi V hV)).abs ((integrable_const a).add hind) fun ω => ?_
        by_cases hω : ω ∈ D
        · simp only [indicator_of_mem hω]
          have := abs_sub (g (U ω)) (g (V ω))
          linarith [hb (U ω), hb (V ω)]
        · simp only [indicator_of_notMem hω, add_zero]
          have h1 := hg.dist_le_mul (U ω) (V ω)
          rw [Real.dist_eq, NNReal.coe_one, one_mul, dist_eq_norm] at h1
          refine h1.trans ?_
          rw [hD, mem_setOf_eq, not_lt] at hω
          exact hω
    _ = a + 2 * P.real D := by
        rw [integral_add (integrable_const a) hind, integral_const, probReal_univ, one_smul, integral_indicator₀ hDm, setIntegral_const,
          smul_eq_mul, mul_comm]
    _ ≤ a + 2 * ε := by linarith

/-- The law of Euler-Maruyama fed with a Brownian motion does not depend on the Brownian motion. -/
theorem em_identDistrib {Ω Ω' : Type*} [MeasurableSpace Ω] [MeasurableSpace Ω'] {P : Measure Ω} {P' : Measure Ω'} {B : Fin m → ℝ≥0 → Ω → ℝ}
    {B' : Fin m → ℝ≥0 → Ω' → ℝ} (hB : IsBrownianVec B P) (hB' : IsBrownianVec B' P') {f : Field d} (hf : Continuous (Function.uncurry f)) (S : Mat d m)
    (x0 : Vec d) {δ : ℝ} (hδ : 0 < δ) {N n : ℕ} (hn : n ≤ N) {y : Ω → Vec d} {y' : Ω' → Vec d}
    (hy : ∀ ω, ∃ ts xs, emPathwise ((List.range N).map fun k j => B j ((k + 1 : ℕ) * δ).toNNReal ω - B j (k * δ).toNNReal ω) x0 f (fun _ _ => S) δ N =
      .ok (ts, xs) ∧ xs[n]? = some (y ω))
    (hy' : ∀ ω, ∃ ts xs, emPathwise ((List.range N).map fun k j => B' j ((k + 1 : ℕ) * δ).toNNReal ω - B' j (k * δ).toNNReal ω) x0 f (fun _ _ => S) δ N =
      .ok (ts, xs) ∧ xs[n]? = some (y' ω)) : IdentDistrib y y' P P' := by
  obtain ⟨Φ, hΦ⟩ : ∃ Φ : ℕ → Vec d → (Fin N × Fin m → ℝ) → Vec d, ∀ k y z, Φ k y z =
      y + δ • f y (k * δ) + S *ᵥ (fun j => if h : k < N then z (⟨k, h⟩, j) else 0) := ⟨_, fun _ _ _ => rfl⟩
  obtain ⟨G, hG1, hG2⟩ := exists_scheme_map (N := N) (Ψ := Φ) (fun k => by
    simp only [hΦ]
    have hfm : Measurable fun p : Vec d × (Fin N × Fin m → ℝ) => f p.1 (k * δ) := by
      have : Continuous fun x : Vec d => f x (k * δ) := hf.comp (by fun_prop : Continuous fun x : Vec d => (x, (k : ℝ) * δ))
      exact this.measurable.comp measurable_fst
    have hwm : Measurable fun (p : Vec d × (Fin N × Fin m → ℝ)) (j : Fin m) =>
        if h : k < N then p.2 (⟨k, h⟩, j) else 0 := measurable_pi_lambda _ fun j => by
      split_ifs with h
      · exact (measurable_pi_apply ((⟨k, h⟩, j) : Fin N × Fin m)).comp measurable_snd
      · exact measurable_const
    have hSm : Measurable fun v : Vec m => S *ᵥ v := (by fun_prop : Continuous fun v : Vec m => S *ᵥ v).measurable
    exact (measurable_fst.add (hfm.const_smul δ)).add (hSm.comp hwm)) x0
  have key : ∀ (w : ℕ → Vec m) (v : Vec d), (∃ ts xs, emPathwise ((List.range N).map w) x0 f (fun _ _ => S) δ N = .ok (ts, xs) ∧
      xs[n]? = some v) → v = G n fun p : Fin N × Fin m => w p.1 p.2 := by
    rintro w v ⟨ts, xs, h1, h2⟩
    obtain ⟨ts', Y, hY1, hY2, hY3⟩ := emPathwise_states w x0 f (fun _ _ => S) δ N
    have e : xs = (List.range (N + 1)).map Y := (Prod.ext_iff.mp (Except.ok.inj (h1.symm.trans hY1))).2
    rw [e, List.getElem?_map, List.getElem?_range (by omega)] at h2
    rw [← Option.some.inj h2]
    refine hG2 Y _ hY2 (fun k hk => ?_) n hn
    rw [hY3 k hk, hΦ]
    simp [hk]
  have hid := ((hB.inc_law hδ N).identDistrib (hB'.inc_law hδ N)).comp (hG1 n)
  have e1 : y = G n ∘ fun ω (p : Fin N × Fin m) => B p.2 (((p.1 : ℕ) + 1 : ℕ) * δ).toNNReal ω - B p.2 ((p.1 : ℕ) * δ).toNNReal ω := by
    funext ω
    exact key (fun k j => B j ((k + 1 : ℕ) * δ).toNNReal ω - B j (k * δ).toNNReal ω) (y ω) (hy ω)
  have e2 : y' = G n ∘ fun ω (p : Fin N × Fin m) => B' p.2 (((p.1 : ℕ) + 1 : ℕ) * δ).toNNReal ω - B' p.2 ((p.1 : ℕ) * δ).toNNReal ω := by
    funext ω
    exact key (fun k j => B' j ((k + 1 : ℕ) * δ).toNNReal ω - B' j (k * δ).toNNReal ω) (y' ω) (hy' ω)
  rw [e1, e2]
  exact hid

end Verif
