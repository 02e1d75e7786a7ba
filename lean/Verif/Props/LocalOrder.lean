import Verif.Lemmas.Localise

/-!
# Property C103: order one in probability when the drift is only locally Lipschitz
-/

namespace Verif

open Matrix Spec Jnp Set MeasureTheory ProbabilityTheory Filter
open scoped NNReal ENNReal Topology

variable {d m : ℕ} {Ω : Type*} [MeasurableSpace Ω] {P : Measure Ω} {B : Fin m → ℝ≥0 → Ω → ℝ}

/-- From mean square errors for a cut off equation to probabilities for the equation itself. The event `bad` does not happen where the two
equations agree. -/
theorem prob_of_localised_bad [IsFiniteMeasure P] {ε A δ : ℝ} (hδ : 0 < δ) (hε : 0 < ε) {N : ℕ} {x x' y y' : ℕ → Ω → Vec d} {G bad : Set Ω}
    (hG : P Gᶜ ≤ ENNReal.ofReal (ε / 3)) (hi : ∀ k ≤ N, Integrable (fun ω => ‖x' k ω - y' k ω‖ ^ 2) P)
    (he : ∀ k ≤ N, ∫ ω, ‖x' k ω - y' k ω‖ ^ 2 ∂P ≤ A * δ ^ 2) (hN : (N + 1) * (4 * (A * δ ^ 2)) ≤ ε / 3)
    (hloc : ∀ ω ∈ G, (∀ k ≤ N, ‖x' k ω - y' k ω‖ ≤ 1 / 2) → ω ∉ bad ∧ ∀ k ≤ N, x k ω = x' k ω ∧ y k ω = y' k ω)
    {A' : ℝ} (hA' : 0 < A')
    (hAA : A ≤ ε / 3 * A' ^ 2) {n : ℕ} (hn : n ≤ N) : P ({ω | A' * δ < ‖x n ω - y n ω‖} ∪ bad) ≤ ENNReal.ofReal ε := by
  have hsub : {ω | A' * δ < ‖x n ω - y n ω‖} ∪ bad ⊆ Gᶜ ∪ (⋃ k ∈ Finset.range (N + 1), {ω | 1 / 2 < ‖x' k ω - y' k ω‖}) ∪
      {ω | A' * δ < ‖x' n ω - y' n ω‖} := by
    intro ω hω
    by_cases h1 : ω ∈ G
    · by_cases h2 : ∀ k ≤ N, ‖x' k ω - y' k ω‖ ≤ 1 / 2
      · obtain ⟨hb, hl⟩ := hloc ω h1 h2
        obtain ⟨e1, e2⟩ := hl n hn
        right
        show A' * δ < ‖x' n ω - y' n ω‖
        rw [← e1, ← e2]
        exact hω.resolve_right hb
      · push Not at h2
        obtain ⟨k, hk, h3⟩ := h2
        left; right
        simp only [mem_iUnion, Finset.mem_range]
        exact ⟨k, by omega, h3⟩
    · left; left; exact h1
  have hA0 : 0 ≤ A * δ ^ 2 := (integral_nonneg fun ω => by positivity).trans (he n hn)
  have hu : P (⋃ k ∈ Finset.range (N + 1), {ω | 1 / 2 < ‖x' k ω - y' k ω‖}) ≤ ENNReal.ofReal (ε / 3) := by
    refine (measure_biUnion_finset_le _ _).trans ?_
    have h1 : ∀ k ∈ Finset.range (N + 1), P {ω | 1 / 2 < ‖x' k ω - y' k ω‖} ≤ ENNReal.ofReal (4 * (A * δ ^ 2)) := fun k hk => by
      have hk' : k ≤ N := by have := Finset.mem_range.mp hk; omega
      have h2 := prob_of_meanSquare (c := 1 / 2) (by norm_num) (hi k hk') (he k hk')
      refine h2.trans (ENNReal.ofReal_le_ofReal (le_of_eq ?_))
      ring
    refine (Finset.sum_le_sum h1).trans ?_
    rw [Finset.sum_const, Finset.card_range, nsmul_eq_mul, ← ENNReal.ofReal_natCast, ← ENNReal.ofReal_mul (by positivity)]
    refine ENNReal.ofReal_le_ofReal ?_
    push_cast
    exact hN
  have hl : P {ω | A' * δ < ‖x' n ω - y' n ω‖} ≤ ENNReal.ofReal (ε / 3) := by
    refine (prob_of_meanSquare (by positivity) (hi n hn) (he n hn)).trans (ENNReal.ofReal_le_ofReal ?_)
    rw [div_le_iff₀ (by positivity)]
    nlinarith [mul_le_mul_of_nonneg_right hAA (by positivity : 0 ≤ δ ^ 2)]
  refine (measure_mono hsub).trans ((measure_union_le _ _).trans ((add_le_add ((measure_union_le _ _).trans (add_le_add hG hu)) hl).trans ?_))
  rw [← ENNReal.ofReal_add (by positivity) (by positivity), ← ENNReal.ofReal_add (by positivity) (by positivity)]
  exact ENNReal.ofReal_le_ofReal (by linarith)

/-- From mean square errors for a cut off equation to probabilities for the equation itself. -/
theorem prob_of_localised [IsFiniteMeasure P] {ε A δ : ℝ} (hδ : 0 < δ) (hε : 0 < ε) {N : ℕ} {x x' y y' : ℕ → Ω → Vec d} {G : Set Ω}
    (hG : P Gᶜ ≤ ENNReal.ofReal (ε / 3)) (hi : ∀ k ≤ N, Integrable (fun ω => ‖x' k ω - y' k ω‖ ^ 2) P)
    (he : ∀ k ≤ N, ∫ ω, ‖x' k ω - y' k ω‖ ^ 2 ∂P ≤ A * δ ^ 2) (hN : (N + 1) * (4 * (A * δ ^ 2)) ≤ ε / 3)
    (hloc : ∀ ω ∈ G, (∀ k ≤ N, ‖x' k ω - y' k ω‖ ≤ 1 / 2) → ∀ k ≤ N, x k ω = x' k ω ∧ y k ω = y' k ω) {A' : ℝ} (hA' : 0 < A')
    (hAA : A ≤ ε / 3 * A' ^ 2) {n : ℕ} (hn : n ≤ N) : P {ω | A' * δ < ‖x n ω - y n ω‖} ≤ ENNReal.ofReal ε := by
  have h := prob_of_localised_bad (bad := ∅) hδ hε hG hi he hN (fun ω hω he => ⟨notMem_empty ω, hloc ω hω he⟩) hA' hAA hn
  rwa [union_empty] at h

/-- Constants for the step from mean squares to probabilities. -/
theorem exists_prob_consts {ε T : ℝ} (hε : 0 < ε) (hT : 0 < T) (A : ℝ) : ∃ A' > 0, A ≤ ε / 3 * A' ^ 2 ∧
    ∃ N0 : ℕ, ∀ N ≥ N0, ((N : ℝ) + 1) * (4 * (A * (T / N) ^ 2)) ≤ ε / 3 := by
  refine ⟨Real.sqrt (3 / ε * |A|) + 1, by positivity, ?_, ?_⟩
  · have h1 : Real.sqrt (3 / ε * |A|) ^ 2 = 3 / ε * |A| := Real.sq_sqrt (by positivity)
    have h2 : 3 / ε * |A| ≤ (Real.sqrt (3 / ε * |A|) + 1) ^ 2 := by nlinarith [Real.sqrt_nonneg (3 / ε * |A|)]
    calc A ≤ |A| := le_abs_self A
      _ = ε / 3 * (3 / ε * |A|) := by field_simp
      _ ≤ _ := mul_le_mul_of_nonneg_left h2 (by positivity)
  · obtain ⟨N0, hN0⟩ := exists_nat_ge (24 * |A| * T ^ 2 / ε)
    refine ⟨N0 + 1, fun N hN => ?_⟩
    have hN1 : (1 : ℝ) ≤ N := by exact_mod_cast (by omega : 1 ≤ N)
    have hNN : (N0 : ℝ) ≤ N := by exact_mod_cast (by omega : N0 ≤ N)
    have h1 : 24 * |A| * T ^ 2 ≤ ε * N := by
      rw [div_le_iff₀ hε] at hN0
      nlinarith
    have h2 : ((N : ℝ) + 1) * (4 * (A * (T / N) ^ 2)) ≤ (N + N) * (4 * (|A| * (T / N) ^ 2)) := by
      have h3 : 4 * (A * (T / N) ^ 2) ≤ 4 * (|A| * (T / N) ^ 2) := by
        have := mul_le_mul_of_nonneg_right (le_abs_self A) (sq_nonneg (T / (N : ℝ)))
        linarith
      have h4 : (0 : ℝ) ≤ 4 * (|A| * (T / N) ^ 2) := by positivity
      nlinarith
    refine h2.trans ?_
    rw [div_pow, show ((N : ℝ) + N) * (4 * (|A| * (T ^ 2 / N ^ 2))) = 8 * |A| * T ^ 2 / N by field_simp; ring,
      div_le_div_iff₀ (by positivity) (by norm_num)]
    linarith

/-- C103: order one in probability of `sde_solver` with EKF0, for a drift with two continuous derivatives that need be neither bounded nor
globally Lipschitz, as long as the solution exists up to the time `T`. For every level `ε` the error at the time `n δ` exceeds `A δ`
with probability at most `ε`, with one constant `A` for all numbers of filter steps and all sufficiently large numbers of
intervals. -/
theorem C103_ekf0 {la : LinAlg} (hla : la.Correct) (hB : IsBrownianVec B P) (hd : 0 < d) {f : Field d}
    (hf : ContDiff ℝ 2 (Function.uncurry f)) {T : ℝ} (hT : 0 < T) (S : Mat d m) (x0 : Vec d)
    {X : Ω → ℝ → Vec d} (hX : ∀ᵐ ω ∂P, SolvesAdditive f S (fun t j => B j t.toNNReal ω) x0 T (X ω)) {ε : ℝ} (hε : 0 < ε) :
    ∃ (A : ℝ) (N0 : ℕ), ∀ N ≥ N0, ∀ M : ℕ, 0 < M → ∀ σ : ℝ, σ ≠ 0 → ∀ (sqrt : Bool) (rng : Rng) (R : Ω → Rng) (key : Key) {C : Type}
      (bm : BmApprox C m) (a b : C → Vec m), (∀ t dt c, bm.eval t dt c = Foster.evalParabola t dt (a c) (b c)) →
      ∀ odeInt : OdeInt (Vec d) d, (∀ k x vf, Ekf.ekf0 la rng none x vf (T / N / M) M sqrt
        (some ⟨_, IOUP.transition 0 σ 1 (T / N / M) d⟩) none = .ok (odeInt k x vf (T / N))) →
      (∀ᵐ ω ∂P, ∀ k < N, ∀ c, (sdeSolver (R ω) key f (fun _ _ => S) x0 bm (T / N) N odeInt).2.2[k]? = some c →
        SameEndAndArea (fun t => bm.eval t (T / N) c) (fun t j => B j t.toNNReal ω) (k * (T / N)) (T / N)) →
      ∀ n ≤ N, ∃ y : Ω → Vec d, (∀ ω, (sdeSolver (R ω) key f (fun _ _ => S) x0 bm (T / N) N odeInt).2.1[n]? = some (y ω)) ∧
        P {ω | A * (T / N) < ‖X ω (n * (T / N)) - y ω‖} ≤ ENNReal.ofReal ε := by
  haveI : IsProbabilityMeasure P := hB.isProb
  obtain ⟨s, hs, hS⟩ := exists_mulVec_bound S
  obtain ⟨ρ, g, Dg, L, K, F, X', hL, hF, hg, hgt, hgF, heq, hX', N1, hN1⟩ := exists_good hB hf hT S x0 hX (ε := ε / 3)
    (κ := 1 / (40 * (s + 1))) (by positivity) (by positivity)
  obtain ⟨A, hA⟩ := C92_ekf0_strong hla hB hd hT hg hgt S x0 hX'
  obtain ⟨A', hA', hAA, N2, hN2⟩ := exists_prob_consts hε hT A
  obtain ⟨N3, hN3⟩ := exists_nat_ge (4 * F * T)
  refine ⟨A', N1 + N2 + N3 + 1, ?_⟩
  intro N hN M hM σ hσ sqrt rng R key C bm a b hbm odeInt hode hm n hn
  have hN0 : 0 < N := by omega
  have hN' : (0 : ℝ) < N := by exact_mod_cast hN0
  have hM' : (0 : ℝ) < M := by exact_mod_cast hM
  obtain ⟨G0, hG0, hG1⟩ := hN1 N (by omega)
  have hsmall := hN2 N (by omega)
  have hA1 := hA N hN0 M hM σ hσ sqrt rng R key bm a b hbm odeInt hode (by
    filter_upwards [hm] with ω hω k hk c hc
    refine hω k hk c ?_
    rw [sdeSolver_coeffs] at hc ⊢
    exact hc)
  obtain ⟨δ, hδdef⟩ : ∃ δ, δ = T / N := ⟨_, rfl⟩
  rw [← hδdef] at hode hm hA1 hG1 hsmall ⊢
  have hδ : 0 < δ := by rw [hδdef]; positivity
  have hNδ : (N : ℝ) * δ = T := by rw [hδdef]; field_simp
  have hδF : δ * F ≤ 1 / 4 := by
    have h1 : 4 * F * T ≤ N := hN3.trans (by exact_mod_cast (by omega : N3 ≤ N))
    rw [← hNδ] at h1
    have h2 : 4 * F * δ ≤ 1 := by
      by_contra hcon
      push Not at hcon
      nlinarith
    linarith
  have hkδ : ∀ k < N, (k : ℝ) * δ + δ ≤ T := fun k hk => by
    have : ((k + 1 : ℕ) : ℝ) * δ ≤ N * δ := mul_le_mul_of_nonneg_right (by exact_mod_cast hk) hδ.le
    rw [hNδ] at this
    push_cast at this
    linarith
  have hint : ∀ k x vf, odeInt k x vf δ = (trapScheme vf (δ / M) x M).1 := fun k x vf =>
    Except.ok.inj ((hode k x vf).symm.trans (C43_trapezoidal hla rng hd vf hσ (by positivity) x M sqrt))
  have hfield : ∀ (f : Field d) (c : C) (a0 : ℝ), intervalField f (fun _ _ => S) bm δ c a0 = additiveField f S a0 δ (a c) (b c) :=
    fun f c a0 => by
      funext z t
      simp only [intervalField, additiveField]
      congr 2
      congr 1
      funext s
      exact hbm s δ c
  choose y hy1 hy0 hys using fun ω => sdeSolver_states (R ω) key f (fun _ _ => S) x0 bm δ N odeInt
  choose y' hy1' hy0' hys' using fun ω => sdeSolver_states (R ω) key g (fun _ _ => S) x0 bm δ N odeInt
  refine ⟨fun ω => y ω n, fun ω => hy1 ω n hn, ?_⟩
  have hmn : P {ω | ∀ k < N, ∀ c, (sdeSolver (R ω) key f (fun _ _ => S) x0 bm δ N odeInt).2.2[k]? = some c →
      SameEndAndArea (fun t => bm.eval t δ c) (fun t j => B j t.toNNReal ω) (k * δ) δ}ᶜ = 0 := mem_ae_iff.mp hm
  have hA2 : ∀ k ≤ N, Integrable (fun ω => ‖X' ω (k * δ) - y' ω k‖ ^ 2) P ∧ ∫ ω, ‖X' ω (k * δ) - y' ω k‖ ^ 2 ∂P ≤ A * δ ^ 2 :=
    fun k hk => by
      obtain ⟨v, hv1, hv2⟩ := hA1 k hk
      have e : v = fun ω => y' ω k := funext fun ω => Option.some.inj ((hv1 ω).symm.trans (hy1' ω k hk))
      rw [e] at hv2
      exact hv2
  refine prob_of_localised (x := fun k ω => X ω (k * δ)) (x' := fun k ω => X' ω (k * δ)) (y := fun k ω => y ω k) (y' := fun k ω => y' ω k)
    (N := N) (G := G0 ∩ {ω | ∀ k < N, ∀ c, (sdeSolver (R ω) key f (fun _ _ => S) x0 bm δ N odeInt).2.2[k]? = some c →
      SameEndAndArea (fun t => bm.eval t δ c) (fun t j => B j t.toNNReal ω) (k * δ) δ}) hδ hε ?_ (fun k hk => (hA2 k hk).1)
    (fun k hk => (hA2 k hk).2) hsmall ?_ hA' hAA hn
  · rw [compl_inter]
    refine (measure_union_le _ _).trans ?_
    rw [hmn, add_zero]
    exact hG0
  · rintro ω ⟨hω1, hω2⟩ herr
    obtain ⟨hXX, hw⟩ := hG1 ω hω1
    have hgrid : ∀ k ≤ N, (k : ℝ) * δ ∈ Icc 0 T := fun k hk => by
      refine ⟨by positivity, ?_⟩
      rw [← hNδ]
      exact mul_le_mul_of_nonneg_right (by exact_mod_cast hk) hδ.le
    have hyb : ∀ k ≤ N, ‖y' ω k‖ ≤ ρ + 1 / 2 := fun k hk => by
      have h1 := herr k hk
      obtain ⟨h2, h3⟩ := hXX _ (hgrid k hk)
      rw [h2] at h3
      have : y' ω k = X' ω (k * δ) - (X' ω (k * δ) - y' ω k) := by abel
      rw [this]
      refine (norm_sub_le _ _).trans ?_
      linarith
    have hyy : ∀ k ≤ N, y ω k = y' ω k := by
      intro k
      induction k with
      | zero => exact fun _ => by rw [hy0, hy0']
      | succ k ih =>
        intro hk
        have hkN : k < N := by omega
        obtain ⟨c, hc1, hc2⟩ := hys ω k hkN
        obtain ⟨c', hc1', hc2'⟩ := hys' ω k hkN
        have hcc : c = c' := by
          have h1 := hc1
          rw [sdeSolver_coeffs] at h1 hc1'
          exact Option.some.inj (h1.symm.trans hc1')
        subst hcc
        have hmk := hω2 k hkN c hc1
        simp only [hbm] at hmk
        have hsl := matched_slope hδ hmk (κ := 1 / (40 * (s + 1))) fun t ht j => hw k hkN t ht j
        have hMh : (M : ℝ) * (δ / M) = δ := by field_simp
        have hsκ : s * (10 * (1 / (40 * (s + 1))) / δ) * δ ≤ 1 / 4 := by
          have h1 : s * (10 * (1 / (40 * (s + 1))) / δ) * δ = s / (s + 1) * (1 / 4) := by field_simp; ring
          rw [h1]
          have h2 : s / (s + 1) ≤ 1 := (div_le_one (by positivity)).mpr (by linarith)
          linarith
        have hjac : ∀ t ∈ Icc 0 δ, ‖S *ᵥ jacT (fun s => Foster.evalParabola s δ (a c) (b c)) t‖ ≤ s * (10 * (1 / (40 * (s + 1))) / δ) := by
          intro t ht
          refine (hS _).trans (mul_le_mul_of_nonneg_left ?_ hs)
          rw [jacT_evalParabola, pi_norm_le_iff_of_nonneg (by positivity)]
          exact fun j => hsl t ht j
        have hcg := (trapScheme_congr (vf := additiveField g S (k * δ) δ (a c) (b c)) (vf' := additiveField f S (k * δ) δ (a c) (b c))
          (y := y' ω k) (h := δ / M) (V := F + s * (10 * (1 / (40 * (s + 1))) / δ)) (ρ := 1 / 2) (M := M) (by positivity)
          (fun x t ht => by
            rw [hMh] at ht
            exact (norm_add_le _ _).trans (add_le_add (hgF _ _) (hjac t ht)))
          (by
            rw [hMh, mul_add, mul_comm δ (s * _)]
            linarith)
          (fun x hx t ht => by
            rw [hMh] at ht
            simp only [additiveField]
            rw [heq x _ (t + k * δ) ⟨by have := ht.1; positivity, by linarith [ht.2, hkδ k hkN]⟩]
            have : x = (x - y' ω k) + y' ω k := by abel
            rw [this]
            refine (norm_add_le _ _).trans ?_
            linarith [hyb k hkN.le]) M le_rfl).1
        rw [hc2, hc2', hint, hint, hfield, hfield, ih hkN.le, hcg]
    exact fun k hk => ⟨(hXX _ (hgrid k hk)).1, hyy k hk⟩

/-- C103: order one in probability of Euler–Maruyama fed with the increments of the Brownian motion, for the same drifts. -/
theorem C103_em (hB : IsBrownianVec B P) {f : Field d} (hf : ContDiff ℝ 2 (Function.uncurry f)) {T : ℝ} (hT : 0 < T) (S : Mat d m)
    (x0 : Vec d) {X : Ω → ℝ → Vec d} (hX : ∀ᵐ ω ∂P, SolvesAdditive f S (fun t j => B j t.toNNReal ω) x0 T (X ω)) {ε : ℝ} (hε : 0 < ε) :
    ∃ (A : ℝ) (N0 : ℕ), ∀ N ≥ N0, ∀ n ≤ N, ∃ y : Ω → Vec d, (∀ ω, ∃ ts xs, emPathwise ((List.range N).map fun k j =>
        B j ((k + 1 : ℕ) * (T / N)).toNNReal ω - B j (k * (T / N)).toNNReal ω) x0 f (fun _ _ => S) (T / N) N = .ok (ts, xs) ∧
          xs[n]? = some (y ω)) ∧ P {ω | A * (T / N) < ‖X ω (n * (T / N)) - y ω‖} ≤ ENNReal.ofReal ε := by
  haveI : IsProbabilityMeasure P := hB.isProb
  obtain ⟨ρ, g, Dg, L, K, F, X', hL, hF, hg, hgt, hgF, heq, hX', N1, hN1⟩ := exists_good hB hf hT S x0 hX (ε := ε / 3)
    (κ := 1) (by positivity) (by positivity)
  obtain ⟨A, hA⟩ := C93_em_strong hB hT hg hgt S x0 hX'
  obtain ⟨A', hA', hAA, N2, hN2⟩ := exists_prob_consts hε hT A
  refine ⟨A', N1 + N2 + 1, ?_⟩
  intro N hN n hn
  have hN0 : 0 < N := by omega
  have hN' : (0 : ℝ) < N := by exact_mod_cast hN0
  obtain ⟨G0, hG0, hG1⟩ := hN1 N (by omega)
  have hsmall := hN2 N (by omega)
  have hA1 := hA N hN0
  obtain ⟨δ, hδdef⟩ : ∃ δ, δ = T / N := ⟨_, rfl⟩
  rw [← hδdef] at hA1 hG1 hsmall ⊢
  have hδ : 0 < δ := by rw [hδdef]; positivity
  have hNδ : (N : ℝ) * δ = T := by rw [hδdef]; field_simp
  choose ts y h1 h2 h3 using fun ω => emPathwise_states
    (fun k j => B j ((k + 1 : ℕ) * δ).toNNReal ω - B j (k * δ).toNNReal ω) x0 f (fun _ _ => S) δ N
  choose ts' y' h1' h2' h3' using fun ω => emPathwise_states
    (fun k j => B j ((k + 1 : ℕ) * δ).toNNReal ω - B j (k * δ).toNNReal ω) x0 g (fun _ _ => S) δ N
  refine ⟨fun ω => y ω n, fun ω => ⟨_, _, h1 ω, by rw [List.getElem?_map, List.getElem?_range (by omega)]; rfl⟩, ?_⟩
  have hA2 : ∀ k ≤ N, Integrable (fun ω => ‖X' ω (k * δ) - y' ω k‖ ^ 2) P ∧ ∫ ω, ‖X' ω (k * δ) - y' ω k‖ ^ 2 ∂P ≤ A * δ ^ 2 :=
    fun k hk => by
      obtain ⟨v, hv1, hv2⟩ := hA1 k hk
      have e : v = fun ω => y' ω k := funext fun ω => by
        obtain ⟨ts2, xs2, g1, g2⟩ := hv1 ω
        have : xs2 = (List.range (N + 1)).map (y' ω) := (Prod.ext_iff.mp (Except.ok.inj (g1.symm.trans (h1' ω)))).2
        rw [this, List.getElem?_map, List.getElem?_range (by omega)] at g2
        exact (Option.some.inj g2).symm
      rw [e] at hv2
      exact hv2
  refine prob_of_localised (x := fun k ω => X ω (k * δ)) (x' := fun k ω => X' ω (k * δ)) (y := fun k ω => y ω k) (y' := fun k ω => y' ω k)
    (N := N) (G := G0) hδ hε hG0 (fun k hk => (hA2 k hk).1) (fun k hk => (hA2 k hk).2) hsmall ?_ hA' hAA hn
  intro ω hω1 herr
  obtain ⟨hXX, -⟩ := hG1 ω hω1
  have hgrid : ∀ k ≤ N, (k : ℝ) * δ ∈ Icc 0 T := fun k hk => by
    refine ⟨by positivity, ?_⟩
    rw [← hNδ]
    exact mul_le_mul_of_nonneg_right (by exact_mod_cast hk) hδ.le
  have hyb : ∀ k ≤ N, ‖y' ω k‖ ≤ ρ + 1 / 2 := fun k hk => by
    have h1 := herr k hk
    obtain ⟨h2, h3⟩ := hXX _ (hgrid k hk)
    rw [h2] at h3
    have : y' ω k = X' ω (k * δ) - (X' ω (k * δ) - y' ω k) := by abel
    rw [this]
    refine (norm_sub_le _ _).trans ?_
    linarith
  have hyy : ∀ k ≤ N, y ω k = y' ω k := by
    intro k
    induction k with
    | zero => exact fun _ => by rw [h2, h2']
    | succ k ih =>
      intro hk
      have hkN : k < N := by omega
      rw [h3 ω k hkN, h3' ω k hkN, ih hkN.le, heq _ ((hyb k hkN.le).trans (by linarith)) _ (hgrid k hkN.le)]
  exact fun k hk => ⟨(hXX _ (hgrid k hk)).1, hyy k hk⟩

end Verif
