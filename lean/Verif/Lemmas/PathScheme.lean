import Verif.Lemmas.SsmProb

/-! One-step schemes with additive noise whose steps have small remainders converge in probability: the paths are compared one by one. -/

namespace Verif

open Matrix Spec Jnp Set MeasureTheory ProbabilityTheory Filter
open scoped NNReal ENNReal

variable {d m : ℕ}

/-- A scheme close to Euler-Maruyama follows a solution that stays in a ball, along a path that moves little. -/
theorem pathScheme_close {f g : Field d} {S : Mat d m} {w : ℝ → Vec m} {x0 : Vec d} {x : ℝ → Vec d} {T L F R s κ τ : ℝ} {N : ℕ} (hN : 0 < N)
    (hT : 0 < T) (hL : 0 ≤ L) (hF : 0 ≤ F) (hs : 0 ≤ s) (hκ : 0 ≤ κ) (hτ : 0 ≤ τ) (hgc : Continuous (Function.uncurry g))
    (hx : SolvesAdditive f S w x0 T x) (hxR : ∀ t ∈ Icc 0 T, ‖x t‖ ≤ R) (hlip : ∀ x y, ∀ t ∈ Icc 0 T, ‖g x t - g y t‖ ≤ L * ‖x - y‖)
    (htl : TimeLipschitz g T L) (hgF : ∀ x t, ‖g x t‖ ≤ F) (heq : ∀ x, ‖x‖ ≤ R + 1 → ∀ t ∈ Icc 0 T, g x t = f x t)
    (hS : ∀ v, ‖S *ᵥ v‖ ≤ s * ‖v‖) (hw : ∀ k < N, ∀ t ∈ Icc 0 (T / N), ‖w (k * (T / N) + t) - w (k * (T / N))‖ ≤ κ) {Y : ℕ → Vec d}
    (hY0 : Y 0 = x0) (hY : ∀ k < N, ‖Y k‖ ≤ R + 1 →
      ‖Y (k + 1) - (Y k + (T / N) • f (Y k) (k * (T / N)) + S *ᵥ (w ((k + 1 : ℕ) * (T / N)) - w (k * (T / N))))‖ ≤ T / N * τ)
    (he : T * (L * (T / N * F + s * κ) + L * (1 + R) * (T / N) + τ) * Real.exp (L * T) ≤ 1) :
    ∀ n ≤ N, ‖x (n * (T / N)) - Y n‖ ≤ T * (L * (T / N * F + s * κ) + L * (1 + R) * (T / N) + τ) * Real.exp (L * T) := by
  have hN' : (0 : ℝ) < N := by exact_mod_cast hN
  obtain ⟨δ, hδ⟩ : ∃ δ, δ = T / N := ⟨_, rfl⟩
  rw [← hδ] at hw hY he ⊢
  have hδ0 : 0 < δ := by rw [hδ]; positivity
  have hNδ : (N : ℝ) * δ = T := by rw [hδ]; field_simp
  have hR : 0 ≤ R := (norm_nonneg _).trans (hxR 0 ⟨le_rfl, hT.le⟩)
  obtain ⟨A, hA⟩ : ∃ A, A = L * (δ * F + s * κ) + L * (1 + R) * δ + τ := ⟨_, rfl⟩
  have hA0 : 0 ≤ A := by rw [hA]; positivity
  rw [← hA] at he ⊢
  have hxg : SolvesAdditive g S w x0 T x := hx.congr_field fun t ht => heq _ ((hxR t ht).trans (by linarith)) t ht
  have hle : ∀ n : ℕ, n ≤ N → (n : ℝ) * δ * A * Real.exp (L * (n * δ)) ≤ T * A * Real.exp (L * T) := fun n hn => by
    have h1 : (n : ℝ) * δ ≤ T := by rw [← hNδ]; gcongr
    have h2 : Real.exp (L * (n * δ)) ≤ Real.exp (L * T) := Real.exp_le_exp.mpr (by gcongr)
    gcongr
  have main : ∀ n ≤ N, ‖x (n * δ) - Y n‖ ≤ n * δ * A * Real.exp (L * (n * δ)) := by
    intro n
    induction n with
    | zero =>
      intro _
      have h0 := hx.eq 0 ⟨le_rfl, hT.le⟩
      simp only [intervalIntegral.integral_same, add_zero, sub_self, mulVec_zero] at h0
      simp [h0, hY0]
    | succ n ih =>
      intro hn
      have ih' := ih (by omega)
      have hnT : ((n : ℝ) + 1) * δ ≤ T := by
        rw [← hNδ]
        exact mul_le_mul_of_nonneg_right (by exact_mod_cast hn) hδ0.le
      have ha : (n : ℝ) * δ ∈ Icc 0 T := ⟨by positivity, by linarith⟩
      have hE1 : ‖x (n * δ) - Y n‖ ≤ 1 := ih'.trans ((hle n (by omega)).trans he)
      have hYR : ‖Y n‖ ≤ R + 1 := by
        have h1 := norm_sub_norm_le (Y n) (x (n * δ))
        rw [norm_sub_rev] at h1
        linarith [hxR _ ha]
      have hstep := hY n (by omega) hYR
      rw [← heq _ hYR _ ha] at hstep
      have hin : ∀ t ∈ Icc (0 : ℝ) δ, (n : ℝ) * δ + t ∈ Icc 0 T := fun t ht => ⟨by linarith [ha.1, ht.1], by linarith [ht.2]⟩
      have hres : ∀ t ∈ Icc (0 : ℝ) δ, _ := fun t ht => hxg.restart hgc (a := n * δ) (δ := δ) ha.1 (by linarith) ht
      -- the solution moves little
      have hmove : ∀ t ∈ Icc (0 : ℝ) δ, ‖x (n * δ + t) - x (n * δ)‖ ≤ δ * F + s * κ := fun t ht => by
        rw [hres t ht, add_assoc, add_sub_cancel_left]
        refine (norm_add_le _ _).trans (add_le_add ?_ ((hS _).trans (mul_le_mul_of_nonneg_left (hw n (by omega) t ht) hs)))
        have h1 := intervalIntegral.norm_integral_le_of_norm_le_const (a := 0) (b := t) (C := F)
          (f := fun u => g (x (n * δ + u)) (u + n * δ)) fun u _ => hgF _ _
        rw [sub_zero, abs_of_nonneg ht.1] at h1
        refine h1.trans ?_
        rw [mul_comm]
        exact mul_le_mul_of_nonneg_right ht.2 hF
      have hint : ‖(∫ u in (0 : ℝ)..δ, g (x (n * δ + u)) (u + n * δ)) - δ • g (Y n) (n * δ)‖ ≤
          δ * (L * ‖x (n * δ) - Y n‖ + L * (δ * F + s * κ) + L * (1 + R) * δ) := by
        have hc : IntervalIntegrable (fun u => g (x (n * δ + u)) (u + n * δ)) volume 0 δ := by
          refine ContinuousOn.intervalIntegrable ?_
          rw [uIcc_of_le hδ0.le]
          have h2 : ContinuousOn (fun u : ℝ => (x (n * δ + u), u + n * δ)) (Icc 0 δ) :=
            (hx.cont.comp (by fun_prop) fun u hu => hin u hu).prodMk (by fun_prop)
          exact hgc.comp_continuousOn h2
        have e : δ • g (Y n) (n * δ) = ∫ _ in (0 : ℝ)..δ, g (Y n) (n * δ) := by simp
        rw [e, ← intervalIntegral.integral_sub hc intervalIntegrable_const]
        have h1 := intervalIntegral.norm_integral_le_of_norm_le_const (a := 0) (b := δ)
          (C := L * ‖x (n * δ) - Y n‖ + L * (δ * F + s * κ) + L * (1 + R) * δ)
          (f := fun u => g (x (n * δ + u)) (u + n * δ) - g (Y n) (n * δ)) fun u hu => by
            rw [uIoc_of_le hδ0.le] at hu
            have hu' : u ∈ Icc (0 : ℝ) δ := ⟨hu.1.le, hu.2⟩
            have hm := hin u hu'
            have h2 : ‖g (x (n * δ + u)) (u + n * δ) - g (x (n * δ + u)) (n * δ)‖ ≤ L * (1 + R) * δ := by
              refine (htl _ _ (by rw [add_comm]; exact hm) _ ha).trans ?_
              rw [add_sub_cancel_right, abs_of_nonneg hu'.1]
              have := hxR _ hm
              have h4 := hu'.1
              have h5 := hu'.2
              gcongr
            have h3 : ‖g (x (n * δ + u)) (n * δ) - g (Y n) (n * δ)‖ ≤ L * ‖x (n * δ) - Y n‖ + L * (δ * F + s * κ) := by
              refine (hlip _ _ _ ha).trans ?_
              rw [← mul_add]
              refine mul_le_mul_of_nonneg_left ?_ hL
              rw [show x (n * δ + u) - Y n = (x (n * δ) - Y n) + (x (n * δ + u) - x (n * δ)) by abel]
              exact (norm_add_le _ _).trans (add_le_add le_rfl (hmove u hu'))
            rw [show g (x (n * δ + u)) (u + n * δ) - g (Y n) (n * δ) = (g (x (n * δ + u)) (n * δ) - g (Y n) (n * δ)) +
              (g (x (n * δ + u)) (u + n * δ) - g (x (n * δ + u)) (n * δ)) by abel]
            exact (norm_add_le _ _).trans (add_le_add h3 h2)
        rw [sub_zero, abs_of_pos hδ0] at h1
        exact h1.trans (le_of_eq (mul_comm _ _))
      have e1 : ((n + 1 : ℕ) : ℝ) * δ = n * δ + δ := by push_cast; ring
      have hend := hres δ ⟨hδ0.le, le_rfl⟩
      rw [e1] at hstep ⊢
      have e2 : x (n * δ + δ) - Y (n + 1) = (x (n * δ) - Y n) +
          ((∫ u in (0 : ℝ)..δ, g (x (n * δ + u)) (u + n * δ)) - δ • g (Y n) (n * δ)) -
          (Y (n + 1) - (Y n + δ • g (Y n) (n * δ) + S *ᵥ (w (n * δ + δ) - w (n * δ)))) := by
        rw [hend]
        abel
      have hb : ‖x (n * δ + δ) - Y (n + 1)‖ ≤ (1 + L * δ) * ‖x (n * δ) - Y n‖ + δ * A := by
        rw [e2]
        refine (norm_sub_le _ _).trans ((add_le_add ((norm_add_le _ _).trans (add_le_add le_rfl hint)) hstep).trans (le_of_eq ?_))
        rw [hA]
        ring
      have hexp1 : 1 + L * δ ≤ Real.exp (L * δ) := by linarith [Real.add_one_le_exp (L * δ)]
      have hexp0 : 1 ≤ Real.exp (L * (n * δ + δ)) := Real.one_le_exp (by positivity)
      calc ‖x (n * δ + δ) - Y (n + 1)‖ ≤ (1 + L * δ) * ‖x (n * δ) - Y n‖ + δ * A := hb
        _ ≤ Real.exp (L * δ) * (n * δ * A * Real.exp (L * (n * δ))) + δ * A * 1 := by
          rw [mul_one]
          gcongr
        _ = n * δ * A * Real.exp (L * (n * δ + δ)) + δ * A * 1 := by
          rw [mul_add L, Real.exp_add]
          ring
        _ ≤ n * δ * A * Real.exp (L * (n * δ + δ)) + δ * A * Real.exp (L * (n * δ + δ)) := by gcongr
        _ = _ := by ring
  exact fun n hn => (main n hn).trans (hle n hn)

variable {Ω : Type*} [MeasurableSpace Ω] {P : Measure Ω} {B : Fin m → ℝ≥0 → Ω → ℝ}

/-- The increments of the noise over the interval `k`. -/
def incs (B : Fin m → ℝ≥0 → Ω → ℝ) (δ : ℝ) (k : ℕ) (ω : Ω) : Vec m := fun j => B j ((k + 1 : ℕ) * δ).toNNReal ω - B j (k * δ).toNNReal ω

/-- A scheme whose step is one of Euler-Maruyama up to a remainder of order `δ (δ + |Δ|)` on bounded sets converges in probability, uniformly
over the grid. -/
theorem scheme_prob (hB : IsBrownianVec B P) {f : Field d} (hf : ContDiff ℝ 2 (Function.uncurry f)) {T : ℝ} (hT : 0 < T) (S : Mat d m)
    (x0 : Vec d) {X : Ω → ℝ → Vec d} (hX : ∀ᵐ ω ∂P, SolvesAdditive f S (fun t j => B j t.toNNReal ω) x0 T (X ω)) {C : ℝ → ℝ} (hC : ∀ ρ, 0 ≤ C ρ)
    {ε η : ℝ} (hε : 0 < ε) (hη : 0 < η) :
    ∃ N0 : ℕ, ∀ N ≥ N0, ∀ Y : ℕ → Ω → Vec d, (∀ ω, Y 0 ω = x0) →
      (∀ ω ρ, ∀ k < N, ‖Y k ω‖ ≤ ρ → ‖incs B (T / N) k ω‖ ≤ 1 →
        ‖Y (k + 1) ω - (Y k ω + (T / N) • f (Y k ω) (k * (T / N)) + S *ᵥ incs B (T / N) k ω)‖ ≤
          C ρ * (T / N * (T / N + ‖incs B (T / N) k ω‖))) →
      P {ω | ∃ n ≤ N, η < ‖X ω (n * (T / N)) - Y n ω‖} ≤ ENNReal.ofReal ε := by
  obtain ⟨s, hs, hS⟩ := exists_mulVec_bound S
  obtain ⟨R, g, Dg, L, K, F, X', hL, hF, hg, hgt, hgF, heq, -, N1, h1⟩ := exists_good hB hf hT S x0 hX (half_pos hε) one_pos
  obtain ⟨E, hE⟩ : ∃ E, E = T * Real.exp (L * T) := ⟨_, rfl⟩
  have hE0 : 0 < E := by rw [hE]; positivity
  obtain ⟨a, ha⟩ : ∃ a, a = min η 1 / (2 * E) := ⟨_, rfl⟩
  have ha0 : 0 < a := by rw [ha]; positivity
  obtain ⟨D, hD⟩ : ∃ D, D = L * s + C (R + 1) + 1 := ⟨_, rfl⟩
  have hD0 : 0 < D := by rw [hD]; linarith [mul_nonneg hL hs, hC (R + 1)]
  obtain ⟨κ, hκ⟩ : ∃ κ, κ = min 1 (a / D) := ⟨_, rfl⟩
  have hκ0 : 0 < κ := by rw [hκ]; positivity
  have hκ1 : κ ≤ 1 := by rw [hκ]; exact min_le_left _ _
  have hκD : D * κ ≤ a := by
    rw [hκ, mul_comm]
    exact (mul_le_mul_of_nonneg_right (min_le_right _ _) hD0.le).trans (le_of_eq (div_mul_cancel₀ _ hD0.ne'))
  obtain ⟨_, _, _, _, _, _, _, _, _, _, _, _, _, _, N2, h2⟩ := exists_good hB hf hT S x0 hX (half_pos hε) hκ0
  obtain ⟨N3, h3⟩ := exists_small_step (L * F + L * (1 + R) + C (R + 1)) hT ha0
  refine ⟨N1 + N2 + N3 + 1, fun N hN Y hY0 hY => ?_⟩
  have hN0 : 0 < N := by omega
  have hN' : (0 : ℝ) < N := by exact_mod_cast hN0
  obtain ⟨G1, hG1, hg1⟩ := h1 N (by omega)
  obtain ⟨G2, hG2, hg2⟩ := h2 N (by omega)
  have h3' := h3 N (by omega) hN0
  have hsub : {ω | ∃ n ≤ N, η < ‖X ω (n * (T / N)) - Y n ω‖} ⊆ (G1ᶜ ∪ G2ᶜ) ∪ {ω | ¬ SolvesAdditive f S (fun t j => B j t.toNNReal ω) x0 T (X ω)} := by
    rintro ω ⟨n, hn, hω⟩
    by_contra hcon
    simp only [mem_union, mem_compl_iff, mem_setOf_eq, not_or, not_not] at hcon
    obtain ⟨⟨c1, c2⟩, c3⟩ := hcon
    obtain ⟨b1, -⟩ := hg1 ω c1
    obtain ⟨-, b2⟩ := hg2 ω c2
    obtain ⟨τ, hτ⟩ : ∃ τ, τ = C (R + 1) * (T / N + κ) := ⟨_, rfl⟩
    have hCR := hC (R + 1)
    have hτ0 : 0 ≤ τ := by rw [hτ]; positivity
    have hR0 : 0 ≤ R := (norm_nonneg _).trans (b1 0 ⟨le_rfl, hT.le⟩).2
    have hinc : ∀ k < N, ‖incs B (T / N) k ω‖ ≤ κ := fun k hk => (pi_norm_le_iff_of_nonneg hκ0.le).mpr fun j => by
      have := b2 k hk (T / N) ⟨by positivity, le_rfl⟩ j
      rw [Real.norm_eq_abs, incs, show ((k + 1 : ℕ) : ℝ) * (T / N) = k * (T / N) + T / N by push_cast; ring]
      exact this
    have hA : T * (L * (T / N * F + s * κ) + L * (1 + R) * (T / N) + τ) * Real.exp (L * T) ≤ min η 1 := by
      have e1 : L * (T / N * F + s * κ) + L * (1 + R) * (T / N) + τ =
          T / N * (L * F + L * (1 + R) + C (R + 1)) + (L * s + C (R + 1)) * κ := by rw [hτ]; ring
      have e2 : (L * s + C (R + 1)) * κ ≤ D * κ := by
        rw [hD]
        exact mul_le_mul_of_nonneg_right (by linarith) hκ0.le
      calc _ = E * (L * (T / N * F + s * κ) + L * (1 + R) * (T / N) + τ) := by rw [hE]; ring
        _ ≤ E * (a + a) := by
          rw [e1]
          gcongr
          exact e2.trans hκD
        _ = min η 1 := by
          rw [ha]
          field_simp
          ring
    have := pathScheme_close hN0 hT hL hF hs hκ0.le hτ0 hg.cont c3 (fun t ht => (b1 t ht).2) hg.lip hgt hgF heq hS
      (fun k hk t ht => (pi_norm_le_iff_of_nonneg hκ0.le).mpr fun j => b2 k hk t ht j) (Y := fun k => Y k ω) (hY0 ω) (fun k hk hy => by
        have h4 := hY ω (R + 1) k hk hy ((hinc k hk).trans hκ1)
        refine h4.trans ?_
        rw [hτ]
        calc C (R + 1) * (T / N * (T / N + ‖incs B (T / N) k ω‖)) ≤ C (R + 1) * (T / N * (T / N + κ)) := by
              gcongr
              exact hinc k hk
          _ = _ := by ring) (hA.trans (min_le_right _ _)) n hn
    exact absurd (this.trans (hA.trans (min_le_left _ _))) (not_le.mpr hω)
  refine (measure_mono hsub).trans ((measure_union_le _ _).trans ?_)
  have h0 : P {ω | ¬ SolvesAdditive f S (fun t j => B j t.toNNReal ω) x0 T (X ω)} = 0 := hX
  rw [h0, add_zero]
  refine (measure_union_le _ _).trans ((add_le_add hG1 hG2).trans ?_)
  rw [← ENNReal.ofReal_add (by positivity) (by positivity), add_halves]

end Verif
