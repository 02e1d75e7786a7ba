import Verif.Lemmas.Order15

/-! Strong order 1.5 of the Itô-Taylor scheme for additive noise: the recursion for the mean square error. -/

namespace Verif

open Matrix Spec Jnp Set MeasureTheory ProbabilityTheory Filter
open scoped NNReal Topology

variable {d m : ℕ} {Ω : Type*} [MeasurableSpace Ω] {P : Measure Ω} {B : Fin m → ℝ≥0 → Ω → ℝ}

theorem quad_sq_le {δ W : ℝ} (hδ : 0 < δ) : (δ * W ^ 2 + δ ^ 2) ^ 2 ≤ 2 * δ * W ^ 6 + 4 * δ ^ 4 := by
  have h1 : W ^ 4 * δ ≤ W ^ 6 + δ ^ 3 := by
    nlinarith [mul_nonneg (add_nonneg (sq_nonneg W) hδ.le) (sq_nonneg (W ^ 2 - δ)), mul_nonneg (sq_nonneg W) hδ.le,
      mul_nonneg (mul_nonneg (sq_nonneg W) hδ.le) hδ.le]
  nlinarith [sq_nonneg (δ * W ^ 2 - δ ^ 2), mul_le_mul_of_nonneg_left h1 hδ.le]

theorem matched_area {δ : ℝ} (hδ : 0 < δ) {w : ℝ → Vec m} {a0 : ℝ} {a b : Vec m}
    (h : SameEndAndArea (fun t => Foster.evalParabola t δ a b) w a0 δ) :
    a = w (a0 + δ) - w a0 ∧ δ • ((1 / 2 : ℝ) • a + (1 / Real.sqrt 6) • b) = fun j => ∫ t in (0 : ℝ)..δ, (w (a0 + t) j - w a0 j) := by
  refine ⟨by rw [← h.atEnd]; exact (evalParabola_end hδ.ne' a b).symm, ?_⟩
  funext j
  have h4 := h.area j
  have e : ∫ s in (0 : ℝ)..δ, Foster.evalParabola s δ a b j = δ * (a j / 2 + b j / Real.sqrt 6) :=
    Foster.integral_evalParabola1 δ (a j) (b j) hδ.ne'
  rw [e] at h4
  rw [← h4]
  simp only [Pi.smul_apply, Pi.add_apply, smul_eq_mul]
  ring

set_option maxHeartbeats 1000000 in
/-- The Itô-Taylor scheme with the increments and the integrals of the Brownian motion converges with strong order 1.5 in mean
square. -/
theorem order15_core (hB : IsBrownianVec B P) {b : Vec d → Vec d} {S : Mat d m} {T L K K3 K4 : ℝ} (hT : 0 < T)
    (hb0 : Smooth15 b S L K K3 K4) (x0 : Vec d)
    {X : Ω → ℝ → Vec d} (hX : ∀ᵐ ω ∂P, SolvesAdditive (fun x _ => b x) S (pathOf B ω) x0 T (X ω)) :
    ∃ A : ℝ, 0 ≤ A ∧ ∀ N : ℕ, 0 < N → ∀ (Y : ℕ → Ω → Vec d) (a c : Ω → ℕ → Vec m), (∀ᵐ ω ∂P, Y 0 ω = x0) →
      (∀ᵐ ω ∂P, ∀ k < N, SameEndAndArea (fun t => Foster.evalParabola t (T / N) (a ω k) (c ω k)) (pathOf B ω) (k * (T / N)) (T / N)) →
      (∀ᵐ ω ∂P, ∀ k < N, Y (k + 1) ω = itoTaylorStep b S (T / N) (Y k ω) (a ω k) ((T / N) • ((1 / 2 : ℝ) • a ω k + (1 / Real.sqrt 6) • c ω k))) →
      ∀ n ≤ N, Integrable (fun ω => ‖X ω (n * (T / N)) - Y n ω‖ ^ 2) P ∧
        ∫ ω, ‖X ω (n * (T / N)) - Y n ω‖ ^ 2 ∂P ≤ A * (T / N) ^ 3 := by
  have hP := hB.isProb
  have hb := hb0.abs
  have hL := hb.L_nonneg
  have hK := hb.K_nonneg
  have hK3 := abs_nonneg K3
  have hK4 := abs_nonneg K4
  have hf := hb.field T
  obtain ⟨s, hs, hS⟩ := exists_mulVec_bound S
  obtain ⟨α, β, hα, hβ, hαβ⟩ := field_le hT.le hf hL hs hS x0
  obtain ⟨G0, hG0i, hG00, hG0e, hG0⟩ := brownian_sup6_vec hB.brownian 0 T.toNNReal
  have hcT : (T.toNNReal : ℝ) = T := Real.coe_toNNReal _ hT.le
  have hc := supConst6_nonneg
  obtain ⟨κ, hκ⟩ : ∃ κ, κ = (m : ℝ) * supConst6 := ⟨_, rfl⟩
  have hκn : 0 ≤ κ := by rw [hκ]; positivity
  obtain ⟨c5, hc5⟩ : ∃ c5, c5 = 1 + α + β := ⟨_, rfl⟩
  have hc50 : 0 ≤ c5 := by rw [hc5]; positivity
  obtain ⟨C3, hC3⟩ : ∃ C3, C3 = 2 + d * (L + T * |K4|) ^ 2 * (1 + 3 * T) := ⟨_, rfl⟩
  have hC30 : 0 ≤ C3 := by rw [hC3]; positivity
  obtain ⟨C4, hC4⟩ : ∃ C4, C4 = 6 * (d * ((m : ℝ) ^ 2 * (K * s ^ 2)) ^ 2) := ⟨_, rfl⟩
  have hC40 : 0 ≤ C4 := by rw [hC4]; positivity
  obtain ⟨C5, hC5⟩ : ∃ C5, C5 = 6 * (d * (K * s) ^ 2 * 2) := ⟨_, rfl⟩
  have hC50 : 0 ≤ C5 := by rw [hC5]; positivity
  obtain ⟨C6, hC6⟩ : ∃ C6, C6 = (3 * T + 1) * d *
    (2 * (L ^ 2 + K) ^ 2 + (2 * (L ^ 2 + K) ^ 2 + 2 * |K3| ^ 2) * (32 * (1 + T ^ 3 + s ^ 6))) := ⟨_, rfl⟩
  have hC60 : 0 ≤ C6 := by rw [hC6]; positivity
  obtain ⟨C7, hC7⟩ : ∃ C7, C7 = C3 + C5 * (T ^ 2 * (m * 2)) := ⟨_, rfl⟩
  have hC70 : 0 ≤ C7 := by rw [hC7]; positivity
  obtain ⟨A5, hA5⟩ : ∃ A5, A5 = C4 * (2 * κ + 4) + C6 * (1 + 32 * c5 ^ 6 * (1 + κ * T ^ 3) + κ) := ⟨_, rfl⟩
  have hA50 : 0 ≤ A5 := by rw [hA5]; positivity
  refine ⟨Real.exp (C7 * T) * (T * A5), by positivity, ?_⟩
  intro N hN Y a c hY0 hm hY
  have hN' : (0 : ℝ) < N := by exact_mod_cast hN
  obtain ⟨δ, hδdef⟩ : ∃ δ, δ = T / N := ⟨_, rfl⟩
  rw [← hδdef] at hm hY ⊢
  have hδ : 0 < δ := by rw [hδdef]; positivity
  have hNδ : (N : ℝ) * δ = T := by rw [hδdef]; field_simp
  have hδT : δ ≤ T := by rw [hδdef]; exact div_le_self hT.le (by exact_mod_cast hN)
  have hcδ : (δ.toNNReal : ℝ) = δ := Real.coe_toNNReal _ hδ.le
  have hkT : ∀ k ≤ N, (k : ℝ) * δ ≤ T := fun k hk => by
    rw [← hNδ]; exact mul_le_mul_of_nonneg_right (by exact_mod_cast hk) hδ.le
  -- versions
  have hXv : ∀ k, ∃ V : Ω → Vec d, k ≤ N → Measurable[pastAlg B (k * δ).toNNReal] V ∧ (fun ω => X ω (k * δ)) =ᵐ[P] V := fun k => by
    by_cases hk : k ≤ N
    · obtain ⟨V, hV⟩ := solution_adapted hB hf.cont hL hf.lip hT hX (t := k * δ) (by positivity) (hkT k hk)
      exact ⟨V, fun _ => hV⟩
    · exact ⟨fun _ => 0, fun h => absurd h hk⟩
  have hΦm : ∀ _ : ℕ, Measurable fun p : Vec d × Vec m × Vec m =>
      itoTaylorStep b S δ p.1 p.2.1 (δ • ((1 / 2 : ℝ) • p.2.1 + (1 / Real.sqrt 6) • p.2.2)) := fun _ => by
    have h1 : Continuous fun p : Vec d × Vec m × Vec m => (p.1, p.2.1, δ • ((1 / 2 : ℝ) • p.2.1 + (1 / Real.sqrt 6) • p.2.2)) := by fun_prop
    exact ((itoTaylorStep_continuous hb δ).comp h1).measurable
  have hYv : ∀ k, ∃ V : Ω → Vec d, k ≤ N → Measurable[pastAlg B (k * δ).toNNReal] V ∧ Y k =ᵐ[P] V := fun k => by
    by_cases hk : k ≤ N
    · obtain ⟨V, hV⟩ := scheme_adapted hB hδ N
        (Φ := fun _ y a c => itoTaylorStep b S δ y a (δ • ((1 / 2 : ℝ) • a + (1 / Real.sqrt 6) • c))) hΦm hY0 hm hY k hk
      exact ⟨V, fun _ => hV⟩
    · exact ⟨fun _ => 0, fun h => absurd h hk⟩
  choose Xv hXv using hXv
  choose Yv hYv using hYv
  obtain ⟨e, he⟩ : ∃ e : ℕ → Ω → Vec d, ∀ k ω, e k ω = Xv k ω - Yv k ω := ⟨_, fun _ _ => rfl⟩
  have hem : ∀ k ≤ N, Measurable[pastAlg B (k * δ).toNNReal] (e k) := fun k hk => by
    have h1 : e k = fun ω => Xv k ω - Yv k ω := funext fun ω => he k ω
    have h2 := (hXv k hk).1
    have h3 := (hYv k hk).1
    rw [h1]
    letI := pastAlg B (k * δ).toNNReal
    exact h2.sub h3
  have heq : ∀ k ≤ N, ∀ᵐ ω ∂P, e k ω = X ω (k * δ) - Y k ω := fun k hk => by
    filter_upwards [(hXv k hk).2, (hYv k hk).2] with ω h1 h2
    rw [he, ← h1, ← h2]
  have hQpast : ∀ k ≤ N, Measurable[pastAlg B (k * δ).toNNReal] (fun ω => e k ω ⬝ᵥ e k ω) := fun k hk => by
    have h1 := hem k hk
    letI := pastAlg B (k * δ).toNNReal
    exact Finset.measurable_fun_sum _ fun i _ => ((measurable_pi_apply i).comp h1).mul ((measurable_pi_apply i).comp h1)
  have hQm : ∀ k ≤ N, AEStronglyMeasurable (fun ω => e k ω ⬝ᵥ e k ω) P := fun k hk =>
    ((hQpast k hk).mono (hB.pastAlg_le _) le_rfl).aestronglyMeasurable
  choose Gk hGki hGk0 hGke hGk using fun k : ℕ => brownian_sup6_vec hB.brownian ((k * δ).toNNReal) δ.toNNReal
  obtain ⟨cc, hcc⟩ : ∃ cc : Fin 2 → ℝ, cc = ![δ * (1 / 2), δ * (1 / Real.sqrt 6)] := ⟨_, rfl⟩
  have hs6 : 1 / Real.sqrt 6 ≤ 1 := by
    rw [div_le_one (by positivity)]
    exact Real.one_le_sqrt.mpr (by norm_num)
  have hc0 : |cc 0| ≤ δ := by
    rw [hcc]
    simp only [cons_val_zero]
    rw [abs_of_nonneg (by positivity)]
    linarith
  have hc1 : |cc 1| ≤ δ := by
    rw [hcc]
    simp only [cons_val_one, cons_val_fin_one]
    rw [abs_of_nonneg (by positivity)]
    exact (mul_le_mul_of_nonneg_left hs6 hδ.le).trans (by linarith)
  obtain ⟨I, hI⟩ : ∃ I : ℕ → Fin m → Fin 2 → Ω → ℝ, ∀ k j s ω, I k j s ω = incArea (fun t => B j t.toNNReal ω) δ k s :=
    ⟨_, fun _ _ _ _ => rfl⟩
  -- the bound on one step
  obtain ⟨M1, hM1⟩ : ∃ M1 : ℕ → Ω → ℝ, ∀ k ω, M1 k ω = e k ω ⬝ᵥ quadTerm (fderiv ℝ (fderiv ℝ b) (Xv k ω)) S (quadNoise (pathOf B ω) (k * δ) δ) :=
    ⟨_, fun _ _ => rfl⟩
  obtain ⟨M2, hM2⟩ : ∃ M2 : ℕ → Ω → ℝ, ∀ k ω, M2 k ω = e k ω ⬝ᵥ (fderiv ℝ b (Xv k ω) - fderiv ℝ b (Yv k ω))
    (S *ᵥ fun j => ∑ s, cc s * I k j s ω) := ⟨_, fun _ _ => rfl⟩
  have hstep : ∀ k < N, ∀ᵐ ω ∂P, e (k + 1) ω ⬝ᵥ e (k + 1) ω ≤ (1 + C3 * δ) * (e k ω ⬝ᵥ e k ω) + 2 * M1 k ω + 2 * M2 k ω +
      C5 * δ ^ 2 * (∑ j, ((e k ω ⬝ᵥ e k ω) * I k j 0 ω ^ 2 + (e k ω ⬝ᵥ e k ω) * I k j 1 ω ^ 2)) +
      (C4 * (2 * δ * Gk k ω + 4 * δ ^ 4) + C6 * δ * (δ ^ 3 * (1 + 32 * c5 ^ 6 * (1 + G0 ω)) + Gk k ω)) := by
    intro k hk
    filter_upwards [hX, hm, hG0, hGk k, ae_all_iff.mpr fun j => (hB.brownian j).cont, hY, heq k hk.le, heq (k + 1) hk, (hXv k hk.le).2,
      (hYv k hk.le).2] with ω hXω hmω hG0ω hGkω hcω hYω he1 he2 hXvω hYvω
    obtain ⟨w, hw⟩ : ∃ w : ℝ → Vec m, w = pathOf B ω := ⟨_, rfl⟩
    rw [← hw] at hXω
    have hmk := hmω k hk
    rw [← hw] at hmk
    have hwc : Continuous w := by rw [hw]; exact continuous_pi fun j => (hcω j).comp continuous_real_toNNReal
    have hWb : ∀ t ∈ Icc 0 δ, ‖w (k * δ + t) - w (k * δ)‖ ≤ Gk k ω ^ (1 / 6 : ℝ) := fun t ht => by
      have h1 := hGkω t.toNNReal (Real.toNNReal_le_toNNReal ht.2)
      rw [← Real.toNNReal_add (by positivity) ht.1] at h1
      rw [hw]
      exact h1
    have hbb : ∀ t ∈ Icc 0 T, ‖w t - w 0‖ ≤ G0 ω ^ (1 / 6 : ℝ) := fun t ht => by
      have h1 := hG0ω t.toNNReal (Real.toNNReal_le_toNNReal ht.2)
      rw [zero_add] at h1
      have h2 : w 0 = fun j => B j 0 ω := by funext j; simp [hw, pathOf]
      rw [h2, hw]
      exact h1
    have hF := hαβ hwc.continuousOn hXω hbb
    obtain ⟨b0, hb0'⟩ : ∃ b0, b0 = G0 ω ^ (1 / 6 : ℝ) := ⟨_, rfl⟩
    rw [← hb0'] at hF hbb
    have hb00 : 0 ≤ b0 := by rw [hb0']; exact Real.rpow_nonneg (hG00 ω) _
    have hk0 : (0 : ℝ) ≤ k * δ := by positivity
    have hkδ : (k : ℝ) * δ + δ ≤ T := by
      have := hkT (k + 1) hk
      push_cast at this
      linarith
    obtain ⟨hη, hζ⟩ := matched_area hδ hmk
    have h1 := order15_pointwise hb hK3 hK4 hs hS hwc.continuousOn hXω hδ hk0 hkδ hWb hF hη hζ (Y k ω)
    have e3 : ((k + 1 : ℕ) : ℝ) * δ = k * δ + δ := by push_cast; ring
    have hv : δ • ((1 / 2 : ℝ) • a ω k + (1 / Real.sqrt 6) • c ω k) = fun j => ∑ s, cc s * I k j s ω := by
      funext j
      have i1 := sameEndAndArea_coeffs hδ.ne' hmk j 0
      have i2 := sameEndAndArea_coeffs hδ.ne' hmk j 1
      simp only [cons_val_zero, cons_val_one, cons_val_fin_one] at i1 i2
      rw [hw] at i1 i2
      have i1' : a ω k j = I k j 0 ω := by rw [hI]; exact i1
      have i2' : c ω k j = I k j 1 ω := by rw [hI]; exact i2
      rw [Fin.sum_univ_two, ← i1', ← i2', hcc]
      simp
      ring
    rw [← e3, ← hYω k hk, ← he1, ← he2, hv] at h1
    have hM1' : e k ω ⬝ᵥ quadTerm (fderiv ℝ (fderiv ℝ b) (X ω (k * δ))) S (quadNoise w (k * δ) δ) = M1 k ω := by rw [hM1, ← hXvω, hw]
    have hM2' : e k ω ⬝ᵥ (fderiv ℝ b (X ω (k * δ)) - fderiv ℝ b (Y k ω)) (S *ᵥ fun j => ∑ s, cc s * I k j s ω) = M2 k ω := by
      rw [hM2, ← hXvω, ← hYvω]
    rw [hM1', hM2', ← hC3] at h1
    refine h1.trans ?_
    have hEE : 0 ≤ e k ω ⬝ᵥ e k ω := (sq_nonneg _).trans (sq_norm_le_dot _)
    have hvn : ‖fun j => ∑ s, cc s * I k j s ω‖ ^ 2 ≤ 2 * δ ^ 2 * ∑ j, (I k j 0 ω ^ 2 + I k j 1 ω ^ 2) := by
      refine (sq_norm_le_dot _).trans ?_
      rw [Finset.mul_sum]
      refine Finset.sum_le_sum fun j _ => ?_
      have h2 : (∑ s, cc s * I k j s ω) = cc 0 * I k j 0 ω + cc 1 * I k j 1 ω := Fin.sum_univ_two _
      rw [← sq]
      refine le_trans (le_of_eq ?_) (comb_sq_le hc0 hc1)
      exact congrArg (· ^ 2) h2
    have t1 : 6 * (d * (K * s) ^ 2 * (e k ω ⬝ᵥ e k ω) * ‖fun j => ∑ s, cc s * I k j s ω‖ ^ 2) ≤
        C5 * δ ^ 2 * (∑ j, ((e k ω ⬝ᵥ e k ω) * I k j 0 ω ^ 2 + (e k ω ⬝ᵥ e k ω) * I k j 1 ω ^ 2)) := by
      have h2 := mul_le_mul_of_nonneg_left hvn (by positivity : 0 ≤ 6 * (d * (K * s) ^ 2 * (e k ω ⬝ᵥ e k ω)))
      simp only [← mul_add, ← Finset.mul_sum]
      rw [hC5]
      refine le_trans (le_of_eq ?_) (h2.trans (le_of_eq ?_)) <;> ring
    have hGr : (Gk k ω ^ (1 / 6 : ℝ)) ^ 6 = Gk k ω := sixth_root_pow (hGk0 k ω)
    have hW0 : 0 ≤ Gk k ω ^ (1 / 6 : ℝ) := Real.rpow_nonneg (hGk0 k ω) _
    generalize hWd : Gk k ω ^ (1 / 6 : ℝ) = W at hGr hW0
    have t2 : 6 * (d * ((m : ℝ) ^ 2 * (K * s ^ 2 * (δ * W ^ 2 + δ ^ 2))) ^ 2) ≤ C4 * (2 * δ * Gk k ω + 4 * δ ^ 4) := by
      have h2 := mul_le_mul_of_nonneg_left (quad_sq_le (W := W) hδ) hC40
      rw [← hGr]
      refine le_trans (le_of_eq ?_) h2
      rw [hC4]; ring
    have hH : 1 + (α + β * b0) ≤ c5 * (1 + b0) := by
      have e4 : (1 + α + β) * (1 + b0) - (1 + (α + β * b0)) = β + b0 + α * b0 := by ring
      rw [hc5]
      exact sub_nonneg.mp (by rw [e4]; positivity)
    have hcomb := order15_rem_le (L := L) hK hK3 hδ hδT (by positivity : 0 ≤ α + β * b0) hs hW0 hb00 hH
    have hb6 : b0 ^ 6 = G0 ω := by rw [hb0']; exact sixth_root_pow (hG00 ω)
    rw [hb6, hGr] at hcomb
    have t3 := mul_le_mul_of_nonneg_left (mul_le_mul_of_nonneg_left hcomb hδ.le) (by positivity : 0 ≤ (3 * T + 1) * (d : ℝ))
    have t4 : (3 * T + 1) * d * (δ * ((2 * (L ^ 2 + K) ^ 2 + (2 * (L ^ 2 + K) ^ 2 + 2 * |K3| ^ 2) * (32 * (1 + T ^ 3 + s ^ 6))) *
        (δ ^ 3 * (1 + 32 * c5 ^ 6 * (1 + G0 ω)) + Gk k ω))) = C6 * δ * (δ ^ 3 * (1 + 32 * c5 ^ 6 * (1 + G0 ω)) + Gk k ω) := by
      rw [hC6]; ring
    rw [t4] at t3
    linarith only [t1, t2, t3]
  have hrec : ∀ k < N, Integrable (fun ω => e k ω ⬝ᵥ e k ω) P → Integrable (fun ω => e (k + 1) ω ⬝ᵥ e (k + 1) ω) P ∧
      ∫ ω, e (k + 1) ω ⬝ᵥ e (k + 1) ω ∂P ≤ (1 + C7 * δ) * ∫ ω, e k ω ⬝ᵥ e k ω ∂P + A5 * δ ^ 4 := by
    intro k hk hint
    have hnn : ∀ k ω, 0 ≤ e k ω ⬝ᵥ e k ω := fun k ω => (sq_nonneg _).trans (sq_norm_le_dot _)
    have hd2c : Continuous (fderiv ℝ (fderiv ℝ b)) := (hb.diff.fderiv_right (m := 1) (by norm_num)).continuous_fderiv (by norm_num)
    have hd1c : Continuous (fderiv ℝ b) := hb.diff.continuous_fderiv (by norm_num)
    obtain ⟨hM1i, hM10⟩ := martingale_quad hB hδ k (hem k hk.le) (A := fun ω => fderiv ℝ (fderiv ℝ b) (Xv k ω)) (fun u v => by
      have h2 : Continuous fun x => fderiv ℝ (fderiv ℝ b) x u v := (hd2c.clm_apply continuous_const).clm_apply continuous_const
      have h3 := (hXv k hk.le).1
      letI := pastAlg B (k * δ).toNNReal
      exact h2.measurable.comp h3) hint hK (fun ω => hb.hess _) S
    have hM1e : M1 k = fun ω => e k ω ⬝ᵥ quadTerm (fderiv ℝ (fderiv ℝ b) (Xv k ω)) S (quadNoise (pathOf B ω) (k * δ) δ) :=
      funext fun ω => hM1 k ω
    rw [← hM1e] at hM1i
    have hM10' : ∫ ω, M1 k ω ∂P = 0 := by rw [hM1e]; exact hM10
    obtain ⟨hM2i, hM20⟩ := martingale_term_adapted hB hδ k (hem k hk.le) (D := fun ω => fderiv ℝ b (Xv k ω) - fderiv ℝ b (Yv k ω)) (fun v => by
      have h2 : Continuous fun x => fderiv ℝ b x v := hd1c.clm_apply continuous_const
      have h3 := (hXv k hk.le).1
      have h4 := (hYv k hk.le).1
      letI := pastAlg B (k * δ).toNNReal
      exact (h2.measurable.comp h3).sub (h2.measurable.comp h4)) hint (by positivity : 0 ≤ L + L)
      (Eventually.of_forall fun ω => (norm_sub_le _ _).trans (add_le_add (hb.jac _) (hb.jac _))) S cc
    have hM2e : M2 k = fun ω => e k ω ⬝ᵥ (fderiv ℝ b (Xv k ω) - fderiv ℝ b (Yv k ω))
        (S *ᵥ fun j => ∑ s, cc s * incArea (fun t => B j t.toNNReal ω) δ k s) := by
      funext ω
      rw [hM2]
      simp only [hI]
    rw [← hM2e] at hM2i
    have hM20' : ∫ ω, M2 k ω ∂P = 0 := by rw [hM2e]; exact hM20
    have hsq : ∀ j s, Integrable (fun ω => (e k ω ⬝ᵥ e k ω) * I k j s ω ^ 2) P ∧
        ∫ ω, (e k ω ⬝ᵥ e k ω) * I k j s ω ^ 2 ∂P ≤ δ * ∫ ω, e k ω ⬝ᵥ e k ω ∂P := fun j s => by
      have h1 := past_mul_sq hB hδ k (hQpast k hk.le) hint (hnn k) j s
      simp only [← hI] at h1
      exact h1
    have i1 : Integrable (fun ω => (1 + C3 * δ) * (e k ω ⬝ᵥ e k ω)) P := hint.const_mul _
    have i2 : Integrable (fun ω => 2 * M1 k ω) P := hM1i.const_mul _
    have i3 : Integrable (fun ω => 2 * M2 k ω) P := hM2i.const_mul _
    have i4' : ∀ j, Integrable (fun ω => (e k ω ⬝ᵥ e k ω) * I k j 0 ω ^ 2 + (e k ω ⬝ᵥ e k ω) * I k j 1 ω ^ 2) P :=
      fun j => (hsq j 0).1.add (hsq j 1).1
    have i4 : Integrable (fun ω => C5 * δ ^ 2 * (∑ j, ((e k ω ⬝ᵥ e k ω) * I k j 0 ω ^ 2 + (e k ω ⬝ᵥ e k ω) * I k j 1 ω ^ 2))) P :=
      (integrable_finsetSum _ fun j _ => i4' j).const_mul _
    have i5 : Integrable (fun ω => C4 * (2 * δ * Gk k ω + 4 * δ ^ 4) + C6 * δ * (δ ^ 3 * (1 + 32 * c5 ^ 6 * (1 + G0 ω)) + Gk k ω)) P := by
      have j1 : Integrable (fun ω => C4 * (2 * δ * Gk k ω + 4 * δ ^ 4)) P := (((hGki k).const_mul _).add (integrable_const _)).const_mul _
      have j2 : Integrable (fun ω => 1 + G0 ω) P := (integrable_const (1 : ℝ)).add hG0i
      have j3 : Integrable (fun ω => δ ^ 3 * (1 + 32 * c5 ^ 6 * (1 + G0 ω))) P :=
        ((integrable_const (1 : ℝ)).add (j2.const_mul (32 * c5 ^ 6))).const_mul _
      have j4 : Integrable (fun ω => C6 * δ * (δ ^ 3 * (1 + 32 * c5 ^ 6 * (1 + G0 ω)) + Gk k ω)) P := (j3.add (hGki k)).const_mul _
      exact j1.add j4
    have i12 : Integrable (fun ω => (1 + C3 * δ) * (e k ω ⬝ᵥ e k ω) + 2 * M1 k ω) P := i1.add i2
    have i123 : Integrable (fun ω => (1 + C3 * δ) * (e k ω ⬝ᵥ e k ω) + 2 * M1 k ω + 2 * M2 k ω) P := i12.add i3
    have i1234 : Integrable (fun ω => (1 + C3 * δ) * (e k ω ⬝ᵥ e k ω) + 2 * M1 k ω + 2 * M2 k ω +
        C5 * δ ^ 2 * (∑ j, ((e k ω ⬝ᵥ e k ω) * I k j 0 ω ^ 2 + (e k ω ⬝ᵥ e k ω) * I k j 1 ω ^ 2))) P := i123.add i4
    have hall := i1234.add i5
    have hint' : Integrable (fun ω => e (k + 1) ω ⬝ᵥ e (k + 1) ω) P := by
      refine hall.mono' (hQm (k + 1) hk) ?_
      filter_upwards [hstep k hk] with ω hω
      rw [Real.norm_of_nonneg (hnn _ _)]
      exact hω
    refine ⟨hint', (integral_mono_ae hint' hall (hstep k hk)).trans ?_⟩
    have hg0 : ∫ ω, G0 ω ∂P ≤ κ * T ^ 3 := by rw [hcT] at hG0e; rw [hκ]; exact hG0e
    have hgk : ∫ ω, Gk k ω ∂P ≤ κ * δ ^ 3 := by have := hGke k; rw [hcδ] at this; rw [hκ]; exact this
    have e1 : ∫ ω, ∑ j, ((e k ω ⬝ᵥ e k ω) * I k j 0 ω ^ 2 + (e k ω ⬝ᵥ e k ω) * I k j 1 ω ^ 2) ∂P ≤
        m * 2 * δ * ∫ ω, e k ω ⬝ᵥ e k ω ∂P := by
      rw [integral_finsetSum _ fun j _ => i4' j]
      have : ∀ j ∈ Finset.univ, ∫ ω, ((e k ω ⬝ᵥ e k ω) * I k j 0 ω ^ 2 + (e k ω ⬝ᵥ e k ω) * I k j 1 ω ^ 2) ∂P ≤
          2 * δ * ∫ ω, e k ω ⬝ᵥ e k ω ∂P := fun j _ => by
        rw [integral_add (hsq j 0).1 (hsq j 1).1]
        linarith [(hsq j 0).2, (hsq j 1).2]
      refine (Finset.sum_le_sum this).trans (le_of_eq ?_)
      simp
      ring
    have e5 : ∫ ω, (C4 * (2 * δ * Gk k ω + 4 * δ ^ 4) + C6 * δ * (δ ^ 3 * (1 + 32 * c5 ^ 6 * (1 + G0 ω)) + Gk k ω)) ∂P =
        C4 * (2 * δ * (∫ ω, Gk k ω ∂P) + 4 * δ ^ 4) + C6 * δ * (δ ^ 3 * (1 + 32 * c5 ^ 6 * (1 + ∫ ω, G0 ω ∂P)) + ∫ ω, Gk k ω ∂P) := by
      have j0 : Integrable (fun ω => 2 * δ * Gk k ω) P := (hGki k).const_mul _
      have j0' : Integrable (fun ω => 2 * δ * Gk k ω + 4 * δ ^ 4) P := j0.add (integrable_const _)
      have j1 : Integrable (fun ω => C4 * (2 * δ * Gk k ω + 4 * δ ^ 4)) P := j0'.const_mul _
      have j2 : Integrable (fun ω => 1 + G0 ω) P := (integrable_const (1 : ℝ)).add hG0i
      have j2' : Integrable (fun ω => 32 * c5 ^ 6 * (1 + G0 ω)) P := j2.const_mul _
      have j2'' : Integrable (fun ω => 1 + 32 * c5 ^ 6 * (1 + G0 ω)) P := (integrable_const (1 : ℝ)).add j2'
      have j3 : Integrable (fun ω => δ ^ 3 * (1 + 32 * c5 ^ 6 * (1 + G0 ω))) P := j2''.const_mul _
      have j3' : Integrable (fun ω => δ ^ 3 * (1 + 32 * c5 ^ 6 * (1 + G0 ω)) + Gk k ω) P := j3.add (hGki k)
      have j4 : Integrable (fun ω => C6 * δ * (δ ^ 3 * (1 + 32 * c5 ^ 6 * (1 + G0 ω)) + Gk k ω)) P := j3'.const_mul _
      rw [integral_add j1 j4, integral_const_mul C4, integral_const_mul (C6 * δ), integral_add j0 (integrable_const _),
        integral_const_mul (2 * δ), integral_add j3 (hGki k), integral_const_mul (δ ^ 3), integral_add (integrable_const _) j2',
        integral_const_mul (32 * c5 ^ 6), integral_add (integrable_const _) hG0i]
      simp
    have hsplit : ∫ ω, (((1 + C3 * δ) * (e k ω ⬝ᵥ e k ω) + 2 * M1 k ω + 2 * M2 k ω +
        C5 * δ ^ 2 * (∑ j, ((e k ω ⬝ᵥ e k ω) * I k j 0 ω ^ 2 + (e k ω ⬝ᵥ e k ω) * I k j 1 ω ^ 2))) +
        (C4 * (2 * δ * Gk k ω + 4 * δ ^ 4) + C6 * δ * (δ ^ 3 * (1 + 32 * c5 ^ 6 * (1 + G0 ω)) + Gk k ω))) ∂P =
        (1 + C3 * δ) * (∫ ω, e k ω ⬝ᵥ e k ω ∂P) +
        C5 * δ ^ 2 * (∫ ω, ∑ j, ((e k ω ⬝ᵥ e k ω) * I k j 0 ω ^ 2 + (e k ω ⬝ᵥ e k ω) * I k j 1 ω ^ 2) ∂P) +
        (C4 * (2 * δ * (∫ ω, Gk k ω ∂P) + 4 * δ ^ 4) + C6 * δ * (δ ^ 3 * (1 + 32 * c5 ^ 6 * (1 + ∫ ω, G0 ω ∂P)) + ∫ ω, Gk k ω ∂P)) := by
      rw [integral_add i1234 i5, integral_add i123 i4, integral_add i12 i3, integral_add i1 i2, integral_const_mul, integral_const_mul,
        integral_const_mul, integral_const_mul, hM10', hM20', e5]
      ring
    refine (le_of_eq hsplit).trans ?_
    have t1 : C5 * δ ^ 2 * (∫ ω, ∑ j, ((e k ω ⬝ᵥ e k ω) * I k j 0 ω ^ 2 + (e k ω ⬝ᵥ e k ω) * I k j 1 ω ^ 2) ∂P) ≤
        C5 * (T ^ 2 * (m * 2)) * δ * ∫ ω, e k ω ⬝ᵥ e k ω ∂P := by
      have hq0 : 0 ≤ ∫ ω, e k ω ⬝ᵥ e k ω ∂P := integral_nonneg (hnn k)
      have hδ2 : δ ^ 2 ≤ T ^ 2 := pow_le_pow_left₀ hδ.le hδT 2
      calc _ ≤ C5 * δ ^ 2 * (m * 2 * δ * ∫ ω, e k ω ⬝ᵥ e k ω ∂P) := mul_le_mul_of_nonneg_left e1 (by positivity)
        _ ≤ C5 * T ^ 2 * (m * 2 * δ * ∫ ω, e k ω ⬝ᵥ e k ω ∂P) := by gcongr
        _ = _ := by ring
    have t2 : C4 * (2 * δ * (∫ ω, Gk k ω ∂P) + 4 * δ ^ 4) + C6 * δ * (δ ^ 3 * (1 + 32 * c5 ^ 6 * (1 + ∫ ω, G0 ω ∂P)) + ∫ ω, Gk k ω ∂P) ≤
        C4 * (2 * δ * (κ * δ ^ 3) + 4 * δ ^ 4) + C6 * δ * (δ ^ 3 * (1 + 32 * c5 ^ 6 * (1 + κ * T ^ 3)) + κ * δ ^ 3) := by gcongr
    rw [hA5, hC7]
    linarith only [t1, t2]
  have hall : ∀ k ≤ N, Integrable (fun ω => e k ω ⬝ᵥ e k ω) P := by
    intro k
    induction k with
    | zero =>
      intro h0
      refine (integrable_zero Ω ℝ P).congr ?_
      filter_upwards [heq 0 h0, hY0, hX] with ω h1 h2 h3
      have h4 := h3.eq 0 ⟨le_rfl, hT.le⟩
      simp only [intervalIntegral.integral_same, sub_self, mulVec_zero, add_zero] at h4
      rw [h1, h2, Nat.cast_zero, zero_mul, h4, sub_self]
      simp
    | succ k ih => exact fun hk => (hrec k hk (ih (by omega))).1
  have h00 : ∫ ω, e 0 ω ⬝ᵥ e 0 ω ∂P ≤ 0 := by
    refine le_of_eq ?_
    rw [← integral_zero Ω ℝ (μ := P)]
    refine integral_congr_ae ?_
    filter_upwards [heq 0 (Nat.zero_le _), hY0, hX] with ω h1 h2 h3
    have h4 := h3.eq 0 ⟨le_rfl, hT.le⟩
    simp only [intervalIntegral.integral_same, sub_self, mulVec_zero, add_zero] at h4
    rw [h1, h2, Nat.cast_zero, zero_mul, h4, sub_self]
    simp
  intro n hn
  have hgr := discrete_gronwall (e := fun k => ∫ ω, e k ω ⬝ᵥ e k ω ∂P) (l := fun _ => A5 * δ ^ 4) (q := C7 * δ) (by positivity) N
    (fun _ _ => by positivity) h00 (fun k hk => (hrec k hk (hall k hk.le)).2) n hn
  have hne : (fun ω => ‖X ω (n * δ) - Y n ω‖ ^ 2) =ᵐ[P] fun ω => ‖e n ω‖ ^ 2 := by
    filter_upwards [heq n hn] with ω hω
    rw [hω]
  have hnm : AEStronglyMeasurable (fun ω => ‖e n ω‖ ^ 2) P :=
    (((hem n hn).mono (hB.pastAlg_le _) le_rfl).norm.pow_const 2).aestronglyMeasurable
  have hni : Integrable (fun ω => ‖e n ω‖ ^ 2) P := (hall n hn).mono' hnm (Eventually.of_forall fun ω => by
    rw [Real.norm_of_nonneg (sq_nonneg _)]
    exact sq_norm_le_dot _)
  refine ⟨hni.congr hne.symm, ?_⟩
  rw [integral_congr_ae hne]
  refine (integral_mono hni (hall n hn) fun ω => sq_norm_le_dot _).trans (hgr.trans ?_)
  rw [Finset.sum_const, Finset.card_range, nsmul_eq_mul]
  have h5 := hkT n hn
  calc Real.exp (C7 * δ * n) * (n * (A5 * δ ^ 4)) = Real.exp (C7 * (n * δ)) * ((n * δ) * A5) * δ ^ 3 := by ring_nf
    _ ≤ Real.exp (C7 * T) * (T * A5) * δ ^ 3 := by gcongr

end Verif
