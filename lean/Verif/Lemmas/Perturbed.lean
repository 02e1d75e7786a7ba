import Mathlib.Algebra.Order.Chebyshev
import Verif.Lemmas.L2Strong
import Verif.Props.Matched

/-! One step schemes for SDEs with additive noise whose steps carry an additional multiple of the second coefficient of the
parabola. -/

namespace Verif

open Matrix Spec Jnp Set MeasureTheory ProbabilityTheory Filter
open scoped NNReal

variable {d m : ℕ}

/-- A stable scheme with perturbed steps, path by path. -/
theorem perturbed_le {Φ : ℕ → Vec d → Vec d} {q : ℝ} (hq : 0 ≤ q) {N : ℕ} (hΦ : ∀ k < N, ∀ y y', ‖Φ k y - y - (Φ k y' - y')‖ ≤ q * ‖y - y'‖)
    {Y W e : ℕ → Vec d} (h0 : Y 0 = W 0) (hY : ∀ k < N, Y (k + 1) = Φ k (Y k) + e k) (hW : ∀ k < N, W (k + 1) = Φ k (W k)) {n : ℕ} (hn : n ≤ N) :
    ‖Y n - W n‖ ≤ ‖∑ i ∈ Finset.range n, e i‖ +
      Real.exp (q * n) * ∑ k ∈ Finset.range n, q * ‖∑ i ∈ Finset.range k, e i‖ := by
  have h := discrete_gronwall (e := fun k => ‖Y k - W k - ∑ i ∈ Finset.range k, e i‖) (l := fun k => q * ‖∑ i ∈ Finset.range k, e i‖) hq N
    (fun k _ => by positivity) (by simp [h0]) (fun k hk => by
      have e1 : Y (k + 1) - W (k + 1) - ∑ i ∈ Finset.range (k + 1), e i = (Y k - W k - ∑ i ∈ Finset.range k, e i) +
          (Φ k (Y k) - Y k - (Φ k (W k) - W k)) := by
        rw [hY k hk, hW k hk, Finset.sum_range_succ]
        abel
      have e2 : Y k - W k = (Y k - W k - ∑ i ∈ Finset.range k, e i) + ∑ i ∈ Finset.range k, e i := by abel
      have h1 : ‖Y k - W k‖ ≤ ‖Y k - W k - ∑ i ∈ Finset.range k, e i‖ + ‖∑ i ∈ Finset.range k, e i‖ := by
        conv_lhs => rw [e2]
        exact norm_add_le _ _
      have h2 := mul_le_mul_of_nonneg_left h1 hq
      rw [e1]
      refine (norm_add_le _ _).trans ?_
      have h3 := hΦ k hk (Y k) (W k)
      linarith) n hn
  have e2 : Y n - W n = (∑ i ∈ Finset.range n, e i) + (Y n - W n - ∑ i ∈ Finset.range n, e i) := by abel
  conv_lhs => rw [e2]
  exact (norm_add_le _ _).trans (add_le_add le_rfl h)

variable {Ω : Type*} [MeasurableSpace Ω] {P : Measure Ω} {B : Fin m → ℝ≥0 → Ω → ℝ}

/-- The law of the sums of the second coefficients. -/
theorem area_sum_law (hB : IsBrownianVec B P) {δ : ℝ} (hδ : 0 < δ) {N : ℕ} {a b : Ω → ℕ → Vec m}
    (hm : ∀ᵐ ω ∂P, ∀ k < N, SameEndAndArea (fun t => Foster.evalParabola t δ (a ω k) (b ω k)) (fun t j => B j t.toNNReal ω) (k * δ) δ)
    (S : Mat d m) (ε : ℝ) {n : ℕ} (hn : n ≤ N) :
    IsNormal P (fun ω => ∑ k ∈ Finset.range n, ε • S *ᵥ b ω k) 0 ((ε ^ 2 * (n * δ / 2)) • (S * Sᵀ)) := by
  have h := (C91_matched_law hB hδ n a b (hm.mono fun ω h k hk => h k (by omega))).affine (κ := Fin d) 0
    (fun i q => ![0, ε * S i q.2.1] q.2.2)
  have e1 : ∀ ω, (0 : Vec d) + (Matrix.of fun i (q : Fin n × Fin m × Fin 2) => ![0, ε * S i q.2.1] q.2.2) *ᵥ
      (fun q : Fin n × Fin m × Fin 2 => ![a ω q.1 q.2.1, b ω q.1 q.2.1] q.2.2) = ∑ k ∈ Finset.range n, ε • S *ᵥ b ω k := fun ω => by
    funext i
    rw [zero_add, Finset.sum_apply, Finset.sum_range]
    simp only [mulVec, dotProduct, Matrix.of_apply, Fintype.sum_prod_type, Fin.sum_univ_two, cons_val_zero, cons_val_one, zero_mul, zero_add,
      Pi.smul_apply, smul_eq_mul, Finset.mul_sum, cons_val_fin_one, mul_assoc]
  have e2 : (Matrix.of fun i (q : Fin n × Fin m × Fin 2) => ![0, ε * S i q.2.1] q.2.2) *
      (diagonal fun q : Fin n × Fin m × Fin 2 => ![δ, δ / 2] q.2.2) *
      (Matrix.of fun i (q : Fin n × Fin m × Fin 2) => ![0, ε * S i q.2.1] q.2.2)ᵀ = (ε ^ 2 * (n * δ / 2)) • (S * Sᵀ) := by
    ext i j
    rw [mul_apply, Matrix.smul_apply, mul_apply]
    simp only [mul_diagonal, Matrix.of_apply, transpose_apply, Fintype.sum_prod_type, Fin.sum_univ_two, cons_val_zero, cons_val_one, zero_mul,
      zero_add, smul_eq_mul, mul_zero, Finset.sum_const, Finset.card_univ, Fintype.card_fin, nsmul_eq_mul, Finset.mul_sum,
      cons_val_fin_one]
    refine Finset.sum_congr rfl fun l _ => ?_
    ring
  have e3 : (0 : Vec d) + (Matrix.of fun i (q : Fin n × Fin m × Fin 2) => ![0, ε * S i q.2.1] q.2.2) *ᵥ 0 = 0 := by simp
  change IsNormal P (fun ω => (0 : Vec d) + (Matrix.of fun i (q : Fin n × Fin m × Fin 2) => ![0, ε * S i q.2.1] q.2.2) *ᵥ
      (fun q : Fin n × Fin m × Fin 2 => ![a ω q.1 q.2.1, b ω q.1 q.2.1] q.2.2))
      ((0 : Vec d) + (Matrix.of fun i (q : Fin n × Fin m × Fin 2) => ![0, ε * S i q.2.1] q.2.2) *ᵥ 0)
      ((Matrix.of fun i (q : Fin n × Fin m × Fin 2) => ![0, ε * S i q.2.1] q.2.2) *
      (diagonal fun q : Fin n × Fin m × Fin 2 => ![δ, δ / 2] q.2.2) *
      (Matrix.of fun i (q : Fin n × Fin m × Fin 2) => ![0, ε * S i q.2.1] q.2.2)ᵀ) at h
  rw [e2, e3] at h
  simpa only [e1] using h

theorem Spec.IsNormal.second_moment {ι : Type*} [Fintype ι] [DecidableEq ι] {X : Ω → ι → ℝ} {C : Matrix ι ι ℝ} (h : IsNormal P X 0 C) (i : ι) :
    Integrable (fun ω => X ω i ^ 2) P ∧ ∫ ω, X ω i ^ 2 ∂P = C i i := by
  have hP := h.isProb
  refine ⟨(h.memLp i).integrable_sq, ?_⟩
  have := h.cov i i
  rw [covariance_eq_sub (h.memLp i) (h.memLp i), h.mean] at this
  simp only [Pi.zero_apply, mul_zero, sub_zero] at this
  rw [← this]
  refine integral_congr_ae (Eventually.of_forall fun ω => ?_)
  simp [sq]

theorem norm_sq_le_sum (v : Vec d) : ‖v‖ ^ 2 ≤ ∑ i, v i ^ 2 := by
  have h1 : ‖v‖ ≤ Real.sqrt (∑ i, v i ^ 2) := by
    rw [pi_norm_le_iff_of_nonneg (Real.sqrt_nonneg _)]
    intro i
    rw [Real.norm_eq_abs, ← Real.sqrt_sq_eq_abs]
    exact Real.sqrt_le_sqrt (Finset.single_le_sum (f := fun i => v i ^ 2) (fun i _ => sq_nonneg _) (Finset.mem_univ i))
  calc ‖v‖ ^ 2 ≤ Real.sqrt (∑ i, v i ^ 2) ^ 2 := pow_le_pow_left₀ (norm_nonneg _) h1 2
    _ = _ := Real.sq_sqrt (Finset.sum_nonneg fun i _ => sq_nonneg _)

theorem Spec.IsNormal.norm_sq {X : Ω → Vec d} {C : Mat d d} (h : IsNormal P X 0 C) :
    Integrable (fun ω => ‖X ω‖ ^ 2) P ∧ ∫ ω, ‖X ω‖ ^ 2 ∂P ≤ C.trace := by
  have hs : Integrable (fun ω => ∑ i, X ω i ^ 2) P := integrable_finsetSum _ fun i _ => (h.second_moment i).1
  have hi : Integrable (fun ω => ‖X ω‖ ^ 2) P :=
    hs.mono' (h.hasGaussianLaw.aemeasurable.norm.pow_const 2).aestronglyMeasurable (Eventually.of_forall fun ω => by
      rw [Real.norm_of_nonneg (by positivity)]
      exact norm_sq_le_sum _)
  refine ⟨hi, (integral_mono hi hs fun ω => norm_sq_le_sum _).trans (le_of_eq ?_)⟩
  rw [integral_finsetSum _ fun i _ => (h.second_moment i).1, Matrix.trace]
  exact Finset.sum_congr rfl fun i _ => (h.second_moment i).2

set_option maxHeartbeats 1000000 in
/-- Strong convergence of a scheme with perturbed steps: if the sums of the perturbations have second moments up to `v`, the squared
error has size `δ² + v`. -/
theorem strong_noisy (hB : IsBrownianVec B P) {f : Vec d → ℝ → Vec d} {Df : Vec d → ℝ → Vec d →L[ℝ] Vec d} {T L K Lt : ℝ} (hT : 0 < T)
    (hf : SmoothField f Df T L K) (hL : 0 ≤ L) (hLt : 0 ≤ Lt) (htl : TimeLipschitz f T Lt) (S : Mat d m) (x0 : Vec d)
    {X : Ω → ℝ → Vec d} (hX : ∀ᵐ ω ∂P, SolvesAdditive f S (fun t j => B j t.toNNReal ω) x0 T (X ω)) {C0 C1 κ0 : ℝ} (hC0 : 0 ≤ C0)
    (hC1 : 0 ≤ C1) (hκ0 : 0 ≤ κ0) :
    ∃ A : ℝ, 0 ≤ A ∧ ∀ N : ℕ, 0 < N → ∀ {lam mu : ℝ}, |lam| ≤ κ0 → |mu| ≤ κ0 → ∀ Φ : ℕ → Vec d → Vec m → Vec m → Vec d,
      (∀ k, Measurable fun p : Vec d × Vec m × Vec m => Φ k p.1 p.2.1 p.2.2) →
      (∀ k < N, ∀ a b y y', ‖Φ k y a b - y - (Φ k y' a b - y')‖ ≤ C0 * (T / N) * ‖y - y'‖) →
      (∀ k < N, ∀ a b y, ‖Φ k y a b - (y + S *ᵥ a + (T / N) • f y (k * (T / N)) + (T / N) • Df y (k * (T / N))
        (S *ᵥ (lam • a + mu • b)))‖ ≤
        T / N * (C1 * (T / N * (1 + ‖y‖ + ‖f y (k * (T / N))‖) ^ 2 + (‖a‖ + 4 * ‖b‖) ^ 2))) →
      ∀ (v : ℝ) (Y : ℕ → Ω → Vec d) (a b : Ω → ℕ → Vec m) (E : Ω → ℕ → Vec d), (∀ᵐ ω ∂P, Y 0 ω = x0) →
      (∀ᵐ ω ∂P, ∀ k < N, SameEndAndArea (fun t => Foster.evalParabola t (T / N) (a ω k) (b ω k)) (fun t j => B j t.toNNReal ω)
        (k * (T / N)) (T / N)) →
      (∀ᵐ ω ∂P, ∀ k < N, Y (k + 1) ω = Φ k (Y k ω) (a ω k) (b ω k) + E ω k) →
      (∀ k ≤ N, AEMeasurable (Y k) P) → (∀ k ≤ N, Integrable (fun ω => ‖∑ i ∈ Finset.range k, E ω i‖ ^ 2) P ∧
        ∫ ω, ‖∑ i ∈ Finset.range k, E ω i‖ ^ 2 ∂P ≤ v) →
      ∀ n ≤ N, Integrable (fun ω => ‖X ω (n * (T / N)) - Y n ω‖ ^ 2) P ∧
        ∫ ω, ‖X ω (n * (T / N)) - Y n ω‖ ^ 2 ∂P ≤ A * ((T / N) ^ 2 + v) := by
  have hP := hB.isProb
  obtain ⟨A, hA0, hA⟩ := strong_core hB hT hf hL hLt htl S x0 hX (C0 := C0) hC1 hκ0
  obtain ⟨c, hc⟩ : ∃ c, c = 4 * (1 + Real.exp (C0 * T) ^ 2 * (C0 * T) ^ 2) := ⟨_, rfl⟩
  have hc0 : 0 ≤ c := by rw [hc]; positivity
  refine ⟨2 * A + c, by positivity, ?_⟩
  intro N hN lam mu hlam hmu Φ hΦm hΦs hΦc v Y a b E hY0 hm hY hYm hE n hn
  have hN' : (0 : ℝ) < N := by exact_mod_cast hN
  have hA' := hA N hN hlam hmu Φ hΦm hΦs hΦc
  obtain ⟨δ, hδdef⟩ : ∃ δ, δ = T / N := ⟨_, rfl⟩
  rw [← hδdef] at hΦs hm hA' ⊢
  have hδ : 0 < δ := by rw [hδdef]; positivity
  have hNδ : (N : ℝ) * δ = T := by rw [hδdef]; field_simp
  have hkT : ∀ k ≤ N, (k : ℝ) * δ ≤ T := fun k hk => by
    rw [← hNδ]; exact mul_le_mul_of_nonneg_right (by exact_mod_cast hk) hδ.le
  obtain ⟨W, hW0, hWs⟩ : ∃ W : ℕ → Ω → Vec d, (∀ ω, W 0 ω = x0) ∧ ∀ k ω, W (k + 1) ω = Φ k (W k ω) (a ω k) (b ω k) :=
    ⟨fun k ω => Nat.rec x0 (fun k w => Φ k w (a ω k) (b ω k)) k, fun _ => rfl, fun _ _ => rfl⟩
  obtain ⟨hWi, hWe⟩ := hA' W a b (Eventually.of_forall hW0) hm (Eventually.of_forall fun ω k _ => hWs k ω) n hn
  obtain ⟨D, hD⟩ : ∃ D : ℕ → Ω → Vec d, ∀ k ω, D k ω = ∑ i ∈ Finset.range k, E ω i := ⟨_, fun _ _ => rfl⟩
  have hDl : ∀ k ≤ N, Integrable (fun ω => ‖D k ω‖ ^ 2) P ∧ ∫ ω, ‖D k ω‖ ^ 2 ∂P ≤ v := fun k hk => by
    simp only [hD]
    exact hE k hk
  have hv : 0 ≤ v := (integral_nonneg fun ω => by positivity).trans (hDl 0 (Nat.zero_le _)).2
  obtain ⟨G, hG⟩ : ∃ G, G = Real.exp (C0 * T) := ⟨_, rfl⟩
  have hG0 : 0 < G := by rw [hG]; exact Real.exp_pos _
  have hpath : ∀ᵐ ω ∂P, ‖Y n ω - W n ω‖ ^ 2 ≤ 2 * ‖D n ω‖ ^ 2 + 2 * (G ^ 2 * (C0 * δ) ^ 2) * (n * ∑ k ∈ Finset.range n, ‖D k ω‖ ^ 2) := by
    filter_upwards [hY0, hY] with ω h0 h1
    have h := perturbed_le (Φ := fun k y => Φ k y (a ω k) (b ω k)) (q := C0 * δ) (by positivity) (N := N) (fun k hk y y' => hΦs k hk _ _ y y')
      (Y := fun k => Y k ω) (W := fun k => W k ω) (e := fun k => E ω k) (by rw [h0, hW0]) h1 (fun k _ => hWs k ω) hn
    simp only [← hD] at h
    have hexp : Real.exp (C0 * δ * n) ≤ G := by
      rw [hG, Real.exp_le_exp, mul_assoc]
      refine mul_le_mul_of_nonneg_left ?_ hC0
      rw [mul_comm]
      exact hkT n hn
    rw [← Finset.mul_sum] at h
    have hs0 : 0 ≤ ∑ k ∈ Finset.range n, ‖D k ω‖ := Finset.sum_nonneg fun k _ => norm_nonneg _
    have h2 : ‖Y n ω - W n ω‖ ≤ ‖D n ω‖ + G * (C0 * δ * ∑ k ∈ Finset.range n, ‖D k ω‖) :=
      h.trans (add_le_add le_rfl (mul_le_mul_of_nonneg_right hexp (by positivity)))
    have h3 : (∑ k ∈ Finset.range n, ‖D k ω‖) ^ 2 ≤ n * ∑ k ∈ Finset.range n, ‖D k ω‖ ^ 2 := by
      have := sq_sum_le_card_mul_sum_sq (s := Finset.range n) (f := fun k => ‖D k ω‖)
      rwa [Finset.card_range] at this
    have h4 := pow_le_pow_left₀ (norm_nonneg _) h2 2
    have h5 := add_sq_le (a := ‖D n ω‖) (b := G * (C0 * δ * ∑ k ∈ Finset.range n, ‖D k ω‖))
    have h6 := mul_le_mul_of_nonneg_left h3 (by positivity : 0 ≤ 2 * (G ^ 2 * (C0 * δ) ^ 2))
    calc _ ≤ _ := h4
      _ ≤ _ := h5
      _ = 2 * ‖D n ω‖ ^ 2 + 2 * (G ^ 2 * (C0 * δ) ^ 2) * (∑ k ∈ Finset.range n, ‖D k ω‖) ^ 2 := by ring
      _ ≤ _ := by linarith
  have hDi : Integrable (fun ω => 2 * ‖D n ω‖ ^ 2 + 2 * (G ^ 2 * (C0 * δ) ^ 2) * (n * ∑ k ∈ Finset.range n, ‖D k ω‖ ^ 2)) P :=
    ((hDl n hn).1.const_mul 2).add (((integrable_finsetSum _ fun k hk => (hDl k (by have := Finset.mem_range.mp hk; omega)).1).const_mul
      (n : ℝ)).const_mul _)
  have hDe : ∫ ω, (2 * ‖D n ω‖ ^ 2 + 2 * (G ^ 2 * (C0 * δ) ^ 2) * (n * ∑ k ∈ Finset.range n, ‖D k ω‖ ^ 2)) ∂P ≤
      2 * (1 + G ^ 2 * (C0 * T) ^ 2) * (v) := by
    have hki : ∀ k ∈ Finset.range n, Integrable (fun ω => ‖D k ω‖ ^ 2) P := fun k hk => (hDl k (by have := Finset.mem_range.mp hk; omega)).1
    rw [integral_add ((hDl n hn).1.const_mul 2) (((integrable_finsetSum _ hki).const_mul (n : ℝ)).const_mul _), integral_const_mul,
      integral_const_mul, integral_const_mul, integral_finsetSum _ hki]
    have h1 : ∑ k ∈ Finset.range n, ∫ ω, ‖D k ω‖ ^ 2 ∂P ≤ n * (v) := by
      refine (Finset.sum_le_sum fun k hk => (hDl k (by have := Finset.mem_range.mp hk; omega)).2).trans (le_of_eq ?_)
      rw [Finset.sum_const, Finset.card_range, nsmul_eq_mul]
    have h2 := (hDl n hn).2
    have h3 : (n : ℝ) * ∑ k ∈ Finset.range n, ∫ ω, ‖D k ω‖ ^ 2 ∂P ≤ n * (n * (v)) := mul_le_mul_of_nonneg_left h1 (by positivity)
    have h4 := mul_le_mul_of_nonneg_left h3 (by positivity : 0 ≤ 2 * (G ^ 2 * (C0 * δ) ^ 2))
    have h5 : (C0 * δ) ^ 2 * ((n : ℝ) * n) ≤ (C0 * T) ^ 2 := by
      have h6 := mul_le_mul_of_nonneg_left (hkT n hn) hC0
      have h7 := pow_le_pow_left₀ (by positivity) h6 2
      calc _ = (C0 * (n * δ)) ^ 2 := by ring
        _ ≤ _ := h7
    have h6 : 2 * (G ^ 2 * (C0 * δ) ^ 2) * (n * (n * (v))) ≤ 2 * (G ^ 2 * (C0 * T) ^ 2) * (v) := by
      have := mul_le_mul_of_nonneg_left h5 (by positivity : 0 ≤ 2 * G ^ 2 * (v))
      nlinarith
    nlinarith
  have hXm : AEMeasurable (fun ω => X ω (n * δ)) P := by
    obtain ⟨V, h1, h2⟩ := solution_adapted hB hf.cont hL hf.lip hT hX (t := n * δ) (by positivity) (hkT n hn)
    exact ⟨V, h1.mono (hB.pastAlg_le _) le_rfl, h2⟩
  have hb : ∀ᵐ ω ∂P, ‖X ω (n * δ) - Y n ω‖ ^ 2 ≤ 2 * ‖X ω (n * δ) - W n ω‖ ^ 2 + 2 * (2 * ‖D n ω‖ ^ 2 +
      2 * (G ^ 2 * (C0 * δ) ^ 2) * (n * ∑ k ∈ Finset.range n, ‖D k ω‖ ^ 2)) := by
    filter_upwards [hpath] with ω h1
    have h2 : ‖X ω (n * δ) - Y n ω‖ ≤ ‖X ω (n * δ) - W n ω‖ + ‖Y n ω - W n ω‖ := by
      rw [show X ω (n * δ) - Y n ω = (X ω (n * δ) - W n ω) - (Y n ω - W n ω) by abel]
      exact norm_sub_le _ _
    have h3 := pow_le_pow_left₀ (norm_nonneg _) h2 2
    have h4 := add_sq_le (a := ‖X ω (n * δ) - W n ω‖) (b := ‖Y n ω - W n ω‖)
    linarith
  have hi : Integrable (fun ω => ‖X ω (n * δ) - Y n ω‖ ^ 2) P :=
    ((hWi.const_mul 2).add (hDi.const_mul 2)).mono' ((hXm.sub (hYm n hn)).norm.pow_const 2).aestronglyMeasurable (by
      filter_upwards [hb] with ω h
      rw [Real.norm_of_nonneg (by positivity)]
      exact h)
  refine ⟨hi, (integral_mono_ae hi ((hWi.const_mul 2).add (hDi.const_mul 2)) hb).trans ?_⟩
  have e1 : ∫ ω, (2 * ‖X ω (n * δ) - W n ω‖ ^ 2 + 2 * (2 * ‖D n ω‖ ^ 2 +
      2 * (G ^ 2 * (C0 * δ) ^ 2) * (n * ∑ k ∈ Finset.range n, ‖D k ω‖ ^ 2))) ∂P =
      2 * (∫ ω, ‖X ω (n * δ) - W n ω‖ ^ 2 ∂P) + 2 * ∫ ω, (2 * ‖D n ω‖ ^ 2 +
      2 * (G ^ 2 * (C0 * δ) ^ 2) * (n * ∑ k ∈ Finset.range n, ‖D k ω‖ ^ 2)) ∂P := by
    rw [← integral_const_mul, ← integral_const_mul, ← integral_add (hWi.const_mul 2) (hDi.const_mul 2)]
  refine le_trans (le_of_eq e1) ?_
  have e2 : c * v = 2 * (2 * (1 + G ^ 2 * (C0 * T) ^ 2) * (v)) := by rw [hc, hG]; ring
  have h7 : 0 ≤ A * v := by positivity
  have h8 : 0 ≤ c * δ ^ 2 := by positivity
  nlinarith

/-- Strong convergence of a scheme whose steps carry an additional `ε S b`: the error has size `δ + ε`. -/
theorem strong_perturbed (hB : IsBrownianVec B P) {f : Vec d → ℝ → Vec d} {Df : Vec d → ℝ → Vec d →L[ℝ] Vec d} {T L K Lt : ℝ} (hT : 0 < T)
    (hf : SmoothField f Df T L K) (hL : 0 ≤ L) (hLt : 0 ≤ Lt) (htl : TimeLipschitz f T Lt) (S : Mat d m) (x0 : Vec d)
    {X : Ω → ℝ → Vec d} (hX : ∀ᵐ ω ∂P, SolvesAdditive f S (fun t j => B j t.toNNReal ω) x0 T (X ω)) {C0 C1 κ0 : ℝ} (hC0 : 0 ≤ C0)
    (hC1 : 0 ≤ C1) (hκ0 : 0 ≤ κ0) :
    ∃ A : ℝ, 0 ≤ A ∧ ∀ N : ℕ, 0 < N → ∀ {lam mu : ℝ}, |lam| ≤ κ0 → |mu| ≤ κ0 → ∀ Φ : ℕ → Vec d → Vec m → Vec m → Vec d,
      (∀ k, Measurable fun p : Vec d × Vec m × Vec m => Φ k p.1 p.2.1 p.2.2) →
      (∀ k < N, ∀ a b y y', ‖Φ k y a b - y - (Φ k y' a b - y')‖ ≤ C0 * (T / N) * ‖y - y'‖) →
      (∀ k < N, ∀ a b y, ‖Φ k y a b - (y + S *ᵥ a + (T / N) • f y (k * (T / N)) + (T / N) • Df y (k * (T / N))
        (S *ᵥ (lam • a + mu • b)))‖ ≤
        T / N * (C1 * (T / N * (1 + ‖y‖ + ‖f y (k * (T / N))‖) ^ 2 + (‖a‖ + 4 * ‖b‖) ^ 2))) →
      ∀ (ε : ℝ) (Y : ℕ → Ω → Vec d) (a b : Ω → ℕ → Vec m), (∀ᵐ ω ∂P, Y 0 ω = x0) →
      (∀ᵐ ω ∂P, ∀ k < N, SameEndAndArea (fun t => Foster.evalParabola t (T / N) (a ω k) (b ω k)) (fun t j => B j t.toNNReal ω)
        (k * (T / N)) (T / N)) →
      (∀ᵐ ω ∂P, ∀ k < N, Y (k + 1) ω = Φ k (Y k ω) (a ω k) (b ω k) + ε • S *ᵥ b ω k) →
      ∀ n ≤ N, Integrable (fun ω => ‖X ω (n * (T / N)) - Y n ω‖ ^ 2) P ∧
        ∫ ω, ‖X ω (n * (T / N)) - Y n ω‖ ^ 2 ∂P ≤ A * ((T / N) ^ 2 + ε ^ 2) := by
  obtain ⟨A, hA0, hA⟩ := strong_noisy hB hT hf hL hLt htl S x0 hX hC0 hC1 hκ0
  have htr : 0 ≤ (S * Sᵀ).trace := by
    simp only [Matrix.trace, diag_apply, mul_apply, transpose_apply]
    exact Finset.sum_nonneg fun i _ => Finset.sum_nonneg fun j _ => mul_self_nonneg _
  refine ⟨A * (1 + T / 2 * (S * Sᵀ).trace), by positivity, ?_⟩
  intro N hN lam mu hlam hmu Φ hΦm hΦs hΦc ε Y a b hY0 hm hY n hn
  have hN' : (0 : ℝ) < N := by exact_mod_cast hN
  have hδ : 0 < T / N := by positivity
  obtain ⟨h1, h2⟩ := hA N hN hlam hmu Φ hΦm hΦs hΦc (ε ^ 2 * (T / 2 * (S * Sᵀ).trace)) Y a b (fun ω k => ε • S *ᵥ b ω k) hY0 hm hY
    (fun k hk => by
      obtain ⟨V, h1, h2⟩ := scheme_adapted hB hδ N (Φ := fun k y a b => Φ k y a b + ε • S *ᵥ b) (fun k => (hΦm k).add (by
        have : Continuous fun p : Vec d × Vec m × Vec m => ε • S *ᵥ p.2.2 := by fun_prop
        exact this.measurable)) hY0 hm hY k hk
      exact ⟨V, h1.mono (hB.pastAlg_le _) le_rfl, h2⟩)
    (fun k hk => by
      have h := (area_sum_law hB hδ hm S ε hk).norm_sq
      refine ⟨h.1, h.2.trans ?_⟩
      have h1 : (k : ℝ) * (T / N) ≤ T := by
        rw [mul_div_assoc', div_le_iff₀ hN', mul_comm]
        exact mul_le_mul_of_nonneg_left (by exact_mod_cast hk) hT.le
      rw [trace_smul, smul_eq_mul]
      have := mul_le_mul_of_nonneg_right h1 htr
      nlinarith [sq_nonneg ε]) n hn
  refine ⟨h1, h2.trans ?_⟩
  have e : A * (1 + T / 2 * (S * Sᵀ).trace) * ((T / N) ^ 2 + ε ^ 2) = A * ((T / N) ^ 2 + ε ^ 2 * (T / 2 * (S * Sᵀ).trace)) +
      A * (ε ^ 2 + (T / 2 * (S * Sᵀ).trace) * (T / N) ^ 2) := by ring
  rw [e]
  have : 0 ≤ A * (ε ^ 2 + (T / 2 * (S * Sᵀ).trace) * (T / N) ^ 2) := by positivity
  linarith

end Verif
