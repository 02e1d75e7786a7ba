import Verif.Lemmas.CalibrationMain
import Verif.Lemmas.CalibrationPath
import Verif.Lemmas.CalibrationLocal

/-!
# Property C119: the calibrated covariances do not shrink with the step, for a Lipschitz drift
-/

namespace Verif

open Matrix Spec Jnp Scripts MeasureTheory ProbabilityTheory Set Filter Topology
open scoped Matrix.Norms.Operator

variable {d m : ℕ}

/-- C119: the calibration experiment, one filter step per interval, on `dX = f(X, t) dt + S dW` with a drift that is Lipschitz in state and
time and a constant matrix `S ≠ 0`. There is a positive constant `c` such that, with a probability that tends to one with the number of
intervals, the calibrated run succeeds, keeps the means and the references, and every calibrated covariance, at the time `t` of its grid
point, is at least `c t 1`. -/
theorem C119_lower {Ω : Type*} [MeasurableSpace Ω] {P : Measure Ω} {R : Ω → Rng} (hR : IdealNormals P R) {la : LinAlg} (hla : la.Correct)
    {f : Vec d → ℝ → Vec d} {T L Lt : ℝ} (hT : 0 < T) (hL : 0 ≤ L) (hLt : 0 ≤ Lt)
    (hlip : ∀ x y, ∀ t ∈ Icc 0 T, ‖f x t - f y t‖ ≤ L * ‖x - y‖) (hdiff : ∀ t, Differentiable ℝ fun x => f x t) (htl : TimeLipschitz f T Lt)
    {S : Mat d m} (hS : S ≠ 0) (x0 : Vec d) :
    ∃ c : ℝ, 0 < c ∧ ∀ ε : ℝ, 0 < ε → ∃ N0 : ℕ, ∀ N ≥ N0, ∀ fine ≥ 1, ∀ (k0 : Key) (ks : List Key), ∃ A : Set Ω, P.real Aᶜ ≤ ε ∧ ∀ ω ∈ A,
      ∃ o o', calibrationMain la (R ω) (k0 :: ks) f (fun _ _ => S) x0 (T / N) N 1 fine = .ok (o, o') ∧ o'.mean = o.mean ∧ o'.refs = o.refs ∧ ∀ k < N, ∃ V, o'.var[k]? = some V ∧
        ∀ u : Vec d, c * ((k + 1) * (T / N)) * (u ⬝ᵥ u) ≤ u ⬝ᵥ (strideMat 0 0 V *ᵥ u) := by
  obtain ⟨i, j, hij⟩ : ∃ i j, S i j ≠ 0 := by
    by_contra h
    push Not at h
    exact hS (by ext i j; exact h i j)
  have hd : 0 < d := i.pos
  have hd' : (0 : ℝ) < d := by exact_mod_cast hd
  have hs : 0 < (S * Sᵀ) i i := by
    rw [Matrix.mul_apply]
    refine Finset.sum_pos' (fun j _ => by rw [transpose_apply]; exact mul_self_nonneg _) ⟨j, Finset.mem_univ _, ?_⟩
    rw [transpose_apply]
    exact mul_self_pos.mpr hij
  have hP : IsProbabilityMeasure P := (secondCoeff_normal hR S one_pos [] one_pos).isProb
  obtain ⟨s, hs0, hSs⟩ := exists_mulVec_bound S
  obtain ⟨c1, c2, C, hc1, hc2, hC, N1, hpath⟩ := calib_path hT hL hLt hs0 hlip (fun t _ => hdiff t) htl hSs x0 hd
  obtain ⟨θ, ρ, hθ, hρ0, hρ1, hsmall⟩ := secondCoeff_small hR S i hs
  refine ⟨c1 * c2 * θ / (20 * d), by positivity, fun ε hε => ?_⟩
  have hδ0 : Tendsto (fun N : ℕ => T / N) atTop (𝓝 0) := tendsto_const_div_atTop_nhds_zero_nat T
  have l1 : ∀ᶠ N : ℕ in atTop, ρ ^ N < ε / 2 := (tendsto_pow_atTop_nhds_zero_of_lt_one hρ0 hρ1).eventually_lt_const (by positivity)
  have l2 : ∀ᶠ N : ℕ in atTop, 3 * m * T * (T / N) < ε / 2 := by
    have := hδ0.const_mul (3 * m * T)
    rw [mul_zero] at this
    exact this.eventually_lt_const (by positivity)
  have l3 : ∀ᶠ N : ℕ in atTop, C * ((T / N) ^ 2 + T / N) < c2 * (θ * T) / 2 := by
    have := ((hδ0.pow 2).add hδ0).const_mul C
    simp only [ne_eq, OfNat.ofNat_ne_zero, not_false_eq_true, zero_pow, add_zero, mul_zero] at this
    exact this.eventually_lt_const (by positivity)
  obtain ⟨N0, hN0⟩ := eventually_atTop.mp (((l1.and l2).and l3).and ((eventually_ge_atTop N1).and (eventually_gt_atTop 0)))
  refine ⟨N0, fun N hN fine hfine k0 ks => ?_⟩
  obtain ⟨⟨⟨b1, b2⟩, b3⟩, b4, b5⟩ := hN0 N hN
  have hN' : (0 : ℝ) < N := by exact_mod_cast b5
  obtain ⟨δ, hδe⟩ : ∃ δ, δ = T / N := ⟨_, rfl⟩
  rw [← hδe] at b2 b3 ⊢
  have hδ : 0 < δ := by rw [hδe]; positivity
  have hNδ : N * δ = T := by rw [hδe]; field_simp
  obtain ⟨Q, hQi, hQe, hQ⟩ := coeffs_square_sum hR m k0 N (fine := fine) hfine hδ
  have hQ0 : ∀ ω, 0 ≤ Q ω := fun ω => (Finset.sum_nonneg fun k _ => sq_nonneg _).trans (hQ ω)
  refine ⟨{ω | θ * (N * δ) < ∑ k ∈ Finset.range N, (S *ᵥ ((Foster.getApproxFine m fine).coeffs (R ω) ((k0.child N k).child 2 0) δ).2.1) i ^ 2} ∩
    {ω | Q ω < 1 / δ}, ?_, ?_⟩
  · rw [compl_inter]
    refine (measureReal_union_le _ _).trans ?_
    have e1 := hsmall k0 N (fine := fine) hfine hδ
    have e2 : P.real {ω | 1 / δ ≤ Q ω} ≤ 3 * m * T * δ := by
      have h := mul_meas_ge_le_integral_of_nonneg (ae_of_all P hQ0) hQi (1 / δ)
      rw [hQe, hNδ, one_div, inv_mul_le_iff₀ hδ] at h
      rw [one_div]
      linarith
    have e3 : {ω | θ * (N * δ) < ∑ k ∈ Finset.range N, (S *ᵥ ((Foster.getApproxFine m fine).coeffs (R ω) ((k0.child N k).child 2 0) δ).2.1) i ^ 2}ᶜ =
        {ω | ∑ k ∈ Finset.range N, (S *ᵥ ((Foster.getApproxFine m fine).coeffs (R ω) ((k0.child N k).child 2 0) δ).2.1) i ^ 2 ≤ θ * (N * δ)} := by
      ext ω; simp
    have e4 : {ω | Q ω < 1 / δ}ᶜ = {ω | 1 / δ ≤ Q ω} := by ext ω; simp
    rw [e3, e4]
    linarith
  · rintro ω ⟨w1, w2⟩
    simp only [mem_setOf_eq] at w1 w2
    obtain ⟨c, hc⟩ : ∃ c : ℕ → _, c = fun (k : ℕ) => (Foster.getApproxFine m fine).coeffs (R ω) ((k0.child N k).child 2 0) δ := ⟨_, rfl⟩
    obtain ⟨g1, g2⟩ := hpath b4 b5 hδ hNδ (fun k => (c k).1) (fun k => (c k).2.1)
    refine calib_main_lower hla (R ω) k0 ks hdiff S x0 hδ hT hθ hc1 hc2 hC b5 hNδ hd c hc _ rfl g1 g2 ?_ ?_ b3
    · rw [hNδ] at w1
      refine w1.le.trans (Finset.sum_le_sum fun k _ => ?_)
      rw [hc, sq]
      exact Finset.single_le_sum (f := fun l => (S *ᵥ ((Foster.getApproxFine m fine).coeffs (R ω) ((k0.child N k).child 2 0) δ).2.1) l *
        (S *ᵥ ((Foster.getApproxFine m fine).coeffs (R ω) ((k0.child N k).child 2 0) δ).2.1) l) (fun l _ => mul_self_nonneg _) (Finset.mem_univ i)
    · refine le_trans (le_of_eq ?_) ((hQ ω).trans w2.le)
      rw [hc]

/-- C119: the Ornstein-Uhlenbeck equation `dX = -X dt + dW` on the unit interval. -/
example {la : LinAlg} (hla : la.Correct) (x0 : Vec 1) :
    ∃ c : ℝ, 0 < c ∧ ∀ ε : ℝ, 0 < ε → ∃ N0 : ℕ, ∀ N ≥ N0, ∀ fine ≥ 1, ∀ (k0 : Key) (ks : List Key), ∃ A : Set Draws, drawsMeasure.real Aᶜ ≤ ε ∧
      ∀ ω ∈ A, ∃ o o', calibrationMain la (drawsRng ω) (k0 :: ks) (fun x _ => -x) (fun _ _ => (1 : Mat 1 1)) x0 (1 / N) N 1 fine = .ok (o, o') ∧
        o'.mean = o.mean ∧ o'.refs = o.refs ∧ ∀ k < N, ∃ V, o'.var[k]? = some V ∧ ∀ u : Vec 1, c * ((k + 1) * (1 / N)) * (u ⬝ᵥ u) ≤ u ⬝ᵥ (strideMat 0 0 V *ᵥ u) := by
  refine C119_lower (f := fun x _ => -x) idealNormals_drawsRng hla one_pos zero_le_one le_rfl (fun x y t _ => ?_) (fun _ => differentiable_fun_id.fun_neg)
    (fun x s _ t _ => ?_) one_ne_zero x0
  · rw [one_mul, neg_sub_neg, norm_sub_rev]
  · simp

/-- C119: the same for a drift that need not be Lipschitz, on the terms of `C111_prob_partial`: it is twice continuously differentiable, its
equation has a solution along every continuous path and its Jacobian does not change in the directions of the noise. The constant may
depend on the probability that is left out. -/
theorem C119_prob {Ω : Type} [MeasurableSpace Ω] {P : Measure Ω} {R : Ω → Rng} (hR : IdealNormals P R) {la : LinAlg} (hla : la.Correct)
    {f : Field d} (hf : ContDiff ℝ 2 (Function.uncurry f)) {T : ℝ} (hT : 0 < T) {S : Mat d m} (hS : S ≠ 0) (x0 : Vec d)
    (hsol : ∀ w : ℝ → Vec m, Continuous w → ∃ x, SolvesAdditive f S w x0 T x)
    (hnoise : ∀ x v, ∀ t ∈ Icc 0 T, fderiv ℝ (fun z => f z t) (x + S *ᵥ v) = fderiv ℝ (fun z => f z t) x) {ε : ℝ} (hε : 0 < ε) :
    ∃ c : ℝ, 0 < c ∧ ∃ N0 : ℕ, ∀ N ≥ N0, ∀ fine ≥ 1, ∀ (k0 : Key) (ks : List Key), ∃ A : Set Ω, P.real Aᶜ ≤ ε ∧ ∀ ω ∈ A,
      ∃ o o', calibrationMain la (R ω) (k0 :: ks) f (fun _ _ => S) x0 (T / N) N 1 fine = .ok (o, o') ∧ o'.mean = o.mean ∧ o'.refs = o.refs ∧ ∀ k < N, ∃ V, o'.var[k]? = some V ∧
        ∀ u : Vec d, c * ((k + 1) * (T / N)) * (u ⬝ᵥ u) ≤ u ⬝ᵥ (strideMat 0 0 V *ᵥ u) := by
  obtain ⟨i, j, hij⟩ : ∃ i j, S i j ≠ 0 := by
    by_contra h
    push Not at h
    exact hS (by ext i j; exact h i j)
  have hd : 0 < d := i.pos
  have hd' : (0 : ℝ) < d := by exact_mod_cast hd
  have hs : 0 < (S * Sᵀ) i i := by
    rw [Matrix.mul_apply]
    refine Finset.sum_pos' (fun j _ => by rw [transpose_apply]; exact mul_self_nonneg _) ⟨j, Finset.mem_univ _, ?_⟩
    rw [transpose_apply]
    exact mul_self_pos.mpr hij
  have hP : IsProbabilityMeasure P := (secondCoeff_normal hR S one_pos [] one_pos).isProb
  obtain ⟨s, hs0, hSs⟩ := exists_mulVec_bound S
  obtain ⟨Λ, N2, hbd⟩ := alg3_run_bounded hf hT S x0 hsol hnoise (ε := ε / 4) (by positivity)
  obtain ⟨g, Dg, -, L, K, F, hL, hF, hg, hgt, hgF, heq, -⟩ := exists_cutoff hf T (Λ + 1)
  obtain ⟨c1, c2, C, hc1, hc2, hC, N1, hpath⟩ := calib_path hT hL hL hs0 hg.lip (fun t ht x => (hg.deriv x t ht).differentiableAt) hgt hSs x0 hd
  obtain ⟨θ, ρ, hθ, hρ0, hρ1, hsmall⟩ := secondCoeff_small hR S i hs
  obtain ⟨C4, hC4, hmax⟩ := coeffs_max hR m (κ := 1 / (6 * (s + 1))) (by positivity)
  obtain ⟨N3, hN3⟩ := exists_small_step F hT (by norm_num : (0 : ℝ) < 1 / 4)
  refine ⟨c1 * c2 * θ / (20 * d), by positivity, ?_⟩
  have hδ0 : Tendsto (fun N : ℕ => T / N) atTop (𝓝 0) := tendsto_const_div_atTop_nhds_zero_nat T
  have l1 : ∀ᶠ N : ℕ in atTop, ρ ^ N < ε / 4 := (tendsto_pow_atTop_nhds_zero_of_lt_one hρ0 hρ1).eventually_lt_const (by positivity)
  have l2 : ∀ᶠ N : ℕ in atTop, 3 * m * T * (T / N) < ε / 4 := by
    have := hδ0.const_mul (3 * m * T)
    rw [mul_zero] at this
    exact this.eventually_lt_const (by positivity)
  have l4 : ∀ᶠ N : ℕ in atTop, C4 * T * (T / N) < ε / 4 := by
    have := hδ0.const_mul (C4 * T)
    rw [mul_zero] at this
    exact this.eventually_lt_const (by positivity)
  have l3 : ∀ᶠ N : ℕ in atTop, C * ((T / N) ^ 2 + T / N) < c2 * (θ * T) / 2 := by
    have := ((hδ0.pow 2).add hδ0).const_mul C
    simp only [ne_eq, OfNat.ofNat_ne_zero, not_false_eq_true, zero_pow, add_zero, mul_zero] at this
    exact this.eventually_lt_const (by positivity)
  obtain ⟨N0, hN0⟩ := eventually_atTop.mp (((l1.and l2).and (l3.and l4)).and (((eventually_ge_atTop N1).and (eventually_gt_atTop 0)).and
    ((eventually_ge_atTop N2).and (eventually_ge_atTop N3))))
  refine ⟨N0, fun N hN fine hfine k0 ks => ?_⟩
  obtain ⟨⟨⟨b1, b2⟩, b3, b6⟩, ⟨b4, b5⟩, b7, b8⟩ := hN0 N hN
  have hN' : (0 : ℝ) < N := by exact_mod_cast b5
  have h4 := hbd hR N b7 b5 fine hfine k0
  have hδF := hN3 N b8 b5
  obtain ⟨δ, hδe⟩ : ∃ δ, δ = T / N := ⟨_, rfl⟩
  rw [← hδe] at b2 b3 b6 h4 hδF ⊢
  have hδ : 0 < δ := by rw [hδe]; positivity
  have hNδ : N * δ = T := by rw [hδe]; field_simp
  obtain ⟨Q, hQi, hQe, hQ⟩ := coeffs_square_sum hR m k0 N (fine := fine) hfine hδ
  have hQ0 : ∀ ω, 0 ≤ Q ω := fun ω => (Finset.sum_nonneg fun k _ => sq_nonneg _).trans (hQ ω)
  have h5 := hmax k0 N (fine := fine) hfine hδ
  have e1 := hsmall k0 N (fine := fine) hfine hδ
  have e2 : P.real {ω | 1 / δ ≤ Q ω} ≤ 3 * m * T * δ := by
    have h := mul_meas_ge_le_integral_of_nonneg (ae_of_all P hQ0) hQi (1 / δ)
    rw [hQe, hNδ, one_div, inv_mul_le_iff₀ hδ] at h
    rw [one_div]
    linarith
  rw [hNδ] at h5 e1
  have h4' := ENNReal.toReal_mono ENNReal.ofReal_ne_top h4
  rw [ENNReal.toReal_ofReal (by positivity)] at h4'
  refine ⟨({ω | ∑ k ∈ Finset.range N, (S *ᵥ ((Foster.getApproxFine m fine).coeffs (R ω) ((k0.child N k).child 2 0) δ).2.1) i ^ 2 ≤ θ * T} ∪
    {ω | 1 / δ ≤ Q ω} ∪ ({ω | ∃ k < N, 1 / (6 * (s + 1)) < ‖((Foster.getApproxFine m fine).coeffs (R ω) ((k0.child N k).child 2 0) δ).1‖ +
        ‖((Foster.getApproxFine m fine).coeffs (R ω) ((k0.child N k).child 2 0) δ).2.1‖} ∪ {ω | ∃ k ≤ N, Λ < ‖(alg3Path (fun (k : ℕ) => additiveField f S (k * δ) δ
        ((Foster.getApproxFine m fine).coeffs (R ω) ((k0.child N k).child 2 0) δ).1
        ((Foster.getApproxFine m fine).coeffs (R ω) ((k0.child N k).child 2 0) δ).2.1) δ x0 k).1‖}))ᶜ, ?_, ?_⟩
  · rw [compl_compl]
    refine (measureReal_union_le _ _).trans ((add_le_add ((measureReal_union_le _ _).trans (add_le_add e1 e2))
      ((measureReal_union_le _ _).trans (add_le_add h5 h4'))).trans ?_)
    linarith
  · intro ω hω
    simp only [compl_union, mem_inter_iff, mem_compl_iff, mem_setOf_eq, not_le, not_exists, not_and, not_lt] at hω
    obtain ⟨⟨w1, w2⟩, w3, w4⟩ := hω
    obtain ⟨c, hc⟩ : ∃ c : ℕ → _, c = fun (k : ℕ) => (Foster.getApproxFine m fine).coeffs (R ω) ((k0.child N k).child 2 0) δ := ⟨_, rfl⟩
    obtain ⟨g1, g2⟩ := hpath b4 b5 hδ hNδ (fun k => (c k).1) (fun k => (c k).2.1)
    have hloc := alg3Path_local hg hs0 hSs hgF heq hδ hδF hNδ x0 (fun k => (c k).1) (fun k => (c k).2.1)
      (fun k hk => by rw [hc]; exact w3 k hk) (fun k hk => by rw [hc]; exact w4 k hk)
    obtain ⟨k1, k2, k3⟩ := alg3Path_congr hloc
    refine calib_main_lower hla (R ω) k0 ks (fun t x => (hasFDerivAt_left hf x t).differentiableAt) S x0 hδ hT hθ hc1 hc2 hC b5 hNδ hd c hc _ rfl
      (fun n hn v => by rw [k1 n hn]; exact g1 n hn v) ?_ ?_ ?_ b3
    · refine g2.trans (le_of_eq ?_)
      refine congrArg (δ * ·) (Finset.sum_congr rfl fun k hk => ?_)
      have hk' := Finset.mem_range.mp hk
      rw [k2 k hk']
      exact congrArg (fun z => z ⬝ᵥ (_ : Mat d d)⁻¹ *ᵥ z) (k3 k hk').symm
    · refine w1.le.trans (Finset.sum_le_sum fun k _ => ?_)
      rw [hc, sq]
      exact Finset.single_le_sum (f := fun l => (S *ᵥ ((Foster.getApproxFine m fine).coeffs (R ω) ((k0.child N k).child 2 0) δ).2.1) l *
        (S *ᵥ ((Foster.getApproxFine m fine).coeffs (R ω) ((k0.child N k).child 2 0) δ).2.1) l) (fun l _ => mul_self_nonneg _) (Finset.mem_univ i)
    · refine le_trans (le_of_eq ?_) ((hQ ω).trans w2.le)
      rw [hc]

/-- C119: the FitzHugh-Nagumo model, on which uncertainty_calibration.py runs, and its variant with a square noise matrix. -/
theorem C119_fhn {Ω : Type} [MeasurableSpace Ω] {P : Measure Ω} {R : Ω → Rng} (hR : IdealNormals P R) {la : LinAlg} (hla : la.Correct)
    {T : ℝ} (hT : 0 < T) {ε : ℝ} (hε : 0 < ε) :
    (∃ c : ℝ, 0 < c ∧ ∃ N0 : ℕ, ∀ N ≥ N0, ∀ fine ≥ 1, ∀ (k0 : Key) (ks : List Key), ∃ A : Set Ω, P.real Aᶜ ≤ ε ∧ ∀ ω ∈ A,
      ∃ o o', calibrationMain la (R ω) (k0 :: ks) Ivp.Fhn.drift Ivp.Fhn.sigma Ivp.Fhn.x0 (T / N) N 1 fine = .ok (o, o') ∧
        o'.mean = o.mean ∧ o'.refs = o.refs ∧ ∀ k < N, ∃ V, o'.var[k]? = some V ∧ ∀ u : Vec 2, c * ((k + 1) * (T / N)) * (u ⬝ᵥ u) ≤ u ⬝ᵥ (strideMat 0 0 V *ᵥ u)) ∧
    (∃ c : ℝ, 0 < c ∧ ∃ N0 : ℕ, ∀ N ≥ N0, ∀ fine ≥ 1, ∀ (k0 : Key) (ks : List Key), ∃ A : Set Ω, P.real Aᶜ ≤ ε ∧ ∀ ω ∈ A,
      ∃ o o', calibrationMain la (R ω) (k0 :: ks) Ivp.Fhn.drift Ivp.Fhn.sigmaSquare Ivp.Fhn.x0 (T / N) N 1 fine = .ok (o, o') ∧
        o'.mean = o.mean ∧ o'.refs = o.refs ∧ ∀ k < N, ∃ V, o'.var[k]? = some V ∧ ∀ u : Vec 2, c * ((k + 1) * (T / N)) * (u ⬝ᵥ u) ≤ u ⬝ᵥ (strideMat 0 0 V *ᵥ u)) := by
  have e2 : Ivp.Fhn.sigmaSquare = fun _ _ => !![0, 0; Ivp.Fhn.sig, 0] := by
    funext x t
    simp [Ivp.Fhn.sigmaSquare, Ivp.Fhn.sigma]
  constructor
  · exact C119_prob hR hla Ivp.Fhn.contDiff_drift hT (S := !![0; Ivp.Fhn.sig]) (fun h => by
        have := congrFun (congrFun h 1) 0
        norm_num [Ivp.Fhn.sig] at this) Ivp.Fhn.x0
      (fun w hw => Ivp.Fhn.exists_solution hT.le _ (fun j => by fin_cases j; rfl) w hw _)
      (fun x v t _ => fhn_noise _ (fun j => by fin_cases j; rfl) x v t) hε
  · rw [e2]
    exact C119_prob hR hla Ivp.Fhn.contDiff_drift hT (S := !![0, 0; Ivp.Fhn.sig, 0]) (fun h => by
        have := congrFun (congrFun h 1) 0
        norm_num [Ivp.Fhn.sig] at this) Ivp.Fhn.x0
      (fun w hw => Ivp.Fhn.exists_solution hT.le _ (fun j => by fin_cases j <;> rfl) w hw _)
      (fun x v t _ => fhn_noise _ (fun j => by fin_cases j <;> rfl) x v t) hε

/-- C119: the normals of `drawsRng` and an exact linear algebra meet the terms of `C119_fhn`. -/
example : ∃ la : LinAlg, la.Correct ∧ ∃ c : ℝ, 0 < c ∧ ∃ N0 : ℕ, ∀ N ≥ N0, ∀ k0 : Key, ∃ A : Set Draws, drawsMeasure.real Aᶜ ≤ 1 / 100 ∧ ∀ ω ∈ A,
    ∃ o o', calibrationMain la (drawsRng ω) [k0] Ivp.Fhn.drift Ivp.Fhn.sigma Ivp.Fhn.x0 (10 / N) N 1 1 = .ok (o, o') ∧
      o'.mean = o.mean ∧ o'.refs = o.refs ∧ ∀ k < N, ∃ V, o'.var[k]? = some V ∧ ∀ u : Vec 2, c * ((k + 1) * (10 / N)) * (u ⬝ᵥ u) ≤ u ⬝ᵥ (strideMat 0 0 V *ᵥ u) := by
  obtain ⟨la, hla⟩ := exists_correct_linAlg
  obtain ⟨c, hc, N0, h⟩ := (C119_fhn idealNormals_drawsRng hla (T := 10) (by norm_num) (ε := 1 / 100) (by norm_num)).1
  exact ⟨la, hla, c, hc, N0, fun N hN k0 => h N hN 1 le_rfl k0 []⟩

end Verif
