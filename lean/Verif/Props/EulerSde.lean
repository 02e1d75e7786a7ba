import Verif.Lemmas.EulerStep
import Verif.Lemmas.Perturbed
import Verif.Lemmas.RamTransfer
import Verif.Props.FhnOrder
import Verif.Props.Ito

/-!
# Property C105: `sde_solver` with Euler steps inside each interval
-/

namespace Verif

open Matrix Spec Jnp Set MeasureTheory ProbabilityTheory Scripts Filter
open scoped NNReal

variable {d m : ℕ}

/-- C105: mean square error of `sde_solver` with `M` Euler steps per interval, as in `strong_convergence_parabola_ode.py` and in
`tests/test_sde_solver_foster.py`, for an SDE with additive noise driven by a Brownian motion whose path the parabolas match in end point
and integral. Besides the order one in `δ` there is a term in `1 / M` that does not get smaller with `δ`: Euler steps do not
integrate the derivative of a parabola exactly. -/
theorem C105_strong {Ω : Type*} [MeasurableSpace Ω] {P : Measure Ω} {B : Fin m → ℝ≥0 → Ω → ℝ}
    (hB : IsBrownianVec B P) {f : Field d} {Df : Vec d → ℝ → Vec d →L[ℝ] Vec d} {T L K Lt : ℝ} (hT : 0 < T)
    (hf : SmoothField f Df T L K) (htl : TimeLipschitz f T Lt) (S : Mat d m) (x0 : Vec d)
    {X : Ω → ℝ → Vec d} (hX : ∀ᵐ ω ∂P, SolvesAdditive f S (fun t j => B j t.toNNReal ω) x0 T (X ω)) :
    ∃ A : ℝ, 0 ≤ A ∧ ∀ N : ℕ, 0 < N → ∀ M : ℕ, 0 < M → ∀ (R : Ω → Rng) (key : Key) {C : Type}
      (bm : BmApprox C m) (a b : C → Vec m), (∀ t dt c, bm.eval t dt c = Foster.evalParabola t dt (a c) (b c)) →
      (∀ᵐ ω ∂P, ∀ k < N, ∀ c, (sdeSolver (R ω) key f (fun _ _ => S) x0 bm (T / N) N (eulerInt M)).2.2[k]? = some c →
        SameEndAndArea (fun t => bm.eval t (T / N) c) (fun t j => B j t.toNNReal ω) (k * (T / N)) (T / N)) →
      ∀ n ≤ N, ∃ y : Ω → Vec d, (∀ ω, (sdeSolver (R ω) key f (fun _ _ => S) x0 bm (T / N) N (eulerInt M)).2.1[n]? = some (y ω)) ∧
        Integrable (fun ω => ‖X ω (n * (T / N)) - y ω‖ ^ 2) P ∧
        ∫ ω, ‖X ω (n * (T / N)) - y ω‖ ^ 2 ∂P ≤ A * ((T / N) ^ 2 + (1 / M) ^ 2) := by
  wlog hL : 0 ≤ L generalizing L
  · refine this (L := 0) ⟨hf.cont, fun x y t ht => (hf.lip x y t ht).trans ?_, hf.deriv, hf.jac⟩ le_rfl
    exact mul_le_mul_of_nonneg_right (not_le.mp hL).le (norm_nonneg _)
  wlog hLt : 0 ≤ Lt generalizing Lt
  · refine this (Lt := 0) (fun x s hs t ht => (htl x s hs t ht).trans ?_) le_rfl
    refine mul_le_mul_of_nonneg_right (mul_le_mul_of_nonneg_right (not_le.mp hLt).le ?_) (abs_nonneg _)
    positivity
  have hK := hf.jac_const_nonneg hT
  obtain ⟨s, hs, hS⟩ := exists_mulVec_bound S
  obtain ⟨C1, hC1, hcons⟩ := euler_expansion hf hL hK hLt hT.le htl hs hS
  obtain ⟨A, hA0, hA⟩ := strong_perturbed hB hT hf hL hLt htl S x0 hX (C0 := L * Real.exp (L * T)) (by positivity) hC1
    (by norm_num : (0 : ℝ) ≤ 4)
  refine ⟨6 * A, by positivity, ?_⟩
  intro N hN M hM R key C bm a b hbm hm n hn
  have hN' : (0 : ℝ) < N := by exact_mod_cast hN
  have hM' : (0 : ℝ) < M := by exact_mod_cast hM
  obtain ⟨δ, hδdef⟩ : ∃ δ, δ = T / N := ⟨_, rfl⟩
  have hA' := hA N hN (eulerLam_bound hM) (eulerMu_bound hM)
  rw [← hδdef] at hm hA' ⊢
  have hδ : 0 < δ := by rw [hδdef]; positivity
  have hNδ : (N : ℝ) * δ = T := by rw [hδdef]; field_simp
  have hkδ : ∀ k < N, (k : ℝ) * δ + δ ≤ T := fun k hk => by
    have : ((k + 1 : ℕ) : ℝ) * δ ≤ N * δ := mul_le_mul_of_nonneg_right (by exact_mod_cast hk) hδ.le
    rw [hNδ] at this
    push_cast at this
    linarith
  have hfield : ∀ (c : C) (a0 : ℝ), intervalField f (fun _ _ => S) bm δ c a0 = additiveField f S a0 δ (a c) (b c) := fun c a0 => by
    funext z t
    simp only [intervalField, additiveField]
    congr 2
    congr 1
    funext s
    exact hbm s δ c
  choose y hy1 hy0 hys using fun ω => sdeSolver_states (R ω) key f (fun _ _ => S) x0 bm δ N (eulerInt M)
  have hcf : ∀ ω k, ∃ c, k < N → (sdeSolver (R ω) key f (fun _ _ => S) x0 bm δ N (eulerInt M)).2.2[k]? = some c ∧
      y ω (k + 1) = eulerInt M ((key.child N k).child 2 1) (y ω k) (intervalField f (fun _ _ => S) bm δ c (k * δ)) δ := fun ω k => by
    by_cases hk : k < N
    · obtain ⟨c, hc⟩ := hys ω k hk
      exact ⟨c, fun _ => hc⟩
    · obtain ⟨c, -⟩ := hys ω 0 hN
      exact ⟨c, fun h => absurd h hk⟩
  choose c hc using hcf
  refine ⟨fun ω => y ω n, fun ω => hy1 ω n hn, ?_⟩
  have h := hA' (fun k y a b => eulerSolver y (additiveField f S (k * δ) δ a b) (δ / M) M - S *ᵥ ((Real.sqrt 6 / M) • b))
    (fun k => ((continuous_eulerStep hf.cont S (k * δ) δ (δ / M) M).sub (by
      fun_prop : Continuous fun p : Vec d × Vec m × Vec m => S *ᵥ ((Real.sqrt 6 / M) • p.2.2))).measurable)
    (fun k hk a b y y' => by
      have := euler_stable hL hf.lip S hδ (by positivity) (hkδ k hk) hM a b y y'
      rwa [show ∀ u u' v w w' : Vec d, u - v - w - (u' - v - w') = u - w - (u' - w') from fun _ _ _ _ _ => by abel])
    (fun k hk a b y => hcons hδ (by positivity) (hkδ k hk) hM a b y le_rfl) (Real.sqrt 6 / M) (fun k ω => y ω k) (fun ω k => a (c ω k))
    (fun ω k => b (c ω k)) (Eventually.of_forall hy0) (by
      filter_upwards [hm] with ω hω k hk
      have := hω k hk (c ω k) (hc ω k hk).1
      simpa only [hbm] using this) (Eventually.of_forall fun ω k hk => by
      rw [(hc ω k hk).2, hfield, mulVec_smul, sub_add_cancel]
      rfl) n hn
  refine ⟨h.1, h.2.trans ?_⟩
  rw [div_pow, Real.sq_sqrt (by norm_num), div_pow, one_pow]
  have h1 : 0 ≤ A * δ ^ 2 := by positivity
  have e : A * (6 / (M : ℝ) ^ 2) = 6 * A * (1 / (M : ℝ) ^ 2) := by ring
  rw [mul_add, mul_add, e]
  linarith

/-- C105: with at least `N / κ` Euler steps per interval the order is one again. The script takes `M = 1 / δ`, that is `κ = T`. -/
theorem C105_order {Ω : Type*} [MeasurableSpace Ω] {P : Measure Ω} {B : Fin m → ℝ≥0 → Ω → ℝ}
    (hB : IsBrownianVec B P) {f : Field d} {Df : Vec d → ℝ → Vec d →L[ℝ] Vec d} {T L K Lt : ℝ} (hT : 0 < T)
    (hf : SmoothField f Df T L K) (htl : TimeLipschitz f T Lt) (S : Mat d m) (x0 : Vec d)
    {X : Ω → ℝ → Vec d} (hX : ∀ᵐ ω ∂P, SolvesAdditive f S (fun t j => B j t.toNNReal ω) x0 T (X ω)) (κ : ℝ) :
    ∃ A : ℝ, 0 ≤ A ∧ ∀ N : ℕ, 0 < N → ∀ M : ℕ, 0 < M → (N : ℝ) ≤ κ * M → ∀ (R : Ω → Rng) (key : Key) {C : Type}
      (bm : BmApprox C m) (a b : C → Vec m), (∀ t dt c, bm.eval t dt c = Foster.evalParabola t dt (a c) (b c)) →
      (∀ᵐ ω ∂P, ∀ k < N, ∀ c, (sdeSolver (R ω) key f (fun _ _ => S) x0 bm (T / N) N (eulerInt M)).2.2[k]? = some c →
        SameEndAndArea (fun t => bm.eval t (T / N) c) (fun t j => B j t.toNNReal ω) (k * (T / N)) (T / N)) →
      ∀ n ≤ N, ∃ y : Ω → Vec d, (∀ ω, (sdeSolver (R ω) key f (fun _ _ => S) x0 bm (T / N) N (eulerInt M)).2.1[n]? = some (y ω)) ∧
        Integrable (fun ω => ‖X ω (n * (T / N)) - y ω‖ ^ 2) P ∧
        ∫ ω, ‖X ω (n * (T / N)) - y ω‖ ^ 2 ∂P ≤ A * (T / N) ^ 2 := by
  obtain ⟨A, hA0, hA⟩ := C105_strong hB hT hf htl S x0 hX
  refine ⟨A * (1 + (κ / T) ^ 2), by positivity, ?_⟩
  intro N hN M hM hκ R key C bm a b hbm hm n hn
  obtain ⟨y, h1, h2, h3⟩ := hA N hN M hM R key bm a b hbm hm n hn
  refine ⟨y, h1, h2, h3.trans ?_⟩
  have hN' : (0 : ℝ) < N := by exact_mod_cast hN
  have hM' : (0 : ℝ) < M := by exact_mod_cast hM
  have h4 : 1 / (M : ℝ) ≤ κ / N := by
    rw [div_le_div_iff₀ hM' hN', one_mul]
    exact hκ
  have h5 : (1 / (M : ℝ)) ^ 2 ≤ (κ / N) ^ 2 := pow_le_pow_left₀ (by positivity) h4 2
  have e : (κ / N) ^ 2 = (κ / T) ^ 2 * (T / N) ^ 2 := by field_simp
  rw [mul_assoc]
  refine mul_le_mul_of_nonneg_left ?_ hA0
  nlinarith

/-- Euler steps on one interval with a constant drift. -/
theorem euler_const (g y : Vec d) (S : Mat d m) (a0 : ℝ) {δ : ℝ} (hδ : δ ≠ 0) {M : ℕ} (hM : 0 < M) (a b : Vec m) (n : ℕ) :
    eulerSolver y (additiveField (fun _ _ => g) S a0 δ a b) (δ / M) n = y + (n * (δ / M)) • g + S *ᵥ eulerNoise M a b n := by
  induction n with
  | zero => simp [eulerSolver_zero, eulerNoise_zero]
  | succ n ih =>
    rw [eulerSolver_succ, ih, eulerNoise_succ hδ hM, mulVec_add, mulVec_smul]
    simp only [additiveField]
    push_cast
    rw [smul_add, add_mul, add_smul, one_mul]
    abel

/-- C105: the term in `1 / M` is there. For a constant drift the error has exactly the normal law with covariance `3 t / M² S Sᵀ` at every
grid point `t`, however small `δ` is. -/
theorem C105_sharp {Ω : Type*} [MeasurableSpace Ω] {P : Measure Ω} {B : Fin m → ℝ≥0 → Ω → ℝ} (hB : IsBrownianVec B P) {T : ℝ} (hT : 0 < T)
    (g : Vec d) (S : Mat d m) (x0 : Vec d) {X : Ω → ℝ → Vec d}
    (hX : ∀ᵐ ω ∂P, SolvesAdditive (fun _ _ => g) S (fun t j => B j t.toNNReal ω) x0 T (X ω)) {N M : ℕ} (hN : 0 < N) (hM : 0 < M)
    (R : Ω → Rng) (key : Key) {C : Type} (bm : BmApprox C m) (a b : C → Vec m)
    (hbm : ∀ t dt c, bm.eval t dt c = Foster.evalParabola t dt (a c) (b c))
    (hm : ∀ᵐ ω ∂P, ∀ k < N, ∀ c, (sdeSolver (R ω) key (fun _ _ => g) (fun _ _ => S) x0 bm (T / N) N (eulerInt M)).2.2[k]? = some c →
        SameEndAndArea (fun t => bm.eval t (T / N) c) (fun t j => B j t.toNNReal ω) (k * (T / N)) (T / N)) {n : ℕ} (hn : n ≤ N) :
    ∃ y : Ω → Vec d, (∀ ω, (sdeSolver (R ω) key (fun _ _ => g) (fun _ _ => S) x0 bm (T / N) N (eulerInt M)).2.1[n]? = some (y ω)) ∧
      IsNormal P (fun ω => y ω - X ω (n * (T / N))) 0 ((3 * (n * (T / N)) / M ^ 2) • (S * Sᵀ)) ∧
      ∀ i, ∫ ω, (y ω i - X ω (n * (T / N)) i) ^ 2 ∂P = 3 * (n * (T / N)) / M ^ 2 * (S * Sᵀ) i i := by
  have hN' : (0 : ℝ) < N := by exact_mod_cast hN
  have hM' : (0 : ℝ) < M := by exact_mod_cast hM
  obtain ⟨δ, hδdef⟩ : ∃ δ, δ = T / N := ⟨_, rfl⟩
  rw [← hδdef] at hm ⊢
  have hδ : 0 < δ := by rw [hδdef]; positivity
  have hNδ : (N : ℝ) * δ = T := by rw [hδdef]; field_simp
  choose y hy1 hy0 hys using fun ω => sdeSolver_states (R ω) key (fun _ _ => g) (fun _ _ => S) x0 bm δ N (eulerInt M)
  have hcf : ∀ ω k, ∃ c, k < N → (sdeSolver (R ω) key (fun _ _ => g) (fun _ _ => S) x0 bm δ N (eulerInt M)).2.2[k]? = some c ∧
      y ω (k + 1) = eulerInt M ((key.child N k).child 2 1) (y ω k) (intervalField (fun _ _ => g) (fun _ _ => S) bm δ c (k * δ)) δ :=
    fun ω k => by
      by_cases hk : k < N
      · obtain ⟨c, hc⟩ := hys ω k hk
        exact ⟨c, fun _ => hc⟩
      · obtain ⟨c, -⟩ := hys ω 0 hN
        exact ⟨c, fun h => absurd h hk⟩
  choose c hc using hcf
  have hm' : ∀ᵐ ω ∂P, ∀ k < N, SameEndAndArea (fun t => Foster.evalParabola t δ (a (c ω k)) (b (c ω k))) (fun t j => B j t.toNNReal ω)
      (k * δ) δ := by
    filter_upwards [hm] with ω hω k hk
    have := hω k hk (c ω k) (hc ω k hk).1
    simpa only [hbm] using this
  have hstep : ∀ ω, ∀ k < N, y ω (k + 1) = y ω k + δ • g + S *ᵥ a (c ω k) + (Real.sqrt 6 / M) • S *ᵥ b (c ω k) := fun ω k hk => by
    have hfield : intervalField (fun _ _ => g) (fun _ _ => S) bm δ (c ω k) (k * δ) =
        additiveField (fun _ _ => g) S (k * δ) δ (a (c ω k)) (b (c ω k)) := by
      funext z t
      simp only [intervalField, additiveField]
      congr 2
      congr 1
      funext s
      exact hbm s δ _
    rw [(hc ω k hk).2, hfield]
    show eulerSolver _ _ _ _ = _
    rw [euler_const g _ S _ hδ.ne' hM, eulerNoise_end hM, mul_div_cancel₀ _ hM'.ne', mulVec_add, mulVec_smul, add_assoc (_ + _)]
  have hsum : ∀ᵐ ω ∂P, ∀ k ≤ N, y ω k = x0 + (k * δ) • g + S *ᵥ ((fun j => B j (k * δ).toNNReal ω) - fun j => B j (0 : ℝ).toNNReal ω) +
      ∑ i ∈ Finset.range k, (Real.sqrt 6 / M) • S *ᵥ b (c ω i) := by
    filter_upwards [hm'] with ω hω k
    induction k with
    | zero => intro _; rw [hy0]; simp
    | succ k ih =>
      intro hk
      have hend := (hω k (by omega)).atEnd
      rw [evalParabola_end hδ.ne'] at hend
      rw [hstep ω k (by omega), ih (by omega), Finset.sum_range_succ, hend, show ((k + 1 : ℕ) : ℝ) * δ = k * δ + δ by push_cast; ring]
      simp only [mulVec_sub]
      rw [add_smul]
      abel
  refine ⟨fun ω => y ω n, fun ω => hy1 ω n hn, ?_⟩
  have hl : IsNormal P (fun ω => y ω n - X ω (n * δ)) 0 ((3 * (n * δ) / M ^ 2) • (S * Sᵀ)) := by
    have h := area_sum_law hB hδ hm' S (Real.sqrt 6 / M) hn
    rw [show (Real.sqrt 6 / M) ^ 2 * (n * δ / 2) = 3 * (n * δ) / M ^ 2 by
      rw [div_pow, Real.sq_sqrt (by norm_num)]; ring] at h
    refine h.congr_ae ?_
    filter_upwards [hsum, hX] with ω h1 h2
    have ht : (n : ℝ) * δ ∈ Icc 0 T :=
      ⟨by positivity, by rw [← hNδ]; exact mul_le_mul_of_nonneg_right (by exact_mod_cast hn) hδ.le⟩
    rw [h1 n hn, h2.eq _ ht, intervalIntegral.integral_const, sub_zero]
    abel
  refine ⟨hl, fun i => ?_⟩
  have := (hl.second_moment i).2
  rw [Matrix.smul_apply, smul_eq_mul] at this
  exact this

/-- C105: the law of the states with the parabolas that `get_approx` draws, for a constant drift: the variance exceeds that of the
Brownian motion by the factor `1 + 3 / M²`, whatever `δ` is. -/
theorem C105_law {Ω : Type*} [MeasurableSpace Ω] {P : Measure Ω} {R : Ω → Rng} (hR : IdealNormals P R) (key : Key) (g : Vec d) (S : Mat d m)
    (x0 : Vec d) {δ : ℝ} (hδ : 0 < δ) {N M : ℕ} (hM : 0 < M) {n : ℕ} (hn : n ≤ N) :
    ∃ y : Ω → Vec d,
      (∀ ω, (sdeSolver (R ω) key (fun _ _ => g) (fun _ _ => S) x0 (Foster.getApprox m) δ N (eulerInt M)).2.1[n]? = some (y ω)) ∧
      IsNormal P y (x0 + (n * δ) • g) (((1 + 3 / M ^ 2) * (n * δ)) • (S * Sᵀ)) := by
  have hM' : (0 : ℝ) < M := by exact_mod_cast hM
  choose y hy1 hy0 hys using fun ω => sdeSolver_states (R ω) key (fun _ _ => g) (fun _ _ => S) x0 (Foster.getApprox m) δ N (eulerInt M)
  have hcf : ∀ ω k, ∃ c : Vec m × Vec m, k < N →
      (sdeSolver (R ω) key (fun _ _ => g) (fun _ _ => S) x0 (Foster.getApprox m) δ N (eulerInt M)).2.2[k]? = some c ∧
      y ω (k + 1) = eulerInt M ((key.child N k).child 2 1) (y ω k)
        (intervalField (fun _ _ => g) (fun _ _ => S) (Foster.getApprox m) δ c (k * δ)) δ := fun ω k => by
    by_cases hk : k < N
    · obtain ⟨c, hc⟩ := hys ω k hk
      exact ⟨c, fun _ => hc⟩
    · exact ⟨(0, 0), fun h => absurd h hk⟩
  choose c hc using hcf
  refine ⟨fun ω => y ω n, fun ω => hy1 ω n hn, ?_⟩
  have hstep : ∀ ω, ∀ k < N, y ω (k + 1) = y ω k + δ • g + S *ᵥ ((c ω k).1 + (Real.sqrt 6 / M) • (c ω k).2) := fun ω k hk => by
    have hfield : intervalField (fun _ _ => g) (fun _ _ => S) (Foster.getApprox m) δ (c ω k) (k * δ) =
        additiveField (fun _ _ => g) S (k * δ) δ (c ω k).1 (c ω k).2 := rfl
    rw [(hc ω k hk).2, hfield]
    show eulerSolver _ _ _ _ = _
    rw [euler_const g _ S _ hδ.ne' hM, eulerNoise_end hM, mul_div_cancel₀ _ hM'.ne']
  have hsum : ∀ ω, ∀ k ≤ N, y ω k = x0 + (k * δ) • g + ∑ i ∈ Finset.range k, S *ᵥ ((c ω i).1 + (Real.sqrt 6 / M) • (c ω i).2) := by
    intro ω k
    induction k with
    | zero => intro _; rw [hy0]; simp
    | succ k ih =>
      intro hk
      rw [hstep ω k (by omega), ih (by omega), Finset.sum_range_succ, show ((k + 1 : ℕ) : ℝ) * δ = k * δ + δ by push_cast; ring, add_smul]
      abel
  have h := (C91_code_law hR key (fun _ _ => g) (fun _ _ => S) x0 hδ N (eulerInt M) (fun ω k => (c ω k).1) (fun ω k => (c ω k).2)
    (fun ω k hk => (hc ω k hk).1)).affine (κ := Fin d) (x0 + (n * δ) • g)
    (Matrix.of fun i (q : Fin N × Fin m × Fin 2) => if (q.1 : ℕ) < n then ![S i q.2.1, Real.sqrt 6 / M * S i q.2.1] q.2.2 else 0)
  have hsumN : ∀ u : ℕ → ℝ, ∑ k : Fin N, (if (k : ℕ) < n then u k else 0) = ∑ k ∈ Finset.range n, u k := fun u => by
    rw [← Finset.sum_range (fun k => if k < n then u k else 0), ← Finset.sum_filter]
    congr 1
    ext k
    simp only [Finset.mem_filter, Finset.mem_range]
    omega
  have e1 : ∀ ω, (x0 + ((n : ℝ) * δ) • g) +
      (Matrix.of fun i (q : Fin N × Fin m × Fin 2) => if (q.1 : ℕ) < n then ![S i q.2.1, Real.sqrt 6 / M * S i q.2.1] q.2.2 else 0) *ᵥ
      (fun q : Fin N × Fin m × Fin 2 => ![(c ω q.1).1 q.2.1, (c ω q.1).2 q.2.1] q.2.2) = y ω n := fun ω => by
    rw [hsum ω n hn]
    congr 1
    funext i
    rw [Finset.sum_apply]
    simp only [mulVec, dotProduct, Matrix.of_apply, Fintype.sum_prod_type, Fin.sum_univ_two, cons_val_zero, cons_val_one,
      cons_val_fin_one, ite_mul, zero_mul, Pi.add_apply, Pi.smul_apply, smul_eq_mul]
    rw [← hsumN fun k => ∑ j, S i j * ((c ω k).1 j + Real.sqrt 6 / M * (c ω k).2 j)]
    refine Finset.sum_congr rfl fun k _ => ?_
    split_ifs with hk
    · refine Finset.sum_congr rfl fun j _ => ?_
      ring
    · simp
  have e2 : (Matrix.of fun i (q : Fin N × Fin m × Fin 2) => if (q.1 : ℕ) < n then ![S i q.2.1, Real.sqrt 6 / M * S i q.2.1] q.2.2 else 0) *
      (diagonal fun q : Fin N × Fin m × Fin 2 => ![δ, δ / 2] q.2.2) *
      (Matrix.of fun i (q : Fin N × Fin m × Fin 2) => if (q.1 : ℕ) < n then ![S i q.2.1, Real.sqrt 6 / M * S i q.2.1] q.2.2 else 0)ᵀ =
      ((1 + 3 / (M : ℝ) ^ 2) * (n * δ)) • (S * Sᵀ) := by
    ext i j
    rw [mul_apply, Matrix.smul_apply, mul_apply]
    simp only [mul_diagonal, Matrix.of_apply, transpose_apply, Fintype.sum_prod_type, Fin.sum_univ_two, cons_val_zero, cons_val_one,
      cons_val_fin_one, smul_eq_mul, Finset.mul_sum]
    have h66 : Real.sqrt 6 * Real.sqrt 6 = 6 := Real.mul_self_sqrt (by norm_num)
    have e : ∀ k : Fin N, (∑ l, ((if (k : ℕ) < n then S i l else 0) * δ * (if (k : ℕ) < n then S j l else 0) +
        (if (k : ℕ) < n then Real.sqrt 6 / M * S i l else 0) * (δ / 2) * (if (k : ℕ) < n then Real.sqrt 6 / M * S j l else 0))) =
        if (k : ℕ) < n then ∑ l, (1 + 3 / (M : ℝ) ^ 2) * δ * (S i l * S j l) else 0 := fun k => by
      split_ifs with hk
      · refine Finset.sum_congr rfl fun l _ => ?_
        rw [show Real.sqrt 6 / M * S i l * (δ / 2) * (Real.sqrt 6 / M * S j l) = (Real.sqrt 6 * Real.sqrt 6) * (S i l * S j l * δ / 2 / M ^ 2) by
          field_simp, h66]
        field_simp
        ring
      · simp
    rw [Finset.sum_congr rfl fun k _ => e k, hsumN fun _ => _, Finset.sum_const, Finset.card_range, nsmul_eq_mul, Finset.mul_sum]
    refine Finset.sum_congr rfl fun l _ => ?_
    ring
  rw [e2, mulVec_zero, add_zero] at h
  simpa only [e1] using h

/-- Euler steps that stay in a ball only use the values of the field in that ball. -/
theorem eulerSolver_congr {vf vf' : Vec d → ℝ → Vec d} {y : Vec d} {h V ρ : ℝ} {M : ℕ} (hh : 0 ≤ h)
    (hV : ∀ x, ∀ t ∈ Icc 0 (M * h), ‖vf x t‖ ≤ V) (hρ : M * h * V ≤ ρ)
    (heq : ∀ x, ‖x - y‖ ≤ ρ → ∀ t ∈ Icc 0 (M * h), vf x t = vf' x t) :
    ∀ n ≤ M, eulerSolver y vf h n = eulerSolver y vf' h n ∧ ‖eulerSolver y vf h n - y‖ ≤ n * h * V := by
  have hV0 : 0 ≤ V := (norm_nonneg _).trans (hV y 0 ⟨le_rfl, by positivity⟩)
  have hle : ∀ n ≤ M, (n : ℝ) * h * V ≤ ρ := fun n hn => by
    refine le_trans ?_ hρ
    gcongr
  intro n
  induction n with
  | zero => intro _; simp [eulerSolver_zero]
  | succ n ih =>
    intro hn
    obtain ⟨e, h1⟩ := ih (by omega)
    have ht : ((n : ℝ) * h) ∈ Icc 0 (M * h) := ⟨by positivity, mul_le_mul_of_nonneg_right (by exact_mod_cast (by omega : n ≤ M)) hh⟩
    rw [eulerSolver_succ, eulerSolver_succ, ← e]
    obtain ⟨x, hx⟩ : ∃ x, x = eulerSolver y vf h n := ⟨_, rfl⟩
    rw [← hx] at h1 ⊢
    refine ⟨by rw [heq x (h1.trans (hle n (by omega))) _ ht], ?_⟩
    rw [add_sub_right_comm]
    refine (norm_add_le _ _).trans ?_
    rw [norm_smul, Real.norm_of_nonneg hh]
    have := mul_le_mul_of_nonneg_left (hV x _ ht) hh
    push_cast
    nlinarith

set_option maxHeartbeats 1000000 in
/-- C105: order one in probability, for a drift with two continuous derivatives whose equation has a solution up to the time `T`, with at
least `N / κ` Euler steps per interval. -/
theorem C105_prob {Ω : Type*} [MeasurableSpace Ω] {P : Measure Ω} {B : Fin m → ℝ≥0 → Ω → ℝ} (hB : IsBrownianVec B P) {f : Field d}
    (hf : ContDiff ℝ 2 (Function.uncurry f)) {T : ℝ} (hT : 0 < T) (S : Mat d m) (x0 : Vec d)
    {X : Ω → ℝ → Vec d} (hX : ∀ᵐ ω ∂P, SolvesAdditive f S (fun t j => B j t.toNNReal ω) x0 T (X ω)) {ε : ℝ} (hε : 0 < ε) (κ : ℝ) :
    ∃ (A : ℝ) (N0 : ℕ), ∀ N ≥ N0, ∀ M : ℕ, 0 < M → (N : ℝ) ≤ κ * M → ∀ (R : Ω → Rng) (key : Key) {C : Type}
      (bm : BmApprox C m) (a b : C → Vec m), (∀ t dt c, bm.eval t dt c = Foster.evalParabola t dt (a c) (b c)) →
      (∀ᵐ ω ∂P, ∀ k < N, ∀ c, (sdeSolver (R ω) key f (fun _ _ => S) x0 bm (T / N) N (eulerInt M)).2.2[k]? = some c →
        SameEndAndArea (fun t => bm.eval t (T / N) c) (fun t j => B j t.toNNReal ω) (k * (T / N)) (T / N)) →
      ∀ n ≤ N, ∃ y : Ω → Vec d, (∀ ω, (sdeSolver (R ω) key f (fun _ _ => S) x0 bm (T / N) N (eulerInt M)).2.1[n]? = some (y ω)) ∧
        P {ω | A * (T / N) < ‖X ω (n * (T / N)) - y ω‖} ≤ ENNReal.ofReal ε := by
  haveI : IsProbabilityMeasure P := hB.isProb
  obtain ⟨s, hs, hS⟩ := exists_mulVec_bound S
  obtain ⟨ρ, g, Dg, L, K, F, X', hL, hF, hg, hgt, hgF, heq, hX', N1, hN1⟩ := exists_good hB hf hT S x0 hX (ε := ε / 3)
    (κ := 1 / (40 * (s + 1))) (by positivity) (by positivity)
  obtain ⟨A, -, hA⟩ := C105_order hB hT hg hgt S x0 hX' κ
  obtain ⟨A', hA', hAA, N2, hN2⟩ := exists_prob_consts hε hT A
  obtain ⟨N3, hN3⟩ := exists_nat_ge (4 * F * T)
  refine ⟨A', N1 + N2 + N3 + 1, ?_⟩
  intro N hN M hM hκ R key C bm a b hbm hm n hn
  have hN0 : 0 < N := by omega
  have hN' : (0 : ℝ) < N := by exact_mod_cast hN0
  have hM' : (0 : ℝ) < M := by exact_mod_cast hM
  obtain ⟨G0, hG0, hG1⟩ := hN1 N (by omega)
  have hsmall := hN2 N (by omega)
  have hA1 := hA N hN0 M hM hκ R key bm a b hbm (by
    filter_upwards [hm] with ω hω k hk c hc
    refine hω k hk c ?_
    rw [sdeSolver_coeffs] at hc ⊢
    exact hc)
  obtain ⟨δ, hδdef⟩ : ∃ δ, δ = T / N := ⟨_, rfl⟩
  rw [← hδdef] at hm hA1 hG1 hsmall ⊢
  have hδ : 0 < δ := by rw [hδdef]; positivity
  have hNδ : (N : ℝ) * δ = T := by rw [hδdef]; field_simp
  have hδF : δ * F ≤ 1 / 4 := by
    have h1 : 4 * F * T ≤ N := hN3.trans (by exact_mod_cast (by omega : N3 ≤ N))
    rw [← hNδ] at h1
    have h2 : 4 * F * δ ≤ 1 := by
      by_contra hcon
      push Not at hcon
      nlinarith
    linarith
  have hkδ : ∀ k < N, (k : ℝ) * δ + δ ≤ T := fun k hk => by
    have : ((k + 1 : ℕ) : ℝ) * δ ≤ N * δ := mul_le_mul_of_nonneg_right (by exact_mod_cast hk) hδ.le
    rw [hNδ] at this
    push_cast at this
    linarith
  have hint : ∀ k (x : Vec d) (vf : Field d), eulerInt M k x vf δ = eulerSolver x vf (δ / M) M := fun k x vf => rfl
  have hfield : ∀ (f : Field d) (c : C) (a0 : ℝ), intervalField f (fun _ _ => S) bm δ c a0 = additiveField f S a0 δ (a c) (b c) :=
    fun f c a0 => by
      funext z t
      simp only [intervalField, additiveField]
      congr 2
      congr 1
      funext s
      exact hbm s δ c
  choose y hy1 hy0 hys using fun ω => sdeSolver_states (R ω) key f (fun _ _ => S) x0 bm δ N (eulerInt M)
  choose y' hy1' hy0' hys' using fun ω => sdeSolver_states (R ω) key g (fun _ _ => S) x0 bm δ N (eulerInt M)
  refine ⟨fun ω => y ω n, fun ω => hy1 ω n hn, ?_⟩
  have hmn : P {ω | ∀ k < N, ∀ c, (sdeSolver (R ω) key f (fun _ _ => S) x0 bm δ N (eulerInt M)).2.2[k]? = some c →
      SameEndAndArea (fun t => bm.eval t δ c) (fun t j => B j t.toNNReal ω) (k * δ) δ}ᶜ = 0 := mem_ae_iff.mp hm
  have hA2 : ∀ k ≤ N, Integrable (fun ω => ‖X' ω (k * δ) - y' ω k‖ ^ 2) P ∧ ∫ ω, ‖X' ω (k * δ) - y' ω k‖ ^ 2 ∂P ≤ A * δ ^ 2 :=
    fun k hk => by
      obtain ⟨v, hv1, hv2⟩ := hA1 k hk
      have e : v = fun ω => y' ω k := funext fun ω => Option.some.inj ((hv1 ω).symm.trans (hy1' ω k hk))
      rw [e] at hv2
      exact hv2
  refine prob_of_localised (x := fun k ω => X ω (k * δ)) (x' := fun k ω => X' ω (k * δ)) (y := fun k ω => y ω k) (y' := fun k ω => y' ω k)
    (N := N) (G := G0 ∩ {ω | ∀ k < N, ∀ c, (sdeSolver (R ω) key f (fun _ _ => S) x0 bm δ N (eulerInt M)).2.2[k]? = some c →
      SameEndAndArea (fun t => bm.eval t δ c) (fun t j => B j t.toNNReal ω) (k * δ) δ}) hδ hε ?_ (fun k hk => (hA2 k hk).1)
    (fun k hk => (hA2 k hk).2) hsmall ?_ hA' hAA hn
  · rw [compl_inter]
    refine (measure_union_le _ _).trans ?_
    rw [hmn, add_zero]
    exact hG0
  · rintro ω ⟨hω1, hω2⟩ herr
    obtain ⟨hXX, hw⟩ := hG1 ω hω1
    have hgrid : ∀ k ≤ N, (k : ℝ) * δ ∈ Icc 0 T := fun k hk => by
      refine ⟨by positivity, ?_⟩
      rw [← hNδ]
      exact mul_le_mul_of_nonneg_right (by exact_mod_cast hk) hδ.le
    have hyb : ∀ k ≤ N, ‖y' ω k‖ ≤ ρ + 1 / 2 := fun k hk => by
      have h1 := herr k hk
      obtain ⟨h2, h3⟩ := hXX _ (hgrid k hk)
      rw [h2] at h3
      have : y' ω k = X' ω (k * δ) - (X' ω (k * δ) - y' ω k) := by abel
      rw [this]
      refine (norm_sub_le _ _).trans ?_
      linarith
    have hyy : ∀ k ≤ N, y ω k = y' ω k := by
      intro k
      induction k with
      | zero => exact fun _ => by rw [hy0, hy0']
      | succ k ih =>
        intro hk
        have hkN : k < N := by omega
        obtain ⟨c, hc1, hc2⟩ := hys ω k hkN
        obtain ⟨c', hc1', hc2'⟩ := hys' ω k hkN
        have hcc : c = c' := by
          have h1 := hc1
          rw [sdeSolver_coeffs] at h1 hc1'
          exact Option.some.inj (h1.symm.trans hc1')
        subst hcc
        have hmk := hω2 k hkN c hc1
        simp only [hbm] at hmk
        have hsl := matched_slope hδ hmk (κ := 1 / (40 * (s + 1))) fun t ht j => hw k hkN t ht j
        have hMh : (M : ℝ) * (δ / M) = δ := by field_simp
        have hsκ : s * (10 * (1 / (40 * (s + 1))) / δ) * δ ≤ 1 / 4 := by
          have h1 : s * (10 * (1 / (40 * (s + 1))) / δ) * δ = s / (s + 1) * (1 / 4) := by field_simp; ring
          rw [h1]
          have h2 : s / (s + 1) ≤ 1 := (div_le_one (by positivity)).mpr (by linarith)
          linarith
        have hjac : ∀ t ∈ Icc 0 δ, ‖S *ᵥ jacT (fun s => Foster.evalParabola s δ (a c) (b c)) t‖ ≤ s * (10 * (1 / (40 * (s + 1))) / δ) := by
          intro t ht
          refine (hS _).trans (mul_le_mul_of_nonneg_left ?_ hs)
          rw [jacT_evalParabola, pi_norm_le_iff_of_nonneg (by positivity)]
          exact fun j => hsl t ht j
        have hcg := (eulerSolver_congr (vf := additiveField g S (k * δ) δ (a c) (b c)) (vf' := additiveField f S (k * δ) δ (a c) (b c))
          (y := y' ω k) (h := δ / M) (V := F + s * (10 * (1 / (40 * (s + 1))) / δ)) (ρ := 1 / 2) (M := M) (by positivity)
          (fun x t ht => by
            rw [hMh] at ht
            exact (norm_add_le _ _).trans (add_le_add (hgF _ _) (hjac t ht)))
          (by
            rw [hMh, mul_add, mul_comm δ (s * _)]
            linarith)
          (fun x hx t ht => by
            rw [hMh] at ht
            simp only [additiveField]
            rw [heq x _ (t + k * δ) ⟨by have := ht.1; positivity, by linarith [ht.2, hkδ k hkN]⟩]
            have : x = (x - y' ω k) + y' ω k := by abel
            rw [this]
            refine (norm_add_le _ _).trans ?_
            linarith [hyb k hkN.le]) M le_rfl).1
        rw [hc2, hc2', hint, hint, hfield, hfield, ih hkN.le, hcg]
    exact fun k hk => ⟨(hXX _ (hgrid k hk)).1, hyy k hk⟩

/-- C105: the quantity that `strong_convergence_parabola_ode.py` saves. The low-memory solver is run with an ideal generator and
Euler steps inside the intervals; its distance to the Euler-Maruyama reference exceeds `A δ` with probability at most `ε`. -/
theorem C105_measured {f : Field d} (hf : ContDiff ℝ 2 (Function.uncurry f)) {T : ℝ}
    (hT : 0 < T) (S : Mat d m) (x0 : Vec d) (hsol : ∀ w : ℝ → Vec m, Continuous w → ∃ x, SolvesAdditive f S w x0 T x) {ε : ℝ} (hε : 0 < ε)
    (κ : ℝ) :
    ∃ (A : ℝ) (N0 : ℕ), ∀ {Ω : Type} [MeasurableSpace Ω] {Q : Measure Ω} {R : Ω → Rng}, IdealNormals Q R → ∀ N ≥ N0, ∀ M : ℕ, 0 < M →
      (N : ℝ) ≤ κ * M → ∀ r : ℕ, 0 < r → ∀ (key : Key), ∀ n ≤ N, ∃ y z : Ω → Vec d,
        (∀ ω, ∃ ts traj traj2, ramSolver (R ω) key f (fun _ _ => S) x0 x0 (T / N) N r (eulerInt M) = .ok (ts, traj, traj2) ∧
          ts[n]? = some (n * (T / N)) ∧ traj[n]? = some (y ω) ∧ traj2[n]? = some (z ω)) ∧
        Q {ω | A * (T / N) < ‖y ω - z ω‖} ≤ ENNReal.ofReal ε := by
  obtain ⟨B, hB⟩ := Levy.exists_brownianVec m
  obtain ⟨P, hP⟩ : ∃ P : Measure (Fin m → ℕ × ℕ → ℝ), P = Measure.pi fun _ => Levy.noise := ⟨_, rfl⟩
  rw [← hP] at hB
  obtain ⟨X, hX⟩ := hB.exists_solution_of_paths hsol
  obtain ⟨A1, N1, h1⟩ := C105_prob hB hf hT S x0 hX (half_pos hε) κ
  obtain ⟨A2, N2, h2⟩ := C103_em hB hf hT S x0 hX (half_pos hε)
  refine ⟨A1 + |A2|, N1 + N2 + 1, ?_⟩
  intro Ω _ Q R hR N hN M hM hκ r hr key n hn
  have hN0 : 0 < N := by omega
  have hN' : (0 : ℝ) < N := by exact_mod_cast hN0
  have hM' : (0 : ℝ) < M := by exact_mod_cast hM
  have hr' : (1 : ℝ) ≤ r := by exact_mod_cast hr
  have h1' := h1 N (by omega) M hM hκ
  obtain ⟨z0, hz1, hz2⟩ := h2 (N * r) (le_trans (by omega) (Nat.le_mul_of_pos_right N hr)) (n * r) (Nat.mul_le_mul_right r hn)
  obtain ⟨δ, hδdef⟩ : ∃ δ, δ = T / N := ⟨_, rfl⟩
  obtain ⟨η, hη⟩ : ∃ η, η = δ / r := ⟨_, rfl⟩
  have hηT : T / (N * r : ℕ) = η := by rw [hη, hδdef]; push_cast; field_simp
  have hδ : 0 < δ := by rw [hδdef]; positivity
  have hη0 : 0 < η := by rw [hη]; positivity
  have hrη : (r : ℝ) * η = δ := by rw [hη]; field_simp
  have et : ((n * r : ℕ) : ℝ) * η = n * δ := by rw [← hrη]; push_cast; ring
  rw [hηT] at hz1 hz2
  rw [et] at hz2
  rw [← hδdef] at h1' ⊢
  have hηδ : η ≤ δ := by rw [hη]; exact div_le_self hδ.le hr'
  obtain ⟨R0, hm, htr⟩ := ram_transfer_of hB hf.continuous S x0 hR hδ hr hη key (eulerInt M)
    (J := fun k x a b => eulerSolver x (additiveField f S (k * δ) δ a b) (δ / M) M)
    (fun k _ => (continuous_eulerStep hf.continuous S (k * δ) δ (δ / M) M).measurable) (fun _ _ _ _ _ _ => rfl) hn
  obtain ⟨y0, hy1, hy2⟩ := h1' R0 key (Foster.getApproxFine m r) (fun c => c.1) (fun c => c.2.1) (fun _ _ _ => rfl) hm n hn
  obtain ⟨y, z, hyz, hid⟩ := htr y0 z0 hy1 hz1
  refine ⟨y, z, hyz, ?_⟩
  have hide : IdentDistrib (fun ω => ‖y0 ω - z0 ω‖) (fun ω => ‖y ω - z ω‖) P Q :=
    hid.comp (u := fun p : Vec d × Vec d => ‖p.1 - p.2‖) (measurable_fst.sub measurable_snd).norm
  have hmeas := hide.measure_mem_eq (s := Ioi ((A1 + |A2|) * δ)) measurableSet_Ioi
  have e : Q {ω | (A1 + |A2|) * δ < ‖y ω - z ω‖} = P {ω | (A1 + |A2|) * δ < ‖y0 ω - z0 ω‖} := hmeas.symm
  rw [e]
  have hsub : {ω | (A1 + |A2|) * δ < ‖y0 ω - z0 ω‖} ⊆ {ω | A1 * δ < ‖X ω (n * δ) - y0 ω‖} ∪ {ω | A2 * η < ‖X ω (n * δ) - z0 ω‖} := by
    intro ω hω
    rw [mem_setOf_eq] at hω
    by_contra hcon
    simp only [mem_union, mem_setOf_eq, not_or, not_lt] at hcon
    have h3 : ‖y0 ω - z0 ω‖ ≤ ‖X ω (n * δ) - y0 ω‖ + ‖X ω (n * δ) - z0 ω‖ := by
      rw [show y0 ω - z0 ω = (X ω (n * δ) - z0 ω) - (X ω (n * δ) - y0 ω) by abel]
      exact (norm_sub_le _ _).trans (le_of_eq (add_comm _ _))
    have h4 : A2 * η ≤ |A2| * δ := mul_le_mul (le_abs_self _) hηδ hη0.le (abs_nonneg _)
    linarith [hcon.1, hcon.2]
  refine (measure_mono hsub).trans ((measure_union_le _ _).trans ((add_le_add hy2 hz2).trans ?_))
  rw [← ENNReal.ofReal_add (by positivity) (by positivity), add_halves]

/-- C105: FitzHugh-Nagumo as in the script, which takes `T = 10` and `M = 1 / δ = N / 10` Euler steps and as many fine steps. -/
theorem C105_script {ε : ℝ} (hε : 0 < ε) : ∃ (A : ℝ) (M0 : ℕ), ∀ {Ω : Type} [MeasurableSpace Ω] {Q : Measure Ω} {R : Ω → Rng},
    IdealNormals Q R → ∀ M ≥ M0, 0 < M → ∀ key, ∀ n ≤ 10 * M, ∃ y z : Ω → Vec 2,
      (∀ ω, ∃ ts traj traj2, ramSolver (R ω) key (toStratonovich Ivp.Fhn.drift Ivp.Fhn.sigma).1
            (toStratonovich Ivp.Fhn.drift Ivp.Fhn.sigma).2 Ivp.Fhn.x0 Ivp.Fhn.x0 (1 / M) (10 * M) M (eulerInt M) = .ok (ts, traj, traj2) ∧
        ts[n]? = some ((n : ℝ) * (1 / M)) ∧ traj[n]? = some (y ω) ∧ traj2[n]? = some (z ω)) ∧
      Q {ω | A * (1 / M) < ‖y ω - z ω‖} ≤ ENNReal.ofReal ε := by
  obtain ⟨A, N0, hA⟩ := C105_measured Ivp.Fhn.contDiff_drift (by norm_num : (0 : ℝ) < 10) (!![0; Ivp.Fhn.sig]) Ivp.Fhn.x0
      (fun w hw => Ivp.Fhn.exists_solution (by norm_num) _ (fun j => by fin_cases j; rfl) w hw _) hε 10
  refine ⟨A, N0, fun hR M hM hM0 key n hn => ?_⟩
  have hM' : (0 : ℝ) < M := by exact_mod_cast hM0
  have e : (10 : ℝ) / (10 * M : ℕ) = 1 / M := by push_cast; field_simp
  have := hA hR (10 * M) (by omega) M hM0 (by push_cast; exact le_rfl) M hM0 key n hn
  rw [e] at this
  have e1 : (toStratonovich Ivp.Fhn.drift Ivp.Fhn.sigma).1 = Ivp.Fhn.drift :=
    (C10_additive_noise Ivp.Fhn.drift fun _ => !![0; Ivp.Fhn.sig]).2
  rw [e1]
  exact this

/-- C105: a generator that satisfies the hypotheses, and a step number. -/
example : ∃ (A : ℝ) (M0 : ℕ), ∀ M ≥ M0, 0 < M → ∃ y z : _ → Vec 2,
    (∀ ω, ∃ ts traj traj2, ramSolver (drawsRng ω) [] (toStratonovich Ivp.Fhn.drift Ivp.Fhn.sigma).1
        (toStratonovich Ivp.Fhn.drift Ivp.Fhn.sigma).2 Ivp.Fhn.x0 Ivp.Fhn.x0 (1 / M) (10 * M) M (eulerInt M) = .ok (ts, traj, traj2) ∧
      traj[10 * M]? = some (y ω) ∧ traj2[10 * M]? = some (z ω)) ∧
    drawsMeasure {ω | A * (1 / M) < ‖y ω - z ω‖} ≤ ENNReal.ofReal 0.01 := by
  obtain ⟨A, M0, hA⟩ := C105_script (by norm_num : (0 : ℝ) < 0.01)
  refine ⟨A, M0, fun M hM hM0 => ?_⟩
  obtain ⟨y, z, h1, h2⟩ := hA idealNormals_drawsRng M hM hM0 [] (10 * M) le_rfl
  refine ⟨y, z, fun ω => ?_, h2⟩
  obtain ⟨ts, traj, traj2, g1, -, g2, g3⟩ := h1 ω
  exact ⟨ts, traj, traj2, g1, g2, g3⟩

/-- C105: the law of the test suite's Euler steps (`M = 100`) with a concrete generator. -/
example : ∃ y : _ → Vec 1, (∀ ω, (sdeSolver (drawsRng ω) [] (fun _ _ => 0) (fun _ _ => (1 : Mat 1 1)) 0 (Foster.getApprox 1) (1 / 100) 100
      (eulerInt 100)).2.1[100]? = some (y ω)) ∧ IsNormal drawsMeasure y 0 ((1 + 3 / 10000 : ℝ) • (1 : Mat 1 1)) := by
  obtain ⟨y, h1, h2⟩ := C105_law idealNormals_drawsRng [] (0 : Vec 1) (1 : Mat 1 1) 0 (by norm_num : (0 : ℝ) < 1 / 100) (N := 100) (M := 100)
    (by norm_num) (le_refl 100)
  refine ⟨y, h1, ?_⟩
  norm_num at h2 ⊢
  exact h2

/-- C105: for every Brownian motion there are a solution and a generator whose parabolas match it. -/
example {Ω : Type*} [MeasurableSpace Ω] {P : Measure Ω} {B : Fin m → ℝ≥0 → Ω → ℝ} (hB : IsBrownianVec B P) {f : Field d}
    {Df : Vec d → ℝ → Vec d →L[ℝ] Vec d} {T L K : ℝ} (hT : 0 < T) (hf : SmoothField f Df T L K) (S : Mat d m) (x0 : Vec d) {N M : ℕ}
    (hN : 0 < N) (key : Key) :
    (∃ X : Ω → ℝ → Vec d, ∀ᵐ ω ∂P, SolvesAdditive f S (fun t j => B j t.toNNReal ω) x0 T (X ω)) ∧
    ∃ R : Ω → Rng, ∀ᵐ ω ∂P, ∀ k < N, ∀ c,
      (sdeSolver (R ω) key f (fun _ _ => S) x0 (Foster.getApprox m) (T / N) N (eulerInt M)).2.2[k]? = some c →
        SameEndAndArea (fun t => (Foster.getApprox m).eval t (T / N) c) (fun t j => B j t.toNNReal ω) (k * (T / N)) (T / N) := by
  have hN' : (0 : ℝ) < N := by exact_mod_cast hN
  refine ⟨hB.exists_solution hT.le hf S x0, ?_⟩
  obtain ⟨δ, hδ⟩ : ∃ δ, δ = T / N := ⟨_, rfl⟩
  have hδ0 : 0 < δ := by rw [hδ]; positivity
  rw [← hδ]
  choose R hR using fun ω => exists_rng_coeffs (m := m) key hδ0 N fun k => ((fun j => B j (k * δ + δ).toNNReal ω) - (fun j => B j (k * δ).toNNReal ω),
    fun j => Real.sqrt 6 * ((∫ t in (0 : ℝ)..δ, (B j (k * δ + t).toNNReal ω - B j (k * δ).toNNReal ω)) / δ -
      ((fun j => B j (k * δ + δ).toNNReal ω) - (fun j => B j (k * δ).toNNReal ω)) j / 2))
  refine ⟨R, Eventually.of_forall fun ω k hk c hc => ?_⟩
  obtain ⟨_, c', -, h2, h3, -⟩ := sdeSolver_interval (R ω) key f (fun _ _ => S) x0 (Foster.getApprox m) δ N (eulerInt M) k hk
  have : c = c' := Option.some.inj (hc.symm.trans h2)
  rw [this, h3, hR ω k hk]
  exact exists_sameEndAndArea hδ0.ne' (fun t j => B j t.toNNReal ω) (k * δ)

end Verif
