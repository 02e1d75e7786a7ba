import Verif.Lemmas.RosRun
import Verif.Props.LinearMoments

/-!
# Property C131: strong order one of `sde_solver` with EKF1 and any number of filter steps per interval
-/

namespace Verif

open Matrix Spec Jnp Set MeasureTheory ProbabilityTheory Scripts Filter
open scoped NNReal

variable {d m : ℕ}

theorem rosCoeff_le {M : ℕ} (hM : 0 < M) : |Real.sqrt 6 * (M - 1) / (2 * (M : ℝ) ^ 3)| ≤ 2 ∧ |1 / (M : ℝ) ^ 2| ≤ 1 := by
  have hM1 : (1 : ℝ) ≤ M := by exact_mod_cast hM
  have h6 : Real.sqrt 6 ≤ 4 := by rw [Real.sqrt_le_left (by norm_num)]; norm_num
  have h60 : 0 ≤ Real.sqrt 6 := Real.sqrt_nonneg _
  have h2 : (1 : ℝ) ≤ M ^ 2 := one_le_pow₀ hM1
  have h3 : (M : ℝ) ≤ M ^ 3 := by nlinarith
  constructor
  · rw [abs_of_nonneg (div_nonneg (mul_nonneg h60 (by linarith)) (by positivity)), div_le_iff₀ (by positivity)]
    have := mul_le_mul h6 (by linarith : (M : ℝ) - 1 ≤ M ^ 3) (by linarith) (by norm_num)
    linarith
  · rw [abs_of_nonneg (by positivity), div_le_one (by positivity)]
    exact h2

set_option maxHeartbeats 1000000 in
/-- C131: strong order one in mean square of `sde_solver` with EKF1 and the once integrated Brownian motion prior, with any number `M` of
filter steps per interval, for an SDE with additive noise driven by a Brownian motion whose path the parabolas match in end point and
integral. The constant does not depend on the number of intervals, on `M`, on the scale of the prior or on the mode. -/
theorem C131_strong {la : LinAlg} (hla : la.Correct) {Ω : Type*} [MeasurableSpace Ω] {P : Measure Ω} {B : Fin m → ℝ≥0 → Ω → ℝ}
    (hB : IsBrownianVec B P) (hd : 0 < d) {f : Field d} {Df : Vec d → ℝ → Vec d →L[ℝ] Vec d} {T L K Lt : ℝ} (hT : 0 < T)
    (hf : SmoothField f Df T L K) (htl : TimeLipschitz f T Lt) (S : Mat d m) (x0 : Vec d)
    {X : Ω → ℝ → Vec d} (hX : ∀ᵐ ω ∂P, SolvesAdditive f S (fun t j => B j t.toNNReal ω) x0 T (X ω)) :
    ∃ A : ℝ, ∀ N : ℕ, 0 < N → ∀ M : ℕ, 0 < M → ∀ σ : ℝ, σ ≠ 0 → ∀ (sqrt : Bool) (rng : Rng) (R : Ω → Rng) (key : Key) {C : Type}
      (bm : BmApprox C m) (a b : C → Vec m), (∀ t dt c, bm.eval t dt c = Foster.evalParabola t dt (a c) (b c)) →
      ∀ odeInt : OdeInt (Vec d) d, (∀ k x vf, Ekf.ekf1 la rng none x vf (T / N / M) M sqrt
        (some ⟨_, IOUP.transition 0 σ 1 (T / N / M) d⟩) none = .ok (odeInt k x vf (T / N))) →
      (∀ᵐ ω ∂P, ∀ k < N, ∀ c, (sdeSolver (R ω) key f (fun _ _ => S) x0 bm (T / N) N odeInt).2.2[k]? = some c →
        SameEndAndArea (fun t => bm.eval t (T / N) c) (fun t j => B j t.toNNReal ω) (k * (T / N)) (T / N)) →
      ∀ n ≤ N, ∃ y : Ω → Vec d, (∀ ω, (sdeSolver (R ω) key f (fun _ _ => S) x0 bm (T / N) N odeInt).2.1[n]? = some (y ω)) ∧
        Integrable (fun ω => ‖X ω (n * (T / N)) - y ω‖ ^ 2) P ∧ ∫ ω, ‖X ω (n * (T / N)) - y ω‖ ^ 2 ∂P ≤ A * (T / N) ^ 2 := by
  wlog hL : 0 ≤ L generalizing L
  · refine this (L := 0) ⟨hf.cont, fun x y t ht => (hf.lip x y t ht).trans ?_, hf.deriv, hf.jac⟩ le_rfl
    exact mul_le_mul_of_nonneg_right (not_le.mp hL).le (norm_nonneg _)
  wlog hLt : 0 ≤ Lt generalizing Lt
  · refine this (Lt := 0) (fun x s hs t ht => (htl x s hs t ht).trans ?_) le_rfl
    refine mul_le_mul_of_nonneg_right (mul_le_mul_of_nonneg_right (not_le.mp hLt).le ?_) (abs_nonneg _)
    positivity
  have hK := hf.jac_const_nonneg hT
  obtain ⟨s, hs, hS⟩ := exists_mulVec_bound S
  obtain ⟨C1, hC1, hcons⟩ := trap_expansion hf hL hK hLt hT.le htl hs hS
  obtain ⟨C2, hC2, hros⟩ := ros_steps_expansion hf hL hK hLt hT.le htl hs hS
  obtain ⟨F0, hF0⟩ := isCompact_Icc.exists_bound_of_continuousOn (s := Icc 0 T) (f := fun t => f 0 t)
    (hf.cont.comp (by fun_prop : Continuous fun t : ℝ => ((0 : Vec d), t))).continuousOn
  have hF00 : 0 ≤ F0 := (norm_nonneg _).trans (hF0 0 ⟨le_rfl, hT.le⟩)
  obtain ⟨κ1, hκ1, hlin⟩ := rosLin_bound (d := d)
  obtain ⟨A, -, hA⟩ := strong_mart hB hT hf hL hLt htl S x0 hX (C0 := L * Real.exp (3 * L / 2 * T) * (1 + L * T))
    (C1 := C1 + C2) (C2 := C2 * (2 + F0 + L)) (κ0 := 4) (κ1 := (κ1 + 2) * L) (by positivity)
    (add_nonneg hC1 hC2) (by positivity) (by norm_num : (0 : ℝ) ≤ 4) (by positivity)
  refine ⟨A, ?_⟩
  intro N hN M hM σ hσ sqrt rng R key C bm a b hbm odeInt hode hm n hn
  have hN' : (0 : ℝ) < N := by exact_mod_cast hN
  have hM' : (0 : ℝ) < M := by exact_mod_cast hM
  obtain ⟨δ, hδdef⟩ : ∃ δ, δ = T / N := ⟨_, rfl⟩
  have hA' := hA N hN (lam := 1 / 2) (mu := 1 / Real.sqrt 6 + trapExcess M)
  rw [← hδdef] at hode hm hA' ⊢
  have hδ : 0 < δ := by rw [hδdef]; positivity
  have hNδ : (N : ℝ) * δ = T := by rw [hδdef]; field_simp
  have hkδ : ∀ k < N, (k : ℝ) * δ + δ ≤ T := fun k hk => by
    have : ((k + 1 : ℕ) : ℝ) * δ ≤ N * δ := mul_le_mul_of_nonneg_right (by exact_mod_cast hk) hδ.le
    rw [hNδ] at this
    push_cast at this
    linarith
  have hkI : ∀ k < N, (k : ℝ) * δ ∈ Icc 0 T := fun k hk => ⟨by positivity, by linarith [hkδ k hk]⟩
  have hjI : ∀ k < N, ∀ j < M, ((j : ℝ) + 1) * (δ / M) + k * δ ∈ Icc 0 T := fun k hk j hj => by
    have h1 : ((j + 1 : ℕ) : ℝ) * (δ / M) ≤ M * (δ / M) := mul_le_mul_of_nonneg_right (by exact_mod_cast hj) (by positivity)
    have h2 : (M : ℝ) * (δ / M) = δ := by field_simp
    push_cast at h1
    exact ⟨by positivity, by linarith [hkδ k hk]⟩
  have hDc : ∀ k < N, Continuous fun x => Df x (k * δ) := fun k hk => hf.continuous_jac hT (hkI k hk)
  have hfield : ∀ (c : C) (a0 : ℝ), intervalField f (fun _ _ => S) bm δ c a0 = additiveField f S a0 δ (a c) (b c) := fun c a0 => by
    funext z t
    simp only [intervalField, additiveField]
    congr 2
    congr 1
    funext s
    exact hbm s δ c
  obtain ⟨Θ, hΘ⟩ : ∃ Θ : ℕ → Vec d → Vec m → Vec m → Vec d, ∀ k y a b, Θ k y a b = (rosScheme (additiveField f S (k * δ) δ a b) (δ / M)
    ⟨y, additiveField f S (k * δ) δ a b y 0, 0, 0⟩ M).x := ⟨_, fun _ _ _ _ => rfl⟩
  have hint : ∀ κ x, ∀ k < N, ∀ a b, odeInt κ x (additiveField f S (k * δ) δ a b) δ = Θ k x a b := fun κ x k hk a b => by
    rw [hΘ]
    exact Except.ok.inj ((hode κ x _).symm.trans (ekf1_rosScheme hla rng hd _
      (fun j hj z => ((hf.deriv z _ (hjI k hk j hj)).add_const _).differentiableAt) hσ (by positivity) x sqrt))
  choose y hy1 hy0 hys using fun ω => sdeSolver_states (R ω) key f (fun _ _ => S) x0 bm δ N odeInt
  have hcf : ∀ ω k, ∃ c, k < N → (sdeSolver (R ω) key f (fun _ _ => S) x0 bm δ N odeInt).2.2[k]? = some c ∧
      y ω (k + 1) = odeInt ((key.child N k).child 2 1) (y ω k) (intervalField f (fun _ _ => S) bm δ c (k * δ)) δ := fun ω k => by
    by_cases hk : k < N
    · obtain ⟨c, hc⟩ := hys ω k hk
      exact ⟨c, fun _ => hc⟩
    · obtain ⟨c, -⟩ := hys ω 0 hN
      exact ⟨c, fun h => absurd h hk⟩
  choose c hc using hcf
  have h6 : |1 / Real.sqrt 6| ≤ 1 := by
    rw [abs_of_pos (by positivity), div_le_one (by positivity)]
    exact Real.one_le_sqrt.mpr (by norm_num)
  refine ⟨fun ω => y ω n, fun ω => hy1 ω n hn, ?_⟩
  have hΘm : ∀ k < N, Measurable fun p : Vec d × Vec m × Vec m => Θ k p.1 p.2.1 p.2.2 := fun k hk => by
    simp only [hΘ]
    exact (continuous_rosScheme hf.cont S (by positivity) (D := fun j x => Df x ((j + 1) * (δ / M) + k * δ))
      (fun j hj x => hf.deriv x _ (hjI k hk j hj)) (fun j hj => hf.continuous_jac hT (hjI k hk j hj))).measurable
  have hLc : ∀ k < N, Continuous fun y => (1 / (M : ℝ) ^ 2) • rosLin d (Df y (k * δ)) -
      (Real.sqrt 6 * (M - 1) / (2 * (M : ℝ) ^ 3)) • Df y (k * δ) := fun k hk => by
    have h1 : Continuous fun y => rosLin d (Df y (k * δ)) := rosLin_continuous.comp (hDc k hk)
    have h2 := hDc k hk
    exact (h1.fun_const_smul _).fun_sub (h2.fun_const_smul _)
  refine hA' (by rw [abs_of_pos (by norm_num)]; norm_num) ((abs_add_le _ _).trans (by linarith [trapExcess_bound hM]))
    (fun k y a b => (trapScheme (additiveField f S (k * δ) δ a b) (δ / M) y M).1)
    (fun k y a b => if k < N then Θ k y a b else y)
    (fun k => (continuous_fst.comp (continuous_trapScheme hf.cont S (k * δ) δ (δ / M) M)).measurable)
    (fun k => ?_)
    (fun k hk a b y y' => trap_stable hL hf.lip S hδ (by positivity) (hkδ k hk) hM a b y y')
    (fun k hk a b y => (hcons hδ (by positivity) (hkδ k hk) hM a b y le_rfl).trans ?_)
    (fun k y => (1 / (M : ℝ) ^ 2) • rosLin d (Df y (k * δ)) - (Real.sqrt 6 * (M - 1) / (2 * (M : ℝ) ^ 3)) • Df y (k * δ))
    hLc (fun k hk y => ?_)
    (fun k hk a b y => ?_) (fun k hk a b y => ?_) (fun k ω => y ω k) (fun ω k => a (c ω k)) (fun ω k => b (c ω k))
    (Eventually.of_forall hy0) ?_ (Eventually.of_forall fun ω k hk => ?_) n hn
  · by_cases hk : k < N
    · simp only [if_pos hk]
      exact hΘm k hk
    · simp only [if_neg hk]
      exact measurable_fst
  · have : 0 ≤ δ * (1 + ‖y‖ + ‖f y (k * δ)‖) ^ 2 + (‖a‖ + 4 * ‖b‖) ^ 2 := by positivity
    exact mul_le_mul_of_nonneg_left (mul_le_mul_of_nonneg_right (by linarith) this) hδ.le
  · obtain ⟨r1, r2⟩ := rosCoeff_le hM
    have hD := hf.norm_jac_le hL (hkI k hk) y
    refine (norm_sub_le _ _).trans ?_
    rw [norm_smul, norm_smul, Real.norm_eq_abs, Real.norm_eq_abs]
    have i1 : |1 / (M : ℝ) ^ 2| * ‖rosLin d (Df y (k * δ))‖ ≤ 1 * (κ1 * L) :=
      mul_le_mul r2 ((hlin _).trans (mul_le_mul_of_nonneg_left hD hκ1)) (norm_nonneg _) zero_le_one
    have i2 : |Real.sqrt 6 * (M - 1) / (2 * (M : ℝ) ^ 3)| * ‖Df y (k * δ)‖ ≤ 2 * L := mul_le_mul r1 hD (norm_nonneg _) (by norm_num)
    linarith
  · rw [if_pos hk]
    have i1 := (hros hδ (by positivity) (hkδ k hk) hM a b y le_rfl _ (hΘ k y a b)).1
    have i2 := hcons hδ (by positivity) (hkδ k hk) hM a b y le_rfl
    obtain ⟨W, hW⟩ : ∃ W, W = y + S *ᵥ a + δ • f y (k * δ) +
      δ • Df y (k * δ) (S *ᵥ ((1 / 2 : ℝ) • a + (1 / Real.sqrt 6 + trapExcess M) • b)) := ⟨_, rfl⟩
    rw [← hW] at i1 i2
    obtain ⟨Z, hZ⟩ : ∃ Z, Z = δ * (1 + ‖y‖ + ‖f y (k * δ)‖) ^ 2 + (‖a‖ + 4 * ‖b‖) ^ 2 := ⟨_, rfl⟩
    rw [← hZ] at i1 i2 ⊢
    rw [ContinuousLinearMap.sub_apply, ContinuousLinearMap.smul_apply, ContinuousLinearMap.smul_apply]
    generalize δ • ((1 / (M : ℝ) ^ 2) • (rosLin d (Df y (k * δ))) (S *ᵥ b) -
      (Real.sqrt 6 * (M - 1) / (2 * (M : ℝ) ^ 3)) • (Df y (k * δ)) (S *ᵥ b)) = V at i1 ⊢
    have e : Θ k y a b - ((trapScheme (additiveField f S (k * δ) δ a b) (δ / M) y M).1 + V) =
        (Θ k y a b - (W + V)) - ((trapScheme (additiveField f S (k * δ) δ a b) (δ / M) y M).1 - W) := by abel
    rw [e]
    refine (norm_sub_le _ _).trans ((add_le_add i1 i2).trans (le_of_eq ?_))
    ring
  · rw [if_pos hk]
    have hfy : ‖f y (k * δ)‖ ≤ F0 + L * ‖y‖ := by
      have h1 := hf.lip y 0 _ (hkI k hk)
      rw [sub_zero] at h1
      have h2 := hF0 _ (hkI k hk)
      have h3 : ‖f y (k * δ)‖ ≤ ‖f y (k * δ) - f 0 (k * δ)‖ + ‖f 0 (k * δ)‖ := by
        conv_lhs => rw [← sub_add_cancel (f y (k * δ)) (f 0 (k * δ))]
        exact norm_add_le _ _
      linarith
    have i1 := (hros hδ (by positivity) (hkδ k hk) hM a b y (H := 1 + ‖y‖ + (F0 + L * ‖y‖)) (by linarith) _ (hΘ k y a b)).2.1
    refine i1.trans (mul_le_mul_of_nonneg_left ?_ hδ.le)
    rw [mul_assoc]
    refine mul_le_mul_of_nonneg_left ?_ hC2
    have hy := norm_nonneg y
    obtain ⟨q, hq⟩ : ∃ q, q = ‖a‖ + 4 * ‖b‖ := ⟨_, rfl⟩
    have hq0 : 0 ≤ q := by rw [hq]; positivity
    rw [← hq]
    have := mul_nonneg hF00 hy
    have := mul_nonneg hF00 hq0
    have := mul_nonneg hL hq0
    nlinarith
  · filter_upwards [hm] with ω hω k hk
    have := hω k hk (c ω k) (hc ω k hk).1
    simpa only [hbm] using this
  · rw [(hc ω k hk).2, hfield, hint _ _ k hk, if_pos hk]

set_option maxHeartbeats 1000000 in
/-- C131: the quantity plotted by the pathwise experiments, for EKF1 with any number of filter steps per interval. The low-memory solver is run with an ideal generator on an SDE with
additive noise; `y` is the point at time `n δ` of the EKF1 trajectory, `z` the one of its Euler-Maruyama reference, computed with
`r ≥ 1` fine steps per interval. The mean square distance of the two is at most a constant times `δ²`. -/
theorem C131_measured {la : LinAlg} (hla : la.Correct) (hd : 0 < d) {f : Field d} {Df : Vec d → ℝ → Vec d →L[ℝ] Vec d} {T L K Lt : ℝ}
    (hT : 0 < T) (hf : SmoothField f Df T L K) (htl : TimeLipschitz f T Lt) (S : Mat d m) (x0 : Vec d) :
    ∃ A : ℝ, ∀ {Ω : Type} [MeasurableSpace Ω] {Q : Measure Ω} {R : Ω → Rng}, IdealNormals Q R → ∀ N : ℕ, 0 < N →
      ∀ M : ℕ, 0 < M → ∀ r : ℕ, 0 < r → ∀ σ : ℝ, σ ≠ 0 → ∀ (sqrt : Bool) (rng : Rng) (key : Key) (odeInt : OdeInt (Vec d) d),
      (∀ k x vf, Ekf.ekf1 la rng none x vf (T / N / M) M sqrt
        (some ⟨_, IOUP.transition 0 σ 1 (T / N / M) d⟩) none = .ok (odeInt k x vf (T / N))) →
      ∀ n ≤ N, ∃ y z : Ω → Vec d,
        (∀ ω, ∃ ts traj traj2, ramSolver (R ω) key f (fun _ _ => S) x0 x0 (T / N) N r odeInt = .ok (ts, traj, traj2) ∧
          ts[n]? = some (n * (T / N)) ∧ traj[n]? = some (y ω) ∧ traj2[n]? = some (z ω)) ∧
        Integrable (fun ω => ‖y ω - z ω‖ ^ 2) Q ∧ ∫ ω, ‖y ω - z ω‖ ^ 2 ∂Q ≤ A * (T / N) ^ 2 := by
  obtain ⟨B, hB⟩ := Levy.exists_brownianVec m
  obtain ⟨P, hP⟩ : ∃ P : Measure (Fin m → ℕ × ℕ → ℝ), P = Measure.pi fun _ => Levy.noise := ⟨_, rfl⟩
  rw [← hP] at hB
  obtain ⟨X, hX⟩ := hB.exists_solution hT.le hf S x0
  obtain ⟨A1, h1⟩ := C131_strong hla hB hd hT hf htl S x0 hX
  obtain ⟨A2, h2⟩ := C93_em_strong hB hT hf htl S x0 hX
  refine ⟨2 * A1 + 2 * |A2|, ?_⟩
  intro Ω _ Q R hR N hN M hM r hr σ hσ sqrt rng key odeInt hode n hn
  have hN' : (0 : ℝ) < N := by exact_mod_cast hN
  have hr' : (1 : ℝ) ≤ r := by exact_mod_cast hr
  have hM' : (0 : ℝ) < M := by exact_mod_cast hM
  have h1' := h1 N hN M hM σ hσ sqrt rng
  obtain ⟨z0, hz1, hz2, hz3⟩ := h2 (N * r) (by positivity) (n * r) (Nat.mul_le_mul_right r hn)
  obtain ⟨δ, hδdef⟩ : ∃ δ, δ = T / N := ⟨_, rfl⟩
  obtain ⟨η, hη⟩ : ∃ η, η = δ / r := ⟨_, rfl⟩
  have hηT : T / (N * r : ℕ) = η := by rw [hη, hδdef]; push_cast; field_simp
  have hδ : 0 < δ := by rw [hδdef]; positivity
  have hη0 : 0 < η := by rw [hη]; positivity
  have hrη : (r : ℝ) * η = δ := by rw [hη]; field_simp
  have et : ((n * r : ℕ) : ℝ) * η = n * δ := by rw [← hrη]; push_cast; ring
  rw [hηT] at hz1 hz2 hz3
  rw [et] at hz2 hz3
  rw [← hδdef] at hode h1' ⊢
  have hηδ : η ≤ δ := by rw [hη]; exact div_le_self hδ.le hr'
  have hNδ : (N : ℝ) * δ = T := by rw [hδdef]; field_simp
  have hjI : ∀ k < N, ∀ j < M, ((j : ℝ) + 1) * (δ / M) + k * δ ∈ Icc 0 T := fun k hk j hj => by
    have h1 : ((j + 1 : ℕ) : ℝ) * (δ / M) ≤ M * (δ / M) := mul_le_mul_of_nonneg_right (by exact_mod_cast hj) (by positivity)
    have h2 : (M : ℝ) * (δ / M) = δ := by field_simp
    have h3 : ((k + 1 : ℕ) : ℝ) * δ ≤ N * δ := mul_le_mul_of_nonneg_right (by exact_mod_cast hk) hδ.le
    rw [hNδ] at h3
    push_cast at h1 h3
    exact ⟨by positivity, by linarith⟩
  obtain ⟨R0, hm, htr⟩ := ram_transfer_of hB hf.cont S x0 hR hδ hr hη key odeInt
    (J := fun k x a b => (rosScheme (additiveField f S (k * δ) δ a b) (δ / M) ⟨x, additiveField f S (k * δ) δ a b x 0, 0, 0⟩ M).x)
    (fun k hk => (continuous_rosScheme hf.cont S (by positivity) (D := fun j x => Df x ((j + 1) * (δ / M) + k * δ))
      (fun j hj x => hf.deriv x _ (hjI k hk j hj)) (fun j hj => hf.continuous_jac hT (hjI k hk j hj))).measurable)
    (fun κ x k hk a b => Except.ok.inj ((hode κ x _).symm.trans (ekf1_rosScheme hla rng hd _
      (fun j hj z => ((hf.deriv z _ (hjI k hk j hj)).add_const _).differentiableAt) hσ (by positivity) x sqrt))) hn
  obtain ⟨y0, hy1, hy2, hy3⟩ := h1' R0 key (Foster.getApproxFine m r) (fun c => c.1) (fun c => c.2.1) (fun _ _ _ => rfl) odeInt hode hm n hn
  obtain ⟨y, z, hyz, hid⟩ := htr y0 z0 hy1 hz1
  have hide : IdentDistrib (fun ω => ‖y0 ω - z0 ω‖ ^ 2) (fun ω => ‖y ω - z ω‖ ^ 2) P Q :=
    hid.comp (u := fun p : Vec d × Vec d => ‖p.1 - p.2‖ ^ 2) ((measurable_fst.sub measurable_snd).norm.pow_const 2)
  have hb : ∀ ω, ‖y0 ω - z0 ω‖ ^ 2 ≤ 2 * ‖X ω (n * δ) - y0 ω‖ ^ 2 + 2 * ‖X ω (n * δ) - z0 ω‖ ^ 2 := fun ω => by
    have h : ‖y0 ω - z0 ω‖ ≤ ‖X ω (n * δ) - y0 ω‖ + ‖X ω (n * δ) - z0 ω‖ := by
      rw [show y0 ω - z0 ω = (X ω (n * δ) - z0 ω) - (X ω (n * δ) - y0 ω) by abel]
      exact (norm_sub_le _ _).trans (le_of_eq (add_comm _ _))
    nlinarith [norm_nonneg (y0 ω - z0 ω), sq_nonneg (‖X ω (n * δ) - y0 ω‖ - ‖X ω (n * δ) - z0 ω‖)]
  have hi0 : Integrable (fun ω => ‖y0 ω - z0 ω‖ ^ 2) P :=
    ((hy2.const_mul 2).add (hz2.const_mul 2)).mono' hide.aemeasurable_fst.aestronglyMeasurable (Eventually.of_forall fun ω => by
      rw [Real.norm_eq_abs, abs_of_nonneg (by positivity)]
      exact hb ω)
  have hle : ∫ ω, ‖y0 ω - z0 ω‖ ^ 2 ∂P ≤ (2 * A1 + 2 * |A2|) * δ ^ 2 := by
    have hsq : η ^ 2 ≤ δ ^ 2 := pow_le_pow_left₀ hη0.le hηδ 2
    have hz4 : A2 * η ^ 2 ≤ |A2| * δ ^ 2 := mul_le_mul (le_abs_self _) hsq (by positivity) (abs_nonneg _)
    calc ∫ ω, ‖y0 ω - z0 ω‖ ^ 2 ∂P ≤ ∫ ω, (2 * ‖X ω (n * δ) - y0 ω‖ ^ 2 + 2 * ‖X ω (n * δ) - z0 ω‖ ^ 2) ∂P :=
          integral_mono hi0 ((hy2.const_mul 2).add (hz2.const_mul 2)) hb
      _ = 2 * (∫ ω, ‖X ω (n * δ) - y0 ω‖ ^ 2 ∂P) + 2 * ∫ ω, ‖X ω (n * δ) - z0 ω‖ ^ 2 ∂P := by
          rw [integral_add (hy2.const_mul 2) (hz2.const_mul 2), integral_const_mul, integral_const_mul]
      _ ≤ (2 * A1 + 2 * |A2|) * δ ^ 2 := by linarith
  refine ⟨y, z, hyz, hide.integrable_iff.mp hi0, ?_⟩
  rw [← hide.integral_eq]
  exact hle

/-- C131: on a linear SDE with additive noise the means and the covariances of the states of `sde_solver` with EKF1, any number of filter steps
per interval and `get_approx`, run with an ideal generator, are those of the solution up to a constant times the interval length. -/
theorem C131_moments {la : LinAlg} (hla : la.Correct) (hd : 0 < d) (F : Mat d d) (S : Mat d m) (x0 : Vec d) {T : ℝ} (hT : 0 < T) :
    ∃ A : ℝ, ∀ {Ω : Type} [MeasurableSpace Ω] {Q : Measure Ω} {R : Ω → Rng}, IdealNormals Q R → ∀ N : ℕ, 0 < N → ∀ M : ℕ, 0 < M →
      ∀ σ : ℝ, σ ≠ 0 → ∀ (sqrt : Bool) (rng : Rng) (key : Key) (odeInt : OdeInt (Vec d) d),
      (∀ k x vf, Ekf.ekf1 la rng none x vf (T / N / M) M sqrt
        (some ⟨_, IOUP.transition 0 σ 1 (T / N / M) d⟩) none = .ok (odeInt k x vf (T / N))) →
      ∀ n ≤ N, ∃ y : Ω → Vec d,
        (∀ ω, (sdeSolver (R ω) key (fun x _ => F *ᵥ x) (fun _ _ => S) x0 (Foster.getApprox m) (T / N) N odeInt).2.1[n]? = some (y ω)) ∧
        ∀ i j, MemLp (fun ω => y ω i) 2 Q ∧ |∫ ω, y ω i ∂Q - (expm ((n * (T / N)) • F) *ᵥ x0) i| ≤ A * (T / N) ∧
          |cov[fun ω => y ω i, fun ω => y ω j; Q] - transitionCov F S (n * (T / N)) i j| ≤ A * (T / N) := by
  obtain ⟨L, hf⟩ := smooth_linear F T
  obtain ⟨Lt, htl⟩ : ∃ Lt, TimeLipschitz (fun x _ => F *ᵥ x) T Lt := ⟨_, timeLipschitz_linear F T⟩
  obtain ⟨B, hB⟩ := Levy.exists_brownianVec m
  obtain ⟨X, hX⟩ := hB.exists_solution hT.le hf S x0
  obtain ⟨A0, hA0⟩ := C131_strong hla hB hd hT hf htl S x0 hX
  obtain ⟨A, -, hA⟩ := moments_const F S x0 hT A0
  refine ⟨A, ?_⟩
  intro Ω _ Q R hR N hN M hM σ hσ sqrt rng key odeInt hode n hn
  have hN' : (0 : ℝ) < N := by exact_mod_cast hN
  have hM' : (0 : ℝ) < M := by exact_mod_cast hM
  have hA0' := hA0 N hN M hM σ hσ sqrt rng
  obtain ⟨δ, hδdef⟩ : ∃ δ, δ = T / N := ⟨_, rfl⟩
  rw [← hδdef] at hode hA0' ⊢
  have hδ : 0 < δ := by rw [hδdef]; positivity
  have hNδ : (N : ℝ) * δ = T := by rw [hδdef]; field_simp
  have hδT : δ ≤ T := by rw [← hNδ]; exact le_mul_of_one_le_left hδ.le (by exact_mod_cast hN)
  have hnT : (n : ℝ) * δ ∈ Icc 0 T := ⟨by positivity, by
    rw [← hNδ]; exact mul_le_mul_of_nonneg_right (by exact_mod_cast hn) hδ.le⟩
  have hD : ∀ x : Vec d, HasFDerivAt (fun z : Vec d => F *ᵥ z) (LinearMap.toContinuousLinearMap (Matrix.mulVecLin F)) x := fun x =>
    (LinearMap.toContinuousLinearMap (Matrix.mulVecLin F)).hasFDerivAt
  obtain ⟨Θ, hΘ⟩ : ∃ Θ : ℕ → Vec d → Vec m → Vec m → Vec d, ∀ k y a b, Θ k y a b =
    (rosScheme (additiveField (fun x _ => F *ᵥ x) S (k * δ) δ a b) (δ / M)
      ⟨y, additiveField (fun x _ => F *ᵥ x) S (k * δ) δ a b y 0, 0, 0⟩ M).x := ⟨_, fun _ _ _ _ => rfl⟩
  have hint : ∀ κ x, ∀ k < N, ∀ a b, odeInt κ x (additiveField (fun x _ => F *ᵥ x) S (k * δ) δ a b) δ = Θ k x a b := fun κ x k hk a b => by
    rw [hΘ]
    exact Except.ok.inj ((hode κ x _).symm.trans (ekf1_rosScheme hla rng hd _
      (fun j hj z => ((hD z).add_const _).differentiableAt) hσ (by positivity) x sqrt))
  obtain ⟨R0, hm, hc⟩ := sde_law_coupling (Ω' := Ω) (Q := Q) hB (fun x _ => F *ᵥ x) S x0 hδ N key (J := Θ)
    (fun k _ => by
      simp only [hΘ]
      exact (continuous_rosScheme hf.cont S (by positivity) (D := fun _ _ => LinearMap.toContinuousLinearMap (Matrix.mulVecLin F))
        (fun _ _ => hD) (fun _ _ => continuous_const)).measurable) odeInt hint
  obtain ⟨y0, hy0, hy1, hy2⟩ := hA0' R0 key (Foster.getApprox m) Prod.fst Prod.snd (fun _ _ _ => rfl) odeInt hode
    (Eventually.of_forall hm) n hn
  obtain ⟨y, hy, -, hid⟩ := hc hR x0 id (fun _ _ => True) odeInt rfl trivial (fun κ x k hk _ a b => ⟨trivial, hint _ _ k hk _ _⟩) n hn y0 hy0
  exact ⟨y, hy, hA hnT hδ hδT (linear_solution_law hB F S x0 hX hnT) hid hy1 hy2⟩

/-- C131: the hypotheses hold for the field `-t x` and the ideal generator, with five filter steps per interval and the solver that exists. -/
example {la : LinAlg} (hla : la.Correct) : ∃ A : ℝ, ∀ N : ℕ, 0 < N → ∃ (odeInt : OdeInt (Vec 2) 2) (y z : Draws → Vec 2),
    (∀ k x vf, Ekf.ekf1 la ⟨fun _ _ _ => 0⟩ none x vf (1 / N / (5 : ℕ)) 5 true (some ⟨_, IOUP.transition 0 1 1 (1 / (N : ℝ) / (5 : ℕ)) 2⟩) none =
      .ok (odeInt k x vf (1 / N))) ∧
    (∀ ω, ∃ ts traj traj2, ramSolver (drawsRng ω) [] (fun (x : Vec 2) (t : ℝ) => -(t • x)) (fun _ _ => (1 : Mat 2 2)) 0 0 (1 / N) N 7 odeInt =
      .ok (ts, traj, traj2) ∧ traj[N]? = some (y ω) ∧ traj2[N]? = some (z ω)) ∧
    Integrable (fun ω => ‖y ω - z ω‖ ^ 2) drawsMeasure ∧ ∫ ω, ‖y ω - z ω‖ ^ 2 ∂drawsMeasure ≤ A * (1 / N) ^ 2 := by
  obtain ⟨A, hA⟩ := C131_measured hla (by norm_num) one_pos smooth_decay timeLipschitz_decay (1 : Mat 2 2) 0
  refine ⟨A, fun N hN => ?_⟩
  have hex : ∀ (x : Vec 2) vf, ∃ y, Ekf.ekf1 la ⟨fun _ _ _ => 0⟩ none x vf (1 / N / (5 : ℕ)) 5 true
      (some ⟨_, IOUP.transition 0 1 1 (1 / (N : ℝ) / (5 : ℕ)) 2⟩) none = .ok y := fun x vf => by
    have h := Ekf.ekf1_two la ⟨fun _ _ _ => 0⟩ none (by norm_num : 0 < 2) x vf (1 / N / (5 : ℕ)) 5 true
      (IOUP.transition 0 1 1 (1 / (N : ℝ) / (5 : ℕ)) 2) none
    rw [Ekf.solver_some] at h
    exact ⟨_, h⟩
  choose F hF using hex
  obtain ⟨y, z, h1, h2⟩ := hA idealNormals_drawsRng N hN 5 (by norm_num) 7 (by norm_num) 1 one_ne_zero true ⟨fun _ _ _ => 0⟩ []
    (fun _ x vf _ => F x vf) (fun _ x vf => hF x vf) N le_rfl
  refine ⟨fun _ x vf _ => F x vf, y, z, fun _ x vf => hF x vf, fun ω => ?_, h2⟩
  obtain ⟨ts, traj, traj2, g1, -, g2, g3⟩ := h1 ω
  exact ⟨ts, traj, traj2, g1, g2, g3⟩

/-- C131: the hypotheses of `C131_strong` hold for a concrete Brownian motion, with five filter steps. -/
example {la : LinAlg} (hla : la.Correct) : ∃ (B : Fin 2 → ℝ≥0 → (Fin 2 → ℕ × ℕ → ℝ) → ℝ) (X : (Fin 2 → ℕ × ℕ → ℝ) → ℝ → Vec 2) (A : ℝ),
    IsBrownianVec B (Measure.pi fun _ => Levy.noise) ∧ ∀ N : ℕ, 0 < N → ∃ (R : (Fin 2 → ℕ × ℕ → ℝ) → Rng) (odeInt : OdeInt (Vec 2) 2),
      ∃ y : (Fin 2 → ℕ × ℕ → ℝ) → Vec 2, (∀ ω, (sdeSolver (R ω) [] (fun (x : Vec 2) (t : ℝ) => -(t • x)) (fun _ _ => 1) 0
        (Foster.getApprox 2) (1 / N) N odeInt).2.1[N]? = some (y ω)) ∧
      ∫ ω, ‖X ω (N * (1 / N)) - y ω‖ ^ 2 ∂(Measure.pi fun _ => Levy.noise) ≤ A * (1 / N) ^ 2 := by
  obtain ⟨B, hB⟩ := Levy.exists_brownianVec 2
  obtain ⟨X, hX⟩ := hB.exists_solution zero_le_one smooth_decay (1 : Mat 2 2) 0
  obtain ⟨A, hA⟩ := C131_strong hla hB (by norm_num) one_pos smooth_decay timeLipschitz_decay (1 : Mat 2 2) 0 hX
  refine ⟨B, X, A, hB, fun N hN => ?_⟩
  have hN1 : (0 : ℝ) < N := by exact_mod_cast hN
  have hN' : (0 : ℝ) < 1 / N := by positivity
  have hex : ∀ (x : Vec 2) vf, ∃ y, Ekf.ekf1 la ⟨fun _ _ _ => 0⟩ none x vf (1 / N / (5 : ℕ)) 5 true
      (some ⟨_, IOUP.transition 0 1 1 (1 / (N : ℝ) / (5 : ℕ)) 2⟩) none = .ok y := fun x vf => by
    have h := Ekf.ekf1_two la ⟨fun _ _ _ => 0⟩ none (by norm_num : 0 < 2) x vf (1 / N / (5 : ℕ)) 5 true
      (IOUP.transition 0 1 1 (1 / (N : ℝ) / (5 : ℕ)) 2) none
    rw [Ekf.solver_some] at h
    exact ⟨_, h⟩
  choose F hF using hex
  choose c hc using fun (ω : Fin 2 → ℕ × ℕ → ℝ) (k : ℕ) => (⟨(_, _), exists_sameEndAndArea hN'.ne' (fun t j => B j t.toNNReal ω) (k * (1 / N))⟩ :
    ∃ c : Vec 2 × Vec 2, SameEndAndArea (fun t => Foster.evalParabola t (1 / N) c.1 c.2) (fun t j => B j t.toNNReal ω) (k * (1 / N)) (1 / N))
  choose R hR using fun ω => exists_rng_coeffs (m := 2) [] hN' N (c ω)
  obtain ⟨y, hy1, -, hy3⟩ := hA N hN 5 (by norm_num) 1 one_ne_zero true ⟨fun _ _ _ => 0⟩ R [] (Foster.getApprox 2) Prod.fst Prod.snd
    (fun _ _ _ => rfl) (fun _ x vf _ => F x vf) (fun _ x vf => hF x vf) (Eventually.of_forall fun ω k hk c' hc' => by
      rw [sdeSolver_coeffs, List.getElem?_map, List.getElem?_range hk] at hc'
      have h : (Foster.getApprox 2).coeffs (R ω) ((Key.child [] N k).child 2 0) (1 / N) = c' := Option.some.inj hc'
      rw [← h, hR ω k hk]
      exact hc ω k) N le_rfl
  exact ⟨R, fun _ x vf _ => F x vf, y, hy1, hy3⟩

end Verif
