import Verif.Lemmas.RosStep
import Verif.Lemmas.RamTransfer
import Verif.Props.FhnOrder
import Verif.Props.Ito
import Verif.Props.RosEkf

/-!
# Properties C106 and C107: the order of `sde_solver` with EKF1
-/

namespace Verif

open Matrix Spec Jnp Set MeasureTheory ProbabilityTheory Scripts Filter
open scoped NNReal

variable {d m : ℕ}

/-- The linearly implicit step is a continuous function of the state and the coefficients. -/
theorem continuous_rosAdd {f : Vec d → ℝ → Vec d} (hf : Continuous (Function.uncurry f)) (S : Mat d m) {a0 δ : ℝ}
    {D : Vec d → Vec d →L[ℝ] Vec d} (hD : ∀ x, HasFDerivAt (fun z => f z (δ + a0)) (D x) x) (hDc : Continuous D) :
    Continuous fun p : Vec d × Vec m × Vec m => rosAdd f S a0 δ p.1 p.2.1 p.2.2 := by
  have hv : ∀ t, Continuous fun p : Vec d × Vec m × Vec m => additiveField f S a0 δ p.2.1 p.2.2 p.1 t := fun t =>
    continuous_additiveField hf S a0 δ t
  have hz : Continuous fun p : Vec d × Vec m × Vec m => p.1 + δ • additiveField f S a0 δ p.2.1 p.2.2 p.1 0 :=
    continuous_fst.add ((hv 0).const_smul δ)
  have hfz : Continuous fun p : Vec d × Vec m × Vec m => additiveField f S a0 δ p.2.1 p.2.2
      (p.1 + δ • additiveField f S a0 δ p.2.1 p.2.2 p.1 0) δ := (hv δ).comp (hz.prodMk continuous_snd)
  have hJe : ∀ (a b : Vec m) (x : Vec d), jac (fun z => additiveField f S a0 δ a b z δ) x = LinearMap.toMatrix' (D x : Vec d →ₗ[ℝ] Vec d) :=
    fun a b x => jac_eq_toMatrix ((hD x).add_const _)
  have hJ : Continuous fun p : Vec d × Vec m × Vec m => LinearMap.toMatrix'
      (D (p.1 + δ • additiveField f S a0 δ p.2.1 p.2.2 p.1 0) : Vec d →ₗ[ℝ] Vec d) := by
    have h1 : Continuous fun p : Vec d × Vec m × Vec m => D (p.1 + δ • additiveField f S a0 δ p.2.1 p.2.2 p.1 0) := hDc.comp hz
    refine continuous_matrix fun i j => ?_
    simp only [LinearMap.toMatrix'_apply, ContinuousLinearMap.coe_coe]
    exact (continuous_apply i).comp (h1.clm_apply continuous_const)
  have hW : Continuous fun p : Vec d × Vec m × Vec m => (rosW δ (LinearMap.toMatrix'
      (D (p.1 + δ • additiveField f S a0 δ p.2.1 p.2.2 p.1 0) : Vec d →ₗ[ℝ] Vec d)))⁻¹ := by
    have h1 : Continuous fun p : Vec d × Vec m × Vec m => rosW δ (LinearMap.toMatrix'
        (D (p.1 + δ • additiveField f S a0 δ p.2.1 p.2.2 p.1 0) : Vec d →ₗ[ℝ] Vec d)) := by
      unfold rosW
      fun_prop
    simp only [Matrix.inv_def, Ring.inverse_eq_inv']
    exact (h1.matrix_det.inv₀ fun p => (rosW_det _ _).ne_zero).smul h1.matrix_adjugate
  simp only [rosAdd, rosStep, hJe]
  refine hz.add (hW.matrix_mulVec (Continuous.matrix_mulVec ?_ (hfz.sub (hv 0))))
  have hJt := hJ.matrix_transpose
  exact continuous_const.sub (by fun_prop)

theorem Spec.SmoothField.continuous_jac {f : Vec d → ℝ → Vec d} {Df : Vec d → ℝ → Vec d →L[ℝ] Vec d} {T L K : ℝ} (hf : SmoothField f Df T L K)
    (hT : 0 < T) {t : ℝ} (ht : t ∈ Icc 0 T) : Continuous fun x => Df x t := by
  refine (LipschitzWith.of_dist_le_mul (K := K.toNNReal) fun x y => ?_).continuous
  rw [dist_eq_norm, dist_eq_norm, Real.coe_toNNReal _ (hf.jac_const_nonneg hT)]
  simpa using hf.jac x y _ ht _ ht

theorem rosLin_bound : ∃ κ : ℝ, 0 ≤ κ ∧ ∀ A : Vec d →L[ℝ] Vec d, ‖rosLin d A‖ ≤ κ * ‖A‖ :=
  ⟨‖LinearMap.toContinuousLinearMap (rosLin d)‖, ContinuousLinearMap.opNorm_nonneg _,
    fun A => (LinearMap.toContinuousLinearMap (rosLin d)).le_opNorm A⟩

/-- C106: strong order one in mean square of `sde_solver` with EKF1 and the once integrated Brownian motion prior, with the one filter step per
interval that the scripts take, for an SDE with additive noise driven by a Brownian motion whose path the parabolas match in end point
and integral. The constant does not depend on the number of intervals, on the scale of the prior or on the mode. -/
theorem C106_strong {la : LinAlg} (hla : la.Correct) {Ω : Type*} [MeasurableSpace Ω] {P : Measure Ω} {B : Fin m → ℝ≥0 → Ω → ℝ}
    (hB : IsBrownianVec B P) (hd : 0 < d) {f : Field d} {Df : Vec d → ℝ → Vec d →L[ℝ] Vec d} {T L K Lt : ℝ} (hT : 0 < T)
    (hf : SmoothField f Df T L K) (htl : TimeLipschitz f T Lt) (S : Mat d m) (x0 : Vec d)
    {X : Ω → ℝ → Vec d} (hX : ∀ᵐ ω ∂P, SolvesAdditive f S (fun t j => B j t.toNNReal ω) x0 T (X ω)) :
    ∃ A : ℝ, ∀ N : ℕ, 0 < N → ∀ σ : ℝ, σ ≠ 0 → ∀ (sqrt : Bool) (rng : Rng) (R : Ω → Rng) (key : Key) {C : Type}
      (bm : BmApprox C m) (a b : C → Vec m), (∀ t dt c, bm.eval t dt c = Foster.evalParabola t dt (a c) (b c)) →
      ∀ odeInt : OdeInt (Vec d) d, (∀ k x vf, Ekf.ekf1 la rng none x vf (T / N) 1 sqrt
        (some ⟨_, IOUP.transition 0 σ 1 (T / N) d⟩) none = .ok (odeInt k x vf (T / N))) →
      (∀ᵐ ω ∂P, ∀ k < N, ∀ c, (sdeSolver (R ω) key f (fun _ _ => S) x0 bm (T / N) N odeInt).2.2[k]? = some c →
        SameEndAndArea (fun t => bm.eval t (T / N) c) (fun t j => B j t.toNNReal ω) (k * (T / N)) (T / N)) →
      ∀ n ≤ N, ∃ y : Ω → Vec d, (∀ ω, (sdeSolver (R ω) key f (fun _ _ => S) x0 bm (T / N) N odeInt).2.1[n]? = some (y ω)) ∧
        Integrable (fun ω => ‖X ω (n * (T / N)) - y ω‖ ^ 2) P ∧ ∫ ω, ‖X ω (n * (T / N)) - y ω‖ ^ 2 ∂P ≤ A * (T / N) ^ 2 := by
  wlog hL : 0 ≤ L generalizing L
  · refine this (L := 0) ⟨hf.cont, fun x y t ht => (hf.lip x y t ht).trans ?_, hf.deriv, hf.jac⟩ le_rfl
    exact mul_le_mul_of_nonneg_right (not_le.mp hL).le (norm_nonneg _)
  wlog hLt : 0 ≤ Lt generalizing Lt
  · refine this (Lt := 0) (fun x s hs t ht => (htl x s hs t ht).trans ?_) le_rfl
    refine mul_le_mul_of_nonneg_right (mul_le_mul_of_nonneg_right (not_le.mp hLt).le ?_) (abs_nonneg _)
    positivity
  have hK := hf.jac_const_nonneg hT
  obtain ⟨s, hs, hS⟩ := exists_mulVec_bound S
  obtain ⟨C1, hC1, hcons⟩ := trap_expansion hf hL hK hLt hT.le htl hs hS
  obtain ⟨C2, hC2, hros⟩ := ros_expansion hf hL hK hLt hT.le htl hs hS
  obtain ⟨κ1, hκ1, hlin⟩ := rosLin_bound (d := d)
  obtain ⟨A, -, hA⟩ := strong_mart hB hT hf hL hLt htl S x0 hX (C0 := L * Real.exp (3 * L / 2 * T) * (1 + L * T)) (by positivity)
    (add_nonneg hC1 hC2) hC2 (by norm_num : (0 : ℝ) ≤ 4) (mul_nonneg hκ1 hL)
  refine ⟨A, ?_⟩
  intro N hN σ hσ sqrt rng R key C bm a b hbm odeInt hode hm n hn
  have hN' : (0 : ℝ) < N := by exact_mod_cast hN
  obtain ⟨δ, hδdef⟩ : ∃ δ, δ = T / N := ⟨_, rfl⟩
  have hA' := hA N hN (lam := 1 / 2) (mu := 1 / Real.sqrt 6 + trapExcess 1)
  rw [← hδdef] at hode hm hA' ⊢
  have hδ : 0 < δ := by rw [hδdef]; positivity
  have hNδ : (N : ℝ) * δ = T := by rw [hδdef]; field_simp
  have hkδ : ∀ k < N, (k : ℝ) * δ + δ ≤ T := fun k hk => by
    have : ((k + 1 : ℕ) : ℝ) * δ ≤ N * δ := mul_le_mul_of_nonneg_right (by exact_mod_cast hk) hδ.le
    rw [hNδ] at this
    push_cast at this
    linarith
  have hkI : ∀ k < N, δ + (k : ℝ) * δ ∈ Icc 0 T := fun k hk => ⟨by positivity, by linarith [hkδ k hk]⟩
  have hDc : ∀ k < N, Continuous fun x => Df x (δ + k * δ) := fun k hk => hf.continuous_jac hT (hkI k hk)
  have hfield : ∀ (c : C) (a0 : ℝ), intervalField f (fun _ _ => S) bm δ c a0 = additiveField f S a0 δ (a c) (b c) := fun c a0 => by
    funext z t
    simp only [intervalField, additiveField]
    congr 2
    congr 1
    funext s
    exact hbm s δ c
  have hint : ∀ κ x, ∀ k < N, ∀ a b, odeInt κ x (additiveField f S (k * δ) δ a b) δ = rosAdd f S (k * δ) δ x a b := fun κ x k hk a b =>
    Except.ok.inj ((hode κ x _).symm.trans (C86_step hla rng hd _
      (fun z => ((hf.deriv z _ (hkI k hk)).add_const _).differentiableAt) hσ hδ x sqrt))
  choose y hy1 hy0 hys using fun ω => sdeSolver_states (R ω) key f (fun _ _ => S) x0 bm δ N odeInt
  have hcf : ∀ ω k, ∃ c, k < N → (sdeSolver (R ω) key f (fun _ _ => S) x0 bm δ N odeInt).2.2[k]? = some c ∧
      y ω (k + 1) = odeInt ((key.child N k).child 2 1) (y ω k) (intervalField f (fun _ _ => S) bm δ c (k * δ)) δ := fun ω k => by
    by_cases hk : k < N
    · obtain ⟨c, hc⟩ := hys ω k hk
      exact ⟨c, fun _ => hc⟩
    · obtain ⟨c, -⟩ := hys ω 0 hN
      exact ⟨c, fun h => absurd h hk⟩
  choose c hc using hcf
  have h6 : |1 / Real.sqrt 6| ≤ 1 := by
    rw [abs_of_pos (by positivity), div_le_one (by positivity)]
    exact Real.one_le_sqrt.mpr (by norm_num)
  have hδ1 : δ / (1 : ℕ) = δ := by simp
  refine ⟨fun ω => y ω n, fun ω => hy1 ω n hn, ?_⟩
  have hmono : ∀ {C C' : ℝ} (y : Vec d) (t : ℝ) (a b : Vec m), 0 ≤ C' → δ * (C * (δ * (1 + ‖y‖ + ‖f y t‖) ^ 2 + (‖a‖ + 4 * ‖b‖) ^ 2)) ≤
      δ * ((C + C') * (δ * (1 + ‖y‖ + ‖f y t‖) ^ 2 + (‖a‖ + 4 * ‖b‖) ^ 2)) := fun y t a b hC' => by
    have : 0 ≤ δ * (1 + ‖y‖ + ‖f y t‖) ^ 2 + (‖a‖ + 4 * ‖b‖) ^ 2 := by positivity
    exact mul_le_mul_of_nonneg_left (mul_le_mul_of_nonneg_right (by linarith) this) hδ.le
  refine hA' (by rw [abs_of_pos (by norm_num)]; norm_num) ((abs_add_le _ _).trans (by linarith [trapExcess_bound one_pos]))
    (fun k y a b => (trapScheme (additiveField f S (k * δ) δ a b) (δ / (1 : ℕ)) y 1).1)
    (fun k y a b => if k < N then rosAdd f S (k * δ) δ y a b else y)
    (fun k => (continuous_fst.comp (continuous_trapScheme hf.cont S (k * δ) δ (δ / (1 : ℕ)) 1)).measurable)
    (fun k => ?_)
    (fun k hk a b y y' => trap_stable hL hf.lip S hδ (by positivity) (hkδ k hk) one_pos a b y y')
    (fun k hk a b y => (hcons hδ (by positivity) (hkδ k hk) one_pos a b y le_rfl).trans (hmono y _ a b hC2))
    (fun k y => rosLin d (Df y (δ + k * δ))) (fun k hk => rosLin_continuous.comp (hDc k hk)) (fun k hk y => ?_)
    (fun k hk a b y => ?_) (fun k hk a b y => ?_) (fun k ω => y ω k) (fun ω k => a (c ω k)) (fun ω k => b (c ω k))
    (Eventually.of_forall hy0) ?_ (Eventually.of_forall fun ω k hk => ?_) n hn
  · by_cases hk : k < N
    · simp only [if_pos hk]
      exact (continuous_rosAdd hf.cont S (fun x => hf.deriv x _ (hkI k hk)) (hDc k hk)).measurable
    · simp only [if_neg hk]
      exact measurable_fst
  · refine (hlin _).trans (mul_le_mul_of_nonneg_left (hf.norm_jac_le hL (hkI k hk) y) hκ1)
  · rw [if_pos hk, hδ1, add_comm C1 C2]
    exact ((hros hδ (by positivity) (hkδ k hk) a b y).1).trans (hmono y _ a b hC1)
  · rw [if_pos hk]
    exact (hros hδ (by positivity) (hkδ k hk) a b y).2
  · filter_upwards [hm] with ω hω k hk
    have := hω k hk (c ω k) (hc ω k hk).1
    simpa only [hbm] using this
  · rw [(hc ω k hk).2, hfield, hint _ _ k hk, if_pos hk]

set_option maxHeartbeats 1000000 in
/-- C106: the quantity plotted by the pathwise experiments with EKF1. The low-memory solver is run with an ideal generator on an SDE with
additive noise; `y` is the point at time `n δ` of the EKF1 trajectory, `z` the one of its Euler-Maruyama reference, computed with
`r ≥ 1` fine steps per interval. The mean square distance of the two is at most a constant times `δ²`. -/
theorem C106_measured {la : LinAlg} (hla : la.Correct) (hd : 0 < d) {f : Field d} {Df : Vec d → ℝ → Vec d →L[ℝ] Vec d} {T L K Lt : ℝ}
    (hT : 0 < T) (hf : SmoothField f Df T L K) (htl : TimeLipschitz f T Lt) (S : Mat d m) (x0 : Vec d) :
    ∃ A : ℝ, ∀ {Ω : Type} [MeasurableSpace Ω] {Q : Measure Ω} {R : Ω → Rng}, IdealNormals Q R → ∀ N : ℕ, 0 < N →
      ∀ r : ℕ, 0 < r → ∀ σ : ℝ, σ ≠ 0 → ∀ (sqrt : Bool) (rng : Rng) (key : Key) (odeInt : OdeInt (Vec d) d),
      (∀ k x vf, Ekf.ekf1 la rng none x vf (T / N) 1 sqrt
        (some ⟨_, IOUP.transition 0 σ 1 (T / N) d⟩) none = .ok (odeInt k x vf (T / N))) →
      ∀ n ≤ N, ∃ y z : Ω → Vec d,
        (∀ ω, ∃ ts traj traj2, ramSolver (R ω) key f (fun _ _ => S) x0 x0 (T / N) N r odeInt = .ok (ts, traj, traj2) ∧
          ts[n]? = some (n * (T / N)) ∧ traj[n]? = some (y ω) ∧ traj2[n]? = some (z ω)) ∧
        Integrable (fun ω => ‖y ω - z ω‖ ^ 2) Q ∧ ∫ ω, ‖y ω - z ω‖ ^ 2 ∂Q ≤ A * (T / N) ^ 2 := by
  obtain ⟨B, hB⟩ := Levy.exists_brownianVec m
  obtain ⟨P, hP⟩ : ∃ P : Measure (Fin m → ℕ × ℕ → ℝ), P = Measure.pi fun _ => Levy.noise := ⟨_, rfl⟩
  rw [← hP] at hB
  obtain ⟨X, hX⟩ := hB.exists_solution hT.le hf S x0
  obtain ⟨A1, h1⟩ := C106_strong hla hB hd hT hf htl S x0 hX
  obtain ⟨A2, h2⟩ := C93_em_strong hB hT hf htl S x0 hX
  refine ⟨2 * A1 + 2 * |A2|, ?_⟩
  intro Ω _ Q R hR N hN r hr σ hσ sqrt rng key odeInt hode n hn
  have hN' : (0 : ℝ) < N := by exact_mod_cast hN
  have hr' : (1 : ℝ) ≤ r := by exact_mod_cast hr
  have h1' := h1 N hN σ hσ sqrt rng
  obtain ⟨z0, hz1, hz2, hz3⟩ := h2 (N * r) (by positivity) (n * r) (Nat.mul_le_mul_right r hn)
  obtain ⟨δ, hδdef⟩ : ∃ δ, δ = T / N := ⟨_, rfl⟩
  obtain ⟨η, hη⟩ : ∃ η, η = δ / r := ⟨_, rfl⟩
  have hηT : T / (N * r : ℕ) = η := by rw [hη, hδdef]; push_cast; field_simp
  have hδ : 0 < δ := by rw [hδdef]; positivity
  have hη0 : 0 < η := by rw [hη]; positivity
  have hrη : (r : ℝ) * η = δ := by rw [hη]; field_simp
  have et : ((n * r : ℕ) : ℝ) * η = n * δ := by rw [← hrη]; push_cast; ring
  rw [hηT] at hz1 hz2 hz3
  rw [et] at hz2 hz3
  rw [← hδdef] at hode h1' ⊢
  have hηδ : η ≤ δ := by rw [hη]; exact div_le_self hδ.le hr'
  have hNδ : (N : ℝ) * δ = T := by rw [hδdef]; field_simp
  have hkI : ∀ k < N, δ + (k : ℝ) * δ ∈ Icc 0 T := fun k hk => by
    refine ⟨by positivity, ?_⟩
    have : ((k + 1 : ℕ) : ℝ) * δ ≤ N * δ := mul_le_mul_of_nonneg_right (by exact_mod_cast hk) hδ.le
    rw [hNδ] at this
    push_cast at this
    linarith
  obtain ⟨R0, hm, htr⟩ := ram_transfer_of hB hf.cont S x0 hR hδ hr hη key odeInt (J := fun k x a b => rosAdd f S (k * δ) δ x a b)
    (fun k hk => (continuous_rosAdd hf.cont S (fun x => hf.deriv x _ (hkI k hk)) (hf.continuous_jac hT (hkI k hk))).measurable)
    (fun κ x k hk a b => Except.ok.inj ((hode κ x _).symm.trans (C86_step hla rng hd _
      (fun z => ((hf.deriv z _ (hkI k hk)).add_const _).differentiableAt) hσ hδ x sqrt))) hn
  obtain ⟨y0, hy1, hy2, hy3⟩ := h1' R0 key (Foster.getApproxFine m r) (fun c => c.1) (fun c => c.2.1) (fun _ _ _ => rfl) odeInt hode hm n hn
  obtain ⟨y, z, hyz, hid⟩ := htr y0 z0 hy1 hz1
  have hide : IdentDistrib (fun ω => ‖y0 ω - z0 ω‖ ^ 2) (fun ω => ‖y ω - z ω‖ ^ 2) P Q :=
    hid.comp (u := fun p : Vec d × Vec d => ‖p.1 - p.2‖ ^ 2) ((measurable_fst.sub measurable_snd).norm.pow_const 2)
  have hb : ∀ ω, ‖y0 ω - z0 ω‖ ^ 2 ≤ 2 * ‖X ω (n * δ) - y0 ω‖ ^ 2 + 2 * ‖X ω (n * δ) - z0 ω‖ ^ 2 := fun ω => by
    have h : ‖y0 ω - z0 ω‖ ≤ ‖X ω (n * δ) - y0 ω‖ + ‖X ω (n * δ) - z0 ω‖ := by
      rw [show y0 ω - z0 ω = (X ω (n * δ) - z0 ω) - (X ω (n * δ) - y0 ω) by abel]
      exact (norm_sub_le _ _).trans (le_of_eq (add_comm _ _))
    nlinarith [norm_nonneg (y0 ω - z0 ω), sq_nonneg (‖X ω (n * δ) - y0 ω‖ - ‖X ω (n * δ) - z0 ω‖)]
  have hi0 : Integrable (fun ω => ‖y0 ω - z0 ω‖ ^ 2) P :=
    ((hy2.const_mul 2).add (hz2.const_mul 2)).mono' hide.aemeasurable_fst.aestronglyMeasurable (Eventually.of_forall fun ω => by
      rw [Real.norm_eq_abs, abs_of_nonneg (by positivity)]
      exact hb ω)
  have hle : ∫ ω, ‖y0 ω - z0 ω‖ ^ 2 ∂P ≤ (2 * A1 + 2 * |A2|) * δ ^ 2 := by
    have hsq : η ^ 2 ≤ δ ^ 2 := pow_le_pow_left₀ hη0.le hηδ 2
    have hz4 : A2 * η ^ 2 ≤ |A2| * δ ^ 2 := mul_le_mul (le_abs_self _) hsq (by positivity) (abs_nonneg _)
    calc ∫ ω, ‖y0 ω - z0 ω‖ ^ 2 ∂P ≤ ∫ ω, (2 * ‖X ω (n * δ) - y0 ω‖ ^ 2 + 2 * ‖X ω (n * δ) - z0 ω‖ ^ 2) ∂P :=
          integral_mono hi0 ((hy2.const_mul 2).add (hz2.const_mul 2)) hb
      _ = 2 * (∫ ω, ‖X ω (n * δ) - y0 ω‖ ^ 2 ∂P) + 2 * ∫ ω, ‖X ω (n * δ) - z0 ω‖ ^ 2 ∂P := by
          rw [integral_add (hy2.const_mul 2) (hz2.const_mul 2), integral_const_mul, integral_const_mul]
      _ ≤ (2 * A1 + 2 * |A2|) * δ ^ 2 := by linarith
  refine ⟨y, z, hyz, hide.integrable_iff.mp hi0, ?_⟩
  rw [← hide.integral_eq]
  exact hle

/-- The derivative in the state of a drift with two continuous derivatives. -/
theorem hasFDerivAt_left {f : Vec d → ℝ → Vec d} (hf : ContDiff ℝ 2 (Function.uncurry f)) (x : Vec d) (t : ℝ) :
    HasFDerivAt (fun z => f z t) ((fderiv ℝ (Function.uncurry f) (x, t)).comp (ContinuousLinearMap.inl ℝ (Vec d) ℝ)) x :=
  HasFDerivAt.comp (g := Function.uncurry f) (f := fun z : Vec d => (z, t)) x ((hf.differentiable (by norm_num)) (x, t)).hasFDerivAt
    (hasFDerivAt_prodMk_left x t)

theorem continuous_fderiv_left {f : Vec d → ℝ → Vec d} (hf : ContDiff ℝ 2 (Function.uncurry f)) (t : ℝ) :
    Continuous fun x => (fderiv ℝ (Function.uncurry f) (x, t)).comp (ContinuousLinearMap.inl ℝ (Vec d) ℝ) :=
  ((hf.continuous_fderiv (by norm_num)).comp (by fun_prop : Continuous fun x : Vec d => (x, t))).clm_comp continuous_const

/-- Drifts that agree on a ball around the origin give the same linearly implicit step, if the prediction stays inside. -/
theorem rosAdd_congr {f g : Vec d → ℝ → Vec d} (S : Mat d m) {a0 δ r : ℝ} (y : Vec d) (a b : Vec m) {A : Vec d →L[ℝ] Vec d}
    (h0 : g y (0 + a0) = f y (0 + a0)) (h1 : ∀ x, ‖x‖ < r → g x (δ + a0) = f x (δ + a0))
    (hz : ‖y + δ • additiveField g S a0 δ a b y 0‖ < r)
    (hA : HasFDerivAt (fun z => g z (δ + a0)) A (y + δ • additiveField g S a0 δ a b y 0)) :
    rosAdd g S a0 δ y a b = rosAdd f S a0 δ y a b := by
  have e0 : additiveField f S a0 δ a b y 0 = additiveField g S a0 δ a b y 0 := by simp only [additiveField, h0]
  have e1 : ∀ x, ‖x‖ < r → additiveField f S a0 δ a b x δ = additiveField g S a0 δ a b x δ := fun x hx => by simp only [additiveField, h1 x hx]
  have hev : (fun x => f x (δ + a0)) =ᶠ[nhds (y + δ • additiveField g S a0 δ a b y 0)] fun x => g x (δ + a0) := by
    filter_upwards [(isOpen_lt continuous_norm continuous_const).mem_nhds hz] with x hx
    exact (h1 x hx).symm
  have ej : jac (fun z => additiveField f S a0 δ a b z δ) (y + δ • additiveField g S a0 δ a b y 0) =
      jac (fun z => additiveField g S a0 δ a b z δ) (y + δ • additiveField g S a0 δ a b y 0) :=
    (jac_eq_toMatrix ((hA.congr_of_eventuallyEq hev).add_const _)).trans (jac_eq_toMatrix (hA.add_const _)).symm
  simp only [rosAdd, rosStep, e0, ej, e1 _ hz]

/-- C107: order one in probability of `sde_solver` with EKF1 and one filter step per interval, for a drift with two continuous
derivatives that need be neither bounded nor globally Lipschitz, as long as the solution exists up to the time `T`. -/
theorem C107_prob {la : LinAlg} (hla : la.Correct) {Ω : Type*} [MeasurableSpace Ω] {P : Measure Ω} {B : Fin m → ℝ≥0 → Ω → ℝ}
    (hB : IsBrownianVec B P) (hd : 0 < d) {f : Field d}
    (hf : ContDiff ℝ 2 (Function.uncurry f)) {T : ℝ} (hT : 0 < T) (S : Mat d m) (x0 : Vec d)
    {X : Ω → ℝ → Vec d} (hX : ∀ᵐ ω ∂P, SolvesAdditive f S (fun t j => B j t.toNNReal ω) x0 T (X ω)) {ε : ℝ} (hε : 0 < ε) :
    ∃ (A : ℝ) (N0 : ℕ), ∀ N ≥ N0, ∀ σ : ℝ, σ ≠ 0 → ∀ (sqrt : Bool) (rng : Rng) (R : Ω → Rng) (key : Key) {C : Type}
      (bm : BmApprox C m) (a b : C → Vec m), (∀ t dt c, bm.eval t dt c = Foster.evalParabola t dt (a c) (b c)) →
      ∀ odeInt : OdeInt (Vec d) d, (∀ k x vf, Ekf.ekf1 la rng none x vf (T / N) 1 sqrt
        (some ⟨_, IOUP.transition 0 σ 1 (T / N) d⟩) none = .ok (odeInt k x vf (T / N))) →
      (∀ᵐ ω ∂P, ∀ k < N, ∀ c, (sdeSolver (R ω) key f (fun _ _ => S) x0 bm (T / N) N odeInt).2.2[k]? = some c →
        SameEndAndArea (fun t => bm.eval t (T / N) c) (fun t j => B j t.toNNReal ω) (k * (T / N)) (T / N)) →
      ∀ n ≤ N, ∃ y : Ω → Vec d, (∀ ω, (sdeSolver (R ω) key f (fun _ _ => S) x0 bm (T / N) N odeInt).2.1[n]? = some (y ω)) ∧
        P {ω | A * (T / N) < ‖X ω (n * (T / N)) - y ω‖} ≤ ENNReal.ofReal ε := by
  haveI : IsProbabilityMeasure P := hB.isProb
  obtain ⟨s, hs, hS⟩ := exists_mulVec_bound S
  obtain ⟨ρ, g, Dg, L, K, F, X', hL, hF, hg, hgt, hgF, heq, hX', N1, hN1⟩ := exists_good hB hf hT S x0 hX (ε := ε / 3)
    (κ := 1 / (40 * (s + 1))) (by positivity) (by positivity)
  obtain ⟨A, hA⟩ := C106_strong hla hB hd hT hg hgt S x0 hX'
  obtain ⟨A', hA', hAA, N2, hN2⟩ := exists_prob_consts hε hT A
  obtain ⟨N3, hN3⟩ := exists_nat_ge (8 * F * T)
  refine ⟨A', N1 + N2 + N3 + 1, ?_⟩
  intro N hN σ hσ sqrt rng R key C bm a b hbm odeInt hode hm n hn
  have hN0 : 0 < N := by omega
  have hN' : (0 : ℝ) < N := by exact_mod_cast hN0
  obtain ⟨G0, hG0, hG1⟩ := hN1 N (by omega)
  have hsmall := hN2 N (by omega)
  have hA1 := hA N hN0 σ hσ sqrt rng R key bm a b hbm odeInt hode (by
    filter_upwards [hm] with ω hω k hk c hc
    refine hω k hk c ?_
    rw [sdeSolver_coeffs] at hc ⊢
    exact hc)
  obtain ⟨δ, hδdef⟩ : ∃ δ, δ = T / N := ⟨_, rfl⟩
  rw [← hδdef] at hode hm hA1 hG1 hsmall ⊢
  have hδ : 0 < δ := by rw [hδdef]; positivity
  have hNδ : (N : ℝ) * δ = T := by rw [hδdef]; field_simp
  have hδF : δ * F ≤ 1 / 8 := by
    have h1 : 8 * F * T ≤ N := hN3.trans (by exact_mod_cast (by omega : N3 ≤ N))
    rw [← hNδ] at h1
    have h2 : 8 * F * δ ≤ 1 := by
      by_contra hcon
      push Not at hcon
      nlinarith
    linarith
  have hkδ : ∀ k < N, (k : ℝ) * δ + δ ≤ T := fun k hk => by
    have : ((k + 1 : ℕ) : ℝ) * δ ≤ N * δ := mul_le_mul_of_nonneg_right (by exact_mod_cast hk) hδ.le
    rw [hNδ] at this
    push_cast at this
    linarith
  have hkI : ∀ k < N, δ + (k : ℝ) * δ ∈ Icc 0 T := fun k hk => ⟨by positivity, by linarith [hkδ k hk]⟩
  have hint : ∀ κ x, ∀ k < N, ∀ a b, odeInt κ x (additiveField f S (k * δ) δ a b) δ = rosAdd f S (k * δ) δ x a b := fun κ x k hk a b =>
    Except.ok.inj ((hode κ x _).symm.trans (C86_step hla rng hd _
      (fun z => ((hasFDerivAt_left hf z _).add_const _).differentiableAt) hσ hδ x sqrt))
  have hint' : ∀ κ x, ∀ k < N, ∀ a b, odeInt κ x (additiveField g S (k * δ) δ a b) δ = rosAdd g S (k * δ) δ x a b := fun κ x k hk a b =>
    Except.ok.inj ((hode κ x _).symm.trans (C86_step hla rng hd _
      (fun z => ((hg.deriv z _ (hkI k hk)).add_const _).differentiableAt) hσ hδ x sqrt))
  have hfield : ∀ (f : Field d) (c : C) (a0 : ℝ), intervalField f (fun _ _ => S) bm δ c a0 = additiveField f S a0 δ (a c) (b c) :=
    fun f c a0 => by
      funext z t
      simp only [intervalField, additiveField]
      congr 2
      congr 1
      funext s
      exact hbm s δ c
  choose y hy1 hy0 hys using fun ω => sdeSolver_states (R ω) key f (fun _ _ => S) x0 bm δ N odeInt
  choose y' hy1' hy0' hys' using fun ω => sdeSolver_states (R ω) key g (fun _ _ => S) x0 bm δ N odeInt
  refine ⟨fun ω => y ω n, fun ω => hy1 ω n hn, ?_⟩
  have hmn : P {ω | ∀ k < N, ∀ c, (sdeSolver (R ω) key f (fun _ _ => S) x0 bm δ N odeInt).2.2[k]? = some c →
      SameEndAndArea (fun t => bm.eval t δ c) (fun t j => B j t.toNNReal ω) (k * δ) δ}ᶜ = 0 := mem_ae_iff.mp hm
  have hA2 : ∀ k ≤ N, Integrable (fun ω => ‖X' ω (k * δ) - y' ω k‖ ^ 2) P ∧ ∫ ω, ‖X' ω (k * δ) - y' ω k‖ ^ 2 ∂P ≤ A * δ ^ 2 :=
    fun k hk => by
      obtain ⟨v, hv1, hv2⟩ := hA1 k hk
      have e : v = fun ω => y' ω k := funext fun ω => Option.some.inj ((hv1 ω).symm.trans (hy1' ω k hk))
      rw [e] at hv2
      exact hv2
  refine prob_of_localised (x := fun k ω => X ω (k * δ)) (x' := fun k ω => X' ω (k * δ)) (y := fun k ω => y ω k) (y' := fun k ω => y' ω k)
    (N := N) (G := G0 ∩ {ω | ∀ k < N, ∀ c, (sdeSolver (R ω) key f (fun _ _ => S) x0 bm δ N odeInt).2.2[k]? = some c →
      SameEndAndArea (fun t => bm.eval t δ c) (fun t j => B j t.toNNReal ω) (k * δ) δ}) hδ hε ?_ (fun k hk => (hA2 k hk).1)
    (fun k hk => (hA2 k hk).2) hsmall ?_ hA' hAA hn
  · rw [compl_inter]
    refine (measure_union_le _ _).trans ?_
    rw [hmn, add_zero]
    exact hG0
  · rintro ω ⟨hω1, hω2⟩ herr
    obtain ⟨hXX, hw⟩ := hG1 ω hω1
    have hgrid : ∀ k ≤ N, (k : ℝ) * δ ∈ Icc 0 T := fun k hk => by
      refine ⟨by positivity, ?_⟩
      rw [← hNδ]
      exact mul_le_mul_of_nonneg_right (by exact_mod_cast hk) hδ.le
    have hyb : ∀ k ≤ N, ‖y' ω k‖ ≤ ρ + 1 / 2 := fun k hk => by
      have h1 := herr k hk
      obtain ⟨h2, h3⟩ := hXX _ (hgrid k hk)
      rw [h2] at h3
      have : y' ω k = X' ω (k * δ) - (X' ω (k * δ) - y' ω k) := by abel
      rw [this]
      refine (norm_sub_le _ _).trans ?_
      linarith
    have hyy : ∀ k ≤ N, y ω k = y' ω k := by
      intro k
      induction k with
      | zero => exact fun _ => by rw [hy0, hy0']
      | succ k ih =>
        intro hk
        have hkN : k < N := by omega
        obtain ⟨c, hc1, hc2⟩ := hys ω k hkN
        obtain ⟨c', hc1', hc2'⟩ := hys' ω k hkN
        have hcc : c = c' := by
          have h1 := hc1
          rw [sdeSolver_coeffs] at h1 hc1'
          exact Option.some.inj (h1.symm.trans hc1')
        subst hcc
        have hmk := hω2 k hkN c hc1
        simp only [hbm] at hmk
        have hsl := matched_slope hδ hmk (κ := 1 / (40 * (s + 1))) fun t ht j => hw k hkN t ht j
        have hsκ : s * (10 * (1 / (40 * (s + 1))) / δ) * δ ≤ 1 / 4 := by
          have h1 : s * (10 * (1 / (40 * (s + 1))) / δ) * δ = s / (s + 1) * (1 / 4) := by field_simp; ring
          rw [h1]
          have h2 : s / (s + 1) ≤ 1 := (div_le_one (by positivity)).mpr (by linarith)
          linarith
        have hjac : ∀ t ∈ Icc 0 δ, ‖S *ᵥ jacT (fun s => Foster.evalParabola s δ (a c) (b c)) t‖ ≤ s * (10 * (1 / (40 * (s + 1))) / δ) := by
          intro t ht
          refine (hS _).trans (mul_le_mul_of_nonneg_left ?_ hs)
          rw [jacT_evalParabola, pi_norm_le_iff_of_nonneg (by positivity)]
          exact fun j => hsl t ht j
        have hz : ‖y' ω k + δ • additiveField g S (k * δ) δ (a c) (b c) (y' ω k) 0‖ < ρ + 1 := by
          have h1 : ‖additiveField g S (k * δ) δ (a c) (b c) (y' ω k) 0‖ ≤ F + s * (10 * (1 / (40 * (s + 1))) / δ) :=
            (norm_add_le _ _).trans (add_le_add (hgF _ _) (hjac 0 ⟨le_rfl, hδ.le⟩))
          have h2 : ‖δ • additiveField g S (k * δ) δ (a c) (b c) (y' ω k) 0‖ ≤ 1 / 8 + 1 / 4 := by
            rw [norm_smul, Real.norm_eq_abs, abs_of_pos hδ]
            refine (mul_le_mul_of_nonneg_left h1 hδ.le).trans ?_
            rw [mul_add, mul_comm δ (s * _)]
            linarith
          refine (norm_add_le _ _).trans_lt ?_
          linarith [hyb k hkN.le]
        have hcg := rosAdd_congr (f := f) (g := g) S (y' ω k) (a c) (b c)
          (heq _ ((hyb k hkN.le).trans (by linarith)) _ (by rw [zero_add]; exact hgrid k hkN.le))
          (fun x hx => heq x hx.le _ (hkI k hkN)) hz (hg.deriv _ _ (hkI k hkN))
        rw [hc2, hc2', hfield, hfield, hint _ _ k hkN, hint' _ _ k hkN, ih hkN.le, hcg]
    exact fun k hk => ⟨(hXX _ (hgrid k hk)).1, hyy k hk⟩

/-- C107: the quantity plotted by the pathwise experiments with EKF1, for a drift with two continuous derivatives whose equation has a
solution along every continuous path of the noise. -/
theorem C107_measured {la : LinAlg} (hla : la.Correct) (hd : 0 < d) {f : Field d} (hf : ContDiff ℝ 2 (Function.uncurry f)) {T : ℝ}
    (hT : 0 < T) (S : Mat d m) (x0 : Vec d) (hsol : ∀ w : ℝ → Vec m, Continuous w → ∃ x, SolvesAdditive f S w x0 T x) {ε : ℝ} (hε : 0 < ε) :
    ∃ (A : ℝ) (N0 : ℕ), ∀ {Ω : Type} [MeasurableSpace Ω] {Q : Measure Ω} {R : Ω → Rng}, IdealNormals Q R → ∀ N ≥ N0,
      ∀ r : ℕ, 0 < r → ∀ σ : ℝ, σ ≠ 0 → ∀ (sqrt : Bool) (rng : Rng) (key : Key) (odeInt : OdeInt (Vec d) d),
      (∀ k x vf, Ekf.ekf1 la rng none x vf (T / N) 1 sqrt
        (some ⟨_, IOUP.transition 0 σ 1 (T / N) d⟩) none = .ok (odeInt k x vf (T / N))) →
      ∀ n ≤ N, ∃ y z : Ω → Vec d,
        (∀ ω, ∃ ts traj traj2, ramSolver (R ω) key f (fun _ _ => S) x0 x0 (T / N) N r odeInt = .ok (ts, traj, traj2) ∧
          ts[n]? = some (n * (T / N)) ∧ traj[n]? = some (y ω) ∧ traj2[n]? = some (z ω)) ∧
        Q {ω | A * (T / N) < ‖y ω - z ω‖} ≤ ENNReal.ofReal ε := by
  obtain ⟨B, hB⟩ := Levy.exists_brownianVec m
  obtain ⟨P, hP⟩ : ∃ P : Measure (Fin m → ℕ × ℕ → ℝ), P = Measure.pi fun _ => Levy.noise := ⟨_, rfl⟩
  rw [← hP] at hB
  obtain ⟨X, hX⟩ := hB.exists_solution_of_paths hsol
  obtain ⟨A1, N1, h1⟩ := C107_prob hla hB hd hf hT S x0 hX (half_pos hε)
  obtain ⟨A2, N2, h2⟩ := C103_em hB hf hT S x0 hX (half_pos hε)
  refine ⟨A1 + |A2|, N1 + N2 + 1, ?_⟩
  intro Ω _ Q R hR N hN r hr σ hσ sqrt rng key odeInt hode n hn
  have hN0 : 0 < N := by omega
  have hN' : (0 : ℝ) < N := by exact_mod_cast hN0
  have hr' : (1 : ℝ) ≤ r := by exact_mod_cast hr
  have h1' := h1 N (by omega) σ hσ sqrt rng
  obtain ⟨z0, hz1, hz2⟩ := h2 (N * r) (le_trans (by omega) (Nat.le_mul_of_pos_right N hr)) (n * r) (Nat.mul_le_mul_right r hn)
  obtain ⟨δ, hδdef⟩ : ∃ δ, δ = T / N := ⟨_, rfl⟩
  obtain ⟨η, hη⟩ : ∃ η, η = δ / r := ⟨_, rfl⟩
  have hηT : T / (N * r : ℕ) = η := by rw [hη, hδdef]; push_cast; field_simp
  have hδ : 0 < δ := by rw [hδdef]; positivity
  have hη0 : 0 < η := by rw [hη]; positivity
  have hrη : (r : ℝ) * η = δ := by rw [hη]; field_simp
  have et : ((n * r : ℕ) : ℝ) * η = n * δ := by rw [← hrη]; push_cast; ring
  rw [hηT] at hz1 hz2
  rw [et] at hz2
  rw [← hδdef] at hode h1' ⊢
  have hηδ : η ≤ δ := by rw [hη]; exact div_le_self hδ.le hr'
  obtain ⟨R0, hm, htr⟩ := ram_transfer_of hB hf.continuous S x0 hR hδ hr hη key odeInt (J := fun k x a b => rosAdd f S (k * δ) δ x a b)
    (fun k _ => (continuous_rosAdd hf.continuous S (fun x => hasFDerivAt_left hf x _) (continuous_fderiv_left hf _)).measurable)
    (fun κ x k hk a b => Except.ok.inj ((hode κ x _).symm.trans (C86_step hla rng hd _
      (fun z => ((hasFDerivAt_left hf z _).add_const _).differentiableAt) hσ hδ x sqrt))) hn
  obtain ⟨y0, hy1, hy2⟩ := h1' R0 key (Foster.getApproxFine m r) (fun c => c.1) (fun c => c.2.1) (fun _ _ _ => rfl) odeInt hode hm n hn
  obtain ⟨y, z, hyz, hid⟩ := htr y0 z0 hy1 hz1
  refine ⟨y, z, hyz, ?_⟩
  have hide : IdentDistrib (fun ω => ‖y0 ω - z0 ω‖) (fun ω => ‖y ω - z ω‖) P Q :=
    hid.comp (u := fun p : Vec d × Vec d => ‖p.1 - p.2‖) (measurable_fst.sub measurable_snd).norm
  have hmeas := hide.measure_mem_eq (s := Ioi ((A1 + |A2|) * δ)) measurableSet_Ioi
  have e : Q {ω | (A1 + |A2|) * δ < ‖y ω - z ω‖} = P {ω | (A1 + |A2|) * δ < ‖y0 ω - z0 ω‖} := hmeas.symm
  rw [e]
  have hsub : {ω | (A1 + |A2|) * δ < ‖y0 ω - z0 ω‖} ⊆ {ω | A1 * δ < ‖X ω (n * δ) - y0 ω‖} ∪ {ω | A2 * η < ‖X ω (n * δ) - z0 ω‖} := by
    intro ω hω
    rw [mem_setOf_eq] at hω
    by_contra hcon
    simp only [mem_union, mem_setOf_eq, not_or, not_lt] at hcon
    have h3 : ‖y0 ω - z0 ω‖ ≤ ‖X ω (n * δ) - y0 ω‖ + ‖X ω (n * δ) - z0 ω‖ := by
      rw [show y0 ω - z0 ω = (X ω (n * δ) - z0 ω) - (X ω (n * δ) - y0 ω) by abel]
      exact (norm_sub_le _ _).trans (le_of_eq (add_comm _ _))
    have h4 : A2 * η ≤ |A2| * δ := mul_le_mul (le_abs_self _) hηδ hη0.le (abs_nonneg _)
    linarith [hcon.1, hcon.2]
  refine (measure_mono hsub).trans ((measure_union_le _ _).trans ((add_le_add hy2 hz2).trans ?_))
  rw [← ENNReal.ofReal_add (by positivity) (by positivity), add_halves]

/-- C107: FitzHugh-Nagumo as `ivp.py` defines it, with its own diffusion or with the padded square one. -/
theorem C107_fhn {la : LinAlg} (hla : la.Correct) {T : ℝ} (hT : 0 < T) {ε : ℝ} (hε : 0 < ε) :
    (∃ (A : ℝ) (N0 : ℕ), ∀ {Ω : Type} [MeasurableSpace Ω] {Q : Measure Ω} {R : Ω → Rng}, IdealNormals Q R → ∀ N ≥ N0,
      ∀ r : ℕ, 0 < r → ∀ σ : ℝ, σ ≠ 0 → ∀ (sqrt : Bool) (rng : Rng) (key : Key) (odeInt : OdeInt (Vec 2) 2),
      (∀ k x vf, Ekf.ekf1 la rng none x vf (T / N) 1 sqrt
        (some ⟨_, IOUP.transition 0 σ 1 (T / N) 2⟩) none = .ok (odeInt k x vf (T / N))) →
      ∀ n ≤ N, ∃ y z : Ω → Vec 2,
        (∀ ω, ∃ ts traj traj2, ramSolver (R ω) key Ivp.Fhn.drift Ivp.Fhn.sigma Ivp.Fhn.x0 Ivp.Fhn.x0 (T / N) N r odeInt =
            .ok (ts, traj, traj2) ∧
          ts[n]? = some (n * (T / N)) ∧ traj[n]? = some (y ω) ∧ traj2[n]? = some (z ω)) ∧
        Q {ω | A * (T / N) < ‖y ω - z ω‖} ≤ ENNReal.ofReal ε) ∧
    (∃ (A : ℝ) (N0 : ℕ), ∀ {Ω : Type} [MeasurableSpace Ω] {Q : Measure Ω} {R : Ω → Rng}, IdealNormals Q R → ∀ N ≥ N0,
      ∀ r : ℕ, 0 < r → ∀ σ : ℝ, σ ≠ 0 → ∀ (sqrt : Bool) (rng : Rng) (key : Key) (odeInt : OdeInt (Vec 2) 2),
      (∀ k x vf, Ekf.ekf1 la rng none x vf (T / N) 1 sqrt
        (some ⟨_, IOUP.transition 0 σ 1 (T / N) 2⟩) none = .ok (odeInt k x vf (T / N))) →
      ∀ n ≤ N, ∃ y z : Ω → Vec 2,
        (∀ ω, ∃ ts traj traj2, ramSolver (R ω) key Ivp.Fhn.drift Ivp.Fhn.sigmaSquare Ivp.Fhn.x0 Ivp.Fhn.x0 (T / N) N r odeInt =
            .ok (ts, traj, traj2) ∧
          ts[n]? = some (n * (T / N)) ∧ traj[n]? = some (y ω) ∧ traj2[n]? = some (z ω)) ∧
        Q {ω | A * (T / N) < ‖y ω - z ω‖} ≤ ENNReal.ofReal ε) := by
  have e2 : Ivp.Fhn.sigmaSquare = fun _ _ => !![0, 0; Ivp.Fhn.sig, 0] := by
    funext x t
    simp [Ivp.Fhn.sigmaSquare, Ivp.Fhn.sigma]
  constructor
  · exact C107_measured hla (by norm_num) Ivp.Fhn.contDiff_drift hT (!![0; Ivp.Fhn.sig]) Ivp.Fhn.x0
      (fun w hw => Ivp.Fhn.exists_solution hT.le _ (fun j => by fin_cases j; rfl) w hw _) hε
  · rw [e2]
    exact C107_measured hla (by norm_num) Ivp.Fhn.contDiff_drift hT (!![0, 0; Ivp.Fhn.sig, 0]) Ivp.Fhn.x0
      (fun w hw => Ivp.Fhn.exists_solution hT.le _ (fun j => by fin_cases j <;> rfl) w hw _) hε

/-- C106 and C107: a generator and a filter that satisfy the hypotheses; the integrator is EKF1 itself. -/
example {la : LinAlg} (hla : la.Correct) : ∃ (A : ℝ) (N0 : ℕ), ∀ N ≥ N0, ∃ (odeInt : OdeInt (Vec 2) 2) (y z : _ → Vec 2),
    (∀ (k : Key) x vf, Ekf.ekf1 la ⟨fun _ _ _ => 0⟩ none x vf (1 / N) 1 true (some ⟨_, IOUP.transition 0 1 1 (1 / N) 2⟩) none =
      .ok (odeInt k x vf (1 / N))) ∧
    (∀ ω, ∃ ts traj traj2, ramSolver (drawsRng ω) [] Ivp.Fhn.drift Ivp.Fhn.sigma Ivp.Fhn.x0 Ivp.Fhn.x0 (1 / N) N 7 odeInt =
      .ok (ts, traj, traj2) ∧ traj[N]? = some (y ω) ∧ traj2[N]? = some (z ω)) ∧
    drawsMeasure {ω | A * (1 / N) < ‖y ω - z ω‖} ≤ ENNReal.ofReal 0.01 := by
  obtain ⟨A, N0, hA⟩ := (C107_fhn hla one_pos (by norm_num : (0 : ℝ) < 0.01)).1
  refine ⟨A, N0, fun N hN => ?_⟩
  have hex : ∀ (x : Vec 2) vf, ∃ y, Ekf.ekf1 la ⟨fun _ _ _ => 0⟩ none x vf (1 / N) 1 true (some ⟨_, IOUP.transition 0 1 1 (1 / (N : ℝ)) 2⟩) none =
      .ok y := fun x vf => by
    have h := Ekf.ekf1_two la ⟨fun _ _ _ => 0⟩ none (by norm_num : 0 < 2) x vf (1 / N) 1 true (IOUP.transition 0 1 1 (1 / (N : ℝ)) 2) none
    rw [Ekf.solver_some] at h
    exact ⟨_, h⟩
  choose F hF using hex
  obtain ⟨y, z, h1, h2⟩ := hA idealNormals_drawsRng N hN 7 (by norm_num) 1 one_ne_zero true ⟨fun _ _ _ => 0⟩ [] (fun _ x vf _ => F x vf)
    (fun _ x vf => hF x vf) N le_rfl
  refine ⟨fun _ x vf _ => F x vf, y, z, fun _ x vf => hF x vf, fun ω => ?_, h2⟩
  obtain ⟨ts, traj, traj2, g1, -, g2, g3⟩ := h1 ω
  exact ⟨ts, traj, traj2, g1, g2, g3⟩

/-- C106: the hypotheses on the drift and the solution hold for a concrete Brownian motion and the field `-t x`. -/
example {la : LinAlg} (hla : la.Correct) : ∃ (B : Fin 2 → ℝ≥0 → (Fin 2 → ℕ × ℕ → ℝ) → ℝ) (X : (Fin 2 → ℕ × ℕ → ℝ) → ℝ → Vec 2) (A : ℝ),
    IsBrownianVec B (Measure.pi fun _ => Levy.noise) ∧ ∀ N : ℕ, 0 < N → ∃ (R : (Fin 2 → ℕ × ℕ → ℝ) → Rng) (odeInt : OdeInt (Vec 2) 2),
      ∃ y : (Fin 2 → ℕ × ℕ → ℝ) → Vec 2, (∀ ω, (sdeSolver (R ω) [] (fun (x : Vec 2) (t : ℝ) => -(t • x)) (fun _ _ => 1) 0
        (Foster.getApprox 2) (1 / N) N odeInt).2.1[N]? = some (y ω)) ∧
      ∫ ω, ‖X ω (N * (1 / N)) - y ω‖ ^ 2 ∂(Measure.pi fun _ => Levy.noise) ≤ A * (1 / N) ^ 2 := by
  obtain ⟨B, hB⟩ := Levy.exists_brownianVec 2
  obtain ⟨X, hX⟩ := hB.exists_solution zero_le_one smooth_decay (1 : Mat 2 2) 0
  obtain ⟨A, hA⟩ := C106_strong hla hB (by norm_num) one_pos smooth_decay timeLipschitz_decay (1 : Mat 2 2) 0 hX
  refine ⟨B, X, A, hB, fun N hN => ?_⟩
  have hN1 : (0 : ℝ) < N := by exact_mod_cast hN
  have hN' : (0 : ℝ) < 1 / N := by positivity
  have hex : ∀ (x : Vec 2) vf, ∃ y, Ekf.ekf1 la ⟨fun _ _ _ => 0⟩ none x vf (1 / N) 1 true (some ⟨_, IOUP.transition 0 1 1 (1 / (N : ℝ)) 2⟩) none =
      .ok y := fun x vf => by
    have h := Ekf.ekf1_two la ⟨fun _ _ _ => 0⟩ none (by norm_num : 0 < 2) x vf (1 / N) 1 true (IOUP.transition 0 1 1 (1 / (N : ℝ)) 2) none
    rw [Ekf.solver_some] at h
    exact ⟨_, h⟩
  choose F hF using hex
  choose c hc using fun (ω : Fin 2 → ℕ × ℕ → ℝ) (k : ℕ) => (⟨(_, _), exists_sameEndAndArea hN'.ne' (fun t j => B j t.toNNReal ω) (k * (1 / N))⟩ :
    ∃ c : Vec 2 × Vec 2, SameEndAndArea (fun t => Foster.evalParabola t (1 / N) c.1 c.2) (fun t j => B j t.toNNReal ω) (k * (1 / N)) (1 / N))
  choose R hR using fun ω => exists_rng_coeffs (m := 2) [] hN' N (c ω)
  obtain ⟨y, hy1, -, hy3⟩ := hA N hN 1 one_ne_zero true ⟨fun _ _ _ => 0⟩ R [] (Foster.getApprox 2) Prod.fst Prod.snd (fun _ _ _ => rfl)
    (fun _ x vf _ => F x vf) (fun _ x vf => hF x vf) (Eventually.of_forall fun ω k hk c' hc' => by
      rw [sdeSolver_coeffs, List.getElem?_map, List.getElem?_range hk] at hc'
      have h : (Foster.getApprox 2).coeffs (R ω) ((Key.child [] N k).child 2 0) (1 / N) = c' := Option.some.inj hc'
      rw [← h, hR ω k hk]
      exact hc ω k) N le_rfl
  exact ⟨R, fun _ x vf _ => F x vf, y, hy1, hy3⟩

end Verif
