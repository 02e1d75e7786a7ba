import Verif.Lemmas.L2Strong
import Verif.Lemmas.TrapConsist
import Verif.Props.Ekf
import Verif.Props.EulerMaruyama
import Verif.Lemmas.LinAlg
import Verif.Lemmas.LevyBrownian

/-!
# Properties C92 and C93: strong order one of `sde_solver` with EKF0 and of Euler–Maruyama, for additive noise
-/

namespace Verif

open Matrix Spec Jnp Set MeasureTheory ProbabilityTheory Filter
open scoped NNReal Topology

variable {d m : ℕ}

/-- The states and coefficients of a run of `sde_solver`. -/
theorem sdeSolver_states {X C : Type} (rng : Rng) (key : Key) (drift : Field d) (sigma : Diffusion d m) (x0 : X)
    (bm : BmApprox C m) (δ : ℝ) (N : ℕ) (odeInt : OdeInt X d) : ∃ y : ℕ → X,
      (∀ n ≤ N, (sdeSolver rng key drift sigma x0 bm δ N odeInt).2.1[n]? = some (y n)) ∧ y 0 = x0 ∧
      ∀ k < N, ∃ c, (sdeSolver rng key drift sigma x0 bm δ N odeInt).2.2[k]? = some c ∧
        y (k + 1) = odeInt ((key.child N k).child 2 1) (y k) (intervalField drift sigma bm δ c (k * δ)) δ := by
  set out := sdeSolver rng key drift sigma x0 bm δ N odeInt with hout
  have h0 : out.2.1[0]? = some x0 := by
    have := (C02_trajectory_shape rng key drift sigma x0 bm δ N odeInt).2.1
    rwa [List.head?_eq_getElem?] at this
  have hex : ∀ n, ∃ y, n ≤ N → out.2.1[n]? = some y := fun n => by
    by_cases hn : n ≤ N
    · cases n with
      | zero => exact ⟨x0, fun _ => h0⟩
      | succ n =>
        obtain ⟨_, _, -, -, -, h4⟩ := sdeSolver_interval rng key drift sigma x0 bm δ N odeInt n (by omega)
        exact ⟨_, fun _ => h4⟩
    · exact ⟨x0, fun h => absurd h hn⟩
  choose y hy using hex
  refine ⟨y, hy, Option.some.inj ((hy 0 (Nat.zero_le _)).symm.trans h0), fun k hk => ?_⟩
  obtain ⟨x, c, h1, h2, -, h4⟩ := sdeSolver_interval rng key drift sigma x0 bm δ N odeInt k hk
  have e1 : x = y k := Option.some.inj (h1.symm.trans (hy k hk.le))
  exact ⟨c, h2, by rw [← e1]; exact Option.some.inj ((hy (k + 1) hk).symm.trans h4)⟩

theorem continuous_additiveField {f : Vec d → ℝ → Vec d} (hf : Continuous (Function.uncurry f)) (S : Mat d m) (a0 δ t : ℝ) :
    Continuous fun p : Vec d × Vec m × Vec m => additiveField f S a0 δ p.2.1 p.2.2 p.1 t := by
  unfold additiveField
  refine Continuous.add ?_ ?_
  · exact hf.comp (by fun_prop : Continuous fun p : Vec d × Vec m × Vec m => (p.1, t + a0))
  · simp only [jacT_evalParabola]
    refine (Matrix.mulVecLin S).continuous_of_finiteDimensional.comp (continuous_pi fun j => ?_)
    fun_prop

/-- The trapezoidal scheme depends continuously on the initial state and on the coefficients. -/
theorem continuous_trapScheme {f : Vec d → ℝ → Vec d} (hf : Continuous (Function.uncurry f)) (S : Mat d m) (a0 δ h : ℝ) (n : ℕ) :
    Continuous fun p : Vec d × Vec m × Vec m => trapScheme (additiveField f S a0 δ p.2.1 p.2.2) h p.1 n := by
  induction n with
  | zero => exact continuous_fst.prodMk (continuous_additiveField hf S a0 δ 0)
  | succ n ih =>
    have h1 := continuous_fst.comp ih
    have h2 := continuous_snd.comp ih
    simp only [Function.comp_def] at h1 h2
    have h3 : Continuous fun p : Vec d × Vec m × Vec m => additiveField f S a0 δ p.2.1 p.2.2
        ((trapScheme (additiveField f S a0 δ p.2.1 p.2.2) h p.1 n).1 + h • (trapScheme (additiveField f S a0 δ p.2.1 p.2.2) h p.1 n).2)
        ((n + 1) * h) :=
      (continuous_additiveField hf S a0 δ ((n + 1) * h)).comp ((h1.add (h2.const_smul h)).prodMk continuous_snd)
    exact (h1.add ((h2.add h3).const_smul (h / 2))).prodMk h3

/-- C92: strong order one in mean square of `sde_solver` with EKF0 and the once integrated Brownian motion prior, for an SDE with
additive noise driven by a Brownian motion whose path the parabolas match in end point and integral. The constant depends neither
on the number of intervals nor on the number of filter steps per interval: one filter step per interval is enough. -/
theorem C92_ekf0_strong {la : LinAlg} (hla : la.Correct) {Ω : Type*} [MeasurableSpace Ω] {P : Measure Ω} {B : Fin m → ℝ≥0 → Ω → ℝ}
    (hB : IsBrownianVec B P) (hd : 0 < d) {f : Field d} {Df : Vec d → ℝ → Vec d →L[ℝ] Vec d} {T L K Lt : ℝ} (hT : 0 < T)
    (hf : SmoothField f Df T L K) (htl : TimeLipschitz f T Lt) (S : Mat d m) (x0 : Vec d)
    {X : Ω → ℝ → Vec d} (hX : ∀ᵐ ω ∂P, SolvesAdditive f S (fun t j => B j t.toNNReal ω) x0 T (X ω)) :
    ∃ A : ℝ, ∀ N : ℕ, 0 < N → ∀ M : ℕ, 0 < M → ∀ σ : ℝ, σ ≠ 0 → ∀ (sqrt : Bool) (rng : Rng) (R : Ω → Rng) (key : Key) {C : Type}
      (bm : BmApprox C m) (a b : C → Vec m), (∀ t dt c, bm.eval t dt c = Foster.evalParabola t dt (a c) (b c)) →
      ∀ odeInt : OdeInt (Vec d) d, (∀ k x vf, Ekf.ekf0 la rng none x vf (T / N / M) M sqrt
        (some ⟨_, IOUP.transition 0 σ 1 (T / N / M) d⟩) none = .ok (odeInt k x vf (T / N))) →
      (∀ᵐ ω ∂P, ∀ k < N, ∀ c, (sdeSolver (R ω) key f (fun _ _ => S) x0 bm (T / N) N odeInt).2.2[k]? = some c →
        SameEndAndArea (fun t => bm.eval t (T / N) c) (fun t j => B j t.toNNReal ω) (k * (T / N)) (T / N)) →
      ∀ n ≤ N, ∃ y : Ω → Vec d, (∀ ω, (sdeSolver (R ω) key f (fun _ _ => S) x0 bm (T / N) N odeInt).2.1[n]? = some (y ω)) ∧
        Integrable (fun ω => ‖X ω (n * (T / N)) - y ω‖ ^ 2) P ∧ ∫ ω, ‖X ω (n * (T / N)) - y ω‖ ^ 2 ∂P ≤ A * (T / N) ^ 2 := by
  wlog hL : 0 ≤ L generalizing L
  · refine this (L := 0) ⟨hf.cont, fun x y t ht => (hf.lip x y t ht).trans ?_, hf.deriv, hf.jac⟩ le_rfl
    exact mul_le_mul_of_nonneg_right (not_le.mp hL).le (norm_nonneg _)
  wlog hLt : 0 ≤ Lt generalizing Lt
  · refine this (Lt := 0) (fun x s hs t ht => (htl x s hs t ht).trans ?_) le_rfl
    refine mul_le_mul_of_nonneg_right (mul_le_mul_of_nonneg_right (not_le.mp hLt).le ?_) (abs_nonneg _)
    positivity
  have hK := hf.jac_const_nonneg hT
  obtain ⟨s, hs, hS⟩ := exists_mulVec_bound S
  obtain ⟨C1, hC1, hcons⟩ := trap_expansion hf hL hK hLt hT.le htl hs hS
  obtain ⟨A, -, hA⟩ := strong_core hB hT hf hL hLt htl S x0 hX (C0 := L * Real.exp (3 * L / 2 * T) * (1 + L * T)) hC1
    (by norm_num : (0 : ℝ) ≤ 4)
  refine ⟨A, ?_⟩
  intro N hN M hM σ hσ sqrt rng R key C bm a b hbm odeInt hode hm n hn
  have hN' : (0 : ℝ) < N := by exact_mod_cast hN
  have hM' : (0 : ℝ) < M := by exact_mod_cast hM
  obtain ⟨δ, hδdef⟩ : ∃ δ, δ = T / N := ⟨_, rfl⟩
  have hA' := hA N hN (lam := 1 / 2) (mu := 1 / Real.sqrt 6 + trapExcess M)
  rw [← hδdef] at hode hm hA' ⊢
  have hδ : 0 < δ := by rw [hδdef]; positivity
  have hNδ : (N : ℝ) * δ = T := by rw [hδdef]; field_simp
  have hkδ : ∀ k < N, (k : ℝ) * δ + δ ≤ T := fun k hk => by
    have : ((k + 1 : ℕ) : ℝ) * δ ≤ N * δ := mul_le_mul_of_nonneg_right (by exact_mod_cast hk) hδ.le
    rw [hNδ] at this
    push_cast at this
    linarith
  have hint : ∀ k x vf, odeInt k x vf δ = (trapScheme vf (δ / M) x M).1 := fun k x vf =>
    Except.ok.inj ((hode k x vf).symm.trans (C43_trapezoidal hla rng hd vf hσ (by positivity) x M sqrt))
  have hfield : ∀ (c : C) (a0 : ℝ), intervalField f (fun _ _ => S) bm δ c a0 = additiveField f S a0 δ (a c) (b c) := fun c a0 => by
    funext z t
    simp only [intervalField, additiveField]
    congr 2
    congr 1
    funext s
    exact hbm s δ c
  choose y hy1 hy0 hys using fun ω => sdeSolver_states (R ω) key f (fun _ _ => S) x0 bm δ N odeInt
  have hcf : ∀ ω k, ∃ c, k < N → (sdeSolver (R ω) key f (fun _ _ => S) x0 bm δ N odeInt).2.2[k]? = some c ∧
      y ω (k + 1) = odeInt ((key.child N k).child 2 1) (y ω k) (intervalField f (fun _ _ => S) bm δ c (k * δ)) δ := fun ω k => by
    by_cases hk : k < N
    · obtain ⟨c, hc⟩ := hys ω k hk
      exact ⟨c, fun _ => hc⟩
    · obtain ⟨c, -⟩ := hys ω 0 hN
      exact ⟨c, fun h => absurd h hk⟩
  choose c hc using hcf
  have h6 : |1 / Real.sqrt 6| ≤ 1 := by
    rw [abs_of_pos (by positivity), div_le_one (by positivity)]
    exact Real.one_le_sqrt.mpr (by norm_num)
  refine ⟨fun ω => y ω n, fun ω => hy1 ω n hn, ?_⟩
  refine hA' (by rw [abs_of_pos (by norm_num)]; norm_num) ((abs_add_le _ _).trans (by linarith [trapExcess_bound hM]))
    (fun k y a b => (trapScheme (additiveField f S (k * δ) δ a b) (δ / M) y M).1)
    (fun k => (continuous_fst.comp (continuous_trapScheme hf.cont S (k * δ) δ (δ / M) M)).measurable)
    (fun k hk a b y y' => trap_stable hL hf.lip S hδ (by positivity) (hkδ k hk) hM a b y y')
    (fun k hk a b y => hcons hδ (by positivity) (hkδ k hk) hM a b y le_rfl) (fun k ω => y ω k) (fun ω k => a (c ω k)) (fun ω k => b (c ω k))
    (Eventually.of_forall hy0) ?_ (Eventually.of_forall fun ω k hk => ?_) n hn
  · filter_upwards [hm] with ω hω k hk
    have := hω k hk (c ω k) (hc ω k hk).1
    simpa only [hbm] using this
  · rw [(hc ω k hk).2, hint, hfield]

theorem Spec.IsBrownianVec.exists_solution {Ω : Type*} [MeasurableSpace Ω] {P : Measure Ω} {B : Fin m → ℝ≥0 → Ω → ℝ}
    (hB : IsBrownianVec B P) {f : Field d} {Df : Vec d → ℝ → Vec d →L[ℝ] Vec d} {T L K : ℝ} (hT : 0 ≤ T) (hf : SmoothField f Df T L K)
    (S : Mat d m) (x0 : Vec d) : ∃ X : Ω → ℝ → Vec d, ∀ᵐ ω ∂P, SolvesAdditive f S (fun t j => B j t.toNNReal ω) x0 T (X ω) := by
  have hex : ∀ ω, ∃ x : ℝ → Vec d, (∀ j, Continuous fun t => B j t ω) → SolvesAdditive f S (fun t j => B j t.toNNReal ω) x0 T x := by
    intro ω
    by_cases h : ∀ j, Continuous fun t => B j t ω
    · obtain ⟨x, hx⟩ := exists_solvesAdditive hT hf.cont hf.lip S (w := fun t j => B j t.toNNReal ω)
        (continuous_pi fun j => (h j).comp continuous_real_toNNReal).continuousOn x0
      exact ⟨x, fun _ => hx⟩
    · exact ⟨fun _ => 0, fun h' => absurd h' h⟩
  choose X hX using hex
  refine ⟨X, ?_⟩
  have hc : ∀ᵐ ω ∂P, ∀ j, Continuous fun t => B j t ω := ae_all_iff.mpr fun j => (hB.brownian j).cont
  filter_upwards [hc] with ω hω
  exact hX ω hω

/-- C92: for every Brownian motion, smooth field and grid there are a solution, a generator, and an integrator that meet the
hypotheses. -/
example {la : LinAlg} (hla : la.Correct) {Ω : Type*} [MeasurableSpace Ω] {P : Measure Ω} {B : Fin m → ℝ≥0 → Ω → ℝ}
    (hB : IsBrownianVec B P) (hd : 0 < d) {f : Field d} {Df : Vec d → ℝ → Vec d →L[ℝ] Vec d} {T L K : ℝ} (hT : 0 < T)
    (hf : SmoothField f Df T L K) (S : Mat d m) (x0 : Vec d) {N M : ℕ} (hN : 0 < N) (hM : 0 < M) (rng : Rng) (key : Key) :
    (∃ X : Ω → ℝ → Vec d, ∀ᵐ ω ∂P, SolvesAdditive f S (fun t j => B j t.toNNReal ω) x0 T (X ω)) ∧
    ∃ (R : Ω → Rng) (odeInt : OdeInt (Vec d) d), (∀ k x vf, Ekf.ekf0 la rng none x vf (T / N / M) M false
        (some ⟨_, IOUP.transition 0 1 1 (T / N / M) d⟩) none = .ok (odeInt k x vf (T / N))) ∧
      ∀ᵐ ω ∂P, ∀ k < N, ∀ c, (sdeSolver (R ω) key f (fun _ _ => S) x0 (Foster.getApprox m) (T / N) N odeInt).2.2[k]? = some c →
        SameEndAndArea (fun t => (Foster.getApprox m).eval t (T / N) c) (fun t j => B j t.toNNReal ω) (k * (T / N)) (T / N) := by
  have hN' : (0 : ℝ) < N := by exact_mod_cast hN
  have hM' : (0 : ℝ) < M := by exact_mod_cast hM
  refine ⟨hB.exists_solution hT.le hf S x0, ?_⟩
  obtain ⟨δ, hδ⟩ : ∃ δ, δ = T / N := ⟨_, rfl⟩
  have hδ0 : 0 < δ := by rw [hδ]; positivity
  rw [← hδ]
  choose R hR using fun ω => exists_rng_coeffs (m := m) key hδ0 N fun k => ((fun j => B j (k * δ + δ).toNNReal ω) - (fun j => B j (k * δ).toNNReal ω),
    fun j => Real.sqrt 6 * ((∫ t in (0 : ℝ)..δ, (B j (k * δ + t).toNNReal ω - B j (k * δ).toNNReal ω)) / δ -
      ((fun j => B j (k * δ + δ).toNNReal ω) - (fun j => B j (k * δ).toNNReal ω)) j / 2))
  refine ⟨R, fun _ x vf _ => (trapScheme vf (δ / M) x M).1, fun _ x vf => C43_trapezoidal hla rng hd vf one_ne_zero (by positivity) x M
    false, Eventually.of_forall fun ω k hk c hc => ?_⟩
  obtain ⟨_, c', -, h2, h3, -⟩ := sdeSolver_interval (R ω) key f (fun _ _ => S) x0 (Foster.getApprox m) δ N
    (fun _ x vf _ => (trapScheme vf (δ / M) x M).1) k hk
  have : c = c' := Option.some.inj (hc.symm.trans h2)
  rw [this, h3, hR ω k hk]
  exact exists_sameEndAndArea hδ0.ne' (fun t j => B j t.toNNReal ω) (k * δ)

/-- The states of a run of `solver_pathwise`. -/
theorem emPathwise_states (w : ℕ → Vec m) (x0 : Vec d) (f : Field d) (sigma : Diffusion d m) (h : ℝ) (N : ℕ) : ∃ (ts : List ℝ) (y : ℕ → Vec d),
    emPathwise ((List.range N).map w) x0 f sigma h N = .ok (ts, (List.range (N + 1)).map y) ∧ y 0 = x0 ∧
      ∀ k < N, y (k + 1) = y k + h • f (y k) (k * h) + sigma (y k) (k * h) *ᵥ w k := by
  have hl : ((List.range N).map w).length = N := by simp
  refine ⟨_, _, emPathwise_eq _ x0 f sigma h N false hl, by simp [emFold], fun k hk => ?_⟩
  obtain ⟨ts, xs, h1, -, -, h4⟩ := (C18_pathwise_recursion ((List.range N).map w) x0 f sigma h N false).2 hl
  rw [emPathwise_eq _ x0 f sigma h N false hl] at h1
  have e : xs = _ := (Prod.ext_iff.mp (Except.ok.inj h1)).2.symm
  have := h4 k _ (w k) (by rw [e, List.getElem?_map, List.getElem?_range (by omega)]; rfl)
    (by rw [List.getElem?_map, List.getElem?_range hk]; rfl)
  rw [e, List.getElem?_map, List.getElem?_range (by omega)] at this
  simpa using Option.some.inj this

/-- C93: along every path of the noise on which the equation has a solution, the Euler–Maruyama scheme fed with the increments of
that path converges to the solution, uniformly over the grid. -/
theorem C93_em_along_paths {f : Field d} {T L : ℝ} (hc : Continuous (Function.uncurry f)) (hlip : ∀ x y, ∀ t ∈ Icc 0 T, ‖f x t - f y t‖ ≤ L * ‖x - y‖)
    (hT : 0 < T) {S : Mat d m} {w : ℝ → Vec m} {x0 : Vec d} {x : ℝ → Vec d} (hx : SolvesAdditive f S w x0 T x) {ε : ℝ} (hε : 0 < ε) :
    ∃ N0 : ℕ, ∀ N ≥ N0, ∃ ts xs, emPathwise ((List.range N).map fun k => w ((k + 1 : ℕ) * (T / N)) - w (k * (T / N))) x0 f (fun _ _ => S)
      (T / N) N = .ok (ts, xs) ∧ xs.length = N + 1 ∧ ∀ (n : ℕ) y, xs[n]? = some y → ‖x (n * (T / N)) - y‖ ≤ ε := by
  obtain ⟨η, hη, h⟩ := euler_path_tendsto hc (le_max_right L 0)
    (fun x y t ht => (hlip x y t ht).trans (mul_le_mul_of_nonneg_right (le_max_left L 0) (norm_nonneg _))) hT hx hε
  obtain ⟨n0, hn0⟩ := exists_nat_gt (T / η)
  refine ⟨n0 + 1, fun N hN => ?_⟩
  have hN' : (0 : ℝ) < N := by exact_mod_cast (by omega : 0 < N)
  have hn0N : (n0 : ℝ) ≤ N := by exact_mod_cast (by omega : n0 ≤ N)
  obtain ⟨ts, y, h1, h2, h3⟩ := emPathwise_states (fun k => w ((k + 1 : ℕ) * (T / N)) - w (k * (T / N))) x0 f (fun _ _ => S) (T / N) N
  refine ⟨ts, _, h1, by simp, fun n z hz => ?_⟩
  have hnN : n < N + 1 := by
    by_contra hcon
    rw [List.getElem?_eq_none (by simpa using hcon)] at hz
    exact absurd hz (by simp)
  rw [List.getElem?_map, List.getElem?_range hnN] at hz
  have : y n = z := Option.some.inj hz
  rw [← this]
  have hlt : T / N < η := by
    rw [div_lt_iff₀ hN']
    rw [div_lt_iff₀ hη] at hn0
    exact hn0.trans_le (by rw [mul_comm]; exact mul_le_mul_of_nonneg_left hn0N hη.le)
  exact h (T / N) N y (by positivity) hlt (by rw [mul_div_cancel₀ _ hN'.ne']) h2 h3 n (by omega)

/-- C93: every continuous path of the noise is such a path. -/
example {f : Field d} {T L : ℝ} (hc : Continuous (Function.uncurry f)) (hlip : ∀ x y, ∀ t ∈ Icc 0 T, ‖f x t - f y t‖ ≤ L * ‖x - y‖)
    (hT : 0 < T) {S : Mat d m} {w : ℝ → Vec m} (hw : Continuous w) {x0 : Vec d} : ∃ x, SolvesAdditive f S w x0 T x :=
  exists_solvesAdditive hT.le hc hlip S hw.continuousOn x0

/-- C93: strong order one in mean square of Euler–Maruyama fed with the increments of a Brownian motion, for additive noise. -/
theorem C93_em_strong {Ω : Type*} [MeasurableSpace Ω] {P : Measure Ω} {B : Fin m → ℝ≥0 → Ω → ℝ}
    (hB : IsBrownianVec B P) {f : Field d} {Df : Vec d → ℝ → Vec d →L[ℝ] Vec d} {T L K Lt : ℝ} (hT : 0 < T)
    (hf : SmoothField f Df T L K) (htl : TimeLipschitz f T Lt) (S : Mat d m) (x0 : Vec d)
    {X : Ω → ℝ → Vec d} (hX : ∀ᵐ ω ∂P, SolvesAdditive f S (fun t j => B j t.toNNReal ω) x0 T (X ω)) :
    ∃ A : ℝ, ∀ N : ℕ, 0 < N → ∀ n ≤ N, ∃ y : Ω → Vec d, (∀ ω, ∃ ts xs, emPathwise ((List.range N).map fun k j =>
        B j ((k + 1 : ℕ) * (T / N)).toNNReal ω - B j (k * (T / N)).toNNReal ω) x0 f (fun _ _ => S) (T / N) N = .ok (ts, xs) ∧
          xs[n]? = some (y ω)) ∧
        Integrable (fun ω => ‖X ω (n * (T / N)) - y ω‖ ^ 2) P ∧ ∫ ω, ‖X ω (n * (T / N)) - y ω‖ ^ 2 ∂P ≤ A * (T / N) ^ 2 := by
  wlog hL : 0 ≤ L generalizing L
  · refine this (L := 0) ⟨hf.cont, fun x y t ht => (hf.lip x y t ht).trans ?_, hf.deriv, hf.jac⟩ le_rfl
    exact mul_le_mul_of_nonneg_right (not_le.mp hL).le (norm_nonneg _)
  wlog hLt : 0 ≤ Lt generalizing Lt
  · refine this (Lt := 0) (fun x s hs t ht => (htl x s hs t ht).trans ?_) le_rfl
    refine mul_le_mul_of_nonneg_right (mul_le_mul_of_nonneg_right (not_le.mp hLt).le ?_) (abs_nonneg _)
    positivity
  obtain ⟨A, -, hA⟩ := strong_core hB hT hf hL hLt htl S x0 hX (C0 := L) (C1 := 0) (κ0 := 0) le_rfl le_rfl
  refine ⟨A, ?_⟩
  intro N hN n hn
  have hN' : (0 : ℝ) < N := by exact_mod_cast hN
  obtain ⟨δ, hδdef⟩ : ∃ δ, δ = T / N := ⟨_, rfl⟩
  have hA' := hA N hN (lam := 0) (mu := 0) (by simp) (by simp)
  rw [← hδdef] at hA' ⊢
  have hδ : 0 < δ := by rw [hδdef]; positivity
  have hNδ : (N : ℝ) * δ = T := by rw [hδdef]; field_simp
  have hkδ : ∀ k < N, (k : ℝ) * δ ∈ Icc 0 T := fun k hk => by
    refine ⟨by positivity, ?_⟩
    have : (k : ℝ) * δ ≤ N * δ := mul_le_mul_of_nonneg_right (by exact_mod_cast hk.le) hδ.le
    rwa [hNδ] at this
  choose ts y h1 h2 h3 using fun ω => emPathwise_states
    (fun k j => B j ((k + 1 : ℕ) * δ).toNNReal ω - B j (k * δ).toNNReal ω) x0 f (fun _ _ => S) δ N
  refine ⟨fun ω => y ω n, fun ω => ⟨_, _, h1 ω, by rw [List.getElem?_map, List.getElem?_range (by omega)]; rfl⟩, ?_⟩
  refine hA' (fun k y a _ => y + δ • f y (k * δ) + S *ᵥ a) (fun k => ?_) (fun k hk a b y y' => ?_) (fun k hk a b y => ?_)
    (fun k ω => y ω k) (fun ω k => (fun j => B j (k * δ + δ).toNNReal ω) - fun j => B j (k * δ).toNNReal ω)
    (fun ω k j => Real.sqrt 6 * ((∫ t in (0 : ℝ)..δ, (B j (k * δ + t).toNNReal ω - B j (k * δ).toNNReal ω)) / δ -
      ((fun j => B j (k * δ + δ).toNNReal ω) - fun j => B j (k * δ).toNNReal ω) j / 2)) (Eventually.of_forall h2)
    (Eventually.of_forall fun ω k hk => exists_sameEndAndArea hδ.ne' (fun t j => B j t.toNNReal ω) (k * δ))
    (Eventually.of_forall fun ω k hk => ?_) n hn
  · refine Continuous.measurable ?_
    have hfc : Continuous fun p : Vec d × Vec m × Vec m => f p.1 (k * δ) :=
      hf.cont.comp (by fun_prop : Continuous fun p : Vec d × Vec m × Vec m => (p.1, (k : ℝ) * δ))
    have hS : Continuous fun p : Vec d × Vec m × Vec m => S *ᵥ p.2.1 :=
      (Matrix.mulVecLin S).continuous_of_finiteDimensional.comp (continuous_fst.comp continuous_snd)
    exact (continuous_fst.add (hfc.const_smul δ)).add hS
  · rw [show y + δ • f y (k * δ) + S *ᵥ a - y - (y' + δ • f y' (k * δ) + S *ᵥ a - y') = δ • (f y (k * δ) - f y' (k * δ)) by
      rw [smul_sub]; abel, norm_smul, Real.norm_eq_abs, abs_of_pos hδ, mul_comm L δ, mul_assoc]
    exact mul_le_mul_of_nonneg_left (hf.lip y y' _ (hkδ k hk)) hδ.le
  · rw [zero_smul, zero_smul, add_zero, mulVec_zero, map_zero, smul_zero, add_zero, add_right_comm, sub_self, norm_zero, zero_mul, mul_zero]
  · rw [h3 ω k hk]
    have e : ((k + 1 : ℕ) : ℝ) * δ = k * δ + δ := by push_cast; ring
    simp only [e]
    rfl

/-- C93: what the scripts measure. The reference solution of the scripts is Euler–Maruyama on a grid `r` times finer, fed with the
increments of the Brownian motion the parabolas are matched to. The mean square distance between `sde_solver` with EKF0 and this
reference is at most a constant times `δ²`, whatever the refinement `r ≥ 1`. -/
theorem C93_measured_error {la : LinAlg} (hla : la.Correct) {Ω : Type*} [MeasurableSpace Ω] {P : Measure Ω} {B : Fin m → ℝ≥0 → Ω → ℝ}
    (hB : IsBrownianVec B P) (hd : 0 < d) {f : Field d} {Df : Vec d → ℝ → Vec d →L[ℝ] Vec d} {T L K Lt : ℝ} (hT : 0 < T)
    (hf : SmoothField f Df T L K) (htl : TimeLipschitz f T Lt) (S : Mat d m) (x0 : Vec d) :
    ∃ A : ℝ, ∀ N : ℕ, 0 < N → ∀ M : ℕ, 0 < M → ∀ r : ℕ, 0 < r → ∀ σ : ℝ, σ ≠ 0 → ∀ (sqrt : Bool) (rng : Rng) (R : Ω → Rng) (key : Key)
      {C : Type} (bm : BmApprox C m) (a b : C → Vec m), (∀ t dt c, bm.eval t dt c = Foster.evalParabola t dt (a c) (b c)) →
      ∀ odeInt : OdeInt (Vec d) d, (∀ k x vf, Ekf.ekf0 la rng none x vf (T / N / M) M sqrt
        (some ⟨_, IOUP.transition 0 σ 1 (T / N / M) d⟩) none = .ok (odeInt k x vf (T / N))) →
      (∀ᵐ ω ∂P, ∀ k < N, ∀ c, (sdeSolver (R ω) key f (fun _ _ => S) x0 bm (T / N) N odeInt).2.2[k]? = some c →
        SameEndAndArea (fun t => bm.eval t (T / N) c) (fun t j => B j t.toNNReal ω) (k * (T / N)) (T / N)) →
      ∀ n ≤ N, ∃ y z : Ω → Vec d, (∀ ω, (sdeSolver (R ω) key f (fun _ _ => S) x0 bm (T / N) N odeInt).2.1[n]? = some (y ω)) ∧
        (∀ ω, ∃ ts xs, emPathwise ((List.range (N * r)).map fun k j => B j ((k + 1 : ℕ) * (T / (N * r : ℕ))).toNNReal ω -
            B j (k * (T / (N * r : ℕ))).toNNReal ω) x0 f (fun _ _ => S) (T / (N * r : ℕ)) (N * r) = .ok (ts, xs) ∧
          xs[n * r]? = some (z ω)) ∧
        ∫ ω, ‖y ω - z ω‖ ^ 2 ∂P ≤ A * (T / N) ^ 2 := by
  obtain ⟨X, hX⟩ := hB.exists_solution hT.le hf S x0
  obtain ⟨A1, h1⟩ := C92_ekf0_strong hla hB hd hT hf htl S x0 hX
  obtain ⟨A2, h2⟩ := C93_em_strong hB hT hf htl S x0 hX
  refine ⟨2 * A1 + 2 * |A2|, ?_⟩
  intro N hN M hM r hr σ hσ sqrt rng R key C bm a b hbm odeInt hode hm n hn
  obtain ⟨y, hy1, hy2, hy3⟩ := h1 N hN M hM σ hσ sqrt rng R key bm a b hbm odeInt hode hm n hn
  obtain ⟨z, hz1, hz2, hz3⟩ := h2 (N * r) (by positivity) (n * r) (Nat.mul_le_mul_right r hn)
  have hN' : (0 : ℝ) < N := by exact_mod_cast hN
  have hr' : (1 : ℝ) ≤ r := by exact_mod_cast hr
  have et : ((n * r : ℕ) : ℝ) * (T / (N * r : ℕ)) = n * (T / N) := by push_cast; field_simp
  rw [et] at hz2 hz3
  refine ⟨y, z, hy1, hz1, ?_⟩
  have hle : T / (N * r : ℕ) ≤ T / N := by
    push_cast
    exact div_le_div_of_nonneg_left hT.le hN' (le_mul_of_one_le_right hN'.le hr')
  have hsq : (T / (N * r : ℕ)) ^ 2 ≤ (T / N) ^ 2 := pow_le_pow_left₀ (by positivity) hle 2
  have hz4 : A2 * (T / (N * r : ℕ)) ^ 2 ≤ |A2| * (T / N) ^ 2 :=
    mul_le_mul (le_abs_self _) hsq (by positivity) (abs_nonneg _)
  have hb : ∀ ω, ‖y ω - z ω‖ ^ 2 ≤ 2 * ‖X ω (n * (T / N)) - y ω‖ ^ 2 + 2 * ‖X ω (n * (T / N)) - z ω‖ ^ 2 := fun ω => by
    have h : ‖y ω - z ω‖ ≤ ‖X ω (n * (T / N)) - y ω‖ + ‖X ω (n * (T / N)) - z ω‖ := by
      rw [show y ω - z ω = (X ω (n * (T / N)) - z ω) - (X ω (n * (T / N)) - y ω) by abel]
      exact (norm_sub_le _ _).trans (le_of_eq (add_comm _ _))
    nlinarith [norm_nonneg (y ω - z ω), sq_nonneg (‖X ω (n * (T / N)) - y ω‖ - ‖X ω (n * (T / N)) - z ω‖)]
  calc ∫ ω, ‖y ω - z ω‖ ^ 2 ∂P ≤ ∫ ω, (2 * ‖X ω (n * (T / N)) - y ω‖ ^ 2 + 2 * ‖X ω (n * (T / N)) - z ω‖ ^ 2) ∂P :=
        integral_mono_of_nonneg (Eventually.of_forall fun ω => by positivity) ((hy2.const_mul 2).add (hz2.const_mul 2))
          (Eventually.of_forall hb)
    _ = 2 * (∫ ω, ‖X ω (n * (T / N)) - y ω‖ ^ 2 ∂P) + 2 * ∫ ω, ‖X ω (n * (T / N)) - z ω‖ ^ 2 ∂P := by
        rw [integral_add (hy2.const_mul 2) (hz2.const_mul 2), integral_const_mul, integral_const_mul]
    _ ≤ (2 * A1 + 2 * |A2|) * (T / N) ^ 2 := by linarith

/-- A drift for the examples. -/
theorem smooth_decay {d : ℕ} : SmoothField (fun (x : Vec d) (t : ℝ) => -(t • x)) (fun _ t => -(t • ContinuousLinearMap.id ℝ (Vec d))) 1 1 1 := by
  refine ⟨?_, fun x y t ht => ?_, fun x t _ => ?_, fun x y s _ t _ => ?_⟩
  · exact (continuous_snd.smul continuous_fst).neg
  · rw [show -(t • x) - -(t • y) = -(t • (x - y)) by rw [smul_sub]; abel, norm_neg, norm_smul, Real.norm_eq_abs, abs_of_nonneg ht.1]
    exact mul_le_mul_of_nonneg_right ht.2 (norm_nonneg _)
  · exact ((hasFDerivAt_id x).const_smul t).neg
  · rw [show -(s • ContinuousLinearMap.id ℝ (Vec d)) - -(t • ContinuousLinearMap.id ℝ (Vec d)) =
      -((s - t) • ContinuousLinearMap.id ℝ (Vec d)) by ext1 v; simp [sub_smul]; abel, norm_neg, norm_smul, Real.norm_eq_abs, one_mul]
    have h1 : ‖ContinuousLinearMap.id ℝ (Vec d)‖ ≤ 1 := ContinuousLinearMap.norm_id_le
    have := mul_le_mul_of_nonneg_left h1 (abs_nonneg (s - t))
    linarith [norm_nonneg (x - y)]

theorem timeLipschitz_decay {d : ℕ} : TimeLipschitz (fun (x : Vec d) (t : ℝ) => -(t • x)) 1 1 := fun x s _ t _ => by
  rw [show -(s • x) - -(t • x) = -((s - t) • x) by rw [sub_smul]; abel, norm_neg, norm_smul, Real.norm_eq_abs, one_mul, mul_comm]
  exact mul_le_mul_of_nonneg_right (by linarith) (abs_nonneg _)

/-- C92 and C93: the hypotheses hold for a two dimensional Brownian motion on a concrete probability space and the field `-t x`. -/
example : ∃ (B : Fin 2 → ℝ≥0 → (Fin 2 → ℕ × ℕ → ℝ) → ℝ) (X : (Fin 2 → ℕ × ℕ → ℝ) → ℝ → Vec 2),
    IsBrownianVec B (Measure.pi fun _ => Levy.noise) ∧
    ∀ᵐ ω ∂(Measure.pi fun _ => Levy.noise), SolvesAdditive (fun (x : Vec 2) (t : ℝ) => -(t • x)) 1 (fun t j => B j t.toNNReal ω) 0 1 (X ω) := by
  obtain ⟨B, hB⟩ := Levy.exists_brownianVec 2
  obtain ⟨X, hX⟩ := hB.exists_solution zero_le_one smooth_decay (1 : Mat 2 2) 0
  exact ⟨B, X, hB, hX⟩

end Verif
