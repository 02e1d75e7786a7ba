import Verif.Model.Notebooks
import Verif.Props.DrawOrder1
import Verif.Props.LowMemory

/-!
# Property C123: the error estimators of the notebook
-/

namespace Verif

open Matrix Spec Jnp Scripts Notebooks MeasureTheory ProbabilityTheory Set Filter Topology
open scoped Matrix.Norms.Operator

variable {d m : ℕ}

/-! ## Norms -/

theorem norm2_le (x : Vec d) : norm2 x ≤ Real.sqrt d * ‖x‖ := by
  rw [norm2, ← Real.sqrt_sq (norm_nonneg x), ← Real.sqrt_mul (Nat.cast_nonneg d)]
  refine Real.sqrt_le_sqrt ?_
  have := dot_le_sq_norm x
  simpa only [dotProduct, sq] using this

theorem norm2_nonneg (x : Vec d) : 0 ≤ norm2 x := Real.sqrt_nonneg _

theorem meanDist_nonneg {S N : ℕ} (p1 p2 : Paths S N d) (k : Fin (N + 1)) : 0 ≤ meanDist p1 p2 k :=
  div_nonneg (Finset.sum_nonneg fun _ _ => norm2_nonneg _) (Nat.cast_nonneg _)

theorem norm2_zero : norm2 (0 : Vec d) = 0 := by simp [norm2]

theorem norm2_neg (x : Vec d) : norm2 (-x) = norm2 x := by simp [norm2]

theorem norm2_sub_comm (x y : Vec d) : norm2 (x - y) = norm2 (y - x) := by rw [← norm2_neg, neg_sub]

/-- The mean of the distances is at most the largest one. -/
theorem meanDist_le {S N : ℕ} (p1 p2 : Paths S N d) (k : Fin (N + 1)) {C : ℝ} (hC : 0 ≤ C) (h : ∀ s, ‖p1 s k - p2 s k‖ ≤ C) :
    meanDist p1 p2 k ≤ Real.sqrt d * C := by
  rcases Nat.eq_zero_or_pos S with rfl | hS
  · rw [meanDist]; simp; positivity
  · have hS' : (0 : ℝ) < S := by exact_mod_cast hS
    rw [meanDist, div_le_iff₀ hS']
    calc ∑ s, norm2 (p1 s k - p2 s k) ≤ ∑ _s : Fin S, Real.sqrt d * C :=
          Finset.sum_le_sum fun s _ => (norm2_le _).trans (mul_le_mul_of_nonneg_left (h s) (Real.sqrt_nonneg _))
      _ = _ := by simp; ring

/-! ## The arrays that are saved -/

theorem ramSolver_shape {X : Type} {rng : Rng} {key : Key} {drift : Field d} {sigma : Diffusion d m} {init : X} {init2 : Vec d} {δ : ℝ}
    {N fine : ℕ} {odeInt : OdeInt X d} {ts : List ℝ} {t1 : List X} {t2 : List (Vec d)}
    (h : ramSolver rng key drift sigma init init2 δ N fine odeInt = .ok (ts, t1, t2)) :
    t1.length = N + 1 ∧ t2.length = N + 1 ∧ t1[0]? = some init ∧ t2[0]? = some init2 := by
  unfold ramSolver at h
  simp only at h
  cases hr : scanE (ramBody rng drift sigma δ fine odeInt) (init, init2) ((key.split N).zip (linspace 0 (N * δ) (N + 1)).dropLast) with
  | error e => rw [hr] at h; cases h
  | ok r =>
    rw [hr] at h
    have hl := scanE_length hr
    have hl' : r.length = N := by rw [hl]; simp [Key.split, linspace]
    cases h
    simp [insertArr_eq, hl']

/-- The two arrays of one key, as families over the grid. -/
theorem saved_paths {rng : Rng} {key : Key} {drift : Field d} {sigma : Diffusion d m} {init : Vec d} {δ : ℝ} {N fine : ℕ}
    {odeInt : OdeInt (Vec d) d} (hf : 1 ≤ fine) :
    ∃ (ts : List ℝ) (q1 q2 : Fin (N + 1) → Vec d), ramSolver rng key drift sigma init init δ N fine odeInt = .ok (ts, List.ofFn q1, List.ofFn q2) ∧
      q1 0 = init ∧ q2 0 = init := by
  obtain ⟨t2, ts2, xs, h, -⟩ := C99_low_memory rng key drift sigma init init δ N fine hf odeInt
  obtain ⟨h1, h2, h3, h4⟩ := ramSolver_shape h
  set out := sdeSolver rng key drift sigma init (Foster.getApproxFine m fine) δ N odeInt
  refine ⟨out.1, fun k => out.2.1[(k : ℕ)]'(by rw [h1]; exact k.isLt), fun k => t2[(k : ℕ)]'(by rw [h2]; exact k.isLt), ?_, ?_, ?_⟩
  · rw [h]
    congr 3
    · exact List.ext_getElem (by simp [h1]) fun i hi _ => by rw [List.getElem_ofFn]
    · exact List.ext_getElem (by simp [h2]) fun i hi _ => by rw [List.getElem_ofFn]
  · rw [List.getElem?_eq_getElem (by omega)] at h3; exact Option.some.inj h3
  · rw [List.getElem?_eq_getElem (by omega)] at h4; exact Option.some.inj h4

/-- Bounds of the probabilities for the single keys give one for the mean over the keys. -/
theorem meanDist_prob {S : ℕ} (hS : 0 < S) {Ω : Type} [MeasurableSpace Ω] {Q : Measure Ω} {R : Ω → Rng} {keys : Fin S → Key} {drift : Field d}
    {sigma : Diffusion d m} {x0 : Vec d} {δ : ℝ} {N r : ℕ} (hr : 0 < r) {odeInt : Ω → OdeInt (Vec d) d} {A ε : ℝ} (hA : 0 ≤ A * δ) (hε : 0 < ε)
    (h : ∀ s, ∀ n ≤ N, ∃ y z : Ω → Vec d,
      (∀ ω, ∃ ts traj traj2, ramSolver (R ω) (keys s) drift sigma x0 x0 δ N r (odeInt ω) = .ok (ts, traj, traj2) ∧
        ts[n]? = some (n * δ) ∧ traj[n]? = some (y ω) ∧ traj2[n]? = some (z ω)) ∧
      Q {ω | A * δ < ‖y ω - z ω‖} ≤ ENNReal.ofReal (ε / S)) :
    ∃ p1 p2 : Ω → Paths S N d,
      (∀ ω s, ∃ ts, ramSolver (R ω) (keys s) drift sigma x0 x0 δ N r (odeInt ω) = .ok (ts, List.ofFn (p1 ω s), List.ofFn (p2 ω s))) ∧
      (∀ ω s, p1 ω s 0 = x0 ∧ p2 ω s 0 = x0) ∧
      ∀ k, Q {ω | Real.sqrt d * (A * δ) < meanDist (p1 ω) (p2 ω) k} ≤ ENNReal.ofReal ε := by
  have hex := fun ω s => saved_paths (rng := R ω) (key := keys s) (drift := drift) (sigma := sigma) (init := x0) (δ := δ) (N := N)
    (odeInt := odeInt ω) hr
  choose ts p1 p2 hp h1 h2 using hex
  refine ⟨p1, p2, fun ω s => ⟨_, hp ω s⟩, fun ω s => ⟨h1 ω s, h2 ω s⟩, fun k => ?_⟩
  have hs : ∀ s, Q {ω | A * δ < ‖p1 ω s k - p2 ω s k‖} ≤ ENNReal.ofReal (ε / S) := fun s => by
    obtain ⟨y, z, hyz, hQ⟩ := h s k (by have := k.isLt; omega)
    have : ∀ ω, y ω = p1 ω s k ∧ z ω = p2 ω s k := fun ω => by
      obtain ⟨ts', t1, t2, e, -, e1, e2⟩ := hyz ω
      rw [hp ω s] at e
      cases e
      simp only [List.getElem?_ofFn, k.isLt, dif_pos, Option.some.injEq] at e1 e2
      exact ⟨e1.symm, e2.symm⟩
    simpa only [fun ω => (this ω).1, fun ω => (this ω).2] using hQ
  have hsub : {ω | Real.sqrt d * (A * δ) < meanDist (p1 ω) (p2 ω) k} ⊆ ⋃ s ∈ Finset.univ, {ω | A * δ < ‖p1 ω s k - p2 ω s k‖} := by
    intro ω hω
    by_contra hc
    simp only [Finset.mem_univ, iUnion_true, mem_iUnion, mem_setOf_eq, not_exists, not_lt] at hc
    exact absurd (meanDist_le _ _ k hA hc) (not_le.2 hω)
  have hS' : (0 : ℝ) < S := by exact_mod_cast hS
  calc Q _ ≤ Q (⋃ s ∈ Finset.univ, {ω | A * δ < ‖p1 ω s k - p2 ω s k‖}) := measure_mono hsub
    _ ≤ ∑ s, Q {ω | A * δ < ‖p1 ω s k - p2 ω s k‖} := measure_biUnion_finset_le _ _
    _ ≤ ∑ _s : Fin S, ENNReal.ofReal (ε / S) := Finset.sum_le_sum fun s _ => hs s
    _ = ENNReal.ofReal ε := by
      rw [Finset.sum_const, Finset.card_univ, Fintype.card_fin, nsmul_eq_mul, ← ENNReal.ofReal_natCast, ← ENNReal.ofReal_mul (Nat.cast_nonneg _)]
      congr 1
      field_simp

/-! ## The order proxy -/

theorem orderProxy_zero {S N : ℕ} {δ : ℝ} (h0 : 0 < δ) (h1 : δ < 1) {p1 p2 : Paths S N d} {k : Fin (N + 1)} (h : meanDist p1 p2 k = 0) :
    orderProxy δ p1 p2 k = ⊤ := by
  rw [orderProxy, h, ENNReal.ofReal_zero, ENNReal.log_zero]
  exact EReal.bot_div_of_neg_ne_bot (by exact_mod_cast Real.log_neg h0 h1) (EReal.coe_ne_bot _)

theorem orderProxy_ge {S N : ℕ} {δ B η : ℝ} (h0 : 0 < δ) (h1 : δ < 1) (hB : Real.log B ≤ -(η * Real.log δ)) {p1 p2 : Paths S N d}
    {k : Fin (N + 1)} (h : meanDist p1 p2 k ≤ B * δ) : ((1 - η : ℝ) : EReal) ≤ orderProxy δ p1 p2 k := by
  rcases (meanDist_nonneg p1 p2 k).lt_or_eq with hp | hp
  · have hl := Real.log_neg h0 h1
    have hB0 : 0 < B := pos_of_mul_pos_left (hp.trans_le h) h0.le
    have h2 := Real.log_le_log hp h
    rw [Real.log_mul hB0.ne' h0.ne'] at h2
    rw [orderProxy, ENNReal.log_ofReal_of_pos hp, ← EReal.coe_div, EReal.coe_le_coe_iff, le_div_iff_of_neg hl]
    linarith
  · rw [orderProxy_zero h0 h1 hp.symm]; exact le_top

/-- For a large number of intervals the constant of the error does not matter for the proxy. -/
theorem exists_intervals {T : ℝ} (hT : 0 < T) (B : ℝ) {η : ℝ} (hη : 0 < η) :
    ∃ N0 : ℕ, ∀ N ≥ N0, 0 < N ∧ T / N < 1 ∧ Real.log B ≤ -(η * Real.log (T / N)) := by
  have h1 : Tendsto (fun N : ℕ => T / N) atTop (𝓝 0) := tendsto_const_div_atTop_nhds_zero_nat T
  have h2 : Tendsto (fun N : ℕ => T / N) atTop (𝓝[>] 0) :=
    tendsto_nhdsWithin_iff.2 ⟨h1, (eventually_gt_atTop 0).mono fun N hN => by
      have : (0 : ℝ) < N := by exact_mod_cast hN
      exact div_pos hT this⟩
  have h3 : Tendsto (fun N : ℕ => -(η * Real.log (T / N))) atTop atTop :=
    tendsto_neg_atBot_atTop.comp ((Real.tendsto_log_nhdsGT_zero.comp h2).const_mul_atBot hη)
  obtain ⟨N0, hN0⟩ := eventually_atTop.1 ((eventually_gt_atTop 0).and ((h1.eventually_lt_const one_pos).and (h3.eventually_ge_atTop (Real.log B))))
  exact ⟨N0, hN0⟩

/-- C123: the order read off the plot for FitzHugh-Nagumo with EKF0. For any number of sample keys, the value plotted at a grid time is at
least `1 - η` with probability at least `1 - ε`, once the number of intervals is large enough; the value at time 0 is infinite. -/
theorem C123_order_ekf0 {la : LinAlg} (hla : la.Correct) {T : ℝ} (hT : 0 < T) (s0 : ℝ) {S : ℕ} (hS : 0 < S) {ε η : ℝ} (hε : 0 < ε) (hη : 0 < η) :
    ∃ N0 : ℕ, ∀ {Ω : Type} [MeasurableSpace Ω] {Q : Measure Ω} {R : Ω → Rng}, IdealNormals Q R → ∀ N ≥ N0, ∀ M : ℕ, 0 < M →
      ∀ r : ℕ, 0 < r → ∀ σ : ℝ, σ ≠ 0 → |σ| ≤ s0 * M → ∀ (sqrt : Bool) (keys : Fin S → Key) (odeInt : Ω → OdeInt (Vec 2) 2),
      (∀ ω k x vf, Ekf.ekf0 la (R ω) (some k) x vf (T / N / M) M sqrt
        (some ⟨_, IOUP.transition 0 σ 1 (T / N / M) 2⟩) none = .ok (odeInt ω k x vf (T / N))) →
      ∃ p1 p2 : Ω → Paths S N 2,
        (∀ ω s, ∃ ts, ramSolver (R ω) (keys s) Ivp.Fhn.drift Ivp.Fhn.sigma Ivp.Fhn.x0 Ivp.Fhn.x0 (T / N) N r (odeInt ω) =
          .ok (ts, List.ofFn (p1 ω s), List.ofFn (p2 ω s))) ∧
        (∀ ω, orderProxy (T / N) (p1 ω) (p2 ω) 0 = ⊤) ∧
        ∀ k, Q {ω | orderProxy (T / N) (p1 ω) (p2 ω) k < ((1 - η : ℝ) : EReal)} ≤ ENNReal.ofReal ε := by
  have hS' : (0 : ℝ) < S := by exact_mod_cast hS
  obtain ⟨A, N1, hA⟩ := (C108_fhn hla hT s0 (div_pos hε hS')).1
  obtain ⟨N2, hN2⟩ := exists_intervals hT (Real.sqrt 2 * |A|) hη
  refine ⟨N1 + N2, ?_⟩
  intro Ω _ Q R hR N hN M hM r hr σ hσ hσ0 sqrt keys odeInt hode
  obtain ⟨hN0, hlt, hlog⟩ := hN2 N (by omega)
  have hN' : (0 : ℝ) < N := by exact_mod_cast hN0
  have hδ : 0 < T / N := div_pos hT hN'
  obtain ⟨p1, p2, h1, h2, h3⟩ := meanDist_prob hS (Q := Q) (R := R) (keys := keys) (drift := Ivp.Fhn.drift) (sigma := Ivp.Fhn.sigma)
    (x0 := Ivp.Fhn.x0) (δ := T / N) (N := N) (odeInt := odeInt) (A := |A|) hr (by positivity) hε fun s n hn => by
    obtain ⟨y, z, hyz, hQ⟩ := hA hR N (by omega) M hM r hr σ hσ hσ0 sqrt (keys s) odeInt hode n hn
    refine ⟨y, z, hyz, (measure_mono fun ω hω => ?_).trans hQ⟩
    exact lt_of_le_of_lt (mul_le_mul_of_nonneg_right (le_abs_self A) hδ.le) hω
  refine ⟨p1, p2, h1, fun ω => orderProxy_zero hδ hlt ?_, fun k => (measure_mono fun ω hω => ?_).trans (h3 k)⟩
  · have : ∀ s, p1 ω s 0 - p2 ω s 0 = 0 := fun s => by rw [(h2 ω s).1, (h2 ω s).2, sub_self]
    have h0 : ∀ s, norm2 (p1 ω s 0 - p2 ω s 0) = 0 := fun s => by rw [this s, norm2_zero]
    rw [meanDist, Finset.sum_eq_zero fun s _ => h0 s, zero_div]
  · by_contra hc
    refine absurd (orderProxy_ge hδ hlt hlog ?_) (not_le.2 hω)
    rw [mul_assoc]
    simpa using not_lt.1 hc

/-- C123: the same for EKF1 with one filter step per interval, the setting of the notebook. -/
theorem C123_order_ekf1 {la : LinAlg} (hla : la.Correct) (hm : la.MeasurableQr) {T : ℝ} (hT : 0 < T) (s0 : ℝ) {S : ℕ} (hS : 0 < S) {ε η : ℝ}
    (hε : 0 < ε) (hη : 0 < η) :
    ∃ N0 : ℕ, ∀ {Ω : Type} [MeasurableSpace Ω] {Q : Measure Ω} {R : Ω → Rng}, IdealNormals Q R → ∀ N ≥ N0,
      ∀ r : ℕ, 0 < r → ∀ σ : ℝ, σ ≠ 0 → |σ| ≤ s0 → ∀ (sqrt : Bool) (keys : Fin S → Key) (odeInt : Ω → OdeInt (Vec 2) 2),
      (∀ ω k x vf, Ekf.ekf1 la (R ω) (some k) x vf (T / N) 1 sqrt
        (some ⟨_, IOUP.transition 0 σ 1 (T / N) 2⟩) none = .ok (odeInt ω k x vf (T / N))) →
      ∃ p1 p2 : Ω → Paths S N 2,
        (∀ ω s, ∃ ts, ramSolver (R ω) (keys s) Ivp.Fhn.drift Ivp.Fhn.sigma Ivp.Fhn.x0 Ivp.Fhn.x0 (T / N) N r (odeInt ω) =
          .ok (ts, List.ofFn (p1 ω s), List.ofFn (p2 ω s))) ∧
        (∀ ω, orderProxy (T / N) (p1 ω) (p2 ω) 0 = ⊤) ∧
        ∀ k, Q {ω | orderProxy (T / N) (p1 ω) (p2 ω) k < ((1 - η : ℝ) : EReal)} ≤ ENNReal.ofReal ε := by
  have hS' : (0 : ℝ) < S := by exact_mod_cast hS
  obtain ⟨A, N1, hA⟩ := (C109_fhn hla hm hT s0 (div_pos hε hS')).1
  obtain ⟨N2, hN2⟩ := exists_intervals hT (Real.sqrt 2 * |A|) hη
  refine ⟨N1 + N2, ?_⟩
  intro Ω _ Q R hR N hN r hr σ hσ hσ0 sqrt keys odeInt hode
  obtain ⟨hN0, hlt, hlog⟩ := hN2 N (by omega)
  have hN' : (0 : ℝ) < N := by exact_mod_cast hN0
  have hδ : 0 < T / N := div_pos hT hN'
  obtain ⟨p1, p2, h1, h2, h3⟩ := meanDist_prob hS (Q := Q) (R := R) (keys := keys) (drift := Ivp.Fhn.drift) (sigma := Ivp.Fhn.sigma)
    (x0 := Ivp.Fhn.x0) (δ := T / N) (N := N) (odeInt := odeInt) (A := |A|) hr (by positivity) hε fun s n hn => by
    obtain ⟨y, z, hyz, hQ⟩ := hA hR N (by omega) r hr σ hσ hσ0 sqrt (keys s) odeInt hode n hn
    refine ⟨y, z, hyz, (measure_mono fun ω hω => ?_).trans hQ⟩
    exact lt_of_le_of_lt (mul_le_mul_of_nonneg_right (le_abs_self A) hδ.le) hω
  refine ⟨p1, p2, h1, fun ω => orderProxy_zero hδ hlt ?_, fun k => (measure_mono fun ω hω => ?_).trans (h3 k)⟩
  · have : ∀ s, p1 ω s 0 - p2 ω s 0 = 0 := fun s => by rw [(h2 ω s).1, (h2 ω s).2, sub_self]
    have h0 : ∀ s, norm2 (p1 ω s 0 - p2 ω s 0) = 0 := fun s => by rw [this s, norm2_zero]
    rw [meanDist, Finset.sum_eq_zero fun s _ => h0 s, zero_div]
  · by_contra hc
    refine absurd (orderProxy_ge hδ hlt hlog ?_) (not_le.2 hω)
    rw [mul_assoc]
    simpa using not_lt.1 hc

/-! ## The strong errors in the mean -/

/-- Bounds of the mean squares for the single keys give one for the mean over the keys. -/
theorem meanDist_lintegral {S : ℕ} (hS : 0 < S) {Ω : Type} [MeasurableSpace Ω] {Q : Measure Ω} [IsProbabilityMeasure Q] {R : Ω → Rng}
    {keys : Fin S → Key} {drift : Field d} {sigma : Diffusion d m} {x0 : Vec d} {δ : ℝ} {N r : ℕ} (hr : 0 < r) {odeInt : Ω → OdeInt (Vec d) d}
    {B : ℝ} (hB : 0 < B) (h : ∀ s, ∀ n ≤ N, ∃ y z : Ω → Vec d,
      (∀ ω, ∃ ts traj traj2, ramSolver (R ω) (keys s) drift sigma x0 x0 δ N r (odeInt ω) = .ok (ts, traj, traj2) ∧
        ts[n]? = some (n * δ) ∧ traj[n]? = some (y ω) ∧ traj2[n]? = some (z ω)) ∧
      Integrable (fun ω => ‖y ω - z ω‖ ^ 2) Q ∧ ∫ ω, ‖y ω - z ω‖ ^ 2 ∂Q ≤ B) :
    ∃ p1 p2 : Ω → Paths S N d,
      (∀ ω s, ∃ ts, ramSolver (R ω) (keys s) drift sigma x0 x0 δ N r (odeInt ω) = .ok (ts, List.ofFn (p1 ω s), List.ofFn (p2 ω s))) ∧
      ∀ k, ∫⁻ ω, ENNReal.ofReal (meanDist (p1 ω) (p2 ω) k) ∂Q ≤ ENNReal.ofReal (Real.sqrt d * Real.sqrt B) := by
  have hex := fun ω s => saved_paths (rng := R ω) (key := keys s) (drift := drift) (sigma := sigma) (init := x0) (δ := δ) (N := N)
    (odeInt := odeInt ω) hr
  choose ts p1 p2 hp h1 h2 using hex
  refine ⟨p1, p2, fun ω s => ⟨_, hp ω s⟩, fun k => ?_⟩
  have hs : ∀ s, Integrable (fun ω => ‖p1 ω s k - p2 ω s k‖ ^ 2) Q ∧ ∫ ω, ‖p1 ω s k - p2 ω s k‖ ^ 2 ∂Q ≤ B := fun s => by
    obtain ⟨y, z, hyz, hQ⟩ := h s k (by have := k.isLt; omega)
    have : ∀ ω, y ω = p1 ω s k ∧ z ω = p2 ω s k := fun ω => by
      obtain ⟨ts', t1, t2, e, -, e1, e2⟩ := hyz ω
      rw [hp ω s] at e
      cases e
      simp only [List.getElem?_ofFn, k.isLt, dif_pos, Option.some.injEq] at e1 e2
      exact ⟨e1.symm, e2.symm⟩
    simpa only [fun ω => (this ω).1, fun ω => (this ω).2] using hQ
  have hS' : (0 : ℝ) < S := by exact_mod_cast hS
  have hsB := Real.sqrt_pos.2 hB
  have hle : ∀ ω, meanDist (p1 ω) (p2 ω) k ≤ Real.sqrt d * ((∑ s, (‖p1 ω s k - p2 ω s k‖ ^ 2 + B) / (2 * Real.sqrt B)) / S) := fun ω => by
    rw [meanDist, ← mul_div_assoc, Finset.mul_sum]
    refine div_le_div_of_nonneg_right (Finset.sum_le_sum fun s _ => ?_) hS'.le
    refine (norm2_le _).trans (mul_le_mul_of_nonneg_left ?_ (Real.sqrt_nonneg _))
    rw [le_div_iff₀ (by positivity)]
    nlinarith [sq_nonneg (‖p1 ω s k - p2 ω s k‖ - Real.sqrt B), Real.sq_sqrt hB.le]
  have hi1 : ∀ s, Integrable (fun ω => (‖p1 ω s k - p2 ω s k‖ ^ 2 + B) / (2 * Real.sqrt B)) Q := fun s =>
    ((hs s).1.add (integrable_const B)).div_const _
  have hi2 : Integrable (fun ω => Real.sqrt d * ((∑ s, (‖p1 ω s k - p2 ω s k‖ ^ 2 + B) / (2 * Real.sqrt B)) / S)) Q :=
    ((integrable_finsetSum _ fun s _ => hi1 s).div_const _).const_mul _
  calc ∫⁻ ω, ENNReal.ofReal (meanDist (p1 ω) (p2 ω) k) ∂Q
      ≤ ∫⁻ ω, ENNReal.ofReal (Real.sqrt d * ((∑ s, (‖p1 ω s k - p2 ω s k‖ ^ 2 + B) / (2 * Real.sqrt B)) / S)) ∂Q :=
        lintegral_mono fun ω => ENNReal.ofReal_le_ofReal (hle ω)
    _ = ENNReal.ofReal (∫ ω, Real.sqrt d * ((∑ s, (‖p1 ω s k - p2 ω s k‖ ^ 2 + B) / (2 * Real.sqrt B)) / S) ∂Q) :=
        (ofReal_integral_eq_lintegral_ofReal hi2 (ae_of_all _ fun ω => (meanDist_nonneg _ _ _).trans (hle ω))).symm
    _ ≤ _ := by
      refine ENNReal.ofReal_le_ofReal ?_
      rw [integral_const_mul, integral_div, integral_finsetSum _ fun s _ => hi1 s]
      refine mul_le_mul_of_nonneg_left ?_ (Real.sqrt_nonneg _)
      rw [div_le_iff₀ hS']
      refine (Finset.sum_le_card_nsmul _ _ (Real.sqrt B) fun s _ => ?_).trans (le_of_eq (by simp; ring))
      rw [integral_div, integral_add (hs s).1 (integrable_const B), div_le_iff₀ (by positivity)]
      simp only [integral_const, probReal_univ, smul_eq_mul, one_mul]
      nlinarith [(hs s).2, Real.sq_sqrt hB.le]

/-- The two strong errors are values of the mean distance. -/
theorem strong_eq {S N : ℕ} (p1 p2 : Paths S N d) :
    strongGlobal p1 p2 = meanDist p1 p2 (Fin.last N) ∧ strongLocal p1 p2 = meanDist p1 p2 ⟨min 1 N, by omega⟩ := by
  simp only [strongGlobal, strongLocal, meanDist, norm2_sub_comm, and_self]

/-- C123: the mean of the strong global and local errors computed by the notebook, for any number of sample keys, with EKF0 and a drift
with bounded derivatives. Both are at most `A √(1 + (σ / M)²) δ`. -/
theorem C123_mean_ekf0 {la : LinAlg} (hla : la.Correct) (hd : 0 < d) {f : Field d} {Df : Vec d → ℝ → Vec d →L[ℝ] Vec d} {T L K Lt : ℝ}
    (hT : 0 < T) (hf : SmoothField f Df T L K) (htl : TimeLipschitz f T Lt) (G : Mat d m) (x0 : Vec d) :
    ∃ A : ℝ, ∀ {Ω : Type} [MeasurableSpace Ω] {Q : Measure Ω} {R : Ω → Rng}, IdealNormals Q R → ∀ N : ℕ, 0 < N → ∀ M : ℕ, 0 < M →
      ∀ r : ℕ, 0 < r → ∀ σ : ℝ, σ ≠ 0 → ∀ S : ℕ, 0 < S → ∀ (sqrt : Bool) (keys : Fin S → Key) (odeInt : Ω → OdeInt (Vec d) d),
      (∀ ω k x vf, Ekf.ekf0 la (R ω) (some k) x vf (T / N / M) M sqrt
        (some ⟨_, IOUP.transition 0 σ 1 (T / N / M) d⟩) none = .ok (odeInt ω k x vf (T / N))) →
      ∃ p1 p2 : Ω → Paths S N d,
        (∀ ω s, ∃ ts, ramSolver (R ω) (keys s) f (fun _ _ => G) x0 x0 (T / N) N r (odeInt ω) =
          .ok (ts, List.ofFn (p1 ω s), List.ofFn (p2 ω s))) ∧
        ∫⁻ ω, ENNReal.ofReal (strongGlobal (p1 ω) (p2 ω)) ∂Q ≤ ENNReal.ofReal (A * Real.sqrt (1 + (σ / M) ^ 2) * (T / N)) ∧
        ∫⁻ ω, ENNReal.ofReal (strongLocal (p1 ω) (p2 ω)) ∂Q ≤ ENNReal.ofReal (A * Real.sqrt (1 + (σ / M) ^ 2) * (T / N)) := by
  obtain ⟨A, hA⟩ := C108_measured hla hd hT hf htl G x0
  refine ⟨Real.sqrt d * Real.sqrt (|A| + 1), ?_⟩
  intro Ω _ Q R hR N hN M hM r hr σ hσ S hS sqrt keys odeInt hode
  haveI : IsProbabilityMeasure Q := (hR.law [] [1] 0 one_pos).isProbabilityMeasure
  have hN' : (0 : ℝ) < N := by exact_mod_cast hN
  have hδ : 0 < T / N := div_pos hT hN'
  obtain ⟨p1, p2, h1, h2⟩ := meanDist_lintegral hS (Q := Q) (R := R) (keys := keys) (B := (|A| + 1) * (1 + (σ / M) ^ 2) * (T / N) ^ 2) hr
    (by positivity) fun s n hn => by
      obtain ⟨y, z, hyz, hi, hQ⟩ := hA hR N hN M hM r hr σ hσ sqrt (keys s) odeInt hode n hn
      refine ⟨y, z, hyz, hi, hQ.trans ?_⟩
      have := le_abs_self A
      gcongr
      linarith
  have e : Real.sqrt d * Real.sqrt ((|A| + 1) * (1 + (σ / M) ^ 2) * (T / N) ^ 2) =
      Real.sqrt d * Real.sqrt (|A| + 1) * Real.sqrt (1 + (σ / M) ^ 2) * (T / N) := by
    rw [Real.sqrt_mul (by positivity), Real.sqrt_mul (by positivity), Real.sqrt_sq hδ.le]; ring
  rw [e] at h2
  refine ⟨p1, p2, h1, ?_, ?_⟩
  · simp only [(strong_eq _ _).1]; exact h2 _
  · simp only [(strong_eq _ _).2]; exact h2 _

/-- C123: the same for EKF1 with one filter step per interval. -/
theorem C123_mean_ekf1 {la : LinAlg} (hla : la.Correct) (hm : la.MeasurableQr) (hd : 0 < d) {f : Field d} {Df : Vec d → ℝ → Vec d →L[ℝ] Vec d}
    {T L K Lt : ℝ} (hT : 0 < T) (hf : SmoothField f Df T L K) (htl : TimeLipschitz f T Lt) (G : Mat d m) (x0 : Vec d) (s0 : ℝ) :
    ∃ A : ℝ, ∀ {Ω : Type} [MeasurableSpace Ω] {Q : Measure Ω} {R : Ω → Rng}, IdealNormals Q R → ∀ N : ℕ, 0 < N →
      ∀ r : ℕ, 0 < r → ∀ σ : ℝ, σ ≠ 0 → |σ| ≤ s0 → ∀ S : ℕ, 0 < S → ∀ (sqrt : Bool) (keys : Fin S → Key) (odeInt : Ω → OdeInt (Vec d) d),
      (∀ ω k x vf, Ekf.ekf1 la (R ω) (some k) x vf (T / N) 1 sqrt
        (some ⟨_, IOUP.transition 0 σ 1 (T / N) d⟩) none = .ok (odeInt ω k x vf (T / N))) →
      ∃ p1 p2 : Ω → Paths S N d,
        (∀ ω s, ∃ ts, ramSolver (R ω) (keys s) f (fun _ _ => G) x0 x0 (T / N) N r (odeInt ω) =
          .ok (ts, List.ofFn (p1 ω s), List.ofFn (p2 ω s))) ∧
        ∫⁻ ω, ENNReal.ofReal (strongGlobal (p1 ω) (p2 ω)) ∂Q ≤ ENNReal.ofReal (A * (T / N)) ∧
        ∫⁻ ω, ENNReal.ofReal (strongLocal (p1 ω) (p2 ω)) ∂Q ≤ ENNReal.ofReal (A * (T / N)) := by
  obtain ⟨A, hA⟩ := C109_measured hla hm hd hT hf htl G x0 s0
  refine ⟨Real.sqrt d * Real.sqrt (|A| + 1), ?_⟩
  intro Ω _ Q R hR N hN r hr σ hσ hσ0 S hS sqrt keys odeInt hode
  haveI : IsProbabilityMeasure Q := (hR.law [] [1] 0 one_pos).isProbabilityMeasure
  have hN' : (0 : ℝ) < N := by exact_mod_cast hN
  have hδ : 0 < T / N := div_pos hT hN'
  obtain ⟨p1, p2, h1, h2⟩ := meanDist_lintegral hS (Q := Q) (R := R) (keys := keys) (B := (|A| + 1) * (T / N) ^ 2) hr
    (by positivity) fun s n hn => by
      obtain ⟨y, z, hyz, hi, hQ⟩ := hA hR N hN r hr σ hσ hσ0 sqrt (keys s) odeInt hode n hn
      refine ⟨y, z, hyz, hi, hQ.trans ?_⟩
      have := le_abs_self A
      gcongr
      linarith
  have e : Real.sqrt d * Real.sqrt ((|A| + 1) * (T / N) ^ 2) = Real.sqrt d * Real.sqrt (|A| + 1) * (T / N) := by
    rw [Real.sqrt_mul (by positivity), Real.sqrt_sq hδ.le]; ring
  rw [e] at h2
  refine ⟨p1, p2, h1, ?_, ?_⟩
  · simp only [(strong_eq _ _).1]; exact h2 _
  · simp only [(strong_eq _ _).2]; exact h2 _

/-! ## The weak error -/

/-- The Frobenius norm. -/
noncomputable def frob (A : Mat d d) : ℝ := norm2 fun i => norm2 (A i)

/-- The entries as a point of Euclidean space. -/
noncomputable def entries (A : Mat d d) : EuclideanSpace ℝ (Fin d × Fin d) := WithLp.toLp 2 fun p => A p.1 p.2

theorem frob_eq (A : Mat d d) : frob A = ‖entries A‖ := by
  rw [EuclideanSpace.norm_eq, frob, norm2]
  congr 1
  simp only [entries, norm2, Real.norm_eq_abs, sq_abs, Fintype.sum_prod_type]
  exact Finset.sum_congr rfl fun i _ => Real.sq_sqrt (Finset.sum_nonneg fun j _ => sq_nonneg _)

theorem frob_add_le (A B : Mat d d) : frob (A + B) ≤ frob A + frob B := by
  have h : entries (A + B) = entries A + entries B := by ext p; rfl
  rw [frob_eq, frob_eq, frob_eq, h]
  exact norm_add_le _ _

theorem frob_smul (c : ℝ) (A : Mat d d) : frob (c • A) = |c| * frob A := by
  have h : entries (c • A) = c • entries A := by ext p; rfl
  rw [frob_eq, frob_eq, h, norm_smul, Real.norm_eq_abs]

theorem frob_sum_le {S : ℕ} (A : Fin S → Mat d d) : frob (∑ s, A s) ≤ ∑ s, frob (A s) := by
  have h0 : frob (0 : Mat d d) = 0 := by simp [frob, norm2]
  induction S with
  | zero => simp [h0]
  | succ S ih =>
    rw [Fin.sum_univ_succ, Fin.sum_univ_succ]
    exact (frob_add_le _ _).trans (add_le_add_right (ih fun s => A s.succ) _)

theorem frob_outer (u v : Vec d) : frob (of fun i j => u i * v j) = norm2 u * norm2 v := by
  rw [frob, norm2, norm2, norm2, ← Real.sqrt_mul (Finset.sum_nonneg fun i _ => sq_nonneg _)]
  congr 1
  rw [Finset.sum_mul]
  refine Finset.sum_congr rfl fun i _ => ?_
  rw [norm2, Real.sq_sqrt (Finset.sum_nonneg fun j _ => sq_nonneg _), Finset.mul_sum]
  exact Finset.sum_congr rfl fun j _ => by simp only [of_apply]; ring

theorem weakPolynomial_apply (x : Vec d) (i j : Fin d) : weakPolynomial x i j = x i * x j := by
  simp [weakPolynomial, Matrix.mul_apply]

/-- C123: the weak error at one time is at most the mean over the samples of the distance times the sum of the norms. -/
theorem C123_weak {S N : ℕ} (p1 p2 : Paths S N d) (k : Fin (N + 1)) :
    weakError p1 p2 k ≤ (∑ s, norm2 (p2 s k - p1 s k) * (norm2 (p1 s k) + norm2 (p2 s k))) / S := by
  have e : meanMoment p2 k - meanMoment p1 k = (1 / (S : ℝ)) • ∑ s, (weakPolynomial (p2 s k) - weakPolynomial (p1 s k)) := by
    rw [meanMoment, meanMoment, ← smul_sub, Finset.sum_sub_distrib]
  have hs : ∀ s, frob (weakPolynomial (p2 s k) - weakPolynomial (p1 s k)) ≤ norm2 (p2 s k - p1 s k) * (norm2 (p1 s k) + norm2 (p2 s k)) := fun s => by
    have : weakPolynomial (p2 s k) - weakPolynomial (p1 s k) =
        (of fun i j => (p2 s k - p1 s k) i * p2 s k j) + of fun i j => p1 s k i * (p2 s k - p1 s k) j := by
      ext i j
      simp only [Matrix.sub_apply, weakPolynomial_apply, Matrix.add_apply, of_apply, Pi.sub_apply]
      ring
    rw [this]
    refine (frob_add_le _ _).trans (le_of_eq ?_)
    rw [frob_outer, frob_outer]; ring
  show frob (meanMoment p2 k - meanMoment p1 k) ≤ _
  rw [e, frob_smul, abs_of_nonneg (by positivity), one_div, inv_mul_eq_div]
  exact div_le_div_of_nonneg_right ((frob_sum_le _).trans (Finset.sum_le_sum fun s _ => hs s)) (Nat.cast_nonneg _)

/-- C123: the weak error compares second moments only. Paths and their reflections have weak error 0, although they are far apart. -/
theorem C123_blind {S N : ℕ} (p : Paths S N d) :
    weakGlobal p (fun s k => -p s k) = 0 ∧ ∀ k, meanDist p (fun s k => -p s k) k = 2 * ((∑ s, norm2 (p s k)) / S) := by
  constructor
  · have : ∀ k, weakError p (fun s k => -p s k) k = 0 := fun k => by
      have : meanMoment (fun s k => -p s k : Paths S N d) k = meanMoment p k := by
        rw [meanMoment, meanMoment]
        congr 1
        refine Finset.sum_congr rfl fun s _ => ?_
        ext i j
        simp [weakPolynomial_apply]
      simp [weakError, this, norm2]
    simp [weakGlobal, this]
  · intro k
    have : ∀ s, norm2 (p s k - -p s k) = 2 * norm2 (p s k) := fun s => by
      rw [sub_neg_eq_add, ← two_smul ℝ, norm2, norm2]
      simp only [Pi.smul_apply, smul_eq_mul, mul_pow, ← Finset.mul_sum]
      rw [Real.sqrt_mul (by norm_num), Real.sqrt_sq (by norm_num)]
    rw [meanDist]
    simp only [this, ← Finset.mul_sum]
    ring

/-- C123: the weak global error bounds the error of every second moment at every time. -/
theorem C123_weak_global {S N : ℕ} (p1 p2 : Paths S N d) (k : Fin (N + 1)) (i j : Fin d) :
    |(∑ s, p2 s k i * p2 s k j) / S - (∑ s, p1 s k i * p1 s k j) / S| ≤ weakGlobal p1 p2 := by
  refine le_trans ?_ (Finset.le_sup' (weakError p1 p2) (Finset.mem_univ k))
  show _ ≤ frob (meanMoment p2 k - meanMoment p1 k)
  rw [frob_eq]
  refine le_trans (le_of_eq ?_) (PiLp.norm_apply_le (entries (meanMoment p2 k - meanMoment p1 k)) (i, j))
  rw [Real.norm_eq_abs]
  congr 1
  simp only [entries, Matrix.sub_apply, meanMoment, Matrix.smul_apply, Matrix.sum_apply, weakPolynomial_apply, smul_eq_mul]
  ring

theorem norm2_eq_zero (x : Vec d) : norm2 x = 0 ↔ x = 0 := by
  rw [norm2, Real.sqrt_eq_zero (Finset.sum_nonneg fun i _ => sq_nonneg _), Finset.sum_eq_zero_iff_of_nonneg fun i _ => sq_nonneg _, funext_iff]
  simp

theorem meanDist_eq_zero {S N : ℕ} (hS : 0 < S) (p1 p2 : Paths S N d) (k : Fin (N + 1)) : meanDist p1 p2 k = 0 ↔ ∀ s, p1 s k = p2 s k := by
  have hS' : (S : ℝ) ≠ 0 := by positivity
  rw [meanDist, div_eq_zero_iff, or_iff_left hS', Finset.sum_eq_zero_iff_of_nonneg fun i _ => norm2_nonneg _]
  simp [norm2_eq_zero, sub_eq_zero]

/-- C123: what the errors measure. The strong global error vanishes exactly if the two paths of every key agree at the last time, the local one
if they agree after the first interval, the weak one if all second moments agree at all times. -/
theorem C123_zero {S N : ℕ} (hS : 0 < S) (hN : 1 ≤ N) (p1 p2 : Paths S N d) :
    (strongGlobal p1 p2 = 0 ↔ ∀ s, p1 s (Fin.last N) = p2 s (Fin.last N)) ∧
    (strongLocal p1 p2 = 0 ↔ ∀ s, p1 s ⟨1, by omega⟩ = p2 s ⟨1, by omega⟩) ∧
    (weakGlobal p1 p2 = 0 ↔ ∀ k i j, ∑ s, p1 s k i * p1 s k j = ∑ s, p2 s k i * p2 s k j) := by
  have hS' : (S : ℝ) ≠ 0 := by positivity
  refine ⟨by rw [(strong_eq _ _).1, meanDist_eq_zero hS], ?_, fun h k i j => ?_, fun h => ?_⟩
  · have : (⟨min 1 N, by omega⟩ : Fin (N + 1)) = ⟨1, by omega⟩ := Fin.ext (by simp; omega)
    rw [(strong_eq _ _).2, this, meanDist_eq_zero hS]
  · have h1 := C123_weak_global p1 p2 k i j
    rw [h] at h1
    have h2 := abs_nonpos_iff.1 h1
    rw [← sub_div, div_eq_zero_iff, or_iff_left hS'] at h2
    linarith
  · have : ∀ k, weakError p1 p2 k = 0 := fun k => by
      have h1 : meanMoment p2 k - meanMoment p1 k = 0 := by
        ext i j
        simp only [Matrix.sub_apply, meanMoment, Matrix.smul_apply, Matrix.sum_apply, weakPolynomial_apply, smul_eq_mul, h k i j, sub_self,
          Matrix.zero_apply]
      show frob (meanMoment p2 k - meanMoment p1 k) = 0
      rw [h1]; simp [frob, norm2]
    simp [weakGlobal, this]

/-- C123: the settings of the notebook: EKF1, one filter step per interval, prior scale 1, as many fine steps as intervals, 1000 keys. -/
example : ∃ (la : LinAlg) (N0 : ℕ), la.Correct ∧ la.MeasurableQr ∧ ∀ N ≥ N0, 0 < N → ∃ (odeInt : _ → OdeInt (Vec 2) 2) (p1 p2 : _ → Paths 1000 N 2),
    (∀ ω k x vf, Ekf.ekf1 la (drawsRng ω) (some k) x vf (1 / N) 1 true (some ⟨_, IOUP.transition 0 1 1 (1 / N) 2⟩) none =
      .ok (odeInt ω k x vf (1 / N))) ∧
    (∀ ω (s : Fin 1000), ∃ ts, ramSolver (drawsRng ω) (Key.child [] 1000 s) Ivp.Fhn.drift Ivp.Fhn.sigma Ivp.Fhn.x0 Ivp.Fhn.x0 (1 / N) N N
      (odeInt ω) = .ok (ts, List.ofFn (p1 ω s), List.ofFn (p2 ω s))) ∧
    ∀ k, drawsMeasure {ω | orderProxy (1 / N) (p1 ω) (p2 ω) k < ((1 - 0.1 : ℝ) : EReal)} ≤ ENNReal.ofReal 0.01 := by
  obtain ⟨N0, hA⟩ := C123_order_ekf1 measurableLinAlg_correct measurableLinAlg_measurable one_pos 1 (by norm_num : 0 < 1000)
    (by norm_num : (0 : ℝ) < 0.01) (by norm_num : (0 : ℝ) < 0.1)
  refine ⟨measurableLinAlg, N0, measurableLinAlg_correct, measurableLinAlg_measurable, fun N hN hN0 => ?_⟩
  obtain ⟨F, hF⟩ := exists_ekf1 measurableLinAlg true 1 (1 / N)
  obtain ⟨p1, p2, h1, -, h2⟩ := hA idealNormals_drawsRng N hN N hN0 1 one_ne_zero (by simp) true (fun s => Key.child [] 1000 s)
    (fun ω k x vf _ => F (drawsRng ω) k x vf) (fun ω k x vf => hF (drawsRng ω) k x vf)
  exact ⟨fun ω k x vf _ => F (drawsRng ω) k x vf, p1, p2, fun ω k x vf => hF (drawsRng ω) k x vf, h1, h2⟩

/-- C123: the same for a linear drift and the strong errors. -/
example : ∃ (la : LinAlg) (A : ℝ), la.Correct ∧ la.MeasurableQr ∧ ∀ N : ℕ, 0 < N → ∃ (odeInt : _ → OdeInt (Vec 2) 2) (p1 p2 : _ → Paths 1000 N 2),
    (∀ ω (s : Fin 1000), ∃ ts, ramSolver (drawsRng ω) (Key.child [] 1000 s) (fun (x : Vec 2) (t : ℝ) => -(t • x)) (fun _ _ => (1 : Mat 2 2)) 0 0 (1 / N) N N
      (odeInt ω) = .ok (ts, List.ofFn (p1 ω s), List.ofFn (p2 ω s))) ∧
    ∫⁻ ω, ENNReal.ofReal (strongGlobal (p1 ω) (p2 ω)) ∂drawsMeasure ≤ ENNReal.ofReal (A * (1 / N)) := by
  obtain ⟨A, hA⟩ := C123_mean_ekf1 measurableLinAlg_correct measurableLinAlg_measurable (by norm_num : 0 < 2) one_pos smooth_decay
    timeLipschitz_decay (1 : Mat 2 2) 0 1
  refine ⟨measurableLinAlg, A, measurableLinAlg_correct, measurableLinAlg_measurable, fun N hN => ?_⟩
  obtain ⟨F, hF⟩ := exists_ekf1 measurableLinAlg true 1 (1 / N)
  obtain ⟨p1, p2, h1, h2, -⟩ := hA idealNormals_drawsRng N hN N hN 1 one_ne_zero (by simp) 1000 (by norm_num) true (fun s => Key.child [] 1000 s)
    (fun ω k x vf _ => F (drawsRng ω) k x vf) (fun ω k x vf => hF (drawsRng ω) k x vf)
  exact ⟨fun ω k x vf _ => F (drawsRng ω) k x vf, p1, p2, h1, h2⟩

end Verif
