import Mathlib.Probability.Moments.Covariance
import Verif.Props.WeakEkf

/-! A run with an ideal generator has the law of a run whose parabolas are matched to a Brownian motion; first and second moments of
random vectors that are close in mean square. -/

namespace Verif

open Matrix Spec Jnp Set MeasureTheory ProbabilityTheory Filter
open scoped NNReal Topology

variable {d m : ℕ} {Ω Ω' : Type*} [MeasurableSpace Ω] [MeasurableSpace Ω'] {P : Measure Ω} {Q : Measure Ω'}

/-- The states of a run with an ideal generator, seen through `π`, have the law of the states of a run matched to a Brownian motion. -/
theorem sde_law_coupling {B : Fin m → ℝ≥0 → Ω → ℝ} (hB : IsBrownianVec B P) (f : Field d) (S : Mat d m) (x0 : Vec d) {δ : ℝ} (hδ : 0 < δ)
    (N : ℕ) (key : Key) {J : ℕ → Vec d → Vec m → Vec m → Vec d}
    (hJ : ∀ k < N, Measurable fun z : Vec d × Vec m × Vec m => J k z.1 z.2.1 z.2.2) (odeInt0 : OdeInt (Vec d) d)
    (h0 : ∀ κ x, ∀ k < N, ∀ a b, odeInt0 κ x (additiveField f S (k * δ) δ a b) δ = J k x a b) :
    ∃ R0 : Ω → Rng, (∀ ω, ∀ k < N, ∀ c, (sdeSolver (R0 ω) key f (fun _ _ => S) x0 (Foster.getApprox m) δ N odeInt0).2.2[k]? = some c →
        SameEndAndArea (fun t => (Foster.getApprox m).eval t δ c) (fun t j => B j t.toNNReal ω) (k * δ) δ) ∧
      ∀ {R : Ω' → Rng}, IdealNormals Q R → ∀ {α : Type} (init : α) (π : α → Vec d) (Inv : ℕ → α → Prop) (odeInt : OdeInt α d), π init = x0 → Inv 0 init →
        (∀ κ x, ∀ k < N, Inv k x → ∀ a b, Inv (k + 1) (odeInt κ x (additiveField f S (k * δ) δ a b) δ) ∧
          π (odeInt κ x (additiveField f S (k * δ) δ a b) δ) = J k (π x) a b) →
        ∀ n ≤ N, ∀ y0 : Ω → Vec d,
          (∀ ω, (sdeSolver (R0 ω) key f (fun _ _ => S) x0 (Foster.getApprox m) δ N odeInt0).2.1[n]? = some (y0 ω)) →
          ∃ y : Ω' → α, (∀ ω, (sdeSolver (R ω) key f (fun _ _ => S) init (Foster.getApprox m) δ N odeInt).2.1[n]? = some (y ω)) ∧
            (∀ ω, Inv n (y ω)) ∧ IdentDistrib y0 (fun ω => π (y ω)) P Q := by
  choose R0 hR0 using fun ω => exists_rng_coeffs (m := m) key hδ N fun k =>
    ((fun j => B j (k * δ + δ).toNNReal ω) - (fun j => B j (k * δ).toNNReal ω),
    fun j => Real.sqrt 6 * ((∫ t in (0 : ℝ)..δ, (B j (k * δ + t).toNNReal ω - B j (k * δ).toNNReal ω)) / δ -
      ((fun j => B j (k * δ + δ).toNNReal ω) - (fun j => B j (k * δ).toNNReal ω)) j / 2))
  obtain ⟨c0, hc0⟩ : ∃ c0 : Ω → ℕ → Vec m × Vec m, ∀ ω k, c0 ω k =
    ((fun j => B j (k * δ + δ).toNNReal ω) - (fun j => B j (k * δ).toNNReal ω),
    fun j => Real.sqrt 6 * ((∫ t in (0 : ℝ)..δ, (B j (k * δ + t).toNNReal ω - B j (k * δ).toNNReal ω)) / δ -
      ((fun j => B j (k * δ + δ).toNNReal ω) - (fun j => B j (k * δ).toNNReal ω)) j / 2)) := ⟨_, fun _ _ => rfl⟩
  have hm0 : ∀ ω k, SameEndAndArea (fun t => Foster.evalParabola t δ (c0 ω k).1 (c0 ω k).2) (fun t j => B j t.toNNReal ω) (k * δ) δ :=
    fun ω k => by rw [hc0]; exact exists_sameEndAndArea hδ.ne' (fun t j => B j t.toNNReal ω) (k * δ)
  have hk0 : ∀ ω, ∀ k < N, (sdeSolver (R0 ω) key f (fun _ _ => S) x0 (Foster.getApprox m) δ N odeInt0).2.2[k]? = some (c0 ω k) := by
    intro ω k hk
    rw [sdeSolver_coeffs, List.getElem?_map, List.getElem?_range hk, hc0, ← hR0 ω k hk]
    rfl
  refine ⟨R0, fun ω k hk c hc => ?_, ?_⟩
  · have : c = c0 ω k := Option.some.inj (hc.symm.trans (hk0 ω k hk))
    rw [this]
    exact hm0 ω k
  intro R hR α init π Inv odeInt hπ hI hstep n hn y0 hy0
  have hfield : ∀ (c : Vec m × Vec m) (a0 : ℝ), intervalField f (fun _ _ => S) (Foster.getApprox m) δ c a0 =
      additiveField f S a0 δ c.1 c.2 := fun c a0 => rfl
  obtain ⟨c1, hc1⟩ : ∃ c1 : Ω' → ℕ → Vec m × Vec m, ∀ ω k, c1 ω k = (Foster.getApprox m).coeffs (R ω) ((key.child N k).child 2 0) δ :=
    ⟨_, fun _ _ => rfl⟩
  have hk1 : ∀ ω, ∀ k < N, (sdeSolver (R ω) key f (fun _ _ => S) init (Foster.getApprox m) δ N odeInt).2.2[k]? = some (c1 ω k) := by
    intro ω k hk
    rw [sdeSolver_coeffs, List.getElem?_map, List.getElem?_range hk, hc1]
    rfl
  have hk1' : ∀ ω, ∀ k < N, (sdeSolver (R ω) key f (fun _ _ => S) x0 (Foster.getApprox m) δ N odeInt0).2.2[k]? = some (c1 ω k) := by
    intro ω k hk
    rw [sdeSolver_coeffs, List.getElem?_map, List.getElem?_range hk, hc1]
    rfl
  have hl0 := C91_matched_law hB hδ N (fun ω k => (c0 ω k).1) (fun ω k => (c0 ω k).2) (Eventually.of_forall fun ω k _ => hm0 ω k)
  have hl1 := C91_code_law hR key f (fun _ _ => S) x0 hδ N odeInt0 (fun ω k => (c1 ω k).1) (fun ω k => (c1 ω k).2) hk1'
  have hid := hl0.identDistrib hl1
  choose Y hY1 hY2 hY3 using fun ω => sdeSolver_states (R0 ω) key f (fun _ _ => S) x0 (Foster.getApprox m) δ N odeInt0
  choose Z hZ1 hZ2 hZ3 using fun ω => sdeSolver_states (R ω) key f (fun _ _ => S) init (Foster.getApprox m) δ N odeInt
  have hZ4 : ∀ ω, ∀ k < N, Z ω (k + 1) = odeInt ((key.child N k).child 2 1) (Z ω k) (additiveField f S (k * δ) δ (c1 ω k).1 (c1 ω k).2) δ := by
    intro ω k hk
    obtain ⟨c', h1, h2⟩ := hZ3 ω k hk
    have : c' = c1 ω k := Option.some.inj (h1.symm.trans (hk1 ω k hk))
    rw [h2, this, hfield]
  have hZI : ∀ ω, ∀ k ≤ N, Inv k (Z ω k) := fun ω k => by
    induction k with
    | zero => intro _; rw [hZ2]; exact hI
    | succ k ih => intro hk; rw [hZ4 ω k hk]; exact (hstep _ _ k hk (ih (by omega)) _ _).1
  obtain ⟨Ψ, hΨ⟩ : ∃ Ψ : ℕ → Vec d → (Fin N × Fin m × Fin 2 → ℝ) → Vec d, ∀ k y z, Ψ k y z =
      if k < N then J k y (fun j => if h : k < N then z (⟨k, h⟩, j, 0) else 0) (fun j => if h : k < N then z (⟨k, h⟩, j, 1) else 0) else 0 :=
    ⟨_, fun _ _ _ => rfl⟩
  have hΨm : ∀ k, Measurable fun p : Vec d × (Fin N × Fin m × Fin 2 → ℝ) => Ψ k p.1 p.2 := fun k => by
    simp only [hΨ]
    by_cases hk : k < N
    · simp only [hk, if_true, dif_pos]
      refine (hJ k hk).comp (measurable_fst.prodMk (Measurable.prodMk ?_ ?_)) <;>
        exact measurable_pi_iff.mpr fun j => (measurable_pi_apply _).comp measurable_snd
    · simp only [hk, if_false]
      exact measurable_const
  have hidn := scheme_identDistrib hid hΨm (Y := fun k ω => Y ω k) (Y' := fun k ω => π (Z ω k)) (x0 := x0) hY2 (fun ω => by rw [hZ2, hπ])
    (fun k hk ω => ?_) (fun k hk ω => ?_) n hn
  · have hYy : (fun ω => Y ω n) = y0 := funext fun ω => Option.some.inj ((hY1 ω n hn).symm.trans (hy0 ω))
    rw [hYy] at hidn
    exact ⟨fun ω => Z ω n, fun ω => hZ1 ω n hn, fun ω => hZI ω n hn, hidn⟩
  · obtain ⟨c', h1, h2⟩ := hY3 ω k hk
    have : c' = c0 ω k := Option.some.inj (h1.symm.trans (hk0 ω k hk))
    simp only [h2, this, hfield, h0 _ _ k hk, hΨ, hk, if_true, dif_pos]
    simp
  · simp only [hZ4 ω k hk, (hstep _ _ k hk (hZI ω k hk.le) _ _).2, hΨ, hk, if_true, dif_pos]
    simp

theorem abs_cov_le [IsProbabilityMeasure P] {U V : Ω → ℝ} (hU : MemLp U 2 P) (hV : MemLp V 2 P) {u v : ℝ} (hu : 0 ≤ u) (hv : 0 ≤ v)
    (h1 : Var[U; P] ≤ u ^ 2) (h2 : Var[V; P] ≤ v ^ 2) : |cov[U, V; P]| ≤ u * v := by
  -- weights `v` and `u`
  have key : ∀ s : ℝ, 0 ≤ u ^ 2 * s ^ 2 + 2 * s * cov[U, V; P] + v ^ 2 := fun s => by
    have h := variance_nonneg (fun ω => s * U ω + V ω) P
    have e : Var[fun ω => s * U ω + V ω; P] = s ^ 2 * Var[U; P] + 2 * s * cov[U, V; P] + Var[V; P] := by
      have hsU : MemLp (fun ω => s * U ω) 2 P := hU.const_mul s
      rw [variance_fun_add hsU hV, variance_const_mul, covariance_const_mul_left]
      ring
    rw [e] at h
    nlinarith [mul_le_mul_of_nonneg_left h1 (sq_nonneg s)]
  refine abs_le_of_sq_le_sq ?_ (mul_nonneg hu hv)
  have hdisc := discrim_le_zero (a := u ^ 2) (b := 2 * cov[U, V; P]) (c := v ^ 2) fun s => by nlinarith [key s]
  rw [discrim] at hdisc
  nlinarith

/-- Moments of vectors that are close in mean square to a vector of normals. -/
theorem moments_of_strong {X0 y : Ω → Vec d} {y' : Ω' → Vec d} (hid : IdentDistrib y y' P Q) {μ : Vec d} {C : Mat d d} (hX : IsNormal P X0 μ C)
    (h : Integrable (fun ω => ‖X0 ω - y ω‖ ^ 2) P) {r : ℝ} (hr : 0 < r) (hle : ∫ ω, ‖X0 ω - y ω‖ ^ 2 ∂P ≤ r ^ 2) {s : ℝ} (hs : 0 ≤ s)
    (hC : ∀ i, C i i ≤ s ^ 2) (i j : Fin d) : MemLp (fun ω => y' ω i) 2 Q ∧ |∫ ω, y' ω i ∂Q - μ i| ≤ r ∧
      |cov[fun ω => y' ω i, fun ω => y' ω j; Q] - C i j| ≤ r * (r + 2 * s) := by
  have hP := hX.isProb
  have hy : ∀ i, AEMeasurable (fun ω => y ω i) P := fun i => (measurable_pi_apply i).comp_aemeasurable hid.aemeasurable_fst
  have hX2 := hX.memLp
  have hDm : ∀ i, AEMeasurable (fun ω => y ω i - X0 ω i) P := fun i => (hy i).sub (hX2 i).1.aemeasurable
  have hle' : ∀ i ω, (y ω i - X0 ω i) ^ 2 ≤ ‖X0 ω - y ω‖ ^ 2 := fun i ω => by
    have h1 : |(X0 ω - y ω) i| ≤ ‖X0 ω - y ω‖ := norm_le_pi_norm (X0 ω - y ω) i
    rw [← sq_abs, abs_sub_comm]
    exact pow_le_pow_left₀ (abs_nonneg _) h1 2
  have hDi : ∀ i, Integrable (fun ω => (y ω i - X0 ω i) ^ 2) P := fun i =>
    h.mono' ((hDm i).pow_const 2).aestronglyMeasurable (Eventually.of_forall fun ω => by
      rw [Real.norm_eq_abs, abs_of_nonneg (sq_nonneg _)]; exact hle' i ω)
  have hD2 : ∀ i, MemLp (fun ω => y ω i - X0 ω i) 2 P := fun i =>
    (memLp_two_iff_integrable_sq (hDm i).aestronglyMeasurable).mpr (hDi i)
  have hDb : ∀ i, ∫ ω, (y ω i - X0 ω i) ^ 2 ∂P ≤ r ^ 2 := fun i => (integral_mono (hDi i) h (hle' i)).trans hle
  have hDv : ∀ i, Var[fun ω => y ω i - X0 ω i; P] ≤ r ^ 2 := fun i => (variance_le_expectation_sq (hDm i).aestronglyMeasurable).trans (by
    simpa using hDb i)
  have hXv : ∀ i, Var[fun ω => X0 ω i; P] ≤ s ^ 2 := fun i => by
    rw [← covariance_self (hX2 i).1.aemeasurable, hX.cov]
    exact hC i
  have hye : ∀ i, (fun ω => y ω i) = fun ω => X0 ω i + (y ω i - X0 ω i) := fun i => by funext ω; ring
  have hy2 : ∀ i, MemLp (fun ω => y ω i) 2 P := fun i => by rw [hye]; exact (hX2 i).add (hD2 i)
  have hidi : ∀ i, IdentDistrib (fun ω => y ω i) (fun ω => y' ω i) P Q := fun i => hid.comp (measurable_pi_apply i)
  have hQ : IsProbabilityMeasure Q := by
    have := hid.map_eq
    constructor
    have h1 := congrArg (fun ν : Measure (Vec d) => ν univ) this
    simp only [Measure.map_apply_of_aemeasurable hid.aemeasurable_fst MeasurableSet.univ,
      Measure.map_apply_of_aemeasurable hid.aemeasurable_snd MeasurableSet.univ, preimage_univ, measure_univ] at h1
    exact h1.symm
  have hy2' : ∀ i, MemLp (fun ω => y' ω i) 2 Q := fun i => (hidi i).memLp_iff.mp (hy2 i)
  refine ⟨hy2' i, ?_, ?_⟩
  · rw [← (hidi i).integral_eq, hye i, integral_add ((hX2 i).integrable (by norm_num)) ((hD2 i).integrable (by norm_num)), hX.mean,
      add_sub_cancel_left]
    have h1 := (variance_eq_sub (hD2 i)).symm.le
    have h2 := variance_nonneg (fun ω => y ω i - X0 ω i) P
    rw [variance_eq_sub (hD2 i)] at h2
    have h3 : ∫ ω, ((fun ω => y ω i - X0 ω i) ^ 2) ω ∂P ≤ r ^ 2 := hDb i
    exact abs_le_of_sq_le_sq (by linarith) hr.le
  · have hpair : IdentDistrib (fun ω => y ω i * y ω j) (fun ω => y' ω i * y' ω j) P Q :=
      hid.comp (u := fun v : Vec d => v i * v j) (by fun_prop)
    have hcov : cov[fun ω => y' ω i, fun ω => y' ω j; Q] = cov[fun ω => y ω i, fun ω => y ω j; P] := by
      rw [covariance_eq_sub (hy2' i) (hy2' j), covariance_eq_sub (hy2 i) (hy2 j), (hidi i).integral_eq, (hidi j).integral_eq]
      congr 1
      exact hpair.integral_eq.symm
    have hsplit : cov[fun ω => y ω i, fun ω => y ω j; P] = C i j + (cov[fun ω => X0 ω i, fun ω => y ω j - X0 ω j; P] +
        cov[fun ω => y ω i - X0 ω i, fun ω => X0 ω j; P] + cov[fun ω => y ω i - X0 ω i, fun ω => y ω j - X0 ω j; P]) := by
      have e : ∀ i, (fun ω => y ω i) = (fun ω => X0 ω i) + fun ω => y ω i - X0 ω i := hye
      rw [e i, e j, covariance_add_left (hX2 i) (hD2 i) ((hX2 j).add (hD2 j)), covariance_add_right (hX2 i) (hX2 j) (hD2 j),
        covariance_add_right (hD2 i) (hX2 j) (hD2 j), hX.cov]
      ring
    rw [hcov, hsplit, add_sub_cancel_left]
    have e1 := abs_cov_le (hX2 i) (hD2 j) hs hr.le (hXv i) (hDv j)
    have e2 := abs_cov_le (hD2 i) (hX2 j) hr.le hs (hDv i) (hXv j)
    have e3 := abs_cov_le (hD2 i) (hD2 j) hr.le hr.le (hDv i) (hDv j)
    refine (abs_add_le _ _).trans ((add_le_add (abs_add_le _ _) le_rfl).trans ?_)
    linarith

end Verif
