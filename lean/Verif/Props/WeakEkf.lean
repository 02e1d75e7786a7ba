import Verif.Lemmas.WeakLaw
import Verif.Props.StrongEkf
import Verif.Props.Matched

/-!
# Property C94: convergence of the law of the output, with the generator's own draws
-/

namespace Verif

open Matrix Spec Jnp Set MeasureTheory ProbabilityTheory Filter
open scoped NNReal Topology

variable {d m : ℕ}

theorem measurable_trapStep {f : Vec d → ℝ → Vec d} (hf : Continuous (Function.uncurry f)) (S : Mat d m) (a0 δ h : ℝ) (k N M : ℕ) :
    Measurable fun p : Vec d × (Fin N × Fin m × Fin 2 → ℝ) => (trapScheme (additiveField f S a0 δ
      (fun j => if h : k < N then p.2 (⟨k, h⟩, j, 0) else 0) (fun j => if h : k < N then p.2 (⟨k, h⟩, j, 1) else 0)) h p.1 M).1 := by
  obtain ⟨F, hF⟩ : ∃ F : Vec d × Vec m × Vec m → Vec d, ∀ p, F p = (trapScheme (additiveField f S a0 δ p.2.1 p.2.2) h p.1 M).1 :=
    ⟨_, fun _ => rfl⟩
  have hFm : Measurable F := by
    rw [show F = fun p => (trapScheme (additiveField f S a0 δ p.2.1 p.2.2) h p.1 M).1 from funext hF]
    exact (continuous_fst.comp (continuous_trapScheme hf S a0 δ h M)).measurable
  have hm : ∀ (j : Fin m) (s : Fin 2), Measurable fun p : Vec d × (Fin N × Fin m × Fin 2 → ℝ) =>
      if h : k < N then p.2 (⟨k, h⟩, j, s) else 0 := fun j s => by
    split_ifs with h
    · exact (measurable_pi_apply ((⟨k, h⟩, j, s) : Fin N × Fin m × Fin 2)).comp measurable_snd
    · exact measurable_const
  have hG : ∀ s, Measurable fun (p : Vec d × (Fin N × Fin m × Fin 2 → ℝ)) (j : Fin m) => if h : k < N then p.2 (⟨k, h⟩, j, s) else 0 :=
    fun s => measurable_pi_lambda _ fun j => hm j s
  have := hFm.comp (measurable_fst.prodMk ((hG 0).prodMk (hG 1)))
  simp only [Function.comp_def, hF] at this
  exact this

/-- C94: `sde_solver` with EKF0 and `get_approx`, run with an ideal generator, approximates the law of the solution of an SDE with
additive noise at every grid point to order one, for every Lipschitz function (so in the Wasserstein distance). Nothing couples the
generator with the Brownian motion: they may live on different probability spaces. -/
theorem C94_ekf0_law {la : LinAlg} (hla : la.Correct) {Ω : Type*} [MeasurableSpace Ω] {P : Measure Ω} {B : Fin m → ℝ≥0 → Ω → ℝ}
    (hB : IsBrownianVec B P) (hd : 0 < d) {f : Field d} {Df : Vec d → ℝ → Vec d →L[ℝ] Vec d} {T L K Lt : ℝ} (hT : 0 < T)
    (hf : SmoothField f Df T L K) (htl : TimeLipschitz f T Lt) (S : Mat d m) (x0 : Vec d)
    {X : Ω → ℝ → Vec d} (hX : ∀ᵐ ω ∂P, SolvesAdditive f S (fun t j => B j t.toNNReal ω) x0 T (X ω)) :
    ∃ A : ℝ, ∀ {Ω' : Type} [MeasurableSpace Ω'] {Q : Measure Ω'} {R : Ω' → Rng}, IdealNormals Q R → ∀ N : ℕ, 0 < N → ∀ M : ℕ, 0 < M →
      ∀ σ : ℝ, σ ≠ 0 → ∀ (sqrt : Bool) (rng : Rng) (key : Key) (odeInt : OdeInt (Vec d) d),
      (∀ k x vf, Ekf.ekf0 la rng none x vf (T / N / M) M sqrt
        (some ⟨_, IOUP.transition 0 σ 1 (T / N / M) d⟩) none = .ok (odeInt k x vf (T / N))) →
      ∀ n ≤ N, ∃ y : Ω' → Vec d,
        (∀ ω, (sdeSolver (R ω) key f (fun _ _ => S) x0 (Foster.getApprox m) (T / N) N odeInt).2.1[n]? = some (y ω)) ∧
        ∀ (κ : ℝ≥0) (g : Vec d → ℝ), LipschitzWith κ g → Integrable (fun ω => g (y ω)) Q ∧
          Integrable (fun ω => g (X ω (n * (T / N)))) P ∧ |∫ ω, g (y ω) ∂Q - ∫ ω, g (X ω (n * (T / N))) ∂P| ≤ A * κ * (T / N) := by
  wlog hL : 0 ≤ L generalizing L
  · refine this (L := 0) ⟨hf.cont, fun x y t ht => (hf.lip x y t ht).trans ?_, hf.deriv, hf.jac⟩ le_rfl
    exact mul_le_mul_of_nonneg_right (not_le.mp hL).le (norm_nonneg _)
  have hP := hB.isProb
  obtain ⟨A, hA⟩ := C92_ekf0_strong hla hB hd hT hf htl S x0 hX
  refine ⟨Real.sqrt (|A| + 1), ?_⟩
  intro Ω' _ Q R hR N hN M hM σ hσ sqrt rng key odeInt hode n hn
  have hN' : (0 : ℝ) < N := by exact_mod_cast hN
  have hM' : (0 : ℝ) < M := by exact_mod_cast hM
  have hA' := hA N hN M hM σ hσ sqrt rng
  obtain ⟨δ, hδdef⟩ : ∃ δ, δ = T / N := ⟨_, rfl⟩
  rw [← hδdef] at hode hA' ⊢
  have hδ : 0 < δ := by rw [hδdef]; positivity
  have hNδ : (N : ℝ) * δ = T := by rw [hδdef]; field_simp
  have hnT : (n : ℝ) * δ ∈ Icc 0 T := ⟨by positivity, by
    rw [← hNδ]; exact mul_le_mul_of_nonneg_right (by exact_mod_cast hn) hδ.le⟩
  have hint : ∀ k x vf, odeInt k x vf δ = (trapScheme vf (δ / M) x M).1 := fun k x vf =>
    Except.ok.inj ((hode k x vf).symm.trans (C43_trapezoidal hla rng hd vf hσ (by positivity) x M sqrt))
  have hfield : ∀ (c : Vec m × Vec m) (a0 : ℝ), intervalField f (fun _ _ => S) (Foster.getApprox m) δ c a0 =
      additiveField f S a0 δ c.1 c.2 := fun c a0 => rfl
  -- a generator on the space of the Brownian motion, with matched coefficients
  choose R0 hR0 using fun ω => exists_rng_coeffs (m := m) key hδ N fun k =>
    ((fun j => B j (k * δ + δ).toNNReal ω) - (fun j => B j (k * δ).toNNReal ω),
    fun j => Real.sqrt 6 * ((∫ t in (0 : ℝ)..δ, (B j (k * δ + t).toNNReal ω - B j (k * δ).toNNReal ω)) / δ -
      ((fun j => B j (k * δ + δ).toNNReal ω) - (fun j => B j (k * δ).toNNReal ω)) j / 2))
  obtain ⟨c0, hc0⟩ : ∃ c0 : Ω → ℕ → Vec m × Vec m, ∀ ω k, c0 ω k =
    ((fun j => B j (k * δ + δ).toNNReal ω) - (fun j => B j (k * δ).toNNReal ω),
    fun j => Real.sqrt 6 * ((∫ t in (0 : ℝ)..δ, (B j (k * δ + t).toNNReal ω - B j (k * δ).toNNReal ω)) / δ -
      ((fun j => B j (k * δ + δ).toNNReal ω) - (fun j => B j (k * δ).toNNReal ω)) j / 2)) := ⟨_, fun _ _ => rfl⟩
  have hm0 : ∀ ω k, SameEndAndArea (fun t => Foster.evalParabola t δ (c0 ω k).1 (c0 ω k).2) (fun t j => B j t.toNNReal ω) (k * δ) δ :=
    fun ω k => by rw [hc0]; exact exists_sameEndAndArea hδ.ne' (fun t j => B j t.toNNReal ω) (k * δ)
  have hk0 : ∀ ω, ∀ k < N, (sdeSolver (R0 ω) key f (fun _ _ => S) x0 (Foster.getApprox m) δ N odeInt).2.2[k]? = some (c0 ω k) := by
    intro ω k hk
    rw [sdeSolver_coeffs, List.getElem?_map, List.getElem?_range hk, hc0, ← hR0 ω k hk]
    rfl
  obtain ⟨y0, hy0, hy0i, hy0e⟩ := hA' R0 key (Foster.getApprox m) Prod.fst Prod.snd (fun _ _ _ => rfl) odeInt hode
    (Eventually.of_forall fun ω k hk c hc => by
      have : c = c0 ω k := Option.some.inj (hc.symm.trans (hk0 ω k hk))
      rw [this]
      exact hm0 ω k) n hn
  obtain ⟨c1, hc1⟩ : ∃ c1 : Ω' → ℕ → Vec m × Vec m, ∀ ω k, c1 ω k = (Foster.getApprox m).coeffs (R ω) ((key.child N k).child 2 0) δ :=
    ⟨_, fun _ _ => rfl⟩
  have hk1 : ∀ ω, ∀ k < N, (sdeSolver (R ω) key f (fun _ _ => S) x0 (Foster.getApprox m) δ N odeInt).2.2[k]? = some (c1 ω k) := by
    intro ω k hk
    rw [sdeSolver_coeffs, List.getElem?_map, List.getElem?_range hk, hc1]
    rfl
  have hl0 := C91_matched_law hB hδ N (fun ω k => (c0 ω k).1) (fun ω k => (c0 ω k).2) (Eventually.of_forall fun ω k _ => hm0 ω k)
  have hl1 := C91_code_law hR key f (fun _ _ => S) x0 hδ N odeInt (fun ω k => (c1 ω k).1) (fun ω k => (c1 ω k).2) hk1
  have hid := hl0.identDistrib hl1
  choose Y hY1 hY2 hY3 using fun ω => sdeSolver_states (R0 ω) key f (fun _ _ => S) x0 (Foster.getApprox m) δ N odeInt
  choose Z hZ1 hZ2 hZ3 using fun ω => sdeSolver_states (R ω) key f (fun _ _ => S) x0 (Foster.getApprox m) δ N odeInt
  obtain ⟨Ψ, hΨ⟩ : ∃ Ψ : ℕ → Vec d → (Fin N × Fin m × Fin 2 → ℝ) → Vec d, ∀ k y z, Ψ k y z =
      (trapScheme (additiveField f S (k * δ) δ (fun j => if h : k < N then z (⟨k, h⟩, j, 0) else 0)
        (fun j => if h : k < N then z (⟨k, h⟩, j, 1) else 0)) (δ / M) y M).1 := ⟨_, fun _ _ _ => rfl⟩
  have hΨm : ∀ k, Measurable fun p : Vec d × (Fin N × Fin m × Fin 2 → ℝ) => Ψ k p.1 p.2 := fun k => by
    simp only [hΨ]
    exact measurable_trapStep hf.cont S (k * δ) δ (δ / M) k N M
  have hst : ∀ (r : Rng) (y : ℕ → Vec d) (c : ℕ → Vec m × Vec m),
      (∀ k < N, (sdeSolver r key f (fun _ _ => S) x0 (Foster.getApprox m) δ N odeInt).2.2[k]? = some (c k)) →
      (∀ k < N, ∃ c, (sdeSolver r key f (fun _ _ => S) x0 (Foster.getApprox m) δ N odeInt).2.2[k]? = some c ∧
        y (k + 1) = odeInt ((key.child N k).child 2 1) (y k) (intervalField f (fun _ _ => S) (Foster.getApprox m) δ c (k * δ)) δ) →
      ∀ k < N, y (k + 1) = Ψ k (y k) fun q => ![(c q.1).1 q.2.1, (c q.1).2 q.2.1] q.2.2 := fun r y c hc hy k hk => by
    obtain ⟨c', h1, h2⟩ := hy k hk
    have : c' = c k := Option.some.inj (h1.symm.trans (hc k hk))
    rw [h2, hint, hfield, this, hΨ]
    simp [hk]
  have hidn := scheme_identDistrib hid hΨm (Y := fun k ω => Y ω k) (Y' := fun k ω => Z ω k) hY2 hZ2
    (fun k hk ω => hst (R0 ω) (Y ω) (c0 ω) (hk0 ω) (hY3 ω) k hk) (fun k hk ω => hst (R ω) (Z ω) (c1 ω) (hk1 ω) (hZ3 ω) k hk) n hn
  have hYy : (fun ω => Y ω n) = y0 := funext fun ω => Option.some.inj ((hY1 ω n hn).symm.trans (hy0 ω))
  rw [hYy] at hidn
  refine ⟨fun ω => Z ω n, fun ω => hZ1 ω n hn, fun κ g hg => ?_⟩
  have hr : 0 < Real.sqrt (|A| + 1) * δ := by positivity
  have hle : ∫ ω, ‖X ω (n * δ) - y0 ω‖ ^ 2 ∂P ≤ (Real.sqrt (|A| + 1) * δ) ^ 2 := by
    rw [mul_pow, Real.sq_sqrt (by positivity)]
    exact hy0e.trans (mul_le_mul_of_nonneg_right (by linarith [le_abs_self A]) (by positivity))
  obtain ⟨h1, h2, h3⟩ := weak_of_strong hidn (solution_integrable hB hT hf hL S x0 hX hnT) hy0i hr hle hg
  exact ⟨h1, h2, h3.trans (le_of_eq (by ring))⟩

/-- The states of a run of Euler–Maruyama with a key. -/
theorem emSolver_states (rng : Rng) (key : Key) (x0 : Vec d) (f : Field d) (sigma : Diffusion d m) (h : ℝ) (N : ℕ) : ∃ y : ℕ → Vec d,
    (emSolver rng key x0 f sigma h N).2 = (List.range (N + 1)).map y ∧ y 0 = x0 ∧
      ∀ k < N, y (k + 1) = y k + h • f (y k) (k * h) + sigma (y k) (k * h) *ᵥ (Real.sqrt h • rng.normalVec ((key.child N k).child 2 0) m) := by
  obtain ⟨ts, y, h1, h2, h3⟩ := emPathwise_states (fun k => Real.sqrt h • rng.normalVec ((key.child N k).child 2 0) m) x0 f sigma h N
  have h4 := C18_keyed_is_pathwise rng key x0 f sigma h N
  rw [C20_standard_flag, List.map_map] at h4
  have h5 := Except.ok.inj (h4.symm.trans h1)
  exact ⟨y, by rw [h5], h2, h3⟩

/-- The increments of Brownian motions over a grid. -/
theorem Spec.IsBrownianVec.inc_law {Ω : Type*} [MeasurableSpace Ω] {P : Measure Ω} {B : Fin m → ℝ≥0 → Ω → ℝ} (hB : IsBrownianVec B P)
    {δ : ℝ} (hδ : 0 < δ) (N : ℕ) : IsNormal P (fun ω (q : Fin N × Fin m) => B q.2 (((q.1 : ℕ) + 1 : ℕ) * δ).toNNReal ω -
      B q.2 ((q.1 : ℕ) * δ).toNNReal ω) 0 (diagonal fun _ => δ) := by
  have h := (hB.incArea_law hδ N).reindex fun q : Fin N × Fin m => (q.1, q.2, (0 : Fin 2))
  have hc : (diagonal fun q : Fin N × Fin m × Fin 2 => ![δ, δ / 2] q.2.2).submatrix (fun q : Fin N × Fin m => (q.1, q.2, (0 : Fin 2)))
      (fun q : Fin N × Fin m => (q.1, q.2, (0 : Fin 2))) = diagonal fun _ => δ := by
    ext p q
    by_cases hpq : p = q
    · subst hpq
      simp
    · rw [submatrix_apply, diagonal_apply_ne _ hpq, diagonal_apply_ne]
      intro he
      simp only [Prod.mk.injEq, and_true] at he
      exact hpq (Prod.ext he.1 he.2)
  rw [hc] at h
  refine h.congr_ae (Eventually.of_forall fun ω => ?_)
  funext q
  have e : (((q.1 : ℕ) + 1 : ℕ) : ℝ) * δ = (q.1 : ℕ) * δ + δ := by push_cast; ring
  rw [e]
  simp [incArea]

/-- The increments that Euler–Maruyama draws. -/
theorem em_inc_law {Ω : Type*} [MeasurableSpace Ω] {P : Measure Ω} {R : Ω → Rng} (hR : IdealNormals P R) (key : Key) {δ : ℝ} (hδ : 0 < δ)
    (N m : ℕ) : IsNormal P (fun ω (q : Fin N × Fin m) => (Real.sqrt δ • (R ω).normalVec ((key.child N q.1).child 2 0) m) q.2) 0
      (diagonal fun _ => δ) := by
  have hi := hR.indep (ι := ℕ) (fun i => (key.child N i).child 2 0) (fun _ => [m])
    (fun a b hab => ((Key.diverge_child key N a b hab).child_left 2 0).child_right 2 0)
  have hi' := hi.precomp (g := fun q : Fin N × Fin m => (⟨(q.1 : ℕ), ⟨q.2, by simp⟩⟩ : Σ _ : ℕ, Fin ([m] : List ℕ).prod)) (fun p q h => by
    simp only [Sigma.mk.injEq] at h
    have h2 := eq_of_heq h.2
    simp only [Fin.mk.injEq] at h2
    exact Prod.ext (Fin.ext h.1) (Fin.ext h2))
  have hl : ∀ q : Fin N × Fin m, HasLaw (fun ω => (R ω).normal ((key.child N q.1).child 2 0) [m] q.2) (gaussianReal 0 1) P :=
    fun q => hR.law _ _ _ (by simp)
  have hn := isNormal_linear hl hi' 0 (diagonal fun _ => Real.sqrt δ)
  rw [diagonal_transpose, diagonal_mul_diagonal] at hn
  simp only [Real.mul_self_sqrt hδ.le] at hn
  refine hn.congr_ae (Eventually.of_forall fun ω => ?_)
  funext q
  simp [mulVec_diagonal, Rng.normalVec]

/-- C94: Euler–Maruyama with a key, run with an ideal generator, approximates the law of the solution of an SDE with additive noise
at every grid point to order one, for every Lipschitz function. -/
theorem C94_em_law {Ω : Type*} [MeasurableSpace Ω] {P : Measure Ω} {B : Fin m → ℝ≥0 → Ω → ℝ}
    (hB : IsBrownianVec B P) {f : Field d} {Df : Vec d → ℝ → Vec d →L[ℝ] Vec d} {T L K Lt : ℝ} (hT : 0 < T)
    (hf : SmoothField f Df T L K) (htl : TimeLipschitz f T Lt) (S : Mat d m) (x0 : Vec d)
    {X : Ω → ℝ → Vec d} (hX : ∀ᵐ ω ∂P, SolvesAdditive f S (fun t j => B j t.toNNReal ω) x0 T (X ω)) :
    ∃ A : ℝ, ∀ {Ω' : Type} [MeasurableSpace Ω'] {Q : Measure Ω'} {R : Ω' → Rng}, IdealNormals Q R → ∀ N : ℕ, 0 < N → ∀ key : Key,
      ∀ n ≤ N, ∃ y : Ω' → Vec d, (∀ ω, (emSolver (R ω) key x0 f (fun _ _ => S) (T / N) N).2[n]? = some (y ω)) ∧
        ∀ (κ : ℝ≥0) (g : Vec d → ℝ), LipschitzWith κ g → Integrable (fun ω => g (y ω)) Q ∧
          Integrable (fun ω => g (X ω (n * (T / N)))) P ∧ |∫ ω, g (y ω) ∂Q - ∫ ω, g (X ω (n * (T / N))) ∂P| ≤ A * κ * (T / N) := by
  wlog hL : 0 ≤ L generalizing L
  · refine this (L := 0) ⟨hf.cont, fun x y t ht => (hf.lip x y t ht).trans ?_, hf.deriv, hf.jac⟩ le_rfl
    exact mul_le_mul_of_nonneg_right (not_le.mp hL).le (norm_nonneg _)
  have hP := hB.isProb
  obtain ⟨A, hA⟩ := C93_em_strong hB hT hf htl S x0 hX
  refine ⟨Real.sqrt (|A| + 1), ?_⟩
  intro Ω' _ Q R hR N hN key n hn
  have hN' : (0 : ℝ) < N := by exact_mod_cast hN
  obtain ⟨y0, hy0, hy0i, hy0e⟩ := hA N hN n hn
  obtain ⟨δ, hδdef⟩ : ∃ δ, δ = T / N := ⟨_, rfl⟩
  rw [← hδdef] at hy0 hy0i hy0e ⊢
  have hδ : 0 < δ := by rw [hδdef]; positivity
  have hNδ : (N : ℝ) * δ = T := by rw [hδdef]; field_simp
  have hnT : (n : ℝ) * δ ∈ Icc 0 T := ⟨by positivity, by
    rw [← hNδ]; exact mul_le_mul_of_nonneg_right (by exact_mod_cast hn) hδ.le⟩
  have hid := (hB.inc_law hδ N).identDistrib (em_inc_law hR key hδ N m)
  choose ts Y hY1 hY2 hY3 using fun ω => emPathwise_states
    (fun k j => B j ((k + 1 : ℕ) * δ).toNNReal ω - B j (k * δ).toNNReal ω) x0 f (fun _ _ => S) δ N
  choose Z hZ1 hZ2 hZ3 using fun ω => emSolver_states (R ω) key x0 f (fun _ _ => S) δ N
  obtain ⟨Ψ, hΨ⟩ : ∃ Ψ : ℕ → Vec d → (Fin N × Fin m → ℝ) → Vec d, ∀ k y z, Ψ k y z =
      y + δ • f y (k * δ) + S *ᵥ fun j => if h : k < N then z (⟨k, h⟩, j) else 0 := ⟨_, fun _ _ _ => rfl⟩
  have hΨm : ∀ k, Measurable fun p : Vec d × (Fin N × Fin m → ℝ) => Ψ k p.1 p.2 := fun k => by
    simp only [hΨ]
    have hm : ∀ j : Fin m, Measurable fun p : Vec d × (Fin N × Fin m → ℝ) => if h : k < N then p.2 (⟨k, h⟩, j) else 0 := fun j => by
      split_ifs with h
      · exact (measurable_pi_apply ((⟨k, h⟩, j) : Fin N × Fin m)).comp measurable_snd
      · exact measurable_const
    have hfm : Measurable fun p : Vec d × (Fin N × Fin m → ℝ) => f p.1 (k * δ) :=
      (hf.cont.comp (by fun_prop : Continuous fun y : Vec d => (y, (k : ℝ) * δ))).measurable.comp measurable_fst
    have hS : Measurable fun v : Vec m => S *ᵥ v := (Matrix.mulVecLin S).continuous_of_finiteDimensional.measurable
    exact (measurable_fst.add (hfm.const_smul δ)).add (hS.comp (measurable_pi_lambda _ hm))
  have hidn := scheme_identDistrib hid hΨm (N := N) (Y := fun k ω => Y ω k) (Y' := fun k ω => Z ω k) hY2 hZ2
    (fun k hk ω => by rw [hY3 ω k hk, hΨ]; simp [hk]) (fun k hk ω => by rw [hZ3 ω k hk, hΨ]; simp only [hk, dite_true]) n hn
  have hYy : (fun ω => Y ω n) = y0 := funext fun ω => by
    obtain ⟨ts', xs, h1, h2⟩ := hy0 ω
    have e := Except.ok.inj ((hY1 ω).symm.trans h1)
    have e2 : (List.range (N + 1)).map (Y ω) = xs := (Prod.ext_iff.mp e).2
    rw [← e2, List.getElem?_map, List.getElem?_range (by omega)] at h2
    exact Option.some.inj h2
  rw [hYy] at hidn
  refine ⟨fun ω => Z ω n, fun ω => by rw [hZ1 ω, List.getElem?_map, List.getElem?_range (by omega)]; rfl, fun κ g hg => ?_⟩
  have hr : 0 < Real.sqrt (|A| + 1) * δ := by positivity
  have hle : ∫ ω, ‖X ω (n * δ) - y0 ω‖ ^ 2 ∂P ≤ (Real.sqrt (|A| + 1) * δ) ^ 2 := by
    rw [mul_pow, Real.sq_sqrt (by positivity)]
    exact hy0e.trans (mul_le_mul_of_nonneg_right (by linarith [le_abs_self A]) (by positivity))
  obtain ⟨h1, h2, h3⟩ := weak_of_strong hidn (solution_integrable hB hT hf hL S x0 hX hnT) hy0i hr hle hg
  exact ⟨h1, h2, h3.trans (le_of_eq (by ring))⟩

/-- C94: the hypotheses hold for a Brownian motion and an ideal generator on concrete probability spaces; the law of the solution of
`dX = -t X dt + dW` is approximated by Euler–Maruyama and by EKF0. -/
example {la : LinAlg} (hla : la.Correct) : ∃ (A : ℝ) (μ : ℝ → Measure (Vec 2)),
    (∀ N : ℕ, 0 < N → ∀ n ≤ N, ∃ y : Draws → Vec 2,
      (∀ ω, (emSolver (drawsRng ω) [] (0 : Vec 2) (fun x t => -(t • x)) (fun _ _ => (1 : Mat 2 2)) (1 / N) N).2[n]? = some (y ω)) ∧
        ∀ g : Vec 2 → ℝ, LipschitzWith 1 g → |∫ ω, g (y ω) ∂drawsMeasure - ∫ x, g x ∂(μ (n * (1 / N)))| ≤ A * (1 / N)) ∧
    (∀ N : ℕ, 0 < N → ∀ n ≤ N, ∃ y : Draws → Vec 2,
      (∀ ω, (sdeSolver (drawsRng ω) [] (fun x t => -(t • x)) (fun _ _ => (1 : Mat 2 2)) (0 : Vec 2) (Foster.getApprox 2) (1 / N) N
        (fun _ x vf δ => (trapScheme vf (δ / 1) x 1).1)).2.1[n]? = some (y ω)) ∧
        ∀ g : Vec 2 → ℝ, LipschitzWith 1 g → |∫ ω, g (y ω) ∂drawsMeasure - ∫ x, g x ∂(μ (n * (1 / N)))| ≤ A * (1 / N)) := by
  obtain ⟨B, hB⟩ := Levy.exists_brownianVec 2
  obtain ⟨X, hX⟩ := hB.exists_solution zero_le_one smooth_decay (1 : Mat 2 2) 0
  obtain ⟨A, hA⟩ := C94_em_law hB one_pos smooth_decay timeLipschitz_decay (1 : Mat 2 2) 0 hX
  obtain ⟨A', hA'⟩ := C94_ekf0_law hla hB (by norm_num) one_pos smooth_decay timeLipschitz_decay (1 : Mat 2 2) 0 hX
  have hP := hB.isProb
  have hmap : ∀ (N n : ℕ), 0 < N → n ≤ N → ∀ g : Vec 2 → ℝ, LipschitzWith 1 g →
      ∫ x, g x ∂((Measure.pi fun _ => Levy.noise).map fun ω => X ω (n * (1 / N))) =
        ∫ ω, g (X ω (n * (1 / N))) ∂(Measure.pi fun _ => Levy.noise) := fun N n hN hn g hg => by
    have hN' : (0 : ℝ) < N := by exact_mod_cast hN
    refine integral_map (solution_integrable hB one_pos smooth_decay zero_le_one 1 0 hX
      ⟨by positivity, ?_⟩).aemeasurable hg.continuous.aestronglyMeasurable
    rw [mul_one_div, div_le_one hN']
    exact_mod_cast hn
  refine ⟨max A A', fun t => (Measure.pi fun _ => Levy.noise).map fun ω => X ω t, fun N hN n hn => ?_, fun N hN n hn => ?_⟩
  · obtain ⟨y, h1, h2⟩ := hA idealNormals_drawsRng N hN [] n hn
    refine ⟨y, h1, fun g hg => ?_⟩
    rw [hmap N n hN hn g hg]
    refine ((h2 1 g hg).2.2).trans ?_
    rw [NNReal.coe_one, mul_one]
    exact mul_le_mul_of_nonneg_right (le_max_left _ _) (by positivity)
  · have hN' : (0 : ℝ) < N := by exact_mod_cast hN
    obtain ⟨y, h1, h2⟩ := hA' idealNormals_drawsRng N hN 1 one_pos 1 one_ne_zero false ⟨fun _ _ _ => 0⟩ []
      (fun _ x vf δ => (trapScheme vf (δ / 1) x 1).1)
      (fun _ x vf => by
        have := C43_trapezoidal hla ⟨fun _ _ _ => 0⟩ (by norm_num : 0 < 2) vf one_ne_zero (by positivity : 0 < 1 / (N : ℝ) / (1 : ℕ)) x 1 false
        rw [this, Nat.cast_one]) n hn
    refine ⟨y, h1, fun g hg => ?_⟩
    rw [hmap N n hN hn g hg]
    refine ((h2 1 g hg).2.2).trans ?_
    rw [NNReal.coe_one, mul_one]
    exact mul_le_mul_of_nonneg_right (le_max_right _ _) (by positivity)

end Verif
