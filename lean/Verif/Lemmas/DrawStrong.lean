import Verif.Lemmas.DrawNoise
import Verif.Props.FhnOrder

/-! Strong convergence of schemes that draw, and the errors the low-memory solver measures for them. -/

namespace Verif

open Matrix Spec Jnp Set MeasureTheory ProbabilityTheory Scripts Filter
open scoped NNReal ENNReal

variable {d m q : ℕ}

/-- Order one in probability for locally smooth drifts, from mean square errors for smooth drifts. The scheme `J` depends on the drift, on
the number of intervals and on further parameters `p`; it reads the parabolas and `q` normalised increments of other components of the
Brownian motion. It only evaluates the drift near the present state, whose position is read by `ρ`. States that no bounded run reaches are
avoided. -/
theorem prob_order_state {Ω : Type*} [MeasurableSpace Ω] {P : Measure Ω} {B : Fin (m + q) → ℝ≥0 → Ω → ℝ} (hB : IsBrownianVec B P)
    {f : Field d} (hf : ContDiff ℝ 2 (Function.uncurry f)) {T : ℝ} (hT : 0 < T) (S : Mat d m) (x0 : Vec d) {X : Ω → ℝ → Vec d}
    (hX : ∀ᵐ ω ∂P, SolvesAdditive f S (fun t j => B (Fin.castAdd q j) t.toNNReal ω) x0 T (X ω)) {ι : Type*} {E : Type} (e0 : E) {ρ : E → Vec d} {Adm : ℕ → ι → Prop}
    {J : Field d → ℕ → ι → ℕ → E → Vec m → Vec m → Vec q → E} {κ : ℝ} (hκ : 0 < κ)
    (hstrong : ∀ (g : Field d) Dg L K F (X' : Ω → ℝ → Vec d), 0 ≤ L → SmoothField g Dg T L K → TimeLipschitz g T L → (∀ x t, ‖g x t‖ ≤ F) →
      (∀ᵐ ω ∂P, SolvesAdditive g S (fun t j => B (Fin.castAdd q j) t.toNNReal ω) x0 T (X' ω)) →
      ∃ A : ℝ, ∀ N : ℕ, 0 < N → ∀ p, Adm N p → ∀ c : Ω → ℕ → Vec (m + q) × Vec (m + q),
        (∀ᵐ ω ∂P, ∀ k < N, SameEndAndArea (fun t => Foster.evalParabola t (T / N) (c ω k).1 (c ω k).2) (fun t j => B j t.toNNReal ω)
          (k * (T / N)) (T / N)) →
        ∀ Y : ℕ → Ω → E, (∀ ω, Y 0 ω = e0) → (∀ k < N, ∀ ω, Y (k + 1) ω = J g N p k (Y k ω) (firstV (c ω k).1) (firstV (c ω k).2)
          ((1 / Real.sqrt (T / N)) • lastV (c ω k).1)) →
        ∀ n ≤ N, Integrable (fun ω => ‖X' ω (n * (T / N)) - ρ (Y n ω)‖ ^ 2) P ∧ ∫ ω, ‖X' ω (n * (T / N)) - ρ (Y n ω)‖ ^ 2 ∂P ≤ A * (T / N) ^ 2)
    (hloc : ∀ (g : Field d) Dg L K F Λ, 0 ≤ F → SmoothField g Dg T L K → 0 ≤ L → TimeLipschitz g T L → (∀ x t, ‖g x t‖ ≤ F) →
      (∀ x, ‖x‖ ≤ Λ + 1 → ∀ t ∈ Icc 0 T, g x t = f x t) → ∃ N3 : ℕ, ∀ N ≥ N3, 0 < N → ∀ p, Adm N p → ∀ k < N, ∀ y a b ξ, ‖ρ y‖ ≤ Λ + 1 / 2 →
        (∀ t ∈ Icc 0 (T / N), ‖jacT (fun s => Foster.evalParabola s (T / N) a b) t‖ ≤ 10 * κ / (T / N)) →
        J f N p k y a b ξ = J g N p k y a b ξ) {bad : ℝ → ℕ → Set E}
    (hbad : ∀ Λ : ℝ, ∃ A0 : ℝ, ∀ A ≥ A0, ∀ N : ℕ, 0 < N → ∀ p, Adm N p → ∀ e : ℕ → E, e 0 = e0 →
      (∀ k < N, ∃ a b ξ, e (k + 1) = J f N p k (e k) a b ξ) → (∀ k ≤ N, ‖ρ (e k)‖ ≤ Λ) → ∀ n ≤ N, e n ∉ bad A N) {ε : ℝ} (hε : 0 < ε) :
    ∃ (A : ℝ) (N0 : ℕ), ∀ N ≥ N0, ∀ p, Adm N p → ∀ c : Ω → ℕ → Vec (m + q) × Vec (m + q),
      (∀ᵐ ω ∂P, ∀ k < N, SameEndAndArea (fun t => Foster.evalParabola t (T / N) (c ω k).1 (c ω k).2) (fun t j => B j t.toNNReal ω)
        (k * (T / N)) (T / N)) →
      ∀ Y : ℕ → Ω → E, (∀ ω, Y 0 ω = e0) → (∀ k < N, ∀ ω, Y (k + 1) ω = J f N p k (Y k ω) (firstV (c ω k).1) (firstV (c ω k).2)
        ((1 / Real.sqrt (T / N)) • lastV (c ω k).1)) →
      ∀ n ≤ N, P ({ω | A * (T / N) < ‖X ω (n * (T / N)) - ρ (Y n ω)‖} ∪ {ω | Y n ω ∈ bad A N}) ≤ ENNReal.ofReal ε := by
  haveI : IsProbabilityMeasure P := hB.isProb
  obtain ⟨Λ, g, Dg, L, K, F, X', hL, hF, hg, hgt, hgF, heq, hX', N1, hN1⟩ := exists_good (hB.comp_inj (Fin.castAdd_injective m q)) hf hT S x0
    hX (ε := ε / 3) (κ := κ) (by positivity) hκ
  obtain ⟨A, hA⟩ := hstrong g Dg L K F X' hL hg hgt hgF hX'
  obtain ⟨A', hA', hAA, N2, hN2⟩ := exists_prob_consts hε hT A
  obtain ⟨N3, hN3⟩ := hloc g Dg L K F Λ hF hg hL hgt hgF heq
  obtain ⟨A0, hA0⟩ := hbad (Λ + 1 / 2)
  obtain ⟨A2, hA2def⟩ : ∃ A2, A2 = A' + |A0| := ⟨_, rfl⟩
  have hA2' : 0 < A2 := by rw [hA2def]; positivity
  have hAA2 : A ≤ ε / 3 * A2 ^ 2 := by
    refine hAA.trans (mul_le_mul_of_nonneg_left (pow_le_pow_left₀ hA'.le ?_ 2) (by positivity))
    rw [hA2def]
    linarith [abs_nonneg A0]
  have hA02 : A2 ≥ A0 := by
    rw [hA2def]
    linarith [le_abs_self A0]
  refine ⟨A2, N1 + N2 + N3 + 1, ?_⟩
  intro N hN p hp c hc y hy0 hys n hn
  have hN0 : 0 < N := by omega
  have hN' : (0 : ℝ) < N := by exact_mod_cast hN0
  obtain ⟨G0, hG0, hG1⟩ := hN1 N (by omega)
  have hsmall := hN2 N (by omega)
  have hlocN := hN3 N (by omega) hN0 p hp
  have hA1 := hA N hN0 p hp c hc
  have hbadN := hA0 A2 hA02 N hN0 p hp
  obtain ⟨δ, hδdef⟩ : ∃ δ, δ = T / N := ⟨_, rfl⟩
  rw [← hδdef] at hc hys hlocN hA1 hG1 hsmall ⊢
  have hδ : 0 < δ := by rw [hδdef]; positivity
  have hNδ : (N : ℝ) * δ = T := by rw [hδdef]; field_simp
  obtain ⟨y', hy0', hys'⟩ : ∃ y' : ℕ → Ω → E, (∀ ω, y' 0 ω = e0) ∧ ∀ k ω, y' (k + 1) ω =
      J g N p k (y' k ω) (firstV (c ω k).1) (firstV (c ω k).2) ((1 / Real.sqrt δ) • lastV (c ω k).1) :=
    ⟨fun k ω => Nat.rec e0 (fun k w => J g N p k w (firstV (c ω k).1) (firstV (c ω k).2) ((1 / Real.sqrt δ) • lastV (c ω k).1)) k,
      fun _ => rfl, fun _ _ => rfl⟩
  have herr0 := hA1 y' hy0' fun k _ ω => hys' k ω
  have hmn : P {ω | ∀ k < N, SameEndAndArea (fun t => Foster.evalParabola t δ (c ω k).1 (c ω k).2) (fun t j => B j t.toNNReal ω)
    (k * δ) δ}ᶜ = 0 := mem_ae_iff.mp hc
  refine prob_of_localised_bad (x := fun k ω => X ω (k * δ)) (x' := fun k ω => X' ω (k * δ)) (y := fun k ω => ρ (y k ω)) (y' := fun k ω => ρ (y' k ω))
    (N := N) (G := G0 ∩ {ω | ∀ k < N, SameEndAndArea (fun t => Foster.evalParabola t δ (c ω k).1 (c ω k).2) (fun t j => B j t.toNNReal ω)
      (k * δ) δ}) hδ hε ?_ (fun k hk => (herr0 k hk).1) (fun k hk => (herr0 k hk).2) hsmall ?_ hA2' hAA2 hn
  · rw [compl_inter]
    refine (measure_union_le _ _).trans ?_
    rw [hmn, add_zero]
    exact hG0
  · rintro ω ⟨hω1, hω2⟩ herr
    obtain ⟨hXX, hw⟩ := hG1 ω hω1
    have hgrid : ∀ k ≤ N, (k : ℝ) * δ ∈ Icc 0 T := fun k hk => by
      refine ⟨by positivity, ?_⟩
      rw [← hNδ]
      exact mul_le_mul_of_nonneg_right (by exact_mod_cast hk) hδ.le
    have hyb : ∀ k ≤ N, ‖ρ (y' k ω)‖ ≤ Λ + 1 / 2 := fun k hk => by
      have h1 := herr k hk
      obtain ⟨h2, h3⟩ := hXX _ (hgrid k hk)
      rw [h2] at h3
      have : ρ (y' k ω) = X' ω (k * δ) - (X' ω (k * δ) - ρ (y' k ω)) := by abel
      rw [this]
      refine (norm_sub_le _ _).trans ?_
      linarith
    have hyy : ∀ k ≤ N, y k ω = y' k ω := by
      intro k
      induction k with
      | zero => exact fun _ => by rw [hy0, hy0']
      | succ k ih =>
        intro hk
        have hkN : k < N := by omega
        have hmk : SameEndAndArea (fun t => Foster.evalParabola t δ (firstV (c ω k).1) (firstV (c ω k).2))
          (fun t j => B (Fin.castAdd q j) t.toNNReal ω) (k * δ) δ := (hω2 k hkN).comp (Fin.castAdd q)
        have hsl := matched_slope hδ hmk (κ := κ) fun t ht j => hw k hkN t ht j
        rw [hys k hkN, hys', ih hkN.le]
        refine hlocN k hkN _ _ _ _ (hyb k hkN.le) fun t ht => ?_
        rw [jacT_evalParabola, pi_norm_le_iff_of_nonneg (by positivity)]
        exact fun j => hsl t ht j
    refine ⟨?_, fun k hk => ⟨(hXX _ (hgrid k hk)).1, congrArg ρ (hyy k hk)⟩⟩
    refine hbadN (fun k => y k ω) (hy0 ω) (fun k hk => ⟨_, _, _, hys k hk ω⟩) (fun k hk => ?_) n hn
    rw [hyy k hk]
    exact hyb k hk

/-- Order one in probability for locally smooth drifts, from mean square errors for smooth drifts. The scheme `J` depends on the drift, on
the number of intervals and on further parameters `p`; it reads the parabolas and `q` normalised increments of other components of the
Brownian motion. It only evaluates the drift near the present state. -/
theorem prob_order_draw {Ω : Type*} [MeasurableSpace Ω] {P : Measure Ω} {B : Fin (m + q) → ℝ≥0 → Ω → ℝ} (hB : IsBrownianVec B P)
    {f : Field d} (hf : ContDiff ℝ 2 (Function.uncurry f)) {T : ℝ} (hT : 0 < T) (S : Mat d m) (x0 : Vec d) {X : Ω → ℝ → Vec d}
    (hX : ∀ᵐ ω ∂P, SolvesAdditive f S (fun t j => B (Fin.castAdd q j) t.toNNReal ω) x0 T (X ω)) {ι : Type*} {Adm : ℕ → ι → Prop}
    {J : Field d → ℕ → ι → ℕ → Vec d → Vec m → Vec m → Vec q → Vec d} {κ : ℝ} (hκ : 0 < κ)
    (hstrong : ∀ (g : Field d) Dg L K (X' : Ω → ℝ → Vec d), 0 ≤ L → SmoothField g Dg T L K → TimeLipschitz g T L →
      (∀ᵐ ω ∂P, SolvesAdditive g S (fun t j => B (Fin.castAdd q j) t.toNNReal ω) x0 T (X' ω)) →
      ∃ A : ℝ, ∀ N : ℕ, 0 < N → ∀ p, Adm N p → ∀ c : Ω → ℕ → Vec (m + q) × Vec (m + q),
        (∀ᵐ ω ∂P, ∀ k < N, SameEndAndArea (fun t => Foster.evalParabola t (T / N) (c ω k).1 (c ω k).2) (fun t j => B j t.toNNReal ω)
          (k * (T / N)) (T / N)) →
        ∀ Y : ℕ → Ω → Vec d, (∀ ω, Y 0 ω = x0) → (∀ k < N, ∀ ω, Y (k + 1) ω = J g N p k (Y k ω) (firstV (c ω k).1) (firstV (c ω k).2)
          ((1 / Real.sqrt (T / N)) • lastV (c ω k).1)) →
        ∀ n ≤ N, Integrable (fun ω => ‖X' ω (n * (T / N)) - Y n ω‖ ^ 2) P ∧ ∫ ω, ‖X' ω (n * (T / N)) - Y n ω‖ ^ 2 ∂P ≤ A * (T / N) ^ 2)
    (hloc : ∀ (g : Field d) Dg L K F ρ, 0 ≤ F → SmoothField g Dg T L K → 0 ≤ L → TimeLipschitz g T L → (∀ x t, ‖g x t‖ ≤ F) →
      (∀ x, ‖x‖ ≤ ρ + 1 → ∀ t ∈ Icc 0 T, g x t = f x t) → ∃ N3 : ℕ, ∀ N ≥ N3, 0 < N → ∀ p, Adm N p → ∀ k < N, ∀ y a b ξ, ‖y‖ ≤ ρ + 1 / 2 →
        (∀ t ∈ Icc 0 (T / N), ‖jacT (fun s => Foster.evalParabola s (T / N) a b) t‖ ≤ 10 * κ / (T / N)) →
        J f N p k y a b ξ = J g N p k y a b ξ) {ε : ℝ} (hε : 0 < ε) :
    ∃ (A : ℝ) (N0 : ℕ), ∀ N ≥ N0, ∀ p, Adm N p → ∀ c : Ω → ℕ → Vec (m + q) × Vec (m + q),
      (∀ᵐ ω ∂P, ∀ k < N, SameEndAndArea (fun t => Foster.evalParabola t (T / N) (c ω k).1 (c ω k).2) (fun t j => B j t.toNNReal ω)
        (k * (T / N)) (T / N)) →
      ∀ Y : ℕ → Ω → Vec d, (∀ ω, Y 0 ω = x0) → (∀ k < N, ∀ ω, Y (k + 1) ω = J f N p k (Y k ω) (firstV (c ω k).1) (firstV (c ω k).2)
        ((1 / Real.sqrt (T / N)) • lastV (c ω k).1)) →
      ∀ n ≤ N, P {ω | A * (T / N) < ‖X ω (n * (T / N)) - Y n ω‖} ≤ ENNReal.ofReal ε := by
  obtain ⟨A, N0, h⟩ := prob_order_state hB hf hT S x0 hX x0 (ρ := id) (J := J) hκ (fun g Dg L K _ X' hL hg hgt _ => hstrong g Dg L K X' hL hg hgt)
    hloc (bad := fun _ _ => ∅) (fun _ => ⟨0, fun _ _ _ _ _ _ _ _ _ _ _ _ => notMem_empty _⟩) hε
  refine ⟨A, N0, fun N hN p hp c hc Y hY0 hY n hn => ?_⟩
  exact (measure_mono subset_union_left).trans (h N hN p hp c hc Y hY0 hY n hn)

/-- The mean square distance between the two trajectories of the low-memory solver, for an integrator that draws and whose states
have further components. -/
theorem measured_ms_state {f : Field d} {Df : Vec d → ℝ → Vec d →L[ℝ] Vec d} {T L K Lt : ℝ}
    (hT : 0 < T) (hf : SmoothField f Df T L K) (htl : TimeLipschitz f T Lt) (S : Mat d m) (x0 : Vec d) {ι : Type*} {E : Type} [MeasurableSpace E] (e0 : E)
    {ρ : E → Vec d} (hρ : Measurable ρ) {Adm : ℕ → ι → Prop}
    {J : ℕ → ι → ℕ → E → Vec m → Vec m → Vec q → E} {v : ι → ℝ}
    (hJ : ∀ N p, Adm N p → ∀ k < N, Measurable fun z : E × Vec m × Vec m × Vec q => J N p k z.1 z.2.1 z.2.2.1 z.2.2.2)
    (hstrong : ∀ {Ω : Type} [MeasurableSpace Ω] {P : Measure Ω} {B : Fin (m + q) → ℝ≥0 → Ω → ℝ}, IsBrownianVec B P → ∀ X : Ω → ℝ → Vec d,
      (∀ᵐ ω ∂P, SolvesAdditive f S (fun t j => B (Fin.castAdd q j) t.toNNReal ω) x0 T (X ω)) →
      ∃ A : ℝ, ∀ N : ℕ, 0 < N → ∀ p, Adm N p → ∀ c : Ω → ℕ → Vec (m + q) × Vec (m + q),
        (∀ᵐ ω ∂P, ∀ k < N, SameEndAndArea (fun t => Foster.evalParabola t (T / N) (c ω k).1 (c ω k).2) (fun t j => B j t.toNNReal ω)
          (k * (T / N)) (T / N)) →
        ∀ Y : ℕ → Ω → E, (∀ ω, Y 0 ω = e0) → (∀ k < N, ∀ ω, Y (k + 1) ω = J N p k (Y k ω) (firstV (c ω k).1) (firstV (c ω k).2)
          ((1 / Real.sqrt (T / N)) • lastV (c ω k).1)) →
        ∀ n ≤ N, Integrable (fun ω => ‖X ω (n * (T / N)) - ρ (Y n ω)‖ ^ 2) P ∧
          ∫ ω, ‖X ω (n * (T / N)) - ρ (Y n ω)‖ ^ 2 ∂P ≤ A * (1 + v p ^ 2) * (T / N) ^ 2) :
    ∃ A : ℝ, ∀ {Ω : Type} [MeasurableSpace Ω] {Q : Measure Ω} {R : Ω → Rng}, IdealNormals Q R → ∀ N : ℕ, 0 < N → ∀ p, Adm N p →
      ∀ r : ℕ, 0 < r → ∀ (key : Key) {α : Type} (init : α) (π : α → E) (Inv : ℕ → α → Prop) (odeInt : Ω → OdeInt α d),
      π init = e0 → Inv 0 init → (∀ ω κ x, ∀ k < N, Inv k x → ∀ a b,
        Inv (k + 1) (odeInt ω κ x (additiveField f S (k * (T / N)) (T / N) a b) (T / N)) ∧
        π (odeInt ω κ x (additiveField f S (k * (T / N)) (T / N) a b) (T / N)) = J N p k (π x) a b ((R ω).normalVec κ q)) →
      ∀ n ≤ N, ∃ (y : Ω → α) (z : Ω → Vec d),
        (∀ ω, ∃ ts traj traj2, ramSolver (R ω) key f (fun _ _ => S) init x0 (T / N) N r (odeInt ω) = .ok (ts, traj, traj2) ∧
          ts[n]? = some (n * (T / N)) ∧ traj[n]? = some (y ω) ∧ traj2[n]? = some (z ω)) ∧ (∀ ω, Inv n (y ω)) ∧
        (∀ ω k, k + 1 = n → ∃ x a b, Inv k x ∧
          y ω = odeInt ω ((key.child N k).child 2 1) x (additiveField f S (k * (T / N)) (T / N) a b) (T / N)) ∧
        AEMeasurable (fun ω => (ρ (π (y ω)), z ω)) Q ∧
        Integrable (fun ω => ‖ρ (π (y ω)) - z ω‖ ^ 2) Q ∧ ∫ ω, ‖ρ (π (y ω)) - z ω‖ ^ 2 ∂Q ≤ A * (1 + v p ^ 2) * (T / N) ^ 2 := by
  obtain ⟨B, hB⟩ := Levy.exists_brownianVec (m + q)
  obtain ⟨P, hP⟩ : ∃ P : Measure (Fin (m + q) → ℕ × ℕ → ℝ), P = Measure.pi fun _ => Levy.noise := ⟨_, rfl⟩
  rw [← hP] at hB
  have hB1 := hB.comp_inj (Fin.castAdd_injective m q)
  obtain ⟨X, hX⟩ := hB1.exists_solution hT.le hf S x0
  obtain ⟨A1, h1⟩ := hstrong hB X hX
  obtain ⟨A2, h2⟩ := C93_em_strong hB1 hT hf htl S x0 hX
  refine ⟨2 * A1 + 2 * |A2|, ?_⟩
  intro Ω _ Q R hR N hN p hp r hr key α init π Inv odeInt hπ hInv hint n hn
  have hN' : (0 : ℝ) < N := by exact_mod_cast hN
  have hr' : (1 : ℝ) ≤ r := by exact_mod_cast hr
  have h1' := h1 N hN p hp
  obtain ⟨z0, hz1, hz2, hz3⟩ := h2 (N * r) (by positivity) (n * r) (Nat.mul_le_mul_right r hn)
  obtain ⟨δ, hδdef⟩ : ∃ δ, δ = T / N := ⟨_, rfl⟩
  obtain ⟨η, hη⟩ : ∃ η, η = δ / r := ⟨_, rfl⟩
  have hηT : T / (N * r : ℕ) = η := by rw [hη, hδdef]; push_cast; field_simp
  have hδ : 0 < δ := by rw [hδdef]; positivity
  have hη0 : 0 < η := by rw [hη]; positivity
  have hrη : (r : ℝ) * η = δ := by rw [hη]; field_simp
  have et : ((n * r : ℕ) : ℝ) * η = n * δ := by rw [← hrη]; push_cast; ring
  rw [hηT] at hz1 hz2 hz3
  rw [et] at hz2 hz3
  rw [← hδdef] at hint h1' ⊢
  have hηδ : η ≤ δ := by rw [hη]; exact div_le_self hδ.le hr'
  obtain ⟨c0, hm, htr⟩ := ram_transfer_state hB hf.cont S x0 hR hδ hr hη key init π Inv hInv odeInt (hJ N p hp) hint hn
  obtain ⟨Y0, hY0, hYs⟩ : ∃ Y0 : ℕ → (Fin (m + q) → ℕ × ℕ → ℝ) → E, (∀ ω, Y0 0 ω = e0) ∧ ∀ k ω, Y0 (k + 1) ω =
      J N p k (Y0 k ω) (firstV (c0 ω k).1) (firstV (c0 ω k).2) ((1 / Real.sqrt δ) • lastV (c0 ω k).1) :=
    ⟨fun k ω => Nat.rec e0 (fun k w => J N p k w (firstV (c0 ω k).1) (firstV (c0 ω k).2) ((1 / Real.sqrt δ) • lastV (c0 ω k).1)) k,
      fun _ => rfl, fun _ _ => rfl⟩
  obtain ⟨hy2, hy3⟩ := h1' c0 hm Y0 hY0 (fun k _ ω => hYs k ω) n hn
  obtain ⟨y, z, hyz, hyI, hyS, hid'⟩ := htr Y0 z0 (fun ω => (hY0 ω).trans hπ.symm) (fun k _ ω => hYs k ω) hz1
  have hid : IdentDistrib (fun ω => (ρ (Y0 n ω), z0 ω)) (fun ω => (ρ (π (y ω)), z ω)) P Q :=
    hid'.comp (u := fun p : E × Vec d => (ρ p.1, p.2)) ((hρ.comp measurable_fst).prodMk measurable_snd)
  have hide : IdentDistrib (fun ω => ‖ρ (Y0 n ω) - z0 ω‖ ^ 2) (fun ω => ‖ρ (π (y ω)) - z ω‖ ^ 2) P Q :=
    hid.comp (u := fun p : Vec d × Vec d => ‖p.1 - p.2‖ ^ 2) ((measurable_fst.sub measurable_snd).norm.pow_const 2)
  have hb : ∀ ω, ‖ρ (Y0 n ω) - z0 ω‖ ^ 2 ≤ 2 * ‖X ω (n * δ) - ρ (Y0 n ω)‖ ^ 2 + 2 * ‖X ω (n * δ) - z0 ω‖ ^ 2 := fun ω => by
    have h : ‖ρ (Y0 n ω) - z0 ω‖ ≤ ‖X ω (n * δ) - ρ (Y0 n ω)‖ + ‖X ω (n * δ) - z0 ω‖ := by
      rw [show ρ (Y0 n ω) - z0 ω = (X ω (n * δ) - z0 ω) - (X ω (n * δ) - ρ (Y0 n ω)) by abel]
      exact (norm_sub_le _ _).trans (le_of_eq (add_comm _ _))
    nlinarith [norm_nonneg (ρ (Y0 n ω) - z0 ω), sq_nonneg (‖X ω (n * δ) - ρ (Y0 n ω)‖ - ‖X ω (n * δ) - z0 ω‖)]
  have hi0 : Integrable (fun ω => ‖ρ (Y0 n ω) - z0 ω‖ ^ 2) P :=
    ((hy2.const_mul 2).add (hz2.const_mul 2)).mono' hide.aemeasurable_fst.aestronglyMeasurable (Eventually.of_forall fun ω => by
      rw [Real.norm_eq_abs, abs_of_nonneg (by positivity)]
      exact hb ω)
  have hle : ∫ ω, ‖ρ (Y0 n ω) - z0 ω‖ ^ 2 ∂P ≤ (2 * A1 + 2 * |A2|) * (1 + v p ^ 2) * δ ^ 2 := by
    have hsq : η ^ 2 ≤ δ ^ 2 := pow_le_pow_left₀ hη0.le hηδ 2
    have hz4 : A2 * η ^ 2 ≤ |A2| * δ ^ 2 := mul_le_mul (le_abs_self _) hsq (by positivity) (abs_nonneg _)
    have hz5 : 0 ≤ |A2| * v p ^ 2 * δ ^ 2 := by positivity
    calc ∫ ω, ‖ρ (Y0 n ω) - z0 ω‖ ^ 2 ∂P ≤ ∫ ω, (2 * ‖X ω (n * δ) - ρ (Y0 n ω)‖ ^ 2 + 2 * ‖X ω (n * δ) - z0 ω‖ ^ 2) ∂P :=
          integral_mono hi0 ((hy2.const_mul 2).add (hz2.const_mul 2)) hb
      _ = 2 * (∫ ω, ‖X ω (n * δ) - ρ (Y0 n ω)‖ ^ 2 ∂P) + 2 * ∫ ω, ‖X ω (n * δ) - z0 ω‖ ^ 2 ∂P := by
          rw [integral_add (hy2.const_mul 2) (hz2.const_mul 2), integral_const_mul, integral_const_mul]
      _ ≤ 2 * (A1 * (1 + v p ^ 2) * δ ^ 2) + 2 * (|A2| * δ ^ 2 + |A2| * v p ^ 2 * δ ^ 2) := by linarith
      _ = _ := by ring
  refine ⟨y, z, hyz, hyI, hyS, hid.aemeasurable_snd, hide.integrable_iff.mp hi0, ?_⟩
  rw [← hide.integral_eq]
  exact hle

/-- The mean square distance between the two trajectories of the low-memory solver, for an integrator that draws. -/
theorem measured_ms_draw {f : Field d} {Df : Vec d → ℝ → Vec d →L[ℝ] Vec d} {T L K Lt : ℝ}
    (hT : 0 < T) (hf : SmoothField f Df T L K) (htl : TimeLipschitz f T Lt) (S : Mat d m) (x0 : Vec d) {ι : Type*} {Adm : ℕ → ι → Prop}
    {J : ℕ → ι → ℕ → Vec d → Vec m → Vec m → Vec q → Vec d} {v : ι → ℝ}
    (hJ : ∀ N p, Adm N p → ∀ k < N, Measurable fun z : Vec d × Vec m × Vec m × Vec q => J N p k z.1 z.2.1 z.2.2.1 z.2.2.2)
    (hstrong : ∀ {Ω : Type} [MeasurableSpace Ω] {P : Measure Ω} {B : Fin (m + q) → ℝ≥0 → Ω → ℝ}, IsBrownianVec B P → ∀ X : Ω → ℝ → Vec d,
      (∀ᵐ ω ∂P, SolvesAdditive f S (fun t j => B (Fin.castAdd q j) t.toNNReal ω) x0 T (X ω)) →
      ∃ A : ℝ, ∀ N : ℕ, 0 < N → ∀ p, Adm N p → ∀ c : Ω → ℕ → Vec (m + q) × Vec (m + q),
        (∀ᵐ ω ∂P, ∀ k < N, SameEndAndArea (fun t => Foster.evalParabola t (T / N) (c ω k).1 (c ω k).2) (fun t j => B j t.toNNReal ω)
          (k * (T / N)) (T / N)) →
        ∀ Y : ℕ → Ω → Vec d, (∀ ω, Y 0 ω = x0) → (∀ k < N, ∀ ω, Y (k + 1) ω = J N p k (Y k ω) (firstV (c ω k).1) (firstV (c ω k).2)
          ((1 / Real.sqrt (T / N)) • lastV (c ω k).1)) →
        ∀ n ≤ N, Integrable (fun ω => ‖X ω (n * (T / N)) - Y n ω‖ ^ 2) P ∧
          ∫ ω, ‖X ω (n * (T / N)) - Y n ω‖ ^ 2 ∂P ≤ A * (1 + v p ^ 2) * (T / N) ^ 2) :
    ∃ A : ℝ, ∀ {Ω : Type} [MeasurableSpace Ω] {Q : Measure Ω} {R : Ω → Rng}, IdealNormals Q R → ∀ N : ℕ, 0 < N → ∀ p, Adm N p →
      ∀ r : ℕ, 0 < r → ∀ (key : Key) (odeInt : Ω → OdeInt (Vec d) d),
      (∀ ω κ x, ∀ k < N, ∀ a b, odeInt ω κ x (additiveField f S (k * (T / N)) (T / N) a b) (T / N) = J N p k x a b ((R ω).normalVec κ q)) →
      ∀ n ≤ N, ∃ y z : Ω → Vec d,
        (∀ ω, ∃ ts traj traj2, ramSolver (R ω) key f (fun _ _ => S) x0 x0 (T / N) N r (odeInt ω) = .ok (ts, traj, traj2) ∧
          ts[n]? = some (n * (T / N)) ∧ traj[n]? = some (y ω) ∧ traj2[n]? = some (z ω)) ∧
        Integrable (fun ω => ‖y ω - z ω‖ ^ 2) Q ∧ ∫ ω, ‖y ω - z ω‖ ^ 2 ∂Q ≤ A * (1 + v p ^ 2) * (T / N) ^ 2 := by
  obtain ⟨A, hA⟩ := measured_ms_state hT hf htl S x0 x0 (ρ := id) measurable_id (Adm := Adm) (J := J) hJ hstrong
  refine ⟨A, ?_⟩
  intro Ω _ Q R hR N hN p hp r hr key odeInt hint n hn
  obtain ⟨y, z, h1, -, -, -, h2⟩ := hA hR N hN p hp r hr key x0 id (fun _ _ => True) odeInt rfl trivial
    (fun ω κ x k hk _ a b => ⟨trivial, hint ω κ x k hk a b⟩) n hn
  exact ⟨y, z, h1, h2⟩

/-- The probability that the two trajectories of the low-memory solver are far apart, for an integrator that draws and whose
states have further components, or that a state is bad. -/
theorem measured_prob_state_bad {f : Field d} (hf : ContDiff ℝ 2 (Function.uncurry f)) {T : ℝ} (hT : 0 < T) (S : Mat d m) (x0 : Vec d)
    (hsol : ∀ w : ℝ → Vec m, Continuous w → ∃ x, SolvesAdditive f S w x0 T x) {ε : ℝ} (hε : 0 < ε) {ι : Type*}
    {E : Type} [MeasurableSpace E] (e0 : E) {ρ : E → Vec d} (hρ : Measurable ρ) {Adm : ℕ → ι → Prop}
    {J : ℕ → ι → ℕ → E → Vec m → Vec m → Vec q → E} {bad : ℝ → ℕ → Set E}
    (hbm : ∀ A N, MeasurableSet (bad A N)) (hba : ∀ A A' N, A ≤ A' → bad A' N ⊆ bad A N)
    (hJ : ∀ N p, Adm N p → ∀ k < N, Measurable fun z : E × Vec m × Vec m × Vec q => J N p k z.1 z.2.1 z.2.2.1 z.2.2.2)
    (hprob : ∀ {Ω : Type} [MeasurableSpace Ω] {P : Measure Ω} {B : Fin (m + q) → ℝ≥0 → Ω → ℝ}, IsBrownianVec B P → ∀ X : Ω → ℝ → Vec d,
      (∀ᵐ ω ∂P, SolvesAdditive f S (fun t j => B (Fin.castAdd q j) t.toNNReal ω) x0 T (X ω)) →
      ∃ (A : ℝ) (N0 : ℕ), ∀ N ≥ N0, ∀ p, Adm N p → ∀ c : Ω → ℕ → Vec (m + q) × Vec (m + q),
        (∀ᵐ ω ∂P, ∀ k < N, SameEndAndArea (fun t => Foster.evalParabola t (T / N) (c ω k).1 (c ω k).2) (fun t j => B j t.toNNReal ω)
          (k * (T / N)) (T / N)) →
        ∀ Y : ℕ → Ω → E, (∀ ω, Y 0 ω = e0) → (∀ k < N, ∀ ω, Y (k + 1) ω = J N p k (Y k ω) (firstV (c ω k).1) (firstV (c ω k).2)
          ((1 / Real.sqrt (T / N)) • lastV (c ω k).1)) →
        ∀ n ≤ N, P ({ω | A * (T / N) < ‖X ω (n * (T / N)) - ρ (Y n ω)‖} ∪ {ω | Y n ω ∈ bad A N}) ≤ ENNReal.ofReal (ε / 2)) :
    ∃ (A : ℝ) (N0 : ℕ), ∀ {Ω : Type} [MeasurableSpace Ω] {Q : Measure Ω} {R : Ω → Rng}, IdealNormals Q R → ∀ N ≥ N0, ∀ p, Adm N p →
      ∀ r : ℕ, 0 < r → ∀ (key : Key) {α : Type} (init : α) (π : α → E) (Inv : ℕ → α → Prop) (odeInt : Ω → OdeInt α d),
      π init = e0 → Inv 0 init → (∀ ω κ x, ∀ k < N, Inv k x → ∀ a b,
        Inv (k + 1) (odeInt ω κ x (additiveField f S (k * (T / N)) (T / N) a b) (T / N)) ∧
        π (odeInt ω κ x (additiveField f S (k * (T / N)) (T / N) a b) (T / N)) = J N p k (π x) a b ((R ω).normalVec κ q)) →
      ∀ n ≤ N, ∃ (y : Ω → α) (z : Ω → Vec d),
        (∀ ω, ∃ ts traj traj2, ramSolver (R ω) key f (fun _ _ => S) init x0 (T / N) N r (odeInt ω) = .ok (ts, traj, traj2) ∧
          ts[n]? = some (n * (T / N)) ∧ traj[n]? = some (y ω) ∧ traj2[n]? = some (z ω)) ∧ (∀ ω, Inv n (y ω)) ∧
        (∀ ω k, k + 1 = n → ∃ x a b, Inv k x ∧
          y ω = odeInt ω ((key.child N k).child 2 1) x (additiveField f S (k * (T / N)) (T / N) a b) (T / N)) ∧
        Q ({ω | A * (T / N) < ‖ρ (π (y ω)) - z ω‖} ∪ {ω | π (y ω) ∈ bad A N}) ≤ ENNReal.ofReal ε := by
  obtain ⟨B, hB⟩ := Levy.exists_brownianVec (m + q)
  obtain ⟨P, hP⟩ : ∃ P : Measure (Fin (m + q) → ℕ × ℕ → ℝ), P = Measure.pi fun _ => Levy.noise := ⟨_, rfl⟩
  rw [← hP] at hB
  have hB1 := hB.comp_inj (Fin.castAdd_injective m q)
  obtain ⟨X, hX⟩ := hB1.exists_solution_of_paths hsol
  obtain ⟨A1, N1, h1⟩ := hprob hB X hX
  obtain ⟨A2, N2, h2⟩ := C103_em hB1 hf hT S x0 hX (half_pos hε)
  refine ⟨A1 + |A2|, N1 + N2 + 1, ?_⟩
  intro Ω _ Q R hR N hN p hp r hr key α init π Inv odeInt hπ hInv hint n hn
  have hN0 : 0 < N := by omega
  have hN' : (0 : ℝ) < N := by exact_mod_cast hN0
  have hr' : (1 : ℝ) ≤ r := by exact_mod_cast hr
  have h1' := h1 N (by omega) p hp
  obtain ⟨z0, hz1, hz2⟩ := h2 (N * r) (le_trans (by omega) (Nat.le_mul_of_pos_right N hr)) (n * r) (Nat.mul_le_mul_right r hn)
  obtain ⟨δ, hδdef⟩ : ∃ δ, δ = T / N := ⟨_, rfl⟩
  obtain ⟨η, hη⟩ : ∃ η, η = δ / r := ⟨_, rfl⟩
  have hηT : T / (N * r : ℕ) = η := by rw [hη, hδdef]; push_cast; field_simp
  have hδ : 0 < δ := by rw [hδdef]; positivity
  have hη0 : 0 < η := by rw [hη]; positivity
  have hrη : (r : ℝ) * η = δ := by rw [hη]; field_simp
  have et : ((n * r : ℕ) : ℝ) * η = n * δ := by rw [← hrη]; push_cast; ring
  rw [hηT] at hz1 hz2
  rw [et] at hz2
  rw [← hδdef] at hint h1' ⊢
  have hηδ : η ≤ δ := by rw [hη]; exact div_le_self hδ.le hr'
  obtain ⟨c0, hm, htr⟩ := ram_transfer_state hB hf.continuous S x0 hR hδ hr hη key init π Inv hInv odeInt (hJ N p hp) hint hn
  obtain ⟨Y0, hY0, hYs⟩ : ∃ Y0 : ℕ → (Fin (m + q) → ℕ × ℕ → ℝ) → E, (∀ ω, Y0 0 ω = e0) ∧ ∀ k ω, Y0 (k + 1) ω =
      J N p k (Y0 k ω) (firstV (c0 ω k).1) (firstV (c0 ω k).2) ((1 / Real.sqrt δ) • lastV (c0 ω k).1) :=
    ⟨fun k ω => Nat.rec e0 (fun k w => J N p k w (firstV (c0 ω k).1) (firstV (c0 ω k).2) ((1 / Real.sqrt δ) • lastV (c0 ω k).1)) k,
      fun _ => rfl, fun _ _ => rfl⟩
  have hy2 := h1' c0 hm Y0 hY0 (fun k _ ω => hYs k ω) n hn
  obtain ⟨y, z, hyz, hyI, hyS, hid'⟩ := htr Y0 z0 (fun ω => (hY0 ω).trans hπ.symm) (fun k _ ω => hYs k ω) hz1
  refine ⟨y, z, hyz, hyI, hyS, ?_⟩
  have hset : MeasurableSet ({p : E × Vec d | (A1 + |A2|) * δ < ‖ρ p.1 - p.2‖} ∪ {p : E × Vec d | p.1 ∈ bad (A1 + |A2|) N}) :=
    (measurableSet_lt measurable_const ((hρ.comp measurable_fst).sub measurable_snd).norm).union (measurable_fst (hbm _ _))
  have e : Q ({ω | (A1 + |A2|) * δ < ‖ρ (π (y ω)) - z ω‖} ∪ {ω | π (y ω) ∈ bad (A1 + |A2|) N}) =
      P ({ω | (A1 + |A2|) * δ < ‖ρ (Y0 n ω) - z0 ω‖} ∪ {ω | Y0 n ω ∈ bad (A1 + |A2|) N}) := (hid'.measure_mem_eq hset).symm
  rw [e]
  have hsub : {ω | (A1 + |A2|) * δ < ‖ρ (Y0 n ω) - z0 ω‖} ∪ {ω | Y0 n ω ∈ bad (A1 + |A2|) N} ⊆
      ({ω | A1 * δ < ‖X ω (n * δ) - ρ (Y0 n ω)‖} ∪ {ω | Y0 n ω ∈ bad A1 N}) ∪ {ω | A2 * η < ‖X ω (n * δ) - z0 ω‖} := by
    intro ω hω
    rcases hω with hω | hω
    swap
    · exact Or.inl (Or.inr (hba _ _ N (by linarith [abs_nonneg A2]) hω))
    rw [mem_setOf_eq] at hω
    by_contra hcon
    simp only [mem_union, mem_setOf_eq, not_or, not_lt] at hcon
    have h3 : ‖ρ (Y0 n ω) - z0 ω‖ ≤ ‖X ω (n * δ) - ρ (Y0 n ω)‖ + ‖X ω (n * δ) - z0 ω‖ := by
      rw [show ρ (Y0 n ω) - z0 ω = (X ω (n * δ) - z0 ω) - (X ω (n * δ) - ρ (Y0 n ω)) by abel]
      exact (norm_sub_le _ _).trans (le_of_eq (add_comm _ _))
    have h4 : A2 * η ≤ |A2| * δ := mul_le_mul (le_abs_self _) hηδ hη0.le (abs_nonneg _)
    linarith [hcon.1.1, hcon.2]
  refine (measure_mono hsub).trans ((measure_union_le _ _).trans ((add_le_add hy2 hz2).trans ?_))
  rw [← ENNReal.ofReal_add (by positivity) (by positivity), add_halves]

/-- The probability that the two trajectories of the low-memory solver are far apart, for an integrator that draws and whose
states have further components. -/
theorem measured_prob_state {f : Field d} (hf : ContDiff ℝ 2 (Function.uncurry f)) {T : ℝ} (hT : 0 < T) (S : Mat d m) (x0 : Vec d)
    (hsol : ∀ w : ℝ → Vec m, Continuous w → ∃ x, SolvesAdditive f S w x0 T x) {ε : ℝ} (hε : 0 < ε) {ι : Type*}
    {E : Type} [MeasurableSpace E] (e0 : E) {ρ : E → Vec d} (hρ : Measurable ρ) {Adm : ℕ → ι → Prop}
    {J : ℕ → ι → ℕ → E → Vec m → Vec m → Vec q → E}
    (hJ : ∀ N p, Adm N p → ∀ k < N, Measurable fun z : E × Vec m × Vec m × Vec q => J N p k z.1 z.2.1 z.2.2.1 z.2.2.2)
    (hprob : ∀ {Ω : Type} [MeasurableSpace Ω] {P : Measure Ω} {B : Fin (m + q) → ℝ≥0 → Ω → ℝ}, IsBrownianVec B P → ∀ X : Ω → ℝ → Vec d,
      (∀ᵐ ω ∂P, SolvesAdditive f S (fun t j => B (Fin.castAdd q j) t.toNNReal ω) x0 T (X ω)) →
      ∃ (A : ℝ) (N0 : ℕ), ∀ N ≥ N0, ∀ p, Adm N p → ∀ c : Ω → ℕ → Vec (m + q) × Vec (m + q),
        (∀ᵐ ω ∂P, ∀ k < N, SameEndAndArea (fun t => Foster.evalParabola t (T / N) (c ω k).1 (c ω k).2) (fun t j => B j t.toNNReal ω)
          (k * (T / N)) (T / N)) →
        ∀ Y : ℕ → Ω → E, (∀ ω, Y 0 ω = e0) → (∀ k < N, ∀ ω, Y (k + 1) ω = J N p k (Y k ω) (firstV (c ω k).1) (firstV (c ω k).2)
          ((1 / Real.sqrt (T / N)) • lastV (c ω k).1)) →
        ∀ n ≤ N, P {ω | A * (T / N) < ‖X ω (n * (T / N)) - ρ (Y n ω)‖} ≤ ENNReal.ofReal (ε / 2)) :
    ∃ (A : ℝ) (N0 : ℕ), ∀ {Ω : Type} [MeasurableSpace Ω] {Q : Measure Ω} {R : Ω → Rng}, IdealNormals Q R → ∀ N ≥ N0, ∀ p, Adm N p →
      ∀ r : ℕ, 0 < r → ∀ (key : Key) {α : Type} (init : α) (π : α → E) (Inv : ℕ → α → Prop) (odeInt : Ω → OdeInt α d),
      π init = e0 → Inv 0 init → (∀ ω κ x, ∀ k < N, Inv k x → ∀ a b,
        Inv (k + 1) (odeInt ω κ x (additiveField f S (k * (T / N)) (T / N) a b) (T / N)) ∧
        π (odeInt ω κ x (additiveField f S (k * (T / N)) (T / N) a b) (T / N)) = J N p k (π x) a b ((R ω).normalVec κ q)) →
      ∀ n ≤ N, ∃ (y : Ω → α) (z : Ω → Vec d),
        (∀ ω, ∃ ts traj traj2, ramSolver (R ω) key f (fun _ _ => S) init x0 (T / N) N r (odeInt ω) = .ok (ts, traj, traj2) ∧
          ts[n]? = some (n * (T / N)) ∧ traj[n]? = some (y ω) ∧ traj2[n]? = some (z ω)) ∧ (∀ ω, Inv n (y ω)) ∧
        (∀ ω k, k + 1 = n → ∃ x a b, Inv k x ∧
          y ω = odeInt ω ((key.child N k).child 2 1) x (additiveField f S (k * (T / N)) (T / N) a b) (T / N)) ∧
        Q {ω | A * (T / N) < ‖ρ (π (y ω)) - z ω‖} ≤ ENNReal.ofReal ε := by
  obtain ⟨A, N0, hA⟩ := measured_prob_state_bad hf hT S x0 hsol hε e0 hρ (Adm := Adm) (J := J) (bad := fun _ _ => ∅)
    (fun _ _ => MeasurableSet.empty) (fun _ _ _ _ => subset_rfl) hJ (fun hB X hX => by
      obtain ⟨A, N0, h⟩ := hprob hB X hX
      refine ⟨A, N0, fun N hN p hp c hc Y hY0 hY n hn => ?_⟩
      rw [show {ω | Y n ω ∈ (∅ : Set E)} = ∅ from rfl, union_empty]
      exact h N hN p hp c hc Y hY0 hY n hn)
  refine ⟨A, N0, ?_⟩
  intro Ω _ Q R hR N hN p hp r hr key α init π Inv odeInt hπ hInv hint n hn
  obtain ⟨y, z, h1, h2, h3, h4⟩ := hA hR N hN p hp r hr key init π Inv odeInt hπ hInv hint n hn
  exact ⟨y, z, h1, h2, h3, (measure_mono subset_union_left).trans h4⟩

/-- The probability that the two trajectories of the low-memory solver are far apart, for an integrator that draws. -/
theorem measured_prob_draw {f : Field d} (hf : ContDiff ℝ 2 (Function.uncurry f)) {T : ℝ} (hT : 0 < T) (S : Mat d m) (x0 : Vec d)
    (hsol : ∀ w : ℝ → Vec m, Continuous w → ∃ x, SolvesAdditive f S w x0 T x) {ε : ℝ} (hε : 0 < ε) {ι : Type*} {Adm : ℕ → ι → Prop}
    {J : ℕ → ι → ℕ → Vec d → Vec m → Vec m → Vec q → Vec d}
    (hJ : ∀ N p, Adm N p → ∀ k < N, Measurable fun z : Vec d × Vec m × Vec m × Vec q => J N p k z.1 z.2.1 z.2.2.1 z.2.2.2)
    (hprob : ∀ {Ω : Type} [MeasurableSpace Ω] {P : Measure Ω} {B : Fin (m + q) → ℝ≥0 → Ω → ℝ}, IsBrownianVec B P → ∀ X : Ω → ℝ → Vec d,
      (∀ᵐ ω ∂P, SolvesAdditive f S (fun t j => B (Fin.castAdd q j) t.toNNReal ω) x0 T (X ω)) →
      ∃ (A : ℝ) (N0 : ℕ), ∀ N ≥ N0, ∀ p, Adm N p → ∀ c : Ω → ℕ → Vec (m + q) × Vec (m + q),
        (∀ᵐ ω ∂P, ∀ k < N, SameEndAndArea (fun t => Foster.evalParabola t (T / N) (c ω k).1 (c ω k).2) (fun t j => B j t.toNNReal ω)
          (k * (T / N)) (T / N)) →
        ∀ Y : ℕ → Ω → Vec d, (∀ ω, Y 0 ω = x0) → (∀ k < N, ∀ ω, Y (k + 1) ω = J N p k (Y k ω) (firstV (c ω k).1) (firstV (c ω k).2)
          ((1 / Real.sqrt (T / N)) • lastV (c ω k).1)) →
        ∀ n ≤ N, P {ω | A * (T / N) < ‖X ω (n * (T / N)) - Y n ω‖} ≤ ENNReal.ofReal (ε / 2)) :
    ∃ (A : ℝ) (N0 : ℕ), ∀ {Ω : Type} [MeasurableSpace Ω] {Q : Measure Ω} {R : Ω → Rng}, IdealNormals Q R → ∀ N ≥ N0, ∀ p, Adm N p →
      ∀ r : ℕ, 0 < r → ∀ (key : Key) (odeInt : Ω → OdeInt (Vec d) d),
      (∀ ω κ x, ∀ k < N, ∀ a b, odeInt ω κ x (additiveField f S (k * (T / N)) (T / N) a b) (T / N) = J N p k x a b ((R ω).normalVec κ q)) →
      ∀ n ≤ N, ∃ y z : Ω → Vec d,
        (∀ ω, ∃ ts traj traj2, ramSolver (R ω) key f (fun _ _ => S) x0 x0 (T / N) N r (odeInt ω) = .ok (ts, traj, traj2) ∧
          ts[n]? = some (n * (T / N)) ∧ traj[n]? = some (y ω) ∧ traj2[n]? = some (z ω)) ∧
        Q {ω | A * (T / N) < ‖y ω - z ω‖} ≤ ENNReal.ofReal ε := by
  obtain ⟨A, N0, hA⟩ := measured_prob_state hf hT S x0 hsol hε x0 (ρ := id) measurable_id (Adm := Adm) (J := J) hJ hprob
  refine ⟨A, N0, ?_⟩
  intro Ω _ Q R hR N hN p hp r hr key odeInt hint n hn
  obtain ⟨y, z, h1, -, -, h2⟩ := hA hR N hN p hp r hr key x0 id (fun _ _ => True) odeInt rfl trivial
    (fun ω κ x k hk _ a b => ⟨trivial, hint ω κ x k hk a b⟩) n hn
  exact ⟨y, z, h1, h2⟩

end Verif
