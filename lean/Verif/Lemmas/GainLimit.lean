import Verif.Lemmas.GainStep

/-! The joint law of the two trajectories of the low-memory solver when the integrator lets through the second coefficient of the parabola. -/

namespace Verif

open Matrix Spec Jnp Set MeasureTheory ProbabilityTheory Scripts Filter
open scoped NNReal ENNReal

variable {d m q : ℕ}

/-- Schemes driven by inputs with the same law have the same law. -/
theorem schemeE_identDistrib {Ω Ω' E ι : Type*} [MeasurableSpace Ω] [MeasurableSpace Ω'] [MeasurableSpace E] {P : Measure Ω} {P' : Measure Ω'}
    {u : Ω → ι → ℝ} {u' : Ω' → ι → ℝ} (hid : IdentDistrib u u' P P') {N : ℕ} {Ψ : ℕ → E → (ι → ℝ) → E}
    (hΨ : ∀ k < N, Measurable fun p : E × (ι → ℝ) => Ψ k p.1 p.2) {e0 : E} {y : ℕ → Ω → E} {y' : ℕ → Ω' → E} (hy0 : ∀ ω, y 0 ω = e0)
    (hy0' : ∀ ω, y' 0 ω = e0) (hy : ∀ k < N, ∀ ω, y (k + 1) ω = Ψ k (y k ω) (u ω)) (hy' : ∀ k < N, ∀ ω, y' (k + 1) ω = Ψ k (y' k ω) (u' ω)) :
    ∀ n ≤ N, IdentDistrib (y n) (y' n) P P' := by
  obtain ⟨F, hF, h⟩ := exists_scheme_map (N := N) (Ψ := fun k y z => if k < N then Ψ k y z else y) (fun k => by
    by_cases hk : k < N
    · simpa only [hk, if_true] using hΨ k hk
    · simpa only [hk, if_false] using measurable_fst) e0
  intro n hn
  have e1 : y n = F n ∘ u := funext fun ω => h (fun k => y k ω) (u ω) (hy0 ω) (fun k hk => by rw [hy k hk, if_pos hk]) n hn
  have e2 : y' n = F n ∘ u' := funext fun ω => h (fun k => y' k ω) (u' ω) (hy0' ω) (fun k hk => by rw [hy' k hk, if_pos hk]) n hn
  rw [e1, e2]
  exact hid.comp (hF n)

/-- Increments of a Brownian motion with twice as many coordinates, laid out like the coefficients of parabolas. -/
theorem doubled_law {Ω : Type*} [MeasurableSpace Ω] {P : Measure Ω} {B : Fin (m + m) → ℝ≥0 → Ω → ℝ} (hB : IsBrownianVec B P) {δ : ℝ} (hδ : 0 < δ)
    (N : ℕ) : IsNormal P (fun ω (p : Fin N × Fin m × Fin 2) =>
      ![firstV (incs B δ p.1 ω) p.2.1, 1 / Real.sqrt 2 * lastV (incs B δ p.1 ω) p.2.1] p.2.2) 0 (diagonal fun p => ![δ, δ / 2] p.2.2) := by
  have hinj : Function.Injective fun p : Fin N × Fin m × Fin 2 => (p.1, ![Fin.castAdd m p.2.1, Fin.natAdd m p.2.1] p.2.2) := by
    rintro ⟨k, j, s⟩ ⟨k', j', s'⟩ h
    simp only [Prod.mk.injEq] at h
    obtain ⟨rfl, h⟩ := h
    fin_cases s <;> fin_cases s' <;> simp [Fin.ext_iff] at h ⊢ <;> omega
  have h := ((hB.inc_law hδ N).reindex (fun p : Fin N × Fin m × Fin 2 => (p.1, ![Fin.castAdd m p.2.1, Fin.natAdd m p.2.1] p.2.2))).affine 0
    (diagonal fun p => ![1, 1 / Real.sqrt 2] p.2.2)
  refine (congrArg₂ (fun (μ : Fin N × Fin m × Fin 2 → ℝ) C => IsNormal P _ μ C) ?_ ?_).mp (h.congr_ae (Eventually.of_forall fun ω => ?_))
  · funext p
    simp [mulVec_diagonal]
  · rw [submatrix_diagonal _ _ hinj, diagonal_transpose, diagonal_mul_diagonal, diagonal_mul_diagonal]
    congr 1
    funext ⟨k, j, s⟩
    have h2 := Real.mul_self_sqrt (by norm_num : (0 : ℝ) ≤ 2)
    fin_cases s
    · simp
    · simp only [Function.comp_def]
      simp
      field_simp
      linarith
  · funext ⟨k, j, s⟩
    fin_cases s <;> simp [mulVec_diagonal, firstV, lastV, incs]

theorem hcat_mulVec_split (S : Mat d m) (K : Mat d q) (v : Vec (m + q)) : KF.hcat S K *ᵥ v = S *ᵥ firstV v + K *ᵥ lastV v := by
  funext i
  simp only [mulVec, dotProduct, KF.hcat, firstV, lastV, Pi.add_apply]
  rw [Fin.sum_univ_add]
  simp

/-- Two Euler-Maruyama schemes side by side: one with the noise `S v₁ + K v₂`, one with the noise `S v₁`. -/
def pairEm (f : Field d) (S K : Mat d m) (x0 : Vec d) (δ : ℝ) (v : ℕ → Vec (m + m)) : ℕ → Vec d × Vec d
  | 0 => (x0, x0)
  | k + 1 => ((pairEm f S K x0 δ v k).1 + δ • f (pairEm f S K x0 δ v k).1 (k * δ) + KF.hcat S K *ᵥ v k,
      (pairEm f S K x0 δ v k).2 + δ • f (pairEm f S K x0 δ v k).2 (k * δ) + S *ᵥ firstV (v k))

/-- A scheme with steps `J` fed with the coefficients of parabolas, and Euler-Maruyama fed with the first coefficients. -/
noncomputable def pairRun (J : ℕ → Vec d → Vec m → Vec m → Vec q → Vec d) (f : Field d) (S : Mat d m) (x0 : Vec d) (δ : ℝ)
    (c : ℕ → Vec (m + q) × Vec (m + q)) : ℕ → Vec d × Vec d
  | 0 => (x0, x0)
  | k + 1 => (J k (pairRun J f S x0 δ c k).1 (firstV (c k).1) (firstV (c k).2) ((1 / Real.sqrt δ) • lastV (c k).1),
      (pairRun J f S x0 δ c k).2 + δ • f (pairRun J f S x0 δ c k).2 (k * δ) + S *ᵥ firstV (c k).1)

theorem pairEm_identDistrib {Ω Ω' : Type*} [MeasurableSpace Ω] [MeasurableSpace Ω'] {P : Measure Ω} {P' : Measure Ω'}
    {B : Fin (m + m) → ℝ≥0 → Ω → ℝ} {B' : Fin (m + m) → ℝ≥0 → Ω' → ℝ} (hB : IsBrownianVec B P) (hB' : IsBrownianVec B' P') {f : Field d}
    (hf : Continuous (Function.uncurry f)) (S K : Mat d m) (x0 : Vec d) {δ : ℝ} (hδ : 0 < δ) (N : ℕ) :
    IdentDistrib (fun ω => pairEm f S K x0 δ (fun k => incs B δ k ω) N) (fun ω => pairEm f S K x0 δ (fun k => incs B' δ k ω) N) P P' := by
  obtain ⟨Ψ, hΨ⟩ : ∃ Ψ : ℕ → Vec d × Vec d → (Fin N × Fin (m + m) → ℝ) → Vec d × Vec d, ∀ k p u, Ψ k p u =
      (p.1 + δ • f p.1 (k * δ) + KF.hcat S K *ᵥ (fun j => if h : k < N then u (⟨k, h⟩, j) else 0),
        p.2 + δ • f p.2 (k * δ) + S *ᵥ firstV (fun j => if h : k < N then u (⟨k, h⟩, j) else 0)) := ⟨_, fun _ _ _ => rfl⟩
  have hv : ∀ k, Continuous fun p : (Vec d × Vec d) × (Fin N × Fin (m + m) → ℝ) => (fun j => if h : k < N then p.2 (⟨k, h⟩, j) else 0 : Vec (m + m)) :=
    fun k => continuous_pi fun j => by
      by_cases hk : k < N
      · simp only [hk, dif_pos]
        exact (continuous_apply _).comp continuous_snd
      · simp only [hk, dif_neg, not_false_iff]
        exact continuous_const
  have hfc : ∀ k : ℕ, Continuous fun x : Vec d => f x (k * δ) := fun k => hf.comp (continuous_id.prodMk continuous_const)
  have h1 : Continuous fun v : Vec (m + m) => KF.hcat S K *ᵥ v := (Matrix.mulVecLin (KF.hcat S K)).continuous_of_finiteDimensional
  have h2 : Continuous fun v : Vec m => S *ᵥ v := (Matrix.mulVecLin S).continuous_of_finiteDimensional
  have hΨm : ∀ k < N, Measurable fun p : (Vec d × Vec d) × (Fin N × Fin (m + m) → ℝ) => Ψ k p.1 p.2 := fun k _ => by
    simp only [hΨ]
    have e1 : Continuous fun p : (Vec d × Vec d) × (Fin N × Fin (m + m) → ℝ) => p.1.1 := continuous_fst.comp continuous_fst
    have e2 : Continuous fun p : (Vec d × Vec d) × (Fin N × Fin (m + m) → ℝ) => p.1.2 := continuous_snd.comp continuous_fst
    exact (((e1.add (((hfc k).comp e1).const_smul δ)).add (h1.comp (hv k))).prodMk
      ((e2.add (((hfc k).comp e2).const_smul δ)).add (h2.comp (continuous_firstV.comp (hv k))))).measurable
  refine schemeE_identDistrib ((hB.inc_law hδ N).identDistrib (hB'.inc_law hδ N)) hΨm (e0 := (x0, x0))
    (y := fun k ω => pairEm f S K x0 δ (fun k => incs B δ k ω) k) (y' := fun k ω => pairEm f S K x0 δ (fun k => incs B' δ k ω) k)
    (fun _ => rfl) (fun _ => rfl) (fun k hk ω => ?_) (fun k hk ω => ?_) N le_rfl
  · rw [hΨ]
    simp only [hk, dif_pos]
    rfl
  · rw [hΨ]
    simp only [hk, dif_pos]
    rfl

theorem pairRun_identDistrib {Ω Ω' : Type*} [MeasurableSpace Ω] [MeasurableSpace Ω'] {P : Measure Ω} {P' : Measure Ω'} {δ : ℝ} {N : ℕ}
    {c : Ω → ℕ → Vec (m + q) × Vec (m + q)} {c' : Ω' → ℕ → Vec (m + q) × Vec (m + q)}
    (hc : IsNormal P (fun ω (p : Fin N × Fin (m + q) × Fin 2) => ![(c ω p.1).1 p.2.1, (c ω p.1).2 p.2.1] p.2.2) 0 (diagonal fun p => ![δ, δ / 2] p.2.2))
    (hc' : IsNormal P' (fun ω (p : Fin N × Fin (m + q) × Fin 2) => ![(c' ω p.1).1 p.2.1, (c' ω p.1).2 p.2.1] p.2.2) 0
      (diagonal fun p => ![δ, δ / 2] p.2.2)) {f : Field d}
    (hf : Continuous (Function.uncurry f)) (S : Mat d m) (x0 : Vec d) {J : ℕ → Vec d → Vec m → Vec m → Vec q → Vec d}
    (hJ : ∀ k < N, Measurable fun z : Vec d × Vec m × Vec m × Vec q => J k z.1 z.2.1 z.2.2.1 z.2.2.2) :
    IdentDistrib (fun ω => pairRun J f S x0 δ (c ω) N) (fun ω => pairRun J f S x0 δ (c' ω) N) P P' := by
  obtain ⟨A, hA⟩ : ∃ A : Fin 2 → ℕ → (Fin N × Fin (m + q) × Fin 2 → ℝ) → Vec (m + q), ∀ s k u, A s k u =
    fun j => if h : k < N then u (⟨k, h⟩, j, s) else 0 := ⟨_, fun _ _ _ => rfl⟩
  have hAc : ∀ s k, Continuous (A s k) := fun s k => continuous_pi fun j => by
    simp only [hA]
    by_cases hk : k < N
    · simp only [hk, dif_pos]
      exact continuous_apply _
    · simp only [hk, dif_neg, not_false_iff]
      exact continuous_const
  obtain ⟨Ψ, hΨ⟩ : ∃ Ψ : ℕ → Vec d × Vec d → (Fin N × Fin (m + q) × Fin 2 → ℝ) → Vec d × Vec d, ∀ k p u, Ψ k p u =
      (J k p.1 (firstV (A 0 k u)) (firstV (A 1 k u)) ((1 / Real.sqrt δ) • lastV (A 0 k u)), p.2 + δ • f p.2 (k * δ) + S *ᵥ firstV (A 0 k u)) :=
    ⟨_, fun _ _ _ => rfl⟩
  have hfc : ∀ k : ℕ, Continuous fun x : Vec d => f x (k * δ) := fun k => hf.comp (continuous_id.prodMk continuous_const)
  have h2 : Continuous fun v : Vec m => S *ᵥ v := (Matrix.mulVecLin S).continuous_of_finiteDimensional
  have hΨm : ∀ k < N, Measurable fun p : (Vec d × Vec d) × (Fin N × Fin (m + q) × Fin 2 → ℝ) => Ψ k p.1 p.2 := fun k hk => by
    simp only [hΨ]
    have e1 : Continuous fun p : (Vec d × Vec d) × (Fin N × Fin (m + q) × Fin 2 → ℝ) => p.1.1 := continuous_fst.comp continuous_fst
    have e2 : Continuous fun p : (Vec d × Vec d) × (Fin N × Fin (m + q) × Fin 2 → ℝ) => p.1.2 := continuous_snd.comp continuous_fst
    have a0 : Continuous fun p : (Vec d × Vec d) × (Fin N × Fin (m + q) × Fin 2 → ℝ) => A 0 k p.2 := (hAc 0 k).comp continuous_snd
    have a1 : Continuous fun p : (Vec d × Vec d) × (Fin N × Fin (m + q) × Fin 2 → ℝ) => A 1 k p.2 := (hAc 1 k).comp continuous_snd
    refine Measurable.prodMk ?_ ((e2.add (((hfc k).comp e2).const_smul δ)).add (h2.comp (continuous_firstV.comp a0))).measurable
    exact (hJ k hk).comp (e1.prodMk ((continuous_firstV.comp a0).prodMk ((continuous_firstV.comp a1).prodMk
      ((continuous_lastV.comp a0).const_smul (1 / Real.sqrt δ))))).measurable
  refine schemeE_identDistrib (hc.identDistrib hc') hΨm (e0 := (x0, x0))
    (y := fun k ω => pairRun J f S x0 δ (c ω) k) (y' := fun k ω => pairRun J f S x0 δ (c' ω) k)
    (fun _ => rfl) (fun _ => rfl) (fun k hk ω => ?_) (fun k hk ω => ?_) N le_rfl
  · rw [hΨ, hA, hA]
    simp only [hk, dif_pos]
    rfl
  · rw [hΨ, hA, hA]
    simp only [hk, dif_pos]
    rfl

/-- Euler-Maruyama fed with the increments of the Brownian motion converges in probability. -/
theorem em_close {Ω : Type*} [MeasurableSpace Ω] {P : Measure Ω} {B : Fin m → ℝ≥0 → Ω → ℝ} (hB : IsBrownianVec B P) {f : Field d}
    (hf : ContDiff ℝ 2 (Function.uncurry f)) {T : ℝ} (hT : 0 < T) (S : Mat d m)
    (x0 : Vec d) {X : Ω → ℝ → Vec d} (hX : ∀ᵐ ω ∂P, SolvesAdditive f S (fun t j => B j t.toNNReal ω) x0 T (X ω))
    {ε η : ℝ} (hε : 0 < ε) (hη : 0 < η) :
    ∃ N0 : ℕ, ∀ N ≥ N0, ∀ Y : ℕ → Ω → Vec d, (∀ ω, Y 0 ω = x0) →
      (∀ ω, ∀ k < N, Y (k + 1) ω = Y k ω + (T / N) • f (Y k ω) (k * (T / N)) + S *ᵥ incs B (T / N) k ω) → 
      P {ω | η < ‖X ω T - Y N ω‖} ≤ ENNReal.ofReal ε := by
  obtain ⟨N0, h⟩ := scheme_prob hB hf hT S x0 hX (C := fun _ => 0) (fun _ => le_rfl) hε hη
  refine ⟨N0 + 1, fun N hN Y hY0 hY => (measure_mono fun ω hω => ?_).trans (h N (by omega) Y hY0 fun ω ρ k hk _ _ => ?_)⟩
  · have hN' : (N : ℝ) ≠ 0 := by exact_mod_cast (by omega : N ≠ 0)
    refine ⟨N, le_rfl, ?_⟩
    rw [mul_div_cancel₀ _ hN']
    exact hω
  · rw [hY ω k hk, sub_self, norm_zero, zero_mul]

/-- The coordinates of the doubled noise that act on the state. -/
def keepCoords (m q : ℕ) : Fin (m + m) → Fin ((m + q) + (m + q)) :=
  Fin.append (fun j => Fin.castAdd (m + q) (Fin.castAdd q j)) (fun j => Fin.natAdd (m + q) (Fin.castAdd q j))

theorem keepCoords_injective (m q : ℕ) : Function.Injective (keepCoords m q) := by
  intro a b
  refine Fin.addCases (fun i => ?_) (fun i => ?_) a <;> refine Fin.addCases (fun j => ?_) (fun j => ?_) b <;>
    simp only [keepCoords, Fin.append_left, Fin.append_right, Fin.ext_iff, Fin.val_castAdd, Fin.val_natAdd] <;> omega

theorem wide_mulVec (S K : Mat d m) (v : Vec ((m + q) + (m + q))) :
    KF.hcat (KF.hcat S (0 : Mat d q)) (KF.hcat K (0 : Mat d q)) *ᵥ v = KF.hcat S K *ᵥ fun j => v (keepCoords m q j) := by
  rw [hcat_mulVec_split, hcat_mulVec, hcat_mulVec, hcat_mulVec_split]
  congr 2 <;> funext j <;> simp only [firstV, lastV, keepCoords, Fin.append_left, Fin.append_right]

theorem union_small {Ω : Type*} [MeasurableSpace Ω] {M : Measure Ω} {s t : Set Ω} {e : ℝ} (he0 : 0 ≤ e) (hs : M s ≤ ENNReal.ofReal e)
    (ht : M t ≤ ENNReal.ofReal e) : M (s ∪ t) ≤ ENNReal.ofReal (2 * e) := by
  refine (measure_union_le _ _).trans ((add_le_add hs ht).trans (le_of_eq ?_))
  rw [← ENNReal.ofReal_add he0 he0, two_mul]

set_option maxHeartbeats 2000000 in
/-- The joint law at the end of the two trajectories of the low-memory solver, when a step of the integrator is one of Euler-Maruyama with the
noise `S a + √2 K b`, up to a small remainder (`a` and `b` being the coefficients of the parabola): it converges to the joint law of the
solutions of the equations with the diffusion matrices `[S K]` and `[S 0]`. -/
theorem gain_limit {f : Field d} (hf : ContDiff ℝ 2 (Function.uncurry f)) {T : ℝ} (hT : 0 < T) (S K : Mat d m) (x0 : Vec d)
    (hsol : ∀ w : ℝ → Vec m, Continuous w → ∃ x, SolvesAdditive f S w x0 T x)
    (hsolK : ∀ w : ℝ → Vec (m + m), Continuous w → ∃ x, SolvesAdditive f (KF.hcat S K) w x0 T x)
    {Ω' : Type*} [MeasurableSpace Ω'] {P' : Measure Ω'} {W : Fin (m + m) → ℝ≥0 → Ω' → ℝ} (hW : IsBrownianVec W P')
    {X X' : Ω' → ℝ → Vec d} (hX : ∀ᵐ ω ∂P', SolvesAdditive f S (fun t j => W (Fin.castAdd m j) t.toNNReal ω) x0 T (X ω))
    (hX' : ∀ᵐ ω ∂P', SolvesAdditive f (KF.hcat S K) (fun t j => W j t.toNNReal ω) x0 T (X' ω))
    {ι : Type*} {Adm : ℕ → ι → Prop} {J : ℕ → ι → ℕ → Vec d → Vec m → Vec m → Vec q → Vec d} {C : ℝ → ℝ} (hC : ∀ ρ, 0 ≤ C ρ)
    (hJ : ∀ N p, Adm N p → ∀ k < N, Measurable fun z : Vec d × Vec m × Vec m × Vec q => J N p k z.1 z.2.1 z.2.2.1 z.2.2.2)
    (hstep : ∀ N p, Adm N p → ∀ k < N, ∀ ρ y a b ξ, ‖y‖ ≤ ρ → ‖a‖ ≤ 1 → ‖b‖ ≤ 1 →
      ‖J N p k y a b ξ - (y + (T / N) • f y (k * (T / N)) + S *ᵥ a + Real.sqrt 2 • (K *ᵥ b))‖ ≤
        C ρ * (T / N * (T / N + ‖a‖ + ‖b‖ + Real.sqrt (T / N) * ‖ξ‖))) {ε : ℝ} (hε : 0 < ε) :
    ∃ N0 : ℕ, ∀ {Ω : Type} [MeasurableSpace Ω] {Q : Measure Ω} {R : Ω → Rng}, IdealNormals Q R → ∀ N ≥ N0, ∀ p, Adm N p →
      ∀ r : ℕ, 0 < r → ∀ (key : Key) (odeInt : Ω → OdeInt (Vec d) d),
      (∀ ω κ x, ∀ k < N, ∀ a b, odeInt ω κ x (additiveField f S (k * (T / N)) (T / N) a b) (T / N) = J N p k x a b ((R ω).normalVec κ q)) →
      ∃ y z : Ω → Vec d,
        (∀ ω, ∃ ts traj traj2, ramSolver (R ω) key f (fun _ _ => S) x0 x0 (T / N) N r (odeInt ω) = .ok (ts, traj, traj2) ∧
          ts[N]? = some T ∧ traj[N]? = some (y ω) ∧ traj2[N]? = some (z ω)) ∧
        AEMeasurable (fun ω => (y ω, z ω)) Q ∧
        ∀ g : Vec d × Vec d → ℝ, LipschitzWith 1 g → (∀ x, |g x| ≤ 1) →
          |∫ ω, g (y ω, z ω) ∂Q - ∫ ω, g (X' ω T, X ω T) ∂P'| ≤ ε := by
  haveI := hW.isProb
  obtain ⟨e, he⟩ : ∃ e, e = ε / 20 := ⟨_, rfl⟩
  have he0 : 0 < e := by rw [he]; positivity
  -- the Brownian motion of the run
  obtain ⟨B, hB⟩ := Levy.exists_brownianVec (m + q)
  obtain ⟨P1, hP1⟩ : ∃ P : Measure (Fin (m + q) → ℕ × ℕ → ℝ), P = Measure.pi fun _ => Levy.noise := ⟨_, rfl⟩
  rw [← hP1] at hB
  haveI := hB.isProb
  have hB1 := hB.comp_inj (Fin.castAdd_injective m q)
  obtain ⟨X1, hX1⟩ := hB1.exists_solution_of_paths hsol
  obtain ⟨A, N1, h1⟩ := C103_em hB1 hf hT S x0 hX1 he0
  obtain ⟨N2, h2⟩ := em_close hB1 hf hT S x0 hX1 he0 he0
  -- the doubled Brownian motion
  obtain ⟨D, hD⟩ := Levy.exists_brownianVec ((m + q) + (m + q))
  obtain ⟨P3, hP3⟩ : ∃ P : Measure (Fin ((m + q) + (m + q)) → ℕ × ℕ → ℝ), P = Measure.pi fun _ => Levy.noise := ⟨_, rfl⟩
  rw [← hP3] at hD
  haveI := hD.isProb
  have hD1 := hD.comp_inj (keepCoords_injective m q)
  obtain ⟨X3, hX3⟩ := hD1.exists_solution_of_paths hsolK
  have hX3' : ∀ᵐ ω ∂P3, SolvesAdditive f (KF.hcat (KF.hcat S (0 : Mat d q)) (KF.hcat K (0 : Mat d q))) (fun t j => D j t.toNNReal ω) x0 T (X3 ω) := by
    filter_upwards [hX3] with ω h
    refine ⟨h.cont, fun t ht => ?_⟩
    rw [wide_mulVec]
    exact h.eq t ht
  obtain ⟨N3, h3⟩ := scheme_prob hD hf hT _ x0 hX3' (C := fun ρ => 3 * C ρ) (fun ρ => by linarith [hC ρ]) he0 he0
  obtain ⟨N4, h4⟩ := em_close hD1 hf hT _ x0 hX3 he0 he0
  -- the given Brownian motion
  obtain ⟨N5, h5⟩ := em_close hW hf hT _ x0 hX' he0 he0
  obtain ⟨N6, h6⟩ := em_close (hW.comp_inj (Fin.castAdd_injective m m)) hf hT S x0 hX he0 he0
  obtain ⟨N7, h7⟩ := exists_small_step |A| hT he0
  refine ⟨N1 + N2 + N3 + N4 + N5 + N6 + N7 + 1, ?_⟩
  intro Ω _ Q R hR N hN p hp r hr key odeInt hint
  have hN0 : 0 < N := by omega
  have hN' : (0 : ℝ) < N := by exact_mod_cast hN0
  have hr' : (1 : ℝ) ≤ r := by exact_mod_cast hr
  obtain ⟨z0, hz1, hz2⟩ := h1 (N * r) (le_trans (by omega) (Nat.le_mul_of_pos_right N hr)) (N * r) le_rfl
  replace h2 := h2 N (by omega)
  replace h3 := h3 N (by omega)
  replace h4 := h4 N (by omega)
  replace h5 := h5 N (by omega)
  replace h6 := h6 N (by omega)
  replace h7 := h7 N (by omega) hN0
  replace hstep := hstep N p hp
  replace hJ := hJ N p hp
  obtain ⟨δ, hδdef⟩ : ∃ δ, δ = T / N := ⟨_, rfl⟩
  obtain ⟨η, hη⟩ : ∃ η, η = δ / r := ⟨_, rfl⟩
  have hηT : T / (N * r : ℕ) = η := by rw [hη, hδdef]; push_cast; field_simp
  have hδ : 0 < δ := by rw [hδdef]; positivity
  have hη0 : 0 < η := by rw [hη]; positivity
  have hηδ : η ≤ δ := by rw [hη]; exact div_le_self hδ.le hr'
  have et : ((N * r : ℕ) : ℝ) * η = T := by rw [← hηT]; field_simp
  have eT : (N : ℝ) * δ = T := by rw [hδdef]; field_simp
  rw [hηT] at hz1 hz2
  rw [et] at hz2
  rw [← hδdef] at hint h2 h3 h4 h5 h6 h7 hstep ⊢
  obtain ⟨c0, hm, htr⟩ := ram_transfer_state hB hf.continuous S x0 hR hδ hr hη key x0 (id : Vec d → Vec d) (fun _ _ => True) trivial odeInt hJ
    (fun ω κ x k hk _ a b => ⟨trivial, hint ω κ x k hk a b⟩) (le_refl N)
  obtain ⟨y, z, hyz, -, -, hid⟩ := htr (fun k ω => (pairRun (J N p) f S x0 δ (c0 ω) k).1) z0 (fun _ => rfl) (fun _ _ _ => rfl) hz1
  refine ⟨y, z, fun ω => ?_, hid.aemeasurable_snd, fun g hg hgb => ?_⟩
  · obtain ⟨ts, t1, t2, e1, e2, e3, e4⟩ := hyz ω
    exact ⟨ts, t1, t2, e1, by rw [e2, eT], e3, e4⟩
  haveI : IsProbabilityMeasure Q := (hR.law [] [1] 0 one_pos).isProbabilityMeasure
  have hgm := hg.continuous.measurable
  have h2s := Real.mul_self_sqrt (by norm_num : (0 : ℝ) ≤ 2)
  have h2p : 0 < Real.sqrt 2 := by positivity
  have hsδ : 0 < Real.sqrt δ := Real.sqrt_pos.mpr hδ
  -- the parabolas of the doubled Brownian motion
  obtain ⟨c3, hc3⟩ : ∃ c3 : (Fin ((m + q) + (m + q)) → ℕ × ℕ → ℝ) → ℕ → Vec (m + q) × Vec (m + q), ∀ ω k, c3 ω k =
    (firstV (incs D δ k ω), (1 / Real.sqrt 2) • lastV (incs D δ k ω)) := ⟨_, fun _ _ => rfl⟩
  have hl1 := C91_matched_law hB hδ N (fun ω k => (c0 ω k).1) (fun ω k => (c0 ω k).2) hm
  have hl3 : IsNormal P3 (fun ω (p : Fin N × Fin (m + q) × Fin 2) => ![(c3 ω p.1).1 p.2.1, (c3 ω p.1).2 p.2.1] p.2.2) 0
      (diagonal fun p => ![δ, δ / 2] p.2.2) := by
    simp only [hc3]
    exact doubled_law hD hδ N
  have id13 := pairRun_identDistrib hl1 hl3 hf.continuous S x0 hJ
  have id3W := pairEm_identDistrib hD1 hW hf.continuous S K x0 hδ N
  -- the run
  have i1 : ∫ ω, g (y ω, z ω) ∂Q = ∫ ω, g ((pairRun (J N p) f S x0 δ (c0 ω) N).1, z0 ω) ∂P1 := (hid.comp hgm).integral_eq.symm
  have i2 : ∫ ω, g (pairRun (J N p) f S x0 δ (c0 ω) N) ∂P1 = ∫ ω, g (pairRun (J N p) f S x0 δ (c3 ω) N) ∂P3 := (id13.comp hgm).integral_eq
  have i3 : ∫ ω, g (pairEm f S K x0 δ (fun k => incs (fun j => D (keepCoords m q j)) δ k ω) N) ∂P3 =
    ∫ ω, g (pairEm f S K x0 δ (fun k => incs W δ k ω) N) ∂P' := (id3W.comp hgm).integral_eq
  -- the two Euler-Maruyama schemes of the run
  have j1 : |∫ ω, g ((pairRun (J N p) f S x0 δ (c0 ω) N).1, z0 ω) ∂P1 - ∫ ω, g (pairRun (J N p) f S x0 δ (c0 ω) N) ∂P1| ≤ 2 * e + 2 * (2 * e) := by
    refine weak_of_prob hid.aemeasurable_fst id13.aemeasurable_fst (by positivity) (by positivity) ?_ hg hgb
    obtain ⟨Z, hZ⟩ : ∃ Z : ℕ → (Fin (m + q) → ℕ × ℕ → ℝ) → Vec d, ∀ k ω, Z k ω =
      (pairRun (J N p) f S x0 δ (fun k => (incs B δ k ω, 0)) k).2 := ⟨_, fun _ _ => rfl⟩
    have hZ2 := h2 Z (fun ω => by rw [hZ]; rfl) (fun ω k _ => by rw [hZ, hZ]; rfl)
    have hae : ∀ᵐ ω ∂P1, (pairRun (J N p) f S x0 δ (c0 ω) N).2 = Z N ω := by
      filter_upwards [hm] with ω hω
      have hc : ∀ k < N, (c0 ω k).1 = incs B δ k ω := fun k hk => by
        have e1 := (hω k hk).atEnd
        rw [evalParabola_end hδ.ne'] at e1
        rw [e1]
        funext j
        have e2 : ((k + 1 : ℕ) : ℝ) * δ = k * δ + δ := by push_cast; ring
        simp only [incs, e2, Pi.sub_apply]
      have : ∀ n ≤ N, (pairRun (J N p) f S x0 δ (c0 ω) n).2 = Z n ω := by
        intro n
        induction n with
        | zero => intro _; rw [hZ]; rfl
        | succ n ih =>
          intro hn
          have e1 : Z (n + 1) ω = Z n ω + δ • f (Z n ω) (n * δ) + S *ᵥ firstV (incs B δ n ω) := by rw [hZ, hZ]; rfl
          rw [e1, ← ih (by omega), ← hc n hn]
          rfl
      exact this N le_rfl
    have hle : {ω | 2 * e < ‖((pairRun (J N p) f S x0 δ (c0 ω) N).1, z0 ω) - pairRun (J N p) f S x0 δ (c0 ω) N‖} ≤ᵐ[P1]
        ({ω | A * η < ‖X1 ω T - z0 ω‖} ∪ {ω | e < ‖X1 ω T - Z N ω‖} : Set _) := by
      filter_upwards [hae] with ω hω hlt
      change 2 * e < _ at hlt
      change A * η < _ ∨ e < _
      by_contra hcon
      push Not at hcon
      rw [Prod.norm_def, lt_max_iff] at hlt
      simp only [Prod.fst_sub, sub_self, norm_zero, Prod.snd_sub, hω] at hlt
      have hAη : A * η ≤ e := (mul_le_mul_of_nonneg_right (le_abs_self A) hη0.le).trans
        ((mul_le_mul_of_nonneg_left hηδ (abs_nonneg A)).trans ((mul_comm _ _).trans_le h7))
      have h8 : ‖z0 ω - Z N ω‖ ≤ ‖X1 ω T - z0 ω‖ + ‖X1 ω T - Z N ω‖ := by
        rw [norm_sub_rev (X1 ω T) (z0 ω)]
        refine le_trans (le_of_eq ?_) (norm_add_le _ _)
        rw [sub_add_sub_cancel]
      rcases hlt with hlt | hlt
      · linarith
      · linarith [hcon.1, hcon.2]
    exact (measure_mono_ae hle).trans (union_small he0.le hz2 hZ2)
  -- the steps of the integrator
  have j2 : |∫ ω, g (pairRun (J N p) f S x0 δ (c3 ω) N) ∂P3 -
      ∫ ω, g (pairEm f S K x0 δ (fun k => incs (fun j => D (keepCoords m q j)) δ k ω) N) ∂P3| ≤ 2 * e + 2 * (2 * e) := by
    refine weak_of_prob id13.aemeasurable_snd id3W.aemeasurable_fst (by positivity) (by positivity) ?_ hg hgb
    have hz : ∀ ω n, (pairRun (J N p) f S x0 δ (c3 ω) n).2 = (pairEm f S K x0 δ (fun k => incs (fun j => D (keepCoords m q j)) δ k ω) n).2 := by
      intro ω n
      induction n with
      | zero => rfl
      | succ n ih =>
        simp only [pairRun, pairEm]
        rw [ih, hc3]
        congr 2
        funext j
        simp only [firstV, incs, keepCoords, Fin.append_left]
    have q1 := h3 (fun k ω => (pairRun (J N p) f S x0 δ (c3 ω) k).1) (fun _ => rfl) (fun ω ρ k hk hρ hi => by
      have ha := (norm_firstV_le (firstV (incs D δ k ω))).trans (norm_firstV_le _)
      have hb0 := (norm_firstV_le (lastV (incs D δ k ω))).trans (norm_lastV_le _)
      have hl0 := (norm_lastV_le (firstV (incs D δ k ω))).trans (norm_firstV_le _)
      have hb1 : firstV ((1 / Real.sqrt 2) • lastV (incs D δ k ω)) = (1 / Real.sqrt 2) • firstV (lastV (incs D δ k ω)) := rfl
      have hs2 : 1 / Real.sqrt 2 ≤ 1 := by
        rw [div_le_one h2p]
        exact Real.one_le_sqrt.mpr (by norm_num)
      have hb : ‖firstV ((1 / Real.sqrt 2) • lastV (incs D δ k ω))‖ ≤ ‖incs D δ k ω‖ := by
        rw [hb1, norm_smul, Real.norm_eq_abs, abs_of_pos (by positivity)]
        exact (mul_le_of_le_one_left (norm_nonneg _) hs2).trans hb0
      have hx : Real.sqrt δ * ‖(1 / Real.sqrt δ) • lastV (firstV (incs D δ k ω))‖ ≤ ‖incs D δ k ω‖ := by
        rw [norm_smul, Real.norm_eq_abs, abs_of_pos (by positivity), ← mul_assoc, mul_one_div_cancel hsδ.ne', one_mul]
        exact hl0
      have h8 := hstep k hk ρ _ (firstV (firstV (incs D δ k ω))) (firstV ((1 / Real.sqrt 2) • lastV (incs D δ k ω)))
        ((1 / Real.sqrt δ) • lastV (firstV (incs D δ k ω))) hρ (ha.trans hi) (hb.trans hi)
      rw [hcat_mulVec_split, hcat_mulVec, hcat_mulVec, ← add_assoc]
      rw [hb1, mulVec_smul, smul_smul, mul_one_div_cancel h2p.ne', one_smul, ← hb1] at h8
      simp only [pairRun, hc3] at h8 ⊢
      refine h8.trans ?_
      rw [mul_comm 3, mul_assoc]
      refine mul_le_mul_of_nonneg_left ?_ (hC ρ)
      rw [mul_left_comm]
      refine mul_le_mul_of_nonneg_left ?_ hδ.le
      linarith)
    have q2 := h4 (fun k ω => (pairEm f S K x0 δ (fun k => incs (fun j => D (keepCoords m q j)) δ k ω) k).1) (fun _ => rfl) (fun _ _ _ => rfl)
    refine (measure_mono fun ω hω => ?_).trans (union_small he0.le q1 q2)
    rw [mem_setOf_eq, Prod.norm_def, lt_max_iff, Prod.fst_sub, Prod.snd_sub, hz, sub_self, norm_zero] at hω
    change (∃ n ≤ N, e < _) ∨ e < _
    by_contra hcon
    push Not at hcon
    have h9 := hcon.1 N le_rfl
    rw [eT] at h9
    rcases hω with hω | hω
    · have h8 := norm_sub_le (X3 ω T - (pairEm f S K x0 δ (fun k => incs (fun j => D (keepCoords m q j)) δ k ω) N).1)
        (X3 ω T - (pairRun (J N p) f S x0 δ (c3 ω) N).1)
      rw [sub_sub_sub_cancel_left] at h8
      linarith [hcon.2]
    · linarith
  -- the limit
  have j3 : |∫ ω, g (pairEm f S K x0 δ (fun k => incs W δ k ω) N) ∂P' - ∫ ω, g (X' ω T, X ω T) ∂P'| ≤ e + 2 * (2 * e) := by
    refine weak_of_prob id3W.aemeasurable_snd ((solution_aemeasurable hW hf hT _ x0 hX' ⟨hT.le, le_rfl⟩).prodMk
      (solution_aemeasurable (hW.comp_inj (Fin.castAdd_injective m m)) hf hT S x0 hX ⟨hT.le, le_rfl⟩)) he0.le (by positivity) ?_ hg hgb
    have q1 := h5 (fun k ω => (pairEm f S K x0 δ (fun k => incs W δ k ω) k).1) (fun _ => rfl) (fun _ _ _ => rfl)
    have q2 := h6 (fun k ω => (pairEm f S K x0 δ (fun k => incs W δ k ω) k).2) (fun _ => rfl) (fun _ _ _ => rfl)
    refine (measure_mono fun ω hω => ?_).trans (union_small he0.le q1 q2)
    rw [mem_setOf_eq, Prod.norm_def, lt_max_iff, Prod.fst_sub, Prod.snd_sub, norm_sub_rev, norm_sub_rev (Prod.snd _)] at hω
    exact hω
  rw [i1]
  rw [i2] at j1
  rw [i3] at j2
  have t1 := abs_sub_le (∫ ω, g ((pairRun (J N p) f S x0 δ (c0 ω) N).1, z0 ω) ∂P1) (∫ ω, g (pairRun (J N p) f S x0 δ (c3 ω) N) ∂P3)
    (∫ ω, g (X' ω T, X ω T) ∂P')
  have t2 := abs_sub_le (∫ ω, g (pairRun (J N p) f S x0 δ (c3 ω) N) ∂P3) (∫ ω, g (pairEm f S K x0 δ (fun k => incs W δ k ω) N) ∂P')
    (∫ ω, g (X' ω T, X ω T) ∂P')
  linarith

end Verif
