import Verif.Lemmas.NoiseSum
import Verif.Props.EkfRun
import Verif.Props.WeakEkf

/-!
# Property C96: drawing from the filter instead of taking its mean
-/

namespace Verif

open Matrix Spec Jnp Set MeasureTheory ProbabilityTheory Filter
open scoped NNReal Topology

variable {d m : ℕ}

/-- Some coordinates of a normal vector with diagonal covariance are independent of others. -/
theorem Spec.IsNormal.indep_coords {Ω : Type*} [MeasurableSpace Ω] {P : Measure Ω} {ι κ τ : Type*} [Fintype ι] [DecidableEq ι]
    [Fintype κ] [DecidableEq κ] [Fintype τ] [DecidableEq τ] {X : Ω → ι → ℝ} {D : ι → ℝ} (h : IsNormal P X 0 (diagonal D)) (e : κ → ι)
    (g : τ → ι) (hd : ∀ a b, e a ≠ g b) : IndepFun (fun ω a => X ω (e a)) (fun ω b => X ω (g b)) P := by
  have h1 := h.reindex (Sum.elim e g)
  have e1 : (fun ω (k : κ ⊕ τ) => X ω (Sum.elim e g k)) = fun ω => Sum.elim (fun a => X ω (e a)) fun b => X ω (g b) := by
    funext ω k; rcases k with k | k <;> rfl
  have e2 : (fun k : κ ⊕ τ => (0 : ι → ℝ) (Sum.elim e g k)) = Sum.elim (0 : κ → ℝ) (0 : τ → ℝ) := by
    funext k; rcases k with k | k <;> rfl
  have e3 : (diagonal D).submatrix (Sum.elim e g) (Sum.elim e g) =
      fromBlocks ((diagonal D).submatrix e e) 0 0 ((diagonal D).submatrix g g) := by
    ext i j
    rcases i with i | i <;> rcases j with j | j
    · rfl
    · simp [diagonal_apply_ne _ (hd i j)]
    · simp [diagonal_apply_ne _ (hd j i).symm]
    · rfl
  rw [e1, e2, e3] at h1
  exact h1.indep_of_fromBlocks.1

set_option maxHeartbeats 1000000 in
/-- C96: with an ideal generator and additive noise, the run of `sde_solver` in which EKF0 draws from its posterior stays close
to the run in which it returns the mean, on the same draws of the Brownian coefficients: the mean square distance at every grid
point is at most `A (σ δ / M)²`. -/
theorem C96_draws {la : LinAlg} (hla : la.Correct) (hd : 0 < d) {f : Field d} {T L : ℝ} (hT : 0 < T)
    (hf : Continuous (Function.uncurry f)) (hL : 0 ≤ L) (hlip : ∀ x y, ∀ t ∈ Icc 0 T, ‖f x t - f y t‖ ≤ L * ‖x - y‖) (S : Mat d m)
    (x0 : Vec d) :
    ∃ A : ℝ, 0 ≤ A ∧ ∀ {Ω : Type} [MeasurableSpace Ω] {Q : Measure Ω} {R : Ω → Rng}, IdealNormals Q R → ∀ N : ℕ, 0 < N → ∀ M : ℕ, 0 < M →
      ∀ σ : ℝ, σ ≠ 0 → ∀ (sqrt : Bool) (key : Key) (odeMean : OdeInt (Vec d) d) (odeDraw : Ω → OdeInt (Vec d) d),
      (∀ ω k x vf, Ekf.ekf0 la (R ω) none x vf (T / N / M) M sqrt
        (some ⟨_, IOUP.transition 0 σ 1 (T / N / M) d⟩) none = .ok (odeMean k x vf (T / N))) →
      (∀ ω k x vf, Ekf.ekf0 la (R ω) (some k) x vf (T / N / M) M sqrt
        (some ⟨_, IOUP.transition 0 σ 1 (T / N / M) d⟩) none = .ok (odeDraw ω k x vf (T / N))) →
      ∀ n ≤ N, ∃ y z : Ω → Vec d,
        (∀ ω, (sdeSolver (R ω) key f (fun _ _ => S) x0 (Foster.getApprox m) (T / N) N odeMean).2.1[n]? = some (y ω)) ∧
        (∀ ω, (sdeSolver (R ω) key f (fun _ _ => S) x0 (Foster.getApprox m) (T / N) N (odeDraw ω)).2.1[n]? = some (z ω)) ∧
        AEMeasurable y Q ∧ AEMeasurable z Q ∧
        Integrable (fun ω => ‖z ω - y ω‖ ^ 2) Q ∧ ∫ ω, ‖z ω - y ω‖ ^ 2 ∂Q ≤ A * (σ * (T / N) / M) ^ 2 := by
  obtain ⟨C0, hC0⟩ : ∃ C0, C0 = L * Real.exp (3 * L / 2 * T) * (1 + L * T) := ⟨_, rfl⟩
  have hC0' : 0 ≤ C0 := by rw [hC0]; positivity
  refine ⟨T * d / 12 * Real.exp ((2 * d * C0 + d * C0 ^ 2 * T) * T), by positivity, ?_⟩
  intro Ω _ Q R hR N hN M hM σ hσ sqrt key odeMean odeDraw hmean hdraw n hn
  have hN' : (0 : ℝ) < N := by exact_mod_cast hN
  have hM' : (0 : ℝ) < M := by exact_mod_cast hM
  obtain ⟨δ, hδdef⟩ : ∃ δ, δ = T / N := ⟨_, rfl⟩
  rw [← hδdef] at hmean hdraw ⊢
  have hδ : 0 < δ := by rw [hδdef]; positivity
  have hNδ : (N : ℝ) * δ = T := by rw [hδdef]; field_simp
  have hkδ : ∀ k < N, (k : ℝ) * δ + δ ≤ T := fun k hk => by
    have : ((k + 1 : ℕ) : ℝ) * δ ≤ N * δ := mul_le_mul_of_nonneg_right (by exact_mod_cast hk) hδ.le
    rw [hNδ] at this
    push_cast at this
    linarith
  obtain ⟨η, c, hlaw, hrun⟩ := C82_noise hR hla key hd f (fun _ _ => S) x0 hδ N M hM hσ sqrt odeDraw hdraw
  have hP := hlaw.isProb
  choose y hy1 hy0 hys using fun ω => sdeSolver_states (R ω) key f (fun _ _ => S) x0 (Foster.getApprox m) δ N odeMean
  choose z hz1 hz0 hzs using fun ω => sdeSolver_states (R ω) key f (fun _ _ => S) x0 (Foster.getApprox m) δ N (odeDraw ω)
  obtain ⟨Φ, hΦ⟩ : ∃ Φ : ℕ → Ω → Vec d → Vec d, ∀ k ω x, Φ k ω x =
      (trapScheme (additiveField f S (k * δ) δ (c k ω).1 (c k ω).2) (δ / M) x M).1 := ⟨_, fun _ _ _ => rfl⟩
  have hfield : ∀ (c : Vec m × Vec m) (a0 : ℝ), intervalField f (fun _ _ => S) (Foster.getApprox m) δ c a0 =
      additiveField f S a0 δ c.1 c.2 := fun c a0 => rfl
  have hYstep : ∀ k < N, ∀ ω, y ω (k + 1) = Φ k ω (y ω k) := by
    intro k hk ω
    obtain ⟨c', h1, h2⟩ := hys ω k hk
    have h3 := (hrun ω k hk).1
    rw [sdeSolver_coeffs] at h1 h3
    have : c' = c k ω := Option.some.inj (h1.symm.trans h3)
    rw [h2, hΦ, this, hfield]
    exact Except.ok.inj ((hmean ω ((key.child N k).child 2 1) _ _).symm.trans
      (C43_trapezoidal hla (R ω) hd _ hσ (by positivity) (y ω k) M sqrt))
  have hZstep : ∀ k < N, ∀ ω, z ω (k + 1) = Φ k ω (z ω k) + η k ω := by
    intro k hk ω
    obtain ⟨-, x, h1, h2⟩ := hrun ω k hk
    have e1 : x = z ω k := Option.some.inj (h1.symm.trans (hz1 ω k hk.le))
    rw [hΦ, ← hfield, ← e1]
    exact Option.some.inj ((hz1 ω (k + 1) hk).symm.trans h2)
  -- the states are functions of the draws
  have hη : ∀ k < N, ∀ i, MemLp (fun ω => η k ω i) 2 Q ∧ ∫ ω, η k ω i ∂Q = 0 := fun k hk i =>
    ⟨hlaw.memLp (Sum.inl (⟨k, hk⟩, i)), hlaw.mean (Sum.inl (⟨k, hk⟩, i))⟩
  have hηv : ∀ k < N, ∫ ω, η k ω ⬝ᵥ η k ω ∂Q ≤ d * (σ ^ 2 * δ * (δ / M) ^ 2 / 12) := fun k hk => by
    have hii : ∀ i ∈ Finset.univ, Integrable (fun ω => η k ω i * η k ω i) Q := fun i _ => (hη k hk i).1.integrable_mul (hη k hk i).1
    simp only [dotProduct]
    rw [integral_finset_sum _ hii]
    have : ∀ i : Fin d, ∫ ω, η k ω i * η k ω i ∂Q = σ ^ 2 * δ * (δ / M) ^ 2 / 12 := fun i => by
      have h1 := hlaw.cov (Sum.inl (⟨k, hk⟩, i)) (Sum.inl (⟨k, hk⟩, i))
      rw [diagonal_apply_eq] at h1
      simp only [Sum.elim_inl] at h1
      rw [covariance_eq_sub (hη k hk i).1 (hη k hk i).1, (hη k hk i).2, mul_zero, sub_zero] at h1
      exact h1
    simp [this]
  -- the states before a step are functions of earlier draws and of the coefficients
  have hpast : ∀ k, ∀ hk : k < N, ∃ (W : Ω → (Fin k × Fin d) ⊕ (Fin N × Fin 2 × Fin m) → ℝ)
      (F G : ((Fin k × Fin d) ⊕ (Fin N × Fin 2 × Fin m) → ℝ) → Vec d), AEMeasurable W Q ∧ IndepFun W (η k) Q ∧ Measurable F ∧ Measurable G ∧
      ∀ ω, Φ k ω (y ω k) = F (W ω) ∧ Φ k ω (z ω k) = G (W ω) := by
    intro k hk
    obtain ⟨e, he⟩ : ∃ e : (Fin k × Fin d) ⊕ (Fin N × Fin 2 × Fin m) → (Fin N × Fin d) ⊕ (Fin N × Fin 2 × Fin m),
        e = Sum.elim (fun p => Sum.inl (⟨p.1, p.1.2.trans hk⟩, p.2)) Sum.inr := ⟨_, rfl⟩
    obtain ⟨V, hV⟩ : ∃ V : Ω → (Fin N × Fin d) ⊕ (Fin N × Fin 2 × Fin m) → ℝ, V = fun ω => Sum.elim (fun p : Fin N × Fin d => η p.1 ω p.2)
          (fun q : Fin N × Fin 2 × Fin m => coeffVec (c q.1 ω).1 (c q.1 ω).2 q.2) := ⟨_, rfl⟩
    rw [← hV] at hlaw
    have hind := hlaw.indep_coords e (fun i : Fin d => Sum.inl (⟨k, hk⟩, i)) (by
      rintro (a | a) b h
      · have h2 : (a.1 : ℕ) = k ∧ a.2 = b := by simpa [he] using h
        have := a.1.2
        omega
      · simp [he] at h)
    have hWη : ∀ ω, ∀ a : Fin k, ∀ i, V ω (e (Sum.inl (a, i))) = η a ω i := fun ω a i => by subst hV he; rfl
    have hWc : ∀ ω, ∀ q, V ω (e (Sum.inr q)) = coeffVec (c q.1 ω).1 (c q.1 ω).2 q.2 := fun ω q => by subst hV he; rfl
    have hVη : (fun ω i => V ω (Sum.inl (⟨k, hk⟩, i))) = η k := by funext ω i; subst hV; rfl
    rw [hVη] at hind
    obtain ⟨W, hW⟩ : ∃ W : Ω → (Fin k × Fin d) ⊕ (Fin N × Fin 2 × Fin m) → ℝ, W = fun ω a => V ω (e a) := ⟨_, rfl⟩
    rw [← hW] at hind
    have hWm : AEMeasurable W Q := by
      rw [hW]
      exact aemeasurable_pi_lambda _ fun a => (hlaw.memLp (e a)).1.aemeasurable
    -- one step
    have hone : ∀ n ≤ k, ∀ u : ((Fin k × Fin d) ⊕ (Fin N × Fin 2 × Fin m) → ℝ) → Vec d, Measurable u →
        ∃ v : ((Fin k × Fin d) ⊕ (Fin N × Fin 2 × Fin m) → ℝ) → Vec d, Measurable v ∧ ∀ ω, Φ n ω (u (W ω)) = v (W ω) := by
      intro n hn u hu
      have hnN : n < N := by omega
      obtain ⟨F, hFm, hF⟩ : ∃ F : Vec d × Vec m × Vec m → Vec d, Measurable F ∧ ∀ ω x, Φ n ω x = F (x, c n ω) :=
        ⟨fun p => (trapScheme (additiveField f S (n * δ) δ p.2.1 p.2.2) (δ / M) p.1 M).1,
          (continuous_fst.comp (continuous_trapScheme hf S (n * δ) δ (δ / M) M)).measurable, hΦ n⟩
      have h2 : ∀ s : Fin 2, Measurable fun (w : (Fin k × Fin d) ⊕ (Fin N × Fin 2 × Fin m) → ℝ) (j : Fin m) => w (Sum.inr (⟨n, hnN⟩, s, j)) :=
        fun s => measurable_pi_lambda _ fun j => measurable_pi_apply _
      refine ⟨fun w => F (u w, fun j => w (Sum.inr (⟨n, hnN⟩, 0, j)), fun j => w (Sum.inr (⟨n, hnN⟩, 1, j))),
        hFm.comp (hu.prodMk ((h2 0).prodMk (h2 1))), fun ω => ?_⟩
      have h3 : (fun j => W ω (Sum.inr (⟨n, hnN⟩, 0, j))) = (c n ω).1 := by
        funext j; rw [hW]; exact (hWc ω _).trans rfl
      have h4 : (fun j => W ω (Sum.inr (⟨n, hnN⟩, 1, j))) = (c n ω).2 := by
        funext j; rw [hW]; exact (hWc ω _).trans rfl
      rw [hF]
      beta_reduce
      rw [h3, h4]
    have hst : ∀ n ≤ k, ∃ u v : ((Fin k × Fin d) ⊕ (Fin N × Fin 2 × Fin m) → ℝ) → Vec d, Measurable u ∧ Measurable v ∧
        ∀ ω, y ω n = u (W ω) ∧ z ω n = v (W ω) := by
      intro n
      induction n with
      | zero => exact fun _ => ⟨fun _ => x0, fun _ => x0, measurable_const, measurable_const, fun ω => ⟨hy0 ω, hz0 ω⟩⟩
      | succ n ih =>
        intro hn
        obtain ⟨u, v, hu, hv, huv⟩ := ih (by omega)
        obtain ⟨u', hu', hu1⟩ := hone n (by omega) u hu
        obtain ⟨v', hv', hv1⟩ := hone n (by omega) v hv
        have h2 : Measurable fun (w : (Fin k × Fin d) ⊕ (Fin N × Fin 2 × Fin m) → ℝ) (i : Fin d) => w (Sum.inl (⟨n, by omega⟩, i)) :=
          measurable_pi_lambda _ fun j => measurable_pi_apply _
        refine ⟨u', fun w => v' w + fun i => w (Sum.inl (⟨n, by omega⟩, i)), hu', hv'.add h2, fun ω => ⟨?_, ?_⟩⟩
        · rw [hYstep n (by omega), (huv ω).1, hu1]
        · rw [hZstep n (by omega), (huv ω).2, hv1]
          congr 1
          funext i
          rw [hW]
          exact (hWη ω ⟨n, by omega⟩ i).symm
    obtain ⟨u, v, hu, hv, huv⟩ := hst k le_rfl
    obtain ⟨u', hu', hu1⟩ := hone k le_rfl u hu
    obtain ⟨v', hv', hv1⟩ := hone k le_rfl v hv
    exact ⟨W, u', v', hWm, hind, hu', hv', fun ω => ⟨by rw [(huv ω).1, hu1], by rw [(huv ω).2, hv1]⟩⟩
  have hηm : ∀ k < N, AEMeasurable (η k) Q := fun k hk => aemeasurable_pi_lambda _ fun i => (hη k hk i).1.1.aemeasurable
  have hym : AEMeasurable (fun ω => y ω n) Q ∧ AEMeasurable (fun ω => z ω n) Q := by
    rcases n with _ | n
    · simp only [hy0, hz0]
      exact ⟨aemeasurable_const, aemeasurable_const⟩
    · obtain ⟨W, F, G, hWm, -, hF, hG, h⟩ := hpast n (by omega)
      constructor
      · rw [show (fun ω => y ω (n + 1)) = fun ω => F (W ω) from funext fun ω => (hYstep n (by omega) ω).trans (h ω).1]
        exact hF.comp_aemeasurable hWm
      · rw [show (fun ω => z ω (n + 1)) = fun ω => G (W ω) + η n ω from funext fun ω => by rw [hZstep n (by omega) ω, (h ω).2]]
        exact (hG.comp_aemeasurable hWm).add (hηm n (by omega))
  obtain ⟨hLp, hle⟩ := noisy_scheme (P := Q) (N := N) (C := C0) (δ := δ) (T := T) (v := d * (σ ^ 2 * δ * (δ / M) ^ 2 / 12)) hC0' hδ hNδ.le (by positivity)
    (Y := fun k ω => y ω k) (Z := fun k ω => z ω k) (η := η) (fun ω => (hy0 ω).trans (hz0 ω).symm) (Φ := Φ) hYstep hZstep
    (fun k hk ω a b => by
      rw [hΦ, hΦ, hC0]
      exact trap_stable hL hlip S hδ (by positivity) (hkδ k hk) hM _ _ a b)
    hη hηv
    (fun k hk => by
      obtain ⟨W, F, G, hWm, hi, hF, hG, h⟩ := hpast k hk
      simp only [fun ω => (h ω).1, fun ω => (h ω).2]
      exact hi.comp (φ := fun w => G w - F w) (ψ := id) (hG.sub hF) measurable_id)
    (fun k hk => by
      obtain ⟨W, F, G, hWm, hi, hF, hG, h⟩ := hpast k hk
      simp only [fun ω => (h ω).1, fun ω => (h ω).2]
      exact ((hG.sub hF).comp_aemeasurable hWm).aestronglyMeasurable)
    n hn
  have hdi : Integrable (fun ω => (z ω n - y ω n) ⬝ᵥ (z ω n - y ω n)) Q := memLp_dot hLp
  have hni : Integrable (fun ω => ‖z ω n - y ω n‖ ^ 2) Q := hdi.mono' ((hym.2.sub hym.1).norm.pow_const 2).aestronglyMeasurable
    (Eventually.of_forall fun ω => by
      rw [Real.norm_of_nonneg (sq_nonneg _)]
      exact sq_norm_le_dot _)
  refine ⟨fun ω => y ω n, fun ω => z ω n, fun ω => hy1 ω n hn, fun ω => hz1 ω n hn, hym.1, hym.2, hni, ?_⟩
  have hnδ : (n : ℝ) * δ ≤ T := by
    rw [← hNδ]; exact mul_le_mul_of_nonneg_right (by exact_mod_cast hn) hδ.le
  calc ∫ ω, ‖z ω n - y ω n‖ ^ 2 ∂Q ≤ ∫ ω, (z ω n - y ω n) ⬝ᵥ (z ω n - y ω n) ∂Q := integral_mono hni hdi fun ω => sq_norm_le_dot _
    _ ≤ n * (d * (σ ^ 2 * δ * (δ / M) ^ 2 / 12)) * Real.exp ((2 * d * C0 + d * C0 ^ 2 * T) * (n * δ)) := hle
    _ = (n * δ) * (d * (σ ^ 2 * (δ / M) ^ 2 / 12)) * Real.exp ((2 * d * C0 + d * C0 ^ 2 * T) * (n * δ)) := by ring
    _ ≤ T * (d * (σ ^ 2 * (δ / M) ^ 2 / 12)) * Real.exp ((2 * d * C0 + d * C0 ^ 2 * T) * T) := by gcongr
    _ = _ := by ring

/-- C96: with keys, `sde_solver` with EKF0 and `get_approx` still approximates the law of the solution of an SDE with additive
noise to order one, with the drawing adding a term in `|σ| / M`. -/
theorem C96_law {la : LinAlg} (hla : la.Correct) {Ω : Type*} [MeasurableSpace Ω] {P : Measure Ω} {B : Fin m → ℝ≥0 → Ω → ℝ}
    (hB : IsBrownianVec B P) (hd : 0 < d) {f : Field d} {Df : Vec d → ℝ → Vec d →L[ℝ] Vec d} {T L K Lt : ℝ} (hT : 0 < T)
    (hf : SmoothField f Df T L K) (htl : TimeLipschitz f T Lt) (S : Mat d m) (x0 : Vec d)
    {X : Ω → ℝ → Vec d} (hX : ∀ᵐ ω ∂P, SolvesAdditive f S (fun t j => B j t.toNNReal ω) x0 T (X ω)) :
    ∃ A : ℝ, ∀ {Ω' : Type} [MeasurableSpace Ω'] {Q : Measure Ω'} {R : Ω' → Rng}, IdealNormals Q R → ∀ N : ℕ, 0 < N → ∀ M : ℕ, 0 < M →
      ∀ σ : ℝ, σ ≠ 0 → ∀ (sqrt : Bool) (key : Key) (odeInt : Ω' → OdeInt (Vec d) d),
      (∀ ω k x vf, Ekf.ekf0 la (R ω) (some k) x vf (T / N / M) M sqrt
        (some ⟨_, IOUP.transition 0 σ 1 (T / N / M) d⟩) none = .ok (odeInt ω k x vf (T / N))) →
      ∀ n ≤ N, ∃ z : Ω' → Vec d,
        (∀ ω, (sdeSolver (R ω) key f (fun _ _ => S) x0 (Foster.getApprox m) (T / N) N (odeInt ω)).2.1[n]? = some (z ω)) ∧
        ∀ (κ : ℝ≥0) (g : Vec d → ℝ), LipschitzWith κ g → Integrable (fun ω => g (z ω)) Q ∧
          Integrable (fun ω => g (X ω (n * (T / N)))) P ∧
          |∫ ω, g (z ω) ∂Q - ∫ ω, g (X ω (n * (T / N))) ∂P| ≤ A * κ * (1 + |σ| / M) * (T / N) := by
  wlog hL : 0 ≤ L generalizing L
  · refine this (L := 0) ⟨hf.cont, fun x y t ht => (hf.lip x y t ht).trans ?_, hf.deriv, hf.jac⟩ le_rfl
    exact mul_le_mul_of_nonneg_right (not_le.mp hL).le (norm_nonneg _)
  obtain ⟨A1, hA1⟩ := C94_ekf0_law hla hB hd hT hf htl S x0 hX
  obtain ⟨A2, hA2, hA2'⟩ := C96_draws hla hd hT hf.cont hL hf.lip S x0
  refine ⟨|A1| + Real.sqrt (A2 + 1), ?_⟩
  intro Ω' _ Q R hR N hN M hM σ hσ sqrt key odeInt hode n hn
  have hN' : (0 : ℝ) < N := by exact_mod_cast hN
  have hM' : (0 : ℝ) < M := by exact_mod_cast hM
  have hmean : ∀ (r : Rng) (x : Vec d) vf, Ekf.ekf0 la r none x vf (T / N / M) M sqrt
        (some ⟨_, IOUP.transition 0 σ 1 (T / N / M) d⟩) none = .ok (trapScheme vf (T / N / M) x M).1 := fun r x vf =>
    C43_trapezoidal hla r hd vf hσ (by positivity) x M sqrt
  obtain ⟨y, hy, hyg⟩ := hA1 hR N hN M hM σ hσ sqrt ⟨fun _ _ _ => 0⟩ key (fun _ x vf _ => (trapScheme vf (T / N / M) x M).1)
    (fun _ x vf => hmean _ x vf) n hn
  obtain ⟨y', z, hy', hz, hym, hzm, hi, hle⟩ := hA2' hR N hN M hM σ hσ sqrt key (fun _ x vf _ => (trapScheme vf (T / N / M) x M).1)
    odeInt (fun ω _ x vf => hmean _ x vf) hode n hn
  have hyy : y' = y := funext fun ω => Option.some.inj ((hy' ω).symm.trans (hy ω))
  subst hyy
  obtain ⟨δ, hδdef⟩ : ∃ δ, δ = T / N := ⟨_, rfl⟩
  rw [← hδdef] at hle hyg hz ⊢
  have hδ : 0 < δ := by rw [hδdef]; positivity
  have hQ : IsProbabilityMeasure Q := (hR.law [] [1] 0 one_pos).isProbabilityMeasure
  have hyi : Integrable y' Q := (integrable_norm_iff hym.aestronglyMeasurable).1 (hyg 1 _ lipschitzWith_one_norm).1
  have hr : 0 < Real.sqrt (A2 + 1) * (|σ| * δ / M) := by positivity
  refine ⟨z, hz, fun κ g hg => ?_⟩
  obtain ⟨h1, h2, h3⟩ := weak_of_strong (IdentDistrib.refl hzm) hyi (hi.congr (Eventually.of_forall fun ω => by
    beta_reduce; rw [norm_sub_rev])) hr (by
      have e : ∫ ω, ‖y' ω - z ω‖ ^ 2 ∂Q = ∫ ω, ‖z ω - y' ω‖ ^ 2 ∂Q := by simp only [norm_sub_rev]
      rw [e, mul_pow, Real.sq_sqrt (by positivity)]
      refine hle.trans ?_
      rw [div_pow, div_pow, mul_pow, mul_pow, sq_abs]
      exact mul_le_mul_of_nonneg_right (by linarith) (by positivity)) hg
  obtain ⟨-, h4, h5⟩ := hyg κ g hg
  refine ⟨h1, h4, (abs_sub_le _ (∫ ω, g (y' ω) ∂Q) _).trans ?_⟩
  have hA1' : A1 * κ * δ ≤ |A1| * κ * δ := by gcongr; exact le_abs_self _
  have h6 : 0 ≤ |A1| * κ * (|σ| / M) * δ := by positivity
  have h7 : 0 ≤ Real.sqrt (A2 + 1) * κ * δ := by positivity
  calc _ ≤ κ * (Real.sqrt (A2 + 1) * (|σ| * δ / M)) + |A1| * κ * δ := by linarith
    _ ≤ κ * (Real.sqrt (A2 + 1) * (|σ| * δ / M)) + |A1| * κ * δ + |A1| * κ * (|σ| / M) * δ + Real.sqrt (A2 + 1) * κ * δ := by linarith
    _ = _ := by ring

/-- C96: without drift the difference of the two runs is exactly normal with variance `n δ σ² (δ / M)² / 12` in every component, so
the bound of `C96_draws` has the right order in `σ`, `δ` and `M`. -/
theorem C96_sharp {la : LinAlg} (hla : la.Correct) (hd : 0 < d) (S : Mat d m) (x0 : Vec d) {Ω : Type} [MeasurableSpace Ω] {Q : Measure Ω}
    {R : Ω → Rng} (hR : IdealNormals Q R) {δ : ℝ} (hδ : 0 < δ) (N M : ℕ) (hM : 0 < M) {σ : ℝ} (hσ : σ ≠ 0) (sqrt : Bool) (key : Key)
    (odeMean : OdeInt (Vec d) d) (odeDraw : Ω → OdeInt (Vec d) d)
    (hmean : ∀ ω k x vf, Ekf.ekf0 la (R ω) none x vf (δ / M) M sqrt
      (some ⟨_, IOUP.transition 0 σ 1 (δ / M) d⟩) none = .ok (odeMean k x vf δ))
    (hdraw : ∀ ω k x vf, Ekf.ekf0 la (R ω) (some k) x vf (δ / M) M sqrt
      (some ⟨_, IOUP.transition 0 σ 1 (δ / M) d⟩) none = .ok (odeDraw ω k x vf δ)) (n : ℕ) (hn : n ≤ N) :
    ∃ y z : Ω → Vec d,
      (∀ ω, (sdeSolver (R ω) key (fun _ _ => 0) (fun _ _ => S) x0 (Foster.getApprox m) δ N odeMean).2.1[n]? = some (y ω)) ∧
      (∀ ω, (sdeSolver (R ω) key (fun _ _ => 0) (fun _ _ => S) x0 (Foster.getApprox m) δ N (odeDraw ω)).2.1[n]? = some (z ω)) ∧
      IsNormal Q (fun ω => z ω - y ω) 0 (diagonal fun _ => n * δ * (σ * (δ / M)) ^ 2 / 12) := by
  have hM' : (0 : ℝ) < M := by exact_mod_cast hM
  obtain ⟨η, c, hlaw, hrun⟩ := C82_noise hR hla key hd (fun _ _ => 0) (fun _ _ => S) x0 hδ N M hM hσ sqrt odeDraw hdraw
  choose y hy1 hy0 hys using fun ω => sdeSolver_states (R ω) key (fun _ _ => 0) (fun _ _ => S) x0 (Foster.getApprox m) δ N odeMean
  choose z hz1 hz0 hzs using fun ω => sdeSolver_states (R ω) key (fun _ _ => 0) (fun _ _ => S) x0 (Foster.getApprox m) δ N (odeDraw ω)
  have hfield : ∀ (c : Vec m × Vec m) (a0 : ℝ), intervalField (fun _ _ => 0) (fun _ _ => S) (Foster.getApprox m) δ c a0 =
      additiveField (d := d) (fun _ _ => 0) S a0 δ c.1 c.2 := fun c a0 => rfl
  have hstep : ∀ k < N, ∀ ω, z ω (k + 1) - y ω (k + 1) = z ω k - y ω k + η k ω := by
    intro k hk ω
    obtain ⟨h3, x, h4, h5⟩ := hrun ω k hk
    obtain ⟨c', h1, h2⟩ := hys ω k hk
    rw [sdeSolver_coeffs] at h1 h3
    have hc : c' = c k ω := Option.some.inj (h1.symm.trans h3)
    have hx : x = z ω k := Option.some.inj (h4.symm.trans (hz1 ω k hk.le))
    have h6 := Except.ok.inj ((hmean ω ((key.child N k).child 2 1) (y ω k) _).symm.trans
      (C43_trapezoidal hla (R ω) hd (intervalField (fun _ _ => 0) (fun _ _ => S) (Foster.getApprox m) δ (c k ω) (k * δ)) hσ (by positivity)
        (y ω k) M sqrt))
    have h7 := Option.some.inj ((hz1 ω (k + 1) hk).symm.trans h5)
    have h8 := trap_stable (T := k * δ + δ) (L := 0) (f := fun _ _ => (0 : Vec d)) le_rfl (by simp) S hδ (by positivity : (0 : ℝ) ≤ k * δ) le_rfl
      hM (c k ω).1 (c k ω).2 (z ω k) (y ω k)
    rw [zero_mul, zero_mul, zero_mul, zero_mul, norm_le_zero_iff, sub_eq_zero] at h8
    rw [h7, h2, hc, h6, hx, hfield, eq_add_of_sub_eq h8]
    abel
  have hsum : ∀ k ≤ N, ∀ ω, z ω k - y ω k = ∑ j ∈ Finset.range k, η j ω := by
    intro k
    induction k with
    | zero => intro _ ω; simp [hy0, hz0]
    | succ k ih => intro hk ω; rw [hstep k (by omega), ih (by omega), Finset.sum_range_succ]
  refine ⟨fun ω => y ω n, fun ω => z ω n, fun ω => hy1 ω n hn, fun ω => hz1 ω n hn, ?_⟩
  have h1 := hlaw.reindex fun q : Fin n × Fin d => Sum.inl ((⟨q.1, q.1.2.trans_le hn⟩ : Fin N), q.2)
  have hc : (diagonal (Sum.elim (fun _ : Fin N × Fin d => σ ^ 2 * δ * (δ / M) ^ 2 / 12)
      (fun q : Fin N × Fin 2 × Fin m => coeffVar m δ q.2))).submatrix
      (fun q : Fin n × Fin d => Sum.inl ((⟨q.1, q.1.2.trans_le hn⟩ : Fin N), q.2))
      (fun q : Fin n × Fin d => Sum.inl ((⟨q.1, q.1.2.trans_le hn⟩ : Fin N), q.2)) =
      (σ ^ 2 * δ * (δ / M) ^ 2 / 12) • (1 : Matrix (Fin n × Fin d) (Fin n × Fin d) ℝ) := by
    ext p q
    by_cases h : p = q
    · subst h
      simp
    · rw [submatrix_apply, diagonal_apply_ne, Matrix.smul_apply, one_apply_ne h, smul_zero]
      intro h2
      refine h ?_
      simp only [Sum.inl.injEq, Prod.mk.injEq, Fin.mk.injEq] at h2
      exact Prod.ext (Fin.ext h2.1) h2.2
  rw [hc] at h1
  have h2 := h1.affine (0 : Vec d) (Matrix.of fun (i : Fin d) (q : Fin n × Fin d) => if q.2 = i then (1 : ℝ) else 0)
  have e1 : (fun ω => z ω n - y ω n) = fun ω => (0 : Vec d) + (Matrix.of fun (i : Fin d) (q : Fin n × Fin d) => if q.2 = i then (1 : ℝ) else 0) *ᵥ
      fun q : Fin n × Fin d => η q.1 ω q.2 := by
    funext ω i
    rw [hsum n hn, zero_add, Finset.sum_apply, ← Fin.sum_univ_eq_sum_range fun j => η j ω i]
    simp [mulVec, dotProduct, Fintype.sum_prod_type]
  rw [e1]
  refine (congrArg₂ (IsNormal Q _) ?_ ?_).mp h2
  · rw [zero_add]
    exact mulVec_zero _
  · ext i j
    rw [Matrix.mul_smul, Matrix.mul_one, Matrix.smul_mul, Matrix.smul_apply, mul_apply, Fintype.sum_prod_type]
    by_cases h : i = j
    · subst h
      simp
      ring
    · rw [diagonal_apply_ne _ h]
      simp [Ne.symm h]

/-- C96: the hypotheses of the theorems are met by the ideal generator and the decaying field. -/
example {la : LinAlg} (hla : la.Correct) : ∃ A : ℝ, ∀ N : ℕ, 0 < N → ∃ (odeMean : OdeInt (Vec 2) 2) (odeDraw : Draws → OdeInt (Vec 2) 2)
    (y z : Draws → Vec 2),
    (∀ ω, (sdeSolver (drawsRng ω) [] (fun x t => -(t • x)) (fun _ _ => (1 : Mat 2 2)) (0 : Vec 2) (Foster.getApprox 2) (1 / N) N
      odeMean).2.1[N]? = some (y ω)) ∧
    (∀ ω, (sdeSolver (drawsRng ω) [] (fun x t => -(t • x)) (fun _ _ => (1 : Mat 2 2)) (0 : Vec 2) (Foster.getApprox 2) (1 / N) N
      (odeDraw ω)).2.1[N]? = some (z ω)) ∧ ∫ ω, ‖z ω - y ω‖ ^ 2 ∂drawsMeasure ≤ A * (1 / N) ^ 2 := by
  obtain ⟨A, -, hA⟩ := C96_draws hla (by norm_num) one_pos smooth_decay.cont zero_le_one smooth_decay.lip (1 : Mat 2 2) 0
  refine ⟨A, fun N hN => ?_⟩
  have hN' : (0 : ℝ) < N := by exact_mod_cast hN
  have hp : 0 < 1 / (N : ℝ) / (1 : ℕ) := by positivity
  obtain ⟨T, -, hT⟩ := ekf0_noise hla (by norm_num : 0 < 2) one_ne_zero hp 1 false
  obtain ⟨y, z, h1, h2, -, -, -, h3⟩ := hA idealNormals_drawsRng N hN 1 one_pos 1 one_ne_zero false []
    (fun _ x vf _ => (trapScheme vf (1 / N / (1 : ℕ)) x 1).1) (fun ω k x vf _ => _)
    (fun ω _ x vf => C43_trapezoidal hla (drawsRng ω) (by norm_num : 0 < 2) vf one_ne_zero hp x 1 false)
    (fun ω k x vf => hT (drawsRng ω) k x vf) N le_rfl
  exact ⟨_, _, y, z, h1, h2, by simpa using h3⟩

end Verif
