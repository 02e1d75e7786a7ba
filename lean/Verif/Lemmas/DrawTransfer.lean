import Mathlib.Probability.IdentDistribIndep
import Verif.Lemmas.RamTransfer
import Verif.Props.EkfRun
import Verif.Props.SampledEkf

/-! The law of the trajectories of the low-memory solver when the ODE integrator draws. The draws are compared with the increments
of additional components of the Brownian motion. -/

namespace Verif

open Matrix Spec Jnp Set MeasureTheory ProbabilityTheory Scripts Filter
open scoped NNReal

variable {d m q : ℕ}

theorem Spec.IsBrownianVec.comp_inj {Ω : Type*} [MeasurableSpace Ω] {P : Measure Ω} {B : Fin m → ℝ≥0 → Ω → ℝ} (hB : IsBrownianVec B P)
    {e : Fin q → Fin m} (he : Function.Injective e) : IsBrownianVec (fun j => B (e j)) P :=
  ⟨fun j t => hB.meas (e j) t, fun j => hB.brownian (e j), hB.indep.precomp he⟩

/-- The first components of a vector. -/
def firstV (v : Vec (m + q)) : Vec m := fun j => v (Fin.castAdd q j)

/-- The last components of a vector. -/
def lastV (v : Vec (m + q)) : Vec q := fun j => v (Fin.natAdd m j)

theorem continuous_firstV : Continuous (firstV : Vec (m + q) → Vec m) := continuous_pi fun j => continuous_apply _

theorem continuous_lastV : Continuous (lastV : Vec (m + q) → Vec q) := continuous_pi fun j => continuous_apply _

theorem norm_firstV_le (v : Vec (m + q)) : ‖firstV v‖ ≤ ‖v‖ := (pi_norm_le_iff_of_nonneg (norm_nonneg _)).mpr fun _ => norm_le_pi_norm v _

theorem norm_lastV_le (v : Vec (m + q)) : ‖lastV v‖ ≤ ‖v‖ := (pi_norm_le_iff_of_nonneg (norm_nonneg _)).mpr fun _ => norm_le_pi_norm v _

/-- Parabolas matched to some components of a path. -/
theorem Spec.SameEndAndArea.comp {δ a0 : ℝ} {a b : Vec m} {w : ℝ → Vec m} (e : Fin q → Fin m)
    (h : SameEndAndArea (fun t => Foster.evalParabola t δ a b) w a0 δ) :
    SameEndAndArea (fun t => Foster.evalParabola t δ (fun j => a (e j)) (fun j => b (e j))) (fun t j => w t (e j)) a0 δ :=
  ⟨funext fun j => congrFun h.atEnd (e j), fun j => h.area (e j)⟩

set_option maxHeartbeats 1000000 in
/-- The joint law of the two trajectories of the low-memory solver, run with an ideal generator and an ODE integrator that draws `q`
numbers: it is the law of the scheme with parabolas matched to a Brownian motion and draws read off from the increments of further
components of the Brownian motion, and of Euler-Maruyama fed with the increments of the first components. The part `π` of the states of
the integrator is followed, which is computed from itself as long as the states satisfy the invariant `Inv`. -/
theorem ram_transfer_state {ΩB : Type*} [MeasurableSpace ΩB] {P : Measure ΩB} {B : Fin (m + q) → ℝ≥0 → ΩB → ℝ} (hB : IsBrownianVec B P)
    {f : Field d} (hf : Continuous (Function.uncurry f)) (S : Mat d m) (x0 : Vec d) {Ω : Type*} [MeasurableSpace Ω] {Q : Measure Ω}
    {R : Ω → Rng} (hR : IdealNormals Q R) {δ η : ℝ} (hδ : 0 < δ) {N r : ℕ} (hr : 0 < r) (hη : η = δ / r) (key : Key) {α E : Type}
    [MeasurableSpace E] (init : α) (π : α → E) (Inv : ℕ → α → Prop) (hInv : Inv 0 init)
    (odeInt : Ω → OdeInt α d) {J : ℕ → E → Vec m → Vec m → Vec q → E}
    (hJ : ∀ k < N, Measurable fun p : E × Vec m × Vec m × Vec q => J k p.1 p.2.1 p.2.2.1 p.2.2.2)
    (hint : ∀ ω κ x, ∀ k < N, Inv k x → ∀ a b, Inv (k + 1) (odeInt ω κ x (additiveField f S (k * δ) δ a b) δ) ∧
      π (odeInt ω κ x (additiveField f S (k * δ) δ a b) δ) = J k (π x) a b ((R ω).normalVec κ q)) {n : ℕ} (hn : n ≤ N) :
    ∃ c0 : ΩB → ℕ → Vec (m + q) × Vec (m + q), (∀ᵐ ω ∂P, ∀ k < N,
        SameEndAndArea (fun t => Foster.evalParabola t δ (c0 ω k).1 (c0 ω k).2) (fun t j => B j t.toNNReal ω) (k * δ) δ) ∧
      ∀ (Y0 : ℕ → ΩB → E) (z0 : ΩB → Vec d), (∀ ω, Y0 0 ω = π init) →
        (∀ k < N, ∀ ω, Y0 (k + 1) ω = J k (Y0 k ω) (firstV (c0 ω k).1) (firstV (c0 ω k).2) ((1 / Real.sqrt δ) • lastV (c0 ω k).1)) →
        (∀ ω, ∃ ts xs, emPathwise ((List.range (N * r)).map fun k j => B (Fin.castAdd q j) ((k + 1 : ℕ) * η).toNNReal ω -
          B (Fin.castAdd q j) (k * η).toNNReal ω) x0 f (fun _ _ => S) η (N * r) = .ok (ts, xs) ∧ xs[n * r]? = some (z0 ω)) →
        ∃ (y : Ω → α) (z : Ω → Vec d),
          (∀ ω, ∃ ts traj traj2, ramSolver (R ω) key f (fun _ _ => S) init x0 δ N r (odeInt ω) = .ok (ts, traj, traj2) ∧
            ts[n]? = some (n * δ) ∧ traj[n]? = some (y ω) ∧ traj2[n]? = some (z ω)) ∧ (∀ ω, Inv n (y ω)) ∧
          (∀ ω k, k + 1 = n → ∃ x a b, Inv k x ∧ y ω = odeInt ω ((key.child N k).child 2 1) x (additiveField f S (k * δ) δ a b) δ) ∧
          IdentDistrib (fun ω => (Y0 n ω, z0 ω)) (fun ω => (π (y ω), z ω)) P Q := by
  have hP := hB.isProb
  have hr' : (1 : ℝ) ≤ r := by exact_mod_cast hr
  have hη0 : 0 < η := by rw [hη]; positivity
  have hrη : (r : ℝ) * η = δ := by rw [hη]; field_simp
  -- fine parabolas matched to the Brownian motion
  obtain ⟨cf, hcf⟩ : ∃ cf : ΩB → ℕ → Vec (m + q) × Vec (m + q), ∀ ω k, cf ω k =
    ((fun j => B j (k * η + η).toNNReal ω) - (fun j => B j (k * η).toNNReal ω),
    fun j => Real.sqrt 6 * ((∫ t in (0 : ℝ)..η, (B j (k * η + t).toNNReal ω - B j (k * η).toNNReal ω)) / η -
      ((fun j => B j (k * η + η).toNNReal ω) - (fun j => B j (k * η).toNNReal ω)) j / 2)) := ⟨_, fun _ _ => rfl⟩
  have hmf : ∀ ω k, SameEndAndArea (fun t => Foster.evalParabola t η (cf ω k).1 (cf ω k).2) (fun t j => B j t.toNNReal ω) (k * η) η :=
    fun ω k => by rw [hcf]; exact exists_sameEndAndArea hη0.ne' (fun t j => B j t.toNNReal ω) (k * η)
  obtain ⟨cg, hcg⟩ : ∃ cg : ΩB → ℕ → Vec (m + q) × Vec (m + q), ∀ ω k, cg ω k = foldFine δ r fun i => cf ω (k * r + i) := ⟨_, fun _ _ => rfl⟩
  have hmg : ∀ᵐ ω ∂P, ∀ k < N, SameEndAndArea (fun t => Foster.evalParabola t δ (cg ω k).1 (cg ω k).2) (fun t j => B j t.toNNReal ω) (k * δ) δ := by
    have hcont : ∀ᵐ ω ∂P, ∀ j, Continuous fun t => B j t ω := ae_all_iff.mpr fun j => (hB.brownian j).cont
    filter_upwards [hcont] with ω hω k hk
    rw [hcg]
    refine foldFine_matched hδ hr (fun j => ((hω j).comp continuous_real_toNNReal).continuousOn) (by positivity) fun i hi => ?_
    have := hmf ω (k * r + i)
    rw [show ((k * r + i : ℕ) : ℝ) * η = k * δ + i * η by rw [← hrη]; push_cast; ring] at this
    rw [← hη]
    exact this
  obtain ⟨c0, hc0⟩ : ∃ c0 : ΩB → ℕ → Vec m × Vec m, ∀ ω k, c0 ω k = (firstV (cf ω k).1, firstV (cf ω k).2) := ⟨_, fun _ _ => rfl⟩
  -- the inputs on both sides
  obtain ⟨u0, hu0⟩ : ∃ u0 : ΩB → Fin (N * r) × Fin m × Fin 2 → ℝ, ∀ ω p, u0 ω p =
    ![(c0 ω p.1).1 p.2.1, (c0 ω p.1).2 p.2.1] p.2.2 := ⟨_, fun _ _ => rfl⟩
  obtain ⟨ξ0, hξ0⟩ : ∃ ξ0 : ΩB → Fin N × Fin q → ℝ, ∀ ω p, ξ0 ω p = 1 / Real.sqrt δ * lastV (cg ω p.1).1 p.2 := ⟨_, fun _ _ => rfl⟩
  obtain ⟨c1, hc1⟩ : ∃ c1 : Ω → ℕ → Vec m × Vec m, ∀ ω p, c1 ω p =
    finePiece m r (R ω) ((key.child N (p / r)).child 2 0) δ (p % r) := ⟨_, fun _ _ => rfl⟩
  obtain ⟨u1, hu1⟩ : ∃ u1 : Ω → Fin (N * r) × Fin m × Fin 2 → ℝ, ∀ ω p, u1 ω p =
    ![(c1 ω p.1).1 p.2.1, (c1 ω p.1).2 p.2.1] p.2.2 := ⟨_, fun _ _ => rfl⟩
  obtain ⟨ξ1, hξ1⟩ : ∃ ξ1 : Ω → Fin N × Fin q → ℝ, ∀ ω p, ξ1 ω p = (R ω).normalVec ((key.child N p.1).child 2 1) q p.2 := ⟨_, fun _ _ => rfl⟩
  have hR1 : ∀ ω, ∀ k < N, ∀ i < r, finePiece m r (R ω) ((key.child N k).child 2 0) δ i = c1 ω (k * r + i) := fun ω k _ i hi => by
    rw [hc1, Nat.mul_comm, Nat.mul_add_div hr, Nat.div_eq_of_lt hi, add_zero, Nat.mul_add_mod, Nat.mod_eq_of_lt hi]
  have hu : IdentDistrib u0 u1 P Q := by
    have hl0 := C91_matched_law (hB.comp_inj (Fin.castAdd_injective m q)) hη0 (N * r) (fun ω k => (c0 ω k).1) (fun ω k => (c0 ω k).2)
      (Eventually.of_forall fun ω k _ => by simp only [hc0]; exact (hmf ω k).comp _)
    have hl1 := fine_code_law (m := m) hR key hδ N hr
    rw [← hη] at hl1
    have e0 : u0 = fun ω p => ![(c0 ω p.1).1 p.2.1, (c0 ω p.1).2 p.2.1] p.2.2 := by funext ω p; exact hu0 ω p
    have e1 : u1 = fun ω p => ![(c1 ω p.1).1 p.2.1, (c1 ω p.1).2 p.2.1] p.2.2 := by funext ω p; exact hu1 ω p
    rw [e0, e1]
    simp only [hc1]
    exact hl0.identDistrib hl1
  have hsδ : Real.sqrt δ ≠ 0 := by positivity
  have hZ : iIndepFun (fun (p : (Fin N × Fin q) ⊕ (Fin (N * r) × Fin 2 × Fin m)) ω => Sum.elim
      (fun p => (R ω).normalVec ((key.child N p.1).child 2 1) q p.2)
      (fun p => (R ω).normalMat (((key.child N ((p.1 : ℕ) / r)).child 2 0).child r ((p.1 : ℕ) % r)) 2 m p.2.1 p.2.2) p) Q := by
    refine hR.indep_vecs_mats (fun a : Fin N => (key.child N a).child 2 1)
      (fun a : Fin (N * r) => ((key.child N ((a : ℕ) / r)).child 2 0).child r ((a : ℕ) % r)) (fun a b hab =>
        ((Key.diverge_child key N _ _ fun e => hab (Fin.ext e)).child_left 2 _).child_right 2 _) (fun a b hab => ?_) (fun a b => ?_) q 2 m
    · by_cases h1 : (a : ℕ) / r = b / r
      · have h2 : (a : ℕ) % r ≠ b % r := fun h2 => hab (Fin.ext (by rw [← Nat.div_add_mod (a : ℕ) r, ← Nat.div_add_mod (b : ℕ) r, h1, h2]))
        show (((key.child N ((a : ℕ) / r)).child 2 0).child r ((a : ℕ) % r)).Diverge _
        rw [h1]
        exact Key.diverge_child _ r _ _ h2
      · exact (((((Key.diverge_child key N _ _ h1).child_left 2 0).child_right 2 0).child_left r _).child_right r _)
    · by_cases h1 : (a : ℕ) = b / r
      · rw [← h1]
        exact (Key.diverge_child _ 2 1 0 one_ne_zero).child_right r _
      · exact (((Key.diverge_child key N _ _ h1).child_left 2 _).child_right 2 _).child_right r _
  have hZl : ∀ p : (Fin N × Fin q) ⊕ (Fin (N * r) × Fin 2 × Fin m), HasLaw (fun ω => Sum.elim
      (fun p : Fin N × Fin q => (R ω).normalVec ((key.child N p.1).child 2 1) q p.2)
      (fun p : Fin (N * r) × Fin 2 × Fin m => (R ω).normalMat (((key.child N ((p.1 : ℕ) / r)).child 2 0).child r ((p.1 : ℕ) % r)) 2 m
        p.2.1 p.2.2) p) (gaussianReal 0 1) Q := by
    rintro (p | p)
    · exact hR.law _ _ _ (by simp)
    · exact hR.law_mat _ _ _
  have hZn := isNormal_std hZl hZ
  have hξ : IdentDistrib ξ0 ξ1 P Q := by
    have hl0 : IsNormal P ξ0 0 1 := by
      have h := ((C91_matched_law hB hδ N (fun ω k => (cg ω k).1) (fun ω k => (cg ω k).2) hmg).reindex
        (fun p : Fin N × Fin q => (p.1, Fin.natAdd m p.2, (0 : Fin 2)))).affine 0 (diagonal fun _ => 1 / Real.sqrt δ)
      refine (congrArg₂ (fun (μ : Fin N × Fin q → ℝ) C => IsNormal P ξ0 μ C) ?_ ?_).mp (h.congr_ae (Eventually.of_forall fun ω => ?_))
      · funext p
        simp [mulVec_diagonal]
      · rw [submatrix_diagonal _ _ (fun p p' hp => by
            simp only [Prod.mk.injEq, Fin.natAdd_inj, and_true] at hp
            exact Prod.ext hp.1 hp.2), diagonal_transpose, diagonal_mul_diagonal, diagonal_mul_diagonal, ← diagonal_one]
        congr 1
        funext p
        simp only [Function.comp_def, cons_val_zero]
        field_simp
        exact (Real.sq_sqrt hδ.le).symm
      · funext p
        rw [hξ0]
        simp [mulVec_diagonal, lastV]
    have hl1 : IsNormal Q ξ1 0 1 := by
      have h := hZn.reindex (Sum.inl : Fin N × Fin q → _)
      refine (congrArg₂ (fun (X : Ω → Fin N × Fin q → ℝ) C => IsNormal Q X 0 C) ?_ ?_).mp h
      · funext ω p
        rw [hξ1]
        rfl
      · ext p p'
        simp [Matrix.one_apply]
    exact hl0.identDistrib hl1
  have hi0 : IndepFun u0 ξ0 P := by
    have hl := C91_matched_law hB hη0 (N * r) (fun ω k => (cf ω k).1) (fun ω k => (cf ω k).2) (Eventually.of_forall fun ω k _ => hmf ω k)
    have h := hl.indep_coords (fun p : Fin (N * r) × Fin m × Fin 2 => (p.1, Fin.castAdd q p.2.1, p.2.2))
      (fun p : Fin (N * r) × Fin q => (p.1, Fin.natAdd m p.2, (0 : Fin 2))) (fun a b hab => by
        have := congrArg (fun p : Fin (N * r) × Fin (m + q) × Fin 2 => (p.2.1 : ℕ)) hab
        simp only [Fin.val_castAdd, Fin.val_natAdd] at this
        have := a.2.1.2
        omega)
    have h2 := h.comp (φ := id) (ψ := fun v (p : Fin N × Fin q) => 1 / Real.sqrt δ * ∑ i ∈ Finset.range r,
        if h : (p.1 : ℕ) * r + i < N * r then v (⟨p.1 * r + i, h⟩, p.2) else 0) measurable_id (by
      refine measurable_pi_lambda _ fun p => Measurable.const_mul (Finset.measurable_fun_sum _ fun i _ => ?_) _
      split_ifs with h
      · exact measurable_pi_apply ((⟨p.1 * r + i, h⟩, p.2) : Fin (N * r) × Fin q)
      · exact measurable_const)
    refine (congrArg₂ (fun X Y => IndepFun X Y P) ?_ ?_).mp h2
    · funext ω p
      rw [hu0, hc0]
      rfl
    · funext ω p
      rw [hξ0, hcg]
      simp only [Function.comp_def, lastV, foldFine, Finset.sum_apply]
      congr 1
      refine Finset.sum_congr rfl fun i hi => ?_
      have h3 : ((p.1 : ℕ) + 1) * r ≤ N * r := Nat.mul_le_mul_right r p.1.2
      rw [Nat.succ_mul] at h3
      have h4 := Finset.mem_range.mp hi
      rw [dif_pos (by omega)]
      rfl
  have hi1 : IndepFun u1 ξ1 Q := by
    have hZn' := hZn
    rw [← diagonal_one] at hZn'
    have h := hZn'.indep_coords (Sum.inr : Fin (N * r) × Fin 2 × Fin m → _) (Sum.inl : Fin N × Fin q → _) (fun a b => Sum.inr_ne_inl)
    have h2 := h.comp (φ := fun v (p : Fin (N * r) × Fin m × Fin 2) => ![Real.sqrt (δ / r) * v (p.1, 0, p.2.1),
        Real.sqrt (0.5 * (δ / r)) * v (p.1, 1, p.2.1)] p.2.2) (ψ := id) (by
      refine measurable_pi_lambda _ fun p => ?_
      obtain ⟨k, j, s⟩ := p
      fin_cases s
      · exact (measurable_pi_apply _).const_mul _
      · exact (measurable_pi_apply _).const_mul _) measurable_id
    refine (congrArg₂ (fun X Y => IndepFun X Y Q) ?_ ?_).mp h2
    · funext ω p
      rw [hu1, hc1]
      obtain ⟨k, j, s⟩ := p
      fin_cases s
      · simp [finePiece, Foster.getApprox, Foster.parabolas, mul_comm]
      · simp [finePiece, Foster.getApprox, Foster.parabolas, mul_comm]
    · funext ω p
      rw [hξ1]
      rfl
  have hid := hu.prodMk hξ hi0 hi1
  -- the filter as a function of the inputs
  obtain ⟨Ψ, hΨ⟩ : ∃ Ψ : ℕ → E → ((Fin N × Fin m × Fin 2) ⊕ (Fin N × Fin q) → ℝ) → E, ∀ k y z, Ψ k y z =
      if k < N then J k y (fun j => if h : k < N then z (Sum.inl (⟨k, h⟩, j, 0)) else 0)
        (fun j => if h : k < N then z (Sum.inl (⟨k, h⟩, j, 1)) else 0) (fun j => if h : k < N then z (Sum.inr (⟨k, h⟩, j)) else 0) else y :=
    ⟨_, fun _ _ _ => rfl⟩
  obtain ⟨F, hF1, hF2⟩ := exists_scheme_map (N := N) (Ψ := Ψ) (fun k => by
    simp only [hΨ]
    by_cases hk : k < N
    · simp only [if_pos hk, dif_pos hk]
      have h1 : ∀ s : Fin 2, Measurable fun (p : E × ((Fin N × Fin m × Fin 2) ⊕ (Fin N × Fin q) → ℝ)) (j : Fin m) =>
          p.2 (Sum.inl (⟨k, hk⟩, j, s)) := fun s => measurable_pi_lambda _ fun j => (measurable_pi_apply _).comp measurable_snd
      have h2 : Measurable fun (p : E × ((Fin N × Fin m × Fin 2) ⊕ (Fin N × Fin q) → ℝ)) (j : Fin q) =>
          p.2 (Sum.inr (⟨k, hk⟩, j)) := measurable_pi_lambda _ fun j => (measurable_pi_apply _).comp measurable_snd
      exact (hJ k hk).comp (measurable_fst.prodMk ((h1 0).prodMk ((h1 1).prodMk h2)))
    · simp only [if_neg hk]
      exact measurable_fst) (π init)
  have hFy : ∀ ω y, (sdeSolver (R ω) key f (fun _ _ => S) init (Foster.getApproxFine m r) δ N (odeInt ω)).2.1[n]? = some y →
        Inv n y ∧ (∀ k, k + 1 = n → ∃ x a b, Inv k x ∧ y = odeInt ω ((key.child N k).child 2 1) x (additiveField f S (k * δ) δ a b) δ) ∧
          π y = F n (Sum.elim (coarsen δ N r (u1 ω)) (ξ1 ω)) := by
    intro ω y hy
    obtain ⟨Y, hY1, hY2, hY3⟩ := sdeSolver_states (R ω) key f (fun _ _ => S) init (Foster.getApproxFine m r) δ N (odeInt ω)
    rw [Option.some.inj (hy.symm.trans (hY1 n hn))]
    have hfld : ∀ (c' : Vec m × Vec m × List (Vec m) × List (Vec m)) (k : ℕ),
      intervalField f (fun _ _ => S) (Foster.getApproxFine m r) δ c' (k * δ) = additiveField f S (k * δ) δ c'.1 c'.2.1 := fun _ _ => rfl
    have hI : ∀ k ≤ N, Inv k (Y k) := fun k => by
      induction k with
      | zero => exact fun _ => by rw [hY2]; exact hInv
      | succ k ih =>
        intro hk
        obtain ⟨c', -, h4⟩ := hY3 k (by omega)
        rw [h4, hfld]
        exact (hint ω _ _ k (by omega) (ih (by omega)) _ _).1
    refine ⟨hI n hn, fun k hk => ?_, hF2 (fun k => π (Y k)) _ (by rw [hY2]) (fun k hk => ?_) n hn⟩
    · obtain ⟨c', -, h4⟩ := hY3 k (by omega)
      rw [hfld] at h4
      exact ⟨Y k, c'.1, c'.2.1, hI k (by omega), by rw [← hk]; exact h4⟩
    obtain ⟨c', h3, h4⟩ := hY3 k hk
    rw [sdeSolver_coeffs, List.getElem?_map, List.getElem?_range hk] at h3
    have h5 : (Foster.getApproxFine m r).coeffs (R ω) ((key.child N k).child 2 0) δ = c' := Option.some.inj h3
    obtain ⟨h6, h7⟩ := coeffs_fine (hR1 ω) hk
    rw [h5] at h6 h7
    have hfield : intervalField f (fun _ _ => S) (Foster.getApproxFine m r) δ c' (k * δ) = additiveField f S (k * δ) δ c'.1 c'.2.1 := rfl
    rw [h4, hfield, (hint _ _ _ k hk (hI k hk.le) _ _).2, hΨ, h6, h7, if_pos hk]
    simp only [dif_pos hk, Sum.elim_inl, Sum.elim_inr, show u1 ω = fun p => ![(c1 ω p.1).1 p.2.1, (c1 ω p.1).2 p.2.1] p.2.2 from funext (hu1 ω),
      coarsen_apply δ (c1 ω) hk, hξ1]
    rfl
  -- the reference as a function of the inputs
  obtain ⟨Φ, hΦ⟩ : ∃ Φ : ℕ → Vec d → (Fin (N * r) × Fin m × Fin 2 → ℝ) → Vec d, ∀ k y z, Φ k y z =
      y + η • f y (k * η) + S *ᵥ (fun j => if h : k < N * r then z (⟨k, h⟩, j, 0) else 0) := ⟨_, fun _ _ _ => rfl⟩
  obtain ⟨G, hG1, hG2⟩ := exists_scheme_map (N := N * r) (Ψ := Φ) (fun k => by
    simp only [hΦ]
    have hfm : Measurable fun p : Vec d × (Fin (N * r) × Fin m × Fin 2 → ℝ) => f p.1 (k * η) := by
      have : Continuous fun x : Vec d => f x (k * η) := hf.comp (by fun_prop : Continuous fun x : Vec d => (x, (k : ℝ) * η))
      exact this.measurable.comp measurable_fst
    have hwm : Measurable fun (p : Vec d × (Fin (N * r) × Fin m × Fin 2 → ℝ)) (j : Fin m) =>
        if h : k < N * r then p.2 (⟨k, h⟩, j, 0) else 0 := measurable_pi_lambda _ fun j => by
      split_ifs with h
      · exact (measurable_pi_apply ((⟨k, h⟩, j, 0) : Fin (N * r) × Fin m × Fin 2)).comp measurable_snd
      · exact measurable_const
    have hSm : Measurable fun v : Vec m => S *ᵥ v := (by fun_prop : Continuous fun v : Vec m => S *ᵥ v).measurable
    exact (measurable_fst.add (hfm.const_smul η)).add (hSm.comp hwm)) x0
  have hGz : ∀ (c : ℕ → Vec m × Vec m) (ts : List ℝ) (xs : List (Vec d)) (z : Vec d),
      emPathwise ((List.range (N * r)).map fun q => (c q).1) x0 f (fun _ _ => S) η (N * r) = .ok (ts, xs) → xs[n * r]? = some z →
        z = G (n * r) fun q : Fin (N * r) × Fin m × Fin 2 => ![(c q.1).1 q.2.1, (c q.1).2 q.2.1] q.2.2 := by
    intro c ts xs z hts hxs
    obtain ⟨ts', Y, hY1, hY2, hY3⟩ := emPathwise_states (fun q => (c q).1) x0 f (fun _ _ => S) η (N * r)
    have hnr : n * r ≤ N * r := Nat.mul_le_mul_right r hn
    have e : xs = (List.range (N * r + 1)).map Y := (Prod.ext_iff.mp (Except.ok.inj (hts.symm.trans hY1))).2
    rw [e, List.getElem?_map, List.getElem?_range (by omega)] at hxs
    rw [← Option.some.inj hxs]
    refine hG2 Y _ hY2 (fun k hk => ?_) (n * r) hnr
    rw [hY3 k hk, hΦ]
    simp [hk]
  refine ⟨cg, hmg, fun Y0 z0 hY0 hYs hz1 => ?_⟩
  have hy0F : ∀ ω, Y0 n ω = F n (Sum.elim (coarsen δ N r (u0 ω)) (ξ0 ω)) := fun ω => by
    refine hF2 (fun k => Y0 k ω) _ (hY0 ω) (fun k hk => ?_) n hn
    have hfold : ∀ s : Fin 2, ∀ j, coarsen δ N r (u0 ω) (⟨k, hk⟩, j, s) = ![firstV (cg ω k).1 j, firstV (cg ω k).2 j] s := fun s j => by
      rw [show u0 ω = fun p => ![(c0 ω p.1).1 p.2.1, (c0 ω p.1).2 p.2.1] p.2.2 from funext (hu0 ω), coarsen_apply δ (c0 ω) hk, hcg]
      simp only [hc0]
      fin_cases s
      · simp [foldFine, firstV]
      · simp [foldFine, firstV]
    rw [hYs k hk ω, hΨ, if_pos hk]
    simp only [dif_pos hk, Sum.elim_inl, Sum.elim_inr, hfold, hξ0]
    rfl
  have hz0G : ∀ ω, z0 ω = G (n * r) (u0 ω) := fun ω => by
    rw [show u0 ω = fun q => ![(c0 ω q.1).1 q.2.1, (c0 ω q.1).2 q.2.1] q.2.2 from funext (hu0 ω)]
    obtain ⟨ts, xs, h3, h4⟩ := hz1 ω
    refine hGz (c0 ω) ts xs (z0 ω) ?_ h4
    rw [← h3]
    congr 2
    funext p j
    rw [hc0, hcf]
    simp only [firstV, Pi.sub_apply]
    rw [show ((p + 1 : ℕ) : ℝ) * η = p * η + η by push_cast; ring]
  choose tr ts2 xs g1 g2 g3 g4 using fun ω => C99_low_memory (R ω) key f (fun _ _ => S) init x0 δ N r hr (odeInt ω)
  choose Y hY1 hY2 hY3 using fun ω => sdeSolver_states (R ω) key f (fun _ _ => S) init (Foster.getApproxFine m r) δ N (odeInt ω)
  choose z hz using fun ω => Option.isSome_iff_exists.mp (g4 ω n hn).2
  have hz1G : ∀ ω, z ω = G (n * r) (u1 ω) := fun ω => by
    rw [show u1 ω = fun q => ![(c1 ω q.1).1 q.2.1, (c1 ω q.1).2 q.2.1] q.2.2 from funext (hu1 ω)]
    refine hGz (c1 ω) (ts2 ω) (xs ω) (z ω) ?_ (by rw [← (g4 ω n hn).1]; exact hz ω)
    have := g2 ω
    rw [sdeSolver_coeffs, List.map_map, ← hη] at this
    rw [← this, ← flatten_blocks (fun q => (c1 ω q).1)]
    congr 2
    refine List.map_congr_left fun k hk => ?_
    simp only [Function.comp_def]
    rw [(coeffs_foldFine (m := m) r (R ω) ((key.child N k).child 2 0) δ).2.2]
    refine List.map_congr_left fun i hi => ?_
    rw [hR1 ω k (List.mem_range.mp hk) i (List.mem_range.mp hi)]
  refine ⟨fun ω => Y ω n, z, fun ω => ⟨_, _, tr ω, g1 ω, ?_, hY1 ω n hn, hz ω⟩, fun ω => (hFy ω _ (hY1 ω n hn)).1,
    fun ω => (hFy ω _ (hY1 ω n hn)).2.1, ?_⟩
  · rw [(sdeSolver_scan (R ω) key f (fun _ _ => S) init (Foster.getApproxFine m r) δ N (odeInt ω)).1, linspace_grid, List.getElem?_map,
      List.getElem?_range (by omega)]
    rfl
  · have hel : Measurable fun u : (Fin (N * r) × Fin m × Fin 2 → ℝ) × (Fin N × Fin q → ℝ) =>
        (Sum.elim (coarsen δ N r u.1) u.2 : (Fin N × Fin m × Fin 2) ⊕ (Fin N × Fin q) → ℝ) := by
      refine measurable_pi_lambda _ fun p => ?_
      rcases p with p | p
      · exact (measurable_pi_apply p).comp ((measurable_coarsen δ N r).comp measurable_fst)
      · exact (measurable_pi_apply p).comp measurable_snd
    have hem : Measurable fun u : (Fin (N * r) × Fin m × Fin 2 → ℝ) × (Fin N × Fin q → ℝ) =>
        (F n (Sum.elim (coarsen δ N r u.1) u.2), G (n * r) u.1) := ((hF1 n).comp hel).prodMk ((hG1 (n * r)).comp measurable_fst)
    have := hid.comp hem
    simp only [Function.comp_def] at this
    simpa only [hy0F, hz0G, fun ω => (hFy ω _ (hY1 ω n hn)).2.2, hz1G] using this

/-- The joint law of the two trajectories of the low-memory solver, run with an ideal generator and an ODE integrator that draws `q`
numbers: it is the law of the scheme with parabolas matched to a Brownian motion and draws read off from the increments of further
components of the Brownian motion, and of Euler-Maruyama fed with the increments of the first components. -/
theorem ram_transfer_draw {ΩB : Type*} [MeasurableSpace ΩB] {P : Measure ΩB} {B : Fin (m + q) → ℝ≥0 → ΩB → ℝ} (hB : IsBrownianVec B P)
    {f : Field d} (hf : Continuous (Function.uncurry f)) (S : Mat d m) (x0 : Vec d) {Ω : Type*} [MeasurableSpace Ω] {Q : Measure Ω}
    {R : Ω → Rng} (hR : IdealNormals Q R) {δ η : ℝ} (hδ : 0 < δ) {N r : ℕ} (hr : 0 < r) (hη : η = δ / r) (key : Key)
    (odeInt : Ω → OdeInt (Vec d) d) {J : ℕ → Vec d → Vec m → Vec m → Vec q → Vec d}
    (hJ : ∀ k < N, Measurable fun p : Vec d × Vec m × Vec m × Vec q => J k p.1 p.2.1 p.2.2.1 p.2.2.2)
    (hint : ∀ ω κ x, ∀ k < N, ∀ a b, odeInt ω κ x (additiveField f S (k * δ) δ a b) δ = J k x a b ((R ω).normalVec κ q)) {n : ℕ} (hn : n ≤ N) :
    ∃ c0 : ΩB → ℕ → Vec (m + q) × Vec (m + q), (∀ᵐ ω ∂P, ∀ k < N,
        SameEndAndArea (fun t => Foster.evalParabola t δ (c0 ω k).1 (c0 ω k).2) (fun t j => B j t.toNNReal ω) (k * δ) δ) ∧
      ∀ (Y0 : ℕ → ΩB → Vec d) (z0 : ΩB → Vec d), (∀ ω, Y0 0 ω = x0) →
        (∀ k < N, ∀ ω, Y0 (k + 1) ω = J k (Y0 k ω) (firstV (c0 ω k).1) (firstV (c0 ω k).2) ((1 / Real.sqrt δ) • lastV (c0 ω k).1)) →
        (∀ ω, ∃ ts xs, emPathwise ((List.range (N * r)).map fun k j => B (Fin.castAdd q j) ((k + 1 : ℕ) * η).toNNReal ω -
          B (Fin.castAdd q j) (k * η).toNNReal ω) x0 f (fun _ _ => S) η (N * r) = .ok (ts, xs) ∧ xs[n * r]? = some (z0 ω)) →
        ∃ y z : Ω → Vec d,
          (∀ ω, ∃ ts traj traj2, ramSolver (R ω) key f (fun _ _ => S) x0 x0 δ N r (odeInt ω) = .ok (ts, traj, traj2) ∧
            ts[n]? = some (n * δ) ∧ traj[n]? = some (y ω) ∧ traj2[n]? = some (z ω)) ∧
          IdentDistrib (fun ω => (Y0 n ω, z0 ω)) (fun ω => (y ω, z ω)) P Q := by
  obtain ⟨c0, h1, h2⟩ := ram_transfer_state hB hf S x0 hR hδ hr hη key x0 id (fun _ _ => True) trivial odeInt hJ
    (fun ω κ x k hk _ a b => ⟨trivial, hint ω κ x k hk a b⟩) hn
  refine ⟨c0, h1, fun Y0 z0 hY0 hYs hz1 => ?_⟩
  obtain ⟨y, z, h3, -, -, h4⟩ := h2 Y0 z0 hY0 hYs hz1
  exact ⟨y, z, h3, h4⟩

end Verif
