import Verif.Lemmas.FineLaw
import Verif.Props.LowMemory
import Verif.Props.WeakEkf

/-! The law of the trajectories of the low-memory solver. -/

namespace Verif

open Matrix Spec Jnp Set MeasureTheory ProbabilityTheory Scripts Filter
open scoped NNReal

variable {d m : ℕ}

theorem flatten_blocks {A : Type} (a : ℕ → A) (N r : ℕ) :
    ((List.range N).map fun k => (List.range r).map fun i => a (k * r + i)).flatten = (List.range (N * r)).map a := by
  induction N with
  | zero => simp
  | succ N ih =>
    rw [List.range_succ, List.map_append, List.flatten_append, ih, Nat.succ_mul, List.range_add, List.map_append, List.map_map]
    simp [Function.comp_def]

/-- The coarse coefficients of all intervals as a function of all fine ones. -/
noncomputable def coarsen (δ : ℝ) (N r : ℕ) (z : Fin (N * r) × Fin m × Fin 2 → ℝ) : Fin N × Fin m × Fin 2 → ℝ := fun q =>
  let p := foldFine (m := m) δ r fun i => (fun j => if h : (q.1 : ℕ) * r + i < N * r then z (⟨q.1 * r + i, h⟩, j, 0) else 0,
    fun j => if h : (q.1 : ℕ) * r + i < N * r then z (⟨q.1 * r + i, h⟩, j, 1) else 0)
  ![p.1 q.2.1, p.2 q.2.1] q.2.2

theorem measurable_coarsen (δ : ℝ) (N r : ℕ) : Measurable (coarsen (m := m) δ N r) := by
  refine measurable_pi_lambda _ fun q => ?_
  have hz : ∀ (i : ℕ) (j : Fin m) (s : Fin 2), Measurable fun z : Fin (N * r) × Fin m × Fin 2 → ℝ =>
      if h : (q.1 : ℕ) * r + i < N * r then z (⟨q.1 * r + i, h⟩, j, s) else 0 := fun i j s => by
    split_ifs with h
    · exact measurable_pi_apply ((⟨q.1 * r + i, h⟩, j, s) : Fin (N * r) × Fin m × Fin 2)
    · exact measurable_const
  obtain ⟨k, j, s⟩ := q
  fin_cases s
  · simp only [coarsen, foldFine, Fin.zero_eta, cons_val_zero, Finset.sum_apply]
    exact Finset.measurable_fun_sum _ fun i _ => hz i j 0
  · simp only [coarsen, foldFine, Fin.mk_one, cons_val_one, cons_val_fin_one, Finset.sum_apply, Pi.smul_apply, Pi.sub_apply, Pi.add_apply,
      smul_eq_mul]
    have h1 : ∀ n : ℕ, Measurable fun z : Fin (N * r) × Fin m × Fin 2 → ℝ => ∑ i ∈ Finset.range n,
        (if h : (k : ℕ) * r + i < N * r then z (⟨k * r + i, h⟩, j, 0) else 0) := fun n =>
      Finset.measurable_fun_sum _ fun i _ => hz i j 0
    refine Measurable.const_mul (Measurable.sub (Measurable.const_mul (Finset.measurable_fun_sum _ fun i _ => ?_) _)
      (Measurable.const_mul (h1 r) _)) _
    exact (((h1 i).add ((hz i j 0).const_mul _)).add ((hz i j 1).const_mul _)).const_mul _

theorem foldFine_congr (δ : ℝ) {r : ℕ} {p p' : ℕ → Vec m × Vec m} (h : ∀ i < r, p i = p' i) : foldFine δ r p = foldFine δ r p' := by
  have h' : ∀ i ∈ Finset.range r, p i = p' i := fun i hi => h i (Finset.mem_range.mp hi)
  unfold foldFine
  rw [Finset.sum_congr rfl fun i hi => by rw [h' i hi]]
  congr 4
  refine Finset.sum_congr rfl fun i hi => ?_
  rw [h' i hi, Finset.sum_congr rfl fun l hl => by
    rw [h' l (Finset.mem_range.mpr ((Finset.mem_range.mp hl).trans (Finset.mem_range.mp hi)))]]

/-- The coarse coefficients drawn in an interval, from the fine ones. -/
theorem coeffs_fine {g : Rng} {key : Key} {δ : ℝ} {N r : ℕ} {c : ℕ → Vec m × Vec m}
    (hg : ∀ k < N, ∀ i < r, finePiece m r g ((key.child N k).child 2 0) δ i = c (k * r + i)) {k : ℕ} (hk : k < N) :
    ((Foster.getApproxFine m r).coeffs g ((key.child N k).child 2 0) δ).1 = (foldFine δ r fun i => c (k * r + i)).1 ∧
      ((Foster.getApproxFine m r).coeffs g ((key.child N k).child 2 0) δ).2.1 = (foldFine δ r fun i => c (k * r + i)).2 := by
  obtain ⟨e1, e2, -⟩ := coeffs_foldFine (m := m) r g ((key.child N k).child 2 0) δ
  rw [e1, e2, foldFine_congr δ fun i hi => hg k hk i hi]
  exact ⟨rfl, rfl⟩

theorem coarsen_apply (δ : ℝ) {N r : ℕ} (c : ℕ → Vec m × Vec m) {k : ℕ} (hk : k < N) (j : Fin m) (s : Fin 2) :
    coarsen δ N r (fun q : Fin (N * r) × Fin m × Fin 2 => ![(c q.1).1 q.2.1, (c q.1).2 q.2.1] q.2.2) (⟨k, hk⟩, j, s) =
      ![(foldFine δ r fun i => c (k * r + i)).1 j, (foldFine δ r fun i => c (k * r + i)).2 j] s := by
  have hlt : ∀ i < r, k * r + i < N * r := fun i hi => by
    have h3 : (k + 1) * r ≤ N * r := Nat.mul_le_mul_right r hk
    rw [Nat.succ_mul] at h3
    omega
  unfold coarsen
  simp only
  rw [foldFine_congr δ (p' := fun i => c (k * r + i)) fun i hi => by
    simp only [dif_pos (hlt i hi)]
    rfl]

/-- A step that is measurable in the coefficients of its own interval, as a function of all coefficients. -/
theorem measurable_stepOf {F : Vec d → Vec m → Vec m → Vec d} (hF : Measurable fun p : Vec d × Vec m × Vec m => F p.1 p.2.1 p.2.2) (k N : ℕ) :
    Measurable fun p : Vec d × (Fin N × Fin m × Fin 2 → ℝ) => F p.1
      (fun j => if h : k < N then p.2 (⟨k, h⟩, j, 0) else 0) (fun j => if h : k < N then p.2 (⟨k, h⟩, j, 1) else 0) := by
  have hm : ∀ (j : Fin m) (s : Fin 2), Measurable fun p : Vec d × (Fin N × Fin m × Fin 2 → ℝ) =>
      if h : k < N then p.2 (⟨k, h⟩, j, s) else 0 := fun j s => by
    split_ifs with h
    · exact (measurable_pi_apply ((⟨k, h⟩, j, s) : Fin N × Fin m × Fin 2)).comp measurable_snd
    · exact measurable_const
  have hG : ∀ s, Measurable fun (p : Vec d × (Fin N × Fin m × Fin 2 → ℝ)) (j : Fin m) => if h : k < N then p.2 (⟨k, h⟩, j, s) else 0 :=
    fun s => measurable_pi_lambda _ fun j => hm j s
  exact hF.comp (measurable_fst.prodMk ((hG 0).prodMk (hG 1)))

set_option maxHeartbeats 1000000 in
/-- The joint law of the two trajectories of the low-memory solver, run with an ideal generator: it is the law of `sde_solver` with
parabolas matched to a Brownian motion and of Euler-Maruyama fed with the increments of that Brownian motion. -/
theorem ram_transfer_of {ΩB : Type*} [MeasurableSpace ΩB] {P : Measure ΩB} {B : Fin m → ℝ≥0 → ΩB → ℝ} (hB : IsBrownianVec B P) {f : Field d}
    (hf : Continuous (Function.uncurry f)) (S : Mat d m) (x0 : Vec d) {Ω : Type*} [MeasurableSpace Ω] {Q : Measure Ω} {R : Ω → Rng}
    (hR : IdealNormals Q R) {δ η : ℝ} (hδ : 0 < δ) {N r : ℕ} (hr : 0 < r) (hη : η = δ / r) (key : Key) (odeInt : OdeInt (Vec d) d)
    {J : ℕ → Vec d → Vec m → Vec m → Vec d} (hJ : ∀ k < N, Measurable fun p : Vec d × Vec m × Vec m => J k p.1 p.2.1 p.2.2)
    (hint : ∀ κ x, ∀ k < N, ∀ a b, odeInt κ x (additiveField f S (k * δ) δ a b) δ = J k x a b) {n : ℕ} (hn : n ≤ N) :
    ∃ R0 : ΩB → Rng, (∀ᵐ ω ∂P, ∀ k < N, ∀ c, (sdeSolver (R0 ω) key f (fun _ _ => S) x0 (Foster.getApproxFine m r) δ N odeInt).2.2[k]? = some c →
        SameEndAndArea (fun t => (Foster.getApproxFine m r).eval t δ c) (fun t j => B j t.toNNReal ω) (k * δ) δ) ∧
      ∀ (y0 z0 : ΩB → Vec d), (∀ ω, (sdeSolver (R0 ω) key f (fun _ _ => S) x0 (Foster.getApproxFine m r) δ N odeInt).2.1[n]? = some (y0 ω)) →
        (∀ ω, ∃ ts xs, emPathwise ((List.range (N * r)).map fun k j => B j ((k + 1 : ℕ) * η).toNNReal ω - B j (k * η).toNNReal ω) x0 f
          (fun _ _ => S) η (N * r) = .ok (ts, xs) ∧ xs[n * r]? = some (z0 ω)) →
        ∃ y z : Ω → Vec d,
          (∀ ω, ∃ ts traj traj2, ramSolver (R ω) key f (fun _ _ => S) x0 x0 δ N r odeInt = .ok (ts, traj, traj2) ∧
            ts[n]? = some (n * δ) ∧ traj[n]? = some (y ω) ∧ traj2[n]? = some (z ω)) ∧
          IdentDistrib (fun ω => (y0 ω, z0 ω)) (fun ω => (y ω, z ω)) P Q := by
  have hr' : (1 : ℝ) ≤ r := by exact_mod_cast hr
  have hη0 : 0 < η := by rw [hη]; positivity
  have hrη : (r : ℝ) * η = δ := by rw [hη]; field_simp
  -- a generator on the space of the Brownian motion, with matched fine parabolas
  obtain ⟨c0, hc0⟩ : ∃ c0 : ΩB → ℕ → Vec m × Vec m, ∀ ω k, c0 ω k =
    ((fun j => B j (k * η + η).toNNReal ω) - (fun j => B j (k * η).toNNReal ω),
    fun j => Real.sqrt 6 * ((∫ t in (0 : ℝ)..η, (B j (k * η + t).toNNReal ω - B j (k * η).toNNReal ω)) / η -
      ((fun j => B j (k * η + η).toNNReal ω) - (fun j => B j (k * η).toNNReal ω)) j / 2)) := ⟨_, fun _ _ => rfl⟩
  have hm0 : ∀ ω k, SameEndAndArea (fun t => Foster.evalParabola t η (c0 ω k).1 (c0 ω k).2) (fun t j => B j t.toNNReal ω) (k * η) η :=
    fun ω k => by rw [hc0]; exact exists_sameEndAndArea hη0.ne' (fun t j => B j t.toNNReal ω) (k * η)
  choose R0 hR0 using fun ω => exists_rng_fine (m := m) key hδ N hr (c0 ω)
  -- the inputs on both sides
  obtain ⟨u0, hu0⟩ : ∃ u0 : ΩB → Fin (N * r) × Fin m × Fin 2 → ℝ, ∀ ω q, u0 ω q =
    ![(c0 ω q.1).1 q.2.1, (c0 ω q.1).2 q.2.1] q.2.2 := ⟨_, fun _ _ => rfl⟩
  obtain ⟨c1, hc1⟩ : ∃ c1 : Ω → ℕ → Vec m × Vec m, ∀ ω q, c1 ω q =
    finePiece m r (R ω) ((key.child N (q / r)).child 2 0) δ (q % r) := ⟨_, fun _ _ => rfl⟩
  obtain ⟨u1, hu1⟩ : ∃ u1 : Ω → Fin (N * r) × Fin m × Fin 2 → ℝ, ∀ ω q, u1 ω q =
    ![(c1 ω q.1).1 q.2.1, (c1 ω q.1).2 q.2.1] q.2.2 := ⟨_, fun _ _ => rfl⟩
  have hR1 : ∀ ω, ∀ k < N, ∀ i < r, finePiece m r (R ω) ((key.child N k).child 2 0) δ i = c1 ω (k * r + i) := fun ω k _ i hi => by
    rw [hc1, Nat.mul_comm, Nat.mul_add_div hr, Nat.div_eq_of_lt hi, add_zero, Nat.mul_add_mod, Nat.mod_eq_of_lt hi]
  have hid : IdentDistrib u0 u1 P Q := by
    have hl0 := C91_matched_law hB hη0 (N * r) (fun ω k => (c0 ω k).1) (fun ω k => (c0 ω k).2) (Eventually.of_forall fun ω k _ => hm0 ω k)
    have hl1 := fine_code_law (m := m) hR key hδ N hr
    rw [← hη] at hl1
    have e0 : u0 = fun ω q => ![(c0 ω q.1).1 q.2.1, (c0 ω q.1).2 q.2.1] q.2.2 := by funext ω q; exact hu0 ω q
    have e1 : u1 = fun ω q => ![(c1 ω q.1).1 q.2.1, (c1 ω q.1).2 q.2.1] q.2.2 := by funext ω q; exact hu1 ω q
    rw [e0, e1]
    simp only [hc1]
    exact hl0.identDistrib hl1
  -- the filter as a function of the inputs
  obtain ⟨Ψ, hΨ⟩ : ∃ Ψ : ℕ → Vec d → (Fin N × Fin m × Fin 2 → ℝ) → Vec d, ∀ k y z, Ψ k y z =
      if k < N then J k y (fun j => if h : k < N then z (⟨k, h⟩, j, 0) else 0)
        (fun j => if h : k < N then z (⟨k, h⟩, j, 1) else 0) else y := ⟨_, fun _ _ _ => rfl⟩
  obtain ⟨F, hF1, hF2⟩ := exists_scheme_map (N := N) (Ψ := Ψ) (fun k => by
    simp only [hΨ]
    by_cases hk : k < N
    · simp only [if_pos hk]
      exact measurable_stepOf (F := J k) (hJ k hk) k N
    · simp only [if_neg hk]
      exact measurable_fst) x0
  have hagg := fun (g : Rng) (c : ℕ → Vec m × Vec m) (hg : ∀ k < N, ∀ i < r, finePiece m r g ((key.child N k).child 2 0) δ i = c (k * r + i))
    (k : ℕ) (hk : k < N) => coeffs_fine hg hk
  have hcoarse := fun (c : ℕ → Vec m × Vec m) (k : ℕ) (hk : k < N) (j : Fin m) (s : Fin 2) => coarsen_apply δ (r := r) c hk j s
  have hFy : ∀ (g : Rng) (c : ℕ → Vec m × Vec m), (∀ k < N, ∀ i < r, finePiece m r g ((key.child N k).child 2 0) δ i = c (k * r + i)) →
      ∀ y, (sdeSolver g key f (fun _ _ => S) x0 (Foster.getApproxFine m r) δ N odeInt).2.1[n]? = some y →
        y = F n (coarsen δ N r fun q : Fin (N * r) × Fin m × Fin 2 => ![(c q.1).1 q.2.1, (c q.1).2 q.2.1] q.2.2) := by
    intro g c hg y hy
    obtain ⟨Y, hY1, hY2, hY3⟩ := sdeSolver_states g key f (fun _ _ => S) x0 (Foster.getApproxFine m r) δ N odeInt
    rw [Option.some.inj (hy.symm.trans (hY1 n hn))]
    refine hF2 Y _ hY2 (fun k hk => ?_) n hn
    obtain ⟨c', h3, h4⟩ := hY3 k hk
    rw [sdeSolver_coeffs, List.getElem?_map, List.getElem?_range hk] at h3
    have h5 : (Foster.getApproxFine m r).coeffs g ((key.child N k).child 2 0) δ = c' := Option.some.inj h3
    obtain ⟨h6, h7⟩ := hagg g c hg k hk
    rw [h5] at h6 h7
    have hfield : intervalField f (fun _ _ => S) (Foster.getApproxFine m r) δ c' (k * δ) = additiveField f S (k * δ) δ c'.1 c'.2.1 := rfl
    rw [h4, hfield, hint _ _ k hk, hΨ, h6, h7, if_pos hk]
    simp only [dif_pos hk, hcoarse c k hk]
    rfl
  -- the reference as a function of the inputs
  obtain ⟨Φ, hΦ⟩ : ∃ Φ : ℕ → Vec d → (Fin (N * r) × Fin m × Fin 2 → ℝ) → Vec d, ∀ k y z, Φ k y z =
      y + η • f y (k * η) + S *ᵥ (fun j => if h : k < N * r then z (⟨k, h⟩, j, 0) else 0) := ⟨_, fun _ _ _ => rfl⟩
  obtain ⟨G, hG1, hG2⟩ := exists_scheme_map (N := N * r) (Ψ := Φ) (fun k => by
    simp only [hΦ]
    have hfm : Measurable fun p : Vec d × (Fin (N * r) × Fin m × Fin 2 → ℝ) => f p.1 (k * η) := by
      have : Continuous fun x : Vec d => f x (k * η) := hf.comp (by fun_prop : Continuous fun x : Vec d => (x, (k : ℝ) * η))
      exact this.measurable.comp measurable_fst
    have hwm : Measurable fun (p : Vec d × (Fin (N * r) × Fin m × Fin 2 → ℝ)) (j : Fin m) =>
        if h : k < N * r then p.2 (⟨k, h⟩, j, 0) else 0 := measurable_pi_lambda _ fun j => by
      split_ifs with h
      · exact (measurable_pi_apply ((⟨k, h⟩, j, 0) : Fin (N * r) × Fin m × Fin 2)).comp measurable_snd
      · exact measurable_const
    have hSm : Measurable fun v : Vec m => S *ᵥ v := (by fun_prop : Continuous fun v : Vec m => S *ᵥ v).measurable
    exact (measurable_fst.add (hfm.const_smul η)).add (hSm.comp hwm)) x0
  have hGz : ∀ (c : ℕ → Vec m × Vec m) (ts : List ℝ) (xs : List (Vec d)) (z : Vec d),
      emPathwise ((List.range (N * r)).map fun q => (c q).1) x0 f (fun _ _ => S) η (N * r) = .ok (ts, xs) → xs[n * r]? = some z →
        z = G (n * r) fun q : Fin (N * r) × Fin m × Fin 2 => ![(c q.1).1 q.2.1, (c q.1).2 q.2.1] q.2.2 := by
    intro c ts xs z hts hxs
    obtain ⟨ts', Y, hY1, hY2, hY3⟩ := emPathwise_states (fun q => (c q).1) x0 f (fun _ _ => S) η (N * r)
    have hnr : n * r ≤ N * r := Nat.mul_le_mul_right r hn
    have e : xs = (List.range (N * r + 1)).map Y := (Prod.ext_iff.mp (Except.ok.inj (hts.symm.trans hY1))).2
    rw [e, List.getElem?_map, List.getElem?_range (by omega)] at hxs
    rw [← Option.some.inj hxs]
    refine hG2 Y _ hY2 (fun k hk => ?_) (n * r) hnr
    rw [hY3 k hk, hΦ]
    simp [hk]
  refine ⟨R0, ?_, fun y0 z0 hy1 hz1 => ?_⟩
  · have hcont : ∀ᵐ ω ∂P, ∀ j, Continuous fun t => B j t ω := ae_all_iff.mpr fun j => (hB.brownian j).cont
    filter_upwards [hcont] with ω hω k hk c hc
    rw [sdeSolver_coeffs, List.getElem?_map, List.getElem?_range hk] at hc
    have h5 : (Foster.getApproxFine m r).coeffs (R0 ω) ((key.child N k).child 2 0) δ = c := Option.some.inj hc
    obtain ⟨h6, h7⟩ := hagg (R0 ω) (c0 ω) (hR0 ω) k hk
    rw [h5] at h6 h7
    show SameEndAndArea (fun t => Foster.evalParabola t δ c.1 c.2.1) _ _ _
    rw [h6, h7]
    refine foldFine_matched hδ hr (fun j => ((hω j).comp continuous_real_toNNReal).continuousOn) (by positivity) fun i hi => ?_
    have := hm0 ω (k * r + i)
    rw [show ((k * r + i : ℕ) : ℝ) * η = k * δ + i * η by rw [← hrη]; push_cast; ring] at this
    rw [← hη]
    exact this
  have hy0F : ∀ ω, y0 ω = F n (coarsen δ N r (u0 ω)) := fun ω => by
    rw [show u0 ω = fun q => ![(c0 ω q.1).1 q.2.1, (c0 ω q.1).2 q.2.1] q.2.2 from funext (hu0 ω)]
    exact hFy (R0 ω) (c0 ω) (hR0 ω) (y0 ω) (hy1 ω)
  have hz0G : ∀ ω, z0 ω = G (n * r) (u0 ω) := fun ω => by
    rw [show u0 ω = fun q => ![(c0 ω q.1).1 q.2.1, (c0 ω q.1).2 q.2.1] q.2.2 from funext (hu0 ω)]
    obtain ⟨ts, xs, h3, h4⟩ := hz1 ω
    refine hGz (c0 ω) ts xs (z0 ω) ?_ h4
    rw [← h3]
    congr 2
    funext q j
    rw [hc0]
    simp only [Pi.sub_apply]
    rw [show ((q + 1 : ℕ) : ℝ) * η = q * η + η by push_cast; ring]
  choose tr ts2 xs g1 g2 g3 g4 using fun ω => C99_low_memory (R ω) key f (fun _ _ => S) x0 x0 δ N r hr odeInt
  choose Y hY1 hY2 hY3 using fun ω => sdeSolver_states (R ω) key f (fun _ _ => S) x0 (Foster.getApproxFine m r) δ N odeInt
  choose z hz using fun ω => Option.isSome_iff_exists.mp (g4 ω n hn).2
  have hy1F : ∀ ω, Y ω n = F n (coarsen δ N r (u1 ω)) := fun ω => by
    rw [show u1 ω = fun q => ![(c1 ω q.1).1 q.2.1, (c1 ω q.1).2 q.2.1] q.2.2 from funext (hu1 ω)]
    exact hFy (R ω) (c1 ω) (hR1 ω) (Y ω n) (hY1 ω n hn)
  have hz1G : ∀ ω, z ω = G (n * r) (u1 ω) := fun ω => by
    rw [show u1 ω = fun q => ![(c1 ω q.1).1 q.2.1, (c1 ω q.1).2 q.2.1] q.2.2 from funext (hu1 ω)]
    refine hGz (c1 ω) (ts2 ω) (xs ω) (z ω) ?_ (by rw [← (g4 ω n hn).1]; exact hz ω)
    have := g2 ω
    rw [sdeSolver_coeffs, List.map_map, ← hη] at this
    rw [← this, ← flatten_blocks (fun q => (c1 ω q).1)]
    congr 2
    refine List.map_congr_left fun k hk => ?_
    simp only [Function.comp_def]
    rw [(coeffs_foldFine (m := m) r (R ω) ((key.child N k).child 2 0) δ).2.2]
    refine List.map_congr_left fun i hi => ?_
    rw [hR1 ω k (List.mem_range.mp hk) i (List.mem_range.mp hi)]
  refine ⟨fun ω => Y ω n, z, fun ω => ⟨_, _, tr ω, g1 ω, ?_, hY1 ω n hn, hz ω⟩, ?_⟩
  · rw [(sdeSolver_scan (R ω) key f (fun _ _ => S) x0 (Foster.getApproxFine m r) δ N odeInt).1, linspace_grid, List.getElem?_map,
      List.getElem?_range (by omega)]
    rfl
  · have hem : Measurable fun u : Fin (N * r) × Fin m × Fin 2 → ℝ => (F n (coarsen δ N r u), G (n * r) u) :=
      ((hF1 n).comp (measurable_coarsen δ N r)).prodMk (hG1 (n * r))
    have := hid.comp hem
    simp only [Function.comp_def] at this
    simpa only [hy0F, hz0G, hy1F, hz1G] using this

/-- The joint law for EKF0, whose step is the trapezoidal scheme. -/
theorem ram_transfer {ΩB : Type*} [MeasurableSpace ΩB] {P : Measure ΩB} {B : Fin m → ℝ≥0 → ΩB → ℝ} (hB : IsBrownianVec B P) {f : Field d}
    (hf : Continuous (Function.uncurry f)) (S : Mat d m) (x0 : Vec d) {Ω : Type*} [MeasurableSpace Ω] {Q : Measure Ω} {R : Ω → Rng}
    (hR : IdealNormals Q R) {δ η : ℝ} (hδ : 0 < δ) {N M r : ℕ} (hr : 0 < r) (hη : η = δ / r) (key : Key) (odeInt : OdeInt (Vec d) d)
    (hint : ∀ k x vf, odeInt k x vf δ = (trapScheme vf (δ / M) x M).1) {n : ℕ} (hn : n ≤ N) :
    ∃ R0 : ΩB → Rng, (∀ᵐ ω ∂P, ∀ k < N, ∀ c, (sdeSolver (R0 ω) key f (fun _ _ => S) x0 (Foster.getApproxFine m r) δ N odeInt).2.2[k]? = some c →
        SameEndAndArea (fun t => (Foster.getApproxFine m r).eval t δ c) (fun t j => B j t.toNNReal ω) (k * δ) δ) ∧
      ∀ (y0 z0 : ΩB → Vec d), (∀ ω, (sdeSolver (R0 ω) key f (fun _ _ => S) x0 (Foster.getApproxFine m r) δ N odeInt).2.1[n]? = some (y0 ω)) →
        (∀ ω, ∃ ts xs, emPathwise ((List.range (N * r)).map fun k j => B j ((k + 1 : ℕ) * η).toNNReal ω - B j (k * η).toNNReal ω) x0 f
          (fun _ _ => S) η (N * r) = .ok (ts, xs) ∧ xs[n * r]? = some (z0 ω)) →
        ∃ y z : Ω → Vec d,
          (∀ ω, ∃ ts traj traj2, ramSolver (R ω) key f (fun _ _ => S) x0 x0 δ N r odeInt = .ok (ts, traj, traj2) ∧
            ts[n]? = some (n * δ) ∧ traj[n]? = some (y ω) ∧ traj2[n]? = some (z ω)) ∧
          IdentDistrib (fun ω => (y0 ω, z0 ω)) (fun ω => (y ω, z ω)) P Q :=
  ram_transfer_of hB hf S x0 hR hδ hr hη key odeInt (J := fun k x a b => (trapScheme (additiveField f S (k * δ) δ a b) (δ / M) x M).1)
    (fun k _ => (continuous_fst.comp (continuous_trapScheme hf S (k * δ) δ (δ / M) M)).measurable) (fun κ x _ _ _ _ => hint κ x _) hn

end Verif
