import Verif.Spec.Keys
import Verif.Lemmas.Gaussian
import Verif.Lemmas.SdeSolver
import Verif.Model.EkfSolvers
import Verif.Model.Ssm
import Verif.Model.EulerMaruyama
import Verif.Model.Taylor15

/-!
# Property C06: no random key is used twice
-/

namespace Verif

open Jnp Matrix Spec MeasureTheory ProbabilityTheory

theorem not_ancestor_of_diverge {k k' : Key} (h : k.Diverge k') : ¬ Ancestor k k' := by
  rintro ⟨c, _, hc⟩
  obtain ⟨r, a, b, n, i, j, hij, rfl, rfl⟩ := h
  have h1 : b ++ (n, j) :: r = (c ++ a) ++ (n, i) :: r := by rw [hc]; simp
  have hl : b.length = (c ++ a).length := by
    have := congrArg List.length h1; simp at this; simp; omega
  have := List.append_inj_right h1 hl
  simp at this
  exact hij this.symm

theorem not_ancestor_self (k : Key) : ¬ Ancestor k k := by
  rintro ⟨a, ha, h⟩
  have := congrArg List.length h
  simp at this
  exact ha this

theorem FreshKeys.of_pairwise {L : List (Key × List ℕ)} (h : L.Pairwise fun p q => p.1.Diverge q.1) : FreshKeys L := by
  refine ⟨h, fun p hp q hq => ?_⟩
  by_cases hpq : p = q
  · subst hpq; exact not_ancestor_self _
  · haveI : Std.Symm fun p q : Key × List ℕ => p.1.Diverge q.1 := ⟨fun _ _ hab => hab.symm⟩
    exact not_ancestor_of_diverge (h.forall hp hq hpq)

theorem Footprint.mono {A : Sort*} {F : Rng → A} {L L' : List (Key × List ℕ)} (h : Footprint F L) (hL : ∀ p ∈ L, p ∈ L') :
    Footprint F L' := fun r r' hr => h r r' fun p hp => hr p (hL p hp)

theorem Footprint.normalVec (key : Key) (n : ℕ) : Footprint (fun r => r.normalVec key n) [(key, [n])] := by
  intro r r' h; funext j; exact h (key, [n]) (by simp) j

theorem Footprint.normalMat (key : Key) (n m : ℕ) : Footprint (fun r => r.normalMat key n m) [(key, [n, m])] := by
  intro r r' h
  funext i j
  exact h (key, [n, m]) (by simp) (i * m + j)

theorem Footprint.multivariateNormal (la : LinAlg) (key : Key) {n : ℕ} (m : Vec n) (C : Mat n n) :
    Footprint (fun r => r.multivariateNormal la key m C) [(key, [n])] := by
  intro r r' h
  simp only [Rng.multivariateNormal]
  rw [show r.normalVec key n = r'.normalVec key n from Footprint.normalVec key n r r' h]

/-! ## The pieces -/

/-- Keys and shapes drawn by one call of the Brownian approximation. -/
structure DrawsOf {C : Type} {m : ℕ} (bm : BmApprox C m) (draws : Key → List (Key × List ℕ)) : Prop where
  footprint : ∀ key dt, Footprint (fun r => bm.coeffs r key dt) (draws key)
  below : ∀ key, ∀ p ∈ draws key, ∃ a : Key, p.1 = a ++ key
  fresh : ∀ key, (draws key).Pairwise fun p q => p.1.Diverge q.1

/-- `get_approx` draws once, with the given key. -/
theorem C06_approx (dim : ℕ) : DrawsOf (Foster.getApprox dim) fun key => [(key, [2, dim])] where
  footprint key dt r r' h := by
    simp only [Foster.getApprox, Foster.parabolas, Footprint.normalMat key 2 dim r r' h]
  below key p hp := ⟨[], by simp at hp; simp [hp]⟩
  fresh key := by simp

/-- `get_approx_and_brownian` draws once, with the given key. -/
theorem C06_approx_and_brownian (dim N : ℕ) :
    DrawsOf (Foster.getApproxAndBrownian dim N) fun key => [(key, [N, dim])] where
  footprint key dt r r' h := by
    simp only [Foster.getApproxAndBrownian, Foster.parabolasAndBrownian, Footprint.normalMat key N dim r r' h]
  below key p hp := ⟨[], by simp at hp; simp [hp]⟩
  fresh key := by simp

/-- `get_approx_fine` draws once with every child of the given key, and not with the key itself. -/
theorem C06_approx_fine (dim N : ℕ) :
    DrawsOf (Foster.getApproxFine dim N) fun key => (List.range N).map fun k => (key.child N k, [2, dim]) where
  footprint key dt r r' h := by
    have : (key.split N).map (fun k => Foster.parabolas dim r k (dt / N)) =
        (key.split N).map (fun k => Foster.parabolas dim r' k (dt / N)) := by
      refine List.map_congr_left fun k hk => ?_
      obtain ⟨j, hj, rfl⟩ := List.mem_map.mp hk
      refine (C06_approx dim).footprint (key.child N j) (dt / N) r r' fun p hp i => h p ?_ i
      simp only [List.mem_singleton] at hp
      exact List.mem_map.mpr ⟨j, hj, hp.symm⟩
    simp only [Foster.getApproxFine, Foster.parabolasFine, this]
  below key p hp := by
    obtain ⟨j, _, rfl⟩ := List.mem_map.mp hp
    exact ⟨[(N, j)], rfl⟩
  fresh key := by
    rw [List.pairwise_map]
    exact List.nodup_range.imp fun h => Key.diverge_child key N _ _ h

/-- An ODE integrator that draws at most once, with the key it is given. -/
def DrawsOnce {X : Type} {d : ℕ} (odeInt : Rng → OdeInt X d) (sh : List ℕ) : Prop :=
  ∀ key x vf T, Footprint (fun r => odeInt r key x vf T) [(key, sh)]

theorem finish_footprint (la : LinAlg) (key : Key) (sqrt : Bool) {dim r : ℕ} (f : Gauss (dim * (r + 2))) :
    Footprint (fun rng => Ekf.finish la rng (some key) sqrt f) [(key, [dim * (r + 2)])] := by
  intro r1 r2 h
  simp only [Ekf.finish]
  have := Footprint.multivariateNormal la key 0 1 r1 r2 h
  simp only at this
  rw [this]

/-- The sampling EKF0 and EKF1 solvers draw once, with their key, a vector as long as the filter state (the size of the
prior). `D` is the value used by the caller when the solver raises. -/
theorem C06_ekf (la : LinAlg) {dim : ℕ} (N : ℕ) (sqrt : Bool) (n : ℕ) (p : Prior (dim * (n + 2))) (hd : dim ≠ 0)
    (noise : Option DynMat) (D : Vec dim) :
    DrawsOnce (fun rng => fun key x vf T =>
      ((Ekf.ekf0 la rng (some key) x vf (T / N) N sqrt (some ⟨_, p⟩) noise).toOption.getD D)) [dim * (n + 2)] ∧
    DrawsOnce (fun rng => fun key x vf T =>
      ((Ekf.ekf1 la rng (some key) x vf (T / N) N sqrt (some ⟨_, p⟩) noise).toOption.getD D)) [dim * (n + 2)] := by
  have hdiv : dim * (n + 2) / dim = n + 2 := Nat.mul_div_cancel_left _ (by omega)
  constructor
  · intro key x vf T r r' h
    simp only [Ekf.ekf0, hd, if_false, hdiv]
    rcases n with _ | _ | n
    · cases hs : Ekf.solver la (Ekf.init2 x vf) vf (T / N) N sqrt true (some ⟨_, p⟩) noise with
      | error e => rfl
      | ok f => 
        have := finish_footprint la key sqrt f r r' h
        simp only [bind, Except.bind, pure, Except.pure, this]
    · cases hs : Ekf.solver la (Ekf.init3 x vf) vf (T / N) N sqrt true (some ⟨_, p⟩) noise with
      | error e => rfl
      | ok f => 
        have := finish_footprint la key sqrt f r r' h
        simp only [bind, Except.bind, pure, Except.pure, this]
    · rfl
  · intro key x vf T r r' h
    simp only [Ekf.ekf1, hd, if_false, hdiv]
    rcases n with _ | _ | n
    · cases hs : Ekf.solver la (Ekf.init2 x vf) vf (T / N) N sqrt false (some ⟨_, p⟩) noise with
      | error e => rfl
      | ok f => 
        have := finish_footprint la key sqrt f r r' h
        simp only [bind, Except.bind, pure, Except.pure, this]
    · cases hs : Ekf.solver la (Ekf.init3 x vf) vf (T / N) N sqrt false (some ⟨_, p⟩) noise with
      | error e => rfl
      | ok f => 
        have := finish_footprint la key sqrt f r r' h
        simp only [bind, Except.bind, pure, Except.pure, this]
    · show (Except.toOption (do
          let f ← Ekf.solver la (Ekf.init4 (r := n) x vf) vf (T / N) N sqrt false (some ⟨_, p⟩) noise
          pure (Ekf.finish la r (some key) sqrt f))).getD D = (Except.toOption (do
          let f ← Ekf.solver la (Ekf.init4 (r := n) x vf) vf (T / N) N sqrt false (some ⟨_, p⟩) noise
          pure (Ekf.finish la r' (some key) sqrt f))).getD D
      cases hs : Ekf.solver la (Ekf.init4 (r := n) x vf) vf (T / N) N sqrt false (some ⟨_, p⟩) noise with
      | error e => rfl
      | ok f => 
        have := finish_footprint la key sqrt f r r' h
        simp only [bind, Except.bind, pure, Except.pure, this]

/-- The Algorithm 3 solvers draw once, with their key. -/
theorem C06_ekf_2 (la : LinAlg) (EKF0 : Bool) {dim : ℕ} (N : ℕ) (sqrt : Bool) (prior : Option DynPrior)
    (noise : Option DynMat) (D : Ekf.State3 dim) :
    DrawsOnce (fun rng => fun key x vf T =>
      ((Ekf.ekf2 la rng EKF0 (some key) x vf (T / N) N sqrt prior noise).toOption.getD D)) [dim * (0 + 2)] := by
  intro key x vf T r r' h
  simp only [Ekf.ekf2]
  cases hs : Ekf.solver la (Ekf.init32 la EKF0 x.2.1 x.2.2 vf sqrt) vf (T / N) N sqrt EKF0 prior noise with
  | error e => rfl
  | ok f =>
    simp only [bind, Except.bind, pure, Except.pure, Ekf.finish2]
    have := Footprint.multivariateNormal la key 0 1 r r' h
    simp only at this
    rw [this]

/-! ## Whole runs -/

/-- The draws of one run of `sde_solver`. -/
def sdeDraws (draws : Key → List (Key × List ℕ)) (sh : List ℕ) (key : Key) (N : ℕ) : List (Key × List ℕ) :=
  (List.range N).flatMap fun k =>
    draws ((key.child N k).child 2 0) ++ [((key.child N k).child 2 1, sh)]

theorem pairwise_flatMap_range {A : Type*} {R : A → A → Prop} (N : ℕ) (f : ℕ → List A)
    (h1 : ∀ k < N, (f k).Pairwise R) (h2 : ∀ i < N, ∀ j < N, i ≠ j → ∀ p ∈ f i, ∀ q ∈ f j, R p q) :
    ((List.range N).flatMap f).Pairwise R := by
  rw [List.pairwise_flatMap]
  refine ⟨fun k hk => h1 k (List.mem_range.mp hk), ?_⟩
  refine List.Pairwise.imp_of_mem (fun {a b} ha hb hab => ?_) List.nodup_range
  exact fun p hp q hq => h2 a (List.mem_range.mp ha) b (List.mem_range.mp hb) hab p hp q hq

theorem sdeDraws_below {C : Type} {m : ℕ} {bm : BmApprox C m} {draws : Key → List (Key × List ℕ)} (hb : DrawsOf bm draws)
    (sh : List ℕ) (key : Key) (N k : ℕ) (p : Key × List ℕ)
    (hp : p ∈ draws ((key.child N k).child 2 0) ++ [((key.child N k).child 2 1, sh)]) :
    ∃ a : Key, p.1 = a ++ key.child N k := by
  rcases List.mem_append.mp hp with h | h
  · obtain ⟨a, ha⟩ := hb.below _ _ h
    exact ⟨a ++ [(2, 0)], by rw [ha]; simp [Key.child]⟩
  · simp only [List.mem_singleton] at h
    exact ⟨[(2, 1)], by rw [h]; rfl⟩

/-- C06: a run of `sde_solver` with any Brownian approximation and integrator that use their own key correctly looks only at
the listed draws, and these use pairwise diverging keys none of which is split further; the root key is not drawn from. -/
theorem C06_sde_solver {X C : Type} {d m : ℕ} (bm : BmApprox C m) (draws : Key → List (Key × List ℕ))
    (hb : DrawsOf bm draws) (odeInt : Rng → OdeInt X d) (sh : List ℕ) (ho : DrawsOnce odeInt sh) (key : Key)
    (drift : Field d) (sigma : Diffusion d m) (x0 : X) (δ : ℝ) (N : ℕ) :
    Footprint (fun r => sdeSolver r key drift sigma x0 bm δ N (odeInt r)) (sdeDraws draws sh key N) ∧
    FreshKeys (sdeDraws draws sh key N) ∧ ∀ p ∈ sdeDraws draws sh key N, p.1 ≠ key := by
  refine ⟨?_, ?_, ?_⟩
  · intro r r' h
    simp only [sdeSolver_eq]
    have : ∀ x, scan (sdeStep r key drift sigma bm δ N (odeInt r)) x (List.range N) =
        scan (sdeStep r' key drift sigma bm δ N (odeInt r')) x (List.range N) := by
      intro x
      refine scan_congr _ _ fun k hk s => ?_
      have hc : bm.coeffs r ((key.child N k).child 2 0) δ = bm.coeffs r' ((key.child N k).child 2 0) δ := by
        refine hb.footprint ((key.child N k).child 2 0) δ r r' fun p hp => h p ?_
        exact List.mem_flatMap.mpr ⟨k, hk, List.mem_append_left _ hp⟩
      have ho' := ho ((key.child N k).child 2 1) s
        (intervalField drift sigma bm δ (bm.coeffs r' ((key.child N k).child 2 0) δ) (k * δ)) δ r r' fun p hp => h p
          (List.mem_flatMap.mpr ⟨k, hk, List.mem_append_right _ hp⟩)
      simp only at ho'
      simp only [sdeStep, sdeBody, hc]
      rw [ho']
    rw [this]
  · refine FreshKeys.of_pairwise (pairwise_flatMap_range N _ (fun k _ => ?_) ?_)
    · rw [List.pairwise_append]
      refine ⟨hb.fresh _, by simp, fun p hp q hq => ?_⟩
      simp only [List.mem_singleton] at hq
      obtain ⟨a, ha⟩ := hb.below _ p hp
      rw [ha, hq]
      have := (Key.diverge_child (key.child N k) 2 0 1 (by norm_num)).ext a []
      exact this
    · intro i _ j _ hij p hp q hq
      obtain ⟨a, ha⟩ := sdeDraws_below hb sh key N i p hp
      obtain ⟨b, hb'⟩ := sdeDraws_below hb sh key N j q hq
      rw [ha, hb']
      exact (Key.diverge_child key N i j hij).ext a b
  · intro p hp he
    obtain ⟨k, _, hk⟩ := List.mem_flatMap.mp hp
    obtain ⟨a, ha⟩ := sdeDraws_below hb sh key N k p hk
    rw [he] at ha
    have := congrArg List.length ha
    simp only [Key.child, List.length_append, List.length_cons] at this
    omega

/-- C06 for Euler-Maruyama. -/
theorem C06_euler_maruyama {d m : ℕ} (key : Key) (x0 : Vec d) (drift : Field d) (sigma : Diffusion d m) (h : ℝ) (N : ℕ) :
    let L := (List.range N).map fun k => ((key.child N k).child 2 0, [m])
    Footprint (fun r => emSolver r key x0 drift sigma h N) L ∧ FreshKeys L := by
  refine ⟨?_, FreshKeys.of_pairwise ?_⟩
  · intro r r' hr
    unfold emSolver
    simp only [linspace_grid_dropLast, Key.split, zip_map_range, scan_map]
    congr 3
    refine scan_congr _ _ fun k hk s => ?_
    have := Footprint.normalVec ((key.child N k).child 2 0) m r r' fun p hp => hr p (by
      simp only [List.mem_singleton] at hp
      exact List.mem_map.mpr ⟨k, hk, hp.symm⟩)
    simp only [this]
  · rw [List.pairwise_map]
    refine List.nodup_range.imp fun h => ?_
    exact ((Key.diverge_child key N _ _ h).child_left 2 0).child_right 2 0

/-- C06 for the two 1.5 schemes. -/
theorem C06_taylor15 (la : LinAlg) {d m : ℕ} (key : Key) (h : ℝ) (N : ℕ) :
    (∀ (x0 : Vec d) (drift : Vec d → Vec d) (sigma : Vec d → Mat d m),
      Footprint (fun r => Diag15.solver la r key x0 drift sigma h N)
        ((List.range N).map fun k => ((key.child N k).child 1 0, [d + d]))) ∧
    (∀ (x0 : Vec (d + 1)) (drift : Vec (d + 1) → Vec (d + 1)) (sigma : Vec (d + 1) → Mat (d + 1) m),
      Footprint (fun r => Hypo15.solver la r key x0 drift sigma h N)
        ((List.range N).map fun k => ((key.child N k).child 1 0, [d + 1]))) ∧
    ∀ sh, FreshKeys ((List.range N).map fun k => ((key.child N k).child 1 0, sh)) := by
  refine ⟨?_, ?_, ?_⟩
  · intro x0 drift sigma r r' hr
    unfold Diag15.solver
    split
    · refine congrArg (fun z : Vec d × List (Vec d) => Except.ok (linspace 0 (N * h) (N + 1), insertArr z.2 x0)) ?_
      refine scan_congr _ _ fun k hk s => ?_
      obtain ⟨j, hj, rfl⟩ := List.mem_map.mp hk
      have := Footprint.multivariateNormal la ((key.child N j).child 1 0) 0 (Diag15.noiseCov d h) r r' fun p hp => hr p (by
        simp only [List.mem_singleton] at hp
        exact List.mem_map.mpr ⟨j, hj, hp.symm⟩)
      simp only [Diag15.body, this]
    · rfl
  · intro x0 drift sigma r r' hr
    unfold Hypo15.solver
    refine congrArg (fun z : Vec (d + 1) × List (Vec (d + 1)) => (linspace 0 (N * h) (N + 1), insertArr z.2 x0)) ?_
    refine scan_congr _ _ fun k hk s => ?_
    obtain ⟨j, hj, rfl⟩ := List.mem_map.mp hk
    have := Footprint.multivariateNormal la ((key.child N j).child 1 0) 0 (Hypo15.noiseCov drift sigma h s) r r' fun p hp =>
      hr p (by
        simp only [List.mem_singleton] at hp
        exact List.mem_map.mpr ⟨j, hj, hp.symm⟩)
    simp only [Hypo15.body, this]
  · intro sh
    refine FreshKeys.of_pairwise ?_
    rw [List.pairwise_map]
    refine List.nodup_range.imp fun h => ?_
    exact ((Key.diverge_child key N _ _ h).child_left 1 0).child_right 1 0

/-- C06 for the state-space parabola solver, with any integrator that draws once with its key (the filter wrappers do, when
they return). -/
theorem C06_ssm {X C : Type} {d m : ℕ} (solver : Rng → Ssm.SsmInt X C d m) (sh : List ℕ)
    (ho : ∀ k x dr sg T, Footprint (fun r => solver r k x dr sg T) [(k, sh)]) (key : Key) (drift : Field d)
    (sigma : Diffusion d m) (x0 : X) (δ : ℝ) (N : ℕ) :
    let L := (List.range N).map fun k => ((key.child N k).child 2 1, sh)
    Footprint (fun r => Ssm.sdeSolver key drift sigma x0 δ N (solver r)) L ∧ FreshKeys L := by
  refine ⟨?_, FreshKeys.of_pairwise ?_⟩
  · intro r r' hr
    simp only [Ssm.sdeSolver_eq]
    congr 3
    refine scan_congr _ _ fun k hk s => ?_
    have := ho ((key.child N k).child 2 1) s (fun z t => drift z (t + k * δ)) (fun z t => sigma z (t + k * δ)) δ r r'
      fun p hp => hr p (by
        simp only [List.mem_singleton] at hp
        exact List.mem_map.mpr ⟨k, hk, hp.symm⟩)
    simp only [Ssm.sdeBody, this]
  · rw [List.pairwise_map]
    refine List.nodup_range.imp fun h => ?_
    exact ((Key.diverge_child key N _ _ h).child_left 2 1).child_right 2 1

/-- C06, what it is for: all numbers of a fresh list of draws are independent standard normals. -/
theorem C06_fresh_draws_iid {Ω : Type*} [MeasurableSpace Ω] {P : Measure Ω} {R : Ω → Rng} (hR : IdealNormals P R)
    (L : List (Key × List ℕ)) (hL : FreshKeys L) :
    iIndepFun (fun (p : Σ a : Fin L.length, Fin (L.get a).2.prod) ω => (R ω).normal (L.get p.1).1 (L.get p.1).2 p.2) P ∧
    ∀ p : Σ a : Fin L.length, Fin (L.get a).2.prod,
      HasLaw (fun ω => (R ω).normal (L.get p.1).1 (L.get p.1).2 p.2) (gaussianReal 0 1) P := by
  refine ⟨hR.indep (fun a => (L.get a).1) (fun a => (L.get a).2) fun a b hab => ?_, fun p => hR.law _ _ _ p.2.2⟩
  have h := List.pairwise_iff_get.mp hL.diverge
  rcases lt_or_gt_of_ne hab with h' | h'
  · exact h a b h'
  · exact (h b a h').symm

/-- C06: the draws of a run with 3 intervals and 2 fine steps: 3 * (2 + 1) draws. -/
example : (sdeDraws (fun key => (List.range 2).map fun k => (key.child 2 k, [2, 1])) [4] [] 3).length = 9 := by decide

/-- The integrator of C06 can be the Euler solver, which draws nothing. -/
example {d : ℕ} : DrawsOnce (fun _ _ x vf T => (x + T • vf x 0 : Vec d)) [] := fun _ _ _ _ _ _ _ => rfl

end Verif
