import Verif.Model.ScriptsPathwise
import Verif.Props.EulerMaruyama
import Verif.Props.Driver
import Verif.Props.Foster
import Verif.Props.Ito
import Verif.Model.Ivp

/-!
# C99, C101: the low-memory pathwise experiments
-/

namespace Verif

open Matrix Verif.Jnp Scripts

variable {d m : ℕ}

theorem scanE_length {S I : Type} {f : S → I → Except PyErr S} {s : S} {l : List I} {r : List S} (h : scanE f s l = .ok r) :
    r.length = l.length := by
  induction l generalizing s r with
  | nil => cases h; rfl
  | cons i is ih =>
    rw [scanE] at h
    cases hf : f s i with
    | error e => rw [hf] at h; cases h
    | ok s' =>
      rw [hf] at h
      change (do let rest ← scanE f s' is; pure (s' :: rest)) = _ at h
      cases hr : scanE f s' is with
      | error e => rw [hr] at h; cases h
      | ok rest =>
        rw [hr] at h
        cases h
        rw [List.length_cons, List.length_cons, ih hr]

/-- Two loops run side by side. -/
theorem scanE_pair {S T I : Type} {f : S → I → Except PyErr S} {g : T → I → Except PyErr T} {fg : S × T → I → Except PyErr (S × T)}
    (hfg : ∀ s t i, fg (s, t) i = do { let s' ← f s i; let t' ← g t i; return (s', t') })
    {s : S} {t : T} {l : List I} {a : List S} {b : List T} (ha : scanE f s l = .ok a) (hb : scanE g t l = .ok b) :
    scanE fg (s, t) l = .ok (a.zip b) := by
  induction l generalizing s t a b with
  | nil => cases ha; cases hb; rfl
  | cons i is ih =>
    rw [scanE] at ha hb ⊢
    rw [hfg]
    cases hf : f s i with
    | error e => rw [hf] at ha; cases ha
    | ok s' =>
      cases hg : g t i with
      | error e => rw [hg] at hb; cases hb
      | ok t' =>
        rw [hf] at ha
        rw [hg] at hb
        change (do let rest ← scanE f s' is; pure (s' :: rest)) = _ at ha
        change (do let rest ← scanE g t' is; pure (t' :: rest)) = _ at hb
        cases hr : scanE f s' is with
        | error e => rw [hr] at ha; cases ha
        | ok r =>
          cases hq : scanE g t' is with
          | error e => rw [hq] at hb; cases hb
          | ok q =>
            rw [hr] at ha
            rw [hq] at hb
            cases ha
            cases hb
            change (do let rest ← scanE fg (s', t') is; pure ((s', t') :: rest)) = _
            rw [ih hr hq]
            rfl

theorem scanE_pure {S I : Type} {f : S → I → Except PyErr S} {g : S → I → S} (h : ∀ s i, f s i = .ok (g s i)) (s : S) (l : List I) :
    scanE f s l = .ok (scan (fun s i => (g s i, g s i)) s l).2 := by
  induction l generalizing s with
  | nil => rfl
  | cons i is ih =>
    rw [scanE, h, scan_cons]
    change (do let rest ← scanE f (g s i) is; pure (g s i :: rest)) = _
    rw [ih]
    rfl

theorem scanE_map {S I J : Type} (f : S → J → Except PyErr S) (u : I → J) (s : S) (l : List I) :
    scanE (fun s i => f s (u i)) s l = scanE f s (l.map u) := by
  induction l generalizing s with
  | nil => rfl
  | cons i is ih => simp only [List.map_cons, scanE, ih]

theorem ramEm_go_eq (drift : Field d) (sigma : Diffusion d m) (delta : ℝ) (fine : ℕ) (x : Vec d) (l : List (List (Vec m) × ℝ)) :
    ramEm.go drift sigma delta fine x l = scanE (ramEmBody drift sigma delta fine) x l := by
  induction l generalizing x with
  | nil => rfl
  | cons i is ih => simp only [ramEm.go, scanE, ih]

theorem ramEm_eq (blocks : List (List (Vec m))) (init : Vec d) (drift : Field d) (sigma : Diffusion d m) (delta : ℝ) (N fine : ℕ) :
    ramEm blocks init drift sigma delta N fine = do
      let r ← scanE (ramEmBody drift sigma delta fine) init (blocks.zip (linspace 0 (N * delta) (N + 1)).dropLast)
      return insertArr r init := by
  simp only [ramEm, ramEm_go_eq]

/-- The trajectory of `sde_solver` without the progress bar. -/
theorem sdeSolver_scan {X C : Type} (rng : Rng) (key : Key) (drift : Field d) (sigma : Diffusion d m) (x0 : X) (bm : BmApprox C m)
    (δ : ℝ) (N : ℕ) (odeInt : OdeInt X d) :
    (sdeSolver rng key drift sigma x0 bm δ N odeInt).1 = linspace 0 (N * δ) (N + 1) ∧
    (sdeSolver rng key drift sigma x0 bm δ N odeInt).2.1 = insertArr (scan (fun x (inp : Key × ℝ) =>
      (odeInt (inp.1.child 2 1) x (intervalField drift sigma bm δ (bm.coeffs rng (inp.1.child 2 0) δ) inp.2) δ,
        odeInt (inp.1.child 2 1) x (intervalField drift sigma bm δ (bm.coeffs rng (inp.1.child 2 0) δ) inp.2) δ)) x0
      ((key.split N).zip (linspace 0 (N * δ) (N + 1)).dropLast)).2 x0 := by
  refine ⟨rfl, ?_⟩
  rw [sdeSolver_eq, linspace_grid_dropLast, Key.split, zip_map_range, scan_map]
  show x0 :: _ = x0 :: _
  congr 1
  generalize List.range N = l
  induction l generalizing x0 with
  | nil => rfl
  | cons k l ih =>
    rw [scan_cons, scan_cons, List.map_cons]
    exact congrArg₂ List.cons rfl (ih _)

/-- C99: one run of the low-memory solver, for any state carried by the integrator and any starting point of the reference. It never
raises; its grid and trajectory are those of `sde_solver` with the same key and the same Brownian approximation; and its reference
trajectory consists of every `fine`-th state of one Euler-Maruyama run over all fine increments of that very run. -/
theorem C99_low_memory {X : Type} (rng : Rng) (key : Key) (drift : Field d) (sigma : Diffusion d m) (init : X) (init2 : Vec d) (δ : ℝ)
    (N fine : ℕ) (hf : 1 ≤ fine) (odeInt : OdeInt X d) :
    let out := sdeSolver rng key drift sigma init (Foster.getApproxFine m fine) δ N odeInt
    ∃ traj2 ts2 xs, ramSolver rng key drift sigma init init2 δ N fine odeInt = .ok (out.1, out.2.1, traj2) ∧
      emPathwise (out.2.2.map fun c => c.2.2.1).flatten init2 drift sigma (δ / fine) (N * fine) = .ok (ts2, xs) ∧
      traj2.length = N + 1 ∧ ∀ k ≤ N, traj2[k]? = xs[k * fine]? ∧ (traj2[k]?).isSome := by
  intro out
  obtain ⟨e1, e2⟩ := sdeSolver_scan rng key drift sigma init (Foster.getApproxFine m fine) δ N odeInt
  have hc : out.2.2 = (List.range N).map fun k => (Foster.getApproxFine m fine).coeffs rng ((key.child N k).child 2 0) δ :=
    sdeSolver_coeffs rng key drift sigma init _ δ N odeInt
  have hbl : (out.2.2.map fun c => c.2.2.1).length = N := by rw [hc]; simp
  have hb : ∀ b ∈ (out.2.2.map fun c => c.2.2.1), b.length = fine := by
    intro b hb
    rw [hc, List.map_map, List.mem_map] at hb
    obtain ⟨k, -, rfl⟩ := hb
    show (Foster.parabolasFine m fine rng _ δ).2.2.1.length = fine
    rw [parabolasFine_eq]
    simp
  obtain ⟨ts2, xs, ys, h1, h2, h3, h4⟩ := C19_block_restart (out.2.2.map fun c => c.2.2.1) N fine hbl hf hb init2 drift sigma δ
  refine ⟨ys, ts2, xs, ?_, h1, h3, h4⟩
  rw [ramEm_eq] at h2
  have hz : (out.2.2.map fun c => c.2.2.1).zip (linspace 0 (N * δ) (N + 1)).dropLast =
      ((key.split N).zip (linspace 0 (N * δ) (N + 1)).dropLast).map fun i =>
        (((Foster.getApproxFine m fine).coeffs rng (i.1.child 2 0) δ).2.2.1, i.2) := by
    rw [hc, List.map_map, Key.split]
    generalize (linspace 0 (N * δ) (N + 1)).dropLast = g
    rw [List.zip_map_left, List.zip_map_left, List.map_map]
    rfl
  rw [hz, ← scanE_map (ramEmBody drift sigma δ fine) (fun i : Key × ℝ =>
    (((Foster.getApproxFine m fine).coeffs rng (i.1.child 2 0) δ).2.2.1, i.2))] at h2
  cases hr : scanE (fun s (i : Key × ℝ) => ramEmBody drift sigma δ fine s
      (((Foster.getApproxFine m fine).coeffs rng (i.1.child 2 0) δ).2.2.1, i.2)) init2
      ((key.split N).zip (linspace 0 (N * δ) (N + 1)).dropLast) with
  | error e => rw [hr] at h2; cases h2
  | ok r =>
    rw [hr] at h2
    cases h2
    have hp := scanE_pair (fg := ramBody rng drift sigma δ fine odeInt)
      (f := fun x (inp : Key × ℝ) => .ok (odeInt (inp.1.child 2 1) x
        (intervalField drift sigma (Foster.getApproxFine m fine) δ ((Foster.getApproxFine m fine).coeffs rng (inp.1.child 2 0) δ) inp.2) δ))
      (fun s t i => rfl) (scanE_pure (fun _ _ => rfl) init _) hr
    have hlen := scanE_length hr
    unfold ramSolver
    simp only [hp]
    show Except.ok (_, insertArr _ _, insertArr _ _) = Except.ok (_, _, _)
    rw [e2, List.map_fst_zip (by rw [hlen, scan_length]), List.map_snd_zip (by rw [hlen, scan_length])]
    rfl

/-- C99: the script that keeps all increments (`pathwise_convergence_experiment_2.py`) solves the given SDE for its reference, the
low-memory one the SDE with the Stratonovich drift (lines 76-77, "assuming additive noise"). For a diffusion that does not depend on the
state the two references are the same lists of points. -/
theorem C99_additive_reference {X : Type} (rng : Rng) (key : Key) (drift : Field d) (S : ℝ → Mat d m) (init : X) (init2 : Vec d) (δ : ℝ)
    (N fine : ℕ) (hf : 1 ≤ fine) (odeInt : OdeInt X d) :
    let p := toStratonovich drift fun _ t => S t
    let out := sdeSolver rng key p.1 p.2 init (Foster.getApproxFine m fine) δ N odeInt
    ∃ traj2 ts2 xs, ramSolver rng key p.1 p.2 init init2 δ N fine odeInt = .ok (out.1, out.2.1, traj2) ∧
      emPathwise (out.2.2.map fun c => c.2.2.1).flatten init2 drift (fun _ t => S t) (δ / fine) (N * fine) = .ok (ts2, xs) ∧
      ∀ k ≤ N, traj2[k]? = xs[k * fine]? ∧ (traj2[k]?).isSome := by
  intro p out
  have h1 : p.1 = drift := (C10_additive_noise drift S).2
  have h2 : p.2 = fun _ t => S t := rfl
  obtain ⟨traj2, ts2, xs, h3, h4, -, h5⟩ := C99_low_memory rng key p.1 p.2 init init2 δ N fine hf odeInt
  refine ⟨traj2, ts2, xs, h3, ?_, h5⟩
  rw [← h1, ← h2]
  exact h4

/-- C99: Euler-Maruyama against itself (`EM_FHN`). The first trajectory is Euler-Maruyama with step `δ` on the summed increments, the
second is every `fine`-th state of Euler-Maruyama with step `δ / fine` on the increments themselves; both read the increments of one and
the same path. -/
theorem C99_em_pair (rng : Rng) (key : Key) (drift : Field d) (sigma : Diffusion d m) (init : Vec d) (δ : ℝ) (N fine : ℕ) (hf : 1 ≤ fine) :
    let incs := fun k => ((Foster.getApproxFine m fine).coeffs rng ((key.child N k).child 2 0) δ).2.2.1
    ∃ ts traj1 traj2 ts1 xs1 ts2 xs2, emPairSolver rng key drift sigma init δ N fine = .ok (ts, traj1, traj2) ∧
      emPathwise ((List.range N).map fun k => (incs k).sum) init drift sigma δ N = .ok (ts1, xs1) ∧
      emPathwise ((List.range N).map incs).flatten init drift sigma (δ / fine) (N * fine) = .ok (ts2, xs2) ∧
      traj1.length = N + 1 ∧ traj2.length = N + 1 ∧
      ∀ k ≤ N, ts[k]? = some (k * δ) ∧ traj1[k]? = xs1[k]? ∧ traj2[k]? = xs2[k * fine]? ∧ (traj1[k]?).isSome ∧ (traj2[k]?).isSome := by
  intro incs
  have hincs : ∀ k, (incs k).length = fine := fun k => by
    show (Foster.parabolasFine m fine rng _ δ).2.2.1.length = fine
    rw [parabolasFine_eq]
    simp
  obtain ⟨ts1, xs1, ys1, a1, a2, a3, a4⟩ := C19_block_restart ((List.range N).map fun k => [(incs k).sum]) N 1 (by simp) le_rfl
    (by simp) init drift sigma δ
  obtain ⟨ts2, xs2, ys2, b1, b2, b3, b4⟩ := C19_block_restart ((List.range N).map incs) N fine (by simp) hf
    (by simpa using fun k _ => hincs k) init drift sigma δ
  have hfl : ((List.range N).map fun k => [(incs k).sum]).flatten = (List.range N).map fun k => (incs k).sum := by
    rw [← List.flatMap_def, List.map_eq_flatMap]
  rw [hfl, Nat.cast_one, div_one, mul_one] at a1
  have hz : ∀ u : List (Vec m) → List (Vec m), ((List.range N).map fun k => u (incs k)).zip (linspace 0 (N * δ) (N + 1)).dropLast =
      ((key.split N).zip (linspace 0 (N * δ) (N + 1)).dropLast).map fun i =>
        (u ((Foster.getApproxFine m fine).coeffs rng (i.1.child 2 0) δ).2.2.1, i.2) := fun u => by
    rw [Key.split]
    generalize (linspace 0 (N * δ) (N + 1)).dropLast = g
    rw [List.zip_map_left, List.zip_map_left, List.map_map]
    rfl
  rw [ramEm_eq, hz fun l => [l.sum], ← scanE_map (ramEmBody drift sigma δ 1) (fun i : Key × ℝ =>
    ([((Foster.getApproxFine m fine).coeffs rng (i.1.child 2 0) δ).2.2.1.sum], i.2))] at a2
  rw [ramEm_eq, hz fun l => l, ← scanE_map (ramEmBody drift sigma δ fine) (fun i : Key × ℝ =>
    (((Foster.getApproxFine m fine).coeffs rng (i.1.child 2 0) δ).2.2.1, i.2))] at b2
  cases hr : scanE (fun s (i : Key × ℝ) => ramEmBody drift sigma δ 1 s
      ([((Foster.getApproxFine m fine).coeffs rng (i.1.child 2 0) δ).2.2.1.sum], i.2)) init
      ((key.split N).zip (linspace 0 (N * δ) (N + 1)).dropLast) with
  | error e => rw [hr] at a2; cases a2
  | ok r =>
    rw [hr] at a2
    cases a2
    cases hq : scanE (fun s (i : Key × ℝ) => ramEmBody drift sigma δ fine s
        (((Foster.getApproxFine m fine).coeffs rng (i.1.child 2 0) δ).2.2.1, i.2)) init
        ((key.split N).zip (linspace 0 (N * δ) (N + 1)).dropLast) with
    | error e => rw [hq] at b2; cases b2
    | ok q =>
      rw [hq] at b2
      cases b2
      have hp := scanE_pair (fg := emPairBody rng drift sigma δ fine) (fun s t i => by
        unfold emPairBody
        conv_rhs => rw [show ramEmBody drift sigma δ 1 s
          ([((Foster.getApproxFine m fine).coeffs rng (i.1.child 2 0) δ).2.2.1.sum], i.2) = (do
            let (_, path) ← emPathwise [((Foster.getApproxFine m fine).coeffs rng (i.1.child 2 0) δ).2.2.1.sum] s
              (fun z t => drift z (t + i.2)) (fun z t => sigma z (t + i.2)) δ 1
            return path.getLastD s) by unfold ramEmBody; simp only [Nat.cast_one, div_one]]
        simp only [bind_assoc, pure_bind]) hr hq
      have h1 := scanE_length hr
      have h2 := scanE_length hq
      refine ⟨linspace 0 (N * δ) (N + 1), insertArr r init, insertArr q init, ts1, xs1, ts2, xs2, ?_, a1, b1, a3, b3, fun k hk => ?_⟩
      · unfold emPairSolver
        simp only [hp]
        show Except.ok (_, insertArr _ _, insertArr _ _) = Except.ok (_, _, _)
        rw [List.map_fst_zip (by rw [h1, h2]), List.map_snd_zip (by rw [h1, h2])]
      · refine ⟨?_, by simpa using (a4 k hk).1, (b4 k hk).1, (a4 k hk).2, (b4 k hk).2⟩
        rw [linspace_grid, List.getElem?_map, List.getElem?_range (by omega)]
        rfl

/-- C99: the FitzHugh-Nagumo problem of the scripts, sixteen intervals, sixteen fine steps on each. -/
example (rng : Rng) (odeInt : OdeInt (Vec 2) 2) : ∃ ts traj traj2,
    ramSolver rng [] Ivp.Fhn.drift Ivp.Fhn.sigma Ivp.Fhn.x0 Ivp.Fhn.x0 (1 / 16) 16 16 odeInt = .ok (ts, traj, traj2) ∧ traj2.length = 17 := by
  obtain ⟨traj2, _, _, h, -, h', -⟩ := C99_low_memory rng [] Ivp.Fhn.drift Ivp.Fhn.sigma Ivp.Fhn.x0 Ivp.Fhn.x0 (1 / 16) 16 16 (by norm_num) odeInt
  exact ⟨_, _, _, h, h'⟩

/-! ## C101 -/

theorem mapM_ok {A B : Type} {f : A → Except PyErr B} {g : A → B} (l : List A) (h : ∀ a ∈ l, f a = .ok (g a)) : l.mapM f = .ok (l.map g) := by
  induction l with
  | nil => rfl
  | cons a l ih =>
    rw [List.mapM_cons, h a (by simp), ih fun b hb => h b (by simp [hb])]
    rfl

/-- C101, the part that holds: the saved solutions are, key by key, the sample components of `sde_solver`; the saved reference is the
Euler-Maruyama trajectory on the Brownian path of the first key. -/
theorem C101_partial (rng : Rng) (k0 : Key) (keys : List Key) (drift : Field d) (sigma : Diffusion d m) (init : Ekf.State3 d) (δ : ℝ)
    (N fine : ℕ) (hf : 1 ≤ fine) (odeInt : OdeInt (Ekf.State3 d) d) :
    ∃ sol2 ts2 xs, ram2Experiment rng (k0 :: keys) drift sigma init δ N fine odeInt =
        .ok ((k0 :: keys).map fun k => (sdeSolver rng k drift sigma init (Foster.getApproxFine m fine) δ N odeInt).2.1.map (·.1), sol2) ∧
      emPathwise ((sdeSolver rng k0 drift sigma init (Foster.getApproxFine m fine) δ N odeInt).2.2.map fun c => c.2.2.1).flatten
        init.1 drift sigma (δ / fine) (N * fine) = .ok (ts2, xs) ∧
      sol2.length = N + 1 ∧ ∀ k ≤ N, sol2[k]? = xs[k * fine]? := by
  choose tr ts xs h1 h2 h3 h4 using fun k => C99_low_memory rng k drift sigma init init.1 δ N fine hf odeInt
  refine ⟨tr k0, ts k0, xs k0, ?_, h2 k0, h3 k0, fun k hk => (h4 k0 k hk).1⟩
  unfold ram2Experiment
  rw [mapM_ok (k0 :: keys) fun k _ => h1 k]
  show Except.ok (_, _) = Except.ok (_, _)
  simp only [List.map_cons, List.map_map, List.headD_cons]
  rfl

/-- C101 fails: with two keys, the saved reference is not the Euler-Maruyama trajectory that belongs to the second solution. -/
theorem C101_fails : ¬ ∀ (rng : Rng) (keys : List Key) (drift : Field 1) (sigma : Diffusion 1 1) (init : Ekf.State3 1) (δ : ℝ)
    (N fine : ℕ) (odeInt : OdeInt (Ekf.State3 1) 1) (sols : List (List (Vec 1))) (sol2 : List (Vec 1)), 0 < δ → 1 ≤ fine →
    ram2Experiment rng keys drift sigma init δ N fine odeInt = .ok (sols, sol2) → ∀ k ∈ keys, ∀ ts2 xs,
      emPathwise ((sdeSolver rng k drift sigma init (Foster.getApproxFine 1 fine) δ N odeInt).2.2.map fun c => c.2.2.1).flatten
        init.1 drift sigma (δ / fine) (N * fine) = .ok (ts2, xs) → ∀ n ≤ N, sol2[n]? = xs[n * fine]? := by
  intro hall
  obtain ⟨rng, hrng⟩ : ∃ rng : Rng, rng = ⟨fun k _ _ => if k = ((((Key.child [] 2 1).child 1 0).child 2 0).child 1 0) then 1 else 0⟩ := ⟨_, rfl⟩
  obtain ⟨sol2, ts2, xs, h1, h2, -, h4⟩ := C101_partial (d := 1) (m := 1) rng (Key.child [] 2 0) [Key.child [] 2 1] (fun _ _ => 0) (fun _ _ => 1)
    (0, 0, 0) 1 1 1 le_rfl (fun _ x _ _ => x)
  obtain ⟨_, ts3, xs3, -, h5, -, -⟩ := C101_partial (d := 1) (m := 1) rng (Key.child [] 2 1) [] (fun _ _ => 0) (fun _ _ => 1)
    (0, 0, 0) 1 1 1 le_rfl (fun _ x _ _ => x)
  have h6 := hall rng _ _ _ _ _ _ _ _ _ _ one_pos le_rfl h1 (Key.child [] 2 1) (by simp) ts3 xs3 h5 1 le_rfl
  have h7 := h6.symm.trans (h4 1 le_rfl)
  have hv : ∀ k : Key, ∀ ts xs, emPathwise ((sdeSolver rng k (fun _ _ => 0) (fun _ _ => (1 : Mat 1 1)) ((0, 0, 0) : Ekf.State3 1)
      (Foster.getApproxFine 1 1) 1 1 (fun _ x _ _ => x)).2.2.map fun c => c.2.2.1).flatten
      (0 : Vec 1) (fun _ _ => 0) (fun _ _ => 1) (1 / (1 : ℕ)) (1 * 1) = .ok (ts, xs) →
      xs[1 * 1]? = some (finePiece 1 1 rng ((k.child 1 0).child 2 0) 1 0).1 := by
    intro k ts xs h
    rw [sdeSolver_coeffs] at h
    have hc : ((Foster.getApproxFine 1 1).coeffs rng ((k.child 1 0).child 2 0) 1).2.2.1 = [(finePiece 1 1 rng ((k.child 1 0).child 2 0) 1 0).1] := by
      show (Foster.parabolasFine 1 1 rng _ 1).2.2.1 = _
      rw [parabolasFine_eq]
      rfl
    simp only [List.range_one, List.map_cons, List.map_nil, hc, List.flatten_cons, List.flatten_nil, List.append_nil] at h
    rw [emPathwise_eq _ _ _ _ _ _ _ (by simp)] at h
    have hx := (Prod.ext_iff.mp (Except.ok.inj h)).2
    simp only at hx
    rw [← hx]
    simp [emFold, List.range_succ]
  have e1 := hv _ ts3 xs3 h5
  have e2 := hv _ ts2 xs h2
  rw [e1, e2] at h7
  have h8 := congrFun (Option.some.inj h7) 0
  simp [finePiece, Foster.getApprox, Foster.parabolas, Rng.normalMat, hrng, Key.child] at h8

end Verif
