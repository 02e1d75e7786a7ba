import Verif.Model.ScriptsStored
import Verif.Lemmas.EkfModes
import Verif.Props.LowMemory
import Verif.Props.WeakBias

/-!
# C129: the pathwise experiment that stores the increments
-/

namespace Verif

open Matrix Verif.Jnp Scripts

variable {d m : ℕ}

/-- A loop whose first iteration raises. -/
theorem scanE_raises {S I : Type} {f : S → I → Except PyErr S} {s : S} {l : List I} {e : PyErr} (hl : l ≠ []) (h : ∀ s i, f s i = .error e) :
    scanE f s l = .error e := by
  cases l with
  | nil => exact absurd rfl hl
  | cons i is => rw [scanE, h]; rfl

theorem storedScan (rng : Rng) (drift : Field d) (sigma : Diffusion d m) (δ : ℝ) (fine : ℕ) (odeInt : OdeInt (Vec d) d)
    (x : Vec d) (c : FineCoeffs m) (l : List (Key × ℝ)) :
    let bm := Foster.getApproxFine m fine
    ∃ r, scanE (storedBody rng drift sigma δ fine fun k x f T => .ok (odeInt k x f T)) (x, c) l = .ok r ∧
      r.map (·.1) = (scan (fun x (inp : Key × ℝ) =>
        (odeInt (inp.1.child 2 1) x (intervalField drift sigma bm δ (bm.coeffs rng (inp.1.child 2 0) δ) inp.2) δ,
          odeInt (inp.1.child 2 1) x (intervalField drift sigma bm δ (bm.coeffs rng (inp.1.child 2 0) δ) inp.2) δ)) x l).2 ∧
      r.map (·.2) = l.map fun inp => bm.coeffs rng (inp.1.child 2 0) δ := by
  intro bm
  induction l generalizing x c with
  | nil => exact ⟨[], rfl, rfl, rfl⟩
  | cons i is ih =>
    obtain ⟨r, h1, h2, h3⟩ := ih (odeInt (i.1.child 2 1) x (intervalField drift sigma bm δ (bm.coeffs rng (i.1.child 2 0) δ) i.2) δ)
      (bm.coeffs rng (i.1.child 2 0) δ)
    refine ⟨(odeInt (i.1.child 2 1) x (intervalField drift sigma bm δ (bm.coeffs rng (i.1.child 2 0) δ) i.2) δ,
      bm.coeffs rng (i.1.child 2 0) δ) :: r, ?_, ?_, ?_⟩
    · rw [scanE]
      change (do let rest ← scanE _ (_, _) is; pure (_ :: rest)) = _
      rw [h1]
      rfl
    · rw [List.map_cons, h2, scan_cons]
    · rw [List.map_cons, h3, List.map_cons]

theorem storedSolver_eq (rng : Rng) (key : Key) (drift : Field d) (sigma : Diffusion d m) (x0 : Vec d) (δ : ℝ) (N fine : ℕ)
    (odeInt : OdeInt (Vec d) d) :
    let out := sdeSolver rng key drift sigma x0 (Foster.getApproxFine m fine) δ N odeInt
    storedSolver rng key drift sigma x0 δ N fine (fun k x f T => .ok (odeInt k x f T)) = .ok (out.2.1, out.2.2.map fun c => c.2.2.1) := by
  intro out
  obtain ⟨r, h1, h2, h3⟩ := storedScan rng drift sigma δ fine odeInt x0 (0, 0, [], [])
    ((key.split N).zip (linspace 0 (N * δ) (N + 1)).dropLast)
  have e2 : out.2.1 = _ := (sdeSolver_scan rng key drift sigma x0 (Foster.getApproxFine m fine) δ N odeInt).2
  have hc : out.2.2 = (List.range N).map fun k => (Foster.getApproxFine m fine).coeffs rng ((key.child N k).child 2 0) δ :=
    sdeSolver_coeffs rng key drift sigma x0 _ δ N odeInt
  have h4 : r.map (·.2) = out.2.2 := by
    rw [h3, hc, linspace_grid_dropLast, Key.split, zip_map_range, List.map_map]
    rfl
  unfold storedSolver
  simp only [h1]
  show Except.ok (_, _) = Except.ok (_, _)
  rw [h2, ← e2, ← h4, List.map_map]
  rfl

theorem everyNth_eq {α : Type} {n N : ℕ} (hn : 1 ≤ n) {xs ys : List α} (hx : xs.length = N * n + 1) (hy : ys.length = N + 1)
    (h : ∀ k ≤ N, ys[k]? = xs[k * n]?) : everyNth n xs = ys := by
  have h1 : (xs.length + n - 1) / n = N + 1 := by
    rw [hx, show N * n + 1 + n - 1 = (N + 1) * n by rw [Nat.add_mul]; omega]
    exact Nat.mul_div_cancel _ hn
  unfold everyNth
  rw [h1, ← hy]
  have h2 : ∀ k ∈ List.range ys.length, xs[k * n]? = ys[k]? := fun k hk => by
    rw [List.mem_range, hy] at hk
    exact (h k (by omega)).symm
  rw [List.filterMap_congr h2]
  clear h h1 h2 hy hx
  induction ys with
  | nil => rfl
  | cons y ys ih =>
    rw [List.length_cons, List.range_succ_eq_map, List.filterMap_cons]
    simp only [List.getElem?_cons_zero, List.filterMap_map]
    congr 1

/-- The fine increments of interval `k` of a run with key `key`, a function of the key alone. -/
noncomputable def fineIncs (m : ℕ) (rng : Rng) (key : Key) (δ : ℝ) (N fine k : ℕ) : List (Vec m) :=
  (List.range fine).map fun j => (Foster.parabolas m rng (((key.child N k).child 2 0).child fine j) (δ / fine)).1

theorem storedExperiment_ok {rng : Rng} {key : Key} {drift : Field d} {sigma : Diffusion d m} {x0 : Vec d} {δ : ℝ} {N fine : ℕ}
    {odeInt : Key → Vec d → Field d → ℝ → Except PyErr (Vec d)} {sols : List (Vec d)} {blocks : List (List (Vec m))} {ts : List ℝ}
    {xs : List (Vec d)}
    (h : storedSolver rng key (toStratonovich drift sigma).1 (toStratonovich drift sigma).2 x0 δ N fine odeInt = .ok (sols, blocks))
    (hl : ∀ b ∈ blocks, b.length = fine) (he : emPathwise blocks.flatten x0 drift sigma (δ / fine) (fine * blocks.length) = .ok (ts, xs)) :
    storedExperiment rng key drift sigma x0 δ N fine odeInt = .ok (sols, everyNth fine xs, blocks.flatten) := by
  have h1 : ¬ ((blocks.any fun b => b.length != fine) = true) := by simpa using hl
  unfold storedExperiment
  simp only [h]
  show (do
    if (blocks.any fun b => b.length != fine) = true then throw PyErr.assertionError
    let r ← emPathwise blocks.flatten x0 drift sigma (δ / fine) (fine * blocks.length)
    pure (sols, everyNth fine r.2, blocks.flatten)) = _
  rw [if_neg h1, he]
  rfl

/-- C129: the experiment for every integrator that does not raise, every drift and every diffusion. Its trajectory is that of `sde_solver` on
the Stratonovich drift, the stored increments are those of the Brownian path of that run, interval after interval, and the reference
consists of every `fine`-th state of one Euler-Maruyama run on the given drift over these increments. -/
theorem C129_run (rng : Rng) (key : Key) (drift : Field d) (sigma : Diffusion d m) (x0 : Vec d) (δ : ℝ) (N fine : ℕ) (hf : 1 ≤ fine)
    (odeInt : OdeInt (Vec d) d) :
    let p := toStratonovich drift sigma
    let incs := ((List.range N).map (fineIncs m rng key δ N fine)).flatten
    ∃ ts2 xs traj2, storedExperiment rng key drift sigma x0 δ N fine (fun k x f T => .ok (odeInt k x f T)) =
        .ok ((sdeSolver rng key p.1 p.2 x0 (Foster.getApproxFine m fine) δ N odeInt).2.1, traj2, incs) ∧
      emPathwise incs x0 drift sigma (δ / fine) (N * fine) = .ok (ts2, xs) ∧ ramEm ((List.range N).map (fineIncs m rng key δ N fine)) x0 drift
        sigma δ N fine = .ok traj2 ∧ traj2.length = N + 1 ∧ ∀ k ≤ N, traj2[k]? = xs[k * fine]? ∧ (traj2[k]?).isSome := by
  intro p incs
  have hc : (sdeSolver rng key p.1 p.2 x0 (Foster.getApproxFine m fine) δ N odeInt).2.2.map (fun c => c.2.2.1) =
      (List.range N).map (fineIncs m rng key δ N fine) := by
    rw [sdeSolver_coeffs, List.map_map]
    refine List.map_congr_left fun k _ => ?_
    show (Foster.parabolasFine m fine rng _ δ).2.2.1 = _
    simp only [Foster.parabolasFine, Key.split, List.map_map]
    rfl
  have hl : ∀ b ∈ (List.range N).map (fineIncs m rng key δ N fine), b.length = fine := by
    intro b hb
    obtain ⟨k, -, rfl⟩ := List.mem_map.mp hb
    simp [fineIncs]
  obtain ⟨ts2, xs, ys, h1, h2, h3, h4⟩ := C19_block_restart _ N fine (by simp) hf hl x0 drift sigma δ
  have hlen : incs.length = N * fine := by
    by_contra hne
    rw [emPathwise_error _ _ _ _ _ _ _ hne] at h1
    cases h1
  have hx : xs.length = N * fine + 1 := by
    rw [emPathwise_eq _ _ _ _ _ _ _ hlen] at h1
    have h5 : _ = xs := congrArg Prod.snd (Except.ok.inj h1)
    rw [← h5]
    simp
  refine ⟨ts2, xs, ys, ?_, h1, h2, h3, h4⟩
  have h5 := storedSolver_eq rng key p.1 p.2 x0 δ N fine odeInt
  simp only [hc] at h5
  rw [storedExperiment_ok h5 hl (by rw [List.length_map, List.length_range, mul_comm fine N]; exact h1),
    everyNth_eq hf hx h3 fun k hk => (h4 k hk).1]

/-- C129: for every integrator that does not raise and every diffusion that does not depend on the state, the experiment that stores the
increments returns the trajectory and the reference of the low-memory experiment with the same key. -/
theorem C129_same_as_low_memory (rng : Rng) (key : Key) (drift : Field d) (S : ℝ → Mat d m) (x0 : Vec d) (δ : ℝ) (N fine : ℕ) (hf : 1 ≤ fine)
    (odeInt : OdeInt (Vec d) d) :
    let p := toStratonovich drift fun _ t => S t
    ∃ ts traj traj2 incs, storedExperiment rng key drift (fun _ t => S t) x0 δ N fine (fun k x f T => .ok (odeInt k x f T)) = .ok (traj, traj2, incs) ∧
      ramSolver rng key p.1 p.2 x0 x0 δ N fine odeInt = .ok (ts, traj, traj2) := by
  intro p
  obtain ⟨ts2, xs, traj2, h1, h2, -, h3, h4⟩ := C129_run rng key drift (fun _ t => S t) x0 δ N fine hf odeInt
  obtain ⟨u2, ts3, ys, g1, g2, g3, g4⟩ := C99_low_memory rng key p.1 p.2 x0 x0 δ N fine hf odeInt
  have hp : p.1 = drift := (C10_additive_noise drift S).2
  have hc : (sdeSolver rng key p.1 p.2 x0 (Foster.getApproxFine m fine) δ N odeInt).2.2.map (fun c => c.2.2.1) =
      (List.range N).map (fineIncs m rng key δ N fine) := by
    rw [sdeSolver_coeffs, List.map_map]
    refine List.map_congr_left fun k _ => ?_
    show (Foster.parabolasFine m fine rng _ δ).2.2.1 = _
    simp only [Foster.parabolasFine, Key.split, List.map_map]
    rfl
  rw [hc, hp] at g2
  have hxy : xs = ys := congrArg Prod.snd (Except.ok.inj (h2.symm.trans g2))
  have hu : traj2 = u2 := by
    refine List.ext_getElem? fun k => ?_
    rcases Nat.lt_or_ge N k with hk | hk
    · rw [List.getElem?_eq_none (by omega), List.getElem?_eq_none (by omega)]
    · rw [(h4 k hk).1, (g4 k hk).1, hxy]
  subst hu
  exact ⟨_, _, _, _, h1, g1⟩

/-- C129 is false of the script as written: its measurement noise is a 1×1 matrix and the problem has two components, so the very first filter
step raises, for every number of intervals and every step. -/
theorem C129_fails (la : LinAlg) (rng : Rng) (key : Key) (δ : ℝ) (N M fine : ℕ) (hN : 1 ≤ N) :
    storedExperiment rng key Ivp.Ibm.drift Ivp.Ibm.sigma Ivp.Ibm.x0 δ N fine (storedInt la rng δ M storedNoise) = .error .assertionError := by
  have h0 : ∀ k x (f : Field 2) T, storedInt la rng δ M storedNoise k x f T = .error .assertionError := fun k x f T => by
    simp [storedInt, storedNoise, Ekf.ekf0, Ekf.solver, Ekf.args, Ekf.resolveNoise, bind, Except.bind]
  unfold storedExperiment storedSolver
  simp only
  rw [scanE_raises (e := .assertionError) ?_ fun s i => by unfold storedBody; simp only [h0]; rfl]
  · rfl
  · rw [linspace_grid_dropLast, Key.split, zip_map_range]
    simpa using (by omega : N ≠ 0)

/-- C129: with a measurement noise of the right size, or none, the script runs for every problem with at least one component, and for
additive noise gives what the low-memory script gives with the same integrator: EKF0 with steps `T / M` and the once integrated prior for the step
`δ / M`, which is the same step as the interval is `δ`. -/
theorem C129_partial (la : LinAlg) (rng : Rng) (key : Key) (hd : 0 < d) (drift : Field d) (S : ℝ → Mat d m) (x0 : Vec d) (δ : ℝ) (N M fine : ℕ)
    (hf : 1 ≤ fine) (noise : Option (Mat d d)) :
    ∃ (odeInt : OdeInt (Vec d) d) (ts : List ℝ) (traj traj2 : List (Vec d)) (incs : List (Vec m)),
      (∀ k x f T, Ekf.ekf0 la rng (some k) x f (T / M) M false (some ⟨_, IOUP.transition 0 1 1 (δ / M) d⟩) (noise.map fun R => ⟨d, d, R⟩) =
        .ok (odeInt k x f T)) ∧
      storedExperiment rng key drift (fun _ t => S t) x0 δ N fine (storedInt la rng δ M (noise.map fun R => ⟨d, d, R⟩)) = .ok (traj, traj2, incs) ∧
      ramSolver rng key (toStratonovich drift fun _ t => S t).1 (fun _ t => S t) x0 x0 δ N fine odeInt = .ok (ts, traj, traj2) := by
  have h0 : ∀ (k : Key) (x : Vec d) (f : Field d) (T : ℝ), ∃ y, storedInt la rng δ M (noise.map fun R => ⟨d, d, R⟩) k x f T = .ok y := by
    intro k x f T
    unfold storedInt Ekf.ekf0
    simp only
    rw [if_neg (by omega), show d * (1 + 1) / d = 2 from Nat.mul_div_cancel_left _ hd]
    cases noise with
    | none =>
      simp only [Option.map_none]
      rw [Ekf.solver_some (r := 0)]
      exact ⟨_, rfl⟩
    | some R =>
      simp only [Option.map_some]
      rw [Ekf.solver_some_noise (r := 0)]
      exact ⟨_, rfl⟩
  choose g hg using h0
  obtain ⟨ts, traj, traj2, incs, h1, h2⟩ := C129_same_as_low_memory rng key drift S x0 δ N fine hf g
  have he : storedInt la rng δ M (noise.map fun R => ⟨d, d, R⟩) = fun k x f T => .ok (g k x f T) := by
    funext k x f T
    exact hg k x f T
  exact ⟨g, ts, traj, traj2, incs, hg, by rw [he]; exact h1, h2⟩

/-- C129: for geometric Brownian motion the two scripts do not agree. The one that stores the increments runs Euler-Maruyama on the given
drift, the low-memory one on the Stratonovich drift; after one interval with one step the references are `δ / 2` apart. -/
theorem C129_multiplicative (rng : Rng) (key : Key) (δ : ℝ) (odeInt : OdeInt (Vec 1) 1) :
    let p := toStratonovich Ivp.Gbm.drift Ivp.Gbm.sigma
    ∃ ts traj a b incs, storedExperiment rng key Ivp.Gbm.drift Ivp.Gbm.sigma Ivp.Gbm.x0 δ 1 1 (fun k x f T => .ok (odeInt k x f T)) =
        .ok (traj, [Ivp.Gbm.x0, a], incs) ∧
      ramSolver rng key p.1 p.2 Ivp.Gbm.x0 Ivp.Gbm.x0 δ 1 1 odeInt = .ok (ts, traj, [Ivp.Gbm.x0, b]) ∧ a 0 - b 0 = δ / 2 := by
  intro p
  obtain ⟨ts2, xs, a2, h1, h2, -, h3, h4⟩ := C129_run rng key Ivp.Gbm.drift Ivp.Gbm.sigma Ivp.Gbm.x0 δ 1 1 le_rfl odeInt
  obtain ⟨b2, ts3, ys, g1, g2, g3, g4⟩ := C99_low_memory rng key p.1 p.2 Ivp.Gbm.x0 Ivp.Gbm.x0 δ 1 1 le_rfl odeInt
  have hc : (sdeSolver rng key p.1 p.2 Ivp.Gbm.x0 (Foster.getApproxFine 1 1) δ 1 odeInt).2.2.map (fun c => c.2.2.1) =
      (List.range 1).map (fineIncs 1 rng key δ 1 1) := by
    rw [sdeSolver_coeffs, List.map_map]
    refine List.map_congr_left fun k _ => ?_
    show (Foster.parabolasFine 1 1 rng _ δ).2.2.1 = _
    simp only [Foster.parabolasFine, Key.split, List.map_map]
    rfl
  rw [hc] at g2
  have hi : ((List.range 1).map (fineIncs 1 rng key δ 1 1)).flatten =
      [(Foster.parabolas 1 rng (((key.child 1 0).child 2 0).child 1 0) (δ / (1 : ℕ))).1] := rfl
  rw [hi] at g2
  rw [hi] at h2
  generalize (Foster.parabolas 1 rng (((key.child 1 0).child 2 0).child 1 0) (δ / (1 : ℕ))).1 = w at g2 h2
  rw [emPathwise_eq _ _ _ _ _ _ _ (by rfl)] at g2 h2
  have hx : _ = xs := congrArg Prod.snd (Except.ok.inj h2)
  have hy : _ = ys := congrArg Prod.snd (Except.ok.inj g2)
  have two : ∀ {l : List (Vec 1)} {u v : Vec 1}, l.length = 2 → l[0]? = some u → l[1]? = some v → l = [u, v] := by
    intro l u v hl h0 h1
    match l, hl with
    | [x, y], _ =>
      simp only [List.getElem?_cons_zero, Option.some.injEq] at h0
      simp only [List.getElem?_cons_succ, List.getElem?_cons_zero, Option.some.injEq] at h1
      rw [h0, h1]
  have ha := two (u := Ivp.Gbm.x0) h3 (by rw [(h4 0 (by norm_num)).1, ← hx]; rfl) (by rw [(h4 1 le_rfl).1, ← hx]; rfl)
  have hb := two (u := Ivp.Gbm.x0) g3 (by rw [(g4 0 (by norm_num)).1, ← hy]; rfl) (by rw [(g4 1 le_rfl).1, ← hy]; rfl)
  rw [ha] at h1
  rw [hb] at g1
  refine ⟨_, _, _, _, _, h1, g1, ?_⟩
  have hp : p = _ := gbm_stratonovich
  have ht : List.take 1 [w] = [w] := rfl
  simp only [Bool.false_eq_true, if_false, hp, ht, emFold]
  simp [Ivp.Gbm.drift, Ivp.Gbm.sigma, Ivp.Gbm.a, Ivp.Gbm.b, Ivp.Gbm.x0]
  ring

/-- C129: the integrated Brownian motion of the script with the noise left out, four intervals of four fine steps. -/
example (la : LinAlg) (rng : Rng) : ∃ out, storedExperiment rng [] Ivp.Ibm.drift Ivp.Ibm.sigma Ivp.Ibm.x0 0.25 4 4 (storedInt la rng 0.25 1 none) =
    .ok out := by
  obtain ⟨_, _, _, _, _, -, h, -⟩ := C129_partial la rng [] (d := 2) (by norm_num) Ivp.Ibm.drift (fun t => Ivp.Ibm.sigma 0 t) Ivp.Ibm.x0 0.25 4 1 4
    (by norm_num) none
  exact ⟨_, h⟩

/-- C129: the first call of the script (`pathwise_convergence_experiment_2.py:80-90`) raises. -/
example (la : LinAlg) (rng : Rng) : storedExperiment rng [] Ivp.Ibm.drift Ivp.Ibm.sigma Ivp.Ibm.x0 0.25 4 4 (storedInt la rng 0.25 1 storedNoise) =
    .error .assertionError := C129_fails la rng [] _ 4 1 4 (by norm_num)

end Verif
