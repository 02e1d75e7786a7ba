import Verif.Model.ScriptsPosterior
import Verif.Props.LowMemory
import Verif.Props.Calibration
import Verif.Props.Posterior

/-!
# C116: the experiments of `scripts/sampling_from_posterior_alg3`
-/

namespace Verif

open Matrix Verif.Jnp Scripts

variable {d m : ℕ}

theorem getLastD_map_range {A : Type} (f : ℕ → A) (N : ℕ) (x : A) : ((List.range (N + 1)).map f).getLastD x = f N := by
  rw [List.range_succ, List.map_append]
  simp

theorem except_bind {A B : Type} {x : Except PyErr A} {a : A} (h : x = .ok a) (f : A → Except PyErr B) : (x >>= f) = f a := by
  rw [h]; rfl

/-- Euler-Maruyama with a zero diffusion is the Euler method, whatever is drawn. -/
theorem wrappedEuler_eq (rng : Rng) (m fine : ℕ) : (wrappedEuler rng m fine : OdeInt (Vec d) d) = eulerInt fine := by
  funext key init vf T
  have h := emSolver_eq rng key init vf (fun _ _ => (0 : Mat d m)) (T / fine) fine
  rw [emPathwise_eq _ _ _ _ _ _ _ (by simp)] at h
  have h1 := congrArg Prod.snd (Except.ok.inj h)
  simp only at h1
  rw [wrappedEuler, ← h1, getLastD_map_range, emFold_zero_noise _ _ _ (fun _ _ => rfl), eulerInt, eulerSolver_eq]
  simp

theorem scanOutE_ok {S I O : Type} {f : S → I → Except PyErr (S × O)} {g : S → I → S × O} (h : ∀ s i, f s i = .ok (g s i)) (s : S)
    (l : List I) : scanOutE f s l = .ok (scan g s l).2 := by
  induction l generalizing s with
  | nil => rfl
  | cons i is ih =>
    rw [scanOutE, h, scan_cons]
    change (do let rest ← scanOutE f (g s i).1 is; pure ((g s i).2 :: rest)) = _
    rw [ih]
    rfl

/-- The loop with collected outputs, for an integrator that does not raise. -/
theorem customSolver_ok {X C O : Type} (rng : Rng) (key : Key) (drift : Field d) (sigma : Diffusion d m) (x0 : X) (bm : BmApprox C m)
    (δ : ℝ) (N : ℕ) {odeInt : Key → X → Field d → ℝ → Except PyErr (X × O)} {g : Key → X → Field d → ℝ → X × O}
    (h : ∀ k x vf, odeInt k x vf δ = .ok (g k x vf δ)) :
    let out := sdeSolver rng key drift sigma x0 bm δ N fun k x vf T => (g k x vf T).1
    ∃ others, customSolver rng key drift sigma x0 bm δ N odeInt = .ok (out.1, out.2.1, out.2.2, others) ∧ others.length = N ∧
      ∀ k < N, ∃ x c, out.2.1[k]? = some x ∧ out.2.2[k]? = some c ∧
        others[k]? = some (g ((key.child N k).child 2 1) x (intervalField drift sigma bm δ c (k * δ)) δ).2 := by
  intro out
  obtain ⟨st, hst⟩ : ∃ st : X → ℕ → X × (X × C × O), ∀ x k, st x k =
      ((g ((key.child N k).child 2 1) x (intervalField drift sigma bm δ (bm.coeffs rng ((key.child N k).child 2 0) δ) (k * δ)) δ).1,
        ((g ((key.child N k).child 2 1) x (intervalField drift sigma bm δ (bm.coeffs rng ((key.child N k).child 2 0) δ) (k * δ)) δ).1,
          bm.coeffs rng ((key.child N k).child 2 0) δ,
          (g ((key.child N k).child 2 1) x (intervalField drift sigma bm δ (bm.coeffs rng ((key.child N k).child 2 0) δ) (k * δ)) δ).2)) :=
    ⟨_, fun _ _ => rfl⟩
  have hrange : ∀ k < N, (List.range N)[k]? = some k := fun k hk => List.getElem?_range hk
  -- the states of the loop are those of `sde_solver`
  have hx : ∀ k ≤ N, out.2.1[k]? = some (scan st x0 ((List.range N).take k)).1 := by
    intro k
    induction k with
    | zero =>
      intro _
      have h1 := (C02_trajectory_shape rng key drift sigma x0 bm δ N fun k x vf T => (g k x vf T).1).2.1
      rw [List.head?_eq_getElem?] at h1
      simpa using h1
    | succ k ih =>
      intro hk
      obtain ⟨x, c, h1, -, h3, h4⟩ := sdeSolver_interval rng key drift sigma x0 bm δ N (fun k x vf T => (g k x vf T).1) k hk
      obtain rfl := Option.some.inj (h1.symm.trans (ih (by omega)))
      rw [h4, scan_take_succ_fst _ _ _ k k (hrange k hk), hst, h3]
  have hlen := (C02_trajectory_shape rng key drift sigma x0 bm δ N fun k x vf T => (g k x vf T).1).1
  have hc : out.2.2 = (List.range N).map fun k => bm.coeffs rng ((key.child N k).child 2 0) δ :=
    sdeSolver_coeffs rng key drift sigma x0 bm δ N _
  have ho : ∀ k < N, (scan st x0 (List.range N)).2[k]? = some (st (scan st x0 ((List.range N).take k)).1 k).2 := fun k hk => by
    rw [scan_getElem?, hrange k hk]; rfl
  refine ⟨(scan st x0 (List.range N)).2.map (·.2.2), ?_, by simp, fun k hk => ⟨_, bm.coeffs rng ((key.child N k).child 2 0) δ, hx k hk.le, ?_, ?_⟩⟩
  · have hs := scanOutE_ok (f := fun (x : X) (inp : ℕ × Key × ℝ) => (do
        let r ← odeInt (inp.2.1.child 2 1) x (intervalField drift sigma bm δ (bm.coeffs rng (inp.2.1.child 2 0) δ) inp.2.2) δ
        return (r.1, (r.1, bm.coeffs rng (inp.2.1.child 2 0) δ, r.2)) : Except PyErr (X × (X × C × O))))
      (g := fun x inp => let r := g (inp.2.1.child 2 1) x (intervalField drift sigma bm δ (bm.coeffs rng (inp.2.1.child 2 0) δ) inp.2.2) δ
        (r.1, (r.1, bm.coeffs rng (inp.2.1.child 2 0) δ, r.2))) (fun s i => by rw [h]; rfl) x0
      ((List.range N).zip ((key.split N).zip (linspace 0 (N * δ) (N + 1)).dropLast))
    rw [sde_inps, scan_map, show (fun s j => _) = st from funext fun x => funext fun k => (hst x k).symm] at hs
    unfold customSolver
    simp only [sde_inps]
    refine (congrArg (fun r : Except PyErr (List (X × C × O)) => r >>= fun out => pure (linspace 0 (N * δ) (N + 1),
      insertArr (out.map (·.1)) x0, out.map (·.2.1), out.map (·.2.2))) hs).trans ?_
    refine congrArg Except.ok (Prod.ext rfl (Prod.ext ?_ (Prod.ext ?_ rfl)))
    · refine List.ext_getElem? fun k => ?_
      cases k with
      | zero => rw [hx 0 (by omega)]; rfl
      | succ k =>
        show ((scan st x0 (List.range N)).2.map (·.1))[k]? = _
        by_cases hk : k < N
        · rw [hx (k + 1) hk, List.getElem?_map, ho k hk, scan_take_succ_fst _ _ _ k k (hrange k hk), hst]
          rfl
        · rw [List.getElem?_eq_none (by simpa using hk), List.getElem?_eq_none (by
            have h2 : out.2.1.length = N + 1 := hlen
            show out.2.1.length ≤ k + 1
            omega)]
    · refine List.ext_getElem? fun k => ?_
      show ((scan st x0 (List.range N)).2.map (·.2.1))[k]? = _
      by_cases hk : k < N
      · rw [List.getElem?_map, ho k hk, hc, List.getElem?_map, hrange k hk, hst]
        rfl
      · rw [List.getElem?_eq_none (by simpa using hk), List.getElem?_eq_none (by rw [hc]; simpa using hk)]
  · rw [hc, List.getElem?_map, hrange k hk]; rfl
  · rw [List.getElem?_map, ho k hk, hst]; rfl

/-- C116: the references of the experiments. The run never raises (the shape assertion holds); every array belongs to one and the same
Brownian path per key: the Euler solution is that of `sde_solver` with the Euler method on the Stratonovich problem; the saved increments
are those drawn by that run; their sums over an interval are the first coefficients of its parabolas; and the two Euler-Maruyama
solutions of the Itô problem are driven by the increments and by their sums. -/
theorem C116_references (rng : Rng) (k0 : Key) (ks : List Key) (drift : Field d) (sigma : Diffusion d m) (x0 : Vec d) (δ : ℝ) (N fine : ℕ) :
    let strat := toStratonovich drift sigma
    let run := fun k => sdeSolver rng k strat.1 strat.2 x0 (Foster.getApproxFine m fine) δ N (eulerInt fine)
    let incs := fun k => (run k).2.2.map (·.2.2.1)
    ∃ r ts2 ts3, references rng (k0 :: ks) drift sigma x0 δ N fine = .ok r ∧
      r.odeEuler = (run k0).2.1 ∧
      r.inc = (k0 :: ks).map (fun k => (incs k).flatten) ∧ (∀ l ∈ r.inc, l.length = fine * N) ∧
      r.coeffs0 = (k0 :: ks).map (fun k => (run k).2.2.map (·.1)) ∧
      r.coeffs0 = (k0 :: ks).map (fun k => (incs k).map List.sum) ∧
      r.coeffs1 = (k0 :: ks).map (fun k => (run k).2.2.map (·.2.1)) ∧
      emPathwise (incs k0).flatten x0 drift sigma (δ / fine) (fine * N) = .ok (ts2, r.sols2) ∧
      emPathwise ((run k0).2.2.map (·.1)) x0 drift sigma δ N = .ok (ts3, r.sols3) ∧
      r.sols2.length = fine * N + 1 ∧ r.sols3.length = N + 1 ∧ r.odeEuler.length = N + 1 := by
  intro strat run incs
  have hc : ∀ k, (run k).2.2 = (List.range N).map fun i => Foster.parabolasFine m fine rng ((k.child N i).child 2 0) δ := fun k =>
    sdeSolver_coeffs rng k strat.1 strat.2 x0 _ δ N _
  have hb : ∀ k, ∀ b ∈ incs k, fine = b.length := by
    intro k b hb
    simp only [incs, hc, List.map_map, List.mem_map] at hb
    obtain ⟨i, -, rfl⟩ := hb
    simp only [Function.comp_apply, parabolasFine_eq]
    simp
  have hl : ∀ k, (incs k).length = N := fun k => by simp [incs, hc]
  have hsum : ∀ k, (incs k).map List.sum = (run k).2.2.map (·.1) := by
    intro k
    simp only [incs, hc, List.map_map]
    refine List.map_congr_left fun i _ => ?_
    simp only [Function.comp_apply, parabolasFine_eq]
    rw [Finset.sum_range, ← List.sum_ofFn, List.ofFn_eq_map, ← List.map_coe_finRange_eq_range, List.map_map]
    rfl
  have hfl : ∀ k, (incs k).flatten.length = fine * N := fun k => by
    rw [List.length_flatten, List.map_congr_left (g := fun _ => fine) fun b h => (hb k b h).symm, List.map_const', List.sum_replicate, hl,
      smul_eq_mul, Nat.mul_comm]
  obtain ⟨p2, e2, l2⟩ : ∃ p2 : Key → List ℝ × List (Vec d), (∀ k, emPathwise (incs k).flatten x0 drift sigma (δ / fine) (fine * N) =
      .ok (p2 k)) ∧ ∀ k, (p2 k).2.length = fine * N + 1 :=
    ⟨_, fun k => emPathwise_eq (incs k).flatten x0 drift sigma (δ / fine) (fine * N) false (hfl k), fun k => by simp⟩
  obtain ⟨p3, e3, l3⟩ : ∃ p3 : Key → List ℝ × List (Vec d), (∀ k, emPathwise ((run k).2.2.map (·.1)) x0 drift sigma δ N =
      .ok (p3 k)) ∧ ∀ k, (p3 k).2.length = N + 1 :=
    ⟨_, fun k => emPathwise_eq ((run k).2.2.map (·.1)) x0 drift sigma δ N false (by simp [hc]), fun k => by simp⟩
  have hrun : ∀ k, sdeSolver rng k strat.1 strat.2 x0 (Foster.getApproxFine m fine) δ N (wrappedEuler rng m fine) = run k := fun k => by
    rw [wrappedEuler_eq]
  have hassert : ∀ blocks ∈ ((k0 :: ks).map fun k => incs k), ∀ b ∈ blocks, fine = b.length := by
    intro bl hbl b h
    obtain ⟨k, -, rfl⟩ := List.mem_map.mp hbl
    exact hb k b h
  have hm2 : ((k0 :: ks).map fun k => (incs k, (incs k).flatten)).mapM
      (fun i => emPathwise i.2 x0 drift sigma (δ / fine) (fine * i.1.length)) = .ok ((k0 :: ks).map p2) := by
    rw [List.mapM_map]
    refine mapM_ok (k0 :: ks) fun k _ => ?_
    simp only [Function.comp_apply, hl]
    exact e2 k
  have hm3 : ((k0 :: ks).map fun k => (incs k, (run k).2.2.map fun c => c.2.2.1.sum)).mapM
      (fun i => emPathwise i.2 x0 drift sigma δ i.1.length) = .ok ((k0 :: ks).map p3) := by
    rw [List.mapM_map]
    refine mapM_ok (k0 :: ks) fun k _ => ?_
    have hs : (run k).2.2.map (fun c => c.2.2.1.sum) = (run k).2.2.map (·.1) := by rw [← hsum k, List.map_map]; rfl
    simp only [Function.comp_apply, hl, hs]
    exact e3 k
  refine ⟨⟨(p2 k0).2, (p3 k0).2, (run k0).2.1, (k0 :: ks).map (fun k => (incs k).flatten),
    (k0 :: ks).map (fun k => (run k).2.2.map (·.1)), (k0 :: ks).map (fun k => (run k).2.2.map (·.2.1))⟩, (p2 k0).1, (p3 k0).1, ?_, rfl, rfl, ?_, rfl, ?_, rfl, e2 k0, e3 k0, l2 k0, l3 k0,
    (C02_trajectory_shape rng k0 strat.1 strat.2 x0 _ δ N _).1⟩
  · unfold references
    rw [wrappedEuler_eq]
    simp only [List.map_map, Function.comp_def, List.zip_map']
    rw [if_neg (by rw [not_not]; exact hassert)]
    refine (except_bind hm2 _).trans ?_
    refine (except_bind hm3 _).trans ?_
    rfl
  · intro l h
    obtain ⟨k, -, rfl⟩ := List.mem_map.mp (show l ∈ (k0 :: ks).map fun k => (incs k).flatten from h)
    exact hfl k
  · have : (k0 :: ks).map (fun k => (run k).2.2.map (·.1)) = (k0 :: ks).map fun k => (incs k).map List.sum :=
      List.map_congr_left fun k _ => (hsum k).symm
    exact this

/-- `return_all=True` on top of an integrator without it. -/
theorem ekf2All_of_ekf2 {la : LinAlg} {rng : Rng} {EKF0 sqrt : Bool} {key : Option Key} {x y : Ekf.State3 d} {vf : Field d} {h : ℝ} {M : ℕ}
    {p : Prior (d * (0 + 2))} (hy : Ekf.ekf2 la rng EKF0 key x vf h M sqrt (some ⟨_, p⟩) none = .ok y) :
    ∃ o, Ekf.ekf2All la rng EKF0 key x vf h M sqrt (some ⟨_, p⟩) none = .ok (y, o) ∧ y.2.1 = stride 0 o.mean ∧ y.2.2 = strideMat 0 0 o.cov := by
  obtain ⟨h1, h2⟩ := C50_same la rng EKF0 key x vf h M sqrt (some ⟨_, p⟩) none
  rw [hy] at h1
  cases ho : Ekf.ekf2All la rng EKF0 key x vf h M sqrt (some ⟨_, p⟩) none with
  | error e => rw [ho] at h1; cases h1
  | ok o =>
    rw [ho] at h1
    obtain rfl : o.1 = y := Except.ok.inj h1
    refine ⟨o.2, rfl, ?_, ?_⟩ <;> rw [h2 o ho]

theorem calibrationRun_go_ok {la : LinAlg} {rng : Rng} {h : ℝ} {M : ℕ} {p : DynPrior} {g : Key → Ekf.State3 d → Field d → Ekf.State3 d × Ekf.AllOut d}
    (hg : ∀ k x vf, Ekf.ekf2All la rng false (some k) x vf h M true (some p) none = .ok (g k x vf)) (x : Ekf.State3 d)
    (inps : List (Key × Field d)) : calibrationRun.go la rng h M p x inps =
      .ok (scan (fun x i => ((g i.1 x i.2).1, ((g i.1 x i.2).2.pos4, (g i.1 x i.2).2.pos3))) x inps).2 := by
  induction inps generalizing x with
  | nil => rfl
  | cons i is ih =>
    rw [calibrationRun.go, hg, scan_cons]
    simp only [bind, Except.bind, ih]
    rfl

/-- C116: the filter half of the calibration experiment. The saved means and covariances are, over the whole grid, those of `sde_solver`
with Algorithm 3 (EKF1) on the first key; the Brownian path of that run is the one of the saved increments and coefficients; and the
estimate is that of the residuals of that run. -/
theorem C116_filter (la : LinAlg) (rng : Rng) (k0 : Key) (ks : List Key) (drift : Field d) (sigma : Diffusion d m) (x0 : Vec d) (δ : ℝ)
    (N M fine : ℕ) (σ : ℝ) (odeInt : OdeInt (Ekf.State3 d) d)
    (hode : ∀ k x vf, Ekf.ekf2 la rng false (some k) x vf (δ / M) M true (some ⟨_, IOUP.transition 0 σ 1 (δ / M) d⟩) none =
      .ok (odeInt k x vf δ)) :
    let strat := toStratonovich drift sigma
    let bm := Foster.getApproxFine m fine
    let out := sdeSolver rng k0 strat.1 strat.2 ((x0, x0, 0) : Ekf.State3 d) bm δ N odeInt
    let inps := (List.range N).map fun k => ((k0.child N k).child 2 1,
      intervalField strat.1 strat.2 bm δ (bm.coeffs rng ((k0.child N k).child 2 0) δ) (k * δ))
    ∃ o l, calibrationExperiment la rng (k0 :: ks) drift sigma x0 δ N M fine σ = .ok o ∧
      references rng (k0 :: ks) drift sigma x0 δ N fine = .ok o.refs ∧ o.mean.length = N ∧ o.var.length = N ∧
      (∀ k < N, ∃ y mu V, out.2.1[k + 1]? = some y ∧ o.mean[k]? = some mu ∧ o.var[k]? = some V ∧
        y.2.1 = stride 0 mu ∧ y.2.2 = strideMat 0 0 V) ∧
      o.refs.coeffs0.head? = some (out.2.2.map (·.1)) ∧ o.refs.coeffs1.head? = some (out.2.2.map (·.2.1)) ∧
      o.refs.inc.head? = some (out.2.2.map (·.2.2.1)).flatten ∧
      calibrationRun la rng (δ / M) M σ x0 inps = .ok l ∧ o.mle = estimate la l := by
  intro strat bm out inps
  choose og h1 h2 h3 using fun k x vf => ekf2All_of_ekf2 (hode k x vf)
  choose others c1 c2 c3 using fun k => customSolver_ok rng k strat.1 strat.2 ((x0, x0, 0) : Ekf.State3 d) bm δ N
    (odeInt := fun k x vf T => Ekf.ekf2All la rng false (some k) x vf (T / M) M true (some ⟨_, IOUP.transition 0 σ 1 (δ / M) d⟩) none)
    (g := fun k x vf T => (odeInt k x vf T, og k x vf)) h1
  obtain ⟨r, -, -, r1, -, r3, -, r5, -, r7, -⟩ := C116_references rng k0 ks drift sigma x0 δ N fine
  have hm := mapM_ok (k0 :: ks) fun k _ => c1 k
  have hrun := calibrationRun_go_ok (p := ⟨_, IOUP.transition 0 σ 1 (δ / M) d⟩) (h := δ / M) (g := fun k x vf => (odeInt k x vf δ, og k x vf))
    h1 (x0, x0, 0) inps
  have hc : ∀ {X : Type} (x : X) (I : OdeInt X d), (sdeSolver rng k0 strat.1 strat.2 x bm δ N I).2.2 =
      (List.range N).map fun k => bm.coeffs rng ((k0.child N k).child 2 0) δ := fun x I => sdeSolver_coeffs rng k0 strat.1 strat.2 x bm δ N I
  have hcc : out.2.2 = (sdeSolver rng k0 strat.1 strat.2 x0 bm δ N (eulerInt fine)).2.2 := (hc _ _).trans (hc _ _).symm
  refine ⟨⟨(others k0).map (·.mean), (others k0).map (·.cov), r, estimate la ((others k0).map fun o => (o.pos4, o.pos3))⟩, _, ?_, r1,
    by simp [c2], by simp [c2], fun k hk => ?_, ?_, ?_, ?_, hrun, ?_⟩
  · unfold calibrationExperiment
    refine (except_bind hm _).trans ?_
    refine (except_bind r1 _).trans ?_
    rfl
  · obtain ⟨x, c, a1, a2, a3⟩ := c3 k0 k hk
    obtain ⟨x', c', b1, b2, -, b4⟩ := sdeSolver_interval rng k0 strat.1 strat.2 ((x0, x0, 0) : Ekf.State3 d) bm δ N odeInt k hk
    obtain rfl := Option.some.inj (a1.symm.trans b1)
    obtain rfl := Option.some.inj (a2.symm.trans b2)
    refine ⟨_, _, _, b4, ?_, ?_, h2 _ _ _, h3 _ _ _⟩
    · rw [List.getElem?_map, a3]; rfl
    · rw [List.getElem?_map, a3]; rfl
  · rw [hcc, r5]; rfl
  · rw [hcc, r7]; rfl
  · rw [hcc, r3]; rfl
  · refine congrArg (estimate la) (List.ext_getElem? fun k => ?_)
    by_cases hk : k < N
    · have hi : ∀ j < N, inps[j]? = some ((k0.child N j).child 2 1,
          intervalField strat.1 strat.2 bm δ (bm.coeffs rng ((k0.child N j).child 2 0) δ) (j * δ)) := fun j hj => by
        rw [List.getElem?_map, List.getElem?_range hj]; rfl
      have hx : ∀ j ≤ N, out.2.1[j]? = some (scan (fun x (i : Key × Field d) => (odeInt i.1 x i.2 δ, ((og i.1 x i.2).pos4, (og i.1 x i.2).pos3)))
          (x0, x0, 0) (inps.take j)).1 := by
        intro j
        induction j with
        | zero =>
          intro _
          have h1 := (C02_trajectory_shape rng k0 strat.1 strat.2 ((x0, x0, 0) : Ekf.State3 d) bm δ N odeInt).2.1
          rw [List.head?_eq_getElem?] at h1
          simpa using h1
        | succ j ih =>
          intro hj
          obtain ⟨x, c, b1, -, b3, b4⟩ := sdeSolver_interval rng k0 strat.1 strat.2 ((x0, x0, 0) : Ekf.State3 d) bm δ N odeInt j hj
          obtain rfl := Option.some.inj (b1.symm.trans (ih (by omega)))
          rw [b4, scan_take_succ_fst _ _ _ j _ (hi j hj), b3]
      obtain ⟨x, c, a1, a2, a3⟩ := c3 k0 k hk
      obtain rfl := Option.some.inj (a1.symm.trans (hx k hk.le))
      have hck : c = bm.coeffs rng ((k0.child N k).child 2 0) δ := by
        have := hc ((x0, x0, 0) : Ekf.State3 d) odeInt
        rw [this, List.getElem?_map, List.getElem?_range hk] at a2
        exact (Option.some.inj a2).symm
      rw [List.getElem?_map, a3, scan_getElem?, hi k hk, hck]
      rfl
    · rw [List.getElem?_eq_none (by simpa [c2] using hk), List.getElem?_eq_none (by simpa [inps] using hk)]

/-- A call with a rescaled prior: all returned means, covariances and residuals. -/
theorem ekf2All_scale_full {la : LinAlg} (hla : la.Correct) (rng : Rng) (EKF0 : Bool) (key : Option Key) (init init' : Ekf.State3 d)
    (hi : init.2.2.PosSemidef) {c : ℝ} (hc : 0 < c) (hm : init'.2.1 = init.2.1) (hC : init'.2.2 = c • init.2.2)
    (vf : Field d) (hf : Ekf.FieldOk EKF0 vf) (h : ℝ) (N : ℕ) (sqrt : Bool) (p : Prior (d * (0 + 2))) (hQ : p.Q.PosDef) :
    ∃ o o', Ekf.ekf2All la rng EKF0 key init vf h N sqrt (some ⟨_, p⟩) none = .ok o ∧
      Ekf.ekf2All la rng EKF0 key init' vf h N sqrt (some ⟨_, ⟨p.xi, c • p.Q, p.A⟩⟩) none = .ok o' ∧
      o'.1.2.1 = o.1.2.1 ∧ o'.1.2.2 = c • o.1.2.2 ∧ o'.2.pos3 = c • o.2.pos3 ∧ o'.2.pos4 = o.2.pos4 ∧
      o.1.2.2.PosSemidef ∧ (0 < N → o.2.pos3.PosDef) ∧ o'.2.mean = o.2.mean ∧ o'.2.cov = c • o.2.cov := by
  obtain ⟨o, o', h1, h1', h2, h3, h4, h5, h6, h7⟩ := Ekf.ekf2All_scale hla rng EKF0 key init init' hi hc hm hC vf hf h N sqrt p hQ
  -- the full state in terms of the covariance filter
  have full : ∀ (init : Ekf.State3 d) (p : Prior (d * (0 + 2))) (o : Ekf.State3 d × Ekf.AllOut d), init.2.2.PosSemidef → p.Q.PosDef →
      Ekf.ekf2All la rng EKF0 key init vf h N sqrt (some ⟨_, p⟩) none = .ok o →
      o.2.mean = (KF.ekfUC la (Ekf.init32 la EKF0 init.2.1 init.2.2 vf false) (Ekf.obsFn EKF0 vf) p.A p.Q p.xi 0
        (linspace h (N * h) N) false).1.mean ∧
      o.2.cov = (KF.ekfUC la (Ekf.init32 la EKF0 init.2.1 init.2.2 vf false) (Ekf.obsFn EKF0 vf) p.A p.Q p.xi 0
        (linspace h (N * h) N) false).1.cov := by
    intro init p o hi hQ ho
    rw [Ekf.ekf2All, Ekf.solverUC_some] at ho
    have ho' := Except.ok.inj ho
    rw [← ho']
    cases sqrt
    · exact ⟨rfl, rfl⟩
    · obtain ⟨⟨g1, g2⟩, -⟩ := Ekf.run_represents_UC hla EKF0 vf hf p hQ 0 0 Ekf.isFactor_zero _ _
        (Ekf.init32_represents hla EKF0 init.2.1 hi vf) (linspace h (N * h) N)
      exact ⟨g1, g2⟩
  obtain ⟨a1, a2⟩ := full init p o hi hQ h1
  obtain ⟨b1, b2⟩ := full init' ⟨p.xi, c • p.Q, p.A⟩ o' (hC ▸ hi.smul hc.le) (hQ.smul hc) h1'
  have hp := Ekf.init32_psd la EKF0 init.2.1 hi vf
  have hw := Ekf.wellPosed hla EKF0 vf hf p.A p.Q p.xi 0 hQ PosSemidef.zero (Ekf.init32 la EKF0 init.2.1 init.2.2 vf false) hp
    (linspace h (N * h) N)
  have hs := C45_filter hla (Ekf.obsFn EKF0 vf) p.A p.Q p.xi 0 hc (Ekf.init32 la EKF0 init.2.1 init.2.2 vf false) _ hw
  rw [smul_zero, ← Ekf.init32_smul] at hs
  rw [hm, hC, hs] at b1 b2
  exact ⟨o, o', h1, h1', h2, h3, h4, h5, h6, h7, b1.trans a1.symm, by rw [b2, a2]⟩

theorem exists_ekf2Int (la : LinAlg) (rng : Rng) (M : ℕ) (δ : ℝ) (p : Prior (d * (0 + 2))) :
    ∃ odeInt : OdeInt (Ekf.State3 d) d, ∀ k x vf,
      Ekf.ekf2 la rng false (some k) x vf (δ / M) M true (some ⟨_, p⟩) none = .ok (odeInt k x vf δ) := by
  have : ∀ (k : Key) x vf, ∃ y, Ekf.ekf2 (dim := d) la rng false (some k) x vf (δ / M) M true (some ⟨_, p⟩) none = .ok y := by
    intro k x vf
    rw [Ekf.ekf2_eq, Ekf.solver_some]
    exact ⟨_, rfl⟩
  choose f hf using this
  exact ⟨fun k x vf _ => f k x vf, fun k x vf => hf k x vf⟩

/-- C116: two runs of the calibration experiment with different scales of the prior save the same references and the same means; the
covariances differ by the square of the ratio of the scales, and the estimates by its inverse. -/
theorem C116_rescaled {la : LinAlg} (hla : la.Correct) (rng : Rng) (k0 : Key) (ks : List Key) (drift : Field d) (sigma : Diffusion d m)
    (hdrift : ∀ t, Differentiable ℝ fun x => (toStratonovich drift sigma).1 x t)
    (hsigma : ∀ t, Differentiable ℝ fun x => sigma x t) (x0 : Vec d) {δ : ℝ} (hδ : 0 < δ) (N : ℕ) {M : ℕ} (hM : 0 < M) (fine : ℕ)
    {σ σ' : ℝ} (hσ : σ ≠ 0) (hσ' : σ' ≠ 0) :
    ∃ o o', calibrationExperiment la rng (k0 :: ks) drift sigma x0 δ N M fine σ = .ok o ∧
      calibrationExperiment la rng (k0 :: ks) drift sigma x0 δ N M fine σ' = .ok o' ∧
      o'.refs = o.refs ∧ o'.mean = o.mean ∧ o'.var = o.var.map (fun V => (σ' / σ) ^ 2 • V) ∧
      o'.mle = o.mle / (σ' / σ) ^ 2 ∧ 0 ≤ o.mle := by
  have hM' : (0 : ℝ) < M := by exact_mod_cast hM
  set c := (σ' / σ) ^ 2 with hcdef
  have hc : 0 < c := by positivity
  have hp' : IOUP.transition 0 σ' 1 (δ / M) d = ⟨_, _, _⟩ := ibm_scale σ c 1 (δ / M) d (by rw [hcdef]; field_simp)
  have hQ := Ekf.ibm_Q_posDef hσ 1 (div_pos hδ hM') d
  set p := IOUP.transition 0 σ 1 (δ / M) d with hpd
  set strat := toStratonovich drift sigma with hstrat
  set bm := Foster.getApproxFine m fine
  -- total integrators
  have ex : ∀ q : Prior (d * (0 + 2)), ∃ g : Key → Ekf.State3 d → Field d → Ekf.State3 d × Ekf.AllOut d, ∀ k x vf,
      Ekf.ekf2All la rng false (some k) x vf (δ / M) M true (some ⟨_, q⟩) none = .ok (g k x vf) := fun q => by
    have : ∀ (k : Key) (x : Ekf.State3 d) vf, ∃ y, Ekf.ekf2All la rng false (some k) x vf (δ / M) M true (some ⟨_, q⟩) none = .ok y := by
      intro k x vf
      rw [Ekf.ekf2All, Ekf.solverUC_some]
      exact ⟨_, rfl⟩
    choose f hf using this
    exact ⟨f, hf⟩
  obtain ⟨g, hg⟩ := ex p
  obtain ⟨g', hg'⟩ := ex ⟨p.xi, c • p.Q, p.A⟩
  have hstep : ∀ k x x' cf t0, x.2.2.PosSemidef → x'.2.1 = x.2.1 → x'.2.2 = c • x.2.2 →
      (let vf := intervalField strat.1 strat.2 bm δ cf t0
       let r := g k x vf
       let r' := g' k x' vf
       r'.1.2.1 = r.1.2.1 ∧ r'.1.2.2 = c • r.1.2.2 ∧ r'.2.pos3 = c • r.2.pos3 ∧ r'.2.pos4 = r.2.pos4 ∧
        r.1.2.2.PosSemidef ∧ r.2.pos3.PosDef ∧ r'.2.mean = r.2.mean ∧ r'.2.cov = c • r.2.cov) := by
    intro k x x' cf t0 hx hm hC vf r r'
    obtain ⟨o, o', e1, e2, e3, e4, e5, e6, e7, e8, e9, e10⟩ := ekf2All_scale_full hla rng false (some k) x x' hx hc hm hC vf
      (fieldOk_interval (fun _ => hdrift) (fun _ => hsigma) bm δ cf t0) (δ / M) M true p hQ
    obtain rfl : r = o := Except.ok.inj ((hg k x vf).symm.trans e1)
    obtain rfl : r' = o' := Except.ok.inj ((hg' k x' vf).symm.trans e2)
    exact ⟨e3, e4, e5, e6, e7, e8 hM, e9, e10⟩
  choose others c1 c2 c3 using fun k => customSolver_ok rng k strat.1 strat.2 ((x0, x0, 0) : Ekf.State3 d) bm δ N
    (odeInt := fun k x vf T => Ekf.ekf2All la rng false (some k) x vf (T / M) M true (some ⟨_, p⟩) none)
    (g := fun k x vf _ => g k x vf) hg
  choose others' c1' c2' c3' using fun k => customSolver_ok rng k strat.1 strat.2 ((x0, x0, 0) : Ekf.State3 d) bm δ N
    (odeInt := fun k x vf T => Ekf.ekf2All la rng false (some k) x vf (T / M) M true (some ⟨_, ⟨p.xi, c • p.Q, p.A⟩⟩) none)
    (g := fun k x vf _ => g' k x vf) hg'
  obtain ⟨r, -, -, r1, -⟩ := C116_references rng k0 ks drift sigma x0 δ N fine
  have hm := mapM_ok (k0 :: ks) fun k _ => c1 k
  have hm' := mapM_ok (k0 :: ks) fun k _ => c1' k
  -- the states of the two runs
  have hstate : ∀ k ≤ N, ∃ x x', (sdeSolver rng k0 strat.1 strat.2 ((x0, x0, 0) : Ekf.State3 d) bm δ N fun k x vf _ => (g k x vf).1).2.1[k]? = some x ∧
      (sdeSolver rng k0 strat.1 strat.2 ((x0, x0, 0) : Ekf.State3 d) bm δ N fun k x vf _ => (g' k x vf).1).2.1[k]? = some x' ∧
      x.2.2.PosSemidef ∧ x'.2.1 = x.2.1 ∧ x'.2.2 = c • x.2.2 := by
    intro k
    induction k with
    | zero =>
      intro _
      have h1 := fun I => (C02_trajectory_shape rng k0 strat.1 strat.2 ((x0, x0, 0) : Ekf.State3 d) bm δ N I).2.1
      simp only [List.head?_eq_getElem?] at h1
      exact ⟨_, _, h1 _, h1 _, PosSemidef.zero, rfl, (smul_zero c).symm⟩
    | succ k ih =>
      intro hk
      obtain ⟨x, x', a1, a2, a3, a4, a5⟩ := ih (by omega)
      obtain ⟨y, cf, b1, -, b3, b4⟩ := sdeSolver_interval rng k0 strat.1 strat.2 ((x0, x0, 0) : Ekf.State3 d) bm δ N (fun k x vf _ => (g k x vf).1) k hk
      obtain ⟨y', cf', b1', -, b3', b4'⟩ := sdeSolver_interval rng k0 strat.1 strat.2 ((x0, x0, 0) : Ekf.State3 d) bm δ N (fun k x vf _ => (g' k x vf).1) k hk
      obtain rfl := Option.some.inj (a1.symm.trans b1)
      obtain rfl := Option.some.inj (a2.symm.trans b1')
      obtain rfl : cf' = cf := b3'.trans b3.symm
      obtain ⟨e1, e2, -, -, e5, -⟩ := hstep ((k0.child N k).child 2 1) x x' cf' (k * δ) a3 a4 a5
      exact ⟨_, _, b4, b4', e5, e1, e2⟩
  have hel : ∀ k < N, ∃ a a', (others k0)[k]? = some a ∧ (others' k0)[k]? = some a' ∧ a'.mean = a.mean ∧ a'.cov = c • a.cov ∧
      a'.pos3 = c • a.pos3 ∧ a'.pos4 = a.pos4 ∧ a.pos3.PosDef := by
    intro k hk
    obtain ⟨x, x', a1, a2, a3, a4, a5⟩ := hstate k hk.le
    obtain ⟨y, cf, b1, b2, b3⟩ := c3 k0 k hk
    obtain ⟨y', cf', b1', b2', b3'⟩ := c3' k0 k hk
    obtain rfl := Option.some.inj (a1.symm.trans b1)
    obtain rfl := Option.some.inj (a2.symm.trans b1')
    obtain rfl : cf' = cf := by
      rw [sdeSolver_coeffs, List.getElem?_map, List.getElem?_range hk] at b2 b2'
      exact (Option.some.inj b2').symm.trans (Option.some.inj b2)
    obtain ⟨-, -, e3, e4, -, e6, e7, e8⟩ := hstep ((k0.child N k).child 2 1) x x' cf' (k * δ) a3 a4 a5
    exact ⟨_, _, b3, b3', e7, e8, e3, e4, e6⟩
  have hmap : ∀ {B : Type} (u v : Ekf.AllOut d → B), (∀ a a', a'.mean = a.mean → a'.cov = c • a.cov → a'.pos3 = c • a.pos3 → a'.pos4 = a.pos4 →
      v a' = u a) → (others' k0).map v = (others k0).map u := by
    intro B u v huv
    refine List.ext_getElem? fun k => ?_
    by_cases hk : k < N
    · obtain ⟨a, a', e1, e2, e3, e4, e5, e6, -⟩ := hel k hk
      rw [List.getElem?_map, List.getElem?_map, e1, e2]
      exact congrArg some (huv a a' e3 e4 e5 e6)
    · rw [List.getElem?_eq_none (by simpa [c2'] using hk), List.getElem?_eq_none (by simpa [c2] using hk)]
  have hpd : ∀ q ∈ (others k0).map (fun o => (o.pos4, o.pos3)), q.2.PosDef := by
    intro q hq
    obtain ⟨a, ha, rfl⟩ := List.mem_map.mp hq
    obtain ⟨k, hk, rfl⟩ := List.getElem_of_mem ha
    obtain ⟨b, -, e1, -, -, -, -, -, e7⟩ := hel k (c2 k0 ▸ hk)
    rw [List.getElem?_eq_getElem hk] at e1
    rw [Option.some.inj e1]
    exact e7
  refine ⟨⟨(others k0).map (·.mean), (others k0).map (·.cov), r, estimate la ((others k0).map fun o => (o.pos4, o.pos3))⟩,
    ⟨(others' k0).map (·.mean), (others' k0).map (·.cov), r, estimate la ((others' k0).map fun o => (o.pos4, o.pos3))⟩, ?_, ?_, rfl,
    hmap _ _ fun _ _ h _ _ _ => h, ?_, ?_, mle_nonneg hla _ _ fun i => hpd _ (List.get_mem _ i)⟩
  · unfold calibrationExperiment
    refine (except_bind hm _).trans ?_
    refine (except_bind r1 _).trans ?_
    rfl
  · unfold calibrationExperiment
    rw [hp']
    refine (except_bind hm' _).trans ?_
    refine (except_bind r1 _).trans ?_
    rfl
  · show (others' k0).map (·.cov) = ((others k0).map (·.cov)).map _
    rw [List.map_map]
    exact hmap _ _ fun _ _ _ h _ _ => h
  · have : (others' k0).map (fun o => (o.pos4, o.pos3)) = ((others k0).map fun o => (o.pos4, o.pos3)).map fun o => (o.1, c • o.2) := by
      rw [List.map_map]
      exact hmap _ _ fun _ _ _ _ h h' => by rw [h, h']; rfl
    show estimate la ((others' k0).map fun o => (o.pos4, o.pos3)) = estimate la ((others k0).map fun o => (o.pos4, o.pos3)) / c
    rw [this]
    exact estimate_map hla _ hpd hc

/-- C116: what the calibration script saves. Whenever the first estimate `e` is not zero, the files of the calibrated run are those of the
uncalibrated run: the references and the means are the same, every covariance is multiplied by `e / 10`, and the second estimate is 10. -/
theorem C116_main {la : LinAlg} (hla : la.Correct) (rng : Rng) (k0 : Key) (ks : List Key) (drift : Field d) (sigma : Diffusion d m)
    (hdrift : ∀ t, Differentiable ℝ fun x => (toStratonovich drift sigma).1 x t)
    (hsigma : ∀ t, Differentiable ℝ fun x => sigma x t) (x0 : Vec d) {δ : ℝ} (hδ : 0 < δ) (N : ℕ) {M : ℕ} (hM : 0 < M) (fine : ℕ) :
    ∃ o, calibrationExperiment la rng (k0 :: ks) drift sigma x0 δ N M fine (√10) = .ok o ∧ 0 ≤ o.mle ∧
      (o.mle ≠ 0 → calibrationMain la rng (k0 :: ks) drift sigma x0 δ N M fine =
        .ok (o, ⟨o.mean, o.var.map (fun V => (o.mle / 10) • V), o.refs, 10⟩)) := by
  have h10 : √(10 : ℝ) ≠ 0 := by positivity
  obtain ⟨o, -, h1, -, -, -, -, -, h7⟩ := C116_rescaled hla rng k0 ks drift sigma hdrift hsigma x0 hδ N hM fine h10 h10
  refine ⟨o, h1, h7, fun he => ?_⟩
  have hpos : 0 < o.mle := lt_of_le_of_ne h7 (Ne.symm he)
  have hr : o.mle ^ (0.5 : ℝ) = √o.mle := by rw [Real.sqrt_eq_rpow]; norm_num
  have hne : √o.mle ≠ 0 := (Real.sqrt_pos.mpr hpos).ne'
  obtain ⟨o1, o', g1, g2, g3, g4, g5, g6, -⟩ := C116_rescaled hla rng k0 ks drift sigma hdrift hsigma x0 hδ N hM fine h10 hne
  obtain rfl : o1 = o := Except.ok.inj (g1.symm.trans h1)
  have hc : (√o1.mle / √10) ^ 2 = o1.mle / 10 := by rw [div_pow, Real.sq_sqrt hpos.le, Real.sq_sqrt (by norm_num)]
  rw [hc] at g5 g6
  have ho' : o' = ⟨o1.mean, o1.var.map (fun V => (o1.mle / 10) • V), o1.refs, 10⟩ := by
    obtain ⟨a, b, c, e⟩ := o'
    simp only at g3 g4 g5 g6
    rw [g3, g4, g5, g6]
    congr 1
    field_simp
  unfold calibrationMain
  refine (except_bind h1 _).trans ?_
  rw [hr]
  refine (except_bind g2 _).trans ?_
  rw [ho']
  rfl

/-- C116: the experiment that samples from the posterior. The saved means and covariances are those of `sde_solver` with Algorithm 3 on the
first of the two keys, without the initial value; sample `i` is drawn with the `i`-th of the other children of the script's key, and there
are `noSamples` of them. -/
theorem C116_posterior (la : LinAlg) (rng : Rng) (key : Key) (drift : Field d) (sigma : Diffusion d m) (x0 : Vec d) (δ : ℝ)
    (N M fine noSamples : ℕ) (odeInt : OdeInt (Ekf.State3 d) d)
    (hode : ∀ k x vf, Ekf.ekf2 la rng false (some k) x vf (δ / M) M true (some ⟨_, IOUP.transition 0 1 1 (δ / M) d⟩) none =
      .ok (odeInt k x vf δ)) :
    let strat := toStratonovich drift sigma
    let out := sdeSolver rng (key.child 2 0) strat.1 strat.2 ((x0, x0, 0) : Ekf.State3 d) (Foster.getApproxFine m fine) δ N odeInt
    ∃ o, posteriorExperiment la rng key drift sigma x0 δ N M fine noSamples = .ok o ∧ o.n = N ∧
      references rng [key.child 2 0, key.child 2 1] drift sigma x0 δ N fine = .ok o.refs ∧
      (∀ k : Fin o.n, ∃ s, out.2.1[k.1 + 1]? = some (s, o.mean k, o.var k)) ∧
      o.samples.length = noSamples ∧
      ∀ i < noSamples, o.samples[i]? = some (posteriorSample la rng o.mean o.var (key.child noSamples i)) := by
  intro strat out
  choose others c1 c2 c3 using fun k => customSolver_ok rng k strat.1 strat.2 ((x0, x0, 0) : Ekf.State3 d) (Foster.getApproxFine m fine) δ N
    (odeInt := fun k x vf T => (do
      let y ← Ekf.ekf2 la rng false (some k) x vf (T / M) M true (some ⟨_, IOUP.transition 0 1 1 (δ / M) d⟩) none
      return (y, ()) : Except PyErr (Ekf.State3 d × Unit)))
    (g := fun k x vf T => (odeInt k x vf T, ())) (fun k x vf => by rw [hode]; rfl)
  have hm := mapM_ok [key.child 2 0, key.child 2 1] fun k _ => c1 k
  obtain ⟨r, -, -, r1, -⟩ := C116_references rng (key.child 2 0) [key.child 2 1] drift sigma x0 δ N fine
  have hlen := (C02_trajectory_shape rng (key.child 2 0) strat.1 strat.2 ((x0, x0, 0) : Ekf.State3 d) (Foster.getApproxFine m fine) δ N odeInt).1
  refine ⟨⟨out.2.1.tail.length, (key.split noSamples).map (posteriorSample la rng (fun i => (out.2.1.tail.get i).2.1)
    (fun i => (out.2.1.tail.get i).2.2)), fun i => (out.2.1.tail.get i).2.1, fun i => (out.2.1.tail.get i).2.2, r⟩, ?_, ?_, r1, fun k => ?_,
    by simp [Key.split], fun i hi => ?_⟩
  · unfold posteriorExperiment
    refine (except_bind hm _).trans ?_
    refine (except_bind r1 _).trans ?_
    rfl
  · show out.2.1.tail.length = N
    rw [List.length_tail]
    have : out.2.1.length = N + 1 := hlen
    omega
  · refine ⟨(out.2.1.tail.get k).1, ?_⟩
    have hk : k.1 < out.2.1.tail.length := k.2
    rw [← List.getElem?_tail, List.getElem?_eq_getElem hk]
    rfl
  · show ((key.split noSamples).map _)[i]? = _
    rw [List.getElem?_map, Key.split, List.getElem?_map, List.getElem?_range hi]
    rfl

theorem fhn_stratonovich : toStratonovich Ivp.Fhn.drift Ivp.Fhn.sigma = (Ivp.Fhn.drift, Ivp.Fhn.sigma) :=
  Prod.ext (C10_additive_noise Ivp.Fhn.drift (fun _ => !![0; Ivp.Fhn.sig])).2 rfl

/-- C116: the problem and the sizes of the calibration script. -/
example {la : LinAlg} (hla : la.Correct) (rng : Rng) (key : Key) :
    ∃ o, calibrationExperiment la rng (key.split 2) Ivp.Fhn.drift Ivp.Fhn.sigma Ivp.Fhn.x0 (1 / 50) 50 1 50 (√10) = .ok o ∧
      o.refs.sols2.length = 2501 ∧ (o.mle ≠ 0 → ∃ o', calibrationMain la rng (key.split 2) Ivp.Fhn.drift Ivp.Fhn.sigma Ivp.Fhn.x0 (1 / 50) 50 1 50 =
        .ok (o, o') ∧ o'.mean = o.mean ∧ o'.mle = 10) := by
  have hks : key.split 2 = key.child 2 0 :: [key.child 2 1] := rfl
  rw [hks]
  obtain ⟨o, h1, -, h3⟩ := C116_main hla rng (key.child 2 0) [key.child 2 1] Ivp.Fhn.drift Ivp.Fhn.sigma (by
    rw [fhn_stratonovich]
    refine fun t => differentiable_pi.mpr fun i => ?_
    fin_cases i <;> simp [Ivp.Fhn.drift, vecHead, vecTail] <;> fun_prop) (fun _ => differentiable_const _) Ivp.Fhn.x0
    (show (0 : ℝ) < 1 / 50 by norm_num) 50 one_pos 50
  obtain ⟨odeInt, hode⟩ := exists_ekf2Int la rng 1 (1 / 50) (IOUP.transition 0 (√10) 1 (1 / 50 / (1 : ℕ)) 2)
  obtain ⟨o2, -, g1, g2, -⟩ := C116_filter la rng (key.child 2 0) [key.child 2 1] Ivp.Fhn.drift Ivp.Fhn.sigma Ivp.Fhn.x0 (1 / 50) 50 1 50 (√10)
    odeInt hode
  obtain rfl : o2 = o := Except.ok.inj (g1.symm.trans h1)
  obtain ⟨r, -, -, q1, -, -, -, -, -, -, -, -, q2, -⟩ := C116_references rng (key.child 2 0) [key.child 2 1] Ivp.Fhn.drift Ivp.Fhn.sigma Ivp.Fhn.x0
    (1 / 50) 50 50
  obtain rfl : r = o2.refs := Except.ok.inj (q1.symm.trans g2)
  exact ⟨o2, h1, q2, fun he => ⟨_, h3 he, rfl, rfl⟩⟩

/-- C116: an integrator as in `C116_posterior` exists, here for the sizes of the sampling script. -/
example (la : LinAlg) (rng : Rng) (key : Key) :
    ∃ o, posteriorExperiment la rng key Ivp.Fhn.drift Ivp.Fhn.sigma Ivp.Fhn.x0 (1 / 9) 9 1 9 100 = .ok o ∧ o.n = 9 ∧ o.samples.length = 100 := by
  obtain ⟨odeInt, hode⟩ := exists_ekf2Int la rng 1 (1 / 9) (IOUP.transition 0 1 1 (1 / 9 / (1 : ℕ)) 2)
  obtain ⟨o, h1, h2, -, -, h5, -⟩ := C116_posterior la rng key Ivp.Fhn.drift Ivp.Fhn.sigma Ivp.Fhn.x0 (1 / 9) 9 1 9 100 odeInt hode
  exact ⟨o, h1, h2, h5⟩

end Verif
