import Verif.Lemmas.CalibrationStep
import Verif.Lemmas.RosStep

/-!
# Property C117: what the calibration experiment computes with one filter step per interval, and on an ODE
-/

namespace Verif

open Matrix Spec Jnp Scripts

variable {d m : ℕ}

/-- C117: with one filter step per interval the means, the covariances and the estimate of the calibration experiment, in closed form. The
run starts with covariance zero; in step `k` the field of interval `k` is linearised at the mean (`J0`) and at the Euler prediction
(`J1`), the residual is the slope at the mean minus the slope at the prediction, and the estimate is the average of the squared
Mahalanobis norms of the residuals. -/
theorem C117_estimate {la : LinAlg} (hla : la.Correct) (rng : Rng) (k0 : Key) (ks : List Key) (drift : Field d) (sigma : Diffusion d m)
    (hdrift : ∀ t, Differentiable ℝ fun x => (toStratonovich drift sigma).1 x t)
    (hsigma : ∀ t, Differentiable ℝ fun x => sigma x t) (x0 : Vec d) {δ : ℝ} (hδ : 0 < δ) (N fine : ℕ) {σ : ℝ} (hσ : σ ≠ 0) :
    let strat := toStratonovich drift sigma
    let bm := Foster.getApproxFine m fine
    let vf := fun (k : ℕ) => intervalField strat.1 strat.2 bm δ (bm.coeffs rng ((k0.child N k).child 2 0) δ) (k * δ)
    let s := alg3Path vf δ x0
    ∃ o, calibrationExperiment la rng (k0 :: ks) drift sigma x0 δ N 1 fine σ = .ok o ∧ o.mean.length = N ∧ o.var.length = N ∧
      (∀ k < N, ∃ mu V, o.mean[k]? = some mu ∧ o.var[k]? = some V ∧ stride 0 mu = (s (k + 1)).1 ∧ strideMat 0 0 V = σ ^ 2 • (s (k + 1)).2) ∧
      o.mle = (∑ k ∈ Finset.range N, alg3Z (vf k) δ (s k).1 ⬝ᵥ (alg3PathS vf δ x0 k)⁻¹ *ᵥ alg3Z (vf k) δ (s k).1) / (σ ^ 2 * (N * d)) := by
  intro strat bm vf s
  have hvf : ∀ k t, Differentiable ℝ fun x => vf k x t := fun k =>
    fieldOk_interval (EKF0 := false) (fun _ => hdrift) (fun _ => hsigma) bm δ (bm.coeffs rng ((k0.child N k).child 2 0) δ) (k * δ) rfl
  obtain ⟨odeInt, hode⟩ := exists_ekf2Int (d := d) la rng 1 δ (IOUP.transition 0 σ 1 (δ / (1 : ℕ)) d)
  obtain ⟨o, l, h1, -, h2, h3, h4, -, -, -, h5, h6⟩ := C116_filter la rng k0 ks drift sigma x0 δ N 1 fine σ odeInt hode
  simp only [Nat.cast_one, div_one] at hode h5
  refine ⟨o, h1, h2, h3, fun k hk => ?_, ?_⟩
  · obtain ⟨y, hy, hy0, hys⟩ := sdeSolver_states rng k0 strat.1 strat.2 ((x0, x0, 0) : Ekf.State3 d) bm δ N odeInt
    have hst : ∀ n ≤ N, (y n).2 = ((s n).1, σ ^ 2 • (s n).2) := by
      intro n
      induction n with
      | zero => intro _; rw [hy0]; simp [s, alg3Path]
      | succ n ih =>
        intro hn
        obtain ⟨c, hc, hs⟩ := hys n (by omega)
        rw [sdeSolver_coeffs, List.getElem?_map, List.getElem?_range (by omega)] at hc
        obtain rfl := Option.some.inj hc
        have e : y n = ((y n).1, (s n).1, σ ^ 2 • (s n).2) := by rw [← ih (by omega)]
        obtain ⟨o1, g1, g2, -⟩ := (ekf2All_one hla (vf n) hσ hδ (hvf n) (alg3Path_psd hδ hvf x0 n) (s n).1).2 rng ((k0.child N n).child 2 1) (y n).1
        have g3 := (C50_same la rng false (some ((k0.child N n).child 2 1)) ((y n).1, (s n).1, σ ^ 2 • (s n).2) (vf n) δ 1 true
          (some ⟨_, IOUP.transition 0 σ 1 δ d⟩) none).1
        have g4 := hode ((k0.child N n).child 2 1) (y n) (vf n)
        rw [e] at g4
        rw [g1, g4] at g3
        have g5 : o1.1 = _ := Except.ok.inj g3
        rw [hs]
        conv_lhs => rw [e]
        exact (congrArg Prod.snd g5.symm).trans g2
    obtain ⟨y', mu, V, a1, a2, a3, a4, a5⟩ := h4 k hk
    obtain rfl : y (k + 1) = y' := Option.some.inj ((hy (k + 1) (by omega)).symm.trans a1)
    refine ⟨mu, V, a2, a3, ?_, ?_⟩
    · rw [← a4, hst _ (by omega)]
    · rw [← a5, hst _ (by omega)]
  · have h7 := calibrationRun_one hla rng hσ hδ hvf x0 (fun k => (k0.child N k).child 2 1) N 0 x0
    simp only [zero_add] at h7
    have h8 : calibrationRun la rng δ 1 σ x0 ((List.range N).map fun k => ((k0.child N k).child 2 1, vf k)) =
        .ok ((List.range N).map fun i => (alg3Z (vf i) δ (s i).1, σ ^ 2 • alg3PathS vf δ x0 i)) := by
      rw [calibrationRun, ← h7]
      simp [alg3Path]
    obtain rfl : l = (List.range N).map fun i => (alg3Z (vf i) δ (s i).1, σ ^ 2 • alg3PathS vf δ x0 i) := Except.ok.inj (h5.symm.trans h8)
    rw [h6, estimate_range]
    have hS : ∀ k, (alg3PathS vf δ x0 k).PosDef := fun k => alg3S_posDef hδ _ _ (alg3Path_psd hδ hvf x0 k)
    have h9 : ∀ k, alg3Z (vf k) δ (s k).1 ⬝ᵥ la.solve (σ ^ 2 • alg3PathS vf δ x0 k) (alg3Z (vf k) δ (s k).1) =
        (σ ^ 2)⁻¹ * (alg3Z (vf k) δ (s k).1 ⬝ᵥ (alg3PathS vf δ x0 k)⁻¹ *ᵥ alg3Z (vf k) δ (s k).1) := fun k => by
      have hu := pd_isUnit_det ((hS k).smul (by positivity : 0 < σ ^ 2))
      have hi : (σ ^ 2 • alg3PathS vf δ x0 k)⁻¹ = (σ ^ 2)⁻¹ • (alg3PathS vf δ x0 k)⁻¹ := by
        refine inv_eq_right_inv ?_
        rw [Matrix.smul_mul, Matrix.mul_smul, smul_smul, mul_inv_cancel₀ (by positivity), one_smul, mul_nonsing_inv _ (pd_isUnit_det (hS k))]
      have hs : la.solve (σ ^ 2 • alg3PathS vf δ x0 k) (alg3Z (vf k) δ (s k).1) = (σ ^ 2 • alg3PathS vf δ x0 k)⁻¹ *ᵥ alg3Z (vf k) δ (s k).1 := by
        conv_rhs => rw [← hla.solve_spec _ (alg3Z (vf k) δ (s k).1) hu, mulVec_mulVec, nonsing_inv_mul _ hu, one_mulVec]
      rw [hs, hi, smul_mulVec, dotProduct_smul, smul_eq_mul]
    show (∑ k ∈ Finset.range N, alg3Z (vf k) δ (s k).1 ⬝ᵥ la.solve (σ ^ 2 • alg3PathS vf δ x0 k) (alg3Z (vf k) δ (s k).1)) / _ = _
    simp only [h9, ← Finset.mul_sum]
    field_simp

/-! ## On an ODE -/

/-- With `return_all`, only the sample depends on the key and on the sample before. -/
theorem ekf2All_det (la : LinAlg) (rng rng' : Rng) (k k' : Key) (x x' : Ekf.State3 d) (hx : x.2 = x'.2) (vf : Field d) (h : ℝ) (M : ℕ)
    (p : Prior (d * (0 + 2))) : ∃ o o', Ekf.ekf2All la rng false (some k) x vf h M true (some ⟨_, p⟩) none = .ok o ∧
      Ekf.ekf2All la rng' false (some k') x' vf h M true (some ⟨_, p⟩) none = .ok o' ∧ o.1.2 = o'.1.2 ∧ o.2.mean = o'.2.mean ∧
      o.2.cov = o'.2.cov ∧ o.2.pos3 = o'.2.pos3 ∧ o.2.pos4 = o'.2.pos4 := by
  obtain ⟨s, y⟩ := x
  obtain ⟨s', y'⟩ := x'
  obtain rfl : y = y' := hx
  simp only [Ekf.ekf2All, Ekf.solverUC_some]
  exact ⟨_, _, rfl, rfl, rfl, rfl, rfl, rfl, rfl⟩

theorem intervalField_zero {C : Type} (drift : Field d) (bm : BmApprox C m) (δ : ℝ) (c : C) (tk : ℝ) :
    intervalField drift (fun _ _ => (0 : Mat d m)) bm δ c tk = fun z t => drift z (t + tk) := by
  funext z t
  simp [intervalField]

theorem stratonovich_zero (drift : Field d) :
    toStratonovich drift (fun _ _ => (0 : Mat d m)) = (drift, fun _ _ => 0) := by
  refine Prod.ext (C10_additive_noise drift (fun _ => (0 : Mat d m))).2 rfl

theorem eulerSolver_add (x0 : Vec d) (f : Field d) (h : ℝ) (a b : ℕ) :
    eulerSolver x0 f h (a + b) = eulerSolver (eulerSolver x0 f h a) (fun z t => f z (t + a * h)) h b := by
  induction b with
  | zero => rw [eulerSolver_zero, add_zero]
  | succ b ih =>
    rw [← add_assoc, eulerSolver_succ, eulerSolver_succ, ih]
    congr 3
    push_cast
    ring

theorem emPathwise_zero {incs : List (Vec m)} {x0 : Vec d} {drift : Field d} {h : ℝ} {N : ℕ} {ts : List ℝ} {sols : List (Vec d)}
    (hl : incs.length = N) (hs : emPathwise incs x0 drift (fun _ _ => (0 : Mat d m)) h N = .ok (ts, sols)) (k : ℕ) (hk : k ≤ N) :
    sols[k]? = some (eulerSolver x0 drift h k) := by
  rw [emPathwise_eq _ _ _ _ _ _ _ hl] at hs
  obtain rfl := congrArg Prod.snd (Except.ok.inj hs)
  rw [List.getElem?_map, List.getElem?_range (by omega), Option.map_some, emFold_zero_noise _ _ _ (fun _ _ => rfl), eulerSolver_eq]
  simp [hl, hk]

/-- C117: on an ODE (diffusion zero, as in `sanity_check_calibration_ode.py`) the keys do not matter. Two runs of the experiment with any
generators and keys save the same means, covariances, solutions and estimate. The three reference solutions are Euler's method: with the
fine step, with the interval as step, and with the fine step restarted at every interval, which is the first one at the interval ends. -/
theorem C117_ode (la : LinAlg) (rng rng' : Rng) (k0 k0' : Key) (ks ks' : List Key) (drift : Field d) (x0 : Vec d) (δ : ℝ)
    (N M : ℕ) {fine : ℕ} (hfine : 0 < fine) (σ : ℝ) :
    ∃ o o', calibrationExperiment la rng (k0 :: ks) drift (fun _ _ => (0 : Mat d m)) x0 δ N M fine σ = .ok o ∧
      calibrationExperiment la rng' (k0' :: ks') drift (fun _ _ => (0 : Mat d m)) x0 δ N M fine σ = .ok o' ∧
      o.mean = o'.mean ∧ o.var = o'.var ∧ o.mle = o'.mle ∧ o.refs.sols2 = o'.refs.sols2 ∧ o.refs.sols3 = o'.refs.sols3 ∧
      o.refs.odeEuler = o'.refs.odeEuler ∧
      (∀ k ≤ fine * N, o.refs.sols2[k]? = some (eulerSolver x0 drift (δ / fine) k)) ∧
      (∀ k ≤ N, o.refs.sols3[k]? = some (eulerSolver x0 drift δ k)) ∧
      ∀ k ≤ N, o.refs.odeEuler[k]? = some (eulerSolver x0 drift (δ / fine) (k * fine)) := by
  -- the filter
  obtain ⟨p, hp⟩ : ∃ p, p = IOUP.transition 0 σ 1 (δ / M) d := ⟨_, rfl⟩
  have ex : ∀ rng : Rng, ∃ g : Key → Ekf.State3 d → Field d → Ekf.State3 d × Ekf.AllOut d, ∀ k x vf,
      Ekf.ekf2All la rng false (some k) x vf (δ / M) M true (some ⟨_, p⟩) none = .ok (g k x vf) := fun rng => by
    have : ∀ (k : Key) (x : Ekf.State3 d) vf, ∃ y, Ekf.ekf2All la rng false (some k) x vf (δ / M) M true (some ⟨_, p⟩) none = .ok y :=
      fun k x vf => let ⟨o, _, h, _⟩ := ekf2All_det la rng rng k k x x rfl vf (δ / M) M p; ⟨o, h⟩
    choose g hg using this
    exact ⟨g, hg⟩
  have filt : ∀ (rng : Rng) (k0 : Key) (ks : List Key), ∃ o, calibrationExperiment la rng (k0 :: ks) drift (fun _ _ => (0 : Mat d m)) x0 δ N M
      fine σ = .ok o ∧ references rng (k0 :: ks) drift (fun _ _ => (0 : Mat d m)) x0 δ N fine = .ok o.refs ∧
      ∃ (x : ℕ → Ekf.State3 d) (g : Key → Ekf.State3 d → Field d → Ekf.State3 d × Ekf.AllOut d) (κ : ℕ → Key) (others : List (Ekf.AllOut d)),
        (∀ k x vf, Ekf.ekf2All la rng false (some k) x vf (δ / M) M true (some ⟨_, p⟩) none = .ok (g k x vf)) ∧
        x 0 = (x0, x0, 0) ∧ (∀ k < N, x (k + 1) = (g (κ k) (x k) fun z t => drift z (t + k * δ)).1) ∧ others.length = N ∧
        (∀ k < N, others[k]? = some (g (κ k) (x k) fun z t => drift z (t + k * δ)).2) ∧
        o.mean = others.map (·.mean) ∧ o.var = others.map (·.cov) ∧ o.mle = estimate la (others.map fun o => (o.pos4, o.pos3)) := by
    intro rng k0 ks
    obtain ⟨g, hg⟩ := ex rng
    choose others c1 c2 c3 using fun k => customSolver_ok rng k drift (fun _ _ => (0 : Mat d m)) ((x0, x0, 0) : Ekf.State3 d)
      (Foster.getApproxFine m fine) δ N
      (odeInt := fun k x vf T => Ekf.ekf2All la rng false (some k) x vf (T / M) M true (some ⟨_, p⟩) none)
      (g := fun k x vf _ => g k x vf) hg
    have hm := mapM_ok (k0 :: ks) fun k _ => c1 k
    obtain ⟨r, -, -, r1, -⟩ := C116_references rng k0 ks drift (fun _ _ => (0 : Mat d m)) x0 δ N fine
    obtain ⟨y, hy, hy0, hys⟩ := sdeSolver_states rng k0 drift (fun _ _ => (0 : Mat d m)) ((x0, x0, 0) : Ekf.State3 d)
      (Foster.getApproxFine m fine) δ N fun k x vf _ => (g k x vf).1
    refine ⟨⟨(others k0).map (·.mean), (others k0).map (·.cov), r, estimate la ((others k0).map fun o => (o.pos4, o.pos3))⟩, ?_, r1,
      y, g, fun k => (k0.child N k).child 2 1, others k0, hg, hy0, fun k hk => ?_, c2 k0, fun k hk => ?_, rfl, rfl, rfl⟩
    · unfold calibrationExperiment
      simp only [stratonovich_zero, ← hp]
      refine (except_bind hm _).trans ?_
      refine (except_bind r1 _).trans ?_
      rfl
    · obtain ⟨c, -, hs⟩ := hys k hk
      rw [hs, intervalField_zero]
    · obtain ⟨x, c, h1, -, h3⟩ := c3 k0 k hk
      rw [h3, intervalField_zero]
      obtain rfl : y k = x := Option.some.inj ((hy k (by omega)).symm.trans h1)
      rfl
  obtain ⟨o, e1, e2, x, g, κ, others, hg, hx0, hx, hl, ho, om, ov, oe⟩ := filt rng k0 ks
  obtain ⟨o', e1', e2', x', g', κ', others', hg', hx0', hx', hl', ho', om', ov', oe'⟩ := filt rng' k0' ks'
  have hdet : ∀ k k' x x' vf, x.2 = x'.2 → (g k x vf).1.2 = (g' k' x' vf).1.2 ∧ (g k x vf).2.mean = (g' k' x' vf).2.mean ∧
      (g k x vf).2.cov = (g' k' x' vf).2.cov ∧ (g k x vf).2.pos3 = (g' k' x' vf).2.pos3 ∧
      (g k x vf).2.pos4 = (g' k' x' vf).2.pos4 := fun k k' x x' vf h => by
    obtain ⟨a, a', b, b', b1, b2, b3, b4, b5⟩ := ekf2All_det la rng rng' k k' x x' h vf (δ / M) M p
    obtain rfl : g k x vf = a := Except.ok.inj ((hg k x vf).symm.trans b)
    obtain rfl : g' k' x' vf = a' := Except.ok.inj ((hg' k' x' vf).symm.trans b')
    exact ⟨b1, b2, b3, b4, b5⟩
  have hxx : ∀ k ≤ N, (x k).2 = (x' k).2 := by
    intro k
    induction k with
    | zero => intro _; rw [hx0, hx0']
    | succ k ih =>
      intro hk
      rw [hx k (by omega), hx' k (by omega)]
      exact (hdet _ _ _ _ _ (ih (by omega))).1
  have hmap : ∀ {β : Type} (F : Ekf.AllOut d → β), (∀ k k' x x' vf, x.2 = x'.2 → F (g k x vf).2 = F (g' k' x' vf).2) →
      others.map F = others'.map F := by
    intro β F hF
    refine List.ext_getElem? fun k => ?_
    by_cases hk : k < N
    · rw [List.getElem?_map, List.getElem?_map, ho k hk, ho' k hk, Option.map_some, Option.map_some, hF _ _ _ _ _ (hxx k hk.le)]
    · rw [List.getElem?_eq_none (by simp; omega), List.getElem?_eq_none (by simp; omega)]
  -- the references
  have refs : ∀ (rng : Rng) (k0 : Key) (ks : List Key) (r : References d m),
      references rng (k0 :: ks) drift (fun _ _ => (0 : Mat d m)) x0 δ N fine = .ok r →
      (∀ k ≤ fine * N, r.sols2[k]? = some (eulerSolver x0 drift (δ / fine) k)) ∧
      (∀ k ≤ N, r.sols3[k]? = some (eulerSolver x0 drift δ k)) ∧
      (∀ k ≤ N, r.odeEuler[k]? = some (eulerSolver x0 drift (δ / fine) (k * fine))) ∧
      r.sols2.length = fine * N + 1 ∧ r.sols3.length = N + 1 ∧ r.odeEuler.length = N + 1 := by
    intro rng k0 ks r hr
    obtain ⟨r', ts2, ts3, r1, r2, r3, r4, -, -, -, r5, r6, r7⟩ := C116_references rng k0 ks drift (fun _ _ => (0 : Mat d m)) x0 δ N fine
    obtain rfl : r = r' := Except.ok.inj (hr.symm.trans r1)
    simp only [stratonovich_zero] at r2 r3 r5 r6
    refine ⟨fun k hk => emPathwise_zero ?_ r5 k hk, fun k hk => emPathwise_zero ?_ r6 k hk, fun k => ?_, r7⟩
    · refine r4 _ ?_
      rw [r3]
      exact List.mem_cons_self ..
    · rw [List.length_map]
      exact (C02_trajectory_shape rng k0 _ _ _ _ _ _ _).2.2
    · rw [r2]
      obtain ⟨y, hy, hy0, hys⟩ := sdeSolver_states rng k0 drift (fun _ _ => (0 : Mat d m)) x0 (Foster.getApproxFine m fine) δ N (eulerInt fine)
      intro hk
      rw [hy k hk]
      congr 1
      clear r2
      induction k with
      | zero => rw [hy0, Nat.zero_mul, eulerSolver_zero]
      | succ k ih =>
        obtain ⟨c, -, hs⟩ := hys k (by omega)
        rw [hs, intervalField_zero, ih (by omega), Nat.succ_mul, eulerSolver_add, eulerInt]
        have : ((k * fine : ℕ) : ℝ) * (δ / fine) = k * δ := by
          have : (fine : ℝ) ≠ 0 := by exact_mod_cast hfine.ne'
          push_cast
          field_simp
        rw [this]
  have heq : ∀ {l l' : List (Vec d)} {n : ℕ} {F : ℕ → Vec d}, l.length = n + 1 → l'.length = n + 1 → (∀ k ≤ n, l[k]? = some (F k)) →
      (∀ k ≤ n, l'[k]? = some (F k)) → l = l' := by
    intro l l' n F h1 h2 h3 h4
    refine List.ext_getElem? fun k => ?_
    by_cases hk : k ≤ n
    · rw [h3 k hk, h4 k hk]
    · rw [List.getElem?_eq_none (by omega), List.getElem?_eq_none (by omega)]
  obtain ⟨a1, a2, a3, a4, a5, a6⟩ := refs rng k0 ks _ e2
  obtain ⟨b1, b2, b3, b4, b5, b6⟩ := refs rng' k0' ks' _ e2'
  refine ⟨o, o', e1, e1', ?_, ?_, ?_, heq a4 b4 a1 b1, heq a5 b5 a2 b2, heq a6 b6 a3 b3, a1, a2, a3⟩
  · rw [om, om']
    exact hmap _ fun k k' x x' vf h => (hdet k k' x x' vf h).2.1
  · rw [ov, ov']
    exact hmap _ fun k k' x x' vf h => (hdet k k' x x' vf h).2.2.1
  · rw [oe, oe', hmap _ fun k k' x x' vf h => by rw [(hdet k k' x x' vf h).2.2.2.1, (hdet k k' x x' vf h).2.2.2.2]]

/-- C117: one interval of the sanity check. The estimate of an ODE with one interval and one filter step is `zᵀ S⁻¹ z / (σ² d)`, with the
difference `z` of the slopes at the start and at the Euler prediction, and `S = δ (1 - δ/2 (J + Jᵀ) + δ²/3 J Jᵀ)` for the Jacobian `J` at
the prediction. -/
theorem C117_one {la : LinAlg} (hla : la.Correct) (rng : Rng) (k0 : Key) (ks : List Key) (drift : Field d)
    (hdrift : ∀ t, Differentiable ℝ fun x => drift x t) (x0 : Vec d) {δ : ℝ} (hδ : 0 < δ) (fine : ℕ) {σ : ℝ} (hσ : σ ≠ 0) :
    let x1 := x0 + δ • drift x0 0
    let z := drift x0 0 - drift x1 δ
    let J := jac (fun x => drift x δ) x1
    let S := δ • (1 - (δ / 2) • (J + Jᵀ) + (δ ^ 2 / 3) • (J * Jᵀ))
    let K := ((δ ^ 2 / 2) • 1 - (δ ^ 3 / 3) • Jᵀ) * S⁻¹
    ∃ o mu V, calibrationExperiment la rng (k0 :: ks) drift (fun _ _ => (0 : Mat d m)) x0 δ 1 1 fine σ = .ok o ∧ o.mean = [mu] ∧ o.var = [V] ∧
      stride 0 mu = x1 - K *ᵥ z ∧ strideMat 0 0 V = σ ^ 2 • ((δ ^ 3 / 3) • 1 - K * S * Kᵀ) ∧ o.mle = (z ⬝ᵥ S⁻¹ *ᵥ z) / (σ ^ 2 * d) := by
  intro x1 z J S K
  obtain ⟨o, h1, h2, h3, h4, h5⟩ := C117_estimate hla rng k0 ks drift (fun _ _ => (0 : Mat d m))
    (by rw [stratonovich_zero]; exact hdrift) (fun t => differentiable_const _) x0 hδ 1 fine hσ
  obtain ⟨mu, V, g1, g2, g3, g4⟩ := h4 0 one_pos
  simp only [stratonovich_zero, intervalField_zero] at g3 g4 h5
  have hm : o.mean = [mu] := by
    obtain ⟨a, ha⟩ := List.length_eq_one_iff.mp h2
    rw [ha] at g1 ⊢
    simpa using g1
  have hv : o.var = [V] := by
    obtain ⟨a, ha⟩ := List.length_eq_one_iff.mp h3
    rw [ha] at g2 ⊢
    simpa using g2
  have hS : ∀ J0 : Mat d d, alg3S δ J0 J 0 = S := fun J0 => by simp [alg3S, S]
  have hK : ∀ J0 : Mat d d, alg3K δ J0 J 0 = K := fun J0 => by rw [alg3K, hS]; simp [alg3G, K]
  refine ⟨o, mu, V, h1, hm, hv, ?_, ?_, ?_⟩
  · rw [g3]
    simp only [alg3Path, alg3Mean, Nat.cast_zero, zero_mul, add_zero]
    rw [show alg3K δ (jac (fun x => drift x 0) x0) (jac (fun x => drift x δ) (x0 + δ • drift x0 0)) 0 = K from hK _,
      ← neg_sub (drift x0 0), mulVec_neg, ← sub_eq_add_neg]
  · rw [g4]
    simp only [alg3Path, alg3P, Nat.cast_zero, zero_mul, add_zero]
    rw [show alg3K δ (jac (fun x => drift x 0) x0) (jac (fun x => drift x δ) (x0 + δ • drift x0 0)) 0 = K from hK _,
      show alg3S δ (jac (fun x => drift x 0) x0) (jac (fun x => drift x δ) (x0 + δ • drift x0 0)) 0 = S from hS _]
    simp
  · rw [h5]
    simp only [Finset.range_one, Finset.sum_singleton, alg3Path, alg3PathS, alg3Z, Nat.cast_zero, Nat.cast_one, zero_mul, add_zero, one_mul]
    rw [show alg3S δ (jac (fun x => drift x 0) x0) (jac (fun x => drift x δ) (x0 + δ • drift x0 0)) 0 = S from hS _]

/-- The drift of the sanity check, `sanity_check_calibration_ode.py:69`. -/
noncomputable def logistic : Field 1 := fun x _ => fun i => 0.5 * x i * (1 - x i)

theorem logistic_hasFDerivAt (x : Vec 1) (t : ℝ) : HasFDerivAt (fun x => logistic x t)
    ((0.5 * (1 - 2 * x 0)) • ContinuousLinearMap.id ℝ (Vec 1)) x := by
  refine hasFDerivAt_pi'.mpr fun i => ?_
  obtain rfl : i = 0 := Subsingleton.elim _ _
  have h0 : HasFDerivAt (fun x : Vec 1 => x 0) (ContinuousLinearMap.proj (R := ℝ) (φ := fun _ : Fin 1 => ℝ) 0) x := hasFDerivAt_apply 0 x
  have h1 := (h0.const_mul (0.5 : ℝ)).mul (h0.const_sub (1 : ℝ))
  refine h1.congr_fderiv ?_
  ext v
  simp
  ring

/-- C117: the numbers of `sanity_check_calibration_ode.py`, for any generator and any keys: from `0.1` with one interval of length 1, one
filter step and scale 1, the estimate is `0.0169875² / (2.061025 / 3)`, and the mean at time 1 is `0.145 + (1.145 / 2.061025) * 0.0169875`. -/
theorem C117_sanity {la : LinAlg} (hla : la.Correct) (rng : Rng) (k0 : Key) (ks : List Key) :
    ∃ o mu, calibrationExperiment la rng (k0 :: ks) logistic (fun _ _ => (0 : Mat 1 1)) (fun _ => 0.1) 1 1 1 1 1 = .ok o ∧ o.mean = [mu] ∧
      o.mle = 0.0169875 ^ 2 / (2.061025 / 3) ∧ mu 0 = 0.145 + 1.145 / 2.061025 * 0.0169875 := by
  have hd : ∀ t, Differentiable ℝ fun x => logistic x t := fun t x => (logistic_hasFDerivAt x t).differentiableAt
  obtain ⟨o, mu, V, h1, h2, -, h3, -, h4⟩ := C117_one (m := 1) hla rng k0 ks logistic hd (fun _ => 0.1) one_pos 1 (one_ne_zero (α := ℝ))
  have hx1 : (fun _ => 0.1 : Vec 1) + (1 : ℝ) • logistic (fun _ => 0.1) 0 = fun _ => 0.145 := by
    funext i
    simp only [logistic, Pi.add_apply, Pi.smul_apply, smul_eq_mul]
    norm_num
  have hz : logistic (fun _ => 0.1) 0 - logistic (fun _ => 0.145) 1 = fun _ => (-0.0169875 : ℝ) := by
    funext i
    simp only [logistic, Pi.sub_apply]
    norm_num
  have hJ : jac (fun x => logistic x 1) (fun _ => 0.145) = (0.355 : ℝ) • (1 : Mat 1 1) := by
    rw [jac_eq_toMatrix (logistic_hasFDerivAt _ 1)]
    ext i j
    obtain rfl : i = 0 := Subsingleton.elim _ _
    obtain rfl : j = 0 := Subsingleton.elim _ _
    simp [LinearMap.toMatrix'_apply]
    norm_num
  have hS : (1 : ℝ) • (1 - ((1 : ℝ) / 2) • ((0.355 : ℝ) • (1 : Mat 1 1) + ((0.355 : ℝ) • (1 : Mat 1 1))ᵀ) +
      ((1 : ℝ) ^ 2 / 3) • ((0.355 : ℝ) • (1 : Mat 1 1) * ((0.355 : ℝ) • (1 : Mat 1 1))ᵀ)) = (2.061025 / 3 : ℝ) • (1 : Mat 1 1) := by
    ext i j
    obtain rfl : i = 0 := Subsingleton.elim _ _
    obtain rfl : j = 0 := Subsingleton.elim _ _
    simp
    norm_num
  have hSi : ((2.061025 / 3 : ℝ) • (1 : Mat 1 1))⁻¹ = (3 / 2.061025 : ℝ) • (1 : Mat 1 1) := by
    refine inv_eq_right_inv ?_
    rw [Matrix.smul_mul, Matrix.mul_smul, smul_smul, Matrix.one_mul]
    norm_num
  simp only [hx1, hz, hJ] at h3 h4
  rw [hS, hSi] at h3 h4
  refine ⟨o, mu, h1, h2, ?_, ?_⟩
  · rw [h4]
    simp [smul_mulVec, dotProduct]
    norm_num
  · have h5 := congrFun h3 0
    have h6 : stride (n := 0 + 2) 0 mu 0 = mu 0 := rfl
    rw [h6] at h5
    rw [h5]
    simp [smul_mulVec, sub_mulVec]
    norm_num

/-- C117: the calibration script on its own problem, FitzHugh-Nagumo, meets the hypotheses of `C117_estimate`. -/
example {la : LinAlg} (hla : la.Correct) (rng : Rng) (key : Key) :
    ∃ o, calibrationExperiment la rng (key.split 2) Ivp.Fhn.drift Ivp.Fhn.sigma Ivp.Fhn.x0 (1 / 50) 50 1 50 (√10) = .ok o ∧ o.mean.length = 50 := by
  obtain ⟨o, h1, h2, -⟩ := C117_estimate hla rng (key.child 2 0) [key.child 2 1] Ivp.Fhn.drift Ivp.Fhn.sigma (by
    rw [fhn_stratonovich]
    refine fun t => differentiable_pi.mpr fun i => ?_
    fin_cases i <;> simp [Ivp.Fhn.drift, vecHead, vecTail] <;> fun_prop) (fun _ => differentiable_const _) Ivp.Fhn.x0
    (show (0 : ℝ) < 1 / 50 by norm_num) 50 50 (show √(10 : ℝ) ≠ 0 by positivity)
  exact ⟨o, h1, h2⟩

/-- C117: an ODE for which two different generators give the same output. -/
example (la : LinAlg) (rng rng' : Rng) (key key' : Key) :
    ∃ o o', calibrationExperiment la rng (key.split 1) logistic (fun _ _ => (0 : Mat 1 1)) (fun _ => 0.1) 1 1 1 1 1 = .ok o ∧
      calibrationExperiment la rng' (key'.split 2) logistic (fun _ _ => (0 : Mat 1 1)) (fun _ => 0.1) 1 1 1 1 1 = .ok o' ∧ o.mle = o'.mle := by
  obtain ⟨o, o', h1, h2, -, -, h3, -⟩ := C117_ode (m := 1) la rng rng' (key.child 1 0) (key'.child 2 0) [] [key'.child 2 1] logistic (fun _ => 0.1) 1 1 1
    one_pos 1
  exact ⟨o, o', h1, h2, h3⟩

end Verif
