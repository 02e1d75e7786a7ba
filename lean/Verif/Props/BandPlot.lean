import Verif.Model.Notebooks
import Verif.Props.CalibrationCoverage

/-!
# Property C122: the bands and z-scores of the calibration notebook
-/

namespace Verif

open Matrix Spec Jnp Scripts Notebooks MeasureTheory ProbabilityTheory Set Filter Topology
open scoped Matrix.Norms.Operator

variable {d m : ℕ}

theorem everyNth_length {V : Type} [Zero V] {n : ℕ} (hn : 1 ≤ n) (q : ℕ) {xs : List V} (hx : xs.length = q * n + 1) :
    (everyNth n xs).length = q + 1 := by
  rw [everyNth, List.length_map, List.length_range, hx, show q * n + 1 + n - 1 = (q + 1) * n by rw [add_mul]; omega, Nat.mul_div_cancel _ hn]

theorem everyNth_getElem? {V : Type} [Zero V] {n : ℕ} (hn : 1 ≤ n) (q : ℕ) {xs : List V} (hx : xs.length = q * n + 1) {k : ℕ} (hk : k ≤ q) :
    (everyNth n xs)[k]? = xs[k * n]? := by
  have h1 : k * n < xs.length := by rw [hx]; have := Nat.mul_le_mul_right n hk; omega
  have h2 : k < (everyNth n xs).length := by rw [everyNth_length hn q hx]; omega
  rw [List.getElem?_eq_getElem h2, List.getElem?_eq_getElem h1]
  simp only [everyNth, List.getElem_map, List.getElem_range]
  rw [List.getD_eq_getElem?_getD, List.getElem?_eq_getElem h1, Option.getD_some]

/-- What the notebook computes from arrays of the right lengths. -/
theorem bandPlot_eq (o : CalibrationOut d m) (T : ℝ) {N : ℕ} (hN : 1 ≤ N) (q : ℕ) (hm : o.mean.length = N) (hv : o.var.length = N)
    (hs : o.refs.sols2.length = q * N + 1) (idx : Fin d) :
    bandPlot o T N idx = if q = N then .ok {
      t := linspace 0 T (N + 1)
      xMean := 0 :: o.mean.map fun mu => mu (flat idx 0)
      xStd := 0 :: o.var.map fun V => Real.sqrt (V (flat idx 0) (flat idx 0))
      fine := (everyNth N o.refs.sols2).map fun x => x idx
      zScores := (((everyNth N o.refs.sols2).map fun x => x idx).zip ((0 :: o.mean.map fun mu => mu (flat idx 0)).zip
        (0 :: o.var.map fun V => Real.sqrt (V (flat idx 0) (flat idx 0))))).map fun p => zScore p.1 p.2.1 p.2.2 }
    else .error .valueError := by
  have hl := everyNth_length hN q hs
  by_cases h : q = N
  · subst h
    simp [bandPlot, insertArr_eq, hm, hv, hl]
    rfl
  · have h' : ¬ N = q := fun e => h e.symm
    simp [bandPlot, insertArr_eq, hm, hv, hl, h, h']

/-- The lengths of the saved arrays. -/
theorem calibration_lengths (la : LinAlg) (rng : Rng) (k0 : Key) (ks : List Key) (drift : Field d) (sigma : Diffusion d m) (x0 : Vec d) (δ : ℝ)
    (N M fine : ℕ) (σ : ℝ) : ∃ o, calibrationExperiment la rng (k0 :: ks) drift sigma x0 δ N M fine σ = .ok o ∧ o.mean.length = N ∧
      o.var.length = N ∧ o.refs.sols2.length = fine * N + 1 ∧ o.refs.sols2[0]? = some x0 := by
  obtain ⟨odeInt, hode⟩ := exists_ekf2Int (d := d) la rng M δ (IOUP.transition 0 σ 1 (δ / M) d)
  obtain ⟨o, l, h1, h2, h3, h4, -⟩ := C116_filter la rng k0 ks drift sigma x0 δ N M fine σ odeInt hode
  obtain ⟨r, ts2, -, g1, -, gi, gl, -, -, -, g2, -, g3, -⟩ := C116_references rng k0 ks drift sigma x0 δ N fine
  obtain rfl : r = o.refs := Except.ok.inj (g1.symm.trans h2)
  refine ⟨o, h1, h3, h4, g3, ?_⟩
  rw [emPathwise_eq _ _ _ _ _ _ _ (gl _ (by rw [gi]; simp))] at g2
  have e := (Prod.ext_iff.mp (Except.ok.inj g2)).2
  rw [show o.refs.sols2 = _ from e.symm]
  simp [emFold]

/-- C122: the plotting cell raises an error, instead of comparing different times, unless the experiment was run with as many fine steps as
intervals, as the script does. -/
theorem C122_length (la : LinAlg) (rng : Rng) (k0 : Key) (ks : List Key) (drift : Field d) (sigma : Diffusion d m) (x0 : Vec d) (δ : ℝ)
    {N : ℕ} (hN : 1 ≤ N) (M fine : ℕ) (σ T : ℝ) (idx : Fin d) (hne : fine ≠ N) :
    ∃ o, calibrationExperiment la rng (k0 :: ks) drift sigma x0 δ N M fine σ = .ok o ∧ bandPlot o T N idx = .error .valueError := by
  obtain ⟨o, h1, h2, h3, h4, -⟩ := calibration_lengths la rng k0 ks drift sigma x0 δ N M fine σ
  exact ⟨o, h1, by rw [bandPlot_eq o T hN fine h2 h3 h4, if_neg hne]⟩

/-- C122: with as many fine steps as intervals, the curves of the notebook have one value for each grid time `k δ`: the mean and the standard
deviation of the posterior of Algorithm 3, the fine reference solution, and their z-score. After the first time the standard deviation is
positive and the z-score is a number. Missing: the first z-score is `0 / 0`; the mean is set to zero there, whatever the initial value. -/
theorem C122_partial {la : LinAlg} (hla : la.Correct) (rng : Rng) (k0 : Key) (ks : List Key) (drift : Field d) (sigma : Diffusion d m)
    (hdrift : ∀ t, Differentiable ℝ fun x => (toStratonovich drift sigma).1 x t)
    (hsigma : ∀ t, Differentiable ℝ fun x => sigma x t) (x0 : Vec d) {δ : ℝ} (hδ : 0 < δ) {N : ℕ} (hN : 1 ≤ N) {M : ℕ} (hM : 0 < M) {σ : ℝ}
    (hσ : σ ≠ 0) {odeInt : OdeInt (Ekf.State3 d) d}
    (hode : ∀ k x vf, Ekf.ekf2 la rng false (some k) x vf (δ / M) M true (some ⟨_, IOUP.transition 0 σ 1 (δ / M) d⟩) none = .ok (odeInt k x vf δ))
    (idx : Fin d) :
    let out := sdeSolver rng k0 (toStratonovich drift sigma).1 sigma ((x0, x0, 0) : Ekf.State3 d) (Foster.getApproxFine m N) δ N odeInt
    ∃ o b, calibrationExperiment la rng (k0 :: ks) drift sigma x0 δ N M N σ = .ok o ∧ bandPlot o (N * δ) N idx = .ok b ∧
      b.t.length = N + 1 ∧ b.xMean.length = N + 1 ∧ b.xStd.length = N + 1 ∧ b.fine.length = N + 1 ∧ b.zScores.length = N + 1 ∧
      b.t[0]? = some 0 ∧ b.xMean[0]? = some 0 ∧ b.xStd[0]? = some 0 ∧ b.fine[0]? = some (x0 idx) ∧ b.zScores[0]? = some none ∧
      ∀ k < N, ∃ y z, out.2.1[k + 1]? = some y ∧ o.refs.sols2[(k + 1) * N]? = some z ∧ 0 < y.2.2 idx idx ∧
        b.t[k + 1]? = some ((k + 1) * δ) ∧ b.xMean[k + 1]? = some (y.2.1 idx) ∧ b.xStd[k + 1]? = some (Real.sqrt (y.2.2 idx idx)) ∧
        b.fine[k + 1]? = some (z idx) ∧ b.zScores[k + 1]? = some (some ((z idx - y.2.1 idx) / Real.sqrt (y.2.2 idx idx))) := by
  intro out
  have hM' : (0 : ℝ) < M := by exact_mod_cast hM
  obtain ⟨o, l, h1, h2, h3, h4, h5, -⟩ := C116_filter la rng k0 ks drift sigma x0 δ N M N σ odeInt hode
  obtain ⟨o', g1, -, -, g4, g5⟩ := calibration_lengths la rng k0 ks drift sigma x0 δ N M N σ
  obtain rfl : o' = o := Except.ok.inj (g1.symm.trans h1)
  have hpd := C88_posDef hla rng rng k0 false (toStratonovich drift sigma).1 sigma (fun _ => hdrift) (fun _ => hsigma) (Foster.getApproxFine m N)
    ((x0, x0, 0) : Ekf.State3 d) PosSemidef.zero δ N M hM _ (Ekf.ibm_Q_posDef hσ 1 (div_pos hδ hM') d) true some odeInt hode
  have he := bandPlot_eq o' (N * δ) hN N h3 h4 g4 idx
  rw [if_pos rfl] at he
  have hl := everyNth_length hN N g4
  have hget : ∀ k ≤ N, (everyNth N o'.refs.sols2)[k]? = o'.refs.sols2[k * N]? := fun k hk => everyNth_getElem? hN N g4 hk
  refine ⟨o', _, h1, he, by simp, by simp [h3], by simp [h4], by simp [hl], by simp [hl, h3, h4], ?_, rfl, rfl, ?_, ?_, fun k hk => ?_⟩
  · simp [linspace_grid]
  · simp [hget 0 (Nat.zero_le _), g5]
  · simp [List.getElem?_zip_eq_some, hget 0 (Nat.zero_le _), g5, zScore]
  · obtain ⟨y, mu, V, a1, a2, a3, a4, a5⟩ := h5 k hk
    obtain ⟨y', b1, b2⟩ := hpd k hk
    obtain rfl : y' = y := Option.some.inj (b1.symm.trans a1)
    obtain ⟨z, hz⟩ : ∃ z, o'.refs.sols2[(k + 1) * N]? = some z := by
      have : (k + 1) * N < o'.refs.sols2.length := by rw [g4]; have : (k + 1) * N ≤ N * N := Nat.mul_le_mul_right N hk; omega
      exact ⟨_, List.getElem?_eq_getElem this⟩
    have hpos : 0 < y'.2.2 idx idx := b2.diag_pos
    have hmu : mu (flat idx 0) = y'.2.1 idx := by rw [a4]; rfl
    have hV : V (flat idx 0) (flat idx 0) = y'.2.2 idx idx := by rw [a5]; rfl
    refine ⟨y', z, a1, hz, hpos, ?_, ?_, ?_, ?_, ?_⟩
    · simp [linspace_grid, hk]
    · simp [a2, hmu]
    · simp [a3, hV]
    · simp [hget (k + 1) hk, hz]
    · have : Real.sqrt (y'.2.2 idx idx) ≠ 0 := (Real.sqrt_pos.mpr hpos).ne'
      simp [List.getElem?_zip_eq_some, hget (k + 1) hk, hz, zScore, a2, a3, hmu, hV, this]

/-- C122: the z-scores are not all numbers. -/
theorem C122_fails : ¬ ∀ la : LinAlg, la.Correct → ∀ (rng : Rng) (k0 : Key) (N : ℕ), 1 ≤ N → ∀ (o : CalibrationOut 2 1) (b : BandPlot),
    calibrationExperiment la rng [k0] Ivp.Fhn.drift Ivp.Fhn.sigma Ivp.Fhn.x0 (1 / N) N 1 N (√10) = .ok o → bandPlot o (N * (1 / N)) N 0 = .ok b →
    none ∉ b.zScores := by
  intro h
  obtain ⟨la, hla⟩ := exists_correct_linAlg
  obtain ⟨odeInt, hode⟩ := exists_ekf2Int (d := 2) la ⟨fun _ _ _ => 0⟩ 1 (1 / (1 : ℕ)) (IOUP.transition 0 (√10) 1 (1 / (1 : ℕ) / (1 : ℕ)) 2)
  have hst : toStratonovich Ivp.Fhn.drift Ivp.Fhn.sigma = (Ivp.Fhn.drift, Ivp.Fhn.sigma) :=
    Prod.ext (C10_additive_noise Ivp.Fhn.drift (fun _ => !![0; Ivp.Fhn.sig])).2 rfl
  obtain ⟨o, b, h1, h2, -, -, -, -, -, -, -, -, -, h3, -⟩ := C122_partial hla ⟨fun _ _ _ => 0⟩ [] [] Ivp.Fhn.drift Ivp.Fhn.sigma
    (by rw [hst]; exact fun t => (Ivp.Fhn.contDiff_drift.comp (contDiff_prodMk_left t)).differentiable (by norm_num))
    (fun t => differentiable_const _) Ivp.Fhn.x0 (δ := 1 / (1 : ℕ)) (by norm_num) (N := 1) le_rfl one_pos (σ := √10) (by positivity) hode 0
  exact h la hla _ _ 1 le_rfl o b h1 h2 (List.mem_of_getElem? h3)

/-- C122: on the terms of `C120_prob`, with as many fine steps as intervals, the z-scores of the calibrated run are as small as desired with a probability as close to
one as desired, from any positive time on: they do not behave like standard normal numbers. -/
theorem C122_vanish {Ω : Type} [MeasurableSpace Ω] {P : Measure Ω} {R : Ω → Rng} (hR : IdealNormals P R) {la : LinAlg} (hla : la.Correct)
    {f : Field d} (hf : ContDiff ℝ 2 (Function.uncurry f)) {T : ℝ} (hT : 0 < T) {S : Mat d m} (hS : S ≠ 0) (x0 : Vec d)
    (hsol : ∀ w : ℝ → Vec m, Continuous w → ∃ x, SolvesAdditive f S w x0 T x)
    (hnoise : ∀ x v, ∀ t ∈ Icc 0 T, fderiv ℝ (fun z => f z t) (x + S *ᵥ v) = fderiv ℝ (fun z => f z t) x) {ε η t0 : ℝ} (hε : 0 < ε) (hη : 0 < η)
    (ht0 : 0 < t0) :
    ∃ N0 : ℕ, ∀ N ≥ N0, ∀ (k0 : Key) (ks : List Key) (idx : Fin d), ∀ k < N, t0 ≤ (k + 1) * (T / N) → ∃ A : Set Ω, P.real Aᶜ ≤ ε ∧ ∀ ω ∈ A,
      ∃ o o' b z, calibrationMain la (R ω) (k0 :: ks) f (fun _ _ => S) x0 (T / N) N 1 N = .ok (o, o') ∧ bandPlot o' T N idx = .ok b ∧
        b.zScores[k + 1]? = some (some z) ∧ |z| ≤ η := by
  obtain ⟨c, hc, N1, h1⟩ := C119_prob hR hla hf hT hS x0 hsol hnoise (half_pos hε)
  obtain ⟨N2, h2⟩ := C120_prob hR hla hf hT hS x0 hsol hnoise (half_pos hε) hη ht0
  refine ⟨N1 + N2, fun N hN k0 ks idx k hk hkt => ?_⟩
  have hN1 : 1 ≤ N := by omega
  have hN0 : (0 : ℝ) < N := by exact_mod_cast hN1
  obtain ⟨A1, a1, b1⟩ := h1 N (by omega) N hN1 k0 ks
  obtain ⟨A2, a2, b2⟩ := h2 N (by omega) N hN1 k0 ks k hk hkt
  refine ⟨A1 ∩ A2, ?_, ?_⟩
  · rw [compl_inter]
    exact (measureReal_union_le _ _).trans (by linarith)
  rintro ω ⟨w1, w2⟩
  obtain ⟨o, o', m1, -, -, m2⟩ := b1 ω w1
  obtain ⟨V, v1, v2⟩ := m2 k hk
  obtain ⟨p, p', mu, V', z, q1, q2, q3, q4, q5⟩ := b2 ω w2
  obtain ⟨rfl, rfl⟩ : o = p ∧ o' = p' := Prod.ext_iff.mp (Except.ok.inj (m1.symm.trans q1))
  obtain rfl : V = V' := Option.some.inj (v1.symm.trans q3)
  obtain ⟨l1, l2, l3⟩ : o'.mean.length = N ∧ o'.var.length = N ∧ o'.refs.sols2.length = N * N + 1 := by
    obtain ⟨s1, e1, -⟩ := calibration_lengths la (R ω) k0 ks f (fun _ _ => S) x0 (T / N) N 1 N (√10)
    obtain ⟨s2, e2, e3, e4, e5, -⟩ := calibration_lengths la (R ω) k0 ks f (fun _ _ => S) x0 (T / N) N 1 N (s1.mle ^ (0.5 : ℝ))
    have : calibrationMain la (R ω) (k0 :: ks) f (fun _ _ => S) x0 (T / N) N 1 N = .ok (s1, s2) := by
      rw [calibrationMain, e1]
      show (calibrationExperiment la (R ω) (k0 :: ks) f (fun _ _ => S) x0 (T / N) N 1 N (s1.mle ^ (0.5 : ℝ)) >>= fun c => pure (s1, c)) = _
      rw [e2]
      rfl
    obtain ⟨-, rfl⟩ : o = s1 ∧ o' = s2 := Prod.ext_iff.mp (Except.ok.inj (m1.symm.trans this))
    exact ⟨e3, e4, e5⟩
  have he := bandPlot_eq o' T hN1 N l1 l2 l3 idx
  rw [if_pos rfl] at he
  have hz : (everyNth N o'.refs.sols2)[k + 1]? = some z := by rw [everyNth_getElem? hN1 N l3 hk, q4]
  set s : ℝ := V (flat idx 0) (flat idx 0) with hs
  have hu : ∀ W : Mat d d, Pi.single idx (1 : ℝ) ⬝ᵥ (W *ᵥ Pi.single idx 1) = W idx idx := fun W => by simp
  have hpos : 0 < s := by
    have := v2 (Pi.single idx 1)
    rw [hu, single_dotProduct, Pi.single_eq_same, one_mul, mul_one] at this
    refine lt_of_lt_of_le ?_ this
    positivity
  have hle := q5 (Pi.single idx 1)
  rw [hu, single_dotProduct, one_mul, Pi.sub_apply] at hle
  have hle' : (mu (flat idx 0) - z idx) ^ 2 ≤ η ^ 2 * s := hle
  have hsq : 0 < √s := Real.sqrt_pos.mpr hpos
  refine ⟨o, o', _, (z idx - mu (flat idx 0)) / √s, m1, he, ?_, ?_⟩
  · simp [List.getElem?_zip_eq_some, hz, zScore, q2, v1, ← hs, hsq.ne']
  · rw [abs_div, abs_of_pos hsq, div_le_iff₀ hsq]
    refine abs_le_of_sq_le_sq ?_ (by positivity)
    rw [mul_pow, Real.sq_sqrt hpos.le]
    linarith [sq_abs (z idx - mu (flat idx 0)), sub_sq_comm (z idx) (mu (flat idx 0))]

/-- C122: the notebook reads the runs on the FitzHugh-Nagumo model; at time one, with the normals of `drawsRng`, all but one in a hundred of the z-scores of the
second coordinate are below a tenth. -/
example : ∃ la : LinAlg, la.Correct ∧ ∃ N0 : ℕ, ∀ N ≥ N0, 0 < N → ∀ k0 : Key, ∃ A : Set Draws, drawsMeasure.real Aᶜ ≤ 1 / 100 ∧ ∀ ω ∈ A,
    ∃ o o' b z, calibrationMain la (drawsRng ω) [k0] Ivp.Fhn.drift Ivp.Fhn.sigma Ivp.Fhn.x0 (1 / N) N 1 N = .ok (o, o') ∧
      bandPlot o' 1 N 1 = .ok b ∧ b.zScores[N]? = some (some z) ∧ |z| ≤ 1 / 10 := by
  obtain ⟨la, hla⟩ := exists_correct_linAlg
  obtain ⟨N0, h⟩ := C122_vanish idealNormals_drawsRng hla Ivp.Fhn.contDiff_drift (T := 1) one_pos (S := !![0; Ivp.Fhn.sig]) (fun h => by
      have := congrFun (congrFun h 1) 0
      norm_num [Ivp.Fhn.sig] at this) Ivp.Fhn.x0
    (fun w hw => Ivp.Fhn.exists_solution zero_le_one _ (fun j => by fin_cases j; rfl) w hw _)
    (fun x v t _ => fhn_noise _ (fun j => by fin_cases j; rfl) x v t) (ε := 1 / 100) (η := 1 / 10) (t0 := 1) (by norm_num) (by norm_num) one_pos
  refine ⟨la, hla, N0, fun N hN hN0 k0 => ?_⟩
  have hN' : (0 : ℝ) < N := by exact_mod_cast hN0
  have := h N hN k0 [] 1 (N - 1) (by omega) (by
    rw [Nat.cast_sub (by omega : 1 ≤ N)]
    push_cast
    rw [sub_add_cancel, mul_one_div_cancel hN'.ne'])
  rwa [show N - 1 + 1 = N by omega] at this

end Verif
