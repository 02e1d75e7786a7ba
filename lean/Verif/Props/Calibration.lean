import Verif.Lemmas.Calibration
import Verif.Props.EkfWrappers

/-!
# Properties C54 and C55: diffusion estimate and calibration script
-/

namespace Verif

open Matrix Spec Jnp

/-- C54: the estimate is nonnegative, and zero only if every residual is zero. -/
theorem C54_nonneg {la : LinAlg} (hla : la.Correct) {N dim : ℕ} (zs : Fin N → Vec dim) (Ss : Fin N → Mat dim dim)
    (hS : ∀ i, (Ss i).PosDef) :
    0 ≤ mleDiffusion la zs Ss ∧ (mleDiffusion la zs Ss = 0 ↔ ∀ i, zs i = 0) := by
  refine ⟨mle_nonneg hla zs Ss hS, ?_⟩
  rcases Nat.eq_zero_or_pos N with rfl | hN
  · simp [mleDiffusion]
  rcases Nat.eq_zero_or_pos dim with rfl | hd
  · simp only [mleDiffusion, CharP.cast_eq_zero, mul_zero, div_zero, true_iff]
    exact fun i => Subsingleton.elim _ _
  have hpos : ((N : ℝ) * dim) ≠ 0 := by positivity
  rw [mleDiffusion, div_eq_zero_iff, or_iff_left hpos, Finset.sum_eq_zero_iff_of_nonneg fun i _ => (quad_nonneg hla _ (hS i)).1]
  simp only [Finset.mem_univ, true_imp_iff, (quad_nonneg hla _ (hS _)).2]

/-- C54: the estimate is the average of the squared Mahalanobis norms of the residuals per coordinate; for one dimension,
the average of `z² / s`. -/
theorem C54_scalar {la : LinAlg} (hla : la.Correct) {N : ℕ} (zs ss : Fin N → ℝ) (hs : ∀ i, 0 < ss i) :
    mleDiffusion la (fun i => (fun _ : Fin 1 => zs i)) (fun i => diagonal fun _ => ss i) = (∑ i, zs i ^ 2 / ss i) / N := by
  have hq : ∀ i, (fun _ : Fin 1 => zs i) ⬝ᵥ la.solve (diagonal fun _ => ss i) (fun _ => zs i) = zs i ^ 2 / ss i := by
    intro i
    have hd : IsUnit (diagonal fun _ : Fin 1 => ss i).det := by
      rw [det_diagonal]; simpa using (hs i).ne'
    have := congrFun (hla.solve_spec _ (fun _ : Fin 1 => zs i) hd) 0
    rw [mulVec_diagonal] at this
    simp only [dotProduct, Finset.univ_unique, Fin.default_eq_zero, Fin.isValue, Finset.sum_singleton]
    rw [show la.solve (diagonal fun _ : Fin 1 => ss i) (fun _ => zs i) 0 = zs i / ss i by
      rw [eq_div_iff (hs i).ne']; linarith]
    ring
  simp only [mleDiffusion, hq, Nat.cast_one, mul_one]

/-- C54: multiplying every covariance by `c` divides the estimate by `c`. -/
theorem C54_scaling {la : LinAlg} (hla : la.Correct) {N dim : ℕ} (zs : Fin N → Vec dim) (Ss : Fin N → Mat dim dim)
    (hS : ∀ i, (Ss i).PosDef) {c : ℝ} (hc : 0 < c) :
    mleDiffusion la zs (fun i => c • Ss i) = mleDiffusion la zs Ss / c := mle_scale hla zs Ss hS hc

/-- C54: run a filtering ODE solver from an exact initial value without noise, and take the residual and the innovation
covariance of each step. If the prior covariance is multiplied by the estimate and the solver run again, the new estimate
is 1. -/
theorem C54_calibrated {la : LinAlg} (hla : la.Correct) {dim r : ℕ} (EKF0 : Bool) (vf : Field dim)
    (hf : EKF0 = false → ∀ t, Differentiable ℝ fun x => vf x t) (h : ℝ) (N : ℕ) (sqrt : Bool) (p : Prior (dim * (r + 2)))
    (hQ : p.Q.PosDef) (m0 : Vec (dim * (r + 2))) :
    ∃ f : Fin N → Gauss (dim * (r + 2)) × Mat dim dim × Vec dim,
      (∀ k : Fin N, Ekf.solverUC la ⟨m0, 0⟩ vf h (k + 1) sqrt EKF0 (some ⟨_, p⟩) none = .ok (f k)) ∧
      (let e := mleDiffusion la (fun k => (f k).2.2) (fun k => (f k).2.1)
       e ≠ 0 → ∃ g : Fin N → Gauss (dim * (r + 2)) × Mat dim dim × Vec dim,
        (∀ k : Fin N, Ekf.solverUC la ⟨m0, 0⟩ vf h (k + 1) sqrt EKF0 (some ⟨_, ⟨p.xi, e • p.Q, p.A⟩⟩) none = .ok (g k)) ∧
        mleDiffusion la (fun k => (g k).2.2) (fun k => (g k).2.1) = 1) := by
  have hall := fun (c : ℝ) (hc : 0 < c) (k : Fin N) => C45_solver hla EKF0 vf hf h (k + 1) sqrt p hQ hc m0
  choose f _ hf1 _ _ _ _ _ using hall 1 one_pos
  -- innovation covariances are positive definite
  have hpd : ∀ k, (f k).2.1.PosDef := by
    intro k
    have hu := Ekf.solverUC_some la (⟨m0, 0⟩ : Gauss (dim * (r + 2))) vf h (k + 1) sqrt EKF0 p
    rw [hf1 k] at hu
    have hu' := Except.ok.inj hu
    have hw := Ekf.wellPosed hla EKF0 vf hf p.A p.Q p.xi 0 hQ PosSemidef.zero ⟨m0, 0⟩ PosSemidef.zero
      (linspace h ((k + 1 : ℕ) * h) (k + 1))
    have hg := hw.get k (by simp)
    have hts : linspace h (((k : ℕ) + 1 : ℕ) * h) (k + 1) = linspace h (k * h) k ++ [(((k : ℕ) + 1 : ℕ) : ℝ) * h] := by
      rw [Ekf.linspace_ts, Ekf.linspace_ts, List.range_succ, List.map_append]
      simp
    have h2 : (KF.ekfUC la ⟨m0, 0⟩ (Ekf.obsFn EKF0 vf) p.A p.Q p.xi 0 (linspace h (((k : ℕ) + 1 : ℕ) * h) (k + 1)) false).2.1.PosDef := by
      simp only [hts] at hg ⊢
      rw [KF.ekfUC_snoc]
      rw [List.take_left' (by simp), List.getElem_append_right (by simp)] at hg
      simpa using hg
    rw [hu']
    cases sqrt
    · exact h2
    · have h1 := (Ekf.run_represents_UC hla EKF0 vf hf p hQ 0 0 Ekf.isFactor_zero _ _ (Ekf.represents_zero m0)
        (linspace h (((k : ℕ) + 1 : ℕ) * h) (k + 1))).2
      rw [← h1] at h2
      exact h2
  refine ⟨f, hf1, fun he => ?_⟩
  set e := mleDiffusion la (fun k => (f k).2.2) (fun k => (f k).2.1)
  have hpos : 0 < e := lt_of_le_of_ne (mle_nonneg hla _ _ hpd) (Ne.symm he)
  choose f' g hf' hg _ _ h3 h4 using hall e hpos
  have hff : ∀ k, f' k = f k := fun k => Except.ok.inj ((hf' k).symm.trans (hf1 k))
  refine ⟨g, hg, ?_⟩
  simp only [h3, h4, hff]
  rw [mle_scale hla _ _ hpd hpos]
  exact div_self he

/-- C54 for the calibration experiment: after a run with scale `σ`, a run with scale `σ √e`, where `e` is the
estimate of the first, has estimate 1. -/
theorem C54_experiment {la : LinAlg} (hla : la.Correct) (rng : Rng) {dim : ℕ} {h : ℝ} (hh : 0 < h) {M : ℕ} (hM : 0 < M)
    {σ : ℝ} (hσ : σ ≠ 0) (x0 : Vec dim) (inps : List (Key × Field dim))
    (hf : ∀ i ∈ inps, ∀ t, Differentiable ℝ fun x => i.2 x t) :
    ∃ l, Scripts.calibrationRun la rng h M σ x0 inps = .ok l ∧ l.length = inps.length ∧
      (Scripts.estimate la l ≠ 0 → ∃ l', Scripts.calibrationRun la rng h M (σ * √(Scripts.estimate la l)) x0 inps = .ok l' ∧
        Scripts.estimate la l' = 1) := by
  have hQ := Ekf.ibm_Q_posDef hσ 1 hh dim
  have run := fun (c : ℝ) (hc : 0 < c) => Scripts.go_scale hla rng h hM (IOUP.transition 0 σ 1 h dim) hQ hc inps hf
    (x0, x0, 0) (x0, x0, 0) PosSemidef.zero rfl (smul_zero c).symm
  obtain ⟨l, h1, -, h3, h4⟩ := run 1 one_pos
  refine ⟨l, h1, h3, fun he => ?_⟩
  have hpos : 0 < Scripts.estimate la l :=
    lt_of_le_of_ne (mle_nonneg hla _ _ fun i => h4 _ (l.get_mem i)) (Ne.symm he)
  obtain ⟨l2, g1, g2, -, -⟩ := run _ hpos
  obtain rfl : l = l2 := Except.ok.inj (h1.symm.trans g1)
  refine ⟨_, ?_, (Scripts.estimate_map hla l h4 hpos).trans (div_self he)⟩
  have := ibm_scale σ (Scripts.estimate la l) 1 h dim (σ' := σ * √(Scripts.estimate la l)) (by
    rw [mul_pow, Real.sq_sqrt hpos.le]; ring)
  rw [Scripts.calibrationRun, this]
  exact g2

/-- C55 fails: the script runs first with scale `√10` and then with the root of the estimate as scale. Whatever the problem
and the draws, if the first estimate is not zero the second estimate is 10. -/
theorem C55_fails {la : LinAlg} (hla : la.Correct) (rng : Rng) {dim : ℕ} {h : ℝ} (hh : 0 < h) {M : ℕ} (hM : 0 < M)
    (x0 : Vec dim) (inps : List (Key × Field dim)) (hf : ∀ i ∈ inps, ∀ t, Differentiable ℝ fun x => i.2 x t) :
    ∃ l, Scripts.calibrationRun la rng h M (√10) x0 inps = .ok l ∧
      (Scripts.estimate la l ≠ 0 → ∃ l', Scripts.calibrationRun la rng h M (√(Scripts.estimate la l)) x0 inps = .ok l' ∧
        Scripts.estimate la l' = 10) := by
  have h10 : √(10 : ℝ) ≠ 0 := by positivity
  have hQ := Ekf.ibm_Q_posDef h10 1 hh dim
  have run := fun (c : ℝ) (hc : 0 < c) => Scripts.go_scale hla rng h hM (IOUP.transition 0 (√10) 1 h dim) hQ hc inps hf
    (x0, x0, 0) (x0, x0, 0) PosSemidef.zero rfl (smul_zero c).symm
  obtain ⟨l, h1, -, h3, h4⟩ := run 1 one_pos
  refine ⟨l, h1, fun he => ?_⟩
  have hpos : 0 < Scripts.estimate la l :=
    lt_of_le_of_ne (mle_nonneg hla _ _ fun i => h4 _ (l.get_mem i)) (Ne.symm he)
  have hc : 0 < Scripts.estimate la l / 10 := by positivity
  obtain ⟨l2, g1, g2, -, -⟩ := run _ hc
  obtain rfl : l = l2 := Except.ok.inj (h1.symm.trans g1)
  refine ⟨_, ?_, (Scripts.estimate_map hla l h4 hc).trans (by field_simp)⟩
  have := ibm_scale (√10) (Scripts.estimate la l / 10) 1 h dim (σ' := √(Scripts.estimate la l)) (by
    rw [Real.sq_sqrt hpos.le, Real.sq_sqrt (by norm_num)]; ring)
  rw [Scripts.calibrationRun, this]
  exact g2

/-- C55, the witness: a run whose first estimate is not zero. -/
theorem C55_fails_witness {la : LinAlg} (hla : la.Correct) (rng : Rng) (k : Key) :
    ∃ l l', Scripts.calibrationRun la rng 1 1 (√10) (0 : Vec 1) [(k, fun _ t _ => t)] = .ok l ∧
      Scripts.calibrationRun la rng 1 1 (√(Scripts.estimate la l)) (0 : Vec 1) [(k, fun _ t _ => t)] = .ok l' ∧
      Scripts.estimate la l' ≠ 1 := by
  set vf : Field 1 := fun _ t _ => t with hvf
  have hfd : ∀ t, Differentiable ℝ fun x => vf x t := fun t => differentiable_const _
  have h10 : √(10 : ℝ) ≠ 0 := by positivity
  have hQ := Ekf.ibm_Q_posDef h10 1 one_pos 1
  obtain ⟨l, h1, h2⟩ := C55_fails hla rng one_pos one_pos (0 : Vec 1) [(k, vf)] (by simpa using hfd)
  obtain ⟨l2, g1, -, -, g4⟩ := Scripts.go_scale hla rng 1 one_pos (IOUP.transition 0 (√10) 1 1 1) hQ one_pos
    [(k, vf)] (by simpa using hfd) (0, 0, 0) (0, 0, 0) PosSemidef.zero rfl (smul_zero _).symm
  obtain rfl : l = l2 := Except.ok.inj (h1.symm.trans g1)
  obtain ⟨f, out, hs, ho, -, hz⟩ := C50_order hla rng false (some k) ((0, 0, 0) : Ekf.State3 1) vf (fun _ => hfd) 1 0 true _
    (IOUP.transition 0 (√10) 1 1 1) (Or.inl rfl) hQ none 0 (Or.inr ⟨rfl, rfl⟩)
  have hl : l = [(out.2.pos4, out.2.pos3)] := by
    have : Scripts.calibrationRun.go la rng 1 1 ⟨_, IOUP.transition 0 (√10) 1 1 1⟩ ((0, 0, 0) : Ekf.State3 1) [(k, vf)] =
        .ok [(out.2.pos4, out.2.pos3)] := by
      rw [Scripts.calibrationRun.go]
      rw [show (0 + 1 : ℕ) = 1 from rfl] at ho
      rw [ho]
      rfl
    exact Except.ok.inj (g1.symm.trans this)
  have hfm : f.mean = interlace ![0, vf 0 0] := by
    rw [Ekf.solver_some] at hs
    rw [← Except.ok.inj hs]
    rfl
  have hz0 : out.2.pos4 ≠ 0 := by
    rw [hz, hfm]
    intro h0
    have := congrFun h0 0
    have h00 : (interlace ![(0 : Vec 1), vf 0 0] : Vec (1 * 2)) = 0 := by
      rw [show (vf 0 0 : Vec 1) = 0 from rfl]
      funext p
      rw [← flat_div_mod p, interlace_flat]
      generalize p.modNat = s
      fin_cases s <;> rfl
    rw [h00, mulVec_zero] at this
    simp [hvf, IOUP.transition, stride] at this
  have he : Scripts.estimate la l ≠ 0 := by
    intro h0
    have := ((C54_nonneg hla (fun i => (l.get i).1) (fun i => (l.get i).2) fun i => g4 _ (l.get_mem i)).2.1 h0)
    rw [hl] at this
    exact hz0 (this ⟨0, by simp⟩)
  obtain ⟨l', h3, h4⟩ := h2 he
  exact ⟨l, l', h1, h3, by rw [h4]; norm_num⟩

/-- C55, what holds: if the first run has scale one (the default argument of the script's `experiment`), the second run has
estimate one. Missing: the same for the scale `√10` the script uses. -/
theorem C55_partial {la : LinAlg} (hla : la.Correct) (rng : Rng) {dim : ℕ} {h : ℝ} (hh : 0 < h) {M : ℕ} (hM : 0 < M)
    (x0 : Vec dim) (inps : List (Key × Field dim)) (hf : ∀ i ∈ inps, ∀ t, Differentiable ℝ fun x => i.2 x t) :
    ∃ l, Scripts.calibrationRun la rng h M 1 x0 inps = .ok l ∧
      (Scripts.estimate la l ≠ 0 → ∃ l', Scripts.calibrationRun la rng h M (√(Scripts.estimate la l)) x0 inps = .ok l' ∧
        Scripts.estimate la l' = 1) := by
  obtain ⟨l, h1, -, h2⟩ := C54_experiment hla rng hh hM one_ne_zero x0 inps hf
  simp only [one_mul] at h2
  exact ⟨l, h1, h2⟩

/-- Residuals and positive definite covariances for C54: three steps in two dimensions. -/
example : ∀ i : Fin 3, ((i.1 + 1 : ℝ) • (1 : Mat 2 2)).PosDef := fun i => PosDef.one.smul (by positivity)

/-- Fields for C54 and C55: nonlinear and different on each interval. -/
example (k : Key) : ∀ i ∈ [(k, (fun x _ j => x j ^ 2 : Field 2)), (k, fun x t j => t * x j)], ∀ t,
    Differentiable ℝ fun x => i.2 x t := by
  simp only [List.mem_cons, List.not_mem_nil, or_false, forall_eq_or_imp, forall_eq]
  exact ⟨fun t => by fun_prop, fun t => by fun_prop⟩

end Verif
