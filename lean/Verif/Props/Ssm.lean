import Verif.Model.Ssm
import Verif.Props.Foster
import Verif.Props.EkfWrappers
import Verif.Props.EkfSde

/-!
# Properties C56-C59: the parabola filter with the Brownian coefficients in the state (Algorithm 4)
-/

namespace Verif

open Matrix Spec Jnp MeasureTheory ProbabilityTheory

/-! ## Initial covariance -/

/-- How the state `(x0, drift + D parabola'(0), W, I)` depends on the coefficients. -/
noncomputable def ssmLoad {dim : ℕ} (δ : ℝ) (D : Mat dim dim) : Matrix (Fin (dim * (2 + 2))) (Fin 2 × Fin dim) ℝ := fun p c =>
  (![0, D p.divNat c.2 * (![1, √6] c.1 / δ), if c.1 = 0 ∧ c.2 = p.divNat then 1 else 0,
    if c.1 = 1 ∧ c.2 = p.divNat then 1 else 0] : Vec 4) p.modNat

theorem ssmLoad_mulVec {dim : ℕ} (δ : ℝ) (D : Mat dim dim) (x0 b W I : Vec dim) :
    interlace ![x0, b, 0, 0] + ssmLoad δ D *ᵥ coeffVec W I =
      (interlace ![x0, b + D *ᵥ fun j => (W j + √6 * I j) / δ, W, I] : Vec (dim * (2 + 2))) := by
  funext p
  rw [← flat_div_mod p, Pi.add_apply, interlace_flat, interlace_flat, mulVec, dotProduct, Fintype.sum_prod_type, Fin.sum_univ_two]
  simp only [ssmLoad, divNat_flat, modNat_flat]
  generalize p.modNat = s
  generalize p.divNat = i
  have hs : s = 0 ∨ s = 1 ∨ s = 2 ∨ s = 3 := by fin_cases s <;> simp
  rcases hs with rfl | rfl | rfl | rfl
  · simp
  · simp only [coeffVec, mulVec, dotProduct, Pi.add_apply, ← Finset.sum_add_distrib, cons_val_one, cons_val_zero]
    congr 1
    refine Finset.sum_congr rfl fun j _ => ?_
    ring
  · simp [coeffVec]
  · simp [coeffVec]

theorem ssmLoad_cov {dim : ℕ} {δ : ℝ} (hδ : 0 < δ) (D : Mat dim dim) :
    ssmLoad δ D * diagonal (coeffVar dim δ) * (ssmLoad δ D)ᵀ = Ssm.var δ D := by
  have h6 : √(6 : ℝ) * √6 = 6 := Real.mul_self_sqrt (by norm_num)
  ext p q
  rw [← flat_div_mod p, ← flat_div_mod q, mul_apply, Fintype.sum_prod_type, Fin.sum_univ_two]
  simp only [mul_diagonal, transpose_apply, ssmLoad, divNat_flat, modNat_flat, Ssm.var, coeffVar]
  generalize p.modNat = s
  generalize p.divNat = i
  generalize q.modNat = t
  generalize q.divNat = j
  have hs : s = 0 ∨ s = 1 ∨ s = 2 ∨ s = 3 := by fin_cases s <;> simp
  have ht : t = 0 ∨ t = 1 ∨ t = 2 ∨ t = 3 := by fin_cases t <;> simp
  rcases hs with rfl | rfl | rfl | rfl <;> rcases ht with rfl | rfl | rfl | rfl
  all_goals try (simp [Ssm.block]; done)
  · simp only [Ssm.block, Fin.isValue, cons_val_one, cons_val_zero, of_apply, cons_val', cons_val_fin_one, mul_apply,
      Matrix.smul_apply, smul_eq_mul, transpose_apply, ← Finset.sum_add_distrib]
    refine Finset.sum_congr rfl fun k _ => ?_
    field_simp
    linear_combination (D i k * D j k) * h6
  · simp [Ssm.block, mul_comm]
    field_simp
  · simp [Ssm.block]
    field_simp
  · simp [Ssm.block]
    field_simp
  · simp [Ssm.block, Finset.sum_ite_eq, eq_comm]
  · simp [Ssm.block]
    field_simp
  · simp [Ssm.block, eq_comm]

/-- C56: if the coefficients `W`, `I` are independent, `N(0, δ)` and `N(0, δ/2)`, then the state of value, derivative of the
random ODE at time 0, `W` and `I` has the mean and the covariance the filter is started from. -/
theorem C56_joint_law {Ω : Type*} [MeasurableSpace Ω] {P : Measure Ω} {dim : ℕ} {δ : ℝ} (hδ : 0 < δ) (W I : Ω → Vec dim)
    (hWI : IsNormal P (fun ω => coeffVec (W ω) (I ω)) 0 (diagonal (coeffVar dim δ))) (x0 : Vec dim) (drift : Field dim)
    (diffusion : Diffusion dim dim) :
    IsNormal P (fun ω => interlace ![x0,
        drift x0 0 + diffusion x0 0 *ᵥ jacT (fun t => Foster.evalParabola t δ (W ω) (I ω)) 0, W ω, I ω])
      (Ssm.mean x0 drift) (Ssm.var δ (diffusion x0 0)) := by
  have h := hWI.affine (Ssm.mean x0 drift) (ssmLoad δ (diffusion x0 0))
  rw [mulVec_zero, add_zero, ssmLoad_cov hδ] at h
  simp only [jacT_evalParabola, mul_zero, zero_div, sub_zero, mul_one]
  have he : ∀ ω, Ssm.mean x0 drift + ssmLoad δ (diffusion x0 0) *ᵥ coeffVec (W ω) (I ω) = _ :=
    fun ω => ssmLoad_mulVec δ (diffusion x0 0) x0 (drift x0 0) (W ω) (I ω)
  exact (funext he) ▸ h

/-- C56 for the coefficients drawn by `get_approx` from an ideal generator. -/
theorem C56_draws {Ω : Type*} [MeasurableSpace Ω] {P : Measure Ω} {R : Ω → Rng} (hR : IdealNormals P R) {dim : ℕ} (key : Key)
    {δ : ℝ} (hδ : 0 < δ) (x0 : Vec dim) (drift : Field dim) (diffusion : Diffusion dim dim) :
    let c := fun ω => (Foster.getApprox dim).coeffs (R ω) key δ
    IsNormal P (fun ω => interlace ![x0, intervalField drift diffusion (Foster.getApprox dim) δ (c ω) 0 x0 0, (c ω).1, (c ω).2])
      (Ssm.mean x0 drift) (Ssm.var δ (diffusion x0 0)) := by
  intro c
  have := C56_joint_law hδ _ _ (C13_coefficients_law hR dim key δ hδ.le).1 x0 drift diffusion
  simp only [intervalField, add_zero]
  exact this

/-- C56: the initial covariance is symmetric positive semi-definite. -/
theorem C56_psd {dim : ℕ} {δ : ℝ} (hδ : 0 < δ) (D : Mat dim dim) : (Ssm.var δ D).PosSemidef := by
  rw [← ssmLoad_cov hδ]
  have hd : (diagonal (coeffVar dim δ)).PosSemidef := by
    refine PosSemidef.diagonal fun c => ?_
    obtain ⟨a, j⟩ := c
    fin_cases a
    · exact hδ.le
    · exact (half_pos hδ).le
  have := hd.mul_mul_conjTranspose_same (ssmLoad δ D)
  rwa [conjTranspose_eq_transpose_of_trivial] at this

/-! ## Vector field -/

theorem ssm_weights {dim : ℕ} (δ t : ℝ) (x : Vec (dim * (2 + 2))) :
    (Ssm.H23 dim * Ssm.pol dim δ t) *ᵥ x =
      fun j => (stride 2 x j + √6 * stride 3 x j * (1 - 2 * t / δ)) / δ := by
  funext j
  have hcast : ∀ j : Fin dim, Fin.cast (Nat.mul_one dim).symm j = flat j (0 : Fin 1) := by
    intro j; ext; simp [flat_val]
  rw [← mulVec_mulVec]
  have h1 : ∀ (y : Vec (dim * (2 + 2))), (Ssm.H23 dim *ᵥ y) j = y (flat j 2) + y (flat j 3) := by
    intro y
    rw [mulVec, dotProduct, sum_flat, Finset.sum_eq_single j]
    · simp [Ssm.H23, hcast, Fin.sum_univ_succ]
    · intro i _ hi
      simp [Ssm.H23, hcast, Matrix.one_apply, Ne.symm hi]
    · simp
  have h2 : ∀ s, (Ssm.pol dim δ t *ᵥ x) (flat j s) =
      (![1, 0, 1 / δ, √6 * (1 - 2 * t / δ) / δ] : Vec 4) s * x (flat j s) := by
    intro s
    rw [mulVec, dotProduct, sum_flat, Finset.sum_eq_single j]
    · fin_cases s <;> simp [Ssm.pol, Fin.sum_univ_succ]
    · intro i _ hi
      simp [Ssm.pol, Matrix.one_apply, Ne.symm hi]
    · simp
  rw [h1, h2, h2]
  simp only [stride, cons_val]
  ring

/-- C57: the extended vector field, on a state whose coordinates carry `W` and `I`, is the vector field `sde_solver` integrates
for the parabola with these coefficients. -/
theorem C57_field {dim : ℕ} (drift : Field dim) (sigma : Diffusion dim dim) (δ tk t : ℝ) (x : Vec (dim * (2 + 2))) :
    Ssm.field (fun z t => drift z (t + tk)) (fun z t => sigma z (t + tk)) δ x t =
      intervalField drift sigma (Foster.getApprox dim) δ (stride 2 x, stride 3 x) tk (stride 0 x) t := by
  have h := jacT_evalParabola δ (stride 2 x) (stride 3 x) t
  simp only [Ssm.field, intervalField, Foster.getApprox]
  rw [Matrix.mul_assoc, ← mulVec_mulVec, ssm_weights, h]

/-- C57: both observation functions take the value "derivative component minus the field `sde_solver` integrates". -/
theorem C57_observation {dim : ℕ} (EKF0 : Bool) (drift : Field dim) (sigma : Diffusion dim dim) (δ t : ℝ)
    (x : Vec (dim * (2 + 2))) :
    Ssm.obsFn EKF0 drift sigma δ x x t =
      stride 1 x - intervalField drift sigma (Foster.getApprox dim) δ (stride 2 x, stride 3 x) 0 (stride 0 x) t := by
  have hset : Ssm.setSol x (stride 0 x) = x := by
    funext p
    rw [Ssm.setSol]
    split_ifs with h
    · rw [stride, ← h, flat_div_mod]
    · rfl
  have := C57_field drift sigma δ 0 t x
  simp only [add_zero] at this
  cases EKF0
  · simp only [Ssm.obsFn, Bool.false_eq_true, if_false, this]
  · simp only [Ssm.obsFn, if_true, hset, this]

/-! ## Callability -/

/-- C58 fails: whatever the arguments, the two wrappers raise; and if the assertions pass and a prior, when given, has the
right size, what they raise is TypeError. -/
theorem C58_fails (la : LinAlg) (rng : Rng) (EKF0 : Bool) (key : Option Key) {dim m : ℕ} (init : Vec dim) (δ : ℝ)
    (drift : Field dim) (diffusion : Diffusion dim m) (h : ℝ) (N : ℕ) (sqrt : Bool) (prior : Option DynPrior)
    (noise : Option DynMat) :
    (∃ e, Ssm.wrapper la rng EKF0 key init δ drift diffusion h N sqrt prior noise = .error e) ∧
    (dim = m → (noise = none ∨ ∃ R : Mat dim dim, noise = some ⟨dim, dim, R⟩) →
      Ssm.wrapper la rng EKF0 key init δ drift diffusion h N sqrt prior noise = .error .typeError) := by
  have hp : ∀ p : Except PyErr (Prior 2), p = Ssm.resolvePrior h prior → (∃ q, p = .ok q) ∨ p = .error .typeError := by
    rintro p rfl
    rcases prior with _ | ⟨s, q⟩
    · exact Or.inl ⟨_, rfl⟩
    · by_cases hs : s = 2
      · exact Or.inl ⟨hs ▸ q, by simp [Ssm.resolvePrior, hs]⟩
      · exact Or.inr (by simp [Ssm.resolvePrior, hs])
  by_cases hm : dim = m
  · have hsol : ∀ R, Ekf.resolveNoise dim noise = .ok R →
        Ssm.wrapper la rng EKF0 key init δ drift diffusion h N sqrt prior noise = .error .typeError := by
      intro R hR
      rw [Ssm.wrapper, Ssm.solver, Ssm.solverWith, dif_pos hm, hR]
      rcases hp _ rfl with ⟨q, hq⟩ | hq
      · rw [hq]; rfl
      · rw [hq]; rfl
    constructor
    · cases hR : Ekf.resolveNoise dim noise with
      | ok R => exact ⟨_, hsol R hR⟩
      | error e => exact ⟨e, by rw [Ssm.wrapper, Ssm.solver, Ssm.solverWith, dif_pos hm, hR]; rfl⟩
    · rintro - (rfl | ⟨R, rfl⟩)
      · exact hsol 0 rfl
      · exact hsol _ (by simp [Ekf.resolveNoise]; rfl)
  · exact ⟨⟨_, by rw [Ssm.wrapper, Ssm.solver, Ssm.solverWith, dif_neg hm]; rfl⟩, fun h => absurd h hm⟩

/-- C58, what holds: everything before the call of `ekf` succeeds for square diffusions. If the increment (zero) were passed,
the wrappers would return for the default prior and for every prior of the right size, with or without noise.
Missing: the code does not pass it. -/
theorem C58_partial (la : LinAlg) (rng : Rng) (EKF0 : Bool) (key : Option Key) {dim : ℕ} (init : Vec dim) (δ : ℝ)
    (drift : Field dim) (diffusion : Diffusion dim dim) (h : ℝ) (N : ℕ) (sqrt : Bool) (prior : Option DynPrior)
    (hp : prior = none ∨ ∃ p : Prior 2, prior = some ⟨2, p⟩) (noise : Option DynMat)
    (hn : noise = none ∨ ∃ R : Mat dim dim, noise = some ⟨dim, dim, R⟩) :
    ∃ y, Ssm.wrapperFixed la rng EKF0 key init δ drift diffusion h N sqrt prior noise = .ok y := by
  obtain ⟨R, hR⟩ : ∃ R, Ekf.resolveNoise dim noise = .ok R := by
    rcases hn with rfl | ⟨R, rfl⟩
    · exact ⟨0, rfl⟩
    · exact ⟨_, by simp [Ekf.resolveNoise]; rfl⟩
  obtain ⟨q, hq⟩ : ∃ q, Ssm.resolvePrior h prior = .ok q := by
    rcases hp with rfl | ⟨p, rfl⟩
    · exact ⟨_, rfl⟩
    · exact ⟨p, rfl⟩
  rw [Ssm.wrapperFixed, Ssm.solverWith, dif_pos rfl, hR, hq]
  exact ⟨_, rfl⟩

/-! ## Static coefficients -/

theorem pad4_eq (M E : Mat 2 2) : Ssm.pad4 M E =
    !![M 0 0, M 0 1, 0, 0; M 1 0, M 1 1, 0, 0; 0, 0, E 0 0, E 0 1; 0, 0, E 1 0, E 1 1] := by
  ext i j
  fin_cases i <;> fin_cases j <;> rfl

theorem transition_row {dim : ℕ} (A : Mat 2 2) (i : Fin dim) {s : Fin (2 + 2)} (hs : s = 2 ∨ s = 3)
    (q : Fin (dim * (2 + 2))) : Ssm.transitionMatrix dim A (flat i s) q = if q = flat i s then 1 else 0 := by
  rw [← flat_div_mod q]
  generalize q.divNat = j
  generalize q.modNat = t
  simp only [Ssm.transitionMatrix, kron_flat, flat_inj, pad4_eq, Matrix.one_apply]
  by_cases hij : i = j
  · rcases hs with rfl | rfl <;> fin_cases t <;> simp [hij]
  · simp [hij, Ne.symm hij]

theorem covariance_row {dim : ℕ} (Q : Mat 2 2) (i : Fin dim) {s : Fin (2 + 2)} (hs : s = 2 ∨ s = 3)
    (q : Fin (dim * (2 + 2))) : Ssm.transitionCovariance dim Q (flat i s) q = 0 := by
  rw [← flat_div_mod q]
  generalize q.divNat = j
  generalize q.modNat = t
  simp only [Ssm.transitionCovariance, kron_flat, pad4_eq]
  rcases hs with rfl | rfl <;> fin_cases t <;> simp

/-- C59: a prediction with the transition built by the code and a zero increment leaves the mean of the coefficients and
their joint covariance as they were, for every state, one-coordinate prior and dimension, in both modes. -/
theorem C59_static {la : LinAlg} (hla : la.Correct) {dim : ℕ} (x : Gauss (dim * (2 + 2))) (A Q : Mat 2 2) (sqrt : Bool) :
    let y := KF.predict la x (Ssm.transitionMatrix dim A) (Ssm.transitionCovariance dim Q) 0 sqrt
    ∀ s t : Fin (2 + 2), (s = 2 ∨ s = 3) → (t = 2 ∨ t = 3) →
      stride s y.mean = stride s x.mean ∧ strideMat s t (covOf sqrt y) = strideMat s t (covOf sqrt x) := by
  intro y s t hs ht
  constructor
  · have hm : y.mean = Ssm.transitionMatrix dim A *ᵥ x.mean := by
      cases sqrt <;> exact add_zero _
    funext i
    simp only [hm, stride, mulVec, dotProduct, transition_row A i hs, ite_mul, one_mul, zero_mul, Finset.sum_ite_eq',
      Finset.mem_univ, if_true]
  · have hrow : ∀ (C : Mat (dim * (2 + 2)) (dim * (2 + 2))) i j,
        (Ssm.transitionMatrix dim A * C * (Ssm.transitionMatrix dim A)ᵀ) (flat i s) (flat j t) = C (flat i s) (flat j t) := by
      intro C i j
      rw [mul_apply]
      simp only [transpose_apply, transition_row A j ht, mul_ite, mul_one, mul_zero, Finset.sum_ite_eq', Finset.mem_univ,
        if_true]
      rw [mul_apply]
      simp only [transition_row A i hs, ite_mul, one_mul, zero_mul, Finset.sum_ite_eq', Finset.mem_univ, if_true]
    ext i j
    cases sqrt
    · show (Ssm.transitionMatrix dim A * x.cov * (Ssm.transitionMatrix dim A)ᵀ + Ssm.transitionCovariance dim Q)
        (flat i s) (flat j t) = _
      rw [Matrix.add_apply, hrow, covariance_row Q i hs, add_zero]
      rfl
    · have h1 := KF.predict_sqrt hla x (Ssm.transitionMatrix dim A) (Ssm.transitionCovariance dim Q) 0
      show (y.cov * y.covᵀ) (flat i s) (flat j t) = (x.cov * x.covᵀ) (flat i s) (flat j t)
      have h0 : (Ssm.transitionCovariance dim Q * (Ssm.transitionCovariance dim Q)ᵀ) (flat i s) (flat j t) = 0 := by
        rw [mul_apply]
        exact Finset.sum_eq_zero fun q _ => by rw [covariance_row Q i hs, zero_mul]
      rw [h1, Matrix.add_apply, hrow, h0, add_zero]

/-- C59, by induction: any number of predictions in a row leaves the coefficients as they were. -/
theorem C59_iterate {la : LinAlg} (hla : la.Correct) {dim : ℕ} (x : Gauss (dim * (2 + 2))) (A Q : Mat 2 2) (sqrt : Bool)
    (n : ℕ) :
    let y := (fun z => KF.predict la z (Ssm.transitionMatrix dim A) (Ssm.transitionCovariance dim Q) 0 sqrt)^[n] x
    ∀ s t : Fin (2 + 2), (s = 2 ∨ s = 3) → (t = 2 ∨ t = 3) →
      stride s y.mean = stride s x.mean ∧ strideMat s t (covOf sqrt y) = strideMat s t (covOf sqrt x) := by
  induction n with
  | zero => exact fun s t _ _ => ⟨rfl, rfl⟩
  | succ n ih =>
    intro y s t hs ht
    have h1 := C59_static hla ((fun z => KF.predict la z (Ssm.transitionMatrix dim A) (Ssm.transitionCovariance dim Q) 0 sqrt)^[n] x)
      A Q sqrt s t hs ht
    have hy : y = KF.predict la ((fun z => KF.predict la z (Ssm.transitionMatrix dim A) (Ssm.transitionCovariance dim Q) 0 sqrt)^[n] x)
      (Ssm.transitionMatrix dim A) (Ssm.transitionCovariance dim Q) 0 sqrt := Function.iterate_succ_apply' _ _ _
    rw [hy]
    exact ⟨h1.1.trans (ih s t hs ht).1, h1.2.trans (ih s t hs ht).2⟩

/-! ## The hypotheses can be met -/

/-- Coefficients with the law required by C56, for a non-trivial dimension and step. -/
example (k : Key) : IsNormal drawsMeasure (fun z => coeffVec ((Foster.getApprox 3).coeffs (drawsRng z) k (1 / 10)).1
    ((Foster.getApprox 3).coeffs (drawsRng z) k (1 / 10)).2) 0 (diagonal (coeffVar 3 (1 / 10))) :=
  (C13_coefficients_law idealNormals_drawsRng 3 k (1 / 10) (by norm_num)).1

/-- A call of C58 that passes the assertion, with noise and a prior of the right size. -/
example : ∃ (R : Mat 3 3) (noise : Option DynMat), noise = some ⟨3, 3, R⟩ ∧ R ≠ 0 :=
  ⟨1, _, rfl, one_ne_zero⟩

end Verif
