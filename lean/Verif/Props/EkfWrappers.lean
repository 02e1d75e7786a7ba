import Verif.Props.Ekf
import Verif.Lemmas.Gaussian

/-!
# Properties C47, C49-C53: initial states, outputs and defaults of the filtering ODE solvers
-/

namespace Verif

open Matrix Spec Jnp MeasureTheory ProbabilityTheory

/-! ## Samples -/

theorem normalVec_std {Ω : Type*} [MeasurableSpace Ω] {P : Measure Ω} {R : Ω → Rng} (hR : IdealNormals P R) (k : Key) (n : ℕ) :
    IsNormal P (fun ω => (R ω).normalVec k n) 0 1 := by
  have hn : [n].prod = n := by simp
  have h1 := (hR.indep_single k [n]).precomp (g := fun i : Fin n => (⟨i.1, by rw [hn]; exact i.2⟩ : Fin [n].prod))
    (fun i j hij => by simpa [Fin.ext_iff] using hij)
  exact isNormal_std (Z := fun (i : Fin n) ω => (R ω).normal k [n] i) (fun i => hR.law k [n] i (by rw [hn]; exact i.2)) h1

theorem stdSample_law {la : LinAlg} (hla : la.Correct) {Ω : Type*} [MeasurableSpace Ω] {P : Measure Ω} {R : Ω → Rng}
    (hR : IdealNormals P R) (k : Key) (n : ℕ) :
    IsNormal P (fun ω => (R ω).multivariateNormal la k (0 : Vec n) 1) 0 1 := by
  have := (normalVec_std hR k n).affine 0 (la.cholesky (1 : Mat n n))
  rw [mulVec_zero, add_zero, Matrix.mul_one, hla.chol_mul _ PosDef.one] at this
  exact this

/-- The stride as a matrix. -/
theorem stride_normal {Ω : Type*} [MeasurableSpace Ω] {P : Measure Ω} {dim r : ℕ} {X : Ω → Vec (dim * (r + 2))}
    {m : Vec (dim * (r + 2))} {C : Mat (dim * (r + 2)) (dim * (r + 2))} (h : IsNormal P X m C) (s : Fin (r + 2)) :
    IsNormal P (fun ω => stride s (X ω)) (stride s m) (strideMat s s C) := by
  have := h.affine 0 (Ekf.E (dim := dim) s)
  simp only [zero_add, Ekf.E_mulVec] at this
  have hC : Ekf.E (dim := dim) s * C * (Ekf.E s)ᵀ = strideMat s s C := by
    ext i j
    simp [mul_apply, Ekf.E, strideMat]
  rwa [hC] at this

/-- C47, for any posterior: the sample formed at the end of `ekf0` and `ekf1` has the posterior law of the solution
components; without a key the posterior mean is returned. -/
theorem C47_finish {la : LinAlg} (hla : la.Correct) {Ω : Type*} [MeasurableSpace Ω] {P : Measure Ω} {R : Ω → Rng}
    (hR : IdealNormals P R) (k : Key) (sqrt : Bool) {dim r : ℕ} (f : Gauss (dim * (r + 2)))
    (hf : sqrt = false → f.cov.PosSemidef) :
    IsNormal P (fun ω => Ekf.finish la (R ω) (some k) sqrt f) (stride 0 f.mean) (strideMat 0 0 (covOf sqrt f)) ∧
    ∀ rng, Ekf.finish la rng none sqrt f = stride 0 f.mean := by
  refine ⟨?_, fun _ => rfl⟩
  have h1 := (stdSample_law hla hR k (dim * (r + 2))).affine f.mean (if sqrt then f.cov else la.sqrtm f.cov)
  rw [mulVec_zero, add_zero, Matrix.mul_one] at h1
  have hC : (if sqrt then f.cov else la.sqrtm f.cov) * (if sqrt then f.cov else la.sqrtm f.cov)ᵀ = covOf sqrt f := by
    cases sqrt
    · exact hla.sqrtm_mul_transpose (hf rfl)
    · rfl
  rw [hC] at h1
  exact stride_normal h1 0

/-- The posterior is positive semi-definite in covariance mode. -/
theorem solver_psd {la : LinAlg} (hla : la.Correct) {dim r : ℕ} (EKF0 : Bool) (vf : Field dim) (hf : Ekf.FieldOk EKF0 vf)
    (h : ℝ) (N : ℕ) (p : Prior (dim * (r + 2))) (hQ : p.Q.PosDef) (x : Gauss (dim * (r + 2))) (hx : x.cov.PosSemidef) :
    ∃ f, Ekf.solver la x vf h N false EKF0 (some ⟨_, p⟩) none = .ok f ∧ f.cov.PosSemidef := by
  refine ⟨_, Ekf.solver_some .., ?_⟩
  have hw := Ekf.wellPosed hla EKF0 vf hf p.A p.Q p.xi 0 hQ PosSemidef.zero x hx (linspace h (N * h) N)
  have := C25_run hla (Ekf.obsFn EKF0 vf) p.A p.Q p.xi 0 hQ.posSemidef PosSemidef.zero x hx _ hw N
  rwa [List.take_of_length_le (by simp)] at this

theorem init4_psd {dim r : ℕ} (x0 : Vec dim) (vf : Field dim) : (Ekf.init4 (r := r) x0 vf).cov.PosSemidef := by
  have : (Ekf.init4 (r := r) x0 vf).cov = diagonal fun p => if p.1 < 3 * dim then 0 else 1 := by
    ext p q
    simp only [Ekf.init4, Matrix.one_apply, diagonal_apply]
    by_cases hpq : p = q
    · subst hpq; simp
    · simp [hpq]
  rw [this]
  refine PosSemidef.diagonal fun p => ?_
  simp only [Pi.zero_apply]
  split_ifs <;> norm_num

/-- One of the two Algorithm 2 solvers ran the filter with the posterior `f`, and the law of its output is that of the
solution components of `f`. -/
def SamplesPosterior {Ω : Type*} [MeasurableSpace Ω] (P : Measure Ω) (R : Ω → Rng) {dim r : ℕ}
    (call : Rng → Option Key → Except PyErr (Vec dim)) (filter : Except PyErr (Gauss (dim * (r + 2)))) (sqrt : Bool) : Prop :=
  ∃ f, filter = .ok f ∧ (∀ rng, call rng none = .ok (stride 0 f.mean)) ∧
    ∀ k, ∃ Y : Ω → Vec dim, (∀ ω, call (R ω) (some k) = .ok (Y ω)) ∧
      IsNormal P Y (stride 0 f.mean) (strideMat 0 0 (covOf sqrt f))

theorem samplesPosterior_of {la : LinAlg} (hla : la.Correct) {Ω : Type*} [MeasurableSpace Ω] {P : Measure Ω} {R : Ω → Rng}
    (hR : IdealNormals P R) {dim r : ℕ} (EKF0 : Bool) (vf : Field dim) (hf : Ekf.FieldOk EKF0 vf) (h : ℝ) (N : ℕ)
    (sqrt : Bool) (p : Prior (dim * (r + 2))) (hQ : p.Q.PosDef) (x : Gauss (dim * (r + 2))) (hx : x.cov.PosSemidef)
    (call : Rng → Option Key → Except PyErr (Vec dim))
    (hcall : ∀ rng k, call rng k = (Ekf.solver la x vf h N sqrt EKF0 (some ⟨_, p⟩) none).map (Ekf.finish la rng k sqrt)) :
    SamplesPosterior P R call (Ekf.solver la x vf h N sqrt EKF0 (some ⟨_, p⟩) none) sqrt := by
  have hs := Ekf.solver_some la x vf h N sqrt EKF0 p
  refine ⟨_, hs, fun rng => ?_, fun k => ⟨fun ω => Ekf.finish la (R ω) (some k) sqrt (KF.ekf la x
    (Ekf.obsFn EKF0 vf) p.A (if sqrt = true then la.cholesky p.Q else p.Q) p.xi 0 (linspace h (N * h) N) sqrt), fun ω => ?_, ?_⟩⟩
  · rw [hcall, hs]; rfl
  · rw [hcall, hs]; rfl
  · refine (C47_finish hla hR k sqrt _ ?_).1
    rintro rfl
    obtain ⟨f, h1, h2⟩ := solver_psd hla EKF0 vf hf h N p hQ x hx
    rw [hs] at h1
    rw [Except.ok.inj h1]
    exact h2

/-- C47 for `ekf0`, with two and three states per coordinate (it raises for others, C52). -/
theorem C47_ekf0 {la : LinAlg} (hla : la.Correct) {Ω : Type*} [MeasurableSpace Ω] {P : Measure Ω} {R : Ω → Rng}
    (hR : IdealNormals P R) {dim : ℕ} (hd : 0 < dim) (vf : Field dim) (h : ℝ) (N : ℕ) (sqrt : Bool) (x0 : Vec dim) :
    (∀ p : Prior (dim * (0 + 2)), p.Q.PosDef →
      SamplesPosterior P R (fun rng k => Ekf.ekf0 la rng k x0 vf h N sqrt (some ⟨_, p⟩) none)
        (Ekf.solver la (Ekf.init2 x0 vf) vf h N sqrt true (some ⟨_, p⟩) none) sqrt) ∧
    (∀ p : Prior (dim * (1 + 2)), p.Q.PosDef →
      SamplesPosterior P R (fun rng k => Ekf.ekf0 la rng k x0 vf h N sqrt (some ⟨_, p⟩) none)
        (Ekf.solver la (Ekf.init3 x0 vf) vf h N sqrt true (some ⟨_, p⟩) none) sqrt) :=
  ⟨fun p hQ => samplesPosterior_of hla hR true vf (fun h => by cases h) h N sqrt p hQ _ PosSemidef.zero _
      fun rng k => Ekf.ekf0_two la rng k hd x0 vf h N sqrt p none,
    fun p hQ => samplesPosterior_of hla hR true vf (fun h => by cases h) h N sqrt p hQ _ PosSemidef.zero _
      fun rng k => Ekf.ekf0_three la rng k hd x0 vf h N sqrt p none⟩

/-- C47 for `ekf1`, for every number of states per coordinate. -/
theorem C47_ekf1 {la : LinAlg} (hla : la.Correct) {Ω : Type*} [MeasurableSpace Ω] {P : Measure Ω} {R : Ω → Rng}
    (hR : IdealNormals P R) {dim : ℕ} (hd : 0 < dim) (vf : Field dim) (hf : ∀ t, Differentiable ℝ fun x => vf x t) (h : ℝ)
    (N : ℕ) (sqrt : Bool) (x0 : Vec dim) :
    (∀ p : Prior (dim * (0 + 2)), p.Q.PosDef →
      SamplesPosterior P R (fun rng k => Ekf.ekf1 la rng k x0 vf h N sqrt (some ⟨_, p⟩) none)
        (Ekf.solver la (Ekf.init2 x0 vf) vf h N sqrt false (some ⟨_, p⟩) none) sqrt) ∧
    (∀ p : Prior (dim * (1 + 2)), p.Q.PosDef →
      SamplesPosterior P R (fun rng k => Ekf.ekf1 la rng k x0 vf h N sqrt (some ⟨_, p⟩) none)
        (Ekf.solver la (Ekf.init3 x0 vf) vf h N sqrt false (some ⟨_, p⟩) none) sqrt) ∧
    (∀ (r : ℕ) (p : Prior (dim * ((r + 2) + 2))), p.Q.PosDef →
      SamplesPosterior P R (fun rng k => Ekf.ekf1 la rng k x0 vf h N sqrt (some ⟨_, p⟩) none)
        (Ekf.solver la (Ekf.init4 (r := r) x0 vf) vf h N sqrt false (some ⟨_, p⟩) none) sqrt) :=
  ⟨fun p hQ => samplesPosterior_of hla hR false vf (fun _ => hf) h N sqrt p hQ _ PosSemidef.zero _
      fun rng k => Ekf.ekf1_two la rng k hd x0 vf h N sqrt p none,
    fun p hQ => samplesPosterior_of hla hR false vf (fun _ => hf) h N sqrt p hQ _ PosSemidef.zero _
      fun rng k => Ekf.ekf1_three la rng k hd x0 vf h N sqrt p none,
    fun r p hQ => samplesPosterior_of hla hR false vf (fun _ => hf) h N sqrt p hQ _ (init4_psd x0 vf) _
      fun rng k => Ekf.ekf1_many la rng k hd x0 vf h N sqrt p none⟩

/-- C47 for the Algorithm 3 solvers: the first component they return has the law given by the other two, and without a key
is the second. -/
theorem C47_alg3 {la : LinAlg} (hla : la.Correct) {Ω : Type*} [MeasurableSpace Ω] {P : Measure Ω} {R : Ω → Rng}
    (hR : IdealNormals P R) {dim : ℕ} (EKF0 : Bool) (vf : Field dim) (hf : EKF0 = false → ∀ t, Differentiable ℝ fun x => vf x t)
    (h : ℝ) (N : ℕ) (sqrt : Bool) (p : Prior (dim * (0 + 2))) (hQ : p.Q.PosDef) (init : Ekf.State3 dim)
    (hi : init.2.2.PosSemidef) :
    ∃ m C, (∀ rng, Ekf.ekf2 la rng EKF0 none init vf h N sqrt (some ⟨_, p⟩) none = .ok (m, m, C)) ∧
      ∀ k, ∃ Y : Ω → Vec dim, (∀ ω, Ekf.ekf2 la (R ω) EKF0 (some k) init vf h N sqrt (some ⟨_, p⟩) none = .ok (Y ω, m, C)) ∧
        IsNormal P Y m C := by
  have hs := Ekf.solver_some la (Ekf.init32 la EKF0 init.2.1 init.2.2 vf sqrt) vf h N sqrt EKF0 p
  set f := KF.ekf la (Ekf.init32 la EKF0 init.2.1 init.2.2 vf sqrt) (Ekf.obsFn EKF0 vf) p.A
    (if sqrt = true then la.cholesky p.Q else p.Q) p.xi 0 (linspace h (N * h) N) sqrt with hfd
  refine ⟨stride 0 f.mean, strideMat 0 0 (covOf sqrt f), fun rng => ?_, fun k =>
    ⟨fun ω => Ekf.finish la (R ω) (some k) sqrt f, fun ω => ?_, ?_⟩⟩
  · rw [Ekf.ekf2_eq, hs]; cases sqrt <;> rfl
  · rw [Ekf.ekf2_eq, hs]; cases sqrt <;> rfl
  · refine (C47_finish hla hR k sqrt f ?_).1
    rintro rfl
    obtain ⟨g, h1, h2⟩ := solver_psd hla EKF0 vf hf h N p hQ _ (Ekf.init32_psd la EKF0 init.2.1 hi vf)
    rw [hs] at h1
    rw [Except.ok.inj h1]
    exact h2

/-! ## Initial covariance of Algorithm 3 -/

/-- C49: let `Y` be the uncertain initial value, `N(m, P)`. The filter of `ekf1_2` (`ekf0_2`) is started from the joint law of
`Y` and of the vector field linearised at `m` (frozen at `m`), in both modes. -/
theorem C49_law {la : LinAlg} (hla : la.Correct) {Ω : Type*} [MeasurableSpace Ω] {μ : Measure Ω} {dim : ℕ} (Y : Ω → Vec dim)
    (m : Vec dim) (P : Mat dim dim) (hY : IsNormal μ Y m P) (vf : Field dim) (sqrt : Bool) :
    (let x := Ekf.init32 la false m P vf sqrt
     IsNormal μ (fun ω => interlace ![Y ω, vf m 0 + jac (fun z => vf z 0) m *ᵥ (Y ω - m)]) x.mean (covOf sqrt x)) ∧
    (let x := Ekf.init32 la true m P vf sqrt
     IsNormal μ (fun ω => interlace ![Y ω, vf m 0]) x.mean (covOf sqrt x)) := by
  have key : ∀ (EKF0 : Bool) (H : Mat dim dim), H = Ekf.jac32 EKF0 vf m →
      IsNormal μ (fun ω => interlace ![Y ω, vf m 0 + H *ᵥ (Y ω - m)]) (Ekf.init32 la EKF0 m P vf sqrt).mean
        (covOf sqrt (Ekf.init32 la EKF0 m P vf sqrt)) := by
    intro EKF0 H hH
    have h1 := hY.affine (interlace ![0, vf m 0 - H *ᵥ m] : Vec (dim * (0 + 2))) (Ekf.lift H)
    have hl : ∀ y, (interlace ![0, vf m 0 - H *ᵥ m] : Vec (dim * (0 + 2))) + Ekf.lift H *ᵥ y =
        interlace ![y, vf m 0 + H *ᵥ (y - m)] := by
      intro y
      funext p
      rw [← flat_div_mod p]
      generalize p.divNat = i
      generalize p.modNat = s
      rw [Pi.add_apply, interlace_flat, interlace_flat]
      have hs : s = 0 ∨ s = 1 := by fin_cases s <;> simp
      rcases hs with rfl | rfl
      · simp [mulVec, dotProduct, Ekf.lift, Matrix.one_apply]
      · simp [mulVec, dotProduct, Ekf.lift, mul_sub, Finset.sum_sub_distrib]
        ring
    simp only [hl] at h1
    have hm : interlace ![m, vf m 0 + H *ᵥ (m - m)] = (Ekf.init32 la EKF0 m P vf sqrt).mean := by
      simp only [sub_self, mulVec_zero, add_zero]; rfl
    have hc : Ekf.lift H * P * (Ekf.lift H)ᵀ = covOf sqrt (Ekf.init32 la EKF0 m P vf sqrt) := by
      rw [hH, ← Ekf.init32_cov la]
      cases sqrt
      · rfl
      · exact (Ekf.init32_represents hla EKF0 m hY.posSemidef vf).2.symm
    rw [hm, hc] at h1
    exact h1
  refine ⟨key false _ rfl, ?_⟩
  have := key true 0 rfl
  simpa only [zero_mulVec, add_zero] using this

/-- C49: the initial covariance is positive semi-definite when the given one is, and its blocks are
`P`, `P Jᵀ`, `J P` and `J P Jᵀ`. -/
theorem C49_blocks (la : LinAlg) {dim : ℕ} (m : Vec dim) (P : Mat dim dim) (vf : Field dim) :
    let J := jac (fun z => vf z 0) m
    let C := (Ekf.init32 la false m P vf false).cov
    let C0 := (Ekf.init32 la true m P vf false).cov
    (strideMat 0 0 C = P ∧ strideMat 0 1 C = P * Jᵀ ∧ strideMat 1 0 C = J * P ∧ strideMat 1 1 C = J * P * Jᵀ) ∧
    (strideMat 0 0 C0 = P ∧ strideMat 0 1 C0 = 0 ∧ strideMat 1 0 C0 = 0 ∧ strideMat 1 1 C0 = 0) ∧
    (P.PosSemidef → C.PosSemidef ∧ C0.PosSemidef) := by
  intro J C C0
  have hb : ∀ v w x y : Mat dim dim, ∀ M : Mat (dim * (0 + 2)) (dim * (0 + 2)), M = interlaceMatrix v w x y →
      strideMat 0 0 M = v ∧ strideMat 0 1 M = w ∧ strideMat 1 0 M = x ∧ strideMat 1 1 M = y := by
    rintro v w x y M rfl
    refine ⟨?_, ?_, ?_, ?_⟩ <;>
    · ext i j
      exact (interlaceMatrix_flat _ _ _ _ _ _ _ _).trans (by simp)
  refine ⟨hb _ _ _ _ C rfl, ?_, fun hP => ⟨Ekf.init32_psd la false m hP vf, Ekf.init32_psd la true m hP vf⟩⟩
  obtain ⟨h1, h2, h3, h4⟩ := hb _ _ _ _ C0 rfl
  refine ⟨h1, ?_, ?_, ?_⟩
  · rw [h2]; simp
  · rw [h3]; simp
  · rw [h4]; simp

/-! ## `return_all` -/

/-- C50: with `return_all=True` the first component is what is returned without it, and the sample, mean and covariance of the
additional tuple have it as solution components. -/
theorem C50_same (la : LinAlg) (rng : Rng) (EKF0 : Bool) (key : Option Key) {dim : ℕ} (init : Ekf.State3 dim)
    (vf : Field dim) (h : ℝ) (N : ℕ) (sqrt : Bool) (prior : Option DynPrior) (noise : Option DynMat) :
    (Ekf.ekf2All la rng EKF0 key init vf h N sqrt prior noise).map (·.1) =
      Ekf.ekf2 la rng EKF0 key init vf h N sqrt prior noise ∧
    ∀ out, Ekf.ekf2All la rng EKF0 key init vf h N sqrt prior noise = .ok out →
      out.1 = (stride 0 out.2.sample, stride 0 out.2.mean, strideMat 0 0 out.2.cov) := by
  have hs : ∀ x : Gauss (dim * (0 + 2)), (Ekf.solverUC la x vf h N sqrt EKF0 prior noise).map (·.1) =
      Ekf.solver la x vf h N sqrt EKF0 prior noise := by
    intro x
    rw [Ekf.solverUC, Ekf.solver]
    cases Ekf.args la (r := 0) vf h N sqrt EKF0 prior noise with
    | error e => rfl
    | ok a => exact congrArg Except.ok (KF.ekfUC_fst ..)
  constructor
  · rw [Ekf.ekf2_eq, ← hs, Ekf.ekf2All]
    cases Ekf.solverUC la (Ekf.init32 la EKF0 init.2.1 init.2.2 vf sqrt) vf h N sqrt EKF0 prior noise <;> rfl
  · intro out hout
    rw [Ekf.ekf2All] at hout
    cases hc : Ekf.solverUC la (Ekf.init32 la EKF0 init.2.1 init.2.2 vf sqrt) vf h N sqrt EKF0 prior noise with
    | error e => rw [hc] at hout; cases hout
    | ok a => rw [hc] at hout; cases hout; rfl

/-- C50: the order of the additional tuple, for the given or the default prior `p` and the given or no noise `R`. Let `f` be
the posterior after all steps but the last, and `m'`, `P'` its prediction. The fourth entry of the tuple is the innovation
covariance `H P' Hᵀ + R` of the last step and the fifth its residual (the documentation announces them in the other
order). -/
theorem C50_order {la : LinAlg} (hla : la.Correct) (rng : Rng) (EKF0 : Bool) (key : Option Key) {dim : ℕ}
    (init : Ekf.State3 dim) (vf : Field dim) (hf : EKF0 = false → ∀ t, Differentiable ℝ fun x => vf x t) (h : ℝ) (N : ℕ)
    (sqrt : Bool) (prior : Option DynPrior) (p : Prior (dim * (0 + 2)))
    (hp : prior = some ⟨_, p⟩ ∨ prior = none ∧ p = IOUP.transition 0 1 1 h dim) (hQ : p.Q.PosDef)
    (noise : Option DynMat) (R : Mat dim dim) (hR : noise = some ⟨dim, dim, R⟩ ∨ noise = none ∧ R = 0) :
    ∃ f out, Ekf.solver la (Ekf.init32 la EKF0 init.2.1 init.2.2 vf sqrt) vf h N sqrt EKF0 prior noise = .ok f ∧
      Ekf.ekf2All la rng EKF0 key init vf h (N + 1) sqrt prior noise = .ok out ∧
      (let m' := p.A *ᵥ f.mean + p.xi
       let P' := p.A * covOf sqrt f * p.Aᵀ + p.Q
       let t := ((N + 1 : ℕ) : ℝ) * h
       let H := Ekf.E 1 - (if EKF0 then 0 else jac (fun z => vf z t) (stride 0 m')) * Ekf.E 0
       out.2.pos3 = H * P' * Hᵀ + (if sqrt then R * Rᵀ else R) ∧ out.2.pos4 = stride 1 m' - vf (stride 0 m') t) := by
  have hargs : ∀ n, Ekf.args la (r := 0) vf h n sqrt EKF0 prior noise =
      .ok ⟨Ekf.obsFn EKF0 vf, p.A, if sqrt then la.cholesky p.Q else p.Q, p.xi, R, linspace h (n * h) n⟩ := by
    intro n
    have h1 : Ekf.args la (r := 0) vf h n sqrt EKF0 prior noise =
        Ekf.args la (r := 0) vf h n sqrt EKF0 (some ⟨_, p⟩) noise := by
      rcases hp with rfl | ⟨rfl, rfl⟩
      · rfl
      · exact Ekf.args_none ..
    rw [h1]
    rcases hR with rfl | ⟨rfl, rfl⟩
    · exact Ekf.args_some_noise ..
    · exact Ekf.args_some ..
  have hts : linspace h ((N + 1 : ℕ) * h) (N + 1) = linspace h (N * h) N ++ [((N + 1 : ℕ) : ℝ) * h] := by
    rw [Ekf.linspace_ts, Ekf.linspace_ts, List.range_succ, List.map_append]
    simp
  refine ⟨KF.ekf la (Ekf.init32 la EKF0 init.2.1 init.2.2 vf sqrt) (Ekf.obsFn EKF0 vf) p.A
    (if sqrt then la.cholesky p.Q else p.Q) p.xi R (linspace h (N * h) N) sqrt,
    (fun q => (Ekf.solComponents (Ekf.finish2 la rng key sqrt q.1), ⟨(Ekf.finish2 la rng key sqrt q.1).1,
    (Ekf.finish2 la rng key sqrt q.1).2.1, (Ekf.finish2 la rng key sqrt q.1).2.2, q.2.1, q.2.2⟩))
    (KF.ekfUC la (Ekf.init32 la EKF0 init.2.1 init.2.2 vf sqrt) (Ekf.obsFn EKF0 vf) p.A
    (if sqrt then la.cholesky p.Q else p.Q) p.xi R (linspace h ((N + 1 : ℕ) * h) (N + 1)) sqrt), ?_, ?_, ?_⟩
  · rw [Ekf.solver, hargs]; rfl
  · rw [Ekf.ekf2All, Ekf.solverUC, hargs]; rfl
  · intro m' P' t H
    simp only
    rw [hts, KF.ekfUC_snoc]
    set x := KF.ekf la (Ekf.init32 la EKF0 init.2.1 init.2.2 vf sqrt) (Ekf.obsFn EKF0 vf) p.A
      (if sqrt then la.cholesky p.Q else p.Q) p.xi R (linspace h (N * h) N) sqrt
    have hm : (KF.predict la x p.A (if sqrt then la.cholesky p.Q else p.Q) p.xi sqrt).mean = m' := by cases sqrt <;> rfl
    have hc : covOf sqrt (KF.predict la x p.A (if sqrt then la.cholesky p.Q else p.Q) p.xi sqrt) = P' := by
      cases sqrt
      · rfl
      · have := KF.predict_sqrt hla x p.A (la.cholesky p.Q) p.xi
        rw [hla.chol_mul _ hQ] at this
        exact this
    have hH : jac (fun z => Ekf.obsFn (r := 0) EKF0 vf z m' t) m' = H := by
      cases EKF0
      · exact Ekf.jac_ekf1 vf _ _ _ (hf rfl t _)
      · refine (Ekf.jac_ekf0 ..).trans ?_
        simp [H]
    constructor
    · have hS : (if sqrt then (KF.step la (Ekf.obsFn (r := 0) EKF0 vf) p.A (if sqrt then la.cholesky p.Q else p.Q) p.xi R sqrt x t).2.1 *
          (KF.step la (Ekf.obsFn (r := 0) EKF0 vf) p.A (if sqrt then la.cholesky p.Q else p.Q) p.xi R sqrt x t).2.1ᵀ
          else (KF.step la (Ekf.obsFn (r := 0) EKF0 vf) p.A (if sqrt then la.cholesky p.Q else p.Q) p.xi R sqrt x t).2.1) =
          innovCov (covOf sqrt (KF.predict la x p.A (if sqrt then la.cholesky p.Q else p.Q) p.xi sqrt))
          (jac (fun z => Ekf.obsFn (r := 0) EKF0 vf z (KF.predict la x p.A (if sqrt then la.cholesky p.Q else p.Q) p.xi sqrt).mean t)
            (KF.predict la x p.A (if sqrt then la.cholesky p.Q else p.Q) p.xi sqrt).mean) (if sqrt then R * Rᵀ else R) := by
        cases sqrt
        · rfl
        · exact (KF.update_blocks hla _ _ R).1
      refine hS.trans ?_
      rw [hc, hm, hH]
      rfl
    · have : (KF.step la (Ekf.obsFn (r := 0) EKF0 vf) p.A (if sqrt then la.cholesky p.Q else p.Q) p.xi R sqrt x t).2.2 =
          Ekf.obsFn (r := 0) EKF0 vf (KF.predict la x p.A (if sqrt then la.cholesky p.Q else p.Q) p.xi sqrt).mean
          (KF.predict la x p.A (if sqrt then la.cholesky p.Q else p.Q) p.xi sqrt).mean t := rfl
      refine this.trans ?_
      rw [hm]
      cases EKF0 <;> rfl

/-! ## Default prior -/

/-- C51 fails: `ekf0` and `ekf1` without a prior raise TypeError for every input. -/
theorem C51_fails (la : LinAlg) (rng : Rng) (key : Option Key) {dim : ℕ} (x0 : Vec dim) (vf : Field dim) (h : ℝ) (N : ℕ)
    (sqrt : Bool) (noise : Option DynMat) :
    Ekf.ekf0 la rng key x0 vf h N sqrt none noise = .error .typeError ∧
    Ekf.ekf1 la rng key x0 vf h N sqrt none noise = .error .typeError := ⟨rfl, rfl⟩

/-- C51, what holds: the filter they wrap and the Algorithm 3 solvers do use the integrated Brownian motion prior of scale 1
when no prior is given. Missing: the same for `ekf0` and `ekf1`. -/
theorem C51_partial (la : LinAlg) (rng : Rng) (key : Option Key) {dim : ℕ} (vf : Field dim) (h : ℝ) (N : ℕ)
    (sqrt EKF0 : Bool) (noise : Option DynMat) :
    (∀ (r : ℕ) (x : Gauss (dim * (r + 2))), Ekf.solver la x vf h N sqrt EKF0 none noise =
      Ekf.solver la x vf h N sqrt EKF0 (some ⟨_, IOUP.transition 0 1 (r + 1) h dim⟩) noise) ∧
    (∀ x : Ekf.State3 dim, Ekf.ekf2 la rng EKF0 key x vf h N sqrt none noise =
      Ekf.ekf2 la rng EKF0 key x vf h N sqrt (some ⟨_, IOUP.transition 0 1 1 h dim⟩) noise) := by
  refine ⟨fun r x => Ekf.solver_none .., fun x => ?_⟩
  rw [Ekf.ekf2_eq, Ekf.ekf2_eq, Ekf.solver_none]

/-! ## Higher-order priors -/

/-- C52 fails: `ekf0` raises for every prior with four or more states per coordinate; `ekf1` runs the filter from `init4`, in
which for two or more dimensions a third state has variance one and a fourth state has none. -/
theorem C52_fails (la : LinAlg) (rng : Rng) (key : Option Key) {dim r : ℕ} (hd : 0 < dim) (x0 : Vec dim) (vf : Field dim)
    (h : ℝ) (N : ℕ) (sqrt : Bool) (p : Prior (dim * ((r + 2) + 2))) (noise : Option DynMat) :
    Ekf.ekf0 la rng key x0 vf h N sqrt (some ⟨_, p⟩) noise = .error .typeError ∧
    Ekf.ekf1 la rng key x0 vf h N sqrt (some ⟨_, p⟩) noise =
      (Ekf.solver la (Ekf.init4 (r := r) x0 vf) vf h N sqrt false (some ⟨_, p⟩) noise).map (Ekf.finish la rng key sqrt) ∧
    (2 ≤ dim → ∃ i j : Fin dim, ∃ s t : Fin ((r + 2) + 2), s.1 = 2 ∧ t.1 = 3 ∧
      (Ekf.init4 (r := r) x0 vf).cov (flat i s) (flat i s) = 1 ∧
      (Ekf.init4 (r := r) x0 vf).cov (flat j t) (flat j t) = 0) := by
  refine ⟨?_, Ekf.ekf1_many la rng key hd x0 vf h N sqrt p noise, fun h2 => ?_⟩
  · have h2 : dim * ((r + 2) + 2) / dim = r + 4 := Nat.mul_div_cancel_left _ hd
    simp only [Ekf.ekf0, hd.ne', if_false]
    rw [h2]
    rfl
  · refine ⟨⟨dim - 1, by omega⟩, ⟨0, hd⟩, ⟨2, by omega⟩, ⟨3, by omega⟩, rfl, rfl, ?_, ?_⟩
    · have : ¬ (dim - 1) * ((r + 2) + 2) + 2 < 3 * dim := by
        obtain ⟨e, rfl⟩ : ∃ e, dim = e + 2 := ⟨dim - 2, by omega⟩
        have : (e + 2 - 1) * (r + 2 + 2) = (e + 1) * r + 4 * (e + 1) := by
          rw [show e + 2 - 1 = e + 1 by omega]; ring
        rw [this]
        have : 0 ≤ (e + 1) * r := Nat.zero_le _
        omega
      simp [Ekf.init4, flat_val, this]
    · have : 3 < 3 * dim := by omega
      simp [Ekf.init4, flat_val, this]

/-- C52, what holds: the initial mean of `ekf1` is as documented in every dimension (value, field, Jacobian times field, then
zeros), and in dimension one so is the covariance: the first three states are exact and the others have unit variance.
Missing: the covariance in higher dimension, and `ekf0`. -/
theorem C52_partial {dim r : ℕ} (x0 : Vec dim) (vf : Field dim) :
    (∀ i (s : Fin ((r + 2) + 2)), (Ekf.init4 (r := r) x0 vf).mean (flat i s) =
      if s.1 = 0 then x0 i else if s.1 = 1 then vf x0 0 i
      else if s.1 = 2 then (jac (fun z => vf z 0) x0 *ᵥ vf x0 0) i else 0) ∧
    (∀ (x0 : Vec 1) (vf : Field 1) (s t : Fin ((r + 2) + 2)), (Ekf.init4 (r := r) x0 vf).cov (flat 0 s) (flat 0 t) =
      if s = t ∧ 3 ≤ s.1 then 1 else 0) := by
  constructor
  · intro i s
    simp only [Ekf.init4, interlace_flat]
    split_ifs <;> rfl
  · intro x0 vf s t
    simp only [Ekf.init4, flat_val, Matrix.one_apply, flat_inj]
    by_cases hst : s = t
    · subst hst
      by_cases h3 : s.1 < 3
      · have : ¬ 3 ≤ s.1 := by omega
        simp [h3]
      · have : 3 ≤ s.1 := by omega
        simp [h3, this]
    · simp [hst]

/-! ## Affine problems -/

theorem jac_affine {n m : ℕ} (M : Mat m n) (b : Vec m) (x : Vec n) : jac (fun z => M *ᵥ z + b) x = M := by
  ext i j
  have h : HasFDerivAt (fun z : Vec n => (M *ᵥ z + b) i)
      (∑ k, M i k • (ContinuousLinearMap.proj k : (Fin n → ℝ) →L[ℝ] ℝ)) x := by
    have h1 : (fun z : Vec n => (M *ᵥ z + b) i) = fun z => (∑ k, M i k • (ContinuousLinearMap.proj k : (Fin n → ℝ) →L[ℝ] ℝ)) z + b i := by
      funext z
      simp [mulVec, dotProduct]
    rw [h1]
    exact (ContinuousLinearMap.hasFDerivAt _).add_const _
  rw [jac, pd, h.fderiv]
  simp [Pi.single_apply]

theorem affine_differentiable {n m : ℕ} (M : Mat m n) (b : Vec m) : Differentiable ℝ fun z : Vec n => M *ᵥ z + b := by
  have : (fun z : Vec n => M *ᵥ z + b) = fun z => LinearMap.toContinuousLinearMap M.mulVecLin z + b := rfl
  rw [this]
  exact (ContinuousLinearMap.differentiable _).add_const _

/-- C53: for a vector field `M(t) x + b(t)`, EKF1 without noise returns after any positive number of steps a mean whose
derivative component is the vector field at its solution component, and a covariance under which the deviation of the
derivative component is `M` applied to the deviation of the solution component; in both modes, for every prior with positive
definite covariance, every number of states and every initial state. -/
theorem C53_affine {la : LinAlg} (hla : la.Correct) {dim r : ℕ} (M : ℝ → Mat dim dim) (b : ℝ → Vec dim) (h : ℝ) (N : ℕ)
    (sqrt : Bool) (p : Prior (dim * (r + 2))) (hQ : p.Q.PosDef) (init : Gauss (dim * (r + 2)))
    (hi : sqrt = false → init.cov.PosSemidef) :
    let vf : Field dim := fun x t => M t *ᵥ x + b t
    let T := ((N + 1 : ℕ) : ℝ) * h
    ∃ f, Ekf.solver la init vf h (N + 1) sqrt false (some ⟨_, p⟩) none = .ok f ∧
      stride 1 f.mean = vf (stride 0 f.mean) T ∧
      ∀ i q, covOf sqrt f (flat i 1) q = ∑ j, M T i j * covOf sqrt f (flat j 0) q := by
  intro vf T
  have hf : Ekf.FieldOk false vf := fun _ t => affine_differentiable _ _
  -- one step in covariance mode
  have hstep : ∀ x : Gauss (dim * (r + 2)), x.cov.PosSemidef →
      let f := (KF.step la (Ekf.obsFn (r := r) false vf) p.A p.Q p.xi 0 false x T).1
      stride 1 f.mean = vf (stride 0 f.mean) T ∧ ∀ i q, f.cov (flat i 1) q = ∑ j, M T i j * f.cov (flat j 0) q := by
    intro x hx f
    have hp : (KF.predict la x p.A p.Q p.xi false).cov.PosDef := PosDef.posSemidef_add (psd_mul_mul_transpose hx p.A) hQ
    set y := KF.predict la x p.A p.Q p.xi false with hy
    have hH : jac (fun z => Ekf.obsFn (r := r) false vf z y.mean T) y.mean = Ekf.E 1 - M T * Ekf.E 0 := by
      rw [Ekf.jac_ekf1 vf _ _ _ (hf rfl T _)]
      congr 2
      exact jac_affine _ _ _
    have hS := (Ekf.wellPosed hla false vf hf p.A p.Q p.xi 0 hQ PosSemidef.zero x hx [T]).1
    have hS' : ((Ekf.E 1 - M T * Ekf.E 0) * y.cov * (Ekf.E 1 - M T * Ekf.E 0)ᵀ).PosDef := by
      have : (KF.step la (Ekf.obsFn (r := r) false vf) p.A p.Q p.xi 0 false x T).2.1 =
          (Ekf.E 1 - M T * Ekf.E 0) * y.cov * (Ekf.E 1 - M T * Ekf.E 0)ᵀ + 0 := by
        rw [← hH]; rfl
      rw [this, add_zero] at hS
      exact hS
    obtain ⟨h1, h2, -⟩ := (C28_interpolates hla y.mean (Ekf.obsFn (r := r) false vf y.mean y.mean T)
      (Ekf.E 1 - M T * Ekf.E 0)).1 y.cov hp.posSemidef hS'
    have hfe : f = (KF.update la ⟨y.mean, y.cov⟩ (Ekf.obsFn (r := r) false vf y.mean y.mean T) (Ekf.E 1 - M T * Ekf.E 0) 0
        false).1 := by
      rw [← hH]; rfl
    rw [← hfe] at h1 h2
    constructor
    · simp only [Ekf.obsFn, Bool.false_eq_true, if_false, sub_mulVec, mulVec_sub, ← mulVec_mulVec, Ekf.E_mulVec, vf] at h1
      have := congrArg (fun z => z + (M T *ᵥ stride 0 f.mean + b T)) h1
      simp only [zero_add] at this
      show stride 1 f.mean = M T *ᵥ stride 0 f.mean + b T
      rw [← this]
      abel
    · intro i q
      have h3 := congrFun (congrFun h2 i) q
      rw [Matrix.sub_mul, Matrix.sub_apply, Matrix.mul_assoc, mul_apply, mul_apply, Matrix.zero_apply] at h3
      have h4 : ∀ (s : Fin (r + 2)) i, ∑ j, Ekf.E s i j * f.cov j q = f.cov (flat i s) q := by
        intro s i; simp [Ekf.E]
      rw [h4] at h3
      have h5 : ∀ j, (Ekf.E (dim := dim) (r := r) 0 * f.cov) j q = f.cov (flat j 0) q := by
        intro j; rw [mul_apply]; exact h4 0 j
      simp only [h5] at h3
      linarith
  have hts : linspace h ((N + 1 : ℕ) * h) (N + 1) = (List.range N).map (fun (k : ℕ) => ((k : ℝ) + 1) * h) ++ [T] := by
    rw [Ekf.linspace_ts, List.range_succ, List.map_append]
    simp [T]
  have hrun : ∀ x : Gauss (dim * (r + 2)), x.cov.PosSemidef →
      let f := KF.ekf la x (Ekf.obsFn (r := r) false vf) p.A p.Q p.xi 0 (linspace h ((N + 1 : ℕ) * h) (N + 1)) false
      stride 1 f.mean = vf (stride 0 f.mean) T ∧ ∀ i q, f.cov (flat i 1) q = ∑ j, M T i j * f.cov (flat j 0) q := by
    intro x hx
    rw [hts, KF.ekf_append, KF.ekf_cons, KF.ekf_nil]
    refine hstep _ ?_
    have hw := Ekf.wellPosed hla false vf hf p.A p.Q p.xi 0 hQ PosSemidef.zero x hx
      ((List.range N).map fun (k : ℕ) => ((k : ℝ) + 1) * h)
    have := C25_run hla (Ekf.obsFn false vf) p.A p.Q p.xi 0 hQ.posSemidef PosSemidef.zero x hx _ hw N
    rwa [List.take_of_length_le (by simp)] at this
  refine ⟨_, Ekf.solver_some .., ?_⟩
  cases sqrt
  · exact hrun init (hi rfl)
  · have hr := Ekf.run_represents hla false vf hf p hQ 0 0 Ekf.isFactor_zero init ⟨init.mean, init.cov * init.covᵀ⟩
      ⟨rfl, rfl⟩ (linspace h ((N + 1 : ℕ) * h) (N + 1))
    have h2 := hrun ⟨init.mean, init.cov * init.covᵀ⟩ (psd_self_mul_transpose _)
    simp only [if_true, covOf]
    rw [hr.1, show _ = _ from hr.2]
    exact h2

/-- C53 for `ekf1`, for every number of states per coordinate: what it returns comes from such a filter state. -/
theorem C53_ekf1 {la : LinAlg} (hla : la.Correct) {dim : ℕ} (hd : 0 < dim) (M : ℝ → Mat dim dim) (b : ℝ → Vec dim) (h : ℝ) (N : ℕ)
    (sqrt : Bool) (x0 : Vec dim) :
    let vf : Field dim := fun x t => M t *ᵥ x + b t
    let T := ((N + 1 : ℕ) : ℝ) * h
    let Consistent {r : ℕ} (f : Gauss (dim * (r + 2))) : Prop := stride 1 f.mean = vf (stride 0 f.mean) T ∧
      ∀ i q, covOf sqrt f (flat i 1) q = ∑ j, M T i j * covOf sqrt f (flat j 0) q
    (∀ p : Prior (dim * (0 + 2)), p.Q.PosDef → ∃ f, Consistent f ∧
      Ekf.solver la (Ekf.init2 x0 vf) vf h (N + 1) sqrt false (some ⟨_, p⟩) none = .ok f ∧
      ∀ rng key, Ekf.ekf1 la rng key x0 vf h (N + 1) sqrt (some ⟨_, p⟩) none = .ok (Ekf.finish la rng key sqrt f)) ∧
    (∀ p : Prior (dim * (1 + 2)), p.Q.PosDef → ∃ f, Consistent f ∧
      Ekf.solver la (Ekf.init3 x0 vf) vf h (N + 1) sqrt false (some ⟨_, p⟩) none = .ok f ∧
      ∀ rng key, Ekf.ekf1 la rng key x0 vf h (N + 1) sqrt (some ⟨_, p⟩) none = .ok (Ekf.finish la rng key sqrt f)) ∧
    (∀ (r : ℕ) (p : Prior (dim * ((r + 2) + 2))), p.Q.PosDef → ∃ f, Consistent f ∧
      Ekf.solver la (Ekf.init4 (r := r) x0 vf) vf h (N + 1) sqrt false (some ⟨_, p⟩) none = .ok f ∧
      ∀ rng key, Ekf.ekf1 la rng key x0 vf h (N + 1) sqrt (some ⟨_, p⟩) none = .ok (Ekf.finish la rng key sqrt f)) := by
  intro vf T Consistent
  refine ⟨fun p hQ => ?_, fun p hQ => ?_, fun r p hQ => ?_⟩
  · obtain ⟨f, h1, h2⟩ := C53_affine hla M b h N sqrt p hQ (Ekf.init2 x0 vf) fun _ => PosSemidef.zero
    exact ⟨f, h2, h1, fun rng key => by rw [Ekf.ekf1_two la rng key hd, h1]; rfl⟩
  · obtain ⟨f, h1, h2⟩ := C53_affine hla M b h N sqrt p hQ (Ekf.init3 x0 vf) fun _ => PosSemidef.zero
    exact ⟨f, h2, h1, fun rng key => by rw [Ekf.ekf1_three la rng key hd, h1]; rfl⟩
  · obtain ⟨f, h1, h2⟩ := C53_affine hla M b h N sqrt p hQ (Ekf.init4 x0 vf) fun _ => init4_psd x0 vf
    exact ⟨f, h2, h1, fun rng key => by rw [Ekf.ekf1_many la rng key hd, h1]; rfl⟩

/-! ## The hypotheses can be met -/

/-- An ideal generator exists (C47), and positive definite priors of every size do (C47, C53). -/
example : ∃ (Ω : Type) (_ : MeasurableSpace Ω) (P : Measure Ω) (R : Ω → Rng), IdealNormals P R :=
  ⟨_, _, _, _, idealNormals_drawsRng⟩

example (dim r : ℕ) : ∃ p : Prior (dim * (r + 2)), p.Q.PosDef :=
  ⟨IOUP.transition 0 2 (r + 1) 1 dim, Ekf.ibm_Q_posDef two_ne_zero _ one_pos _⟩

/-- The initial value of C49 may be degenerate. -/
example (dim : ℕ) : (0 : Mat dim dim).PosSemidef := PosSemidef.zero

/-- Calls to which C50 applies: the default prior, and one with three times its scale, with and without noise. -/
example (dim : ℕ) : (IOUP.transition 0 1 1 2 dim).Q.PosDef ∧ (IOUP.transition 0 3 1 2 dim).Q.PosDef :=
  ⟨Ekf.ibm_Q_posDef one_ne_zero _ two_pos _, Ekf.ibm_Q_posDef three_ne_zero _ two_pos _⟩

/-- A field to which C53 applies, whose matrix depends on time. -/
example : ∃ M : ℝ → Mat 2 2, M 0 ≠ M 1 := ⟨fun t => t • 1, fun h => by simpa using congrFun (congrFun h 0) 0⟩

end Verif
