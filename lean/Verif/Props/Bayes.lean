import Verif.Lemmas.Bayes
import Verif.Props.EkfWrappers
import Mathlib.Probability.Independence.InfinitePi

/-!
# Property C95: on affine problems the filters compute the exact posterior
-/

namespace Verif

open Matrix Spec Jnp MeasureTheory ProbabilityTheory WithLp

/-! ## The recursion of the filter -/

/-- One step for an affine observation. -/
theorem step_affine {la : LinAlg} (hla : la.Correct) {nx ny : ℕ} (obs : ObsFn nx ny) (A Q : Mat nx nx) (xi : Vec nx)
    (R : Mat ny ny) (x : Gauss nx) (t : ℝ) (H : Mat ny nx) (c : Vec ny) (hobs : ∀ z w, obs z w t = H *ᵥ z + c)
    (hP : x.cov.PosSemidef) (hQ : Q.PosSemidef) :
    (KF.step la obs A Q xi R false x t).2.1 = innovCov (predCov A Q x.cov) H R ∧
    ((innovCov (predCov A Q x.cov) H R).PosDef →
      (KF.step la obs A Q xi R false x t).1 =
        ⟨postMean (A *ᵥ x.mean + xi) (predCov A Q x.cov) (H *ᵥ (A *ᵥ x.mean + xi) + c) H R, postCov (predCov A Q x.cov) H R⟩) := by
  have hp : KF.predict la x A Q xi false = ⟨A *ᵥ x.mean + xi, predCov A Q x.cov⟩ := rfl
  have hs : KF.step la obs A Q xi R false x t =
      ((KF.update la ⟨A *ᵥ x.mean + xi, predCov A Q x.cov⟩ (H *ᵥ (A *ᵥ x.mean + xi) + c) H R false).1,
        (KF.update la ⟨A *ᵥ x.mean + xi, predCov A Q x.cov⟩ (H *ᵥ (A *ᵥ x.mean + xi) + c) H R false).2,
        H *ᵥ (A *ᵥ x.mean + xi) + c) := by
    simp only [KF.step, hp, hobs, jac_affine]
  refine ⟨?_, fun hS => ?_⟩
  · rw [hs]
    simp only [KF.update, Bool.false_eq_true, if_false, innovCov]
  · have hu := KF.update_cov_eq hla ⟨A *ᵥ x.mean + xi, predCov A Q x.cov⟩ (H *ᵥ (A *ᵥ x.mean + xi) + c) H R
      (psd_symm ((psd_mul_mul_transpose hP A).add hQ)) hS
    rw [hs, hu]

/-- A run for affine observations is the recursion of `mns` and `ric`. -/
theorem ekf_affine {la : LinAlg} (hla : la.Correct) {nx ny : ℕ} (obs : ObsFn nx ny) (A Q : Mat nx nx) (xi : Vec nx)
    (R : Mat ny ny) (x : Gauss nx) (ts : ℕ → ℝ) (H : ℕ → Mat ny nx) (c : ℕ → Vec ny)
    (hobs : ∀ k z w, obs z w (ts k) = H k *ᵥ z + c k) (hP : x.cov.PosSemidef) (hQ : Q.PosSemidef) (hR : R.PosSemidef) (N : ℕ)
    (hw : WellPosed la obs A Q xi R x ((List.range N).map ts)) :
    (∀ k < N, (innovCov (predCov A Q (ric x.cov A Q H R k)) (H k) R).PosDef) ∧
    KF.ekf la x obs A Q xi R ((List.range N).map ts) false =
      ⟨mns x.mean x.cov A Q xi H c R 0 N, ric x.cov A Q H R N⟩ ∧ (ric x.cov A Q H R N).PosSemidef := by
  induction N with
  | zero => exact ⟨fun k hk => absurd hk (Nat.not_lt_zero k), rfl, hP⟩
  | succ N ih =>
    have hr : (List.range (N + 1)).map ts = (List.range N).map ts ++ [ts N] := by
      rw [List.range_succ, List.map_append]; rfl
    have hw' : WellPosed la obs A Q xi R x ((List.range N).map ts) := by
      have := hw.take N
      rwa [hr, List.take_left' (by simp)] at this
    obtain ⟨h1, h2, h3⟩ := ih hw'
    have hwl : (KF.step la obs A Q xi R false (KF.ekf la x obs A Q xi R ((List.range N).map ts) false) (ts N)).2.1.PosDef := by
      rw [hr] at hw
      generalize (List.range N).map ts = us at hw
      clear h1 h2 h3 ih hw' hr hP
      induction us generalizing x with
      | nil => exact hw.1
      | cons t us ih => rw [KF.ekf_cons]; exact ih _ hw.2
    rw [h2] at hwl
    obtain ⟨g1, g2⟩ := step_affine hla obs A Q xi R ⟨mns x.mean x.cov A Q xi H c R 0 N, ric x.cov A Q H R N⟩ (ts N) (H N) (c N)
      (hobs N) h3 hQ
    rw [g1] at hwl
    refine ⟨fun k hk => ?_, ?_, ?_⟩
    · rcases Nat.lt_succ_iff_lt_or_eq.mp hk with h | rfl
      · exact h1 k h
      · exact hwl
    · rw [hr, KF.ekf_append, KF.ekf_cons, KF.ekf_nil, h2, g2 hwl]
      simp only [mns, ric, Pi.zero_apply, sub_zero]
    · exact KF.postCov_psd ((psd_mul_mul_transpose h3 A).add hQ) hR hwl

/-- The means depend on the data in an affine way. -/
theorem mns_affine {nx ny : ℕ} (m : Vec nx) (P A Q : Mat nx nx) (xi : Vec nx) (H : ℕ → Mat ny nx) (c : ℕ → Vec ny) (R : Mat ny ny)
    (N : ℕ) : ∃ B : (Fin N → Vec ny) →ₗ[ℝ] Vec nx, ∀ y, mns m P A Q xi H c R (ext0 y) N = mns m P A Q xi H c R 0 N + B y := by
  have key : ∀ k, ∃ B : (ℕ → Vec ny) →ₗ[ℝ] Vec nx, ∀ y, mns m P A Q xi H c R y k = mns m P A Q xi H c R 0 k + B y := by
    intro k
    induction k with
    | zero => exact ⟨0, fun y => by simp [mns]⟩
    | succ k ih =>
      obtain ⟨B, hB⟩ := ih
      set K := gain (predCov A Q (ric P A Q H R k)) (H k) R with hK
      refine ⟨A.mulVecLin ∘ₗ B - K.mulVecLin ∘ₗ ((H k).mulVecLin ∘ₗ A.mulVecLin ∘ₗ B - LinearMap.proj k), fun y => ?_⟩
      simp only [mns, postMean, ← hK, hB y, LinearMap.sub_apply, LinearMap.comp_apply, mulVecLin_apply, LinearMap.proj_apply,
        Pi.zero_apply, mulVec_add, mulVec_sub, mulVec_zero, sub_zero]
      abel
  obtain ⟨B, hB⟩ := key N
  let e : (Fin N → Vec ny) →ₗ[ℝ] (ℕ → Vec ny) :=
    { toFun := ext0
      map_add' := fun a b => by funext j; by_cases h : j < N <;> simp [ext0, h]
      map_smul' := fun a b => by funext j; by_cases h : j < N <;> simp [ext0, h] }
  exact ⟨B ∘ₗ e, fun y => hB (ext0 y)⟩

/-- `N(m, C)` is the posterior of `X` given that the observations `Y` are zero: the law of `X` given `Y = y` is normal with mean
`m + B y` for a linear `B` and covariance `C`; equivalently `X - m - B Y` is independent of `Y` and normal with that
covariance. -/
def IsPosterior {Ω : Type*} [MeasurableSpace Ω] (μ : Measure Ω) [IsFiniteMeasure μ] {nx : ℕ} {E : Type*} [AddCommGroup E] [Module ℝ E]
    [MeasurableSpace E] (X : Ω → Vec nx) (Y : Ω → E) (m : Vec nx) (C : Mat nx nx) : Prop :=
  ∃ B : E →ₗ[ℝ] Vec nx,
    IndepFun Y (fun ω => X ω - (m + B (Y ω))) μ ∧ IsNormal μ (fun ω => X ω - (m + B (Y ω))) 0 C ∧
    ∃ κ : Kernel E (EuclideanSpace ℝ (Fin nx)),
      (∀ y, κ y = multivariateGaussian (toLp 2 (m + B y)) C) ∧ condDistrib (fun ω => toLp 2 (X ω)) Y μ =ᵐ[μ.map Y] κ

/-- The conditional law follows from the independence. -/
theorem IsPosterior.of_split {Ω : Type*} [MeasurableSpace Ω] {μ : Measure Ω} [IsFiniteMeasure μ] {nx : ℕ} {E : Type*}
    [NormedAddCommGroup E] [NormedSpace ℝ E] [FiniteDimensional ℝ E] [MeasurableSpace E] [BorelSpace E] {X : Ω → Vec nx} {Y : Ω → E}
    {m : Vec nx} {C : Mat nx nx} (hY : AEMeasurable Y μ) (B : E →ₗ[ℝ] Vec nx) (h1 : IndepFun Y (fun ω => X ω - (m + B (Y ω))) μ)
    (h2 : IsNormal μ (fun ω => X ω - (m + B (Y ω))) 0 C) : IsPosterior μ X Y m C := by
  have := h2.isProb
  refine ⟨B, h1, h2, ?_⟩
  have hBc : Continuous B := B.continuous_of_finiteDimensional
  obtain ⟨κ, hκ, hcd⟩ := exists_condDistrib_of_indep (β := EuclideanSpace ℝ (Fin nx)) (Y := Y)
    (Z := fun ω => toLp 2 (X ω - (m + B (Y ω)))) hY h2.hasLaw.aemeasurable
    (h1.comp (φ := id) measurable_id (by fun_prop : Measurable (toLp 2 : Vec nx → _)))
    (fun p => toLp 2 (m + B p.1) + p.2) (by
      have h3 : Continuous fun y : E => (toLp 2 (m + B y) : EuclideanSpace ℝ (Fin nx)) := by fun_prop
      exact (h3.measurable.comp measurable_fst).add measurable_snd)
  refine ⟨κ, fun y => ?_, ?_⟩
  · rw [hκ, h2.hasLaw.map_eq]
    simp only
    rw [multivariateGaussian_map_add _ _ _ h2.posSemidef, add_zero]
  · have hX : (fun ω => toLp 2 (X ω)) = fun ω => toLp 2 (m + B (Y ω)) + toLp 2 (X ω - (m + B (Y ω))) := by
      funext ω
      rw [← WithLp.toLp_add]
      congr 1
      abel
    rw [hX]
    exact hcd

/-- C95: for observation functions affine in the state, the filter returns the conditional law of the state of the
Gauss-Markov chain after `N` steps, given that all `N` noisy observations are zero. -/
theorem C95_filter {la : LinAlg} (hla : la.Correct) {Ω : Type*} [MeasurableSpace Ω] {μ : Measure Ω} [IsFiniteMeasure μ] {nx ny : ℕ}
    (obs : ObsFn nx ny) (A Q : Mat nx nx) (xi : Vec nx) (R : Mat ny ny) (x : Gauss nx) (ts : ℕ → ℝ) (H : ℕ → Mat ny nx)
    (c : ℕ → Vec ny) (hobs : ∀ k z w, obs z w (ts k) = H k *ᵥ z + c k) {X : ℕ → Ω → Vec nx} {Y : ℕ → Ω → Vec ny}
    {ε : ℕ → Ω → Vec nx} {V : ℕ → Ω → Vec ny} (hm : LinearModel μ X Y x.mean x.cov A Q xi H c R ε V) (N : ℕ)
    (hw : WellPosed la obs A Q xi R x ((List.range N).map ts)) :
    let f := KF.ekf la x obs A Q xi R ((List.range N).map ts) false
    IsPosterior μ (X N) (fun ω (j : Fin N) => Y j ω) f.mean f.cov := by
  intro f
  have := hm.init.isProb
  obtain ⟨hS, hf, -⟩ := ekf_affine hla obs A Q xi R x ts H c hobs hm.init.posSemidef (hm.stateNoise 0).posSemidef
    (hm.obsNoise 0).posSemidef N hw
  obtain ⟨B, hB⟩ := mns_affine x.mean x.cov A Q xi H c R N
  obtain ⟨h1, h2⟩ := hm.split N hS
  have e : ∀ ω, mns x.mean x.cov A Q xi H c R (fun j => Y j ω) N = f.mean + B fun j : Fin N => Y j ω := by
    intro ω
    rw [← mns_ext0, hB, show f = _ from hf]
  simp only [e] at h1 h2
  have hc : f.cov = ric x.cov A Q H R N := by rw [show f = _ from hf]
  rw [← hc] at h2
  exact .of_split (aemeasurable_pi_lambda _ fun j => hm.aemeas_obs j) B h1 h2

/-! ## The filtering solvers -/

theorem Spec.IsNormal.zero {Ω : Type*} [MeasurableSpace Ω] {μ : Measure Ω} {n : ℕ} {X : Ω → Vec n} {m : Vec n} {C : Mat n n}
    (h : IsNormal μ X m C) (k : ℕ) : IsNormal μ (fun _ => (0 : Vec k)) 0 0 := by
  have := h.affine (0 : Vec k) (0 : Mat k n)
  simpa using this

/-- Exact linear observations of a Gauss-Markov chain. -/
theorem Spec.GaussMarkov.linearModel {Ω : Type*} [MeasurableSpace Ω] {μ : Measure Ω} {nx ny : ℕ} {X : ℕ → Ω → Vec nx} {m : Vec nx}
    {P A Q : Mat nx nx} {xi : Vec nx} {ε : ℕ → Ω → Vec nx} (h : GaussMarkov μ X m P A Q xi ε) (H : ℕ → Mat ny nx)
    (c : ℕ → Vec ny) :
    LinearModel μ X (fun k ω => H k *ᵥ X (k + 1) ω + c k) m P A Q xi H c 0 ε (fun _ _ => 0) where
  init := h.init
  stateNoise := h.noise
  obsNoise := fun k => h.init.zero ny
  trans := h.trans
  obs := fun k ω => (add_zero _).symm
  indep_noises := fun k => by have := h.init.isProb; exact indepFun_const_right _ _
  indep_past := fun k => by
    have hψ : Measurable fun e : Vec nx => (e, (0 : Vec ny)) := measurable_id.prodMk measurable_const
    have h1 := (h.indep k).comp (φ := fun x : Fin (k + 1) → Vec nx => (x (Fin.last k),
        fun j : Fin k => H j *ᵥ x j.succ + c j)) (ψ := fun e => (e, (0 : Vec ny))) (by
      refine (measurable_pi_apply (X := fun _ => Vec nx) (Fin.last k)).prodMk (measurable_pi_lambda _ fun j => ?_)
      have hH : Measurable fun v : Vec nx => H j *ᵥ v := (by fun_prop : Continuous fun v : Vec nx => H j *ᵥ v).measurable
      exact (hH.comp (measurable_pi_apply (X := fun _ => Vec nx) j.succ)).add_const _) hψ
    exact h1

/-- C95: for a vector field `M(t) x + b(t)`, EKF1 returns the exact posterior of the solution under its Gauss-Markov prior: the
conditional law of the state after `N` steps, given that the derivative equals the vector field at all `N` grid points. In
both modes, for every prior with positive definite covariance, number of states and initial state. -/
theorem C95_ekf1 {la : LinAlg} (hla : la.Correct) {Ω : Type*} [MeasurableSpace Ω] {μ : Measure Ω} [IsFiniteMeasure μ] {dim r : ℕ}
    (M : ℝ → Mat dim dim) (b : ℝ → Vec dim) (h : ℝ) (N : ℕ) (sqrt : Bool) (p : Prior (dim * (r + 2))) (hQ : p.Q.PosDef)
    (init : Gauss (dim * (r + 2))) {X : ℕ → Ω → Vec (dim * (r + 2))} {ε : ℕ → Ω → Vec (dim * (r + 2))}
    (hX : GaussMarkov μ X init.mean (covOf sqrt init) p.A p.Q p.xi ε) :
    let vf : Field dim := fun x t => M t *ᵥ x + b t
    ∃ f, Ekf.solver la init vf h N sqrt false (some ⟨_, p⟩) none = .ok f ∧
      IsPosterior μ (X N) (fun ω (k : Fin N) => stride 1 (X (k + 1) ω) - vf (stride 0 (X (k + 1) ω)) ((k + 1 : ℕ) * h))
        f.mean (covOf sqrt f) := by
  intro vf
  have hf : Ekf.FieldOk false vf := fun _ t => affine_differentiable _ _
  refine ⟨_, Ekf.solver_some .., ?_⟩
  have hts : linspace h (N * h) N = (List.range N).map fun k : ℕ => ((k + 1 : ℕ) : ℝ) * h := by
    rw [Ekf.linspace_ts]; push_cast; rfl
  have main : ∀ x : Gauss (dim * (r + 2)), GaussMarkov μ X x.mean x.cov p.A p.Q p.xi ε →
      let f := KF.ekf la x (Ekf.obsFn (r := r) false vf) p.A p.Q p.xi 0 (linspace h (N * h) N) false
      IsPosterior μ (X N) (fun ω (k : Fin N) => stride 1 (X (k + 1) ω) - vf (stride 0 (X (k + 1) ω)) ((k + 1 : ℕ) * h))
        f.mean f.cov := by
    intro x hx
    have hobs : ∀ (k : ℕ) z w, Ekf.obsFn (r := r) false vf z w (((k + 1 : ℕ) : ℝ) * h) =
        (Ekf.E 1 - M (((k + 1 : ℕ) : ℝ) * h) * Ekf.E 0) *ᵥ z + -b (((k + 1 : ℕ) : ℝ) * h) := by
      intro k z w
      simp only [Ekf.obsFn, Bool.false_eq_true, if_false, vf, sub_mulVec, ← mulVec_mulVec, Ekf.E_mulVec]
      abel
    have hw := Ekf.wellPosed hla false vf hf p.A p.Q p.xi 0 hQ PosSemidef.zero x hx.init.posSemidef
      ((List.range N).map fun k : ℕ => ((k + 1 : ℕ) : ℝ) * h)
    have := C95_filter hla (Ekf.obsFn (r := r) false vf) p.A p.Q p.xi 0 x (fun k : ℕ => ((k + 1 : ℕ) : ℝ) * h) _ _ hobs
      (hx.linearModel _ _) N hw
    rw [hts]
    simpa only [← hobs _ _ 0, Ekf.obsFn, Bool.false_eq_true, if_false] using this
  cases sqrt
  · exact main init hX
  · have hr := Ekf.run_represents hla false vf hf p hQ 0 0 Ekf.isFactor_zero init ⟨init.mean, init.cov * init.covᵀ⟩
      ⟨rfl, rfl⟩ (linspace h (N * h) N)
    have h2 := main ⟨init.mean, init.cov * init.covᵀ⟩ hX
    simp only [if_true, covOf]
    rw [hr.1, show _ = _ from hr.2]
    exact h2

/-- C95 for a vector field that does not depend on the state, for which EKF0 returns the exact posterior too. -/
theorem C95_ekf0 {la : LinAlg} (hla : la.Correct) {Ω : Type*} [MeasurableSpace Ω] {μ : Measure Ω} [IsFiniteMeasure μ] {dim r : ℕ}
    (b : ℝ → Vec dim) (h : ℝ) (N : ℕ) (sqrt : Bool) (p : Prior (dim * (r + 2))) (hQ : p.Q.PosDef)
    (init : Gauss (dim * (r + 2))) {X : ℕ → Ω → Vec (dim * (r + 2))} {ε : ℕ → Ω → Vec (dim * (r + 2))}
    (hX : GaussMarkov μ X init.mean (covOf sqrt init) p.A p.Q p.xi ε) :
    ∃ f, Ekf.solver la init (fun _ t => b t) h N sqrt true (some ⟨_, p⟩) none = .ok f ∧
      IsPosterior μ (X N) (fun ω (k : Fin N) => stride 1 (X (k + 1) ω) - b ((k + 1 : ℕ) * h)) f.mean (covOf sqrt f) := by
  obtain ⟨f, h1, h2⟩ := C95_ekf1 hla (fun _ => (0 : Mat dim dim)) b h N sqrt p hQ init hX
  simp only [zero_mulVec, zero_add] at h1 h2
  refine ⟨f, ?_, h2⟩
  rw [← h1, Ekf.solver_some, Ekf.solver_some]
  congr 2

/-! ## The hypotheses can be met -/

/-- The states driven by a sequence of noises. -/
def chain {n : ℕ} (A : Mat n n) (xi : Vec n) (w : ℕ → Vec n) : ℕ → Vec n
  | 0 => w 0
  | k + 1 => A *ᵥ chain A xi w k + xi + w (k + 1)

theorem chain_congr {n : ℕ} (A : Mat n n) (xi : Vec n) {v w : ℕ → Vec n} (k : ℕ) (h : ∀ j ≤ k, v j = w j) :
    chain A xi v k = chain A xi w k := by
  induction k with
  | zero => exact h 0 le_rfl
  | succ k ih => rw [chain, chain, ih fun j hj => h j (hj.trans (Nat.le_succ k)), h (k + 1) le_rfl]

theorem continuous_chain {n : ℕ} (A : Mat n n) (xi : Vec n) (k : ℕ) : Continuous fun w : ℕ → Vec n => chain A xi w k := by
  induction k with
  | zero => exact continuous_apply 0
  | succ k ih => exact ((Continuous.matrix_mulVec continuous_const ih).add continuous_const).add (continuous_apply (k + 1))

/-- Gauss-Markov chains as in C95 exist for every prior with positive semi-definite covariances. -/
theorem exists_gaussMarkov {n : ℕ} (m : Vec n) (P A Q : Mat n n) (xi : Vec n) (hP : P.PosSemidef) (hQ : Q.PosSemidef) :
    ∃ (μ : Measure (ℕ → EuclideanSpace ℝ (Fin n))) (X ε : ℕ → (ℕ → EuclideanSpace ℝ (Fin n)) → Vec n),
      GaussMarkov μ X m P A Q xi ε := by
  let ν : ℕ → Measure (EuclideanSpace ℝ (Fin n)) := fun k => if k = 0 then multivariateGaussian (toLp 2 m) P else
    multivariateGaussian (toLp 2 0) Q
  have hν : ∀ k, IsProbabilityMeasure (ν k) := fun k => by simp only [ν]; split_ifs <;> infer_instance
  have hlaw : ∀ k, HasLaw (fun ω : ℕ → EuclideanSpace ℝ (Fin n) => ω k) (ν k) (Measure.infinitePi ν) := fun k =>
    ⟨(measurable_pi_apply k).aemeasurable, (measurePreserving_eval_infinitePi ν k).map_eq⟩
  have hind : iIndepFun (fun k (ω : ℕ → EuclideanSpace ℝ (Fin n)) => ofLp (ω k)) (Measure.infinitePi ν) :=
    iIndepFun_infinitePi (P := ν) (X := fun _ z => ofLp z) fun k => by fun_prop
  refine ⟨Measure.infinitePi ν, fun k ω => chain A xi (fun j => ofLp (ω j)) k, fun k ω => ofLp (ω (k + 1)), ?_, ?_, fun k ω => rfl, ?_⟩
  · exact ⟨hP, by simpa [ν, chain] using hlaw 0⟩
  · exact fun k => ⟨hQ, by simpa [ν] using hlaw (k + 1)⟩
  · intro k
    have h1 := hind.indepFun_finset (Finset.range (k + 1)) {k + 1} (by simp) (fun j => by fun_prop)
    let E : (Finset.range (k + 1) → Vec n) → ℕ → Vec n := fun w j => if h : j ∈ Finset.range (k + 1) then w ⟨j, h⟩ else 0
    have hE : Continuous E := by
      refine continuous_pi fun j => ?_
      by_cases h : j ∈ Finset.range (k + 1)
      · simp only [E, h, dif_pos]; exact continuous_apply _
      · simp only [E, h, dif_neg, not_false_eq_true]; exact continuous_const
    have hψ : Measurable fun w : ({k + 1} : Finset ℕ) → Vec n => w ⟨k + 1, Finset.mem_singleton_self _⟩ := measurable_pi_apply _
    have h2 := h1.comp (φ := fun w (j : Fin (k + 1)) => chain A xi (E w) j)
      (ψ := fun w => w ⟨k + 1, Finset.mem_singleton_self _⟩)
      (continuous_pi fun j : Fin (k + 1) => (continuous_chain A xi j.1).comp hE).measurable hψ
    have e : (fun (ω : ℕ → EuclideanSpace ℝ (Fin n)) (j : Fin (k + 1)) => chain A xi (fun i => ofLp (ω i)) j) =
        (fun w (j : Fin (k + 1)) => chain A xi (E w) j) ∘ fun ω (i : Finset.range (k + 1)) => ofLp (ω i) := by
      funext ω j
      refine chain_congr A xi j.1 fun i hi => ?_
      have : i ∈ Finset.range (k + 1) := Finset.mem_range.2 (lt_of_le_of_lt hi j.2)
      simp only [E, dif_pos this]
    rw [e]
    exact h2

/-- The prior of the solvers with two states per coordinate in dimension two, started from an exact initial value. -/
example (x0 : Vec 2) (vf : Field 2) : ∃ (μ : Measure (ℕ → EuclideanSpace ℝ (Fin (2 * (0 + 2))))) (X ε : _),
    GaussMarkov μ X (Ekf.init2 x0 vf).mean (covOf false (Ekf.init2 x0 vf)) (IOUP.transition 0 1 1 (1 / 10) 2).A
      (IOUP.transition 0 1 1 (1 / 10) 2).Q (IOUP.transition 0 1 1 (1 / 10) 2).xi ε :=
  exists_gaussMarkov _ _ _ _ _ PosSemidef.zero (Ekf.ibm_Q_posDef one_ne_zero _ (by norm_num) _).posSemidef

end Verif
