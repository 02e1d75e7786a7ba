import Verif.Props.RosEkf
import Verif.Props.EkfRun
import Verif.Props.Ito
import Verif.Lemmas.Triangular
import Verif.Lemmas.Gaussian
import Verif.Model.Scripts
import Verif.Model.Ivp
import Verif.Spec.Posterior

/-!
# Properties C88, C89: the posterior covariances of Algorithm 3 and the draws from them
-/

namespace Verif

open Matrix Spec Jnp MeasureTheory ProbabilityTheory

/-! ## C88 -/

theorem strideMat_eq {dim r : ℕ} (C : Mat (dim * (r + 2)) (dim * (r + 2))) :
    strideMat 0 0 C = (Ekf.E 0 : Mat dim (dim * (r + 2))) * C * (Ekf.E 0 : Mat dim (dim * (r + 2)))ᵀ := by
  ext i j
  have h1 : ∀ q, ((Ekf.E 0 : Mat dim (dim * (r + 2))) * C) i q = C (flat i 0) q := fun q => by
    rw [mul_apply, sum_flat]
    simp only [Ekf.E_flat]
    rw [Finset.sum_eq_single i (by intro b _ hb; simp [hb]) (by simp),
      Finset.sum_eq_single 0 (by intro b _ hb; simp [hb]) (by simp)]
    simp
  rw [mul_apply, sum_flat]
  simp only [h1, transpose_apply, Ekf.E_flat]
  rw [Finset.sum_eq_single j (by intro b _ hb; simp [hb]) (by simp),
    Finset.sum_eq_single 0 (by intro b _ hb; simp [hb]) (by simp)]
  simp [strideMat]

/-- The solution block of the covariance after one filter step is positive definite. -/
theorem step_sol_posDef {la : LinAlg} (hla : la.Correct) {dim r : ℕ} (EKF0 : Bool) (vf : Field dim) (hf : Ekf.FieldOk EKF0 vf)
    (A Q : Mat (dim * (r + 2)) (dim * (r + 2))) (xi : Vec (dim * (r + 2))) (R : Mat dim dim) (hQ : Q.PosDef)
    (hR : R.PosSemidef) (x : Gauss (dim * (r + 2))) (hP : x.cov.PosSemidef) (t : ℝ) :
    let g := (KF.step la (Ekf.obsFn (r := r) EKF0 vf) A Q xi R false x t).1
    g.cov.PosSemidef ∧ (strideMat 0 0 g.cov).PosDef := by
  intro g
  set p := KF.predict la x A Q xi false with hp0
  set H := jac (fun z => Ekf.obsFn (r := r) EKF0 vf z p.mean t) p.mean with hH
  have hp : p.cov.PosDef := PosDef.posSemidef_add (psd_mul_mul_transpose hP A) hQ
  have hS : (innovCov p.cov H R).PosDef := Ekf.innov_posDef hp hR fun y hy => Ekf.obs_rank EKF0 vf hf _ t y hy
  have hg : g.cov = postCov p.cov H R := by
    have := KF.update_cov_eq hla p (Ekf.obsFn (r := r) EKF0 vf p.mean p.mean t) H R (pd_symm hp) hS
    exact congrArg (fun u => u.1.cov) this
  have hpsd : g.cov.PosSemidef := by rw [hg]; exact KF.postCov_psd hp.posSemidef hR hS
  refine ⟨hpsd, ?_⟩
  set K := gain p.cov H R
  rw [strideMat_eq, hg, KF.postCov_joseph (pd_symm hp) hS, Matrix.mul_add, Matrix.add_mul]
  refine PosDef.add_posSemidef ?_ (psd_mul_mul_transpose (psd_mul_mul_transpose hR _) _)
  have e : (Ekf.E 0 : Mat dim (dim * (r + 2))) * ((1 - K * H) * p.cov * (1 - K * H)ᵀ) * (Ekf.E 0 : Mat dim (dim * (r + 2)))ᵀ =
      innovCov p.cov ((Ekf.E 0 : Mat dim (dim * (r + 2))) * (1 - K * H)) 0 := by
    rw [innovCov, transpose_mul, add_zero]
    simp only [Matrix.mul_assoc]
  rw [e]
  refine Ekf.innov_posDef hp PosSemidef.zero fun y hy => ?_
  rw [transpose_mul, transpose_sub, transpose_one, transpose_mul, Matrix.sub_mul, Matrix.one_mul, Matrix.sub_mulVec, sub_eq_zero,
    Matrix.mul_assoc, ← mulVec_mulVec] at hy
  set u := (Kᵀ * (Ekf.E 0 : Mat dim (dim * (r + 2)))ᵀ) *ᵥ y with hu
  have hEy : ∀ i s, ((Ekf.E 0 : Mat dim (dim * (r + 2)))ᵀ *ᵥ y) (flat i s) = if s = 0 then y i else 0 := fun i s => by
    simp only [mulVec, dotProduct, transpose_apply, Ekf.E_flat]
    by_cases h : s = 0 <;> simp [h]
  have hH1 : ∀ i, (Hᵀ *ᵥ u) (flat i 1) = u i := fun i => by
    rw [hH]
    cases EKF0
    · rw [Ekf.jac_ekf1 vf p.mean p.mean t (hf rfl t _)]
      simp [mulVec, dotProduct, Ekf.E_flat, mul_apply, sub_mul, Finset.sum_sub_distrib]
    · rw [Ekf.jac_ekf0]
      simp [mulVec, dotProduct, Ekf.E_flat]
  have hu0 : u = 0 := funext fun i => by
    rw [← hH1 i, ← hy, hEy]
    simp
  funext i
  have := congrFun hy (flat i 0)
  rw [hEy, hu0, mulVec_zero] at this
  simpa using this

theorem run_sol_posDef {la : LinAlg} (hla : la.Correct) {dim r : ℕ} (EKF0 : Bool) (vf : Field dim) (hf : Ekf.FieldOk EKF0 vf)
    (A Q : Mat (dim * (r + 2)) (dim * (r + 2))) (xi : Vec (dim * (r + 2))) (R : Mat dim dim) (hQ : Q.PosDef)
    (hR : R.PosSemidef) (ts : List ℝ) (hts : ts ≠ []) (x : Gauss (dim * (r + 2))) (hP : x.cov.PosSemidef) :
    (strideMat 0 0 (KF.ekf la x (Ekf.obsFn (r := r) EKF0 vf) A Q xi R ts false).cov).PosDef := by
  induction ts generalizing x with
  | nil => exact (hts rfl).elim
  | cons t ts ih =>
    have h := step_sol_posDef hla EKF0 vf hf A Q xi R hQ hR x hP t
    rw [KF.ekf_cons]
    cases ts with
    | nil => rw [KF.ekf_nil]; exact h.2
    | cons t' ts' => exact ih (by simp) _ h.1

theorem ekf2_posDef {la : LinAlg} (hla : la.Correct) (rng : Rng) (EKF0 : Bool) (key : Option Key) {dim : ℕ} (vf : Field dim)
    (hf : Ekf.FieldOk EKF0 vf) (x : Ekf.State3 dim) (hP : x.2.2.PosSemidef) (h : ℝ) {M : ℕ} (hM : 0 < M) (sqrt : Bool)
    (p : Prior (dim * (0 + 2))) (hQ : p.Q.PosDef) :
    ∃ y, Ekf.ekf2 la rng EKF0 key x vf h M sqrt (some ⟨_, p⟩) none = .ok y ∧ y.2.2.PosDef := by
  rw [Ekf.ekf2_eq, Ekf.solver_some]
  refine ⟨_, rfl, ?_⟩
  have hts : linspace h (M * h) M ≠ [] := by
    rw [Ekf.linspace_ts]
    simpa using hM.ne'
  have hv := run_sol_posDef hla EKF0 vf hf p.A p.Q p.xi 0 hQ PosSemidef.zero (linspace h (M * h) M) hts
    (Ekf.init32 la EKF0 x.2.1 x.2.2 vf false) (Ekf.init32_psd la EKF0 x.2.1 hP vf)
  cases sqrt
  · exact hv
  · have hr := Ekf.run_represents hla EKF0 vf hf p hQ 0 0 Ekf.isFactor_zero (Ekf.init32 la EKF0 x.2.1 x.2.2 vf true)
      (Ekf.init32 la EKF0 x.2.1 x.2.2 vf false) (Ekf.init32_represents hla EKF0 x.2.1 hP vf) (linspace h (M * h) M)
    rw [← hr.2] at hv
    exact hv

theorem fieldOk_interval {C : Type} {d m : ℕ} {EKF0 : Bool} {drift : Field d} {sigma : Diffusion d m}
    (hdrift : EKF0 = false → ∀ t, Differentiable ℝ fun x => drift x t)
    (hsigma : EKF0 = false → ∀ t, Differentiable ℝ fun x => sigma x t) (bm : BmApprox C m) (δ : ℝ) (c : C) (t0 : ℝ) :
    Ekf.FieldOk EKF0 (intervalField drift sigma bm δ c t0) := fun h t => by
  refine (hdrift h (t + t0)).add ?_
  refine differentiable_pi.mpr fun i => ?_
  have : ∀ j, Differentiable ℝ fun z => sigma z (t + t0) i j := fun j =>
    differentiable_pi.mp (differentiable_pi.mp (hsigma h (t + t0)) i) j
  simp only [mulVec, dotProduct]
  exact Differentiable.fun_sum fun j _ => (this j).mul_const (jacT (fun t => bm.eval t δ c) t j)

/-- C88: along a run of `sde_solver` with Algorithm 3 (EKF0 or EKF1, any prior of two states with positive definite noise
covariance, both modes), the posterior covariance at every grid point after the first is positive definite, even when the
initial value is certain. -/
theorem C88_posDef {la : LinAlg} (hla : la.Correct) (rng rs : Rng) (key : Key) {C : Type} {d m : ℕ} (EKF0 : Bool)
    (drift : Field d) (sigma : Diffusion d m) (hdrift : EKF0 = false → ∀ t, Differentiable ℝ fun x => drift x t)
    (hsigma : EKF0 = false → ∀ t, Differentiable ℝ fun x => sigma x t) (bm : BmApprox C m) (x0 : Ekf.State3 d)
    (hP : x0.2.2.PosSemidef) (δ : ℝ) (N M : ℕ) (hM : 0 < M) (p : Prior (d * (0 + 2))) (hQ : p.Q.PosDef) (sqrt : Bool)
    (useKey : Key → Option Key) (odeInt : OdeInt (Ekf.State3 d) d)
    (hode : ∀ k x vf, Ekf.ekf2 la rs EKF0 (useKey k) x vf (δ / M) M sqrt (some ⟨_, p⟩) none = .ok (odeInt k x vf δ)) :
    let out := sdeSolver rng key drift sigma x0 bm δ N odeInt
    ∀ k < N, ∃ y, out.2.1[k + 1]? = some y ∧ y.2.2.PosDef := by
  intro out
  have main : ∀ k ≤ N, ∃ y, out.2.1[k]? = some y ∧ y.2.2.PosSemidef ∧ (0 < k → y.2.2.PosDef) := by
    intro k
    induction k with
    | zero =>
      intro _
      have h1 := (C02_trajectory_shape rng key drift sigma x0 bm δ N odeInt).2.1
      rw [List.head?_eq_getElem?] at h1
      exact ⟨x0, h1, hP, fun h => absurd h (lt_irrefl 0)⟩
    | succ k ih =>
      intro hk
      obtain ⟨y, h1, h2, -⟩ := ih (by omega)
      obtain ⟨x, c, g1, -, -, g4⟩ := sdeSolver_interval rng key drift sigma x0 bm δ N odeInt k hk
      obtain rfl := Option.some.inj (h1.symm.trans g1)
      obtain ⟨z, e1, e2⟩ := ekf2_posDef hla rs EKF0 (useKey ((key.child N k).child 2 1))
        (intervalField drift sigma bm δ c (k * δ)) (fieldOk_interval hdrift hsigma bm δ c _) y h2 (δ / M) hM sqrt p hQ
      rw [hode] at e1
      exact ⟨z, by rw [g4, Except.ok.inj e1], e2.posSemidef, fun _ => e2⟩
  intro k hk
  obtain ⟨y, h1, -, h3⟩ := main (k + 1) hk
  exact ⟨y, h1, h3 (by omega)⟩

/-- C88: the initial value may be certain, and an integrator as in the theorem exists. -/
example (la : LinAlg) (rng : Rng) (d M : ℕ) (δ : ℝ) (p : Prior (d * (0 + 2))) :
    (0 : Mat d d).PosSemidef ∧ ∃ odeInt : OdeInt (Ekf.State3 d) d, ∀ k x vf,
      Ekf.ekf2 la rng false (some k) x vf (δ / M) M true (some ⟨_, p⟩) none = .ok (odeInt k x vf δ) := by
  have : ∀ (k : Key) x vf, ∃ y, Ekf.ekf2 (dim := d) la rng false (some k) x vf (δ / M) M true (some ⟨_, p⟩) none = .ok y := by
    intro k x vf
    rw [Ekf.ekf2_eq, Ekf.solver_some]
    exact ⟨_, rfl⟩
  choose f hf using this
  exact ⟨PosSemidef.zero, fun k x vf _ => f k x vf, fun k x vf => hf k x vf⟩

/-! ## C89 -/

/-- The block diagonal matrix of the script. -/
def stackVar {n dim : ℕ} (vars : Fin n → Mat dim dim) : Mat (n * dim) (n * dim) :=
  fun p q => if q.divNat = p.divNat then vars q.divNat p.modNat q.modNat else 0

theorem stackVar_flat {n dim : ℕ} (vars : Fin n → Mat dim dim) (i j : Fin n) (s t : Fin dim) :
    stackVar vars (flat i s) (flat j t) = if j = i then vars j s t else 0 := by simp [stackVar]

theorem stackVar_posDef {n dim : ℕ} {vars : Fin n → Mat dim dim} (h : ∀ i, (vars i).PosDef) : (stackVar vars).PosDef := by
  refine pd_of ?_ fun x hx => ?_
  · ext p q
    rw [← flat_div_mod p, ← flat_div_mod q, transpose_apply, stackVar_flat, stackVar_flat]
    by_cases e : p.divNat = q.divNat
    · rw [e]
      simp only [if_true]
      exact congrFun (congrFun (pd_symm (h q.divNat)) _) _
    · rw [if_neg e, if_neg (Ne.symm e)]
  · have e : x ⬝ᵥ stackVar vars *ᵥ x = ∑ i, (fun s => x (flat i s)) ⬝ᵥ vars i *ᵥ (fun s => x (flat i s)) := by
      simp only [dotProduct, mulVec]
      rw [sum_flat]
      refine Finset.sum_congr rfl fun i _ => Finset.sum_congr rfl fun s _ => ?_
      rw [sum_flat]
      rw [Finset.sum_eq_single i (fun j _ hj => by simp [stackVar_flat, hj]) (by simp)]
      simp [stackVar_flat]
    rw [e]
    obtain ⟨p, hp⟩ : ∃ p, x p ≠ 0 := by
      by_contra hc
      push Not at hc
      exact hx (funext hc)
    refine Finset.sum_pos' (fun i _ => ?_) ⟨p.divNat, Finset.mem_univ _, ?_⟩
    · by_cases h0 : (fun s => x (flat i s)) = 0
      · rw [h0]; simp
      · exact (pd_pos (h i) h0).le
    · refine pd_pos (h p.divNat) fun h0 => hp ?_
      have := congrFun h0 p.modNat
      simpa [flat_div_mod] using this

/-- The draws have covariance `Lᵀ L`, where `L Lᵀ` is the covariance asked for. -/
theorem posteriorSample_law {Ω : Type*} [MeasurableSpace Ω] {P : Measure Ω} {R : Ω → Rng} (hR : IdealNormals P R) (la : LinAlg)
    {n dim : ℕ} (means : Fin n → Vec dim) (vars : Fin n → Mat dim dim) (hs : (stackVar vars)ᵀ = stackVar vars) (key : Key) :
    IsNormal P (fun ω (p : Fin n × Fin dim) => Scripts.posteriorSample la (R ω) means vars key p.1 p.2)
      (fun p => means p.1 p.2)
      (Matrix.of fun p q => ((la.cholesky (stackVar vars))ᵀ * la.cholesky (stackVar vars)) (flat p.1 p.2) (flat q.1 q.2)) := by
  set L := la.cholesky (stackVar vars) with hL
  have hi := hR.indep_single key [n * dim]
  have hi' : iIndepFun (fun (i : Fin (n * dim)) ω => (R ω).normalVec key (n * dim) i) P :=
    hi.precomp (g := fun i : Fin (n * dim) => (⟨i.1, by simpa using i.2⟩ : Fin [n * dim].prod))
      (fun a b hab => by simpa [Fin.ext_iff] using hab)
  have h := isNormal_linear (P := P) (fun i : Fin (n * dim) => hR.law key [n * dim] i (by simpa using i.2)) hi'
    (fun p : Fin n × Fin dim => means p.1 p.2) (Matrix.of fun p q => Lᵀ (flat p.1 p.2) q)
  refine (congrArg₂ (fun X C => IsNormal P X _ C) ?_ ?_).mp h
  · funext ω p
    have hv : (fun p q => if q.divNat = p.divNat then vars q.divNat p.modNat q.modNat else 0 : Mat (n * dim) (n * dim)) =
      stackVar vars := rfl
    simp only [Scripts.posteriorSample, Scripts.scipyCholesky, hv, hs, Pi.add_apply]
    have e : (finProdFinEquiv (p.1, p.2) : Fin (n * dim)) = flat p.1 p.2 := rfl
    rw [e, divNat_flat, modNat_flat]
    rfl
  · ext p q
    simp [mul_apply]

/-- C89: the draws of `pathwise_sampling_from_posterior.py` have the law they are meant to have, independent normal vectors
with the given means and covariances, exactly when every covariance is diagonal. -/
theorem C89_iff {Ω : Type*} [MeasurableSpace Ω] {P : Measure Ω} {R : Ω → Rng} (hR : IdealNormals P R) {la : LinAlg}
    (hla : la.Correct) {n dim : ℕ} (means : Fin n → Vec dim) (vars : Fin n → Mat dim dim) (hV : ∀ i, (vars i).PosDef) (key : Key) :
    IsNormal P (fun ω (p : Fin n × Fin dim) => Scripts.posteriorSample la (R ω) means vars key p.1 p.2)
      (fun p => means p.1 p.2) (independentBlocks vars) ↔ ∀ i s t, s ≠ t → vars i s t = 0 := by
  have hpd := stackVar_posDef hV
  have hlaw := posteriorSample_law hR la means vars (pd_symm hpd) key
  set L := la.cholesky (stackVar vars) with hL
  have hlow := hla.chol_lower _ hpd
  have hmul := hla.chol_mul _ hpd
  rw [← hL] at hlow hmul
  have hb : ∀ p q : Fin n × Fin dim, independentBlocks vars p q = stackVar vars (flat p.1 p.2) (flat q.1 q.2) := fun p q => by
    rw [stackVar_flat, independentBlocks]
    by_cases h : p.1 = q.1
    · rw [h, if_pos rfl]
    · rw [if_neg h, if_neg (Ne.symm h)]
  constructor
  · intro h i s t hst
    have hn : Lᵀ * L = L * Lᵀ := by
      rw [hmul]
      ext p q
      have h1 := (h.cov (p.divNat, p.modNat) (q.divNat, q.modNat)).symm.trans (hlaw.cov _ _)
      rw [hb] at h1
      simpa [flat_div_mod] using h1.symm
    have hd := hlow.diag_of_normal hn
    have h2 : stackVar vars (flat i s) (flat i t) = 0 := by
      rw [← hmul, mul_apply]
      refine Finset.sum_eq_zero fun p _ => ?_
      by_cases h0 : flat i s = p
      · rw [transpose_apply, hd (flat i t) p (fun h3 => hst ((flat_inj.mp (h0.trans h3.symm)).2)), mul_zero]
      · rw [hd _ _ h0, zero_mul]
    simpa [stackVar_flat] using h2
  · intro h
    have hd := hlow.diag_of_gram hmul (fun p q hpq => by
      rw [← flat_div_mod p, ← flat_div_mod q, stackVar_flat]
      by_cases h0 : q.divNat = p.divNat
      · rw [if_pos h0]
        refine h _ _ _ fun h1 => hpq ?_
        rw [← flat_div_mod p, ← flat_div_mod q, h0, h1]
      · rw [if_neg h0]) (fun p => hpd.diag_pos.ne')
    have hsym : Lᵀ = L := by
      ext p q
      by_cases hpq : p = q
      · rw [hpq, transpose_apply]
      · rw [transpose_apply, hd p q hpq, hd q p (Ne.symm hpq)]
    have : (Matrix.of fun p q => (Lᵀ * L) (flat p.1 p.2) (flat q.1 q.2) : Matrix (Fin n × Fin dim) (Fin n × Fin dim) ℝ) =
        independentBlocks vars := by
      ext p q
      rw [hb, ← hmul, hsym]
      rfl
    rwa [this] at hlaw

/-- The Jacobian of the FitzHugh-Nagumo drift. -/
theorem fhn_jac (x : Vec 2) (t : ℝ) (u : Vec 2) : jac (fun z => Ivp.Fhn.drift z t + u) x = !![10 * (1 - 3 * x 0 ^ 2), -10; 1.5, -1] := by
  have h0 : ∀ z : Vec 2, (Ivp.Fhn.drift z t + u) 0 = 10 * z 0 - 10 * z 1 - 10 * z 0 ^ 3 + u 0 := fun z => by
    simp [Ivp.Fhn.drift, Ivp.Fhn.eps, Ivp.Fhn.s, Ivp.Fhn.gamma, mulVec, dotProduct, Fin.sum_univ_two]
    ring
  have h1 : ∀ z : Vec 2, (Ivp.Fhn.drift z t + u) 1 = 1.5 * z 0 - z 1 + Ivp.Fhn.alpha + u 1 := fun z => by
    simp [Ivp.Fhn.drift, Ivp.Fhn.eps, Ivp.Fhn.s, Ivp.Fhn.gamma, mulVec, dotProduct, Fin.sum_univ_two]
    ring
  have p0 : HasFDerivAt (fun z : Vec 2 => z 0) (ContinuousLinearMap.proj 0 : Vec 2 →L[ℝ] ℝ) x := hasFDerivAt_apply 0 x
  have p1 : HasFDerivAt (fun z : Vec 2 => z 1) (ContinuousLinearMap.proj 1 : Vec 2 →L[ℝ] ℝ) x := hasFDerivAt_apply 1 x
  have d0 := (((p0.const_mul 10).fun_sub (p1.const_mul 10)).fun_sub ((p0.pow 3).const_mul 10)).add_const (u 0)
  have d1 := (((p0.const_mul 1.5).fun_sub p1).add_const Ivp.Fhn.alpha).add_const (u 1)
  ext i j
  simp only [jac, pd]
  fin_cases i
  · have : (fun z : Vec 2 => (Ivp.Fhn.drift z t + u) 0) = fun z => 10 * z 0 - 10 * z 1 - 10 * z 0 ^ 3 + u 0 := funext h0
    show fderiv ℝ (fun z : Vec 2 => (Ivp.Fhn.drift z t + u) 0) x (Pi.single j 1) = _
    rw [this, d0.fderiv]
    fin_cases j
    · simp
      ring
    · simp
  · have : (fun z : Vec 2 => (Ivp.Fhn.drift z t + u) 1) = fun z => 1.5 * z 0 - z 1 + Ivp.Fhn.alpha + u 1 := funext h1
    show fderiv ℝ (fun z : Vec 2 => (Ivp.Fhn.drift z t + u) 1) x (Pi.single j 1) = _
    rw [this, d1.fderiv]
    fin_cases j <;> simp

/-- C89: for the FitzHugh-Nagumo model, the step `1/9`, one EKF1 step per interval and the certain initial value of the script, the
draws do not have the law they are meant to have, on every path. -/
theorem C89_fails {Ω : Type*} [MeasurableSpace Ω] {P : Measure Ω} {R : Ω → Rng} (hR : IdealNormals P R) {la : LinAlg}
    (hla : la.Correct) (rng rs : Rng) (key key' : Key) {C : Type} (bm : BmApprox C 1) {N : ℕ} (hN : 0 < N) (sqrt : Bool)
    (useKey : Key → Option Key) (odeInt : OdeInt (Ekf.State3 2) 2)
    (hode : ∀ k x vf, Ekf.ekf2 la rs false (useKey k) x vf (1 / 9) 1 sqrt (some ⟨_, IOUP.transition 0 1 1 (1 / 9) 2⟩) none =
      .ok (odeInt k x vf (1 / 9))) (means : Fin N → Vec 2) (vars : Fin N → Mat 2 2)
    (hout : ∀ k : Fin N, ∃ s, (sdeSolver rng key (toStratonovich Ivp.Fhn.drift Ivp.Fhn.sigma).1
      (toStratonovich Ivp.Fhn.drift Ivp.Fhn.sigma).2 (Ivp.Fhn.x0, Ivp.Fhn.x0, 0) bm (1 / 9) N odeInt).2.1[k.1 + 1]? =
        some (s, means k, vars k)) :
    ¬ IsNormal P (fun ω (p : Fin N × Fin 2) => Scripts.posteriorSample la (R ω) means vars key' p.1 p.2)
      (fun p => means p.1 p.2) (independentBlocks vars) := by
  intro hn
  have hst : toStratonovich Ivp.Fhn.drift Ivp.Fhn.sigma = (Ivp.Fhn.drift, Ivp.Fhn.sigma) :=
    Prod.ext (C10_additive_noise Ivp.Fhn.drift (fun _ => !![0; Ivp.Fhn.sig])).2 rfl
  rw [hst] at hout
  have hdrift : ∀ t, Differentiable ℝ fun x => Ivp.Fhn.drift x t := fun t => by
    refine differentiable_pi.mpr fun i => ?_
    fin_cases i <;> simp [Ivp.Fhn.drift, vecHead, vecTail] <;> fun_prop
  have hsig : ∀ t, Differentiable ℝ fun x => Ivp.Fhn.sigma x t := fun t => differentiable_const _
  have hQ := Ekf.ibm_Q_posDef one_ne_zero 1 (show (0 : ℝ) < 1 / 9 by norm_num) 2
  have hpd : ∀ k, (vars k).PosDef := fun k => by
    obtain ⟨y, h1, h2⟩ := C88_posDef hla rng rs key false Ivp.Fhn.drift Ivp.Fhn.sigma (fun _ => hdrift) (fun _ => hsig) bm
      (Ivp.Fhn.x0, Ivp.Fhn.x0, 0) PosSemidef.zero (1 / 9) N 1 one_pos (IOUP.transition 0 1 1 (1 / 9) 2) hQ sqrt useKey odeInt
      (by simpa using hode) k k.2
    obtain ⟨s, h3⟩ := hout k
    rw [h3, Option.some.injEq] at h1
    rw [← h1] at h2
    exact h2
  have hdiag := (C89_iff hR hla means vars hpd key').mp hn ⟨0, hN⟩ 0 1 (by decide)
  obtain ⟨x, c, g1, -, -, g4⟩ := sdeSolver_interval rng key Ivp.Fhn.drift Ivp.Fhn.sigma (Ivp.Fhn.x0, Ivp.Fhn.x0, 0) bm (1 / 9)
    N odeInt 0 hN
  have g0 := (C02_trajectory_shape rng key Ivp.Fhn.drift Ivp.Fhn.sigma (Ivp.Fhn.x0, Ivp.Fhn.x0, 0) bm (1 / 9) N odeInt).2.1
  rw [List.head?_eq_getElem?] at g0
  obtain rfl := Option.some.inj (g0.symm.trans g1)
  set vf := intervalField Ivp.Fhn.drift Ivp.Fhn.sigma bm (1 / 9) c (((0 : ℕ) : ℝ) * (1 / 9)) with hvf
  obtain ⟨s', e1⟩ := C86_alg3 hla rs (useKey ((key.child N 0).child 2 1)) vf
    (fieldOk_interval (EKF0 := false) (fun _ => hdrift) (fun _ => hsig) bm (1 / 9) c _ rfl) one_ne_zero
    (show (0 : ℝ) < 1 / 9 by norm_num) Ivp.Fhn.x0 Ivp.Fhn.x0 sqrt
  rw [hode] at e1
  obtain ⟨s, h3⟩ := hout ⟨0, hN⟩
  rw [g4, Except.ok.inj e1, Option.some.injEq] at h3
  have hv : vars ⟨0, hN⟩ = _ := (congrArg (fun q => q.2.2) h3).symm
  set y := Ivp.Fhn.x0 + (1 / 9 : ℝ) • vf Ivp.Fhn.x0 0
  have hJ : jac (fun x => vf x (1 / 9)) y = !![10 * (1 - 3 * y 0 ^ 2), -10; 1.5, -1] :=
    fhn_jac y (1 / 9 + ((0 : ℕ) : ℝ) * (1 / 9)) (!![0; Ivp.Fhn.sig] *ᵥ jacT (fun t => bm.eval t (1 / 9) c) (1 / 9))
  simp only [hJ] at hv
  set W := rosW (1 / 9) (!![10 * (1 - 3 * y 0 ^ 2), -10; 1.5, -1] : Mat 2 2) with hW
  have hWW : W * W⁻¹ = 1 := mul_nonsing_inv _ (pd_isUnit_det (rosW_posDef (by norm_num) _))
  rw [hv, Matrix.smul_apply, smul_eq_mul, mul_eq_zero] at hdiag
  have h01 : W⁻¹ 0 1 = 0 := hdiag.resolve_left (by norm_num)
  have q0 := congrFun (congrFun hWW 0) 1
  have q1 := congrFun (congrFun hWW 1) 1
  simp only [mul_apply, Fin.sum_univ_two, h01, mul_zero, zero_add] at q0 q1
  have hW01 : W 0 1 = 53 / 972 + 100 / 81 * y 0 ^ 2 := by
    rw [hW, rosW]
    simp [mul_apply, Fin.sum_univ_two]
    ring
  rcases mul_eq_zero.mp (q0.trans (by simp)) with h | h
  · rw [hW01] at h
    nlinarith [sq_nonneg (y 0)]
  · rw [h, mul_zero] at q1
    simp at q1

/-- C89: for EKF0, in every problem and for every step, number of filter steps and prior scale, the draws have the law they
are meant to have. -/
theorem C89_partial {Ω : Type*} [MeasurableSpace Ω] {P : Measure Ω} {R : Ω → Rng} (hR : IdealNormals P R) {la : LinAlg}
    (hla : la.Correct) (rng rs : Rng) (key key' : Key) {C : Type} {d m : ℕ} (hd : 0 < d) (drift : Field d) (sigma : Diffusion d m)
    (bm : BmApprox C m) (x0 : Vec d) {δ : ℝ} (hδ : 0 < δ) {N M : ℕ} (hM : 0 < M) {σ : ℝ} (hσ : σ ≠ 0) (sqrt : Bool)
    (useKey : Key → Option Key) (odeInt : OdeInt (Ekf.State3 d) d)
    (hode : ∀ k x vf, Ekf.ekf2 la rs true (useKey k) x vf (δ / M) M sqrt (some ⟨_, IOUP.transition 0 σ 1 (δ / M) d⟩) none =
      .ok (odeInt k x vf δ)) (means : Fin N → Vec d) (vars : Fin N → Mat d d)
    (hout : ∀ k : Fin N, ∃ s, (sdeSolver rng key drift sigma (x0, x0, 0) bm δ N odeInt).2.1[k.1 + 1]? =
      some (s, means k, vars k)) :
    IsNormal P (fun ω (p : Fin N × Fin d) => Scripts.posteriorSample la (R ω) means vars key' p.1 p.2)
      (fun p => means p.1 p.2) (independentBlocks vars) := by
  have hM' : (0 : ℝ) < M := by exact_mod_cast hM
  have hv : ∀ k, vars k = (σ ^ 2 * ((k.1 + 1 : ℕ) * δ) * (δ / M) ^ 2 / 12) • 1 := fun k => by
    have h1 := (C81_alg3_run hla rng rs rs key hd drift sigma bm (x0, x0, 0) PosSemidef.zero hδ N M hM hσ sqrt false useKey
      odeInt (fun _ x vf _ => (trapScheme vf (δ / M) x M).1) hode
      (fun k x vf => C43_trapezoidal hla rs hd vf hσ (div_pos hδ hM') x M false)).2 (k.1 + 1) (by omega)
    obtain ⟨s, h2⟩ := hout k
    rw [h2] at h1
    simpa using h1
  refine (C89_iff hR hla means vars (fun k => ?_) key').mpr fun k s t hst => ?_
  · rw [hv k]
    exact PosDef.one.smul (by positivity)
  · rw [hv k, Matrix.smul_apply, Matrix.one_apply_ne hst, smul_zero]

/-- C89: every run provides means and covariances as in the theorems, and there are positive definite covariances of both
kinds. -/
example {C : Type} {d m : ℕ} (rng : Rng) (key : Key) (drift : Field d) (sigma : Diffusion d m) (bm : BmApprox C m)
    (x0 : Ekf.State3 d) (δ : ℝ) (N : ℕ) (odeInt : OdeInt (Ekf.State3 d) d) :
    (∃ (means : Fin N → Vec d) (vars : Fin N → Mat d d), ∀ k : Fin N, ∃ s,
      (sdeSolver rng key drift sigma x0 bm δ N odeInt).2.1[k.1 + 1]? = some (s, means k, vars k)) ∧
    (!![2, 1; 1, 2] : Mat 2 2).PosDef ∧ (!![2, 0; 0, 1] : Mat 2 2).PosDef := by
  refine ⟨?_, ?_, ?_⟩
  · have h : ∀ k : Fin N, ∃ y, (sdeSolver rng key drift sigma x0 bm δ N odeInt).2.1[k.1 + 1]? = some y := fun k => by
      have := (C02_trajectory_shape rng key drift sigma x0 bm δ N odeInt).1
      exact ⟨_, List.getElem?_eq_getElem (by rw [this]; omega)⟩
    choose y hy using h
    exact ⟨fun k => (y k).2.1, fun k => (y k).2.2, fun k => ⟨(y k).1, hy k⟩⟩
  · refine pd_of (by ext i j; fin_cases i <;> fin_cases j <;> rfl) fun x hx => ?_
    have h : x 0 ≠ 0 ∨ x 1 ≠ 0 := by
      by_contra hc
      push Not at hc
      exact hx (funext fun i => by fin_cases i <;> simp [hc])
    simp [dotProduct, mulVec, Fin.sum_univ_two]
    rcases h with h | h
    · nlinarith [sq_pos_of_ne_zero h, sq_nonneg (x 0 + x 1), sq_nonneg (x 1)]
    · nlinarith [sq_pos_of_ne_zero h, sq_nonneg (x 0 + x 1), sq_nonneg (x 0)]
  · refine pd_of (by ext i j; fin_cases i <;> fin_cases j <;> rfl) fun x hx => ?_
    have h : x 0 ≠ 0 ∨ x 1 ≠ 0 := by
      by_contra hc
      push Not at hc
      exact hx (funext fun i => by fin_cases i <;> simp [hc])
    simp [dotProduct, mulVec, Fin.sum_univ_two]
    rcases h with h | h
    · nlinarith [sq_pos_of_ne_zero h, sq_nonneg (x 1)]
    · nlinarith [sq_pos_of_ne_zero h, sq_nonneg (x 0)]

end Verif
