import Verif.Props.EkfSde
import Verif.Props.EkfWrappers
import Verif.Lemmas.Foster
import Verif.Props.Foster
import Mathlib.LinearAlgebra.Matrix.Kronecker

/-!
# Properties C81, C82: whole runs of `sde_solver` with the EKF0 solvers of Algorithms 3 and 2
-/

namespace Verif

open Matrix Spec Jnp MeasureTheory ProbabilityTheory Foster

/-! ## C81 -/

/-- C81: along a run of `sde_solver` with the EKF0 solver of Algorithm 3, the means are the states of the run with the EKF0 solver
of Algorithm 2 without sampling, started at the initial mean and driven by the same generator and key; the
covariance at grid point `k` is the initial one plus `σ² k δ (δ/M)² / 12` times the identity, whatever the problem and
the path. -/
theorem C81_alg3_run {la : LinAlg} (hla : la.Correct) (rng rs rs' : Rng) (key : Key) {C : Type} {d m : ℕ} (hd : 0 < d)
    (drift : Field d) (sigma : Diffusion d m) (bm : BmApprox C m) (x0 : Ekf.State3 d) (hP : x0.2.2.PosSemidef) {δ : ℝ}
    (hδ : 0 < δ) (N M : ℕ) (hM : 0 < M) {σ : ℝ} (hσ : σ ≠ 0) (sqrt sqrt' : Bool) (useKey : Key → Option Key)
    (odeInt : OdeInt (Ekf.State3 d) d) (odeInt' : OdeInt (Vec d) d)
    (hode : ∀ k x vf, Ekf.ekf2 la rs true (useKey k) x vf (δ / M) M sqrt (some ⟨_, IOUP.transition 0 σ 1 (δ / M) d⟩) none =
      .ok (odeInt k x vf δ))
    (hode' : ∀ k x vf, Ekf.ekf0 la rs' none x vf (δ / M) M sqrt' (some ⟨_, IOUP.transition 0 σ 1 (δ / M) d⟩) none =
      .ok (odeInt' k x vf δ)) :
    let out := sdeSolver rng key drift sigma x0 bm δ N odeInt
    let out' := sdeSolver rng key drift sigma x0.2.1 bm δ N odeInt'
    out.2.1.map (·.2.1) = out'.2.1 ∧
    ∀ k ≤ N, (out.2.1[k]?).map (·.2.2) = some (x0.2.2 + (σ ^ 2 * (k * δ) * (δ / M) ^ 2 / 12) • 1) := by
  intro out out'
  have hM' : (0 : ℝ) < M := by exact_mod_cast hM
  have hh : 0 < δ / M := by positivity
  have hlen := C02_trajectory_shape rng key drift sigma x0 bm δ N odeInt
  have hlen' := C02_trajectory_shape rng key drift sigma x0.2.1 bm δ N odeInt'
  have main : ∀ k ≤ N, ∃ s y, out.2.1[k]? = some (s, y, x0.2.2 + (σ ^ 2 * (k * δ) * (δ / M) ^ 2 / 12) • 1) ∧
      out'.2.1[k]? = some y := by
    intro k hk
    induction k with
    | zero =>
      have h1 := hlen.2.1
      have h2 := hlen'.2.1
      rw [List.head?_eq_getElem?] at h1 h2
      exact ⟨x0.1, x0.2.1, by rw [h1]; simp, h2⟩
    | succ k ih =>
      obtain ⟨s, y, i1, i2⟩ := ih (by omega)
      obtain ⟨x, c, h1, -, h3, h4⟩ := sdeSolver_interval rng key drift sigma x0 bm δ N odeInt k (by omega)
      obtain ⟨x', c', h1', -, h3', h4'⟩ := sdeSolver_interval rng key drift sigma x0.2.1 bm δ N odeInt' k (by omega)
      obtain rfl := Option.some.inj (h1.symm.trans i1)
      obtain rfl := Option.some.inj (h1'.symm.trans i2)
      obtain rfl : c = c' := h3.trans h3'.symm
      have hpsd : (x0.2.2 + (σ ^ 2 * (k * δ) * (δ / M) ^ 2 / 12) • (1 : Mat d d)).PosSemidef :=
        hP.add (PosSemidef.one.smul (by positivity))
      obtain ⟨s', e1⟩ := C44_alg3 hla rs (intervalField drift sigma bm δ c ((k : ℝ) * δ)) hσ hh
        (s, x', x0.2.2 + (σ ^ 2 * (k * δ) * (δ / M) ^ 2 / 12) • (1 : Mat d d)) hpsd M sqrt (useKey ((key.child N k).child 2 1))
      have e2 := C43_trapezoidal hla rs' hd (intervalField drift sigma bm δ c ((k : ℝ) * δ)) hσ hh x' M sqrt'
      rw [hode] at e1
      rw [hode' ((key.child N k).child 2 1)] at e2
      refine ⟨s', _, ?_, h4'⟩
      rw [h4, Except.ok.inj e1, Except.ok.inj e2]
      simp only
      rw [add_assoc, ← add_smul]
      congr 5
      push_cast
      field_simp
  refine ⟨List.ext_getElem? fun k => ?_, fun k hk => ?_⟩
  · rw [List.getElem?_map]
    by_cases hk : k ≤ N
    · obtain ⟨s, y, h1, h2⟩ := main k hk
      rw [h1, h2]
      rfl
    · rw [List.getElem?_eq_none (by rw [hlen.1]; omega), List.getElem?_eq_none (by rw [hlen'.1]; omega)]
      rfl
  · obtain ⟨s, y, h1, -⟩ := main k hk
    rw [h1]
    rfl

/-- C81: integrators as in the theorem exist. -/
example {la : LinAlg} (hla : la.Correct) (rng : Rng) (d M : ℕ) (hd : 0 < d) (hM : 0 < M) (δ : ℝ) (hδ : 0 < δ) :
    ∃ (odeInt : OdeInt (Ekf.State3 d) d) (odeInt' : OdeInt (Vec d) d),
    (∀ k x vf, Ekf.ekf2 la rng true (some k) x vf (δ / M) M true (some ⟨_, IOUP.transition 0 1 1 (δ / M) d⟩) none =
      .ok (odeInt k x vf δ)) ∧
    (∀ k x vf, Ekf.ekf0 la rng none x vf (δ / M) M false (some ⟨_, IOUP.transition 0 1 1 (δ / M) d⟩) none =
      .ok (odeInt' k x vf δ)) := by
  have : ∀ (k : Key) x vf, ∃ y,
      Ekf.ekf2 (dim := d) la rng true (some k) x vf (δ / M) M true (some ⟨_, IOUP.transition 0 1 1 (δ / M) d⟩) none = .ok y := by
    intro k x vf
    rw [Ekf.ekf2_eq, Ekf.solver_some]
    exact ⟨_, rfl⟩
  choose f hf using this
  exact ⟨fun k x vf _ => f k x vf, fun _ x vf _ => (trapScheme vf (δ / M) x M).1, fun k x vf => hf k x vf,
    fun k x vf => C43_trapezoidal hla rng hd vf one_ne_zero (div_pos hδ (by exact_mod_cast hM)) x M false⟩

/-! ## C82 -/

/-- The covariance (factor) of EKF0 does not depend on the vector field nor on the mean. -/
theorem ekf0_cov_congr (la : LinAlg) {dim r : ℕ} (vf vf' : Field dim) (A Q : Mat (dim * (r + 2)) (dim * (r + 2)))
    (xi : Vec (dim * (r + 2))) (Rn : Mat dim dim) (sqrt : Bool) (ts : List ℝ) (x x' : Gauss (dim * (r + 2)))
    (h : x.cov = x'.cov) :
    (KF.ekf la x (Ekf.obsFn true vf) A Q xi Rn ts sqrt).cov = (KF.ekf la x' (Ekf.obsFn true vf') A Q xi Rn ts sqrt).cov := by
  induction ts generalizing x x' with
  | nil => simpa [KF.ekf_nil] using h
  | cons t ts ih =>
    rw [KF.ekf_cons, KF.ekf_cons]
    refine ih _ _ ?_
    have hp : (KF.predict la x A Q xi sqrt).cov = (KF.predict la x' A Q xi sqrt).cov := by
      cases sqrt <;> simp [KF.predict, h]
    simp only [KF.step, Ekf.jac_ekf0]
    cases sqrt
    · simp [KF.update, hp]
    · simp only [KF.update, hp]
      rfl

/-- A matrix that turns standard normals into the noise EKF0 adds in one interval. -/
theorem ekf0_noise {la : LinAlg} (hla : la.Correct) {d : ℕ} (hd : 0 < d) {σ h : ℝ} (hσ : σ ≠ 0) (hh : 0 < h) (M : ℕ) (sqrt : Bool) :
    ∃ T : Mat d (d * (0 + 2)), T * Tᵀ = (σ ^ 2 * M * h ^ 3 / 12) • 1 ∧ ∀ (rng : Rng) (k : Key) (x : Vec d) (vf : Field d),
      Ekf.ekf0 la rng (some k) x vf h M sqrt (some ⟨_, IOUP.transition 0 σ 1 h d⟩) none =
        .ok ((trapScheme vf h x M).1 + T *ᵥ rng.normalVec k (d * (0 + 2))) := by
  obtain ⟨f0, hf0, -, hc0⟩ := solver_ibm1 hla (fun _ _ => (0 : Vec d)) hσ hh PosSemidef.zero 0 M sqrt 0
    (by cases sqrt <;> simp [covOf, Ekf.solX_zero])
  have hpsd : sqrt = false → f0.cov.PosSemidef := by
    rintro rfl
    obtain ⟨f, h1, h2⟩ := solver_psd hla true (fun _ _ => (0 : Vec d)) (fun h => by cases h) h M (IOUP.transition 0 σ 1 h d)
      (Ekf.ibm_Q_posDef hσ 1 hh d) ⟨interlace ![0, 0], 0⟩ PosSemidef.zero
    have e : Ekf.solver la ⟨interlace ![(0 : Vec d), 0], 0⟩ (fun _ _ => (0 : Vec d)) h M false true
      (some ⟨_, IOUP.transition 0 σ 1 h d⟩) none = .ok f0 := hf0
    rw [e] at h1
    rw [Except.ok.inj h1]
    exact h2
  set S := (if sqrt then f0.cov else la.sqrtm f0.cov) with hS
  have hC : S * Sᵀ = covOf sqrt f0 := by
    cases sqrt
    · exact hla.sqrtm_mul_transpose (hpsd rfl)
    · rfl
  refine ⟨(Ekf.E 0 : Mat d (d * (0 + 2))) * S * la.cholesky (1 : Mat (d * (0 + 2)) (d * (0 + 2))), ?_, fun rng k x vf => ?_⟩
  · have h1 : (Ekf.E 0 : Mat d (d * (0 + 2))) * S * la.cholesky (1 : Mat (d * (0 + 2)) (d * (0 + 2))) * ((Ekf.E 0 : Mat d (d * (0 + 2))) * S * la.cholesky (1 : Mat (d * (0 + 2)) (d * (0 + 2))))ᵀ =
        (Ekf.E 0 : Mat d (d * (0 + 2))) * (S * Sᵀ) * (Ekf.E 0 : Mat d (d * (0 + 2)))ᵀ := by
      rw [transpose_mul, transpose_mul]
      have h2 := hla.chol_mul (1 : Mat (d * (0 + 2)) (d * (0 + 2))) PosDef.one
      calc _ = (Ekf.E 0 : Mat d (d * (0 + 2))) * S * (la.cholesky (1 : Mat (d * (0 + 2)) (d * (0 + 2))) * (la.cholesky (1 : Mat (d * (0 + 2)) (d * (0 + 2))))ᵀ) * (Sᵀ * (Ekf.E 0 : Mat d (d * (0 + 2)))ᵀ) := by simp only [Matrix.mul_assoc]
        _ = _ := by rw [h2, Matrix.mul_one]; simp only [Matrix.mul_assoc]
    have h2 : ∀ X : Mat (d * (0 + 2)) (d * (0 + 2)), Ekf.E (dim := d) (r := 0) 0 * X * (Ekf.E 0)ᵀ = strideMat 0 0 X := fun X => by
      ext i j
      simp [mul_apply, Ekf.E, strideMat]
    rw [h1, hC, hc0, h2, Ekf.solX_zero, add_zero]
    ext i j
    simp [strideMat, Matrix.one_apply]
  · obtain ⟨f, hf, hm, -⟩ := solver_ibm1 hla vf hσ hh PosSemidef.zero x M sqrt 0 (by cases sqrt <;> simp [covOf, Ekf.solX_zero])
    refine (Ekf.ekf0_two la rng (some k) hd x vf h M sqrt (IOUP.transition 0 σ 1 h d) none).trans ?_
    rw [show Ekf.init2 x vf = ⟨interlace ![x, vf x 0], 0⟩ from rfl]
    refine (congrArg (Except.map _) hf).trans (congrArg Except.ok ?_)
    have hcov : f.cov = f0.cov := by
      have e1 := hf.symm.trans (Ekf.solver_some (r := 0) la _ vf h M sqrt true (IOUP.transition 0 σ 1 h d))
      have e2 := hf0.symm.trans (Ekf.solver_some (r := 0) la _ _ h M sqrt true (IOUP.transition 0 σ 1 h d))
      rw [Except.ok.inj e1, Except.ok.inj e2]
      exact ekf0_cov_congr la _ _ _ _ _ _ _ _ _ _ rfl
    simp only [Ekf.finish, hcov, Rng.multivariateNormal, zero_add]
    rw [← hS, ← Ekf.E_mulVec, mulVec_add, Ekf.E_mulVec, hm, stride_interlace, mulVec_mulVec, mulVec_mulVec, Matrix.mul_assoc]
    rfl

/-- Draws of vectors and draws of matrices from diverging keys are jointly independent. -/
theorem Spec.IdealNormals.indep_vecs_mats {Ω : Type*} [MeasurableSpace Ω] {P : Measure Ω} {R : Ω → Rng}
    (h : IdealNormals P R) {ι κ : Type} (K : ι → Key) (K' : κ → Key) (hK : Pairwise (fun a b => (K a).Diverge (K b)))
    (hK' : Pairwise (fun a b => (K' a).Diverge (K' b))) (hKK : ∀ a b, (K a).Diverge (K' b)) (n r c : ℕ) :
    iIndepFun (fun (p : (ι × Fin n) ⊕ (κ × Fin r × Fin c)) ω => Sum.elim (fun p => (R ω).normalVec (K p.1) n p.2)
      (fun q => (R ω).normalMat (K' q.1) r c q.2.1 q.2.2) p) P := by
  have h0 := h.indep (Sum.elim K K') (Sum.elim (fun _ => [n]) (fun _ => [r, c])) (by
    rintro (a | a) (b | b) hab
    · exact hK fun e => hab (by rw [e])
    · exact hKK a b
    · exact (hKK b a).symm
    · exact hK' fun e => hab (by rw [e]))
  have hlt : ∀ (i : Fin r) (j : Fin c), i.1 * c + j.1 < [r, c].prod := by
    intro i j
    simp only [List.prod_cons, List.prod_nil, mul_one]
    have := i.2; have := j.2
    calc i.1 * c + j.1 < i.1 * c + c := by omega
      _ = (i.1 + 1) * c := by ring
      _ ≤ r * c := Nat.mul_le_mul_right _ (by omega)
  let g : (ι × Fin n) ⊕ (κ × Fin r × Fin c) →
      Σ a, Fin (Sum.elim (fun _ : ι => [n]) (fun _ : κ => [r, c]) a).prod := fun p =>
    match p with
    | .inl p => ⟨.inl p.1, ⟨p.2, by simp⟩⟩
    | .inr q => ⟨.inr q.1, ⟨q.2.1 * c + q.2.2, hlt _ _⟩⟩
  have hg : Function.Injective g := by
    rintro (⟨a, i⟩ | ⟨a, i, j⟩) (⟨b, i'⟩ | ⟨b, i', j'⟩) hab
    · simp only [g, Sigma.mk.injEq, Sum.inl.injEq] at hab
      obtain ⟨rfl, hab⟩ := hab
      have hab := congrArg Fin.val (eq_of_heq hab)
      simp only at hab
      rw [Fin.ext hab]
    · exact absurd (congrArg Sigma.fst hab) Sum.inl_ne_inr
    · exact absurd (congrArg Sigma.fst hab) Sum.inr_ne_inl
    · simp only [g, Sigma.mk.injEq, Sum.inr.injEq] at hab
      obtain ⟨rfl, hab⟩ := hab
      have hab := congrArg Fin.val (eq_of_heq hab)
      simp only at hab
      have hj := j.2; have hj' := j'.2
      have h1 : (i.1 * c + j.1) % c = (i'.1 * c + j'.1) % c := by rw [hab]
      rw [Nat.mul_comm i.1 c, Nat.mul_comm i'.1 c, Nat.mul_add_mod, Nat.mul_add_mod, Nat.mod_eq_of_lt hj,
        Nat.mod_eq_of_lt hj'] at h1
      have h2 : i.1 = i'.1 := by
        rw [h1] at hab
        have := Nat.add_right_cancel hab
        exact Nat.eq_of_mul_eq_mul_right (by omega) this
      simp [Fin.ext h1, Fin.ext h2]
  refine (congrArg (fun Z => iIndepFun Z P) ?_).mp (h0.precomp hg)
  funext p ω
  rcases p with p | q <;> rfl

/-- C82: with keys, every interval of a run of `sde_solver` with EKF0 is the trapezoidal scheme for the field of the interval plus a
noise term. The noise terms have independent components of variance `σ² δ (δ/M)² / 12`, are independent between intervals,
and are jointly independent of the coefficients of all paths. -/
theorem C82_noise {Ω : Type*} [MeasurableSpace Ω] {P : Measure Ω} {R : Ω → Rng} (hR : IdealNormals P R) {la : LinAlg}
    (hla : la.Correct) (key : Key) {d m : ℕ} (hd : 0 < d) (drift : Field d) (sigma : Diffusion d m) (x0 : Vec d) {δ : ℝ}
    (hδ : 0 < δ) (N M : ℕ) (hM : 0 < M) {σ : ℝ} (hσ : σ ≠ 0) (sqrt : Bool) (odeInt : Ω → OdeInt (Vec d) d)
    (hode : ∀ ω k x vf, Ekf.ekf0 la (R ω) (some k) x vf (δ / M) M sqrt (some ⟨_, IOUP.transition 0 σ 1 (δ / M) d⟩) none =
      .ok (odeInt ω k x vf δ)) :
    ∃ (η : ℕ → Ω → Vec d) (c : ℕ → Ω → Vec m × Vec m),
      IsNormal P (fun ω => Sum.elim (fun p : Fin N × Fin d => η p.1 ω p.2)
          (fun q : Fin N × Fin 2 × Fin m => coeffVec (c q.1 ω).1 (c q.1 ω).2 q.2)) 0
        (diagonal (Sum.elim (fun _ => σ ^ 2 * δ * (δ / M) ^ 2 / 12) (fun q => coeffVar m δ q.2))) ∧
      ∀ ω, let out := sdeSolver (R ω) key drift sigma x0 (getApprox m) δ N (odeInt ω)
        ∀ k < N, out.2.2[k]? = some (c k ω) ∧ ∃ x, out.2.1[k]? = some x ∧ out.2.1[k + 1]? =
          some ((trapScheme (intervalField drift sigma (getApprox m) δ (c k ω) (k * δ)) (δ / M) x M).1 + η k ω) := by
  have hM' : (0 : ℝ) < M := by exact_mod_cast hM
  obtain ⟨T, hT, hT'⟩ := ekf0_noise hla hd hσ (show 0 < δ / M by positivity) M sqrt
  refine ⟨fun k ω => T *ᵥ (R ω).normalVec ((key.child N k).child 2 1) (d * (0 + 2)),
    fun k ω => (getApprox m).coeffs (R ω) ((key.child N k).child 2 0) δ, ?_, fun ω => ?_⟩
  · have hK : ∀ s : ℕ, Pairwise fun a b : Fin N => ((key.child N a).child 2 s).Diverge ((key.child N b).child 2 s) :=
      fun s a b hab => ((Key.diverge_child key N _ _ fun e => hab (Fin.ext e)).child_left 2 _).child_right 2 _
    have hKK : ∀ a b : Fin N, ((key.child N a).child 2 1).Diverge ((key.child N b).child 2 0) := fun a b => by
      by_cases h : a = b
      · rw [h]
        exact Key.diverge_child _ 2 1 0 one_ne_zero
      · exact ((Key.diverge_child key N _ _ fun e => h (Fin.ext e)).child_left 2 _).child_right 2 _
    let Z : (Fin N × Fin (d * (0 + 2))) ⊕ (Fin N × Fin 2 × Fin m) → Ω → ℝ := fun p ω => Sum.elim
      (fun p => (R ω).normalVec ((key.child N p.1).child 2 1) (d * (0 + 2)) p.2)
      (fun q => (R ω).normalMat ((key.child N q.1).child 2 0) 2 m q.2.1 q.2.2) p
    have hZ : iIndepFun Z P := hR.indep_vecs_mats (fun a : Fin N => (key.child N a).child 2 1)
      (fun a : Fin N => (key.child N a).child 2 0) (hK 1) (hK 0) hKK _ _ _
    have hZl : ∀ p, HasLaw (Z p) (gaussianReal 0 1) P := by
      rintro (p | q)
      · exact hR.law _ _ _ (by simp)
      · exact hR.law_mat _ _ _
    have hn := isNormal_linear (P := P) hZl hZ (0 : (Fin N × Fin d) ⊕ (Fin N × Fin 2 × Fin m) → ℝ)
      (fromBlocks (Matrix.kronecker 1 T) 0 0 (diagonal fun q => ![Real.sqrt δ, Real.sqrt (0.5 * δ)] q.2.1))
    refine (congrArg₂ (fun X C => IsNormal P X _ C) ?_ ?_).mp hn
    · funext ω p
      rcases p with p | q
      · simp [Z, fromBlocks_mulVec, mulVec, dotProduct, Fintype.sum_prod_type, Matrix.one_apply]
      · obtain ⟨k, s, j⟩ := q
        fin_cases s
        · simp [Z, fromBlocks_mulVec, mulVec_diagonal, coeffVec, getApprox, parabolas, mul_comm]
        · simp [Z, fromBlocks_mulVec, mulVec_diagonal, coeffVec, getApprox, parabolas, mul_comm]
    · rw [fromBlocks_transpose, fromBlocks_multiply]
      simp only [Matrix.zero_mul, Matrix.mul_zero, transpose_zero, add_zero, zero_add, diagonal_transpose, diagonal_mul_diagonal]
      rw [← fromBlocks_diagonal]
      congr 1
      · have h1 : kroneckerMap (fun x1 x2 => x1 * x2) (1 : Matrix (Fin N) (Fin N) ℝ) T *
            (kroneckerMap (fun x1 x2 => x1 * x2) (1 : Matrix (Fin N) (Fin N) ℝ) T)ᵀ =
            Matrix.kronecker (1 * 1ᵀ) (T * Tᵀ) := by
          rw [← kroneckerMap_transpose]
          exact (mul_kronecker_mul _ _ _ _).symm
        refine h1.trans ?_
        rw [hT, transpose_one, Matrix.one_mul]
        ext p q
        simp only [kronecker, kroneckerMap_apply, Matrix.one_apply, Matrix.smul_apply, diagonal_apply, Prod.ext_iff, smul_eq_mul]
        by_cases hp : p.1 = q.1 <;> by_cases hq : p.2 = q.2 <;> simp [hp, hq]
        field_simp
      · congr 1
        funext q
        obtain ⟨k, s, j⟩ := q
        fin_cases s
        · simp [coeffVar, Real.mul_self_sqrt hδ.le]
        · simp only [coeffVar]
          have := Real.mul_self_sqrt (by positivity : 0 ≤ 0.5 * δ)
          simp [this]; ring
  · intro out k hk
    obtain ⟨x, c, h1, h2, h3, h4⟩ := sdeSolver_interval (R ω) key drift sigma x0 (getApprox m) δ N (odeInt ω) k hk
    subst h3
    refine ⟨h2, x, h1, ?_⟩
    rw [h4, ← Except.ok.inj ((hT' (R ω) _ x _).symm.trans (hode ω _ x _))]

/-- C82: an ideal generator and an integrator as in the theorem exist. -/
example {la : LinAlg} (hla : la.Correct) (d M : ℕ) (hd : 0 < d) (hM : 0 < M) (δ : ℝ) (hδ : 0 < δ) (sqrt : Bool) :
    IdealNormals drawsMeasure drawsRng ∧ ∃ odeInt : Draws → OdeInt (Vec d) d, ∀ ω k x vf,
      Ekf.ekf0 la (drawsRng ω) (some k) x vf (δ / M) M sqrt (some ⟨_, IOUP.transition 0 1 1 (δ / M) d⟩) none =
      .ok (odeInt ω k x vf δ) := by
  obtain ⟨T, -, hT⟩ := ekf0_noise hla hd one_ne_zero (show 0 < δ / M from div_pos hδ (by exact_mod_cast hM)) M sqrt
  exact ⟨idealNormals_drawsRng, fun ω k x vf _ => _, fun ω k x vf => hT (drawsRng ω) k x vf⟩

end Verif
