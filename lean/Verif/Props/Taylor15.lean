import Verif.Lemmas.Taylor15
import Verif.Props.SdeSolver
import Verif.Props.EkfWrappers

/-!
# Properties C60-C63: the order 1.5 schemes
-/

namespace Verif

open Jnp MeasureTheory ProbabilityTheory Matrix Spec

/-! ## C60: additive noise -/

/-- C60: with a constant diagonal diffusion, one step is the Itô-Taylor step, for every noise. -/
theorem C60_step {d : ℕ} {b : Vec d → Vec d} (hb : ContDiff ℝ 2 b) (s : Vec d) (h : ℝ) (x dW dZ : Vec d) :
    Diag15.stepFn b (fun _ => diagonal s) h x dZ dW = itoTaylorAdditive b s h x dW dZ := by
  have h1 : DifferentiableAt ℝ b x := hb.differentiable (by norm_num) x
  have hds : Diag15.diagSigma (fun _ : Vec d => diagonal s) = fun _ => s := by
    funext z i; simp [Diag15.diagSigma]
  have hPs : Diag15.partialxsigma (fun _ => diagonal s) x = 0 := by
    rw [Diag15.partialxsigma, hds, jac_const]
  have hls : Diag15.laplaceweighted (fun _ => diagonal s) (Diag15.diagSigma fun _ => diagonal s) x = 0 := by
    funext i
    simp [Diag15.laplaceweighted, hds, hessian_const]
  have hld : (h ^ 2 / 4) • Diag15.laplaceweighted (fun _ => diagonal s) b x = (h ^ 2 / 2) • ((1 / 2 : ℝ) • ∑ j, ∑ k,
      (∑ l, (diagonal s : Mat d d) j l * (diagonal s : Mat d d) k l) • iteratedFDeriv ℝ 2 b x ![Pi.single j 1, Pi.single k 1]) := by
    funext i
    have hsum : ∀ j k, (∑ l, (diagonal s : Mat d d) j l * (diagonal s : Mat d d) k l) = if j = k then s j * s j else 0 := by
      intro j k
      by_cases hjk : j = k
      · subst hjk
        simp [diagonal_apply]
      · simp [diagonal_apply, hjk]
    simp only [hsum, Pi.smul_apply, Finset.sum_apply, ite_smul, zero_smul, Finset.sum_ite_eq, Finset.mem_univ, if_true,
      smul_eq_mul, Diag15.laplaceweighted, dotProduct, diagonal_transpose, diagonal_mul_diagonal, diagonal_apply_eq,
      hessian_eq hb]
    ring
  have hv : (diagonal s : Mat d d) *ᵥ dW = s * dW := by funext i; simp [mulVec_diagonal]
  have hz : (Diag15.partialxdrift b x * diagonal s) *ᵥ dZ = fderiv ℝ b x (s * dZ) := by
    rw [← mulVec_mulVec, Diag15.partialxdrift, jac_mulVec h1]
    congr 1
    funext i; simp [mulVec_diagonal]
  have h0 : (Matrix.of fun _ j => (0 : Vec d) j : Mat d d) = 0 := rfl
  simp only [Diag15.stepFn, hPs, hls, hz, hv, h0, Matrix.zero_mul, smul_zero, zero_mulVec, zero_dotProduct, add_zero,
    Matrix.mul_zero]
  rw [hld, itoTaylorAdditive, driftGenerator, Diag15.partialxdrift, jac_mulVec h1]
  funext i
  simp only [Pi.add_apply, Pi.smul_apply, smul_eq_mul, Pi.mul_apply]
  ring

/-- C60: the noise of all the steps of a run is jointly normal; the pairs of one step have the covariance of the increment and
the integral of a Brownian motion, different steps are independent. -/
theorem C60_noise {la : LinAlg} (hla : la.Correct) {Ω : Type*} [MeasurableSpace Ω] {P : Measure Ω} {R : Ω → Rng}
    (hR : IdealNormals P R) (key : Key) (d : ℕ) {h : ℝ} (hh : 0 < h) (N : ℕ) :
    IsNormal P (fun ω (q : Fin N × (Fin 2 × Fin d)) => coeffVec (Diag15.noise la (R ω) d h (key.child N q.1)).2
        (Diag15.noise la (R ω) d h (key.child N q.1)).1 q.2)
      0 (fun p q => if p.1 = q.1 then bmCovDim d h p.2 q.2 else 0) := by
  set K : Fin N → Key := fun k => (key.child N k).child 1 0 with hK
  have hdiv : Pairwise fun a b : Fin N => (K a).Diverge (K b) := fun a b hab =>
    ((Key.diverge_child key N a b (fun he => hab (Fin.ext he))).child_left 1 0).child_right 1 0
  have hn : [d + d].prod = d + d := by simp
  have hi := (hR.indep K (fun _ => [d + d]) hdiv).precomp
    (g := fun p : Fin N × Fin (d + d) => (⟨p.1, ⟨p.2.1, by rw [hn]; exact p.2.2⟩⟩ : Σ _ : Fin N, Fin [d + d].prod))
    (fun p q hpq => by
      obtain ⟨a, i⟩ := p
      obtain ⟨b, j⟩ := q
      simp only [Sigma.mk.injEq] at hpq
      obtain ⟨rfl, h2⟩ := hpq
      have := congrArg Fin.val (eq_of_heq h2)
      simp only at this
      rw [Fin.ext this])
  set L := la.cholesky (Diag15.noiseCov d h) with hL
  set M : Matrix (Fin N × (Fin 2 × Fin d)) (Fin N × Fin (d + d)) ℝ :=
    fun q r => if q.1 = r.1 then L (Diag15.pos d q.2) r.2 else 0
  have hM : ∀ q r, M q r = if q.1 = r.1 then L (Diag15.pos d q.2) r.2 else 0 := fun _ _ => rfl
  have hlin := isNormal_linear (P := P) (Z := fun (p : Fin N × Fin (d + d)) ω => (R ω).normal (K p.1) [d + d] p.2)
    (fun p => hR.law _ _ _ (by rw [hn]; exact p.2.2)) hi 0 M
  have hC : M * Mᵀ = fun p q => if p.1 = q.1 then bmCovDim d h p.2 q.2 else 0 := by
    ext ⟨a, p⟩ ⟨b, q⟩
    simp only [mul_apply, transpose_apply, hM, Fintype.sum_prod_type]
    rw [Finset.sum_eq_single a]
    · by_cases hab : a = b
      · subst hab
        simp only [if_true]
        rw [← Diag15.noiseCov_pos, ← hla.chol_mul _ (Diag15.noiseCov_posDef hh), mul_apply]
        rfl
      · simp [hab, Ne.symm hab]
    · intro c _ hc
      simp [Ne.symm hc]
    · simp
  have hX : (fun ω (q : Fin N × (Fin 2 × Fin d)) => coeffVec (Diag15.noise la (R ω) d h (key.child N q.1)).2
        (Diag15.noise la (R ω) d h (key.child N q.1)).1 q.2) =
      fun ω => 0 + M *ᵥ fun p : Fin N × Fin (d + d) => (R ω).normal (K p.1) [d + d] p.2 := by
    funext ω ⟨a, s, j⟩
    rw [zero_add, mulVec, dotProduct, Fintype.sum_prod_type, Finset.sum_eq_single a]
    · have hs : s = 0 ∨ s = 1 := by fin_cases s <;> simp
      rcases hs with rfl | rfl <;>
      simp [coeffVec, Diag15.noise, Rng.multivariateNormal, mulVec, dotProduct, hM, Diag15.pos, Rng.normalVec, hK, hL,
        -Fin.natAdd_eq_addNat]
    · intro c _ hc
      simp [hM, Ne.symm hc]
    · simp
  rw [hX, ← hC]
  exact hlin

/-- C60 for whole runs: the trajectory starts at `init` and follows the Itô-Taylor step with the drawn noise. -/
theorem C60_trajectory (la : LinAlg) (rng : Rng) (key : Key) {d : ℕ} (init : Vec d) {b : Vec d → Vec d} (hb : ContDiff ℝ 2 b)
    (s : Vec d) (h : ℝ) (N : ℕ) :
    ∃ ts xs, Diag15.solver la rng key init b (fun _ => diagonal s) h N = .ok (ts, xs) ∧ UniformGrid ts N h ∧
      xs.length = N + 1 ∧ xs[0]? = some init ∧ ∀ k < N, ∃ x, xs[k]? = some x ∧
        xs[k + 1]? = some (itoTaylorAdditive b s h x (Diag15.noise la rng d h (key.child N k)).2
          (Diag15.noise la rng d h (key.child N k)).1) := by
  have he : Diag15.solver la rng key init b (fun _ => diagonal s) h N = .ok (linspace 0 (N * h) (N + 1),
      insertArr (scan (Diag15.body la rng b (fun _ => diagonal s) h) init (key.split N)).2 init) := by
    rw [Diag15.solver, dif_pos rfl]
    rfl
  refine ⟨_, _, he, C01_diag15_grid la rng key init b _ h N _ he, ?_, ?_, ?_⟩
  · simp [insertArr_eq, Key.split]
  · simp [insertArr_eq]
  · intro k hk
    set g : Vec d → Key → Vec d := fun x ky => itoTaylorAdditive b s h x (Diag15.noise la rng d h ky).2
      (Diag15.noise la rng d h ky).1 with hg
    have hbody : Diag15.body la rng b (fun _ => diagonal s) h = fun x ky => (g x ky, g x ky) := by
      funext x ky
      rw [Diag15.body_eq, C60_step hb]
    rw [insertArr_eq, hbody]
    have hlen : (key.split N).length = N := by simp [Key.split]
    have hki : (key.split N)[k]? = some (key.child N k) := by
      rw [Key.split, List.getElem?_map, List.getElem?_range hk]; rfl
    refine ⟨_, traj_getElem? g init (key.split N) k (by omega), ?_⟩
    rw [traj_getElem? g init (key.split N) (k + 1) (by omega), scan_take_succ_fst _ _ _ k _ hki]

/-- C60, a problem meeting the hypotheses: the double-well drift in two dimensions is smooth. -/
example : ContDiff ℝ 2 (fun x : Vec 2 => fun i => x i - x i ^ 3) := by fun_prop

/-! ## C61: multiplicative noise -/

theorem stepFn_poly {d : ℕ} (b : Vec d → Vec d) (σ : Vec d → Mat d d) (h : ℝ) (x ζ η : Vec d) (i : Fin d) :
    Diag15.stepFn b σ h x ζ η i =
      let Ps := Diag15.partialxsigma σ x
      let Pd := Diag15.partialxdrift b x
      let ls := Diag15.laplaceweighted σ (Diag15.diagSigma σ) x
      let T := ∑ k, (1 / 2 : ℝ) * ((Ps * Ps * σ x) i k + ls k)
      (x i + h * b x i + h ^ 2 / 2 * (Pd *ᵥ b x) i + h ^ 2 / 4 * Diag15.laplaceweighted σ b x i
        - h * (∑ j, (1 / 2 : ℝ) * (Ps * σ x) i j) - h * T) +
      ∑ j, ((σ x i j + h * ((Ps *ᵥ b x) j + 1 / 2 * ls j)) * η j +
        ((Pd * σ x) i j - ((Ps *ᵥ b x) j + 1 / 2 * ls j)) * ζ j +
        (1 / 2 * (Ps * σ x) i j + 1 / 3 * T) * η j ^ 2) := by
  simp only
  set Ps := Diag15.partialxsigma σ x
  set Pd := Diag15.partialxdrift b x
  set ls := Diag15.laplaceweighted σ (Diag15.diagSigma σ) x
  set T := ∑ k, (1 / 2 : ℝ) * ((Ps * Ps * σ x) i k + ls k) with hT
  have h1 : (((0.5 : ℝ) • (Ps * Ps * σ x + Matrix.of fun _ j => ls j)) *ᵥ
      ((fun _ => ((1 / 3 : ℝ) • η) ⬝ᵥ η) - h • (1 : Vec d))) i = T * (1 / 3 * ∑ j, η j ^ 2 - h) := by
    simp only [mulVec, dotProduct, Matrix.smul_apply, Matrix.add_apply, of_apply, Pi.sub_apply, Pi.smul_apply, Pi.one_apply,
      smul_eq_mul, mul_one]
    rw [← Finset.sum_mul, hT]
    congr 1
    · exact Finset.sum_congr rfl fun k _ => by norm_num
    · rw [Finset.mul_sum]
      congr 1
      exact Finset.sum_congr rfl fun k _ => by ring
  have h2 : (((0.5 : ℝ) • Ps * σ x) *ᵥ (η ^ 2 - h • (1 : Vec d))) i =
      ∑ j, 1 / 2 * (Ps * σ x) i j * η j ^ 2 - h * ∑ j, 1 / 2 * (Ps * σ x) i j := by
    rw [Matrix.smul_mul, mulVec, dotProduct, Finset.mul_sum, ← Finset.sum_sub_distrib]
    refine Finset.sum_congr rfl fun j _ => ?_
    simp only [Matrix.smul_apply, Pi.sub_apply, Pi.pow_apply, Pi.smul_apply, Pi.one_apply, smul_eq_mul]
    ring
  have h3 : (Ps *ᵥ b x) ⬝ᵥ (h • η - ζ) + ((0.5 : ℝ) • ls) ⬝ᵥ (h • η - ζ) =
      ∑ j, (h * ((Ps *ᵥ b x) j + 1 / 2 * ls j) * η j - ((Ps *ᵥ b x) j + 1 / 2 * ls j) * ζ j) := by
    rw [dotProduct, dotProduct, ← Finset.sum_add_distrib]
    refine Finset.sum_congr rfl fun j _ => ?_
    simp only [Pi.sub_apply, Pi.smul_apply, smul_eq_mul]
    ring
  have h4 : (σ x *ᵥ η) i = ∑ j, σ x i j * η j := rfl
  have h5 : ((Pd * σ x) *ᵥ ζ) i = ∑ j, (Pd * σ x) i j * ζ j := rfl
  simp only [Diag15.stepFn, Pi.add_apply, Pi.smul_apply, smul_eq_mul]
  rw [h1, h2, add_assoc (_ + (∑ j, 1 / 2 * (Ps * σ x) i j * η j ^ 2 - h * ∑ j, 1 / 2 * (Ps * σ x) i j)), h3, h4, h5]
  clear_value T
  have h6 : ∑ j, ((σ x i j + h * ((Ps *ᵥ b x) j + 1 / 2 * ls j)) * η j +
        ((Pd * σ x) i j - ((Ps *ᵥ b x) j + 1 / 2 * ls j)) * ζ j +
        (1 / 2 * (Ps * σ x) i j + 1 / 3 * T) * η j ^ 2) =
      ∑ j, σ x i j * η j + ∑ j, (Pd * σ x) i j * ζ j + ∑ j, 1 / 2 * (Ps * σ x) i j * η j ^ 2 +
      ∑ j, (h * ((Ps *ᵥ b x) j + 1 / 2 * ls j) * η j - ((Ps *ᵥ b x) j + 1 / 2 * ls j) * ζ j) +
      1 / 3 * T * ∑ j, η j ^ 2 := by
    rw [Finset.mul_sum, ← Finset.sum_add_distrib, ← Finset.sum_add_distrib, ← Finset.sum_add_distrib,
      ← Finset.sum_add_distrib]
    exact Finset.sum_congr rfl fun j _ => by ring
  rw [h6]
  ring

/-- The law of the noise of one step. -/
theorem noise_one {la : LinAlg} (hla : la.Correct) {Ω : Type*} [MeasurableSpace Ω] {P : Measure Ω} {R : Ω → Rng}
    (hR : IdealNormals P R) (key : Key) (d : ℕ) {h : ℝ} (hh : 0 < h) :
    IsNormal P (fun ω => coeffVec (Diag15.noise la (R ω) d h key).2 (Diag15.noise la (R ω) d h key).1) 0 (bmCovDim d h) := by
  set M : Matrix (Fin 2 × Fin d) (Fin (d + d)) ℝ :=
    (la.cholesky (Diag15.noiseCov d h)).submatrix (Diag15.pos d) id with hM
  have h1 := (normalVec_std hR (key.child 1 0) (d + d)).affine 0 M
  rw [mulVec_zero, add_zero, Matrix.mul_one] at h1
  have hC : M * Mᵀ = bmCovDim d h := by
    ext p q
    rw [← Diag15.noiseCov_pos, ← hla.chol_mul _ (Diag15.noiseCov_posDef hh), mul_apply, mul_apply]
    rfl
  rw [hC] at h1
  have hX : (fun ω => coeffVec (Diag15.noise la (R ω) d h key).2 (Diag15.noise la (R ω) d h key).1) =
      fun ω => 0 + M *ᵥ (R ω).normalVec (key.child 1 0) (d + d) := by
    funext ω ⟨s, j⟩
    have hs : s = 0 ∨ s = 1 := by fin_cases s <;> simp
    rcases hs with rfl | rfl <;>
    simp [coeffVec, Diag15.noise, Rng.multivariateNormal, mulVec, dotProduct, hM, Diag15.pos, -Fin.natAdd_eq_addNat]
  rw [hX]
  exact h1

/-- C61, the mean of one step for an arbitrary drift and diffusion: besides the terms of the Taylor expansion of the mean there is
a term of first order in `h`, which vanishes for additive noise or (by accident) in dimension three. -/
theorem C61_mean {la : LinAlg} (hla : la.Correct) {Ω : Type*} [MeasurableSpace Ω] {P : Measure Ω} {R : Ω → Rng}
    (hR : IdealNormals P R) (key : Key) {d : ℕ} {h : ℝ} (hh : 0 < h) (b : Vec d → Vec d) (σ : Vec d → Mat d d) (x : Vec d)
    (i : Fin d) :
    Integrable (fun ω => (Diag15.body la (R ω) b σ h x key).1 i) P ∧
    ∫ ω, (Diag15.body la (R ω) b σ h x key).1 i ∂P =
      x i + h * b x i + h ^ 2 / 2 * (Diag15.partialxdrift b x *ᵥ b x) i + h ^ 2 / 4 * Diag15.laplaceweighted σ b x i
      + (d / 3 - 1) * h * ∑ k, (1 / 2 : ℝ) * ((Diag15.partialxsigma σ x * Diag15.partialxsigma σ x * σ x) i k
          + Diag15.laplaceweighted σ (Diag15.diagSigma σ) x k) := by
  have hN := noise_one hla hR key d hh
  have hP := hN.isProb
  set η : Fin d → Ω → ℝ := fun j ω => (Diag15.noise la (R ω) d h key).2 j with hη
  set ζ : Fin d → Ω → ℝ := fun j ω => (Diag15.noise la (R ω) d h key).1 j with hζ
  have hηL : ∀ j, MemLp (η j) 2 P := fun j => hN.memLp (0, j)
  have hζL : ∀ j, MemLp (ζ j) 2 P := fun j => hN.memLp (1, j)
  have hη0 : ∀ j, ∫ ω, η j ω ∂P = 0 := fun j => hN.mean (0, j)
  have hζ0 : ∀ j, ∫ ω, ζ j ω ∂P = 0 := fun j => hN.mean (1, j)
  have hη2 : ∀ j, ∫ ω, η j ω ^ 2 ∂P = h := by
    intro j
    have h1 := hN.cov (0, j) (0, j)
    have h2 : cov[η j, η j; P] = h := by
      refine h1.trans ?_
      simp [bmCovDim, bmCov]
    rw [covariance_eq_sub (hηL j) (hηL j), hη0, mul_zero, sub_zero] at h2
    rw [← h2]
    exact integral_congr_ae (Filter.Eventually.of_forall fun ω => by simp [pow_two])
  simp only [Diag15.body_eq, stepFn_poly]
  set Ps := Diag15.partialxsigma σ x
  set Pd := Diag15.partialxdrift b x
  set ls := Diag15.laplaceweighted σ (Diag15.diagSigma σ) x
  set T := ∑ k, (1 / 2 : ℝ) * ((Ps * Ps * σ x) i k + ls k) with hT
  clear_value T
  have hη1 : ∀ j, Integrable (η j) P := fun j => (hηL j).integrable (by norm_num)
  have hζ1 : ∀ j, Integrable (ζ j) P := fun j => (hζL j).integrable (by norm_num)
  have hηs : ∀ j, Integrable (fun ω => η j ω ^ 2) P := fun j => (hηL j).integrable_sq
  have hj : ∀ j a e q : ℝ, ∀ k, Integrable (fun ω => a * η k ω + e * ζ k ω + q * η k ω ^ 2) P := fun _ a e q k =>
    (((hη1 k).const_mul a).add ((hζ1 k).const_mul e)).add ((hηs k).const_mul q)
  have hjI : ∀ a e q : ℝ, ∀ k, ∫ ω, (a * η k ω + e * ζ k ω + q * η k ω ^ 2) ∂P = q * h := by
    intro a e q k
    have e1 : Integrable (fun ω => a * η k ω + e * ζ k ω) P := ((hη1 k).const_mul a).add ((hζ1 k).const_mul e)
    rw [integral_add e1 ((hηs k).const_mul q),
      integral_add ((hη1 k).const_mul a) ((hζ1 k).const_mul e), integral_const_mul, integral_const_mul,
      integral_const_mul, hη0, hζ0, hη2]
    ring
  constructor
  · exact (integrable_const _).add (integrable_finsetSum _ fun j _ => hj 0 _ _ _ j)
  · rw [integral_add (integrable_const _) (integrable_finsetSum _ fun j _ => hj 0 _ _ _ j),
      integral_finsetSum _ (fun j _ => hj 0 _ _ _ j)]
    have hsum : ∑ j, ∫ ω, ((σ x i j + h * ((Ps *ᵥ b x) j + 1 / 2 * ls j)) * η j ω +
        ((Pd * σ x) i j - ((Ps *ᵥ b x) j + 1 / 2 * ls j)) * ζ j ω +
        (1 / 2 * (Ps * σ x) i j + 1 / 3 * T) * η j ω ^ 2) ∂P = h * (∑ j, 1 / 2 * (Ps * σ x) i j) + d / 3 * h * T := by
      rw [Finset.sum_congr rfl fun j _ => hjI _ _ _ j]
      simp only [add_mul, Finset.sum_add_distrib, Finset.sum_const, Finset.card_univ, Fintype.card_fin, nsmul_eq_mul,
        ← Finset.sum_mul]
      ring
    refine (congrArg₂ (· + ·) (integral_const _) hsum).trans ?_
    simp only [probReal_univ, smul_eq_mul, one_mul]
    ring

theorem pd_comp_proj {d : ℕ} {φ : ℝ → ℝ} {x : Vec d} (i j : Fin d) (hφ : DifferentiableAt ℝ φ (x i)) :
    pd j (fun z : Vec d => φ (z i)) x = if j = i then deriv φ (x i) else 0 := by
  have h1 : HasFDerivAt (fun z : Vec d => z i) (ContinuousLinearMap.proj (R := ℝ) (φ := fun _ : Fin d => ℝ) i) x :=
    (ContinuousLinearMap.proj (R := ℝ) (φ := fun _ : Fin d => ℝ) i).hasFDerivAt
  have h2 := hφ.hasDerivAt.comp_hasFDerivAt x h1
  have h3 : fderiv ℝ (fun z : Vec d => φ (z i)) x =
      deriv φ (x i) • ContinuousLinearMap.proj (R := ℝ) (φ := fun _ : Fin d => ℝ) i := h2.fderiv
  rw [pd, h3]
  by_cases hij : j = i
  · simp [hij]
  · simp [hij, Pi.single_apply, Ne.symm hij]

theorem jac_decoupled {d : ℕ} {f : Fin d → ℝ → ℝ} (hf : ∀ i, Differentiable ℝ (f i)) (x : Vec d) :
    jac (fun z i => f i (z i)) x = diagonal fun i => deriv (f i) (x i) := by
  ext i j
  rw [jac, pd_comp_proj i j (hf i (x i)), diagonal_apply]
  by_cases hij : i = j
  · simp [hij]
  · simp [hij, Ne.symm hij]

theorem hessian_decoupled {d : ℕ} {f : Fin d → ℝ → ℝ} (hf : ∀ i, ContDiff ℝ 2 (f i)) (x : Vec d) (i j : Fin d) :
    hessian (fun z i => f i (z i)) x i j j = if j = i then deriv (deriv (f i)) (x i) else 0 := by
  have h1 : ∀ z : Vec d, pd j (fun w : Vec d => f i (w i)) z = if j = i then deriv (f i) (z i) else 0 := fun z =>
    pd_comp_proj i j ((hf i).differentiable (by norm_num) _)
  have h2 : DifferentiableAt ℝ (deriv (f i)) (x i) :=
    (hf i).differentiable_deriv_two _
  rw [hessian]
  simp only [h1]
  by_cases hij : j = i
  · subst hij
    simp only [if_true]
    rw [pd_comp_proj j j h2, if_pos rfl]
  · simp [hij, pd]

/-- C61 for scalar driftless problems `dX = g(X) dW`: the expected increment of one step. -/
theorem C61_scalar {la : LinAlg} (hla : la.Correct) {Ω : Type*} [MeasurableSpace Ω] {P : Measure Ω} {R : Ω → Rng}
    (hR : IdealNormals P R) (key : Key) {h : ℝ} (hh : 0 < h) {g : ℝ → ℝ} (hg : ContDiff ℝ 2 g) (x : Vec 1) :
    ∫ ω, ((Diag15.body la (R ω) (fun _ => 0) (fun z => diagonal fun i => g (z i)) h x key).1 0 - x 0) ∂P =
      -(h / 3) * (deriv g (x 0) ^ 2 * g (x 0) + g (x 0) ^ 2 * deriv (deriv g) (x 0)) := by
  have h1 := C61_mean hla hR key hh (fun _ => 0) (fun z : Vec 1 => diagonal fun i => g (z i)) x 0
  have hP := (noise_one hla hR key 1 hh).isProb
  rw [integral_sub h1.1 (integrable_const _), h1.2]
  have hds : Diag15.diagSigma (fun z : Vec 1 => diagonal fun i => g (z i)) = fun z i => g (z i) := by
    funext z i; simp [Diag15.diagSigma]
  have hPs : Diag15.partialxsigma (fun z : Vec 1 => diagonal fun i => g (z i)) x = diagonal fun i => deriv g (x i) := by
    rw [Diag15.partialxsigma, hds]
    exact jac_decoupled (f := fun _ => g) (fun _ => hg.differentiable (by norm_num)) x
  have hls : Diag15.laplaceweighted (fun z : Vec 1 => diagonal fun i => g (z i))
      (Diag15.diagSigma fun z : Vec 1 => diagonal fun i => g (z i)) x = fun i => g (x i) ^ 2 * deriv (deriv g) (x i) := by
    funext i
    simp only [Diag15.laplaceweighted, hds, hessian_decoupled (f := fun _ : Fin 1 => g) (fun _ => hg)]
    have : i = 0 := Subsingleton.elim _ _
    subst this
    simp [dotProduct, pow_two]
  have hlb : Diag15.laplaceweighted (fun z : Vec 1 => diagonal fun i => g (z i)) (fun _ => 0) x = 0 := by
    funext i
    simp only [Diag15.laplaceweighted, hessian_const]
    simp [dotProduct]
  rw [hPs, hls, hlb]
  simp
  ring

/-- C61 fails: for `dX = X dW` the expected increment of one step is `-x h / 3`, which is not zero for any `x ≠ 0`. -/
theorem C61_fails {la : LinAlg} (hla : la.Correct) {Ω : Type*} [MeasurableSpace Ω] {P : Measure Ω} {R : Ω → Rng}
    (hR : IdealNormals P R) (key : Key) {h : ℝ} (hh : 0 < h) (x : Vec 1) (hx : x 0 ≠ 0) :
    ∫ ω, ((Diag15.body la (R ω) (fun _ => 0) diagonal h x key).1 0 - x 0) ∂P = -(x 0 * h / 3) ∧ -(x 0 * h / 3) ≠ 0 := by
  have h1 := C61_scalar hla hR key hh (g := fun y => y) contDiff_id x
  refine ⟨?_, by have := hh.ne'; field_simp; simp [hx, this]⟩
  have hd : deriv (fun y : ℝ => y) = fun _ => 1 := by funext y; exact deriv_id y
  simp only [hd, deriv_const] at h1
  refine Eq.trans h1 ?_
  ring

/-- C61, what holds: the expected increment of a driftless scalar step is zero exactly when `(g g')' g = 0` at the current state,
in particular for constant diffusions. Missing: for other diffusions it is of the order of the step. -/
theorem C61_partial {la : LinAlg} (hla : la.Correct) {Ω : Type*} [MeasurableSpace Ω] {P : Measure Ω} {R : Ω → Rng}
    (hR : IdealNormals P R) (key : Key) {h : ℝ} (hh : 0 < h) {g : ℝ → ℝ} (hg : ContDiff ℝ 2 g) (x : Vec 1) :
    ∫ ω, ((Diag15.body la (R ω) (fun _ => 0) (fun z => diagonal fun i => g (z i)) h x key).1 0 - x 0) ∂P = 0 ↔
      deriv (fun y => g y * deriv g y) (x 0) * g (x 0) = 0 := by
  have hd : DifferentiableAt ℝ g (x 0) := hg.differentiable (by norm_num) _
  have h2 : DifferentiableAt ℝ (deriv g) (x 0) :=
    hg.differentiable_deriv_two _
  rw [C61_scalar hla hR key hh hg x, deriv_fun_mul hd h2]
  constructor
  · intro h0
    have := (mul_eq_zero.mp h0).resolve_left (by have := hh.ne'; simpa using this)
    linear_combination this
  · intro h0
    linear_combination (-(h / 3)) * h0

/-- C61 is about actual generators and kernels. -/
example : ∃ la : LinAlg, la.Correct := exists_correct_linAlg

/-! ## C62: decoupled problems -/

/-- C62, the step for a decoupled problem `dX_i = f_i(X_i) dt + g_i(X_i) dW_i`: the first line only involves coordinate `i`, the
other two sum over all the coordinates. -/
theorem C62_exact {d : ℕ} {f g : Fin d → ℝ → ℝ} (hf : ∀ i, ContDiff ℝ 2 (f i)) (hg : ∀ i, ContDiff ℝ 2 (g i)) (h : ℝ)
    (x ζ η : Vec d) (i : Fin d) :
    Diag15.stepFn (fun z i => f i (z i)) (fun z => diagonal fun i => g i (z i)) h x ζ η i =
      (x i + h * f i (x i) + h ^ 2 / 2 * (deriv (f i) (x i) * f i (x i)) + h ^ 2 / 4 * (g i (x i) ^ 2 * deriv (deriv (f i)) (x i))
        + g i (x i) * η i + deriv (f i) (x i) * g i (x i) * ζ i + 1 / 2 * (deriv (g i) (x i) * g i (x i)) * (η i ^ 2 - h))
      + ∑ j, (deriv (g j) (x j) * f j (x j) + 1 / 2 * (g j (x j) ^ 2 * deriv (deriv (g j)) (x j))) * (h * η j - ζ j)
      + 1 / 2 * (deriv (g i) (x i) ^ 2 * g i (x i) + ∑ j, g j (x j) ^ 2 * deriv (deriv (g j)) (x j)) *
        (1 / 3 * ∑ j, η j ^ 2 - h) := by
  have hds : Diag15.diagSigma (fun z : Vec d => diagonal fun i => g i (z i)) = fun z i => g i (z i) := by
    funext z i; simp [Diag15.diagSigma]
  have hPs : Diag15.partialxsigma (fun z : Vec d => diagonal fun i => g i (z i)) x = diagonal fun i => deriv (g i) (x i) := by
    rw [Diag15.partialxsigma, hds]
    exact jac_decoupled (fun i => (hg i).differentiable (by norm_num)) x
  have hPd : Diag15.partialxdrift (fun z i => f i (z i)) x = diagonal fun i => deriv (f i) (x i) :=
    jac_decoupled (fun i => (hf i).differentiable (by norm_num)) x
  have hls : ∀ u : Fin d → ℝ → ℝ, (∀ i, ContDiff ℝ 2 (u i)) →
      Diag15.laplaceweighted (fun z : Vec d => diagonal fun i => g i (z i)) (fun z i => u i (z i)) x =
      fun i => g i (x i) ^ 2 * deriv (deriv (u i)) (x i) := by
    intro u hu
    funext i
    simp only [Diag15.laplaceweighted, hessian_decoupled hu]
    simp [dotProduct, pow_two]
  have hT : ∑ k, (1 / 2 : ℝ) * (((diagonal fun i => deriv (g i) (x i)) * (diagonal fun i => deriv (g i) (x i)) *
      (diagonal fun i => g i (x i)) : Mat d d) i k + g k (x k) ^ 2 * deriv (deriv (g k)) (x k)) =
      1 / 2 * (deriv (g i) (x i) ^ 2 * g i (x i) + ∑ j, g j (x j) ^ 2 * deriv (deriv (g j)) (x j)) := by
    rw [← Finset.mul_sum, Finset.sum_add_distrib]
    simp [diagonal_mul_diagonal, diagonal_apply, pow_two]
  rw [stepFn_poly]
  simp only [hPs, hPd, hds, hls f hf, hls g hg]
  rw [hT]
  generalize 1 / 2 * (deriv (g i) (x i) ^ 2 * g i (x i) + ∑ j, g j (x j) ^ 2 * deriv (deriv (g j)) (x j)) = T
  have hsum : ∑ j, (((diagonal fun i => g i (x i) : Mat d d) i j + h * (((diagonal fun i => deriv (g i) (x i) : Mat d d) *ᵥ
        fun i => f i (x i)) j + 1 / 2 * (g j (x j) ^ 2 * deriv (deriv (g j)) (x j)))) * η j +
      (((diagonal fun i => deriv (f i) (x i) : Mat d d) * diagonal fun i => g i (x i)) i j -
        (((diagonal fun i => deriv (g i) (x i) : Mat d d) *ᵥ fun i => f i (x i)) j +
          1 / 2 * (g j (x j) ^ 2 * deriv (deriv (g j)) (x j)))) * ζ j +
      (1 / 2 * ((diagonal fun i => deriv (g i) (x i) : Mat d d) * diagonal fun i => g i (x i)) i j + 1 / 3 * T) * η j ^ 2) =
      g i (x i) * η i + deriv (f i) (x i) * g i (x i) * ζ i + 1 / 2 * (deriv (g i) (x i) * g i (x i)) * η i ^ 2 +
      ∑ j, (deriv (g j) (x j) * f j (x j) + 1 / 2 * (g j (x j) ^ 2 * deriv (deriv (g j)) (x j))) * (h * η j - ζ j) +
      1 / 3 * T * ∑ j, η j ^ 2 := by
    have hi : ∀ q : Fin d → ℝ, q i = ∑ j, if i = j then q j else 0 := fun q => by simp
    rw [hi fun j => g j (x j) * η j, hi fun j => deriv (f j) (x j) * g j (x j) * ζ j,
      hi fun j => 1 / 2 * (deriv (g j) (x j) * g j (x j)) * η j ^ 2, Finset.mul_sum, ← Finset.sum_add_distrib,
      ← Finset.sum_add_distrib, ← Finset.sum_add_distrib, ← Finset.sum_add_distrib]
    refine Finset.sum_congr rfl fun j _ => ?_
    simp only [mulVec_diagonal, diagonal_mul_diagonal, diagonal_apply]
    by_cases hij : i = j
    · subst hij; simp; ring
    · simp [hij]; ring
  rw [hsum]
  have hq : ∑ j, (1 / 2 : ℝ) * ((diagonal fun i => deriv (g i) (x i) : Mat d d) * diagonal fun i => g i (x i)) i j =
      1 / 2 * (deriv (g i) (x i) * g i (x i)) := by
    simp [diagonal_mul_diagonal, diagonal_apply]
  rw [hq]
  simp only [mulVec_diagonal]
  ring

/-- What C62 asks for: the `i`-th output is determined by the `i`-th components of the state and of the noise. -/
def Coordinatewise {d : ℕ} (F : Vec d → Vec d → Vec d → Vec d) : Prop :=
  ∀ (i : Fin d) (x x' ζ ζ' η η' : Vec d), x i = x' i → ζ i = ζ' i → η i = η' i → F x ζ η i = F x' ζ' η' i

/-- C62 fails: for `dX_i = X_i dW_i`, in every dimension at least two and for every step, from every state with `x_i ≠ 0`, the
`i`-th output changes with the noise of any other coordinate. -/
theorem C62_fails {d : ℕ} (h : ℝ) (x : Vec d) (i j : Fin d) (hij : i ≠ j) (hx : x i ≠ 0) :
    ∃ ζ η η' : Vec d, η i = η' i ∧ (∀ k, k ≠ j → η k = η' k) ∧
      Diag15.stepFn (fun _ => 0) diagonal h x ζ η i ≠ Diag15.stepFn (fun _ => 0) diagonal h x ζ η' i := by
  refine ⟨0, 0, Pi.single j 1, by simp [hij], fun k hk => by simp [hk], ?_⟩
  have h1 := C62_exact (d := d) (f := fun _ _ => 0) (g := fun _ y => y) (fun _ => contDiff_const) (fun _ => contDiff_id) h x 0
  have hd : deriv (fun y : ℝ => y) = fun _ => 1 := by funext y; exact deriv_id y
  have e1 := h1 0 i
  have e2 := h1 (Pi.single j 1) i
  simp only [hd, deriv_const', mul_zero, add_zero, zero_mul, Finset.sum_const_zero, one_pow, one_mul, Pi.zero_apply, sub_zero,
    Pi.single_apply, hij, if_false] at e1 e2
  intro he
  have he' := e1.symm.trans (he.trans e2)
  have hs : ∑ k : Fin d, (if k = j then (1 : ℝ) else 0) ^ 2 = 1 := by simp
  rw [hs] at he'
  simp only [ne_eq, OfNat.ofNat_ne_zero, not_false_eq_true, zero_pow, Finset.sum_const_zero] at he'
  exact hx (by linarith)

theorem C62_not_coordinatewise {d : ℕ} (hd : 2 ≤ d) (h : ℝ) :
    ¬ Coordinatewise fun x ζ η : Vec d => Diag15.stepFn (fun _ => 0) diagonal h x ζ η := by
  intro hc
  obtain ⟨ζ, η, η', h1, -, h2⟩ := C62_fails h (1 : Vec d) ⟨0, by omega⟩ ⟨1, by omega⟩ (by simp) (by simp)
  exact h2 (hc _ _ _ _ _ _ _ rfl rfl h1)

/-- C62, what holds: decoupled problems with additive noise are solved coordinate by coordinate. Missing: multiplicative noise. -/
theorem C62_partial {d : ℕ} {f : Fin d → ℝ → ℝ} (hf : ∀ i, ContDiff ℝ 2 (f i)) (s : Vec d) (h : ℝ) :
    Coordinatewise fun x ζ η : Vec d => Diag15.stepFn (fun z i => f i (z i)) (fun _ => diagonal s) h x ζ η := by
  intro i x x' ζ ζ' η η' hx hζ hη
  have h1 := fun x ζ η => C62_exact (d := d) (f := f) (g := fun j _ => s j) hf (fun _ => contDiff_const) h x ζ η i
  simp only [deriv_const', mul_zero, add_zero, zero_mul, Finset.sum_const_zero, ne_eq, OfNat.ofNat_ne_zero,
    not_false_eq_true, zero_pow] at h1
  simp only [h1, hx, hζ, hη]

example : ∀ i : Fin 3, ContDiff ℝ 2 ((fun (i : Fin 3) (y : ℝ) => y - (i : ℝ) * y ^ 3) i) := by
  intro i; fun_prop

/-! ## C63: the hypoelliptic scheme -/

/-- The noise the hypoelliptic scheme stands for: `(∂ᵤa Γ ∫W, Γ W)`, where `a` is the first drift component, `Γ` the diffusion of
the remaining (rough) components and `∂ᵤ` the derivative in the direction of these. -/
noncomputable def hypoNoise {d m : ℕ} (drift : Vec (d + 1) → Vec (d + 1)) (sigma : Vec (d + 1) → Mat (d + 1) m) (x : Vec (d + 1))
    (dW dZ : Vec m) : Vec (d + 1) :=
  Fin.cons (fderiv ℝ (fun z => drift z 0) x (Fin.cons 0 fun i : Fin d => ∑ l, sigma x i.succ l * dZ l))
    fun i : Fin d => ∑ l, sigma x i.succ l * dW l

/-- The matrix taking `(W, ∫W)` to `hypoNoise`. -/
noncomputable def hypoLoad {d m : ℕ} (drift : Vec (d + 1) → Vec (d + 1)) (sigma : Vec (d + 1) → Mat (d + 1) m) (x : Vec (d + 1)) :
    Matrix (Fin (d + 1)) (Fin 2 × Fin m) ℝ := fun r c =>
  (Fin.cons (![0, (Hypo15.partialua drift x ᵥ* Hypo15.Gamma sigma x) c.2] c.1)
    (fun i => ![Hypo15.Gamma sigma x i c.2, 0] c.1) : Vec (d + 1)) r

theorem hypoLoad_mulVec {d m : ℕ} (drift : Vec (d + 1) → Vec (d + 1)) (sigma : Vec (d + 1) → Mat (d + 1) m) (x : Vec (d + 1))
    (dW dZ : Vec m) : hypoLoad drift sigma x *ᵥ coeffVec dW dZ = hypoNoise drift sigma x dW dZ := by
  funext r
  rw [mulVec, dotProduct, Fintype.sum_prod_type, Fin.sum_univ_two]
  refine Fin.cases ?_ (fun i => ?_) r
  · have hv : (Fin.cons 0 fun i : Fin d => ∑ l, sigma x i.succ l * dZ l : Vec (d + 1)) =
        ∑ i : Fin d, (∑ l, sigma x i.succ l * dZ l) • (Pi.single i.succ (1 : ℝ) : Vec (d + 1)) := by
      funext k
      refine Fin.cases ?_ (fun j => ?_) k
      · simp [Finset.sum_apply]
      · simp [Finset.sum_apply, Pi.single_apply]
    rw [hypoNoise, Fin.cons_zero, hv]
    simp only [map_sum, map_smul, smul_eq_mul, hypoLoad, Fin.cons_zero, coeffVec, cons_val_zero, cons_val_one, zero_mul,
      Finset.sum_const_zero, zero_add, vecMul, dotProduct, Hypo15.Gamma, Hypo15.partialua, pd, Finset.sum_mul]
    rw [Finset.sum_comm]
    refine Finset.sum_congr rfl fun i _ => Finset.sum_congr rfl fun l _ => by ring
  · simp [hypoLoad, hypoNoise, coeffVec, Hypo15.Gamma]

theorem hypoLoad_cov {d m : ℕ} (drift : Vec (d + 1) → Vec (d + 1)) (sigma : Vec (d + 1) → Mat (d + 1) m) (x : Vec (d + 1)) (h : ℝ) :
    hypoLoad drift sigma x * bmCovDim m h * (hypoLoad drift sigma x)ᵀ = Hypo15.noiseCov drift sigma h x := by
  set pu := Hypo15.partialua drift x with hpu
  set G := Hypo15.Gamma sigma x with hG
  have hmul : ∀ r s l, (hypoLoad drift sigma x * bmCovDim m h) r (s, l) =
      hypoLoad drift sigma x r (0, l) * bmCov h 0 s + hypoLoad drift sigma x r (1, l) * bmCov h 1 s := by
    intro r s l
    rw [mul_apply, Fintype.sum_prod_type, Fin.sum_univ_two]
    simp [bmCovDim]
  have hGG : ∀ i j, Hypo15.GammaGammaT sigma x i j = ∑ l, G i l * G j l := by
    intro i j; simp [Hypo15.GammaGammaT, mul_apply, hG]
  have hrow : ∀ j, (pu ᵥ* Hypo15.GammaGammaT sigma x) j = ∑ l, (pu ᵥ* G) l * G j l := by
    intro j
    rw [Hypo15.GammaGammaT, ← vecMul_vecMul]
    simp [vecMul, dotProduct, hG]
  have hq : pu ᵥ* Hypo15.GammaGammaT sigma x ⬝ᵥ pu = ∑ l, (pu ᵥ* G) l * (pu ᵥ* G) l := by
    rw [Hypo15.GammaGammaT, ← vecMul_vecMul, ← dotProduct_mulVec, mulVec_transpose]
    rfl
  ext r c
  rw [mul_apply, Fintype.sum_prod_type, Fin.sum_univ_two]
  simp only [hmul, transpose_apply]
  refine Fin.cases ?_ (fun i => ?_) r <;> refine Fin.cases ?_ (fun j => ?_) c
  · simp only [hypoLoad, Fin.cons_zero, cons_val_zero, cons_val_one, bmCov, Hypo15.noiseCov, ← hpu, ← hG, hq, of_apply]
    rw [Finset.sum_mul, Finset.sum_div, ← Finset.sum_add_distrib]
    exact Finset.sum_congr rfl fun l _ => by simp; ring
  · simp only [hypoLoad, Fin.cons_zero, Fin.cons_succ, cons_val_zero, cons_val_one, bmCov, Hypo15.noiseCov, ← hpu, ← hG, hrow,
      of_apply]
    rw [Finset.sum_mul, Finset.sum_div, ← Finset.sum_add_distrib]
    exact Finset.sum_congr rfl fun l _ => by simp; ring
  · simp only [hypoLoad, Fin.cons_zero, Fin.cons_succ, cons_val_zero, cons_val_one, bmCov, Hypo15.noiseCov, ← hpu, ← hG, hrow,
      of_apply]
    rw [Finset.sum_mul, Finset.sum_div, ← Finset.sum_add_distrib]
    exact Finset.sum_congr rfl fun l _ => by simp; ring
  · simp only [hypoLoad, Fin.cons_succ, cons_val_zero, cons_val_one, bmCov, Hypo15.noiseCov, ← hG, hGG, of_apply]
    rw [Finset.sum_mul, ← Finset.sum_add_distrib]
    exact Finset.sum_congr rfl fun l _ => by simp; ring

/-- C63: if `(W, ∫W)` has the law of the increment and the integral of an `m`-dimensional Brownian motion over the step, the noise
`(∂ᵤa Γ ∫W, Γ W)` is normal with the covariance used by the scheme. -/
theorem C63_covariance {Ω : Type*} [MeasurableSpace Ω] {P : Measure Ω} {d m : ℕ} (drift : Vec (d + 1) → Vec (d + 1))
    (sigma : Vec (d + 1) → Mat (d + 1) m) (x : Vec (d + 1)) (h : ℝ) (dW dZ : Ω → Vec m)
    (hW : IsNormal P (fun ω => coeffVec (dW ω) (dZ ω)) 0 (bmCovDim m h)) :
    IsNormal P (fun ω => hypoNoise drift sigma x (dW ω) (dZ ω)) 0 (Hypo15.noiseCov drift sigma h x) := by
  have h1 := hW.affine 0 (hypoLoad drift sigma x)
  simp only [mulVec_zero, zero_add, hypoLoad_cov, hypoLoad_mulVec] at h1
  exact h1

theorem bmCovDim_psd (m : ℕ) {h : ℝ} (hh : 0 ≤ h) : (bmCovDim m h).PosSemidef := by
  rcases hh.eq_or_lt with rfl | hh
  · have : bmCovDim m 0 = 0 := by
      ext ⟨s, i⟩ ⟨t, j⟩
      fin_cases s <;> fin_cases t <;> simp [bmCovDim, bmCov]
    rw [this]
    exact PosSemidef.zero
  · exact (C13_increment_and_area_law idealNormals_drawsRng m [] h hh).posSemidef

/-- C63: the covariance is symmetric positive semi-definite. -/
theorem C63_psd {d m : ℕ} (drift : Vec (d + 1) → Vec (d + 1)) (sigma : Vec (d + 1) → Mat (d + 1) m) (x : Vec (d + 1)) {h : ℝ}
    (hh : 0 ≤ h) : (Hypo15.noiseCov drift sigma h x).PosSemidef := by
  rw [← hypoLoad_cov]
  have := (bmCovDim_psd m hh).mul_mul_conjTranspose_same (hypoLoad drift sigma x)
  rwa [conjTranspose_eq_transpose_of_trivial] at this

/-- C63: it is positive definite in the hypoelliptic case: `Γ Γᵀ` is, and the smooth component is driven by the rough ones. -/
theorem C63_posDef {d m : ℕ} (drift : Vec (d + 1) → Vec (d + 1)) (sigma : Vec (d + 1) → Mat (d + 1) m) (x : Vec (d + 1)) {h : ℝ}
    (hh : 0 < h) (hG : (Hypo15.GammaGammaT sigma x).PosDef)
    (hu : ∃ j : Fin d, fderiv ℝ (fun z => drift z 0) x (Pi.single j.succ 1) ≠ 0) :
    (Hypo15.noiseCov drift sigma h x).PosDef := by
  refine pd_of (psd_symm (C63_psd drift sigma x hh.le)) fun y hy => ?_
  set pu := Hypo15.partialua drift x with hpu
  set GG := Hypo15.GammaGammaT sigma x
  have hpu0 : pu ≠ 0 := by
    obtain ⟨j, hj⟩ := hu
    intro h0
    exact hj (congrFun h0 j)
  set u := y 0
  set v : Vec d := fun i => y i.succ
  have hGs : GGᵀ = GG := pd_symm hG
  have hc : ∀ w : Vec d, (pu ᵥ* GG) ⬝ᵥ w = w ⬝ᵥ GG *ᵥ pu := by
    intro w
    rw [← hGs, vecMul_transpose, hGs, dotProduct_comm]
  have hquad : y ⬝ᵥ Hypo15.noiseCov drift sigma h x *ᵥ y =
      h * ((v + (h * u / 2) • pu) ⬝ᵥ GG *ᵥ (v + (h * u / 2) • pu)) + h ^ 3 / 12 * u ^ 2 * (pu ⬝ᵥ GG *ᵥ pu) := by
    have h0 : (Hypo15.noiseCov drift sigma h x *ᵥ y) 0 = (pu ⬝ᵥ GG *ᵥ pu) * h ^ 3 / 3 * u + h ^ 2 / 2 * (v ⬝ᵥ GG *ᵥ pu) := by
      rw [← hc v, ← hc pu, mulVec, dotProduct, Fin.sum_univ_succ]
      simp only [Hypo15.noiseCov, Fin.cons_zero, Fin.cons_succ]
      congr 1
      rw [dotProduct, Finset.mul_sum]
      exact Finset.sum_congr rfl fun j _ => by ring
    have hs : ∀ i : Fin d, (Hypo15.noiseCov drift sigma h x *ᵥ y) i.succ = h ^ 2 / 2 * u * (GG *ᵥ pu) i + h * (GG *ᵥ v) i := by
      intro i
      have hrow : (pu ᵥ* GG) i = (GG *ᵥ pu) i := by rw [← hGs, vecMul_transpose, hGs]
      rw [← hrow, mulVec, dotProduct, Fin.sum_univ_succ]
      simp only [Hypo15.noiseCov, Fin.cons_zero, Fin.cons_succ]
      congr 1
      · ring
      · rw [mulVec, dotProduct, Finset.mul_sum]
        exact Finset.sum_congr rfl fun j _ => by ring
    have hs' : ∑ i : Fin d, y i.succ * (Hypo15.noiseCov drift sigma h x *ᵥ y) i.succ =
        h ^ 2 / 2 * u * (v ⬝ᵥ GG *ᵥ pu) + h * (v ⬝ᵥ GG *ᵥ v) := by
      simp only [hs, dotProduct, Finset.mul_sum, ← Finset.sum_add_distrib]
      exact Finset.sum_congr rfl fun i _ => by ring
    have hsym : pu ⬝ᵥ GG *ᵥ v = v ⬝ᵥ GG *ᵥ pu := by
      rw [dotProduct_mulVec, hc]
    rw [dotProduct, Fin.sum_univ_succ, hs', h0, mulVec_add, mulVec_smul, dotProduct_add, add_dotProduct, add_dotProduct,
      dotProduct_smul, dotProduct_smul, smul_dotProduct, smul_dotProduct, hsym]
    simp only [smul_eq_mul]
    ring
  rw [hquad]
  have hp := pd_pos hG hpu0
  by_cases hu0 : u = 0
  · have hv : v ≠ 0 := by
      intro h0
      apply hy
      funext k
      refine Fin.cases hu0 (fun i => congrFun h0 i) k
    have := pd_pos hG hv
    simp only [hu0, mul_zero, zero_div, zero_smul, add_zero, ne_eq, OfNat.ofNat_ne_zero, not_false_eq_true, zero_pow, zero_mul]
    positivity
  · have h1 := psd_nonneg hG.posSemidef (v + (h * u / 2) • pu)
    have : 0 < u ^ 2 := by positivity
    positivity

/-- C63: the law of one step from a given state, in the non-degenerate case: the mean is the second order Itô-Taylor expansion of the
mean, the covariance is the one of `(∂ᵤa Γ ∫W, Γ W)`. -/
theorem C63_one_step {la : LinAlg} (hla : la.Correct) {Ω : Type*} [MeasurableSpace Ω] {P : Measure Ω} {R : Ω → Rng}
    (hR : IdealNormals P R) (key : Key) {d m : ℕ} {drift : Vec (d + 1) → Vec (d + 1)} (hb : ContDiff ℝ 2 drift)
    (sigma : Vec (d + 1) → Mat (d + 1) m) (x : Vec (d + 1)) {h : ℝ} (hC : (Hypo15.noiseCov drift sigma h x).PosDef) :
    IsNormal P (fun ω => (Hypo15.body la (R ω) drift sigma h x key).1)
      (x + h • drift x + (h ^ 2 / 2) • driftGenerator drift (sigma x) x) (Hypo15.noiseCov drift sigma h x) := by
  have h1 := (normalVec_std hR (key.child 1 0) (d + 1)).affine
    (x + h • drift x + (h ^ 2 / 2) • driftGenerator drift (sigma x) x) (la.cholesky (Hypo15.noiseCov drift sigma h x))
  rw [mulVec_zero, add_zero, Matrix.mul_one, hla.chol_mul _ hC] at h1
  refine (congrArg (fun X => IsNormal P X _ _) ?_).mp h1
  funext ω
  have hdiff : DifferentiableAt ℝ drift x := hb.differentiable (by norm_num) x
  have hl : (h ^ 2 / 4) • Hypo15.laplaceweighted sigma drift x = (h ^ 2 / 2) • ((1 / 2 : ℝ) • ∑ j, ∑ k,
      (∑ l, sigma x j l * sigma x k l) • iteratedFDeriv ℝ 2 drift x ![Pi.single j 1, Pi.single k 1]) := by
    funext i
    simp only [Pi.smul_apply, Finset.sum_apply, smul_eq_mul, Hypo15.laplaceweighted, hessian_eq hb, mul_apply, transpose_apply]
    rw [Finset.sum_comm, ← mul_assoc]
    congr 1
    · ring
    · refine Finset.sum_congr rfl fun j _ => Finset.sum_congr rfl fun k _ => ?_
      congr 1
      exact Finset.sum_congr rfl fun l _ => mul_comm _ _
  simp only [Hypo15.body, Rng.multivariateNormal, zero_add]
  rw [hl, jac_mulVec hdiff, driftGenerator]
  funext i
  simp only [Pi.add_apply, Pi.smul_apply, smul_eq_mul]
  ring

/-- C63, the non-degenerate case occurs: a noisy oscillator (position driven by the velocity). -/
example (x : Vec 2) : (Hypo15.noiseCov (fun z : Vec 2 => ![z 1, -z 0]) (fun _ => (!![0; 2] : Mat 2 1)) (1 / 10) x).PosDef := by
  refine C63_posDef (d := 1) _ _ x (by norm_num) ?_ ⟨0, ?_⟩
  · have : Hypo15.GammaGammaT (d := 1) (fun _ => (!![0; 2] : Mat 2 1)) x = (4 : ℝ) • (1 : Mat 1 1) := by
      ext i j
      fin_cases i; fin_cases j
      simp [Hypo15.GammaGammaT, Hypo15.Gamma, mul_apply]; norm_num
    rw [this]
    exact PosDef.one.smul (by norm_num)
  · have h1 : (fun z : Vec 2 => (![z 1, -z 0] : Vec 2) 0) = fun z => z 1 := by funext z; simp
    have h2 : fderiv ℝ (fun z : Vec 2 => z 1) x = ContinuousLinearMap.proj 1 :=
      (ContinuousLinearMap.proj (R := ℝ) (φ := fun _ : Fin 2 => ℝ) 1).fderiv
    rw [h1, h2]
    simp

end Verif
