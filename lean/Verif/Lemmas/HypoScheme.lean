import Verif.Lemmas.HypoCore
import Verif.Lemmas.Order15Scheme
import Verif.Lemmas.MarkovLaw
import Verif.Lemmas.WeakLaw

/-! The scheme of `hypoelliptic_diffusion__diag_15_scheme.py` with a constant diffusion. -/

namespace Verif

open Matrix Spec Jnp Set MeasureTheory ProbabilityTheory Filter
open scoped NNReal Topology

variable {d m : ℕ}

/-- The mean of a step. -/
noncomputable def hypoMean (b : Vec (d + 1) → Vec (d + 1)) (S : Mat (d + 1) m) (h : ℝ) (x : Vec (d + 1)) : Vec (d + 1) :=
  x + h • b x + (h ^ 2 / 2) • driftGenerator b S x

theorem hypo_body_eq (la : LinAlg) (rng : Rng) (key : Key) {b : Vec (d + 1) → Vec (d + 1)} (hb : ContDiff ℝ 2 b) (S : Mat (d + 1) m)
    (x : Vec (d + 1)) (h : ℝ) : (Hypo15.body la rng b (fun _ => S) h x key).1 =
      hypoMean b S h x + la.cholesky (Hypo15.noiseCov b (fun _ => S) h x) *ᵥ rng.normalVec (key.child 1 0) (d + 1) := by
  have hdiff : DifferentiableAt ℝ b x := hb.differentiable (by norm_num) x
  have hl : (h ^ 2 / 4) • Hypo15.laplaceweighted (fun _ => S) b x = (h ^ 2 / 2) • ((1 / 2 : ℝ) • ∑ j, ∑ k,
      (∑ l, S j l * S k l) • iteratedFDeriv ℝ 2 b x ![Pi.single j 1, Pi.single k 1]) := by
    funext i
    simp only [Pi.smul_apply, Finset.sum_apply, smul_eq_mul, Hypo15.laplaceweighted, hessian_eq hb, mul_apply, transpose_apply]
    rw [Finset.sum_comm, ← mul_assoc]
    congr 1
    · ring
    · refine Finset.sum_congr rfl fun j _ => Finset.sum_congr rfl fun k _ => ?_
      congr 1
      exact Finset.sum_congr rfl fun l _ => mul_comm _ _
  simp only [Hypo15.body, Rng.multivariateNormal, zero_add]
  rw [hl, jac_mulVec hdiff, hypoMean, driftGenerator]
  funext i
  simp only [Pi.add_apply, Pi.smul_apply, smul_eq_mul]
  ring

theorem hypo_states (la : LinAlg) (rng : Rng) (key : Key) (init : Vec (d + 1)) {b : Vec (d + 1) → Vec (d + 1)} (hb : ContDiff ℝ 2 b)
    (S : Mat (d + 1) m) (h : ℝ) (N : ℕ) :
    ∃ y : ℕ → Vec (d + 1), (∀ n ≤ N, (Hypo15.solver la rng key init b (fun _ => S) h N).2[n]? = some (y n)) ∧ y 0 = init ∧
      ∀ k < N, y (k + 1) = hypoMean b S h (y k) +
        la.cholesky (Hypo15.noiseCov b (fun _ => S) h (y k)) *ᵥ rng.normalVec ((key.child N k).child 1 0) (d + 1) := by
  obtain ⟨g, hg⟩ : ∃ g : Vec (d + 1) → Key → Vec (d + 1), ∀ x ky, g x ky = hypoMean b S h x +
      la.cholesky (Hypo15.noiseCov b (fun _ => S) h x) *ᵥ rng.normalVec (ky.child 1 0) (d + 1) := ⟨_, fun _ _ => rfl⟩
  have hbody : Hypo15.body la rng b (fun _ => S) h = fun x ky => (g x ky, g x ky) := by
    funext x ky
    rw [hg, ← hypo_body_eq la rng ky hb S x h]
    rfl
  have he : (Hypo15.solver la rng key init b (fun _ => S) h N).2 = insertArr (scan (Hypo15.body la rng b (fun _ => S) h) init (key.split N)).2 init := rfl
  have hlen : (key.split N).length = N := by simp [Key.split]
  rw [he, hbody, insertArr_eq]
  refine ⟨fun n => (scan (fun x ky => (g x ky, g x ky)) init ((key.split N).take n)).1,
    fun n hn => traj_getElem? g init (key.split N) n (by omega), rfl, fun k hk => ?_⟩
  have hki : (key.split N)[k]? = some (key.child N k) := by
    rw [Key.split, List.getElem?_map, List.getElem?_range hk]; rfl
  rw [← hg]
  exact scan_take_succ_fst _ _ _ k _ hki

/-- The draws of the steps are independent. -/
theorem hypo_draws {Ω : Type*} [MeasurableSpace Ω] {P : Measure Ω} {R : Ω → Rng} (hR : IdealNormals P R) (key : Key) (N n : ℕ) :
    iIndepFun (fun (p : Fin N × Fin n) ω => (R ω).normalVec ((key.child N p.1).child 1 0) n p.2) P := by
  set K : Fin N → Key := fun k => (key.child N k).child 1 0 with hK
  have hdiv : Pairwise fun a b : Fin N => (K a).Diverge (K b) := fun a b hab =>
    ((Key.diverge_child key N a b (fun he => hab (Fin.ext he))).child_left 1 0).child_right 1 0
  have hn : [n].prod = n := by simp
  exact (hR.indep K (fun _ => [n]) hdiv).precomp
    (g := fun p : Fin N × Fin n => (⟨p.1, ⟨p.2.1, by rw [hn]; exact p.2.2⟩⟩ : Σ _ : Fin N, Fin [n].prod))
    (fun p q hpq => by
      obtain ⟨a, i⟩ := p
      obtain ⟨b, j⟩ := q
      simp only [Sigma.mk.injEq] at hpq
      obtain ⟨rfl, h2⟩ := hpq
      have := congrArg Fin.val (eq_of_heq h2)
      simp only at this
      rw [Fin.ext this])

theorem hypo_draws_meas {Ω : Type*} [MeasurableSpace Ω] {P : Measure Ω} {R : Ω → Rng} (hR : IdealNormals P R) (key : Key) (n : ℕ) (i : Fin n) :
    AEMeasurable (fun ω => (R ω).normalVec key n i) P := ((normalVec_std hR key n).eval i).aemeasurable

/-- The factor of the integrals in the scheme: the Jacobian of the first component only. -/
noncomputable def firstRow (A : Vec (d + 1) →L[ℝ] Vec (d + 1)) : Vec (d + 1) →L[ℝ] Vec (d + 1) :=
  (ContinuousLinearMap.single ℝ (fun _ : Fin (d + 1) => ℝ) 0).comp ((ContinuousLinearMap.proj (R := ℝ) (φ := fun _ : Fin (d + 1) => ℝ) 0).comp A)

theorem firstRow_apply (A : Vec (d + 1) →L[ℝ] Vec (d + 1)) (v : Vec (d + 1)) : firstRow A v = Pi.single 0 (A v 0) := rfl

theorem firstRow_norm (A : Vec (d + 1) →L[ℝ] Vec (d + 1)) : ‖firstRow A‖ ≤ ‖A‖ :=
  ContinuousLinearMap.opNorm_le_bound _ (norm_nonneg _) fun v => by
    rw [firstRow_apply]
    have h1 : ‖A v 0‖ ≤ ‖A‖ * ‖v‖ := (norm_le_pi_norm (A v) 0).trans (A.le_opNorm v)
    rw [pi_norm_le_iff_of_nonneg (by positivity)]
    intro i
    refine Fin.cases ?_ (fun j => ?_) i
    · simpa using h1
    · rw [Pi.single_eq_of_ne (Fin.succ_ne_zero j), norm_zero]
      positivity

theorem firstRow_continuous : Continuous (firstRow : (Vec (d + 1) →L[ℝ] Vec (d + 1)) → _) := by
  unfold firstRow
  fun_prop

theorem hypoNoise_const {b : Vec (d + 1) → Vec (d + 1)} (hb : Differentiable ℝ b) {S : Mat (d + 1) m} (hS : ∀ l, S 0 l = 0)
    (x : Vec (d + 1)) (dW dZ : Vec m) :
    hypoNoise b (fun _ => S) x dW dZ = S *ᵥ dW + firstRow (fderiv ℝ b x) (S *ᵥ dZ) := by
  have h1 : (Fin.cons 0 fun i : Fin d => ∑ l, S i.succ l * dZ l : Vec (d + 1)) = S *ᵥ dZ := by
    funext i
    refine Fin.cases ?_ (fun j => ?_) i
    · simp [mulVec, dotProduct, hS]
    · simp [mulVec, dotProduct]
  have h2 : fderiv ℝ (fun z => b z 0) x (S *ᵥ dZ) = fderiv ℝ b x (S *ᵥ dZ) 0 := by
    have h3 := ((ContinuousLinearMap.proj (R := ℝ) (φ := fun _ : Fin (d + 1) => ℝ) 0).hasFDerivAt.comp x (hb x).hasFDerivAt).fderiv
    have h4 : fderiv ℝ (fun z => b z 0) x = (ContinuousLinearMap.proj (R := ℝ) (φ := fun _ : Fin (d + 1) => ℝ) 0).comp (fderiv ℝ b x) := h3
    rw [h4]
    rfl
  rw [hypoNoise, h1, h2, firstRow_apply]
  funext i
  refine Fin.cases ?_ (fun j => ?_) i
  · simp [mulVec, dotProduct, hS]
  · simp [mulVec, dotProduct]

/-- One step has the same law with drawn noise and with the increments and integrals of a Brownian motion. -/
theorem hypo_step_law {la : LinAlg} (hla : la.Correct) {Ω Ω' : Type*} [MeasurableSpace Ω] [MeasurableSpace Ω'] {P : Measure Ω} {Q : Measure Ω'}
    {R : Ω' → Rng} (hR : IdealNormals Q R) (key : Key) {b : Vec (d + 1) → Vec (d + 1)} (hb : ContDiff ℝ 2 b) {S : Mat (d + 1) m}
    (hS : ∀ l, S 0 l = 0) (x : Vec (d + 1)) {h : ℝ} (hC : (Hypo15.noiseCov b (fun _ => S) h x).PosDef) {dW dZ : Ω → Vec m}
    (hW : IsNormal P (fun ω => coeffVec (dW ω) (dZ ω)) 0 (bmCovDim m h)) :
    IdentDistrib (fun ω => taylorWith b S (firstRow (fderiv ℝ b x)) h x (dW ω) (dZ ω))
      (fun ω => hypoMean b S h x + la.cholesky (Hypo15.noiseCov b (fun _ => S) h x) *ᵥ (R ω).normalVec key (d + 1)) P Q := by
  have h1 := (C63_covariance b (fun _ => S) x h dW dZ hW).affine (hypoMean b S h x) 1
  have h2 := (normalVec_std hR key (d + 1)).affine (hypoMean b S h x) (la.cholesky (Hypo15.noiseCov b (fun _ => S) h x))
  simp only [mulVec_zero, add_zero, Matrix.mul_one, hla.chol_mul _ hC] at h2
  simp only [mulVec_zero, add_zero, Matrix.one_mul, transpose_one, Matrix.mul_one, one_mulVec] at h1
  have h3 := h1.identDistrib h2
  have e : (fun ω => taylorWith b S (firstRow (fderiv ℝ b x)) h x (dW ω) (dZ ω)) = fun ω => hypoMean b S h x + hypoNoise b (fun _ => S) x (dW ω) (dZ ω) := by
    funext ω
    rw [hypoNoise_const (hb.differentiable (by norm_num)) hS, taylorWith, hypoMean, add_assoc _ (S *ᵥ dW ω)]
  rw [e]
  exact h3

end Verif
