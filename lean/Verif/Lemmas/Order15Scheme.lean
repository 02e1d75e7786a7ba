import Verif.Lemmas.Order15Core
import Verif.Props.Taylor15
import Mathlib.Analysis.SpecialFunctions.Trigonometric.Bounds

/-! The runs of `diag_15_scheme.py`, the law of its noise, and a nonlinear drift with the smoothness asked for. -/

namespace Verif

open Matrix Spec Jnp Set MeasureTheory ProbabilityTheory Filter
open scoped NNReal Topology

variable {d : ℕ}

/-- With a constant diffusion `S` such that `S Sᵀ` is diagonal, one step is the Itô-Taylor step, for every noise. -/
theorem diag15_step_const {b : Vec d → Vec d} (hb : ContDiff ℝ 2 b) {S : Mat d d} (hS : ∀ j k, j ≠ k → ∑ l, S j l * S k l = 0)
    (h : ℝ) (x dW dZ : Vec d) : Diag15.stepFn b (fun _ => S) h x dZ dW = itoTaylorStep b S h x dW dZ := by
  have h1 : DifferentiableAt ℝ b x := hb.differentiable (by norm_num) x
  have hds : Diag15.diagSigma (fun _ : Vec d => S) = fun _ => fun i => S i i := rfl
  have hPs : Diag15.partialxsigma (fun _ => S) x = 0 := by
    rw [Diag15.partialxsigma, hds, jac_const]
  have hls : Diag15.laplaceweighted (fun _ => S) (Diag15.diagSigma fun _ => S) x = 0 := by
    funext i
    simp [Diag15.laplaceweighted, hds, hessian_const]
  have hld : (h ^ 2 / 4) • Diag15.laplaceweighted (fun _ => S) b x = (h ^ 2 / 2) • ((1 / 2 : ℝ) • ∑ j, ∑ k,
      (∑ l, S j l * S k l) • iteratedFDeriv ℝ 2 b x ![Pi.single j 1, Pi.single k 1]) := by
    funext i
    obtain ⟨c, hc⟩ : ∃ c : Vec d, ∀ j, c j = ∑ l, S j l * S j l := ⟨_, fun _ => rfl⟩
    have hsum : ∀ j k, (∑ l, S j l * S k l) = if j = k then c j else 0 := by
      intro j k
      by_cases hjk : j = k
      · subst hjk
        simp [hc]
      · simp [hjk, hS j k hjk]
    simp only [hsum, Pi.smul_apply, Finset.sum_apply, ite_smul, zero_smul, Finset.sum_ite_eq, Finset.mem_univ, if_true,
      smul_eq_mul, Diag15.laplaceweighted, dotProduct, mul_apply, transpose_apply, hessian_eq hb]
    ring
  have hz : (Diag15.partialxdrift b x * S) *ᵥ dZ = fderiv ℝ b x (S *ᵥ dZ) := by
    rw [← mulVec_mulVec, Diag15.partialxdrift, jac_mulVec h1]
  have h0 : (Matrix.of fun _ j => (0 : Vec d) j : Mat d d) = 0 := rfl
  simp only [Diag15.stepFn, hPs, hls, hz, h0, Matrix.zero_mul, smul_zero, zero_mulVec, zero_dotProduct, add_zero,
    Matrix.mul_zero]
  rw [hld, itoTaylorStep, driftGenerator, Diag15.partialxdrift, jac_mulVec h1]
  funext i
  simp only [Pi.add_apply, Pi.smul_apply, smul_eq_mul]
  ring

/-- Every sequence of noise can be drawn. -/
theorem exists_rng_noise15 {la : LinAlg} (hla : la.Correct) (key : Key) {δ : ℝ} (hδ : 0 < δ) (N : ℕ) (v : ℕ → Vec d × Vec d) :
    ∃ rng : Rng, ∀ k < N, Diag15.noise la rng d δ (key.child N k) = v k := by
  classical
  obtain ⟨L, hL⟩ : ∃ L, L = la.cholesky (Diag15.noiseCov d δ) := ⟨_, rfl⟩
  have hmul : L * Lᵀ = Diag15.noiseCov d δ := by rw [hL]; exact hla.chol_mul _ (Diag15.noiseCov_posDef hδ)
  have hdet : IsUnit L.det := by
    have h1 := (Diag15.noiseCov_posDef (d := d) hδ).det_pos
    rw [← hmul, det_mul, det_transpose] at h1
    exact isUnit_iff_ne_zero.mpr fun h0 => by rw [h0] at h1; simp at h1
  obtain ⟨z, hz⟩ : ∃ z : ℕ → Vec (d + d), ∀ k, z k = L⁻¹ *ᵥ Fin.append (v k).1 (v k).2 := ⟨_, fun _ => rfl⟩
  have hLz : ∀ k, L *ᵥ z k = Fin.append (v k).1 (v k).2 := fun k => by
    rw [hz, mulVec_mulVec, mul_nonsing_inv _ hdet, one_mulVec]
  refine ⟨⟨fun k _ i => if h : ∃ n, k = (key.child N n).child 1 0 then if h' : i < d + d then z h.choose ⟨i, h'⟩ else 0 else 0⟩, fun k _ => ?_⟩
  have hex : ∃ n, (key.child N k).child 1 0 = (key.child N n).child 1 0 := ⟨k, rfl⟩
  have hch : hex.choose = k := by
    have := hex.choose_spec
    generalize hex.choose = n at this ⊢
    simp only [Key.child, List.cons.injEq, Prod.mk.injEq, true_and, and_true] at this
    exact this.symm
  have hnv : (Rng.mk fun k _ i => if h : ∃ n, k = (key.child N n).child 1 0 then if h' : i < d + d then z h.choose ⟨i, h'⟩ else 0 else 0).normalVec
      ((key.child N k).child 1 0) (d + d) = z k := by
    funext i
    simp only [Rng.normalVec]
    rw [dif_pos hex, dif_pos i.2, hch]
  simp only [Diag15.noise, Rng.multivariateNormal]
  rw [hnv, ← hL, zero_add, hLz]
  refine Prod.ext (funext fun i => ?_) (funext fun i => ?_)
  · simp [Fin.append_left]
  · simp only [Fin.append_right]

/-- The states of a run. -/
theorem diag15_states (la : LinAlg) (rng : Rng) (key : Key) (init : Vec d) {b : Vec d → Vec d} (hb : ContDiff ℝ 2 b)
    {S : Mat d d} (hS : ∀ j k, j ≠ k → ∑ l, S j l * S k l = 0) (h : ℝ) (N : ℕ) :
    ∃ (ts : List ℝ) (xs : List (Vec d)) (y : ℕ → Vec d), Diag15.solver la rng key init b (fun _ => S) h N = .ok (ts, xs) ∧
      (∀ n ≤ N, xs[n]? = some (y n)) ∧ y 0 = init ∧
      ∀ k < N, y (k + 1) = itoTaylorStep b S h (y k) (Diag15.noise la rng d h (key.child N k)).2
          (Diag15.noise la rng d h (key.child N k)).1 := by
  set g : Vec d → Key → Vec d := fun x ky => itoTaylorStep b S h x (Diag15.noise la rng d h ky).2
      (Diag15.noise la rng d h ky).1 with hg
  have hbody : Diag15.body la rng b (fun _ => S) h = fun x ky => (g x ky, g x ky) := by
    funext x ky
    rw [Diag15.body_eq, diag15_step_const hb hS]
  have he : Diag15.solver la rng key init b (fun _ => S) h N = .ok (linspace 0 (N * h) (N + 1),
      insertArr (scan (Diag15.body la rng b (fun _ => S) h) init (key.split N)).2 init) := by
    rw [Diag15.solver, dif_pos rfl]
    rfl
  have hlen : (key.split N).length = N := by simp [Key.split]
  rw [hbody, insertArr_eq] at he
  refine ⟨_, _, fun n => (scan (fun x ky => (g x ky, g x ky)) init ((key.split N).take n)).1, he,
    fun n hn => traj_getElem? g init (key.split N) n (by omega), rfl, fun k hk => ?_⟩
  have hki : (key.split N)[k]? = some (key.child N k) := by
    rw [Key.split, List.getElem?_map, List.getElem?_range hk]; rfl
  exact scan_take_succ_fst _ _ _ k _ hki

/-- The increments and integrals of a Brownian motion over a grid are distributed as the noise of the scheme. -/
theorem brownian_noise15 {Ω : Type*} [MeasurableSpace Ω] {P : Measure Ω} {B : Fin d → ℝ≥0 → Ω → ℝ}
    (hB : IsBrownianVec B P) {δ : ℝ} (hδ : 0 < δ) (N : ℕ) :
    IsNormal P (fun ω (q : Fin N × (Fin 2 × Fin d)) => coeffVec
        (fun j => B j ((q.1 : ℕ) * δ + δ).toNNReal ω - B j ((q.1 : ℕ) * δ).toNNReal ω)
        (fun j => ∫ t in (0 : ℝ)..δ, (B j ((q.1 : ℕ) * δ + t).toNNReal ω - B j ((q.1 : ℕ) * δ).toNNReal ω)) q.2)
      0 (fun p q => if p.1 = q.1 then bmCovDim d δ p.2 q.2 else 0) := by
  have h6 : Real.sqrt 6 ≠ 0 := by positivity
  have h66 : Real.sqrt 6 * Real.sqrt 6 = 6 := Real.mul_self_sqrt (by norm_num)
  obtain ⟨G, hG⟩ : ∃ G : Matrix (Fin 2) (Fin 2) ℝ, G = !![1, 0; δ / 2, δ / Real.sqrt 6] := ⟨_, rfl⟩
  obtain ⟨M, hM⟩ : ∃ M : Matrix (Fin N × (Fin 2 × Fin d)) (Fin N × Fin d × Fin 2) ℝ,
    ∀ q r, M q r = if q.1 = r.1 then if q.2.2 = r.2.1 then G q.2.1 r.2.2 else 0 else 0 := ⟨fun q r => _, fun _ _ => rfl⟩
  have hl := (hB.incArea_law hδ N).affine 0 M
  have hMv : ∀ (z : Fin N × Fin d × Fin 2 → ℝ) q, (M *ᵥ z) q = ∑ s, G q.2.1 s * z (q.1, q.2.2, s) := fun z q => by
    simp only [mulVec, dotProduct, hM, Fintype.sum_prod_type]
    rw [Finset.sum_eq_single q.1 (fun a _ ha => by simp [Ne.symm ha]) (by simp)]
    rw [Finset.sum_eq_single q.2.2 (fun a _ ha => by simp [Ne.symm ha]) (by simp)]
    simp
  have e1 : (fun ω (q : Fin N × (Fin 2 × Fin d)) => coeffVec
        (fun j => B j ((q.1 : ℕ) * δ + δ).toNNReal ω - B j ((q.1 : ℕ) * δ).toNNReal ω)
        (fun j => ∫ t in (0 : ℝ)..δ, (B j ((q.1 : ℕ) * δ + t).toNNReal ω - B j ((q.1 : ℕ) * δ).toNNReal ω)) q.2) =
      fun ω => 0 + M *ᵥ fun q : Fin N × Fin d × Fin 2 => incArea (fun t => B q.2.1 t.toNNReal ω) δ q.1 q.2.2 := by
    funext ω ⟨k, s, j⟩
    rw [zero_add, hMv, Fin.sum_univ_two]
    have hs : s = 0 ∨ s = 1 := by fin_cases s <;> simp
    rcases hs with rfl | rfl
    · simp [coeffVec, hG, incArea]
    · simp only [coeffVec, hG, incArea, cons_val_one, cons_val_zero, cons_val_fin_one, of_apply, cons_val']
      field_simp
      ring
  have e2 : M * (diagonal fun q : Fin N × Fin d × Fin 2 => ![δ, δ / 2] q.2.2) * Mᵀ =
      fun p q => if p.1 = q.1 then bmCovDim d δ p.2 q.2 else 0 := by
    ext ⟨k, s, j⟩ ⟨k', s', j'⟩
    have h1 : (M * (diagonal fun q : Fin N × Fin d × Fin 2 => ![δ, δ / 2] q.2.2) * Mᵀ) (k, s, j) (k', s', j') =
        (M *ᵥ fun q => ![δ, δ / 2] q.2.2 * M (k', s', j') q) (k, s, j) := by
      rw [mul_apply]
      simp only [mul_diagonal, transpose_apply, mulVec, dotProduct, mul_assoc]
    rw [h1, hMv, Fin.sum_univ_two]
    simp only [hM, bmCovDim, bmCov, hG]
    by_cases hk : k = k'
    · subst hk
      by_cases hj : j = j'
      · subst hj
        have hs : s = 0 ∨ s = 1 := by fin_cases s <;> simp
        have hs' : s' = 0 ∨ s' = 1 := by fin_cases s' <;> simp
        rcases hs with rfl | rfl <;> rcases hs' with rfl | rfl <;> simp
        · ring
        · ring
        · field_simp
          rw [show Real.sqrt 6 ^ 2 = 6 by rw [sq, h66]]
          ring
      · simp [hj, Ne.symm hj]
    · simp [hk, Ne.symm hk]
  rw [e1, ← e2]
  rw [mulVec_zero, zero_add] at hl
  exact hl

theorem hasFDerivAt_pointwise {g g' : ℝ → ℝ} (hg : ∀ t, HasDerivAt g (g' t) t) (x : Vec d) :
    HasFDerivAt (fun (x : Vec d) (i : Fin d) => g (x i)) (ContinuousLinearMap.mul ℝ (Vec d) fun i => g' (x i)) x := by
  rw [hasFDerivAt_pi']
  intro i
  have h1 := (hg (x i)).comp_hasFDerivAt x ((ContinuousLinearMap.proj (R := ℝ) (φ := fun _ : Fin d => ℝ) i).hasFDerivAt)
  refine h1.congr_fderiv ?_
  ext v
  simp

theorem pointwise_lip {g : ℝ → ℝ} (hg : ∀ s t, |g s - g t| ≤ |s - t|) (x y : Vec d) :
    ‖(fun i => g (x i)) - fun i => g (y i)‖ ≤ ‖x - y‖ := by
  rw [pi_norm_le_iff_of_nonneg (norm_nonneg _)]
  exact fun i => (hg _ _).trans (norm_le_pi_norm (x - y) i)

theorem smooth15_sin (s : Vec d) : Smooth15 (fun (x : Vec d) i => Real.sin (x i)) (diagonal s) 1 1 1 (2 + ‖s‖ ^ 2) := by
  have hd1 : ∀ x, HasFDerivAt (fun (x : Vec d) i => Real.sin (x i)) (ContinuousLinearMap.mul ℝ (Vec d) fun i => Real.cos (x i)) x :=
    hasFDerivAt_pointwise Real.hasDerivAt_sin
  have hf1 : fderiv ℝ (fun (x : Vec d) i => Real.sin (x i)) = fun x => ContinuousLinearMap.mul ℝ (Vec d) fun i => Real.cos (x i) :=
    funext fun x => (hd1 x).fderiv
  have hf2 : ∀ x, fderiv ℝ (fderiv ℝ (fun (x : Vec d) i => Real.sin (x i))) x =
      (ContinuousLinearMap.mul ℝ (Vec d)).comp (ContinuousLinearMap.mul ℝ (Vec d) fun i => -Real.sin (x i)) := fun x => by
    rw [hf1]
    exact ((ContinuousLinearMap.mul ℝ (Vec d)).hasFDerivAt.comp x (hasFDerivAt_pointwise Real.hasDerivAt_cos x)).fderiv
  have hn : ∀ v : Vec d, ‖(ContinuousLinearMap.mul ℝ (Vec d)).comp (ContinuousLinearMap.mul ℝ (Vec d) v)‖ ≤ ‖v‖ := fun v => by
    refine (ContinuousLinearMap.opNorm_comp_le _ _).trans ?_
    have h1 := ContinuousLinearMap.opNorm_mul_le ℝ (Vec d)
    have h2 := ContinuousLinearMap.opNorm_mul_apply_le ℝ (Vec d) v
    have h3 := norm_nonneg (ContinuousLinearMap.mul ℝ (Vec d) v)
    nlinarith
  have hle : ∀ (g : ℝ → ℝ), (∀ t, |g t| ≤ 1) → ∀ x : Vec d, ‖(fun i => g (x i) : Vec d)‖ ≤ 1 := fun g hg x =>
    (pi_norm_le_iff_of_nonneg zero_le_one).mpr fun i => hg _
  have hsl : ∀ s t, |Real.sin s - Real.sin t| ≤ |s - t| := fun s t => Real.abs_sin_sub_sin_le s t
  have hcl : ∀ s t, |Real.cos s - Real.cos t| ≤ |s - t| := fun s t => Real.abs_cos_sub_cos_le s t
  have hc2 : ContDiff ℝ 2 (fun (x : Vec d) i => Real.sin (x i)) := by fun_prop
  refine ⟨hc2, fun x => ?_, fun x => ?_, fun x y => ?_, fun x y => ?_⟩
  · rw [hf1]
    exact (ContinuousLinearMap.opNorm_mul_apply_le ℝ (Vec d) _).trans (hle _ Real.abs_cos_le_one x)
  · rw [hf2]
    exact (hn _).trans (hle (fun t => -Real.sin t) (fun t => by rw [abs_neg]; exact Real.abs_sin_le_one t) x)
  · rw [hf2, hf2, ← ContinuousLinearMap.comp_sub, ← map_sub, one_mul]
    refine (hn _).trans ?_
    refine pointwise_lip (g := fun t => -Real.sin t) (fun s t => ?_) x y
    rw [neg_sub_neg, abs_sub_comm]
    exact hsl s t
  · have hgen : ∀ x i, driftGenerator (fun (x : Vec d) i => Real.sin (x i)) (diagonal s) x i =
        Real.cos (x i) * Real.sin (x i) - s i ^ 2 / 2 * Real.sin (x i) := fun x i => by
      rw [driftGenerator_eq, hf2, hf1]
      simp [Pi.single_apply]
      ring
    rw [pi_norm_le_iff_of_nonneg (by positivity)]
    intro i
    rw [Pi.sub_apply, hgen, hgen, Real.norm_eq_abs]
    have h1 := hsl (x i) (y i)
    have h2 := hcl (x i) (y i)
    have h3 := norm_le_pi_norm (x - y) i
    rw [Pi.sub_apply, Real.norm_eq_abs] at h3
    have h4 : s i ^ 2 ≤ ‖s‖ ^ 2 := sq_le_sq' (by have := (abs_le.mp (norm_le_pi_norm s i)).1; linarith) ((le_abs_self _).trans (norm_le_pi_norm s i))
    have e : Real.cos (x i) * Real.sin (x i) - s i ^ 2 / 2 * Real.sin (x i) - (Real.cos (y i) * Real.sin (y i) - s i ^ 2 / 2 * Real.sin (y i)) =
        (Real.cos (x i) - s i ^ 2 / 2) * (Real.sin (x i) - Real.sin (y i)) + (Real.cos (x i) - Real.cos (y i)) * Real.sin (y i) := by ring
    rw [e]
    refine (abs_add_le _ _).trans ?_
    rw [abs_mul, abs_mul]
    have h5 : |Real.cos (x i) - s i ^ 2 / 2| ≤ 1 + ‖s‖ ^ 2 := by
      refine (abs_sub _ _).trans ?_
      rw [abs_of_nonneg (by positivity : 0 ≤ s i ^ 2 / 2)]
      linarith [Real.abs_cos_le_one (x i), sq_nonneg (s i)]
    have h6 := mul_le_mul h5 (h1.trans h3) (abs_nonneg _) (by positivity)
    have h7 := mul_le_mul (h2.trans h3) (Real.abs_sin_le_one (y i)) (abs_nonneg _) (norm_nonneg _)
    linarith

/-- Linear drifts have the smoothness asked for, with every constant diffusion. -/
theorem smooth15_linear (M : Mat d d) {m : ℕ} (S : Mat d m) : ∃ L K4, Smooth15 (fun x => M *ᵥ x) S L 0 0 K4 := by
  obtain ⟨A, hA⟩ : ∃ A : Vec d →L[ℝ] Vec d, ∀ x, A x = M *ᵥ x := ⟨LinearMap.toContinuousLinearMap M.mulVecLin, fun _ => rfl⟩
  have e : (fun x : Vec d => M *ᵥ x) = A := funext fun x => (hA x).symm
  have hf1 : fderiv ℝ (A : Vec d → Vec d) = fun _ => A := funext fun x => A.fderiv
  have hf2 : fderiv ℝ (fderiv ℝ (A : Vec d → Vec d)) = fun _ => 0 := by rw [hf1]; exact funext fun x => fderiv_const_apply _
  rw [e]
  refine ⟨‖A‖, ‖A.comp A‖, A.contDiff, fun x => by rw [hf1], fun x => by
    rw [hf2]
    exact ContinuousLinearMap.opNorm_le_bound _ le_rfl fun v => by simp, fun x y => by
    rw [hf2]
    exact ContinuousLinearMap.opNorm_le_bound _ (by simp) fun v => by simp, fun x y => ?_⟩
  rw [driftGenerator_eq, driftGenerator_eq, hf2, hf1]
  simp only [ContinuousLinearMap.zero_apply, Finset.sum_const_zero, smul_zero, add_zero]
  have h1 : A (A x) - A (A y) = (A.comp A) (x - y) := by simp
  rw [h1]
  exact ContinuousLinearMap.le_opNorm _ _

end Verif
