import Verif.Props.RosEkf
import Verif.Lemmas.RosStep
import Verif.Lemmas.MeasurableQr
import Mathlib.Topology.Instances.Matrix

/-! The draw of one EKF1 step: its factor is a measurable function of the Jacobian. -/

namespace Verif

open Matrix Spec Jnp Filter Topology

variable {d : ℕ}

/-- The covariance (or its factor) after one EKF1 step from a state without uncertainty, as a function of the observation matrix. -/
noncomputable def ekf1Cov (la : LinAlg) (σ h : ℝ) (sqrt : Bool) (H : Mat d (d * (0 + 2))) : Mat (d * (0 + 2)) (d * (0 + 2)) :=
  (KF.update la (KF.predict la ⟨0, 0⟩ (IOUP.transition 0 σ 1 h d).A
    (if sqrt then la.cholesky (IOUP.transition 0 σ 1 h d).Q else (IOUP.transition 0 σ 1 h d).Q) 0 sqrt) 0 H 0 sqrt).1.cov

theorem solver_ekf1Cov (la : LinAlg) (vf : Field d) {σ h : ℝ} {y : Vec d} (hf : DifferentiableAt ℝ (fun x => vf x h) (y + h • vf y 0))
    (sqrt : Bool) {f : Gauss (d * (0 + 2))}
    (hs : Ekf.solver la (Ekf.init2 y vf) vf h 1 sqrt false (some ⟨_, IOUP.transition 0 σ 1 h d⟩) none = .ok f) :
    f.cov = ekf1Cov la σ h sqrt (Ekf.E 1 - jac (fun x => vf x h) (y + h • vf y 0) * Ekf.E 0) := by
  have hts : linspace h (((1 : ℕ) : ℝ) * h) 1 = [h] := by rw [Ekf.linspace_ts]; simp
  have h0 : (IOUP.transition 0 σ 1 h d).xi = 0 := rfl
  have hA : (IOUP.transition 0 σ 1 h d).A = kron (1 : Mat d d) (!![1, h; 0, 1] : Mat (0 + 2) (0 + 2)) := by
    rw [← Ekf.ibm1_A]; rfl
  have e := Except.ok.inj (hs.symm.trans (Ekf.solver_some (r := 0) la _ vf h 1 sqrt false (IOUP.transition 0 σ 1 h d)))
  rw [hts, h0] at e
  have hmean : (IOUP.transition 0 σ 1 h d).A *ᵥ (interlace ![y, vf y 0]) = interlace ![y + h • vf y 0, vf y 0] := by
    rw [hA]
    refine (Ekf.kron_one_mulVec _ _).trans ?_
    congr 1
    funext s
    refine (Fin.sum_univ_two _).trans ?_
    fin_cases s <;> simp
  have hH : ∀ m', jac (fun z => Ekf.obsFn (r := 0) false vf z m' h) (interlace ![y + h • vf y 0, vf y 0]) =
      Ekf.E 1 - jac (fun x => vf x h) (y + h • vf y 0) * Ekf.E 0 := fun m' => by
    have h1 : stride (n := 0 + 2) 0 (interlace ![y + h • vf y 0, vf y 0]) = y + h • vf y 0 := stride_interlace _ 0
    rw [Ekf.jac_ekf1 vf _ _ h (by rw [h1]; exact hf), h1]
  have hm' : ∀ Q, (KF.predict la (Ekf.init2 y vf) (IOUP.transition 0 σ 1 h d).A Q 0 sqrt).mean = interlace ![y + h • vf y 0, vf y 0] := fun Q => by
    rw [← hmean]
    cases sqrt <;> simp [KF.predict, Ekf.init2]
  have hc' : ∀ Q, (KF.predict la (Ekf.init2 y vf) (IOUP.transition 0 σ 1 h d).A Q 0 sqrt).cov =
      (KF.predict la ⟨0, 0⟩ (IOUP.transition 0 σ 1 h d).A Q 0 sqrt).cov := fun Q => by
    cases sqrt <;> simp [KF.predict, Ekf.init2]
  rw [e, KF.ekf_cons, KF.ekf_nil]
  simp only [KF.step, hm', hH]
  unfold ekf1Cov
  cases sqrt
  · simp only [KF.update, Bool.false_eq_true, if_false, hc']
  · simp only [KF.update, if_true, hc']
    rfl

theorem continuous_interlaceMatrix {X : Type*} [TopologicalSpace X] {v w x y : X → Mat d d} (hv : Continuous v) (hw : Continuous w)
    (hx : Continuous x) (hy : Continuous y) : Continuous fun z => interlaceMatrix (v z) (w z) (x z) (y z) := by
  refine continuous_matrix fun p q => ?_
  obtain ⟨⟨i, s⟩, rfl⟩ := finProdFinEquiv.surjective p
  obtain ⟨⟨j, t⟩, rfl⟩ := finProdFinEquiv.surjective q
  have h : ∀ z, interlaceMatrix (v z) (w z) (x z) (y z) (finProdFinEquiv (i, s)) (finProdFinEquiv (j, t)) =
      !![v z i j, w z i j; x z i j, y z i j] s t := fun z => interlaceMatrix_flat _ _ _ _ i j s t
  simp only [h]
  fin_cases s <;> fin_cases t
  · exact hv.matrix_elem i j
  · exact hw.matrix_elem i j
  · exact hx.matrix_elem i j
  · exact hy.matrix_elem i j

theorem continuous_rosW_inv (h : ℝ) : Continuous fun J : Mat d d => (rosW h J)⁻¹ := by
  have h1 : Continuous fun J : Mat d d => rosW h J := by
    unfold rosW
    fun_prop
  simp only [Matrix.inv_def, Ring.inverse_eq_inv']
  exact (h1.matrix_det.inv₀ fun J => (rosW_det h J).ne_zero).smul h1.matrix_adjugate

theorem rosW_inv_diag (h : ℝ) (J : Mat d d) (i : Fin d) : (rosW h J)⁻¹ i i ≤ 4 := by
  obtain ⟨x, hx⟩ : ∃ x, x = (rosW h J)⁻¹ *ᵥ (Pi.single i 1) := ⟨_, rfl⟩
  have hu : rosW h J *ᵥ x = Pi.single i 1 := by rw [hx, mulVec_mulVec, mul_nonsing_inv _ (rosW_det h J), one_mulVec]
  have hxi : x i = (rosW h J)⁻¹ i i := by rw [hx, mulVec_single_one]; rfl
  have h1 := rosW_lower h J x
  rw [hu, dotProduct_single_one, hxi] at h1
  have h2 : x i * x i ≤ x ⬝ᵥ x := Finset.single_le_sum (f := fun j => x j * x j) (fun j _ => mul_self_nonneg _) (Finset.mem_univ i)
  rw [hxi] at h2
  by_contra hc
  nlinarith

/-- The solution part of a factor of the covariance. -/
theorem frobenius_draw {q : ℕ} {G : Mat d q} {s h : ℝ} (hs : 0 ≤ s) {J : Mat d d} (hG : G * Gᵀ = s • (rosW h J)⁻¹) :
    ∑ i, ∑ j, G i j ^ 2 ≤ d * (4 * s) := by
  have h1 : ∀ i, ∑ j, G i j ^ 2 ≤ 4 * s := fun i => by
    have h2 := congrFun (congrFun hG i) i
    have h3 : ∑ j, G i j ^ 2 = s * (rosW h J)⁻¹ i i := by simpa [mul_apply, sq] using h2
    rw [h3, mul_comm]
    exact mul_le_mul_of_nonneg_right (rosW_inv_diag h J i) hs
  refine (Finset.sum_le_sum fun i _ => h1 i).trans (le_of_eq ?_)
  simp

set_option maxHeartbeats 1000000 in
/-- With a key, one step of EKF1 is the linearly implicit step plus a measurable function of the Jacobian times standard normals. -/
theorem ekf1_noise {la : LinAlg} (hla : la.Correct) (hm : la.MeasurableQr) (hd : 0 < d) {σ h : ℝ} (hσ : σ ≠ 0) (hh : 0 < h) (sqrt : Bool) :
    ∃ G : Mat d d → Mat d (d * (0 + 2)), (∀ i j, Measurable fun J : Fin d → Fin d → ℝ => G (of J) i j) ∧
      (∀ J, G J * (G J)ᵀ = (σ ^ 2 * h ^ 3 / 12) • (rosW h J)⁻¹) ∧
      ∀ (rng : Rng) (k : Key) (x : Vec d) (vf : Field d), (Differentiable ℝ fun x => vf x h) →
        Ekf.ekf1 la rng (some k) x vf h 1 sqrt (some ⟨_, IOUP.transition 0 σ 1 h d⟩) none =
          .ok (rosStep vf (jac (fun x => vf x h) (x + h • vf x 0)) h x +
            G (jac (fun x => vf x h) (x + h • vf x 0)) *ᵥ rng.normalVec k (d * (0 + 2))) := by
  obtain ⟨c, hc⟩ : ∃ c : Mat d d → Mat (d * (0 + 2)) (d * (0 + 2)), ∀ J, c J = ekf1Cov la σ h sqrt (Ekf.E 1 - J * Ekf.E 0) := ⟨_, fun _ => rfl⟩
  obtain ⟨C, hC⟩ : ∃ C : Mat d d → Mat (d * (0 + 2)) (d * (0 + 2)), ∀ J, C J = interlaceMatrix ((σ ^ 2 * h ^ 3 / 12) • (rosW h J)⁻¹)
    ((σ ^ 2 * h ^ 3 / 12) • (rosW h J)⁻¹ * Jᵀ) (J * (σ ^ 2 * h ^ 3 / 12) • (rosW h J)⁻¹) (J * (σ ^ 2 * h ^ 3 / 12) • (rosW h J)⁻¹ * Jᵀ) :=
    ⟨_, fun _ => rfl⟩
  have hlin : ∀ J : Mat d d, (∀ t : ℝ, Differentiable ℝ fun x : Vec d => (fun x (_ : ℝ) => J *ᵥ x : Field d) x t) := fun J t =>
    (mulVecLin J).toContinuousLinearMap.differentiable
  have hjac : ∀ (J : Mat d d) (y : Vec d), jac (fun x => J *ᵥ x) y = J := fun J y => by
    refine (jac_eq_toMatrix (g := fun x => J *ᵥ x) ((mulVecLin J).toContinuousLinearMap.hasFDerivAt (x := y))).trans ?_
    exact LinearMap.toMatrix'_toLin' J
  have hcC : ∀ J, (if sqrt then c J * (c J)ᵀ else c J) = C J := fun J => by
    obtain ⟨f, h1, -, h2⟩ := solver_ros hla (fun x _ => J *ᵥ x) (hlin J) hσ hh 0 sqrt (Ekf.init2 0 fun x _ => J *ᵥ x) rfl
      (by cases sqrt <;> simp [covOf, Ekf.init2])
    have h3 := solver_ekf1Cov la (fun x _ => J *ᵥ x) (hlin J h _) sqrt h1
    rw [hjac] at h2 h3
    rw [hC, ← h2, covOf, h3, hc]
  have hpsd : sqrt = false → ∀ J, (c J).PosSemidef := by
    rintro rfl J
    obtain ⟨f, h1, h2⟩ := solver_psd hla false (fun x _ => J *ᵥ x) (fun _ => hlin J) h 1 (IOUP.transition 0 σ 1 h d)
      (Ekf.ibm_Q_posDef hσ 1 hh d) (Ekf.init2 0 fun x _ => J *ᵥ x) PosSemidef.zero
    have h3 := solver_ekf1Cov la (fun x _ => J *ᵥ x) (hlin J h _) false h1
    rw [hjac] at h3
    rw [hc, ← h3]
    exact h2
  obtain ⟨S, hS⟩ : ∃ S : Mat d d → Mat (d * (0 + 2)) (d * (0 + 2)), ∀ J, S J = if sqrt then c J else la.sqrtm (c J) := ⟨_, fun _ => rfl⟩
  have hSC : ∀ J, S J * (S J)ᵀ = C J := fun J => by
    rw [hS, ← hcC]
    cases sqrt
    · exact hla.sqrtm_mul_transpose (hpsd rfl J)
    · rfl
  have hSm : ∀ i j, Measurable fun J : Fin d → Fin d → ℝ => S (of J) i j := by
    cases sqrt
    · have hcc : Continuous c := by
        have e : c = C := funext fun J => by simpa using hcC J
        rw [e, show C = _ from funext hC]
        have h1 := continuous_rosW_inv (d := d) h
        have h2 : Continuous fun J : Mat d d => (σ ^ 2 * h ^ 3 / 12) • (rosW h J)⁻¹ := (continuous_const_smul (σ ^ 2 * h ^ 3 / 12)).comp h1
        have h3 : Continuous fun J : Mat d d => Jᵀ := continuous_id.matrix_transpose
        exact continuous_interlaceMatrix h2 (h2.matrix_mul h3) (continuous_id.matrix_mul h2) ((continuous_id.matrix_mul h2).matrix_mul h3)
      have hSc : Continuous S := by
        have e : S = fun J => la.sqrtm (c J) := funext fun J => by simpa using hS J
        rw [e]
        exact (continuousOn_psd_root (ρ := la.sqrtm) hla.sqrtm_psd hla.sqrtm_mul).comp_continuous hcc (hpsd rfl)
      intro i j
      have h4 : Continuous fun J : Fin d → Fin d → ℝ => S (of J) i j := (hSc.matrix_elem i j).comp (g := fun J : Mat d d => S J i j)
        (f := fun J : Fin d → Fin d → ℝ => (of J : Mat d d)) continuous_id
      exact h4.measurable
    · intro i j
      have e : ∀ J, S J = c J := fun J => by simpa using hS J
      simp only [e, hc, ekf1Cov, KF.update, if_true, KF.tria]
      split_ifs with hij
      · generalize (KF.predict la (⟨0, 0⟩ : Gauss (d * (0 + 2))) (IOUP.transition 0 σ 1 h d).A (la.cholesky (IOUP.transition 0 σ 1 h d).Q) 0 true).cov = Pc
        have h1 : Continuous fun J : Mat d d => (KF.block ((Ekf.E 1 - J * Ekf.E 0) * Pc) 0 Pc (0 : Mat (d * (0 + 2)) d))ᵀ := by
          unfold KF.block
          refine Continuous.matrix_transpose ?_
          simp only [reindex_apply]
          refine Continuous.matrix_submatrix ?_ _ _
          refine Continuous.matrix_fromBlocks ?_ continuous_const continuous_const continuous_const
          exact (continuous_const.sub (continuous_id.matrix_mul continuous_const)).matrix_mul continuous_const
        have h2 : Continuous fun J : Fin d → Fin d → ℝ => ((fun a b => (KF.block ((Ekf.E 1 - (of J : Mat d d) * Ekf.E 0) * Pc) 0 Pc
            (0 : Mat (d * (0 + 2)) d))ᵀ a b) : Fin (d * (0 + 2) + d) → Fin (d + d * (0 + 2)) → ℝ) :=
          continuous_pi fun a => continuous_pi fun b => (h1.matrix_elem a b).comp (f := fun J : Fin d → Fin d → ℝ => (of J : Mat d d)) continuous_id
        exact (hm _ _ _ _).comp h2.measurable
      · exact measurable_const
  refine ⟨fun J => (Ekf.E 0 : Mat d (d * (0 + 2))) * S J * la.cholesky (1 : Mat (d * (0 + 2)) (d * (0 + 2))), fun i j => ?_, fun J => ?_,
    fun rng k x vf hf => ?_⟩
  · simp only [mul_apply]
    exact Finset.measurable_fun_sum _ fun l _ => (Finset.measurable_fun_sum _ fun l' _ => (hSm l' l).const_mul _).mul_const _
  · have h1 : (Ekf.E 0 : Mat d (d * (0 + 2))) * S J * la.cholesky (1 : Mat (d * (0 + 2)) (d * (0 + 2))) * ((Ekf.E 0 : Mat d (d * (0 + 2))) * S J * la.cholesky (1 : Mat (d * (0 + 2)) (d * (0 + 2))))ᵀ =
        (Ekf.E 0 : Mat d (d * (0 + 2))) * (S J * (S J)ᵀ) * (Ekf.E 0 : Mat d (d * (0 + 2)))ᵀ := by
      rw [transpose_mul, transpose_mul]
      have h2 := hla.chol_mul (1 : Mat (d * (0 + 2)) (d * (0 + 2))) PosDef.one
      calc _ = (Ekf.E 0 : Mat d (d * (0 + 2))) * S J * (la.cholesky (1 : Mat (d * (0 + 2)) (d * (0 + 2))) * (la.cholesky (1 : Mat (d * (0 + 2)) (d * (0 + 2))))ᵀ) * ((S J)ᵀ * (Ekf.E 0 : Mat d (d * (0 + 2)))ᵀ) := by simp only [Matrix.mul_assoc]
        _ = _ := by rw [h2, Matrix.mul_one]; simp only [Matrix.mul_assoc]
    have h2 : ∀ X : Mat (d * (0 + 2)) (d * (0 + 2)), Ekf.E (dim := d) (r := 0) 0 * X * (Ekf.E 0)ᵀ = strideMat 0 0 X := fun X => by
      ext i j
      simp [mul_apply, Ekf.E, strideMat]
    rw [h1, hSC, h2, hC]
    ext i j
    exact interlaceMatrix_flat _ _ _ _ i j 0 0
  · obtain ⟨vf', hvf'⟩ : ∃ vf' : Field d, ∀ z t, vf' z t = if t = h then vf z t else vf x 0 := ⟨_, fun _ _ => rfl⟩
    have e0 : ∀ z, vf' z 0 = vf x 0 := fun z => by rw [hvf', if_neg hh.ne]
    have e1 : ∀ z, vf' z h = vf z h := fun z => by rw [hvf', if_pos rfl]
    have hf' : ∀ t, Differentiable ℝ fun z => vf' z t := fun t => by
      by_cases ht : t = h
      · simp only [hvf', if_pos ht]; rw [ht]; exact hf
      · simp only [hvf', if_neg ht]; exact differentiable_const _
    rw [ekf1_one_congr la rng (some k) hd (e0 x).symm (fun z => (e1 z).symm) σ sqrt]
    obtain ⟨f, hf1, hmean, -⟩ := solver_ros hla vf' hf' hσ hh x sqrt (Ekf.init2 x vf') rfl (by cases sqrt <;> simp [covOf, Ekf.init2])
    have h3 := solver_ekf1Cov la vf' (hf' h _) sqrt hf1
    refine (Ekf.ekf1_two la rng (some k) hd x vf' h 1 sqrt (IOUP.transition 0 σ 1 h d) none).trans ?_
    refine (congrArg (Except.map _) hf1).trans (congrArg Except.ok ?_)
    have ej : jac (fun z => vf' z h) (x + h • vf' x 0) = jac (fun z => vf z h) (x + h • vf x 0) := by
      rw [e0, show (fun z => vf' z h) = fun z => vf z h from funext e1]
    rw [ej] at h3 hmean
    have er : rosStep vf' (jac (fun z => vf z h) (x + h • vf x 0)) h x = rosStep vf (jac (fun z => vf z h) (x + h • vf x 0)) h x := by
      simp only [rosStep, e0, e1]
    rw [er] at hmean
    have hSf : (if sqrt then f.cov else la.sqrtm f.cov) = S (jac (fun z => vf z h) (x + h • vf x 0)) := by rw [hS, h3, hc]
    simp only [Ekf.finish, Rng.multivariateNormal, zero_add]
    rw [hSf, ← Ekf.E_mulVec, mulVec_add, Ekf.E_mulVec, hmean, mulVec_mulVec, mulVec_mulVec, Matrix.mul_assoc]

end Verif
