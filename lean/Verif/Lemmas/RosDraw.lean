import Verif.Lemmas.RosRun
import Verif.Lemmas.Ekf1Draw

/-! The draw of EKF1 after several steps: its factor is a measurable function of the Jacobians. -/

namespace Verif

open Matrix Spec Jnp Filter Topology

variable {d : ℕ}

/-- A field that is linear at every time, with given matrices at the times `h, 2 h, …`. -/
noncomputable def jField (h : ℝ) (Js : ℕ → Mat d d) : Field d := fun x t => Js (⌊t / h⌋₊ - 1) *ᵥ x

theorem jField_differentiable (h : ℝ) (Js : ℕ → Mat d d) (t : ℝ) : Differentiable ℝ fun x => jField h Js x t :=
  (mulVecLin (Js (⌊t / h⌋₊ - 1))).toContinuousLinearMap.differentiable

theorem jac_jField {h : ℝ} (hh : 0 < h) (Js : ℕ → Mat d d) (k : ℕ) (y : Vec d) : jac (fun x => jField h Js x ((k + 1) * h)) y = Js k := by
  have e : ⌊((k : ℝ) + 1) * h / h⌋₊ - 1 = k := by
    rw [mul_div_cancel_right₀ _ hh.ne', show (k : ℝ) + 1 = ((k + 1 : ℕ) : ℝ) by push_cast; rfl, Nat.floor_natCast]
    omega
  have e2 : (fun x => jField h Js x ((k + 1) * h)) = fun x => Js k *ᵥ x := by
    funext x
    simp only [jField, e]
  rw [e2]
  refine (jac_eq_toMatrix (g := fun x => Js k *ᵥ x) ((mulVecLin (Js k)).toContinuousLinearMap.hasFDerivAt (x := y))).trans ?_
  exact LinearMap.toMatrix'_toLin' (Js k)

/-- The covariances of the scheme as a function of the Jacobians. -/
noncomputable def rosCs (h : ℝ) (Js : ℕ → Mat d d) (n : ℕ) : Mat d d := (rosScheme (jField h Js) h ⟨0, 0, 0, 0⟩ n).C

/-- The Jacobian before step `n`. -/
def prevJ (Js : ℕ → Mat d d) : ℕ → Mat d d
  | 0 => 0
  | n + 1 => Js n

theorem rosCs_psd {h : ℝ} (hh : 0 < h) (Js : ℕ → Mat d d) (n : ℕ) : (rosCs h Js n).PosSemidef :=
  rosScheme_psd _ hh PosSemidef.zero n

theorem jField_J {h : ℝ} (hh : 0 < h) (Js : ℕ → Mat d d) (x v : Vec d) (n : ℕ) : (rosScheme (jField h Js) h ⟨x, v, 0, 0⟩ n).J = prevJ Js n := by
  cases n with
  | zero => rfl
  | succ n => exact jac_jField hh Js n _

/-- The covariances of a run are determined by its Jacobians. -/
theorem rosScheme_prevJ {f : Vec d → ℝ → Vec d} {h : ℝ} {x v : Vec d} {N : ℕ} {Js : ℕ → Mat d d}
    (hJ : ∀ n < N, Js n = (rosScheme f h ⟨x, v, 0, 0⟩ (n + 1)).J) (n : ℕ) (hn : n ≤ N) : (rosScheme f h ⟨x, v, 0, 0⟩ n).J = prevJ Js n := by
  cases n with
  | zero => rfl
  | succ n => exact (hJ n hn).symm

theorem rosScheme_rosCs {f : Vec d → ℝ → Vec d} {h : ℝ} (hh : 0 < h) {x v : Vec d} {N : ℕ} {Js : ℕ → Mat d d}
    (hJ : ∀ n < N, Js n = (rosScheme f h ⟨x, v, 0, 0⟩ (n + 1)).J) (n : ℕ) (hn : n ≤ N) : (rosScheme f h ⟨x, v, 0, 0⟩ n).C = rosCs h Js n := by
  induction n with
  | zero => rfl
  | succ n ih =>
    have e1 : (rosScheme f h ⟨x, v, 0, 0⟩ (n + 1)).C = rosCov h (rosScheme f h ⟨x, v, 0, 0⟩ n).J (rosScheme f h ⟨x, v, 0, 0⟩ n).C
      (rosScheme f h ⟨x, v, 0, 0⟩ (n + 1)).J := rfl
    have e2 : rosCs h Js (n + 1) = rosCov h (rosScheme (jField h Js) h ⟨0, 0, 0, 0⟩ n).J (rosCs h Js n)
      (rosScheme (jField h Js) h ⟨0, 0, 0, 0⟩ (n + 1)).J := rfl
    rw [e1, e2, ih (by omega), ← hJ n hn, rosScheme_prevJ hJ n (by omega), jField_J hh, jField_J hh]
    rfl

theorem continuous_rosCov {X : Type*} [TopologicalSpace X] {J C J' : X → Mat d d} (h : ℝ) (hJ : Continuous J) (hC : Continuous C)
    (hJ' : Continuous J') (hpsd : ∀ p, (C p).PosSemidef) : Continuous fun p => rosCov h (J p) (C p) (J' p) := by
  have hI : Continuous fun p => rosInn h (J p) (C p) (J' p) := by
    unfold rosInn rosW rosD
    fun_prop
  have hIi : Continuous fun p => (rosInn h (J p) (C p) (J' p))⁻¹ := by
    simp only [Matrix.inv_def, Ring.inverse_eq_inv']
    exact (hI.matrix_det.inv₀ fun p => (rosInn_det h _ (hpsd p) _).ne_zero).smul hI.matrix_adjugate
  have hG : Continuous fun p => rosGain h (J p) (C p) (J' p) := by
    unfold rosGain
    refine Continuous.matrix_mul ?_ hIi
    unfold rosD
    fun_prop
  unfold rosCov
  fun_prop

theorem continuous_prevJ (n : ℕ) : Continuous fun Js : ℕ → Mat d d => prevJ Js n := by
  cases n with
  | zero => exact continuous_const
  | succ n => exact continuous_apply n

theorem continuous_rosCs {h : ℝ} (hh : 0 < h) (n : ℕ) : Continuous fun Js : ℕ → Mat d d => rosCs h Js n := by
  induction n with
  | zero => exact continuous_const
  | succ n ih =>
    have e : ∀ Js : ℕ → Mat d d, rosCs h Js (n + 1) = rosCov h (prevJ Js n) (rosCs h Js n) (Js n) := fun Js => by
      have e2 : rosCs h Js (n + 1) = rosCov h (rosScheme (jField h Js) h ⟨0, 0, 0, 0⟩ n).J (rosCs h Js n)
        (rosScheme (jField h Js) h ⟨0, 0, 0, 0⟩ (n + 1)).J := rfl
      rw [e2, jField_J hh, jField_J hh]
      rfl
    simp only [e]
    exact continuous_rosCov h (continuous_prevJ n) ih (continuous_apply n) fun Js => rosCs_psd hh Js n

/-- The covariance (or its factor) after a step, as a function of the observation matrix and the covariance (or factor) before it. -/
noncomputable def covStep (la : LinAlg) (σ h : ℝ) (sqrt : Bool) (H : Mat d (d * (0 + 2))) (P : Mat (d * (0 + 2)) (d * (0 + 2))) :
    Mat (d * (0 + 2)) (d * (0 + 2)) :=
  (KF.update la (KF.predict la ⟨0, P⟩ (IOUP.transition 0 σ 1 h d).A
    (if sqrt then la.cholesky (IOUP.transition 0 σ 1 h d).Q else (IOUP.transition 0 σ 1 h d).Q) 0 sqrt) 0 H 0 sqrt).1.cov

/-- The covariance (or its factor) after `n` steps from a state without uncertainty, as a function of the Jacobians. -/
noncomputable def covIter (la : LinAlg) (σ h : ℝ) (sqrt : Bool) (Js : ℕ → Mat d d) : ℕ → Mat (d * (0 + 2)) (d * (0 + 2))
  | 0 => 0
  | n + 1 => covStep la σ h sqrt (Ekf.E 1 - Js n * Ekf.E 0) (covIter la σ h sqrt Js n)

theorem step_covStep (la : LinAlg) (vf : Field d) {σ h : ℝ} (sqrt : Bool) (g : Gauss (d * (0 + 2))) {x v : Vec d} {t : ℝ}
    (hg : g.mean = interlace ![x, v]) (hf : DifferentiableAt ℝ (fun x => vf x t) (x + h • v)) :
    (KF.step la (Ekf.obsFn (r := 0) false vf) (IOUP.transition 0 σ 1 h d).A
      (if sqrt then la.cholesky (IOUP.transition 0 σ 1 h d).Q else (IOUP.transition 0 σ 1 h d).Q) 0 0 sqrt g t).1.cov =
      covStep la σ h sqrt (Ekf.E 1 - jac (fun x => vf x t) (x + h • v) * Ekf.E 0) g.cov := by
  have hA : (IOUP.transition 0 σ 1 h d).A = kron (1 : Mat d d) (!![1, h; 0, 1] : Mat (0 + 2) (0 + 2)) := by
    rw [← Ekf.ibm1_A]; rfl
  have hmean : (IOUP.transition 0 σ 1 h d).A *ᵥ (interlace ![x, v]) = interlace ![x + h • v, v] := by
    rw [hA]
    refine (Ekf.kron_one_mulVec _ _).trans ?_
    congr 1
    funext s
    refine (Fin.sum_univ_two _).trans ?_
    fin_cases s <;> simp
  have hH : ∀ m', jac (fun z => Ekf.obsFn (r := 0) false vf z m' t) (interlace ![x + h • v, v]) =
      Ekf.E 1 - jac (fun x => vf x t) (x + h • v) * Ekf.E 0 := fun m' => by
    have h1 : stride (n := 0 + 2) 0 (interlace ![x + h • v, v]) = x + h • v := stride_interlace _ 0
    rw [Ekf.jac_ekf1 vf _ _ t (by rw [h1]; exact hf), h1]
  have hm' : ∀ Q, (KF.predict la g (IOUP.transition 0 σ 1 h d).A Q 0 sqrt).mean = interlace ![x + h • v, v] := fun Q => by
    rw [← hmean, ← hg]
    cases sqrt <;> simp [KF.predict]
  have hc' : ∀ Q, (KF.predict la g (IOUP.transition 0 σ 1 h d).A Q 0 sqrt).cov =
      (KF.predict la ⟨0, g.cov⟩ (IOUP.transition 0 σ 1 h d).A Q 0 sqrt).cov := fun Q => by
    cases sqrt <;> simp [KF.predict]
  simp only [KF.step, hm', hH]
  unfold covStep
  cases sqrt
  · simp only [KF.update, Bool.false_eq_true, if_false, hc']
  · simp only [KF.update, if_true, hc']
    rfl

theorem solver_covIter {la : LinAlg} (hla : la.Correct) (vf : Field d) (hf : ∀ t, Differentiable ℝ fun x => vf x t) {σ h : ℝ} (hσ : σ ≠ 0)
    (hh : 0 < h) (x : Vec d) (sqrt : Bool) {N : ℕ} {Js : ℕ → Mat d d}
    (hJ : ∀ n < N, Js n = (rosScheme vf h ⟨x, vf x 0, 0, 0⟩ (n + 1)).J) (n : ℕ) (hn : n ≤ N) {f : Gauss (d * (0 + 2))}
    (hs : Ekf.solver la (Ekf.init2 x vf) vf h n sqrt false (some ⟨_, IOUP.transition 0 σ 1 h d⟩) none = .ok f) :
    f.cov = covIter la σ h sqrt Js n := by
  have h0 : (IOUP.transition 0 σ 1 h d).xi = 0 := rfl
  induction n generalizing f with
  | zero =>
    have e := Except.ok.inj (hs.symm.trans (Ekf.solver_some (r := 0) la _ vf h 0 sqrt false (IOUP.transition 0 σ 1 h d)))
    rw [e, Ekf.linspace_ts]
    rfl
  | succ n ih =>
    obtain ⟨g, hg, hgm, -⟩ := Ekf.solver_rosScheme hla vf hf hσ hh ⟨x, vf x 0, 0, 0⟩ PosSemidef.zero n sqrt (Ekf.init2 x vf) rfl
      (by cases sqrt <;> simp [covOf, Ekf.init2])
    have ihg := ih (by omega) hg
    have eg := Except.ok.inj (hg.symm.trans (Ekf.solver_some (r := 0) la _ vf h n sqrt false (IOUP.transition 0 σ 1 h d)))
    have e := Except.ok.inj (hs.symm.trans (Ekf.solver_some (r := 0) la _ vf h (n + 1) sqrt false (IOUP.transition 0 σ 1 h d)))
    rw [Ekf.linspace_ts, h0] at e eg
    rw [List.range_succ, List.map_append, KF.ekf_append, ← eg, List.map_cons, List.map_nil, KF.ekf_cons, KF.ekf_nil] at e
    rw [e, step_covStep la vf sqrt g hgm (hf _ _), ihg]
    unfold covIter
    rw [hJ n hn]
    cases n <;> rfl

theorem measurable_qrR {X : Type*} [MeasurableSpace X] {la : LinAlg} (hm : la.MeasurableQr) {k m : ℕ} {B : X → Mat k m}
    (hB : ∀ i j, Measurable fun x => B x i j) (i : Fin k) (j : Fin m) : Measurable fun x => la.qrR (B x) i j :=
  (hm k m i j).comp (measurable_pi_lambda (fun x => (fun a b => B x a b : Fin k → Fin m → ℝ)) fun a => measurable_pi_lambda _ fun b => hB a b)

theorem measurable_tria {X : Type*} [MeasurableSpace X] {la : LinAlg} (hm : la.MeasurableQr) {k m : ℕ} (h : m ≤ k) {B : X → Mat m k}
    (hB : ∀ i j, Measurable fun x => B x i j) (i j : Fin m) : Measurable fun x => KF.tria la h (B x) i j := by
  simp only [KF.tria]
  split_ifs
  · exact measurable_qrR hm (fun i j => hB j i) _ _
  · exact measurable_const

theorem measurable_mul {X : Type*} [MeasurableSpace X] {a b c : ℕ} {A : X → Mat a b} {B : X → Mat b c} (hA : ∀ i j, Measurable fun x => A x i j)
    (hB : ∀ i j, Measurable fun x => B x i j) (i : Fin a) (j : Fin c) : Measurable fun x => (A x * B x) i j := by
  simp only [mul_apply]
  exact Finset.measurable_fun_sum _ fun l _ => (hA i l).mul (hB l j)

theorem measurable_covStep {X : Type*} [MeasurableSpace X] {la : LinAlg} (hm : la.MeasurableQr) (σ h : ℝ) {H : X → Mat d (d * (0 + 2))}
    {P : X → Mat (d * (0 + 2)) (d * (0 + 2))} (hH : ∀ i j, Measurable fun x => H x i j) (hP : ∀ i j, Measurable fun x => P x i j)
    (i j : Fin (d * (0 + 2))) : Measurable fun x => covStep la σ h true (H x) (P x) i j := by
  simp only [covStep, KF.update, KF.predict, if_true]
  refine measurable_tria hm _ (fun a b => ?_) _ _
  have hc : ∀ i j, Measurable fun x => KF.tria la (Nat.le_add_right (d * (0 + 2)) (d * (0 + 2)))
      (KF.hcat ((IOUP.transition 0 σ 1 h d).A * P x) (la.cholesky (IOUP.transition 0 σ 1 h d).Q)) i j := fun i j => by
    refine measurable_tria hm _ (fun a b => ?_) i j
    simp only [KF.hcat]
    refine Fin.addCases (fun b => ?_) (fun b => ?_) b
    · simp only [Fin.append_left]
      exact measurable_mul (A := fun _ => (IOUP.transition 0 σ 1 h d).A) (fun _ _ => measurable_const) hP a b
    · simp only [Fin.append_right]
      exact measurable_const
  simp only [KF.block, reindex_apply, submatrix_apply]
  rcases finSumFinEquiv.symm a with a | a <;> rcases finSumFinEquiv.symm b with b | b
  · simp only [fromBlocks_apply₁₁]
    exact measurable_mul hH hc a b
  · simp only [fromBlocks_apply₁₂]
    exact measurable_const
  · simp only [fromBlocks_apply₂₁]
    exact hc a b
  · simp only [fromBlocks_apply₂₂]
    exact measurable_const

theorem measurable_covIter {la : LinAlg} (hm : la.MeasurableQr) (σ h : ℝ) (n : ℕ) (i j : Fin (d * (0 + 2))) :
    Measurable fun Js : ℕ → Fin d → Fin d → ℝ => covIter la σ h true (fun n => (of (Js n) : Mat d d)) n i j := by
  induction n generalizing i j with
  | zero => exact measurable_const
  | succ n ih =>
    simp only [covIter]
    refine measurable_covStep hm σ h (fun i j => ?_) ih i j
    have h1 : Measurable fun Js : ℕ → Fin d → Fin d → ℝ => ((of (Js n) : Mat d d) * (Ekf.E 0 : Mat d (d * (0 + 2)))) i j :=
      measurable_mul (A := fun Js : ℕ → Fin d → Fin d → ℝ => (of (Js n) : Mat d d)) (B := fun _ => (Ekf.E 0 : Mat d (d * (0 + 2))))
        (fun a b => by simp only [of_apply]; fun_prop) (fun _ _ => measurable_const) i j
    exact h1.const_sub ((Ekf.E 1 : Mat d (d * (0 + 2))) i j)

set_option maxHeartbeats 1000000 in
/-- With a key, EKF1 with `N` steps returns the linearly implicit scheme plus a measurable function of the Jacobians times standard
normals. -/
theorem ekf1_steps_noise {la : LinAlg} (hla : la.Correct) (hm : la.MeasurableQr) (hd : 0 < d) {σ h : ℝ} (hσ : σ ≠ 0) (hh : 0 < h) (sqrt : Bool)
    (N : ℕ) :
    ∃ G : (ℕ → Mat d d) → Mat d (d * (0 + 2)), (∀ i j, Measurable fun Js : ℕ → Fin d → Fin d → ℝ => G (fun n => of (Js n)) i j) ∧
      (∀ Js, G Js * (G Js)ᵀ = (σ ^ 2 * h ^ 3) • rosCs h Js N) ∧
      ∀ (rng : Rng) (k : Key) (x : Vec d) (vf : Field d), (∀ j < N, Differentiable ℝ fun x => vf x ((j + 1) * h)) →
        ∀ Js, (∀ n < N, Js n = (rosScheme vf h ⟨x, vf x 0, 0, 0⟩ (n + 1)).J) →
        Ekf.ekf1 la rng (some k) x vf h N sqrt (some ⟨_, IOUP.transition 0 σ 1 h d⟩) none =
          .ok ((rosScheme vf h ⟨x, vf x 0, 0, 0⟩ N).x + G Js *ᵥ rng.normalVec k (d * (0 + 2))) := by
  obtain ⟨c, hc⟩ : ∃ c : (ℕ → Mat d d) → Mat (d * (0 + 2)) (d * (0 + 2)), ∀ J, c J = covIter la σ h sqrt J N := ⟨_, fun _ => rfl⟩
  obtain ⟨C, hC⟩ : ∃ C : (ℕ → Mat d d) → Mat (d * (0 + 2)) (d * (0 + 2)), ∀ J, C J = (σ ^ 2 * h ^ 3) •
    interlaceMatrix (rosCs h J N) (rosCs h J N * (prevJ J N)ᵀ) (prevJ J N * rosCs h J N) (prevJ J N * rosCs h J N * (prevJ J N)ᵀ) :=
    ⟨_, fun _ => rfl⟩
  have hJs : ∀ (Js : ℕ → Mat d d), ∀ n < N, Js n = (rosScheme (jField h Js) h ⟨0, jField h Js 0 0, 0, 0⟩ (n + 1)).J := fun Js n _ =>
    (jField_J hh Js _ _ (n + 1)).symm
  have hcC : ∀ J, (if sqrt then c J * (c J)ᵀ else c J) = C J := fun J => by
    obtain ⟨f, h1, -, h2⟩ := Ekf.solver_rosScheme hla (jField h J) (jField_differentiable h J) hσ hh ⟨0, jField h J 0 0, 0, 0⟩ PosSemidef.zero N sqrt
      (Ekf.init2 0 (jField h J)) rfl (by cases sqrt <;> simp [covOf, Ekf.init2])
    have h3 := solver_covIter hla (jField h J) (jField_differentiable h J) hσ hh 0 sqrt (hJs J) N le_rfl h1
    rw [rosScheme_rosCs hh (hJs J) N le_rfl, rosScheme_prevJ (hJs J) N le_rfl, Ekf.lift_cov] at h2
    rw [hC, ← h2, covOf, h3, hc]
  have hpsd : sqrt = false → ∀ J, (c J).PosSemidef := by
    rintro rfl J
    obtain ⟨f, h1, h2⟩ := solver_psd hla false (jField h J) (fun _ => jField_differentiable h J) h N (IOUP.transition 0 σ 1 h d)
      (Ekf.ibm_Q_posDef hσ 1 hh d) (Ekf.init2 0 (jField h J)) PosSemidef.zero
    have h3 := solver_covIter hla (jField h J) (jField_differentiable h J) hσ hh 0 false (hJs J) N le_rfl h1
    rw [hc, ← h3]
    exact h2
  obtain ⟨S, hS⟩ : ∃ S : (ℕ → Mat d d) → Mat (d * (0 + 2)) (d * (0 + 2)), ∀ J, S J = if sqrt then c J else la.sqrtm (c J) := ⟨_, fun _ => rfl⟩
  have hSC : ∀ J, S J * (S J)ᵀ = C J := fun J => by
    rw [hS, ← hcC]
    cases sqrt
    · exact hla.sqrtm_mul_transpose (hpsd rfl J)
    · rfl
  have hSm : ∀ i j, Measurable fun J : ℕ → Fin d → Fin d → ℝ => S (fun n => of (J n)) i j := by
    cases sqrt
    · have hcc : Continuous c := by
        have e : c = C := funext fun J => by simpa using hcC J
        rw [e, show C = _ from funext hC]
        have h2 := continuous_rosCs (d := d) hh N
        have h3 := continuous_prevJ (d := d) N
        exact (continuous_const_smul (σ ^ 2 * h ^ 3)).comp (continuous_interlaceMatrix h2 (h2.matrix_mul h3.matrix_transpose) (h3.matrix_mul h2)
          ((h3.matrix_mul h2).matrix_mul h3.matrix_transpose))
      have hSc : Continuous S := by
        have e : S = fun J => la.sqrtm (c J) := funext fun J => by simpa using hS J
        rw [e]
        exact (continuousOn_psd_root (ρ := la.sqrtm) hla.sqrtm_psd hla.sqrtm_mul).comp_continuous hcc (hpsd rfl)
      intro i j
      have h4 : Continuous fun J : ℕ → Fin d → Fin d → ℝ => S (fun n => of (J n)) i j := (hSc.matrix_elem i j).comp
        (g := fun J : ℕ → Mat d d => S J i j) (f := fun J : ℕ → Fin d → Fin d → ℝ => (fun n => (of (J n) : Mat d d))) continuous_id
      exact h4.measurable
    · intro i j
      have e : ∀ J, S J = c J := fun J => by simpa using hS J
      simp only [e, hc]
      exact measurable_covIter hm σ h N i j
  refine ⟨fun J => (Ekf.E 0 : Mat d (d * (0 + 2))) * S J * la.cholesky (1 : Mat (d * (0 + 2)) (d * (0 + 2))), fun i j => ?_, fun J => ?_,
    fun rng k x vf hf Js hJ => ?_⟩
  · have h1 : ∀ i j, Measurable fun J : ℕ → Fin d → Fin d → ℝ => ((Ekf.E 0 : Mat d (d * (0 + 2))) * S (fun n => of (J n))) i j :=
      measurable_mul (A := fun _ => (Ekf.E 0 : Mat d (d * (0 + 2)))) (fun _ _ => measurable_const) hSm
    exact measurable_mul (B := fun _ => la.cholesky (1 : Mat (d * (0 + 2)) (d * (0 + 2)))) h1 (fun _ _ => measurable_const) i j
  · have h1 : (Ekf.E 0 : Mat d (d * (0 + 2))) * S J * la.cholesky (1 : Mat (d * (0 + 2)) (d * (0 + 2))) * ((Ekf.E 0 : Mat d (d * (0 + 2))) * S J * la.cholesky (1 : Mat (d * (0 + 2)) (d * (0 + 2))))ᵀ =
        (Ekf.E 0 : Mat d (d * (0 + 2))) * (S J * (S J)ᵀ) * (Ekf.E 0 : Mat d (d * (0 + 2)))ᵀ := by
      rw [transpose_mul, transpose_mul]
      have h2 := hla.chol_mul (1 : Mat (d * (0 + 2)) (d * (0 + 2))) PosDef.one
      calc _ = (Ekf.E 0 : Mat d (d * (0 + 2))) * S J * (la.cholesky (1 : Mat (d * (0 + 2)) (d * (0 + 2))) * (la.cholesky (1 : Mat (d * (0 + 2)) (d * (0 + 2))))ᵀ) * ((S J)ᵀ * (Ekf.E 0 : Mat d (d * (0 + 2)))ᵀ) := by simp only [Matrix.mul_assoc]
        _ = _ := by rw [h2, Matrix.mul_one]; simp only [Matrix.mul_assoc]
    have h2 : ∀ X : Mat (d * (0 + 2)) (d * (0 + 2)), Ekf.E (dim := d) (r := 0) 0 * X * (Ekf.E 0)ᵀ = strideMat 0 0 X := fun X => by
      ext i j
      simp [mul_apply, Ekf.E, strideMat]
    rw [h1, hSC, h2, hC]
    ext i j
    have h3 := interlaceMatrix_flat (rosCs h J N) (rosCs h J N * (prevJ J N)ᵀ) (prevJ J N * rosCs h J N) (prevJ J N * rosCs h J N * (prevJ J N)ᵀ) i j 0 0
    exact congrArg (fun z => σ ^ 2 * h ^ 3 * z) h3
  · classical
    obtain ⟨vf', hvf'⟩ : ∃ vf' : Field d, ∀ z t, vf' z t = if ∃ k < N, t = (k + 1) * h then vf z t else vf x 0 := ⟨_, fun _ _ => rfl⟩
    have e0 : ∀ z, vf' z 0 = vf x 0 := fun z => by
      rw [hvf', if_neg]
      rintro ⟨k, -, hk⟩
      have : 0 < ((k : ℝ) + 1) * h := by positivity
      linarith
    have e1 : ∀ k < N, ∀ z, vf' z ((k + 1) * h) = vf z ((k + 1) * h) := fun k hk z => by rw [hvf', if_pos ⟨k, hk, rfl⟩]
    have hf' : ∀ t, Differentiable ℝ fun z => vf' z t := fun t => by
      by_cases ht : ∃ k < N, t = (k + 1) * h
      · obtain ⟨k, hk, rfl⟩ := ht
        simp only [e1 k hk]
        exact hf k hk
      · simp only [hvf', if_neg ht]; exact differentiable_const _
    have er : ∀ n ≤ N, rosScheme vf' h ⟨x, vf' x 0, 0, 0⟩ n = rosScheme vf h ⟨x, vf x 0, 0, 0⟩ n := fun n hn => by
      rw [e0, rosScheme_congr e1 n hn]
    rw [ekf1_congr la rng (some k) hd (e0 x).symm (fun k hk z => (e1 k hk z).symm) σ sqrt]
    obtain ⟨f, hf1, hmean, -⟩ := Ekf.solver_rosScheme hla vf' hf' hσ hh ⟨x, vf' x 0, 0, 0⟩ PosSemidef.zero N sqrt (Ekf.init2 x vf') rfl
      (by cases sqrt <;> simp [covOf, Ekf.init2])
    have h3 := solver_covIter hla vf' hf' hσ hh x sqrt (fun n hn => (hJ n hn).trans (by rw [er (n + 1) hn])) N le_rfl hf1
    refine (Ekf.ekf1_two la rng (some k) hd x vf' h N sqrt (IOUP.transition 0 σ 1 h d) none).trans ?_
    refine (congrArg (Except.map _) hf1).trans (congrArg Except.ok ?_)
    rw [er N le_rfl] at hmean
    have hx : stride (n := 0 + 2) 0 f.mean = (rosScheme vf h ⟨x, vf x 0, 0, 0⟩ N).x := by
      rw [hmean]
      exact stride_interlace _ 0
    have hSf : (if sqrt then f.cov else la.sqrtm f.cov) = S Js := by rw [hS, h3, hc]
    simp only [Ekf.finish, Rng.multivariateNormal, zero_add]
    rw [hSf, ← Ekf.E_mulVec, mulVec_add, Ekf.E_mulVec, hx, mulVec_mulVec, mulVec_mulVec, Matrix.mul_assoc]

/-- A bound on the factor, by a bound on the Jacobians. -/
theorem frobenius_rosCs (d : ℕ) {T : ℝ} (hT : 0 ≤ T) : ∃ φ : ℝ → ℝ, (∀ l, 0 ≤ φ l) ∧ ∀ {q : ℕ} (l : ℝ), 0 ≤ l → ∀ {G : Mat d q} {s h : ℝ}, 0 ≤ s →
    0 < h → ∀ {M : ℕ}, M * h ≤ T → ∀ {Js : ℕ → Mat d d}, (∀ n < M, ∀ u, ‖Js n *ᵥ u‖ ≤ l * ‖u‖) → G * Gᵀ = s • rosCs h Js M →
    ∑ i, ∑ j, G i j ^ 2 ≤ φ l * (s * M) := by
  have h0 : ∀ l : ℝ, ∃ c : ℝ, 0 ≤ c ∧ (0 ≤ l → ∀ (f : Vec d → ℝ → Vec d) {h : ℝ}, 0 < h → ∀ {M : ℕ}, M * h ≤ T →
    ∀ y v, (∀ n ≤ M, ∀ u, ‖(rosScheme f h ⟨y, v, 0, 0⟩ n).J *ᵥ u‖ ≤ l * ‖u‖) → ∀ n ≤ M, ∀ u,
      ‖(rosScheme f h ⟨y, v, 0, 0⟩ n).C *ᵥ u‖ ≤ c * M * ‖u‖) := fun l => by
    by_cases hl : 0 ≤ l
    · obtain ⟨c, hc, h⟩ := rosScheme_cov d hl hT
      exact ⟨c, hc, fun _ => h⟩
    · exact ⟨0, le_rfl, fun h => absurd h hl⟩
  choose c hc hcov using h0
  refine ⟨fun l => d * c l, fun l => mul_nonneg (Nat.cast_nonneg d) (hc l), ?_⟩
  intro q l hl G s h hs hh M hM Js hJs hG
  have hb := hcov l hl (jField h Js) hh hM 0 0 (fun n hn u => by
    rw [jField_J hh]
    cases n with
    | zero => simpa [prevJ] using mul_nonneg hl (norm_nonneg u)
    | succ n => exact hJs n hn u) M le_rfl
  have h1 : ∀ i, ∑ j, G i j ^ 2 ≤ s * (c l * M) := fun i => by
    have h2 := congrFun (congrFun hG i) i
    have h3 : ∑ j, G i j ^ 2 = s * rosCs h Js M i i := by simpa [mul_apply, sq] using h2
    have h4 := hb (Pi.single i 1)
    have h5 : ‖(Pi.single i 1 : Vec d)‖ ≤ 1 := (pi_norm_le_iff_of_nonneg zero_le_one).mpr fun j => by
      by_cases hj : j = i
      · subst hj; simp
      · simp [Pi.single_apply, hj]
    have h6 : rosCs h Js M i i = ((rosScheme (jField h Js) h ⟨0, 0, 0, 0⟩ M).C *ᵥ Pi.single i 1) i := by
      rw [mulVec_single_one]; rfl
    have h7 := (norm_le_pi_norm ((rosScheme (jField h Js) h ⟨0, 0, 0, 0⟩ M).C *ᵥ Pi.single i 1) i).trans h4
    rw [← h6] at h7
    rw [h3]
    refine mul_le_mul_of_nonneg_left ((le_abs_self _).trans (h7.trans ?_)) hs
    exact (mul_le_mul_of_nonneg_left h5 (mul_nonneg (hc l) (Nat.cast_nonneg M))).trans (le_of_eq (mul_one _))
  refine (Finset.sum_le_sum fun i _ => h1 i).trans (le_of_eq ?_)
  rw [Finset.sum_const, Finset.card_univ, Fintype.card_fin, nsmul_eq_mul]
  ring

end Verif
