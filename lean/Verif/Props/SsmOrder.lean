import Verif.Lemmas.SsmEkf1
import Verif.Lemmas.ExpLipschitz
import Verif.Props.Alg3Order1
import Verif.Props.SampledEkf

/-!
# Property C114: the order of Algorithm 4
-/

namespace Verif

open Matrix Spec Jnp Set MeasureTheory ProbabilityTheory Filter
open scoped NNReal Topology

variable {d : ℕ}

namespace Ssm

/-- The prior used by default is the once integrated Brownian motion of scale one. -/
theorem wrapperFixed_default (la : LinAlg) (rng : Rng) (EKF0 : Bool) (key : Option Key) (x : Vec d) (δ : ℝ) (f : Field d)
    (g : Diffusion d d) (h : ℝ) (N : ℕ) (sqrt : Bool) :
    wrapperFixed la rng EKF0 key x δ f g h N sqrt none = wrapperFixed la rng EKF0 key x δ f g h N sqrt
      (some ⟨2, IOUP.transition 0 1 1 h 1⟩) := rfl

/-- The wrapper with one filter step, EKF0 and constant diffusion: Heun's scheme for the drift plus `S W` plus noise. -/
theorem wrapper_heun {la : LinAlg} (hla : la.Correct) (sqrt : Bool) {δ : ℝ} (hδ : 0 < δ) {c : ℝ} (hc : c ≠ 0) (S : Mat d d) :
    ∃ G : Matrix (Fin d ⊕ Fin d) (Fin (d * (2 + 2))) ℝ,
      G * Gᵀ = diagonal (Sum.elim (fun _ => c ^ 2 * δ ^ 3 / 12) fun _ => δ) ∧ ∀ (rng : Rng) (k : Key) (x : Vec d) (f : Field d), ∃ i,
        wrapperFixed la rng true (some k) x δ f (fun _ _ => S) δ 1 sqrt (some ⟨2, IOUP.transition 0 c 1 δ 1⟩) none =
          .ok (x + (δ / 2) • (f x 0 + f (x + δ • f x 0) δ) + S *ᵥ (fun j => (G *ᵥ rng.normalVec k (d * (2 + 2))) (Sum.inr j)) +
            (fun j => (G *ᵥ rng.normalVec k (d * (2 + 2))) (Sum.inl j)), fun j => (G *ᵥ rng.normalVec k (d * (2 + 2))) (Sum.inr j), i) := by
  obtain ⟨F, hF, hsol⟩ := solver_heun S hla sqrt hδ hc
  have hpsd : (covOf sqrt ⟨(0 : Vec _), F⟩).PosSemidef := by rw [hF]; exact stateCov_psd S hδ c hδ 1
  obtain ⟨U, hU⟩ : ∃ U, U = (if sqrt then F else la.sqrtm F) := ⟨_, rfl⟩
  have hUU : U * Uᵀ = stateCov δ S c δ 1 := by
    rw [hU, ← hF 0]
    cases sqrt
    · exact hla.sqrtm_mul_transpose hpsd
    · rfl
  obtain ⟨M, hM⟩ : ∃ M : Matrix (Fin d ⊕ Fin d) (Fin (d * (2 + 2))) ℝ, M = fromRows (Ekf.E 0 - S * Ekf.E 2) (Ekf.E 2) := ⟨_, rfl⟩
  have hMl : M * load δ S δ = fromRows 0 (fromCols 1 0) := by
    rw [hM, fromRows_mul, Matrix.sub_mul, Matrix.mul_assoc, load, sel_mul_rows, sel_mul_rows]
    simp only [cons_val_zero, cons_val, div_self hδ.ne', sub_self, mul_zero, zero_smul, one_smul, mul_fromCols, Matrix.mul_one,
      Matrix.mul_zero]
  have hMs : M * solDir d = fromRows 1 0 := by
    rw [hM, fromRows_mul, Matrix.sub_mul, Matrix.mul_assoc, solDir, sel_mul_rows, sel_mul_rows]
    simp
  obtain ⟨V, hV⟩ : ∃ V, V = la.cholesky (1 : Mat (d * (2 + 2)) (d * (2 + 2))) := ⟨_, rfl⟩
  have hVV : V * Vᵀ = 1 := by rw [hV]; exact hla.chol_mul _ PosDef.one
  refine ⟨M * U * V, ?_, fun rng k x f => ?_⟩
  · have e0 : M * U * V * (M * U * V)ᵀ = M * (U * (V * Vᵀ) * Uᵀ) * Mᵀ := by
      simp only [transpose_mul, Matrix.mul_assoc]
    rw [e0, hVV, Matrix.mul_one, hUU, stateCov]
    have e1 : ∀ (κ : Type) [Fintype κ] [DecidableEq κ] (L : Matrix (Fin (d * (2 + 2))) κ ℝ) (X : Matrix κ κ ℝ),
        M * (L * X * Lᵀ) * Mᵀ = M * L * X * (M * L)ᵀ := by
      intro κ _ _ L X
      rw [transpose_mul]
      simp only [Matrix.mul_assoc]
    have e2 := e1 (Fin d) (solDir d) 1
    have e3 := precision_end S hδ hc one_pos
    simp only [Nat.cast_one, div_one] at e3
    rw [Matrix.mul_one, Matrix.mul_one] at e2
    rw [Nat.cast_one, one_mul, e3, Matrix.mul_add, Matrix.add_mul, Matrix.mul_smul, Matrix.smul_mul, e1, e2, hMl, hMs]
    ext i j
    rcases i with i | i <;> rcases j with j | j <;>
      simp [Matrix.mul_apply, Matrix.one_apply, diagonal_apply, fromBlocks, eq_comm]
  · obtain ⟨m, h1, h2, h3⟩ := hsol f x
    refine ⟨stride 3 (m + U *ᵥ rng.multivariateNormal la k (0 : Vec (d * (2 + 2))) 1), ?_⟩
    rw [wrapperFixed, h1]
    have hs : ∀ s : Fin (2 + 2), stride s (m + U *ᵥ rng.multivariateNormal la k (0 : Vec (d * (2 + 2))) 1) =
        stride s m + Ekf.E s *ᵥ ((U * V) *ᵥ rng.normalVec k (d * (2 + 2))) := fun s => by
      have e : rng.multivariateNormal la k (0 : Vec (d * (2 + 2))) 1 = 0 + V *ᵥ rng.normalVec k (d * (2 + 2)) := by rw [hV]; rfl
      rw [e, zero_add, mulVec_mulVec, Ekf.E_mulVec]
      rfl
    have e2 : (fun j => ((M * U * V) *ᵥ rng.normalVec k (d * (2 + 2))) (Sum.inr j)) =
        Ekf.E 2 *ᵥ ((U * V) *ᵥ rng.normalVec k (d * (2 + 2))) := by
      rw [Matrix.mul_assoc M U V, ← mulVec_mulVec, hM, fromRows_mulVec]
      rfl
    have e0 : (fun j => ((M * U * V) *ᵥ rng.normalVec k (d * (2 + 2))) (Sum.inl j)) =
        Ekf.E 0 *ᵥ ((U * V) *ᵥ rng.normalVec k (d * (2 + 2))) - S *ᵥ (Ekf.E 2 *ᵥ ((U * V) *ᵥ rng.normalVec k (d * (2 + 2)))) := by
      rw [Matrix.mul_assoc M U V, ← mulVec_mulVec, hM, fromRows_mulVec, sub_mulVec, mulVec_mulVec _ S (Ekf.E 2)]
      rfl
    rw [e0, e2]
    refine congrArg Except.ok (Prod.ext ?_ (Prod.ext ?_ (by rw [hU]; rfl)))
    · refine Eq.trans (b := stride 0 (m + U *ᵥ rng.multivariateNormal la k (0 : Vec (d * (2 + 2))) 1)) (by rw [hU]; rfl) ?_
      rw [hs, h2]
      abel
    · refine Eq.trans (b := stride 2 (m + U *ᵥ rng.multivariateNormal la k (0 : Vec (d * (2 + 2))) 1)) (by rw [hU]; rfl) ?_
      rw [hs, h3, zero_add]

/-- The wrapper with one filter step, EKF1, linear drift and constant diffusion. -/
theorem wrapper_linear {la : LinAlg} (hla : la.Correct) (sqrt : Bool) {δ : ℝ} (hδ : 0 < δ) {c : ℝ} (hc : c ≠ 0) (J S : Mat d d)
    (hpd : (innovCov (stepCov δ S c) (obsMat1 δ J S δ) 0).PosDef) :
    ∃ G : Matrix (Fin d) (Fin (d * (2 + 2))) ℝ,
      G * Gᵀ = (Ekf.E 0 : Mat d (d * (2 + 2))) * postCov (stepCov δ S c) (obsMat1 δ J S δ) 0 * (Ekf.E 0 : Mat d (d * (2 + 2)))ᵀ ∧
      ∀ (rng : Rng) (k : Key) (x : Vec d), ∃ i,
        wrapperFixed la rng false (some k) x δ (fun x _ => J *ᵥ x) (fun _ _ => S) δ 1 sqrt (some ⟨2, IOUP.transition 0 c 1 δ 1⟩) none =
          .ok (stride 0 (postMean (interlace ![x + δ • J *ᵥ x, J *ᵥ x, 0, 0]) (stepCov δ S c) (J *ᵥ x - J *ᵥ (x + δ • J *ᵥ x))
            (obsMat1 δ J S δ) 0) + G *ᵥ rng.normalVec k (d * (2 + 2)), i) := by
  obtain ⟨F, hF, hsol⟩ := solver_linear S hla sqrt hδ hc J hpd
  have hQs : (transitionCovariance d !![c ^ 2 * (δ ^ 3 / 3), c ^ 2 * (δ ^ 2 / 2); c ^ 2 * (δ ^ 2 / 2), c ^ 2 * δ]).PosSemidef := by
    rw [transCov_eq]
    exact ((psd_self_mul_transpose _).smul (by positivity)).add ((psd_self_mul_transpose _).smul (by positivity))
  have hpsd : (covOf sqrt ⟨(0 : Vec _), F⟩).PosSemidef := by
    rw [hF]
    exact KF.postCov_psd ((psd_mul_mul_transpose (C56_psd hδ S) _).add hQs) PosSemidef.zero hpd
  obtain ⟨U, hU⟩ : ∃ U, U = (if sqrt then F else la.sqrtm F) := ⟨_, rfl⟩
  have hUU : U * Uᵀ = postCov (stepCov δ S c) (obsMat1 δ J S δ) 0 := by
    rw [hU, ← hF 0]
    cases sqrt
    · exact hla.sqrtm_mul_transpose hpsd
    · rfl
  obtain ⟨V, hV⟩ : ∃ V, V = la.cholesky (1 : Mat (d * (2 + 2)) (d * (2 + 2))) := ⟨_, rfl⟩
  have hVV : V * Vᵀ = 1 := by rw [hV]; exact hla.chol_mul _ PosDef.one
  refine ⟨(Ekf.E 0 : Mat d (d * (2 + 2))) * U * V, ?_, fun rng k x => ?_⟩
  · have e0 : (Ekf.E 0 : Mat d (d * (2 + 2))) * U * V * ((Ekf.E 0 : Mat d (d * (2 + 2))) * U * V)ᵀ =
        (Ekf.E 0 : Mat d (d * (2 + 2))) * (U * (V * Vᵀ) * Uᵀ) * (Ekf.E 0 : Mat d (d * (2 + 2)))ᵀ := by
      simp only [transpose_mul, Matrix.mul_assoc]
    rw [e0, hVV, Matrix.mul_one, hUU]
  · obtain ⟨m, hm⟩ : ∃ m, m = postMean (interlace ![x + δ • J *ᵥ x, J *ᵥ x, 0, 0]) (stepCov δ S c) (J *ᵥ x - J *ᵥ (x + δ • J *ᵥ x))
        (obsMat1 δ J S δ) 0 := ⟨_, rfl⟩
    have h1 := hsol x
    rw [← hm] at h1 ⊢
    refine ⟨(stride 2 (m + U *ᵥ rng.multivariateNormal la k (0 : Vec (d * (2 + 2))) 1),
      stride 3 (m + U *ᵥ rng.multivariateNormal la k (0 : Vec (d * (2 + 2))) 1)), ?_⟩
    rw [wrapperFixed, h1]
    have e : rng.multivariateNormal la k (0 : Vec (d * (2 + 2))) 1 = 0 + V *ᵥ rng.normalVec k (d * (2 + 2)) := by rw [hV]; rfl
    refine congrArg Except.ok (Prod.ext ?_ (Prod.ext (by rw [hU]; rfl) (by rw [hU]; rfl)))
    refine Eq.trans (b := stride 0 (m + U *ᵥ rng.multivariateNormal la k (0 : Vec (d * (2 + 2))) 1)) (by rw [hU]; rfl) ?_
    show _ = stride 0 m + ((Ekf.E 0 : Mat d (d * (2 + 2))) * U * V) *ᵥ rng.normalVec k (d * (2 + 2))
    rw [e, zero_add, Matrix.mul_assoc, ← mulVec_mulVec _ (Ekf.E 0 : Mat d (d * (2 + 2))) (U * V), Ekf.E_mulVec, ← mulVec_mulVec]
    rfl

/-- The wrapper with EKF1 on the integrated Brownian motion: the second component gets noise of the wrong variance. -/
theorem wrapper_ibm {la : LinAlg} (hla : la.Correct) (sqrt : Bool) {δ : ℝ} (hδ : 0 < δ) {c : ℝ} (hc : c ≠ 0) :
    ∃ G : Matrix (Fin 1) (Fin (2 * (2 + 2))) ℝ,
      G * Gᵀ = diagonal (fun _ => c ^ 2 * (1 + c ^ 2 * δ ^ 2 / 12) / (1 + c ^ 2 + c ^ 2 * δ ^ 2 / 12) * δ) ∧
      ∀ (rng : Rng) (k : Key) (x : Vec 2), ∃ (y : Vec 2) (i : Vec 2 × Vec 2),
        wrapperFixed la rng false (some k) x δ Ivp.Ibm.drift (fun _ _ => !![0, 0; 1, 0]) δ 1 sqrt (some ⟨2, IOUP.transition 0 c 1 δ 1⟩) none =
          .ok (y, i) ∧ y 1 = x 1 + (G *ᵥ rng.normalVec k (2 * (2 + 2))) 0 := by
  obtain ⟨hpd, hv⟩ := ibm_ekf1 hδ hc
  obtain ⟨G, hG, h⟩ := wrapper_linear hla sqrt hδ hc !![0, 1; 0, 0] !![0, 0; 1, 0] hpd
  refine ⟨of fun _ => G 1, ?_, fun rng k x => ?_⟩
  · rw [← hv, ← hG]
    ext i j
    fin_cases i; fin_cases j
    simp [Matrix.mul_apply]
  · obtain ⟨i, hi⟩ := h rng k x
    refine ⟨_, i, hi, ?_⟩
    have e : (!![0, 1; 0, 0] : Mat 2 2) *ᵥ x - (!![0, 1; 0, 0] : Mat 2 2) *ᵥ (x + δ • (!![0, 1; 0, 0] : Mat 2 2) *ᵥ x) = 0 := by
      rw [mulVec_add, mulVec_smul, mulVec_mulVec]
      have : (!![0, 1; 0, 0] : Mat 2 2) * !![0, 1; 0, 0] = 0 := by
        ext i j; fin_cases i <;> fin_cases j <;> simp
      rw [this]
      simp
    rw [e, postMean, mulVec_zero, sub_zero, stride_interlace]
    have e2 : ((!![0, 1; 0, 0] : Mat 2 2) *ᵥ x) 1 = 0 := by simp [mulVec, dotProduct, Fin.sum_univ_two]
    have e3 : (G *ᵥ rng.normalVec k (2 * (2 + 2))) 1 = ((of fun _ : Fin 1 => G 1) *ᵥ rng.normalVec k (2 * (2 + 2))) 0 := rfl
    rw [Pi.add_apply, e3]
    congr 1
    show x 1 + δ * ((!![0, 1; 0, 0] : Mat 2 2) *ᵥ x) 1 = x 1
    rw [e2, mul_zero, add_zero]

/-- The states of a run of Algorithm 4. -/
theorem sdeSolver_states {X C : Type} {m : ℕ} (key : Key) (f : Field d) (sigma : Diffusion d m) (x0 : X) (δ : ℝ) (N : ℕ)
    (solver : SsmInt X C d m) : ∃ y : ℕ → X, (∀ n ≤ N, (sdeSolver key f sigma x0 δ N solver).2[n]? = some (y n)) ∧ y 0 = x0 ∧
      ∀ k < N, y (k + 1) = (solver ((key.child N k).child 2 1) (y k) (fun z t => f z (t + k * δ)) (fun z t => sigma z (t + k * δ)) δ).1 := by
  obtain ⟨out, hout⟩ : ∃ out, out = (sdeSolver key f sigma x0 δ N solver).2 := ⟨_, rfl⟩
  rw [← hout]
  have h0 : out[0]? = some x0 := by rw [hout, Ssm.sdeSolver_eq]; rfl
  have hstep : ∀ k < N, ∃ x x', out[k]? = some x ∧ out[k + 1]? = some x' ∧
      x' = (solver ((key.child N k).child 2 1) x (fun z t => f z (t + k * δ)) (fun z t => sigma z (t + k * δ)) δ).1 := fun k hk => by
    rw [hout]; exact C03_ssm_interval_step key f sigma x0 δ N solver k hk
  have hex : ∀ n, ∃ y, n ≤ N → out[n]? = some y := fun n => by
    by_cases hn : n ≤ N
    · cases n with
      | zero => exact ⟨x0, fun _ => h0⟩
      | succ n =>
        obtain ⟨_, x', -, h, -⟩ := hstep n (by omega)
        exact ⟨x', fun _ => h⟩
    · exact ⟨x0, fun h => absurd h hn⟩
  choose y hy using hex
  refine ⟨y, fun n hn => hy n hn, Option.some.inj ((hy 0 (Nat.zero_le _)).symm.trans h0), fun k hk => ?_⟩
  obtain ⟨x, x', h1, h2, h3⟩ := hstep k hk
  rw [Option.some.inj ((hy k hk.le).symm.trans h1), Option.some.inj ((hy (k + 1) hk).symm.trans h2), h3]

/-- The noise of a run of Algorithm 4: jointly independent normal variables. -/
theorem noise_law {Ω : Type*} [MeasurableSpace Ω] {P : Measure Ω} {R : Ω → Rng} (hR : IdealNormals P R) (key : Key) (N : ℕ) {n : ℕ}
    {ρ : Type*} [Fintype ρ] [DecidableEq ρ] {D : ρ → ℝ} {G : Matrix ρ (Fin n) ℝ} (hG : G * Gᵀ = diagonal D) :
    IsNormal P (fun ω (q : Fin N × ρ) => (G *ᵥ (R ω).normalVec ((key.child N q.1).child 2 1) n) q.2) 0
      (diagonal fun q => D q.2) := by
  have hi := hR.indep (ι := ℕ) (fun i => (key.child N i).child 2 1) (fun _ => [n])
    (fun a b hab => ((Key.diverge_child key N a b hab).child_left 2 1).child_right 2 1)
  have hi' := hi.precomp (g := fun q : Fin N × Fin n => (⟨(q.1 : ℕ), ⟨q.2, by simp⟩⟩ : Σ _ : ℕ, Fin ([n] : List ℕ).prod)) (fun p q h => by
    simp only [Sigma.mk.injEq] at h
    have h2 := eq_of_heq h.2
    simp only [Fin.mk.injEq] at h2
    exact Prod.ext (Fin.ext h.1) (Fin.ext h2))
  have hl : ∀ q : Fin N × Fin n, HasLaw (fun ω => (R ω).normal ((key.child N q.1).child 2 1) [n] q.2) (gaussianReal 0 1) P :=
    fun q => hR.law _ _ _ (by simp)
  have hn := isNormal_linear hl hi' 0 (Matrix.kronecker (1 : Matrix (Fin N) (Fin N) ℝ) G)
  refine (congrArg₂ (fun X C => IsNormal P X _ C) ?_ ?_).mp hn
  · funext ω q
    simp [mulVec, dotProduct, Fintype.sum_prod_type, Matrix.one_apply, Rng.normalVec]
  · have h1 : Matrix.kronecker (1 : Matrix (Fin N) (Fin N) ℝ) G * (Matrix.kronecker (1 : Matrix (Fin N) (Fin N) ℝ) G)ᵀ =
        Matrix.kronecker (1 * 1ᵀ) (G * Gᵀ) := by
      rw [kronecker, ← kroneckerMap_transpose]
      exact (mul_kronecker_mul _ _ _ _).symm
    refine h1.trans ?_
    rw [hG, transpose_one, Matrix.one_mul]
    ext p q
    simp only [kronecker, kroneckerMap_apply, Matrix.one_apply, diagonal_apply, Prod.ext_iff]
    by_cases hp : p.1 = q.1 <;> by_cases hq : p.2 = q.2 <;> simp [hp, hq]

/-- Heun's step. -/
noncomputable def heun (f : Field d) (δ t : ℝ) (x : Vec d) : Vec d := x + (δ / 2) • (f x t + f (x + δ • f x t) (t + δ))

theorem heun_continuous {f : Field d} (hf : Continuous (Function.uncurry f)) (δ t : ℝ) : Continuous (heun f δ t) := by
  have h1 : Continuous fun x : Vec d => f x t := hf.comp (by fun_prop : Continuous fun x : Vec d => (x, t))
  have h2 : Continuous fun x : Vec d => f (x + δ • f x t) (t + δ) :=
    hf.comp ((continuous_id.add (h1.const_smul δ)).prodMk continuous_const)
  have h3 : Continuous fun x : Vec d => f x t + f (x + δ • f x t) (t + δ) := h1.add h2
  exact continuous_id.add (h3.const_smul (δ / 2))

theorem heun_stable {f : Field d} {T L δ t : ℝ} (hL : 0 ≤ L) (hlip : ∀ x y, ∀ t ∈ Icc 0 T, ‖f x t - f y t‖ ≤ L * ‖x - y‖)
    (hδ : 0 < δ) (ht : 0 ≤ t) (htT : t + δ ≤ T) (x y : Vec d) :
    ‖heun f δ t x - x - (heun f δ t y - y)‖ ≤ L * (1 + L * T) * δ * ‖x - y‖ := by
  have h1 := hlip x y t ⟨ht, by linarith⟩
  have h2 := hlip (x + δ • f x t) (y + δ • f y t) (t + δ) ⟨by linarith, htT⟩
  have h3 : ‖x + δ • f x t - (y + δ • f y t)‖ ≤ ‖x - y‖ + δ * (L * ‖x - y‖) := by
    rw [show x + δ • f x t - (y + δ • f y t) = (x - y) + δ • (f x t - f y t) by rw [smul_sub]; abel]
    refine (norm_add_le _ _).trans ?_
    rw [norm_smul, Real.norm_eq_abs, abs_of_pos hδ]
    gcongr
  have h4 : ‖f (x + δ • f x t) (t + δ) - f (y + δ • f y t) (t + δ)‖ ≤ L * (‖x - y‖ + δ * (L * ‖x - y‖)) :=
    h2.trans (mul_le_mul_of_nonneg_left h3 hL)
  have e : heun f δ t x - x - (heun f δ t y - y) = (δ / 2) • ((f x t - f y t) + (f (x + δ • f x t) (t + δ) - f (y + δ • f y t) (t + δ))) := by
    simp only [heun, smul_add, smul_sub]; abel
  rw [e, norm_smul, Real.norm_eq_abs, abs_of_pos (by positivity : 0 < δ / 2)]
  have h5 := (norm_add_le (f x t - f y t) (f (x + δ • f x t) (t + δ) - f (y + δ • f y t) (t + δ))).trans (add_le_add h1 h4)
  have hn := norm_nonneg (x - y)
  have h6 : L * δ * ‖x - y‖ * L * δ ≤ L * δ * ‖x - y‖ * L * T := mul_le_mul_of_nonneg_left (by linarith) (by positivity)
  have h7 : 0 ≤ L * δ * ‖x - y‖ * L * T := mul_nonneg (by positivity) (by linarith)
  calc δ / 2 * _ ≤ δ / 2 * (L * ‖x - y‖ + L * (‖x - y‖ + δ * (L * ‖x - y‖))) := by gcongr
    _ = L * δ * ‖x - y‖ + L * δ * ‖x - y‖ * L * δ / 2 := by ring
    _ ≤ L * δ * ‖x - y‖ + L * δ * ‖x - y‖ * L * T := by linarith
    _ = _ := by ring

theorem heun_consistent {f : Field d} {T L Lt δ t : ℝ} (hL : 0 ≤ L) (hLt : 0 ≤ Lt)
    (hlip : ∀ x y, ∀ t ∈ Icc 0 T, ‖f x t - f y t‖ ≤ L * ‖x - y‖) (htl : TimeLipschitz f T Lt)
    (hδ : 0 < δ) (ht : 0 ≤ t) (htT : t + δ ≤ T) (y : Vec d) :
    ‖heun f δ t y - (y + δ • f y t)‖ ≤ δ * ((L + Lt) * (δ * (1 + ‖y‖ + ‖f y t‖) ^ 2)) := by
  have h1 := hlip (y + δ • f y t) y (t + δ) ⟨by linarith, htT⟩
  have h2 := htl y (t + δ) ⟨by linarith, htT⟩ t ⟨ht, by linarith⟩
  rw [add_sub_cancel_left, norm_smul, Real.norm_eq_abs, abs_of_pos hδ] at h1
  rw [add_sub_cancel_left, abs_of_pos hδ] at h2
  have e : heun f δ t y - (y + δ • f y t) = (δ / 2) • ((f (y + δ • f y t) (t + δ) - f y (t + δ)) + (f y (t + δ) - f y t)) := by
    simp only [heun]
    generalize f (y + δ • f y t) (t + δ) = u
    module
  rw [e, norm_smul, Real.norm_eq_abs, abs_of_pos (by positivity : 0 < δ / 2)]
  have h3 := (norm_add_le (f (y + δ • f y t) (t + δ) - f y (t + δ)) (f y (t + δ) - f y t)).trans (add_le_add h1 h2)
  have hy := norm_nonneg y
  have hfy := norm_nonneg (f y t)
  generalize ‖y‖ = a at *
  generalize ‖f y t‖ = b at *
  have h4 : L * (δ * b) + Lt * (1 + a) * δ ≤ (L + Lt) * (δ * (1 + a + b)) := by
    have : 0 ≤ L * δ * (1 + a) := by positivity
    have : 0 ≤ Lt * δ * b := by positivity
    linarith
  have h5 : 1 + a + b ≤ (1 + a + b) ^ 2 := by nlinarith
  calc δ / 2 * _ ≤ δ * ((L + Lt) * (δ * (1 + a + b))) := by
        have : 0 ≤ (L + Lt) * (δ * (1 + a + b)) := by positivity
        have h6 := h3.trans h4
        have h7 := mul_le_mul_of_nonneg_left h6 (by positivity : 0 ≤ δ / 2)
        nlinarith
    _ ≤ _ := by gcongr

end Ssm

set_option maxHeartbeats 1000000 in
/-- C114, what holds: if Algorithm 4 received the increment it lacks (C58), with EKF0, one filter step per interval (the value used by
the scripts and by the tests) and additive noise it would approximate the law of the solution to order one, for every Lipschitz
function and every scale `c` of the prior. Missing: the code raises, EKF1 does not have the limit law (`C114_fails`). -/
theorem C114_partial {la : LinAlg} (hla : la.Correct) {Ω : Type*} [MeasurableSpace Ω] {P : Measure Ω} {B : Fin d → ℝ≥0 → Ω → ℝ}
    (hB : IsBrownianVec B P) {f : Field d} {Df : Vec d → ℝ → Vec d →L[ℝ] Vec d} {T L K Lt : ℝ} (hT : 0 < T)
    (hf : SmoothField f Df T L K) (htl : TimeLipschitz f T Lt) (S : Mat d d) (x0 : Vec d)
    {X : Ω → ℝ → Vec d} (hX : ∀ᵐ ω ∂P, SolvesAdditive f S (fun t j => B j t.toNNReal ω) x0 T (X ω)) :
    ∃ A : ℝ, ∀ {Ω' : Type} [MeasurableSpace Ω'] {Q : Measure Ω'} {R : Ω' → Rng}, IdealNormals Q R → ∀ N : ℕ, 0 < N →
      ∀ c : ℝ, c ≠ 0 → ∀ (sqrt : Bool) (key : Key) (solver : Ω' → Ssm.SsmInt (Vec d) (Vec d × Vec d) d d),
      (∀ ω k x f g, Ssm.wrapperFixed la (R ω) true (some k) x (T / N) f g (T / N) 1 sqrt
        (some ⟨2, IOUP.transition 0 c 1 (T / N) 1⟩) none = .ok (solver ω k x f g (T / N))) →
      ∀ n ≤ N, ∃ z : Ω' → Vec d,
        (∀ ω, (Ssm.sdeSolver key f (fun _ _ => S) x0 (T / N) N (solver ω)).2[n]? = some (z ω)) ∧
        ∀ (κ : ℝ≥0) (g : Vec d → ℝ), LipschitzWith κ g → Integrable (fun ω => g (z ω)) Q ∧
          Integrable (fun ω => g (X ω (n * (T / N)))) P ∧
          |∫ ω, g (z ω) ∂Q - ∫ ω, g (X ω (n * (T / N))) ∂P| ≤ A * κ * (1 + |c|) * (T / N) := by
  wlog hL : 0 ≤ L generalizing L
  · refine this (L := 0) ⟨hf.cont, fun x y t ht => (hf.lip x y t ht).trans ?_, hf.deriv, hf.jac⟩ le_rfl
    exact mul_le_mul_of_nonneg_right (not_le.mp hL).le (norm_nonneg _)
  wlog hLt : 0 ≤ Lt generalizing Lt
  · refine this (Lt := 0) (fun x s hs t ht => (htl x s hs t ht).trans ?_) le_rfl
    refine mul_le_mul_of_nonneg_right (mul_le_mul_of_nonneg_right (not_le.mp hLt).le ?_) (abs_nonneg _)
    positivity
  have hP := hB.isProb
  obtain ⟨C0, hC0⟩ : ∃ C0, C0 = L * (1 + L * T) := ⟨_, rfl⟩
  have hC0' : 0 ≤ C0 := by rw [hC0]; positivity
  obtain ⟨A1, hA1, hA1'⟩ := strong_core hB hT hf hL hLt htl S x0 hX (C0 := C0) (C1 := L + Lt) (κ0 := 0) (by positivity) le_rfl
  obtain ⟨A2, hA2⟩ : ∃ A2, A2 = T * d / 12 * Real.exp ((2 * d * C0 + d * C0 ^ 2 * T) * T) := ⟨_, rfl⟩
  have hA2' : 0 ≤ A2 := by rw [hA2]; positivity
  refine ⟨Real.sqrt (A1 + 1) + Real.sqrt (A2 + 1), ?_⟩
  intro Ω' _ Q R hR N hN c hc sqrt key solver hsolver n hn
  have hQ : IsProbabilityMeasure Q := (hR.law [] [1] 0 one_pos).isProbabilityMeasure
  have hN' : (0 : ℝ) < N := by exact_mod_cast hN
  obtain ⟨δ, hδdef⟩ : ∃ δ, δ = T / N := ⟨_, rfl⟩
  have hcore := hA1' N hN (lam := 0) (mu := 0) (by simp) (by simp)
  rw [← hδdef] at hsolver hcore ⊢
  have hδ : 0 < δ := by rw [hδdef]; positivity
  have hNδ : (N : ℝ) * δ = T := by rw [hδdef]; field_simp
  have hkδ : ∀ k < N, (k : ℝ) * δ + δ ≤ T := fun k hk => by
    have : ((k + 1 : ℕ) : ℝ) * δ ≤ N * δ := mul_le_mul_of_nonneg_right (by exact_mod_cast hk) hδ.le
    rw [hNδ] at this
    push_cast at this
    linarith
  have hnT : (n : ℝ) * δ ∈ Icc 0 T := ⟨by positivity, by
    rw [← hNδ]; exact mul_le_mul_of_nonneg_right (by exact_mod_cast hn) hδ.le⟩
  -- the noise of the run
  obtain ⟨G, hG, hwr⟩ := Ssm.wrapper_heun hla sqrt hδ hc S
  have hlaw := Ssm.noise_law hR key N hG
  obtain ⟨V, hV⟩ : ∃ V : Ω' → ℕ → Fin d ⊕ Fin d → ℝ, ∀ ω k, V ω k = G *ᵥ (R ω).normalVec ((key.child N k).child 2 1) (d * (2 + 2)) :=
    ⟨_, fun _ _ => rfl⟩
  simp only [← hV] at hlaw
  obtain ⟨W, hW⟩ : ∃ W : ℕ → Ω' → Vec d, ∀ k ω, W k ω = fun j => V ω k (Sum.inr j) := ⟨_, fun _ _ => rfl⟩
  obtain ⟨η, hη⟩ : ∃ η : ℕ → Ω' → Vec d, ∀ k ω, η k ω = fun j => V ω k (Sum.inl j) := ⟨_, fun _ _ => rfl⟩
  choose z hz1 hz0 hzs using fun ω => Ssm.sdeSolver_states key f (fun _ _ => S) x0 δ N (solver ω)
  obtain ⟨Φ, hΦ⟩ : ∃ Φ : ℕ → Ω' → Vec d → Vec d, ∀ k ω x, Φ k ω x = Ssm.heun f δ (k * δ) x + S *ᵥ W k ω := ⟨_, fun _ _ _ => rfl⟩
  have hZstep : ∀ k < N, ∀ ω, z ω (k + 1) = Φ k ω (z ω k) + η k ω := by
    intro k hk ω
    obtain ⟨i, hi⟩ := hwr (R ω) ((key.child N k).child 2 1) (z ω k) (fun x t => f x (t + k * δ))
    rw [hzs ω k hk, ← Except.ok.inj (hi.symm.trans (hsolver ω _ _ _ _)), hΦ, hW, hη, hV]
    simp only [Ssm.heun, zero_add, add_comm δ]
  -- the run without the noise
  obtain ⟨y, hy⟩ : ∃ y : ℕ → Ω' → Vec d, ∀ k ω, y k ω = Nat.rec x0 (fun k x => Φ k ω x) k := ⟨_, fun _ _ => rfl⟩
  have hy0 : ∀ ω, y 0 ω = x0 := fun ω => hy 0 ω
  have hYstep : ∀ k < N, ∀ ω, y (k + 1) ω = Φ k ω (y k ω) := fun k _ ω => by rw [hy, hy]
  have hηi : ∀ k < N, ∀ i, MemLp (fun ω => η k ω i) 2 Q ∧ ∫ ω, η k ω i ∂Q = 0 := fun k hk i => by
    simp only [hη]
    exact ⟨hlaw.memLp (⟨k, hk⟩, Sum.inl i), hlaw.mean (⟨k, hk⟩, Sum.inl i)⟩
  have hηv : ∀ k < N, ∫ ω, η k ω ⬝ᵥ η k ω ∂Q ≤ d * (c ^ 2 * δ ^ 3 / 12) := fun k hk => by
    have hii : ∀ i ∈ Finset.univ, Integrable (fun ω => η k ω i * η k ω i) Q := fun i _ => (hηi k hk i).1.integrable_mul (hηi k hk i).1
    simp only [dotProduct]
    rw [integral_finset_sum _ hii]
    have : ∀ i : Fin d, ∫ ω, η k ω i * η k ω i ∂Q = c ^ 2 * δ ^ 3 / 12 := fun i => by
      have h1 := hlaw.cov (⟨k, hk⟩, Sum.inl i) (⟨k, hk⟩, Sum.inl i)
      rw [diagonal_apply_eq, Sum.elim_inl] at h1
      have h2 := hηi k hk i
      simp only [hη] at h2 ⊢
      rw [covariance_eq_sub h2.1 h2.1, h2.2, mul_zero, sub_zero] at h1
      exact h1
    simp [this]
  -- the states are functions of earlier draws
  have hheun : ∀ k : ℕ, Measurable (Ssm.heun f δ (k * δ)) := fun k => (Ssm.heun_continuous hf.cont δ (k * δ)).measurable
  have hSm : Measurable fun v : Vec d => S *ᵥ v := (Matrix.mulVecLin S).continuous_of_finiteDimensional.measurable
  have hpast : ∀ k, ∀ hk : k ≤ N, ∃ F H : (Fin k × (Fin d ⊕ Fin d) → ℝ) → Vec d, Measurable F ∧ Measurable H ∧
      ∀ ω, y k ω = F (fun q => V ω q.1 q.2) ∧ z ω k = H (fun q => V ω q.1 q.2) := by
    intro k hk
    have hst : ∀ n ≤ k, ∃ F H : (Fin k × (Fin d ⊕ Fin d) → ℝ) → Vec d, Measurable F ∧ Measurable H ∧
        ∀ ω, y n ω = F (fun q => V ω q.1 q.2) ∧ z ω n = H (fun q => V ω q.1 q.2) := by
      intro n
      induction n with
      | zero => exact fun _ => ⟨fun _ => x0, fun _ => x0, measurable_const, measurable_const, fun ω => ⟨hy0 ω, hz0 ω⟩⟩
      | succ n ih =>
        intro hn
        obtain ⟨F, H, hF, hH, h⟩ := ih (by omega)
        have h1 : Measurable fun (w : Fin k × (Fin d ⊕ Fin d) → ℝ) (i : Fin d) => w (⟨n, hn⟩, Sum.inl i) :=
          measurable_pi_lambda _ fun j => measurable_pi_apply _
        have h2 : Measurable fun (w : Fin k × (Fin d ⊕ Fin d) → ℝ) (i : Fin d) => w (⟨n, hn⟩, Sum.inr i) :=
          measurable_pi_lambda _ fun j => measurable_pi_apply _
        refine ⟨fun w => Ssm.heun f δ (n * δ) (F w) + S *ᵥ fun i => w (⟨n, hn⟩, Sum.inr i),
          fun w => Ssm.heun f δ (n * δ) (H w) + S *ᵥ (fun i => w (⟨n, hn⟩, Sum.inr i)) + fun i => w (⟨n, hn⟩, Sum.inl i),
          ((hheun n).comp hF).add (hSm.comp h2), (((hheun n).comp hH).add (hSm.comp h2)).add h1, fun ω => ⟨?_, ?_⟩⟩
        · rw [hYstep n (by omega), hΦ, (h ω).1, hW]
        · rw [hZstep n (by omega), hΦ, (h ω).2, hW, hη]
    exact hst k le_rfl
  have hpastM : ∀ k, ∀ hk : k ≤ N, AEMeasurable (fun ω (q : Fin k × (Fin d ⊕ Fin d)) => V ω q.1 q.2) Q := fun k hk =>
    aemeasurable_pi_lambda _ fun q => (hlaw.memLp (⟨q.1, q.1.2.trans_le hk⟩, q.2)).1.aemeasurable
  have hpastI : ∀ k, ∀ hk : k < N, IndepFun (fun ω (q : Fin k × (Fin d ⊕ Fin d)) => V ω q.1 q.2) (η k) Q := fun k hk => by
    have := hlaw.indep_coords (fun q : Fin k × (Fin d ⊕ Fin d) => ((⟨q.1, q.1.2.trans hk⟩ : Fin N), q.2))
      (fun i : Fin d => ((⟨k, hk⟩ : Fin N), Sum.inl i)) (fun a b h => by
        have h1 : (a.1 : ℕ) = k := congrArg (fun p : Fin N × (Fin d ⊕ Fin d) => (p.1 : ℕ)) h
        have := a.1.2
        omega)
    rw [show η k = fun ω i => V ω k (Sum.inl i) from funext fun ω => hη k ω]
    exact this
  have hym : AEMeasurable (y n) Q := by
    obtain ⟨F, H, hF, hH, h⟩ := hpast n hn
    rw [show y n = fun ω => F (fun q => V ω q.1 q.2) from funext fun ω => (h ω).1]
    exact hF.comp_aemeasurable (hpastM n hn)
  have hzm : AEMeasurable (fun ω => z ω n) Q := by
    obtain ⟨F, H, hF, hH, h⟩ := hpast n hn
    rw [show (fun ω => z ω n) = fun ω => H (fun q => V ω q.1 q.2) from funext fun ω => (h ω).2]
    exact hH.comp_aemeasurable (hpastM n hn)
  have hdiff : ∀ k < N, ∃ D : (Fin k × (Fin d ⊕ Fin d) → ℝ) → Vec d, Measurable D ∧
      (fun ω => Φ k ω (z ω k) - Φ k ω (y k ω)) = fun ω => D (fun q => V ω q.1 q.2) := fun k hk => by
    obtain ⟨F, H, hF, hH, h⟩ := hpast k hk.le
    refine ⟨fun w => Ssm.heun f δ (k * δ) (H w) - Ssm.heun f δ (k * δ) (F w), ((hheun k).comp hH).sub ((hheun k).comp hF), ?_⟩
    funext ω
    rw [hΦ, hΦ, (h ω).1, (h ω).2, add_sub_add_right_eq_sub]
  obtain ⟨hLp, hle⟩ := noisy_scheme (P := Q) (N := N) (C := C0) (δ := δ) (T := T) (v := d * (c ^ 2 * δ ^ 3 / 12)) hC0' hδ hNδ.le (by positivity)
    (Y := y) (Z := fun k ω => z ω k) (η := η) (fun ω => (hy0 ω).trans (hz0 ω).symm) (Φ := Φ) hYstep hZstep
    (fun k hk ω a b => by
      rw [hΦ, hΦ, hC0]
      have := Ssm.heun_stable hL hf.lip hδ (by positivity : 0 ≤ (k : ℝ) * δ) (hkδ k hk) a b
      rwa [show Ssm.heun f δ (k * δ) a + S *ᵥ W k ω - a - (Ssm.heun f δ (k * δ) b + S *ᵥ W k ω - b) =
        Ssm.heun f δ (k * δ) a - a - (Ssm.heun f δ (k * δ) b - b) by abel])
    hηi hηv
    (fun k hk => by
      obtain ⟨D, hD, h⟩ := hdiff k hk
      rw [h]
      exact (hpastI k hk).comp hD measurable_id)
    (fun k hk => by
      obtain ⟨D, hD, h⟩ := hdiff k hk
      rw [h]
      exact (hD.comp_aemeasurable (hpastM k hk.le)).aestronglyMeasurable)
    n hn
  have hdi : Integrable (fun ω => (z ω n - y n ω) ⬝ᵥ (z ω n - y n ω)) Q := memLp_dot hLp
  have hni : Integrable (fun ω => ‖z ω n - y n ω‖ ^ 2) Q := hdi.mono' ((hzm.sub hym).norm.pow_const 2).aestronglyMeasurable
    (Eventually.of_forall fun ω => by
      rw [Real.norm_of_nonneg (sq_nonneg _)]
      exact sq_norm_le_dot _)
  have hzy : ∫ ω, ‖z ω n - y n ω‖ ^ 2 ∂Q ≤ A2 * (c * δ) ^ 2 := by
    calc ∫ ω, ‖z ω n - y n ω‖ ^ 2 ∂Q ≤ ∫ ω, (z ω n - y n ω) ⬝ᵥ (z ω n - y n ω) ∂Q := integral_mono hni hdi fun ω => sq_norm_le_dot _
      _ ≤ n * (d * (c ^ 2 * δ ^ 3 / 12)) * Real.exp ((2 * d * C0 + d * C0 ^ 2 * T) * (n * δ)) := hle
      _ = (n * δ) * (d * (c ^ 2 * δ ^ 2 / 12)) * Real.exp ((2 * d * C0 + d * C0 ^ 2 * T) * (n * δ)) := by ring
      _ ≤ T * (d * (c ^ 2 * δ ^ 2 / 12)) * Real.exp ((2 * d * C0 + d * C0 ^ 2 * T) * T) := by
        have := hnT.2
        gcongr
      _ = _ := by rw [hA2]; ring
  -- the run without the noise on the space of the Brownian motion
  obtain ⟨Wb, hWb⟩ : ∃ Wb : ℕ → Ω → Vec d, ∀ k ω, Wb k ω = (fun j => B j (k * δ + δ).toNNReal ω) - fun j => B j (k * δ).toNNReal ω :=
    ⟨_, fun _ _ => rfl⟩
  obtain ⟨yb, hyb⟩ : ∃ yb : ℕ → Ω → Vec d, ∀ k ω, yb k ω = Nat.rec x0 (fun k x => Ssm.heun f δ (k * δ) x + S *ᵥ Wb k ω) k :=
    ⟨_, fun _ _ => rfl⟩
  have hyb0 : ∀ ω, yb 0 ω = x0 := fun ω => hyb 0 ω
  have hybs : ∀ k < N, ∀ ω, yb (k + 1) ω = Ssm.heun f δ (k * δ) (yb k ω) + S *ᵥ Wb k ω := fun k _ ω => by rw [hyb, hyb]
  obtain ⟨hbi, hbe⟩ := hcore (fun k y a _ => Ssm.heun f δ (k * δ) y + S *ᵥ a)
    (fun k => ((hheun k).comp measurable_fst).add (hSm.comp (measurable_fst.comp measurable_snd)))
    (fun k hk a b x x' => by
      have := Ssm.heun_stable hL hf.lip hδ (by positivity : 0 ≤ (k : ℝ) * δ) (hkδ k hk) x x'
      rw [hC0]
      rwa [show Ssm.heun f δ (k * δ) x + S *ᵥ a - x - (Ssm.heun f δ (k * δ) x' + S *ᵥ a - x') =
        Ssm.heun f δ (k * δ) x - x - (Ssm.heun f δ (k * δ) x' - x') by abel])
    (fun k hk a b x => by
      rw [zero_smul, zero_smul, add_zero, mulVec_zero, map_zero, smul_zero, add_zero]
      have := Ssm.heun_consistent hL hLt hf.lip htl hδ (by positivity : 0 ≤ (k : ℝ) * δ) (hkδ k hk) x
      rw [show Ssm.heun f δ (k * δ) x + S *ᵥ a - (x + S *ᵥ a + δ • f x (k * δ)) = Ssm.heun f δ (k * δ) x - (x + δ • f x (k * δ)) by abel]
      refine this.trans ?_
      have : 0 ≤ (‖a‖ + 4 * ‖b‖) ^ 2 := sq_nonneg _
      gcongr
      linarith)
    yb (fun ω k => Wb k ω)
    (fun ω k j => Real.sqrt 6 * ((∫ t in (0 : ℝ)..δ, (B j (k * δ + t).toNNReal ω - B j (k * δ).toNNReal ω)) / δ - Wb k ω j / 2))
    (Eventually.of_forall hyb0)
    (Eventually.of_forall fun ω k hk => by
      rw [hWb]; exact exists_sameEndAndArea hδ.ne' (fun t j => B j t.toNNReal ω) (k * δ))
    (Eventually.of_forall fun ω k hk => hybs k hk ω) n hn
  have hid : IdentDistrib (fun ω (q : Fin N × Fin d) => Wb q.1 ω q.2) (fun ω (q : Fin N × Fin d) => W q.1 ω q.2) P Q := by
    have h1 := hlaw.reindex fun q : Fin N × Fin d => (q.1, (Sum.inr q.2 : Fin d ⊕ Fin d))
    have h2 := hB.inc_law hδ N
    have e1 : (fun ω (q : Fin N × Fin d) => B q.2 (((q.1 : ℕ) + 1 : ℕ) * δ).toNNReal ω - B q.2 ((q.1 : ℕ) * δ).toNNReal ω) =
        fun ω (q : Fin N × Fin d) => Wb q.1 ω q.2 := by
      funext ω q
      rw [hWb, Pi.sub_apply, show (((q.1 : ℕ) + 1 : ℕ) : ℝ) * δ = (q.1 : ℕ) * δ + δ by push_cast; ring]
    have e2 : (fun ω (q : Fin N × Fin d) => V ω q.1 (Sum.inr q.2)) = fun ω (q : Fin N × Fin d) => W q.1 ω q.2 := by
      funext ω q
      rw [hW]
    have e3 : (diagonal fun q : Fin N × (Fin d ⊕ Fin d) => Sum.elim (fun _ => c ^ 2 * δ ^ 3 / 12) (fun _ => δ) q.2).submatrix
        (fun q : Fin N × Fin d => (q.1, (Sum.inr q.2 : Fin d ⊕ Fin d))) (fun q : Fin N × Fin d => (q.1, (Sum.inr q.2 : Fin d ⊕ Fin d))) =
        diagonal fun _ => δ := by
      ext p q
      simp [diagonal_apply, Prod.ext_iff]
    rw [e1] at h2
    have h3 : IsNormal Q (fun ω (q : Fin N × Fin d) => W q.1 ω q.2) 0 (diagonal fun _ => δ) := by
      rw [← e2, ← e3]; exact h1
    exact h2.identDistrib h3
  obtain ⟨Ψ, hΨ⟩ : ∃ Ψ : ℕ → Vec d → (Fin N × Fin d → ℝ) → Vec d, ∀ k y w, Ψ k y w =
      Ssm.heun f δ (k * δ) y + S *ᵥ fun j => if h : k < N then w (⟨k, h⟩, j) else 0 := ⟨_, fun _ _ _ => rfl⟩
  have hΨm : ∀ k, Measurable fun p : Vec d × (Fin N × Fin d → ℝ) => Ψ k p.1 p.2 := fun k => by
    simp only [hΨ]
    have hm : ∀ j : Fin d, Measurable fun p : Vec d × (Fin N × Fin d → ℝ) => if h : k < N then p.2 (⟨k, h⟩, j) else 0 := fun j => by
      split_ifs with h
      · exact (measurable_pi_apply ((⟨k, h⟩, j) : Fin N × Fin d)).comp measurable_snd
      · exact measurable_const
    exact ((hheun k).comp measurable_fst).add (hSm.comp (measurable_pi_lambda _ hm))
  have hidn := scheme_identDistrib hid hΨm (N := N) (Y := yb) (Y' := y) hyb0 hy0
    (fun k hk ω => by rw [hybs k hk, hΨ]; simp only [hk, dite_true]) (fun k hk ω => by rw [hYstep k hk, hΨ, hΦ]; simp only [hk, dite_true]) n hn
  have hr : 0 < Real.sqrt (A1 + 1) * δ := by positivity
  have hXi := solution_integrable hB hT hf hL S x0 hX hnT
  have hle' : ∫ ω, ‖X ω (n * δ) - yb n ω‖ ^ 2 ∂P ≤ (Real.sqrt (A1 + 1) * δ) ^ 2 := by
    rw [mul_pow, Real.sq_sqrt (by positivity)]
    exact hbe.trans (mul_le_mul_of_nonneg_right (by linarith) (by positivity))
  have hyi : Integrable (y n) Q := (integrable_norm_iff hym.aestronglyMeasurable).1
    (weak_of_strong hidn hXi hbi hr hle' lipschitzWith_one_norm).1
  have hr2 : 0 < Real.sqrt (A2 + 1) * (|c| * δ) := by positivity
  refine ⟨fun ω => z ω n, fun ω => hz1 ω n hn, fun κ g hg => ?_⟩
  obtain ⟨h1, h2, h3⟩ := weak_of_strong (IdentDistrib.refl hzm) hyi (hni.congr (Eventually.of_forall fun ω => by
    beta_reduce; rw [norm_sub_rev])) hr2 (by
      have e : ∫ ω, ‖y n ω - z ω n‖ ^ 2 ∂Q = ∫ ω, ‖z ω n - y n ω‖ ^ 2 ∂Q := by simp only [norm_sub_rev]
      rw [e, mul_pow, Real.sq_sqrt (by positivity), mul_pow, sq_abs, ← mul_pow]
      refine hzy.trans ?_
      exact mul_le_mul_of_nonneg_right (by linarith) (by positivity)) hg
  obtain ⟨-, h4, h5⟩ := weak_of_strong hidn hXi hbi hr hle' hg
  refine ⟨h1, h4, (abs_sub_le _ (∫ ω, g (y n ω) ∂Q) _).trans ?_⟩
  have h6 : 0 ≤ Real.sqrt (A1 + 1) * κ * |c| * δ := by positivity
  have h7 : 0 ≤ Real.sqrt (A2 + 1) * κ * δ := by positivity
  calc _ ≤ κ * (Real.sqrt (A2 + 1) * (|c| * δ)) + κ * (Real.sqrt (A1 + 1) * δ) := by linarith
    _ ≤ κ * (Real.sqrt (A2 + 1) * (|c| * δ)) + κ * (Real.sqrt (A1 + 1) * δ) + Real.sqrt (A1 + 1) * κ * |c| * δ +
        Real.sqrt (A2 + 1) * κ * δ := by linarith
    _ = _ := by ring

/-- The mean absolute deviation of a normal variable. -/
theorem abs_dev_gaussian {Ω : Type*} [MeasurableSpace Ω] {P : Measure Ω} {Z : Ω → ℝ} {m v : ℝ} (h : HasLaw Z (gaussianReal m v.toNNReal) P)
    (hv : 0 ≤ v) : ∫ ω, |Z ω - m| ∂P = √(2 * v / Real.pi) := by
  have h1 : HasLaw (fun ω => Z ω - m) (gaussianReal 0 v.toNNReal) P := by
    have := gaussianReal_sub_const h m
    rwa [sub_self] at this
  have h2 := h1.integral_comp (f := fun x : ℝ => |x|) (by fun_prop)
  simp only [Function.comp_def] at h2
  rw [h2, integral_abs_gaussian, Real.coe_toNNReal _ hv]

/-- C114: with EKF1 even the repaired Algorithm 4 does not have the law of the solution in the limit: on the integrated Brownian motion of
the tests the variance of the second component at the time `T` tends to `c² / (1 + c²) T` instead of `T`, and the first absolute moment stays
away from the exact one. -/
theorem C114_fails {la : LinAlg} (hla : la.Correct) {Ω : Type*} [MeasurableSpace Ω] {P : Measure Ω} {B : Fin 2 → ℝ≥0 → Ω → ℝ}
    (hB : IsBrownianVec B P) {T : ℝ} (hT : 0 < T) (x0 : Vec 2) {X : Ω → ℝ → Vec 2}
    (hX : ∀ᵐ ω ∂P, SolvesAdditive Ivp.Ibm.drift !![0, 0; 1, 0] (fun t j => B j t.toNNReal ω) x0 T (X ω)) {c : ℝ} (hc : c ≠ 0) :
    ∃ κ > 0, ∃ N0 > 0, ∀ {Ω' : Type} [MeasurableSpace Ω'] {Q : Measure Ω'} {R : Ω' → Rng}, IdealNormals Q R → ∀ N : ℕ, N0 ≤ N →
      ∀ (sqrt : Bool) (key : Key) (solver : Ω' → Ssm.SsmInt (Vec 2) (Vec 2 × Vec 2) 2 2),
      (∀ ω k x f g, Ssm.wrapperFixed la (R ω) false (some k) x (T / N) f g (T / N) 1 sqrt
        (some ⟨2, IOUP.transition 0 c 1 (T / N) 1⟩) none = .ok (solver ω k x f g (T / N))) →
      ∃ z : Ω' → Vec 2,
        (∀ ω, (Ssm.sdeSolver key Ivp.Ibm.drift Ivp.Ibm.sigmaSquare x0 (T / N) N (solver ω)).2[N]? = some (z ω)) ∧
        HasLaw (fun ω => z ω 1) (gaussianReal (x0 1)
          (c ^ 2 * (1 + c ^ 2 * (T / N) ^ 2 / 12) / (1 + c ^ 2 + c ^ 2 * (T / N) ^ 2 / 12) * T).toNNReal) Q ∧
        HasLaw (fun ω => X ω T 1) (gaussianReal (x0 1) T.toNNReal) P ∧
        ∫ ω, |z ω 1 - x0 1| ∂Q + κ ≤ ∫ ω, |X ω T 1 - x0 1| ∂P := by
  have hP := hB.isProb
  -- the exact law
  have hXl : HasLaw (fun ω => X ω T 1) (gaussianReal (x0 1) T.toNNReal) P := by
    obtain ⟨M, hM⟩ : ∃ M : Matrix (Fin 1) (Fin 1 × Fin 2) ℝ, M = of fun _ q => if q = (0, 0) then 1 else 0 := ⟨_, rfl⟩
    have h1 := (hB.inc_law hT 1).affine (κ := Fin 1) (fun _ => x0 1) M
    have e1 : (fun _ : Fin 1 => x0 1) + M *ᵥ 0 = fun _ => x0 1 := by rw [mulVec_zero, add_zero]
    have e2 : (M * diagonal (fun _ : Fin 1 × Fin 2 => T) * Mᵀ : Mat 1 1) 0 0 = T := by
      simp [hM, Matrix.mul_apply, diagonal_apply]
    rw [e1] at h1
    have h2 := h1.eval 0
    rw [e2] at h2
    refine h2.congr ?_
    filter_upwards [hX] with ω hω
    have h3 := congrFun (hω.eq T ⟨hT.le, le_rfl⟩) 1
    have h4 : (∫ s in (0 : ℝ)..T, Ivp.Ibm.drift (X ω s) s) 1 = 0 := by
      have hc : ContinuousOn (fun s => Ivp.Ibm.drift (X ω s) s) (uIcc 0 T) := by
        rw [uIcc_of_le hT.le]
        exact ((Matrix.mulVecLin (!![0, 1; 0, 0] : Mat 2 2)).continuous_of_finiteDimensional.comp_continuousOn hω.cont)
      have h5 := ((ContinuousLinearMap.proj (R := ℝ) (φ := fun _ : Fin 2 => ℝ) 1).intervalIntegral_comp_comm
        (hc.intervalIntegrable (μ := volume))).symm
      simp only [ContinuousLinearMap.proj_apply] at h5
      rw [h5]
      simp [Ivp.Ibm.drift, mulVec, dotProduct, Fin.sum_univ_two]
    rw [Pi.add_apply, Pi.add_apply, h4] at h3
    rw [h3, hM]
    simp [mulVec, dotProduct, Fin.sum_univ_two, Fintype.sum_prod_type]
  obtain ⟨q, hq⟩ : ∃ q : ℝ, q = 1 - 1 / (2 * (1 + c ^ 2)) := ⟨_, rfl⟩
  have hq1 : q < 1 := by
    have : 0 < 1 / (2 * (1 + c ^ 2)) := by positivity
    linarith
  refine ⟨√(2 * T / Real.pi) - √(2 * (q * T) / Real.pi), ?_, ⌈c ^ 2 * T⌉₊ + 1, Nat.succ_pos _, ?_⟩
  · refine sub_pos.2 (Real.sqrt_lt_sqrt_iff_of_pos (by positivity) |>.2 ?_)
    refine div_lt_div_of_pos_right ?_ Real.pi_pos
    have := mul_lt_mul_of_pos_right hq1 hT
    linarith
  intro Ω' _ Q R hR N hN sqrt key solver hsolver
  have hQ : IsProbabilityMeasure Q := (hR.law [] [1] 0 one_pos).isProbabilityMeasure
  have hN' : (0 : ℝ) < N := by exact_mod_cast (Nat.succ_pos _).trans_le hN
  obtain ⟨δ, hδdef⟩ : ∃ δ, δ = T / N := ⟨_, rfl⟩
  have hcT : c ^ 2 * δ ≤ 1 := by
    have h1 : c ^ 2 * T ≤ N := (Nat.le_ceil _).trans (by exact_mod_cast (Nat.le_succ _).trans hN)
    rw [hδdef, ← mul_div_assoc]
    exact (div_le_one hN').2 h1
  rw [← hδdef] at hsolver ⊢
  have hδ : 0 < δ := by rw [hδdef]; positivity
  have hNδ : (N : ℝ) * δ = T := by rw [hδdef]; field_simp
  obtain ⟨ρ, hρ⟩ : ∃ ρ, ρ = c ^ 2 * (1 + c ^ 2 * δ ^ 2 / 12) / (1 + c ^ 2 + c ^ 2 * δ ^ 2 / 12) := ⟨_, rfl⟩
  have hρ0 : 0 ≤ ρ := by rw [hρ]; positivity
  have hρq : ρ ≤ q := by
    have h1 : c ^ 2 * (c ^ 2 * δ ^ 2) ≤ 1 := by
      have : (c ^ 2 * δ) * (c ^ 2 * δ) ≤ 1 * 1 := mul_le_mul hcT hcT (by positivity) zero_le_one
      linarith
    have h2 : 0 ≤ c ^ 2 * δ ^ 2 := by positivity
    have h3 : 0 ≤ c ^ 2 := by positivity
    rw [hρ, hq]
    generalize c ^ 2 * δ ^ 2 = e at *
    generalize c ^ 2 = b at *
    rw [div_le_iff₀ (by positivity), sub_mul, one_mul, div_mul_eq_mul_div, one_mul]
    have h4 : (1 + b + e / 12) / (2 * (1 + b)) ≤ 1 / 2 + e / 24 := by
      rw [div_le_iff₀ (by positivity)]
      nlinarith [mul_nonneg h2 h3]
    nlinarith
  obtain ⟨G, hG, hwr⟩ := Ssm.wrapper_ibm hla sqrt hδ hc
  rw [← hρ] at hG ⊢
  have hlaw := Ssm.noise_law hR key N hG
  have hsq : Ivp.Ibm.sigmaSquare = fun _ _ => (!![0, 0; 1, 0] : Mat 2 2) := by
    funext x t
    ext i j
    fin_cases i <;> fin_cases j <;> simp [Ivp.Ibm.sigmaSquare, Ivp.Ibm.sigma]
  rw [hsq]
  choose z hz1 hz0 hzs using fun ω => Ssm.sdeSolver_states key Ivp.Ibm.drift (fun _ _ => (!![0, 0; 1, 0] : Mat 2 2)) x0 δ N (solver ω)
  have hsum : ∀ n ≤ N, ∀ ω, z ω n 1 = x0 1 + ∑ k ∈ Finset.range n, (G *ᵥ (R ω).normalVec ((key.child N k).child 2 1) (2 * (2 + 2))) 0 := by
    intro n
    induction n with
    | zero => intro _ ω; simp [hz0]
    | succ n ih =>
      intro hn ω
      obtain ⟨y, i, h1, h2⟩ := hwr (R ω) ((key.child N n).child 2 1) (z ω n)
      have h3 : solver ω ((key.child N n).child 2 1) (z ω n) (fun z t => Ivp.Ibm.drift z (t + n * δ)) (fun _ _ => !![0, 0; 1, 0]) δ = (y, i) :=
        Except.ok.inj ((hsolver ω _ _ _ _).symm.trans h1)
      rw [hzs ω n hn, h3, Finset.sum_range_succ, ← add_assoc, ← ih (by omega) ω]
      exact h2
  have hzl : HasLaw (fun ω => z ω N 1) (gaussianReal (x0 1) (ρ * T).toNNReal) Q := by
    obtain ⟨M, hM⟩ : ∃ M : Matrix (Fin 1) (Fin N × Fin 1) ℝ, M = of fun _ _ => 1 := ⟨_, rfl⟩
    have h1 := hlaw.affine (κ := Fin 1) (fun _ => x0 1) M
    have e1 : (fun _ : Fin 1 => x0 1) + M *ᵥ 0 = fun _ => x0 1 := by rw [mulVec_zero, add_zero]
    have e2 : (M * diagonal (fun _ : Fin N × Fin 1 => ρ * δ) * Mᵀ : Mat 1 1) 0 0 = ρ * T := by
      rw [← hNδ]
      simp [hM, Matrix.mul_apply, diagonal_apply]
      ring
    rw [e1] at h1
    have h2 := h1.eval 0
    rw [e2] at h2
    refine h2.congr (Eventually.of_forall fun ω => ?_)
    beta_reduce
    rw [hsum N le_rfl ω, Finset.sum_range, hM]
    simp [mulVec, dotProduct, Fintype.sum_prod_type]
  refine ⟨fun ω => z ω N, fun ω => hz1 ω N le_rfl, hzl, hXl, ?_⟩
  rw [abs_dev_gaussian hzl (by positivity), abs_dev_gaussian hXl hT.le]
  have : √(2 * (ρ * T) / Real.pi) ≤ √(2 * (q * T) / Real.pi) := Real.sqrt_le_sqrt (by gcongr)
  linarith

/-- The repaired wrapper as a solver. -/
theorem exists_ssm_int (la : LinAlg) (EKF0 : Bool) {Ω : Type} (R : Ω → Rng) (δ c : ℝ) (sqrt : Bool) :
    ∃ solver : Ω → Ssm.SsmInt (Vec d) (Vec d × Vec d) d d, ∀ ω k x f g,
      Ssm.wrapperFixed la (R ω) EKF0 (some k) x δ f g δ 1 sqrt (some ⟨2, IOUP.transition 0 c 1 δ 1⟩) none = .ok (solver ω k x f g δ) := by
  have h : ∀ ω k (x : Vec d) f g, ∃ y, Ssm.wrapperFixed la (R ω) EKF0 (some k) x δ f g δ 1 sqrt (some ⟨2, IOUP.transition 0 c 1 δ 1⟩) none =
      .ok y := fun ω k x f g => C58_partial la (R ω) EKF0 (some k) x δ f g δ 1 sqrt _ (Or.inr ⟨_, rfl⟩) none (Or.inl rfl)
  choose y hy using h
  exact ⟨fun ω k x f g _ => y ω k x f g, hy⟩

/-- C114: the hypotheses of `C114_partial` are met by a drift that depends on time, the ideal generator and the default prior. -/
example {la : LinAlg} (hla : la.Correct) : ∃ (A : ℝ) (X : (Fin 2 → ℕ × ℕ → ℝ) → ℝ → Vec 2), ∀ N : ℕ, 0 < N →
    ∃ (solver : Draws → Ssm.SsmInt (Vec 2) (Vec 2 × Vec 2) 2 2) (z : Draws → Vec 2),
    (∀ ω k x f g, Ssm.wrapperFixed la (drawsRng ω) true (some k) x (1 / N) f g (1 / N) 1 true none none = .ok (solver ω k x f g (1 / N))) ∧
    (∀ ω, (Ssm.sdeSolver [] (fun (x : Vec 2) t => -(t • x)) (fun _ _ => (1 : Mat 2 2)) 0 (1 / N) N (solver ω)).2[N]? = some (z ω)) ∧
    |∫ ω, ‖z ω‖ ∂drawsMeasure - ∫ ω, ‖X ω 1‖ ∂(Measure.pi fun _ => Levy.noise)| ≤ A * (1 / N) := by
  obtain ⟨B, hB⟩ := Levy.exists_brownianVec 2
  obtain ⟨X, hX⟩ := hB.exists_solution zero_le_one smooth_decay (1 : Mat 2 2) 0
  obtain ⟨A, hA⟩ := C114_partial hla hB one_pos smooth_decay timeLipschitz_decay (1 : Mat 2 2) 0 hX
  refine ⟨2 * A, X, fun N hN => ?_⟩
  obtain ⟨solver, hs⟩ := exists_ssm_int (d := 2) la true drawsRng (1 / N) 1 true
  obtain ⟨z, h1, h2⟩ := hA idealNormals_drawsRng N hN 1 one_ne_zero true [] solver hs N le_rfl
  refine ⟨solver, z, fun ω k x f g => (Ssm.wrapperFixed_default ..).trans (hs ω k x f g), h1, ?_⟩
  obtain ⟨-, -, h3⟩ := h2 1 (fun x => ‖x‖) lipschitzWith_one_norm
  have hN' : (N : ℝ) ≠ 0 := by exact_mod_cast hN.ne'
  rw [mul_one_div_cancel hN'] at h3
  refine h3.trans (le_of_eq ?_)
  rw [abs_one, NNReal.coe_one]
  ring

/-- C114: the hypotheses of `C114_fails` are met, with the default prior and the initial value of the tests. -/
example {la : LinAlg} (hla : la.Correct) : ∃ κ > 0, ∃ N0 > 0, ∀ N : ℕ, N0 ≤ N →
    ∃ (solver : Draws → Ssm.SsmInt (Vec 2) (Vec 2 × Vec 2) 2 2) (z : Draws → Vec 2),
    (∀ ω k x f g, Ssm.wrapperFixed la (drawsRng ω) false (some k) x (1 / N) f g (1 / N) 1 true none none = .ok (solver ω k x f g (1 / N))) ∧
    (∀ ω, (Ssm.sdeSolver [] Ivp.Ibm.drift Ivp.Ibm.sigmaSquare Ivp.Ibm.x0 (1 / N) N (solver ω)).2[N]? = some (z ω)) ∧
    ∫ ω, |z ω 1 - 1| ∂drawsMeasure + κ ≤ √(2 / Real.pi) := by
  obtain ⟨B, hB⟩ := Levy.exists_brownianVec 2
  obtain ⟨L, hL⟩ := smooth_affine (!![0, 1; 0, 0] : Mat 2 2) 0 1
  simp only [add_zero] at hL
  obtain ⟨X, hX⟩ := hB.exists_solution zero_le_one hL (!![0, 0; 1, 0] : Mat 2 2) Ivp.Ibm.x0
  obtain ⟨κ, hκ, N0, hN0, h⟩ := C114_fails hla hB one_pos Ivp.Ibm.x0 hX one_ne_zero
  refine ⟨κ, hκ, N0, hN0, fun N hN => ?_⟩
  obtain ⟨solver, hs⟩ := exists_ssm_int (d := 2) la false drawsRng (1 / N) 1 true
  obtain ⟨z, h1, -, h2, h3⟩ := h idealNormals_drawsRng N hN true [] solver hs
  refine ⟨solver, z, fun ω k x f g => (Ssm.wrapperFixed_default ..).trans (hs ω k x f g), h1, h3.trans (le_of_eq ?_)⟩
  rw [abs_dev_gaussian h2 zero_le_one, mul_one]

end Verif
