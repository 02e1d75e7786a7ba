import Verif.Props.DrawOrder

/-!
# Property C110: the errors measured by the pathwise experiments of Algorithm 3 with EKF0
-/

namespace Verif

open Matrix Spec Jnp Set MeasureTheory ProbabilityTheory Scripts Filter
open scoped NNReal ENNReal

variable {d m : ℕ}

/-- One interval of Algorithm 3 with EKF0 and a key: the mean is that of Algorithm 2, the covariance grows by a fixed amount, and the
sample is the mean plus a fixed matrix times standard normals. -/
theorem ekf2_noise {la : LinAlg} (hla : la.Correct) {σ h : ℝ} (hσ : σ ≠ 0) (hh : 0 < h) {C : Mat d d} (hC : C.PosSemidef) (M : ℕ) (sqrt : Bool) :
    ∃ U : Mat d (d * (0 + 2)), U * Uᵀ = C + (σ ^ 2 * M * h ^ 3 / 12) • 1 ∧ ∀ (rng : Rng) (k : Key) (s x : Vec d) (vf : Field d),
      Ekf.ekf2 la rng true (some k) (s, x, C) vf h M sqrt (some ⟨_, IOUP.transition 0 σ 1 h d⟩) none =
        .ok ((trapScheme vf h x M).1 + U *ᵥ rng.normalVec k (d * (0 + 2)), (trapScheme vf h x M).1, C + (σ ^ 2 * M * h ^ 3 / 12) • 1) := by
  have hvar : ∀ (x : Vec d) (vf : Field d), (Ekf.init32 la true x C vf false).cov = Ekf.solX C := fun x vf => by
    simp only [Ekf.init32, if_true, Bool.false_eq_true, if_false]
    ext p q
    rw [← flat_div_mod p, ← flat_div_mod q, Ekf.solX_flat]
    refine (interlaceMatrix_flat _ _ _ _ _ _ _ _).trans ?_
    generalize p.modNat = s
    generalize q.modNat = t
    fin_cases s <;> fin_cases t <;> simp
  have hrun : ∀ (x : Vec d) (vf : Field d), ∃ f, Ekf.solver la (Ekf.init32 la true x C vf sqrt) vf h M sqrt true
      (some ⟨_, IOUP.transition 0 σ 1 h d⟩) none = .ok f ∧ f.mean = interlace ![(trapScheme vf h x M).1, (trapScheme vf h x M).2] ∧
      covOf sqrt f = kron (1 : Mat d d) !![σ ^ 2 * M * h ^ 3 / 12, 0; 0, 0] + Ekf.solX C := fun x vf =>
    solver_ibm1 hla vf hσ hh hC x M sqrt (Ekf.init32 la true x C vf sqrt).cov (by
      cases sqrt
      · exact hvar x vf
      · exact (Ekf.init32_represents hla true x hC vf).2.trans (hvar x vf))
  obtain ⟨f0, hf0, -, hc0⟩ := hrun 0 (fun _ _ => 0)
  have hpsd : sqrt = false → f0.cov.PosSemidef := by
    rintro rfl
    obtain ⟨f, h1, h2⟩ := solver_psd hla true (fun _ _ => (0 : Vec d)) (fun h => by cases h) h M (IOUP.transition 0 σ 1 h d)
      (Ekf.ibm_Q_posDef hσ 1 hh d) (Ekf.init32 la true 0 C (fun _ _ => 0) false) (by
        have := (Ekf.init32_represents hla true (0 : Vec d) hC fun _ _ => 0).2
        rw [← this]
        exact posSemidef_self_mul_conjTranspose _)
    rw [hf0] at h1
    rw [Except.ok.inj h1]
    exact h2
  set S := (if sqrt then f0.cov else la.sqrtm f0.cov) with hS
  have hCS : S * Sᵀ = covOf sqrt f0 := by
    cases sqrt
    · exact hla.sqrtm_mul_transpose (hpsd rfl)
    · rfl
  have h2 : ∀ X : Mat (d * (0 + 2)) (d * (0 + 2)), Ekf.E (dim := d) (r := 0) 0 * X * (Ekf.E 0)ᵀ = strideMat 0 0 X := fun X => by
    ext i j
    simp [mul_apply, Ekf.E, strideMat]
  have h3 : strideMat 0 0 (kron (1 : Mat d d) !![σ ^ 2 * M * h ^ 3 / 12, 0; 0, 0] + Ekf.solX C) = C + (σ ^ 2 * M * h ^ 3 / 12) • 1 := by
    ext i j
    simp [strideMat, Matrix.one_apply]
    split_ifs <;> ring
  refine ⟨(Ekf.E 0 : Mat d (d * (0 + 2))) * S * la.cholesky (1 : Mat (d * (0 + 2)) (d * (0 + 2))), ?_, fun rng k s x vf => ?_⟩
  · have h1 : (Ekf.E 0 : Mat d (d * (0 + 2))) * S * la.cholesky (1 : Mat (d * (0 + 2)) (d * (0 + 2))) *
        ((Ekf.E 0 : Mat d (d * (0 + 2))) * S * la.cholesky (1 : Mat (d * (0 + 2)) (d * (0 + 2))))ᵀ =
        (Ekf.E 0 : Mat d (d * (0 + 2))) * (S * Sᵀ) * (Ekf.E 0 : Mat d (d * (0 + 2)))ᵀ := by
      rw [transpose_mul, transpose_mul]
      have h2 := hla.chol_mul (1 : Mat (d * (0 + 2)) (d * (0 + 2))) PosDef.one
      calc _ = (Ekf.E 0 : Mat d (d * (0 + 2))) * S * (la.cholesky (1 : Mat (d * (0 + 2)) (d * (0 + 2))) *
            (la.cholesky (1 : Mat (d * (0 + 2)) (d * (0 + 2))))ᵀ) * (Sᵀ * (Ekf.E 0 : Mat d (d * (0 + 2)))ᵀ) := by simp only [Matrix.mul_assoc]
        _ = _ := by rw [h2, Matrix.mul_one]; simp only [Matrix.mul_assoc]
    rw [h1, hCS, hc0, h2, h3]
  · obtain ⟨f, hf, hm, hc⟩ := hrun x vf
    rw [Ekf.ekf2_eq]
    refine (congrArg (Except.map _) hf).trans (congrArg Except.ok (Prod.ext ?_ (Prod.ext ?_ ?_)))
    · have hcov : f.cov = f0.cov := by
        have e1 := hf.symm.trans (Ekf.solver_some (r := 0) la _ vf h M sqrt true (IOUP.transition 0 σ 1 h d))
        have e2 := hf0.symm.trans (Ekf.solver_some (r := 0) la _ _ h M sqrt true (IOUP.transition 0 σ 1 h d))
        rw [Except.ok.inj e1, Except.ok.inj e2]
        exact ekf0_cov_congr la _ _ _ _ _ _ _ _ _ _ rfl
      simp only [Ekf.solComponents, Ekf.finish2, hcov, Rng.multivariateNormal, zero_add]
      rw [← hS, ← Ekf.E_mulVec, mulVec_add, Ekf.E_mulVec, hm, stride_interlace, mulVec_mulVec, mulVec_mulVec, Matrix.mul_assoc]
      rfl
    · simp only [Ekf.solComponents, Ekf.finish2]
      rw [hm, stride_interlace]
      rfl
    · have : (Ekf.finish2 la rng (some k) sqrt f).2.2 = covOf sqrt f := by cases sqrt <;> rfl
      simp only [Ekf.solComponents, this, hc, h3]

/-- A fixed matrix times the standard normals of one key. -/
theorem draw_second_moment {Ω : Type*} [MeasurableSpace Ω] {Q : Measure Ω} {R : Ω → Rng} (hR : IdealNormals Q R) (key : Key) {q : ℕ} {U : Mat d q}
    {s : ℝ} (hU : U * Uᵀ = s • 1) : AEMeasurable (fun ω => U *ᵥ (R ω).normalVec key q) Q ∧
    Integrable (fun ω => ‖U *ᵥ (R ω).normalVec key q‖ ^ 2) Q ∧ ∫ ω, ‖U *ᵥ (R ω).normalVec key q‖ ^ 2 ∂Q ≤ d * s := by
  have h := (normalVec_std hR key q).affine 0 U
  have e : IsNormal Q (fun ω => U *ᵥ (R ω).normalVec key q) 0 (s • 1) := by
    simpa [hU] using h
  have h2 := e.norm_sq
  refine ⟨e.hasGaussianLaw.aemeasurable, h2.1, h2.2.trans (le_of_eq ?_)⟩
  simp [Matrix.trace, Finset.sum_const]

/-- The covariance that Algorithm 3 with EKF0 carries after `k` intervals. -/
theorem alg3_cov_succ {σ δ : ℝ} {M : ℕ} (hM : 0 < M) (k : ℕ) {C : Mat d d} (hC : C = (σ ^ 2 * (k * δ) * (δ / M) ^ 2 / 12) • 1) :
    C + (σ ^ 2 * M * (δ / M) ^ 3 / 12) • 1 = (σ ^ 2 * ((k + 1 : ℕ) * δ) * (δ / M) ^ 2 / 12) • (1 : Mat d d) := by
  have hM' : (M : ℝ) ≠ 0 := by exact_mod_cast hM.ne'
  rw [hC, ← add_smul]
  congr 1
  push_cast
  field_simp

theorem alg3_cov_psd {σ δ : ℝ} (hδ : 0 ≤ δ) (M k : ℕ) : ((σ ^ 2 * (k * δ) * (δ / M) ^ 2 / 12) • (1 : Mat d d)).PosSemidef :=
  PosSemidef.one.smul (by positivity)

/-- One interval of Algorithm 3 with EKF0 from the states that a run reaches. -/
theorem alg3_hint {la : LinAlg} (hla : la.Correct) {Ω : Type} {R : Ω → Rng} {σ δ : ℝ} (hσ : σ ≠ 0) (hδ : 0 < δ) {M : ℕ} (hM : 0 < M) {sqrt : Bool}
    {odeInt : Ω → OdeInt (Vec d × Vec d × Mat d d) d}
    (hode : ∀ ω k x vf, Ekf.ekf2 la (R ω) true (some k) x vf (δ / M) M sqrt (some ⟨_, IOUP.transition 0 σ 1 (δ / M) d⟩) none =
      .ok (odeInt ω k x vf δ)) (k : ℕ) :
    ∃ U : Mat d (d * (0 + 2)), U * Uᵀ = (σ ^ 2 * ((k + 1 : ℕ) * δ) * (δ / M) ^ 2 / 12) • 1 ∧ ∀ ω κ (x : Vec d × Vec d × Mat d d) vf,
      x.2.2 = (σ ^ 2 * (k * δ) * (δ / M) ^ 2 / 12) • 1 →
      odeInt ω κ x vf δ = ((trapScheme vf (δ / M) x.2.1 M).1 + U *ᵥ (R ω).normalVec κ (d * (0 + 2)), (trapScheme vf (δ / M) x.2.1 M).1,
        (σ ^ 2 * ((k + 1 : ℕ) * δ) * (δ / M) ^ 2 / 12) • 1) := by
  have hM' : (0 : ℝ) < M := by exact_mod_cast hM
  obtain ⟨U, hU, hstep⟩ := ekf2_noise hla hσ (by positivity : 0 < δ / M) (alg3_cov_psd (d := d) (σ := σ) hδ.le M k) M sqrt
  rw [alg3_cov_succ hM k rfl] at hU hstep
  refine ⟨U, hU, fun ω κ x vf hx => ?_⟩
  obtain ⟨s, y, C⟩ := x
  simp only at hx
  subst hx
  exact Except.ok.inj ((hode ω κ _ vf).symm.trans (hstep (R ω) κ s y vf))

/-- The distance between a sample and the mean it was drawn around, on the grid. -/
theorem alg3_draw {la : LinAlg} (hla : la.Correct) {Ω : Type} [MeasurableSpace Ω] {Q : Measure Ω} {R : Ω → Rng} (hR : IdealNormals Q R)
    {σ δ T : ℝ} (hσ : σ ≠ 0) (hδ : 0 < δ) {M : ℕ} (hM : 0 < M) {sqrt : Bool} {odeInt : Ω → OdeInt (Vec d × Vec d × Mat d d) d}
    (hode : ∀ ω k x vf, Ekf.ekf2 la (R ω) true (some k) x vf (δ / M) M sqrt (some ⟨_, IOUP.transition 0 σ 1 (δ / M) d⟩) none =
      .ok (odeInt ω k x vf δ)) {n : ℕ} (hn : n * δ ≤ T) (key : ℕ → Key) {y : Ω → Vec d × Vec d × Mat d d} {x0 : Vec d} {F : ℕ → Vec m → Vec m → Field d}
    (hy0 : n = 0 → ∀ ω, y ω = (x0, x0, 0))
    (hy : ∀ ω k, k + 1 = n → ∃ x a b, x.2.2 = (σ ^ 2 * (k * δ) * (δ / M) ^ 2 / 12) • 1 ∧ y ω = odeInt ω (key k) x (F k a b) δ) :
    AEMeasurable (fun ω => (y ω).1 - (y ω).2.1) Q ∧ Integrable (fun ω => ‖(y ω).1 - (y ω).2.1‖ ^ 2) Q ∧
      ∫ ω, ‖(y ω).1 - (y ω).2.1‖ ^ 2 ∂Q ≤ d * T / 12 * (σ / M) ^ 2 * δ ^ 2 := by
  have hM' : (0 : ℝ) < M := by exact_mod_cast hM
  have hT : 0 ≤ T := le_trans (by positivity) hn
  rcases n with _ | k
  · simp only [hy0 rfl, sub_self, norm_zero]
    refine ⟨aemeasurable_const, by simp, ?_⟩
    simp only [ne_eq, OfNat.ofNat_ne_zero, not_false_eq_true, zero_pow, integral_zero]
    positivity
  · obtain ⟨U, hU, hstep⟩ := alg3_hint hla hσ hδ hM hode k
    have e : (fun ω => (y ω).1 - (y ω).2.1) = fun ω => U *ᵥ (R ω).normalVec (key k) (d * (0 + 2)) := by
      funext ω
      obtain ⟨x, a, b, hx, hyx⟩ := hy ω k rfl
      rw [hyx, hstep _ _ _ _ hx]
      simp
    have e' : ∀ ω, (y ω).1 - (y ω).2.1 = U *ᵥ (R ω).normalVec (key k) (d * (0 + 2)) := fun ω => congrFun e ω
    obtain ⟨h1, h2, h3⟩ := draw_second_moment hR (key k) hU
    simp only [e']
    refine ⟨h1, h2, h3.trans ?_⟩
    have : (d : ℝ) * (σ ^ 2 * ((k + 1 : ℕ) * δ) * (δ / M) ^ 2 / 12) = d * (((k + 1 : ℕ) : ℝ) * δ) / 12 * (σ / M) ^ 2 * δ ^ 2 := by
      field_simp
    rw [this]
    gcongr

/-- C110: the errors measured by the pathwise experiments of Algorithm 3 with EKF0 and the integrated Brownian prior. For smooth drifts, the
means that the low-memory solver carries and the samples it draws around them both stay, in mean square, within order one of the
Euler-Maruyama solution computed from the same Brownian path; the samples pay for the scale of the prior. The covariance after `n` intervals
is known exactly. -/
theorem C110_measured {la : LinAlg} (hla : la.Correct) {f : Field d} {Df : Vec d → ℝ → Vec d →L[ℝ] Vec d} {T L K Lt : ℝ}
    (hT : 0 < T) (hf : SmoothField f Df T L K) (htl : TimeLipschitz f T Lt) (S : Mat d m) (x0 : Vec d) :
    ∃ A : ℝ, ∀ {Ω : Type} [MeasurableSpace Ω] {Q : Measure Ω} {R : Ω → Rng}, IdealNormals Q R → ∀ N : ℕ, 0 < N → ∀ M : ℕ, 0 < M →
      ∀ r : ℕ, 0 < r → ∀ σ : ℝ, σ ≠ 0 → ∀ (sqrt : Bool) (key : Key) (odeInt : Ω → OdeInt (Vec d × Vec d × Mat d d) d),
      (∀ ω k x vf, Ekf.ekf2 la (R ω) true (some k) x vf (T / N / M) M sqrt
        (some ⟨_, IOUP.transition 0 σ 1 (T / N / M) d⟩) none = .ok (odeInt ω k x vf (T / N))) →
      ∀ n ≤ N, ∃ y μ z : Ω → Vec d,
        (∀ ω, ∃ ts traj traj2, ramSolver (R ω) key f (fun _ _ => S) (x0, x0, 0) x0 (T / N) N r (odeInt ω) = .ok (ts, traj, traj2) ∧
          ts[n]? = some (n * (T / N)) ∧ traj[n]? = some (y ω, μ ω, (σ ^ 2 * (n * (T / N)) * (T / N / M) ^ 2 / 12) • 1) ∧
          traj2[n]? = some (z ω)) ∧
        Integrable (fun ω => ‖μ ω - z ω‖ ^ 2) Q ∧ ∫ ω, ‖μ ω - z ω‖ ^ 2 ∂Q ≤ A * (T / N) ^ 2 ∧
        Integrable (fun ω => ‖y ω - z ω‖ ^ 2) Q ∧ ∫ ω, ‖y ω - z ω‖ ^ 2 ∂Q ≤ A * (1 + (σ / M) ^ 2) * (T / N) ^ 2 := by
  obtain ⟨A, hA⟩ := measured_ms_state (q := 0) hT hf htl S x0 (ι := ℕ) x0 (ρ := id) measurable_id
    (Adm := fun _ M => 0 < M)
    (J := fun (N M : ℕ) k y a b ξ => (trapScheme (additiveField f S (k * (T / N)) (T / N) a b) (T / N / M) y M).1 + (0 : Mat d 0) *ᵥ ξ)
    (v := fun _ => 0) (fun N p _ k _ => (continuous_trapDraw hf.cont S _ _ _ _ _).measurable) (fun hB X hX => by
      obtain ⟨A, -, hA⟩ := trap_draw_strong hB hT hf htl S x0 hX
      refine ⟨A, fun N hN M hM c hc Y hY0 hYs n hn => ?_⟩
      have := hA N hN M hM 0 0 (by simp) c hc Y hY0 hYs n hn
      rwa [zero_div] at this)
  refine ⟨2 * |A| + d * T / 6, ?_⟩
  intro Ω _ Q R hR N hN M hM r hr σ hσ sqrt key odeInt hode n hn
  have hN' : (0 : ℝ) < N := by exact_mod_cast hN
  have hδ : 0 < T / N := by positivity
  obtain ⟨y, z, h1, hI, hs, hm, h2, h3⟩ := hA hR N hN M hM r hr key (x0, x0, 0) (fun x => x.2.1)
    (fun k x => x.2.2 = (σ ^ 2 * (k * (T / N)) * (T / N / M) ^ 2 / 12) • 1 ∧ (k = 0 → x = (x0, x0, 0))) odeInt rfl (by simp)
    (fun ω κ x k hk hx a b => by
      obtain ⟨U, -, hstep⟩ := alg3_hint hla hσ hδ hM hode k
      rw [hstep ω κ x _ hx.1]
      simp) n hn
  obtain ⟨g1, g2, g3⟩ := alg3_draw hla hR hσ hδ hM hode (T := T) (n := n) (by
    calc (n : ℝ) * (T / N) ≤ N * (T / N) := mul_le_mul_of_nonneg_right (by exact_mod_cast hn) hδ.le
      _ = T := by field_simp) (fun k => (key.child N k).child 2 1) (fun h ω => (hI ω).2 h)
    (F := fun k a b => additiveField f S (k * (T / N)) (T / N) a b) (fun ω k hk => by
      obtain ⟨x, a, b, hx, hyx⟩ := hs ω k hk
      exact ⟨x, a, b, hx.1, hyx⟩)
  simp only [id, zero_pow, ne_eq, OfNat.ofNat_ne_zero, not_false_eq_true, add_zero, mul_one] at hm h2 h3
  have hb : ∀ ω, ‖(y ω).1 - z ω‖ ^ 2 ≤ 2 * ‖(y ω).1 - (y ω).2.1‖ ^ 2 + 2 * ‖(y ω).2.1 - z ω‖ ^ 2 := fun ω => by
    have h : ‖(y ω).1 - z ω‖ ≤ ‖(y ω).1 - (y ω).2.1‖ + ‖(y ω).2.1 - z ω‖ := by
      rw [show (y ω).1 - z ω = ((y ω).1 - (y ω).2.1) + ((y ω).2.1 - z ω) by abel]
      exact norm_add_le _ _
    nlinarith [norm_nonneg ((y ω).1 - z ω), sq_nonneg (‖(y ω).1 - (y ω).2.1‖ - ‖(y ω).2.1 - z ω‖)]
  have hmz : AEMeasurable (fun ω => (y ω).1 - z ω) Q := by
    have e : (fun ω => (y ω).1 - z ω) = fun ω => ((y ω).1 - (y ω).2.1) + ((y ω).2.1 - z ω) := by funext ω; abel
    rw [e]
    exact g1.add (hm.fst.sub hm.snd)
  have hi : Integrable (fun ω => ‖(y ω).1 - z ω‖ ^ 2) Q :=
    ((g2.const_mul 2).add (h2.const_mul 2)).mono' (hmz.norm.pow_const 2).aestronglyMeasurable (Eventually.of_forall fun ω => by
      rw [Real.norm_eq_abs, abs_of_nonneg (by positivity)]
      exact hb ω)
  refine ⟨fun ω => (y ω).1, fun ω => (y ω).2.1, z, fun ω => ?_, h2, h3.trans ?_, hi, ?_⟩
  · obtain ⟨ts, traj, traj2, k1, k2, k3, k4⟩ := h1 ω
    exact ⟨ts, traj, traj2, k1, k2, k3.trans (congrArg some (Prod.ext rfl (Prod.ext rfl (hI ω).1))), k4⟩
  · have h : A ≤ 2 * |A| + d * T / 6 := by
      have := le_abs_self A
      have := abs_nonneg A
      have : 0 ≤ d * T / 6 := by positivity
      linarith
    gcongr
  · calc ∫ ω, ‖(y ω).1 - z ω‖ ^ 2 ∂Q ≤ ∫ ω, (2 * ‖(y ω).1 - (y ω).2.1‖ ^ 2 + 2 * ‖(y ω).2.1 - z ω‖ ^ 2) ∂Q :=
          integral_mono hi ((g2.const_mul 2).add (h2.const_mul 2)) hb
      _ = 2 * (∫ ω, ‖(y ω).1 - (y ω).2.1‖ ^ 2 ∂Q) + 2 * ∫ ω, ‖(y ω).2.1 - z ω‖ ^ 2 ∂Q := by
          rw [integral_add (g2.const_mul 2) (h2.const_mul 2), integral_const_mul, integral_const_mul]
      _ ≤ 2 * (d * T / 12 * (σ / M) ^ 2 * (T / N) ^ 2) + 2 * (|A| * (T / N) ^ 2) := by
          have := mul_le_mul_of_nonneg_right (le_abs_self A) (sq_nonneg (T / N))
          linarith
      _ ≤ (2 * |A| + d * T / 6) * (1 + (σ / M) ^ 2) * (T / N) ^ 2 := by
          have h5 : 0 ≤ 2 * |A| * (σ / M) ^ 2 * (T / N) ^ 2 + d * T / 6 * (T / N) ^ 2 := by positivity
          linarith

/-- C110: order one in probability for twice continuously differentiable drifts whose equation has solutions, the scale of the prior
growing at most in proportion to the number of filter steps. -/
theorem C110_prob {la : LinAlg} (hla : la.Correct) {f : Field d} (hf : ContDiff ℝ 2 (Function.uncurry f)) {T : ℝ}
    (hT : 0 < T) (S : Mat d m) (x0 : Vec d) (hsol : ∀ w : ℝ → Vec m, Continuous w → ∃ x, SolvesAdditive f S w x0 T x) (s0 : ℝ) {ε : ℝ}
    (hε : 0 < ε) :
    ∃ (A : ℝ) (N0 : ℕ), ∀ {Ω : Type} [MeasurableSpace Ω] {Q : Measure Ω} {R : Ω → Rng}, IdealNormals Q R → ∀ N ≥ N0, ∀ M : ℕ, 0 < M →
      ∀ r : ℕ, 0 < r → ∀ σ : ℝ, σ ≠ 0 → |σ| ≤ s0 * M → ∀ (sqrt : Bool) (key : Key) (odeInt : Ω → OdeInt (Vec d × Vec d × Mat d d) d),
      (∀ ω k x vf, Ekf.ekf2 la (R ω) true (some k) x vf (T / N / M) M sqrt
        (some ⟨_, IOUP.transition 0 σ 1 (T / N / M) d⟩) none = .ok (odeInt ω k x vf (T / N))) →
      ∀ n ≤ N, ∃ y μ z : Ω → Vec d,
        (∀ ω, ∃ ts traj traj2, ramSolver (R ω) key f (fun _ _ => S) (x0, x0, 0) x0 (T / N) N r (odeInt ω) = .ok (ts, traj, traj2) ∧
          ts[n]? = some (n * (T / N)) ∧ traj[n]? = some (y ω, μ ω, (σ ^ 2 * (n * (T / N)) * (T / N / M) ^ 2 / 12) • 1) ∧
          traj2[n]? = some (z ω)) ∧
        Q {ω | A * (T / N) < ‖μ ω - z ω‖} ≤ ENNReal.ofReal ε ∧ Q {ω | A * (T / N) < ‖y ω - z ω‖} ≤ ENNReal.ofReal ε := by
  obtain ⟨s, hs, hS⟩ := exists_mulVec_bound S
  obtain ⟨A, N0, hA⟩ := measured_prob_state (q := 0) hf hT S x0 hsol (half_pos hε) (ι := ℕ) x0 (ρ := id) measurable_id
    (Adm := fun _ M => 0 < M)
    (J := fun (N M : ℕ) k y a b ξ => (trapScheme (additiveField f S (k * (T / N)) (T / N) a b) (T / N / M) y M).1 + (0 : Mat d 0) *ᵥ ξ)
    (fun N p _ k _ => (continuous_trapDraw hf.continuous S _ _ _ _ _).measurable) (fun hB X hX =>
      prob_order_draw hB hf hT S x0 hX
        (J := fun (f : Field d) (N M : ℕ) k y a b ξ => (trapScheme (additiveField f S (k * (T / N)) (T / N) a b) (T / N / M) y M).1 + (0 : Mat d 0) *ᵥ ξ)
        (κ := 1 / (40 * (s + 1))) (by positivity) (fun g Dg L K X' hL hg hgt hX' => by
          obtain ⟨A, hA0, hA⟩ := trap_draw_strong hB hT hg hgt S x0 hX'
          refine ⟨A, fun N hN M hM c hc Y hY0 hYs n hn => ?_⟩
          have := hA N hN M hM 0 0 (by simp) c hc Y hY0 hYs n hn
          rwa [zero_div, zero_pow two_ne_zero, add_zero, mul_one] at this)
        (fun g Dg L K F ρ hF hg _ _ hgF heq => by
          obtain ⟨N3, hN3⟩ := exists_small_step F hT (by norm_num : (0 : ℝ) < 1 / 4)
          refine ⟨N3, fun N hN hN0 M hM k hk y a b ξ hy hsl => ?_⟩
          have hN' : (0 : ℝ) < N := by exact_mod_cast hN0
          have h := trap_local hF hs hS hgF heq (by positivity : 0 < T / N) (hN3 N hN hN0) (by positivity : 0 ≤ (k : ℝ) * (T / N))
            (by
              have h1 : ((k + 1 : ℕ) : ℝ) * (T / N) ≤ N * (T / N) := mul_le_mul_of_nonneg_right (by exact_mod_cast hk) (by positivity)
              rw [mul_div_cancel₀ T hN'.ne'] at h1
              push_cast at h1
              linarith) hM hy hsl
          simp only [h]) (half_pos (half_pos hε)))
  obtain ⟨D, hD⟩ : ∃ D : ℝ, D = d * T / 12 * s0 ^ 2 := ⟨_, rfl⟩
  have hD0 : 0 ≤ D := by rw [hD]; positivity
  obtain ⟨G, hG⟩ : ∃ G : ℝ, G = Real.sqrt (2 * (D + 1) / ε) := ⟨_, rfl⟩
  have hG0 : 0 < G := by rw [hG]; exact Real.sqrt_pos.mpr (by positivity)
  have hG2 : G ^ 2 = 2 * (D + 1) / ε := by rw [hG]; exact Real.sq_sqrt (by positivity)
  refine ⟨|A| + G, N0 + 1, ?_⟩
  intro Ω _ Q R hR N hN M hM r hr σ hσ hσM sqrt key odeInt hode n hn
  haveI : IsProbabilityMeasure Q := (hR.law [] [1] 0 one_pos).isProbabilityMeasure
  have hN' : (0 : ℝ) < N := by exact_mod_cast (by omega : 0 < N)
  have hM' : (0 : ℝ) < M := by exact_mod_cast hM
  have hδ : 0 < T / N := by positivity
  obtain ⟨y, z, h1, hI, hs', h2⟩ := hA hR N (by omega) M hM r hr key (x0, x0, 0) (fun x => x.2.1)
    (fun k x => x.2.2 = (σ ^ 2 * (k * (T / N)) * (T / N / M) ^ 2 / 12) • 1 ∧ (k = 0 → x = (x0, x0, 0))) odeInt rfl (by simp)
    (fun ω κ x k hk hx a b => by
      obtain ⟨U, -, hstep⟩ := alg3_hint hla hσ hδ hM hode k
      rw [hstep ω κ x _ hx.1]
      simp) n hn
  obtain ⟨g1, g2, g3⟩ := alg3_draw hla hR hσ hδ hM hode (T := T) (n := n) (by
    calc (n : ℝ) * (T / N) ≤ N * (T / N) := mul_le_mul_of_nonneg_right (by exact_mod_cast hn) hδ.le
      _ = T := by field_simp) (fun k => (key.child N k).child 2 1) (fun h ω => (hI ω).2 h)
    (F := fun k a b => additiveField f S (k * (T / N)) (T / N) a b) (fun ω k hk => by
      obtain ⟨x, a, b, hx, hyx⟩ := hs' ω k hk
      exact ⟨x, a, b, hx.1, hyx⟩)
  simp only [id] at h2
  have hdraw : Q {ω | G * (T / N) < ‖(y ω).1 - (y ω).2.1‖} ≤ ENNReal.ofReal (ε / 2) := by
    have hsM : (σ / M) ^ 2 ≤ s0 ^ 2 := by
      rw [← sq_abs (σ / M)]
      refine pow_le_pow_left₀ (abs_nonneg _) ?_ 2
      rw [abs_div, abs_of_pos hM', div_le_iff₀ hM']
      exact hσM
    have h4 : d * T / 12 * (σ / M) ^ 2 * (T / N) ^ 2 ≤ (D + 1) * (T / N) ^ 2 := by
      have h5 : d * T / 12 * (σ / M) ^ 2 ≤ D := by
        rw [hD]
        gcongr
      exact mul_le_mul_of_nonneg_right (by linarith) (sq_nonneg _)
    refine (prob_of_meanSquare (by positivity : 0 < G * (T / N)) g2 (g3.trans h4)).trans (ENNReal.ofReal_le_ofReal (le_of_eq ?_))
    rw [mul_pow, hG2]
    field_simp
  have hle : A * (T / N) ≤ |A| * (T / N) := mul_le_mul_of_nonneg_right (le_abs_self A) hδ.le
  refine ⟨fun ω => (y ω).1, fun ω => (y ω).2.1, z, fun ω => ?_, ?_, ?_⟩
  · obtain ⟨ts, traj, traj2, k1, k2, k3, k4⟩ := h1 ω
    exact ⟨ts, traj, traj2, k1, k2, k3.trans (congrArg some (Prod.ext rfl (Prod.ext rfl (hI ω).1))), k4⟩
  · refine (measure_mono fun ω (hω : (|A| + G) * (T / N) < ‖(y ω).2.1 - z ω‖) => ?_).trans
      (h2.trans (ENNReal.ofReal_le_ofReal (half_le_self hε.le)))
    have : 0 < G * (T / N) := by positivity
    show A * (T / N) < ‖(y ω).2.1 - z ω‖
    linarith
  · have hsub : {ω | (|A| + G) * (T / N) < ‖(y ω).1 - z ω‖} ⊆ {ω | A * (T / N) < ‖(y ω).2.1 - z ω‖} ∪ {ω | G * (T / N) < ‖(y ω).1 - (y ω).2.1‖} := by
      intro ω (hω : (|A| + G) * (T / N) < ‖(y ω).1 - z ω‖)
      by_contra hc
      simp only [mem_union, mem_setOf_eq, not_or, not_lt] at hc
      have h : ‖(y ω).1 - z ω‖ ≤ ‖(y ω).1 - (y ω).2.1‖ + ‖(y ω).2.1 - z ω‖ := by
        rw [show (y ω).1 - z ω = ((y ω).1 - (y ω).2.1) + ((y ω).2.1 - z ω) by abel]
        exact norm_add_le _ _
      linarith [hc.1, hc.2]
    refine (measure_mono hsub).trans ((measure_union_le _ _).trans ((add_le_add h2 hdraw).trans (le_of_eq ?_)))
    rw [← ENNReal.ofReal_add (by positivity) (by positivity), add_halves]

/-- C110: FitzHugh-Nagumo itself, as `ivp.py` defines it, with its own diffusion or with the padded square one. -/
theorem C110_fhn {la : LinAlg} (hla : la.Correct) {T : ℝ} (hT : 0 < T) (s0 : ℝ) {ε : ℝ} (hε : 0 < ε) :
    (∃ (A : ℝ) (N0 : ℕ), ∀ {Ω : Type} [MeasurableSpace Ω] {Q : Measure Ω} {R : Ω → Rng}, IdealNormals Q R → ∀ N ≥ N0, ∀ M : ℕ, 0 < M →
      ∀ r : ℕ, 0 < r → ∀ σ : ℝ, σ ≠ 0 → |σ| ≤ s0 * M → ∀ (sqrt : Bool) (key : Key) (odeInt : Ω → OdeInt (Vec 2 × Vec 2 × Mat 2 2) 2),
      (∀ ω k x vf, Ekf.ekf2 la (R ω) true (some k) x vf (T / N / M) M sqrt
        (some ⟨_, IOUP.transition 0 σ 1 (T / N / M) 2⟩) none = .ok (odeInt ω k x vf (T / N))) →
      ∀ n ≤ N, ∃ y μ z : Ω → Vec 2,
        (∀ ω, ∃ ts traj traj2, ramSolver (R ω) key Ivp.Fhn.drift Ivp.Fhn.sigma (Ivp.Fhn.x0, Ivp.Fhn.x0, 0) Ivp.Fhn.x0 (T / N) N r (odeInt ω) =
            .ok (ts, traj, traj2) ∧
          ts[n]? = some (n * (T / N)) ∧ traj[n]? = some (y ω, μ ω, (σ ^ 2 * (n * (T / N)) * (T / N / M) ^ 2 / 12) • 1) ∧
          traj2[n]? = some (z ω)) ∧
        Q {ω | A * (T / N) < ‖μ ω - z ω‖} ≤ ENNReal.ofReal ε ∧ Q {ω | A * (T / N) < ‖y ω - z ω‖} ≤ ENNReal.ofReal ε) ∧
    (∃ (A : ℝ) (N0 : ℕ), ∀ {Ω : Type} [MeasurableSpace Ω] {Q : Measure Ω} {R : Ω → Rng}, IdealNormals Q R → ∀ N ≥ N0, ∀ M : ℕ, 0 < M →
      ∀ r : ℕ, 0 < r → ∀ σ : ℝ, σ ≠ 0 → |σ| ≤ s0 * M → ∀ (sqrt : Bool) (key : Key) (odeInt : Ω → OdeInt (Vec 2 × Vec 2 × Mat 2 2) 2),
      (∀ ω k x vf, Ekf.ekf2 la (R ω) true (some k) x vf (T / N / M) M sqrt
        (some ⟨_, IOUP.transition 0 σ 1 (T / N / M) 2⟩) none = .ok (odeInt ω k x vf (T / N))) →
      ∀ n ≤ N, ∃ y μ z : Ω → Vec 2,
        (∀ ω, ∃ ts traj traj2, ramSolver (R ω) key Ivp.Fhn.drift Ivp.Fhn.sigmaSquare (Ivp.Fhn.x0, Ivp.Fhn.x0, 0) Ivp.Fhn.x0 (T / N) N r
            (odeInt ω) = .ok (ts, traj, traj2) ∧
          ts[n]? = some (n * (T / N)) ∧ traj[n]? = some (y ω, μ ω, (σ ^ 2 * (n * (T / N)) * (T / N / M) ^ 2 / 12) • 1) ∧
          traj2[n]? = some (z ω)) ∧
        Q {ω | A * (T / N) < ‖μ ω - z ω‖} ≤ ENNReal.ofReal ε ∧ Q {ω | A * (T / N) < ‖y ω - z ω‖} ≤ ENNReal.ofReal ε) := by
  have e2 : Ivp.Fhn.sigmaSquare = fun _ _ => !![0, 0; Ivp.Fhn.sig, 0] := by
    funext x t
    simp [Ivp.Fhn.sigmaSquare, Ivp.Fhn.sigma]
  constructor
  · exact C110_prob hla Ivp.Fhn.contDiff_drift hT (!![0; Ivp.Fhn.sig]) Ivp.Fhn.x0
      (fun w hw => Ivp.Fhn.exists_solution hT.le _ (fun j => by fin_cases j; rfl) w hw _) s0 hε
  · rw [e2]
    exact C110_prob hla Ivp.Fhn.contDiff_drift hT (!![0, 0; Ivp.Fhn.sig, 0]) Ivp.Fhn.x0
      (fun w hw => Ivp.Fhn.exists_solution hT.le _ (fun j => by fin_cases j <;> rfl) w hw _) s0 hε

/-- C110: a generator and a filter that satisfy the hypotheses. -/
theorem exists_ekf2_int (la : LinAlg) (ekf0 : Bool) {Ω : Type} (R : Ω → Rng) (δ σ : ℝ) (M : ℕ) (sqrt : Bool) :
    ∃ odeInt : Ω → OdeInt (Vec d × Vec d × Mat d d) d, ∀ ω k x vf, Ekf.ekf2 la (R ω) ekf0 (some k) x vf (δ / M) M sqrt
      (some ⟨_, IOUP.transition 0 σ 1 (δ / M) d⟩) none = .ok (odeInt ω k x vf δ) := by
  have h : ∀ ω k (x : Vec d × Vec d × Mat d d) vf, ∃ y, Ekf.ekf2 la (R ω) ekf0 (some k) x vf (δ / M) M sqrt
      (some ⟨_, IOUP.transition 0 σ 1 (δ / M) d⟩) none = .ok y := fun ω k x vf => ⟨_, by
    rw [Ekf.ekf2_eq]
    exact congrArg (Except.map _) (Ekf.solver_some (r := 0) la _ vf (δ / M) M sqrt ekf0 (IOUP.transition 0 σ 1 (δ / M) d))⟩
  choose g hg using h
  exact ⟨fun ω k x vf _ => g ω k x vf, hg⟩

/-- C110: a smooth drift, five filter steps per interval. -/
example {la : LinAlg} (hla : la.Correct) : ∃ A : ℝ, ∀ N : ℕ, 0 < N → ∃ (odeInt : _ → OdeInt (Vec 2 × Vec 2 × Mat 2 2) 2) (y μ z : _ → Vec 2),
    (∀ ω k x vf, Ekf.ekf2 la (drawsRng ω) true (some k) x vf (1 / N / (5 : ℕ)) 5 true (some ⟨_, IOUP.transition 0 1 1 (1 / N / (5 : ℕ)) 2⟩) none =
      .ok (odeInt ω k x vf (1 / N))) ∧
    (∀ ω, ∃ ts traj traj2, ramSolver (drawsRng ω) [] (fun (x : Vec 2) (t : ℝ) => -(t • x)) (fun _ _ => (1 : Mat 2 2)) (0, 0, 0) 0 (1 / N) N 7
      (odeInt ω) = .ok (ts, traj, traj2) ∧ (∃ C, traj[N]? = some (y ω, μ ω, C)) ∧ traj2[N]? = some (z ω)) ∧
    ∫ ω, ‖μ ω - z ω‖ ^ 2 ∂drawsMeasure ≤ A * (1 / N) ^ 2 ∧ ∫ ω, ‖y ω - z ω‖ ^ 2 ∂drawsMeasure ≤ A * (1 + (1 / (5 : ℕ)) ^ 2) * (1 / N) ^ 2 := by
  obtain ⟨A, hA⟩ := C110_measured hla one_pos smooth_decay timeLipschitz_decay (1 : Mat 2 2) 0
  refine ⟨A, fun N hN => ?_⟩
  obtain ⟨odeInt, hode⟩ := exists_ekf2_int (d := 2) la true drawsRng (1 / N) 1 5 true
  obtain ⟨y, μ, z, h1, -, h2, -, h3⟩ := hA idealNormals_drawsRng N hN 5 (by norm_num) 7 (by norm_num) 1 one_ne_zero true [] odeInt hode N le_rfl
  refine ⟨odeInt, y, μ, z, hode, fun ω => ?_, h2, h3⟩
  obtain ⟨ts, traj, traj2, g1, -, g2, g3⟩ := h1 ω
  exact ⟨ts, traj, traj2, g1, ⟨_, g2⟩, g3⟩

/-- C110: FitzHugh-Nagumo with the settings of the scripts: one filter step per interval, prior scale 1, square roots. -/
example {la : LinAlg} (hla : la.Correct) : ∃ (A : ℝ) (N0 : ℕ), ∀ N ≥ N0, 0 < N → ∃ (odeInt : _ → OdeInt (Vec 2 × Vec 2 × Mat 2 2) 2)
    (y μ z : _ → Vec 2),
    (∀ ω k x vf, Ekf.ekf2 la (drawsRng ω) true (some k) x vf (1 / N / (1 : ℕ)) 1 true (some ⟨_, IOUP.transition 0 1 1 (1 / N / (1 : ℕ)) 2⟩) none =
      .ok (odeInt ω k x vf (1 / N))) ∧
    (∀ ω, ∃ ts traj traj2, ramSolver (drawsRng ω) [] Ivp.Fhn.drift Ivp.Fhn.sigma (Ivp.Fhn.x0, Ivp.Fhn.x0, 0) Ivp.Fhn.x0 (1 / N) N N
      (odeInt ω) = .ok (ts, traj, traj2) ∧ (∃ C, traj[N]? = some (y ω, μ ω, C)) ∧ traj2[N]? = some (z ω)) ∧
    drawsMeasure {ω | A * (1 / N) < ‖y ω - z ω‖} ≤ ENNReal.ofReal 0.01 := by
  obtain ⟨A, N0, hA⟩ := (C110_fhn hla one_pos 1 (by norm_num : (0 : ℝ) < 0.01)).1
  refine ⟨A, N0, fun N hN hN0 => ?_⟩
  obtain ⟨odeInt, hode⟩ := exists_ekf2_int (d := 2) la true drawsRng (1 / N) 1 1 true
  obtain ⟨y, μ, z, h1, -, h2⟩ := hA idealNormals_drawsRng N hN 1 one_pos N hN0 1 one_ne_zero (by simp) true [] odeInt hode N le_rfl
  refine ⟨odeInt, y, μ, z, hode, fun ω => ?_, h2⟩
  obtain ⟨ts, traj, traj2, g1, -, g2, g3⟩ := h1 ω
  exact ⟨ts, traj, traj2, g1, ⟨_, g2⟩, g3⟩

end Verif
