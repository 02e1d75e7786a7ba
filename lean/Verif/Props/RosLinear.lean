import Verif.Lemmas.RosLinear
import Verif.Lemmas.LevyBrownian
import Verif.Props.Lin15
import Verif.Props.HeunLinear

/-! C146: one EKF1 step per interval of `sde_solver` on linear problems. -/

namespace Verif

open Matrix Spec Jnp Set MeasureTheory ProbabilityTheory Filter Scripts
open scoped NNReal Topology

variable {d m : ℕ}

private theorem ode_ros {la : LinAlg} (hla : la.Correct) (rng : Rng) (hd : 0 < d) (F : Mat d d) (S : Mat d m) {σ δ : ℝ} (hσ : σ ≠ 0) (hδ : 0 < δ) (sqrt : Bool)
    {ode : OdeInt (Vec d) d}
    (hode : ∀ κ x vf, Ekf.ekf1 la rng none x vf δ 1 sqrt (some ⟨_, IOUP.transition 0 σ 1 δ d⟩) none = .ok (ode κ x vf δ)) (κ : Key) (x : Vec d) (a b : Vec m) (tk : ℝ) :
    ode κ x (intervalField (fun z _ => F *ᵥ z) (fun _ _ => S) (Foster.getApprox m) δ (a, b) tk) δ =
      rosR δ F *ᵥ x + (rosA F δ *ᵥ (S *ᵥ a) + Real.sqrt 6 • (rosB F δ *ᵥ (S *ᵥ b))) := by
  obtain ⟨vf, hvf⟩ : ∃ vf, vf = intervalField (fun z _ => F *ᵥ z) (fun _ _ => S) (Foster.getApprox m) δ (a, b) tk := ⟨_, rfl⟩
  have hlin : ∃ b0, (fun z => vf z δ) = fun z => F *ᵥ z + b0 := by
    rw [hvf, intervalField_linear]
    exact ⟨_, rfl⟩
  obtain ⟨b0, hb0⟩ := hlin
  have hdiff : Differentiable ℝ fun z => vf z δ := by
    rw [hb0]
    exact ((Matrix.mulVecLin F).toContinuousLinearMap.differentiable).add_const b0
  have h1 := Except.ok.inj ((C86_step hla rng hd vf hdiff hσ hδ x sqrt).symm.trans (hode κ x vf))
  rw [← hvf, ← h1, hb0, jac_affine]
  exact ros_interval F S hδ a b tk x hvf

/-- C146, the law: every state of `sde_solver` with parabolas and one EKF1 step per interval is normal. With `W = 1 - δ(F + Fᵀ)/2 + δ²FᵀF/3` and
`E = W⁻¹(1 + δ(F - Fᵀ)/2 - δ²FᵀF/6)` its mean is `Eⁿ x0`, and each interval adds the covariance
`δ W⁻¹ (SSᵀ - δ(FᵀSSᵀ + SSᵀF)/2 + δ²FᵀSSᵀF/3) W⁻¹`. -/
theorem C146_law {la : LinAlg} (hla : la.Correct) {Ω : Type*} [MeasurableSpace Ω] {P : Measure Ω} {R : Ω → Rng} (hR : IdealNormals P R) (rng : Rng) (key : Key)
    (hd : 0 < d) (x0 : Vec d) (F : Mat d d) (S : Mat d m) {δ σ : ℝ} (hδ : 0 < δ) (hσ : σ ≠ 0) (sqrt : Bool) (N : ℕ) (ode : OdeInt (Vec d) d)
    (hode : ∀ κ x vf, Ekf.ekf1 la rng none x vf δ 1 sqrt (some ⟨_, IOUP.transition 0 σ 1 δ d⟩) none = .ok (ode κ x vf δ))
    {W E V Q : Mat d d} (hW : W = 1 - (δ / 2) • (F + Fᵀ) + (δ ^ 2 / 3) • (Fᵀ * F))
    (hE : E = W⁻¹ * (1 + (δ / 2) • (F - Fᵀ) - (δ ^ 2 / 6) • (Fᵀ * F))) (hV : V = S * Sᵀ)
    (hQ : Q = δ • (W⁻¹ * (V - (δ / 2) • (Fᵀ * V + V * F) + (δ ^ 2 / 3) • (Fᵀ * V * F)) * W⁻¹)) (n : ℕ) (hn : n ≤ N) :
    IsUnit W.det ∧ ∃ y : Ω → Vec d,
      (∀ ω, (sdeSolver (R ω) key (fun x _ => F *ᵥ x) (fun _ _ => S) x0 (Foster.getApprox m) δ N ode).2.1[n]? = some (y ω)) ∧
      IsNormal P y (E ^ n *ᵥ x0) (∑ i ∈ Finset.range n, E ^ i * Q * (E ^ i)ᵀ) := by
  subst hW hE hV
  have hQ' : Q = rosCov F (S * Sᵀ) δ := by rw [rosCov_eq, hQ]; rfl
  subst hQ'
  exact ⟨rosW_det δ F, affine_interval_law hR key x0 F S hδ N ode _ _ _ (ode_ros hla rng hd F S hσ hδ sqrt hode) n hn⟩

/-- C146, the order: the means and covariances are those of the solution of the SDE up to `C δ²`, at every grid point. -/
theorem C146_order {la : LinAlg} (hla : la.Correct) {Ω : Type*} [MeasurableSpace Ω] {P : Measure Ω} {B : Fin m → ℝ≥0 → Ω → ℝ} (hB : IsBrownianVec B P)
    (hd : 0 < d) (F : Mat d d) (S : Mat d m) (x0 : Vec d) {T : ℝ} (hT : 0 < T) {X : Ω → ℝ → Vec d}
    (hX : ∀ᵐ ω ∂P, SolvesAdditive (fun x _ => F *ᵥ x) S (fun t j => B j t.toNNReal ω) x0 T (X ω)) :
    ∃ C : ℝ, ∀ {Ω' : Type} [MeasurableSpace Ω'] {P' : Measure Ω'} {R : Ω' → Rng}, IdealNormals P' R → ∀ (rng : Rng) (key : Key) (N : ℕ), 0 < N →
      ∀ (σ : ℝ), σ ≠ 0 → ∀ (sqrt : Bool) (ode : OdeInt (Vec d) d),
      (∀ κ x vf, Ekf.ekf1 la rng none x vf (T / N) 1 sqrt (some ⟨_, IOUP.transition 0 σ 1 (T / N) d⟩) none = .ok (ode κ x vf (T / N))) →
      ∀ n ≤ N, ∃ y : Ω' → Vec d,
        (∀ ω, (sdeSolver (R ω) key (fun x _ => F *ᵥ x) (fun _ _ => S) x0 (Foster.getApprox m) (T / N) N ode).2.1[n]? = some (y ω)) ∧
        (∀ j, |∫ ω, y ω j ∂P' - ∫ ω, X ω (n * (T / N)) j ∂P| ≤ C * (T / N) ^ 2) ∧
        ∀ i j, |cov[fun ω => y ω i, fun ω => y ω j; P'] - cov[fun ω => X ω (n * (T / N)) i, fun ω => X ω (n * (T / N)) j; P]| ≤ C * (T / N) ^ 2 := by
  obtain ⟨a, ha, hQ⟩ := rosR_local F hT
  obtain ⟨c, hc⟩ := rosCov_local F S hT
  obtain ⟨C, hC0, hC⟩ := near_moments F S hT (fun h => rosR h F) (rosCov F (S * Sᵀ)) ha hQ hc
  refine ⟨max (C * ‖x0‖) C, fun {Ω'} _ {P'} {R} hR rng key N hN σ hσ sqrt ode hode n hn => ?_⟩
  have hN' : (0 : ℝ) < N := by exact_mod_cast hN
  have hδ : 0 < T / N := by positivity
  obtain ⟨y, hy1, hy⟩ := affine_interval_law hR key x0 F S hδ N ode _ _ _ (ode_ros hla rng hd F S hσ hδ sqrt hode) n hn
  obtain ⟨h1, h2⟩ := hC N hN n hn
  have hnT : (n : ℝ) * (T / N) ∈ Icc 0 T := ⟨by positivity, by
    have : (n : ℝ) ≤ N := by exact_mod_cast hn
    calc (n : ℝ) * (T / N) ≤ N * (T / N) := by gcongr
      _ = T := by field_simp⟩
  have hlaw := linear_solution_law hB F S x0 hX hnT
  refine ⟨y, hy1, fun j => ?_, fun i j => ?_⟩
  · rw [hy.mean, hlaw.mean]
    have e : (rosR (T / N) F ^ n *ᵥ x0) j - (expm ((n * (T / N)) • F) *ᵥ x0) j = ((rosR (T / N) F ^ n - expm ((n * (T / N)) • F)) *ᵥ x0) j := by
      rw [sub_mulVec]; rfl
    rw [e, ← Real.norm_eq_abs]
    open scoped Matrix.Norms.Operator in
    refine (norm_le_pi_norm _ j).trans ((linfty_opNorm_mulVec _ x0).trans ?_)
    have h3 := mul_le_mul_of_nonneg_right h1 (norm_nonneg x0)
    refine h3.trans ?_
    calc C * (T / N) ^ 2 * ‖x0‖ = C * ‖x0‖ * (T / N) ^ 2 := by ring
      _ ≤ _ := by gcongr; exact le_max_left _ _
  · rw [hy.cov, hlaw.cov, ← Matrix.sub_apply]
    refine (abs_entry_le _ i j).trans (h2.trans ?_)
    gcongr
    exact le_max_right _ _

/-- C146, stability: when `F` is dissipative and invertible the means tend to zero along the grid for every interval, with EKF1. With EKF0 they do not: for the drift
`-x` and every interval longer than two the mean of every state is at least the initial one. -/
theorem C146_stable {la : LinAlg} (hla : la.Correct) {Ω : Type*} [MeasurableSpace Ω] {P : Measure Ω} {R : Ω → Rng} (hR : IdealNormals P R) (rng : Rng) (key : Key)
    {δ σ : ℝ} (hδ : 0 < δ) (hσ : σ ≠ 0) (sqrt : Bool) :
    (∀ (_ : 0 < d) (x0 : Vec d) (F : Mat d d) (S : Mat d m), (∀ x, x ⬝ᵥ F *ᵥ x ≤ 0) → (∀ x, F *ᵥ x = 0 → x = 0) → ∀ ode : OdeInt (Vec d) d,
      (∀ κ x vf, Ekf.ekf1 la rng none x vf δ 1 sqrt (some ⟨_, IOUP.transition 0 σ 1 δ d⟩) none = .ok (ode κ x vf δ)) →
      ∃ y : ℕ → Ω → Vec d,
        (∀ N ω, (sdeSolver (R ω) key (fun x _ => F *ᵥ x) (fun _ _ => S) x0 (Foster.getApprox m) δ N ode).2.1[N]? = some (y N ω)) ∧
        ∀ j, Tendsto (fun N => ∫ ω, y N ω j ∂P) atTop (𝓝 0)) ∧
    (2 < δ → ∀ (S : Mat 1 m) (ode : OdeInt (Vec 1) 1),
      (∀ κ x vf, Ekf.ekf0 la rng none x vf δ 1 sqrt (some ⟨_, IOUP.transition 0 σ 1 δ 1⟩) none = .ok (ode κ x vf δ)) →
      ∃ y : ℕ → Ω → Vec 1,
        (∀ N ω, (sdeSolver (R ω) key (fun x _ => (-1 : Mat 1 1) *ᵥ x) (fun _ _ => S) 1 (Foster.getApprox m) δ N ode).2.1[N]? = some (y N ω)) ∧
        ∀ N, 1 ≤ ∫ ω, y N ω 0 ∂P) := by
  constructor
  · intro hd x0 F S hF hFi ode hode
    choose y h1 h2 using fun N => affine_interval_law hR key x0 F S hδ N ode _ _ _ (ode_ros hla rng hd F S hσ hδ sqrt hode) N le_rfl
    refine ⟨y, h1, fun j => ?_⟩
    have h3 := tendsto_pow_of_eigenvalues _ (rosR_eigen hδ F hF hFi) x0
    have h4 := (continuous_apply j).tendsto (0 : Vec d) |>.comp h3
    refine h4.congr fun N => ?_
    rw [(h2 N).mean]
    rfl
  · intro hδ2 S ode hode
    choose y h1 h2 using fun N => C144_law hla hR rng key one_pos 1 (-1) S hδ hσ sqrt N ode hode rfl rfl rfl N le_rfl
    refine ⟨y, h1, fun N => ?_⟩
    rw [(h2 N).mean]
    have e : (1 + δ • (-1 : Mat 1 1) + (δ ^ 2 / 2) • ((-1 : Mat 1 1) * -1)) = (1 - δ + δ ^ 2 / 2) • (1 : Mat 1 1) := by
      rw [neg_mul_neg, Matrix.one_mul]
      module
    rw [e, smul_pow, one_pow, smul_mulVec, one_mulVec]
    have h3 : (1 : ℝ) ≤ 1 - δ + δ ^ 2 / 2 := by nlinarith
    simpa using one_le_pow₀ (n := N) h3

/-- C146: the hypotheses are met by the harmonic oscillator with noise on the velocity, the ideal generator, a Brownian motion with its solution, and the filter itself. -/
example (rng : Rng) (key : Key) : ∃ la : LinAlg, la.Correct ∧ ∃ C : ℝ, ∀ N : ℕ, 0 < N → ∀ n ≤ N, ∃ (ode : OdeInt (Vec 2) 2) (y : _ → Vec 2),
    (∀ κ x vf, Ekf.ekf1 la rng none x vf (1 / N) 1 true (some ⟨_, IOUP.transition 0 1 1 (1 / N) 2⟩) none = .ok (ode κ x vf (1 / N))) ∧
    (∀ ω, (sdeSolver (drawsRng ω) key (fun x _ => Ivp.Harmonic.M 1 1 *ᵥ x) (fun _ _ => Ivp.Harmonic.Csquare 2) Ivp.Harmonic.x0 (Foster.getApprox 2) (1 / N) N ode).2.1[n]? =
      some (y ω)) ∧
    ∃ a : Vec 2, ∀ j, |∫ ω, y ω j ∂drawsMeasure - a j| ≤ C * (1 / N) ^ 2 := by
  obtain ⟨la, hla⟩ := exists_correct_linAlg
  obtain ⟨B, hB⟩ := Levy.exists_brownianVec 2
  obtain ⟨L, K4, hb⟩ := smooth15_linear (Ivp.Harmonic.M 1 1) (Ivp.Harmonic.Csquare 2)
  obtain ⟨X, hX⟩ := hB.exists_solution zero_le_one (hb.field 1) (Ivp.Harmonic.Csquare 2) Ivp.Harmonic.x0
  obtain ⟨C, hC⟩ := C146_order hla hB two_pos (Ivp.Harmonic.M 1 1) (Ivp.Harmonic.Csquare 2) Ivp.Harmonic.x0 one_pos hX
  refine ⟨la, hla, C, fun N hN n hn => ?_⟩
  have hN' : (0 : ℝ) < N := by exact_mod_cast hN
  have hex : ∀ (_ : Key) (x : Vec 2) vf, ∃ z, Ekf.ekf1 la rng none x vf (1 / N) 1 true (some ⟨_, IOUP.transition 0 1 1 (1 / N) 2⟩) none = .ok z := fun _ x vf =>
    ⟨_, (Ekf.ekf1_two la rng none two_pos x vf (1 / N) 1 true (IOUP.transition 0 1 1 (1 / N) 2) none).trans
      (congrArg (Except.map _) (Ekf.solver_some (r := 0) la _ vf (1 / N) 1 true false (IOUP.transition 0 1 1 (1 / N) 2)))⟩
  choose z hz using hex
  obtain ⟨y, h1, h2, -⟩ := hC idealNormals_drawsRng rng key N hN 1 one_ne_zero true (fun κ x vf _ => z κ x vf) hz n hn
  exact ⟨_, y, hz, h1, _, h2⟩

end Verif
