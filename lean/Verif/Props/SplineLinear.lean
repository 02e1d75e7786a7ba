import Verif.Lemmas.SplineLinear
import Verif.Lemmas.LevyBrownian
import Verif.Props.Lin15
import Verif.Props.HeunLinear

/-! C147: one EKF0 step with the twice integrated prior per interval of `sde_solver` on linear problems. -/

namespace Verif

open Matrix Spec Jnp Set MeasureTheory ProbabilityTheory Filter Scripts
open scoped NNReal Topology

variable {d m : ℕ}

private theorem ode_spl {la : LinAlg} (hla : la.Correct) (rng : Rng) (hd : 0 < d) (F : Mat d d) (S : Mat d m) {σ δ : ℝ} (hσ : σ ≠ 0) (hδ : 0 < δ) (sqrt : Bool)
    {ode : OdeInt (Vec d) d}
    (hode : ∀ κ x vf, Ekf.ekf0 la rng none x vf δ 1 sqrt (some ⟨_, IOUP.transition 0 σ 2 δ d⟩) none = .ok (ode κ x vf δ)) (κ : Key) (x : Vec d) (a b : Vec m) (tk : ℝ) :
    ode κ x (intervalField (fun z _ => F *ᵥ z) (fun _ _ => S) (Foster.getApprox m) δ (a, b) tk) δ =
      splE F δ *ᵥ x + (splA F δ *ᵥ (S *ᵥ a) + Real.sqrt 6 • (splB F δ *ᵥ (S *ᵥ b))) := by
  obtain ⟨vf, hvf⟩ : ∃ vf, vf = intervalField (fun z _ => F *ᵥ z) (fun _ _ => S) (Foster.getApprox m) δ (a, b) tk := ⟨_, rfl⟩
  have hlin : ∃ b0, (fun z => vf z 0) = fun z => F *ᵥ z + b0 := by
    rw [hvf, intervalField_linear]
    exact ⟨_, rfl⟩
  obtain ⟨b0, hb0⟩ := hlin
  have h1 := Except.ok.inj ((C83_spline hla rng hd vf hσ hδ x 1 sqrt).symm.trans (hode κ x vf))
  rw [← hvf, ← h1, hb0, jac_affine]
  exact spl_interval F S hδ a b tk x hvf

/-- C147, what happens: every state of `sde_solver` with parabolas and one EKF0 step with the twice integrated prior per interval is normal. With
`A = 1 + δF/2 + 3δ²F²/16` its mean is `(1 + δ F A)ⁿ x0`, and each interval adds the covariance `δ A SSᵀ Aᵀ + 3δ (A - 3/4) SSᵀ (A - 3/4)ᵀ`. -/
theorem C147_law {la : LinAlg} (hla : la.Correct) {Ω : Type*} [MeasurableSpace Ω] {P : Measure Ω} {R : Ω → Rng} (hR : IdealNormals P R) (rng : Rng) (key : Key)
    (hd : 0 < d) (x0 : Vec d) (F : Mat d d) (S : Mat d m) {δ σ : ℝ} (hδ : 0 < δ) (hσ : σ ≠ 0) (sqrt : Bool) (N : ℕ) (ode : OdeInt (Vec d) d)
    (hode : ∀ κ x vf, Ekf.ekf0 la rng none x vf δ 1 sqrt (some ⟨_, IOUP.transition 0 σ 2 δ d⟩) none = .ok (ode κ x vf δ))
    {E A V Q : Mat d d} (hE : E = 1 + δ • F + (δ ^ 2 / 2) • (F * F) + (3 * δ ^ 3 / 16) • (F * F * F))
    (hA : A = 1 + (δ / 2) • F + (3 * δ ^ 2 / 16) • (F * F)) (hV : V = S * Sᵀ)
    (hQ : Q = δ • (A * V * Aᵀ) + (3 * δ) • ((A - (3 / 4 : ℝ) • 1) * V * (A - (3 / 4 : ℝ) • 1)ᵀ)) (n : ℕ) (hn : n ≤ N) :
    ∃ y : Ω → Vec d,
      (∀ ω, (sdeSolver (R ω) key (fun x _ => F *ᵥ x) (fun _ _ => S) x0 (Foster.getApprox m) δ N ode).2.1[n]? = some (y ω)) ∧
      IsNormal P y (E ^ n *ᵥ x0) (∑ i ∈ Finset.range n, E ^ i * Q * (E ^ i)ᵀ) := by
  subst hE hA hV hQ
  exact affine_interval_law hR key x0 F S hδ N ode _ _ _ (ode_spl hla rng hd F S hσ hδ sqrt hode) n hn

/-- C147, what remains: the means are those of the solution of the SDE up to `C δ²`, and the covariances are `19/16` times those of the solution up to `C δ`, at every
grid point. Missing: the factor is not one. -/
theorem C147_partial {la : LinAlg} (hla : la.Correct) {Ω : Type*} [MeasurableSpace Ω] {P : Measure Ω} {B : Fin m → ℝ≥0 → Ω → ℝ} (hB : IsBrownianVec B P)
    (hd : 0 < d) (F : Mat d d) (S : Mat d m) (x0 : Vec d) {T : ℝ} (hT : 0 < T) {X : Ω → ℝ → Vec d}
    (hX : ∀ᵐ ω ∂P, SolvesAdditive (fun x _ => F *ᵥ x) S (fun t j => B j t.toNNReal ω) x0 T (X ω)) :
    ∃ C : ℝ, ∀ {Ω' : Type} [MeasurableSpace Ω'] {P' : Measure Ω'} {R : Ω' → Rng}, IdealNormals P' R → ∀ (rng : Rng) (key : Key) (N : ℕ), 0 < N →
      ∀ (σ : ℝ), σ ≠ 0 → ∀ (sqrt : Bool) (ode : OdeInt (Vec d) d),
      (∀ κ x vf, Ekf.ekf0 la rng none x vf (T / N) 1 sqrt (some ⟨_, IOUP.transition 0 σ 2 (T / N) d⟩) none = .ok (ode κ x vf (T / N))) →
      ∀ n ≤ N, ∃ y : Ω' → Vec d,
        (∀ ω, (sdeSolver (R ω) key (fun x _ => F *ᵥ x) (fun _ _ => S) x0 (Foster.getApprox m) (T / N) N ode).2.1[n]? = some (y ω)) ∧
        (∀ j, |∫ ω, y ω j ∂P' - ∫ ω, X ω (n * (T / N)) j ∂P| ≤ C * (T / N) ^ 2) ∧
        ∀ i j, |cov[fun ω => y ω i, fun ω => y ω j; P'] - 19 / 16 * cov[fun ω => X ω (n * (T / N)) i, fun ω => X ω (n * (T / N)) j; P]| ≤ C * (T / N) := by
  obtain ⟨a, ha, hQ⟩ := splE_local F
  obtain ⟨c, hc⟩ := splCov_local F S hT
  obtain ⟨C, hC0, hC⟩ := near_cov F S hT (splE F) (splCov F (S * Sᵀ)) ha (fun h h0 _ => hQ h h0) hc
  refine ⟨max (C * ‖x0‖) C, fun {Ω'} _ {P'} {R} hR rng key N hN σ hσ sqrt ode hode n hn => ?_⟩
  have hN' : (0 : ℝ) < N := by exact_mod_cast hN
  have hδ : 0 < T / N := by positivity
  obtain ⟨y, hy1, hy⟩ := affine_interval_law hR key x0 F S hδ N ode _ _ _ (ode_spl hla rng hd F S hσ hδ sqrt hode) n hn
  obtain ⟨h1, h2⟩ := hC N hN n hn
  have hnT : (n : ℝ) * (T / N) ∈ Icc 0 T := ⟨by positivity, by
    have : (n : ℝ) ≤ N := by exact_mod_cast hn
    calc (n : ℝ) * (T / N) ≤ N * (T / N) := by gcongr
      _ = T := by field_simp⟩
  have hlaw := linear_solution_law hB F S x0 hX hnT
  refine ⟨y, hy1, fun j => ?_, fun i j => ?_⟩
  · rw [hy.mean, hlaw.mean]
    have e : (splE F (T / N) ^ n *ᵥ x0) j - (expm ((n * (T / N)) • F) *ᵥ x0) j = ((splE F (T / N) ^ n - expm ((n * (T / N)) • F)) *ᵥ x0) j := by
      rw [sub_mulVec]; rfl
    rw [e, ← Real.norm_eq_abs]
    open scoped Matrix.Norms.Operator in
    refine (norm_le_pi_norm _ j).trans ((linfty_opNorm_mulVec _ x0).trans ?_)
    have h3 := mul_le_mul_of_nonneg_right h1 (norm_nonneg x0)
    refine h3.trans ?_
    calc C * (T / N) ^ 2 * ‖x0‖ = C * ‖x0‖ * (T / N) ^ 2 := by ring
      _ ≤ _ := by gcongr; exact le_max_left _ _
  · rw [hy.cov, hlaw.cov]
    rw [show (19 / 16 : ℝ) * transitionCov F S (n * (T / N)) i j = ((19 / 16 : ℝ) • transitionCov F S (n * (T / N))) i j from rfl, ← Matrix.sub_apply]
    refine (abs_entry_le _ i j).trans (h2.trans ?_)
    gcongr
    exact le_max_right _ _

/-- C147 fails, for every linear problem: the variance of a coordinate driven by noise converges, as the interval shrinks, to `19/16` times that of the solution, and
so not to that of the solution. -/
theorem C147_fails {la : LinAlg} (hla : la.Correct) {Ω : Type*} [MeasurableSpace Ω] {P : Measure Ω} {B : Fin m → ℝ≥0 → Ω → ℝ} (hB : IsBrownianVec B P)
    (F : Mat d d) (S : Mat d m) (x0 : Vec d) {T : ℝ} (hT : 0 < T) {X : Ω → ℝ → Vec d}
    (hX : ∀ᵐ ω ∂P, SolvesAdditive (fun x _ => F *ᵥ x) S (fun t j => B j t.toNNReal ω) x0 T (X ω)) (i : Fin d) (hS : S i ≠ 0)
    {Ω' : Type} [MeasurableSpace Ω'] {P' : Measure Ω'} {R : Ω' → Rng} (hR : IdealNormals P' R) (rng : Rng) (key : Key) {σ : ℝ} (hσ : σ ≠ 0) (sqrt : Bool)
    (ode : ℕ → OdeInt (Vec d) d)
    (hode : ∀ N : ℕ, 0 < N → ∀ κ x vf, Ekf.ekf0 la rng none x vf (T / N) 1 sqrt (some ⟨_, IOUP.transition 0 σ 2 (T / N) d⟩) none = .ok (ode N κ x vf (T / N)))
    (y : ℕ → Ω' → Vec d)
    (hy : ∀ (N : ℕ) ω, (sdeSolver (R ω) key (fun x _ => F *ᵥ x) (fun _ _ => S) x0 (Foster.getApprox m) (T / N) N (ode N)).2.1[N]? = some (y N ω)) :
    Tendsto (fun N => cov[fun ω => y N ω i, fun ω => y N ω i; P']) atTop (𝓝 (19 / 16 * cov[fun ω => X ω T i, fun ω => X ω T i; P])) ∧
      ¬ Tendsto (fun N => cov[fun ω => y N ω i, fun ω => y N ω i; P']) atTop (𝓝 (cov[fun ω => X ω T i, fun ω => X ω T i; P])) := by
  have hlim : Tendsto (fun N => cov[fun ω => y N ω i, fun ω => y N ω i; P']) atTop (𝓝 (19 / 16 * cov[fun ω => X ω T i, fun ω => X ω T i; P])) := by
    obtain ⟨C, hC⟩ := C147_partial hla hB i.pos F S x0 hT hX
    rw [tendsto_iff_dist_tendsto_zero]
    have hz : Tendsto (fun N : ℕ => C * (T / N)) atTop (𝓝 0) := by
      simpa using (tendsto_const_div_atTop_nhds_zero_nat T).const_mul C
    refine squeeze_zero' (Eventually.of_forall fun _ => dist_nonneg) ?_ hz
    filter_upwards [eventually_gt_atTop 0] with N hN
    have hN' : (0 : ℝ) < N := by exact_mod_cast hN
    obtain ⟨z, hz1, -, hz2⟩ := hC hR rng key N hN σ hσ sqrt (ode N) (hode N hN) N le_rfl
    have hzy : z = y N := funext fun ω => Option.some.inj ((hz1 ω).symm.trans (hy N ω))
    have h := hz2 i i
    rw [hzy, show (N : ℝ) * (T / N) = T by field_simp] at h
    exact h
  refine ⟨hlim, fun h => ?_⟩
  have heq := tendsto_nhds_unique hlim h
  have hpos : 0 < cov[fun ω => X ω T i, fun ω => X ω T i; P] := by
    rw [(linear_solution_law hB F S x0 hX ⟨hT.le, le_rfl⟩).cov]
    exact transitionCov_pos F S hT hS
  linarith

/-- C147: the hypotheses are met by the drift `x` with unit noise, the ideal generator, a Brownian motion with its solution, and the filter itself. -/
example (rng : Rng) (key : Key) : ∃ la : LinAlg, la.Correct ∧ ∃ (ode : ℕ → OdeInt (Vec 1) 1) (y : ℕ → _ → Vec 1) (v : ℝ),
    (∀ N : ℕ, 0 < N → ∀ κ x vf, Ekf.ekf0 la rng none x vf (1 / N) 1 true (some ⟨_, IOUP.transition 0 1 2 (1 / N) 1⟩) none = .ok (ode N κ x vf (1 / N))) ∧
    (∀ (N : ℕ) ω, (sdeSolver (drawsRng ω) key (fun x _ => (1 : Mat 1 1) *ᵥ x) (fun _ _ => (1 : Mat 1 1)) 1 (Foster.getApprox 1) (1 / N) N (ode N)).2.1[N]? = some (y N ω)) ∧
    0 < v ∧ Tendsto (fun N => cov[fun ω => y N ω 0, fun ω => y N ω 0; drawsMeasure]) atTop (𝓝 (19 / 16 * v)) := by
  obtain ⟨la, hla⟩ := exists_correct_linAlg
  obtain ⟨B, hB⟩ := Levy.exists_brownianVec 1
  obtain ⟨L, K4, hb⟩ := smooth15_linear (1 : Mat 1 1) (1 : Mat 1 1)
  obtain ⟨X, hX⟩ := hB.exists_solution zero_le_one (hb.field 1) (1 : Mat 1 1) 1
  obtain ⟨ode, hode⟩ : ∃ ode : ℕ → OdeInt (Vec 1) 1, ∀ N : ℕ, 0 < N → ∀ κ x vf,
      Ekf.ekf0 la rng none x vf (1 / N) 1 true (some ⟨_, IOUP.transition 0 1 2 (1 / N) 1⟩) none = .ok (ode N κ x vf (1 / N)) := by
    refine ⟨fun N _ x vf _ => (splineScheme vf (1 / N) x (jac (fun z => vf z 0) x *ᵥ vf x 0) 1).1, fun N hN κ x vf => ?_⟩
    exact C83_spline hla rng one_pos vf one_ne_zero (div_pos one_pos (by exact_mod_cast hN)) x 1 true
  choose y h1 using fun N : ℕ => fun ω => sdeSolver_states (drawsRng ω) key (fun x _ => (1 : Mat 1 1) *ᵥ x) (fun _ _ => (1 : Mat 1 1)) 1 (Foster.getApprox 1) (1 / N) N (ode N)
  have hS : (1 : Mat 1 1) 0 ≠ 0 := fun h => by simpa using congrFun h 0
  have hlim := (C147_fails hla hB 1 1 1 one_pos hX 0 hS idealNormals_drawsRng rng key one_ne_zero true ode hode _ (fun N ω => (h1 N ω).1 N le_rfl)).1
  rw [(linear_solution_law hB 1 1 1 hX ⟨zero_le_one, le_rfl⟩).cov] at hlim
  exact ⟨la, hla, ode, fun N ω => y N ω N, _, hode, fun N ω => (h1 N ω).1 N le_rfl, transitionCov_pos 1 1 one_pos hS, hlim⟩

end Verif
