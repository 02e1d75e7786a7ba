import Verif.Props.EkfSde
import Verif.Lemmas.LinearLaw
import Verif.Lemmas.Convergence
import Verif.Model.Ivp
import Verif.Spec.Sde
import Mathlib.Analysis.ODE.ExistUnique

/-!
# Property C78: the law of `sde_solver` on the integrated Brownian motion problem
-/

namespace Verif

open Matrix Spec Jnp MeasureTheory ProbabilityTheory Filter Topology

/-- The random field of an interval of the ibm problem. -/
theorem ibm_field (δ : ℝ) (c : Vec 1 × Vec 1) (tk : ℝ) :
    intervalField Ivp.Ibm.drift Ivp.Ibm.sigma (Foster.getApprox 1) δ c tk =
      fun z t => ![z 1, (c.1 0 + Real.sqrt 6 * c.2 0) / δ + -(2 * Real.sqrt 6 * c.2 0 / δ ^ 2) * t] := by
  funext z t j
  simp only [intervalField, Foster.getApprox, jacT_evalParabola, Ivp.Ibm.drift, Ivp.Ibm.sigma]
  fin_cases j
  · simp [mulVec, dotProduct, Fin.sum_univ_two]
  · simp only [mulVec, dotProduct, Fin.sum_univ_two, Fin.mk_one, Pi.add_apply, Finset.univ_unique, Fin.default_eq_zero,
      Finset.sum_singleton, of_apply, cons_val', cons_val_zero, cons_val_one, cons_val_fin_one]
    rcases eq_or_ne δ 0 with rfl | hδ
    · simp
    · field_simp
      ring

/-- The trapezoidal scheme on a double integrator with affine forcing. -/
theorem trapScheme_double (α β h : ℝ) (x : Vec 2) (n : ℕ) :
    trapScheme (fun z t => ![z 1, α + β * t]) h x (n + 1) =
      (![x 0 + (n + 1) * h * x 1 + α * ((n + 1) * h) ^ 2 / 2 +
          β * (((n + 1) * h) ^ 3 / 6 + h ^ 3 * (1 / 4 - 5 * (n + 1) / 12)),
        x 1 + α * ((n + 1) * h) + β * ((n + 1) * h) ^ 2 / 2],
       ![x 1 + α * ((n + 1) * h) + β * ((n + 1) * h) ^ 2 / 2 - β * h ^ 2 / 2, α + β * ((n + 1) * h)]) := by
  induction n with
  | zero =>
    simp only [trapScheme]
    refine Prod.ext ?_ ?_ <;> funext j <;> fin_cases j <;> simp <;> ring
  | succ n ih =>
    rw [trapScheme, ih]
    refine Prod.ext ?_ ?_ <;> funext j <;> fin_cases j <;> simp <;> ring

/-- The weight of the area coefficient in the position, for `M` filter steps per interval; `1/6` is exact. -/
noncomputable def ibmWeight (M : ℕ) : ℝ := 1 / 6 + 5 / (6 * M ^ 2) - 1 / (2 * M ^ 3)

/-- One interval of the ibm problem, in terms of the weight `κ` of the area coefficient. -/
noncomputable def ibmStep (δ κ : ℝ) (x : Vec 2) (c : Vec 1 × Vec 1) : Vec 2 :=
  ![x 0 + δ * (x 1 + c.1 0 / 2 + Real.sqrt 6 * κ * c.2 0), x 1 + c.1 0]

theorem ibm_ekf0 {la : LinAlg} (hla : la.Correct) (rng : Rng) {δ : ℝ} (hδ : 0 < δ) {M : ℕ} (hM : 0 < M) {σ : ℝ} (hσ : σ ≠ 0)
    (sqrt : Bool) (x : Vec 2) (c : Vec 1 × Vec 1) (tk : ℝ) :
    Ekf.ekf0 la rng none x (intervalField Ivp.Ibm.drift Ivp.Ibm.sigma (Foster.getApprox 1) δ c tk) (δ / M) M sqrt
      (some ⟨_, IOUP.transition 0 σ 1 (δ / M) 2⟩) none = .ok (ibmStep δ (ibmWeight M) x c) := by
  have hM' : (0 : ℝ) < M := by exact_mod_cast hM
  rw [C43_trapezoidal hla rng two_pos _ hσ (by positivity), ibm_field]
  obtain ⟨m, rfl⟩ : ∃ m, M = m + 1 := ⟨M - 1, by omega⟩
  rw [trapScheme_double]
  refine congrArg Except.ok ?_
  have hm : ((m + 1 : ℕ) : ℝ) = (m : ℝ) + 1 := by push_cast; ring
  rw [hm] at hM' ⊢
  funext j
  fin_cases j
  · simp only [ibmStep, ibmWeight, hm, Fin.zero_eta, cons_val_zero]
    field_simp
    ring
  · simp only [ibmStep, Fin.mk_one, cons_val_one, cons_val_fin_one]
    field_simp
    ring

theorem ibm_exact {δ : ℝ} (hδ : 0 < δ) (int : Vec 2 → Field 2 → Vec 2) (hint : ExactIntegrator δ int) (x : Vec 2)
    (c : Vec 1 × Vec 1) (tk : ℝ) :
    int x (intervalField Ivp.Ibm.drift Ivp.Ibm.sigma (Foster.getApprox 1) δ c tk) = ibmStep δ (1 / 6) x c := by
  rw [ibm_field]
  set α := (c.1 0 + Real.sqrt 6 * c.2 0) / δ with hα
  set β := -(2 * Real.sqrt 6 * c.2 0 / δ ^ 2) with hβ
  have h := hint (fun z t => ![z 1, α + β * t]) 1 (fun z z' t _ => ?_)
    (fun t => ![x 0 + x 1 * t + α * t ^ 2 / 2 + β * t ^ 3 / 6, x 1 + α * t + β * t ^ 2 / 2]) (fun t _ => ?_)
  · have e : ![x 0 + x 1 * 0 + α * 0 ^ 2 / 2 + β * 0 ^ 3 / 6, x 1 + α * 0 + β * 0 ^ 2 / 2] = x := by
      funext j; fin_cases j <;> simp
    simp only [e] at h
    rw [h]
    funext j
    fin_cases j
    · simp only [ibmStep, Fin.zero_eta, cons_val_zero, hα, hβ]
      field_simp
      ring
    · simp only [ibmStep, Fin.mk_one, cons_val_one, cons_val_fin_one, hα, hβ]
      field_simp
      ring
  · rw [one_mul, pi_norm_le_iff_of_nonneg (norm_nonneg _)]
    intro j
    fin_cases j
    · simpa using norm_le_pi_norm (z - z') 1
    · simp
  · refine HasDerivAt.hasDerivWithinAt (hasDerivAt_pi.mpr fun j => ?_)
    fin_cases j
    · simp only [Fin.zero_eta, cons_val_zero, cons_val_one, cons_val_fin_one]
      exact (((((hasDerivAt_id t).const_mul (x 1)).const_add (x 0)).add (((hasDerivAt_pow 2 t).const_mul α).div_const 2)).add
        (((hasDerivAt_pow 3 t).const_mul β).div_const 6)).congr_deriv (by simp; ring)
    · simp only [Fin.mk_one, cons_val_one, cons_val_fin_one]
      exact ((((hasDerivAt_id t).const_mul α).const_add (x 1)).add (((hasDerivAt_pow 2 t).const_mul β).div_const 2)).congr_deriv
        (by simp; ring)

/-- The law at the grid points, whatever integrator, in terms of the weight of the area coefficient. -/
theorem ibm_law {Ω : Type*} [MeasurableSpace Ω] {P : Measure Ω} {R : Ω → Rng} (hR : IdealNormals P R) (key : Key) (x0 : Vec 2)
    {δ : ℝ} (hδ : 0 < δ) (κ : ℝ) (N : ℕ) (odeInt : OdeInt (Vec 2) 2)
    (hode : ∀ k x c tk, odeInt k x (intervalField Ivp.Ibm.drift Ivp.Ibm.sigma (Foster.getApprox 1) δ c tk) δ = ibmStep δ κ x c)
    (k : ℕ) (hk : k ≤ N) :
    ∃ X : Ω → Vec 2, (∀ ω, (sdeSolver (R ω) key Ivp.Ibm.drift Ivp.Ibm.sigma x0 (Foster.getApprox 1) δ N odeInt).2.1[k]? =
        some (X ω)) ∧
      IsNormal P X ![x0 0 + k * δ * x0 1, x0 1]
        (Ivp.Ibm.var (k * δ) + (k * δ ^ 3 * (3 * κ ^ 2 - 1 / 12)) • !![1, 0; 0, 0]) := by
  have hlen : ∀ ω, k < (sdeSolver (R ω) key Ivp.Ibm.drift Ivp.Ibm.sigma x0 (Foster.getApprox 1) δ N odeInt).2.1.length := by
    intro ω
    have := (C02_trajectory_shape (R ω) key Ivp.Ibm.drift Ivp.Ibm.sigma x0 (Foster.getApprox 1) δ N odeInt).1
    rw [this]; omega
  let X : ℕ → Ω → Vec 2 := fun k ω =>
    ((sdeSolver (R ω) key Ivp.Ibm.drift Ivp.Ibm.sigma x0 (Foster.getApprox 1) δ N odeInt).2.1[k]?).getD 0
  have hX : ∀ j x ω, (sdeSolver (R ω) key Ivp.Ibm.drift Ivp.Ibm.sigma x0 (Foster.getApprox 1) δ N odeInt).2.1[j]? = some x →
      X j ω = x := fun j x ω h => by simp only [X, h, Option.getD_some]
  have h0 : ∀ ω, X 0 ω = x0 := fun ω => by
    have := (C02_trajectory_shape (R ω) key Ivp.Ibm.drift Ivp.Ibm.sigma x0 (Foster.getApprox 1) δ N odeInt).2.1
    rw [List.head?_eq_getElem?] at this
    exact hX _ _ _ this
  have h1 := isNormal_recursion hR (fun i => (key.child N i).child 2 0)
      (fun a b hab => ((Key.diverge_child key N a b hab).child_left 2 0).child_right 2 0) (c := 1) !![1, δ; 0, 1]
      ![!![δ * Real.sqrt δ / 2; Real.sqrt δ], !![δ * Real.sqrt 6 * κ * Real.sqrt (0.5 * δ); 0]] x0 X N h0 (fun j hj ω => by
    obtain ⟨x, c, h1, -, h3, h4⟩ := sdeSolver_interval (R ω) key Ivp.Ibm.drift Ivp.Ibm.sigma x0 (Foster.getApprox 1) δ N odeInt j hj
    rw [hX _ _ _ h1, hX _ _ _ h4, hode, h3]
    funext i
    simp only [Fin.sum_univ_two]
    fin_cases i
    · simp [ibmStep, Foster.getApprox, Foster.parabolas, mulVec, dotProduct, Fin.sum_univ_two]
      ring
    · simp [ibmStep, Foster.getApprox, Foster.parabolas, mulVec, dotProduct, Fin.sum_univ_two]
      ring) k hk
  refine ⟨X k, fun ω => ?_, ?_⟩
  · simp only [X]
    rw [List.getElem?_eq_getElem (hlen ω)]
    rfl
  have hA : ∀ i : ℕ, (!![1, δ; 0, 1] : Mat 2 2) ^ i = !![1, i * δ; 0, 1] := by
    intro i
    induction i with
    | zero => ext a b; fin_cases a <;> fin_cases b <;> simp
    | succ i ih =>
      rw [pow_succ, ih]
      ext a b
      fin_cases a <;> fin_cases b <;> simp [Matrix.mul_apply, Fin.sum_univ_two]
      ring
  refine (congrArg₂ (fun m C => IsNormal P (X k) m C) ?_ ?_).mp h1
  · rw [hA]
    funext j
    fin_cases j <;> simp [mulVec, dotProduct, Fin.sum_univ_two]
  · have hs : Real.sqrt δ * Real.sqrt δ = δ := Real.mul_self_sqrt hδ.le
    have hs2 : Real.sqrt (0.5 * δ) * Real.sqrt (0.5 * δ) = 0.5 * δ := Real.mul_self_sqrt (by positivity)
    have h6 : Real.sqrt 6 * Real.sqrt 6 = 6 := Real.mul_self_sqrt (by norm_num)
    have hQ : ∑ j, (![!![δ * Real.sqrt δ / 2; Real.sqrt δ], !![δ * Real.sqrt 6 * κ * Real.sqrt (0.5 * δ); 0]] : Fin 2 → Mat 2 1) j *
        ((![!![δ * Real.sqrt δ / 2; Real.sqrt δ], !![δ * Real.sqrt 6 * κ * Real.sqrt (0.5 * δ); 0]] : Fin 2 → Mat 2 1) j)ᵀ =
        !![δ ^ 3 / 4 + 3 * κ ^ 2 * δ ^ 3, δ ^ 2 / 2; δ ^ 2 / 2, δ] := by
      rw [Fin.sum_univ_two]
      ext a b
      simp only [Matrix.add_apply, Matrix.mul_apply, transpose_apply, Fin.sum_univ_one]
      fin_cases a <;> fin_cases b <;> simp
      · linear_combination (δ ^ 2 / 4) * hs + (δ ^ 2 * κ ^ 2 * 6) * hs2 + (δ ^ 2 * κ ^ 2 * (Real.sqrt (0.5 * δ) * Real.sqrt (0.5 * δ))) * h6
      · linear_combination (δ / 2) * hs
      · linear_combination (δ / 2) * hs
      · exact hs
    rw [hQ]
    clear h1 hX hlen hk h0
    induction k with
    | zero => ext a b; fin_cases a <;> fin_cases b <;> simp [Ivp.Ibm.var]
    | succ k ih =>
      rw [Finset.sum_range_succ, ih, hA]
      ext a b
      simp only [Matrix.add_apply, Matrix.mul_apply, transpose_apply, Fin.sum_univ_two, Matrix.smul_apply, Ivp.Ibm.var]
      fin_cases a <;> fin_cases b <;> simp <;> ring

/-- C78, what happens: with `M` EKF0 steps per interval the state at grid point `k` is normal with the exact mean; its
covariance is the exact one plus `k δ³ (3 κ² - 1/12)` on the position, with `κ = 1/6 + 5/(6 M²) - 1/(2 M³)`. -/
theorem C78_ekf0_law {Ω : Type*} [MeasurableSpace Ω] {P : Measure Ω} {R : Ω → Rng} (hR : IdealNormals P R) {la : LinAlg}
    (hla : la.Correct) (rng : Rng) (key : Key) (x0 : Vec 2) {δ : ℝ} (hδ : 0 < δ) (N M : ℕ) (hM : 0 < M) {σ : ℝ} (hσ : σ ≠ 0)
    (sqrt : Bool) (odeInt : OdeInt (Vec 2) 2)
    (hode : ∀ k x vf, Ekf.ekf0 la rng none x vf (δ / M) M sqrt (some ⟨_, IOUP.transition 0 σ 1 (δ / M) 2⟩) none =
      .ok (odeInt k x vf δ)) (k : ℕ) (hk : k ≤ N) :
    ∃ X : Ω → Vec 2, (∀ ω, (sdeSolver (R ω) key Ivp.Ibm.drift Ivp.Ibm.sigma x0 (Foster.getApprox 1) δ N odeInt).2.1[k]? =
        some (X ω)) ∧
      IsNormal P X ![x0 0 + k * δ * x0 1, x0 1] (Ivp.Ibm.var (k * δ) +
        (k * δ ^ 3 * (3 * (1 / 6 + 5 / (6 * M ^ 2) - 1 / (2 * M ^ 3)) ^ 2 - 1 / 12)) • !![1, 0; 0, 0]) :=
  ibm_law hR key x0 hδ (ibmWeight M) N odeInt (fun k x c tk =>
    (Except.ok.inj ((hode k x _).symm.trans (ibm_ekf0 hla rng hδ hM hσ sqrt x c tk)))) k hk

theorem ibm_excess_pos (M : ℕ) (hM : 0 < M) : 0 < 3 * (1 / 6 + 5 / (6 * M ^ 2) - 1 / (2 * M ^ 3) : ℝ) ^ 2 - 1 / 12 := by
  have hM' : (1 : ℝ) ≤ M := by exact_mod_cast hM
  have h : (0 : ℝ) < 5 / (6 * M ^ 2) - 1 / (2 * M ^ 3) := by
    rw [sub_pos, div_lt_div_iff₀ (by positivity) (by positivity)]
    nlinarith [pow_pos (zero_lt_one.trans_le hM') 2]
  have e : (1 / 6 + 5 / (6 * M ^ 2) - 1 / (2 * M ^ 3) : ℝ) = 1 / 6 + (5 / (6 * M ^ 2) - 1 / (2 * M ^ 3)) := by ring
  rw [e]
  nlinarith [mul_pos h h]

/-- C78 is false, whatever the number `M` of EKF0 steps per interval, the step `δ` and the grid point `k > 0`: the variance of
the position exceeds the exact one. -/
theorem C78_fails {Ω : Type*} [MeasurableSpace Ω] {P : Measure Ω} {R : Ω → Rng} (hR : IdealNormals P R) {la : LinAlg}
    (hla : la.Correct) (rng : Rng) (key : Key) (x0 : Vec 2) {δ : ℝ} (hδ : 0 < δ) (N M : ℕ) (hM : 0 < M) {σ : ℝ} (hσ : σ ≠ 0)
    (sqrt : Bool) (odeInt : OdeInt (Vec 2) 2)
    (hode : ∀ k x vf, Ekf.ekf0 la rng none x vf (δ / M) M sqrt (some ⟨_, IOUP.transition 0 σ 1 (δ / M) 2⟩) none =
      .ok (odeInt k x vf δ)) (k : ℕ) (h0 : 0 < k) (hk : k ≤ N) (X : Ω → Vec 2)
    (hX : ∀ ω, (sdeSolver (R ω) key Ivp.Ibm.drift Ivp.Ibm.sigma x0 (Foster.getApprox 1) δ N odeInt).2.1[k]? = some (X ω)) :
    Ivp.Ibm.var (k * δ) 0 0 < cov[fun ω => X ω 0, fun ω => X ω 0; P] ∧
      ∀ m, ¬ IsNormal P X m (Ivp.Ibm.var (k * δ)) := by
  obtain ⟨Y, h1, h2⟩ := C78_ekf0_law hR hla rng key x0 hδ N M hM hσ sqrt odeInt hode k hk
  have hXY : X = Y := funext fun ω => Option.some.inj ((hX ω).symm.trans (h1 ω))
  have h3 : Ivp.Ibm.var (k * δ) 0 0 < cov[fun ω => X ω 0, fun ω => X ω 0; P] := by
    rw [hXY, h2.cov 0 0]
    have hk' : (0 : ℝ) < k := by exact_mod_cast h0
    have := mul_pos (mul_pos hk' (pow_pos hδ 3)) (ibm_excess_pos M hM)
    simpa using this
  exact ⟨h3, fun m hm => h3.ne (hm.cov 0 0).symm⟩

/-- C78, what remains: the mean, the variance of the velocity and the covariance of position and velocity are exact; and the
excess of the variance of the position tends to zero as the number of filter steps per interval grows. -/
theorem C78_partial {Ω : Type*} [MeasurableSpace Ω] {P : Measure Ω} {R : Ω → Rng} (hR : IdealNormals P R) {la : LinAlg}
    (hla : la.Correct) (rng : Rng) (key : Key) (x0 : Vec 2) {δ : ℝ} (hδ : 0 < δ) (N : ℕ) {σ : ℝ} (hσ : σ ≠ 0)
    (sqrt : Bool) (odeInt : ℕ → OdeInt (Vec 2) 2)
    (hode : ∀ M : ℕ, M > 0 → ∀ k x vf, Ekf.ekf0 la rng none x vf (δ / M) M sqrt
      (some ⟨_, IOUP.transition 0 σ 1 (δ / M) 2⟩) none = .ok (odeInt M k x vf δ)) (k : ℕ) (hk : k ≤ N) (X : ℕ → Ω → Vec 2)
    (hX : ∀ M : ℕ, M > 0 → ∀ ω, (sdeSolver (R ω) key Ivp.Ibm.drift Ivp.Ibm.sigma x0 (Foster.getApprox 1) δ N (odeInt M)).2.1[k]? =
      some (X M ω)) :
    (∀ M > 0, ∃ C, IsNormal P (X M) ![x0 0 + k * δ * x0 1, x0 1] C ∧
      ∀ i j, (i, j) ≠ (0, 0) → C i j = Ivp.Ibm.var (k * δ) i j) ∧
    Tendsto (fun M => cov[fun ω => X M ω 0, fun ω => X M ω 0; P]) atTop (𝓝 (Ivp.Ibm.var (k * δ) 0 0)) := by
  have hall : ∀ M > 0, IsNormal P (X M) ![x0 0 + k * δ * x0 1, x0 1] (Ivp.Ibm.var (k * δ) +
        (k * δ ^ 3 * (3 * (1 / 6 + 5 / (6 * M ^ 2) - 1 / (2 * M ^ 3)) ^ 2 - 1 / 12)) • !![1, 0; 0, 0]) := fun M hM => by
    obtain ⟨Y, h1, h2⟩ := C78_ekf0_law hR hla rng key x0 hδ N M hM hσ sqrt (odeInt M) (hode M hM) k hk
    have hXY : X M = Y := funext fun ω => Option.some.inj ((hX M hM ω).symm.trans (h1 ω))
    rw [hXY]
    exact h2
  refine ⟨fun M hM => ⟨_, hall M hM, fun i j hij => ?_⟩, ?_⟩
  · fin_cases i <;> fin_cases j <;> simp at hij ⊢
  · have hp : ∀ (c d : ℝ) (n : ℕ), 0 < d → n ≠ 0 → Tendsto (fun M : ℕ => c / (d * (M : ℝ) ^ n)) atTop (𝓝 0) := fun c d n hd hn =>
      Tendsto.div_atTop tendsto_const_nhds (Tendsto.const_mul_atTop hd
        ((tendsto_pow_atTop hn).comp tendsto_natCast_atTop_atTop))
    have h1 := ((((((hp 5 6 2 (by norm_num) two_ne_zero).const_add (1 / 6)).sub (hp 1 2 3 two_pos three_ne_zero)).pow 2).const_mul
      3).sub_const (1 / 12)).const_mul ((k : ℝ) * δ ^ 3)
    have h2 := h1.const_add (Ivp.Ibm.var (k * δ) 0 0)
    norm_num at h2
    refine h2.congr' ?_
    filter_upwards [eventually_gt_atTop 0] with M hM
    rw [(hall M hM).cov 0 0]
    norm_num

/-- C78 for exact integrators: `sde_solver` with an ODE integrator that makes no error has the exact law at all grid points,
that of `ivp.py`'s `var`. -/
theorem C78_exact_integrator {Ω : Type*} [MeasurableSpace Ω] {P : Measure Ω} {R : Ω → Rng} (hR : IdealNormals P R) (key : Key)
    (x0 : Vec 2) {δ : ℝ} (hδ : 0 < δ) (N : ℕ) (odeInt : OdeInt (Vec 2) 2)
    (hode : ∀ k, ExactIntegrator δ fun x vf => odeInt k x vf δ) (k : ℕ) (hk : k ≤ N) :
    ∃ X : Ω → Vec 2, (∀ ω, (sdeSolver (R ω) key Ivp.Ibm.drift Ivp.Ibm.sigma x0 (Foster.getApprox 1) δ N odeInt).2.1[k]? =
        some (X ω)) ∧ IsNormal P X ![x0 0 + k * δ * x0 1, x0 1] (Ivp.Ibm.var (k * δ)) := by
  obtain ⟨X, h1, h2⟩ := ibm_law hR key x0 hδ (1 / 6) N odeInt (fun k x c tk => ibm_exact hδ _ (hode k) x c tk) k hk
  refine ⟨X, h1, ?_⟩
  norm_num at h2
  exact h2

/-- Exact integrators exist. -/
theorem exists_exactIntegrator (d : ℕ) (T : ℝ) (hT : 0 ≤ T) : ∃ int : Vec d → Field d → Vec d, ExactIntegrator T int := by
  classical
  refine ⟨fun x vf => if h : ∃ y : ℝ → Vec d, y 0 = x ∧ (∃ L, ∀ x x', ∀ t ∈ Set.Icc 0 T, ‖vf x t - vf x' t‖ ≤ L * ‖x - x'‖) ∧
    ∀ t ∈ Set.Icc 0 T, HasDerivWithinAt y (vf (y t) t) (Set.Icc 0 T) t then h.choose T else 0, fun vf L hL y hy => ?_⟩
  have h : ∃ z : ℝ → Vec d, z 0 = y 0 ∧ (∃ L, ∀ x x', ∀ t ∈ Set.Icc 0 T, ‖vf x t - vf x' t‖ ≤ L * ‖x - x'‖) ∧
    ∀ t ∈ Set.Icc 0 T, HasDerivWithinAt z (vf (z t) t) (Set.Icc 0 T) t := ⟨y, rfl, ⟨L, hL⟩, hy⟩
  simp only [dif_pos h]
  obtain ⟨h0, -, h2⟩ := h.choose_spec
  have hmono : ∀ {z : ℝ → Vec d}, (∀ t ∈ Set.Icc 0 T, HasDerivWithinAt z (vf (z t) t) (Set.Icc 0 T) t) →
      ∀ t ∈ Set.Ico 0 T, HasDerivWithinAt z (vf (z t) t) (Set.Ici t) t := fun hz t ht =>
    (hz t (Set.Ico_subset_Icc_self ht)).mono_of_mem_nhdsWithin (by
      refine Filter.mem_of_superset (Icc_mem_nhdsGE ht.2) (Set.Icc_subset_Icc ht.1 le_rfl))
  have hu := ODE_solution_unique_of_mem_Icc_right (v := fun t x => vf x t) (s := fun _ => Set.univ) (K := Real.toNNReal L)
    (f := h.choose) (g := y) (a := 0) (b := T) (fun t ht => ?_) (fun t ht => (h2 t ht).continuousWithinAt) (hmono h2)
    (fun _ _ => Set.mem_univ _) (fun t ht => (hy t ht).continuousWithinAt) (hmono hy) (fun _ _ => Set.mem_univ _) h0
  · exact hu (Set.right_mem_Icc.mpr hT)
  · refine LipschitzOnWith.of_dist_le_mul fun x _ x' _ => ?_
    rw [dist_eq_norm, dist_eq_norm]
    refine (hL x x' t (Set.Ico_subset_Icc_self ht)).trans (mul_le_mul_of_nonneg_right ?_ (norm_nonneg _))
    exact Real.le_coe_toNNReal L

/-- C78: the hypotheses can be met, by the filter and by an exact integrator. -/
example (M : ℕ) (hM : 0 < M) {la : LinAlg} (hla : la.Correct) (rng : Rng) (sqrt : Bool) (δ : ℝ) (hδ : 0 < δ) :
    (∃ odeInt : OdeInt (Vec 2) 2, ∀ k x vf,
      Ekf.ekf0 la rng none x vf (δ / M) M sqrt (some ⟨_, IOUP.transition 0 1 1 (δ / M) 2⟩) none = .ok (odeInt k x vf δ)) ∧
    ∃ odeInt : OdeInt (Vec 2) 2, ∀ k, ExactIntegrator δ fun x vf => odeInt k x vf δ := by
  refine ⟨⟨fun _ x vf _ => (trapScheme vf (δ / M) x M).1, fun k x vf => C43_trapezoidal hla rng two_pos vf one_ne_zero
    (div_pos hδ (by exact_mod_cast hM)) x M sqrt⟩, ?_⟩
  obtain ⟨int, h⟩ := exists_exactIntegrator 2 δ hδ.le
  exact ⟨fun _ x vf _ => int x vf, fun _ => h⟩

end Verif
