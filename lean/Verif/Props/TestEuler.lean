import Verif.Model.Tests
import Verif.Props.EulerMaruyama
import Verif.Lemmas.Foster
import Mathlib.Analysis.SpecialFunctions.Log.Deriv
import Mathlib.Analysis.SpecialFunctions.Trigonometric.Deriv
import Mathlib.Analysis.Complex.ExponentialBounds

/-!
# Property C136: the values asserted by `tests/test_euler.py` and `tests/test_euler_maruyama.py`
-/

namespace Verif

open Matrix Spec Jnp MeasureTheory ProbabilityTheory

/-- Two-sided comparison of `(1 + u)^N` with the exponential. -/
theorem exp_le_one_add_pow {u : ℝ} (hu : 0 ≤ u) (N : ℕ) : Real.exp (N * (2 * u / (u + 2))) ≤ (1 + u) ^ N ∧ (1 + u) ^ N ≤ Real.exp (N * u) := by
  constructor
  · rw [← Real.exp_log (show 0 < 1 + u by linarith), ← Real.exp_nat_mul]
    exact Real.exp_le_exp.mpr (mul_le_mul_of_nonneg_left (Real.le_log_one_add_of_nonneg hu) (Nat.cast_nonneg N))
  · rw [Real.exp_nat_mul]
    exact pow_le_pow_left₀ (by linarith) (by linarith [Real.add_one_le_exp u]) N

/-- The Euler method for `x' = x`. -/
theorem one_add_inv_pow {N : ℕ} (hN : 0 < N) : (1 + 1 / (N : ℝ)) ^ N ≤ Real.exp 1 ∧ Real.exp 1 * (1 - 1 / (2 * N)) ≤ (1 + 1 / (N : ℝ)) ^ N := by
  have hN' : (0 : ℝ) < N := by exact_mod_cast hN
  obtain ⟨h1, h2⟩ := exp_le_one_add_pow (u := 1 / (N : ℝ)) (by positivity) N
  rw [mul_one_div_cancel hN'.ne'] at h2
  refine ⟨h2, le_trans ?_ h1⟩
  have e : (N : ℝ) * (2 * (1 / N) / (1 / N + 2)) = 1 + (-(1 / (2 * N + 1))) := by
    field_simp
    ring
  rw [e, Real.exp_add]
  refine mul_le_mul_of_nonneg_left ?_ (Real.exp_pos 1).le
  have := Real.add_one_le_exp (-(1 / (2 * (N : ℝ) + 1)))
  have h3 : 1 / (2 * (N : ℝ) + 1) ≤ 1 / (2 * N) := by
    gcongr
    linarith
  linarith

/-- C136: the Euler solution of `test_exponential` with `N` steps is `(1 + 1/N)^N`, and it is within `e/(2N)` of the asserted value. -/
theorem C136_exponential {N : ℕ} (hN : 0 < N) : TestEuler.exponential N 0 = (1 + 1 / (N : ℝ)) ^ N ∧
    |TestEuler.exponential N 0 - Real.exp 1| ≤ Real.exp 1 / (2 * N) := by
  have key : ∀ (h : ℝ) (n : ℕ), eulerSolver 1 TestEuler.expField h n = fun _ => (1 + h) ^ n := by
    intro h n
    induction n with
    | zero => rw [eulerSolver_zero]; funext j; simp
    | succ n ih =>
      rw [eulerSolver_succ, ih]
      funext j
      simp only [TestEuler.expField, Pi.add_apply, Pi.smul_apply, smul_eq_mul]
      ring
  have e : TestEuler.exponential N 0 = (1 + 1 / (N : ℝ)) ^ N := by rw [TestEuler.exponential, key]
  refine ⟨e, ?_⟩
  rw [e, abs_le]
  obtain ⟨h1, h2⟩ := one_add_inv_pow hN
  have h3 : Real.exp 1 / (2 * N) = Real.exp 1 * (1 / (2 * N)) := by ring
  have h4 : 0 ≤ Real.exp 1 / (2 * N) := by positivity
  constructor <;> linarith

/-- C136: the Euler solution of `test_sin` with `N` steps is within `(e - 1)/(2N)` of the asserted value. -/
theorem C136_sin {N : ℕ} (hN : 0 < N) : |TestEuler.sine N 0 - (2 - Real.cos 1)| ≤ (Real.exp 1 - 1) / (2 * N) := by
  have hN' : (0 : ℝ) < N := by exact_mod_cast hN
  have h := C22_euler_error TestEuler.sinField 1 1 (1 / N) one_pos (by positivity) N (fun x x' t => by
      rw [show TestEuler.sinField x t - TestEuler.sinField x' t = 0 from sub_self _, norm_zero]
      positivity)
    (fun t _ => 2 - Real.cos t) (fun t _ => Real.cos t)
    (fun t _ => by
      refine hasDerivWithinAt_pi.mpr fun j => ?_
      have := ((Real.hasDerivAt_cos t).const_sub 2).hasDerivWithinAt (s := Set.Icc 0 ((N : ℝ) * (1 / N)))
      simpa [TestEuler.sinField] using this)
    (fun t _ => hasDerivWithinAt_pi.mpr fun j => (Real.hasDerivAt_sin t).hasDerivWithinAt)
    (fun t _ => (pi_norm_le_iff_of_nonneg zero_le_one).mpr fun j => by simpa using Real.abs_cos_le_one t)
  rw [mul_one_div_cancel hN'.ne'] at h
  have e0 : (fun _ : Fin 1 => 2 - Real.cos 0) = (1 : Vec 1) := by funext j; norm_num
  rw [e0] at h
  have h1 := (norm_le_pi_norm _ 0).trans h
  simp only [Pi.sub_apply, Real.norm_eq_abs, mul_one] at h1
  refine h1.trans (le_of_eq ?_)
  field_simp

/-- C136: both Euler tests meet their tolerance `decimal=3` for every number of steps from the tested one on. -/
theorem C136_euler_tolerance {N : ℕ} (hN : 1000 ≤ N) :
    |TestEuler.exponential N 0 - Real.exp 1| < 1.5e-3 ∧ |TestEuler.sine N 0 - (2 - Real.cos 1)| < 1.5e-3 := by
  have hN' : (1000 : ℝ) ≤ N := by exact_mod_cast hN
  have he := Real.exp_one_lt_d9
  have h1 := (C136_exponential (show 0 < N by omega)).2
  have h2 := C136_sin (show 0 < N by omega)
  have e0 : 0 < Real.exp 1 - 1 := by linarith [Real.exp_one_gt_d9]
  have b1 : Real.exp 1 / (2 * N) ≤ Real.exp 1 / (2 * 1000) := by gcongr
  have b2 : (Real.exp 1 - 1) / (2 * N) ≤ (Real.exp 1 - 1) / (2 * 1000) := by gcongr
  constructor <;> norm_num at * <;> linarith

/-- The states of Euler-Maruyama on `gbm` as products over independent standard normals. -/
theorem em_gbm_prod {Ω : Type*} [MeasurableSpace Ω] {P : Measure Ω} {R : Ω → Rng} (hR : IdealNormals P R) (key : Key)
    (x0 : Vec 1) (h : ℝ) (N k : ℕ) (hk : k ≤ N) : ∃ Z : Fin k → Ω → ℝ, iIndepFun Z P ∧ (∀ i, HasLaw (Z i) (gaussianReal 0 1) P) ∧
      ∀ ω, (emSolver (R ω) key x0 Ivp.Gbm.drift Ivp.Gbm.sigma h N).2[k]? =
        some (fun _ => x0 0 * ∏ i : Fin k, (1 + h + Real.sqrt h * Z i ω)) := by
  set K : Fin k → Key := fun i => (key.child N i).child 2 0 with hK
  have hdiv : Pairwise fun a b : Fin k => (K a).Diverge (K b) := fun a b hab =>
    ((Key.diverge_child key N a b (fun he => hab (Fin.ext he))).child_left 2 0).child_right 2 0
  have hi := hR.indep K (fun _ => [1]) hdiv
  refine ⟨fun i ω => (R ω).normal (K i) [1] 0, ?_, fun i => hR.law (K i) [1] 0 (by simp), ?_⟩
  · exact hi.precomp (g := fun i : Fin k => (⟨i, ⟨0, by simp⟩⟩ : Σ a : Fin k, Fin ([1] : List ℕ).prod)) (fun a b hab => congrArg Sigma.fst hab)
  · intro ω
    have h1 := emPathwise_eq ((List.range N).map fun k => (R ω).normalVec ((key.child N k).child 2 0) 1) x0
      Ivp.Gbm.drift Ivp.Gbm.sigma h N true (by simp)
    rw [emSolver_eq] at h1
    rw [Except.ok.inj h1]
    simp only [if_true]
    rw [List.getElem?_map, List.getElem?_range (by omega)]
    simp only [Option.map_some, Option.some.injEq]
    rw [emFold_gbm]
    funext j
    congr 1
    rw [List.map_map, ← List.map_take, List.take_range, min_eq_left hk, List.map_map, ← List.prod_ofFn]
    congr 1
    apply List.ext_getElem <;> simp [hK, Rng.normalVec]

theorem sq_normal_moment {Ω : Type*} [MeasurableSpace Ω] {P : Measure Ω} [IsProbabilityMeasure P] {Z : Ω → ℝ}
    (hZ : HasLaw Z (gaussianReal 0 1) P) (c : ℝ) {h : ℝ} (hh : 0 ≤ h) :
    Integrable (fun ω => (c + Real.sqrt h * Z ω) ^ 2) P ∧ ∫ ω, (c + Real.sqrt h * Z ω) ^ 2 ∂P = c ^ 2 + h := by
  have hZ2 : MemLp Z 2 P := hZ.hasGaussianLaw.memLp (by simp)
  have m1 : ∫ ω, Z ω ∂P = 0 := by rw [hZ.integral_eq]; simp
  have m2 : ∫ ω, Z ω ^ 2 ∂P = 1 := by
    have v : Var[Z; P] = 1 := by rw [hZ.variance_eq]; simp
    rw [variance_eq_sub hZ2, m1] at v
    simpa using v
  have e : ∀ ω, (c + Real.sqrt h * Z ω) ^ 2 = c ^ 2 + (2 * c * Real.sqrt h * Z ω + h * Z ω ^ 2) := fun ω => by
    linear_combination (Z ω) ^ 2 * Real.sq_sqrt hh
  simp only [e]
  have i1 := (hZ2.integrable (by norm_num)).const_mul (2 * c * Real.sqrt h)
  have i2 := hZ2.integrable_sq.const_mul h
  have i3 : Integrable (fun ω => 2 * c * Real.sqrt h * Z ω + h * Z ω ^ 2) P := i1.add i2
  refine ⟨(integrable_const _).add i3, ?_⟩
  rw [integral_add (integrable_const _) i3, integral_add i1 i2, integral_const_mul, integral_const_mul, m1, m2]
  simp

theorem prod_moment {Ω : Type*} [MeasurableSpace Ω] {P : Measure Ω} {k : ℕ} {Y : Fin k → Ω → ℝ} (hY : iIndepFun Y P)
    (hi : ∀ i, Integrable (Y i) P) : Integrable (fun ω => ∏ i, Y i ω) P ∧ ∫ ω, ∏ i, Y i ω ∂P = ∏ i, ∫ ω, Y i ω ∂P := by
  have hP := hY.isProbabilityMeasure
  refine ⟨?_, hY.integral_fun_prod_eq_prod_integral fun i => (hi i).aestronglyMeasurable⟩
  have hm := hY.map_fun_eq_pi_map (fun i => (hi i).aemeasurable)
  have hpi : Integrable (fun y : Fin k → ℝ => ∏ i, y i) (Measure.pi fun i => P.map (Y i)) := by
    have : ∀ i, IsProbabilityMeasure (P.map (Y i)) := fun i => Measure.isProbabilityMeasure_map (hi i).aemeasurable
    refine Integrable.fintype_prod (f := fun _ z => z) fun i => ?_
    exact (integrable_map_measure aestronglyMeasurable_id (hi i).aemeasurable).mpr (hi i)
  rw [← hm] at hpi
  exact (integrable_map_measure hpi.aestronglyMeasurable (aemeasurable_pi_lambda _ fun i => (hi i).aemeasurable)).mp hpi

/-- C136: the mean and the variance of every state of Euler-Maruyama on `gbm`. -/
theorem C136_em_gbm_moments {Ω : Type*} [MeasurableSpace Ω] {P : Measure Ω} {R : Ω → Rng} (hR : IdealNormals P R) (key : Key)
    (x0 : Vec 1) {h : ℝ} (hh : 0 ≤ h) (N k : ℕ) (hk : k ≤ N) :
    ∃ X : Ω → Vec 1, (∀ ω, (emSolver (R ω) key x0 Ivp.Gbm.drift Ivp.Gbm.sigma h N).2[k]? = some (X ω)) ∧
      MemLp (fun ω => X ω 0) 2 P ∧ ∫ ω, X ω 0 ∂P = x0 0 * (1 + h) ^ k ∧
      Var[fun ω => X ω 0; P] = x0 0 ^ 2 * (((1 + h) ^ 2 + h) ^ k - ((1 + h) ^ 2) ^ k) := by
  obtain ⟨Z, hZi, hZl, hX⟩ := em_gbm_prod hR key x0 h N k hk
  obtain ⟨X, hX', hXi, hXm⟩ := C69_em_gbm_mean hR key x0 h N k hk
  have hP := hZi.isProbabilityMeasure
  have hXX : ∀ ω, X ω = fun _ => x0 0 * ∏ i : Fin k, (1 + h + Real.sqrt h * Z i ω) := fun ω =>
    Option.some.inj ((hX' ω).symm.trans (hX ω))
  have hsq : ∀ ω, X ω 0 ^ 2 = x0 0 ^ 2 * ∏ i : Fin k, (1 + h + Real.sqrt h * Z i ω) ^ 2 := fun ω => by
    rw [hXX, mul_pow, Finset.prod_pow]
  have hYi : iIndepFun (fun i ω => (1 + h + Real.sqrt h * Z i ω) ^ 2) P :=
    hZi.comp (fun _ z => (1 + h + Real.sqrt h * z) ^ 2) (fun _ => by fun_prop)
  obtain ⟨p1, p2⟩ := prod_moment hYi fun i => (sq_normal_moment (hZl i) (1 + h) hh).1
  have hint : Integrable (fun ω => X ω 0 ^ 2) P := by
    simp only [hsq]
    exact p1.const_mul _
  have hsec : ∫ ω, X ω 0 ^ 2 ∂P = x0 0 ^ 2 * ((1 + h) ^ 2 + h) ^ k := by
    simp only [hsq]
    rw [integral_const_mul, p2]
    simp only [fun i => (sq_normal_moment (hZl i) (1 + h) hh).2]
    simp
  have hL2 : MemLp (fun ω => X ω 0) 2 P := (memLp_two_iff_integrable_sq hXi.aestronglyMeasurable).mpr hint
  refine ⟨X, hX', hL2, hXm, ?_⟩
  rw [variance_eq_sub hL2, hXm]
  refine (congrArg (· - (x0 0 * (1 + h) ^ k) ^ 2) hsec).trans ?_
  rw [mul_pow, pow_right_comm, mul_sub]

/-- The numbers behind the tolerances of `test_gbm_moment`. -/
theorem gbm_em_bounds {N : ℕ} (hN : 100 ≤ N) :
    |((1 + 1 / (N : ℝ)) ^ 2 + 1 / (N : ℝ)) ^ N - ((1 + 1 / (N : ℝ)) ^ 2) ^ N - (Real.exp 1 - 1 : ℝ) * Real.exp 2| ≤ 78 / (N : ℝ) := by
  have hN' : (100 : ℝ) ≤ N := by exact_mod_cast hN
  have hN0 : (0 : ℝ) < N := by linarith
  obtain ⟨h, hh⟩ : ∃ h : ℝ, h = 1 / N := ⟨_, rfl⟩
  have hNh : (N : ℝ) * h = 1 := by rw [hh]; field_simp
  have h0 : 0 < h := by rw [hh]; positivity
  have h1 : h ≤ 1 / 100 := by rw [hh]; gcongr
  obtain ⟨l1, l2⟩ := one_add_inv_pow (show 0 < N by omega)
  have l3 : 1 / (2 * (N : ℝ)) = h / 2 := by rw [hh]; ring
  rw [l3] at l2
  rw [← hh] at l1 l2 ⊢
  have e1 := Real.exp_one_gt_d9
  have e2 := Real.exp_one_lt_d9
  have ee2 : Real.exp 2 = Real.exp 1 ^ 2 := by rw [← Real.exp_nat_mul]; norm_num
  have ee3 : Real.exp 3 = Real.exp 1 ^ 3 := by rw [← Real.exp_nat_mul]; norm_num
  obtain ⟨e, he⟩ : ∃ e, e = Real.exp 1 := ⟨_, rfl⟩
  rw [← he] at l1 l2 e1 e2 ee2 ee3 ⊢
  have he0 : 0 < e := by linarith
  obtain ⟨p, hp⟩ : ∃ p, p = (1 + h) ^ N := ⟨_, rfl⟩
  have q : ((1 + h) ^ 2) ^ N = p ^ 2 := by rw [hp, ← pow_mul, ← pow_mul, mul_comm]
  rw [← hp] at l1 l2
  obtain ⟨s1, s2⟩ := exp_le_one_add_pow (u := 3 * h + h ^ 2) (by positivity) N
  have u1 : (N : ℝ) * (3 * h + h ^ 2) = 3 + h := by linear_combination (3 + h) * hNh
  have u2 : 3 + (-(7 / 2 * h)) ≤ (N : ℝ) * (2 * (3 * h + h ^ 2) / (3 * h + h ^ 2 + 2)) := by
    have : (N : ℝ) * (2 * (3 * h + h ^ 2) / (3 * h + h ^ 2 + 2)) = 2 * (3 + h) / (3 * h + h ^ 2 + 2) := by
      rw [← mul_div_assoc]
      congr 1
      linear_combination 2 * (3 + h) * hNh
    rw [this, le_div_iff₀ (by positivity)]
    nlinarith [mul_pos h0 h0, mul_pos (mul_pos h0 h0) h0]
  rw [u1, Real.exp_add, ee3] at s2
  have s3 := (Real.exp_le_exp.mpr u2).trans s1
  rw [Real.exp_add, ee3] at s3
  have s4 : 1 - 7 / 2 * h ≤ Real.exp (-(7 / 2 * h)) := by linarith [Real.add_one_le_exp (-(7 / 2 * h))]
  have s5 : Real.exp h ≤ 1 + 2 * h := by
    have := Real.abs_exp_sub_one_le (x := h) (by rw [abs_of_pos h0]; linarith)
    rw [abs_of_pos h0] at this
    linarith [le_abs_self (Real.exp h - 1)]
  have w : (1 + h) ^ 2 + h = 1 + (3 * h + h ^ 2) := by ring
  rw [q, w, ee2, show 78 / (N : ℝ) = 78 * h by rw [hh]; ring]
  have c2 : e ^ 2 ≤ 7.4 := by nlinarith
  have c3 : e ^ 3 ≤ 20.1 := by nlinarith
  have c20 : 0 < e ^ 2 := by positivity
  have c30 : 0 < e ^ 3 := by positivity
  have t1 : e ^ 3 * (1 - 7 / 2 * h) ≤ (1 + (3 * h + h ^ 2)) ^ N := (mul_le_mul_of_nonneg_left s4 c30.le).trans s3
  have t2 : (1 + (3 * h + h ^ 2)) ^ N ≤ e ^ 3 * (1 + 2 * h) := s2.trans (mul_le_mul_of_nonneg_left s5 c30.le)
  have p0 : 0 ≤ e * (1 - h / 2) := mul_nonneg he0.le (by linarith)
  have t3 : p ^ 2 ≤ e ^ 2 := pow_le_pow_left₀ (p0.trans l2) l1 2
  have t4 : e ^ 2 * (1 - h) ≤ p ^ 2 := by
    have := pow_le_pow_left₀ p0 l2 2
    refine le_trans ?_ this
    rw [mul_pow]
    exact mul_le_mul_of_nonneg_left (by nlinarith) c20.le
  have r1 : e ^ 3 * h ≤ 20.1 * h := by gcongr
  have r2 : e ^ 2 * h ≤ 7.4 * h := by gcongr
  have z1 : e ^ 3 * (1 - 7 / 2 * h) = e ^ 3 - 7 / 2 * (e ^ 3 * h) := by ring
  have z2 : e ^ 3 * (1 + 2 * h) = e ^ 3 + 2 * (e ^ 3 * h) := by ring
  have z3 : e ^ 2 * (1 - h) = e ^ 2 - e ^ 2 * h := by ring
  have z4 : (e - 1) * e ^ 2 = e ^ 3 - e ^ 2 := by ring
  rw [abs_le, z4]
  rw [z1] at t1
  rw [z2] at t2
  rw [z3] at t4
  constructor <;> linarith

/-- C136: the expectations asserted by `test_gbm_moment`, for every number of steps from the tested one on: the standard deviation and the mean
at the final time within the tolerance of `decimal=1`, the mean and the variance after one step within that of `decimal=2`. -/
theorem C136_gbm_tolerance {Ω : Type*} [MeasurableSpace Ω] {P : Measure Ω} {R : Ω → Rng} (hR : IdealNormals P R) (key : Key) {N : ℕ}
    (hN : 100 ≤ N) : ∃ X Y : Ω → Vec 1,
      (∀ ω, (emSolver (R ω) key Ivp.Gbm.x0 Ivp.Gbm.drift Ivp.Gbm.sigma (1 / N) N).2[N]? = some (X ω)) ∧
      (∀ ω, (emSolver (R ω) key Ivp.Gbm.x0 Ivp.Gbm.drift Ivp.Gbm.sigma (1 / N) N).2[1]? = some (Y ω)) ∧
      |Real.sqrt (Var[fun ω => X ω 0; P]) - Real.sqrt (Ivp.Gbm.variance (N * (1 / N)) 0)| < 0.15 ∧
      |∫ ω, X ω 0 ∂P - Ivp.Gbm.mean (N * (1 / N)) 0| < 0.15 ∧
      |∫ ω, Y ω 0 ∂P - Ivp.Gbm.mean (1 / N) 0| < 0.015 ∧
      |Var[fun ω => Y ω 0; P] - Ivp.Gbm.variance (1 / N) 0| < 0.015 := by
  have hN' : (100 : ℝ) ≤ N := by exact_mod_cast hN
  have hN0 : (0 : ℝ) < N := by linarith
  obtain ⟨X, hX, hX2, hXm, hXv⟩ := C136_em_gbm_moments hR key Ivp.Gbm.x0 (h := 1 / N) (by positivity) N N le_rfl
  obtain ⟨Y, hY, hY2, hYm, hYv⟩ := C136_em_gbm_moments hR key Ivp.Gbm.x0 (h := 1 / N) (by positivity) N 1 (by omega)
  have e1 := Real.exp_one_gt_d9
  have e2 := Real.exp_one_lt_d9
  have ee2 : Real.exp 2 = Real.exp 1 ^ 2 := by rw [← Real.exp_nat_mul]; norm_num
  have hone : (N : ℝ) * (1 / N) = 1 := mul_one_div_cancel hN0.ne'
  have x0 : Ivp.Gbm.x0 0 = 1 := rfl
  have m : ∀ t, Ivp.Gbm.mean t 0 = Real.exp t := fun t => by simp [Ivp.Gbm.mean, Ivp.Gbm.a, Ivp.Gbm.x0]
  have v : ∀ t, Ivp.Gbm.variance t 0 = (Real.exp t - 1) * Real.exp (2 * t) := fun t => by
    simp [Ivp.Gbm.variance, Ivp.Gbm.a, Ivp.Gbm.b, Ivp.Gbm.x0]
  rw [x0, one_mul] at hXm hYm
  rw [x0, one_pow, one_mul] at hXv hYv
  rw [pow_one] at hYm
  obtain ⟨h, hh⟩ : ∃ h : ℝ, h = 1 / N := ⟨_, rfl⟩
  have h0 : 0 < h := by rw [hh]; positivity
  have h1 : h ≤ 1 / 100 := by rw [hh]; gcongr
  have b1 : Real.exp h ≤ 1 + h + h ^ 2 := by
    have := Real.abs_exp_sub_one_sub_id_le (x := h) (by rw [abs_of_pos h0]; linarith)
    linarith [le_abs_self (Real.exp h - 1 - h)]
  have b2 : Real.exp (2 * h) ≤ 1 + 2 * h + (2 * h) ^ 2 := by
    have := Real.abs_exp_sub_one_sub_id_le (x := 2 * h) (by rw [abs_of_pos (by linarith)]; linarith)
    linarith [le_abs_self (Real.exp (2 * h) - 1 - 2 * h)]
  have b3 := Real.add_one_le_exp h
  have b4 : 1 ≤ Real.exp (2 * h) := Real.one_le_exp (by linarith)
  refine ⟨X, Y, hX, hY, ?_, ?_, ?_, ?_⟩
  · rw [hone, v, mul_one, hXv]
    have hb := (gbm_em_bounds hN).trans (show 78 / (N : ℝ) ≤ 78 / 100 by gcongr)
    obtain ⟨A, hA⟩ : ∃ A, A = ((1 + 1 / (N : ℝ)) ^ 2 + 1 / N) ^ N - ((1 + 1 / (N : ℝ)) ^ 2) ^ N := ⟨_, rfl⟩
    obtain ⟨B, hB⟩ : ∃ B, B = (Real.exp 1 - 1) * Real.exp 2 := ⟨_, rfl⟩
    rw [← hA, ← hB] at hb ⊢
    have hB1 : 12.5 ≤ B := by
      rw [hB, ee2]
      nlinarith
    obtain ⟨c1, c2⟩ := abs_le.mp hb
    have hA1 : 9 ≤ A := by norm_num at *; linarith
    have r1 : 3 ≤ Real.sqrt A := Real.le_sqrt_of_sq_le (by linarith)
    have r2 : 3.5 ≤ Real.sqrt B := Real.le_sqrt_of_sq_le (by norm_num at *; linarith)
    have q1 := Real.sq_sqrt (show 0 ≤ A by linarith)
    have q2 := Real.sq_sqrt (show 0 ≤ B by linarith)
    have q3 : (Real.sqrt A - Real.sqrt B) * (Real.sqrt A + Real.sqrt B) = A - B := by linear_combination q1 - q2
    have q4 : |Real.sqrt A - Real.sqrt B| * (Real.sqrt A + Real.sqrt B) ≤ 78 / 100 := by
      rw [← abs_of_pos (show 0 < Real.sqrt A + Real.sqrt B by norm_num at r2; linarith), ← abs_mul, q3]
      exact hb
    by_contra hcon
    push Not at hcon
    nlinarith [mul_le_mul hcon (show (6.5 : ℝ) ≤ Real.sqrt A + Real.sqrt B by norm_num at *; linarith) (by norm_num) (abs_nonneg _)]
  · rw [hone, m, hXm]
    obtain ⟨l1, l2⟩ := one_add_inv_pow (show 0 < N by omega)
    have l3 : 1 / (2 * (N : ℝ)) = h / 2 := by rw [hh]; ring
    rw [l3] at l2
    rw [abs_lt]
    have z : Real.exp 1 * (1 - h / 2) = Real.exp 1 - Real.exp 1 * h / 2 := by ring
    have z2 : Real.exp 1 * h ≤ Real.exp 1 * (1 / 100) := by gcongr
    rw [z] at l2
    clear * - z2 l1 l2 e1 e2
    norm_num at *
    constructor <;> linarith
  · rw [m, hYm, ← hh, abs_lt]
    have s2 : h ^ 2 ≤ 1 / 100 * h := by rw [sq]; exact mul_le_mul_of_nonneg_right h1 h0.le
    clear * - s2 b1 b3 h0 h1
    norm_num
    constructor <;> linarith
  · rw [v, hYv, pow_one, pow_one, ← hh, abs_lt]
    have c1 : (Real.exp h - 1) * Real.exp (2 * h) ≤ (h + h ^ 2) * (1 + 2 * h + (2 * h) ^ 2) :=
      mul_le_mul (by linarith) b2 (by linarith) (by positivity)
    have c2 : h * 1 ≤ (Real.exp h - 1) * Real.exp (2 * h) := mul_le_mul (by linarith) b4 (by norm_num) (by linarith)
    have s2 : h ^ 2 ≤ 1 / 100 * h := by rw [sq]; exact mul_le_mul_of_nonneg_right h1 h0.le
    have c3 : (h + h ^ 2) * (1 + 2 * h + (2 * h) ^ 2) ≤ 102 / 10000 * (103 / 100) := by
      have s3 : (2 * h) ^ 2 = 4 * h ^ 2 := by ring
      rw [s3]
      exact mul_le_mul (by linarith) (by linarith) (by positivity) (by norm_num)
    clear * - c1 c2 c3 h0 h1
    norm_num at c3 ⊢
    constructor <;> linarith

theorem sum_map_range' (f : ℕ → ℝ) (n : ℕ) : ((List.range n).map f).sum = ∑ j ∈ Finset.range n, f j := by
  induction n with
  | zero => rfl
  | succ n ih => rw [List.range_succ, List.map_append, List.sum_append, ih, Finset.sum_range_succ]; simp

theorem cumsum_map_range (f : ℕ → ℝ) (n : ℕ) :
    cumsum ((List.range n).map f) = (List.range n).map fun k => ∑ j ∈ Finset.range (k + 1), f j := by
  apply List.ext_getElem?
  intro k
  by_cases hk : k < n
  · rw [cumsum_getElem? _ _ (by simpa using hk), ← List.map_take, List.take_range, min_eq_left (by omega), sum_map_range',
      List.getElem?_map, List.getElem?_range hk]
    rfl
  · rw [List.getElem?_eq_none (by simpa [cumsum_length] using hk), List.getElem?_eq_none (by simpa using hk)]

/-- The path of `ibm` along scaled increments. -/
theorem emFold_ibm (dt : ℝ) (x0 : Vec 2) (incs : List (Vec 1)) (s : ℝ) (k : ℕ) (hk : k ≤ incs.length) :
    emFold dt Ivp.Ibm.drift Ivp.Ibm.sigma x0 0 ((incs.map (s • ·)).take k) 1 = x0 1 + ((incs.map fun w => w 0 * s).take k).sum ∧
    emFold dt Ivp.Ibm.drift Ivp.Ibm.sigma x0 0 ((incs.map (s • ·)).take k) 0 =
      x0 0 + x0 1 * (k * dt) + (∑ j ∈ Finset.range k, ((incs.map fun w => w 0 * s).take j).sum) * dt := by
  induction k with
  | zero => simp [emFold]
  | succ k ih =>
    obtain ⟨i1, i2⟩ := ih (by omega)
    have hl : k < incs.length := by omega
    have t1 : (incs.map (s • ·)).take (k + 1) = (incs.map (s • ·)).take k ++ [s • incs[k]] := by
      rw [List.take_add_one]
      simp [hl]
    have t2 : (incs.map fun w => w 0 * s).take (k + 1) = (incs.map fun w => w 0 * s).take k ++ [incs[k] 0 * s] := by
      rw [List.take_add_one]
      simp [hl]
    rw [t1, emFold_append, t2, List.sum_append, Finset.sum_range_succ]
    simp only [emFold, Ivp.Ibm.drift, Ivp.Ibm.sigma, Pi.add_apply, Pi.smul_apply, smul_eq_mul, mulVec, dotProduct, Fin.sum_univ_two,
      Fin.sum_univ_one, Finset.univ_unique, Finset.sum_singleton, Fin.default_eq_zero]
    simp only [Matrix.of_apply, Matrix.cons_val', Matrix.cons_val_zero, Matrix.cons_val_one, Matrix.cons_val_fin_one]
    rw [i1, i2]
    push_cast
    constructor
    · simp; ring
    · ring

/-- C136: Euler-Maruyama on `ibm` along given increments returns the path that `test_ibm_path` reconstructs from cumulative sums, for every
number of steps, step size, initial point and increments. -/
theorem C136_ibm_path (incs : List (Vec 1)) (x0 : Vec 2) (dt : ℝ) : ∃ ts sols,
    emPathwise incs x0 Ivp.Ibm.drift Ivp.Ibm.sigma dt incs.length true = .ok (ts, sols) ∧
      sols.map (fun x => x 1) = (TestEulerMaruyama.reconstruct incs x0 dt ts).2 ∧
      sols.map (fun x => x 0) = (TestEulerMaruyama.reconstruct incs x0 dt ts).1 := by
  refine ⟨_, _, emPathwise_eq incs x0 Ivp.Ibm.drift Ivp.Ibm.sigma dt incs.length true rfl, ?_⟩
  have hs : dt ^ (0.5 : ℝ) = Real.sqrt dt := by rw [Real.sqrt_eq_rpow]; norm_num
  have hB : (0 : ℝ) :: cumsum (incs.map fun w => w 0 * Real.sqrt dt) =
      (List.range (incs.length + 1)).map fun k => ((incs.map fun w => w 0 * Real.sqrt dt).take k).sum := by
    apply List.ext_getElem?
    intro k
    cases k with
    | zero => simp
    | succ k =>
      rw [List.getElem?_cons_succ]
      by_cases hk : k < incs.length
      · rw [cumsum_getElem? _ _ (by simpa using hk), List.getElem?_map, List.getElem?_range (by omega)]
        rfl
      · rw [List.getElem?_eq_none (by simpa [cumsum_length] using hk), List.getElem?_eq_none (by simpa using hk)]
  simp only [TestEulerMaruyama.reconstruct, hs, hB, if_true, cumsum_map_range, List.map_map]
  constructor
  · refine List.map_congr_left fun k hk => ?_
    exact (emFold_ibm dt x0 incs _ k (by have := List.mem_range.mp hk; omega)).1
  · have hd : ∀ f : ℕ → ℝ, ((List.range (incs.length + 1)).map f).dropLast = (List.range incs.length).map f := fun f => by
      rw [List.range_succ, List.map_append]
      simp
    rw [hd, List.range_succ_eq_map, List.map_cons, List.map_cons, List.tail_cons, List.map_map, List.map_map, List.zipWith_map, List.zipWith_self]
    congr 1
    refine List.map_congr_left fun k hk => ?_
    have := (emFold_ibm dt x0 incs (Real.sqrt dt) (k + 1) (by have := List.mem_range.mp hk; omega)).2
    simpa using this

/-- The hypotheses are met by the draws of the constructed generator. -/
example (key : Key) : ∃ X : Draws → Vec 1,
      (∀ ω, (emSolver (drawsRng ω) key Ivp.Gbm.x0 Ivp.Gbm.drift Ivp.Gbm.sigma (1 / (100 : ℕ)) 100).2[100]? = some (X ω)) ∧
      |∫ ω, X ω 0 ∂drawsMeasure - Ivp.Gbm.mean (100 * (1 / 100)) 0| < 0.15 := by
  obtain ⟨X, Y, h1, -, -, h2, -⟩ := C136_gbm_tolerance idealNormals_drawsRng key (N := 100) le_rfl
  exact ⟨X, h1, by simpa using h2⟩

end Verif
