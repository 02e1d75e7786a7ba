import Verif.Model.Tests
import Verif.Lemmas.Trapezoid
import Verif.Props.FosterBrownian
import Verif.Props.EkfSde

/-!
# Property C135: the moments asserted by `tests/test_foster.py`
-/

namespace Verif

open Matrix Spec Jnp MeasureTheory ProbabilityTheory Foster

variable {Ω : Type*} [MeasurableSpace Ω] {P : Measure Ω} {R : Ω → Rng}

/-- The law of a fixed linear combination of the two coefficients of each coordinate. -/
theorem coeff_combination {dim : ℕ} {a b : Ω → Vec dim} {C : Matrix (Fin 2 × Fin dim) (Fin 2 × Fin dim) ℝ} {A B V : ℝ}
    (h : IsNormal P (fun ω => coeffVec (a ω) (b ω)) 0 C)
    (hC : ∀ j j', C (0, j) (0, j') = (if j = j' then A else 0) ∧ C (0, j) (1, j') = (if j = j' then B else 0) ∧
      C (1, j) (1, j') = if j = j' then V else 0) (α β : ℝ) :
    IsNormal P (fun ω => α • a ω + β • b ω) 0 ((α ^ 2 * A + 2 * (α * β) * B + β ^ 2 * V) • (1 : Mat dim dim)) := by
  obtain ⟨M, hM⟩ : ∃ M : Matrix (Fin dim) (Fin 2 × Fin dim) ℝ, ∀ j p, M j p = if j = p.2 then ![α, β] p.1 else 0 := ⟨fun j p => _, fun _ _ => rfl⟩
  have hn := h.affine 0 M
  have e1 : (fun ω => (0 : Fin dim → ℝ) + M *ᵥ coeffVec (a ω) (b ω)) = fun ω => α • a ω + β • b ω := by
    funext ω j
    simp [mulVec, dotProduct, hM, Fintype.sum_prod_type, coeffVec]
  have hsym : ∀ j j', C (1, j) (0, j') = if j = j' then B else 0 := fun j j' => by
    have := h.posSemidef.isHermitian.apply (1, j) (0, j')
    simp only [star_trivial] at this
    rw [← this, (hC j' j).2.1]
    simp only [eq_comm]
  have e2 : M * C * Mᵀ = (α ^ 2 * A + 2 * (α * β) * B + β ^ 2 * V) • (1 : Mat dim dim) := by
    ext j j'
    rw [Matrix.mul_apply]
    simp only [Matrix.mul_apply, transpose_apply, hM, Fintype.sum_prod_type, Fin.sum_univ_two, ite_mul, zero_mul, mul_ite, mul_zero,
      Finset.sum_ite_eq, Finset.mem_univ, if_true, cons_val_zero, cons_val_one, cons_val_fin_one, (hC _ _).1, (hC _ _).2.1, (hC _ _).2.2, hsym,
      Matrix.smul_apply, Matrix.one_apply, smul_eq_mul]
    split_ifs <;> ring
  rw [e1, e2] at hn
  simpa using hn

/-- The increment is the first coefficient. -/
theorem evalParabola_at_end {dim : ℕ} {h : ℝ} (hh : h ≠ 0) (a b : Vec dim) : evalParabola h h a b = (1 : ℝ) • a + (0 : ℝ) • b := by
  funext j
  simp [evalParabola, evalParabola1, hh]

/-- The trapezoidal sum of `t dW̃` over `n` steps. -/
theorem trapezoid_parabola {dim : ℕ} {h : ℝ} (hh : h ≠ 0) (a b : Vec dim) {n : ℕ} (hn : 0 < n) :
    trapezoid ((linspace 0 h (n + 1)).map fun t => t • jacT (fun z => evalParabola z h a b) t) (linspace 0 h (n + 1)) =
      (h / 2) • a + (-(Real.sqrt 6 * h * (1 / 6 + 1 / (3 * n ^ 2)))) • b := by
  obtain ⟨m, rfl⟩ : ∃ m, n = m + 1 := ⟨n - 1, by omega⟩
  rw [trapezoid_linspace]
  have hm : (m : ℝ) + 1 ≠ 0 := by positivity
  have key : ∀ p : ℕ, ∑ k ∈ Finset.range p, (h / ((m : ℝ) + 1) / 2) •
      (((k : ℝ) * (h / ((m : ℝ) + 1))) • jacT (fun z => evalParabola z h a b) ((k : ℝ) * (h / ((m : ℝ) + 1))) +
        (((k : ℝ) + 1) * (h / ((m : ℝ) + 1))) • jacT (fun z => evalParabola z h a b) (((k : ℝ) + 1) * (h / ((m : ℝ) + 1)))) =
      fun j => h / ((m : ℝ) + 1) / 2 * (h / ((m : ℝ) + 1) * ((a j + Real.sqrt 6 * b j) / h) * p ^ 2 -
        2 * (h / ((m : ℝ) + 1)) ^ 2 * (Real.sqrt 6 * b j) / h ^ 2 * (p * (2 * p ^ 2 + 1) / 3)) := by
    intro p
    induction p with
    | zero => funext j; simp
    | succ p ih =>
      rw [Finset.sum_range_succ, ih]
      funext j
      simp only [jacT_evalParabola, Pi.add_apply, Pi.smul_apply, smul_eq_mul]
      push_cast
      field_simp
      ring
  rw [key]
  funext j
  simp only [Pi.add_apply, Pi.smul_apply, smul_eq_mul]
  push_cast
  field_simp
  ring

theorem diag_entries (dim : ℕ) (dt : ℝ) (j j' : Fin dim) :
    diagonal (coeffVar dim dt) (0, j) (0, j') = (if j = j' then dt else 0) ∧
    diagonal (coeffVar dim dt) (0, j) (1, j') = (if j = j' then 0 else 0) ∧
    diagonal (coeffVar dim dt) (1, j) (1, j') = if j = j' then dt / 2 else 0 := by
  refine ⟨?_, ?_, ?_⟩ <;> simp [diagonal_apply, coeffVar]

/-- C135: for the three approximations the increment over the interval, computed as in `test_moments`, is a centred normal whose
coordinates are independent with standard deviation `h ** 0.5`. -/
theorem C135_increment (hR : IdealNormals P R) (dim N : ℕ) (hN : 1 ≤ N) (key : Key) {h : ℝ} (hh : 0 < h) :
    IsNormal P (fun ω => TestFoster.increment (getApprox dim) (R ω) key h) 0 (h • (1 : Mat dim dim)) ∧
    IsNormal P (fun ω => TestFoster.increment (getApproxAndBrownian dim N) (R ω) key h) 0 (h • (1 : Mat dim dim)) ∧
    IsNormal P (fun ω => TestFoster.increment (getApproxFine dim N) (R ω) key h) 0 (h • (1 : Mat dim dim)) := by
  refine ⟨?_, ?_, ?_⟩
  · have := coeff_combination (C13_coefficients_law hR dim key h hh.le).1 (diag_entries dim h) 1 0
    simp only [← evalParabola_at_end hh.ne'] at this
    simpa [TestFoster.increment, getApprox] using this
  · obtain ⟨C, h1, h2⟩ := C17_covariance_partial hR dim N hN key h hh.le
    have := coeff_combination h1 h2 1 0
    simp only [← evalParabola_at_end hh.ne'] at this
    simpa [TestFoster.increment, getApproxAndBrownian] using this
  · have := coeff_combination (C15_fine_law hR dim N hN key h hh).1 (diag_entries dim h) 1 0
    simp only [← evalParabola_at_end hh.ne'] at this
    simpa [TestFoster.increment, getApproxFine] using this

/-- The variance of the trapezoidal sum for `get_approx` and `get_approx_fine`. -/
noncomputable def pathVar (h : ℝ) (n : ℕ) : ℝ := h ^ 3 * (1 / 4 + 3 * (1 / 6 + 1 / (3 * n ^ 2)) ^ 2)

/-- The variance of the trapezoidal sum for `get_approx_and_brownian` with `N` points. -/
noncomputable def pathVarBrownian (h : ℝ) (N n : ℕ) : ℝ :=
  h ^ 3 * (1 / 4 - 6 * (1 / 6 + 1 / (3 * n ^ 2)) * ((N - 2) / N ^ 2) +
    3 * (1 / 6 + 1 / (3 * n ^ 2)) ^ 2 * ((N - 2) * (N ^ 2 + 2 * N - 9) / N ^ 3))

/-- C135: the law of the trapezoidal sum of `t dW̃` computed by `test_path_integral` with `n` steps. -/
theorem C135_path_integral (hR : IdealNormals P R) (dim N : ℕ) (hN : 2 ≤ N) (key : Key) {h : ℝ} (hh : 0 < h) {n : ℕ} (hn : 0 < n) :
    IsNormal P (fun ω => TestFoster.pathIntegral (getApprox dim) (R ω) key h n) 0 (pathVar h n • (1 : Mat dim dim)) ∧
    IsNormal P (fun ω => TestFoster.pathIntegral (getApproxFine dim N) (R ω) key h n) 0 (pathVar h n • (1 : Mat dim dim)) ∧
    IsNormal P (fun ω => TestFoster.pathIntegral (getApproxAndBrownian dim N) (R ω) key h n) 0 (pathVarBrownian h N n • (1 : Mat dim dim)) := by
  have h6 : Real.sqrt 6 ^ 2 = 6 := Real.sq_sqrt (by norm_num)
  obtain ⟨κ, hκ⟩ : ∃ κ : ℝ, κ = 1 / 6 + 1 / (3 * n ^ 2) := ⟨_, rfl⟩
  have e0 : (h / 2) ^ 2 * h + 2 * (h / 2 * -(Real.sqrt 6 * h * (1 / 6 + 1 / (3 * n ^ 2)))) * 0 +
      (-(Real.sqrt 6 * h * (1 / 6 + 1 / (3 * n ^ 2)))) ^ 2 * (h / 2) = pathVar h n := by
    rw [pathVar, ← hκ]
    linear_combination (h ^ 3 * κ ^ 2 / 2) * h6
  refine ⟨?_, ?_, ?_⟩
  · have := coeff_combination (C13_coefficients_law hR dim key h hh.le).1 (diag_entries dim h) (h / 2) (-(Real.sqrt 6 * h * (1 / 6 + 1 / (3 * n ^ 2))))
    simp only [← trapezoid_parabola hh.ne' _ _ hn] at this
    rw [e0] at this
    exact this
  · have := coeff_combination (C15_fine_law hR dim N (by omega) key h hh).1 (diag_entries dim h) (h / 2)
      (-(Real.sqrt 6 * h * (1 / 6 + 1 / (3 * n ^ 2))))
    simp only [← trapezoid_parabola hh.ne' _ _ hn] at this
    rw [e0] at this
    exact this
  · obtain ⟨C, h1, h2⟩ := C17_covariance_partial hR dim N (by omega) key h hh.le
    have := coeff_combination h1 h2 (h / 2) (-(Real.sqrt 6 * h * (1 / 6 + 1 / (3 * n ^ 2))))
    have e1 : (h / 2) ^ 2 * h + 2 * (h / 2 * -(Real.sqrt 6 * h * (1 / 6 + 1 / (3 * n ^ 2)))) * brownianCov N h +
        (-(Real.sqrt 6 * h * (1 / 6 + 1 / (3 * n ^ 2)))) ^ 2 * brownianVar N h = pathVarBrownian h N n := by
      rw [pathVarBrownian, brownianCov, brownianVar, if_neg (by omega), if_neg (by omega), ← hκ]
      linear_combination (-(h ^ 3 * κ * ((N - 2) / N ^ 2)) + h ^ 3 * κ ^ 2 / 2 * ((N - 2) * (N ^ 2 + 2 * N - 9) / N ^ 3)) * h6
    simp only [← trapezoid_parabola hh.ne' _ _ hn] at this
    rw [e1] at this
    exact this

theorem pathVar_aux {κ y : ℝ} (hκ0 : 0 < κ) (hκ1 : κ ≤ 1 / 4) (hy0 : 0 < y) (hy1 : y ≤ 1 / 2) :
    |-6 * κ * (y - 2 * y ^ 2) + 3 * κ ^ 2 * (-13 * y ^ 2 + 18 * y ^ 3)| ≤ 4 * y := by
  have q1 : y ^ 2 ≤ 1 / 2 * y := by nlinarith
  have q3 : 0 < y ^ 2 := by positivity
  have q4 : 0 < y ^ 3 := by positivity
  have q2 : y ^ 3 ≤ 1 / 4 * y := by
    have : y ^ 3 = y ^ 2 * y := by ring
    nlinarith
  have p1 : 0 ≤ κ * (y - 2 * y ^ 2) := mul_nonneg hκ0.le (by linarith)
  have p2 : κ * (y - 2 * y ^ 2) ≤ 1 / 4 * y := mul_le_mul hκ1 (by linarith) (by linarith) (by norm_num)
  have p3 : |(-13 * y ^ 2 + 18 * y ^ 3)| ≤ 13 * y := by
    rw [abs_le]
    constructor <;> linarith
  have p4 : κ ^ 2 ≤ 1 / 16 := by nlinarith
  have p5 : |3 * κ ^ 2 * (-13 * y ^ 2 + 18 * y ^ 3)| ≤ 3 * (1 / 16) * (13 * y) := by
    rw [abs_mul, abs_of_nonneg (by positivity : 0 ≤ 3 * κ ^ 2)]
    exact mul_le_mul (by linarith) p3 (abs_nonneg _) (by norm_num)
  obtain ⟨p6, p7⟩ := abs_le.mp p5
  rw [abs_le]
  constructor <;> linarith

/-- C135: the variances differ from the asserted `h ** 3 / 3` by a term in `1/n²` that comes from the trapezoidal rule and, for
`get_approx_and_brownian`, by a term in `1/N`. -/
theorem C135_error {h : ℝ} (hh : 0 < h) {N n : ℕ} (hN : 2 ≤ N) (hn : 2 ≤ n) :
    |pathVar h n - h ^ 3 / 3| ≤ h ^ 3 / n ^ 2 ∧ |pathVarBrownian h N n - h ^ 3 / 3| ≤ h ^ 3 / n ^ 2 + 4 * h ^ 3 / N := by
  have hn' : (2 : ℝ) ≤ n := by exact_mod_cast hn
  have hN' : (2 : ℝ) ≤ N := by exact_mod_cast hN
  obtain ⟨x, hx⟩ : ∃ x : ℝ, x = 1 / n ^ 2 := ⟨_, rfl⟩
  obtain ⟨y, hy⟩ : ∃ y : ℝ, y = 1 / N := ⟨_, rfl⟩
  have hx0 : 0 < x := by rw [hx]; positivity
  have hy0 : 0 < y := by rw [hy]; positivity
  have hx1 : x ≤ 1 / 4 := by
    rw [hx, div_le_div_iff₀ (by positivity) (by norm_num)]
    nlinarith
  have hy1 : y ≤ 1 / 2 := by
    rw [hy, div_le_div_iff₀ (by positivity) (by norm_num)]
    linarith
  have h3 : 0 < h ^ 3 := by positivity
  have e1 : pathVar h n = h ^ 3 * (1 / 4 + 3 * (1 / 6 + x / 3) ^ 2) := by rw [pathVar, hx]; field_simp
  have e2 : pathVarBrownian h N n = h ^ 3 * (1 / 4 - 6 * (1 / 6 + x / 3) * (y - 2 * y ^ 2) +
      3 * (1 / 6 + x / 3) ^ 2 * (1 - 13 * y ^ 2 + 18 * y ^ 3)) := by
    rw [pathVarBrownian, hx, hy]
    field_simp
    ring
  have e3 : h ^ 3 / n ^ 2 = h ^ 3 * x := by rw [hx]; ring
  have e4 : 4 * h ^ 3 / N = h ^ 3 * (4 * y) := by rw [hy]; ring
  have a1 : |1 / 4 + 3 * (1 / 6 + x / 3) ^ 2 - 1 / 3| ≤ x := by
    rw [abs_le]
    constructor <;> nlinarith
  obtain ⟨κ, hκ⟩ : ∃ κ : ℝ, κ = 1 / 6 + x / 3 := ⟨_, rfl⟩
  have hκ0 : 0 < κ := by rw [hκ]; positivity
  have hκ1 : κ ≤ 1 / 4 := by rw [hκ]; linarith
  have a2 := pathVar_aux hκ0 hκ1 hy0 hy1
  rw [e1, e2, e3, e4, ← mul_add]
  refine ⟨?_, ?_⟩
  · rw [show h ^ 3 * (1 / 4 + 3 * (1 / 6 + x / 3) ^ 2) - h ^ 3 / 3 = h ^ 3 * (1 / 4 + 3 * (1 / 6 + x / 3) ^ 2 - 1 / 3) by ring, abs_mul,
      abs_of_pos h3]
    exact mul_le_mul_of_nonneg_left a1 h3.le
  · rw [← hκ] at a1 ⊢
    rw [show h ^ 3 * (1 / 4 - 6 * κ * (y - 2 * y ^ 2) + 3 * κ ^ 2 * (1 - 13 * y ^ 2 + 18 * y ^ 3)) - h ^ 3 / 3 =
      h ^ 3 * ((1 / 4 + 3 * κ ^ 2 - 1 / 3) + (-6 * κ * (y - 2 * y ^ 2) + 3 * κ ^ 2 * (-13 * y ^ 2 + 18 * y ^ 3))) by ring, abs_mul,
      abs_of_pos h3]
    exact mul_le_mul_of_nonneg_left ((abs_add_le _ _).trans (add_le_add a1 a2)) h3.le

theorem pathVar_tolerance {N n : ℕ} (hN : 1000 ≤ N) (hn : 500 ≤ n) (dim : ℕ) (i j : Fin dim) :
    |(pathVar 0.5 n • (1 : Mat dim dim)) i j - (((0.5 : ℝ) ^ 3 / 3) • (1 : Mat dim dim)) i j| < 1.5e-3 ∧
    |(pathVarBrownian 0.5 N n • (1 : Mat dim dim)) i j - (((0.5 : ℝ) ^ 3 / 3) • (1 : Mat dim dim)) i j| < 1.5e-3 := by
  have hn' : (500 : ℝ) ≤ n := by exact_mod_cast hn
  have hN' : (1000 : ℝ) ≤ N := by exact_mod_cast hN
  obtain ⟨h1, h2⟩ := C135_error (h := 0.5) (by norm_num) (show 2 ≤ N by omega) (show 2 ≤ n by omega)
  have b1 : (0.5 : ℝ) ^ 3 / n ^ 2 ≤ 0.5 ^ 3 / 500 ^ 2 := by gcongr
  have b2 : 4 * (0.5 : ℝ) ^ 3 / N ≤ 4 * 0.5 ^ 3 / 1000 := by gcongr
  norm_num at b1 b2 h1 h2 ⊢
  by_cases hij : i = j
  · subst hij
    simp only [Matrix.smul_apply, Matrix.one_apply_eq, smul_eq_mul, mul_one]
    constructor <;> linarith
  · simp only [Matrix.smul_apply, Matrix.one_apply_ne hij, smul_eq_mul, mul_zero]
    norm_num

/-- C135: with the parameters of the test, or finer, the mean of the trapezoidal sum is the asserted one and every entry of the covariance is
within the tolerance of `decimal=3` of the entry of `h ** 3 / 3 * identity`. -/
theorem C135_tolerance (hR : IdealNormals P R) (dim N N' : ℕ) (hN : 1000 ≤ N) (hN' : 2 ≤ N') (key : Key) {n : ℕ} (hn : 500 ≤ n) (X : Ω → Vec dim)
    (hX : X = (fun ω => TestFoster.pathIntegral (getApprox dim) (R ω) key 0.5 n) ∨
      X = (fun ω => TestFoster.pathIntegral (getApproxFine dim N') (R ω) key 0.5 n) ∨
      X = fun ω => TestFoster.pathIntegral (getApproxAndBrownian dim N) (R ω) key 0.5 n) (i j : Fin dim) :
    ∫ ω, X ω i ∂P = 0 ∧ |cov[fun ω => X ω i, fun ω => X ω j; P] - (((0.5 : ℝ) ^ 3 / 3) • (1 : Mat dim dim)) i j| < 1.5e-3 := by
  obtain ⟨_, h2, _⟩ := C135_path_integral hR dim N' hN' key (h := 0.5) (by norm_num) (show 0 < n by omega)
  obtain ⟨h1, _, h3⟩ := C135_path_integral hR dim N (by omega) key (h := 0.5) (by norm_num) (show 0 < n by omega)
  obtain ⟨t1, t2⟩ := pathVar_tolerance hN hn dim i j
  rcases hX with rfl | rfl | rfl
  · exact ⟨h1.mean i, by rw [h1.cov]; exact t1⟩
  · exact ⟨h2.mean i, by rw [h2.cov]; exact t1⟩
  · exact ⟨h3.mean i, by rw [h3.cov]; exact t2⟩

/-- The normals of the example below exist; the law is not degenerate. -/
example : IsNormal (drawsMeasure) (fun ω => TestFoster.pathIntegral (getApprox 2) (drawsRng ω) [] 0.5 500) 0 (pathVar 0.5 500 • (1 : Mat 2 2)) :=
  (C135_path_integral idealNormals_drawsRng 2 1000 (by norm_num) _ (by norm_num) (by norm_num)).1

end Verif
