import Verif.Lemmas.LinTrap
import Verif.Lemmas.Foster
import Mathlib.Topology.Algebra.MvPolynomial

/-!
# Helper lemmas: Euler steps on a scalar linear equation, as a polynomial in the square root of the step, and growth factors in general
-/

namespace Verif

open MeasureTheory ProbabilityTheory Spec

namespace LinEuler

open LinTrap (u w)

/-- The growth factor of `n` of `M` Euler steps, as a polynomial. -/
noncomputable def y (μ s : ℝ) (M : ℕ) : ℕ → Polynomial (MvPolynomial (Fin 2) ℝ)
  | 0 => 1
  | n + 1 => y μ s M n + u μ s M n * y μ s M n

open MvPolynomial in
/-- The left Riemann sum of the slopes of the parabola. -/
noncomputable def W (M n : ℕ) : MvPolynomial (Fin 2) ℝ :=
  C (n / M : ℝ) * X 0 + C (Real.sqrt 3 * (n / M * (1 - (n - 1) / M))) * X 1

theorem coeff_y (μ s : ℝ) {M : ℕ} (hM : 0 < M) (n : ℕ) :
    (y μ s M n).coeff 0 = 1 ∧ (y μ s M n).coeff 1 = MvPolynomial.C s * W M n := by
  have hM' : (M : ℝ) ≠ 0 := by exact_mod_cast hM.ne'
  induction n with
  | zero => simp [y, Polynomial.coeff_one, W]
  | succ n ih =>
    have h := LinTrap.coeff_u_mul μ s M n (y μ s M n)
    rw [y, Polynomial.coeff_add, Polynomial.coeff_add, h.1, h.2.1, ih.1, ih.2]
    refine ⟨by simp, ?_⟩
    have c1 : (MvPolynomial.C (((n + 1 : ℕ) : ℝ) / M) : MvPolynomial (Fin 2) ℝ) = MvPolynomial.C (n / M : ℝ) + MvPolynomial.C (1 / M : ℝ) := by
      rw [← map_add]
      congr 1
      push_cast
      ring
    have c2 : (MvPolynomial.C (Real.sqrt 3 * (((n + 1 : ℕ) : ℝ) / M * (1 - (((n + 1 : ℕ) : ℝ) - 1) / M))) : MvPolynomial (Fin 2) ℝ) =
        MvPolynomial.C (Real.sqrt 3 * (n / M * (1 - (n - 1) / M))) + MvPolynomial.C (Real.sqrt 3 * (1 - 2 * (n / M)) / M) := by
      rw [← map_add]
      congr 1
      push_cast
      field_simp
      ring
    rw [W, W, w, c1, c2]
    ring

variable {Ω : Type*} [MeasurableSpace Ω] {P : Measure Ω} {ξ ζ : Ω → ℝ} (hξ : HasLaw ξ (gaussianReal 0 1) P)
  (hζ : HasLaw ζ (gaussianReal 0 1) P) (hi : IndepFun ξ ζ P)

/-- The expectation of the coefficient of `ε²` of the growth factor after `n` of `M` steps. -/
theorem mean_y2 (μ s : ℝ) {M : ℕ} (hM : 0 < M) (n : ℕ) :
    polyMean hξ hζ hi ((y μ s M n).coeff 2) = μ * (n / M) + s ^ 2 * (((n / M) ^ 2 + 3 * (n / M * (1 - (n - 1) / M)) ^ 2 - n / M ^ 2 -
      3 / M ^ 2 * (n - 2 * n * (n - 1) / M + 2 / 3 * (n - 1) * n * (2 * n - 1) / M ^ 2)) / 2) := by
  have hM' : (M : ℝ) ≠ 0 := by exact_mod_cast hM.ne'
  induction n with
  | zero => simp [y, Polynomial.coeff_one]
  | succ n ih =>
    have h := LinTrap.coeff_u_mul μ s M n (y μ s M n)
    rw [y, Polynomial.coeff_add, map_add, ih, h.2.2, (coeff_y μ s hM n).1, (coeff_y μ s hM n).2]
    have e : MvPolynomial.C (μ / M) * 1 + MvPolynomial.C s * w M n * (MvPolynomial.C s * W M n) =
        MvPolynomial.C (μ / M) + (s ^ 2 : ℝ) • (w M n * W M n) := by
      rw [MvPolynomial.smul_eq_C_mul, map_pow]
      ring
    rw [e, map_add, map_smul, polyMean_C, w, W, polyMean_bilin]
    have h3 : Real.sqrt 3 * Real.sqrt 3 = 3 := Real.mul_self_sqrt (by norm_num)
    have e3 : ∀ a b : ℝ, Real.sqrt 3 * a / M * (Real.sqrt 3 * b) = 3 * a / M * b := fun a b => by
      linear_combination (a / M * b) * h3
    rw [smul_eq_mul, e3]
    push_cast
    field_simp
    ring

/-- The expectation of the square of the coefficient of `ε`. -/
theorem mean_W2 {M : ℕ} (n : ℕ) : polyMean hξ hζ hi (W M n * W M n) = (n / M : ℝ) ^ 2 + 3 * (n / M * (1 - (n - 1) / M)) ^ 2 := by
  have h3 : Real.sqrt 3 ^ 2 = 3 := Real.sq_sqrt (by norm_num)
  rw [W, polyMean_bilin]
  linear_combination (n / M * (1 - (n - 1) / M) : ℝ) ^ 2 * h3

end LinEuler

/-- The coefficients up to order two of the square of a polynomial with constant term one. -/
theorem coeff_sq {A : Type*} [CommRing A] (q : Polynomial A) (h0 : q.coeff 0 = 1) :
    (q ^ 2).coeff 0 = 1 ∧ (q ^ 2).coeff 1 = 2 * q.coeff 1 ∧ (q ^ 2).coeff 2 = 2 * q.coeff 2 + q.coeff 1 * q.coeff 1 := by
  rw [pow_two]
  refine ⟨by rw [Polynomial.mul_coeff_zero, h0, mul_one], ?_, ?_⟩
  · rw [Polynomial.coeff_mul, Finset.Nat.sum_antidiagonal_eq_sum_range_succ_mk]
    simp [Finset.sum_range_succ, h0]
    ring
  · rw [Polynomial.coeff_mul, Finset.Nat.sum_antidiagonal_eq_sum_range_succ_mk]
    simp [Finset.sum_range_succ, h0]
    ring

/-- A growth factor given by a polynomial in `√δ` and in the two normals of interval `k`. -/
noncomputable def polyGrowth (q : Polynomial (MvPolynomial (Fin 2) ℝ)) (rng : Rng) (key : Key) (δ : ℝ) (N k : ℕ) : ℝ :=
  q.eval₂ (MvPolynomial.eval ![rng.normalMat ((key.child N k).child 2 0) 2 1 0 0,
    rng.normalMat ((key.child N k).child 2 0) 2 1 1 0]) (Real.sqrt δ)

/-- The mean of the product of the growth factors is a power of a polynomial in `√δ` that does not depend on the interval. -/
theorem polyGrowth_mean {Ω : Type*} [MeasurableSpace Ω] {P : Measure Ω} {R : Ω → Rng} (hR : IdealNormals P R) (key : Key)
    (q : Polynomial (MvPolynomial (Fin 2) ℝ)) :
    ∃ (ξ ζ : Ω → ℝ) (hξ : HasLaw ξ (gaussianReal 0 1) P) (hζ : HasLaw ζ (gaussianReal 0 1) P) (hi : IndepFun ξ ζ P) (r : Polynomial ℝ),
      (∀ i, r.coeff i = polyMean hξ hζ hi (q.coeff i)) ∧
      ∀ (δ : ℝ) (N k : ℕ), Integrable (fun ω => ∏ i ∈ Finset.range k, polyGrowth q (R ω) key δ N i) P ∧
        ∫ ω, ∏ i ∈ Finset.range k, polyGrowth q (R ω) key δ N i ∂P = r.eval (Real.sqrt δ) ^ k := by
  have hb : ∀ k : Key, HasLaw (fun ω => (R ω).normalMat k 2 1 0 0) (gaussianReal 0 1) P ∧
      HasLaw (fun ω => (R ω).normalMat k 2 1 1 0) (gaussianReal 0 1) P ∧
      IndepFun (fun ω => (R ω).normalMat k 2 1 0 0) (fun ω => (R ω).normalMat k 2 1 1 0) P := fun k => by
    have hi := hR.indep_mats (ι := Unit) (fun _ => k) (fun a b h => (h (Subsingleton.elim a b)).elim) 2 1
    exact ⟨hR.law_mat k 0 0, hR.law_mat k 1 0, hi.indepFun (i := ((), 0, 0)) (j := ((), 1, 0)) (by simp)⟩
  have hr : ∀ k : Key, _ := fun k => (exists_mean_poly (hb k).1 (hb k).2.1 (hb k).2.2 q).2
  have hri : ∀ k : Key, _ := fun k => (exists_mean_poly (hb k).1 (hb k).2.1 (hb k).2.2 q).1
  have hlaw : ∀ (k k' : Key) (g : MvPolynomial (Fin 2) ℝ),
      ∫ ω, MvPolynomial.eval ![(R ω).normalMat k 2 1 0 0, (R ω).normalMat k 2 1 1 0] g ∂P =
      ∫ ω, MvPolynomial.eval ![(R ω).normalMat k' 2 1 0 0, (R ω).normalMat k' 2 1 1 0] g ∂P := fun k k' g => by
    have e : ∀ k : Key, ∫ ω, MvPolynomial.eval ![(R ω).normalMat k 2 1 0 0, (R ω).normalMat k 2 1 1 0] g ∂P =
        ∫ z, MvPolynomial.eval ![z.1, z.2] g ∂((gaussianReal 0 1).prod (gaussianReal 0 1)) := fun k => by
      have := (hb k).1.isProbabilityMeasure
      have h1 := (indepFun_iff_map_prod_eq_prod_map_map (hb k).1.aemeasurable (hb k).2.1.aemeasurable).mp (hb k).2.2
      rw [(hb k).1.map_eq, (hb k).2.1.map_eq] at h1
      rw [← h1, integral_map ((hb k).1.aemeasurable.prodMk (hb k).2.1.aemeasurable)]
      have hm : Measurable fun z : ℝ × ℝ => MvPolynomial.eval ![z.1, z.2] g :=
        (MvPolynomial.continuous_eval g).measurable.comp (measurable_pi_lambda _ fun i => by
          fin_cases i
          · exact measurable_fst
          · exact measurable_snd)
      exact hm.aestronglyMeasurable
    rw [e, e]
  obtain ⟨r, hr1, hr2⟩ := hr []
  have hall : ∀ (k : Key) (ε : ℝ), ∫ ω, q.eval₂
      (MvPolynomial.eval ![(R ω).normalMat k 2 1 0 0, (R ω).normalMat k 2 1 1 0]) ε ∂P = r.eval ε := fun k ε => by
    obtain ⟨r', h1, h2⟩ := hr k
    have : r' = r := Polynomial.ext fun i => by rw [h1, hr1]; exact hlaw k [] _
    rw [h2, this]
  refine ⟨_, _, (hb []).1, (hb []).2.1, (hb []).2.2, r, hr1, fun δ N k => ?_⟩
  have hi := hR.indep_mats (ι := ℕ) (fun i => (key.child N i).child 2 0)
    (fun a b hab => ((Key.diverge_child key N a b hab).child_left 2 0).child_right 2 0) 2 1
  have h := integral_prod_groups (P := P) hi (fun p => (hR.law_mat _ _ _).aemeasurable)
    (fun z => q.eval₂ (MvPolynomial.eval ![z (0, 0), z (1, 0)]) (Real.sqrt δ)) ?_ (fun i => hri _ _) k
  · refine ⟨h.1, h.2.trans ?_⟩
    simp only [hall, Finset.prod_const, Finset.card_range]
  · simp only [Polynomial.eval₂_eq_sum_range]
    refine Finset.measurable_fun_sum _ fun i _ => Measurable.mul_const ?_ _
    refine (MvPolynomial.continuous_eval _).measurable.comp (measurable_pi_lambda _ fun i => ?_)
    fin_cases i
    · exact measurable_pi_apply _
    · exact measurable_pi_apply _

end Verif
