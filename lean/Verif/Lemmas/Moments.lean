import Mathlib.Probability.Independence.Integration
import Mathlib.Probability.Distributions.Gaussian.Real
import Mathlib.Algebra.MvPolynomial.Basic
import Mathlib.Algebra.Polynomial.Inductions
import Mathlib.Topology.Algebra.Polynomial
import Verif.Lemmas.Gaussian

/-!
# Helper lemmas: expectations of products over independent groups, and of polynomials in two independent normals
-/

namespace Verif

open MeasureTheory ProbabilityTheory Filter Topology

variable {Ω : Type*} [MeasurableSpace Ω] {P : Measure Ω}

/-- The expectation of a product of functions of disjoint groups of independent variables. -/
theorem integral_prod_groups {κ : Type} [Fintype κ] {X : ℕ × κ → Ω → ℝ} (hX : iIndepFun X P) (hm : ∀ p, AEMeasurable (X p) P)
    (g : (κ → ℝ) → ℝ) (hg : Measurable g) (hint : ∀ k, Integrable (fun ω => g fun j => X (k, j) ω) P) (n : ℕ) :
    Integrable (fun ω => ∏ k ∈ Finset.range n, g fun j => X (k, j) ω) P ∧
      ∫ ω, ∏ k ∈ Finset.range n, g (fun j => X (k, j) ω) ∂P = ∏ k ∈ Finset.range n, ∫ ω, g (fun j => X (k, j) ω) ∂P := by
  classical
  have hP := hX.isProbabilityMeasure
  induction n with
  | zero => simp
  | succ n ih =>
    have hST : Disjoint (Finset.range n ×ˢ (Finset.univ : Finset κ)) ({n} ×ˢ (Finset.univ : Finset κ)) := by
      rw [Finset.disjoint_left]
      rintro ⟨a, b⟩ h1 h2
      simp only [Finset.mem_product, Finset.mem_range, Finset.mem_univ, and_true, Finset.mem_singleton] at h1 h2
      omega
    have hi := hX.indepFun_finset₀ _ _ hST hm
    let φ : ((p : (Finset.range n ×ˢ (Finset.univ : Finset κ) : Finset (ℕ × κ))) → ℝ) → ℝ :=
      fun z => ∏ k ∈ (Finset.range n).attach, g fun j => z ⟨(k.1, j), by simpa using k.2⟩
    let ψ : ((p : ({n} ×ˢ (Finset.univ : Finset κ) : Finset (ℕ × κ))) → ℝ) → ℝ := fun z => g fun j => z ⟨(n, j), by simp⟩
    have hφ : Measurable φ := Finset.measurable_fun_prod _ fun k _ => hg.comp (measurable_pi_lambda _ fun j => measurable_pi_apply _)
    have hψ : Measurable ψ := hg.comp (measurable_pi_lambda _ fun j => measurable_pi_apply _)
    have hi2 := hi.comp hφ hψ
    have e1 : (φ ∘ fun (ω : Ω) (p : (Finset.range n ×ˢ (Finset.univ : Finset κ) : Finset (ℕ × κ))) => X p ω) =
        fun ω => ∏ k ∈ Finset.range n, g fun j => X (k, j) ω := by
      funext ω
      exact Finset.prod_attach (Finset.range n) fun k => g fun j => X (k, j) ω
    rw [e1] at hi2
    replace hi2 : IndepFun (fun ω => ∏ k ∈ Finset.range n, g fun j => X (k, j) ω) (fun ω => g fun j => X (n, j) ω) P := hi2
    refine ⟨?_, ?_⟩
    · simp only [Finset.prod_range_succ]
      exact hi2.integrable_mul ih.1 (hint n)
    · simp only [Finset.prod_range_succ]
      rw [← ih.2]
      exact hi2.integral_fun_mul_eq_mul_integral ih.1.aestronglyMeasurable (hint n).aestronglyMeasurable

/-! ## Polynomials in two independent standard normals -/

theorem integrable_pow_std {ξ : Ω → ℝ} (hξ : HasLaw ξ (gaussianReal 0 1) P) (n : ℕ) : Integrable (fun ω => ξ ω ^ n) P := by
  have h1 : Integrable (fun x : ℝ => x ^ n) (gaussianReal 0 1) := by
    rcases Nat.eq_zero_or_pos n with rfl | hn
    · simp
    · have h := (memLp_id_gaussianReal (μ := 0) (v := 1) (n : NNReal)).integrable_norm_pow (p := n) hn.ne'
      refine h.congr' (by fun_prop) ?_
      filter_upwards with x
      simp
  rw [← hξ.map_eq] at h1
  exact (integrable_map_measure h1.aestronglyMeasurable hξ.aemeasurable).mp h1

theorem integral_sq_std {ξ : Ω → ℝ} (hξ : HasLaw ξ (gaussianReal 0 1) P) : ∫ ω, ξ ω * ξ ω ∂P = 1 := by
  have h := hξ.variance_eq
  have hp := hξ.isProbabilityMeasure
  rw [variance_eq_sub (hξ.hasGaussianLaw.memLp_two), hξ.integral_eq] at h
  simp [pow_two] at h
  exact h

section
variable {ξ ζ : Ω → ℝ} (hξ : HasLaw ξ (gaussianReal 0 1) P) (hζ : HasLaw ζ (gaussianReal 0 1) P) (hi : IndepFun ξ ζ P)
include hξ hζ hi

theorem integrable_mvPoly (p : MvPolynomial (Fin 2) ℝ) : Integrable (fun ω => MvPolynomial.eval ![ξ ω, ζ ω] p) P := by
  simp only [MvPolynomial.eval_eq', Fin.prod_univ_two, Matrix.cons_val_zero, Matrix.cons_val_one]
  refine integrable_finsetSum _ fun d _ => Integrable.const_mul ?_ _
  exact (hi.comp (measurable_id.pow_const (d 0)) (measurable_id.pow_const (d 1))).integrable_mul
    (integrable_pow_std hξ _) (integrable_pow_std hζ _)

/-- The expectation of `p(ξ, ζ)`, as a linear form on polynomials. -/
noncomputable def polyMean : MvPolynomial (Fin 2) ℝ →ₗ[ℝ] ℝ where
  toFun p := ∫ ω, MvPolynomial.eval ![ξ ω, ζ ω] p ∂P
  map_add' p q := by
    simp only [map_add]
    exact integral_add (integrable_mvPoly hξ hζ hi p) (integrable_mvPoly hξ hζ hi q)
  map_smul' c p := by
    simp only [MvPolynomial.smul_eval, RingHom.id_apply, smul_eq_mul]
    exact integral_const_mul c _

theorem polyMean_apply (p : MvPolynomial (Fin 2) ℝ) :
    polyMean hξ hζ hi p = ∫ ω, MvPolynomial.eval ![ξ ω, ζ ω] p ∂P := rfl

theorem polyMean_C (c : ℝ) : polyMean hξ hζ hi (MvPolynomial.C c) = c := by
  have := hξ.isProbabilityMeasure
  rw [polyMean_apply]
  simp

theorem polyMean_lin (a b : ℝ) :
    polyMean hξ hζ hi (MvPolynomial.C a * MvPolynomial.X 0 + MvPolynomial.C b * MvPolynomial.X 1) = 0 := by
  rw [polyMean_apply]
  simp only [map_add, map_mul, MvPolynomial.eval_C, MvPolynomial.eval_X, Matrix.cons_val_zero, Matrix.cons_val_one]
  rw [integral_add (hξ.hasGaussianLaw.integrable.const_mul _) (hζ.hasGaussianLaw.integrable.const_mul _), integral_const_mul,
    integral_const_mul, hξ.integral_eq, hζ.integral_eq]
  simp

theorem polyMean_bilin (a b c d : ℝ) :
    polyMean hξ hζ hi ((MvPolynomial.C a * MvPolynomial.X 0 + MvPolynomial.C b * MvPolynomial.X 1) *
      (MvPolynomial.C c * MvPolynomial.X 0 + MvPolynomial.C d * MvPolynomial.X 1)) = a * c + b * d := by
  have e : ((MvPolynomial.C a * MvPolynomial.X 0 + MvPolynomial.C b * MvPolynomial.X 1) *
      (MvPolynomial.C c * MvPolynomial.X 0 + MvPolynomial.C d * MvPolynomial.X 1) : MvPolynomial (Fin 2) ℝ) =
      (a * c) • (MvPolynomial.X 0 * MvPolynomial.X 0) + (b * d) • (MvPolynomial.X 1 * MvPolynomial.X 1) +
        (a * d + b * c) • (MvPolynomial.X 0 * MvPolynomial.X 1) := by
    simp only [MvPolynomial.smul_eq_C_mul, map_add, map_mul]
    ring
  have h0 : polyMean hξ hζ hi (MvPolynomial.X 0 * MvPolynomial.X 0) = 1 := by
    rw [polyMean_apply]
    simp only [map_mul, MvPolynomial.eval_X, Matrix.cons_val_zero]
    exact integral_sq_std hξ
  have h1 : polyMean hξ hζ hi (MvPolynomial.X 1 * MvPolynomial.X 1) = 1 := by
    rw [polyMean_apply]
    simp only [map_mul, MvPolynomial.eval_X, Matrix.cons_val_one, Matrix.cons_val_fin_one]
    exact integral_sq_std hζ
  have h2 : polyMean hξ hζ hi (MvPolynomial.X 0 * MvPolynomial.X 1) = 0 := by
    rw [polyMean_apply]
    simp only [map_mul, MvPolynomial.eval_X, Matrix.cons_val_zero, Matrix.cons_val_one]
    rw [hi.integral_fun_mul_eq_mul_integral hξ.hasGaussianLaw.integrable.aestronglyMeasurable
      hζ.hasGaussianLaw.integrable.aestronglyMeasurable, hξ.integral_eq]
    simp
  rw [e, map_add, map_add, map_smul, map_smul, map_smul, h0, h1, h2]
  simp

/-- The expectation of a polynomial in `ε` whose coefficients are polynomials in `ξ, ζ` is the polynomial of expectations. -/
theorem exists_mean_poly (q : Polynomial (MvPolynomial (Fin 2) ℝ)) :
    (∀ ε : ℝ, Integrable (fun ω => q.eval₂ (MvPolynomial.eval ![ξ ω, ζ ω]) ε) P) ∧
    ∃ r : Polynomial ℝ, (∀ i, r.coeff i = polyMean hξ hζ hi (q.coeff i)) ∧
      ∀ ε : ℝ, ∫ ω, q.eval₂ (MvPolynomial.eval ![ξ ω, ζ ω]) ε ∂P = r.eval ε := by
  simp only [Polynomial.eval₂_eq_sum_range]
  refine ⟨fun ε => integrable_finsetSum _ fun i _ => (integrable_mvPoly hξ hζ hi _).mul_const _,
    ∑ i ∈ Finset.range (q.natDegree + 1), Polynomial.monomial i (polyMean hξ hζ hi (q.coeff i)), fun i => ?_, fun ε => ?_⟩
  · simp only [Polynomial.finset_sum_coeff, Polynomial.coeff_monomial]
    rw [Finset.sum_ite_eq']
    split_ifs with h
    · rfl
    · rw [Polynomial.coeff_eq_zero_of_natDegree_lt (by simpa [Nat.lt_succ_iff] using h), map_zero]
  · rw [integral_finsetSum _ fun i _ => (integrable_mvPoly hξ hζ hi _).mul_const _, Polynomial.eval_finset_sum]
    refine Finset.sum_congr rfl fun i _ => ?_
    rw [integral_mul_const, Polynomial.eval_monomial]
    rfl

end

/-- If `r(ε) = 1 + c ε² + O(ε³)` then `r(√(T/N))^N` tends to `exp (c T)`. -/
theorem tendsto_poly_pow (r : Polynomial ℝ) (h0 : r.coeff 0 = 1) (h1 : r.coeff 1 = 0) {T : ℝ} (hT : 0 ≤ T) :
    Tendsto (fun N : ℕ => r.eval (Real.sqrt (T / N)) ^ N) atTop (𝓝 (Real.exp (r.coeff 2 * T))) := by
  set s := r.divX.divX with hs
  have hr : ∀ ε, r.eval ε = 1 + ε ^ 2 * s.eval ε := fun ε => by
    have e1 := congrArg (Polynomial.eval ε) (Polynomial.divX_mul_X_add r)
    have e2 := congrArg (Polynomial.eval ε) (Polynomial.divX_mul_X_add r.divX)
    simp only [Polynomial.eval_add, Polynomial.eval_mul, Polynomial.eval_X, Polynomial.eval_C, Polynomial.coeff_divX, h0, h1,
      zero_add] at e1 e2
    rw [← e1, ← e2]
    ring
  have hs0 : s.eval 0 = r.coeff 2 := by
    rw [← Polynomial.coeff_zero_eq_eval_zero, hs, Polynomial.coeff_divX, Polynomial.coeff_divX]
  simp only [hr]
  refine Real.tendsto_one_add_pow_exp_of_tendsto ?_
  have hd : Tendsto (fun N : ℕ => Real.sqrt (T / N)) atTop (𝓝 0) := by
    have := (tendsto_const_div_atTop_nhds_zero_nat T).sqrt
    simpa using this
  have h2 : Tendsto (fun N : ℕ => T * s.eval (Real.sqrt (T / N))) atTop (𝓝 (T * s.eval 0)) :=
    ((s.continuous.tendsto 0).comp hd).const_mul T
  rw [hs0, mul_comm T] at h2
  refine h2.congr' ?_
  filter_upwards [eventually_gt_atTop 0] with N hN
  have hN' : (0 : ℝ) < N := by exact_mod_cast hN
  rw [Real.sq_sqrt (by positivity)]
  field_simp

end Verif
