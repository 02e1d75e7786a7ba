import Verif.Lemmas.Moments
import Verif.Spec.Ekf

/-!
# Helper lemmas: the trapezoidal scheme on a scalar linear equation, as a polynomial in the square root of the step
-/

namespace Verif

open MeasureTheory ProbabilityTheory Spec

/-- The growth factors `(y_n, h v_n)` of the trapezoidal scheme on `x' = x a(t)`, with `u n = h a(n h)`, over any commutative
ring with an element `c` standing for one half. -/
def linTrap {A : Type*} [CommRing A] (c : A) (u : ℕ → A) : ℕ → A × A
  | 0 => (1, u 0)
  | n + 1 =>
    let y := (linTrap c u n).1
    let v := (linTrap c u n).2
    let v' := u (n + 1) * (y + v)
    (y + c * (v + v'), v')

theorem linTrap_map {A B : Type*} [CommRing A] [CommRing B] (f : A →+* B) (c : A) (u : ℕ → A) (n : ℕ) :
    (f (linTrap c u n).1, f (linTrap c u n).2) = linTrap (f c) (fun k => f (u k)) n := by
  induction n with
  | zero => simp [linTrap]
  | succ n ih =>
    simp only [linTrap, ← ih, map_add, map_mul]

/-- The trapezoidal scheme on a scalar linear equation. -/
theorem trapScheme_linear (a : ℝ → ℝ) {h : ℝ} (hh : h ≠ 0) (x : Vec 1) (n : ℕ) :
    trapScheme (fun z t => a t • z) h x n =
      ((linTrap (1 / 2) (fun k : ℕ => h * a (k * h)) n).1 • x, (h⁻¹ * (linTrap (1 / 2) (fun k : ℕ => h * a (k * h)) n).2) • x) := by
  induction n with
  | zero => simp [trapScheme, linTrap, hh]
  | succ n ih =>
    simp only [trapScheme, ih, linTrap]
    set y := (linTrap (1 / 2) (fun k : ℕ => h * a (k * h)) n).1
    set v := (linTrap (1 / 2) (fun k : ℕ => h * a (k * h)) n).2
    push_cast
    refine Prod.ext ?_ ?_
    · simp only
      rw [← smul_assoc, ← add_smul, ← smul_assoc, ← add_smul, ← smul_assoc, ← add_smul]
      congr 1
      simp only [smul_eq_mul]
      field_simp
    · simp only
      rw [← smul_assoc, ← add_smul, ← smul_assoc]
      congr 1
      simp only [smul_eq_mul]
      field_simp

namespace LinTrap

open MvPolynomial in
/-- `M √h W'(t_n) / M` in terms of the two standard normals of an interval: the slope of the parabola at node `n` of `M`. -/
noncomputable def w (M n : ℕ) : MvPolynomial (Fin 2) ℝ :=
  C (1 / M : ℝ) * X 0 + C (Real.sqrt 3 * (1 - 2 * (n / M)) / M) * X 1

open MvPolynomial in
/-- The value of the parabola at node `n`. -/
noncomputable def W (M n : ℕ) : MvPolynomial (Fin 2) ℝ :=
  C (n / M : ℝ) * X 0 + C (Real.sqrt 3 * (n / M) * (1 - n / M)) * X 1

open MvPolynomial in
/-- The increments `u_n` of the linear equation with drift `μ x` and diffusion `s x`, as polynomials in `ε = √h`. -/
noncomputable def u (μ s : ℝ) (M n : ℕ) : Polynomial (MvPolynomial (Fin 2) ℝ) :=
  Polynomial.C (C (μ / M)) * Polynomial.X ^ 2 + Polynomial.C (C s * w M n) * Polynomial.X

theorem coeff_u_mul (μ s : ℝ) (M n : ℕ) (q : Polynomial (MvPolynomial (Fin 2) ℝ)) :
    (u μ s M n * q).coeff 0 = 0 ∧ (u μ s M n * q).coeff 1 = MvPolynomial.C s * w M n * q.coeff 0 ∧
    (u μ s M n * q).coeff 2 = MvPolynomial.C (μ / M) * q.coeff 0 + MvPolynomial.C s * w M n * q.coeff 1 := by
  have e : u μ s M n * q = (Polynomial.C (MvPolynomial.C (μ / M)) * q) * Polynomial.X ^ 2 +
      (Polynomial.C (MvPolynomial.C s * w M n) * q) * Polynomial.X := by rw [u]; ring
  rw [e]
  refine ⟨?_, ?_, ?_⟩
  · simp [Polynomial.coeff_mul_X_pow']
  · rw [Polynomial.coeff_add, Polynomial.coeff_mul_X_pow', if_neg (by norm_num), zero_add,
      show (1 : ℕ) = 0 + 1 from rfl, Polynomial.coeff_mul_X, Polynomial.coeff_C_mul]
  · have h2 : ∀ p : Polynomial (MvPolynomial (Fin 2) ℝ), (p * Polynomial.X).coeff 2 = p.coeff 1 := fun p =>
      Polynomial.coeff_mul_X p 1
    rw [Polynomial.coeff_add, Polynomial.coeff_mul_X_pow', if_pos le_rfl, h2, Polynomial.coeff_C_mul, Polynomial.coeff_C_mul]

/-- The growth factor, as a polynomial. -/
noncomputable def y (μ s : ℝ) (M n : ℕ) : Polynomial (MvPolynomial (Fin 2) ℝ) × Polynomial (MvPolynomial (Fin 2) ℝ) :=
  linTrap (Polynomial.C (MvPolynomial.C (1 / 2))) (u μ s M) n

theorem coeff_y (μ s : ℝ) {M : ℕ} (hM : 0 < M) (n : ℕ) :
    (y μ s M n).1.coeff 0 = 1 ∧ (y μ s M n).2.coeff 0 = 0 ∧ (y μ s M n).2.coeff 1 = MvPolynomial.C s * w M n ∧
      (y μ s M n).1.coeff 1 = MvPolynomial.C s * W M n := by
  have hM' : (M : ℝ) ≠ 0 := by exact_mod_cast hM.ne'
  induction n with
  | zero =>
    have h := coeff_u_mul μ s M 0 1
    rw [mul_one] at h
    refine ⟨by simp [y, linTrap], h.1, by simpa [y, linTrap] using h.2.1, ?_⟩
    simp [y, linTrap, Polynomial.coeff_one, W]
  | succ n ih =>
    obtain ⟨h1, h2, h3, h4⟩ := ih
    have h := coeff_u_mul μ s M (n + 1) ((y μ s M n).1 + (y μ s M n).2)
    have hy : y μ s M (n + 1) = ((y μ s M n).1 + Polynomial.C (MvPolynomial.C (1 / 2)) *
      ((y μ s M n).2 + u μ s M (n + 1) * ((y μ s M n).1 + (y μ s M n).2)),
      u μ s M (n + 1) * ((y μ s M n).1 + (y μ s M n).2)) := rfl
    rw [hy]
    simp only [Polynomial.coeff_add, Polynomial.coeff_C_mul] at h ⊢
    rw [h.1, h.2.1, h1, h2, h3, h4]
    refine ⟨by simp, rfl, by simp, ?_⟩
    simp only [w, W, add_zero, mul_one]
    have c1 : (MvPolynomial.C (((n + 1 : ℕ) : ℝ) / M) : MvPolynomial (Fin 2) ℝ) = MvPolynomial.C (n / M : ℝ) +
        MvPolynomial.C (1 / 2 : ℝ) * (MvPolynomial.C (1 / M : ℝ) + MvPolynomial.C (1 / M : ℝ)) := by
      rw [← map_add, ← map_mul, ← map_add]
      congr 1
      push_cast
      ring
    have c2 : (MvPolynomial.C (Real.sqrt 3 * (((n + 1 : ℕ) : ℝ) / M) * (1 - ((n + 1 : ℕ) : ℝ) / M)) : MvPolynomial (Fin 2) ℝ) =
        MvPolynomial.C (Real.sqrt 3 * (n / M) * (1 - n / M)) + MvPolynomial.C (1 / 2 : ℝ) *
          (MvPolynomial.C (Real.sqrt 3 * (1 - 2 * (n / M)) / M) +
            MvPolynomial.C (Real.sqrt 3 * (1 - 2 * (((n + 1 : ℕ) : ℝ) / M)) / M)) := by
      rw [← map_add, ← map_mul, ← map_add]
      congr 1
      push_cast
      field_simp
      ring
    rw [c1, c2]
    ring

variable {Ω : Type*} [MeasurableSpace Ω] {P : Measure Ω} {ξ ζ : Ω → ℝ} (hξ : HasLaw ξ (gaussianReal 0 1) P)
  (hζ : HasLaw ζ (gaussianReal 0 1) P) (hi : IndepFun ξ ζ P)

theorem mean_v2_zero (μ s : ℝ) {M : ℕ} : polyMean hξ hζ hi ((y μ s M 0).2.coeff 2) = μ / M := by
  have h := coeff_u_mul μ s M 0 1
  rw [mul_one] at h
  have : (y μ s M 0).2.coeff 2 = (u μ s M 0).coeff 2 := rfl
  rw [this, h.2.2]
  simp [Polynomial.coeff_one, polyMean_C]

theorem mean_v2_succ (μ s : ℝ) {M : ℕ} (hM : 0 < M) (n : ℕ) :
    polyMean hξ hζ hi ((y μ s M (n + 1)).2.coeff 2) =
      μ / M + s ^ 2 * ((n + 1) / M + 3 * (1 - 2 * ((n + 1) / M)) * ((n + 1) / M * (1 - (n + 1) / M) + 1 / M ^ 2)) / M := by
  have hM' : (M : ℝ) ≠ 0 := by exact_mod_cast hM.ne'
  obtain ⟨h1, h2, h3, h4⟩ := coeff_y μ s hM n
  have h := coeff_u_mul μ s M (n + 1) ((y μ s M n).1 + (y μ s M n).2)
  have hy : (y μ s M (n + 1)).2 = u μ s M (n + 1) * ((y μ s M n).1 + (y μ s M n).2) := rfl
  rw [hy, h.2.2, Polynomial.coeff_add, Polynomial.coeff_add, h1, h2, h3, h4]
  have e : MvPolynomial.C (μ / M) * (1 + 0) + MvPolynomial.C s * w M (n + 1) * (MvPolynomial.C s * W M n + MvPolynomial.C s * w M n) =
      MvPolynomial.C (μ / M) + (s ^ 2 : ℝ) • (w M (n + 1) * (MvPolynomial.C (n / M + 1 / M : ℝ) * MvPolynomial.X 0 +
        MvPolynomial.C (Real.sqrt 3 * (n / M) * (1 - n / M) + Real.sqrt 3 * (1 - 2 * (n / M)) / M) * MvPolynomial.X 1)) := by
    rw [MvPolynomial.smul_eq_C_mul, W]
    conv_lhs => rw [w.eq_1 M n]
    simp only [map_add, map_pow]
    ring
  rw [e, map_add, map_smul, polyMean_C, w, polyMean_bilin]
  have h3 : Real.sqrt 3 * Real.sqrt 3 = 3 := Real.mul_self_sqrt (by norm_num)
  push_cast
  have e3 : ∀ a b c : ℝ, Real.sqrt 3 * a / M * (Real.sqrt 3 * b * c + Real.sqrt 3 * (1 - 2 * b) / M) =
      3 * a / M * (b * c + (1 - 2 * b) / M) := fun a b c => by
    linear_combination (a / M * (b * c + (1 - 2 * b) / M)) * h3
  rw [smul_eq_mul, e3]
  field_simp
  ring

/-- The expectation of the coefficient of `ε²` of the growth factor after `n + 1` of `M` steps. -/
theorem mean_y2 (μ s : ℝ) {M : ℕ} (hM : 0 < M) (n : ℕ) :
    polyMean hξ hζ hi ((y μ s M (n + 1)).1.coeff 2) =
      μ * ((n + 1) / M) + s ^ 2 * (((n + 1) / M) ^ 2 / 2 + 3 / 2 * ((n + 1) / M) ^ 2 * (1 - (n + 1) / M) ^ 2 +
        3 / 2 * ((n + 1) / M) * (1 - (n + 1) / M) / M ^ 2 - 3 / (2 * M ^ 3)) := by
  have hM' : (M : ℝ) ≠ 0 := by exact_mod_cast hM.ne'
  have hy : ∀ n, (y μ s M (n + 1)).1 = (y μ s M n).1 + Polynomial.C (MvPolynomial.C (1 / 2)) *
      ((y μ s M n).2 + (y μ s M (n + 1)).2) := fun n => rfl
  have hs : ∀ n, polyMean hξ hζ hi ((y μ s M (n + 1)).1.coeff 2) = polyMean hξ hζ hi ((y μ s M n).1.coeff 2) +
      1 / 2 * (polyMean hξ hζ hi ((y μ s M n).2.coeff 2) + polyMean hξ hζ hi ((y μ s M (n + 1)).2.coeff 2)) := fun n => by
    rw [hy, Polynomial.coeff_add, Polynomial.coeff_C_mul, ← MvPolynomial.smul_eq_C_mul, map_add, map_smul,
      Polynomial.coeff_add, map_add]
    rfl
  induction n with
  | zero =>
    rw [hs, mean_v2_zero, mean_v2_succ hξ hζ hi μ s hM]
    have : (y μ s M 0).1.coeff 2 = 0 := by simp [y, linTrap, Polynomial.coeff_one]
    rw [this, map_zero]
    push_cast
    field_simp
    ring
  | succ n ih =>
    rw [hs, ih, mean_v2_succ hξ hζ hi μ s hM, mean_v2_succ hξ hζ hi μ s hM]
    push_cast
    field_simp
    ring

end LinTrap

end Verif
