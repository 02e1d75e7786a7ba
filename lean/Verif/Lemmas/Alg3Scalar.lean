import Mathlib.Analysis.SpecialFunctions.Trigonometric.Bounds
import Mathlib.Analysis.Calculus.MeanValue
import Mathlib.Analysis.SpecialFunctions.Trigonometric.Deriv
import Mathlib.Tactic

/-! One interval of Algorithm 3 with EKF1 for the scalar drift `-cos`: estimates of the gain, the covariance and the increment. -/

namespace Verif

open Real

/-- The sensitivity of the residual to the initial value. -/
def sE (h j0 j1 : ℝ) : ℝ := j0 - j1 * (1 + h * j0)

/-- The variance of the residual. -/
noncomputable def sS (h j0 j1 p : ℝ) : ℝ := sE h j0 j1 ^ 2 * p + h * (1 - h * j1 + h ^ 2 / 3 * j1 ^ 2)

/-- The covariance of the prediction with the residual. -/
noncomputable def sG (h j0 j1 p : ℝ) : ℝ := (1 + h * j0) * p * sE h j0 j1 + h ^ 2 / 2 - h ^ 3 / 3 * j1

/-- The gain. -/
noncomputable def sK (h j0 j1 p : ℝ) : ℝ := sG h j0 j1 p / sS h j0 j1 p

/-- The variance after the step. -/
noncomputable def sP (h j0 j1 p : ℝ) : ℝ := (1 + h * j0) ^ 2 * p + h ^ 3 / 3 - sG h j0 j1 p ^ 2 / sS h j0 j1 p

theorem sE_abs {h j0 j1 : ℝ} (hh : 0 < h) (h1 : h ≤ 1) (hj0 : |j0| ≤ 1) (hj1 : |j1| ≤ 1) : |sE h j0 j1| ≤ 3 := by
  have h2 : |h * j0| ≤ 1 := by
    rw [abs_mul, abs_of_pos hh]
    nlinarith [abs_nonneg j0]
  have h3 : |1 + h * j0| ≤ 2 := (abs_add_le _ _).trans (by rw [abs_one]; linarith)
  have h4 : |j1 * (1 + h * j0)| ≤ 2 := by
    rw [abs_mul]
    nlinarith [abs_nonneg j1, abs_nonneg (1 + h * j0)]
  exact (abs_sub _ _).trans (by linarith)

theorem sS_lower {h j0 j1 p : ℝ} (hh : 0 < h) (hp : 0 ≤ p) : h / 4 ≤ sS h j0 j1 p := by
  have h1 : 0 ≤ sE h j0 j1 ^ 2 * p := by positivity
  have h2 : 1 / 4 ≤ 1 - h * j1 + h ^ 2 / 3 * j1 ^ 2 := by nlinarith [sq_nonneg (h * j1 / 3 - 1 / 2)]
  have h3 := mul_le_mul_of_nonneg_left h2 hh.le
  rw [sS]
  linarith

/-- The gain, up to second order. -/
theorem sK_expansion {h j0 j1 p : ℝ} (hh : 0 < h) (h1 : h ≤ 1) (hj0 : |j0| ≤ 1) (hj1 : |j1| ≤ 1) (hp : 0 ≤ p) (hp1 : p ≤ h ^ 2) :
    |sK h j0 j1 p - h / 2 - p / h * sE h j0 j1| ≤ 164 * h ^ 2 := by
  have hE := sE_abs hh h1 hj0 hj1
  have hS := sS_lower (j0 := j0) (j1 := j1) hh hp
  have hS0 : 0 < sS h j0 j1 p := by linarith
  obtain ⟨q, hq⟩ : ∃ q, q = p / h ^ 2 := ⟨_, rfl⟩
  have hpq : p = h ^ 2 * q := by rw [hq]; field_simp
  have hq0 : 0 ≤ q := by rw [hq]; positivity
  have hq1 : q ≤ 1 := by rw [hq]; exact (div_le_one (by positivity)).mpr hp1
  have key : sK h j0 j1 p - h / 2 - p / h * sE h j0 j1 =
      h ^ 3 * (q * sE h j0 j1 * ((j0 + j1) - sE h j0 j1 ^ 2 * q - h * j1 ^ 2 / 3) + j1 / 6 - sE h j0 j1 ^ 2 * q / 2 - h * j1 ^ 2 / 6) /
        sS h j0 j1 p := by
    rw [eq_div_iff hS0.ne', sK]
    have : (sG h j0 j1 p / sS h j0 j1 p - h / 2 - p / h * sE h j0 j1) * sS h j0 j1 p =
        sG h j0 j1 p - (h / 2 + p / h * sE h j0 j1) * sS h j0 j1 p := by field_simp; ring
    rw [this, hpq, show h ^ 2 * q / h = h * q by field_simp]
    simp only [sS, sG]
    ring
  rw [key, abs_div, abs_of_pos hS0, div_le_iff₀ hS0]
  generalize sE h j0 j1 = e at *
  obtain ⟨he1, he2⟩ := abs_le.mp hE
  obtain ⟨ha1, ha2⟩ := abs_le.mp hj0
  obtain ⟨hb1, hb2⟩ := abs_le.mp hj1
  have he3 : e ^ 2 ≤ 9 := by nlinarith
  have hj12 : j1 ^ 2 ≤ 1 := by nlinarith
  have hj13 : 0 ≤ j1 ^ 2 := sq_nonneg _
  have t1 : |(j0 + j1) - e ^ 2 * q - h * j1 ^ 2 / 3| ≤ 12 := by
    have h2 : e ^ 2 * q ≤ 9 := by nlinarith
    have h3 : 0 ≤ e ^ 2 * q := by positivity
    have h4 : h * j1 ^ 2 ≤ 1 := by nlinarith
    have h5 : 0 ≤ h * j1 ^ 2 := by positivity
    rw [abs_le]
    constructor <;> linarith
  have t2 : |q * e| ≤ 3 := by rw [abs_mul, abs_of_nonneg hq0]; nlinarith [abs_nonneg e]
  have t3 : |q * e * ((j0 + j1) - e ^ 2 * q - h * j1 ^ 2 / 3)| ≤ 36 := by
    rw [abs_mul]
    calc |q * e| * |(j0 + j1) - e ^ 2 * q - h * j1 ^ 2 / 3| ≤ 3 * 12 := by gcongr
      _ = 36 := by norm_num
  have t4 : |q * e * ((j0 + j1) - e ^ 2 * q - h * j1 ^ 2 / 3) + j1 / 6 - e ^ 2 * q / 2 - h * j1 ^ 2 / 6| ≤ 40 + 1 := by
    have h2 : e ^ 2 * q ≤ 9 := by nlinarith
    have h3 : 0 ≤ e ^ 2 * q := by positivity
    have h4 : h * j1 ^ 2 ≤ 1 := by nlinarith
    have h5 : 0 ≤ h * j1 ^ 2 := by positivity
    obtain ⟨u1, u2⟩ := abs_le.mp t3
    rw [abs_le]
    constructor <;> linarith
  rw [abs_mul, abs_of_pos (by positivity : 0 < h ^ 3)]
  calc h ^ 3 * _ ≤ h ^ 3 * (40 + 1) := mul_le_mul_of_nonneg_left t4 (by positivity)
    _ = 164 * h ^ 2 * (h / 4) := by ring
    _ ≤ _ := mul_le_mul_of_nonneg_left hS (by positivity)

theorem sK_abs {h j0 j1 p : ℝ} (hh : 0 < h) (h1 : h ≤ 1) (hj0 : |j0| ≤ 1) (hj1 : |j1| ≤ 1) (hp : 0 ≤ p) (hp1 : p ≤ h ^ 2) :
    |sK h j0 j1 p| ≤ 168 * h := by
  have h2 := sK_expansion hh h1 hj0 hj1 hp hp1
  have h3 : |p / h * sE h j0 j1| ≤ h * 3 := by
    rw [abs_mul, abs_of_nonneg (by positivity : 0 ≤ p / h)]
    refine mul_le_mul ?_ (sE_abs hh h1 hj0 hj1) (abs_nonneg _) hh.le
    rw [div_le_iff₀ hh]
    linarith [sq h]
  have h4 : 164 * h ^ 2 ≤ 164 * h := by nlinarith
  obtain ⟨u1, u2⟩ := abs_le.mp h2
  obtain ⟨v1, v2⟩ := abs_le.mp h3
  rw [abs_le]
  constructor <;> linarith

theorem sP_upper {h j0 j1 p : ℝ} (hh : 0 < h) (h1 : h ≤ 1) (hj0 : |j0| ≤ 1) (hp : 0 ≤ p) : sP h j0 j1 p ≤ (1 + 3 * h) * p + h ^ 3 / 3 := by
  have hS := sS_lower (j0 := j0) (j1 := j1) hh hp
  have h2 : 0 ≤ sG h j0 j1 p ^ 2 / sS h j0 j1 p := div_nonneg (sq_nonneg _) (by linarith)
  obtain ⟨ha1, ha2⟩ := abs_le.mp hj0
  have h3 : (1 + h * j0) ^ 2 ≤ 1 + 3 * h := by
    have h4 : j0 ^ 2 ≤ 1 := by nlinarith
    have h5 : h ^ 2 * j0 ^ 2 ≤ h := by nlinarith [mul_le_mul_of_nonneg_left h4 (sq_nonneg h)]
    nlinarith
  have h4 := mul_le_mul_of_nonneg_right h3 hp
  rw [sP]
  linarith

/-- The variance grows by at least `h³ / 12`, up to terms of higher order. -/
theorem sP_lower {h j0 j1 p : ℝ} (hh : 0 < h) (h1 : h ≤ 1 / 2) (hj0 : |j0| ≤ 1) (hj1 : |j1| ≤ 1) (hp : 0 ≤ p) (hp1 : p ≤ h ^ 2) :
    p - 2 * h * p + h ^ 3 / 12 - h ^ 3 * (32 * |sE h j0 j1| + 17 * h) ≤ sP h j0 j1 p := by
  have hE := sE_abs hh (by linarith) hj0 hj1
  have hS := sS_lower (j0 := j0) (j1 := j1) hh hp
  have hS0 : 0 < sS h j0 j1 p := by linarith
  have hS2 : h * (1 - h) ≤ sS h j0 j1 p := by
    have h2 : 0 ≤ sE h j0 j1 ^ 2 * p := by positivity
    have h3 : 1 - h ≤ 1 - h * j1 + h ^ 2 / 3 * j1 ^ 2 := by
      have : 0 ≤ h ^ 2 / 3 * j1 ^ 2 := by positivity
      nlinarith [(abs_le.mp hj1).2]
    have := mul_le_mul_of_nonneg_left h3 hh.le
    rw [sS]
    linarith
  obtain ⟨q, hq⟩ : ∃ q, q = p / h ^ 2 := ⟨_, rfl⟩
  have hpq : p = h ^ 2 * q := by rw [hq]; field_simp
  have hq0 : 0 ≤ q := by rw [hq]; positivity
  have hq1 : q ≤ 1 := by rw [hq]; exact (div_le_one (by positivity)).mpr hp1
  obtain ⟨ha1, ha2⟩ := abs_le.mp hj0
  obtain ⟨g, hg⟩ : ∃ g, g = (1 + h * j0) * q * sE h j0 j1 - h / 3 * j1 := ⟨_, rfl⟩
  have hG : sG h j0 j1 p = h ^ 2 * (1 / 2 + g) := by
    rw [sG, hg, hpq]
    ring
  have hF : |1 + h * j0| ≤ 2 := by
    rw [abs_le]
    constructor <;> nlinarith
  have hgb : |g| ≤ 2 * |sE h j0 j1| + h := by
    have h2 : |(1 + h * j0) * q * sE h j0 j1| ≤ 2 * 1 * |sE h j0 j1| := by
      rw [abs_mul, abs_mul, abs_of_nonneg hq0]
      gcongr
    have h3 : |h / 3 * j1| ≤ h := by
      rw [abs_mul, abs_of_pos (by positivity)]
      nlinarith [abs_nonneg j1]
    rw [hg]
    exact (abs_sub _ _).trans (by linarith)
  have hsq : (1 / 2 + g) ^ 2 ≤ 1 / 4 + 8 * (2 * |sE h j0 j1| + h) := by
    have h2 : |g| ≤ 7 := by linarith
    have h3 : g ^ 2 ≤ 7 * |g| := by
      rw [← sq_abs]
      nlinarith [abs_nonneg g]
    nlinarith [le_abs_self g]
  have hdiv : sG h j0 j1 p ^ 2 / sS h j0 j1 p ≤ h ^ 3 * (1 / 4 + 32 * |sE h j0 j1| + 17 * h) := by
    rw [div_le_iff₀ hS0, hG]
    have h4 : 1 / 4 + 8 * (2 * |sE h j0 j1| + h) ≤ (1 / 4 + 32 * |sE h j0 j1| + 17 * h) * (1 - h) := by
      nlinarith [abs_nonneg (sE h j0 j1)]
    calc (h ^ 2 * (1 / 2 + g)) ^ 2 = h ^ 4 * (1 / 2 + g) ^ 2 := by ring
      _ ≤ h ^ 4 * ((1 / 4 + 32 * |sE h j0 j1| + 17 * h) * (1 - h)) := by gcongr; exact hsq.trans h4
      _ = h ^ 3 * (1 / 4 + 32 * |sE h j0 j1| + 17 * h) * (h * (1 - h)) := by ring
      _ ≤ _ := by gcongr
  have h5 : (1 - 2 * h) * p ≤ (1 + h * j0) ^ 2 * p := by
    refine mul_le_mul_of_nonneg_right ?_ hp
    nlinarith [sq_nonneg (h * j0)]
  rw [sP]
  linarith

theorem sin_taylor (y u : ℝ) : |sin (y + u) - sin y - u * cos y| ≤ 3 * u ^ 2 := by
  have h1 : |cos u - 1| ≤ u ^ 2 / 2 := by
    rw [abs_le]
    constructor
    · linarith [one_sub_sq_div_two_le_cos (x := u)]
    · linarith [cos_le_one u, sq_nonneg u]
  have h2 : |sin u - u| ≤ 2 * u ^ 2 := by
    rcases le_total |u| 1 with h | h
    · have h3 := sin_bound h
      have h4 : |sin u - u| ≤ |sin u - (u - u ^ 3 / 6)| + |u ^ 3 / 6| := by
        rw [show sin u - u = (sin u - (u - u ^ 3 / 6)) + -(u ^ 3 / 6) by ring]
        exact (abs_add_le _ _).trans (by rw [abs_neg])
      have h5 : |u ^ 3 / 6| ≤ u ^ 2 := by
        rw [abs_div, abs_pow, abs_of_pos (by norm_num : (0 : ℝ) < 6), ← sq_abs u]
        have : |u| ^ 3 ≤ |u| ^ 2 := pow_le_pow_of_le_one (abs_nonneg _) h (by norm_num)
        linarith [sq_nonneg |u|]
      have h6 : |u| ^ 5 ≤ u ^ 2 := by
        rw [← sq_abs u]
        exact pow_le_pow_of_le_one (abs_nonneg _) h (by norm_num)
      linarith [sq_nonneg u]
    · have h3 : |sin u| ≤ |u| := (abs_sin_le_one u).trans h
      have h4 := abs_sub (sin u) u
      have h5 : |u| ≤ u ^ 2 := by rw [← sq_abs]; nlinarith
      linarith
  have e : sin (y + u) - sin y - u * cos y = sin y * (cos u - 1) + cos y * (sin u - u) := by rw [sin_add]; ring
  rw [e]
  refine (abs_add_le _ _).trans ?_
  rw [abs_mul, abs_mul]
  have h3 := mul_le_mul (abs_sin_le_one y) h1 (abs_nonneg _) zero_le_one
  have h4 := mul_le_mul (abs_cos_le_one y) h2 (abs_nonneg _) zero_le_one
  nlinarith [sq_nonneg u]

/-- The prediction. -/
noncomputable def sX (h y a b : ℝ) : ℝ := y + h * -cos y + (a + Real.sqrt 6 * b)

/-- The mean after the step. -/
noncomputable def sY (h y p a b : ℝ) : ℝ :=
  sX h y a b + sK h (sin y) (sin (sX h y a b)) p * (-cos (sX h y a b) - -cos y - 2 * Real.sqrt 6 * b / h)

/-- The sensitivity is small with the noise. -/
theorem sE_small {h : ℝ} (hh : 0 < h) (y a b : ℝ) : |sE h (sin y) (sin (sX h y a b))| ≤ |a + Real.sqrt 6 * b| + 2 * h := by
  have h1 := Real.abs_sin_sub_sin_le y (sX h y a b)
  have h2 : |y - sX h y a b| ≤ |a + Real.sqrt 6 * b| + h := by
    rw [show y - sX h y a b = -(a + Real.sqrt 6 * b) + h * cos y by rw [sX]; ring]
    refine (abs_add_le _ _).trans ?_
    rw [abs_neg, abs_mul, abs_of_pos hh]
    nlinarith [abs_cos_le_one y]
  have h3 : |h * (sin (sX h y a b) * sin y)| ≤ h := by
    rw [abs_mul, abs_mul, abs_of_pos hh]
    have := mul_le_mul (abs_sin_le_one (sX h y a b)) (abs_sin_le_one y) (abs_nonneg _) zero_le_one
    nlinarith
  rw [sE, show sin y - sin (sX h y a b) * (1 + h * sin y) = (sin y - sin (sX h y a b)) - h * (sin (sX h y a b) * sin y) by ring]
  exact (abs_sub _ _).trans (by linarith)

/-- The sensitivity, to first order in the noise. -/
theorem sE_first {h : ℝ} (hh : 0 < h) (y a b : ℝ) :
    |sE h (sin y) (sin (sX h y a b)) + cos y * (a + Real.sqrt 6 * b)| ≤ 2 * h + 3 * (|a + Real.sqrt 6 * b| + h) ^ 2 := by
  obtain ⟨u, hu⟩ : ∃ u, u = h * -cos y + (a + Real.sqrt 6 * b) := ⟨_, rfl⟩
  have hx : sX h y a b = y + u := by rw [sX, hu]; ring
  have h1 := sin_taylor y u
  have hub : |u| ≤ |a + Real.sqrt 6 * b| + h := by
    rw [hu, add_comm |_|]
    refine (abs_add_le _ _).trans ?_
    rw [abs_mul, abs_neg, abs_of_pos hh]
    nlinarith [abs_cos_le_one y]
  have h2 : u ^ 2 ≤ (|a + Real.sqrt 6 * b| + h) ^ 2 := by
    rw [← sq_abs u]
    exact pow_le_pow_left₀ (abs_nonneg _) hub 2
  have h3 : |h * (sin (y + u) * sin y)| ≤ h := by
    rw [abs_mul, abs_mul, abs_of_pos hh]
    have := mul_le_mul (abs_sin_le_one (y + u)) (abs_sin_le_one y) (abs_nonneg _) zero_le_one
    nlinarith
  have h4 : |h * cos y ^ 2| ≤ h := by
    rw [abs_mul, abs_of_pos hh, abs_of_nonneg (sq_nonneg _)]
    nlinarith [cos_sq_le_one y]
  have e : sE h (sin y) (sin (sX h y a b)) + cos y * (a + Real.sqrt 6 * b) =
      -(sin (y + u) - sin y - u * cos y) - h * (sin (y + u) * sin y) + h * cos y ^ 2 := by
    rw [hx, sE, show a + Real.sqrt 6 * b = u + h * cos y by rw [hu]; ring]
    ring
  rw [e]
  refine (abs_add_le _ _).trans ?_
  have h5 := abs_sub (-(sin (y + u) - sin y - u * cos y)) (h * (sin (y + u) * sin y))
  rw [abs_neg] at h5
  linarith

/-- The increment of the mean: besides the Euler-Maruyama step, a term of first order that does not vanish in the mean. -/
theorem sY_increment {h p : ℝ} (hh : 0 < h) (h1 : h ≤ 1) (hp : 0 ≤ p) (hp1 : p ≤ h ^ 2) (y a b : ℝ) :
    |sY h y p a b - (y + h * -cos y + a) - 2 * Real.sqrt 6 * (p / h ^ 2) * cos y * ((a + Real.sqrt 6 * b) * b)| ≤
      1000 * (h * |a + Real.sqrt 6 * b| + h ^ 2 + h * |b| + (a + Real.sqrt 6 * b) ^ 2 * |b|) := by
  obtain ⟨ζ, hζ⟩ : ∃ ζ, ζ = a + Real.sqrt 6 * b := ⟨_, rfl⟩
  obtain ⟨x, hx⟩ : ∃ x, x = sX h y a b := ⟨_, rfl⟩
  have hK := sK_abs hh h1 (abs_sin_le_one y) (abs_sin_le_one x) hp hp1
  have hκ := sK_expansion hh h1 (abs_sin_le_one y) (abs_sin_le_one x) hp hp1
  have hE := sE_first hh y a b
  have hq0 : 0 ≤ p / h ^ 2 := by positivity
  have hq1 : p / h ^ 2 ≤ 1 := (div_le_one (by positivity)).mpr hp1
  have hxy : |x - y| ≤ |ζ| + h := by
    rw [show x - y = ζ + -(h * cos y) by rw [hx, hζ, sX]; ring]
    refine (abs_add_le _ _).trans ?_
    rw [abs_neg, abs_mul, abs_of_pos hh]
    nlinarith [abs_cos_le_one y]
  have hD : |-cos x - -cos y| ≤ |ζ| + h := by
    rw [show -cos x - -cos y = -(cos x - cos y) by ring, abs_neg]
    exact (Real.abs_cos_sub_cos_le x y).trans hxy
  rw [← hx, ← hζ] at hE
  rw [sY, ← hζ, ← hx]
  have hxe : x = y + h * -cos y + a + Real.sqrt 6 * b := by rw [hx, sX]; ring
  generalize sK h (sin y) (sin x) p = k at *
  generalize sE h (sin y) (sin x) = e at *
  have h6 : Real.sqrt 6 ≤ 5 / 2 := by rw [Real.sqrt_le_left (by norm_num)]; norm_num
  have h60 := Real.sqrt_nonneg 6
  have key : x + k * (-cos x - -cos y - 2 * Real.sqrt 6 * b / h) - (y + h * -cos y + a) - 2 * Real.sqrt 6 * (p / h ^ 2) * cos y * (ζ * b) =
      k * (-cos x - -cos y) + (-(2 * Real.sqrt 6 / h) * b) * (k - h / 2 - p / h * e) + (-(2 * Real.sqrt 6 * (p / h ^ 2)) * b) * (e + cos y * ζ) := by
    generalize -cos x - -cos y = D
    generalize hc : cos y = c at *
    rw [show x = y + h * -c + a + Real.sqrt 6 * b from hxe]
    field_simp
    ring
  rw [key]
  have t1 : |k * (-cos x - -cos y)| ≤ 168 * h * (|ζ| + h) := by
    rw [abs_mul]
    gcongr
  have t2 : |(-(2 * Real.sqrt 6 / h) * b) * (k - h / 2 - p / h * e)| ≤ 820 * h * |b| := by
    rw [abs_mul, abs_mul, abs_neg, abs_of_nonneg (by positivity)]
    calc 2 * Real.sqrt 6 / h * |b| * |k - h / 2 - p / h * e| ≤ 2 * (5 / 2) / h * |b| * (164 * h ^ 2) := by gcongr
      _ = _ := by field_simp; ring
  have t3 : |(-(2 * Real.sqrt 6 * (p / h ^ 2)) * b) * (e + cos y * ζ)| ≤ 5 * |b| * (2 * h + 3 * (|ζ| + h) ^ 2) := by
    rw [abs_mul, abs_mul, abs_neg, abs_of_nonneg (by positivity)]
    calc 2 * Real.sqrt 6 * (p / h ^ 2) * |b| * |e + cos y * ζ| ≤ 2 * (5 / 2) * 1 * |b| * (2 * h + 3 * (|ζ| + h) ^ 2) := by gcongr
      _ = _ := by ring
  have t4 : (|ζ| + h) ^ 2 ≤ 2 * ζ ^ 2 + 2 * h := by
    have : h ^ 2 ≤ h := by nlinarith
    rw [← sq_abs ζ]
    nlinarith [sq_nonneg (|ζ| - h)]
  have t5 : 5 * |b| * (2 * h + 3 * (|ζ| + h) ^ 2) ≤ 5 * |b| * (2 * h + 3 * (2 * ζ ^ 2 + 2 * h)) := by gcongr
  have h7 : 0 ≤ h * |ζ| := by positivity
  have h8 : 0 ≤ h * |b| := by positivity
  have h9 : 0 ≤ ζ ^ 2 * |b| := by positivity
  refine (abs_add_le _ _).trans ((add_le_add ((abs_add_le _ _).trans (add_le_add t1 t2)) (t3.trans t5)).trans ?_)
  nlinarith [sq_nonneg h]

/-- The increment, bounded. With `s = √h`, every term is of order `h s` in the mean. -/
theorem sY_majorant {h p s : ℝ} (hs : 0 < s) (hsh : s ^ 2 = h) (h1 : h ≤ 1) (hp : 0 ≤ p) (hp1 : p ≤ h ^ 2) (y a b : ℝ) :
    |sY h y p a b - (y + h * -cos y + a) - 2 * Real.sqrt 6 * (p / h ^ 2) * cos y * ((a + Real.sqrt 6 * b) * b)| ≤
      1000 * (3 * (h * s) + s * (a + Real.sqrt 6 * b) ^ 2 + s * b ^ 2 + s * b ^ 2 + (a + Real.sqrt 6 * b) ^ 4 / s) := by
  have hh : 0 < h := by rw [← hsh]; positivity
  have hs1 : s ≤ 1 := by nlinarith
  refine (sY_increment hh h1 hp hp1 y a b).trans ?_
  generalize a + Real.sqrt 6 * b = ζ
  have k1 : ∀ u : ℝ, h * |u| ≤ h * s + s * u ^ 2 := fun u => by
    rw [← hsh, ← sq_abs u]
    have : 0 ≤ s * (s - |u|) ^ 2 := by positivity
    nlinarith [mul_nonneg (sq_nonneg s) (abs_nonneg u)]
  have k2 : h ^ 2 ≤ h * s := by
    rw [sq]
    refine mul_le_mul_of_nonneg_left ?_ hh.le
    nlinarith
  have k3 : ζ ^ 2 * |b| ≤ ζ ^ 4 / s + s * b ^ 2 := by
    rw [← sub_nonneg]
    have : ζ ^ 4 / s + s * b ^ 2 - ζ ^ 2 * |b| = ((ζ ^ 2 - s * |b|) ^ 2 + s * (ζ ^ 2 * |b|)) / s := by
      rw [← sq_abs b]
      field_simp
      ring
    rw [this]
    positivity
  nlinarith [k1 ζ, k1 b]

end Verif
