import Verif.Lemmas.RosStep
import Verif.Lemmas.TrapStrong
import Verif.Spec.BlockEkf

/-! The step of EKF0 with independent coordinates on one interval of an SDE with additive noise, compared with the trapezoidal step. -/

namespace Verif

open Matrix Spec Jnp Set

variable {d m : ℕ}

/-- What the comparison needs of the transitions of the coordinates. A coordinate without noise may have a prior with a second derivative,
provided it is consistent; a coordinate with noise must not use the second derivative, and must weigh the slopes at both ends alike. -/
structure BlockOk (S : Mat d m) (c δ : ℝ) (A : Fin d → Mat 3 3) (g : Fin d → ℝ) : Prop where
  a00 : ∀ i, |A i 0 0 - 1| ≤ c * δ ^ 2
  a10 : ∀ i, |A i 1 0| ≤ c * δ
  a01 : ∀ i, |A i 0 1 - δ| ≤ c * δ ^ 2
  a11 : ∀ i, |A i 1 1 - 1| ≤ c * δ
  kind : ∀ i, ((∀ j, S i j = 0) ∧ |A i 0 2 - δ ^ 2 / 2| ≤ c * δ ^ 3 ∧ |A i 1 2 - δ| ≤ c * δ ^ 2 ∧ |g i| ≤ c * δ) ∨
    (A i 0 2 = 0 ∧ A i 1 2 = 0 ∧ |A i 0 1 - g i * A i 1 1 + g i - δ| ≤ c * δ ^ 3 ∧ |g i - δ / 2| ≤ c * δ ^ 2)

theorem abs_mul_le' {x y a b : ℝ} (hx : |x| ≤ a) (hy : |y| ≤ b) : |x * y| ≤ a * b := by
  rw [abs_mul]
  exact mul_le_mul hx hy (abs_nonneg _) ((abs_nonneg _).trans hx)

/-- A coordinate without noise. -/
theorem block_smooth {c δ Z H Cr cw y f w R1 R2 A00 A01 A02 A10 A11 A12 g : ℝ} (hδ : 0 < δ) (hc : 0 ≤ c) (hy : |y| ≤ H) (hf : |f| ≤ H)
    (hZ : δ * H ≤ Z) (hw : δ * |w| ≤ cw * Z) (hR1 : |R1| ≤ Cr * Z) (hR2 : |R2| ≤ Cr * Z) (h00 : |A00 - 1| ≤ c * δ ^ 2) (h10 : |A10| ≤ c * δ)
    (h01 : |A01 - δ| ≤ c * δ ^ 2) (h11 : |A11 - 1| ≤ c * δ) (h02 : |A02 - δ ^ 2 / 2| ≤ c * δ ^ 3) (h12 : |A12 - δ| ≤ c * δ ^ 2) (hg : |g| ≤ c * δ) :
    |A00 * y + A01 * f + A02 * (w / δ) + g * (f + w + R1 - (A10 * y + A11 * f + A12 * (w / δ))) - (y + δ * f + δ / 2 * w + δ / 2 * R2)| ≤
      δ * ((2 * c + c * cw + c * (Cr + 2 * c + c * cw) + Cr) * Z) := by
  have e : A00 * y + A01 * f + A02 * (w / δ) + g * (f + w + R1 - (A10 * y + A11 * f + A12 * (w / δ))) - (y + δ * f + δ / 2 * w + δ / 2 * R2) =
      (A00 - 1) * y + (A01 - δ) * f + (A02 - δ ^ 2 / 2) * (w / δ) + g * (R1 - (A11 - 1) * f - (A12 - δ) * (w / δ) - A10 * y) - δ / 2 * R2 := by
    field_simp
    ring
  have hwd : |w / δ| = |w| / δ := by rw [abs_div, abs_of_pos hδ]
  have t1 := abs_mul_le' h00 hy
  have t2 := abs_mul_le' h01 hf
  have t3 := abs_mul_le' h02 hwd.le
  have t4 := abs_mul_le' h11 hf
  have t5 := abs_mul_le' h12 hwd.le
  have t6 := abs_mul_le' h10 hy
  have p1 : c * δ ^ 2 * H ≤ δ * (c * Z) := by
    calc _ = δ * (c * (δ * H)) := by ring
      _ ≤ _ := by gcongr
  have p3 : c * δ ^ 3 * (|w| / δ) ≤ δ * (c * (cw * Z)) := by
    calc _ = δ * (c * (δ * |w|)) := by field_simp
      _ ≤ _ := by gcongr
  have p4 : c * δ * H ≤ c * Z := by
    calc _ = c * (δ * H) := by ring
      _ ≤ _ := by gcongr
  have p5 : c * δ ^ 2 * (|w| / δ) ≤ c * (cw * Z) := by
    calc _ = c * (δ * |w|) := by field_simp
      _ ≤ _ := by gcongr
  have t7 : |R1 - (A11 - 1) * f - (A12 - δ) * (w / δ) - A10 * y| ≤ (Cr + 2 * c + c * cw) * Z := by
    refine (abs_sub _ _).trans ?_
    refine (add_le_add_left ((abs_sub _ _).trans (add_le_add_left (abs_sub _ _) _)) _).trans ?_
    linarith
  have t8 := abs_mul_le' hg t7
  have t9 : |δ / 2 * R2| ≤ δ / 2 * (Cr * Z) := abs_mul_le' (abs_of_pos (by positivity)).le hR2
  have hCr : 0 ≤ Cr * Z := (abs_nonneg _).trans hR1
  rw [e]
  refine (abs_sub _ _).trans ?_
  refine (add_le_add_left ((abs_add_le _ _).trans (add_le_add_left ((abs_add_le _ _).trans (add_le_add_left (abs_add_le _ _) _)) _)) _).trans ?_
  have h0 : 0 ≤ δ * (Cr * Z) := by positivity
  linarith

/-- A coordinate with noise. -/
theorem block_noisy {T c δ Z H Cr cw y f w α γ R1 R2 A00 A01 A10 A11 g : ℝ} (hδ : 0 < δ) (hδT : δ ≤ T) (hc : 0 ≤ c) (hy : |y| ≤ H) (hf : |f| ≤ H)
    (hZ : δ * H ≤ Z) (hw : δ * |w| ≤ cw * Z) (hα : δ * |α| ≤ cw * Z) (hγ : δ * |γ| ≤ cw * Z) (hR1 : |R1| ≤ Cr * Z) (hR2 : |R2| ≤ Cr * Z)
    (h00 : |A00 - 1| ≤ c * δ ^ 2) (h10 : |A10| ≤ c * δ) (he : |A01 - g * A11 + g - δ| ≤ c * δ ^ 3) (hg : |g - δ / 2| ≤ c * δ ^ 2) :
    |A00 * y + A01 * (f + (α + Real.sqrt 6 * γ) / δ) + g * (f + w + R1 + (α - Real.sqrt 6 * γ) / δ - (A10 * y + A11 * (f + (α + Real.sqrt 6 * γ) / δ))) -
      (y + δ * f + α + δ / 2 * w + δ / 2 * R2 + δ * (-2 * Real.sqrt 6 * (g - δ / 2) / δ ^ 2 * γ))| ≤
      δ * ((c + (1 + c * T) * c + c * T + 4 * c * cw + c * cw + (1 + c * T) * Cr + Cr) * Z) := by
  have e : A00 * y + A01 * (f + (α + Real.sqrt 6 * γ) / δ) + g * (f + w + R1 + (α - Real.sqrt 6 * γ) / δ - (A10 * y + A11 * (f + (α + Real.sqrt 6 * γ) / δ))) -
      (y + δ * f + α + δ / 2 * w + δ / 2 * R2 + δ * (-2 * Real.sqrt 6 * (g - δ / 2) / δ ^ 2 * γ)) =
      (A00 - 1) * y - g * (A10 * y) + (A01 - g * A11 + g - δ) * f + (A01 - g * A11 + g - δ) * ((α + Real.sqrt 6 * γ) / δ) + (g - δ / 2) * w + g * R1 -
        δ / 2 * R2 := by
    field_simp
    ring
  have h6 : Real.sqrt 6 ≤ 3 := by rw [Real.sqrt_le_left (by norm_num)]; norm_num
  have h60 : 0 ≤ Real.sqrt 6 := Real.sqrt_nonneg _
  have hag : |α + Real.sqrt 6 * γ| ≤ |α| + 3 * |γ| := by
    refine (abs_add_le _ _).trans ?_
    rw [abs_mul, abs_of_nonneg h60]
    have := mul_le_mul_of_nonneg_right h6 (abs_nonneg γ)
    linarith
  have hgb : |g| ≤ (1 + c * T) * δ := by
    have h1 : |g| ≤ |g - δ / 2| + |δ / 2| := by
      have := abs_add_le (g - δ / 2) (δ / 2)
      rwa [sub_add_cancel] at this
    rw [abs_of_pos (by positivity : 0 < δ / 2)] at h1
    have h2 : c * δ ^ 2 ≤ c * T * δ := by
      calc _ = c * δ * δ := by ring
        _ ≤ c * T * δ := by gcongr
    linarith
  have hH : 0 ≤ H := (abs_nonneg _).trans hy
  have hZ0 : 0 ≤ Z := (by positivity : 0 ≤ δ * H).trans hZ
  have t1 := abs_mul_le' h00 hy
  have t2 := abs_mul_le' hgb (abs_mul_le' h10 hy)
  have t3 := abs_mul_le' he hf
  have t4 : |(A01 - g * A11 + g - δ) * ((α + Real.sqrt 6 * γ) / δ)| ≤ c * δ ^ 3 * ((|α| + 3 * |γ|) / δ) :=
    abs_mul_le' he (by rw [abs_div, abs_of_pos hδ]; gcongr)
  have t5 := abs_mul_le' hg (le_refl |w|)
  have t6 := abs_mul_le' hgb hR1
  have t7 : |δ / 2 * R2| ≤ δ / 2 * (Cr * Z) := abs_mul_le' (abs_of_pos (by positivity)).le hR2
  have p1 : c * δ ^ 2 * H ≤ δ * (c * Z) := by
    calc _ = δ * (c * (δ * H)) := by ring
      _ ≤ _ := by gcongr
  have p2 : (1 + c * T) * δ * (c * δ * H) ≤ δ * ((1 + c * T) * c * Z) := by
    have : 0 ≤ T := hδ.le.trans hδT
    calc _ = δ * ((1 + c * T) * c * (δ * H)) := by ring
      _ ≤ _ := by gcongr
  have p3 : c * δ ^ 3 * H ≤ δ * (c * T * Z) := by
    have : 0 ≤ T := hδ.le.trans hδT
    calc _ = δ * (c * δ * (δ * H)) := by ring
      _ ≤ _ := by gcongr
  have p4 : c * δ ^ 3 * ((|α| + 3 * |γ|) / δ) ≤ δ * (4 * c * cw * Z) := by
    calc _ = δ * (c * (δ * |α| + 3 * (δ * |γ|))) := by field_simp
      _ ≤ δ * (c * (cw * Z + 3 * (cw * Z))) := by gcongr
      _ = _ := by ring
  have p5 : c * δ ^ 2 * |w| ≤ δ * (c * cw * Z) := by
    calc _ = δ * (c * (δ * |w|)) := by ring
      _ ≤ δ * (c * (cw * Z)) := by gcongr
      _ = _ := by ring
  have hCr : 0 ≤ Cr * Z := (abs_nonneg _).trans hR1
  have h0 : 0 ≤ δ * (Cr * Z) := by positivity
  rw [e]
  refine (abs_sub _ _).trans ?_
  refine (add_le_add_left ((abs_add_le _ _).trans (add_le_add_left ((abs_add_le _ _).trans (add_le_add_left ((abs_add_le _ _).trans (add_le_add_left
    ((abs_add_le _ _).trans (add_le_add_left (abs_sub _ _) _)) _)) _)) _)) _).trans ?_
  linarith

/-- A coefficient close to `x`, when the step is bounded. -/
theorem near_le {A x r e : ℝ} (hx : 0 ≤ x) (h : |A - x| ≤ e) (he : x + e ≤ r) : |A| ≤ r := by
  have h1 : |A| ≤ |A - x| + |x| := by
    have := abs_add_le (A - x) x
    rwa [sub_add_cancel] at this
  rw [abs_of_nonneg hx] at h1
  linarith

/-- Growth in a coordinate without noise. -/
theorem block_smooth_growth {T c δ G cf y f fh w A00 A01 A02 A10 A11 A12 g : ℝ} (hδ : 0 < δ) (hδT : δ ≤ T) (hc : 0 ≤ c) (hy : |y| ≤ G)
    (hf : |f| ≤ cf * G) (hfh : |fh| ≤ cf * G) (hw : |w| ≤ cf * G) (h00 : |A00 - 1| ≤ c * δ ^ 2) (h10 : |A10| ≤ c * δ)
    (h01 : |A01 - δ| ≤ c * δ ^ 2) (h11 : |A11 - 1| ≤ c * δ) (h02 : |A02 - δ ^ 2 / 2| ≤ c * δ ^ 3) (h12 : |A12 - δ| ≤ c * δ ^ 2) (hg : |g| ≤ c * δ) :
    |A00 * y + A01 * f + A02 * (w / δ) + g * (fh - (A10 * y + A11 * f + A12 * (w / δ))) - y| ≤
      δ * ((c * T + 2 * ((1 + c * T) * cf) + c * (cf + c * T + 2 * ((1 + c * T) * cf))) * G) := by
  have hT : 0 ≤ T := hδ.le.trans hδT
  have hG : 0 ≤ G := (abs_nonneg _).trans hy
  have k1 : c * δ ≤ c * T := by gcongr
  have k2 : c * δ ^ 2 ≤ c * T * δ := by
    calc _ = c * δ * δ := by ring
      _ ≤ c * T * δ := by gcongr
  have k3 : c * δ ^ 3 ≤ c * T * δ ^ 2 := by
    calc _ = c * δ * δ ^ 2 := by ring
      _ ≤ c * T * δ ^ 2 := by gcongr
  have b01 : |A01| ≤ (1 + c * T) * δ := near_le hδ.le h01 (by linarith)
  have b12 : |A12| ≤ (1 + c * T) * δ := near_le hδ.le h12 (by linarith)
  have b11 : |A11| ≤ 1 + c * T := near_le zero_le_one h11 (by linarith)
  have b02 : |A02| ≤ (1 + c * T) * δ ^ 2 := near_le (by positivity) h02 (by nlinarith [sq_nonneg δ])
  have hwd : |w / δ| ≤ cf * G / δ := by rw [abs_div, abs_of_pos hδ]; gcongr
  have t1 := abs_mul_le' h00 hy
  have t2 := abs_mul_le' b01 hf
  have t3 := abs_mul_le' b02 hwd
  have t4 := abs_mul_le' b11 hf
  have t5 := abs_mul_le' b12 hwd
  have t6 := abs_mul_le' h10 hy
  have p1 : c * δ ^ 2 * G ≤ δ * (c * T * G) := by
    calc _ ≤ c * T * δ * G := by gcongr
      _ = _ := by ring
  have p3 : (1 + c * T) * δ ^ 2 * (cf * G / δ) = δ * ((1 + c * T) * cf * G) := by field_simp
  have p5 : (1 + c * T) * δ * (cf * G / δ) = (1 + c * T) * cf * G := by field_simp
  have p6 : c * δ * G ≤ c * T * G := by gcongr
  have t7 : |fh - (A10 * y + A11 * f + A12 * (w / δ))| ≤ (cf + c * T + 2 * ((1 + c * T) * cf)) * G := by
    refine (abs_sub _ _).trans ((add_le_add_right ((abs_add_le _ _).trans (add_le_add_left (abs_add_le _ _) _)) _).trans ?_)
    linarith
  have t8 := abs_mul_le' hg t7
  rw [show A00 * y + A01 * f + A02 * (w / δ) + g * (fh - (A10 * y + A11 * f + A12 * (w / δ))) - y =
    (A00 - 1) * y + A01 * f + A02 * (w / δ) + g * (fh - (A10 * y + A11 * f + A12 * (w / δ))) by ring]
  refine (abs_add_le _ _).trans ((add_le_add_left ((abs_add_le _ _).trans (add_le_add_left (abs_add_le _ _) _)) _).trans ?_)
  linarith

/-- Growth in a coordinate with noise. -/
theorem block_noisy_growth {T c δ G cf y f fh α γ A00 A01 A10 A11 g : ℝ} (hδ : 0 < δ) (hδT : δ ≤ T) (hc : 0 ≤ c) (hy : |y| ≤ G)
    (hf : |f| ≤ cf * G) (hfh : |fh| ≤ cf * G) (hα : |α| ≤ cf * G) (hγ : |γ| ≤ cf * G) (h00 : |A00 - 1| ≤ c * δ ^ 2) (h10 : |A10| ≤ c * δ)
    (h01 : |A01 - δ| ≤ c * δ ^ 2) (h11 : |A11 - 1| ≤ c * δ) (he : |A01 - g * A11 + g - δ| ≤ c * δ ^ 3) (hg : |g - δ / 2| ≤ c * δ ^ 2) :
    |A00 * y + A01 * (f + (α + Real.sqrt 6 * γ) / δ) + g * (fh + (α - Real.sqrt 6 * γ) / δ - (A10 * y + A11 * (f + (α + Real.sqrt 6 * γ) / δ))) -
      y - α| ≤ δ * ((c * T + (1 + c * T) * (c * T) + ((1 + c * T) + (1 + c * T) * (1 + c * T)) * cf + (1 + c * T) * cf + c * T * cf +
        3 * (c * T + 2 * c) * cf) * G) := by
  have hT : 0 ≤ T := hδ.le.trans hδT
  have hG : 0 ≤ G := (abs_nonneg _).trans hy
  have e : A00 * y + A01 * (f + (α + Real.sqrt 6 * γ) / δ) + g * (fh + (α - Real.sqrt 6 * γ) / δ - (A10 * y + A11 * (f + (α + Real.sqrt 6 * γ) / δ))) -
      y - α = (A00 - 1) * y - g * (A10 * y) + (A01 - g * A11) * f + g * fh + (A01 - g * A11 + g - δ) * (α / δ) +
        Real.sqrt 6 * (((A01 - g * A11 + g - δ) - 2 * (g - δ / 2)) * (γ / δ)) := by
    field_simp
    ring
  have h6 : Real.sqrt 6 ≤ 3 := by rw [Real.sqrt_le_left (by norm_num)]; norm_num
  have h60 : 0 ≤ Real.sqrt 6 := Real.sqrt_nonneg _
  have k1 : c * δ ≤ c * T := by gcongr
  have k2 : c * δ ^ 2 ≤ c * T * δ := by
    calc _ = c * δ * δ := by ring
      _ ≤ c * T * δ := by gcongr
  have k3 : c * δ ^ 3 ≤ c * T * δ ^ 2 := by
    calc _ = c * δ * δ ^ 2 := by ring
      _ ≤ c * T * δ ^ 2 := by gcongr
  have b01 : |A01| ≤ (1 + c * T) * δ := near_le hδ.le h01 (by linarith)
  have b11 : |A11| ≤ 1 + c * T := near_le zero_le_one h11 (by linarith)
  have bg : |g| ≤ (1 + c * T) * δ := near_le (by positivity) hg (by linarith)
  have b2 : |A01 - g * A11| ≤ ((1 + c * T) + (1 + c * T) * (1 + c * T)) * δ := by
    refine (abs_sub _ _).trans ((add_le_add b01 (abs_mul_le' bg b11)).trans (le_of_eq ?_))
    ring
  have b3 : |(A01 - g * A11 + g - δ) - 2 * (g - δ / 2)| ≤ (c * T + 2 * c) * δ ^ 2 := by
    refine (abs_sub _ _).trans ?_
    rw [abs_mul, abs_two]
    linarith
  have t1 := abs_mul_le' h00 hy
  have t2 := abs_mul_le' bg (abs_mul_le' h10 hy)
  have t3 := abs_mul_le' b2 hf
  have t4 := abs_mul_le' bg hfh
  have t5 : |(A01 - g * A11 + g - δ) * (α / δ)| ≤ c * T * δ ^ 2 * (cf * G / δ) :=
    abs_mul_le' (he.trans k3) (by rw [abs_div, abs_of_pos hδ]; gcongr)
  have t6 : |Real.sqrt 6 * (((A01 - g * A11 + g - δ) - 2 * (g - δ / 2)) * (γ / δ))| ≤ 3 * ((c * T + 2 * c) * δ ^ 2 * (cf * G / δ)) :=
    abs_mul_le' (by rwa [abs_of_nonneg h60]) (abs_mul_le' b3 (by rw [abs_div, abs_of_pos hδ]; gcongr))
  have p1 : c * δ ^ 2 * G ≤ δ * (c * T * G) := by
    calc _ ≤ c * T * δ * G := by gcongr
      _ = _ := by ring
  have p2 : (1 + c * T) * δ * (c * δ * G) ≤ δ * ((1 + c * T) * (c * T) * G) := by
    calc _ ≤ (1 + c * T) * δ * (c * T * G) := by gcongr
      _ = _ := by ring
  have p5 : c * T * δ ^ 2 * (cf * G / δ) = δ * (c * T * cf * G) := by field_simp
  have p6 : 3 * ((c * T + 2 * c) * δ ^ 2 * (cf * G / δ)) = δ * (3 * (c * T + 2 * c) * cf * G) := by field_simp
  rw [e]
  refine (abs_add_le _ _).trans ((add_le_add_left ((abs_add_le _ _).trans (add_le_add_left ((abs_add_le _ _).trans (add_le_add_left
    ((abs_add_le _ _).trans (add_le_add_left (abs_sub _ _) _)) _)) _)) _).trans ?_)
  linarith

/-- The step of the filter for the random field of an interval. -/
noncomputable def blockAdd (f : Vec d → ℝ → Vec d) (S : Mat d m) (a0 δ : ℝ) (A : Fin d → Mat 3 3) (g : Fin d → ℝ) (y : Vec d) (a b : Vec m) : Vec d :=
  blockStep A g (additiveField f S a0 δ a b) δ y

theorem mul_le_sq_add_sq (x y : ℝ) : x * y ≤ x ^ 2 + y ^ 2 := by
  nlinarith [sq_nonneg (x - y), sq_nonneg x, sq_nonneg y]

/-- The diagonal map that collects the coefficients of the second coefficient of the parabola. -/
theorem exists_blockD {S : Mat d m} {c δ : ℝ} (hδ : 0 < δ) (hc : 0 ≤ c) {A : Fin d → Mat 3 3} {g : Fin d → ℝ} (h : BlockOk S c δ A g) :
    ∃ D : Vec d →L[ℝ] Vec d, ‖D‖ ≤ 6 * c ∧ ∀ (b : Vec m) i, D (S *ᵥ b) i = -2 * Real.sqrt 6 * (g i - δ / 2) / δ ^ 2 * (S *ᵥ b) i := by
  classical
  obtain ⟨e, he⟩ : ∃ e : Fin d → ℝ, ∀ i, e i = if ∀ j, S i j = 0 then 0 else -2 * Real.sqrt 6 * (g i - δ / 2) / δ ^ 2 := ⟨_, fun _ => rfl⟩
  refine ⟨ContinuousLinearMap.pi fun i => e i • ContinuousLinearMap.proj i, ?_, fun b i => ?_⟩
  · refine ContinuousLinearMap.opNorm_le_bound _ (by positivity) fun x => ?_
    rw [pi_norm_le_iff_of_nonneg (by positivity)]
    intro i
    simp only [ContinuousLinearMap.coe_pi', _root_.smul_apply, ContinuousLinearMap.proj_apply, smul_eq_mul, norm_mul]
    refine mul_le_mul ?_ (norm_le_pi_norm x i) (norm_nonneg _) (by positivity)
    rw [he]
    by_cases h0 : ∀ j, S i j = 0
    · rw [if_pos h0, norm_zero]; positivity
    · rw [if_neg h0, Real.norm_eq_abs]
      rcases h.kind i with h1 | ⟨-, -, -, h1⟩
      · exact absurd h1.1 h0
      · have h6 : Real.sqrt 6 ≤ 3 := by rw [Real.sqrt_le_left (by norm_num)]; norm_num
        rw [abs_div, abs_mul, abs_mul, abs_of_nonneg (Real.sqrt_nonneg 6), abs_of_pos (by positivity : 0 < δ ^ 2), div_le_iff₀ (by positivity)]
        norm_num
        have := mul_le_mul h6 h1 (abs_nonneg _) (by norm_num)
        linarith
  · simp only [ContinuousLinearMap.coe_pi', _root_.smul_apply, ContinuousLinearMap.proj_apply, smul_eq_mul]
    rw [he]
    by_cases h0 : ∀ j, S i j = 0
    · have : (S *ᵥ b) i = 0 := by simp [mulVec, dotProduct, h0]
      rw [this, mul_zero, mul_zero]
    · rw [if_neg h0]

set_option maxHeartbeats 1000000 in
/-- The step of the filter is the trapezoidal step and a term linear in the second coefficient, up to terms of second order, and it grows at
most linearly. -/
theorem block_expansion {f : Vec d → ℝ → Vec d} {Df : Vec d → ℝ → Vec d →L[ℝ] Vec d} {T L K Lt : ℝ} (hf : SmoothField f Df T L K)
    (hL : 0 ≤ L) (hK : 0 ≤ K) (hLt : 0 ≤ Lt) (hT : 0 ≤ T) (htl : TimeLipschitz f T Lt) {S : Mat d m} {s : ℝ} (hs0 : 0 ≤ s)
    (hS : ∀ v, ‖S *ᵥ v‖ ≤ s * ‖v‖) {c : ℝ} (hc : 0 ≤ c) : ∃ C, 0 ≤ C ∧ ∀ {δ : ℝ}, 0 < δ → ∀ {A : Fin d → Mat 3 3} {g : Fin d → ℝ}, BlockOk S c δ A g →
      ∃ D : Vec d →L[ℝ] Vec d, ‖D‖ ≤ 6 * c ∧ ∀ {a0 : ℝ}, 0 ≤ a0 → a0 + δ ≤ T → ∀ (a b : Vec m) (y : Vec d),
      ‖blockAdd f S a0 δ A g y a b - ((trapScheme (additiveField f S a0 δ a b) δ y 1).1 + δ • D (S *ᵥ b))‖ ≤
        δ * (C * (δ * (1 + ‖y‖ + ‖f y a0‖) ^ 2 + (‖a‖ + 4 * ‖b‖) ^ 2)) ∧
      ‖blockAdd f S a0 δ A g y a b - y - S *ᵥ a‖ ≤ δ * (C * (1 + ‖y‖ + (‖a‖ + 4 * ‖b‖))) := by
  obtain ⟨F0, hF0⟩ := isCompact_Icc.exists_bound_of_continuousOn (s := Icc 0 T) (f := fun t => f 0 t)
    (hf.cont.comp (by fun_prop : Continuous fun t : ℝ => ((0 : Vec d), t))).continuousOn
  have hF00 : 0 ≤ F0 := (norm_nonneg _).trans (hF0 0 ⟨le_rfl, hT⟩)
  obtain ⟨c1, hc1⟩ : ∃ c1, c1 = c * T + (c + (1 + c * T) * L) * (T + s) := ⟨_, rfl⟩
  have hc10 : 0 ≤ c1 := by rw [hc1]; positivity
  obtain ⟨Cr, hCr⟩ : ∃ Cr, Cr = Lt * (1 + (1 + c1) * T) + Lt * (s + c1 * T) * (1 + T) + 2 * K * (1 + c1) ^ 2 * T + 2 * K * (s + c1 * T) ^ 2 +
      L * (1 + c1) * (2 + T) := ⟨_, rfl⟩
  have hCr0 : 0 ≤ Cr := by rw [hCr]; positivity
  obtain ⟨cw, hcw⟩ : ∃ cw, cw = L * (T + s * (T + 1)) + s * (T + 1) := ⟨_, rfl⟩
  have hcw0 : 0 ≤ cw := by rw [hcw]; positivity
  obtain ⟨cβ, hcβ⟩ : ∃ cβ, cβ = T * (F0 + L) + s := ⟨_, rfl⟩
  have hcβ0 : 0 ≤ cβ := by rw [hcβ]; positivity
  obtain ⟨cf, hcf⟩ : ∃ cf, cf = (F0 + L) + L * cβ + s + (F0 + L * (1 + (cβ + (c * T ^ 2 + (c + (1 + c * T) * L) * T * cβ)))) := ⟨_, rfl⟩
  have hcf0 : 0 ≤ cf := by rw [hcf]; positivity
  obtain ⟨C1, hC1⟩ : ∃ C1, C1 = 2 * c + c * cw + c * (Cr + 2 * c + c * cw) + Cr := ⟨_, rfl⟩
  obtain ⟨C2, hC2⟩ : ∃ C2, C2 = c + (1 + c * T) * c + c * T + 4 * c * cw + c * cw + (1 + c * T) * Cr + Cr := ⟨_, rfl⟩
  obtain ⟨C3, hC3⟩ : ∃ C3, C3 = c * T + 2 * ((1 + c * T) * cf) + c * (cf + c * T + 2 * ((1 + c * T) * cf)) := ⟨_, rfl⟩
  obtain ⟨C4, hC4⟩ : ∃ C4, C4 = c * T + (1 + c * T) * (c * T) + ((1 + c * T) + (1 + c * T) * (1 + c * T)) * cf + (1 + c * T) * cf + c * T * cf +
        3 * (c * T + 2 * c) * cf := ⟨_, rfl⟩
  have hC10 : 0 ≤ C1 := by rw [hC1]; positivity
  have hC20 : 0 ≤ C2 := by rw [hC2]; positivity
  have hC30 : 0 ≤ C3 := by rw [hC3]; positivity
  have hC40 : 0 ≤ C4 := by rw [hC4]; positivity
  refine ⟨C1 + C2 + C3 + C4, by positivity, ?_⟩
  intro δ hδ A g hok
  obtain ⟨D, hD, hDe⟩ := exists_blockD hδ hc hok
  refine ⟨D, hD, ?_⟩
  intro a0 ha haδ a b y
  have hδT : δ ≤ T := by linarith
  have ha0 : a0 ∈ Icc 0 T := ⟨ha, by linarith⟩
  have hδ0 : δ + a0 ∈ Icc 0 T := ⟨by linarith, by linarith⟩
  obtain ⟨q, hq⟩ : ∃ q, q = ‖a‖ + 4 * ‖b‖ := ⟨_, rfl⟩
  have hq0 : 0 ≤ q := by rw [hq]; positivity
  obtain ⟨H, hH⟩ : ∃ H, H = 1 + ‖y‖ + ‖f y a0‖ := ⟨_, rfl⟩
  have hny := norm_nonneg y
  have hnf := norm_nonneg (f y a0)
  have hH1 : 1 ≤ H := by linarith
  have hHH : H ≤ H ^ 2 := le_self_pow₀ hH1 two_ne_zero
  rw [← hq, ← hH]
  have h6 : Real.sqrt 6 ≤ 5 / 2 := by rw [Real.sqrt_le_left (by norm_num)]; norm_num
  have h60 : 0 ≤ Real.sqrt 6 := Real.sqrt_nonneg _
  have hbq : ‖b‖ ≤ q := by rw [hq]; linarith [norm_nonneg a, norm_nonneg b]
  have haq : ‖a‖ ≤ q := by rw [hq]; linarith [norm_nonneg a, norm_nonneg b]
  obtain ⟨Z, hZ⟩ : ∃ Z, Z = δ * H ^ 2 + q ^ 2 := ⟨_, rfl⟩
  rw [← hZ]
  have hZ0 : 0 ≤ Z := by rw [hZ]; positivity
  have z1 : δ * H ≤ Z := by
    rw [hZ]
    have := mul_le_mul_of_nonneg_left hHH hδ.le
    linarith [sq_nonneg q]
  have z2 : δ * q ≤ (T + 1) * Z := by
    have h1 : δ * q ≤ δ ^ 2 + q ^ 2 := mul_le_sq_add_sq δ q
    have h2 : δ ^ 2 ≤ T * (δ * H ^ 2) := by
      calc δ ^ 2 = δ * (δ * 1) := by ring
        _ ≤ T * (δ * H ^ 2) := by
          have : (1 : ℝ) ≤ H ^ 2 := hH1.trans hHH
          gcongr
    have h3 : 0 ≤ T * q ^ 2 := by positivity
    have h4 : 0 ≤ δ * H ^ 2 := by positivity
    rw [hZ]
    linarith
  -- the field at the start
  have hp0 : δ • jacT (fun s => Foster.evalParabola s δ a b) 0 = a + Real.sqrt 6 • b := by
    rw [jacT_evalParabola]
    funext j
    simp only [Pi.smul_apply, Pi.add_apply, smul_eq_mul]
    field_simp
    ring
  have hpd : δ • jacT (fun s => Foster.evalParabola s δ a b) δ = a - Real.sqrt 6 • b := by
    rw [jacT_evalParabola]
    funext j
    simp only [Pi.smul_apply, Pi.sub_apply, smul_eq_mul]
    field_simp
    ring
  obtain ⟨vf, hvf⟩ : ∃ vf, vf = additiveField f S a0 δ a b := ⟨_, rfl⟩
  obtain ⟨β, hβ⟩ : ∃ β, β = δ • f y a0 + S *ᵥ (a + Real.sqrt 6 • b) := ⟨_, rfl⟩
  have hv0 : δ • vf y 0 = β := by
    rw [hvf, hβ, ← hp0, mulVec_smul, ← smul_add]
    simp only [additiveField, zero_add]
  have hvd : ∀ z, δ • vf z δ = δ • f z (δ + a0) + S *ᵥ (a - Real.sqrt 6 • b) := fun z => by
    rw [hvf, ← hpd, mulVec_smul, ← smul_add]
    simp only [additiveField]
  have hab : ‖a + Real.sqrt 6 • b‖ ≤ q := by
    refine (norm_add_le _ _).trans ?_
    rw [norm_smul, Real.norm_of_nonneg h60, hq]
    linarith [mul_le_mul_of_nonneg_right h6 (norm_nonneg b), norm_nonneg b]
  have hβn : ‖β‖ ≤ δ * ‖f y a0‖ + s * q := by
    rw [hβ]
    refine (norm_add_le _ _).trans (add_le_add (by rw [norm_smul, Real.norm_of_nonneg hδ.le]) ?_)
    exact (hS _).trans (mul_le_mul_of_nonneg_left hab hs0)
  have hβH : ‖β‖ ≤ δ * H + s * q := hβn.trans (by linarith [mul_le_mul_of_nonneg_left (by linarith : ‖f y a0‖ ≤ H) hδ.le])
  -- the second derivative
  obtain ⟨w, hw⟩ : ∃ w, w = Df y a0 β := ⟨_, rfl⟩
  have hwn : ‖w‖ ≤ L * ‖β‖ := by
    rw [hw]
    exact ((Df y a0).le_opNorm _).trans (mul_le_mul_of_nonneg_right (hf.norm_jac_le hL ha0 _) (norm_nonneg _))
  have hw0 : δ • (jac (fun z => vf z 0) y *ᵥ vf y 0) = w := by
    have h1 : jac (fun z => vf z 0) y = LinearMap.toMatrix' (Df y a0 : Vec d →ₗ[ℝ] Vec d) := by
      rw [hvf, jac_additiveField hf S (by rwa [zero_add]) a b y, zero_add]
    rw [h1, toMatrix_mulVec, ← map_smul, hv0, hw]
  -- the prediction
  obtain ⟨u, hu⟩ : ∃ u : Vec d, ∀ i, u i = (A i 0 0 - 1) * y i + A i 0 1 * vf y 0 i + A i 0 2 * (jac (fun z => vf z 0) y *ᵥ vf y 0) i :=
    ⟨_, fun _ => rfl⟩
  have hvi : ∀ i, vf y 0 i = β i / δ := fun i => by
    rw [eq_div_iff hδ.ne', mul_comm, ← hv0]; rfl
  have hwi : ∀ i, (jac (fun z => vf z 0) y *ᵥ vf y 0) i = w i / δ := fun i => by
    rw [eq_div_iff hδ.ne', mul_comm, ← hw0]; rfl
  have hkT : c * δ ≤ c * T := by gcongr
  have h02 : ∀ i, |A i 0 2| ≤ (1 + c * T) * δ ^ 2 := fun i => by
    rcases hok.kind i with ⟨-, h, -⟩ | ⟨h, -⟩
    · refine near_le (by positivity) h ?_
      have h1 : c * δ ^ 3 ≤ c * T * δ ^ 2 := by
        calc _ = c * δ * δ ^ 2 := by ring
          _ ≤ c * T * δ ^ 2 := by gcongr
      linarith [sq_nonneg δ]
    · rw [h, abs_zero]; positivity
  have huβ : ‖u - β‖ ≤ c * δ ^ 2 * ‖y‖ + (c + (1 + c * T) * L) * δ * ‖β‖ := by
    rw [pi_norm_le_iff_of_nonneg (by positivity)]
    intro i
    rw [Pi.sub_apply, hu, hvi, hwi, show (A i 0 0 - 1) * y i + A i 0 1 * (β i / δ) + A i 0 2 * (w i / δ) - β i =
      (A i 0 0 - 1) * y i + (A i 0 1 - δ) * (β i / δ) + A i 0 2 * (w i / δ) by field_simp; ring, Real.norm_eq_abs]
    have t1 := abs_mul_le' (hok.a00 i) (norm_le_pi_norm y i)
    have t2 : |(A i 0 1 - δ) * (β i / δ)| ≤ c * δ ^ 2 * (‖β‖ / δ) := abs_mul_le' (hok.a01 i) (by
      rw [abs_div, abs_of_pos hδ]
      have := norm_le_pi_norm β i
      rw [Real.norm_eq_abs] at this
      gcongr)
    have t3 : |A i 0 2 * (w i / δ)| ≤ (1 + c * T) * δ ^ 2 * (L * ‖β‖ / δ) := abs_mul_le' (h02 i) (by
      rw [abs_div, abs_of_pos hδ]
      have := (norm_le_pi_norm w i).trans hwn
      rw [Real.norm_eq_abs] at this
      gcongr)
    refine (abs_add_le _ _).trans ((add_le_add_left (abs_add_le _ _) _).trans ?_)
    have p2 : c * δ ^ 2 * (‖β‖ / δ) = c * δ * ‖β‖ := by field_simp
    have p3 : (1 + c * T) * δ ^ 2 * (L * ‖β‖ / δ) = (1 + c * T) * L * δ * ‖β‖ := by field_simp
    linarith
  have hβH' : ‖β‖ ≤ (T + s) * (H + q) := by
    refine hβH.trans ?_
    have h1 : δ * H ≤ T * H := by gcongr
    have h2 : 0 ≤ T * q := by positivity
    have h3 : 0 ≤ s * H := by positivity
    linarith
  have huβ2 : ‖u - β‖ ≤ c1 * δ * (H + q) := by
    refine huβ.trans ?_
    have h1 : c * δ ^ 2 * ‖y‖ ≤ c * T * δ * (H + q) := by
      calc _ = c * δ * δ * ‖y‖ := by ring
        _ ≤ c * T * δ * (H + q) := by
          gcongr
          linarith
    have h2 : (c + (1 + c * T) * L) * δ * ‖β‖ ≤ (c + (1 + c * T) * L) * δ * ((T + s) * (H + q)) := by gcongr
    rw [hc1]
    linarith
  have hun : ‖u‖ ≤ (1 + c1) * δ * H + (s + c1 * T) * q := by
    have h1 := norm_add_le (u - β) β
    rw [sub_add_cancel] at h1
    have h2 : c1 * δ * q ≤ c1 * T * q := by gcongr
    linarith
  have hβn2 : ‖β‖ ≤ (1 + c1) * δ * H + (s + c1 * T) * q := by
    have h2 : 0 ≤ c1 * T * q := by positivity
    have h3 : 0 ≤ c1 * δ * H := by positivity
    linarith
  have hrem : ∀ u', ‖u'‖ ≤ (1 + c1) * δ * H + (s + c1 * T) * q → ‖u' - β‖ ≤ (1 + c1) * δ * (H + q) → ‖f (y + u') (δ + a0) - f y a0 - w‖ ≤ Cr * Z :=
    fun u' h1 h2 => by
      have h3 := hf.expand hL hLt htl (y := y) (u := u') (v := β) hδ0 ha0 (δ := δ) (by rw [add_sub_cancel_right, abs_of_pos hδ]) h1 h2 hK
      rw [hw]
      refine h3.trans ?_
      have h4 := remainder_le hLt hK hL hδ.le hδT hH1 hq0 (c2 := 1 + c1) (c3 := s + c1 * T) (ρ := (1 + c1) * δ * (H + q))
        (r := (1 + c1) * δ * H + (s + c1 * T) * q) (by positivity) (by positivity) (by positivity) le_rfl le_rfl
      rw [← hCr, ← hZ] at h4
      refine le_trans ?_ h4
      have : 1 + ‖y‖ ≤ H := by linarith
      gcongr
  obtain ⟨R1, hR1⟩ : ∃ R1, R1 = f (y + u) (δ + a0) - f y a0 - w := ⟨_, rfl⟩
  obtain ⟨R2, hR2⟩ : ∃ R2, R2 = f (y + β) (δ + a0) - f y a0 - w := ⟨_, rfl⟩
  have hR1n : ‖R1‖ ≤ Cr * Z := by
    rw [hR1]
    refine hrem u hun (huβ2.trans ?_)
    gcongr
    linarith
  have hR2n : ‖R2‖ ≤ Cr * Z := by
    rw [hR2]
    refine hrem β hβn2 ?_
    rw [sub_self, norm_zero]
    positivity
  have hpred : (fun i => A i 0 0 * y i + A i 0 1 * vf y 0 i + A i 0 2 * (jac (fun z => vf z 0) y *ᵥ vf y 0) i) = y + u := by
    funext i
    rw [Pi.add_apply, hu]
    ring
  have hstep : ∀ i, blockAdd f S a0 δ A g y a b i = A i 0 0 * y i + A i 0 1 * vf y 0 i + A i 0 2 * (w i / δ) +
      g i * (vf (y + u) δ i - (A i 1 0 * y i + A i 1 1 * vf y 0 i + A i 1 2 * (w i / δ))) := fun i => by
    simp only [blockAdd, blockStep]
    rw [← hvf, hpred, hwi]
  have htrap : ∀ i, (trapScheme vf δ y 1).1 i = y i + δ * f y a0 i + (S *ᵥ a) i + δ / 2 * w i + δ / 2 * R2 i := fun i => by
    have h1 : (trapScheme vf δ y 1).1 = y + (1 / 2 : ℝ) • (δ • vf y 0 + δ • vf (y + δ • vf y 0) δ) := by
      simp [trapScheme, smul_add, smul_smul]
      ring_nf
    rw [h1, hvd, hv0, show f (y + β) (δ + a0) = R2 + f y a0 + w by rw [hR2]; abel, hβ, mulVec_add, mulVec_sub, mulVec_smul]
    simp only [Pi.add_apply, Pi.sub_apply, Pi.smul_apply, smul_eq_mul]
    ring
  have hv0i : ∀ i, vf y 0 i = f y a0 i + ((S *ᵥ a) i + Real.sqrt 6 * (S *ᵥ b) i) / δ := fun i => by
    rw [hvi, hβ, mulVec_add, mulVec_smul]
    simp only [Pi.add_apply, Pi.smul_apply, smul_eq_mul]
    field_simp
  have hvdi : ∀ i, vf (y + u) δ i = f (y + u) (δ + a0) i + ((S *ᵥ a) i - Real.sqrt 6 * (S *ᵥ b) i) / δ := fun i => by
    have h1 := congrFun (hvd (y + u)) i
    rw [mulVec_sub, mulVec_smul] at h1
    simp only [Pi.add_apply, Pi.sub_apply, Pi.smul_apply, smul_eq_mul] at h1
    field_simp
    linarith
  have hfR : ∀ i, f (y + u) (δ + a0) i = f y a0 i + w i + R1 i := fun i => by
    rw [hR1]
    simp only [Pi.sub_apply]
    ring
  have hyi : ∀ i, |y i| ≤ H := fun i => (norm_le_pi_norm y i).trans (by linarith)
  have hfi : ∀ i, |f y a0 i| ≤ H := fun i => (norm_le_pi_norm (f y a0) i).trans (by linarith)
  have hwZ : ∀ i, δ * |w i| ≤ cw * Z := fun i => by
    have h1 : |w i| ≤ L * (δ * H + s * q) := ((norm_le_pi_norm w i).trans hwn).trans (mul_le_mul_of_nonneg_left hβH hL)
    calc δ * |w i| ≤ δ * (L * (δ * H + s * q)) := by gcongr
      _ = L * (δ * (δ * H) + s * (δ * q)) := by ring
      _ ≤ L * (T * Z + s * ((T + 1) * Z)) := by gcongr
      _ ≤ cw * Z := by
        have : 0 ≤ s * (T + 1) * Z := by positivity
        rw [hcw]; linarith
  have hSZ : ∀ (v : Vec m), ‖v‖ ≤ q → ∀ i, δ * |(S *ᵥ v) i| ≤ cw * Z := fun v hv i => by
    have h1 : |(S *ᵥ v) i| ≤ s * q := ((norm_le_pi_norm (S *ᵥ v) i).trans (hS v)).trans (mul_le_mul_of_nonneg_left hv hs0)
    calc δ * |(S *ᵥ v) i| ≤ δ * (s * q) := by gcongr
      _ = s * (δ * q) := by ring
      _ ≤ s * ((T + 1) * Z) := by gcongr
      _ ≤ cw * Z := by
        have : 0 ≤ L * (T + s * (T + 1)) * Z := by positivity
        rw [hcw]; linarith
  have hR1i : ∀ i, |R1 i| ≤ Cr * Z := fun i => (norm_le_pi_norm R1 i).trans hR1n
  have hR2i : ∀ i, |R2 i| ≤ Cr * Z := fun i => (norm_le_pi_norm R2 i).trans hR2n
  have hSrow : ∀ i, (∀ j, S i j = 0) → ∀ v : Vec m, (S *ᵥ v) i = 0 := fun i h v => by simp [mulVec, dotProduct, h]
  constructor
  · rw [← hvf, pi_norm_le_iff_of_nonneg (by positivity)]
    intro i
    rw [Real.norm_eq_abs, Pi.sub_apply, Pi.add_apply, Pi.smul_apply, smul_eq_mul, hDe, hstep, htrap, hvdi, hfR, hv0i]
    rcases hok.kind i with ⟨hrow, k1, k2, k3⟩ | ⟨k1, k2, k3, k4⟩
    · rw [hSrow i hrow, hSrow i hrow]
      have h1 := block_smooth hδ hc (hyi i) (hfi i) z1 (hwZ i) (hR1i i) (hR2i i) (hok.a00 i) (hok.a10 i) (hok.a01 i) (hok.a11 i) k1 k2 k3
      rw [← hC1] at h1
      simp only [mul_zero, add_zero, sub_zero, zero_div]
      refine h1.trans ?_
      gcongr
      linarith
    · have h1 := block_noisy hδ hδT hc (hyi i) (hfi i) z1 (hwZ i) (hSZ a haq i) (hSZ b hbq i) (hR1i i) (hR2i i) (hok.a00 i) (hok.a10 i) k3 k4
      rw [← hC2] at h1
      rw [k1, k2, zero_mul, add_zero, add_zero]
      refine h1.trans ?_
      gcongr
      linarith
  · obtain ⟨G, hG⟩ : ∃ G, G = 1 + ‖y‖ + q := ⟨_, rfl⟩
    have hG0 : 0 ≤ G := by rw [hG]; positivity
    have hG1 : 1 ≤ G := by rw [hG]; linarith
    have hyG : ‖y‖ ≤ G := by rw [hG]; linarith
    have hqG : q ≤ G := by rw [hG]; linarith
    rw [← hG]
    have hfb : ∀ x, ∀ t ∈ Icc 0 T, ‖f x t‖ ≤ F0 + L * ‖x‖ := fun x t ht => by
      have h1 := hf.lip x 0 t ht
      have h2 := hF0 t ht
      rw [sub_zero] at h1
      have h3 := norm_le_norm_add_norm_sub' (f x t) (f 0 t)
      linarith
    have hfy : ‖f y a0‖ ≤ (F0 + L) * G := by
      refine (hfb y a0 ha0).trans ?_
      have h1 : L * ‖y‖ ≤ L * G := by gcongr
      have h2 : F0 * 1 ≤ F0 * G := by gcongr
      linarith
    have hβG : ‖β‖ ≤ cβ * G := by
      refine hβn.trans ?_
      have h1 : δ * ‖f y a0‖ ≤ T * ((F0 + L) * G) := by gcongr
      have h2 : s * q ≤ s * G := by gcongr
      rw [hcβ]
      linarith
    have huG : ‖u‖ ≤ (cβ + (c * T ^ 2 + (c + (1 + c * T) * L) * T * cβ)) * G := by
      have h1 := norm_add_le (u - β) β
      rw [sub_add_cancel] at h1
      have h2 : c * δ ^ 2 * ‖y‖ ≤ c * T ^ 2 * G := by gcongr
      have h3 : (c + (1 + c * T) * L) * δ * ‖β‖ ≤ (c + (1 + c * T) * L) * T * (cβ * G) := by gcongr
      linarith
    have hfuG : ‖f (y + u) (δ + a0)‖ ≤ (F0 + L * (1 + (cβ + (c * T ^ 2 + (c + (1 + c * T) * L) * T * cβ)))) * G := by
      refine (hfb (y + u) _ hδ0).trans ?_
      have h1 := norm_add_le y u
      have h2 : L * ‖y + u‖ ≤ L * (G + (cβ + (c * T ^ 2 + (c + (1 + c * T) * L) * T * cβ)) * G) := by
        gcongr
        linarith
      have h3 : F0 * 1 ≤ F0 * G := by gcongr
      linarith
    have q1 : 0 ≤ (F0 + L) * G := by positivity
    have q2 : 0 ≤ L * cβ * G := by positivity
    have q3 : 0 ≤ s * G := by positivity
    have q4 : 0 ≤ (F0 + L * (1 + (cβ + (c * T ^ 2 + (c + (1 + c * T) * L) * T * cβ)))) * G := by positivity
    have e : cf * G = (F0 + L) * G + L * cβ * G + s * G + (F0 + L * (1 + (cβ + (c * T ^ 2 + (c + (1 + c * T) * L) * T * cβ)))) * G := by rw [hcf]; ring
    have gy : ∀ i, |y i| ≤ G := fun i => (norm_le_pi_norm y i).trans hyG
    have gf : ∀ i, |f y a0 i| ≤ cf * G := fun i => (norm_le_pi_norm (f y a0) i).trans (by linarith)
    have gfu : ∀ i, |f (y + u) (δ + a0) i| ≤ cf * G := fun i => (norm_le_pi_norm (f (y + u) (δ + a0)) i).trans (by linarith)
    have gw : ∀ i, |w i| ≤ cf * G := fun i => (norm_le_pi_norm w i).trans (hwn.trans (by
      have : L * ‖β‖ ≤ L * (cβ * G) := by gcongr
      linarith))
    have gS : ∀ (v : Vec m), ‖v‖ ≤ q → ∀ i, |(S *ᵥ v) i| ≤ cf * G := fun v hv i => by
      have h1 : |(S *ᵥ v) i| ≤ s * q := ((norm_le_pi_norm (S *ᵥ v) i).trans (hS v)).trans (mul_le_mul_of_nonneg_left hv hs0)
      have h2 : s * q ≤ s * G := by gcongr
      linarith
    rw [pi_norm_le_iff_of_nonneg (by positivity)]
    intro i
    rw [Real.norm_eq_abs, Pi.sub_apply, Pi.sub_apply, hstep, hvdi, hv0i]
    rcases hok.kind i with ⟨hrow, k1, k2, k3⟩ | ⟨k1, k2, k3, k4⟩
    · rw [hSrow i hrow, hSrow i hrow]
      have h1 := block_smooth_growth hδ hδT hc (gy i) (gf i) (gfu i) (gw i) (hok.a00 i) (hok.a10 i) (hok.a01 i) (hok.a11 i) k1 k2 k3
      rw [← hC3] at h1
      simp only [mul_zero, add_zero, sub_zero, zero_div]
      refine h1.trans ?_
      gcongr
      linarith
    · have h1 := block_noisy_growth hδ hδT hc (gy i) (gf i) (gfu i) (gS a haq i) (gS b hbq i) (hok.a00 i) (hok.a10 i) (hok.a01 i) (hok.a11 i) k3 k4
      rw [← hC4] at h1
      rw [k1, k2, zero_mul, add_zero, add_zero]
      refine h1.trans ?_
      gcongr
      linarith

end Verif
