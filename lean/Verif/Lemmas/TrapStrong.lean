import Verif.Lemmas.Strong
import Verif.Spec.Ekf

/-! One interval of length `δ` of an SDE with additive noise: expansion of the exact solution and of the explicit trapezoidal
scheme with predicted slopes, in powers of `δ` and of the size of the noise. -/

namespace Verif

open Matrix Spec Jnp Set MeasureTheory

variable {d m : ℕ}

/-- The Jacobian of a Lipschitz field is bounded. -/
theorem Spec.SmoothField.norm_jac_le {f : Vec d → ℝ → Vec d} {Df : Vec d → ℝ → Vec d →L[ℝ] Vec d} {T L K : ℝ}
    (h : SmoothField f Df T L K) (hL : 0 ≤ L) {t : ℝ} (ht : t ∈ Icc 0 T) (x : Vec d) : ‖Df x t‖ ≤ L :=
  (h.deriv x t ht).le_of_lip' hL (Filter.Eventually.of_forall fun z => h.lip z x t ht)

/-- First order expansion of the field around a state and a time. -/
theorem Spec.SmoothField.expand {f : Vec d → ℝ → Vec d} {Df : Vec d → ℝ → Vec d →L[ℝ] Vec d} {T L K Lt : ℝ}
    (h : SmoothField f Df T L K) (hL : 0 ≤ L) (hLt : 0 ≤ Lt) (ht : TimeLipschitz f T Lt) {y u v : Vec d} {t t0 δ ρ r : ℝ}
    (ht1 : t ∈ Icc 0 T) (ht0 : t0 ∈ Icc 0 T) (htt : |t - t0| ≤ δ) (hu : ‖u‖ ≤ r) (huv : ‖u - v‖ ≤ ρ) (hK : 0 ≤ K) :
    ‖f (y + u) t - f y t0 - Df y t0 v‖ ≤ Lt * (1 + ‖y‖ + r) * δ + K * r ^ 2 + L * ρ := by
  have hr : 0 ≤ r := (norm_nonneg _).trans hu
  have hδ : 0 ≤ δ := (abs_nonneg _).trans htt
  have h1 : ‖f (y + u) t - f (y + u) t0‖ ≤ Lt * (1 + ‖y‖ + r) * δ := by
    refine (ht (y + u) t ht1 t0 ht0).trans ?_
    have := norm_add_le y u
    have h2 : 1 + ‖y + u‖ ≤ 1 + ‖y‖ + r := by linarith
    have h3 : 0 ≤ 1 + ‖y + u‖ := by positivity
    gcongr
  have h2 : ‖f (y + u) t0 - f y t0 - Df y t0 u‖ ≤ K * r ^ 2 := by
    have := (convex_closedBall y r).norm_image_sub_le_of_norm_hasFDerivWithin_le' (f := fun z => f z t0) (f' := fun z => Df z t0)
      (φ := Df y t0) (C := K * r) (x := y) (y := y + u)
      (fun z _ => (h.deriv z t0 ht0).hasFDerivWithinAt) (fun z hz => by
        refine (h.jac z y t0 ht0 t0 ht0).trans (mul_le_mul_of_nonneg_left ?_ hK)
        rw [sub_self, abs_zero, add_zero]
        exact mem_closedBall_iff_norm.mp hz) (by simpa using hr) (by simpa [mem_closedBall_iff_norm] using hu)
    rw [add_sub_cancel_left] at this
    refine this.trans ?_
    rw [sq, ← mul_assoc]
    gcongr
  have h3 : ‖Df y t0 (u - v)‖ ≤ L * ρ :=
    ((Df y t0).le_opNorm _).trans (mul_le_mul (h.norm_jac_le hL ht0 y) huv (norm_nonneg _) hL)
  have e : f (y + u) t - f y t0 - Df y t0 v = (f (y + u) t - f (y + u) t0) + (f (y + u) t0 - f y t0 - Df y t0 u) + Df y t0 (u - v) := by
    rw [map_sub]; abel
  rw [e]
  exact (norm_add_le _ _).trans (add_le_add ((norm_add_le _ _).trans (add_le_add h1 h2)) h3)

/-- The remainder of the expansion in the two small quantities `δ` and `Q`. -/
theorem remainder_le {Lt K L T δ H Q ρ r c2 c3 : ℝ} (hLt : 0 ≤ Lt) (hK : 0 ≤ K) (hL : 0 ≤ L) (hδ : 0 ≤ δ) (hδT : δ ≤ T) (hH : 1 ≤ H)
    (hQ : 0 ≤ Q) (hc2 : 0 ≤ c2) (hc3 : 0 ≤ c3) (hr0 : 0 ≤ r) (hρ : ρ ≤ c2 * δ * (H + Q)) (hr : r ≤ c2 * δ * H + c3 * Q) :
    Lt * (H + r) * δ + K * r ^ 2 + L * ρ ≤
      (Lt * (1 + c2 * T) + Lt * c3 * (1 + T) + 2 * K * c2 ^ 2 * T + 2 * K * c3 ^ 2 + L * c2 * (2 + T)) * (δ * H ^ 2 + Q ^ 2) := by
  have hH0 : 0 ≤ H := by linarith
  have hT : 0 ≤ T := hδ.trans hδT
  set Z := δ * H ^ 2 + Q ^ 2 with hZ
  have hHH : H ≤ H ^ 2 := by nlinarith
  have z1 : δ * H ≤ Z := by
    have := mul_le_mul_of_nonneg_left hHH hδ
    have := sq_nonneg Q
    linarith
  have z2 : δ * Q ≤ (1 + T) * Z := by
    have h1 : δ * Q ≤ δ ^ 2 + Q ^ 2 := by nlinarith [sq_nonneg (δ - Q), sq_nonneg δ, sq_nonneg Q]
    have h2 : δ ^ 2 ≤ T * (δ * H ^ 2) := by
      have h3 : (1 : ℝ) ≤ H ^ 2 := by nlinarith
      have h4 : δ * 1 ≤ δ * H ^ 2 := mul_le_mul_of_nonneg_left h3 hδ
      have h5 : δ * δ ≤ T * (δ * H ^ 2) := mul_le_mul hδT (by linarith) hδ hT
      linarith
    have h6 := sq_nonneg Q
    have h7 : 0 ≤ T * Q ^ 2 := by positivity
    have h8 : 0 ≤ δ * H ^ 2 := by positivity
    rw [hZ]
    nlinarith
  have z3 : δ ^ 2 * H ^ 2 ≤ T * Z := by
    have h1 : δ * (δ * H ^ 2) ≤ T * (δ * H ^ 2) := mul_le_mul_of_nonneg_right hδT (by positivity)
    have h2 : 0 ≤ T * Q ^ 2 := by positivity
    rw [hZ]
    nlinarith
  have z4 : Q ^ 2 ≤ Z := by
    have : 0 ≤ δ * H ^ 2 := by positivity
    linarith
  have z5 : c2 * (δ ^ 2 * H) ≤ c2 * T * Z := by
    have h1 : δ * (δ * H) ≤ T * Z := mul_le_mul hδT z1 (by positivity) hT
    have := mul_le_mul_of_nonneg_left h1 hc2
    nlinarith
  have hr2 : r ^ 2 ≤ 2 * (c2 * δ * H) ^ 2 + 2 * (c3 * Q) ^ 2 := by
    have h1 : r ^ 2 ≤ (c2 * δ * H + c3 * Q) ^ 2 := pow_le_pow_left₀ hr0 hr 2
    nlinarith [sq_nonneg (c2 * δ * H - c3 * Q)]
  have t1 : Lt * (H + r) * δ ≤ Lt * (1 + c2 * T) * Z + Lt * c3 * (1 + T) * Z := by
    have h1 : (H + r) * δ ≤ (H + (c2 * δ * H + c3 * Q)) * δ := mul_le_mul_of_nonneg_right (by linarith) hδ
    have h2 : (H + (c2 * δ * H + c3 * Q)) * δ = δ * H + c2 * (δ ^ 2 * H) + c3 * (δ * Q) := by ring
    have h3 := mul_le_mul_of_nonneg_left z2 hc3
    have h4 : (H + r) * δ ≤ (1 + c2 * T) * Z + c3 * (1 + T) * Z := by linarith
    have := mul_le_mul_of_nonneg_left h4 hLt
    linarith
  have t2 : K * r ^ 2 ≤ 2 * K * c2 ^ 2 * T * Z + 2 * K * c3 ^ 2 * Z := by
    have h1 := mul_le_mul_of_nonneg_left z3 (by positivity : 0 ≤ 2 * c2 ^ 2)
    have h2 := mul_le_mul_of_nonneg_left z4 (by positivity : 0 ≤ 2 * c3 ^ 2)
    have h3 : r ^ 2 ≤ 2 * c2 ^ 2 * (T * Z) + 2 * c3 ^ 2 * Z := by nlinarith
    have := mul_le_mul_of_nonneg_left h3 hK
    linarith
  have t3 : L * ρ ≤ L * c2 * (2 + T) * Z := by
    have h1 : c2 * (δ * H + δ * Q) ≤ c2 * (Z + (1 + T) * Z) := mul_le_mul_of_nonneg_left (by linarith) hc2
    have h2 : ρ ≤ c2 * (2 + T) * Z := by linarith
    have := mul_le_mul_of_nonneg_left h2 hL
    linarith
  linarith

/-- The exact solution over one interval. -/
theorem exact_expansion {f : Vec d → ℝ → Vec d} {Df : Vec d → ℝ → Vec d →L[ℝ] Vec d} {T L K Lt : ℝ} (hf : SmoothField f Df T L K)
    (hL : 0 ≤ L) (hK : 0 ≤ K) (hLt : 0 ≤ Lt) (htl : TimeLipschitz f T Lt) {S : Mat d m} {s : ℝ} (hs0 : 0 ≤ s)
    (hS : ∀ v, ‖S *ᵥ v‖ ≤ s * ‖v‖) {w : ℝ → Vec m} (hw : ContinuousOn w (Icc 0 T)) {x0 : Vec d} {x : ℝ → Vec d}
    (hx : SolvesAdditive f S w x0 T x) {a0 δ : ℝ} (hδ : 0 < δ) (ha : 0 ≤ a0) (haδ : a0 + δ ≤ T) {a b : Vec m}
    (hab : SameEndAndArea (fun t => Foster.evalParabola t δ a b) w a0 δ) {W F H : ℝ}
    (hW : ∀ t ∈ Icc 0 δ, ‖w (a0 + t) - w a0‖ ≤ W) (hF : ∀ t ∈ Icc 0 T, ‖f (x t) t‖ ≤ F) (hH : 1 + ‖x a0‖ + F ≤ H) :
    ‖x (a0 + δ) - (x a0 + S *ᵥ a + δ • f (x a0) a0 + δ • Df (x a0) a0 (S *ᵥ ((1 / 2 : ℝ) • a + (1 / Real.sqrt 6) • b)))‖ ≤
      δ * ((Lt * (1 + T) + Lt * s * (1 + T) + 2 * K * T + 2 * K * s ^ 2 + L * (2 + T)) * (δ * H ^ 2 + W ^ 2)) := by
  have h0m : (0 : ℝ) ∈ Icc 0 δ := ⟨le_rfl, hδ.le⟩
  have h1m : δ ∈ Icc 0 δ := ⟨hδ.le, le_rfl⟩
  have hin : ∀ {t}, t ∈ Icc 0 δ → a0 + t ∈ Icc 0 T := fun ht => ⟨by linarith [ht.1], by linarith [ht.2]⟩
  have ha0 : a0 ∈ Icc 0 T := by simpa using hin h0m
  have hF0 : 0 ≤ F := (norm_nonneg _).trans (hF a0 ha0)
  have hW0 : 0 ≤ W := (norm_nonneg _).trans (hW δ h1m)
  have hny := norm_nonneg (x a0)
  have hH1 : 1 ≤ H := by linarith
  have hδT : δ ≤ T := by linarith
  have hwc : ContinuousOn (fun t => w (a0 + t)) (Icc 0 δ) := hw.comp (by fun_prop) fun t ht => hin ht
  have hxc : ContinuousOn (fun t => x (a0 + t)) (Icc 0 δ) := hx.cont.comp (by fun_prop) fun t ht => hin ht
  have hSc : Continuous fun v : Vec m => S *ᵥ v := (Matrix.mulVecLin S).continuous_of_finiteDimensional
  have hsh := hf.shift ha haδ
  have hfx : ContinuousOn (fun s => f (x (a0 + s)) (s + a0)) (Icc 0 δ) := hsh.cont.comp_continuousOn (hxc.prodMk continuousOn_id)
  have hUc : ContinuousOn (fun t => S *ᵥ (w (a0 + t) - w a0)) (Icc 0 δ) := hSc.comp_continuousOn (hwc.sub continuousOn_const)
  have hint : ∀ {Z : ℝ → Vec d}, ContinuousOn Z (Icc 0 δ) → IntervalIntegrable Z volume 0 δ :=
    fun hZ => (hZ.mono (uIcc_subset_Icc h0m h1m)).intervalIntegrable
  -- the area
  have hA : ∫ t in (0 : ℝ)..δ, S *ᵥ (w (a0 + t) - w a0) = δ • (S *ᵥ ((1 / 2 : ℝ) • a + (1 / Real.sqrt 6) • b)) := by
    have h1 : ∫ t in (0 : ℝ)..δ, S *ᵥ (w (a0 + t) - w a0) = S *ᵥ ∫ t in (0 : ℝ)..δ, (w (a0 + t) - w a0) := by
      have := (LinearMap.toContinuousLinearMap (Matrix.mulVecLin S)).intervalIntegral_comp_comm (μ := volume) (a := 0) (b := δ)
        (f := fun t => w (a0 + t) - w a0) ((hwc.sub continuousOn_const).mono (uIcc_subset_Icc h0m h1m)).intervalIntegrable
      exact this
    have h2 : ∫ t in (0 : ℝ)..δ, (w (a0 + t) - w a0) = δ • ((1 / 2 : ℝ) • a + (1 / Real.sqrt 6) • b) := by
      funext j
      have h3 := ContinuousLinearMap.intervalIntegral_comp_comm (ContinuousLinearMap.proj (R := ℝ) (φ := fun _ : Fin m => ℝ) j)
        (μ := volume) (a := 0) (b := δ)
        (f := fun t => w (a0 + t) - w a0) ((hwc.sub continuousOn_const).mono (uIcc_subset_Icc h0m h1m)).intervalIntegrable
      have h4 := hab.area j
      have e : ∫ s in (0 : ℝ)..δ, Foster.evalParabola s δ a b j = δ * (a j / 2 + b j / Real.sqrt 6) :=
        Foster.integral_evalParabola1 δ (a j) (b j) hδ.ne'
      rw [e] at h4
      refine h3.symm.trans (h4.symm.trans ?_)
      simp only [Pi.smul_apply, Pi.add_apply, smul_eq_mul]
      ring
    rw [h1, h2, mulVec_smul]
  have hend : x (a0 + δ) = x a0 + (∫ s in (0 : ℝ)..δ, f (x (a0 + s)) (s + a0)) + S *ᵥ a := by
    rw [hx.restart hf.cont ha haδ h1m, ← hab.atEnd]
    congr 2
    exact evalParabola_end hδ.ne' a b
  have hDint : ∫ t in (0 : ℝ)..δ, Df (x a0) a0 (S *ᵥ (w (a0 + t) - w a0)) =
      δ • Df (x a0) a0 (S *ᵥ ((1 / 2 : ℝ) • a + (1 / Real.sqrt 6) • b)) := by
    rw [ContinuousLinearMap.intervalIntegral_comp_comm _ (hint hUc), hA, map_smul]
  have hconst : ∫ _ in (0 : ℝ)..δ, f (x a0) a0 = δ • f (x a0) a0 := by simp
  have e : x (a0 + δ) - (x a0 + S *ᵥ a + δ • f (x a0) a0 + δ • Df (x a0) a0 (S *ᵥ ((1 / 2 : ℝ) • a + (1 / Real.sqrt 6) • b))) =
      ∫ t in (0 : ℝ)..δ, (f (x (a0 + t)) (t + a0) - f (x a0) a0 - Df (x a0) a0 (S *ᵥ (w (a0 + t) - w a0))) := by
    have i1 : IntervalIntegrable (fun _ : ℝ => f (x a0) a0) volume 0 δ := intervalIntegrable_const
    have i2 : IntervalIntegrable (fun t => Df (x a0) a0 (S *ᵥ (w (a0 + t) - w a0))) volume 0 δ :=
      hint ((Df (x a0) a0).continuous.comp_continuousOn hUc)
    rw [intervalIntegral.integral_sub ((hint hfx).sub i1) i2, intervalIntegral.integral_sub (hint hfx) i1, hDint, hconst, hend]
    abel
  rw [e]
  have hb : ∀ t ∈ uIoc 0 δ, ‖f (x (a0 + t)) (t + a0) - f (x a0) a0 - Df (x a0) a0 (S *ᵥ (w (a0 + t) - w a0))‖ ≤
      (Lt * (1 + T) + Lt * s * (1 + T) + 2 * K * T + 2 * K * s ^ 2 + L * (2 + T)) * (δ * H ^ 2 + W ^ 2) := by
    intro t ht
    rw [uIoc_of_le hδ.le] at ht
    have ht' := Ioc_subset_Icc_self ht
    have hI : ‖∫ r in (0 : ℝ)..t, f (x (a0 + r)) (r + a0)‖ ≤ δ * F := by
      have := intervalIntegral.norm_integral_le_of_norm_le_const (a := 0) (b := t) (C := F) (f := fun r => f (x (a0 + r)) (r + a0))
        fun r hr => by
          rw [uIoc_of_le ht'.1] at hr
          have := hF (a0 + r) (hin ⟨hr.1.le, hr.2.trans ht'.2⟩)
          rwa [add_comm r a0]
      rw [sub_zero, abs_of_nonneg ht'.1] at this
      exact this.trans (by rw [mul_comm]; exact mul_le_mul_of_nonneg_right ht'.2 hF0)
    have hu : x (a0 + t) - x a0 = (∫ r in (0 : ℝ)..t, f (x (a0 + r)) (r + a0)) + S *ᵥ (w (a0 + t) - w a0) := by
      rw [hx.restart hf.cont ha haδ ht']; abel
    have hSw : ‖S *ᵥ (w (a0 + t) - w a0)‖ ≤ s * W := (hS _).trans (mul_le_mul_of_nonneg_left (hW t ht') hs0)
    have h1 := hf.expand hL hLt htl (y := x a0) (u := x (a0 + t) - x a0) (v := S *ᵥ (w (a0 + t) - w a0)) (t := t + a0) (t0 := a0)
      (δ := δ) (ρ := δ * F) (r := δ * F + s * W) (by rw [add_comm]; exact hin ht') ha0
      (by rw [add_sub_cancel_right, abs_of_nonneg ht'.1]; exact ht'.2)
      (by rw [hu]; exact (norm_add_le _ _).trans (add_le_add hI hSw)) (by rw [hu, add_sub_cancel_right]; exact hI) hK
    rw [add_sub_cancel] at h1
    refine h1.trans ?_
    have hFH : F ≤ H := by linarith
    have h2 := remainder_le (ρ := δ * F) (r := δ * F + s * W) (c2 := 1) (c3 := s) hLt hK hL hδ.le hδT hH1 hW0 zero_le_one hs0
      (by positivity) (by
        rw [one_mul]
        exact mul_le_mul_of_nonneg_left (by linarith) hδ.le) (by
        rw [one_mul]
        have := mul_le_mul_of_nonneg_left hFH hδ.le
        linarith)
    rw [one_mul, one_pow, mul_one, mul_one] at h2
    refine le_trans ?_ h2
    have h3 : Lt * (1 + ‖x a0‖ + (δ * F + s * W)) * δ ≤ Lt * (H + (δ * F + s * W)) * δ := by
      gcongr
      linarith
    linarith
  have := intervalIntegral.norm_integral_le_of_norm_le_const hb
  rw [sub_zero, abs_of_pos hδ] at this
  rw [mul_comm δ]
  exact this

end Verif
