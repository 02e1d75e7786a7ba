import Verif.Lemmas.AdditiveOde
import Verif.Lemmas.OdeExists
import Verif.Lemmas.Foster

/-! Helper lemmas for the strong convergence of `sde_solver` on SDEs with additive noise. -/

namespace Verif

open Matrix Spec Jnp Set MeasureTheory

variable {d m : ℕ}

theorem evalParabola_end {δ : ℝ} (hδ : δ ≠ 0) (a b : Vec m) : Foster.evalParabola δ δ a b = a := by
  funext j
  simp [Foster.evalParabola, Foster.evalParabola1, hδ]

theorem continuous_evalParabola (δ : ℝ) (a b : Vec m) : Continuous fun t => Foster.evalParabola t δ a b :=
  continuous_pi fun j => Foster.continuous_evalParabola1 δ (a j) (b j)

/-- The parabola that agrees with a path in end point and integral is bounded by a multiple of the path. -/
theorem parabola_le {δ W a0 : ℝ} (hδ : 0 < δ) {a b : Vec m} {w : ℝ → Vec m}
    (h : SameEndAndArea (fun t => Foster.evalParabola t δ a b) w a0 δ) (hW : ∀ t ∈ Icc 0 δ, ‖w (a0 + t) - w a0‖ ≤ W) {t : ℝ}
    (ht : t ∈ Icc 0 δ) : ‖Foster.evalParabola t δ a b‖ ≤ 13 / 4 * W := by
  have hW0 : 0 ≤ W := (norm_nonneg _).trans (hW t ht)
  rw [pi_norm_le_iff_of_nonneg (by positivity)]
  intro j
  have hj : ∀ s ∈ Icc 0 δ, |w (a0 + s) j - w a0 j| ≤ W := fun s hs => (norm_le_pi_norm (w (a0 + s) - w a0) j).trans (hW s hs)
  have ha : |a j| ≤ W := by
    have h1 := congrFun h.atEnd j
    rw [evalParabola_end hδ.ne'] at h1
    rw [h1]
    exact hj δ ⟨hδ.le, le_rfl⟩
  have hI : |∫ s in (0 : ℝ)..δ, (w (a0 + s) j - w a0 j)| ≤ W * δ := by
    have := intervalIntegral.norm_integral_le_of_norm_le_const (a := 0) (b := δ) (C := W)
      (f := fun s => w (a0 + s) j - w a0 j) (fun s hs => by
        rw [uIoc_of_le hδ.le] at hs
        exact hj s (Ioc_subset_Icc_self hs))
    rwa [sub_zero, abs_of_pos hδ] at this
  have harea := h.area j
  have e : ∫ s in (0 : ℝ)..δ, Foster.evalParabola s δ a b j = δ * (a j / 2 + b j / Real.sqrt 6) :=
    Foster.integral_evalParabola1 δ (a j) (b j) hδ.ne'
  rw [e] at harea
  rw [← harea, abs_mul, abs_of_pos hδ, mul_comm] at hI
  have hI' := le_of_mul_le_mul_right hI hδ
  have h6 : 0 < Real.sqrt 6 := by positivity
  have hb : |b j| * Real.sqrt 6 ≤ 9 * W := by
    have h1 : |b j / Real.sqrt 6| ≤ 3 / 2 * W := by
      have : |b j / Real.sqrt 6| ≤ |a j / 2 + b j / Real.sqrt 6| + |a j / 2| := by
        have := abs_sub (a j / 2 + b j / Real.sqrt 6) (a j / 2)
        rwa [add_sub_cancel_left] at this
      rw [abs_div (a j), abs_of_pos (by norm_num : (0 : ℝ) < 2)] at this
      linarith
    rw [abs_div, abs_of_pos h6, div_le_iff₀ h6] at h1
    have h2 := mul_le_mul_of_nonneg_right h1 h6.le
    have h3 := Foster.sqrt6_sq
    nlinarith
  have hu0 : 0 ≤ t / δ := div_nonneg ht.1 hδ.le
  have hu1 : t / δ ≤ 1 := (div_le_one hδ).mpr ht.2
  rw [Real.norm_eq_abs]
  simp only [Foster.evalParabola, Foster.evalParabola1]
  generalize t / δ = u at hu0 hu1
  have hq : 0 ≤ u * (1 - u) ∧ u * (1 - u) ≤ 1 / 4 := ⟨mul_nonneg hu0 (by linarith), by nlinarith [sq_nonneg (u - 1 / 2)]⟩
  calc |a j * u + b j * Real.sqrt 6 * u * (1 - u)| ≤ |a j * u| + |b j * Real.sqrt 6 * u * (1 - u)| := abs_add_le _ _
    _ = |a j| * u + |b j| * Real.sqrt 6 * (u * (1 - u)) := by
        rw [mul_assoc (b j * Real.sqrt 6), abs_mul, abs_mul (b j * Real.sqrt 6), abs_of_nonneg hu0, abs_of_nonneg hq.1, abs_mul,
          abs_of_pos h6]
    _ ≤ W * 1 + 9 * W * (1 / 4) := add_le_add (mul_le_mul ha hu1 hu0 hW0) (mul_le_mul hb hq.2 hq.1 (by positivity))
    _ = 13 / 4 * W := by ring

/-- A solution along a path, restarted at the time `a`. -/
theorem Spec.SolvesAdditive.restart {f : Vec d → ℝ → Vec d} {S : Mat d m} {w : ℝ → Vec m} {x0 : Vec d} {T : ℝ} {x : ℝ → Vec d}
    (h : SolvesAdditive f S w x0 T x) (hf : Continuous (Function.uncurry f)) {a δ : ℝ} (ha : 0 ≤ a) (haδ : a + δ ≤ T) {t : ℝ}
    (ht : t ∈ Icc 0 δ) :
    x (a + t) = x a + (∫ s in (0 : ℝ)..t, f (x (a + s)) (s + a)) + S *ᵥ (w (a + t) - w a) := by
  have hm : a ∈ Icc 0 T := ⟨ha, by linarith [ht.1, ht.2]⟩
  have hm' : a + t ∈ Icc 0 T := ⟨by linarith [ht.1], by linarith [ht.2]⟩
  have hc : ContinuousOn (fun s => f (x s) s) (Icc 0 T) := hf.comp_continuousOn (h.cont.prodMk continuousOn_id)
  have hi : ∀ {p q : ℝ}, p ∈ Icc 0 T → q ∈ Icc 0 T → IntervalIntegrable (fun s => f (x s) s) volume p q := fun hp hq =>
    (hc.mono (uIcc_subset_Icc hp hq)).intervalIntegrable
  have h0 : (0 : ℝ) ∈ Icc 0 T := ⟨le_rfl, hm.1.trans hm.2⟩
  rw [h.eq _ hm', h.eq _ hm, ← intervalIntegral.integral_add_adjacent_intervals (hi h0 hm) (hi hm hm')]
  have e : ∫ s in (0 : ℝ)..t, f (x (a + s)) (s + a) = ∫ s in a..(a + t), f (x s) s := by
    have := intervalIntegral.integral_comp_add_left (a := 0) (b := t) (fun s => f (x s) s) a
    rw [add_zero] at this
    rw [← this]
    refine intervalIntegral.integral_congr fun s _ => ?_
    rw [add_comm s a]
  rw [e, mulVec_sub, mulVec_sub, mulVec_sub]
  abel

/-- One interval of the exact solution and of the solution driven by the matching parabola. -/
theorem strong_interval {f : Vec d → ℝ → Vec d} {Df : Vec d → ℝ → Vec d →L[ℝ] Vec d} {T L K : ℝ} (hf : SmoothField f Df T L K)
    (hL : 0 ≤ L) {S : Mat d m} {s : ℝ} (hs0 : 0 ≤ s) (hS : ∀ v, ‖S *ᵥ v‖ ≤ s * ‖v‖) {w : ℝ → Vec m} (hw : ContinuousOn w (Icc 0 T)) {x0 : Vec d}
    {x : ℝ → Vec d} (hx : SolvesAdditive f S w x0 T x) {a0 δ : ℝ} (hδ : 0 < δ) (ha : 0 ≤ a0) (haδ : a0 + δ ≤ T) {a b : Vec m}
    (hab : SameEndAndArea (fun t => Foster.evalParabola t δ a b) w a0 δ) {W F : ℝ}
    (hW : ∀ t ∈ Icc 0 δ, ‖w (a0 + t) - w a0‖ ≤ W) (hF : ∀ t ∈ Icc 0 T, ‖f (x t) t‖ ≤ F) {y : ℝ → Vec d}
    (hy : ∀ t ∈ Icc 0 δ, HasDerivWithinAt y (f (y t) (t + a0) + S *ᵥ jacT (fun t => Foster.evalParabola t δ a b) t) (Icc 0 δ) t) :
    ‖x (a0 + δ) - y δ‖ ≤ (1 + L * δ * Real.exp (L * δ)) * ‖x a0 - y 0‖ +
      ((L * δ) ^ 2 * Real.exp (L * δ) + δ * K * (δ * F + 21 / 4 * (s * W) + δ)) * (17 / 4 * (s * W)) := by
  have h0m : (0 : ℝ) ∈ Icc 0 δ := ⟨le_rfl, hδ.le⟩
  have h1m : δ ∈ Icc 0 δ := ⟨hδ.le, le_rfl⟩
  have hin : ∀ {t}, t ∈ Icc 0 δ → a0 + t ∈ Icc 0 T := fun ht => ⟨by linarith [ht.1], by linarith [ht.2]⟩
  set p : ℝ → Vec m := fun t => Foster.evalParabola t δ a b with hp
  have hpc : Continuous p := continuous_evalParabola δ a b
  have hp0 : p 0 = 0 := by funext j; simp [hp, Foster.evalParabola, Foster.evalParabola1]
  have hW0 : 0 ≤ W := (norm_nonneg _).trans (hW δ h1m)
  have hwc : ContinuousOn (fun t => w (a0 + t)) (Icc 0 δ) :=
    hw.comp (by fun_prop) fun t ht => hin ht
  have hxc : ContinuousOn (fun t => x (a0 + t)) (Icc 0 δ) :=
    hx.cont.comp (by fun_prop) fun t ht => hin ht
  have hyc : ContinuousOn y (Icc 0 δ) := fun t ht => (hy t ht).continuousWithinAt
  have hSc : Continuous fun v : Vec m => S *ᵥ v := (Matrix.mulVecLin S).continuous_of_finiteDimensional
  have hsh := hf.shift ha haδ
  have hfy : ContinuousOn (fun s => f (y s) (s + a0)) (Icc 0 δ) := hsh.cont.comp_continuousOn (hyc.prodMk continuousOn_id)
  have hfx : ContinuousOn (fun s => f (x (a0 + s)) (s + a0)) (Icc 0 δ) :=
    hsh.cont.comp_continuousOn (hxc.prodMk continuousOn_id)
  have hint : ∀ {Z : ℝ → Vec d} {t : ℝ}, t ∈ Icc 0 δ → ContinuousOn Z (Icc 0 δ) → IntervalIntegrable Z volume 0 t :=
    fun ht hZ => (hZ.mono (uIcc_subset_Icc h0m ht)).intervalIntegrable
  have hyeq : ∀ t ∈ Icc 0 δ, y t = y 0 + (∫ r in (0 : ℝ)..t, f (y r) (r + a0)) + S *ᵥ p t := by
    intro t ht
    have hpd : ∀ r, HasDerivAt (fun r => S *ᵥ p r) (S *ᵥ jacT p r) r := fun r => by
      have h1 : HasDerivAt p (jacT p r) r := hasDerivAt_pi.mpr fun j =>
        (Foster.hasDerivAt_evalParabola1 r δ (a j) (b j)).differentiableAt.hasDerivAt
      exact (LinearMap.toContinuousLinearMap (Matrix.mulVecLin S)).hasFDerivAt.comp_hasDerivAt r h1
    have hz : ∀ r ∈ Icc 0 δ, HasDerivWithinAt (fun r => y r - S *ᵥ p r) (f (y r) (r + a0)) (Icc 0 δ) r := fun r hr => by
      have := (hy r hr).sub (hpd r).hasDerivWithinAt
      refine this.congr_deriv ?_
      rw [add_sub_cancel_right]
    have hsub : Icc 0 t ⊆ Icc 0 δ := Icc_subset_Icc le_rfl ht.2
    have := intervalIntegral.integral_eq_sub_of_hasDeriv_right_of_le (f := fun r => y r - S *ᵥ p r)
      (f' := fun r => f (y r) (r + a0)) ht.1 (fun r hr => ((hz r (hsub hr)).continuousWithinAt).mono hsub)
      (fun r hr => (hz r (hsub (Ioo_subset_Icc_self hr))).mono_of_mem_nhdsWithin
        (mem_nhdsWithin_of_mem_nhds (Icc_mem_nhds hr.1 (hr.2.trans_le ht.2)))) (hint ht hfy)
    rw [this, hp0, mulVec_zero, sub_zero]
    abel
  have hrest : ∀ t ∈ Icc 0 δ, x (a0 + t) = x a0 + (∫ r in (0 : ℝ)..t, f (x (a0 + r)) (r + a0)) + S *ᵥ (w (a0 + t) - w a0) :=
    fun t ht => hx.restart hf.cont ha haδ ht
  have key := additive_local (X := fun t => x (a0 + t)) (Y := y) (U := fun t => S *ᵥ (w (a0 + t) - w a0 - p t))
    (u := 17 / 4 * (s * W)) (r := δ * F + s * W) hsh hδ hL hxc hyc
    (hSc.comp_continuousOn ((hwc.sub continuousOn_const).sub hpc.continuousOn)) (fun t ht => ?_) (fun t ht => ?_)
    (fun t ht => ?_) ?_ ?_
  · simp only [add_zero] at key
    refine key.trans (le_of_eq ?_)
    ring
  · rw [hrest t ht, hyeq t ht, intervalIntegral.integral_sub (hint ht hfx) (hint ht hfy), add_zero, mulVec_sub S (w (a0 + t) - w a0)]
    abel
  · refine (hS _).trans ?_
    have h1 : ‖w (a0 + t) - w a0 - p t‖ ≤ W + 13 / 4 * W := (norm_sub_le _ _).trans (add_le_add (hW t ht) (parabola_le hδ hab hW ht))
    nlinarith [mul_le_mul_of_nonneg_left h1 hs0]
  · rw [hrest t ht, add_zero]
    have e : x a0 + (∫ r in (0 : ℝ)..t, f (x (a0 + r)) (r + a0)) + S *ᵥ (w (a0 + t) - w a0) - x a0 =
        (∫ r in (0 : ℝ)..t, f (x (a0 + r)) (r + a0)) + S *ᵥ (w (a0 + t) - w a0) := by abel
    rw [e]
    refine (norm_add_le _ _).trans (add_le_add ?_ ((hS _).trans (mul_le_mul_of_nonneg_left (hW t ht) hs0)))
    have h2 := intervalIntegral.norm_integral_le_of_norm_le_const (a := 0) (b := t) (C := F)
      (f := fun r => f (x (a0 + r)) (r + a0)) (fun r hr => by
        rw [uIoc_of_le ht.1] at hr
        have h3 : r ∈ Icc 0 δ := ⟨hr.1.le, hr.2.trans ht.2⟩
        have h4 := hF _ (hin h3)
        rwa [add_comm a0 r] at h4 ⊢)
    rw [sub_zero, abs_of_nonneg ht.1] at h2
    have hF0 : 0 ≤ F := (norm_nonneg _).trans (hF _ (hin h0m))
    refine h2.trans ?_
    rw [mul_comm]
    exact mul_le_mul_of_nonneg_right ht.2 hF0
  · have h1 := hab.atEnd
    rw [h1, sub_self, mulVec_zero]
  · have hD : ContinuousOn (fun t => w (a0 + t) - w a0 - p t) (Icc 0 δ) := (hwc.sub continuousOn_const).sub hpc.continuousOn
    have hDi : IntervalIntegrable (fun t => w (a0 + t) - w a0 - p t) volume 0 δ :=
      (hD.mono (uIcc_subset_Icc h0m h1m)).intervalIntegrable
    have h1 := ContinuousLinearMap.intervalIntegral_comp_comm (LinearMap.toContinuousLinearMap (Matrix.mulVecLin S)) hDi
    have h2 : ∫ t in (0 : ℝ)..δ, (w (a0 + t) - w a0 - p t) = 0 := by
      funext j
      have h3 := ContinuousLinearMap.intervalIntegral_comp_comm (ContinuousLinearMap.proj (R := ℝ) (φ := fun _ : Fin m => ℝ) j) hDi
      simp only [ContinuousLinearMap.proj_apply] at h3
      rw [← h3]
      simp only [Pi.sub_apply, Pi.zero_apply]
      have i1 : IntervalIntegrable (fun t => w (a0 + t) j - w a0 j) volume 0 δ := by
        refine ContinuousOn.intervalIntegrable (ContinuousOn.mono ?_ (uIcc_subset_Icc h0m h1m))
        exact ((continuous_apply j).comp_continuousOn hwc).sub continuousOn_const
      have i2 : IntervalIntegrable (fun t => p t j) volume 0 δ := ((continuous_apply j).comp hpc).intervalIntegrable _ _
      rw [intervalIntegral.integral_sub i1 i2, hab.area j, sub_self]
    rw [h2, map_zero] at h1
    exact h1

/-- Solutions exist along every continuous path of the noise. -/
theorem exists_solvesAdditive {f : Vec d → ℝ → Vec d} {T L : ℝ} (hT : 0 ≤ T) (hc : Continuous (Function.uncurry f))
    (hlip : ∀ x y, ∀ t ∈ Icc 0 T, ‖f x t - f y t‖ ≤ L * ‖x - y‖) (S : Mat d m) {w : ℝ → Vec m} (hw : ContinuousOn w (Icc 0 T))
    (x0 : Vec d) : ∃ x, SolvesAdditive f S w x0 T x := by
  have hSc : Continuous fun v : Vec m => S *ᵥ v := (Matrix.mulVecLin S).continuous_of_finiteDimensional
  have hu : ContinuousOn (fun t => S *ᵥ (w t - w 0)) (Icc 0 T) := hSc.comp_continuousOn (hw.sub continuousOn_const)
  obtain ⟨z, hz0, hz⟩ := exists_solution_Icc (fun v t => f (v + S *ᵥ (w t - w 0)) t) hT
    (fun v => hc.comp_continuousOn ((continuousOn_const.add hu).prodMk continuousOn_id))
    (fun v v' t ht => by simpa using hlip (v + S *ᵥ (w t - w 0)) (v' + S *ᵥ (w t - w 0)) t ht) x0
  have hzc : ContinuousOn z (Icc 0 T) := fun t ht => (hz t ht).continuousWithinAt
  refine ⟨fun t => z t + S *ᵥ (w t - w 0), hzc.add hu, fun t ht => ?_⟩
  have hsub : Icc 0 t ⊆ Icc 0 T := Icc_subset_Icc le_rfl ht.2
  have hint : IntervalIntegrable (fun r => f (z r + S *ᵥ (w r - w 0)) r) volume 0 t := by
    refine ContinuousOn.intervalIntegrable ?_
    rw [uIcc_of_le ht.1]
    exact (hc.comp_continuousOn ((hzc.add hu).prodMk continuousOn_id)).mono hsub
  have := intervalIntegral.integral_eq_sub_of_hasDeriv_right_of_le (f := z)
    (f' := fun r => f (z r + S *ᵥ (w r - w 0)) r) ht.1 (hzc.mono hsub)
    (fun r hr => (hz r (hsub (Ioo_subset_Icc_self hr))).mono_of_mem_nhdsWithin
      (mem_nhdsWithin_of_mem_nhds (Icc_mem_nhds hr.1 (hr.2.trans_le ht.2)))) hint
  rw [this, hz0]
  abel

/-- Every path of the noise has a matching parabola. -/
theorem exists_sameEndAndArea {δ : ℝ} (hδ : δ ≠ 0) (w : ℝ → Vec m) (a0 : ℝ) :
    SameEndAndArea (fun t => Foster.evalParabola t δ (w (a0 + δ) - w a0)
      (fun j => Real.sqrt 6 * ((∫ t in (0 : ℝ)..δ, (w (a0 + t) j - w a0 j)) / δ - (w (a0 + δ) - w a0) j / 2))) w a0 δ := by
  refine ⟨evalParabola_end hδ _ _, fun j => ?_⟩
  have h := Foster.integral_evalParabola1 δ ((w (a0 + δ) - w a0) j)
    (Real.sqrt 6 * ((∫ t in (0 : ℝ)..δ, (w (a0 + t) j - w a0 j)) / δ - (w (a0 + δ) - w a0) j / 2)) hδ
  refine h.trans ?_
  have h6 : Real.sqrt 6 ≠ 0 := by positivity
  field_simp
  ring

/-- A generator that makes `sde_solver` draw prescribed parabola coefficients. -/
theorem exists_rng_coeffs (key : Key) {δ : ℝ} (hδ : 0 < δ) (N : ℕ) (c : ℕ → Vec m × Vec m) :
    ∃ rng : Rng, ∀ k < N, (Foster.getApprox m).coeffs rng ((key.child N k).child 2 0) δ = c k := by
  classical
  refine ⟨⟨fun k _ i => if h : ∃ n, k = (key.child N n).child 2 0 then
      if h' : i < m then (c h.choose).1 ⟨i, h'⟩ / Real.sqrt δ
      else if h'' : i - m < m then (c h.choose).2 ⟨i - m, h''⟩ / Real.sqrt (0.5 * δ) else 0
    else 0⟩, fun k _ => ?_⟩
  have hex : ∃ n, (key.child N k).child 2 0 = (key.child N n).child 2 0 := ⟨k, rfl⟩
  have hch : hex.choose = k := by
    have := hex.choose_spec
    generalize hex.choose = n at this ⊢
    simp only [Key.child, List.cons.injEq, Prod.mk.injEq, true_and, and_true] at this
    exact this.symm
  have h1 : Real.sqrt δ ≠ 0 := by positivity
  have h2 : Real.sqrt (0.5 * δ) ≠ 0 := by positivity
  simp only [Foster.getApprox, Foster.parabolas, Rng.normalMat]
  refine Prod.ext (funext fun j => ?_) (funext fun j => ?_)
  · simp only [Fin.val_zero, zero_mul, zero_add, dif_pos hex, j.2, dif_pos, hch]
    rw [div_mul_cancel₀ _ h1]
  · simp only [Fin.val_one, one_mul, dif_pos hex, hch]
    rw [dif_neg (by omega), dif_pos (by omega)]
    simp only [add_tsub_cancel_left]
    rw [div_mul_cancel₀ _ h2]

end Verif
