import Mathlib.Analysis.ODE.Gronwall
import Mathlib.Analysis.Calculus.MeanValue
import Mathlib.MeasureTheory.Integral.IntervalIntegral.FundThmCalculus
import Mathlib.Analysis.SpecialFunctions.Exp
import Verif.Spec.Strong

/-! Two integral equations `x = x₀ + ∫ f(x) + w` with different additive paths: how far apart the solutions end when the paths
have the same end point and the same integral. -/

namespace Verif

open MeasureTheory Set Spec

variable {E : Type*} [NormedAddCommGroup E] [NormedSpace ℝ E]

theorem Spec.SmoothField.shift {f : E → ℝ → E} {Df : E → ℝ → E →L[ℝ] E} {T L K : ℝ} (h : SmoothField f Df T L K) {a δ : ℝ}
    (ha : 0 ≤ a) (hδ : a + δ ≤ T) : SmoothField (fun x t => f x (t + a)) (fun x t => Df x (t + a)) δ L K where
  cont := h.cont.comp (by fun_prop : Continuous fun p : E × ℝ => (p.1, p.2 + a))
  lip x y t ht := h.lip x y _ ⟨by linarith [ht.1], by linarith [ht.2]⟩
  deriv x t ht := h.deriv x _ ⟨by linarith [ht.1], by linarith [ht.2]⟩
  jac x y s hs t ht := by
    have := h.jac x y (s + a) ⟨by linarith [hs.1], by linarith [hs.2]⟩ (t + a) ⟨by linarith [ht.1], by linarith [ht.2]⟩
    simpa using this

theorem Spec.SmoothField.jac_const_nonneg {f : E → ℝ → E} {Df : E → ℝ → E →L[ℝ] E} {T L K : ℝ} (h : SmoothField f Df T L K)
    (hT : 0 < T) : 0 ≤ K := by
  have := (norm_nonneg _).trans (h.jac 0 0 0 ⟨le_rfl, hT.le⟩ T ⟨hT.le, le_rfl⟩)
  rw [sub_self, norm_zero, zero_add, zero_sub, abs_neg, abs_of_pos hT] at this
  exact nonneg_of_mul_nonneg_left this hT

/-- The increment of the field across a small displacement is the frozen Jacobian applied to it, up to second order. -/
theorem Spec.SmoothField.linearise {f : E → ℝ → E} {Df : E → ℝ → E →L[ℝ] E} {T L K : ℝ} (h : SmoothField f Df T L K) {x p q : E}
    {t r : ℝ} (hK : 0 ≤ K) (hT : 0 ≤ T) (ht : t ∈ Icc 0 T) (hp : ‖p - x‖ ≤ r) (hq : ‖q - x‖ ≤ r) :
    ‖f q t - f p t - Df x 0 (q - p)‖ ≤ K * (r + t) * ‖q - p‖ := by
  refine (convex_closedBall x r).norm_image_sub_le_of_norm_hasFDerivWithin_le' (f := fun z => f z t) (f' := fun z => Df z t)
    (fun z _ => (h.deriv z t ht).hasFDerivWithinAt) (fun z hz => ?_) ?_ ?_
  · refine (h.jac z x t ht 0 ⟨le_rfl, hT⟩).trans (mul_le_mul_of_nonneg_left ?_ hK)
    rw [sub_zero, abs_of_nonneg ht.1]
    have := mem_closedBall_iff_norm.mp hz
    linarith
  · exact mem_closedBall_iff_norm.mpr hp
  · exact mem_closedBall_iff_norm.mpr hq

variable [CompleteSpace E]

/-- Grönwall for a primitive: `z = z₀ + ∫ g` with `‖g‖ ≤ L (‖z‖ + u)`. -/
theorem gronwall_integral {z g : ℝ → E} {L u δ : ℝ} (hL : 0 ≤ L) (hu : 0 ≤ u) (hg : ContinuousOn g (Icc 0 δ))
    (hz : ∀ t ∈ Icc 0 δ, z t = z 0 + ∫ s in (0 : ℝ)..t, g s) (hb : ∀ t ∈ Icc 0 δ, ‖g t‖ ≤ L * (‖z t‖ + u)) (t : ℝ)
    (ht : t ∈ Icc 0 δ) : ‖z t‖ ≤ (‖z 0‖ + L * δ * u) * Real.exp (L * δ) := by
  have hδ : 0 ≤ δ := ht.1.trans ht.2
  have hd : ∀ x ∈ Icc 0 δ, HasDerivWithinAt z (g x) (Icc 0 δ) x := by
    intro x hx
    have hi : IntervalIntegrable g volume 0 x :=
      (hg.mono (by rw [uIcc_of_le hx.1]; exact Icc_subset_Icc le_rfl hx.2)).intervalIntegrable
    have : Fact (x ∈ Icc 0 δ) := ⟨hx⟩
    have h1 := intervalIntegral.integral_hasDerivWithinAt_right (s := Icc 0 δ) (t := Icc 0 δ) hi
      (hg.stronglyMeasurableAtFilter_nhdsWithin measurableSet_Icc x) (hg x hx)
    exact (h1.const_add (z 0)).congr (fun y hy => hz y hy) (hz x hx)
  have h := norm_le_gronwallBound_of_norm_deriv_right_le (f := z) (f' := g) (δ := ‖z 0‖) (K := L) (ε := L * u) (a := 0) (b := δ)
    (fun x hx => (hd x hx).continuousWithinAt)
    (fun x hx => (hd x (Ico_subset_Icc_self hx)).mono_of_mem_nhdsWithin
      (Filter.mem_of_superset (Icc_mem_nhdsGE hx.2) (Icc_subset_Icc hx.1 le_rfl))) le_rfl
    (fun x hx => by have := hb x (Ico_subset_Icc_self hx); linarith) t ht
  refine h.trans ?_
  rw [sub_zero]
  refine (gronwallBound_mono (norm_nonneg _) (by positivity) hL ht.2).trans ?_
  unfold gronwallBound
  split_ifs with h0
  · rw [h0]; simp
  · have hL' : 0 < L := lt_of_le_of_ne hL (Ne.symm h0)
    have e1 : L * u / L = u := by field_simp
    rw [e1, add_mul]
    have h2 : Real.exp (L * δ) - 1 ≤ L * δ * Real.exp (L * δ) := by
      have := Real.add_one_le_exp (-(L * δ))
      rw [Real.exp_neg] at this
      have hp := Real.exp_pos (L * δ)
      have h3 : (-(L * δ) + 1) * Real.exp (L * δ) ≤ 1 := by
        calc (-(L * δ) + 1) * Real.exp (L * δ) ≤ (Real.exp (L * δ))⁻¹ * Real.exp (L * δ) :=
              mul_le_mul_of_nonneg_right this hp.le
          _ = 1 := inv_mul_cancel₀ hp.ne'
      linarith
    nlinarith [mul_le_mul_of_nonneg_left h2 hu]

/-- One interval: the solutions for two additive paths whose difference `U` vanishes at the end and has integral zero. -/
theorem additive_local {f : E → ℝ → E} {Df : E → ℝ → E →L[ℝ] E} {δ L K u r : ℝ} (h : SmoothField f Df δ L K) (hδ : 0 < δ)
    (hL : 0 ≤ L) {X Y U : ℝ → E} (hX : ContinuousOn X (Icc 0 δ)) (hY : ContinuousOn Y (Icc 0 δ)) (hU : ContinuousOn U (Icc 0 δ))
    (heq : ∀ t ∈ Icc 0 δ, X t - Y t = X 0 - Y 0 + (∫ s in (0 : ℝ)..t, (f (X s) s - f (Y s) s)) + U t)
    (hu : ∀ t ∈ Icc 0 δ, ‖U t‖ ≤ u) (hr : ∀ t ∈ Icc 0 δ, ‖X t - X 0‖ ≤ r) (hend : U δ = 0)
    (harea : ∫ t in (0 : ℝ)..δ, U t = 0) :
    ‖X δ - Y δ‖ ≤ (1 + L * δ * Real.exp (L * δ)) * ‖X 0 - Y 0‖ +
      ((L * δ) ^ 2 * Real.exp (L * δ) + δ * K * (r + u + δ)) * u := by
  have hK := h.jac_const_nonneg hδ
  have h0m : (0 : ℝ) ∈ Icc 0 δ := ⟨le_rfl, hδ.le⟩
  have h1m : δ ∈ Icc 0 δ := ⟨hδ.le, le_rfl⟩
  have hu0 : 0 ≤ u := (norm_nonneg _).trans (hu δ h1m)
  have hr0 : 0 ≤ r := (norm_nonneg _).trans (hr δ h1m)
  have hcomp : ∀ {Z : ℝ → E}, ContinuousOn Z (Icc 0 δ) → ContinuousOn (fun s => f (Z s) s) (Icc 0 δ) := fun hZ =>
    h.cont.comp_continuousOn (hZ.prodMk continuousOn_id)
  have hint : ∀ {Z : ℝ → E}, ContinuousOn Z (Icc 0 δ) → IntervalIntegrable Z volume 0 δ := fun hZ => by
    refine ContinuousOn.intervalIntegrable ?_
    rwa [uIcc_of_le hδ.le]
  have hU0 : U 0 = 0 := by
    have := heq 0 h0m
    simpa using this
  -- the difference without the path
  set Z : ℝ → E := fun t => X t - Y t - U t with hZ
  have hZ0 : Z 0 = X 0 - Y 0 := by simp [hZ, hU0]
  have hZc : ContinuousOn Z (Icc 0 δ) := (hX.sub hY).sub hU
  have hZint : ∀ t ∈ Icc 0 δ, Z t = Z 0 + ∫ s in (0 : ℝ)..t, (f (X s) s - f (Y s) s) := fun t ht => by
    rw [hZ0]
    simp only [hZ]
    rw [heq t ht]
    abel
  have hZb := gronwall_integral hL hu0 ((hcomp hX).sub (hcomp hY)) hZint (fun t ht => by
    refine (h.lip _ _ t ht).trans (mul_le_mul_of_nonneg_left ?_ hL)
    calc ‖X t - Y t‖ = ‖Z t + U t‖ := by simp [hZ]
      _ ≤ ‖Z t‖ + ‖U t‖ := norm_add_le _ _
      _ ≤ ‖Z t‖ + u := by linarith [hu t ht])
  have hXU : ContinuousOn (fun s => X s - U s) (Icc 0 δ) := hX.sub hU
  have hsplit : ∫ s in (0 : ℝ)..δ, (f (X s) s - f (Y s) s) =
      (∫ s in (0 : ℝ)..δ, (f (X s - U s) s - f (Y s) s)) +
        ∫ s in (0 : ℝ)..δ, (f (X s) s - f (X s - U s) s - Df (X 0) 0 (U s)) := by
    have e1 : ∫ s in (0 : ℝ)..δ, Df (X 0) 0 (U s) = 0 := by
      rw [ContinuousLinearMap.intervalIntegral_comp_comm _ (hint hU), harea, map_zero]
    have i1 : IntervalIntegrable (fun s => f (X s) s - f (X s - U s) s) volume 0 δ := hint ((hcomp hX).sub (hcomp hXU))
    have i2 : IntervalIntegrable (fun s => f (X s - U s) s - f (Y s) s) volume 0 δ := hint ((hcomp hXU).sub (hcomp hY))
    have i3 : IntervalIntegrable (fun s => Df (X 0) 0 (U s)) volume 0 δ :=
      hint ((Df (X 0) 0).continuous.comp_continuousOn hU)
    rw [intervalIntegral.integral_sub i1 i3, e1, sub_zero, ← intervalIntegral.integral_add i2 i1]
    refine intervalIntegral.integral_congr fun s _ => ?_
    simp
  have b1 : ‖∫ s in (0 : ℝ)..δ, (f (X s - U s) s - f (Y s) s)‖ ≤
      L * ((‖X 0 - Y 0‖ + L * δ * u) * Real.exp (L * δ)) * δ := by
    have := intervalIntegral.norm_integral_le_of_norm_le_const (a := 0) (b := δ)
      (C := L * ((‖X 0 - Y 0‖ + L * δ * u) * Real.exp (L * δ))) (f := fun s => f (X s - U s) s - f (Y s) s) (fun s hs => by
        rw [uIoc_of_le hδ.le] at hs
        have hs' : s ∈ Icc 0 δ := Ioc_subset_Icc_self hs
        refine (h.lip _ _ s hs').trans (mul_le_mul_of_nonneg_left ?_ hL)
        have e : X s - U s - Y s = Z s := by simp only [hZ]; abel
        rw [e, ← hZ0]
        exact hZb s hs')
    rwa [sub_zero, abs_of_pos hδ] at this
  have b2 : ‖∫ s in (0 : ℝ)..δ, (f (X s) s - f (X s - U s) s - Df (X 0) 0 (U s))‖ ≤ K * (r + u + δ) * u * δ := by
    have := intervalIntegral.norm_integral_le_of_norm_le_const (a := 0) (b := δ)
      (C := K * (r + u + δ) * u) (f := fun s => f (X s) s - f (X s - U s) s - Df (X 0) 0 (U s)) (fun s hs => by
        rw [uIoc_of_le hδ.le] at hs
        have hs' : s ∈ Icc 0 δ := Ioc_subset_Icc_self hs
        have := h.linearise (x := X 0) (p := X s - U s) (q := X s) (t := s) (r := r + u) hK hδ.le hs' (by
          have e : X s - U s - X 0 = (X s - X 0) - U s := by abel
          rw [e]
          exact (norm_sub_le _ _).trans (add_le_add (hr s hs') (hu s hs'))) (by linarith [hr s hs'])
        rw [sub_sub_cancel] at this
        refine this.trans ?_
        have h5 := hu s hs'
        have h6 : K * (r + u + s) ≤ K * (r + u + δ) := mul_le_mul_of_nonneg_left (by linarith [hs.2]) hK
        have h7 : 0 ≤ K * (r + u + δ) := by positivity
        exact mul_le_mul h6 h5 (norm_nonneg _) h7)
    rwa [sub_zero, abs_of_pos hδ] at this
  have hfin := heq δ h1m
  rw [hend, add_zero, hsplit] at hfin
  rw [hfin]
  calc ‖X 0 - Y 0 + ((∫ s in (0 : ℝ)..δ, (f (X s - U s) s - f (Y s) s)) +
        ∫ s in (0 : ℝ)..δ, (f (X s) s - f (X s - U s) s - Df (X 0) 0 (U s)))‖
      ≤ ‖X 0 - Y 0‖ + (L * ((‖X 0 - Y 0‖ + L * δ * u) * Real.exp (L * δ)) * δ + K * (r + u + δ) * u * δ) :=
        (norm_add_le _ _).trans (add_le_add le_rfl ((norm_add_le _ _).trans (add_le_add b1 b2)))
    _ = _ := by ring

end Verif
