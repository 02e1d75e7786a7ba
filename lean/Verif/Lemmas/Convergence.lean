import Verif.Spec.Ekf
import Verif.Lemmas.EulerMaruyama

/-! Helper lemmas: error of the explicit trapezoidal scheme with predicted slopes. -/

namespace Verif

open Matrix Spec

variable {d : ℕ}

/-- Taylor estimate expanded at the right end point. -/
theorem taylor1_bound_right {z z' : ℝ → Vec d} {a b M : ℝ} (hab : a ≤ b)
    (hz : ∀ t ∈ Set.Icc a b, HasDerivWithinAt z (z' t) (Set.Icc a b) t)
    (hL : ∀ t ∈ Set.Icc a b, ‖z' t - z' b‖ ≤ M * (b - t)) :
    ‖z b - z a - (b - a) • z' b‖ ≤ M / 2 * (b - a) ^ 2 := by
  have := image_norm_le_of_norm_deriv_right_le_deriv_boundary (a := a) (b := b)
    (f := fun t => z t - z a - (t - a) • z' b) (f' := fun t => z' t - z' b)
    (B := fun t => M / 2 * (b - a) ^ 2 - M / 2 * (b - t) ^ 2)
    (B' := fun t => M * (b - t)) ?_ ?_ ?_ ?_ ?_ (Set.right_mem_Icc.mpr hab)
  · simpa using this
  · have h1 : ContinuousOn z (Set.Icc a b) := fun t ht => (hz t ht).continuousWithinAt
    fun_prop
  · intro t ht
    have h1 := (hz t (Set.Ico_subset_Icc_self ht)).mono_of_mem_nhdsWithin (Icc_mem_nhdsGE_of_mem ht)
    have h2 : HasDerivWithinAt (fun t : ℝ => (t - a) • z' b) ((1 : ℝ) • z' b) (Set.Ici t) t :=
      (((hasDerivAt_id t).sub_const a).smul_const (z' b)).hasDerivWithinAt
    have := (h1.sub_const (z a)).sub h2
    exact this.congr_deriv (by simp)
  · simp
  · intro t
    have := ((((hasDerivAt_id t).const_sub b).pow 2).const_mul (M / 2)).const_sub (M / 2 * (b - a) ^ 2)
    refine this.congr_deriv ?_
    simp; ring
  · intro t ht
    exact hL t (Set.Ico_subset_Icc_self ht)

/-- Local error of the trapezoidal rule for a curve whose second derivative is `M`-Lipschitz. -/
theorem trapezoid_local_bound {y y' y2 : ℝ → Vec d} {a b M : ℝ} (hab : a ≤ b)
    (hy : ∀ t ∈ Set.Icc a b, HasDerivWithinAt y (y' t) (Set.Icc a b) t)
    (hy' : ∀ t ∈ Set.Icc a b, HasDerivWithinAt y' (y2 t) (Set.Icc a b) t)
    (hL : ∀ s ∈ Set.Icc a b, ∀ t ∈ Set.Icc a b, s ≤ t → ‖y2 s - y2 t‖ ≤ M * (t - s)) :
    ‖y b - y a - ((b - a) / 2) • (y' a + y' b)‖ ≤ M / 12 * (b - a) ^ 3 := by
  have := image_norm_le_of_norm_deriv_right_le_deriv_boundary (a := a) (b := b)
    (f := fun t => y t - y a - ((t - a) / 2) • (y' a + y' t))
    (f' := fun t => (1 / 2 : ℝ) • (y' t - y' a - (t - a) • y2 t)) (B := fun t => M / 12 * (t - a) ^ 3)
    (B' := fun t => M / 4 * (t - a) ^ 2) ?_ ?_ ?_ ?_ ?_ (Set.right_mem_Icc.mpr hab)
  · exact this
  · have h1 : ContinuousOn y (Set.Icc a b) := fun t ht => (hy t ht).continuousWithinAt
    have h2 : ContinuousOn y' (Set.Icc a b) := fun t ht => (hy' t ht).continuousWithinAt
    fun_prop
  · intro t ht
    have h1 := (hy t (Set.Ico_subset_Icc_self ht)).mono_of_mem_nhdsWithin (Icc_mem_nhdsGE_of_mem ht)
    have h2 := (hy' t (Set.Ico_subset_Icc_self ht)).mono_of_mem_nhdsWithin (Icc_mem_nhdsGE_of_mem ht)
    have h3 : HasDerivWithinAt (fun t : ℝ => (t - a) / 2) (1 / 2) (Set.Ici t) t :=
      (((hasDerivAt_id t).sub_const a).div_const 2).hasDerivWithinAt
    have := (h1.sub_const (y a)).sub (h3.smul (h2.const_add (y' a)))
    refine this.congr_deriv ?_
    funext i
    simp
    ring
  · simp
  · intro t
    have := (((hasDerivAt_id t).sub_const a).pow 3).const_mul (M / 12)
    refine this.congr_deriv ?_
    simp; ring
  · intro t ht
    have hsub : Set.Icc a t ⊆ Set.Icc a b := Set.Icc_subset_Icc le_rfl ht.2.le
    have ht' : t ∈ Set.Icc a b := Set.Ico_subset_Icc_self ht
    have h1 := taylor1_bound_right (z := y') (z' := y2) (M := M) ht.1 (fun s hs => (hy' s (hsub hs)).mono hsub)
      (fun s hs => hL s (hsub hs) t ht' hs.2)
    rw [norm_smul, Real.norm_of_nonneg (by norm_num)]
    linarith

/-- Error of the scheme started at `x0`, against a solution started at `y 0`. -/
theorem trapScheme_error (vf : Field d) (L M2 M3 h : ℝ) (hL : 0 < L) (hh : 0 < h) (N : ℕ)
    (hlip : ∀ x x' t, ‖vf x t - vf x' t‖ ≤ L * ‖x - x'‖) (x0 : Vec d) (y y2 y3 : ℝ → Vec d)
    (hy : ∀ t ∈ Set.Icc 0 (N * h), HasDerivWithinAt y (vf (y t) t) (Set.Icc 0 (N * h)) t)
    (hy2 : ∀ t ∈ Set.Icc 0 (N * h), HasDerivWithinAt (fun s => vf (y s) s) (y2 t) (Set.Icc 0 (N * h)) t)
    (hy3 : ∀ t ∈ Set.Icc 0 (N * h), HasDerivWithinAt y2 (y3 t) (Set.Icc 0 (N * h)) t)
    (hM2 : ∀ t ∈ Set.Icc 0 (N * h), ‖y2 t‖ ≤ M2) (hM3 : ∀ t ∈ Set.Icc 0 (N * h), ‖y3 t‖ ≤ M3) :
    ∀ n ≤ N, ‖(trapScheme vf h x0 n).1 - y (n * h)‖ + h * ‖(trapScheme vf h x0 n).2 - vf (y (n * h)) (n * h)‖ ≤
      (1 + 3 * L / 2 * h) ^ (n + 1) * ‖x0 - y 0‖ +
        h ^ 2 * (3 * L * M2 / 4 + M3 / 12) / (3 * L / 2) * ((1 + 3 * L / 2 * h) ^ n - 1) := by
  intro n
  induction n with
  | zero =>
    intro _
    simp only [trapScheme, Nat.cast_zero, zero_mul, zero_add, pow_one, pow_zero, sub_self, mul_zero, add_zero]
    have h1 := hlip x0 (y 0) 0
    have h2 : h * ‖vf x0 0 - vf (y 0) 0‖ ≤ h * (L * ‖x0 - y 0‖) := mul_le_mul_of_nonneg_left h1 hh.le
    have h3 : 0 ≤ L * h * ‖x0 - y 0‖ := by positivity
    nlinarith
  | succ n ih =>
    intro hn
    have ih' := ih (by omega)
    have hs : trapScheme vf h x0 (n + 1) = ((trapScheme vf h x0 n).1 + (h / 2) • ((trapScheme vf h x0 n).2 +
        vf ((trapScheme vf h x0 n).1 + h • (trapScheme vf h x0 n).2) ((n + 1) * h)),
        vf ((trapScheme vf h x0 n).1 + h • (trapScheme vf h x0 n).2) ((n + 1) * h)) := rfl
    rw [hs]
    generalize (trapScheme vf h x0 n).1 = x at *
    generalize (trapScheme vf h x0 n).2 = v at *
    have hcast : ((n + 1 : ℕ) : ℝ) * h = (n + 1) * h := by push_cast; ring
    rw [hcast]
    have hsub : Set.Icc (n * h) ((n + 1) * h) ⊆ Set.Icc 0 (N * h) := by
      refine Set.Icc_subset_Icc (by positivity) ?_
      exact mul_le_mul_of_nonneg_right (by exact_mod_cast hn) hh.le
    have hle : (n : ℝ) * h ≤ (n + 1) * h := by nlinarith
    have hdiff : ((n : ℝ) + 1) * h - n * h = h := by ring
    have hT1 := taylor1_bound (y := y) (y' := fun t => vf (y t) t) (M := M2) hle
      (fun t ht => (hy t (hsub ht)).mono hsub) (fun t ht => by
        have := Convex.norm_image_sub_le_of_norm_hasDerivWithin_le (f := fun s => vf (y s) s) (f' := y2) (C := M2)
          (s := Set.Icc 0 (N * h)) hy2 hM2 (convex_Icc _ _) (hsub (Set.left_mem_Icc.mpr hle)) (hsub ht)
        rwa [Real.norm_of_nonneg (by linarith [ht.1] : 0 ≤ t - n * h)] at this)
    have hT2 := trapezoid_local_bound (y := y) (y' := fun t => vf (y t) t) (y2 := y2) (M := M3) hle
      (fun t ht => (hy t (hsub ht)).mono hsub) (fun t ht => (hy2 t (hsub ht)).mono hsub) (fun s hs' t ht hst => by
        have := Convex.norm_image_sub_le_of_norm_hasDerivWithin_le (f := y2) (f' := y3) (C := M3)
          (s := Set.Icc 0 (N * h)) hy3 hM3 (convex_Icc _ _) (hsub hs') (hsub ht)
        rwa [Real.norm_of_nonneg (by linarith : 0 ≤ t - s), norm_sub_rev] at this)
    rw [hdiff] at hT1 hT2
    generalize y (n * h) = y0 at *
    generalize y ((n + 1) * h) = y1 at *
    generalize vf y0 (n * h) = w0 at *
    set e := ‖x - y0‖ with he
    set f := ‖v - w0‖ with hf
    have hd : ‖vf (x + h • v) ((n + 1) * h) - vf y1 ((n + 1) * h)‖ ≤ L * (e + h * f + M2 / 2 * h ^ 2) := by
      refine (hlip _ _ _).trans (mul_le_mul_of_nonneg_left ?_ hL.le)
      have : x + h • v - y1 = (x - y0) + h • (v - w0) - (y1 - y0 - h • w0) := by rw [smul_sub]; abel
      rw [this]
      refine (norm_sub_le _ _).trans (add_le_add ((norm_add_le _ _).trans (add_le_add_right ?_ _)) hT1)
      rw [norm_smul, Real.norm_of_nonneg hh.le]
    generalize vf (x + h • v) ((n + 1) * h) = v1 at *
    generalize vf y1 ((n + 1) * h) = w1 at *
    have he1 : ‖x + (h / 2) • (v + v1) - y1‖ ≤ e + h / 2 * (f + ‖v1 - w1‖) + M3 / 12 * h ^ 3 := by
      have : x + (h / 2) • (v + v1) - y1 = (x - y0) + (h / 2) • ((v - w0) + (v1 - w1)) -
          (y1 - y0 - (h / 2) • (w0 + w1)) := by
        simp only [smul_sub, smul_add]; abel
      rw [this]
      refine (norm_sub_le _ _).trans (add_le_add ((norm_add_le _ _).trans (add_le_add_right ?_ _)) hT2)
      rw [norm_smul, Real.norm_of_nonneg (by positivity)]
      exact mul_le_mul_of_nonneg_left (norm_add_le _ _) (by positivity)
    have hf0 : 0 ≤ f := norm_nonneg _
    have step : ‖x + (h / 2) • (v + v1) - y1‖ + h * ‖v1 - w1‖ ≤
        (1 + 3 * L / 2 * h) * (e + h * f) + h ^ 3 * (3 * L * M2 / 4 + M3 / 12) := by
      have h1 : 3 * h / 2 * ‖v1 - w1‖ ≤ 3 * h / 2 * (L * (e + h * f + M2 / 2 * h ^ 2)) :=
        mul_le_mul_of_nonneg_left hd (by positivity)
      have h2 : 0 ≤ h * f := by positivity
      nlinarith
    refine step.trans ?_
    have h4 : (1 + 3 * L / 2 * h) * (e + h * f) ≤ (1 + 3 * L / 2 * h) * _ := mul_le_mul_of_nonneg_left ih' (by positivity)
    refine (add_le_add_left h4 _).trans (le_of_eq ?_)
    rw [pow_succ _ (n + 1), pow_succ _ n]
    field_simp
    ring

end Verif
