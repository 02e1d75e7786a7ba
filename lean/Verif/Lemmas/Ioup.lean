import Verif.Lemmas.Prior

/-! Helper lemmas: the exponential of the drift of the integrated Ornstein-Uhlenbeck process. -/

namespace Verif

open Matrix Spec Jnp

/-- The last row of the exponential. -/
theorem expm_ioup_last (θ : ℝ) (q : ℕ) (t : ℝ) (j : Fin (q + 1)) :
    expm (t • ioupDrift θ q) (Fin.last q) j = if j = Fin.last q then Real.exp (-θ * t) else 0 := by
  have hd : ∀ s : ℝ, HasDerivAt (fun s => Real.exp (θ * s) * expm (s • ioupDrift θ q) (Fin.last q) j) 0 s := by
    intro s
    have h1 := expm_hasDerivAt (ioupDrift θ q) s (Fin.last q) j
    rw [ioupDrift_mul, dif_neg (by simp)] at h1
    have h2 : HasDerivAt (fun s : ℝ => Real.exp (θ * s)) (Real.exp (θ * s) * θ) s := by
      have := (hasDerivAt_id s).const_mul θ
      simpa using this.exp
    refine (h2.mul h1).congr_deriv ?_
    ring
  have hc := is_const_of_deriv_eq_zero (fun s => (hd s).differentiableAt) (fun s => (hd s).deriv) t 0
  have hc' : Real.exp (θ * t) * expm (t • ioupDrift θ q) (Fin.last q) j = (1 : Mat (q + 1) (q + 1)) (Fin.last q) j := by
    rw [hc, expm_zero_smul]; simp
  have h3 : expm (t • ioupDrift θ q) (Fin.last q) j = Real.exp (-θ * t) * (1 : Mat (q + 1) (q + 1)) (Fin.last q) j := by
    rw [← hc', ← mul_assoc, ← Real.exp_add]
    simp
  rw [h3, Matrix.one_apply]
  by_cases h : j = Fin.last q
  · simp [h]
  · simp [h, Ne.symm h]

/-- The last column of the exponential is, up to a factor, that of the integrated Brownian motion. -/
theorem expm_ioup_bounds (θ : ℝ) (q : ℕ) {T : ℝ} (k : ℕ) (hk : k ≤ q) : ∀ s ∈ Set.Icc 0 T,
    Real.exp (-|θ| * T) * (s ^ k / (k.factorial : ℝ)) ≤
      expm (s • ioupDrift θ q) ⟨q - k, by omega⟩ (Fin.last q) ∧
    expm (s • ioupDrift θ q) ⟨q - k, by omega⟩ (Fin.last q) ≤
      Real.exp (|θ| * T) * (s ^ k / (k.factorial : ℝ)) := by
  induction k with
  | zero =>
    intro s hs
    have h := expm_ioup_last θ q s (Fin.last q)
    rw [if_pos rfl] at h
    have e : (⟨q - 0, by omega⟩ : Fin (q + 1)) = Fin.last q := by ext; simp
    rw [e, h]
    have ht : |θ| * s ≤ |θ| * T := mul_le_mul_of_nonneg_left hs.2 (abs_nonneg _)
    have h1 : -(|θ| * s) ≤ -θ * s := by
      have := mul_le_mul_of_nonneg_right (le_abs_self θ) hs.1; linarith
    have h2 : -θ * s ≤ |θ| * s := mul_le_mul_of_nonneg_right (neg_le_abs θ) hs.1
    simp only [pow_zero, Nat.factorial_zero, Nat.cast_one, div_one, mul_one]
    exact ⟨Real.exp_le_exp.2 (by linarith), Real.exp_le_exp.2 (by linarith)⟩
  | succ k ih =>
    have ih := ih (by omega)
    have hd : ∀ s : ℝ, HasDerivAt (fun s : ℝ => expm (s • ioupDrift θ q) ⟨q - (k + 1), by omega⟩ (Fin.last q))
        (expm (s • ioupDrift θ q) ⟨q - k, by omega⟩ (Fin.last q)) s := by
      intro s
      have h1 := expm_hasDerivAt (ioupDrift θ q) s ⟨q - (k + 1), by omega⟩ (Fin.last q)
      rw [ioupDrift_mul, dif_pos (by simp; omega)] at h1
      have e : (⟨q - (k + 1) + 1, by omega⟩ : Fin (q + 1)) = ⟨q - k, by omega⟩ := by ext; simp; omega
      simp only [e] at h1
      exact h1
    have h0 : expm ((0 : ℝ) • ioupDrift θ q) ⟨q - (k + 1), by omega⟩ (Fin.last q) = 0 := by
      rw [expm_zero_smul, Matrix.one_apply_ne]
      rw [Ne, Fin.ext_iff]
      simp; omega
    have mono : ∀ f f' : ℝ → ℝ, (∀ s, HasDerivAt f (f' s) s) → f 0 = 0 → (∀ s ∈ Set.Icc 0 T, 0 ≤ f' s) →
        ∀ s ∈ Set.Icc 0 T, 0 ≤ f s := by
      intro f f' hf hf0 hpos s hs
      have hm : MonotoneOn f (Set.Icc 0 T) := monotoneOn_of_deriv_nonneg (convex_Icc _ _)
        (fun x _ => (hf x).continuousAt.continuousWithinAt) (fun x _ => (hf x).differentiableAt.differentiableWithinAt)
        (fun x hx => by rw [(hf x).deriv]; exact hpos x (interior_subset hx))
      rw [← hf0]
      exact hm ⟨le_rfl, hs.1.trans hs.2⟩ hs hs.1
    intro s hs
    have hp := hasDerivAt_pow_div_factorial k
    constructor
    · have := mono _ _ (fun s => (hd s).sub ((hp s).const_mul (Real.exp (-|θ| * T)))) (by simp only [Pi.sub_apply]; rw [h0]; simp)
        (fun s hs => sub_nonneg.2 (ih s hs).1) s hs
      exact sub_nonneg.1 this
    · have := mono _ _ (fun s => ((hp s).const_mul (Real.exp (|θ| * T))).sub (hd s)) (by simp only [Pi.sub_apply]; rw [h0]; simp)
        (fun s hs => sub_nonneg.2 (ih s hs).2) s hs
      exact sub_nonneg.1 this

theorem expm_ioup_bounds' (θ : ℝ) (q : ℕ) {T s : ℝ} (hs : s ∈ Set.Icc 0 T) (i : Fin (q + 1)) :
    Real.exp (-|θ| * T) * ibmA q s i (Fin.last q) ≤ expm (s • ioupDrift θ q) i (Fin.last q) ∧
    expm (s • ioupDrift θ q) i (Fin.last q) ≤ Real.exp (|θ| * T) * ibmA q s i (Fin.last q) := by
  have hi := i.2
  have := expm_ioup_bounds θ q (q - i.1) (by omega) s hs
  have e : (⟨q - (q - i.1), by omega⟩ : Fin (q + 1)) = i := by ext; simp; omega
  simp only [e] at this
  simpa only [ibmA, Fin.val_last, if_pos (show i.1 ≤ q by omega)] using this

theorem transitionCov_ioup_bounds (θ σ : ℝ) (q : ℕ) {T : ℝ} (hT : 0 ≤ T) (i j : Fin (q + 1)) :
    Real.exp (-(2 * |θ| * T)) * IOUP.Q1 σ q T i j ≤ transitionCov (ioupDrift θ q) (lastNoise σ q) T i j ∧
    transitionCov (ioupDrift θ q) (lastNoise σ q) T i j ≤ Real.exp (2 * |θ| * T) * IOUP.Q1 σ q T i j := by
  have hc := fun θ => (transitionCov_integrand_continuous (ioupDrift θ q) (lastNoise σ q) i j)
  have hnn : ∀ s ∈ Set.Icc 0 T, ∀ i : Fin (q + 1), 0 ≤ ibmA q s i (Fin.last q) := by
    intro s hs i
    simp only [ibmA]
    split_ifs
    · have := hs.1; positivity
    · exact le_rfl
  rw [← transitionCov_ibm]
  simp only [transitionCov]
  rw [← intervalIntegral.integral_const_mul, ← intervalIntegral.integral_const_mul]
  constructor
  · refine intervalIntegral.integral_mono_on hT ((hc 0).const_mul _ |>.intervalIntegrable _ _)
      ((hc θ).intervalIntegrable _ _) fun s hs => ?_
    have h0 := expm_ibm q s
    simp only [expm] at h0
    rw [h0, lastNoise_product, lastNoise_product]
    have h1 := (expm_ioup_bounds' θ q hs i).1
    have h2 := (expm_ioup_bounds' θ q hs j).1
    have e : Real.exp (-(2 * |θ| * T)) = Real.exp (-|θ| * T) * Real.exp (-|θ| * T) := by
      rw [← Real.exp_add]; ring_nf
    calc _ = σ ^ 2 * ((Real.exp (-|θ| * T) * ibmA q s i (Fin.last q)) * (Real.exp (-|θ| * T) * ibmA q s j (Fin.last q))) := by
          rw [e]; ring
      _ ≤ _ := by
          refine mul_le_mul_of_nonneg_left ?_ (sq_nonneg σ)
          have p1 := mul_nonneg (Real.exp_pos (-|θ| * T)).le (hnn s hs i)
          have p2 := mul_nonneg (Real.exp_pos (-|θ| * T)).le (hnn s hs j)
          exact mul_le_mul h1 h2 p2 (p1.trans h1)
  · refine intervalIntegral.integral_mono_on hT ((hc θ).intervalIntegrable _ _)
      ((hc 0).const_mul _ |>.intervalIntegrable _ _) fun s hs => ?_
    have h0 := expm_ibm q s
    simp only [expm] at h0
    rw [h0, lastNoise_product, lastNoise_product]
    have h1 := expm_ioup_bounds' θ q hs i
    have h2 := expm_ioup_bounds' θ q hs j
    have e : Real.exp (2 * |θ| * T) = Real.exp (|θ| * T) * Real.exp (|θ| * T) := by
      rw [← Real.exp_add]; ring_nf
    calc _ ≤ σ ^ 2 * ((Real.exp (|θ| * T) * ibmA q s i (Fin.last q)) * (Real.exp (|θ| * T) * ibmA q s j (Fin.last q))) := by
          refine mul_le_mul_of_nonneg_left ?_ (sq_nonneg σ)
          have p2 := mul_nonneg (Real.exp_pos (-|θ| * T)).le (hnn s hs j)
          exact mul_le_mul h1.2 h2.2 (p2.trans h2.1) (mul_nonneg (Real.exp_pos _).le (hnn s hs i))
      _ = _ := by rw [e]; ring

/-- The variance of the last component. -/
theorem transitionCov_ioup_last {θ : ℝ} (hθ : θ ≠ 0) (σ : ℝ) (q : ℕ) (T : ℝ) :
    transitionCov (ioupDrift θ q) (lastNoise σ q) T (Fin.last q) (Fin.last q) =
      σ ^ 2 * ((1 - Real.exp (-2 * θ * T)) / (2 * θ)) := by
  simp only [transitionCov]
  have h : ∀ s : ℝ, (NormedSpace.exp (s • ioupDrift θ q) * lastNoise σ q *
      (NormedSpace.exp (s • ioupDrift θ q) * lastNoise σ q)ᵀ) (Fin.last q) (Fin.last q) =
      σ ^ 2 * Real.exp (-2 * θ * s) := by
    intro s
    have h0 := expm_ioup_last θ q s (Fin.last q)
    simp only [expm, if_true] at h0
    rw [lastNoise_product, h0, ← Real.exp_add]
    ring_nf
  simp only [h]
  rw [intervalIntegral.integral_const_mul]
  congr 1
  have hd : ∀ s ∈ Set.uIcc 0 T, HasDerivAt (fun s : ℝ => -Real.exp (-2 * θ * s) / (2 * θ)) (Real.exp (-2 * θ * s)) s := by
    intro s _
    have h1 : HasDerivAt (fun s : ℝ => Real.exp (-2 * θ * s)) (Real.exp (-2 * θ * s) * (-2 * θ)) s := by
      have := (hasDerivAt_id s).const_mul (-2 * θ)
      simpa using this.exp
    refine (h1.neg.div_const (2 * θ)).congr_deriv ?_
    field_simp
  rw [intervalIntegral.integral_eq_sub_of_hasDerivAt hd
    ((Real.continuous_exp.comp (continuous_const.mul continuous_id)).intervalIntegrable _ _)]
  simp
  ring

theorem ibm_Q1_last (σ : ℝ) (q : ℕ) (T : ℝ) : IOUP.Q1 σ q T (Fin.last q) (Fin.last q) = σ ^ 2 * T := by
  simp only [IOUP.Q1, Fin.val_last]
  rw [show 2 * q + 1 - q - q = 1 by omega]
  simp

end Verif
