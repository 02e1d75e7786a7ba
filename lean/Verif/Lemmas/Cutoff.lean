import Mathlib.Analysis.Calculus.BumpFunction.FiniteDimension
import Mathlib.Analysis.Calculus.ContDiff.RCLike
import Verif.Lemmas.EulerPath

/-! Fields with two continuous derivatives: cutting them off outside a ball makes them smooth fields in the global sense. -/

namespace Verif

open Matrix Spec Jnp Set MeasureTheory Filter
open scoped Topology

variable {d m : ℕ}

/-- The field cut off outside a ball of radius more than `R`. -/
theorem exists_cutoff {f : Vec d → ℝ → Vec d} (hf : ContDiff ℝ 2 (Function.uncurry f)) (T : ℝ) (R : ℝ) :
    ∃ (g : Vec d → ℝ → Vec d) (Dg : Vec d → ℝ → Vec d →L[ℝ] Vec d) (χ : Vec d → ℝ → ℝ) (L K F : ℝ), 0 ≤ L ∧ 0 ≤ F ∧
      SmoothField g Dg T L K ∧ TimeLipschitz g T L ∧ (∀ x t, ‖g x t‖ ≤ F) ∧ (∀ x, ‖x‖ ≤ R → ∀ t ∈ Icc 0 T, g x t = f x t) ∧
      (∀ x t, 0 ≤ χ x t ∧ χ x t ≤ 1 ∧ g x t = χ x t • f x t) := by
  obtain ⟨ρ, hρ⟩ : ∃ ρ, ρ = max (max R T) 0 + 1 := ⟨_, rfl⟩
  have hρR : R ≤ ρ := by rw [hρ]; linarith [le_max_left R T, le_max_left (max R T) 0]
  have hρT : T ≤ ρ := by rw [hρ]; linarith [le_max_right R T, le_max_left (max R T) 0]
  have hρ0 : 0 < ρ := by rw [hρ]; linarith [le_max_right (max R T) 0]
  let χ : ContDiffBump (0 : Vec d × ℝ) := ⟨ρ, ρ + 1, hρ0, by linarith⟩
  obtain ⟨G, hG⟩ : ∃ G : Vec d × ℝ → Vec d, G = fun p => χ p • Function.uncurry f p := ⟨_, rfl⟩
  have hGc : ContDiff ℝ 2 G := by rw [hG]; exact χ.contDiff.smul hf
  have hGs : HasCompactSupport G := by rw [hG]; exact χ.hasCompactSupport.smul_right
  have hGl := ContDiff.lipschitzWith_of_hasCompactSupport hGs hGc (by norm_num)
  obtain ⟨L, hL⟩ := hGl
  have hDl := ContDiff.lipschitzWith_of_hasCompactSupport (n := 1) (hGs.fderiv (𝕜 := ℝ)) (hGc.fderiv_right (by norm_num)) (by norm_num)
  obtain ⟨K, hK⟩ := hDl
  obtain ⟨F, hF⟩ := hGs.exists_bound_of_continuous hGc.continuous
  have hL' : ∀ p q, ‖G p - G q‖ ≤ L * ‖p - q‖ := fun p q => by
    rw [← dist_eq_norm, ← dist_eq_norm]; exact hL.dist_le_mul p q
  have hK' : ∀ p q, ‖fderiv ℝ G p - fderiv ℝ G q‖ ≤ K * ‖p - q‖ := fun p q => by
    rw [← dist_eq_norm, ← dist_eq_norm]; exact hK.dist_le_mul p q
  refine ⟨fun x t => G (x, t), fun x t => (fderiv ℝ G (x, t)).comp (ContinuousLinearMap.inl ℝ (Vec d) ℝ), fun x t => χ (x, t), L, K, F,
    L.2, (norm_nonneg _).trans (hF 0), ⟨?_, fun x y t _ => ?_, fun x t _ => ?_, fun x y s _ t _ => ?_⟩, fun x s _ t _ => ?_,
    fun x t => hF (x, t), fun x hx t ht => ?_, fun x t => ⟨χ.nonneg, χ.le_one, by rw [hG]; rfl⟩⟩
  · exact hGc.continuous
  · refine (hL' (x, t) (y, t)).trans (mul_le_mul_of_nonneg_left ?_ L.2)
    rw [Prod.mk_sub_mk, sub_self, Prod.norm_mk, norm_zero]
    exact max_le le_rfl (norm_nonneg _)
  · have h1 : HasFDerivAt G (fderiv ℝ G (x, t)) (x, t) := (hGc.differentiable (by norm_num) _).hasFDerivAt
    exact h1.comp x (hasFDerivAt_prodMk_left x t)
  · rw [← ContinuousLinearMap.sub_comp]
    refine (ContinuousLinearMap.opNorm_comp_le _ _).trans ?_
    have h1 : ‖ContinuousLinearMap.inl ℝ (Vec d) ℝ‖ ≤ 1 := ContinuousLinearMap.opNorm_le_bound _ zero_le_one fun v => by
      simp [Prod.norm_mk]
    refine (mul_le_mul (hK' (x, s) (y, t)) h1 (norm_nonneg _) (by positivity)).trans ?_
    rw [mul_one, Prod.mk_sub_mk, Prod.norm_mk, Real.norm_eq_abs]
    exact mul_le_mul_of_nonneg_left (max_le (by linarith [abs_nonneg (s - t)]) (by linarith [norm_nonneg (x - y)])) K.2
  · refine (hL' (x, s) (x, t)).trans ?_
    rw [Prod.mk_sub_mk, sub_self, Prod.norm_mk, norm_zero, Real.norm_eq_abs, max_eq_right (abs_nonneg _)]
    have h1 : (0 : ℝ) ≤ L := L.2
    exact mul_le_mul_of_nonneg_right (le_mul_of_one_le_right h1 (by linarith [norm_nonneg x])) (abs_nonneg _)
  · have h1 : χ (x, t) = 1 := χ.one_of_mem_closedBall (by
      rw [mem_closedBall_zero_iff, Prod.norm_mk, Real.norm_eq_abs, abs_of_nonneg ht.1]
      exact max_le (hx.trans hρR) (ht.2.trans hρT))
    simp only [hG, h1, one_smul, Function.uncurry]

/-- Solutions for a globally Lipschitz field are unique. -/
theorem Spec.SolvesAdditive.unique {f : Vec d → ℝ → Vec d} {T L : ℝ} (hc : Continuous (Function.uncurry f)) (hL : 0 ≤ L)
    (hlip : ∀ x y, ∀ t ∈ Icc 0 T, ‖f x t - f y t‖ ≤ L * ‖x - y‖) {S : Mat d m} {w : ℝ → Vec m} {x0 : Vec d} {x x' : ℝ → Vec d}
    (hT : 0 < T) (hx : SolvesAdditive f S w x0 T x) (hx' : SolvesAdditive f S w x0 T x') : ∀ t ∈ Icc 0 T, x t = x' t := by
  intro t ht
  rcases ht.1.eq_or_lt with rfl | ht0
  · rw [hx.eq 0 ⟨le_rfl, hT.le⟩, hx'.eq 0 ⟨le_rfl, hT.le⟩]
    simp
  refine eq_of_norm_sub_le_zero (le_of_forall_pos_le_add fun ε hε => ?_)
  obtain ⟨η, hη, hu⟩ := euler_path_tendsto hc hL hlip hT hx (half_pos hε)
  obtain ⟨η', hη', hu'⟩ := euler_path_tendsto hc hL hlip hT hx' (half_pos hε)
  obtain ⟨n, hn⟩ := exists_nat_gt (t / min η η')
  have hmin : 0 < min η η' := lt_min hη hη'
  obtain ⟨h, hh⟩ : ∃ h, h = t / (n + 1 : ℕ) := ⟨_, rfl⟩
  have hh0 : 0 < h := by rw [hh]; positivity
  have hnh : ((n + 1 : ℕ) : ℝ) * h = t := by
    rw [hh]
    have : ((n + 1 : ℕ) : ℝ) ≠ 0 := by positivity
    field_simp
  have hhη : h < min η η' := by
    rw [hh, div_lt_iff₀ (by positivity)]
    rw [div_lt_iff₀ hmin] at hn
    push_cast
    nlinarith
  obtain ⟨E, hE0, hEs⟩ : ∃ E : ℕ → Vec d, E 0 = x0 ∧ ∀ i, E (i + 1) = E i + h • f (E i) (i * h) +
      S *ᵥ (w ((i + 1 : ℕ) * h) - w (i * h)) :=
    ⟨fun i => Nat.rec x0 (fun i e => e + h • f e (i * h) + S *ᵥ (w ((i + 1 : ℕ) * h) - w (i * h))) i, rfl, fun _ => rfl⟩
  have h1 := hu h (n + 1) E hh0 (hhη.trans_le (min_le_left _ _)) (by rw [hnh]; exact ht.2) hE0 (fun i _ => hEs i) (n + 1) le_rfl
  have h2 := hu' h (n + 1) E hh0 (hhη.trans_le (min_le_right _ _)) (by rw [hnh]; exact ht.2) hE0 (fun i _ => hEs i) (n + 1) le_rfl
  rw [hnh] at h1 h2
  rw [show x t - x' t = (x t - E (n + 1)) - (x' t - E (n + 1)) by abel]
  refine (norm_sub_le _ _).trans ?_
  linarith

/-- A solution that stays where two fields agree solves both equations. -/
theorem Spec.SolvesAdditive.congr_field {f g : Vec d → ℝ → Vec d} {T : ℝ} {S : Mat d m} {w : ℝ → Vec m} {x0 : Vec d} {x : ℝ → Vec d}
    (hx : SolvesAdditive f S w x0 T x) (h : ∀ t ∈ Icc 0 T, g (x t) t = f (x t) t) : SolvesAdditive g S w x0 T x := by
  refine ⟨hx.cont, fun t ht => ?_⟩
  rw [hx.eq t ht]
  congr 2
  refine intervalIntegral.integral_congr fun s hs => ?_
  rw [uIcc_of_le ht.1] at hs
  exact (h s ⟨hs.1, hs.2.trans ht.2⟩).symm

/-- Solutions for a field with two continuous derivatives are unique. -/
theorem Spec.SolvesAdditive.unique_smooth {f : Vec d → ℝ → Vec d} (hf : ContDiff ℝ 2 (Function.uncurry f)) {T : ℝ} {S : Mat d m}
    {w : ℝ → Vec m} {x0 : Vec d} {x x' : ℝ → Vec d} (hT : 0 < T) (hx : SolvesAdditive f S w x0 T x)
    (hx' : SolvesAdditive f S w x0 T x') : ∀ t ∈ Icc 0 T, x t = x' t := by
  obtain ⟨b, hb⟩ := isCompact_Icc.exists_bound_of_continuousOn hx.cont
  obtain ⟨b', hb'⟩ := isCompact_Icc.exists_bound_of_continuousOn hx'.cont
  obtain ⟨g, Dg, χ, L, K, F, hL, -, hg, -, -, heq, -⟩ := exists_cutoff hf T (max b b')
  exact (hx.congr_field fun t ht => heq _ ((hb t ht).trans (le_max_left _ _)) t ht).unique hg.cont hL hg.lip hT
    (hx'.congr_field fun t ht => heq _ ((hb' t ht).trans (le_max_right _ _)) t ht)

end Verif
