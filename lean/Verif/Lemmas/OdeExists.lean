import Mathlib.Analysis.ODE.ExistUnique
import Mathlib.Analysis.ODE.Gronwall
import Verif.Basic

/-! A field that is continuous in time and globally Lipschitz in the state has a solution on any compact interval. -/

namespace Verif

open Set

variable {d : ℕ}

/-- Componentwise clamping to `[-R, R]`. -/
noncomputable def clampVec (R : ℝ) (x : Vec d) : Vec d := fun i => max (-R) (min R (x i))

theorem clampVec_lipschitz (R : ℝ) (x y : Vec d) : ‖clampVec R x - clampVec R y‖ ≤ ‖x - y‖ := by
  rw [pi_norm_le_iff_of_nonneg (norm_nonneg _)]
  intro i
  have h1 := norm_le_pi_norm (x - y) i
  have h2 : |max (-R) (min R (x i)) - max (-R) (min R (y i))| ≤ |min R (x i) - min R (y i)| := by
    rw [max_comm (-R), max_comm (-R)]
    exact abs_max_sub_max_le_abs _ _ _
  have h3 : |min R (x i) - min R (y i)| ≤ |x i - y i| := by
    rw [min_comm R, min_comm R]
    exact abs_min_sub_min_le_max _ _ _ _ |>.trans (by simp)
  exact (h2.trans h3).trans h1

theorem clampVec_norm_le {R : ℝ} (hR : 0 ≤ R) (x : Vec d) : ‖clampVec R x‖ ≤ R := by
  rw [pi_norm_le_iff_of_nonneg hR]
  intro i
  rw [Real.norm_eq_abs, abs_le]
  exact ⟨le_max_left _ _, max_le (by linarith) (min_le_left _ _)⟩

theorem clampVec_of_norm_le {R : ℝ} {x : Vec d} (h : ‖x‖ ≤ R) : clampVec R x = x := by
  ext i
  have h1 := (norm_le_pi_norm x i).trans h
  rw [Real.norm_eq_abs, abs_le] at h1
  simp only [clampVec]
  rw [min_eq_right h1.2, max_eq_right h1.1]

theorem clampVec_norm_le_norm {R : ℝ} (hR : 0 ≤ R) (x : Vec d) : ‖clampVec R x‖ ≤ ‖x‖ := by
  have h := clampVec_lipschitz R x 0
  rwa [clampVec_of_norm_le (x := (0 : Vec d)) (by simpa using hR), sub_zero, sub_zero] at h

/-- Global existence. -/
theorem exists_solution_Icc (vf : Vec d → ℝ → Vec d) {L T : ℝ} (hT : 0 ≤ T) (hc : ∀ x, ContinuousOn (vf x) (Icc 0 T))
    (hlip : ∀ x y, ∀ t ∈ Icc 0 T, ‖vf x t - vf y t‖ ≤ L * ‖x - y‖) (x0 : Vec d) :
    ∃ y : ℝ → Vec d, y 0 = x0 ∧ ∀ t ∈ Icc 0 T, HasDerivWithinAt y (vf (y t) t) (Icc 0 T) t := by
  wlog hL : 0 ≤ L generalizing L
  · refine this (L := 0) (fun x y t ht => (hlip x y t ht).trans ?_) le_rfl
    exact mul_le_mul_of_nonneg_right (not_le.mp hL).le (norm_nonneg _)
  obtain ⟨M, hM⟩ := isCompact_Icc.exists_bound_of_continuousOn (hc 0)
  have hM0 : 0 ≤ M := (norm_nonneg _).trans (hM 0 ⟨le_rfl, hT⟩)
  set R := (‖x0‖ + M * T) * Real.exp (L * T) with hRdef
  have hR : 0 ≤ R := by positivity
  have hgrow : ∀ x, ∀ t ∈ Icc 0 T, ‖vf x t‖ ≤ L * ‖x‖ + M := fun x t ht => by
    have h1 := hlip x 0 t ht
    rw [sub_zero] at h1
    calc ‖vf x t‖ = ‖(vf x t - vf 0 t) + vf 0 t‖ := by simp
      _ ≤ ‖vf x t - vf 0 t‖ + ‖vf 0 t‖ := norm_add_le _ _
      _ ≤ _ := add_le_add h1 (hM t ht)
  have hB : 0 ≤ L * R + M := by positivity
  have hpl : IsPicardLindelof (fun t x => vf (clampVec R x) t) (⟨0, le_rfl, hT⟩ : Icc 0 T) x0
      (Real.toNNReal ((L * R + M) * T)) 0 (Real.toNNReal (L * R + M)) (Real.toNNReal L) := by
    refine ⟨fun t ht => ?_, fun x _ => hc _, fun t ht x _ => ?_, ?_⟩
    · refine LipschitzOnWith.of_dist_le_mul fun x _ y _ => ?_
      rw [dist_eq_norm, dist_eq_norm, Real.coe_toNNReal _ hL]
      exact (hlip _ _ t ht).trans (mul_le_mul_of_nonneg_left (clampVec_lipschitz R x y) hL)
    · rw [Real.coe_toNNReal _ hB]
      refine (hgrow _ t ht).trans (by gcongr; exact clampVec_norm_le hR x)
    · rw [Real.coe_toNNReal _ hB, Real.coe_toNNReal _ (by positivity)]
      simp [hT]
  obtain ⟨y, hy0, hy⟩ := hpl.exists_eq_forall_mem_Icc_hasDerivWithinAt₀
  refine ⟨y, hy0, fun t ht => ?_⟩
  have hmono : ∀ t ∈ Ico 0 T, HasDerivWithinAt y (vf (clampVec R (y t)) t) (Ici t) t := fun t ht =>
    (hy t (Ico_subset_Icc_self ht)).mono_of_mem_nhdsWithin
      (Filter.mem_of_superset (Icc_mem_nhdsGE ht.2) (Icc_subset_Icc ht.1 le_rfl))
  have hb := norm_le_gronwallBound_of_norm_deriv_right_le (f := y) (f' := fun t => vf (clampVec R (y t)) t) (δ := ‖x0‖) (K := L)
    (ε := M) (a := 0) (b := T) (fun t ht => (hy t ht).continuousWithinAt) hmono (by rw [hy0]) (fun t ht =>
      (hgrow _ t (Ico_subset_Icc_self ht)).trans (by gcongr; exact clampVec_norm_le_norm hR _)) t ht
  have hyR : ‖y t‖ ≤ R := by
    refine hb.trans ((gronwallBound_mono (norm_nonneg _) hM0 hL (by linarith [ht.2] : t - 0 ≤ T)).trans ?_)
    unfold gronwallBound
    split_ifs with h0
    · rw [hRdef, h0]; simp
    · have hL' : 0 < L := lt_of_le_of_ne hL (Ne.symm h0)
      rw [hRdef, add_mul]
      have h2 : (Real.exp (L * T) - 1) ≤ L * T * Real.exp (L * T) := by
        have := Real.add_one_le_exp (-(L * T))
        rw [Real.exp_neg] at this
        have hp := Real.exp_pos (L * T)
        have h3 : (-(L * T) + 1) * Real.exp (L * T) ≤ 1 := by
          calc (-(L * T) + 1) * Real.exp (L * T) ≤ (Real.exp (L * T))⁻¹ * Real.exp (L * T) :=
                mul_le_mul_of_nonneg_right this hp.le
            _ = 1 := inv_mul_cancel₀ hp.ne'
        linarith
      have h4 : M / L * (Real.exp (L * T) - 1) ≤ M / L * (L * T * Real.exp (L * T)) :=
        mul_le_mul_of_nonneg_left h2 (by positivity)
      have h5 : M / L * (L * T * Real.exp (L * T)) = M * T * Real.exp (L * T) := by field_simp
      linarith
  have := hy t ht
  rwa [clampVec_of_norm_le hyR] at this

end Verif
