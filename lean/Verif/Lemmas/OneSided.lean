import Verif.Lemmas.Cutoff

/-! Solutions for fields with two continuous derivatives that satisfy a one-sided growth condition. -/

namespace Verif

open Matrix Spec Jnp Set MeasureTheory Filter
open scoped Topology

variable {d m : ℕ}

theorem norm_sq_le_dotProduct (z : Vec d) : ‖z‖ ^ 2 ≤ z ⬝ᵥ z := by
  have h0 : 0 ≤ z ⬝ᵥ z := by
    simp only [dotProduct]
    exact Finset.sum_nonneg fun i _ => mul_self_nonneg _
  have h1 : ‖z‖ ≤ Real.sqrt (z ⬝ᵥ z) := by
    rw [pi_norm_le_iff_of_nonneg (Real.sqrt_nonneg _)]
    intro i
    rw [Real.norm_eq_abs]
    refine Real.abs_le_sqrt ?_
    rw [sq]
    simp only [dotProduct]
    exact Finset.single_le_sum (f := fun i => z i * z i) (fun i _ => mul_self_nonneg _) (Finset.mem_univ i)
  calc ‖z‖ ^ 2 ≤ Real.sqrt (z ⬝ᵥ z) ^ 2 := pow_le_pow_left₀ (norm_nonneg _) h1 2
    _ = z ⬝ᵥ z := Real.sq_sqrt h0

/-- Along every continuous path of the noise the equation has a solution, if the field does not push outward faster than linearly. -/
theorem exists_solution_onesided {f : Vec d → ℝ → Vec d} (hf : ContDiff ℝ 2 (Function.uncurry f)) {T : ℝ} (hT : 0 ≤ T) (S : Mat d m)
    (hone : ∀ ρ : ℝ, ∃ C : ℝ, ∀ v : Vec m, ‖v‖ ≤ ρ → ∀ z, ∀ t ∈ Icc 0 T, z ⬝ᵥ f (z + S *ᵥ v) t ≤ C * (1 + z ⬝ᵥ z))
    {w : ℝ → Vec m} (hw : ContinuousOn w (Icc 0 T)) (x0 : Vec d) : ∃ x, SolvesAdditive f S w x0 T x := by
  have hSc : Continuous fun v : Vec m => S *ᵥ v := (Matrix.mulVecLin S).continuous_of_finiteDimensional
  have hwc : ContinuousOn (fun t => w t - w 0) (Icc 0 T) := hw.sub continuousOn_const
  have hu : ContinuousOn (fun t => S *ᵥ (w t - w 0)) (Icc 0 T) := hSc.comp_continuousOn hwc
  obtain ⟨ρ, hρ⟩ := isCompact_Icc.exists_bound_of_continuousOn hwc
  obtain ⟨b, hb⟩ := isCompact_Icc.exists_bound_of_continuousOn hu
  obtain ⟨C0, hC0⟩ := hone ρ
  obtain ⟨C, hCdef⟩ : ∃ C, C = max C0 0 := ⟨_, rfl⟩
  have hC : 0 ≤ C := by rw [hCdef]; exact le_max_right _ _
  have hzz : ∀ z : Vec d, 0 ≤ z ⬝ᵥ z := fun z => (sq_nonneg ‖z‖).trans (norm_sq_le_dotProduct z)
  have hC1 : ∀ v : Vec m, ‖v‖ ≤ ρ → ∀ z, ∀ t ∈ Icc 0 T, z ⬝ᵥ f (z + S *ᵥ v) t ≤ C * (1 + z ⬝ᵥ z) := fun v hv z t ht =>
    (hC0 v hv z t ht).trans (mul_le_mul_of_nonneg_right (by rw [hCdef]; exact le_max_left _ _) (by linarith [hzz z]))
  obtain ⟨Φ, hΦ⟩ : ∃ Φ, Φ = gronwallBound (x0 ⬝ᵥ x0) (2 * C) (2 * C) T := ⟨_, rfl⟩
  obtain ⟨g, Dg, χ, L, K, F, hL, -, hg, -, -, heq, hχ⟩ := exists_cutoff hf T (Real.sqrt Φ + b)
  obtain ⟨z, hz0, hz⟩ := exists_solution_Icc (fun v t => g (v + S *ᵥ (w t - w 0)) t) hT
    (fun v => hg.cont.comp_continuousOn ((continuousOn_const.add hu).prodMk continuousOn_id))
    (fun v v' t ht => by simpa using hg.lip (v + S *ᵥ (w t - w 0)) (v' + S *ᵥ (w t - w 0)) t ht) x0
  have hzc : ContinuousOn z (Icc 0 T) := fun t ht => (hz t ht).continuousWithinAt
  have hφd : ∀ t ∈ Icc 0 T, HasDerivWithinAt (fun t => z t ⬝ᵥ z t) (2 * (z t ⬝ᵥ g (z t + S *ᵥ (w t - w 0)) t)) (Icc 0 T) t := fun t ht => by
    have h1 : ∀ i, HasDerivWithinAt (fun t => z t i) (g (z t + S *ᵥ (w t - w 0)) t i) (Icc 0 T) t := hasDerivWithinAt_pi.mp (hz t ht)
    have h2 := HasDerivWithinAt.fun_sum (u := Finset.univ) fun i _ => (h1 i).mul (h1 i)
    refine h2.congr_deriv ?_
    simp only [dotProduct, Finset.mul_sum]
    exact Finset.sum_congr rfl fun i _ => by ring
  have hφ : ∀ t ∈ Icc 0 T, z t ⬝ᵥ z t ≤ Φ := fun t ht => by
    have h1 := le_gronwallBound_of_liminf_deriv_right_le (f := fun t => z t ⬝ᵥ z t) (δ := x0 ⬝ᵥ x0) (K := 2 * C) (ε := 2 * C) (a := 0) (b := T)
      (f' := fun t => 2 * (z t ⬝ᵥ g (z t + S *ᵥ (w t - w 0)) t)) (fun t ht => (hφd t ht).continuousWithinAt) (fun t ht r hr => by
        have h2 : HasDerivWithinAt (fun t => z t ⬝ᵥ z t) (2 * (z t ⬝ᵥ g (z t + S *ᵥ (w t - w 0)) t)) (Ici t) t :=
          (hφd t (Ico_subset_Icc_self ht)).mono_of_mem_nhdsWithin
            (Filter.mem_of_superset (Icc_mem_nhdsGE ht.2) (Icc_subset_Icc ht.1 le_rfl))
        exact h2.liminf_right_slope_le hr) (by rw [hz0]) (fun t ht => by
        obtain ⟨c0, c1, c2⟩ := hχ (z t + S *ᵥ (w t - w 0)) t
        have ht' := Ico_subset_Icc_self ht
        rw [c2, dotProduct_smul, smul_eq_mul]
        have h3 := hC1 (w t - w 0) (hρ t ht') (z t) t ht'
        have h4 : 0 ≤ C * (1 + z t ⬝ᵥ z t) := mul_nonneg hC (by linarith [hzz (z t)])
        have h5 : χ (z t + S *ᵥ (w t - w 0)) t * (z t ⬝ᵥ f (z t + S *ᵥ (w t - w 0)) t) ≤ C * (1 + z t ⬝ᵥ z t) := by
          refine (mul_le_mul_of_nonneg_left h3 c0).trans ?_
          exact mul_le_of_le_one_left h4 c1
        linarith) t ht
    refine h1.trans ?_
    rw [hΦ]
    exact gronwallBound_mono (hzz x0) (by positivity) (by positivity) (by linarith [ht.2])
  have hin : ∀ t ∈ Icc 0 T, g (z t + S *ᵥ (w t - w 0)) t = f (z t + S *ᵥ (w t - w 0)) t := fun t ht => by
    refine heq _ ((norm_add_le _ _).trans (add_le_add ?_ (hb t ht))) t ht
    have h1 := (norm_sq_le_dotProduct (z t)).trans (hφ t ht)
    exact Real.le_sqrt_of_sq_le h1
  have hxg : SolvesAdditive g S w x0 T fun t => z t + S *ᵥ (w t - w 0) := by
    refine ⟨hzc.add hu, fun t ht => ?_⟩
    have hsub : Icc 0 t ⊆ Icc 0 T := Icc_subset_Icc le_rfl ht.2
    have hint : IntervalIntegrable (fun r => g (z r + S *ᵥ (w r - w 0)) r) volume 0 t := by
      refine ContinuousOn.intervalIntegrable ?_
      rw [uIcc_of_le ht.1]
      exact (hg.cont.comp_continuousOn ((hzc.add hu).prodMk continuousOn_id)).mono hsub
    have := intervalIntegral.integral_eq_sub_of_hasDeriv_right_of_le (f := z)
      (f' := fun r => g (z r + S *ᵥ (w r - w 0)) r) ht.1 (hzc.mono hsub)
      (fun r hr => (hz r (hsub (Ioo_subset_Icc_self hr))).mono_of_mem_nhdsWithin
        (mem_nhdsWithin_of_mem_nhds (Icc_mem_nhds hr.1 (hr.2.trans_le ht.2)))) hint
    rw [this, hz0]
    abel
  exact ⟨_, hxg.congr_field fun t ht => (hin t ht).symm⟩

end Verif
