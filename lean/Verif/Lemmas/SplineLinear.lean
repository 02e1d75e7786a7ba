import Verif.Lemmas.RosLinear
import Verif.Props.SplineEkf

/-! One EKF0 step with the twice integrated prior per interval of `sde_solver` on linear problems. -/

namespace Verif

open Matrix Spec Jnp Set MeasureTheory ProbabilityTheory Filter Scripts
open scoped NNReal Topology

variable {d m : ℕ}

/-- The factor of the state in one interval. -/
noncomputable def splE (F : Mat d d) (δ : ℝ) : Mat d d := 1 + δ • F + (δ ^ 2 / 2) • (F * F) + (3 * δ ^ 3 / 16) • (F * F * F)

/-- The factor of the increment; that of the second coefficient is less by `3/4`. -/
noncomputable def splA (F : Mat d d) (δ : ℝ) : Mat d d := 1 + (δ / 2) • F + (3 * δ ^ 2 / 16) • (F * F)

noncomputable def splB (F : Mat d d) (δ : ℝ) : Mat d d := splA F δ - (3 / 4 : ℝ) • 1

/-- The covariance added by one interval. -/
noncomputable def splCov (F V : Mat d d) (δ : ℝ) : Mat d d := δ • (splA F δ * V * (splA F δ)ᵀ) + (3 * δ) • (splB F δ * V * (splB F δ)ᵀ)

/-- The step on the field of one interval. -/
theorem spl_interval (F : Mat d d) (S : Mat d m) {δ : ℝ} (hδ : 0 < δ) (a b : Vec m) (tk : ℝ) (x : Vec d) {vf : Field d}
    (hvf : vf = intervalField (fun z _ => F *ᵥ z) (fun _ _ => S) (Foster.getApprox m) δ (a, b) tk) :
    (splineScheme vf δ x (F *ᵥ vf x 0) 1).1 = splE F δ *ᵥ x + (splA F δ *ᵥ (S *ᵥ a) + Real.sqrt 6 • (splB F δ *ᵥ (S *ᵥ b))) := by
  obtain ⟨u, hu⟩ : ∃ u, u = S *ᵥ a := ⟨_, rfl⟩
  obtain ⟨w, hw⟩ : ∃ w, w = Real.sqrt 6 • S *ᵥ b := ⟨_, rfl⟩
  have e0 : ∀ z, vf z 0 = F *ᵥ z + (1 / δ) • (u + w) := fun z => by
    rw [hvf, intervalField_linear, hu, hw]
    show F *ᵥ z + ((1 / δ) • (S *ᵥ a) + (Real.sqrt 6 * (1 - 2 * 0 / δ) / δ) • (S *ᵥ b)) = _
    rw [show Real.sqrt 6 * (1 - 2 * 0 / δ) / δ = 1 / δ * Real.sqrt 6 by ring, smul_add, smul_smul]
  have e1 : ∀ z, vf z δ = F *ᵥ z + (1 / δ) • (u - w) := fun z => by
    rw [hvf, intervalField_linear, hu, hw]
    show F *ᵥ z + ((1 / δ) • (S *ᵥ a) + (Real.sqrt 6 * (1 - 2 * δ / δ) / δ) • (S *ᵥ b)) = _
    rw [show Real.sqrt 6 * (1 - 2 * δ / δ) / δ = -(1 / δ * Real.sqrt 6) by field_simp; ring, smul_sub, smul_smul, neg_smul, sub_eq_add_neg]
  have hr : Real.sqrt 6 • (splB F δ *ᵥ (S *ᵥ b)) = splB F δ *ᵥ w := by rw [hw, mulVec_smul]
  have hs : (splineVar 0 + 1 / 2) / (splineVar 0 + 1 / 3) = (3 / 2 : ℝ) := by norm_num [splineVar]
  rw [hr, ← hu]
  simp only [splineScheme, Nat.cast_zero, zero_add, one_mul, hs, e0, e1, splE, splA, splB]
  simp only [mulVec_add, mulVec_sub, mulVec_smul, add_mulVec, sub_mulVec, one_mulVec, smul_mulVec, ← mulVec_mulVec, smul_add, smul_sub, smul_smul]
  funext i
  simp only [Pi.add_apply, Pi.sub_apply, Pi.smul_apply, smul_eq_mul]
  field_simp
  ring

section Norm

open scoped Matrix.Norms.Operator

theorem splE_local (F : Mat d d) : ∃ a : ℝ, 0 ≤ a ∧ ∀ h, 0 < h → ‖splE F h - trans15 F h‖ ≤ a * h ^ 3 := by
  refine ⟨3 / 16 * ‖F * F * F‖, by positivity, fun h h0 => ?_⟩
  have e : splE F h - trans15 F h = (3 * h ^ 3 / 16) • (F * F * F) := by
    rw [splE, trans15]
    abel
  rw [e, norm_smul, Real.norm_of_nonneg (by positivity)]
  exact le_of_eq (by ring)

theorem splCov_local (F : Mat d d) (S : Mat d m) {T : ℝ} (hT : 0 < T) : ∃ c : ℝ, ∀ h, 0 < h → h ≤ T →
    ‖splCov F (S * Sᵀ) h - (19 / 16 : ℝ) • transitionCov F S h‖ ≤ c * h ^ 2 := by
  obtain ⟨c, hc⟩ := parCov_local F S 0 hT
  obtain ⟨V, hV⟩ : ∃ V, V = S * Sᵀ := ⟨_, rfl⟩
  rw [← hV] at hc ⊢
  obtain ⟨G, hG⟩ : ∃ G : ℝ → Mat d d, G = fun h => (1 / 2 : ℝ) • F + (3 * h / 16) • (F * F) := ⟨_, rfl⟩
  obtain ⟨p, hp⟩ : ∃ p : ℝ → Mat d d, p = fun h => (7 / 4 : ℝ) • (G h * V + V * (G h)ᵀ) + (4 * h) • (G h * V * (G h)ᵀ) := ⟨_, rfl⟩
  have hGc : Continuous G := by rw [hG]; fun_prop
  have hpc : Continuous fun h => ‖p h‖ := by
    rw [hp]
    fun_prop
  obtain ⟨K, hK⟩ := isCompact_Icc.bddAbove_image (K := Icc 0 T) hpc.continuousOn
  refine ⟨K + 19 / 16 * c, fun h h0 hhT => ?_⟩
  have e : splCov F V h - (19 / 16 : ℝ) • transitionCov F S h = h ^ 2 • p h + (19 / 16 : ℝ) • (parCov V 0 h - transitionCov F S h) := by
    have ea : splA F h = 1 + h • G h := by
      rw [splA, hG]
      simp only [smul_add, smul_smul]
      rw [add_assoc]
      congr 3 <;> ring
    have eb : splB F h = (1 / 4 : ℝ) • 1 + h • G h := by
      rw [splB, ea]
      module
    obtain ⟨g, hg⟩ : ∃ g, g = G h := ⟨_, rfl⟩
    rw [splCov, ea, eb, hp, parCov]
    simp only [← hg]
    simp only [transpose_add, transpose_one, transpose_smul, Matrix.add_mul, Matrix.mul_add, Matrix.one_mul, Matrix.mul_one, Matrix.smul_mul, Matrix.mul_smul]
    module
  rw [e]
  refine (norm_add_le _ _).trans ?_
  rw [norm_smul, norm_smul, Real.norm_of_nonneg (by positivity), Real.norm_of_nonneg (by norm_num)]
  have k1 : ‖p h‖ ≤ K := hK ⟨h, ⟨h0.le, hhT⟩, rfl⟩
  have k2 := hc h h0 hhT
  calc _ ≤ h ^ 2 * K + 19 / 16 * (c * h ^ 2) := by gcongr
    _ = _ := by ring

/-- Covariances when one interval adds `q` times the right one up to second order. -/
theorem near_cov (F : Mat d d) (S : Mat d m) {T : ℝ} (hT : 0 < T) (Q R : ℝ → Mat d d) {a c q : ℝ} (ha : 0 ≤ a)
    (hQ : ∀ h, 0 < h → h ≤ T → ‖Q h - trans15 F h‖ ≤ a * h ^ 3) (hR : ∀ h, 0 < h → h ≤ T → ‖R h - q • transitionCov F S h‖ ≤ c * h ^ 2) :
    ∃ C : ℝ, 0 ≤ C ∧ ∀ N : ℕ, 0 < N → ∀ k ≤ N,
      ‖Q (T / N) ^ k - expm ((k * (T / N)) • F)‖ ≤ C * (T / N) ^ 2 ∧
      ‖∑ i ∈ Finset.range k, Q (T / N) ^ i * R (T / N) * (Q (T / N) ^ i)ᵀ - q • transitionCov F S (k * (T / N))‖ ≤ C * (T / N) := by
  obtain ⟨C, hC0, hC⟩ := near_moments F S hT Q (transitionCov F S) (c := 0) ha hQ (fun h _ _ => by simp)
  have hec : Continuous fun t : ℝ => ‖expm (t • F)‖ := by
    have : Continuous fun t : ℝ => expm (t • F) := NormedSpace.exp_continuous.comp (continuous_id.smul continuous_const)
    exact this.norm
  obtain ⟨B, hB⟩ := isCompact_Icc.bddAbove_image (K := Icc 0 T) hec.continuousOn
  have hB0 : 0 ≤ B := (norm_nonneg _).trans (hB ⟨0, ⟨le_rfl, hT.le⟩, rfl⟩)
  obtain ⟨G, hG⟩ : ∃ G, G = C * T ^ 2 + B := ⟨_, rfl⟩
  have hG0 : 0 ≤ G := by rw [hG]; positivity
  refine ⟨C + T * (G * |c| * (d * G)) + |q| * (C * T), by positivity, fun N hN k hk => ?_⟩
  have hN' : (0 : ℝ) < N := by exact_mod_cast hN
  have hall := fun i (hi : i ≤ N) => hC N hN i hi
  obtain ⟨δ, hδ⟩ : ∃ δ, δ = T / N := ⟨_, rfl⟩
  rw [← hδ] at hall ⊢
  have hδ0 : 0 < δ := by rw [hδ]; positivity
  have hNδ : (N : ℝ) * δ = T := by rw [hδ]; field_simp
  have hδT : δ ≤ T := by
    rw [← hNδ]
    have : (1 : ℝ) ≤ N := by exact_mod_cast hN
    nlinarith
  have hpow : ∀ i ≤ N, ‖Q δ ^ i‖ ≤ G := fun i hi => by
    have hiT : (i : ℝ) * δ ≤ T := by rw [← hNδ]; exact mul_le_mul_of_nonneg_right (by exact_mod_cast hi) hδ0.le
    have h1 := (hall i hi).1
    have h2 : ‖expm ((i * δ) • F)‖ ≤ B := hB ⟨i * δ, ⟨by positivity, hiT⟩, rfl⟩
    have h3 := norm_le_norm_add_norm_sub' (Q δ ^ i) (expm ((i * δ) • F))
    have h4 : C * δ ^ 2 ≤ C * T ^ 2 := by gcongr
    rw [hG]
    linarith
  obtain ⟨h1, h2⟩ := hall k hk
  have s1 : 0 ≤ T * (G * |c| * (d * G)) := by positivity
  have s2 : 0 ≤ |q| * (C * T) := by positivity
  refine ⟨h1.trans (by gcongr; linarith), ?_⟩
  have e : ∑ i ∈ Finset.range k, Q δ ^ i * R δ * (Q δ ^ i)ᵀ - q • transitionCov F S (k * δ) =
      ∑ i ∈ Finset.range k, Q δ ^ i * (R δ - q • transitionCov F S δ) * (Q δ ^ i)ᵀ +
      q • (∑ i ∈ Finset.range k, Q δ ^ i * transitionCov F S δ * (Q δ ^ i)ᵀ - transitionCov F S (k * δ)) := by
    rw [smul_sub, Finset.smul_sum, ← add_sub_assoc, ← Finset.sum_add_distrib]
    congr 1
    refine Finset.sum_congr rfl fun i _ => ?_
    rw [Matrix.mul_sub, Matrix.sub_mul, Matrix.mul_smul, Matrix.smul_mul]
    abel
  rw [e]
  refine (norm_add_le _ _).trans ?_
  have t1 : ‖∑ i ∈ Finset.range k, Q δ ^ i * (R δ - q • transitionCov F S δ) * (Q δ ^ i)ᵀ‖ ≤ T * (G * |c| * (d * G)) * δ := by
    refine (norm_sum_le _ _).trans ?_
    have hterm : ∀ i ∈ Finset.range k, ‖Q δ ^ i * (R δ - q • transitionCov F S δ) * (Q δ ^ i)ᵀ‖ ≤ G * (|c| * δ ^ 2) * (d * G) := fun i hi => by
      have hiN : i ≤ N := by have := Finset.mem_range.mp hi; omega
      have hp := hpow i hiN
      have hr : ‖R δ - q • transitionCov F S δ‖ ≤ |c| * δ ^ 2 := (hR δ hδ0 hδT).trans (by gcongr; exact le_abs_self c)
      exact (norm_mul_le _ _).trans (mul_le_mul ((norm_mul_le _ _).trans (mul_le_mul hp hr (norm_nonneg _) hG0))
        ((norm_transpose_le _).trans (by gcongr)) (norm_nonneg _) (by positivity))
    refine (Finset.sum_le_sum hterm).trans ?_
    rw [Finset.sum_const, Finset.card_range, nsmul_eq_mul]
    have hkδ : (k : ℝ) * δ ≤ T := by rw [← hNδ]; exact mul_le_mul_of_nonneg_right (by exact_mod_cast hk) hδ0.le
    calc (k : ℝ) * (G * (|c| * δ ^ 2) * (d * G)) = (k * δ) * (G * |c| * (d * G)) * δ := by ring
      _ ≤ _ := by gcongr
  have t2 : ‖q • (∑ i ∈ Finset.range k, Q δ ^ i * transitionCov F S δ * (Q δ ^ i)ᵀ - transitionCov F S (k * δ))‖ ≤ |q| * (C * T) * δ := by
    rw [norm_smul, Real.norm_eq_abs]
    calc _ ≤ |q| * (C * δ ^ 2) := by gcongr
      _ = |q| * (C * δ) * δ := by ring
      _ ≤ _ := by gcongr
  have t3 : 0 ≤ C * δ := by positivity
  calc _ ≤ T * (G * |c| * (d * G)) * δ + |q| * (C * T) * δ := add_le_add t1 t2
    _ ≤ _ := by nlinarith

end Norm

/-- A coordinate driven directly by noise has positive variance. -/
theorem transitionCov_pos (F : Mat d d) (S : Mat d m) {T : ℝ} (hT : 0 < T) {i : Fin d} (hS : S i ≠ 0) : 0 < transitionCov F S T i i := by
  have hsq : ∀ M : Mat d m, (M * Mᵀ) i i = ∑ j, M i j ^ 2 := fun M => by
    rw [Matrix.mul_apply]
    exact Finset.sum_congr rfl fun j _ => by rw [transpose_apply]; ring
  rw [transitionCov]
  refine intervalIntegral.integral_pos hT (transitionCov_integrand_continuous F S i i).continuousOn (fun s _ => ?_) ⟨0, ⟨le_rfl, hT.le⟩, ?_⟩
  · rw [hsq]; positivity
  · obtain ⟨j, hj⟩ : ∃ j, S i j ≠ 0 := by
      by_contra hc
      push Not at hc
      exact hS (funext hc)
    rw [zero_smul, NormedSpace.exp_zero, Matrix.one_mul, hsq]
    exact Finset.sum_pos' (fun j _ => sq_nonneg _) ⟨j, Finset.mem_univ _, by positivity⟩

end Verif
