import Verif.Spec.Smooth15
import Verif.Lemmas.L2Core
import Verif.Lemmas.BrownianSup6
import Mathlib.Analysis.Calculus.MeanValue

/-! One step of the Itô-Taylor scheme of order 1.5 for additive noise: deterministic bounds along a path. -/

namespace Verif

open Matrix Spec Jnp Set

variable {d m : ℕ}

/-- Taylor expansion to second order. -/
theorem taylor_two {b : Vec d → Vec d} (hb : ContDiff ℝ 2 b) {K3 : ℝ}
    (h3 : ∀ x y, ‖fderiv ℝ (fderiv ℝ b) x - fderiv ℝ (fderiv ℝ b) y‖ ≤ K3 * ‖x - y‖) (x v : Vec d) :
    ‖b (x + v) - b x - fderiv ℝ b x v - (1 / 2 : ℝ) • fderiv ℝ (fderiv ℝ b) x v v‖ ≤ K3 * ‖v‖ ^ 3 := by
  have hd1 : ∀ z, HasFDerivAt b (fderiv ℝ b z) z := fun z => (hb.differentiable (by norm_num) z).hasFDerivAt
  have hd2 : ∀ z, HasFDerivAt (fderiv ℝ b) (fderiv ℝ (fderiv ℝ b) z) z := fun z =>
    ((hb.fderiv_right (m := 1) (by norm_num)).differentiable (by norm_num) z).hasFDerivAt
  have hline : ∀ t : ℝ, HasDerivAt (fun t : ℝ => x + t • v) v t := fun t => by
    simpa using ((hasDerivAt_id t).smul_const v).const_add x
  have hK3 : 0 ≤ K3 * ‖v‖ := by
    have e0 : 0 ≤ ‖fderiv ℝ (fderiv ℝ b) (x + v) - fderiv ℝ (fderiv ℝ b) x‖ := ContinuousLinearMap.opNorm_nonneg _
    have := e0.trans (h3 (x + v) x)
    simpa using this
  -- first derivative along the line
  have h1 : ∀ t ∈ Icc (0 : ℝ) 1, ‖fderiv ℝ b (x + t • v) v - fderiv ℝ b x v - t • fderiv ℝ (fderiv ℝ b) x v v‖ ≤ K3 * ‖v‖ ^ 3 := by
    intro t ht
    have hder : ∀ u : ℝ, HasDerivAt (fun u : ℝ => fderiv ℝ b (x + u • v) v - u • fderiv ℝ (fderiv ℝ b) x v v)
        (fderiv ℝ (fderiv ℝ b) (x + u • v) v v - fderiv ℝ (fderiv ℝ b) x v v) u := fun u => by
      have e1 : HasDerivAt (fun u : ℝ => fderiv ℝ b (x + u • v)) (fderiv ℝ (fderiv ℝ b) (x + u • v) v) u :=
        (hd2 (x + u • v)).comp_hasDerivAt u (hline u)
      have e2 := e1.clm_apply (hasDerivAt_const u v)
      simp only [map_zero, add_zero] at e2
      have e3 := (hasDerivAt_id u).smul_const (fderiv ℝ (fderiv ℝ b) x v v)
      rw [one_smul] at e3
      exact e2.sub e3
    have := Convex.norm_image_sub_le_of_norm_hasDerivWithin_le (s := Icc (0 : ℝ) 1) (C := K3 * ‖v‖ ^ 3) (x := 0) (y := t)
      (fun u _ => (hder u).hasDerivWithinAt) (fun u hu => by
        have e1 : fderiv ℝ (fderiv ℝ b) (x + u • v) v v - fderiv ℝ (fderiv ℝ b) x v v =
            (fderiv ℝ (fderiv ℝ b) (x + u • v) - fderiv ℝ (fderiv ℝ b) x) v v := rfl
        rw [e1]
        refine ((ContinuousLinearMap.le_opNorm _ _).trans (mul_le_mul_of_nonneg_right (ContinuousLinearMap.le_opNorm _ _) (norm_nonneg _))).trans ?_
        have e2 := h3 (x + u • v) x
        rw [add_sub_cancel_left, norm_smul, Real.norm_of_nonneg hu.1] at e2
        have e3 : K3 * (u * ‖v‖) ≤ K3 * ‖v‖ := by nlinarith [hu.2]
        calc _ ≤ K3 * ‖v‖ * ‖v‖ * ‖v‖ := by gcongr; exact e2.trans e3
          _ = _ := by ring) (convex_Icc 0 1) ⟨le_rfl, zero_le_one⟩ ht
    simp only [zero_smul, add_zero, sub_zero] at this
    rw [Real.norm_of_nonneg ht.1] at this
    have e4 : K3 * ‖v‖ ^ 3 * t ≤ K3 * ‖v‖ ^ 3 := by
      have : 0 ≤ K3 * ‖v‖ ^ 3 := by
        have := mul_nonneg hK3 (sq_nonneg ‖v‖)
        calc 0 ≤ K3 * ‖v‖ * ‖v‖ ^ 2 := this
          _ = _ := by ring
      nlinarith [ht.2]
    refine le_trans (le_of_eq ?_) (this.trans e4)
    congr 1
    abel
  have hder : ∀ t : ℝ, HasDerivAt (fun t : ℝ => b (x + t • v) - t • fderiv ℝ b x v - (t ^ 2 / 2) • fderiv ℝ (fderiv ℝ b) x v v)
      (fderiv ℝ b (x + t • v) v - fderiv ℝ b x v - t • fderiv ℝ (fderiv ℝ b) x v v) t := fun t => by
    have e1 : HasDerivAt (fun t : ℝ => b (x + t • v)) (fderiv ℝ b (x + t • v) v) t := (hd1 (x + t • v)).comp_hasDerivAt t (hline t)
    have e3 := (hasDerivAt_id t).smul_const (fderiv ℝ b x v)
    rw [one_smul] at e3
    have e4 : HasDerivAt (fun t : ℝ => t ^ 2 / 2) t t := by
      have := ((hasDerivAt_id t).pow 2).div_const 2
      simpa using this
    exact (e1.sub e3).sub (e4.smul_const _)
  have := Convex.norm_image_sub_le_of_norm_hasDerivWithin_le (s := Icc (0 : ℝ) 1) (C := K3 * ‖v‖ ^ 3) (x := 0) (y := 1)
    (fun u _ => (hder u).hasDerivWithinAt) h1 (convex_Icc 0 1) ⟨le_rfl, zero_le_one⟩ ⟨zero_le_one, le_rfl⟩
  simp only [zero_smul, add_zero, sub_zero, one_smul, norm_one, mul_one, one_pow, ne_eq, OfNat.ofNat_ne_zero, not_false_eq_true,
    zero_pow, zero_div] at this
  refine le_trans (le_of_eq ?_) this
  congr 1
  abel

theorem mulVec_cols (S : Mat d m) (v : Vec m) : S *ᵥ v = ∑ l, v l • (S *ᵥ (Pi.single l 1 : Vec m)) := by
  have h1 : v = ∑ l, v l • (Pi.single l 1 : Vec m) := by
    funext i
    simp [Finset.sum_apply, Pi.single_apply]
  conv_lhs => rw [h1, ← mulVecLin_apply, map_sum]
  simp only [map_smul, mulVecLin_apply]

theorem bilin_expand (A : Vec d →L[ℝ] Vec d →L[ℝ] Vec d) (S : Mat d m) (v : Vec m) :
    A (S *ᵥ v) (S *ᵥ v) = ∑ l, ∑ l', (v l * v l') • A (S *ᵥ (Pi.single l 1 : Vec m)) (S *ᵥ (Pi.single l' 1 : Vec m)) := by
  rw [mulVec_cols S v]
  simp only [map_sum, map_smul, ContinuousLinearMap.sum_apply, ContinuousLinearMap.smul_apply, mul_smul, Finset.smul_sum]
  rw [Finset.sum_comm]
  exact Finset.sum_congr rfl fun l _ => Finset.sum_congr rfl fun l' _ => smul_comm _ _ _

theorem bilin_trace (A : Vec d →L[ℝ] Vec d →L[ℝ] Vec d) (S : Mat d m) :
    ∑ j, ∑ k, (∑ l, S j l * S k l) • A (Pi.single j 1) (Pi.single k 1) =
      ∑ l, A (S *ᵥ (Pi.single l 1 : Vec m)) (S *ᵥ (Pi.single l 1 : Vec m)) := by
  have h1 : ∀ l, S *ᵥ (Pi.single l 1 : Vec m) = ∑ j, S j l • (Pi.single j 1 : Vec d) := fun l => by
    funext i
    simp [Finset.sum_apply, Pi.single_apply]
  simp only [h1, map_sum, map_smul, ContinuousLinearMap.sum_apply, ContinuousLinearMap.smul_apply, Finset.sum_smul, mul_smul, Finset.smul_sum]
  rw [Finset.sum_comm]
  have h2 : ∀ k, ∑ j, ∑ l, S j l • S k l • A (Pi.single j 1) (Pi.single k 1) = ∑ l, ∑ j, S j l • S k l • A (Pi.single j 1) (Pi.single k 1) :=
    fun k => Finset.sum_comm
  simp only [h2]
  rw [Finset.sum_comm]
  exact Finset.sum_congr rfl fun l _ => Finset.sum_congr rfl fun j _ => Finset.sum_congr rfl fun k _ => smul_comm _ _ _

/-- The centred second order noise of an interval: the integral of the products of the increments less its mean. -/
noncomputable def quadNoise (w : ℝ → Vec m) (a0 δ : ℝ) (l l' : Fin m) : ℝ :=
  (∫ t in (0 : ℝ)..δ, (w (a0 + t) l - w a0 l) * (w (a0 + t) l' - w a0 l')) - if l = l' then δ ^ 2 / 2 else 0

/-- The term of the local error that is quadratic in the noise. -/
noncomputable def quadTerm (A : Vec d →L[ℝ] Vec d →L[ℝ] Vec d) (S : Mat d m) (q : Fin m → Fin m → ℝ) : Vec d :=
  (1 / 2 : ℝ) • ∑ l, ∑ l', q l l' • A (S *ᵥ (Pi.single l 1 : Vec m)) (S *ᵥ (Pi.single l' 1 : Vec m))

theorem driftGenerator_eq (b : Vec d → Vec d) (S : Mat d m) (x : Vec d) : driftGenerator b S x = fderiv ℝ b x (b x) +
    (1 / 2 : ℝ) • ∑ l, fderiv ℝ (fderiv ℝ b) x (S *ᵥ (Pi.single l 1 : Vec m)) (S *ᵥ (Pi.single l 1 : Vec m)) := by
  rw [driftGenerator, ← bilin_trace]
  simp only [iteratedFDeriv_two_apply]
  rfl

theorem int_proj {w : ℝ → Vec m} {δ : ℝ} (hw : IntervalIntegrable w MeasureTheory.volume 0 δ) (j : Fin m) :
    (∫ t in (0 : ℝ)..δ, w t) j = ∫ t in (0 : ℝ)..δ, w t j :=
  (ContinuousLinearMap.intervalIntegral_comp_comm (ContinuousLinearMap.proj (R := ℝ) (φ := fun _ : Fin m => ℝ) j)
    (μ := MeasureTheory.volume) (a := 0) (b := δ) hw).symm

/-- The local error of the step of order 1.5. -/
theorem order15_local {b : Vec d → Vec d} {S : Mat d m} {T L K K3 K4 : ℝ} (hb : Smooth15 b S L K K3 K4) (hL : 0 ≤ L) (hK : 0 ≤ K)
    (hK3 : 0 ≤ K3) {s : ℝ} (hs0 : 0 ≤ s) (hS : ∀ v, ‖S *ᵥ v‖ ≤ s * ‖v‖) {w : ℝ → Vec m} (hw : ContinuousOn w (Icc 0 T)) {x0 : Vec d}
    {x : ℝ → Vec d} (hx : SolvesAdditive (fun x _ => b x) S w x0 T x) {a0 δ : ℝ} (hδ : 0 < δ) (ha : 0 ≤ a0) (haδ : a0 + δ ≤ T)
    {W F : ℝ} (hW : ∀ t ∈ Icc 0 δ, ‖w (a0 + t) - w a0‖ ≤ W) (hF : ∀ t ∈ Icc 0 T, ‖b (x t)‖ ≤ F) :
    ‖x (a0 + δ) - itoTaylorStep b S δ (x a0) (w (a0 + δ) - w a0) (fun j => ∫ t in (0 : ℝ)..δ, (w (a0 + t) j - w a0 j)) -
      quadTerm (fderiv ℝ (fderiv ℝ b) (x a0)) S (quadNoise w a0 δ)‖ ≤
      δ * (L ^ 2 * (δ * (δ * F + s * W)) + K * (δ * F * (δ * F + s * W)) + K3 * (δ * F + s * W) ^ 3) := by
  have hd1 : ∀ z, HasFDerivAt b (fderiv ℝ b z) z := fun z => (hb.diff.differentiable (by norm_num) z).hasFDerivAt
  have hbc : Continuous b := hb.diff.continuous
  have hlip : ∀ x y, ‖b x - b y‖ ≤ L * ‖x - y‖ := fun x y =>
    Convex.norm_image_sub_le_of_norm_hasFDerivWithin_le (s := univ) (fun z _ => (hd1 z).hasFDerivWithinAt) (fun z _ => hb.jac z)
      convex_univ (mem_univ _) (mem_univ _)
  have h0m : (0 : ℝ) ∈ Icc 0 δ := ⟨le_rfl, hδ.le⟩
  have h1m : δ ∈ Icc 0 δ := ⟨hδ.le, le_rfl⟩
  have hin : ∀ {t}, t ∈ Icc 0 δ → a0 + t ∈ Icc 0 T := fun ht => ⟨by linarith [ht.1], by linarith [ht.2]⟩
  have ha0 : a0 ∈ Icc 0 T := by simpa using hin h0m
  have hF0 : 0 ≤ F := (norm_nonneg _).trans (hF a0 ha0)
  have hW0 : 0 ≤ W := (norm_nonneg _).trans (hW δ h1m)
  have hwc : ContinuousOn (fun t => w (a0 + t) - w a0) (Icc 0 δ) :=
    (hw.comp (by fun_prop) fun t ht => hin ht).sub continuousOn_const
  have hxc : ContinuousOn (fun t => x (a0 + t)) (Icc 0 δ) := hx.cont.comp (by fun_prop) fun t ht => hin ht
  have hSc : Continuous fun v : Vec m => S *ᵥ v := (Matrix.mulVecLin S).continuous_of_finiteDimensional
  have hfx : ContinuousOn (fun s => b (x (a0 + s))) (Icc 0 δ) := hbc.comp_continuousOn hxc
  have hUc : ContinuousOn (fun t => S *ᵥ (w (a0 + t) - w a0)) (Icc 0 δ) := hSc.comp_continuousOn hwc
  have hint : ∀ {n : ℕ} {Z : ℝ → Vec n}, ContinuousOn Z (Icc 0 δ) → IntervalIntegrable Z MeasureTheory.volume 0 δ :=
    fun hZ => (hZ.mono (uIcc_subset_Icc h0m h1m)).intervalIntegrable
  have hint1 : ∀ {Z : ℝ → ℝ}, ContinuousOn Z (Icc 0 δ) → IntervalIntegrable Z MeasureTheory.volume 0 δ :=
    fun hZ => (hZ.mono (uIcc_subset_Icc h0m h1m)).intervalIntegrable
  obtain ⟨A, hA⟩ : ∃ A, A = fderiv ℝ (fderiv ℝ b) (x a0) := ⟨_, rfl⟩
  obtain ⟨D, hD⟩ : ∃ D, D = fderiv ℝ b (x a0) := ⟨_, rfl⟩
  have hwj : ∀ j, ContinuousOn (fun t => w (a0 + t) j - w a0 j) (Icc 0 δ) := fun j => (continuous_apply j).comp_continuousOn hwc
  -- the terms
  have t1 : ∫ _ in (0 : ℝ)..δ, b (x a0) = δ • b (x a0) := by simp
  have t2 : ∫ t in (0 : ℝ)..δ, D (S *ᵥ (w (a0 + t) - w a0)) = D (S *ᵥ fun j => ∫ t in (0 : ℝ)..δ, (w (a0 + t) j - w a0 j)) := by
    rw [ContinuousLinearMap.intervalIntegral_comp_comm _ (hint hUc)]
    have h1 : ∫ t in (0 : ℝ)..δ, S *ᵥ (w (a0 + t) - w a0) = S *ᵥ ∫ t in (0 : ℝ)..δ, (w (a0 + t) - w a0) :=
      (LinearMap.toContinuousLinearMap (Matrix.mulVecLin S)).intervalIntegral_comp_comm (μ := MeasureTheory.volume) (a := 0) (b := δ)
        (f := fun t => w (a0 + t) - w a0) (hint hwc)
    rw [h1]
    congr 2
    funext j
    exact int_proj (hint hwc) j
  have t3 : ∫ t in (0 : ℝ)..δ, t • D (b (x a0)) = (δ ^ 2 / 2) • D (b (x a0)) := by
    rw [intervalIntegral.integral_smul_const]
    simp
  have t4 : ∫ t in (0 : ℝ)..δ, (1 / 2 : ℝ) • A (S *ᵥ (w (a0 + t) - w a0)) (S *ᵥ (w (a0 + t) - w a0)) =
      quadTerm A S (quadNoise w a0 δ) + (δ ^ 2 / 2) • ((1 / 2 : ℝ) • ∑ l, A (S *ᵥ (Pi.single l 1 : Vec m)) (S *ᵥ (Pi.single l 1 : Vec m))) := by
    have i1 : ∀ l l', ContinuousOn (fun t => ((w (a0 + t) l - w a0 l) * (w (a0 + t) l' - w a0 l')) •
        A (S *ᵥ (Pi.single l 1 : Vec m)) (S *ᵥ (Pi.single l' 1 : Vec m))) (Icc 0 δ) := fun l l' => ((hwj l).mul (hwj l')).smul continuousOn_const
    rw [intervalIntegral.integral_smul, quadTerm, smul_comm (δ ^ 2 / 2) (1 / 2 : ℝ), ← smul_add]
    congr 1
    have hexp : ∀ t, A (S *ᵥ (w (a0 + t) - w a0)) (S *ᵥ (w (a0 + t) - w a0)) = ∑ l, ∑ l', ((w (a0 + t) l - w a0 l) * (w (a0 + t) l' - w a0 l')) •
        A (S *ᵥ (Pi.single l 1 : Vec m)) (S *ᵥ (Pi.single l' 1 : Vec m)) := fun t => bilin_expand A S _
    simp only [hexp]
    rw [intervalIntegral.integral_finset_sum fun l _ => hint (continuousOn_finsetSum _ fun l' _ => i1 l l'), Finset.smul_sum, ← Finset.sum_add_distrib]
    refine Finset.sum_congr rfl fun l _ => ?_
    rw [intervalIntegral.integral_finset_sum fun l' _ => hint (i1 l l')]
    have : ∀ l', (∫ t in (0 : ℝ)..δ, ((w (a0 + t) l - w a0 l) * (w (a0 + t) l' - w a0 l')) •
        A (S *ᵥ (Pi.single l 1 : Vec m)) (S *ᵥ (Pi.single l' 1 : Vec m))) = quadNoise w a0 δ l l' •
        A (S *ᵥ (Pi.single l 1 : Vec m)) (S *ᵥ (Pi.single l' 1 : Vec m)) + (if l = l' then δ ^ 2 / 2 else 0 : ℝ) •
        A (S *ᵥ (Pi.single l 1 : Vec m)) (S *ᵥ (Pi.single l' 1 : Vec m)) := fun l' => by
      rw [intervalIntegral.integral_smul_const, ← add_smul, quadNoise, sub_add_cancel]
    simp only [this, Finset.sum_add_distrib, ite_smul, zero_smul, Finset.sum_ite_eq, Finset.mem_univ, if_true]
  have hres : ∀ t ∈ Icc 0 δ, x (a0 + t) = x a0 + (∫ s in (0 : ℝ)..t, b (x (a0 + s))) + S *ᵥ (w (a0 + t) - w a0) := fun t ht =>
    hx.restart (by fun_prop) ha haδ ht
  have c2 : ContinuousOn (fun t => D (S *ᵥ (w (a0 + t) - w a0))) (Icc 0 δ) := D.continuous.comp_continuousOn hUc
  have c3 : ContinuousOn (fun t : ℝ => t • D (b (x a0))) (Icc 0 δ) := by fun_prop
  have c4 : ContinuousOn (fun t => (1 / 2 : ℝ) • A (S *ᵥ (w (a0 + t) - w a0)) (S *ᵥ (w (a0 + t) - w a0))) (Icc 0 δ) :=
    (continuous_const_smul (1 / 2 : ℝ)).comp_continuousOn ((A.continuous.comp_continuousOn hUc).clm_apply hUc)
  have e : x (a0 + δ) - itoTaylorStep b S δ (x a0) (w (a0 + δ) - w a0) (fun j => ∫ t in (0 : ℝ)..δ, (w (a0 + t) j - w a0 j)) -
      quadTerm A S (quadNoise w a0 δ) = ∫ t in (0 : ℝ)..δ, (b (x (a0 + t)) - b (x a0) - D (S *ᵥ (w (a0 + t) - w a0)) -
        t • D (b (x a0)) - (1 / 2 : ℝ) • A (S *ᵥ (w (a0 + t) - w a0)) (S *ᵥ (w (a0 + t) - w a0))) := by
    have d1 : ContinuousOn (fun t => b (x (a0 + t)) - b (x a0)) (Icc 0 δ) := hfx.sub continuousOn_const
    have d2 : ContinuousOn (fun t => b (x (a0 + t)) - b (x a0) - D (S *ᵥ (w (a0 + t) - w a0))) (Icc 0 δ) := d1.sub c2
    have d3 : ContinuousOn (fun t => b (x (a0 + t)) - b (x a0) - D (S *ᵥ (w (a0 + t) - w a0)) - t • D (b (x a0))) (Icc 0 δ) := d2.sub c3
    rw [intervalIntegral.integral_sub (hint d3) (hint c4), intervalIntegral.integral_sub (hint d2) (hint c3),
      intervalIntegral.integral_sub (hint d1) (hint c2),
      intervalIntegral.integral_sub (hint hfx) intervalIntegrable_const, t1, t2, t3, t4, hres δ h1m, itoTaylorStep, driftGenerator_eq,
      ← hA, ← hD, smul_add]
    abel
  rw [← hA, e]
  obtain ⟨M, hM⟩ : ∃ M, M = δ * F + s * W := ⟨_, rfl⟩
  rw [← hM]
  have hM0 : 0 ≤ M := by rw [hM]; positivity
  have hbd : ∀ t ∈ Icc 0 δ, ‖∫ s in (0 : ℝ)..t, b (x (a0 + s))‖ ≤ δ * F ∧ ‖S *ᵥ (w (a0 + t) - w a0)‖ ≤ s * W ∧ ‖x (a0 + t) - x a0‖ ≤ M := by
    intro t ht
    have h1 : ‖∫ r in (0 : ℝ)..t, b (x (a0 + r))‖ ≤ δ * F := by
      have := intervalIntegral.norm_integral_le_of_norm_le_const (a := 0) (b := t) (C := F) (f := fun r => b (x (a0 + r)))
        fun r hr => by
          rw [uIoc_of_le ht.1] at hr
          exact hF (a0 + r) (hin ⟨hr.1.le, hr.2.trans ht.2⟩)
      rw [sub_zero, abs_of_nonneg ht.1] at this
      exact this.trans (by rw [mul_comm]; exact mul_le_mul_of_nonneg_right ht.2 hF0)
    have h2 : ‖S *ᵥ (w (a0 + t) - w a0)‖ ≤ s * W := (hS _).trans (mul_le_mul_of_nonneg_left (hW t ht) hs0)
    refine ⟨h1, h2, ?_⟩
    have h3 : x (a0 + t) - x a0 = (∫ s in (0 : ℝ)..t, b (x (a0 + s))) + S *ᵥ (w (a0 + t) - w a0) := by rw [hres t ht]; abel
    rw [h3, hM]
    exact (norm_add_le _ _).trans (add_le_add h1 h2)
  have hDn : ‖D‖ ≤ L := by rw [hD]; exact hb.jac _
  have hAn : ‖A‖ ≤ K := by rw [hA]; exact hb.hess _
  have hmain : ∀ t ∈ uIoc 0 δ, ‖b (x (a0 + t)) - b (x a0) - D (S *ᵥ (w (a0 + t) - w a0)) -
        t • D (b (x a0)) - (1 / 2 : ℝ) • A (S *ᵥ (w (a0 + t) - w a0)) (S *ᵥ (w (a0 + t) - w a0))‖ ≤
      L ^ 2 * (δ * M) + K * (δ * F * M) + K3 * M ^ 3 := by
    intro t ht
    rw [uIoc_of_le hδ.le] at ht
    have ht' := Ioc_subset_Icc_self ht
    obtain ⟨k1, k2, k3⟩ := hbd t ht'
    obtain ⟨v, hv⟩ : ∃ v, v = x (a0 + t) - x a0 := ⟨_, rfl⟩
    obtain ⟨u, hu⟩ : ∃ u, u = S *ᵥ (w (a0 + t) - w a0) := ⟨_, rfl⟩
    obtain ⟨p, hp⟩ : ∃ p, p = ∫ s in (0 : ℝ)..t, b (x (a0 + s)) := ⟨_, rfl⟩
    have hvp : v = p + u := by rw [hv, hp, hu, hres t ht']; abel
    have hT := taylor_two hb.diff hb.hessLip (x a0) v
    rw [← hA, ← hD] at hT
    have hxv : x a0 + v = x (a0 + t) := by rw [hv]; abel
    rw [hxv] at hT
    have hpr : ‖p - t • b (x a0)‖ ≤ δ * (L * M) := by
      have e1 : p - t • b (x a0) = ∫ r in (0 : ℝ)..t, (b (x (a0 + r)) - b (x a0)) := by
        rw [intervalIntegral.integral_sub, hp]
        · simp
        · exact (hfx.mono (by rw [uIcc_of_le ht'.1]; exact Icc_subset_Icc le_rfl ht'.2)).intervalIntegrable
        · exact intervalIntegrable_const
      rw [e1]
      have := intervalIntegral.norm_integral_le_of_norm_le_const (a := 0) (b := t) (C := L * M) (f := fun r => b (x (a0 + r)) - b (x a0))
        fun r hr => by
          rw [uIoc_of_le ht'.1] at hr
          exact (hlip _ _).trans (mul_le_mul_of_nonneg_left (hbd r ⟨hr.1.le, hr.2.trans ht'.2⟩).2.2 hL)
      rw [sub_zero, abs_of_nonneg ht'.1] at this
      exact this.trans (by rw [mul_comm]; exact mul_le_mul_of_nonneg_right ht'.2 (by positivity))
    rw [← hu] at k2 ⊢
    rw [← hp] at k1
    rw [← hv] at k3
    have e2 : b (x (a0 + t)) - b (x a0) - D u - t • D (b (x a0)) - (1 / 2 : ℝ) • A u u =
        (b (x (a0 + t)) - b (x a0) - D v - (1 / 2 : ℝ) • A v v) + D (p - t • b (x a0)) + (1 / 2 : ℝ) • (A p v + A u p) := by
      rw [hvp]
      simp only [map_add, map_sub, map_smul, ContinuousLinearMap.add_apply]
      module
    rw [e2]
    have n1 : ‖D (p - t • b (x a0))‖ ≤ L ^ 2 * (δ * M) := by
      refine (D.le_opNorm _).trans ((mul_le_mul hDn hpr (norm_nonneg _) hL).trans (le_of_eq ?_))
      ring
    have n2 : ‖A p v‖ ≤ K * (δ * F) * M :=
      (ContinuousLinearMap.le_opNorm _ _).trans (mul_le_mul ((A.le_opNorm _).trans (mul_le_mul hAn k1 (norm_nonneg _) hK)) k3 (norm_nonneg _) (by positivity))
    have n3 : ‖A u p‖ ≤ K * (s * W) * (δ * F) :=
      (ContinuousLinearMap.le_opNorm _ _).trans (mul_le_mul ((A.le_opNorm _).trans (mul_le_mul hAn k2 (norm_nonneg _) hK)) k1 (norm_nonneg _) (by positivity))
    have n4 : ‖(1 / 2 : ℝ) • (A p v + A u p)‖ ≤ K * (δ * F * M) := by
      rw [norm_smul, Real.norm_of_nonneg (by norm_num)]
      have h1 := (norm_add_le (A p v) (A u p)).trans (add_le_add n2 n3)
      have h2 : K * (s * W) * (δ * F) ≤ K * (δ * F) * M := by
        rw [hM]
        have : 0 ≤ K * (δ * F) * (δ * F) := by positivity
        linarith
      linarith
    have n5 : K3 * ‖v‖ ^ 3 ≤ K3 * M ^ 3 := mul_le_mul_of_nonneg_left (pow_le_pow_left₀ (norm_nonneg _) k3 3) hK3
    have h6 := (norm_add_le _ _).trans (add_le_add ((norm_add_le _ _).trans (add_le_add (hT.trans n5) n1)) n4)
    linarith
  have := intervalIntegral.norm_integral_le_of_norm_le_const hmain
  rw [sub_zero, abs_of_pos hδ] at this
  linarith

end Verif
