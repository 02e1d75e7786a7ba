import Verif.Lemmas.Order15Moments
import Verif.Lemmas.L2Strong

/-! Strong order 1.5 of the Itô-Taylor scheme for additive noise. -/

namespace Verif

open Matrix Spec Jnp Set MeasureTheory ProbabilityTheory Filter
open scoped NNReal Topology

variable {d m : ℕ}

theorem Spec.Smooth15.lip {b : Vec d → Vec d} {S : Mat d m} {L K K3 K4 : ℝ} (hb : Smooth15 b S L K K3 K4) (x y : Vec d) :
    ‖b x - b y‖ ≤ L * ‖x - y‖ :=
  Convex.norm_image_sub_le_of_norm_hasFDerivWithin_le (s := univ)
    (fun z _ => (hb.diff.differentiable (by norm_num) z).hasFDerivAt.hasFDerivWithinAt) (fun z _ => hb.jac z)
    convex_univ (mem_univ _) (mem_univ _)

theorem Spec.Smooth15.jacLip {b : Vec d → Vec d} {S : Mat d m} {L K K3 K4 : ℝ} (hb : Smooth15 b S L K K3 K4) (x y : Vec d) :
    ‖fderiv ℝ b x - fderiv ℝ b y‖ ≤ K * ‖x - y‖ :=
  Convex.norm_image_sub_le_of_norm_hasFDerivWithin_le (s := univ)
    (fun z _ => ((hb.diff.fderiv_right (m := 1) (by norm_num)).differentiable (by norm_num) z).hasFDerivAt.hasFDerivWithinAt)
    (fun z _ => hb.hess z) convex_univ (mem_univ _) (mem_univ _)

theorem Spec.Smooth15.L_nonneg {b : Vec d → Vec d} {S : Mat d m} {L K K3 K4 : ℝ} (hb : Smooth15 b S L K K3 K4) : 0 ≤ L :=
  (norm_nonneg _).trans (hb.jac 0)

theorem Spec.Smooth15.K_nonneg {b : Vec d → Vec d} {S : Mat d m} {L K K3 K4 : ℝ} (hb : Smooth15 b S L K K3 K4) : 0 ≤ K :=
  (ContinuousLinearMap.opNorm_nonneg _).trans (hb.hess 0)

theorem Spec.Smooth15.abs {b : Vec d → Vec d} {S : Mat d m} {L K K3 K4 : ℝ} (hb : Smooth15 b S L K K3 K4) :
    Smooth15 b S L K |K3| |K4| where
  diff := hb.diff
  jac := hb.jac
  hess := hb.hess
  hessLip x y := (hb.hessLip x y).trans (mul_le_mul_of_nonneg_right (le_abs_self _) (norm_nonneg _))
  genLip x y := (hb.genLip x y).trans (mul_le_mul_of_nonneg_right (le_abs_self _) (norm_nonneg _))

theorem Spec.Smooth15.field {b : Vec d → Vec d} {S : Mat d m} {L K K3 K4 : ℝ} (hb : Smooth15 b S L K K3 K4) (T : ℝ) :
    SmoothField (fun x _ => b x) (fun x _ => fderiv ℝ b x) T L K where
  cont := hb.diff.continuous.comp continuous_fst
  lip x y _ _ := hb.lip x y
  deriv x _ _ := (hb.diff.differentiable (by norm_num) x).hasFDerivAt
  jac x y s _ t _ := (hb.jacLip x y).trans (mul_le_mul_of_nonneg_left (by linarith [abs_nonneg (s - t)]) hb.K_nonneg)

theorem itoTaylorStep_continuous {b : Vec d → Vec d} {S : Mat d m} {L K K3 K4 : ℝ} (hb : Smooth15 b S L K K3 K4) (h : ℝ) :
    Continuous fun p : Vec d × Vec m × Vec m => itoTaylorStep b S h p.1 p.2.1 p.2.2 := by
  have hbc : Continuous b := hb.diff.continuous
  have hdc : Continuous (fderiv ℝ b) := hb.diff.continuous_fderiv (by norm_num)
  have hgc : Continuous (driftGenerator b S) := by
    refine continuous_iff_continuousAt.mpr fun x => ?_
    rw [Metric.continuousAt_iff]
    intro ε hε
    refine ⟨ε / (|K4| + 1), by positivity, fun {y} hy => ?_⟩
    rw [dist_eq_norm] at hy ⊢
    have h1 := hb.abs.genLip y x
    rw [lt_div_iff₀ (by positivity), mul_comm, add_mul, one_mul] at hy
    have := norm_nonneg (y - x)
    linarith
  have hSc : Continuous fun v : Vec m => S *ᵥ v := (Matrix.mulVecLin S).continuous_of_finiteDimensional
  unfold itoTaylorStep
  have h5 : Continuous fun p : Vec d × Vec m × Vec m => fderiv ℝ b p.1 (S *ᵥ p.2.2) :=
    (hdc.comp continuous_fst).clm_apply (hSc.comp (continuous_snd.comp continuous_snd))
  have h4 : Continuous fun p : Vec d × Vec m × Vec m => S *ᵥ p.2.1 := hSc.comp (continuous_fst.comp continuous_snd)
  have h3 : Continuous fun p : Vec d × Vec m × Vec m => driftGenerator b S p.1 := hgc.comp continuous_fst
  have h2 : Continuous fun p : Vec d × Vec m × Vec m => b p.1 := hbc.comp continuous_fst
  exact (((continuous_fst.add ((continuous_const_smul h).comp h2)).add ((continuous_const_smul (h ^ 2 / 2)).comp h3)).add h4).add h5

theorem quadTerm_le {A : Vec d →L[ℝ] Vec d →L[ℝ] Vec d} {S : Mat d m} {q : Fin m → Fin m → ℝ} {K s Q : ℝ} (hA : ‖A‖ ≤ K) (hs0 : 0 ≤ s)
    (hK : 0 ≤ K) (hS : ∀ v, ‖S *ᵥ v‖ ≤ s * ‖v‖) (hq : ∀ l l', |q l l'| ≤ Q) (hQ : 0 ≤ Q) : ‖quadTerm A S q‖ ≤ (m : ℝ) ^ 2 * (K * s ^ 2 * Q) := by
  have hc : ∀ l, ‖S *ᵥ (Pi.single l 1 : Vec m)‖ ≤ s := fun l => by
    have h1 : ‖(Pi.single l 1 : Vec m)‖ ≤ 1 := by
      rw [pi_norm_le_iff_of_nonneg zero_le_one]
      intro i
      by_cases h : i = l
      · subst h; simp
      · simp [h]
    exact (hS _).trans (by nlinarith)
  rw [quadTerm, norm_smul, Real.norm_of_nonneg (by norm_num)]
  have h1 : ∀ l ∈ Finset.univ, ‖∑ l', q l l' • A (S *ᵥ (Pi.single l 1 : Vec m)) (S *ᵥ (Pi.single l' 1 : Vec m))‖ ≤ m * (K * s ^ 2 * Q) := fun l _ => by
    have h2 : ∀ l' ∈ Finset.univ, ‖q l l' • A (S *ᵥ (Pi.single l 1 : Vec m)) (S *ᵥ (Pi.single l' 1 : Vec m))‖ ≤ K * s ^ 2 * Q := fun l' _ => by
      rw [norm_smul, Real.norm_eq_abs]
      have h3 : ‖A (S *ᵥ (Pi.single l 1 : Vec m)) (S *ᵥ (Pi.single l' 1 : Vec m))‖ ≤ K * s * s :=
        (ContinuousLinearMap.le_opNorm _ _).trans (mul_le_mul ((A.le_opNorm _).trans (mul_le_mul hA (hc l) (norm_nonneg _) hK)) (hc l')
          (norm_nonneg _) (by positivity))
      refine (mul_le_mul (hq l l') h3 (norm_nonneg _) hQ).trans (le_of_eq ?_)
      ring
    refine (norm_sum_le _ _).trans ((Finset.sum_le_sum h2).trans (le_of_eq ?_))
    simp
  have h3 := (norm_sum_le Finset.univ fun l => ∑ l', q l l' • A (S *ᵥ (Pi.single l 1 : Vec m)) (S *ᵥ (Pi.single l' 1 : Vec m))).trans
    (Finset.sum_le_sum h1)
  rw [Finset.sum_const, Finset.card_univ, Fintype.card_fin, nsmul_eq_mul] at h3
  have h4 : 0 ≤ (m : ℝ) * (m * (K * s ^ 2 * Q)) := by positivity
  calc _ ≤ 1 / 2 * ((m : ℝ) * (m * (K * s ^ 2 * Q))) := by gcongr
    _ ≤ (m : ℝ) * (m * (K * s ^ 2 * Q)) := by linarith
    _ = _ := by ring

/-- The squared error after one step, along a path. -/
theorem order15_pointwise {b : Vec d → Vec d} {S : Mat d m} {T L K K3 K4 : ℝ} (hb : Smooth15 b S L K K3 K4) (hK3 : 0 ≤ K3) (hK4 : 0 ≤ K4)
    {s : ℝ} (hs0 : 0 ≤ s) (hS : ∀ v, ‖S *ᵥ v‖ ≤ s * ‖v‖) {w : ℝ → Vec m} (hw : ContinuousOn w (Icc 0 T)) {x0 : Vec d}
    {x : ℝ → Vec d} (hx : SolvesAdditive (fun x _ => b x) S w x0 T x) {a0 δ : ℝ} (hδ : 0 < δ) (ha : 0 ≤ a0) (haδ : a0 + δ ≤ T)
    {W F : ℝ} (hW : ∀ t ∈ Icc 0 δ, ‖w (a0 + t) - w a0‖ ≤ W) (hF : ∀ t ∈ Icc 0 T, ‖b (x t)‖ ≤ F) {η ζ : Vec m}
    (hη : η = w (a0 + δ) - w a0) (hζ : ζ = fun j => ∫ t in (0 : ℝ)..δ, (w (a0 + t) j - w a0 j)) (y : Vec d) :
    (x (a0 + δ) - itoTaylorStep b S δ y η ζ) ⬝ᵥ (x (a0 + δ) - itoTaylorStep b S δ y η ζ) ≤
      (1 + (2 + d * (L + T * K4) ^ 2 * (1 + 3 * T)) * δ) * ((x a0 - y) ⬝ᵥ (x a0 - y)) +
      2 * ((x a0 - y) ⬝ᵥ quadTerm (fderiv ℝ (fderiv ℝ b) (x a0)) S (quadNoise w a0 δ)) +
      2 * ((x a0 - y) ⬝ᵥ (fderiv ℝ b (x a0) - fderiv ℝ b y) (S *ᵥ ζ)) +
      6 * (d * ((m : ℝ) ^ 2 * (K * s ^ 2 * (δ * W ^ 2 + δ ^ 2))) ^ 2) +
      6 * (d * (K * s) ^ 2 * ((x a0 - y) ⬝ᵥ (x a0 - y)) * ‖ζ‖ ^ 2) +
      (3 * T + 1) * d * (δ * (L ^ 2 * (δ * (δ * F + s * W)) + K * (δ * F * (δ * F + s * W)) + K3 * (δ * F + s * W) ^ 3) ^ 2) := by
  have hL := hb.L_nonneg
  have hK := hb.K_nonneg
  have h1 := order15_local hb hL hK hK3 hs0 hS hw hx hδ ha haδ hW hF
  rw [← hη, ← hζ] at h1
  have hT : 0 ≤ T := by linarith
  set R := L ^ 2 * (δ * (δ * F + s * W)) + K * (δ * F * (δ * F + s * W)) + K3 * (δ * F + s * W) ^ 3 with hR
  set ξ1 := quadTerm (fderiv ℝ (fderiv ℝ b) (x a0)) S (quadNoise w a0 δ) with hξ1
  set ξ2 := (fderiv ℝ b (x a0) - fderiv ℝ b y) (S *ᵥ ζ) with hξ2
  set r := x (a0 + δ) - itoTaylorStep b S δ (x a0) η ζ - ξ1 with hr
  set D := δ • (b (x a0) - b y) + (δ ^ 2 / 2) • (driftGenerator b S (x a0) - driftGenerator b S y) with hD
  have e : x (a0 + δ) - itoTaylorStep b S δ y η ζ = (x a0 - y) + D + (ξ1 + ξ2) + r := by
    rw [hr, hD, hξ2]
    simp only [itoTaylorStep, ContinuousLinearMap.sub_apply, smul_sub]
    abel
  have hDn : ‖D‖ ≤ (L + T * K4) * δ * ‖x a0 - y‖ := by
    rw [hD]
    refine (norm_add_le _ _).trans ?_
    rw [norm_smul, norm_smul, Real.norm_of_nonneg hδ.le, Real.norm_of_nonneg (by positivity : 0 ≤ δ ^ 2 / 2)]
    have k1 := mul_le_mul_of_nonneg_left (hb.lip (x a0) y) hδ.le
    have k2 := mul_le_mul_of_nonneg_left (hb.genLip (x a0) y) (by positivity : 0 ≤ δ ^ 2 / 2)
    have k3 : δ ^ 2 / 2 * (K4 * ‖x a0 - y‖) ≤ T * K4 * δ * ‖x a0 - y‖ := by
      have k4 : δ ^ 2 / 2 ≤ T * δ := by nlinarith
      calc _ ≤ T * δ * (K4 * ‖x a0 - y‖) := mul_le_mul_of_nonneg_right k4 (by positivity)
        _ = _ := by ring
    linarith
  have hq := quad_step (C0 := L + T * K4) (e := x a0 - y) (D := D) (ξ := ξ1 + ξ2) (r := r) hδ (by linarith : δ ≤ T) hDn
  have hW0 : 0 ≤ δ * W ^ 2 + δ ^ 2 := by positivity
  have hn1 : ξ1 ⬝ᵥ ξ1 ≤ d * ((m : ℝ) ^ 2 * (K * s ^ 2 * (δ * W ^ 2 + δ ^ 2))) ^ 2 := by
    refine (dot_le_sq_norm ξ1).trans (mul_le_mul_of_nonneg_left (pow_le_pow_left₀ (norm_nonneg _) ?_ 2) (Nat.cast_nonneg d))
    exact quadTerm_le (hb.hess _) hs0 hK hS (fun l l' => quadNoise_le hδ hW l l') hW0
  have hn2 : ξ2 ⬝ᵥ ξ2 ≤ d * (K * s) ^ 2 * ((x a0 - y) ⬝ᵥ (x a0 - y)) * ‖ζ‖ ^ 2 := by
    refine (dot_le_sq_norm ξ2).trans ?_
    have k1 : ‖ξ2‖ ≤ K * ‖x a0 - y‖ * (s * ‖ζ‖) := by
      refine (ContinuousLinearMap.le_opNorm _ _).trans (mul_le_mul (hb.jacLip _ _) (hS ζ) (norm_nonneg _) (by positivity))
    have k2 := pow_le_pow_left₀ (norm_nonneg _) k1 2
    have k3 := sq_norm_le_dot (x a0 - y)
    calc (d : ℝ) * ‖ξ2‖ ^ 2 ≤ d * (K * ‖x a0 - y‖ * (s * ‖ζ‖)) ^ 2 := mul_le_mul_of_nonneg_left k2 (Nat.cast_nonneg d)
      _ = d * (K * s) ^ 2 * ‖x a0 - y‖ ^ 2 * ‖ζ‖ ^ 2 := by ring
      _ ≤ _ := by gcongr
  have hn12 : 3 * ((ξ1 + ξ2) ⬝ᵥ (ξ1 + ξ2)) ≤ 6 * (ξ1 ⬝ᵥ ξ1) + 6 * (ξ2 ⬝ᵥ ξ2) := by
    simp only [dotProduct, Finset.mul_sum, ← Finset.sum_add_distrib]
    refine Finset.sum_le_sum fun i _ => ?_
    simp only [Pi.add_apply]
    nlinarith [sq_nonneg (ξ1 i - ξ2 i)]
  have hrn : (3 + 1 / δ) * (r ⬝ᵥ r) ≤ (3 * T + 1) * d * (δ * R ^ 2) := by
    have h2 := dot_le_sq_norm r
    have h3 := pow_le_pow_left₀ (norm_nonneg _) h1 2
    calc (3 + 1 / δ) * (r ⬝ᵥ r) ≤ (3 + 1 / δ) * (d * (δ * R) ^ 2) :=
          mul_le_mul_of_nonneg_left (h2.trans (mul_le_mul_of_nonneg_left h3 (Nat.cast_nonneg d))) (by positivity)
      _ = (3 * δ + 1) * d * (δ * R ^ 2) := by field_simp
      _ ≤ _ := by
        have : δ ≤ T := by linarith
        gcongr
  rw [dotProduct_add (x a0 - y) ξ1 ξ2] at hq
  rw [e]
  linarith

/-- The remainder in terms of sixth powers. -/
theorem order15_rem_le {L K K3 δ F s W c b0 T : ℝ} (hK : 0 ≤ K) (hK3 : 0 ≤ K3) (hδ : 0 < δ) (hδT : δ ≤ T) (hF : 0 ≤ F)
    (hs : 0 ≤ s) (hW : 0 ≤ W) (hb0 : 0 ≤ b0) (hH : 1 + F ≤ c * (1 + b0)) :
    (L ^ 2 * (δ * (δ * F + s * W)) + K * (δ * F * (δ * F + s * W)) + K3 * (δ * F + s * W) ^ 3) ^ 2 ≤
      (2 * (L ^ 2 + K) ^ 2 + (2 * (L ^ 2 + K) ^ 2 + 2 * K3 ^ 2) * (32 * (1 + T ^ 3 + s ^ 6))) *
        (δ ^ 3 * (1 + 32 * c ^ 6 * (1 + b0 ^ 6)) + W ^ 6) := by
  obtain ⟨H, hHd⟩ : ∃ H, H = c * (1 + b0) := ⟨_, rfl⟩
  rw [← hHd] at hH
  obtain ⟨M, hM⟩ : ∃ M, M = δ * F + s * W := ⟨_, rfl⟩
  rw [← hM]
  have hM0 : 0 ≤ M := by rw [hM]; positivity
  have hH0 : 0 ≤ H := by linarith
  have hMH : M ≤ δ * H + s * W := by rw [hM]; nlinarith
  have h1 : L ^ 2 * (δ * M) + K * (δ * F * M) + K3 * M ^ 3 ≤ (L ^ 2 + K) * (δ * H * M) + K3 * M ^ 3 := by
    have k1 : δ * M ≤ δ * H * M := by
      have : δ * M * 1 ≤ δ * M * H := mul_le_mul_of_nonneg_left (by linarith) (by positivity)
      linarith
    have k2 : δ * F * M ≤ δ * H * M := by
      have : δ * M * F ≤ δ * M * H := mul_le_mul_of_nonneg_left (by linarith) (by positivity)
      linarith
    have := mul_le_mul_of_nonneg_left k1 (sq_nonneg L)
    have := mul_le_mul_of_nonneg_left k2 hK
    linarith
  have h2 := pow_le_pow_left₀ (by positivity) h1 2
  refine h2.trans ?_
  have h3 : ((L ^ 2 + K) * (δ * H * M) + K3 * M ^ 3) ^ 2 ≤ 2 * (L ^ 2 + K) ^ 2 * (δ ^ 2 * H ^ 2 * M ^ 2) + 2 * K3 ^ 2 * M ^ 6 := by
    nlinarith [sq_nonneg ((L ^ 2 + K) * (δ * H * M) - K3 * M ^ 3)]
  have amgm : ∀ x y z : ℝ, 0 ≤ x → 0 ≤ y → 0 ≤ z → x * y * z ≤ x ^ 3 + y ^ 3 + z ^ 3 := fun x y z hx hy hz => by
    nlinarith [mul_nonneg (add_nonneg (add_nonneg hx hy) hz) (sq_nonneg (x - y)), mul_nonneg (add_nonneg (add_nonneg hx hy) hz) (sq_nonneg (y - z)),
      mul_nonneg (add_nonneg (add_nonneg hx hy) hz) (sq_nonneg (x - z)), mul_nonneg (mul_nonneg hx hy) hz]
  have h4 : δ ^ 2 * H ^ 2 * M ^ 2 ≤ δ ^ 3 + δ ^ 3 * H ^ 6 + M ^ 6 := by
    have := amgm δ (δ * H ^ 2) (M ^ 2) hδ.le (by positivity) (by positivity)
    calc _ = δ * (δ * H ^ 2) * M ^ 2 := by ring
      _ ≤ _ := this
      _ = _ := by ring
  have p6 : ∀ x y : ℝ, 0 ≤ x → 0 ≤ y → (x + y) ^ 6 ≤ 32 * (x ^ 6 + y ^ 6) := fun x y hx hy => by
    have k1 := add_pow_le hx hy 6
    norm_num at k1
    exact k1
  have hT0 : 0 ≤ T := hδ.le.trans hδT
  have h5 : M ^ 6 ≤ 32 * (1 + T ^ 3 + s ^ 6) * (δ ^ 3 * (1 + H ^ 6) + W ^ 6) := by
    have k1 := (pow_le_pow_left₀ hM0 hMH 6).trans (p6 (δ * H) (s * W) (by positivity) (by positivity))
    have k2 : (δ * H) ^ 6 ≤ T ^ 3 * (δ ^ 3 * (1 + H ^ 6)) := by
      have k3 : δ ^ 3 ≤ T ^ 3 := pow_le_pow_left₀ hδ.le hδT 3
      calc (δ * H) ^ 6 = δ ^ 3 * (δ ^ 3 * H ^ 6) := by ring
        _ ≤ T ^ 3 * (δ ^ 3 * H ^ 6) := mul_le_mul_of_nonneg_right k3 (by positivity)
        _ ≤ _ := mul_le_mul_of_nonneg_left (by nlinarith [pow_pos hδ 3]) (by positivity)
    have k4 : 0 ≤ T ^ 3 := by positivity
    have k5 : 0 ≤ δ ^ 3 * (1 + H ^ 6) := by positivity
    have k6 : 0 ≤ W ^ 6 := by positivity
    have k7 : 0 ≤ s ^ 6 := by positivity
    have k8 : (s * W) ^ 6 = s ^ 6 * W ^ 6 := by ring
    nlinarith [mul_nonneg k4 k6, mul_nonneg k7 k5]
  have h6 : H ^ 6 ≤ 32 * c ^ 6 * (1 + b0 ^ 6) := by
    rw [hHd, mul_pow]
    have := p6 1 b0 zero_le_one hb0
    have k := mul_le_mul_of_nonneg_left this (by positivity : 0 ≤ c ^ 6)
    rw [one_pow] at k
    linarith
  have h7 : δ ^ 3 * (1 + H ^ 6) + W ^ 6 ≤ δ ^ 3 * (1 + 32 * c ^ 6 * (1 + b0 ^ 6)) + W ^ 6 := by
    have := mul_le_mul_of_nonneg_left (add_le_add (le_refl (1 : ℝ)) h6) (pow_pos hδ 3).le
    linarith
  have hW6 : 0 ≤ W ^ 6 := by positivity
  have h8 : 2 * (L ^ 2 + K) ^ 2 * (δ ^ 2 * H ^ 2 * M ^ 2) + 2 * K3 ^ 2 * M ^ 6 ≤
      (2 * (L ^ 2 + K) ^ 2 + (2 * (L ^ 2 + K) ^ 2 + 2 * K3 ^ 2) * (32 * (1 + T ^ 3 + s ^ 6))) * (δ ^ 3 * (1 + H ^ 6) + W ^ 6) := by
    have k1 := mul_le_mul_of_nonneg_left h4 (by positivity : 0 ≤ 2 * (L ^ 2 + K) ^ 2)
    have k2 := mul_le_mul_of_nonneg_left h5 (by positivity : 0 ≤ 2 * (L ^ 2 + K) ^ 2 + 2 * K3 ^ 2)
    have k3 : 0 ≤ 2 * (L ^ 2 + K) ^ 2 * W ^ 6 := by positivity
    linarith
  refine h3.trans (h8.trans (mul_le_mul_of_nonneg_left h7 ?_))
  positivity

end Verif
