import Verif.Lemmas.BlockTransfer
import Verif.Lemmas.PathScheme

/-! One step of EKF0 with a twice integrated prior on a parabola: the second coefficient of the parabola does not cancel. -/

namespace Verif

open Matrix Spec Jnp Set

variable {d m : ℕ}

/-- The expansions of the transitions of the coordinates: the gain of coordinate `i` is `γ i` times the step to first order. -/
structure GainOk (c δ : ℝ) (A : Fin d → Mat 3 3) (g γ : Fin d → ℝ) : Prop where
  a00 : ∀ i, |A i 0 0 - 1| ≤ c * δ ^ 2
  a10 : ∀ i, |A i 1 0| ≤ c * δ
  a01 : ∀ i, |A i 0 1 - δ| ≤ c * δ ^ 2
  a11 : ∀ i, |A i 1 1 - 1| ≤ c * δ
  a02 : ∀ i, |A i 0 2| ≤ c * δ ^ 2
  a12 : ∀ i, |A i 1 2| ≤ c * δ
  gain : ∀ i, |g i| ≤ c * δ
  near : ∀ i, |g i - γ i * δ| ≤ c * δ ^ 2

/-- The weight with which the second coefficient of the parabola enters the state. -/
noncomputable def extraNoise (S : Mat d m) (γ : Fin d → ℝ) : Mat d m := fun i j => Real.sqrt 6 * (1 - 2 * γ i) * S i j

theorem extraNoise_mulVec (S : Mat d m) (γ : Fin d → ℝ) (b : Vec m) (i : Fin d) :
    (extraNoise S γ *ᵥ b) i = Real.sqrt 6 * (1 - 2 * γ i) * (S *ᵥ b) i := by
  simp only [mulVec, dotProduct, extraNoise, Finset.mul_sum]
  exact Finset.sum_congr rfl fun j _ => by ring

/-- One coordinate of the step. -/
theorem gain_coord {c δ ρ V W Z s6 y f0 v w f1 sa sb p1 A00 A01 A02 A10 A11 A12 g γ D : ℝ} (hδ : 0 < δ) (hδZ : δ ≤ Z) (hc : 0 ≤ c)
    (hρ : 0 ≤ ρ) (hy : |y| ≤ ρ) (hv : δ * |v| ≤ V * Z) (hw : δ * |w| ≤ W * Z) (hf : |f1 - f0| ≤ D * Z) (hsb : 2 * s6 * |sb| ≤ V * Z) (h6 : 0 ≤ s6)
    (ev : δ * v = δ * f0 + sa + s6 * sb) (ep : δ * p1 = sa - s6 * sb)
    (h00 : |A00 - 1| ≤ c * δ ^ 2) (h10 : |A10| ≤ c * δ) (h01 : |A01 - δ| ≤ c * δ ^ 2) (h11 : |A11 - 1| ≤ c * δ) (h02 : |A02| ≤ c * δ ^ 2)
    (h12 : |A12| ≤ c * δ) (hg : |g| ≤ c * δ) (hgγ : |g - γ * δ| ≤ c * δ ^ 2) :
    |A00 * y + A01 * v + A02 * w + g * (f1 + p1 - (A10 * y + A11 * v + A12 * w)) - (y + δ * f0 + sa + s6 * (1 - 2 * γ) * sb)| ≤
      (c * ρ + c * V + c * W + c * D + c * c * ρ + c * c * V + c * c * W + c * V) * (δ * Z) := by
  have hZ : 0 ≤ Z := hδ.le.trans hδZ
  have e : A00 * y + A01 * v + A02 * w + g * (f1 + p1 - (A10 * y + A11 * v + A12 * w)) - (y + δ * f0 + sa + s6 * (1 - 2 * γ) * sb) =
      (A00 - 1) * y + (A01 - δ) * v + A02 * w + g * (f1 - f0) - g * A10 * y - g * (A11 - 1) * v - g * A12 * w -
        (g - γ * δ) * (2 * s6 * sb) / δ := by
    have e1 : v = f0 + (sa + s6 * sb) / δ := by field_simp; linarith
    have e2 : p1 = (sa - s6 * sb) / δ := by field_simp; linarith
    rw [e1, e2]
    field_simp
    ring
  have hδZ2 : δ ^ 2 ≤ δ * Z := by rw [sq]; gcongr
  have t1 : |(A00 - 1) * y| ≤ c * ρ * (δ * Z) := by
    refine (abs_mul_le' h00 hy).trans ?_
    calc c * δ ^ 2 * ρ ≤ c * (δ * Z) * ρ := by gcongr
      _ = _ := by ring
  have t2 : |(A01 - δ) * v| ≤ c * V * (δ * Z) := by
    refine (abs_mul_le' h01 le_rfl).trans ?_
    calc c * δ ^ 2 * |v| = c * δ * (δ * |v|) := by ring
      _ ≤ c * δ * (V * Z) := by gcongr
      _ = _ := by ring
  have t3 : |A02 * w| ≤ c * W * (δ * Z) := by
    refine (abs_mul_le' h02 le_rfl).trans ?_
    calc c * δ ^ 2 * |w| = c * δ * (δ * |w|) := by ring
      _ ≤ c * δ * (W * Z) := by gcongr
      _ = _ := by ring
  have t4 : |g * (f1 - f0)| ≤ c * D * (δ * Z) := (abs_mul_le' hg hf).trans (le_of_eq (by ring))
  have t5 : |g * A10 * y| ≤ c * c * ρ * (δ * Z) := by
    refine (abs_mul_le' (abs_mul_le' hg h10) hy).trans ?_
    calc c * δ * (c * δ) * ρ = c * c * δ ^ 2 * ρ := by ring
      _ ≤ c * c * (δ * Z) * ρ := by gcongr
      _ = _ := by ring
  have t6 : |g * (A11 - 1) * v| ≤ c * c * V * (δ * Z) := by
    refine (abs_mul_le' (abs_mul_le' hg h11) le_rfl).trans ?_
    calc c * δ * (c * δ) * |v| = c * c * δ * (δ * |v|) := by ring
      _ ≤ c * c * δ * (V * Z) := by gcongr
      _ = _ := by ring
  have t7 : |g * A12 * w| ≤ c * c * W * (δ * Z) := by
    refine (abs_mul_le' (abs_mul_le' hg h12) le_rfl).trans ?_
    calc c * δ * (c * δ) * |w| = c * c * δ * (δ * |w|) := by ring
      _ ≤ c * c * δ * (W * Z) := by gcongr
      _ = _ := by ring
  have t8 : |(g - γ * δ) * (2 * s6 * sb) / δ| ≤ c * V * (δ * Z) := by
    rw [abs_div, abs_of_pos hδ, div_le_iff₀ hδ]
    refine (abs_mul_le' hgγ (b := V * Z) ?_).trans ?_
    · rw [abs_mul, abs_of_nonneg (by positivity : 0 ≤ 2 * s6)]
      exact hsb
    · exact le_of_eq (by ring)
  rw [e]
  have q1 := abs_add_le ((A00 - 1) * y) ((A01 - δ) * v)
  have q2 := abs_add_le ((A00 - 1) * y + (A01 - δ) * v) (A02 * w)
  have q3 := abs_add_le ((A00 - 1) * y + (A01 - δ) * v + A02 * w) (g * (f1 - f0))
  have q4 := abs_sub ((A00 - 1) * y + (A01 - δ) * v + A02 * w + g * (f1 - f0)) (g * A10 * y)
  have q5 := abs_sub ((A00 - 1) * y + (A01 - δ) * v + A02 * w + g * (f1 - f0) - g * A10 * y) (g * (A11 - 1) * v)
  have q6 := abs_sub ((A00 - 1) * y + (A01 - δ) * v + A02 * w + g * (f1 - f0) - g * A10 * y - g * (A11 - 1) * v) (g * A12 * w)
  have q7 := abs_sub ((A00 - 1) * y + (A01 - δ) * v + A02 * w + g * (f1 - f0) - g * A10 * y - g * (A11 - 1) * v - g * A12 * w)
    ((g - γ * δ) * (2 * s6 * sb) / δ)
  linarith

/-- The step on a parabola, on bounded sets. -/
theorem gain_step {f : Field d} (hf : ContDiff ℝ 2 (Function.uncurry f)) {T : ℝ} (hT : 0 < T) (S : Mat d m) {c : ℝ} (hc : 0 ≤ c) (ρ : ℝ) :
    ∃ C : ℝ, 0 ≤ C ∧ ∀ (δ a0 : ℝ) (A : Fin d → Mat 3 3) (g γ : Fin d → ℝ), 0 < δ → 0 ≤ a0 → a0 + δ ≤ T → GainOk c δ A g γ →
      ∀ (y : Vec d) (a b : Vec m), ‖y‖ ≤ ρ → ‖a‖ ≤ 1 → ‖b‖ ≤ 1 →
        ‖blockAdd f S a0 δ A g y a b - (y + δ • f y a0 + S *ᵥ a + extraNoise S γ *ᵥ b)‖ ≤ C * (δ * (δ + ‖a‖ + ‖b‖)) := by
  wlog hρ : 0 ≤ ρ generalizing ρ
  · refine ⟨0, le_rfl, fun δ a0 A g γ _ _ _ _ y a b hy => ?_⟩
    exact absurd ((norm_nonneg _).trans hy) hρ
  obtain ⟨s, hs, hS⟩ := exists_mulVec_bound S
  obtain ⟨f1, D1, -, L, K, F, hL, hF, hg1, -, hgF, heq, -⟩ := exists_cutoff hf T (ρ + 1)
  have h6 : 0 ≤ Real.sqrt 6 := Real.sqrt_nonneg 6
  have h6' : Real.sqrt 6 ≤ 3 := Real.sqrt_le_iff.mpr ⟨by norm_num, by norm_num⟩
  obtain ⟨V, hV⟩ : ∃ V, V = F + 6 * s := ⟨_, rfl⟩
  have hV0 : 0 ≤ V := by rw [hV]; positivity
  obtain ⟨G, hG⟩ : ∃ G, G = c * T * ρ + (1 + c * T) * V + c * T * (L * V) := ⟨_, rfl⟩
  have hG0 : 0 ≤ G := by rw [hG]; positivity
  obtain ⟨f2, D2, -, L2, K2, F2, hL2, -, hg2, htl2, -, heq2, -⟩ := exists_cutoff hf T (ρ + G * (T + 2))
  obtain ⟨D, hD⟩ : ∃ D, D = L2 * G + L2 * (1 + (ρ + G * (T + 2))) := ⟨_, rfl⟩
  have hD0 : 0 ≤ D := by rw [hD]; positivity
  refine ⟨c * ρ + c * V + c * (L * V) + c * D + c * c * ρ + c * c * V + c * c * (L * V) + c * V, by positivity, ?_⟩
  intro δ a0 A g γ hδ ha0 haT hok y a b hy ha hb
  obtain ⟨Z, hZ⟩ : ∃ Z, Z = δ + ‖a‖ + ‖b‖ := ⟨_, rfl⟩
  have hna := norm_nonneg a
  have hnb := norm_nonneg b
  have hZ0 : 0 < Z := by rw [hZ]; positivity
  have hδZ : δ ≤ Z := by rw [hZ]; linarith
  have hδT : δ ≤ T := by linarith
  have hZT : Z ≤ T + 2 := by rw [hZ]; linarith
  have hI : a0 ∈ Icc 0 T := ⟨ha0, by linarith⟩
  have hI' : δ + a0 ∈ Icc 0 T := ⟨by positivity, by linarith⟩
  rw [← hZ]
  -- the slopes at both ends
  obtain ⟨v, hv⟩ : ∃ v, v = additiveField f S a0 δ a b y 0 := ⟨_, rfl⟩
  have hp : ∀ t, jacT (fun s => Foster.evalParabola s δ a b) t = (1 / δ) • (a + (Real.sqrt 6 * (1 - 2 * t / δ)) • b) := fun t => by
    rw [jacT_evalParabola]
    funext j
    simp only [Pi.smul_apply, Pi.add_apply, smul_eq_mul]
    ring
  have hSp : ∀ (t : ℝ) i, (S *ᵥ jacT (fun s => Foster.evalParabola s δ a b) t) i =
      1 / δ * ((S *ᵥ a) i + Real.sqrt 6 * (1 - 2 * t / δ) * (S *ᵥ b) i) := fun t i => by
    rw [hp, mulVec_smul, mulVec_add, mulVec_smul]
    simp only [Pi.smul_apply, Pi.add_apply, smul_eq_mul]
  have hSa : ∀ i, |(S *ᵥ a) i| ≤ s * ‖a‖ := fun i => (norm_le_pi_norm (S *ᵥ a) i).trans (hS a)
  have hSb : ∀ i, |(S *ᵥ b) i| ≤ s * ‖b‖ := fun i => (norm_le_pi_norm (S *ᵥ b) i).trans (hS b)
  have hvi : ∀ i, δ * v i = δ * f y a0 i + (S *ᵥ a) i + Real.sqrt 6 * (S *ᵥ b) i := fun i => by
    rw [hv, additiveField, Pi.add_apply, hSp, zero_add]
    field_simp
    ring
  have hfy : ∀ i, |f y a0 i| ≤ F := fun i => by
    rw [← heq y (by linarith) a0 hI]
    exact (norm_le_pi_norm _ i).trans (hgF _ _)
  have hvb : ∀ i, δ * |v i| ≤ V * Z := fun i => by
    have e0 : δ * |v i| = |δ * v i| := by rw [abs_mul, abs_of_pos hδ]
    rw [e0, hvi]
    refine (abs_add_three _ _ _).trans ?_
    rw [abs_mul, abs_mul, abs_of_pos hδ, abs_of_nonneg h6]
    calc δ * |f y a0 i| + |(S *ᵥ a) i| + Real.sqrt 6 * |(S *ᵥ b) i| ≤ δ * F + s * ‖a‖ + 3 * (s * ‖b‖) := by
          gcongr
          · exact hfy i
          · exact hSa i
          · exact hSb i
      _ ≤ V * Z := by
        rw [hV, hZ]
        have e1 : 0 ≤ s * δ := by positivity
        have e2 : 0 ≤ s * ‖a‖ := by positivity
        have e3 : 0 ≤ s * ‖b‖ := by positivity
        have e4 : 0 ≤ F * ‖a‖ := by positivity
        have e5 : 0 ≤ F * ‖b‖ := by positivity
        linarith
  have hvn : δ * ‖v‖ ≤ V * Z := by
    have h1 : ‖v‖ ≤ V * Z / δ := (pi_norm_le_iff_of_nonneg (by positivity)).mpr fun i => by
      rw [Real.norm_eq_abs, le_div_iff₀ hδ, mul_comm]
      exact hvb i
    rwa [le_div_iff₀ hδ, mul_comm] at h1
  -- the second derivative
  obtain ⟨w, hw⟩ : ∃ w, w = jac (fun z => additiveField f S a0 δ a b z 0) y *ᵥ v := ⟨_, rfl⟩
  have hwb : ∀ i, δ * |w i| ≤ L * V * Z := fun i => by
    have hI0 : 0 + a0 ∈ Icc 0 T := by rw [zero_add]; exact hI
    have hev : (fun x => f x (0 + a0)) =ᶠ[nhds y] fun x => f1 x (0 + a0) := by
      have : ‖y‖ < ρ + 1 := by linarith
      filter_upwards [(isOpen_lt continuous_norm continuous_const).mem_nhds this] with x hx
      exact (heq x (le_of_lt hx) _ hI0).symm
    have ej : jac (fun z => additiveField f S a0 δ a b z 0) y = LinearMap.toMatrix' (D1 y (0 + a0) : Vec d →ₗ[ℝ] Vec d) :=
      jac_eq_toMatrix (((hg1.deriv y _ hI0).congr_of_eventuallyEq hev).add_const _)
    rw [hw, ej, toMatrix_mulVec]
    have h1 : |D1 y (0 + a0) v i| ≤ L * ‖v‖ :=
      (norm_le_pi_norm _ i).trans (((D1 y (0 + a0)).le_opNorm _).trans (mul_le_mul_of_nonneg_right (hg1.norm_jac_le hL hI0 _) (norm_nonneg _)))
    calc δ * |D1 y (0 + a0) v i| ≤ δ * (L * ‖v‖) := by gcongr
      _ = L * (δ * ‖v‖) := by ring
      _ ≤ L * (V * Z) := by gcongr
      _ = _ := by ring
  -- the predicted state
  obtain ⟨x', hx'⟩ : ∃ x' : Vec d, x' = fun i => A i 0 0 * y i + A i 0 1 * v i + A i 0 2 * w i := ⟨_, rfl⟩
  have hyi : ∀ i, |y i| ≤ ρ := fun i => (norm_le_pi_norm y i).trans hy
  have hpred : ‖x' - y‖ ≤ G * Z := (pi_norm_le_iff_of_nonneg (by positivity)).mpr fun i => by
    rw [Real.norm_eq_abs, Pi.sub_apply, hx', show A i 0 0 * y i + A i 0 1 * v i + A i 0 2 * w i - y i =
      (A i 0 0 - 1) * y i + ((A i 0 1 - δ) * v i + δ * v i) + A i 0 2 * w i by ring]
    refine (abs_add_three _ _ _).trans ?_
    have u1 : |(A i 0 0 - 1) * y i| ≤ c * T * ρ * Z := by
      refine (abs_mul_le' (hok.a00 i) (hyi i)).trans ?_
      calc c * δ ^ 2 * ρ = c * δ * δ * ρ := by ring
        _ ≤ c * T * Z * ρ := by gcongr
        _ = _ := by ring
    have u2 : |(A i 0 1 - δ) * v i + δ * v i| ≤ (1 + c * T) * V * Z := by
      refine (abs_add_le _ _).trans ?_
      rw [abs_mul δ, abs_of_pos hδ]
      have := abs_mul_le' (hok.a01 i) (le_refl |v i|)
      calc |(A i 0 1 - δ) * v i| + δ * |v i| ≤ c * δ * (δ * |v i|) + δ * |v i| := by linarith
        _ ≤ c * T * (V * Z) + V * Z := by
          have k1 := hvb i
          exact add_le_add (mul_le_mul (by gcongr) k1 (by positivity) (by positivity)) k1
        _ = _ := by ring
    have u3 : |A i 0 2 * w i| ≤ c * T * (L * V) * Z := by
      refine (abs_mul_le' (hok.a02 i) (le_refl |w i|)).trans ?_
      calc c * δ ^ 2 * |w i| = c * δ * (δ * |w i|) := by ring
        _ ≤ c * T * (L * V * Z) := mul_le_mul (by gcongr) (hwb i) (by positivity) (by positivity)
        _ = _ := by ring
    rw [hG]
    linarith
  have hxn : ‖x'‖ ≤ ρ + G * (T + 2) := by
    have h1 := norm_sub_norm_le x' y
    have h2 : G * Z ≤ G * (T + 2) := by gcongr
    linarith
  have hf1 : ∀ i, |f x' (δ + a0) i - f y a0 i| ≤ D * Z := fun i => by
    have hyn : ‖y‖ ≤ ρ + G * (T + 2) := hy.trans (by linarith [mul_nonneg hG0 (by linarith : (0 : ℝ) ≤ T + 2)])
    refine (norm_le_pi_norm (f x' (δ + a0) - f y a0) i).trans ?_
    rw [← heq2 x' hxn _ hI', ← heq2 y hyn _ hI, show f2 x' (δ + a0) - f2 y a0 = (f2 x' (δ + a0) - f2 y (δ + a0)) + (f2 y (δ + a0) - f2 y a0) by abel]
    refine (norm_add_le _ _).trans ((add_le_add (hg2.lip _ _ _ hI') (htl2 _ _ hI' _ hI)).trans ?_)
    rw [add_sub_cancel_right, abs_of_pos hδ, hD]
    calc L2 * ‖x' - y‖ + L2 * (1 + ‖y‖) * δ ≤ L2 * (G * Z) + L2 * (1 + (ρ + G * (T + 2))) * Z := by gcongr
      _ = _ := by ring
  refine (pi_norm_le_iff_of_nonneg (by positivity)).mpr fun i => ?_
  have e : (blockAdd f S a0 δ A g y a b - (y + δ • f y a0 + S *ᵥ a + extraNoise S γ *ᵥ b)) i =
      A i 0 0 * y i + A i 0 1 * v i + A i 0 2 * w i + g i * (f x' (δ + a0) i + (S *ᵥ jacT (fun s => Foster.evalParabola s δ a b) δ) i -
        (A i 1 0 * y i + A i 1 1 * v i + A i 1 2 * w i)) -
        (y i + δ * f y a0 i + (S *ᵥ a) i + Real.sqrt 6 * (1 - 2 * γ i) * (S *ᵥ b) i) := by
    simp only [Pi.sub_apply, Pi.add_apply, Pi.smul_apply, smul_eq_mul, extraNoise_mulVec]
    rw [hx', hw, hv]
    rfl
  rw [Real.norm_eq_abs, e]
  refine gain_coord (V := V) (W := L * V) (D := D) hδ hδZ hc hρ (hyi i) (hvb i) (hwb i) (hf1 i) ?_ h6 (hvi i) ?_ (hok.a00 i) (hok.a10 i) (hok.a01 i) (hok.a11 i)
    (hok.a02 i) (hok.a12 i) (hok.gain i) (hok.near i)
  · calc 2 * Real.sqrt 6 * |(S *ᵥ b) i| ≤ 2 * 3 * (s * ‖b‖) := by
          gcongr
          exact hSb i
      _ ≤ V * Z := by
        rw [hV, hZ]
        have e1 : 0 ≤ s * δ := by positivity
        have e2 : 0 ≤ s * ‖a‖ := by positivity
        have e4 : 0 ≤ F * (δ + ‖a‖ + ‖b‖) := by positivity
        linarith
  · rw [hSp]
    field_simp
    ring

end Verif
