import Verif.Lemmas.CalibrationLower
import Verif.Props.Strong

/-! Helper lemmas: the calibration experiment along a path, for a Lipschitz drift and a constant diffusion matrix. -/

namespace Verif

open Matrix Spec Jnp Scripts Set
open scoped Matrix.Norms.Operator

variable {d m : ℕ}

theorem one_sub_ge_exp {x : ℝ} (h0 : 0 ≤ x) (h1 : x ≤ 1 / 2) : Real.exp (-(2 * x)) ≤ 1 - x := by
  have h := Real.add_one_le_exp (2 * x)
  rw [Real.exp_neg, inv_le_comm₀ (Real.exp_pos _) (by linarith)]
  refine le_trans ?_ h
  rw [inv_le_iff_one_le_mul₀ (by linarith)]
  nlinarith

theorem jac_norm_le {g : Vec d → Vec d} {L : ℝ} (hL : 0 ≤ L) (hg : Differentiable ℝ g) (hlip : ∀ x y, ‖g x - g y‖ ≤ L * ‖x - y‖) (y : Vec d) :
    ‖jac g y‖ ≤ L := by
  refine norm_le_of_mulVec hL fun v => ?_
  rw [jac_mulVec hg.differentiableAt]
  refine (ContinuousLinearMap.le_opNorm _ _).trans (mul_le_mul_of_nonneg_right ?_ (norm_nonneg _))
  exact (hg y).hasFDerivAt.le_of_lip' hL (Filter.Eventually.of_forall fun x => hlip x y)

/-- The covariances grow at least linearly. -/
theorem alg3_path_lower (d : ℕ) {L T : ℝ} (hL : 0 ≤ L) (hT : 0 < T) : ∃ c τ : ℝ, 0 < c ∧ 0 ≤ τ ∧ ∃ N0 : ℕ, ∀ {N : ℕ}, N0 ≤ N → 0 < N → ∀ {δ : ℝ}, 0 < δ →
    N * δ = T → ∀ {p J0 J1 : ℕ → Mat d d}, p 0 = 0 → (∀ k < N, p (k + 1) = alg3P δ (J0 k) (J1 k) (p k)) → (∀ k < N, ‖J0 k‖ ≤ L) →
      (∀ k < N, ‖J1 k‖ ≤ L) → ∀ n ≤ N, (p n).PosSemidef ∧ (p n).trace ≤ τ * δ ^ 2 ∧ ∀ v : Vec d, c * (n * δ ^ 3) * (v ⬝ᵥ v) ≤ v ⬝ᵥ (p n *ᵥ v) := by
  obtain ⟨τ, hτ, hcov⟩ := alg3_cov d hL hT.le
  obtain ⟨C, hC, hlow⟩ := alg3_lower d hL hT.le hτ
  refine ⟨Real.exp (-(2 * (C * T))) / 12, τ, by positivity, hτ, ⌈2 * C * T⌉₊, ?_⟩
  intro N hN0 hN δ hδ hNδ p J0 J1 hp0 hps hJ0 hJ1
  have hc := hcov hN hδ hNδ hp0 hps hJ0
  have hN' : (1 : ℝ) ≤ N := by exact_mod_cast hN
  have hδT : δ ≤ T := by rw [← hNδ]; nlinarith
  have hCδ : C * δ ≤ 1 / 2 := by
    have h1 : 2 * C * T ≤ N := (Nat.le_ceil _).trans (by exact_mod_cast hN0)
    rw [← hNδ] at h1
    have h2 : 2 * C * δ * N ≤ 1 * N := by linarith
    have h3 := le_of_mul_le_mul_right h2 (by linarith)
    linarith
  obtain ⟨ρ, hρ⟩ : ∃ ρ, ρ = 1 - C * δ := ⟨_, rfl⟩
  have hρ0 : 0 ≤ ρ := by rw [hρ]; linarith
  have hρ1 : ρ ≤ 1 := by
      rw [hρ]
      have : 0 ≤ C * δ := by positivity
      linarith
  have hmain : ∀ n ≤ N, ∀ v : Vec d, n * ρ ^ n * (δ ^ 3 / 12) * (v ⬝ᵥ v) ≤ v ⬝ᵥ (p n *ᵥ v) := by
    intro n
    induction n with
    | zero => intro _ v; simp [hp0]
    | succ n ih =>
      intro hn v
      have h1 := hlow hδ hδT (hc n (by omega)).1 (hJ0 n hn) (hJ1 n hn) (hc n (by omega)).2 (l := n * ρ ^ n * (δ ^ 3 / 12)) (by positivity)
        (ih (by omega)) v
      rw [hps n hn]
      refine le_trans (mul_le_mul_of_nonneg_right ?_ ((sq_nonneg _).trans (norm_sq_le_dot v))) h1
      rw [← hρ]
      have h2 : ρ ^ (n + 1) ≤ ρ := by
        rw [pow_succ]
        exact mul_le_of_le_one_left hρ0 (pow_le_one₀ hρ0 hρ1)
      have h3 : 0 ≤ δ ^ 3 / 12 := by positivity
      calc ((n + 1 : ℕ) : ℝ) * ρ ^ (n + 1) * (δ ^ 3 / 12) = (n * ρ ^ (n + 1) + ρ ^ (n + 1)) * (δ ^ 3 / 12) := by push_cast; ring
        _ ≤ (n * ρ ^ (n + 1) + ρ) * (δ ^ 3 / 12) := by gcongr
        _ = _ := by ring
  intro n hn
  refine ⟨(hc n hn).1, (hc n hn).2, fun v => le_trans (mul_le_mul_of_nonneg_right ?_ ((sq_nonneg _).trans (norm_sq_le_dot v))) (hmain n hn v)⟩
  have h1 : Real.exp (-(2 * (C * T))) ≤ ρ ^ n := by
    have h2 := pow_le_pow_left₀ (Real.exp_pos _).le (one_sub_ge_exp (by positivity : 0 ≤ C * δ) hCδ) n
    rw [← Real.exp_nat_mul, ← hρ] at h2
    refine le_trans (Real.exp_le_exp.mpr ?_) h2
    have h3 : (n : ℝ) * δ ≤ T := by
      rw [← hNδ]
      exact mul_le_mul_of_nonneg_right (by exact_mod_cast hn) hδ.le
    nlinarith
  calc Real.exp (-(2 * (C * T))) / 12 * (n * δ ^ 3) ≤ ρ ^ n / 12 * (n * δ ^ 3) := by gcongr
    _ = _ := by ring

theorem slopes_le {δ : ℝ} (hδ : 0 < δ) (a b : Vec m) : ∀ t ∈ ({0, δ} : Set ℝ),
    ‖jacT (fun s => Foster.evalParabola s δ a b) t‖ ≤ 3 * (‖a‖ + ‖b‖) / δ := by
  intro t ht
  have h6 : √6 ≤ 3 := Real.sqrt_le_iff.mpr ⟨by norm_num, by norm_num⟩
  rw [jacT_evalParabola, pi_norm_le_iff_of_nonneg (by positivity)]
  intro j
  rw [Real.norm_eq_abs, abs_div, abs_of_pos hδ]
  gcongr
  have h1 : |1 - 2 * t / δ| ≤ 1 := by
    rcases ht with rfl | ht
    · simp
    · rw [mem_singleton_iff.mp ht, mul_div_assoc, div_self hδ.ne']
      norm_num
  have ha : |a j| ≤ ‖a‖ := norm_le_pi_norm a j
  have hb : |b j| ≤ ‖b‖ := norm_le_pi_norm b j
  calc |a j + √6 * b j * (1 - 2 * t / δ)| ≤ |a j| + √6 * |b j| * |1 - 2 * t / δ| := by
        refine (abs_add_le _ _).trans (add_le_add le_rfl (le_of_eq ?_))
        rw [abs_mul, abs_mul, abs_of_nonneg (Real.sqrt_nonneg 6)]
    _ ≤ ‖a‖ + 3 * ‖b‖ * 1 := by gcongr
    _ ≤ _ := by linarith [norm_nonneg a]


/-- One step of the mean and the part of the residual that comes from the drift. -/
theorem alg3_mean_growth {f : Vec d → ℝ → Vec d} {T L Lt s κ : ℝ} (hL : 0 ≤ L) (hLt : 0 ≤ Lt) (hs0 : 0 ≤ s) (hκ : 0 ≤ κ)
    (hlip : ∀ x y, ∀ t ∈ Icc 0 T, ‖f x t - f y t‖ ≤ L * ‖x - y‖) (htl : TimeLipschitz f T Lt) {S : Mat d m} (hS : ∀ v, ‖S *ᵥ v‖ ≤ s * ‖v‖)
    (x0 : Vec d) : ∃ C : ℝ, 0 ≤ C ∧ ∀ {a0 δ : ℝ}, 0 < δ → 0 ≤ a0 → a0 + δ ≤ T → ∀ (a b : Vec m) (y : Vec d) (G : Mat d d), ‖G‖ ≤ κ * δ →
      let vf := additiveField f S a0 δ a b
      ‖y + δ • vf y 0 + G *ᵥ (vf (y + δ • vf y 0) δ - vf y 0) - x0‖ ≤ (1 + C * δ) * ‖y - x0‖ + C * (δ + (‖a‖ + ‖b‖)) ∧
      ‖alg3Z vf δ y - (2 * √6 / δ) • S *ᵥ b‖ ≤ C * (δ * (1 + ‖y - x0‖) + (‖a‖ + ‖b‖)) := by
  obtain ⟨F0, hF0⟩ : ∃ F0, F0 = ‖f 0 0‖ + Lt * |T| + L * ‖x0‖ := ⟨_, rfl⟩
  have hF00 : 0 ≤ F0 := by rw [hF0]; positivity
  obtain ⟨q, hq⟩ : ∃ q, q = 1 + κ * (2 + L * |T|) := ⟨_, rfl⟩
  have hq0 : 1 ≤ q := by
      rw [hq]
      have : 0 ≤ κ * (2 + L * |T|) := by positivity
      linarith
  obtain ⟨C1, hC1⟩ : ∃ C1, C1 = q * (L + F0 + 3 * s) := ⟨_, rfl⟩
  obtain ⟨C2, hC2⟩ : ∃ C2, C2 = Lt * (1 + ‖x0‖) + Lt + L * (F0 + L + 3 * s) := ⟨_, rfl⟩
  have hC10 : 0 ≤ C1 := by rw [hC1]; positivity
  have hC20 : 0 ≤ C2 := by rw [hC2]; positivity
  refine ⟨C1 + C2, by positivity, ?_⟩
  intro a0 δ hδ ha0 haT a b y G hG vf
  have hT : 0 ≤ T := by linarith
  have hδT : δ ≤ T := by linarith
  rw [abs_of_nonneg hT] at hF0 hq
  obtain ⟨e, he⟩ : ∃ e, e = ‖a‖ + ‖b‖ := ⟨_, rfl⟩
  have he0 : 0 ≤ e := by rw [he]; positivity
  obtain ⟨r, hr⟩ : ∃ r, r = ‖y - x0‖ := ⟨_, rfl⟩
  have hr0 : 0 ≤ r := by rw [hr]; positivity
  have m0 : (0 : ℝ) ∈ Icc 0 T := ⟨le_rfl, hT⟩
  have m1 : a0 ∈ Icc 0 T := ⟨ha0, by linarith⟩
  have m2 : δ + a0 ∈ Icc 0 T := ⟨by linarith, by linarith⟩
  have hyr : ‖y‖ ≤ ‖x0‖ + r := by
    rw [hr]
    calc ‖y‖ = ‖x0 + (y - x0)‖ := by rw [add_sub_cancel]
      _ ≤ _ := norm_add_le _ _
  have hf0 : ∀ t ∈ Icc 0 T, ∀ x : Vec d, ‖f x t‖ ≤ ‖f 0 0‖ + Lt * T + L * ‖x‖ := by
    intro t ht x
    have h1 := hlip x 0 t ht
    have h2 := htl 0 t ht 0 m0
    rw [norm_zero, add_zero, mul_one, sub_zero, abs_of_nonneg ht.1] at h2
    rw [sub_zero] at h1
    have h3 : Lt * t ≤ Lt * T := mul_le_mul_of_nonneg_left ht.2 hLt
    calc ‖f x t‖ = ‖f 0 0 + (f 0 t - f 0 0) + (f x t - f 0 t)‖ := by congr 1; abel
      _ ≤ ‖f 0 0‖ + ‖f 0 t - f 0 0‖ + ‖f x t - f 0 t‖ := (norm_add_le _ _).trans (add_le_add (norm_add_le _ _) le_rfl)
      _ ≤ _ := by linarith
  have hsl := slopes_le hδ a b
  rw [← he] at hsl
  have hN : ∀ t ∈ ({0, δ} : Set ℝ), ‖S *ᵥ jacT (fun s => Foster.evalParabola s δ a b) t‖ ≤ 3 * s * e / δ := fun t ht => by
    refine (hS _).trans ((mul_le_mul_of_nonneg_left (hsl t ht) hs0).trans (le_of_eq (by ring)))
  obtain ⟨W, hW⟩ : ∃ W, W = F0 + L * r + 3 * s * e / δ := ⟨_, rfl⟩
  have hW0 : 0 ≤ W := by rw [hW]; positivity
  obtain ⟨v, hv⟩ : ∃ v, v = vf y 0 := ⟨_, rfl⟩
  have hv1 : ‖v‖ ≤ W := by
    rw [hv]
    refine (norm_add_le _ _).trans ?_
    rw [zero_add, hW]
    have h1 := hf0 a0 m1 y
    have h2 := hN 0 (by simp)
    have h3 : L * ‖y‖ ≤ L * (‖x0‖ + r) := mul_le_mul_of_nonneg_left hyr hL
    rw [hF0]
    linarith
  have hv2 : ‖vf (y + δ • v) δ‖ ≤ (1 + L * T) * W := by
    refine (norm_add_le _ _).trans ?_
    have h1 := hf0 (δ + a0) m2 (y + δ • v)
    have h2 := hN δ (by simp)
    have h3 : ‖y + δ • v‖ ≤ ‖x0‖ + r + T * W := by
      refine (norm_add_le _ _).trans (add_le_add hyr ?_)
      rw [norm_smul, Real.norm_eq_abs, abs_of_pos hδ]
      exact mul_le_mul hδT hv1 (norm_nonneg _) hT
    have h4 : L * ‖y + δ • v‖ ≤ L * (‖x0‖ + r + T * W) := mul_le_mul_of_nonneg_left h3 hL
    have h5 : ‖f 0 0‖ + Lt * T + L * ‖x0‖ + L * r + 3 * s * e / δ = W := by rw [hW, hF0]
    linarith
  have hδW : δ * W = δ * F0 + L * δ * r + 3 * s * e := by
    rw [hW]
    field_simp
  rw [← hr, ← he]
  constructor
  · have h1 : ‖G *ᵥ (vf (y + δ • v) δ - v)‖ ≤ κ * δ * ((2 + L * T) * W) := by
      refine (linfty_opNorm_mulVec _ _).trans (mul_le_mul hG ?_ (norm_nonneg _) (by positivity))
      refine (norm_sub_le _ _).trans ?_
      linarith
    have h2 : ‖y + δ • v + G *ᵥ (vf (y + δ • v) δ - v) - x0‖ ≤ r + q * (δ * W) := by
      rw [show y + δ • v + G *ᵥ (vf (y + δ • v) δ - v) - x0 = (y - x0) + δ • v + G *ᵥ (vf (y + δ • v) δ - v) by abel]
      refine (norm_add_le _ _).trans ((add_le_add (norm_add_le _ _) h1).trans ?_)
      rw [norm_smul, Real.norm_eq_abs, abs_of_pos hδ, ← hr, hq]
      have : δ * ‖v‖ ≤ δ * W := mul_le_mul_of_nonneg_left hv1 hδ.le
      linarith
    rw [← hv]
    refine h2.trans ?_
    rw [hδW]
    have e1 : q * L ≤ C1 := by
      rw [hC1]
      have : 0 ≤ q * (F0 + 3 * s) := by positivity
      linarith
    have e2 : q * F0 ≤ C1 := by
      rw [hC1]
      have : 0 ≤ q * (L + 3 * s) := by positivity
      linarith
    have e3 : q * (3 * s) ≤ C1 := by
      rw [hC1]
      have : 0 ≤ q * (L + F0) := by positivity
      linarith
    calc r + q * (δ * F0 + L * δ * r + 3 * s * e) = r + q * L * (δ * r) + q * F0 * δ + q * (3 * s) * e := by ring
      _ ≤ r + C1 * (δ * r) + C1 * δ + C1 * e := by gcongr
      _ ≤ r + (C1 + C2) * (δ * r) + (C1 + C2) * δ + (C1 + C2) * e := by gcongr <;> linarith
      _ = _ := by ring
  · have hz : alg3Z vf δ y - (2 * √6 / δ) • S *ᵥ b = (f y a0 - f y (δ + a0)) + (f y (δ + a0) - f (y + δ • v) (δ + a0)) := by
      rw [alg3Z, ← hv]
      have e1 : v = f y a0 + S *ᵥ jacT (fun s => Foster.evalParabola s δ a b) 0 := by
        rw [hv]; show f y (0 + a0) + _ = _; rw [zero_add]
      have e2 : vf (y + δ • v) δ = f (y + δ • v) (δ + a0) + S *ᵥ jacT (fun s => Foster.evalParabola s δ a b) δ := rfl
      have e3 : S *ᵥ jacT (fun s => Foster.evalParabola s δ a b) 0 - S *ᵥ jacT (fun s => Foster.evalParabola s δ a b) δ = (2 * √6 / δ) • S *ᵥ b := by
        rw [← mulVec_sub, ← mulVec_smul]
        congr 1
        rw [jacT_evalParabola, jacT_evalParabola]
        funext j
        simp only [Pi.sub_apply, Pi.smul_apply, smul_eq_mul]
        field_simp
        ring
      rw [← e3, e2]
      nth_rewrite 1 [e1]
      abel
    rw [hz]
    refine (norm_add_le _ _).trans ?_
    have h1 := htl y a0 m1 (δ + a0) m2
    rw [show a0 - (δ + a0) = -δ by ring, abs_neg, abs_of_pos hδ] at h1
    have h2 := hlip y (y + δ • v) (δ + a0) m2
    rw [show y - (y + δ • v) = -(δ • v) by abel, norm_neg, norm_smul, Real.norm_eq_abs, abs_of_pos hδ] at h2
    have h3 : δ * ‖v‖ ≤ δ * W := mul_le_mul_of_nonneg_left hv1 hδ.le
    have h4 : L * (δ * ‖v‖) ≤ L * (δ * W) := mul_le_mul_of_nonneg_left h3 hL
    have h5 : Lt * (1 + ‖y‖) * δ ≤ Lt * (1 + (‖x0‖ + r)) * δ := by gcongr
    rw [hδW] at h4
    have e1 : Lt * (1 + ‖x0‖) + L * F0 ≤ C2 := by
      rw [hC2]
      have : 0 ≤ Lt + L * (L + 3 * s) := by positivity
      linarith
    have e2 : Lt + L * L ≤ C2 := by
      rw [hC2]
      have : 0 ≤ Lt * (1 + ‖x0‖) + L * (F0 + 3 * s) := by positivity
      linarith
    have e3 : L * (3 * s) ≤ C2 := by
      rw [hC2]
      have : 0 ≤ Lt * (1 + ‖x0‖) + Lt + L * (F0 + L) := by positivity
      linarith
    calc ‖f y a0 - f y (δ + a0)‖ + ‖f y (δ + a0) - f (y + δ • v) (δ + a0)‖
        ≤ (Lt * (1 + ‖x0‖) + L * F0) * δ + (Lt + L * L) * (δ * r) + L * (3 * s) * e := by linarith
      _ ≤ C2 * δ + C2 * (δ * r) + C2 * e := by gcongr
      _ ≤ (C1 + C2) * δ + (C1 + C2) * (δ * r) + (C1 + C2) * e := by gcongr <;> linarith
      _ = _ := by ring


/-- A run of Algorithm 3 with EKF1 and one filter step per interval on `dX = f dt + S dW`: the covariances grow at least linearly, and the sum of
the squared residuals is at least a multiple of `∑ |S b|² / δ³`, up to a term of lower order. -/
theorem calib_path {f : Vec d → ℝ → Vec d} {T L Lt s : ℝ} (hT : 0 < T) (hL : 0 ≤ L) (hLt : 0 ≤ Lt) (hs0 : 0 ≤ s)
    (hlip : ∀ x y, ∀ t ∈ Icc 0 T, ‖f x t - f y t‖ ≤ L * ‖x - y‖) (hdiff : ∀ t ∈ Icc 0 T, Differentiable ℝ fun x => f x t) (htl : TimeLipschitz f T Lt)
    {S : Mat d m} (hS : ∀ v, ‖S *ᵥ v‖ ≤ s * ‖v‖) (x0 : Vec d) (hd : 0 < d) :
    ∃ c c' C : ℝ, 0 < c ∧ 0 < c' ∧ 0 ≤ C ∧ ∃ N0 : ℕ, ∀ {N : ℕ}, N0 ≤ N → 0 < N → ∀ {δ : ℝ}, 0 < δ → N * δ = T → ∀ a b : ℕ → Vec m,
      let vf := fun (k : ℕ) => additiveField f S (k * δ) δ (a k) (b k)
      (∀ n ≤ N, ∀ v : Vec d, c * (n * δ ^ 3) * (v ⬝ᵥ v) ≤ v ⬝ᵥ ((alg3Path vf δ x0 n).2 *ᵥ v)) ∧
      c' * (∑ k ∈ Finset.range N, (S *ᵥ b k) ⬝ᵥ (S *ᵥ b k)) / δ ^ 2 - C * (1 + ∑ k ∈ Finset.range N, (‖a k‖ + ‖b k‖) ^ 2) ≤
        δ * ∑ k ∈ Finset.range N, alg3Z (vf k) δ (alg3Path vf δ x0 k).1 ⬝ᵥ (alg3PathS vf δ x0 k)⁻¹ *ᵥ alg3Z (vf k) δ (alg3Path vf δ x0 k).1 := by
  have hd' : (0 : ℝ) < d := by exact_mod_cast hd
  obtain ⟨c, τ, hc, hτ, N0, hpath⟩ := alg3_path_lower d hL hT
  obtain ⟨κ, hκ, hsz⟩ := alg3_sizes d hL hT.le hτ
  obtain ⟨Cg, hCg, hgr⟩ := alg3_mean_growth hL hLt hs0 hκ.le hlip htl hS x0
  obtain ⟨B, hB⟩ : ∃ B, B = Real.exp (Cg * T) * (Cg * (T + 1)) := ⟨_, rfl⟩
  have hB0 : 0 ≤ B := by rw [hB]; positivity
  obtain ⟨Γ, hΓ⟩ : ∃ Γ, Γ = Cg * (1 + B) := ⟨_, rfl⟩
  have hΓ0 : 0 ≤ Γ := by rw [hΓ]; positivity
  refine ⟨c, 12 / (d * κ), 3 * Γ ^ 2 * (1 + T ^ 2) / κ, hc, by positivity, by positivity, N0, ?_⟩
  intro N hN0 hN δ hδ hNδ a b vf
  have hN' : (1 : ℝ) ≤ N := by exact_mod_cast hN
  have hδT : δ ≤ T := by rw [← hNδ]; nlinarith
  have htime : ∀ k < N, 0 ≤ (k : ℝ) * δ ∧ (k : ℝ) * δ + δ ≤ T := by
    intro k hk
    have : ((k + 1 : ℕ) : ℝ) ≤ N := by exact_mod_cast hk
    refine ⟨by positivity, ?_⟩
    rw [← hNδ]
    push_cast at this
    nlinarith
  have hjac : ∀ k < N, ∀ t ∈ ({0, δ} : Set ℝ), ∀ y, ‖jac (fun x => vf k x t) y‖ ≤ L := by
    intro k hk t ht y
    obtain ⟨t1, t2⟩ := htime k hk
    have ht' : t + k * δ ∈ Icc 0 T := by
      rcases ht with rfl | ht
      · exact ⟨by linarith, by linarith⟩
      · rw [mem_singleton_iff.mp ht]
        exact ⟨by linarith, by linarith⟩
    have hvd : Differentiable ℝ fun x => vf k x t := (hdiff (t + k * δ) ht').add (differentiable_const _)
    refine jac_norm_le hL hvd (fun x y => ?_) y
    have e : vf k x t - vf k y t = f x (t + k * δ) - f y (t + k * δ) := by
      show f x (t + k * δ) + _ - (f y (t + k * δ) + _) = _
      rw [add_sub_add_right_eq_sub]
    rw [e]
    exact hlip x y _ ht'
  obtain ⟨y, hy⟩ : ∃ y : ℕ → Vec d, ∀ k, y k = (alg3Path vf δ x0 k).1 := ⟨_, fun _ => rfl⟩
  obtain ⟨p, hp⟩ : ∃ p : ℕ → Mat d d, ∀ k, p k = (alg3Path vf δ x0 k).2 := ⟨_, fun _ => rfl⟩
  obtain ⟨J0, hJ0⟩ : ∃ J : ℕ → Mat d d, ∀ k, J k = jac (fun x => vf k x 0) (y k) := ⟨_, fun _ => rfl⟩
  obtain ⟨J1, hJ1⟩ : ∃ J : ℕ → Mat d d, ∀ k, J k = jac (fun x => vf k x δ) (y k + δ • vf k (y k) 0) := ⟨_, fun _ => rfl⟩
  have hn0 : ∀ k < N, ‖J0 k‖ ≤ L := fun k hk => by rw [hJ0]; exact hjac k hk 0 (by simp) _
  have hn1 : ∀ k < N, ‖J1 k‖ ≤ L := fun k hk => by rw [hJ1]; exact hjac k hk δ (by simp) _
  have hpp := hpath hN0 hN hδ hNδ (p := p) (J0 := J0) (J1 := J1) (by rw [hp]; rfl) (fun k _ => by
    rw [hp, hp, hJ0, hJ1, hy]; rfl) hn0 hn1
  have hys : ∀ k < N, ‖y (k + 1) - x0‖ ≤ (1 + Cg * δ) * ‖y k - x0‖ + Cg * (δ + (‖a k‖ + ‖b k‖)) := by
    intro k hk
    have h1 := (hgr hδ (htime k hk).1 (htime k hk).2 (a k) (b k) (y k) (alg3K δ (J0 k) (J1 k) (p k))
      (hsz hδ hδT (hpp k hk.le).1 (hn0 k hk) (hn1 k hk) (hpp k hk.le).2.1).1).1
    refine le_trans (le_of_eq ?_) h1
    rw [hy (k + 1), hp, hJ0, hJ1, hy]
    rfl
  obtain ⟨Y, hY⟩ : ∃ Y, Y = ∑ k ∈ Finset.range N, (‖a k‖ + ‖b k‖) := ⟨_, rfl⟩
  obtain ⟨Q, hQ⟩ : ∃ Q, Q = ∑ k ∈ Finset.range N, (‖a k‖ + ‖b k‖) ^ 2 := ⟨_, rfl⟩
  have hY0 : 0 ≤ Y := by rw [hY]; positivity
  have hQ0 : 0 ≤ Q := by rw [hQ]; positivity
  have hYQ : Y ^ 2 ≤ N * Q := by
    have := sq_sum_le_card_mul_sum_sq (s := Finset.range N) (f := fun k => ‖a k‖ + ‖b k‖)
    rwa [Finset.card_range, ← hY, ← hQ] at this
  have hr : ∀ n ≤ N, ‖y n - x0‖ ≤ B * (1 + Y) := by
    intro n hn
    have h1 := discrete_gronwall (e := fun k => ‖y k - x0‖) (l := fun k => Cg * (δ + (‖a k‖ + ‖b k‖))) (mul_nonneg hCg hδ.le) N
      (fun k _ => by positivity) (by simp [hy, alg3Path]) hys n hn
    have h2 : Real.exp (Cg * δ * n) ≤ Real.exp (Cg * T) := by
      refine Real.exp_le_exp.mpr ?_
      rw [← hNδ]
      have : (n : ℝ) ≤ N := by exact_mod_cast hn
      calc Cg * δ * n ≤ Cg * δ * N := by gcongr
        _ = _ := by ring
    have h3 : ∑ k ∈ Finset.range n, Cg * (δ + (‖a k‖ + ‖b k‖)) ≤ Cg * (T + Y) := by
      refine (Finset.sum_le_sum_of_subset_of_nonneg (Finset.range_subset_range.mpr hn) fun _ _ _ => by positivity).trans (le_of_eq ?_)
      rw [← Finset.mul_sum, Finset.sum_add_distrib, ← hY, Finset.sum_const, Finset.card_range, nsmul_eq_mul, hNδ]
    refine h1.trans ((mul_le_mul h2 h3 (Finset.sum_nonneg fun _ _ => by positivity) (Real.exp_pos _).le).trans ?_)
    rw [hB, mul_assoc, mul_assoc]
    refine mul_le_mul_of_nonneg_left (mul_le_mul_of_nonneg_left ?_ hCg) (Real.exp_pos _).le
    nlinarith
  refine ⟨fun n hn v => by rw [← hp]; exact (hpp n hn).2.2 v, ?_⟩
  have hz : ∀ k < N, 12 * ((S *ᵥ b k) ⬝ᵥ (S *ᵥ b k)) / δ ^ 2 - 3 * d * Γ ^ 2 * (δ ^ 2 + δ ^ 2 * Y ^ 2 + (‖a k‖ + ‖b k‖) ^ 2) ≤
      alg3Z (vf k) δ (y k) ⬝ᵥ alg3Z (vf k) δ (y k) := by
    intro k hk
    have h1 := (hgr hδ (htime k hk).1 (htime k hk).2 (a k) (b k) (y k) (alg3K δ (J0 k) (J1 k) (p k))
      (hsz hδ hδT (hpp k hk.le).1 (hn0 k hk) (hn1 k hk) (hpp k hk.le).2.1).1).2
    obtain ⟨z, hz⟩ : ∃ z, z = alg3Z (vf k) δ (y k) := ⟨_, rfl⟩
    obtain ⟨n, hn⟩ : ∃ n, n = (2 * √6 / δ) • S *ᵥ b k := ⟨_, rfl⟩
    obtain ⟨e, he⟩ : ∃ e, e = ‖a k‖ + ‖b k‖ := ⟨_, rfl⟩
    have he0 : 0 ≤ e := by rw [he]; positivity
    change ‖alg3Z (vf k) δ (y k) - (2 * √6 / δ) • S *ᵥ b k‖ ≤ _ at h1
    rw [← hz, ← hn, ← he] at h1
    rw [← hz, ← he]
    have h2 : ‖z - n‖ ≤ Γ * (δ * (1 + Y) + e) := by
      refine h1.trans ?_
      have h3 := hr k hk.le
      rw [hΓ, mul_assoc]
      refine mul_le_mul_of_nonneg_left ?_ hCg
      have h4 : δ * (1 + ‖y k - x0‖) ≤ δ * (1 + B * (1 + Y)) := by gcongr
      have h5 : 0 ≤ δ * Y := by positivity
      have h6 : 0 ≤ B * e := by positivity
      linarith
    have h3 : ‖z - n‖ ^ 2 ≤ 3 * Γ ^ 2 * (δ ^ 2 + δ ^ 2 * Y ^ 2 + e ^ 2) := by
      refine (pow_le_pow_left₀ (norm_nonneg _) h2 2).trans ?_
      have h4 : (δ * (1 + Y) + e) ^ 2 ≤ 3 * (δ ^ 2 + δ ^ 2 * Y ^ 2 + e ^ 2) := by
        nlinarith [sq_nonneg (δ - δ * Y), sq_nonneg (δ - e), sq_nonneg (δ * Y - e)]
      rw [mul_pow]
      calc Γ ^ 2 * (δ * (1 + Y) + e) ^ 2 ≤ Γ ^ 2 * (3 * (δ ^ 2 + δ ^ 2 * Y ^ 2 + e ^ 2)) := by gcongr
        _ = _ := by ring
    have h4 : n ⬝ᵥ n = 24 * ((S *ᵥ b k) ⬝ᵥ (S *ᵥ b k)) / δ ^ 2 := by
      rw [hn, smul_dotProduct, dotProduct_smul, smul_eq_mul, smul_eq_mul]
      have h6 : √6 * √6 = 6 := Real.mul_self_sqrt (by norm_num)
      have : 2 * √6 / δ * (2 * √6 / δ) = 24 / δ ^ 2 := by
        rw [div_mul_div_comm, show 2 * √6 * (2 * √6) = 4 * (√6 * √6) by ring, h6]
        ring
      rw [← mul_assoc, this]
      ring
    have h5 : n ⬝ᵥ n ≤ 2 * (z ⬝ᵥ z) + 2 * ((z - n) ⬝ᵥ (z - n)) := by
      have h6 : 0 ≤ (z + (z - n)) ⬝ᵥ (z + (z - n)) := (sq_nonneg _).trans (norm_sq_le_dot _)
      simp only [add_dotProduct, dotProduct_add, sub_dotProduct, dotProduct_sub] at h6 ⊢
      rw [dotProduct_comm n z] at h6 ⊢
      linarith
    have h6 := dot_self_le_norm (z - n)
    have h7 : d * ‖z - n‖ ^ 2 ≤ d * (3 * Γ ^ 2 * (δ ^ 2 + δ ^ 2 * Y ^ 2 + e ^ 2)) := by gcongr
    have h8 : 12 * ((S *ᵥ b k) ⬝ᵥ (S *ᵥ b k)) / δ ^ 2 = (n ⬝ᵥ n) / 2 := by rw [h4]; ring
    rw [h8]
    linarith
  have hmah : ∀ k < N, (alg3Z (vf k) δ (y k) ⬝ᵥ alg3Z (vf k) δ (y k)) / (d * κ) ≤
      δ * (alg3Z (vf k) δ (alg3Path vf δ x0 k).1 ⬝ᵥ (alg3PathS vf δ x0 k)⁻¹ *ᵥ alg3Z (vf k) δ (alg3Path vf δ x0 k).1) := by
    intro k hk
    have h1 := mahalanobis_lower (alg3S_posDef hδ (J0 k) (J1 k) (hpp k hk.le).1) (by positivity)
      (hsz hδ hδT (hpp k hk.le).1 (hn0 k hk) (hn1 k hk) (hpp k hk.le).2.1).2.1 hd (alg3Z (vf k) δ (y k))
    have h2 := mul_le_mul_of_nonneg_left h1 hδ.le
    have e1 : alg3S δ (J0 k) (J1 k) (p k) = alg3PathS vf δ x0 k := by rw [hJ0, hJ1, hp, hy]; rfl
    rw [e1] at h2
    rw [← hy]
    refine le_trans (le_of_eq ?_) h2
    field_simp
  rw [Finset.mul_sum _ _ δ]
  refine le_trans ?_ (Finset.sum_le_sum fun k hk => hmah k (Finset.mem_range.mp hk))
  rw [← Finset.sum_div]
  have hsum := Finset.sum_le_sum fun k hk => hz k (Finset.mem_range.mp hk)
  rw [Finset.sum_sub_distrib, ← Finset.sum_div, ← Finset.mul_sum, ← Finset.mul_sum, Finset.sum_add_distrib, Finset.sum_const, Finset.card_range,
    nsmul_eq_mul, ← hQ] at hsum
  rw [← hQ]
  have e1 : N * (δ ^ 2 + δ ^ 2 * Y ^ 2) + Q ≤ (1 + T ^ 2) * (1 + Q) := by
    have q1 : N * δ ^ 2 ≤ T ^ 2 := by
      calc N * δ ^ 2 = N * δ * δ := by ring
        _ = T * δ := by rw [hNδ]
        _ ≤ T * T := by gcongr
        _ = _ := by ring
    have q2 : N * (δ ^ 2 * Y ^ 2) ≤ T ^ 2 * Q := by
      calc N * (δ ^ 2 * Y ^ 2) ≤ N * (δ ^ 2 * (N * Q)) := by gcongr
        _ = (N * δ) ^ 2 * Q := by ring
        _ = _ := by rw [hNδ]
    linarith
  have e2 : 3 * d * Γ ^ 2 * (N * (δ ^ 2 + δ ^ 2 * Y ^ 2) + Q) ≤ 3 * d * Γ ^ 2 * ((1 + T ^ 2) * (1 + Q)) := by gcongr
  rw [le_div_iff₀ (by positivity)]
  refine le_trans (le_of_eq ?_) ((sub_le_sub_left e2 _).trans hsum)
  field_simp

end Verif
