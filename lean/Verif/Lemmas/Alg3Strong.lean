import Verif.Lemmas.Alg3Bounds
import Verif.Lemmas.MartPert
import Verif.Lemmas.TrapConsist
import Verif.Props.DrawOrder1

/-! Helper lemmas: strong convergence of Algorithm 3 with EKF1 and one filter step. -/

namespace Verif

open Matrix Spec Jnp Set MeasureTheory ProbabilityTheory Filter
open scoped NNReal ENNReal Matrix.Norms.Operator

variable {d m : ℕ}

/-! ## Measurable matrices -/

/-- The entries are measurable. -/
def MeasMat {α : Type*} [MeasurableSpace α] {n k : ℕ} (A : α → Mat n k) : Prop := ∀ i j, Measurable fun z => A z i j

section meas

variable {α : Type*} [MeasurableSpace α] {n k l : ℕ}

theorem MeasMat.const (A : Mat n k) : MeasMat fun _ : α => A := fun _ _ => measurable_const

theorem MeasMat.add {A B : α → Mat n k} (hA : MeasMat A) (hB : MeasMat B) : MeasMat fun z => A z + B z := fun i j => (hA i j).add (hB i j)

theorem MeasMat.sub {A B : α → Mat n k} (hA : MeasMat A) (hB : MeasMat B) : MeasMat fun z => A z - B z := fun i j => (hA i j).sub (hB i j)

theorem MeasMat.smul {A : α → Mat n k} (c : ℝ) (hA : MeasMat A) : MeasMat fun z => c • A z := fun i j => (hA i j).const_mul c

theorem MeasMat.transpose {A : α → Mat n k} (hA : MeasMat A) : MeasMat fun z => (A z)ᵀ := fun i j => hA j i

theorem MeasMat.mul {A : α → Mat n k} {B : α → Mat k l} (hA : MeasMat A) (hB : MeasMat B) : MeasMat fun z => A z * B z := fun i j => by
  simp only [mul_apply]
  exact Finset.measurable_fun_sum _ fun r _ => (hA i r).mul (hB r j)

theorem MeasMat.det {A : α → Mat n n} (hA : MeasMat A) : Measurable fun z => (A z).det := by
  simp only [det_apply]
  refine Finset.measurable_fun_sum _ fun σ _ => ?_
  have h : Measurable fun z => ∏ i, A z (σ i) i := Finset.measurable_fun_prod _ fun i _ => hA _ _
  exact h.const_smul _

theorem MeasMat.inv {A : α → Mat n n} (hA : MeasMat A) : MeasMat fun z => (A z)⁻¹ := fun i j => by
  simp only [inv_def, Ring.inverse_eq_inv', Matrix.smul_apply, smul_eq_mul, adjugate_apply]
  refine hA.det.inv.mul (MeasMat.det fun r s => ?_)
  by_cases h : r = j
  · subst h
    simp only [updateRow_self]
    exact measurable_const
  · simp only [updateRow_ne h]
    exact hA r s

theorem MeasMat.mulVec {A : α → Mat n k} {v : α → Vec k} (hA : MeasMat A) (hv : Measurable v) : Measurable fun z => A z *ᵥ v z := by
  refine measurable_pi_lambda _ fun i => ?_
  simp only [Matrix.mulVec, dotProduct]
  exact Finset.measurable_fun_sum _ fun j _ => (hA i j).mul ((measurable_pi_apply j).comp hv)

theorem MeasMat.comp {β : Type*} [MeasurableSpace β] {A : α → Mat n k} (hA : MeasMat A) {g : β → α} (hg : Measurable g) : MeasMat fun z => A (g z) :=
  fun i j => (hA i j).comp hg

theorem measMat_alg3K {h : ℝ} {J0 J1 p : α → Mat n n} (h0 : MeasMat J0) (h1 : MeasMat J1) (hp : MeasMat p) :
    MeasMat (fun z => alg3S h (J0 z) (J1 z) (p z)) ∧ MeasMat (fun z => alg3K h (J0 z) (J1 z) (p z)) ∧ MeasMat fun z => alg3P h (J0 z) (J1 z) (p z) := by
  have hF : MeasMat fun z => alg3F h (J0 z) := (MeasMat.const 1).add (h0.smul h)
  have hE : MeasMat fun z => alg3E h (J0 z) (J1 z) := h0.sub (h1.mul hF)
  have hS : MeasMat fun z => alg3S h (J0 z) (J1 z) (p z) := ((hE.mul hp).mul hE.transpose).add
    ((((MeasMat.const 1).sub ((h1.add h1.transpose).smul _)).add ((h1.mul h1.transpose).smul _)).smul _)
  have hG : MeasMat fun z => alg3G h (J0 z) (J1 z) (p z) := (((hF.mul hp).mul hE.transpose).add ((MeasMat.const 1).smul _)).sub (h1.transpose.smul _)
  have hK : MeasMat fun z => alg3K h (J0 z) (J1 z) (p z) := hG.mul hS.inv
  exact ⟨hS, hK, (((hF.mul hp).mul hF.transpose).add ((MeasMat.const 1).smul _)).sub ((hK.mul hS).mul hK.transpose)⟩

end meas

/-! ## The scheme -/

/-- The Jacobian at the mean. -/
noncomputable def alg3J0 (f : Vec d → ℝ → Vec d) (a0 : ℝ) (y : Vec d) : Mat d d := jac (fun x => f x a0) y

/-- The Jacobian at the prediction without the noise. -/
noncomputable def alg3J1 (f : Vec d → ℝ → Vec d) (a0 δ : ℝ) (y : Vec d) : Mat d d := jac (fun x => f x (δ + a0)) (y + δ • f y a0)

/-- One interval of Algorithm 3 with EKF1 and one filter step, for a field whose Jacobian does not change along the noise: the mean, and
the covariance in units of the prior. -/
noncomputable def alg3Step (f : Vec d → ℝ → Vec d) (S : Mat d m) (a0 δ : ℝ) (e : Vec d × (Fin d → Fin d → ℝ)) (a b : Vec m) :
    Vec d × (Fin d → Fin d → ℝ) :=
  (alg3Mean (additiveField f S a0 δ a b) δ (alg3J0 f a0 e.1) (alg3J1 f a0 δ e.1) (of e.2) e.1,
    fun i j => alg3P δ (alg3J0 f a0 e.1) (alg3J1 f a0 δ e.1) (of e.2) i j)

theorem alg3P_psd {h : ℝ} (hh : 0 < h) (J0 J1 : Mat d d) {p : Mat d d} (hp : p.PosSemidef) : (alg3P h J0 J1 p).PosSemidef := by
  obtain ⟨la, hla⟩ := exists_correct_linAlg
  have hlin : ∀ (A : Mat d d) (x : Vec d), HasFDerivAt (fun z => A *ᵥ z) (LinearMap.toContinuousLinearMap (Matrix.toLin' A)) x := fun A x => by
    have := (LinearMap.toContinuousLinearMap (Matrix.toLin' A)).hasFDerivAt (x := x)
    exact this
  have hj : ∀ (A : Mat d d) (x : Vec d), jac (fun z => A *ᵥ z) x = A := fun A x => by
    rw [jac_eq_toMatrix (hlin A x)]
    exact LinearMap.toMatrix'_toLin' A
  have h := (ekf2_one hla (fun z t => if t = 0 then J0 *ᵥ z else J1 *ᵥ z) (σ := 1) one_ne_zero hh
    (by simp only [if_true]; exact fun x => (hlin J0 x).differentiableAt)
    (by simp only [if_neg hh.ne']; exact fun x => (hlin J1 x).differentiableAt) hp 0 false).1
  simp only [if_true, if_neg hh.ne', hj] at h
  exact h

/-- The covariances of a run. -/
theorem alg3_cov (d : ℕ) {L T : ℝ} (hL : 0 ≤ L) (hT : 0 ≤ T) : ∃ τ : ℝ, 0 ≤ τ ∧ ∀ {N : ℕ}, 0 < N → ∀ {δ : ℝ}, 0 < δ → N * δ = T →
    ∀ {p J0 J1 : ℕ → Mat d d}, p 0 = 0 → (∀ k < N, p (k + 1) = alg3P δ (J0 k) (J1 k) (p k)) → (∀ k < N, ‖J0 k‖ ≤ L) →
      ∀ n ≤ N, (p n).PosSemidef ∧ (p n).trace ≤ τ * δ ^ 2 := by
  obtain ⟨C, hC, htr⟩ := alg3_trace d hL hT
  refine ⟨Real.exp (C * T) * (T * (d / 3)), by positivity, ?_⟩
  intro N hN δ hδ hNδ p J0 J1 hp0 hps hJ n hn
  have hN1 : (1 : ℝ) ≤ N := by exact_mod_cast hN
  have hδT : δ ≤ T := by rw [← hNδ]; nlinarith
  have hpsd : ∀ n ≤ N, (p n).PosSemidef := by
    intro n
    induction n with
    | zero => exact fun _ => by rw [hp0]; exact PosSemidef.zero
    | succ n ih => exact fun hn => by rw [hps n hn]; exact alg3P_psd hδ _ _ (ih (by omega))
  refine ⟨hpsd n hn, ?_⟩
  have h := discrete_gronwall (e := fun k => (p k).trace) (l := fun _ => d * δ ^ 3 / 3) (q := C * δ) (by positivity) N
    (fun _ _ => by positivity) (by simp [hp0]) (fun k hk => by
      show (p (k + 1)).trace ≤ _
      rw [hps k hk]
      exact htr hδ hδT (hpsd k hk.le) (hJ k hk)) n hn
  have hnδ : (n : ℝ) * δ ≤ T := by
    rw [← hNδ]
    exact mul_le_mul_of_nonneg_right (by exact_mod_cast hn) hδ.le
  refine h.trans ?_
  rw [Finset.sum_const, Finset.card_range, nsmul_eq_mul]
  calc Real.exp (C * δ * n) * (n * (d * δ ^ 3 / 3)) ≤ Real.exp (C * T) * (n * (d * δ ^ 3 / 3)) := by
        refine mul_le_mul_of_nonneg_right (Real.exp_le_exp.mpr ?_) (by positivity)
        nlinarith
    _ = Real.exp (C * T) * ((n * δ) * (d / 3)) * δ ^ 2 := by ring
    _ ≤ _ := by gcongr

set_option maxHeartbeats 1000000 in
/-- A step of the trapezoidal scheme with another gain. -/
theorem gain_expansion {f : Vec d → ℝ → Vec d} {Df : Vec d → ℝ → Vec d →L[ℝ] Vec d} {T L K Lt c : ℝ} (hf : SmoothField f Df T L K)
    (hL : 0 ≤ L) (hLt : 0 ≤ Lt) (hT : 0 ≤ T) (hc : 0 ≤ c) (htl : TimeLipschitz f T Lt) {S : Mat d m} {s : ℝ} (hs0 : 0 ≤ s)
    (hS : ∀ v, ‖S *ᵥ v‖ ≤ s * ‖v‖) : ∃ C, 0 ≤ C ∧ ∀ {a0 δ : ℝ}, 0 < δ → 0 ≤ a0 → a0 + δ ≤ T → ∀ (a b : Vec m) (y : Vec d) (G : Mat d d),
      ‖G - (δ / 2) • 1‖ ≤ c * δ ^ 2 →
      ‖y + δ • additiveField f S a0 δ a b y 0 + G *ᵥ (additiveField f S a0 δ a b (y + δ • additiveField f S a0 δ a b y 0) δ -
          additiveField f S a0 δ a b y 0) - ((trapScheme (additiveField f S a0 δ a b) δ y 1).1 +
          δ • ((-2 * Real.sqrt 6 / δ ^ 2) • ((G - (δ / 2) • 1) *ᵥ (S *ᵥ b))))‖ ≤
        δ * (C * (δ * (1 + ‖y‖ + ‖f y a0‖) ^ 2 + (‖a‖ + 4 * ‖b‖) ^ 2)) ∧
      ‖y + δ • additiveField f S a0 δ a b y 0 + G *ᵥ (additiveField f S a0 δ a b (y + δ • additiveField f S a0 δ a b y 0) δ -
          additiveField f S a0 δ a b y 0) - y - S *ᵥ a‖ ≤ δ * (C * (1 + ‖y‖ + (‖a‖ + 4 * ‖b‖))) := by
  obtain ⟨F0, hF0⟩ := isCompact_Icc.exists_bound_of_continuousOn (s := Icc 0 T) (f := fun t => f 0 t)
    (hf.cont.comp (by fun_prop : Continuous fun t : ℝ => ((0 : Vec d), t))).continuousOn
  have hF00 : 0 ≤ F0 := (norm_nonneg _).trans (hF0 0 ⟨le_rfl, hT⟩)
  obtain ⟨C', hC'⟩ : ∃ C', C' = c * (L + Lt) * T + c * L * s * (T + 1) := ⟨_, rfl⟩
  have hC'0 : 0 ≤ C' := by rw [hC']; positivity
  obtain ⟨g1, hg1⟩ : ∃ g1, g1 = L * (T * (F0 + L) + s) + Lt * T := ⟨_, rfl⟩
  have hg10 : 0 ≤ g1 := by rw [hg1]; positivity
  obtain ⟨C'', hC''⟩ : ∃ C'', C'' = (F0 + L) + (1 / 2 + c * T) * g1 + 5 * c * s := ⟨_, rfl⟩
  have hC''0 : 0 ≤ C'' := by rw [hC'']; positivity
  refine ⟨C' + C'', by positivity, ?_⟩
  intro a0 δ hδ ha haδ a b y G hG
  have hδT : δ ≤ T := by linarith
  have ha0 : a0 ∈ Icc 0 T := ⟨ha, by linarith⟩
  have hδ0 : δ + a0 ∈ Icc 0 T := ⟨by linarith, by linarith⟩
  obtain ⟨q, hq⟩ : ∃ q, q = ‖a‖ + 4 * ‖b‖ := ⟨_, rfl⟩
  have hq0 : 0 ≤ q := by rw [hq]; positivity
  obtain ⟨H, hH⟩ : ∃ H, H = 1 + ‖y‖ + ‖f y a0‖ := ⟨_, rfl⟩
  have hny := norm_nonneg y
  have hnf := norm_nonneg (f y a0)
  have hH1 : 1 ≤ H := by linarith
  rw [← hq, ← hH]
  have h6 : Real.sqrt 6 ≤ 5 / 2 := by rw [Real.sqrt_le_left (by norm_num)]; norm_num
  have h60 : 0 ≤ Real.sqrt 6 := Real.sqrt_nonneg _
  have hbq : ‖b‖ ≤ q := by rw [hq]; linarith [norm_nonneg a, norm_nonneg b]
  have hp0 : δ • jacT (fun s => Foster.evalParabola s δ a b) 0 = a + Real.sqrt 6 • b := by
    rw [jacT_evalParabola]
    funext j
    simp only [Pi.smul_apply, Pi.add_apply, smul_eq_mul]
    field_simp
    ring
  have hpd : δ • jacT (fun s => Foster.evalParabola s δ a b) δ = a - Real.sqrt 6 • b := by
    rw [jacT_evalParabola]
    funext j
    simp only [Pi.smul_apply, Pi.sub_apply, smul_eq_mul]
    field_simp
    ring
  obtain ⟨vf, hvf⟩ : ∃ vf, vf = additiveField f S a0 δ a b := ⟨_, rfl⟩
  rw [← hvf]
  obtain ⟨z, hz⟩ : ∃ z, z = y + δ • vf y 0 := ⟨_, rfl⟩
  have hv0 : δ • vf y 0 = δ • f y a0 + S *ᵥ (a + Real.sqrt 6 • b) := by
    rw [hvf, ← hp0, mulVec_smul, ← smul_add]
    simp only [additiveField, zero_add]
  have hv1 : δ • vf z δ = δ • f z (δ + a0) + S *ᵥ (a - Real.sqrt 6 • b) := by
    rw [hvf, ← hpd, mulVec_smul, ← smul_add]
    simp only [additiveField]
  obtain ⟨g, hg⟩ : ∃ g, g = f z (δ + a0) - f y a0 := ⟨_, rfl⟩
  have hu : vf z δ - vf y 0 = g + (-2 * Real.sqrt 6 / δ) • (S *ᵥ b) := by
    have h1 : δ • (vf z δ - vf y 0) = δ • (g + (-2 * Real.sqrt 6 / δ) • (S *ᵥ b)) := by
      rw [smul_sub, hv0, hv1, hg, mulVec_add, mulVec_sub, mulVec_smul, smul_add, smul_smul, mul_div_cancel₀ _ hδ.ne']
      module
    exact smul_right_injective _ hδ.ne' h1
  have hzy : z - y = δ • f y a0 + S *ᵥ (a + Real.sqrt 6 • b) := by rw [hz, hv0]; abel
  have hab : ‖a + Real.sqrt 6 • b‖ ≤ q := by
    refine (norm_add_le _ _).trans ?_
    rw [norm_smul, Real.norm_of_nonneg h60, hq]
    nlinarith [norm_nonneg b]
  have hzn : ‖z - y‖ ≤ δ * ‖f y a0‖ + s * q := by
    rw [hzy]
    refine (norm_add_le _ _).trans (add_le_add (by rw [norm_smul, Real.norm_of_nonneg hδ.le]) ?_)
    exact (hS _).trans (mul_le_mul_of_nonneg_left hab hs0)
  have hgn : ‖g‖ ≤ L * (δ * ‖f y a0‖ + s * q) + Lt * (1 + ‖y‖) * δ := by
    have h1 : g = (f z (δ + a0) - f y (δ + a0)) + (f y (δ + a0) - f y a0) := by rw [hg]; abel
    rw [h1]
    refine (norm_add_le _ _).trans (add_le_add ((hf.lip _ _ _ hδ0).trans (mul_le_mul_of_nonneg_left hzn hL)) ?_)
    have := htl y _ hδ0 _ ha0
    rwa [add_sub_cancel_right, abs_of_pos hδ] at this
  obtain ⟨Γ, hΓ⟩ : ∃ Γ : Mat d d, Γ = G - (δ / 2) • 1 := ⟨_, rfl⟩
  have hGΓ : ∀ v, G *ᵥ v = (δ / 2) • v + Γ *ᵥ v := fun v => by
    rw [hΓ, sub_mulVec, smul_mulVec, one_mulVec]
    abel
  rw [← hΓ] at hG ⊢
  have hΓn : ∀ v, ‖Γ *ᵥ v‖ ≤ c * δ ^ 2 * ‖v‖ := fun v => (linfty_opNorm_mulVec Γ v).trans (mul_le_mul_of_nonneg_right hG (norm_nonneg _))
  have htrap : (trapScheme vf δ y 1).1 = y + (δ / 2) • (vf y 0 + vf z δ) := by
    simp only [trapScheme_succ, trapScheme, Nat.cast_zero, zero_add, one_mul, hz]
  rw [← hz, hGΓ, htrap]
  constructor
  · have e : y + δ • vf y 0 + ((δ / 2) • (vf z δ - vf y 0) + Γ *ᵥ (vf z δ - vf y 0)) -
        (y + (δ / 2) • (vf y 0 + vf z δ) + δ • ((-2 * Real.sqrt 6 / δ ^ 2) • (Γ *ᵥ (S *ᵥ b)))) = Γ *ᵥ g := by
      have h1 : Γ *ᵥ (vf z δ - vf y 0) = Γ *ᵥ g + (-2 * Real.sqrt 6 / δ) • (Γ *ᵥ (S *ᵥ b)) := by rw [hu, mulVec_add, mulVec_smul]
      have h2 : δ • ((-2 * Real.sqrt 6 / δ ^ 2) • (Γ *ᵥ (S *ᵥ b))) = (-2 * Real.sqrt 6 / δ) • (Γ *ᵥ (S *ᵥ b)) := by
        rw [smul_smul]
        congr 1
        field_simp
      rw [h1, h2]
      module
    rw [← hz] at e
    rw [e]
    refine (hΓn g).trans ?_
    have h1 : ‖g‖ ≤ (L + Lt) * (δ * H) + L * s * q := by
      refine hgn.trans ?_
      have h2 : ‖f y a0‖ ≤ H := by linarith
      have h3 : 1 + ‖y‖ ≤ H := by linarith
      have h4 := mul_le_mul_of_nonneg_left h2 (mul_nonneg hL hδ.le)
      have h5 := mul_le_mul_of_nonneg_left h3 (mul_nonneg hLt hδ.le)
      linarith
    refine (mul_le_mul_of_nonneg_left h1 (by positivity)).trans ?_
    have hHH : H ≤ H ^ 2 := by nlinarith
    have h2 : δ * q ≤ (T + 1) * (δ * H ^ 2 + q ^ 2) := by
      have h3 : δ * q ≤ δ ^ 2 + q ^ 2 := by nlinarith [sq_nonneg (δ - q)]
      have h4 : δ ^ 2 ≤ T * (δ * H ^ 2) := by
        have : δ * δ ≤ T * (δ * H ^ 2) := by
          have h5 : δ ≤ δ * H ^ 2 := by nlinarith
          exact mul_le_mul hδT h5 hδ.le hT
        rwa [← sq] at this
      nlinarith [mul_nonneg hδ.le (sq_nonneg H), mul_nonneg hT (sq_nonneg q)]
    have h3 : δ * (δ * H) ≤ T * (δ * H ^ 2 + q ^ 2) := by
      have h4 : δ * H ≤ δ * H ^ 2 + q ^ 2 := by nlinarith [sq_nonneg q]
      exact mul_le_mul hδT h4 (by positivity) hT
    have h4 := mul_le_mul_of_nonneg_left h3 (mul_nonneg hc (add_nonneg hL hLt))
    have h5 := mul_le_mul_of_nonneg_left h2 (mul_nonneg (mul_nonneg hc hL) hs0)
    have h6' : c * δ * ((L + Lt) * (δ * H) + L * s * q) ≤ C' * (δ * H ^ 2 + q ^ 2) := by rw [hC']; linarith
    have h7 : C' * (δ * H ^ 2 + q ^ 2) ≤ (C' + C'') * (δ * H ^ 2 + q ^ 2) := mul_le_mul_of_nonneg_right (by linarith) (by positivity)
    calc c * δ ^ 2 * ((L + Lt) * (δ * H) + L * s * q) = δ * (c * δ * ((L + Lt) * (δ * H) + L * s * q)) := by ring
      _ ≤ _ := mul_le_mul_of_nonneg_left (h6'.trans h7) hδ.le
  · have e : y + δ • vf y 0 + ((δ / 2) • (vf z δ - vf y 0) + Γ *ᵥ (vf z δ - vf y 0)) - y - S *ᵥ a =
        δ • f y a0 + (δ / 2) • g + Γ *ᵥ g + (-2 * Real.sqrt 6 / δ) • (Γ *ᵥ (S *ᵥ b)) := by
      have h1 : Γ *ᵥ (vf z δ - vf y 0) = Γ *ᵥ g + (-2 * Real.sqrt 6 / δ) • (Γ *ᵥ (S *ᵥ b)) := by rw [hu, mulVec_add, mulVec_smul]
      have h2 : (δ / 2) • (vf z δ - vf y 0) = (δ / 2) • g - Real.sqrt 6 • (S *ᵥ b) := by
        rw [hu, smul_add, smul_smul, sub_eq_add_neg, ← neg_smul]
        congr 2
        field_simp
      rw [h1, h2, hv0, mulVec_add, mulVec_smul]
      abel
    rw [← hz] at e
    rw [e]
    obtain ⟨W, hW⟩ : ∃ W, W = 1 + ‖y‖ + q := ⟨_, rfl⟩
    rw [← hW]
    have hW1 : 1 + ‖y‖ ≤ W := by linarith
    have hqW : q ≤ W := by linarith
    have hW0 : 0 ≤ W := by linarith
    have hfy : ‖f y a0‖ ≤ (F0 + L) * W := by
      have h1 := hf.lip y 0 a0 ha0
      have h2 := hF0 a0 ha0
      have h3 : ‖f y a0‖ ≤ ‖f y a0 - f 0 a0‖ + ‖f 0 a0‖ := by
        have := norm_add_le (f y a0 - f 0 a0) (f 0 a0)
        rwa [sub_add_cancel] at this
      rw [sub_zero] at h1
      nlinarith
    have hgW : ‖g‖ ≤ g1 * W := by
      refine hgn.trans ?_
      have h1 : δ * ‖f y a0‖ ≤ T * ((F0 + L) * W) := mul_le_mul hδT hfy hnf hT
      have h2 : s * q ≤ s * W := mul_le_mul_of_nonneg_left hqW hs0
      have h3 : Lt * (1 + ‖y‖) * δ ≤ Lt * W * T := mul_le_mul (mul_le_mul_of_nonneg_left hW1 hLt) hδT hδ.le (by positivity)
      have h4 := mul_le_mul_of_nonneg_left (add_le_add h1 h2) hL
      rw [hg1]
      linarith
    have n1 : ‖δ • f y a0‖ ≤ δ * ((F0 + L) * W) := by
      rw [norm_smul, Real.norm_of_nonneg hδ.le]
      exact mul_le_mul_of_nonneg_left hfy hδ.le
    have n2 : ‖(δ / 2) • g‖ ≤ δ * (1 / 2 * (g1 * W)) := by
      rw [norm_smul, Real.norm_of_nonneg (by positivity)]
      have := mul_le_mul_of_nonneg_left hgW hδ.le
      linarith
    have n3 : ‖Γ *ᵥ g‖ ≤ δ * (c * T * (g1 * W)) := by
      refine (hΓn g).trans ?_
      calc c * δ ^ 2 * ‖g‖ = δ * (c * δ * ‖g‖) := by ring
        _ ≤ δ * (c * T * (g1 * W)) := by gcongr
    have n4 : ‖(-2 * Real.sqrt 6 / δ) • (Γ *ᵥ (S *ᵥ b))‖ ≤ δ * (5 * c * s * W) := by
      rw [norm_smul, Real.norm_eq_abs, abs_div, abs_mul, abs_neg, abs_of_pos hδ, abs_of_nonneg h60, abs_of_pos (by norm_num : (0 : ℝ) < 2)]
      have h1 : ‖Γ *ᵥ (S *ᵥ b)‖ ≤ c * δ ^ 2 * (s * W) := (hΓn _).trans
        (mul_le_mul_of_nonneg_left ((hS b).trans (mul_le_mul_of_nonneg_left (hbq.trans hqW) hs0)) (by positivity))
      calc 2 * Real.sqrt 6 / δ * ‖Γ *ᵥ (S *ᵥ b)‖ ≤ 2 * (5 / 2) / δ * (c * δ ^ 2 * (s * W)) := by gcongr
        _ = δ * (5 * c * s * W) := by field_simp
    have n5 : δ * (C'' * W) ≤ δ * ((C' + C'') * W) := by gcongr; linarith
    refine (norm_add_le _ _).trans ((add_le_add ((norm_add_le _ _).trans (add_le_add ((norm_add_le _ _).trans (add_le_add n1 n2)) n3)) n4).trans ?_)
    refine le_trans (le_of_eq ?_) n5
    rw [hC'']
    ring

theorem norm_toMatrix (A : Vec d →L[ℝ] Vec d) : ‖LinearMap.toMatrix' (A : Vec d →ₗ[ℝ] Vec d)‖ = ‖A‖ := linfty_opNorm_toMatrix A

theorem alg3J0_eq {f : Vec d → ℝ → Vec d} {a0 : ℝ} {y : Vec d} {A : Vec d →L[ℝ] Vec d} (h : HasFDerivAt (fun x => f x a0) A y) :
    alg3J0 f a0 y = LinearMap.toMatrix' (A : Vec d →ₗ[ℝ] Vec d) := jac_eq_toMatrix h

theorem alg3J1_eq {f : Vec d → ℝ → Vec d} {a0 δ : ℝ} {y : Vec d} {A : Vec d →L[ℝ] Vec d}
    (h : HasFDerivAt (fun x => f x (δ + a0)) A (y + δ • f y a0)) : alg3J1 f a0 δ y = LinearMap.toMatrix' (A : Vec d →ₗ[ℝ] Vec d) := jac_eq_toMatrix h

/-- The step is measurable. -/
theorem measMat_alg3J {f : Vec d → ℝ → Vec d} (hf : Continuous (Function.uncurry f)) {a0 δ : ℝ} {D0 D1 : Vec d → Vec d →L[ℝ] Vec d}
    (hD0 : ∀ x, HasFDerivAt (fun z => f z a0) (D0 x) x) (hD0c : Continuous D0) (hD1 : ∀ x, HasFDerivAt (fun z => f z (δ + a0)) (D1 x) x)
    (hD1c : Continuous D1) : MeasMat (alg3J0 f a0) ∧ MeasMat (alg3J1 f a0 δ) := by
  constructor
  · intro i j
    simp only [fun y => alg3J0_eq (hD0 y), LinearMap.toMatrix'_apply, ContinuousLinearMap.coe_coe]
    exact ((continuous_apply i).comp (hD0c.clm_apply continuous_const)).measurable
  · intro i j
    simp only [fun y => alg3J1_eq (a0 := a0) (hD1 (y + δ • f y a0)), LinearMap.toMatrix'_apply, ContinuousLinearMap.coe_coe]
    have h1 : Continuous fun y : Vec d => y + δ • f y a0 := continuous_id.add ((hf.comp (by fun_prop : Continuous fun y : Vec d => (y, a0))).const_smul δ)
    exact ((continuous_apply i).comp ((hD1c.comp h1).clm_apply continuous_const)).measurable

theorem measurable_alg3Step {f : Vec d → ℝ → Vec d} (hf : Continuous (Function.uncurry f)) (S : Mat d m) {a0 δ : ℝ} {D0 D1 : Vec d → Vec d →L[ℝ] Vec d}
    (hD0 : ∀ x, HasFDerivAt (fun z => f z a0) (D0 x) x) (hD0c : Continuous D0) (hD1 : ∀ x, HasFDerivAt (fun z => f z (δ + a0)) (D1 x) x)
    (hD1c : Continuous D1) : Measurable fun z : (Vec d × (Fin d → Fin d → ℝ)) × Vec m × Vec m => alg3Step f S a0 δ z.1 z.2.1 z.2.2 := by
  obtain ⟨h0, h1⟩ := measMat_alg3J hf hD0 hD0c hD1 hD1c
  have hy : Measurable fun z : (Vec d × (Fin d → Fin d → ℝ)) × Vec m × Vec m => z.1.1 := by fun_prop
  have hp : MeasMat fun z : (Vec d × (Fin d → Fin d → ℝ)) × Vec m × Vec m => (of z.1.2 : Mat d d) := fun i j => by
    simp only [of_apply]
    fun_prop
  obtain ⟨-, hK, hP⟩ := measMat_alg3K (h := δ) (h0.comp hy) (h1.comp hy) hp
  have hv : ∀ t, Continuous fun z : Vec d × Vec m × Vec m => additiveField f S a0 δ z.2.1 z.2.2 z.1 t := fun t => continuous_additiveField hf S a0 δ t
  have hsel : Continuous fun z : (Vec d × (Fin d → Fin d → ℝ)) × Vec m × Vec m => ((z.1.1, z.2.1, z.2.2) : Vec d × Vec m × Vec m) := by fun_prop
  have hv0 : Continuous fun z : (Vec d × (Fin d → Fin d → ℝ)) × Vec m × Vec m => additiveField f S a0 δ z.2.1 z.2.2 z.1.1 0 := (hv 0).comp hsel
  have hz : Continuous fun z : (Vec d × (Fin d → Fin d → ℝ)) × Vec m × Vec m => z.1.1 + δ • additiveField f S a0 δ z.2.1 z.2.2 z.1.1 0 :=
    (continuous_fst.comp continuous_fst).add (hv0.const_smul δ)
  have hv1 : Continuous fun z : (Vec d × (Fin d → Fin d → ℝ)) × Vec m × Vec m =>
      additiveField f S a0 δ z.2.1 z.2.2 (z.1.1 + δ • additiveField f S a0 δ z.2.1 z.2.2 z.1.1 0) δ :=
    (hv δ).comp (hz.prodMk (continuous_snd))
  refine Measurable.prodMk ?_ (measurable_pi_lambda _ fun i => measurable_pi_lambda _ fun j => hP i j)
  exact hz.measurable.add (hK.mulVec (hv1.sub hv0).measurable)

set_option maxHeartbeats 2000000 in
/-- Mean square error of the means, when the Jacobian changes slowly along the Euler step. -/
theorem alg3_strong {Ω : Type*} [MeasurableSpace Ω] {P : Measure Ω} {B : Fin m → ℝ≥0 → Ω → ℝ} (hB : IsBrownianVec B P) {f : Field d}
    {Df : Vec d → ℝ → Vec d →L[ℝ] Vec d} {T L K Lt η : ℝ} (hT : 0 < T) (hf : SmoothField f Df T L K) (htl : TimeLipschitz f T Lt) (hη : 0 ≤ η)
    (hJJ : ∀ x, ∀ s ∈ Icc 0 T, ∀ t ∈ Icc 0 T, s ≤ t → ‖Df (x + (t - s) • f x s) t - Df x s‖ ≤ η * (t - s)) (S : Mat d m) (x0 : Vec d)
    {X : Ω → ℝ → Vec d} (hX : ∀ᵐ ω ∂P, SolvesAdditive f S (fun t j => B j t.toNNReal ω) x0 T (X ω)) :
    ∃ A : ℝ, 0 ≤ A ∧ ∀ N : ℕ, 0 < N → ∀ a b : Ω → ℕ → Vec m,
      (∀ᵐ ω ∂P, ∀ k < N, SameEndAndArea (fun t => Foster.evalParabola t (T / N) (a ω k) (b ω k)) (fun t j => B j t.toNNReal ω)
        (k * (T / N)) (T / N)) →
      ∀ Y : ℕ → Ω → Vec d × (Fin d → Fin d → ℝ), (∀ ω, Y 0 ω = (x0, 0)) →
      (∀ k < N, ∀ ω, Y (k + 1) ω = alg3Step f S (k * (T / N)) (T / N) (Y k ω) (a ω k) (b ω k)) →
      ∀ n ≤ N, Integrable (fun ω => ‖X ω (n * (T / N)) - (Y n ω).1‖ ^ 2) P ∧
        ∫ ω, ‖X ω (n * (T / N)) - (Y n ω).1‖ ^ 2 ∂P ≤ A * (T / N) ^ 2 := by
  wlog hL : 0 ≤ L generalizing L
  · refine this (L := 0) ⟨hf.cont, fun x y t ht => (hf.lip x y t ht).trans ?_, hf.deriv, hf.jac⟩ le_rfl
    exact mul_le_mul_of_nonneg_right (not_le.mp hL).le (norm_nonneg _)
  wlog hLt : 0 ≤ Lt generalizing Lt
  · refine this (Lt := 0) (fun x s hs t ht => (htl x s hs t ht).trans ?_) le_rfl
    refine mul_le_mul_of_nonneg_right (mul_le_mul_of_nonneg_right (not_le.mp hLt).le ?_) (abs_nonneg _)
    positivity
  have hK := hf.jac_const_nonneg hT
  obtain ⟨s, hs, hS⟩ := exists_mulVec_bound S
  obtain ⟨τ, hτ, hcov⟩ := alg3_cov d hL hT.le
  obtain ⟨c, hc, hgain⟩ := alg3_gain d hL hT.le hη hτ
  obtain ⟨C1, hC1, hcons⟩ := trap_expansion hf hL hK hLt hT.le htl hs hS
  obtain ⟨C2, hC2, hexp⟩ := gain_expansion hf hL hLt hT.le hc htl hs hS
  obtain ⟨A, hA0, hA⟩ := strong_mart_adapted hB hT hf hL hLt htl S x0 hX (C0 := L * Real.exp (3 * L / 2 * T) * (1 + L * T)) (by positivity)
    (add_nonneg hC1 hC2) hC2 (by norm_num : (0 : ℝ) ≤ 4) (mul_nonneg (by norm_num : (0 : ℝ) ≤ 5) hc)
  refine ⟨A, hA0, ?_⟩
  intro N hN a b hm Y hY0 hYs n hn
  have hN' : (0 : ℝ) < N := by exact_mod_cast hN
  obtain ⟨δ, hδdef⟩ : ∃ δ, δ = T / N := ⟨_, rfl⟩
  have hA' := hA N hN (lam := 1 / 2) (mu := 1 / Real.sqrt 6 + trapExcess 1)
  rw [← hδdef] at hm hYs hA' ⊢
  have hδ : 0 < δ := by rw [hδdef]; positivity
  have hNδ : (N : ℝ) * δ = T := by rw [hδdef]; field_simp
  have hkδ : ∀ k < N, (k : ℝ) * δ + δ ≤ T := fun k hk => by
    have : ((k + 1 : ℕ) : ℝ) * δ ≤ N * δ := mul_le_mul_of_nonneg_right (by exact_mod_cast hk) hδ.le
    rw [hNδ] at this
    push_cast at this
    linarith
  have hδT : δ ≤ T := by have := hkδ 0 hN; simpa using this
  have hkI : ∀ k < N, δ + (k : ℝ) * δ ∈ Icc 0 T := fun k hk => ⟨by positivity, by linarith [hkδ k hk]⟩
  have hkI0 : ∀ k < N, (k : ℝ) * δ ∈ Icc 0 T := fun k hk => ⟨by positivity, by linarith [hkδ k hk]⟩
  have hD0c : ∀ k < N, Continuous fun x => Df x (k * δ) := fun k hk => hf.continuous_jac hT (hkI0 k hk)
  have hD1c : ∀ k < N, Continuous fun x => Df x (δ + k * δ) := fun k hk => hf.continuous_jac hT (hkI k hk)
  have hJ0 : ∀ k < N, ∀ y, alg3J0 f (k * δ) y = LinearMap.toMatrix' (Df y (k * δ) : Vec d →ₗ[ℝ] Vec d) :=
    fun k hk y => alg3J0_eq (hf.deriv _ _ (hkI0 k hk))
  have hJ1 : ∀ k < N, ∀ y, alg3J1 f (k * δ) δ y = LinearMap.toMatrix' (Df (y + δ • f y (k * δ)) (δ + k * δ) : Vec d →ₗ[ℝ] Vec d) :=
    fun k hk y => alg3J1_eq (hf.deriv _ _ (hkI k hk))
  have hJ0n : ∀ k < N, ∀ y, ‖alg3J0 f (k * δ) y‖ ≤ L := fun k hk y => by
    rw [hJ0 k hk, norm_toMatrix]
    exact hf.norm_jac_le hL (hkI0 k hk) _
  have hJ1n : ∀ k < N, ∀ y, ‖alg3J1 f (k * δ) δ y‖ ≤ L := fun k hk y => by
    rw [hJ1 k hk, norm_toMatrix]
    exact hf.norm_jac_le hL (hkI k hk) _
  have hJd : ∀ k < N, ∀ y, ‖alg3J0 f (k * δ) y - alg3J1 f (k * δ) δ y‖ ≤ η * δ := fun k hk y => by
    have e : alg3J0 f (k * δ) y - alg3J1 f (k * δ) δ y = -LinearMap.toMatrix'
        ((Df (y + δ • f y (k * δ)) (δ + k * δ) - Df y (k * δ) : Vec d →L[ℝ] Vec d) : Vec d →ₗ[ℝ] Vec d) := by
      rw [hJ0 k hk, hJ1 k hk, ContinuousLinearMap.toLinearMap_sub, map_sub, neg_sub]
    rw [e, norm_neg, norm_toMatrix]
    have := hJJ y _ (hkI0 k hk) _ (hkI k hk) (by linarith)
    rwa [add_sub_cancel_right] at this
  have hps : ∀ ω, ∀ k ≤ N, (of (Y k ω).2 : Mat d d).PosSemidef ∧ (of (Y k ω).2 : Mat d d).trace ≤ τ * δ ^ 2 := fun ω =>
    hcov hN hδ hNδ (p := fun k => of (Y k ω).2) (J0 := fun k => alg3J0 f (k * δ) (Y k ω).1) (J1 := fun k => alg3J1 f (k * δ) δ (Y k ω).1)
      (by rw [hY0]; rfl) (fun k hk => by rw [hYs k hk]; rfl) (fun k hk => hJ0n k hk _)
  obtain ⟨Γ, hΓ⟩ : ∃ Γ : ℕ → Vec d × (Fin d → Fin d → ℝ) → Mat d d, ∀ k e, Γ k e =
    alg3K δ (alg3J0 f (k * δ) e.1) (alg3J1 f (k * δ) δ e.1) (of e.2) := ⟨_, fun _ _ => rfl⟩
  have hΓn : ∀ ω, ∀ k < N, ‖Γ k (Y k ω) - (δ / 2) • 1‖ ≤ c * δ ^ 2 := fun ω k hk => by
    rw [hΓ]
    exact hgain hδ hδT (hps ω k hk.le).1 (hJ0n k hk _) (hJ1n k hk _) (hJd k hk _) (hps ω k hk.le).2
  have hstep : ∀ ω, ∀ k < N, (Y (k + 1) ω).1 = (Y k ω).1 + δ • additiveField f S (k * δ) δ (a ω k) (b ω k) (Y k ω).1 0 +
      Γ k (Y k ω) *ᵥ (additiveField f S (k * δ) δ (a ω k) (b ω k) ((Y k ω).1 + δ • additiveField f S (k * δ) δ (a ω k) (b ω k) (Y k ω).1 0) δ -
        additiveField f S (k * δ) δ (a ω k) (b ω k) (Y k ω).1 0) := fun ω k hk => by
    rw [hYs k hk, hΓ]
    rfl
  -- adapted versions of the states
  obtain ⟨Φ, hΦ⟩ : ∃ Φ : ℕ → Vec d × (Fin d → Fin d → ℝ) → Vec m → Vec m → Vec d × (Fin d → Fin d → ℝ), ∀ k e a b, Φ k e a b =
    if k < N then alg3Step f S (k * δ) δ e a b else e := ⟨_, fun _ _ _ _ => rfl⟩
  have hΦm : ∀ k, Measurable fun p : (Vec d × (Fin d → Fin d → ℝ)) × Vec m × Vec m => Φ k p.1 p.2.1 p.2.2 := fun k => by
    simp only [hΦ]
    by_cases hk : k < N
    · simp only [if_pos hk]
      exact measurable_alg3Step hf.cont S (fun x => hf.deriv x _ (hkI0 k hk)) (hD0c k hk) (fun x => hf.deriv x _ (hkI k hk)) (hD1c k hk)
    · simp only [if_neg hk]
      exact measurable_fst
  have had : ∀ k, ∃ V : Ω → Vec d × (Fin d → Fin d → ℝ), k ≤ N → Measurable[pastAlg B (k * δ).toNNReal] V ∧ Y k =ᵐ[P] V := fun k => by
    by_cases hk : k ≤ N
    · obtain ⟨V, hV⟩ := scheme_adapted hB hδ N hΦm (Eventually.of_forall hY0) hm (Eventually.of_forall fun ω k hk => by
        rw [hΦ, if_pos hk]; exact hYs k hk ω) k hk
      exact ⟨V, fun _ => hV⟩
    · exact ⟨fun _ => 0, fun h => absurd h hk⟩
  choose V hV using had
  have hΓm : ∀ k < N, MeasMat (Γ k) := fun k hk => by
    obtain ⟨h0, h1⟩ := measMat_alg3J hf.cont (a0 := k * δ) (δ := δ) (fun x => hf.deriv x _ (hkI0 k hk)) (hD0c k hk)
      (fun x => hf.deriv x _ (hkI k hk)) (hD1c k hk)
    have h2 := (measMat_alg3K (h := δ) (h0.comp measurable_fst) (h1.comp measurable_fst)
      (p := fun e : Vec d × (Fin d → Fin d → ℝ) => (of e.2 : Mat d d)) (fun i j => by simp only [of_apply]; fun_prop)).2.1
    intro i j
    have e : (fun z => Γ k z i j) = fun z => alg3K δ (alg3J0 f (k * δ) z.1) (alg3J1 f (k * δ) δ z.1) (of z.2) i j := by
      funext z
      rw [hΓ]
    rw [e]
    exact h2 i j
  obtain ⟨D, hD⟩ : ∃ D : ℕ → Ω → Vec d →L[ℝ] Vec d, ∀ k ω v, D k ω v = (-2 * Real.sqrt 6 / δ ^ 2) • ((Γ k (V k ω) - (δ / 2) • 1) *ᵥ v) :=
    ⟨fun k ω => (-2 * Real.sqrt 6 / δ ^ 2) • LinearMap.toContinuousLinearMap (Matrix.toLin' (Γ k (V k ω) - (δ / 2) • 1)), fun k ω v => rfl⟩
  have hVae : ∀ᵐ ω ∂P, ∀ k ≤ N, Y k ω = V k ω := by
    rw [ae_all_iff]
    intro k
    by_cases hk : k ≤ N
    · filter_upwards [(hV k hk).2] with ω h _
      exact h
    · exact Eventually.of_forall fun ω h => absurd h hk
  have h6 : |1 / Real.sqrt 6| ≤ 1 := by
    rw [abs_of_pos (by positivity), div_le_one (by positivity)]
    exact Real.one_le_sqrt.mpr (by norm_num)
  have h65 : Real.sqrt 6 ≤ 5 / 2 := by rw [Real.sqrt_le_left (by norm_num)]; norm_num
  have hδ1 : δ / (1 : ℕ) = δ := by simp
  have hmono : ∀ {C C' : ℝ} (y : Vec d) (t : ℝ) (a b : Vec m), 0 ≤ C → 0 ≤ C' →
      δ * (C * (δ * (1 + ‖y‖ + ‖f y t‖) ^ 2 + (‖a‖ + 4 * ‖b‖) ^ 2)) ≤
      δ * ((C + C') * (δ * (1 + ‖y‖ + ‖f y t‖) ^ 2 + (‖a‖ + 4 * ‖b‖) ^ 2)) := fun y t a b hC hC' => by
    gcongr
    linarith
  have h := hA' (by rw [abs_of_pos (by norm_num)]; norm_num) ((abs_add_le _ _).trans (by linarith [trapExcess_bound one_pos]))
    (fun k y a b => (trapScheme (additiveField f S (k * δ) δ a b) (δ / (1 : ℕ)) y 1).1)
    (fun k => (continuous_fst.comp (continuous_trapScheme hf.cont S (k * δ) δ (δ / (1 : ℕ)) 1)).measurable)
    (fun k hk a b y y' => trap_stable hL hf.lip S hδ (by positivity) (hkδ k hk) one_pos _ _ y y')
    (fun k hk a b y => (hcons hδ (by positivity) (hkδ k hk) one_pos a b y le_rfl).trans (hmono y _ a b hC1 hC2))
    D (fun k hk v => by
      simp only [hD]
      have hm1 : @MeasMat Ω (pastAlg B (k * δ).toNNReal) d d fun ω => Γ k (V k ω) - (δ / 2) • 1 :=
        @MeasMat.sub Ω (pastAlg B (k * δ).toNNReal) d d _ _ (@MeasMat.comp _ _ _ _ Ω (pastAlg B (k * δ).toNNReal) _ (hΓm k hk) _ (hV k hk.le).1)
          (@MeasMat.const Ω (pastAlg B (k * δ).toNNReal) d d _)
      have hm2 := @MeasMat.mulVec Ω (pastAlg B (k * δ).toNNReal) d d _ (fun _ => v) hm1 measurable_const
      exact hm2.const_smul (-2 * Real.sqrt 6 / δ ^ 2))
    (fun k hk => by
      filter_upwards [hVae] with ω hω
      refine ContinuousLinearMap.opNorm_le_bound _ (by positivity) fun v => ?_
      rw [hD, norm_smul, ← hω k hk.le, Real.norm_eq_abs, abs_div, abs_mul, abs_neg, abs_of_nonneg (Real.sqrt_nonneg 6), abs_of_pos (by norm_num : (0 : ℝ) < 2),
        abs_of_pos (by positivity : 0 < δ ^ 2)]
      have h1 : ‖(Γ k (Y k ω) - (δ / 2) • 1) *ᵥ v‖ ≤ c * δ ^ 2 * ‖v‖ :=
        (linfty_opNorm_mulVec _ v).trans (mul_le_mul_of_nonneg_right (hΓn ω k hk) (norm_nonneg _))
      calc 2 * Real.sqrt 6 / δ ^ 2 * ‖(Γ k (Y k ω) - (δ / 2) • 1) *ᵥ v‖ ≤ 2 * (5 / 2) / δ ^ 2 * (c * δ ^ 2 * ‖v‖) := by gcongr
        _ = 5 * c * ‖v‖ := by field_simp)
    0 (fun k ω => (Y k ω).1) a b (fun _ _ => 0) (Eventually.of_forall fun ω => by rw [hY0]) hm
    (by
      filter_upwards [hVae] with ω hω k hk
      rw [hD, ← hω k hk.le, hstep ω k hk, hδ1, sub_zero, add_comm C1 C2]
      exact ((hexp hδ (by positivity) (hkδ k hk) (a ω k) (b ω k) (Y k ω).1 _ (hΓn ω k hk)).1).trans (hmono _ _ _ _ hC2 hC1))
    (Eventually.of_forall fun ω k hk => by
      rw [hstep ω k hk]
      exact (hexp hδ (by positivity) (hkδ k hk) (a ω k) (b ω k) (Y k ω).1 _ (hΓn ω k hk)).2)
    (fun k hk => by
      have h1 : Measurable (V k) := (hV k hk).1.mono (hB.pastAlg_le _) le_rfl
      exact ⟨fun ω => (V k ω).1, h1.fst, by filter_upwards [(hV k hk).2] with ω hω; rw [hω]⟩)
    (fun k hk => aemeasurable_const) (fun n hn => by simp) n hn
  refine ⟨h.1, h.2.trans (le_of_eq ?_)⟩
  ring

end Verif
