import Verif.Lemmas.Alg3Noise
import Verif.Props.Alg3Order1

/-!
# Property C111, when the Jacobian changes along the noise: Algorithm 3 with EKF1 does not converge
-/

namespace Verif

open Matrix Spec Jnp Set MeasureTheory ProbabilityTheory Scripts Filter
open scoped NNReal ENNReal Matrix.Norms.Operator

/-- The drift `-cos x` in dimension one. -/
noncomputable def cosField : Field 1 := fun x _ _ => -Real.cos (x 0)

/-- Its derivative. -/
noncomputable def cosFieldD (x : Vec 1) (_ : ℝ) : Vec 1 →L[ℝ] Vec 1 := Real.sin (x 0) • ContinuousLinearMap.id ℝ (Vec 1)

theorem norm_vec1 (v : Vec 1) : ‖v‖ = |v 0| := by
  refine le_antisymm ((pi_norm_le_iff_of_nonneg (abs_nonneg _)).mpr fun i => ?_) (norm_le_pi_norm v 0)
  rw [Subsingleton.elim i 0]
  exact le_rfl

theorem cosField_deriv (x : Vec 1) (t : ℝ) : HasFDerivAt (fun z => cosField z t) (cosFieldD x t) x := by
  show HasFDerivAt (fun (z : Vec 1) (_ : Fin 1) => -Real.cos (z 0)) (cosFieldD x t) x
  refine hasFDerivAt_pi'.mpr fun i => ?_
  have p0 : HasFDerivAt (fun z : Vec 1 => z 0) (ContinuousLinearMap.proj (R := ℝ) (φ := fun _ : Fin 1 => ℝ) 0) x := hasFDerivAt_apply 0 x
  refine p0.cos.neg.congr_fderiv ?_
  ext v
  rw [Subsingleton.elim i 0]
  simp [cosFieldD]

theorem smooth_cos (T : ℝ) : SmoothField cosField cosFieldD T 1 1 := by
  refine ⟨?_, fun x y t _ => ?_, fun x t _ => cosField_deriv x t, fun x y s _ t _ => ?_⟩
  · refine continuous_pi fun i => ?_
    simp only [Function.uncurry, cosField]
    fun_prop
  · rw [norm_vec1, norm_vec1, one_mul]
    simp only [cosField, Pi.sub_apply]
    rw [neg_sub_neg, abs_sub_comm]
    exact Real.abs_cos_sub_cos_le _ _
  · refine ContinuousLinearMap.opNorm_le_bound _ (by positivity) fun v => ?_
    rw [norm_vec1, norm_vec1, norm_vec1]
    simp only [cosFieldD, _root_.sub_apply, _root_.smul_apply, ContinuousLinearMap.id_apply, Pi.sub_apply,
      Pi.smul_apply, smul_eq_mul, one_mul]
    rw [← sub_mul, abs_mul]
    refine mul_le_mul_of_nonneg_right ?_ (abs_nonneg _)
    have := Real.abs_sin_sub_sin_le (x 0) (y 0)
    linarith [abs_nonneg (s - t)]

theorem timeLipschitz_cos (T : ℝ) : TimeLipschitz cosField T 0 := fun x s _ t _ => by
  show ‖cosField x s - cosField x s‖ ≤ _
  simp

theorem jac_cos {g : Vec 1 → Vec 1} {c x : Vec 1} (hg : ∀ z, g z = cosField z 0 + c) : jac g x = of fun _ _ => Real.sin (x 0) := by
  have h : HasFDerivAt g (cosFieldD x 0) x := by
    rw [show g = fun z => cosField z 0 + c from funext hg]
    exact (cosField_deriv x 0).add_const c
  rw [jac_eq_toMatrix h]
  ext i j
  rw [Subsingleton.elim i 0, Subsingleton.elim j 0]
  simp [LinearMap.toMatrix'_apply, cosFieldD]

theorem inv_one_one (M : Mat 1 1) : M⁻¹ 0 0 = (M 0 0)⁻¹ := by
  rw [Matrix.inv_def, Matrix.adjugate_subsingleton, det_fin_one, Ring.inverse_eq_inv']
  simp

/-! ## The formulas in dimension one -/

section
variable {h : ℝ} {J0 J1 p : Mat 1 1}

theorem alg3E_one : alg3E h J0 J1 0 0 = sE h (J0 0 0) (J1 0 0) := by
  simp [alg3E, alg3F, sE, Matrix.mul_apply]

theorem alg3S_one : alg3S h J0 J1 p 0 0 = sS h (J0 0 0) (J1 0 0) (p 0 0) := by
  have hE := alg3E_one (h := h) (J0 := J0) (J1 := J1)
  simp only [alg3S, sS, Matrix.add_apply, Matrix.mul_apply, Matrix.smul_apply, Matrix.sub_apply, transpose_apply, Fin.sum_univ_one, Fin.isValue,
    hE, one_apply_eq, smul_eq_mul]
  ring

theorem alg3G_one : alg3G h J0 J1 p 0 0 = sG h (J0 0 0) (J1 0 0) (p 0 0) := by
  have hE := alg3E_one (h := h) (J0 := J0) (J1 := J1)
  simp only [alg3G, alg3F, sG, Matrix.add_apply, Matrix.mul_apply, Matrix.smul_apply, Matrix.sub_apply, transpose_apply, Fin.sum_univ_one, Fin.isValue,
    hE, one_apply_eq, smul_eq_mul]
  ring

theorem alg3K_one : alg3K h J0 J1 p 0 0 = sK h (J0 0 0) (J1 0 0) (p 0 0) := by
  rw [alg3K, Matrix.mul_apply, Fin.sum_univ_one, inv_one_one, alg3S_one, alg3G_one, sK, div_eq_mul_inv]

theorem alg3P_one : alg3P h J0 J1 p 0 0 = sP h (J0 0 0) (J1 0 0) (p 0 0) := by
  have hK := alg3K_one (h := h) (J0 := J0) (J1 := J1) (p := p)
  have hS := alg3S_one (h := h) (J0 := J0) (J1 := J1) (p := p)
  simp only [alg3P, alg3F, sP, Matrix.add_apply, Matrix.mul_apply, Matrix.smul_apply, Matrix.sub_apply, transpose_apply, Fin.sum_univ_one, Fin.isValue,
    hK, hS, one_apply_eq, smul_eq_mul, sK]
  have e : sG h (J0 0 0) (J1 0 0) (p 0 0) / sS h (J0 0 0) (J1 0 0) (p 0 0) * sS h (J0 0 0) (J1 0 0) (p 0 0) *
      (sG h (J0 0 0) (J1 0 0) (p 0 0) / sS h (J0 0 0) (J1 0 0) (p 0 0)) = sG h (J0 0 0) (J1 0 0) (p 0 0) ^ 2 / sS h (J0 0 0) (J1 0 0) (p 0 0) := by
    rcases eq_or_ne (sS h (J0 0 0) (J1 0 0) (p 0 0)) 0 with h0 | h0
    · rw [h0]; simp
    · field_simp
  rw [e]
  ring

end

/-- The mean, and the variance in units of the prior. -/
noncomputable def cosState (σ : ℝ) (x : Vec 1 × Vec 1 × Mat 1 1) : ℝ × ℝ := (x.2.1 0, (σ ^ 2)⁻¹ * x.2.2 0 0)

/-- One interval of Algorithm 3 with EKF1, for the drift `-cos x`. -/
theorem alg3_cos {la : LinAlg} (hla : la.Correct) {Ω : Type} {R : Ω → Rng} {σ δ : ℝ} (hσ : σ ≠ 0) (hδ : 0 < δ) {sqrt : Bool}
    {odeInt : Ω → OdeInt (Vec 1 × Vec 1 × Mat 1 1) 1}
    (hode : ∀ ω k x vf, Ekf.ekf2 la (R ω) false (some k) x vf δ 1 sqrt (some ⟨_, IOUP.transition 0 σ 1 δ 1⟩) none = .ok (odeInt ω k x vf δ))
    (ω : Ω) (κ : Key) (x : Vec 1 × Vec 1 × Mat 1 1) (hx : x.2.2.PosSemidef) (a0 : ℝ) (a b : Vec 1) :
    (odeInt ω κ x (additiveField cosField 1 a0 δ a b) δ).2.2.PosSemidef ∧
      cosState σ (odeInt ω κ x (additiveField cosField 1 a0 δ a b) δ) = sStep δ (cosState σ x) (a 0) (b 0) := by
  obtain ⟨s, y, C⟩ := x
  simp only at hx
  have hσ2 : 0 < σ ^ 2 := by positivity
  obtain ⟨p, hp⟩ : ∃ p : Mat 1 1, p = (σ ^ 2)⁻¹ • C := ⟨_, rfl⟩
  have hCp : C = σ ^ 2 • p := by rw [hp, smul_smul, mul_inv_cancel₀ hσ2.ne', one_smul]
  have hpp : p.PosSemidef := by rw [hp]; exact hx.smul (by positivity : 0 ≤ (σ ^ 2)⁻¹)
  have hv0 : ∀ z, additiveField cosField 1 a0 δ a b z 0 = cosField z 0 + jacT (fun s => Foster.evalParabola s δ a b) 0 := fun z => by
    simp only [additiveField, one_mulVec]; rfl
  have hv1 : ∀ z, additiveField cosField 1 a0 δ a b z δ = cosField z 0 + jacT (fun s => Foster.evalParabola s δ a b) δ := fun z => by
    simp only [additiveField, one_mulVec]; rfl
  have hdiff : ∀ (g : Vec 1 → Vec 1) c, (∀ z, g z = cosField z 0 + c) → Differentiable ℝ g := fun g c hg => by
    rw [show g = fun z => cosField z 0 + c from funext hg]
    exact fun z => ((cosField_deriv z 0).add_const c).differentiableAt
  have h := ekf2_one hla (additiveField cosField 1 a0 δ a b) hσ hδ (hdiff _ _ hv0) (hdiff _ _ hv1) hpp y sqrt
  simp only [jac_cos hv0, jac_cos hv1] at h
  obtain ⟨h1, U, h2, h3⟩ := h
  have h4 := h3 (R ω) κ s
  rw [← hCp] at h4
  have h5 := Except.ok.inj ((hode ω κ _ _).symm.trans h4)
  rw [h5]
  refine ⟨h1.smul hσ2.le, ?_⟩
  have hp0 : p 0 0 = (σ ^ 2)⁻¹ * C 0 0 := by rw [hp]; rfl
  have hX : (y + δ • additiveField cosField 1 a0 δ a b y 0) 0 = sX δ (y 0) (a 0) (b 0) := by
    rw [hv0, jacT_evalParabola]
    simp only [Pi.add_apply, Pi.smul_apply, smul_eq_mul, cosField, sX, mul_zero, zero_div, sub_zero, mul_one]
    field_simp
    ring
  refine Prod.ext ?_ ?_
  · show alg3Mean _ _ _ _ _ _ 0 = sY δ (y 0) ((σ ^ 2)⁻¹ * C 0 0) (a 0) (b 0)
    rw [← hp0, sY, alg3Mean]
    have hr : (additiveField cosField 1 a0 δ a b (y + δ • additiveField cosField 1 a0 δ a b y 0) δ - additiveField cosField 1 a0 δ a b y 0) 0 =
        -Real.cos (sX δ (y 0) (a 0) (b 0)) - -Real.cos (y 0) - 2 * Real.sqrt 6 * b 0 / δ := by
      rw [hv1, Pi.sub_apply, Pi.add_apply, jacT_evalParabola]
      have e0 : additiveField cosField 1 a0 δ a b y 0 0 = -Real.cos (y 0) + (a 0 + Real.sqrt 6 * b 0) / δ := by
        rw [hv0, Pi.add_apply, jacT_evalParabola]
        simp [cosField]
      rw [e0]
      simp only [cosField, hX]
      field_simp
      ring
    rw [Pi.add_apply, hX, mulVec, dotProduct, Fin.sum_univ_one, alg3K_one, hr, of_apply, of_apply]
  · show (σ ^ 2)⁻¹ * (σ ^ 2 * alg3P _ _ _ _ 0 0) = sP δ (Real.sin (y 0)) (Real.sin (sX δ (y 0) (a 0) (b 0))) ((σ ^ 2)⁻¹ * C 0 0)
    rw [inv_mul_cancel_left₀ hσ2.ne', alg3P_one, of_apply, of_apply, hX, hp0]

set_option maxHeartbeats 400000 in
/-- C111 is false for general drifts: take the drift `-cos x` in dimension one, noise with coefficient 1, initial value 0 and final time 1/400.
The drift and all its derivatives are bounded. Still, however small the steps are and however fine the Euler-Maruyama solution is, somewhere on
the grid the mean distance between the mean that Algorithm 3 with EKF1 carries and the Euler-Maruyama solution is above a positive constant. -/
theorem C111_fails {la : LinAlg} (hla : la.Correct) :
    SmoothField cosField cosFieldD (1 / 400) 1 1 ∧ TimeLipschitz cosField (1 / 400) 0 ∧
    ∃ (c : ℝ) (N0 : ℕ), 0 < c ∧ 0 < N0 ∧ ∀ {Ω : Type} [MeasurableSpace Ω] {Q : Measure Ω} {R : Ω → Rng}, IdealNormals Q R → ∀ N ≥ N0,
      ∀ r : ℕ, 0 < r → ∀ σ : ℝ, σ ≠ 0 → ∀ (sqrt : Bool) (key : Key) (odeInt : Ω → OdeInt (Vec 1 × Vec 1 × Mat 1 1) 1),
      (∀ ω k x vf, Ekf.ekf2 la (R ω) false (some k) x vf ((1 / 400) / N) 1 sqrt
        (some ⟨_, IOUP.transition 0 σ 1 ((1 / 400) / N) 1⟩) none = .ok (odeInt ω k x vf ((1 / 400) / N))) →
      ∃ n ≤ N, ∃ (y μ z : Ω → Vec 1) (C : Ω → Mat 1 1),
        (∀ ω, ∃ ts traj traj2, ramSolver (R ω) key cosField (fun _ _ => (1 : Mat 1 1)) (0, 0, 0) 0 ((1 / 400) / N) N r (odeInt ω) = .ok (ts, traj, traj2) ∧
          ts[n]? = some ((n : ℝ) * ((1 / 400) / N)) ∧ traj[n]? = some (y ω, μ ω, C ω) ∧ traj2[n]? = some (z ω)) ∧
        Integrable (fun ω => ‖μ ω - z ω‖) Q ∧ c ≤ ∫ ω, ‖μ ω - z ω‖ ∂Q := by
  refine ⟨smooth_cos _, timeLipschitz_cos _, ?_⟩
  obtain ⟨T, hTd⟩ : ∃ T : ℝ, T = 1 / 400 := ⟨_, rfl⟩
  rw [← hTd]
  have hT : 0 < T := by rw [hTd]; norm_num
  obtain ⟨B, hB⟩ := Levy.exists_brownianVec (1 + 1)
  obtain ⟨P, hP⟩ : ∃ P : Measure (Fin (1 + 1) → ℕ × ℕ → ℝ), P = Measure.pi fun _ => Levy.noise := ⟨_, rfl⟩
  rw [← hP] at hB
  have hB1 := hB.comp_inj (Fin.castAdd_injective 1 1)
  have hPp := hB.isProb
  obtain ⟨X, hX⟩ := hB1.exists_solution hT.le (smooth_cos T) (1 : Mat 1 1) 0
  obtain ⟨A2, h2⟩ := C93_em_strong hB1 hT (smooth_cos T) (timeLipschitz_cos T) (1 : Mat 1 1) 0 hX
  have hgm := gaussMoment4_nonneg
  obtain ⟨D, hD⟩ : ∃ D, D = 1 + 4 * |A2| + (1446 + 7000 * (9 + 16 * gaussMoment4)) := ⟨_, rfl⟩
  have hD0 : 0 < D := by rw [hD]; positivity
  obtain ⟨ε, hε⟩ : ∃ ε : ℝ, ε = 1 / 20000000 / D := ⟨_, rfl⟩
  have hε0 : 0 < ε := by rw [hε]; positivity
  refine ⟨1 / 20000000, ⌈T / ε ^ 2⌉₊ + 1, by norm_num, Nat.succ_pos _, ?_⟩
  intro Ω _ Q R hR N hN r hr σ hσ sqrt key odeInt hode
  have hN0 : 0 < N := by omega
  have hN' : (0 : ℝ) < N := by exact_mod_cast hN0
  have hN1 : (1 : ℝ) ≤ N := by exact_mod_cast hN0
  have hr' : (1 : ℝ) ≤ r := by exact_mod_cast hr
  have hem := h2 N hN0
  have hem2 := h2 (N * r) (by positivity)
  obtain ⟨δ, hδdef⟩ : ∃ δ, δ = T / N := ⟨_, rfl⟩
  rw [← hδdef] at hode hem ⊢
  have hδ : 0 < δ := by rw [hδdef]; positivity
  have hNδ : (N : ℝ) * δ = 1 / 400 := by rw [← hTd, hδdef]; field_simp
  have hδ1 : δ ≤ 1 / 2 := by nlinarith
  obtain ⟨s, hsdef⟩ : ∃ s, s = Real.sqrt δ := ⟨_, rfl⟩
  have hs : 0 < s := by rw [hsdef]; exact Real.sqrt_pos.mpr hδ
  have hsδ : s ^ 2 = δ := by rw [hsdef]; exact Real.sq_sqrt hδ.le
  have hsε : s ≤ ε := by
    refine le_of_sq_le_sq ?_ hε0.le
    rw [hsδ, hδdef, div_le_iff₀ hN', ← div_le_iff₀' (by positivity)]
    refine (Nat.le_ceil _).trans ?_
    exact_mod_cast (by omega : ⌈T / ε ^ 2⌉₊ ≤ N)
  have hδs : δ ≤ s := by nlinarith
  -- the scheme driven by the Brownian motion
  obtain ⟨Yr, hY0, hYs⟩ : ∃ Yr : ℕ → (Fin (1 + 1) → ℕ × ℕ → ℝ) → ℝ × ℝ, (∀ ω, Yr 0 ω = 0) ∧ ∀ k ω, Yr (k + 1) ω = sStep δ (Yr k ω)
      (incArea (fun t => B (Fin.castAdd 1 0) t.toNNReal ω) δ k 0) (incArea (fun t => B (Fin.castAdd 1 0) t.toNNReal ω) δ k 1) :=
    ⟨fun k ω => Nat.rec 0 (fun k w => sStep δ w (incArea (fun t => B (Fin.castAdd 1 0) t.toNNReal ω) δ k 0)
      (incArea (fun t => B (Fin.castAdd 1 0) t.toNNReal ω) δ k 1)) k, fun _ => rfl, fun _ _ => rfl⟩
  have H := bias_noise hB1 hδ N hY0 (fun k _ ω => hYs k ω)
  choose ts zr hz1 hz2 hz3 using fun ω => emPathwise_states
    (fun k j => B (Fin.castAdd 1 j) ((k + 1 : ℕ) * δ).toNNReal ω - B (Fin.castAdd 1 j) (k * δ).toNNReal ω) 0 cosField (fun _ _ => (1 : Mat 1 1)) δ N
  have hzs : ∀ ω, ∀ k < N, zr ω (k + 1) 0 = zr ω k 0 + δ * -Real.cos (zr ω k 0) + incArea (fun t => B (Fin.castAdd 1 0) t.toNNReal ω) δ k 0 := fun ω k hk => by
    rw [hz3 ω k hk, one_mulVec]
    simp only [Pi.add_apply, Pi.smul_apply, smul_eq_mul, cosField, incArea, cons_val_zero]
    rw [show ((k + 1 : ℕ) : ℝ) * δ = k * δ + δ by push_cast; ring]
  have hzi : ∀ k ≤ N, Integrable (fun ω => zr ω k 0) P := fun k => by
    induction k with
    | zero => intro _; simp only [hz2, Pi.zero_apply]; exact integrable_zero _ _ _
    | succ k ih =>
      intro hk
      have h1 := ih (by omega)
      have hc : Integrable (fun ω => -Real.cos (zr ω k 0)) P := by
        refine Integrable.of_bound (C := 1) (Real.continuous_cos.comp_aestronglyMeasurable h1.aestronglyMeasurable).neg (Eventually.of_forall fun ω => ?_)
        rw [Real.norm_eq_abs, abs_neg]
        exact Real.abs_cos_le_one _
      refine ((h1.add (hc.const_mul δ)).add (H.ai k (by omega))).congr (Eventually.of_forall fun ω => ?_)
      exact (hzs ω k (by omega)).symm
  obtain ⟨n, hn, hfar⟩ := H.away hs hsδ hδ1 (by positivity) hNδ (z := fun k ω => zr ω k 0) (Eventually.of_forall fun ω => by rw [hz2]; rfl)
    (Eventually.of_forall fun ω k hk => hzs ω k hk) hzi
  obtain ⟨zc, hc1, hc2, hc3⟩ := hem n hn
  have hcz : ∀ ω, zc ω = zr ω n := fun ω => by
    obtain ⟨ts', xs, g1, g2⟩ := hc1 ω
    rw [hz1 ω] at g1
    have g3 := congrArg Prod.snd (Except.ok.inj g1)
    simp only at g3
    rw [← g3, List.getElem?_map, List.getElem?_range (by omega)] at g2
    exact (Option.some.inj g2).symm
  simp only [hcz] at hc2 hc3
  obtain ⟨z0, hf1, hf2, hf3⟩ := hem2 (n * r) (Nat.mul_le_mul_right r hn)
  obtain ⟨η, hη⟩ : ∃ η, η = δ / r := ⟨_, rfl⟩
  have hηT : T / (N * r : ℕ) = η := by rw [hη, hδdef]; push_cast; field_simp
  have hη0 : 0 < η := by rw [hη]; positivity
  have hrη : (r : ℝ) * η = δ := by rw [hη]; field_simp
  have et : ((n * r : ℕ) : ℝ) * η = n * δ := by rw [← hrη]; push_cast; ring
  rw [hηT] at hf1 hf2 hf3
  rw [et] at hf2 hf3
  have hηδ : η ≤ δ := by rw [hη]; exact div_le_self hδ.le hr'
  refine ⟨n, hn, ?_⟩
  obtain ⟨c0, hm, htr⟩ := ram_transfer_state hB (smooth_cos T).cont (1 : Mat 1 1) 0 hR hδ hr hη key ((0, 0, 0) : Vec 1 × Vec 1 × Mat 1 1) (cosState σ)
    (fun _ x => x.2.2.PosSemidef) PosSemidef.zero odeInt (J := fun _ e a b _ => sStep δ e (a 0) (b 0)) (fun k _ => by
      have h3 : Measurable fun p : (ℝ × ℝ) × Vec 1 × Vec 1 × Vec 1 => ((p.1, p.2.1 0, p.2.2.1 0) : (ℝ × ℝ) × ℝ × ℝ) := by fun_prop
      exact (measurable_sStep δ).comp h3)
    (fun ω κ x k _ hx a b => alg3_cos hla hσ hδ hode ω κ x hx (k * δ) a b) hn
  obtain ⟨Y0, hY00, hY0s⟩ : ∃ Y0 : ℕ → (Fin (1 + 1) → ℕ × ℕ → ℝ) → ℝ × ℝ, (∀ ω, Y0 0 ω = 0) ∧ ∀ k ω, Y0 (k + 1) ω = sStep δ (Y0 k ω)
      (firstV (c0 ω k).1 0) (firstV (c0 ω k).2 0) := ⟨fun k ω => Nat.rec 0 (fun k w => sStep δ w (firstV (c0 ω k).1 0) (firstV (c0 ω k).2 0)) k,
        fun _ => rfl, fun _ _ => rfl⟩
  have hinit : cosState σ ((0, 0, 0) : Vec 1 × Vec 1 × Mat 1 1) = 0 := by simp [cosState]
  obtain ⟨y, z, hyz, -, -, hid⟩ := htr Y0 z0 (fun ω => (hY00 ω).trans hinit.symm) (fun k _ ω => hY0s k ω) hf1
  have hYY : ∀ᵐ ω ∂P, Y0 n ω = Yr n ω := by
    filter_upwards [hm] with ω hω
    have : ∀ k ≤ N, Y0 k ω = Yr k ω := fun k => by
      induction k with
      | zero => intro _; rw [hY00, hY0]
      | succ k ih =>
        intro hk
        have e0 := sameEndAndArea_coeffs hδ.ne' (hω k (by omega)) (Fin.castAdd 1 0) 0
        have e1 := sameEndAndArea_coeffs hδ.ne' (hω k (by omega)) (Fin.castAdd 1 0) 1
        rw [hY0s, hYs, ih (by omega), ← e0, ← e1]
        rfl
    exact this n hn
  have hide : IdentDistrib (fun ω => ‖(Y0 n ω).1 - z0 ω 0‖) (fun ω => ‖(y ω).2.1 - z ω‖) P Q := by
    have h3 := hid.comp (u := fun p : (ℝ × ℝ) × Vec 1 => ‖p.1.1 - p.2 0‖) (by fun_prop)
    have e : (fun ω => ‖(y ω).2.1 - z ω‖) = fun ω => ‖(cosState σ (y ω)).1 - z ω 0‖ := funext fun ω => norm_vec1 _
    rw [e]
    exact h3
  have hz0m : AEMeasurable z0 P := measurable_snd.comp_aemeasurable hid.aemeasurable_fst
  have hw : Integrable (fun ω => δ + (2 * ‖X ω (n * δ) - zr ω n‖ ^ 2 + 2 * ‖X ω (n * δ) - z0 ω‖ ^ 2) / δ) P :=
    (integrable_const _).add (((hc2.const_mul 2).add (hf2.const_mul 2)).div_const δ)
  have hwle : ∀ ω, ‖zr ω n 0 - z0 ω 0‖ ≤ δ + (2 * ‖X ω (n * δ) - zr ω n‖ ^ 2 + 2 * ‖X ω (n * δ) - z0 ω‖ ^ 2) / δ := fun ω => by
    rw [Real.norm_eq_abs]
    refine (abs_le_amgm hδ _).trans (add_le_add_right ((div_le_div_iff_of_pos_right hδ).mpr ?_) _)
    have g1 : |zr ω n 0 - z0 ω 0| = ‖(X ω (n * δ) - z0 ω) - (X ω (n * δ) - zr ω n)‖ := by
      rw [sub_sub_sub_cancel_left]
      exact (norm_vec1 (zr ω n - z0 ω)).symm
    have g2 := norm_sub_le (X ω (n * δ) - z0 ω) (X ω (n * δ) - zr ω n)
    rw [← sq_abs, g1]
    nlinarith [norm_nonneg ((X ω (n * δ) - z0 ω) - (X ω (n * δ) - zr ω n)), sq_nonneg (‖X ω (n * δ) - z0 ω‖ - ‖X ω (n * δ) - zr ω n‖)]
  have hwi : Integrable (fun ω => ‖zr ω n 0 - z0 ω 0‖) P := by
    have hm0 : AEMeasurable (fun ω => z0 ω 0) P := (measurable_pi_apply 0).comp_aemeasurable hz0m
    refine hw.mono' ((hzi n hn).aestronglyMeasurable.sub hm0.aestronglyMeasurable).norm (Eventually.of_forall fun ω => ?_)
    rw [norm_norm]
    exact hwle ω
  have hwI : ∫ ω, ‖zr ω n 0 - z0 ω 0‖ ∂P ≤ δ + 4 * |A2| * δ := by
    refine (integral_mono hwi hw hwle).trans ?_
    have hw2 : Integrable (fun ω => (2 * ‖X ω (n * δ) - zr ω n‖ ^ 2 + 2 * ‖X ω (n * δ) - z0 ω‖ ^ 2) / δ) P :=
      ((hc2.const_mul 2).add (hf2.const_mul 2)).div_const δ
    rw [integral_add (integrable_const _) hw2, integral_div, integral_add (hc2.const_mul 2) (hf2.const_mul 2),
      integral_const_mul, integral_const_mul]
    simp only [integral_const, probReal_univ, smul_eq_mul, one_mul]
    refine add_le_add_right ?_ _
    rw [div_le_iff₀ hδ]
    have g1 : A2 * δ ^ 2 ≤ |A2| * δ ^ 2 := mul_le_mul_of_nonneg_right (le_abs_self _) (sq_nonneg δ)
    have g2 : A2 * η ^ 2 ≤ |A2| * δ ^ 2 := mul_le_mul (le_abs_self _) (pow_le_pow_left₀ hη0.le hηδ 2) (by positivity) (abs_nonneg _)
    linarith
  have hYi : Integrable (fun ω => (Yr n ω).1) P := (H.y_int hs hsδ (by linarith) (by positivity) hNδ.le hn).1
  have hYz : Integrable (fun ω => |(Yr n ω).1 - zr ω n 0|) P := (hYi.sub (hzi n hn)).abs
  have hdi : Integrable (fun ω => ‖(Y0 n ω).1 - z0 ω 0‖) P := by
    refine (hYz.add hwi).mono' hide.aemeasurable_fst.aestronglyMeasurable ?_
    filter_upwards [hYY] with ω hω
    rw [norm_norm, hω]
    exact (norm_sub_le_norm_sub_add_norm_sub _ (zr ω n 0) _)
  have hlow : ∫ ω, |(Yr n ω).1 - zr ω n 0| ∂P ≤ ∫ ω, ‖(Y0 n ω).1 - z0 ω 0‖ ∂P + ∫ ω, ‖zr ω n 0 - z0 ω 0‖ ∂P := by
    rw [← integral_add hdi hwi]
    refine integral_mono_ae hYz (hdi.add hwi) ?_
    filter_upwards [hYY] with ω hω
    rw [hω, norm_sub_rev (zr ω n 0)]
    exact (norm_sub_le_norm_sub_add_norm_sub _ (z0 ω 0) _)
  refine ⟨fun ω => (y ω).1, fun ω => (y ω).2.1, z, fun ω => (y ω).2.2, hyz, hide.integrable_iff.mp hdi, ?_⟩
  rw [← hide.integral_eq]
  have h4 : D * s ≤ 1 / 20000000 := by
    refine (mul_le_mul_of_nonneg_left hsε hD0.le).trans (le_of_eq ?_)
    rw [hε]
    field_simp
  have h5 : 4 * |A2| * δ ≤ 4 * |A2| * s := mul_le_mul_of_nonneg_left hδs (by positivity)
  rw [hD] at h4
  linarith

/-- C111: order one in mean square fails for general smooth drifts, already with an ideal generator, one step of Euler-Maruyama per interval
and a prior of scale one. -/
theorem C111_order_fails {la : LinAlg} (hla : la.Correct) :
    ¬ ∀ (f : Field 1) (Df : Vec 1 → ℝ → Vec 1 →L[ℝ] Vec 1) (T L K Lt : ℝ), 0 < T → SmoothField f Df T L K → TimeLipschitz f T Lt →
      ∀ (S : Mat 1 1) (x0 : Vec 1), ∃ A : ℝ, ∀ N : ℕ, 0 < N → ∀ odeInt : _ → OdeInt (Vec 1 × Vec 1 × Mat 1 1) 1,
      (∀ ω k x vf, Ekf.ekf2 la (drawsRng ω) false (some k) x vf (T / N) 1 true
        (some ⟨_, IOUP.transition 0 1 1 (T / N) 1⟩) none = .ok (odeInt ω k x vf (T / N))) →
      ∀ n ≤ N, ∃ (y μ z : _ → Vec 1) (C : _ → Mat 1 1),
        (∀ ω, ∃ ts traj traj2, ramSolver (drawsRng ω) [] f (fun _ _ => S) (x0, x0, 0) x0 (T / N) N 1 (odeInt ω) = .ok (ts, traj, traj2) ∧
          traj[n]? = some (y ω, μ ω, C ω) ∧ traj2[n]? = some (z ω)) ∧
        Integrable (fun ω => ‖μ ω - z ω‖ ^ 2) drawsMeasure ∧ ∫ ω, ‖μ ω - z ω‖ ^ 2 ∂drawsMeasure ≤ A * (T / N) ^ 2 := by
  intro hcon
  obtain ⟨hsm, htl, c, N0, hc, hN0, h⟩ := C111_fails hla
  obtain ⟨A, hA⟩ := hcon cosField cosFieldD (1 / 400) 1 1 0 (by norm_num) hsm htl 1 0
  have hpr : IsProbabilityMeasure drawsMeasure := (idealNormals_drawsRng.law [] [1] 0 one_pos).isProbabilityMeasure
  obtain ⟨N, hNc⟩ := exists_nat_gt ((1 + |A|) * (1 / 400) / c)
  obtain ⟨M, hM⟩ : ∃ M, M = max N N0 := ⟨_, rfl⟩
  have hM0 : 0 < M := by rw [hM]; exact lt_of_lt_of_le hN0 (le_max_right _ _)
  have hM' : (0 : ℝ) < M := by exact_mod_cast hM0
  have hNM : (N : ℝ) ≤ M := by rw [hM]; exact_mod_cast le_max_left _ _
  obtain ⟨δ, hδ⟩ : ∃ δ : ℝ, δ = 1 / 400 / M := ⟨_, rfl⟩
  have hδ0 : 0 < δ := by rw [hδ]; positivity
  have hAM := hA M hM0
  have hM2 := h idealNormals_drawsRng M (by rw [hM]; exact le_max_right _ _) 1 one_pos 1 one_ne_zero true []
  rw [← hδ] at hAM hM2
  obtain ⟨odeInt, hode⟩ := exists_ekf2_int (d := 1) la false drawsRng δ 1 1 true
  simp only [Nat.cast_one, div_one] at hode
  obtain ⟨n, hn, y, μ, z, C, h1, h2, h3⟩ := hM2 odeInt hode
  obtain ⟨y', μ', z', C', g1, g2, g3⟩ := hAM odeInt hode n hn
  have e : ∀ ω, μ' ω = μ ω ∧ z' ω = z ω := fun ω => by
    obtain ⟨ts, tr, tr2, a1, -, a2, a3⟩ := h1 ω
    obtain ⟨ts', tr', tr2', b1, b2, b3⟩ := g1 ω
    obtain ⟨-, rfl, rfl⟩ : ts' = ts ∧ tr' = tr ∧ tr2' = tr2 := by
      have := Except.ok.inj (b1.symm.trans a1)
      simpa only [Prod.mk.injEq] using this
    have e1 := Option.some.inj (b2.symm.trans a2)
    have e2 := Option.some.inj (b3.symm.trans a3)
    simp only [Prod.mk.injEq] at e1
    exact ⟨e1.2.1, e2⟩
  simp only [(e _).1, (e _).2] at g2 g3
  have hle : ∀ ω, ‖μ ω - z ω‖ ≤ δ + ‖μ ω - z ω‖ ^ 2 / δ := fun ω => by
    have := abs_le_amgm hδ0 ‖μ ω - z ω‖
    rwa [abs_of_nonneg (norm_nonneg _)] at this
  have h4 := integral_mono h2 ((integrable_const δ).add (g2.div_const δ)) hle
  simp only [Pi.add_apply] at h4
  rw [integral_add (integrable_const δ) (g2.div_const δ), integral_div] at h4
  simp only [integral_const, probReal_univ, smul_eq_mul, one_mul] at h4
  have h5 : (∫ ω, ‖μ ω - z ω‖ ^ 2 ∂drawsMeasure) / δ ≤ |A| * δ := by
    rw [div_le_iff₀ hδ0]
    have : A * δ ^ 2 ≤ |A| * δ ^ 2 := mul_le_mul_of_nonneg_right (le_abs_self A) (sq_nonneg δ)
    linarith
  have h6 : (1 + |A|) * δ < c := by
    rw [div_lt_iff₀ hc] at hNc
    have : (N : ℝ) * c ≤ M * c := mul_le_mul_of_nonneg_right hNM hc.le
    rw [hδ, ← mul_div_assoc, div_lt_iff₀ hM']
    linarith
  linarith

/-- C111: the settings of the scripts, with as many fine steps as intervals. -/
example {la : LinAlg} (hla : la.Correct) : ∃ c : ℝ, 0 < c ∧ ∃ N0 : ℕ, ∀ N ≥ N0, ∃ (odeInt : _ → OdeInt (Vec 1 × Vec 1 × Mat 1 1) 1) (n : ℕ) (μ z : _ → Vec 1),
    (∀ ω k x vf, Ekf.ekf2 la (drawsRng ω) false (some k) x vf (1 / 400 / N) 1 true (some ⟨_, IOUP.transition 0 1 1 (1 / 400 / N) 1⟩) none =
      .ok (odeInt ω k x vf (1 / 400 / N))) ∧
    (∀ ω, ∃ ts traj traj2, ramSolver (drawsRng ω) [] cosField (fun _ _ => (1 : Mat 1 1)) (0, 0, 0) 0 (1 / 400 / N) N N
      (odeInt ω) = .ok (ts, traj, traj2) ∧ (∃ y C, traj[n]? = some (y, μ ω, C)) ∧ traj2[n]? = some (z ω)) ∧
    c ≤ ∫ ω, ‖μ ω - z ω‖ ∂drawsMeasure := by
  obtain ⟨-, -, c, N0, hc, hN0, h⟩ := C111_fails hla
  refine ⟨c, hc, N0, fun N hN => ?_⟩
  obtain ⟨odeInt, hode⟩ := exists_ekf2_int (d := 1) la false drawsRng (1 / 400 / N) 1 1 true
  simp only [Nat.cast_one, div_one] at hode
  obtain ⟨n, hn, y, μ, z, C, h1, h2, h3⟩ := h idealNormals_drawsRng N hN N (by omega) 1 one_ne_zero true [] odeInt hode
  refine ⟨odeInt, n, μ, z, hode, fun ω => ?_, h3⟩
  obtain ⟨ts, traj, traj2, g1, -, g2, g3⟩ := h1 ω
  exact ⟨ts, traj, traj2, g1, ⟨_, _, g2⟩, g3⟩

end Verif
