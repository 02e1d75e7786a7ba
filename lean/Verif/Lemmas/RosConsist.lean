import Verif.Lemmas.RosMatrix

/-! One interval of `sde_solver` with EKF1 and several filter steps on an SDE with additive noise: expansion of the scheme. -/

namespace Verif

open Matrix Spec Jnp Set

variable {d m : ℕ}

/-- The recursion of the norms. -/
theorem ros_apriori {L A T h c B κ θ : ℝ} {M : ℕ} (hL : 0 ≤ L) (hA : 0 ≤ A) (hT : 0 ≤ T) (hh : 0 < h) (hc : 0 ≤ c) (hB : 0 ≤ B) (hκ : 0 ≤ κ)
    (hκM : κ * M ≤ 5) (hMh : M * h ≤ T) (hθ : θ = 1 + A * T) {α ω φ υ : ℕ → ℝ} (hω : ∀ n, 0 ≤ ω n) (hα : ∀ n, 0 ≤ α n) (hφ : ∀ n, 0 ≤ φ n)
    (hα0 : α 0 = 0) (hω0 : ω 0 ≤ c) (hF : ∀ n < M, φ n ≤ c + L * (α n + h * ω n)) (hu : ∀ n < M, υ n ≤ h * φ n + h * ω n + κ * B)
    (hD : ∀ n < M, α (n + 1) ≤ α n + h / 2 * ω n + h / 2 * φ n + h * (A * M * υ n))
    (hw : ∀ n < M, ω (n + 1) ≤ φ n + L * ((1 / 2 + h * (A * M)) * υ n)) :
    ∀ n ≤ M, α n + θ * (h * ω n) ≤ (1 + (2 * θ * L + θ ^ 2 * L ^ 2 * T + θ ^ 2 * L) * h) ^ n *
      ((θ * h + n * h * (2 * θ + θ ^ 2 * L * T + 5 * A + 5 * θ ^ 2 * L)) * (c + B)) := by
  have hθ1 : 1 ≤ θ := by rw [hθ]; nlinarith
  have hθ0 : 0 ≤ θ := by linarith
  obtain ⟨q1, hq1⟩ : ∃ q1, q1 = 2 * θ * L + θ ^ 2 * L ^ 2 * T + θ ^ 2 * L := ⟨_, rfl⟩
  obtain ⟨q2, hq2⟩ : ∃ q2, q2 = 2 * θ + θ ^ 2 * L * T + 5 * A + 5 * θ ^ 2 * L := ⟨_, rfl⟩
  have hq10 : 0 ≤ q1 := by rw [hq1]; positivity
  have hq20 : 0 ≤ q2 := by rw [hq2]; positivity
  rw [← hq1, ← hq2]
  intro n
  induction n with
  | zero =>
    intro _
    rw [hα0, pow_zero, Nat.cast_zero]
    have := mul_le_mul_of_nonneg_left hω0 (by positivity : 0 ≤ θ * h)
    have : 0 ≤ θ * h * B := by positivity
    nlinarith
  | succ n ih =>
    intro hn
    have hM1 : (1 : ℝ) ≤ M := by exact_mod_cast (by omega : 1 ≤ M)
    have hhT : h ≤ T := by nlinarith
    have hκ5 : κ ≤ 5 := by nlinarith
    have i0 := ih (by omega)
    have i1 := hF n (by omega)
    have i2 := hu n (by omega)
    have i3 := hD n (by omega)
    have i4 := hw n (by omega)
    have w0 := hω n
    have a0 := hα n
    have f0 := hφ n
    obtain ⟨R, hR⟩ : ∃ R, R = α n + θ * (h * ω n) := ⟨_, rfl⟩
    rw [← hR] at i0
    have hR0 : 0 ≤ R := by rw [hR]; positivity
    have hwR : h * ω n ≤ R := by
      have : h * ω n ≤ θ * (h * ω n) := le_mul_of_one_le_left (by positivity) hθ1
      linarith
    have j1 : φ n ≤ c + L * R := by
      refine i1.trans ?_
      have : h * ω n ≤ θ * (h * ω n) := le_mul_of_one_le_left (by positivity) hθ1
      have : L * (α n + h * ω n) ≤ L * R := mul_le_mul_of_nonneg_left (by linarith) hL
      linarith
    -- the position
    have j2 : h * (A * M * υ n) ≤ A * T * (h * φ n) + A * T * (h * ω n) + h * (5 * A * B) := by
      have k1 : h * (A * M * υ n) ≤ h * (A * M * (h * φ n + h * ω n + κ * B)) := by gcongr
      have k2 : (M * h) * (A * (h * φ n + h * ω n)) ≤ T * (A * (h * φ n + h * ω n)) := by gcongr
      have k3 : (κ * M) * (h * (A * B)) ≤ 5 * (h * (A * B)) := by gcongr
      linear_combination k1 + k2 + k3
    have j3 : α (n + 1) ≤ α n + θ * (h * ω n) + θ * (h * φ n) + h * (5 * A * B) := by
      have l1 : 0 ≤ h * ω n := by positivity
      have l2 : 0 ≤ h * φ n := by positivity
      have l3 : θ * (h * ω n) = h * ω n + A * T * (h * ω n) := by rw [hθ]; ring
      have l4 : θ * (h * φ n) = h * φ n + A * T * (h * φ n) := by rw [hθ]; ring
      linarith
    have j4 : ω (n + 1) ≤ φ n + L * (θ * (T * φ n + R + 5 * B)) := by
      refine i4.trans (add_le_add le_rfl (mul_le_mul_of_nonneg_left ?_ hL))
      have k1 : 1 / 2 + h * (A * M) ≤ θ := by
        have : (M * h) * A ≤ T * A := by gcongr
        rw [hθ]
        linear_combination this
      have k2 : υ n ≤ T * φ n + R + 5 * B := by
        have : h * φ n ≤ T * φ n := by gcongr
        have : κ * B ≤ 5 * B := by gcongr
        linarith
      have k3 : 0 ≤ 1 / 2 + h * (A * M) := by positivity
      exact (mul_le_mul_of_nonneg_left k2 k3).trans (mul_le_mul_of_nonneg_right k1 (by positivity))
    have j5 : α (n + 1) + θ * (h * ω (n + 1)) ≤ (1 + q1 * h) * R + q2 * h * (c + B) := by
      have k1 : θ * (h * ω (n + 1)) ≤ θ * (h * (φ n + L * (θ * (T * φ n + R + 5 * B)))) := by gcongr
      have k2 : (2 * θ + θ ^ 2 * L * T) * h * φ n ≤ (2 * θ + θ ^ 2 * L * T) * h * (c + L * R) := by gcongr
      have k3 : 0 ≤ (2 * θ + θ ^ 2 * L * T) * h * B := by positivity
      have k4 : 0 ≤ (5 * A + 5 * θ ^ 2 * L) * h * c := by positivity
      rw [hq1, hq2]
      rw [← hR] at j3
      linear_combination j3 + k1 + k2 + k3 + k4
    have hP : 1 ≤ (1 + q1 * h) ^ (n + 1) := one_le_pow₀ (by linarith [mul_nonneg hq10 hh.le])
    have j6 := mul_le_mul_of_nonneg_left i0 (by positivity : 0 ≤ 1 + q1 * h)
    have j7 : q2 * h * (c + B) ≤ (1 + q1 * h) ^ (n + 1) * (q2 * h * (c + B)) := le_mul_of_one_le_left (by positivity) hP
    have e : (1 + q1 * h) ^ (n + 1) * ((θ * h + ((n + 1 : ℕ) : ℝ) * h * q2) * (c + B)) =
        (1 + q1 * h) * ((1 + q1 * h) ^ n * ((θ * h + n * h * q2) * (c + B))) + (1 + q1 * h) ^ (n + 1) * (q2 * h * (c + B)) := by
      push_cast; ring
    rw [e]
    linarith

theorem ros_scalars {T δ H Q K s c2 : ℝ} (hT : 0 ≤ T) (hδ : 0 ≤ δ) (hδT : δ ≤ T) (hH : 1 ≤ H) (hQ : 0 ≤ Q) (hK : 0 ≤ K) (hs : 0 ≤ s)
    (hc2 : 0 ≤ c2) :
    δ * (H + Q) ≤ (2 + T) * (δ * H ^ 2 + Q ^ 2) ∧ δ * Q ≤ (1 + T) * (δ * H ^ 2 + Q ^ 2) ∧
      K * (c2 * δ * (H + Q) + s * Q + δ) * Q ≤ K * (c2 * (1 + 2 * T) + s + (1 + T)) * (δ * H ^ 2 + Q ^ 2) := by
  have hHH : H ≤ H ^ 2 := by nlinarith
  have h1H : 1 ≤ H ^ 2 := by nlinarith
  obtain ⟨Z, hZ⟩ : ∃ Z, Z = δ * H ^ 2 + Q ^ 2 := ⟨_, rfl⟩
  have hQZ : Q ^ 2 ≤ Z := by rw [hZ]; nlinarith [mul_nonneg hδ (sq_nonneg H)]
  have hδZ : δ * H ^ 2 ≤ Z := by rw [hZ]; nlinarith [sq_nonneg Q]
  have hZ0 : 0 ≤ Z := (sq_nonneg Q).trans hQZ
  have i1 : δ * H ≤ Z := (mul_le_mul_of_nonneg_left hHH hδ).trans hδZ
  have i2 : δ * H * Q ≤ (1 + T) * Z := by
    have h1 : δ * H * Q ≤ (δ * H) ^ 2 + Q ^ 2 := by nlinarith [sq_nonneg (δ * H - Q), sq_nonneg (δ * H), sq_nonneg Q]
    have h2 : (δ * H) ^ 2 ≤ T * Z := by
      calc (δ * H) ^ 2 = δ * (δ * H ^ 2) := by ring
        _ ≤ T * Z := mul_le_mul hδT hδZ (by positivity) hT
    linarith
  have i3 : δ * Q ≤ (1 + T) * Z := by
    refine le_trans ?_ i2
    nlinarith [mul_nonneg hδ hQ]
  have i4 : δ * Q ^ 2 ≤ T * Z := mul_le_mul hδT hQZ (sq_nonneg Q) hT
  rw [← hZ]
  refine ⟨by linarith, i3, ?_⟩
  have e : K * (c2 * δ * (H + Q) + s * Q + δ) * Q = K * (c2 * (δ * H * Q + δ * Q ^ 2) + s * Q ^ 2 + δ * Q) := by ring
  rw [e, mul_assoc K (c2 * (1 + 2 * T) + s + (1 + T)) Z]
  refine mul_le_mul_of_nonneg_left ?_ hK
  have j1 := mul_le_mul_of_nonneg_left (add_le_add i2 i4) hc2
  have j2 := mul_le_mul_of_nonneg_left hQZ hs
  linarith

/-- The position `D` and the slope `w` of the scheme without the noise, the values `F` of the drift at the predictions, the innovations `u`,
the Jacobians `J` and the gains `Γ`. -/
structure RosSeq (f : Vec d → ℝ → Vec d) (Df : Vec d → ℝ → Vec d →L[ℝ] Vec d) (S : Mat d m) (L A a0 h : ℝ) (M : ℕ) (a b : Vec m) (y : Vec d)
    (D w F u : ℕ → Vec d) (J Γ : ℕ → Mat d d) : Prop where
  D0 : D 0 = 0
  w0 : w 0 = f y a0
  F_eq : ∀ n, F n = f (y + (D n + h • w n + S *ᵥ trapNoise M a b (n + 1))) ((n + 1) * h + a0)
  J_eq : ∀ n < M, J n = LinearMap.toMatrix' (Df (y + (D n + h • w n + S *ᵥ trapNoise M a b (n + 1))) ((n + 1) * h + a0) : Vec d →ₗ[ℝ] Vec d)
  u_eq : ∀ n, u n = h • (F n - w n) - (2 * Real.sqrt 6 / M ^ 2) • (S *ᵥ b)
  D_succ : ∀ n, D (n + 1) = D n + (h / 2) • (w n + F n) + h • (Γ n *ᵥ u n)
  w_succ : ∀ n, w (n + 1) = F n + J n *ᵥ ((1 / 2 : ℝ) • u n + h • (Γ n *ᵥ u n))
  J_le : ∀ n < M, ∀ v, ‖J n *ᵥ v‖ ≤ L * ‖v‖
  Γ_le : ∀ n < M, ∀ v, ‖Γ n *ᵥ v‖ ≤ A * M * ‖v‖
  Γ_lim : ∀ {J0 : Mat d d} {ε : ℝ}, 0 ≤ ε → (∀ n < M, ∀ v, ‖(J n - J0) *ᵥ v‖ ≤ ε * ‖v‖) →
    ∀ n < M, ∀ v, ‖Γ n *ᵥ v - rosQ0 J0 *ᵥ v‖ ≤ A * M * (h + ε) * ‖v‖

theorem ros_sequences {f : Vec d → ℝ → Vec d} {Df : Vec d → ℝ → Vec d →L[ℝ] Vec d} {T L K : ℝ} (hf : SmoothField f Df T L K)
    (hL : 0 ≤ L) (hT : 0 ≤ T) (S : Mat d m) : ∃ A, 0 ≤ A ∧ ∀ {a0 δ : ℝ}, 0 < δ → 0 ≤ a0 → a0 + δ ≤ T → ∀ {M : ℕ}, 0 < M →
      ∀ (a b : Vec m) (y : Vec d), ∃ (D w F u : ℕ → Vec d) (J Γ : ℕ → Mat d d), RosSeq f Df S L A a0 (δ / M) M a b y D w F u J Γ ∧
      (∀ n, (rosScheme (additiveField f S a0 δ a b) (δ / M) ⟨y, additiveField f S a0 δ a b y 0, 0, 0⟩ n).x +
        (δ / M) • (rosScheme (additiveField f S a0 δ a b) (δ / M) ⟨y, additiveField f S a0 δ a b y 0, 0, 0⟩ n).v =
          y + (D n + (δ / M) • w n + S *ᵥ trapNoise M a b (n + 1))) ∧
      (rosScheme (additiveField f S a0 δ a b) (δ / M) ⟨y, additiveField f S a0 δ a b y 0, 0, 0⟩ M).x = y + S *ᵥ a + D M := by
  obtain ⟨c, hc, hcov⟩ := rosScheme_cov d hL hT
  obtain ⟨A, hA, hgam⟩ := rosGam_bounds d hL hT hc
  refine ⟨A, hA, ?_⟩
  intro a0 δ hδ ha haδ M hM a b y
  have hM' : (0 : ℝ) < M := by exact_mod_cast hM
  have hM1 : (1 : ℝ) ≤ M := by exact_mod_cast hM
  have hin : ∀ {t}, t ∈ Icc 0 δ → t + a0 ∈ Icc 0 T := fun ht => ⟨by linarith [ht.1], by linarith [ht.2]⟩
  obtain ⟨h, hh⟩ : ∃ h, h = δ / M := ⟨_, rfl⟩
  have hh0 : 0 < h := by rw [hh]; positivity
  have hMh : M * h = δ := by rw [hh]; field_simp
  have hMT : M * h ≤ T := by linarith
  obtain ⟨p, hp⟩ : ∃ p : ℝ → Vec m, p = fun t => Foster.evalParabola t δ a b := ⟨_, rfl⟩
  obtain ⟨vf, hvf⟩ : ∃ vf, vf = additiveField f S a0 δ a b := ⟨_, rfl⟩
  have htn : ∀ n < M, ((n : ℝ) + 1) * h ∈ Icc 0 δ := fun n hn => ⟨by positivity, by
    rw [← hMh]; exact mul_le_mul_of_nonneg_right (by exact_mod_cast hn) hh0.le⟩
  rw [← hvf, ← hh]
  have hpq : ∀ n : ℕ, p (n * h) + h • jacT p (n * h) = trapNoise M a b (n + 1) := fun n => by
    rw [hp, hh]; exact parabola_predict hδ.ne' hM a b n
  have hpt : ∀ n : ℕ, p ((n + 1 : ℕ) * h) - p (n * h) = (h / 2) • (jacT p (n * h) + jacT p ((n + 1 : ℕ) * h)) := fun n => by
    have := parabola_trapezoid hδ.ne' a b (n * h) h
    rw [hp]
    have e : ((n + 1 : ℕ) : ℝ) * h = n * h + h := by push_cast; ring
    rw [e]
    exact this
  have hpj : ∀ n : ℕ, h • (jacT p ((n + 1) * h) - jacT p (n * h)) = -((2 * Real.sqrt 6 / M ^ 2) • b) := fun n => by
    rw [hp, hh, jacT_evalParabola, jacT_evalParabola]
    funext j
    simp only [Pi.smul_apply, Pi.sub_apply, Pi.neg_apply, smul_eq_mul]
    field_simp
    ring
  have hvf' : ∀ z t, vf z t = f z (t + a0) + S *ᵥ jacT p t := fun z t => by rw [hvf, hp]; rfl
  obtain ⟨s, hs⟩ : ∃ s : ℕ → RosState d, s = rosScheme vf h ⟨y, vf y 0, 0, 0⟩ := ⟨_, rfl⟩
  have hs0 : s 0 = ⟨y, vf y 0, 0, 0⟩ := by rw [hs]; rfl
  obtain ⟨z, hz⟩ : ∃ z : ℕ → Vec d, ∀ n, z n = (s n).x + h • (s n).v := ⟨_, fun _ => rfl⟩
  obtain ⟨D, hD⟩ : ∃ D : ℕ → Vec d, ∀ n, D n = (s n).x - y - S *ᵥ p (n * h) := ⟨_, fun _ => rfl⟩
  obtain ⟨w, hw⟩ : ∃ w : ℕ → Vec d, ∀ n, w n = (s n).v - S *ᵥ jacT p (n * h) := ⟨_, fun _ => rfl⟩
  have hzD : ∀ n, z n = y + (D n + h • w n + S *ᵥ trapNoise M a b (n + 1)) := fun n => by
    rw [hz, ← hpq, hD, hw, mulVec_add, mulVec_smul]
    module
  obtain ⟨F, hF⟩ : ∃ F : ℕ → Vec d, ∀ n, F n = f (z n) ((n + 1) * h + a0) := ⟨_, fun _ => rfl⟩
  obtain ⟨u, hu⟩ : ∃ u : ℕ → Vec d, ∀ n, u n = h • (F n - w n) - (2 * Real.sqrt 6 / M ^ 2) • (S *ᵥ b) := ⟨_, fun _ => rfl⟩
  have hsx : ∀ n, (s (n + 1)).x = z n + rosGain h (s n).J (s n).C (s (n + 1)).J *ᵥ (vf (z n) ((n + 1) * h) - (s n).v) := fun n => by
    rw [hz, hs]; rfl
  have hsv : ∀ n, (s (n + 1)).v = vf (z n) ((n + 1) * h) +
      (s (n + 1)).J *ᵥ (rosGain h (s n).J (s n).C (s (n + 1)).J *ᵥ (vf (z n) ((n + 1) * h) - (s n).v)) := fun n => by
    rw [hz, hs]; rfl
  have hsJ : ∀ n < M, (s (n + 1)).J = LinearMap.toMatrix' (Df (z n) ((n + 1) * h + a0) : Vec d →ₗ[ℝ] Vec d) := fun n hn => by
    rw [hz, hs]
    show jac (fun x => vf x ((n + 1) * h)) _ = _
    rw [hvf]
    exact jac_additiveField hf S (hin (htn n hn)) a b _
  have hpsd : ∀ n, (s n).C.PosSemidef := by
    rw [hs]; exact rosScheme_psd vf hh0 PosSemidef.zero
  have hJ : ∀ n ≤ M, ∀ v, ‖(s n).J *ᵥ v‖ ≤ L * ‖v‖ := fun n hn v => by
    cases n with
    | zero =>
      rw [hs0]
      simp only [zero_mulVec, norm_zero]
      positivity
    | succ n =>
      rw [hsJ n hn, toMatrix_mulVec]
      exact ((Df _ _).le_opNorm v).trans (mul_le_mul_of_nonneg_right (hf.norm_jac_le hL (hin (htn n hn)) _) (norm_nonneg _))
  have hC : ∀ n ≤ M, ∀ v, ‖(s n).C *ᵥ v‖ ≤ c * M * ‖v‖ := by
    rw [hs] at hJ ⊢; exact hcov vf hh0 hMT y _ hJ
  have hG : ∀ n, h • (vf (z n) ((n + 1) * h) - (s n).v) = u n := fun n => by
    have e1 : S *ᵥ (h • (jacT p ((n + 1) * h) - jacT p (n * h))) = -((2 * Real.sqrt 6 / M ^ 2) • (S *ᵥ b)) := by
      rw [hpj, mulVec_neg, mulVec_smul]
    rw [mulVec_smul, mulVec_sub] at e1
    rw [hu, hF, hw, hvf', sub_eq_add_neg (h • _), ← e1]
    module
  have hGv : ∀ n, rosGain h (s n).J (s n).C (s (n + 1)).J *ᵥ (vf (z n) ((n + 1) * h) - (s n).v) =
      (1 / 2 : ℝ) • u n + h • (rosGam h (s n).J (s n).C (s (n + 1)).J *ᵥ u n) := fun n => by
    rw [rosGain_eq h _ (hpsd n), add_mulVec, smul_mulVec, smul_mulVec, one_mulVec, ← hG, mulVec_smul]
    module
  refine ⟨D, w, F, u, fun n => (s (n + 1)).J, fun n => rosGam h (s n).J (s n).C (s (n + 1)).J,
    ⟨?_, ?_, ?_, ?_, hu, ?_, ?_, fun n hn => hJ (n + 1) hn, ?_, ?_⟩, fun n => ?_, ?_⟩
  · have e : p 0 = 0 := by rw [hp]; funext j; simp [Foster.evalParabola, Foster.evalParabola1]
    rw [hD, hs0]
    simp [e]
  · rw [hw, hs0]
    simp [hvf']
  · intro n
    rw [hF, hzD]
  · intro n hn
    show (s (n + 1)).J = _
    rw [hsJ n hn, hzD]
  · intro n
    have e2 : S *ᵥ p ((n + 1 : ℕ) * h) = S *ᵥ p (n * h) + (h / 2) • (S *ᵥ jacT p (n * h) + S *ᵥ jacT p ((n + 1 : ℕ) * h)) := by
      rw [← mulVec_add, ← mulVec_smul, ← hpt, ← mulVec_add, add_sub_cancel]
    have e3 : u n = h • (vf (z n) ((n + 1) * h) - (s n).v) := (hG n).symm
    have e4 : ((n + 1 : ℕ) : ℝ) * h = (n + 1) * h := by push_cast; ring
    rw [hD, hsx, hGv, e2, hD, hw, hF, hz]
    generalize rosGam h (s n).J (s n).C (s (n + 1)).J *ᵥ u n = r
    rw [e3, hvf', hz, e4]
    module
  · intro n
    have e4 : ((n + 1 : ℕ) : ℝ) * h = (n + 1) * h := by push_cast; ring
    rw [hw, hsv, hGv, hF, hvf', e4]
    module
  · intro n hn
    exact (hgam hh0 hM1 hMT (hpsd n) (hC n hn.le) (hJ n hn.le) (hJ (n + 1) hn)).1
  · intro J0 ε hε hJ0 n hn
    refine (hgam hh0 hM1 hMT (hpsd n) (hC n hn.le) (hJ n hn.le) (hJ (n + 1) hn)).2 hε (hJ0 n hn) ?_
    cases n with
    | zero => left; rw [hs0]
    | succ n => right; exact hJ0 n (by omega)
  · rw [← hzD, hz, hs]
  · have hpe : p (M * h) = a := by rw [hMh, hp]; exact evalParabola_end hδ.ne' a b
    rw [hD, hpe, hs]
    abel

set_option maxHeartbeats 1000000 in
/-- One interval of EKF1 with several steps, up to terms of second order; the constant does not depend on the number of steps. -/
theorem ros_steps_expansion {f : Vec d → ℝ → Vec d} {Df : Vec d → ℝ → Vec d →L[ℝ] Vec d} {T L K Lt : ℝ} (hf : SmoothField f Df T L K)
    (hL : 0 ≤ L) (hK : 0 ≤ K) (hLt : 0 ≤ Lt) (hT : 0 ≤ T) (htl : TimeLipschitz f T Lt) {S : Mat d m} {s : ℝ} (hs0 : 0 ≤ s)
    (hS : ∀ v, ‖S *ᵥ v‖ ≤ s * ‖v‖) : ∃ C, 0 ≤ C ∧ ∀ {a0 δ : ℝ}, 0 < δ → 0 ≤ a0 → a0 + δ ≤ T → ∀ {M : ℕ}, 0 < M →
      ∀ (a b : Vec m) (y : Vec d) {H : ℝ}, 1 + ‖y‖ + ‖f y a0‖ ≤ H → ∀ Θ : Vec d,
      Θ = (rosScheme (additiveField f S a0 δ a b) (δ / M) ⟨y, additiveField f S a0 δ a b y 0, 0, 0⟩ M).x →
      ‖Θ - (y + S *ᵥ a + δ • f y a0 + δ • Df y a0 (S *ᵥ ((1 / 2 : ℝ) • a + (1 / Real.sqrt 6 + trapExcess M) • b)) +
        δ • ((1 / (M : ℝ) ^ 2) • rosLin d (Df y a0) (S *ᵥ b) - (Real.sqrt 6 * (M - 1) / (2 * (M : ℝ) ^ 3)) • Df y a0 (S *ᵥ b)))‖ ≤
        δ * (C * (δ * H ^ 2 + (‖a‖ + 4 * ‖b‖) ^ 2)) ∧
      ‖Θ - y - S *ᵥ a‖ ≤ δ * (C * (H + (‖a‖ + 4 * ‖b‖))) ∧
      ∀ n < M, ‖(rosScheme (additiveField f S a0 δ a b) (δ / M) ⟨y, additiveField f S a0 δ a b y 0, 0, 0⟩ n).x +
        (δ / M) • (rosScheme (additiveField f S a0 δ a b) (δ / M) ⟨y, additiveField f S a0 δ a b y 0, 0, 0⟩ n).v - y‖ ≤
          δ * (C * (H + (‖a‖ + 4 * ‖b‖))) + s * (‖a‖ + 4 * ‖b‖) := by
  obtain ⟨A, hA, hseq⟩ := ros_sequences hf hL hT S
  obtain ⟨θ, hθ⟩ : ∃ θ, θ = 1 + A * T := ⟨_, rfl⟩
  have hθ0 : 0 ≤ θ := by rw [hθ]; positivity
  have hθ1 : 1 ≤ θ := by rw [hθ]; nlinarith
  obtain ⟨q1, hq1⟩ : ∃ q1, q1 = 2 * θ * L + θ ^ 2 * L ^ 2 * T + θ ^ 2 * L := ⟨_, rfl⟩
  have hq10 : 0 ≤ q1 := by rw [hq1]; positivity
  obtain ⟨q2, hq2⟩ : ∃ q2, q2 = 2 * θ + θ ^ 2 * L * T + 5 * A + 5 * θ ^ 2 * L := ⟨_, rfl⟩
  have hq20 : 0 ≤ q2 := by rw [hq2]; positivity
  obtain ⟨E, hE⟩ : ∃ E, E = Real.exp (q1 * T) := ⟨_, rfl⟩
  have hE0 : 0 < E := by rw [hE]; exact Real.exp_pos _
  obtain ⟨c1, hc1⟩ : ∃ c1, c1 = 1 + Lt * T + L * s + s := ⟨_, rfl⟩
  have hc10 : 0 ≤ c1 := by rw [hc1]; positivity
  obtain ⟨c2, hc2⟩ : ∃ c2, c2 = E * (θ + q2) * c1 := ⟨_, rfl⟩
  have hc20 : 0 ≤ c2 := by rw [hc2]; positivity
  obtain ⟨c3, hc3⟩ : ∃ c3, c3 = c2 * T + s := ⟨_, rfl⟩
  have hc30 : 0 ≤ c3 := by rw [hc3]; positivity
  obtain ⟨cF, hcF⟩ : ∃ cF, cF = c1 + L * (c2 * T) := ⟨_, rfl⟩
  have hcF0 : 0 ≤ cF := by rw [hcF]; positivity
  obtain ⟨cU, hcU⟩ : ∃ cU, cU = T * cF + c2 * T + 5 * s := ⟨_, rfl⟩
  have hcU0 : 0 ≤ cU := by rw [hcU]; positivity
  obtain ⟨c4, hc4⟩ : ∃ c4, c4 = cF + L * (θ * cU) + c1 := ⟨_, rfl⟩
  have hc40 : 0 ≤ c4 := by rw [hc4]; positivity
  obtain ⟨cε, hcε⟩ : ∃ cε, cε = K * (c2 * (1 + 2 * T) + s + (1 + T)) := ⟨_, rfl⟩
  have hcε0 : 0 ≤ cε := by rw [hcε]; positivity
  obtain ⟨Cc, hCc⟩ : ∃ Cc, Cc = Lt * (1 + c2 * T) + Lt * c3 * (1 + T) + 2 * K * c2 ^ 2 * T + 2 * K * c3 ^ 2 + L * c2 * (2 + T) := ⟨_, rfl⟩
  have hCc0 : 0 ≤ Cc := by rw [hCc]; positivity
  obtain ⟨Cr, hCr⟩ : ∃ Cr, Cr = (1 / 2 * L * (cF + c4) + L * A * cU) * (2 + T) + 5 / 2 * s * cε := ⟨_, rfl⟩
  have hCr0 : 0 ≤ Cr := by rw [hCr]; positivity
  obtain ⟨Cs, hCs⟩ : ∃ Cs, Cs = A * (cF + c4) * (2 + T) + 5 * A * s * ((1 + T) + cε) := ⟨_, rfl⟩
  have hCs0 : 0 ≤ Cs := by rw [hCs]; positivity
  refine ⟨Cc + Cr + Cs + c2, by positivity, ?_⟩
  intro a0 δ hδ ha haδ M hM a b y H hH Θ hΘ
  obtain ⟨D, w, F, u, J, Γ, hq, hpred, hx⟩ := hseq hδ ha haδ hM a b y
  rw [hx] at hΘ
  have hM' : (0 : ℝ) < M := by exact_mod_cast hM
  have hM1 : (1 : ℝ) ≤ M := by exact_mod_cast hM
  have hin : ∀ {t}, t ∈ Icc 0 δ → t + a0 ∈ Icc 0 T := fun ht => ⟨by linarith [ht.1], by linarith [ht.2]⟩
  have ha0 : a0 ∈ Icc 0 T := ⟨ha, by linarith⟩
  have hδT : δ ≤ T := by linarith
  obtain ⟨h, hh⟩ : ∃ h, h = δ / M := ⟨_, rfl⟩
  have hh0 : 0 < h := by rw [hh]; positivity
  have hMh : M * h = δ := by rw [hh]; field_simp
  have hhδ : h ≤ δ := by rw [hh]; exact div_le_self hδ.le hM1
  obtain ⟨Q, hQ⟩ : ∃ Q, Q = ‖a‖ + 4 * ‖b‖ := ⟨_, rfl⟩
  have hQ0 : 0 ≤ Q := by rw [hQ]; positivity
  have hny := norm_nonneg y
  have hnf := norm_nonneg (f y a0)
  have hH1 : 1 ≤ H := by linarith
  rw [← hh] at hq
  rw [← hQ]
  obtain ⟨κ, hκ⟩ : ∃ κ, κ = 2 * Real.sqrt 6 / (M : ℝ) ^ 2 := ⟨_, rfl⟩
  have h6 : Real.sqrt 6 ≤ 5 / 2 := by rw [Real.sqrt_le_left (by norm_num)]; norm_num
  have h60 : 0 ≤ Real.sqrt 6 := Real.sqrt_nonneg _
  have hκ0 : 0 ≤ κ := by rw [hκ]; positivity
  have hκM : κ * M ≤ 5 := by
    have e : κ * M = 2 * Real.sqrt 6 / M := by rw [hκ]; field_simp
    rw [e, div_le_iff₀ hM']
    nlinarith
  have hκ5 : κ ≤ 5 := by nlinarith
  have hu' : ∀ n, u n = h • (F n - w n) - κ • (S *ᵥ b) := fun n => by rw [hκ]; exact hq.u_eq n
  have hqn : ∀ n ≤ M, ‖S *ᵥ trapNoise M a b n‖ ≤ s * Q := fun n hn =>
    (hS _).trans (mul_le_mul_of_nonneg_left (by rw [hQ]; exact trapNoise_le hM a b hn) hs0)
  have hbQ : ‖b‖ ≤ Q := by rw [hQ]; linarith [norm_nonneg a, norm_nonneg b]
  have hSb : ‖S *ᵥ b‖ ≤ s * Q := (hS b).trans (mul_le_mul_of_nonneg_left hbQ hs0)
  have htn : ∀ n < M, ((n : ℝ) + 1) * h ∈ Icc 0 δ := fun n hn => ⟨by positivity, by
    rw [← hMh]; exact mul_le_mul_of_nonneg_right (by exact_mod_cast hn) hh0.le⟩
  have hsQ0 : 0 ≤ s * Q := by positivity
  obtain ⟨c, hc⟩ : ∃ c, c = ‖f y a0‖ + Lt * (1 + ‖y‖) * δ + L * (s * Q) := ⟨_, rfl⟩
  have hc0 : 0 ≤ c := by rw [hc]; positivity
  have hun : ∀ n < M, ‖u n‖ ≤ h * ‖F n‖ + h * ‖w n‖ + κ * (s * Q) := fun n _ => by
    rw [hu']
    refine (norm_sub_le _ _).trans (add_le_add ?_ ?_)
    · rw [norm_smul, Real.norm_of_nonneg hh0.le, ← mul_add]
      exact mul_le_mul_of_nonneg_left (norm_sub_le _ _) hh0.le
    · rw [norm_smul, Real.norm_of_nonneg hκ0]
      exact mul_le_mul_of_nonneg_left hSb hκ0
  have hFb : ∀ n < M, ‖F n‖ ≤ c + L * (‖D n‖ + h * ‖w n‖) := fun n hn => by
    rw [hq.F_eq]
    have hm' := hin (htn n hn)
    generalize ht : ((n : ℝ) + 1) * h + a0 = t at hm' ⊢
    have htt : |t - a0| ≤ δ := by
      rw [← ht, add_sub_cancel_right, abs_of_nonneg (htn n hn).1]; exact (htn n hn).2
    obtain ⟨x, hx⟩ : ∃ x, x = D n + h • w n + S *ᵥ trapNoise M a b (n + 1) := ⟨_, rfl⟩
    rw [← hx]
    have h1 : ‖f (y + x) t - f y t‖ ≤ L * ‖x‖ := by simpa using hf.lip (y + x) y t hm'
    have h2 : ‖f y t - f y a0‖ ≤ Lt * (1 + ‖y‖) * δ := (htl y t hm' a0 ha0).trans (mul_le_mul_of_nonneg_left htt (by positivity))
    have h3 : ‖x‖ ≤ ‖D n‖ + h * ‖w n‖ + s * Q := by
      rw [hx]
      refine (norm_add_le _ _).trans (add_le_add ((norm_add_le _ _).trans ?_) (hqn _ hn))
      rw [norm_smul, Real.norm_of_nonneg hh0.le]
    have h4 : ‖f (y + x) t‖ ≤ ‖f (y + x) t - f y t‖ + ‖f y t - f y a0‖ + ‖f y a0‖ := by
      have : f (y + x) t = (f (y + x) t - f y t) + (f y t - f y a0) + f y a0 := by abel
      conv_lhs => rw [this]
      exact (norm_add_le _ _).trans (add_le_add (norm_add_le _ _) le_rfl)
    have h5 := mul_le_mul_of_nonneg_left h3 hL
    rw [hc]
    linarith
  have hDb : ∀ n < M, ‖D (n + 1)‖ ≤ ‖D n‖ + h / 2 * ‖w n‖ + h / 2 * ‖F n‖ + h * (A * M * ‖u n‖) := fun n hn => by
    rw [hq.D_succ]
    refine (norm_add_le _ _).trans (add_le_add ((norm_add_le _ _).trans ?_) ?_)
    · rw [norm_smul, Real.norm_of_nonneg (by positivity : 0 ≤ h / 2), add_assoc, ← mul_add]
      exact add_le_add le_rfl (mul_le_mul_of_nonneg_left (norm_add_le _ _) (by positivity))
    · rw [norm_smul, Real.norm_of_nonneg hh0.le]
      exact mul_le_mul_of_nonneg_left (hq.Γ_le n hn _) hh0.le
  have hwe : ∀ n < M, ‖J n *ᵥ ((1 / 2 : ℝ) • u n + h • (Γ n *ᵥ u n))‖ ≤ L * ((1 / 2 + h * (A * M)) * ‖u n‖) := fun n hn => by
    refine (hq.J_le n hn _).trans (mul_le_mul_of_nonneg_left ((norm_add_le _ _).trans ?_) hL)
    rw [norm_smul, norm_smul, Real.norm_of_nonneg hh0.le, Real.norm_of_nonneg (by norm_num : (0 : ℝ) ≤ 1 / 2), add_mul, mul_assoc h]
    exact add_le_add le_rfl (mul_le_mul_of_nonneg_left (hq.Γ_le n hn _) hh0.le)
  have hwb : ∀ n < M, ‖w (n + 1)‖ ≤ ‖F n‖ + L * ((1 / 2 + h * (A * M)) * ‖u n‖) := fun n hn => by
    rw [hq.w_succ]
    exact (norm_add_le _ _).trans (add_le_add le_rfl (hwe n hn))
  have hw0c : ‖w 0‖ ≤ c := by
    rw [hq.w0, hc]
    have h1 : 0 ≤ Lt * (1 + ‖y‖) * δ := by positivity
    have h2 : 0 ≤ L * (s * Q) := by positivity
    linarith
  have hR := ros_apriori hL hA hT hh0 hc0 hsQ0 hκ0 hκM (hMh.le.trans hδT) hθ (fun n => norm_nonneg (w n)) (fun n => norm_nonneg (D n))
    (fun n => norm_nonneg (F n)) (by rw [hq.D0, norm_zero]) hw0c hFb hun hDb hwb
  rw [← hq1, ← hq2] at hR
  have hnδ : ∀ n ≤ M, (n : ℝ) * h ≤ δ := fun n hn => by
    rw [← hMh]; exact mul_le_mul_of_nonneg_right (by exact_mod_cast hn) hh0.le
  have hcH : c + s * Q ≤ c1 * (H + Q) := by
    have h1 : Lt * (1 + ‖y‖) * δ ≤ Lt * T * (H + Q) := by
      have h0 : 1 + ‖y‖ ≤ H + Q := by linarith
      have : Lt * (1 + ‖y‖) * δ ≤ Lt * (H + Q) * T :=
        mul_le_mul (mul_le_mul_of_nonneg_left h0 hLt) hδT hδ.le (by positivity)
      linarith
    have h2 : L * (s * Q) ≤ L * s * (H + Q) := by
      have := mul_le_mul_of_nonneg_left (by linarith : Q ≤ H + Q) (by positivity : 0 ≤ L * s)
      linarith
    have h3 : s * Q ≤ s * (H + Q) := mul_le_mul_of_nonneg_left (by linarith) hs0
    rw [hc, hc1]
    have : ‖f y a0‖ ≤ H + Q := by linarith
    linarith
  have hHQ : 0 ≤ H + Q := by linarith
  have hR' : ∀ n ≤ M, ‖D n‖ + θ * (h * ‖w n‖) ≤ c2 * δ * (H + Q) := fun n hn => by
    refine (hR n hn).trans ?_
    have h1 := pow_le_exp_rate (q := q1) hq10 hh0.le ((hnδ n hn).trans hδT)
    rw [← hE] at h1
    have h2 : (θ * h + n * h * q2) * (c + s * Q) ≤ (θ + q2) * δ * (c1 * (H + Q)) := by
      have h3 := mul_le_mul_of_nonneg_right (hnδ n hn) hq20
      have h4 := mul_le_mul_of_nonneg_left hhδ hθ0
      exact mul_le_mul (by linarith) hcH (by positivity) (by positivity)
    calc _ ≤ E * ((θ + q2) * δ * (c1 * (H + Q))) := mul_le_mul h1 h2 (by positivity) hE0.le
      _ = _ := by rw [hc2]; ring
  have hR2 : ∀ n ≤ M, ‖D n‖ + h * ‖w n‖ ≤ c2 * δ * (H + Q) := fun n hn => by
    have : h * ‖w n‖ ≤ θ * (h * ‖w n‖) := le_mul_of_one_le_left (by positivity) hθ1
    linarith [hR' n hn]
  have hR3 : c2 * δ * (H + Q) ≤ c2 * T * (H + Q) := by gcongr
  have hFn : ∀ n < M, ‖F n‖ ≤ cF * (H + Q) := fun n hn => by
    have h1 := mul_le_mul_of_nonneg_left ((hR2 n hn.le).trans hR3) hL
    rw [hcF]
    linarith [hFb n hn]
  have hUn : ∀ n < M, ‖u n‖ ≤ cU * (H + Q) := fun n hn => by
    have h1 : h * ‖F n‖ ≤ T * (cF * (H + Q)) := mul_le_mul (hhδ.trans hδT) (hFn n hn) (norm_nonneg _) hT
    have h2 : κ * (s * Q) ≤ 5 * (s * (H + Q)) :=
      mul_le_mul hκ5 (mul_le_mul_of_nonneg_left (by linarith) hs0) hsQ0 (by norm_num)
    have h3 := (hR2 n hn.le).trans hR3
    have h4 := norm_nonneg (D n)
    rw [hcU]
    linarith [hun n hn]
  have hgθ : 1 / 2 + h * (A * M) ≤ θ := by
    have : A * (M * h) ≤ A * T := mul_le_mul_of_nonneg_left (hMh.le.trans hδT) hA
    rw [hθ]
    linarith
  have hWn : ∀ n ≤ M, ‖w n‖ ≤ c4 * (H + Q) := fun n hn => by
    cases n with
    | zero =>
      have h1 : 0 ≤ cF * (H + Q) := by positivity
      have h2 : 0 ≤ L * (θ * cU) * (H + Q) := by positivity
      rw [hc4]
      linarith
    | succ n =>
      have h1 : (1 / 2 + h * (A * M)) * ‖u n‖ ≤ θ * (cU * (H + Q)) := mul_le_mul hgθ (hUn n hn) (norm_nonneg _) hθ0
      have h2 := mul_le_mul_of_nonneg_left h1 hL
      have h3 : 0 ≤ c1 * (H + Q) := by positivity
      rw [hc4]
      linarith [hwb n hn, hFn n hn]
  have hFw : ∀ n < M, ‖F n - w n‖ ≤ (cF + c4) * (H + Q) := fun n hn => by
    refine (norm_sub_le _ _).trans ?_
    linarith [hFn n hn, hWn n hn.le]
  obtain ⟨Z, hZ⟩ : ∃ Z, Z = δ * H ^ 2 + Q ^ 2 := ⟨_, rfl⟩
  have hZ0 : 0 ≤ Z := by rw [hZ]; positivity
  obtain ⟨ε, hε⟩ : ∃ ε, ε = K * (c2 * δ * (H + Q) + s * Q + δ) := ⟨_, rfl⟩
  have hε0 : 0 ≤ ε := by rw [hε]; positivity
  obtain ⟨z1, z2, z3⟩ := ros_scalars hT hδ.le hδT hH1 hQ0 hK hs0 hc20
  rw [← hZ] at z1 z2 z3 ⊢
  rw [← hε, ← hcε] at z3
  have hRF : ∀ n < M, ‖F n - f y a0 - Df y a0 (S *ᵥ trapNoise M a b (n + 1))‖ ≤ Cc * Z := fun n hn => by
    rw [hq.F_eq]
    have hu1 : ‖D n + h • w n‖ ≤ c2 * δ * (H + Q) := by
      refine (norm_add_le _ _).trans ?_
      rw [norm_smul, Real.norm_of_nonneg hh0.le]
      exact hR2 n hn.le
    have htt : |((n : ℝ) + 1) * h + a0 - a0| ≤ δ := by
      rw [add_sub_cancel_right, abs_of_nonneg (htn n hn).1]; exact (htn n hn).2
    have h1 := hf.expand hL hLt htl (y := y) (u := D n + h • w n + S *ᵥ trapNoise M a b (n + 1)) (v := S *ᵥ trapNoise M a b (n + 1))
      (t := (n + 1) * h + a0) (t0 := a0) (δ := δ) (ρ := c2 * δ * (H + Q)) (r := c2 * δ * (H + Q) + s * Q) (hin (htn n hn)) ha0 htt
      ((norm_add_le _ _).trans (add_le_add hu1 (hqn _ hn))) (by rw [add_sub_cancel_right]; exact hu1) hK
    refine h1.trans ?_
    have h2 := remainder_le (ρ := c2 * δ * (H + Q)) (r := c2 * δ * (H + Q) + s * Q) (c2 := c2) (c3 := c3) hLt hK hL hδ.le hδT hH1 hQ0
      hc20 hc30 (by positivity) le_rfl (by
        have : c2 * δ * Q ≤ c2 * T * Q := by gcongr
        rw [hc3]
        linarith)
    rw [hCc, hZ]
    refine le_trans ?_ h2
    have h3 : Lt * (1 + ‖y‖ + (c2 * δ * (H + Q) + s * Q)) * δ ≤ Lt * (H + (c2 * δ * (H + Q) + s * Q)) * δ := by
      gcongr
      linarith
    linarith
  -- the Jacobians
  obtain ⟨J0, hJ0⟩ : ∃ J0, J0 = LinearMap.toMatrix' (Df y a0 : Vec d →ₗ[ℝ] Vec d) := ⟨_, rfl⟩
  have hJ0v : ∀ v, J0 *ᵥ v = Df y a0 v := fun v => by rw [hJ0, toMatrix_mulVec]
  have hJJ : ∀ n < M, ∀ v, ‖(J n - J0) *ᵥ v‖ ≤ ε * ‖v‖ := fun n hn v => by
    rw [sub_mulVec, hq.J_eq n hn, hJ0, toMatrix_mulVec, toMatrix_mulVec, ← ContinuousLinearMap.sub_apply]
    refine (ContinuousLinearMap.le_opNorm _ v).trans (mul_le_mul_of_nonneg_right ?_ (norm_nonneg _))
    refine (hf.jac _ y _ (hin (htn n hn)) _ ha0).trans ?_
    rw [hε, add_sub_cancel_left, add_sub_cancel_right, abs_of_nonneg (htn n hn).1]
    refine mul_le_mul_of_nonneg_left (add_le_add ?_ (htn n hn).2) hK
    refine (norm_add_le _ _).trans (add_le_add ((norm_add_le _ _).trans ?_) (hqn _ hn))
    rw [norm_smul, Real.norm_of_nonneg hh0.le]
    exact hR2 n hn.le
  have hGl := hq.Γ_lim hε0 hJJ
  have hεQ : ε * (s * Q) ≤ s * (cε * Z) := by
    have := mul_le_mul_of_nonneg_left z3 hs0
    linarith
  -- the slope
  have hRr : ∀ n < M, ‖w (n + 1) - F n + (κ / 2) • Df y a0 (S *ᵥ b)‖ ≤ Cr * Z := fun n hn => by
    have e : w (n + 1) - F n + (κ / 2) • Df y a0 (S *ᵥ b) = (h / 2) • (J n *ᵥ (F n - w n)) + h • (J n *ᵥ (Γ n *ᵥ u n)) -
        (κ / 2) • ((J n - J0) *ᵥ (S *ᵥ b)) := by
      rw [hq.w_succ, mulVec_add, mulVec_smul, mulVec_smul]
      generalize J n *ᵥ (Γ n *ᵥ u n) = r
      rw [hu', mulVec_sub, mulVec_smul, mulVec_smul, sub_mulVec, hJ0v]
      module
    rw [e]
    have i1 : ‖(h / 2) • (J n *ᵥ (F n - w n))‖ ≤ δ / 2 * (L * ((cF + c4) * (H + Q))) := by
      rw [norm_smul, Real.norm_of_nonneg (by positivity)]
      exact mul_le_mul (by linarith) ((hq.J_le n hn _).trans (mul_le_mul_of_nonneg_left (hFw n hn) hL)) (norm_nonneg _) (by positivity)
    have i2 : ‖h • (J n *ᵥ (Γ n *ᵥ u n))‖ ≤ δ * (L * (A * (cU * (H + Q)))) := by
      rw [norm_smul, Real.norm_of_nonneg hh0.le]
      have h1 : ‖J n *ᵥ (Γ n *ᵥ u n)‖ ≤ L * (A * M * (cU * (H + Q))) :=
        (hq.J_le n hn _).trans (mul_le_mul_of_nonneg_left ((hq.Γ_le n hn _).trans
          (mul_le_mul_of_nonneg_left (hUn n hn) (by positivity))) hL)
      refine (mul_le_mul_of_nonneg_left h1 hh0.le).trans (le_of_eq ?_)
      rw [← hMh]
      ring
    have i3 : ‖(κ / 2) • ((J n - J0) *ᵥ (S *ᵥ b))‖ ≤ 5 / 2 * (s * (cε * Z)) := by
      rw [norm_smul, Real.norm_of_nonneg (by positivity)]
      exact mul_le_mul (by linarith) ((hJJ n hn _).trans ((mul_le_mul_of_nonneg_left hSb hε0).trans hεQ)) (norm_nonneg _) (by norm_num)
    refine (norm_sub_le _ _).trans ((add_le_add (norm_add_le _ _) le_rfl).trans ?_)
    have i4 := mul_le_mul_of_nonneg_left z1 (by positivity : 0 ≤ 1 / 2 * L * (cF + c4) + L * A * cU)
    rw [hCr]
    linarith
  -- the gain
  have hRs : ∀ n < M, ‖Γ n *ᵥ u n + κ • (rosQ0 J0 *ᵥ (S *ᵥ b))‖ ≤ Cs * Z := fun n hn => by
    have e : Γ n *ᵥ u n + κ • (rosQ0 J0 *ᵥ (S *ᵥ b)) = h • (Γ n *ᵥ (F n - w n)) - κ • (Γ n *ᵥ (S *ᵥ b) - rosQ0 J0 *ᵥ (S *ᵥ b)) := by
      rw [hu', mulVec_sub, mulVec_smul, mulVec_smul]
      module
    rw [e]
    have i1 : ‖h • (Γ n *ᵥ (F n - w n))‖ ≤ δ * (A * ((cF + c4) * (H + Q))) := by
      rw [norm_smul, Real.norm_of_nonneg hh0.le]
      refine (mul_le_mul_of_nonneg_left ((hq.Γ_le n hn _).trans (mul_le_mul_of_nonneg_left (hFw n hn) (by positivity))) hh0.le).trans
        (le_of_eq ?_)
      rw [← hMh]
      ring
    have i2 : ‖κ • (Γ n *ᵥ (S *ᵥ b) - rosQ0 J0 *ᵥ (S *ᵥ b))‖ ≤ 5 * (A * (s * ((1 + T) * Z) + s * (cε * Z))) := by
      rw [norm_smul, Real.norm_of_nonneg hκ0]
      have h1 : (h + ε) * ‖S *ᵥ b‖ ≤ s * ((1 + T) * Z) + s * (cε * Z) := by
        have h2 : h * ‖S *ᵥ b‖ ≤ δ * (s * Q) := mul_le_mul hhδ hSb (norm_nonneg _) hδ.le
        have h3 := mul_le_mul_of_nonneg_left z2 hs0
        have h4 := (mul_le_mul_of_nonneg_left hSb hε0).trans hεQ
        linarith
      have h0 : 0 ≤ A * ((h + ε) * ‖S *ᵥ b‖) := by positivity
      calc κ * ‖Γ n *ᵥ (S *ᵥ b) - rosQ0 J0 *ᵥ (S *ᵥ b)‖ ≤ κ * (A * M * (h + ε) * ‖S *ᵥ b‖) :=
            mul_le_mul_of_nonneg_left (hGl n hn _) hκ0
        _ = (κ * M) * (A * ((h + ε) * ‖S *ᵥ b‖)) := by ring
        _ ≤ 5 * (A * ((h + ε) * ‖S *ᵥ b‖)) := mul_le_mul_of_nonneg_right hκM h0
        _ ≤ _ := mul_le_mul_of_nonneg_left (mul_le_mul_of_nonneg_left h1 hA) (by norm_num)
    refine (norm_sub_le _ _).trans ?_
    have i4 := mul_le_mul_of_nonneg_left z1 (by positivity : 0 ≤ A * (cF + c4))
    rw [hCs]
    linarith
  obtain ⟨i, hi⟩ : ∃ i : ℕ → ℝ, ∀ n, i n = if n = 0 then 0 else 1 := ⟨_, fun _ => rfl⟩
  have hRW : ∀ n ≤ M, ‖w n - f y a0 - Df y a0 (S *ᵥ trapNoise M a b n) + (i n * (κ / 2)) • Df y a0 (S *ᵥ b)‖ ≤ (Cc + Cr) * Z :=
    fun n hn => by
      cases n with
      | zero =>
        rw [hq.w0, trapNoise, if_pos rfl, mulVec_zero, map_zero, hi, if_pos rfl]
        simp only [sub_self, zero_mul, zero_smul, add_zero, norm_zero]
        positivity
      | succ n =>
        rw [hi, if_neg (Nat.succ_ne_zero n), one_mul, add_mul]
        have e : w (n + 1) - f y a0 - Df y a0 (S *ᵥ trapNoise M a b (n + 1)) + (κ / 2) • Df y a0 (S *ᵥ b) =
            (F n - f y a0 - Df y a0 (S *ᵥ trapNoise M a b (n + 1))) + (w (n + 1) - F n + (κ / 2) • Df y a0 (S *ᵥ b)) := by abel
        rw [e]
        exact (norm_add_le _ _).trans (add_le_add (hRF n hn) (hRr n hn))
  have hfin : ∀ n ≤ M, ‖D n - ((n * h) • f y a0 + Df y a0 (S *ᵥ trapNoiseSum M a b h n) -
      (((n - 1 : ℕ) : ℝ) * h * κ / 4) • Df y a0 (S *ᵥ b) - (n * h * κ) • (rosQ0 J0 *ᵥ (S *ᵥ b)))‖ ≤
      n * h * ((Cc + Cr + Cs) * Z) := by
    intro n
    induction n with
    | zero => intro _; simp [hq.D0, trapNoiseSum]
    | succ n ih =>
      intro hn
      have hin' : ((n + 1 - 1 : ℕ) : ℝ) = ((n - 1 : ℕ) : ℝ) + i n := by
        rw [hi]
        cases n with
        | zero => simp
        | succ n => simp
      have e : D (n + 1) - (((n + 1 : ℕ) * h) • f y a0 + Df y a0 (S *ᵥ trapNoiseSum M a b h (n + 1)) -
          (((n + 1 - 1 : ℕ) : ℝ) * h * κ / 4) • Df y a0 (S *ᵥ b) - (((n + 1 : ℕ) : ℝ) * h * κ) • (rosQ0 J0 *ᵥ (S *ᵥ b))) =
          (D n - ((n * h) • f y a0 + Df y a0 (S *ᵥ trapNoiseSum M a b h n) -
            (((n - 1 : ℕ) : ℝ) * h * κ / 4) • Df y a0 (S *ᵥ b) - (n * h * κ) • (rosQ0 J0 *ᵥ (S *ᵥ b)))) +
          ((h / 2) • ((w n - f y a0 - Df y a0 (S *ᵥ trapNoise M a b n) + (i n * (κ / 2)) • Df y a0 (S *ᵥ b)) +
            (F n - f y a0 - Df y a0 (S *ᵥ trapNoise M a b (n + 1)))) + h • (Γ n *ᵥ u n + κ • (rosQ0 J0 *ᵥ (S *ᵥ b)))) := by
        rw [hin', hq.D_succ, trapNoiseSum, mulVec_add, mulVec_smul, mulVec_add, map_add, map_smul, map_add]
        push_cast
        module
      rw [e]
      refine (norm_add_le _ _).trans ((add_le_add (ih (by omega)) (norm_add_le _ _)).trans ?_)
      rw [norm_smul, norm_smul, Real.norm_of_nonneg hh0.le, Real.norm_of_nonneg (by positivity : 0 ≤ h / 2)]
      have h2 := mul_le_mul_of_nonneg_left ((norm_add_le _ _).trans (add_le_add (hRW n (by omega)) (hRF n hn)))
        (by positivity : 0 ≤ h / 2)
      have h3 := mul_le_mul_of_nonneg_left (hRs n hn) hh0.le
      have h4 : 0 ≤ h * (Cr * Z) := by positivity
      push_cast
      linarith
  refine ⟨?_, ?_, fun n hn => ?_⟩
  · have hlast := hfin M le_rfl
    rw [hMh, hh, trapNoiseSum_end hM, mulVec_smul, map_smul, ← hh] at hlast
    have e : ∀ X : Vec d, Θ - (y + S *ᵥ a + δ • f y a0 + δ • Df y a0 (S *ᵥ ((1 / 2 : ℝ) • a + (1 / Real.sqrt 6 + trapExcess M) • b)) + X) =
        D M - (δ • f y a0 + δ • Df y a0 (S *ᵥ ((1 / 2 : ℝ) • a + (1 / Real.sqrt 6 + trapExcess M) • b)) + X) := fun X => by
      rw [hΘ]; abel
    have e2 : δ • ((1 / (M : ℝ) ^ 2) • rosLin d (Df y a0) (S *ᵥ b) - (Real.sqrt 6 * (M - 1) / (2 * (M : ℝ) ^ 3)) • Df y a0 (S *ᵥ b)) =
        -((((M - 1 : ℕ) : ℝ) * h * κ / 4) • Df y a0 (S *ᵥ b)) - (δ * κ) • (rosQ0 J0 *ᵥ (S *ᵥ b)) := by
      rw [rosLin_apply, ← hJ0, Nat.cast_sub hM, Nat.cast_one, smul_sub, smul_smul, smul_smul, smul_smul]
      have e3 : δ * (Real.sqrt 6 * (M - 1) / (2 * (M : ℝ) ^ 3)) = ((M : ℝ) - 1) * h * κ / 4 := by
        rw [hh, hκ]
        field_simp
        ring
      have e4 : δ * (1 / (M : ℝ) ^ 2) * (-2 * Real.sqrt 6) = -(δ * κ) := by
        rw [hκ]
        field_simp
      rw [e3, e4]
      module
    rw [e, e2]
    have h1 : δ * ((Cc + Cr + Cs) * Z) ≤ δ * ((Cc + Cr + Cs + c2) * Z) :=
      mul_le_mul_of_nonneg_left (mul_le_mul_of_nonneg_right (by linarith) hZ0) hδ.le
    refine le_trans (le_of_eq ?_) (hlast.trans h1)
    congr 1
    abel
  · rw [hΘ, add_sub_right_comm, add_sub_cancel_left, add_sub_right_comm, sub_self, zero_add]
    have h1 := hR2 M le_rfl
    have h2 : 0 ≤ h * ‖w M‖ := by positivity
    have h3 : 0 ≤ δ * ((Cc + Cr + Cs) * (H + Q)) := by positivity
    linarith
  · rw [hpred, add_sub_cancel_left, ← hh]
    refine (norm_add_le _ _).trans (add_le_add ((norm_add_le _ _).trans ?_) (hqn _ hn))
    rw [norm_smul, Real.norm_of_nonneg hh0.le]
    have h1 := hR2 n hn.le
    have h3 : 0 ≤ δ * ((Cc + Cr + Cs) * (H + Q)) := by positivity
    linarith

end Verif
