import Verif.Lemmas.HeunLinear
import Verif.Lemmas.Alg3Bounds
import Verif.Lemmas.RosStep
import Verif.Props.RosEkf

/-! One EKF1 step per interval of `sde_solver` on linear problems. -/

namespace Verif

open Matrix Spec Jnp Set MeasureTheory ProbabilityTheory Filter Scripts
open scoped NNReal Topology

variable {d m : ℕ}

/-- The factors of the increment and of the second coefficient in one interval. -/
noncomputable def rosA (F : Mat d d) (δ : ℝ) : Mat d d := (rosW δ F)⁻¹ * (1 - (δ / 2) • Fᵀ)
noncomputable def rosB (F : Mat d d) (δ : ℝ) : Mat d d := (rosW δ F)⁻¹ * ((δ / 6) • Fᵀ)

/-- The covariance added by one interval. -/
noncomputable def rosCov (F V : Mat d d) (δ : ℝ) : Mat d d := δ • (rosA F δ * V * (rosA F δ)ᵀ) + (3 * δ) • (rosB F δ * V * (rosB F δ)ᵀ)

theorem rosW_mul_inv (F : Mat d d) (δ : ℝ) : rosW δ F * (rosW δ F)⁻¹ = 1 := mul_nonsing_inv _ (rosW_det δ F)
theorem rosW_inv_mul (F : Mat d d) (δ : ℝ) : (rosW δ F)⁻¹ * rosW δ F = 1 := nonsing_inv_mul _ (rosW_det δ F)

theorem rosW_transpose (F : Mat d d) (δ : ℝ) : (rosW δ F)ᵀ = rosW δ F := by
  simp only [rosW, transpose_add, transpose_sub, transpose_one, transpose_smul, transpose_mul, transpose_transpose]
  rw [add_comm Fᵀ F]

theorem rosWi_transpose (F : Mat d d) (δ : ℝ) : ((rosW δ F)⁻¹)ᵀ = (rosW δ F)⁻¹ := by rw [transpose_nonsing_inv, rosW_transpose]

/-- The covariance in closed form. -/
theorem rosCov_eq (F V : Mat d d) (δ : ℝ) :
    rosCov F V δ = δ • ((rosW δ F)⁻¹ * (V - (δ / 2) • (Fᵀ * V + V * F) + (δ ^ 2 / 3) • (Fᵀ * V * F)) * (rosW δ F)⁻¹) := by
  obtain ⟨W, hW⟩ : ∃ W, W = (rosW δ F)⁻¹ := ⟨_, rfl⟩
  have hWt : Wᵀ = W := by rw [hW, rosWi_transpose]
  rw [rosCov, rosA, rosB, ← hW]
  simp only [transpose_mul, transpose_sub, transpose_one, transpose_smul, transpose_transpose, hWt]
  have e : ((1 - (δ / 2) • Fᵀ) * V * (1 - (δ / 2) • F) : Mat d d) = V - (δ / 2) • (Fᵀ * V + V * F) + (δ ^ 2 / 4) • (Fᵀ * V * F) := by
    simp only [Matrix.sub_mul, Matrix.mul_sub, Matrix.one_mul, Matrix.mul_one, Matrix.smul_mul, Matrix.mul_smul, smul_sub, smul_smul, smul_add]
    rw [show δ / 2 * (δ / 2) = δ ^ 2 / 4 by ring]
    abel
  have e2 : ((δ / 6) • Fᵀ * V * ((δ / 6) • F) : Mat d d) = (δ ^ 2 / 36) • (Fᵀ * V * F) := by
    simp only [Matrix.smul_mul, Matrix.mul_smul, smul_smul]
    rw [show δ / 6 * (δ / 6) = δ ^ 2 / 36 by ring]
  have h1 : W * (1 - (δ / 2) • Fᵀ) * V * ((1 - (δ / 2) • F) * W) = W * ((1 - (δ / 2) • Fᵀ) * V * (1 - (δ / 2) • F)) * W := by simp only [Matrix.mul_assoc]
  have h2 : W * ((δ / 6) • Fᵀ) * V * ((δ / 6) • F * W) = W * ((δ / 6) • Fᵀ * V * ((δ / 6) • F)) * W := by simp only [Matrix.mul_assoc]
  rw [h1, h2, e, e2]
  obtain ⟨X, hX⟩ : ∃ X, X = V - (δ / 2) • (Fᵀ * V + V * F) := ⟨_, rfl⟩
  obtain ⟨Y, hY⟩ : ∃ Y, Y = Fᵀ * V * F := ⟨_, rfl⟩
  rw [← hX, ← hY]
  simp only [Matrix.mul_add, Matrix.add_mul, Matrix.mul_smul, Matrix.smul_mul, smul_add, smul_smul]
  rw [add_assoc, ← add_smul]
  congr 2
  ring

/-- The linearly implicit step on the field of one interval. -/
theorem ros_interval (F : Mat d d) (S : Mat d m) {δ : ℝ} (hδ : 0 < δ) (a b : Vec m) (tk : ℝ) (x : Vec d) {vf : Field d}
    (hvf : vf = intervalField (fun z _ => F *ᵥ z) (fun _ _ => S) (Foster.getApprox m) δ (a, b) tk) :
    rosStep vf F δ x = rosR δ F *ᵥ x + (rosA F δ *ᵥ (S *ᵥ a) + Real.sqrt 6 • (rosB F δ *ᵥ (S *ᵥ b))) := by
  obtain ⟨u, hu⟩ : ∃ u, u = S *ᵥ a := ⟨_, rfl⟩
  obtain ⟨w, hw⟩ : ∃ w, w = Real.sqrt 6 • S *ᵥ b := ⟨_, rfl⟩
  have e0 : ∀ z, vf z 0 = F *ᵥ z + (1 / δ) • (u + w) := fun z => by
    rw [hvf, intervalField_linear, hu, hw]
    show F *ᵥ z + ((1 / δ) • (S *ᵥ a) + (Real.sqrt 6 * (1 - 2 * 0 / δ) / δ) • (S *ᵥ b)) = _
    rw [show Real.sqrt 6 * (1 - 2 * 0 / δ) / δ = 1 / δ * Real.sqrt 6 by ring, smul_add, smul_smul]
  have e1 : ∀ z, vf z δ = F *ᵥ z + (1 / δ) • (u - w) := fun z => by
    rw [hvf, intervalField_linear, hu, hw]
    show F *ᵥ z + ((1 / δ) • (S *ᵥ a) + (Real.sqrt 6 * (1 - 2 * δ / δ) / δ) • (S *ᵥ b)) = _
    rw [show Real.sqrt 6 * (1 - 2 * δ / δ) / δ = -(1 / δ * Real.sqrt 6) by field_simp; ring, smul_sub, smul_smul, neg_smul, sub_eq_add_neg]
  have hdet := rosW_det δ F
  have hinj := (mulVec_injective_iff_isUnit (A := rosW δ F)).mpr ((isUnit_iff_isUnit_det _).mpr hdet)
  refine hinj ?_
  have hcancel : ∀ (M : Mat d d) (v : Vec d), rosW δ F *ᵥ (((rosW δ F)⁻¹ * M) *ᵥ v) = M *ᵥ v := fun M v => by
    rw [mulVec_mulVec, ← Matrix.mul_assoc, rosW_mul_inv, Matrix.one_mul]
  have hcancel' : ∀ v : Vec d, rosW δ F *ᵥ ((rosW δ F)⁻¹ *ᵥ v) = v := fun v => by rw [mulVec_mulVec, rosW_mul_inv, one_mulVec]
  have hr : Real.sqrt 6 • (rosB F δ *ᵥ (S *ᵥ b)) = rosB F δ *ᵥ w := by rw [hw, mulVec_smul]
  rw [hr, ← hu, rosStep, mulVec_add, mulVec_add, mulVec_add, mulVec_add, rosR, rosA, rosB, hcancel, hcancel, hcancel, hcancel', e0, e1]
  have c1 : δ • (F *ᵥ x + (1 / δ) • (u + w)) = δ • (F *ᵥ x) + (u + w) := by rw [smul_add, smul_smul, mul_one_div_cancel hδ.ne', one_smul]
  have c2 : F *ᵥ (x + (δ • (F *ᵥ x) + (u + w))) + (1 / δ) • (u - w) - (F *ᵥ x + (1 / δ) • (u + w)) =
      δ • (F *ᵥ (F *ᵥ x)) + F *ᵥ u + F *ᵥ w - (2 / δ) • w := by
    simp only [mulVec_add, mulVec_smul, smul_add, smul_sub]
    funext i
    simp only [Pi.add_apply, Pi.sub_apply, Pi.smul_apply, smul_eq_mul]
    ring
  rw [c1, c2]
  simp only [rosW, mulVec_add, mulVec_sub, add_mulVec, sub_mulVec, one_mulVec, smul_mulVec, mulVec_smul, ← mulVec_mulVec, smul_add, smul_sub, smul_smul]
  funext i
  simp only [Pi.add_apply, Pi.sub_apply, Pi.smul_apply, smul_eq_mul]
  field_simp
  ring

/-- The loading of the coefficients of one interval. -/
noncomputable def pairLoad (A B : Mat d d) (S : Mat d m) : Matrix (Fin d) (Fin m × Fin 2) ℝ :=
  Matrix.of fun i p => ![(A * S : Mat d m) i p.1, Real.sqrt 6 * (B * S : Mat d m) i p.1] p.2

theorem pairLoad_mulVec (A B : Mat d d) (S : Mat d m) (a b : Vec m) :
    pairLoad A B S *ᵥ (fun p => ![a p.1, b p.1] p.2) = A *ᵥ (S *ᵥ a) + Real.sqrt 6 • (B *ᵥ (S *ᵥ b)) := by
  funext i
  rw [mulVec_mulVec, mulVec_mulVec]
  simp only [pairLoad, mulVec, dotProduct, Fintype.sum_prod_type, Fin.sum_univ_two, Matrix.of_apply, cons_val_zero, cons_val_one,
    Finset.sum_add_distrib, Pi.add_apply, Pi.smul_apply, smul_eq_mul, Finset.mul_sum]
  congr 1
  exact Finset.sum_congr rfl fun j _ => by ring

theorem pairLoad_cov (A B : Mat d d) (S : Mat d m) (δ : ℝ) :
    pairLoad A B S * diagonal (fun p => ![δ, δ / 2] p.2) * (pairLoad A B S)ᵀ = δ • (A * (S * Sᵀ) * Aᵀ) + (3 * δ) • (B * (S * Sᵀ) * Bᵀ) := by
  have e : ∀ A : Mat d d, A * (S * Sᵀ) * Aᵀ = (A * S) * (A * S)ᵀ := fun A => by rw [transpose_mul]; simp only [Matrix.mul_assoc]
  rw [e, e]
  have h6 : Real.sqrt 6 * Real.sqrt 6 = 6 := Real.mul_self_sqrt (by norm_num)
  ext i j
  rw [mul_apply, Matrix.add_apply, Matrix.smul_apply, Matrix.smul_apply, mul_apply, mul_apply, Fintype.sum_prod_type]
  obtain ⟨X, hX⟩ : ∃ X, X = A * S := ⟨_, rfl⟩
  obtain ⟨Y, hY⟩ : ∃ Y, Y = B * S := ⟨_, rfl⟩
  simp only [mul_diagonal, transpose_apply, pairLoad, Matrix.of_apply, Fin.sum_univ_two, cons_val_zero, cons_val_one, Finset.sum_add_distrib, smul_eq_mul,
    Finset.mul_sum, ← hX, ← hY]
  congr 1
  · exact Finset.sum_congr rfl fun k _ => by ring
  · refine Finset.sum_congr rfl fun k _ => ?_
    calc Real.sqrt 6 * Y i k * (δ / 2) * (Real.sqrt 6 * Y j k) = Real.sqrt 6 * Real.sqrt 6 * (δ / 2) * (Y i k * Y j k) := by ring
      _ = _ := by rw [h6]; ring

/-- The law of every state of `sde_solver` with parabolas when one interval is an affine map of the state and of the two coefficients. -/
theorem affine_interval_law {Ω : Type*} [MeasurableSpace Ω] {P : Measure Ω} {R : Ω → Rng} (hR : IdealNormals P R) (key : Key) (x0 : Vec d) (F : Mat d d) (S : Mat d m)
    {δ : ℝ} (hδ : 0 < δ) (N : ℕ) (ode : OdeInt (Vec d) d) (E A B : Mat d d)
    (hode : ∀ κ x a b tk, ode κ x (intervalField (fun z _ => F *ᵥ z) (fun _ _ => S) (Foster.getApprox m) δ (a, b) tk) δ =
      E *ᵥ x + (A *ᵥ (S *ᵥ a) + Real.sqrt 6 • (B *ᵥ (S *ᵥ b))))
    (n : ℕ) (hn : n ≤ N) : ∃ y : Ω → Vec d,
      (∀ ω, (sdeSolver (R ω) key (fun x _ => F *ᵥ x) (fun _ _ => S) x0 (Foster.getApprox m) δ N ode).2.1[n]? = some (y ω)) ∧
      IsNormal P y (E ^ n *ᵥ x0) (∑ i ∈ Finset.range n, E ^ i * (δ • (A * (S * Sᵀ) * Aᵀ) + (3 * δ) • (B * (S * Sᵀ) * Bᵀ)) * (E ^ i)ᵀ) := by
  choose y h1 h2 h3 using fun ω => sdeSolver_states (R ω) key (fun x _ => F *ᵥ x) (fun _ _ => S) x0 (Foster.getApprox m) δ N ode
  have h4 : ∀ ω k, ∃ c : Vec m × Vec m, k < N → (sdeSolver (R ω) key (fun x _ => F *ᵥ x) (fun _ _ => S) x0 (Foster.getApprox m) δ N ode).2.2[k]? = some c ∧
      y ω (k + 1) = ode ((key.child N k).child 2 1) (y ω k) (intervalField (fun x _ => F *ᵥ x) (fun _ _ => S) (Foster.getApprox m) δ c (k * δ)) δ := fun ω k => by
    by_cases hk : k < N
    · obtain ⟨c, hc⟩ := h3 ω k hk
      exact ⟨c, fun _ => hc⟩
    · exact ⟨(0, 0), fun h => absurd h hk⟩
  choose c hc using h4
  refine ⟨fun ω => y ω n, fun ω => h1 ω n hn, ?_⟩
  have hlaw := C91_code_law hR key (fun x _ => F *ᵥ x) (fun _ _ => S) x0 hδ N ode (fun ω k => (c ω k).1) (fun ω k => (c ω k).2) (fun ω k hk => (hc ω k hk).1)
  rw [diagonal_prod (fun p : Fin m × Fin 2 => ![δ, δ / 2] p.2)] at hlaw
  have h5 := isNormal_steps hlaw (u := fun k ω p => ![(c ω k).1 p.1, (c ω k).2 p.1] p.2) E (pairLoad A B S) x0 (fun n ω => y ω n) h2
    (fun k hk ω => by rw [(hc ω k hk).2, pairLoad_mulVec]; exact hode _ _ (c ω k).1 (c ω k).2 _) n hn
  rw [pairLoad_cov] at h5
  exact h5

section Norm

open scoped Matrix.Norms.Operator

/-- The moments when one step is close to the exact one, to third order. -/
theorem near_moments (F : Mat d d) (S : Mat d m) {T : ℝ} (hT : 0 < T) (Q R : ℝ → Mat d d) {a c : ℝ} (ha : 0 ≤ a)
    (hQ : ∀ h, 0 < h → h ≤ T → ‖Q h - trans15 F h‖ ≤ a * h ^ 3) (hR : ∀ h, 0 < h → h ≤ T → ‖R h - transitionCov F S h‖ ≤ c * h ^ 3) :
    ∃ C : ℝ, 0 ≤ C ∧ ∀ N : ℕ, 0 < N → ∀ k ≤ N,
      ‖Q (T / N) ^ k - expm ((k * (T / N)) • F)‖ ≤ C * (T / N) ^ 2 ∧
      ‖∑ i ∈ Finset.range k, Q (T / N) ^ i * R (T / N) * (Q (T / N) ^ i)ᵀ - transitionCov F S (k * (T / N))‖ ≤ C * (T / N) ^ 2 := by
  rcases isEmpty_or_nonempty (Fin d) with he | hne
  · refine ⟨0, le_rfl, fun N _ k _ => ⟨?_, ?_⟩⟩
    · rw [Subsingleton.elim (Q (T / N) ^ k - expm ((k * (T / N)) • F)) 0, norm_zero]
      simp
    · rw [Subsingleton.elim (∑ i ∈ Finset.range k, Q (T / N) ^ i * R (T / N) * (Q (T / N) ^ i)ᵀ - transitionCov F S (k * (T / N))) 0, norm_zero]
      simp
  obtain ⟨L0, hL0e⟩ : ∃ L, L = max ‖F‖ ‖Fᵀ‖ := ⟨_, rfl⟩
  have hF1 : ‖F‖ ≤ L0 := hL0e ▸ le_max_left _ _
  have hF2 : ‖Fᵀ‖ ≤ L0 := hL0e ▸ le_max_right _ _
  have hL00 : 0 ≤ L0 := (norm_nonneg F).trans hF1
  obtain ⟨a', ha'⟩ : ∃ a', a' = (1 + d) * a := ⟨_, rfl⟩
  have hd0 : (0 : ℝ) ≤ d := Nat.cast_nonneg d
  have ha0 : 0 ≤ a' := by rw [ha']; positivity
  have haa : a ≤ a' := by rw [ha']; nlinarith
  have hda : d * a ≤ a' := by rw [ha']; nlinarith
  obtain ⟨L, hL⟩ : ∃ L, L = L0 + a' * T ^ 2 := ⟨_, rfl⟩
  have hLL : L0 ≤ L := by rw [hL]; have : 0 ≤ a' * T ^ 2 := by positivity
                          linarith
  have hLn : 0 ≤ L := hL00.trans hLL
  have hVc : ContinuousOn (fun t => ‖transitionCov F S t‖) (Icc 0 T) := by
    refine (Continuous.norm ?_).continuousOn
    refine continuous_pi fun i => continuous_pi fun j => ?_
    exact intervalIntegral.continuous_primitive (fun a b => (transitionCov_integrand_continuous F S i j).intervalIntegrable a b) 0
  obtain ⟨B, hB⟩ := isCompact_Icc.bddAbove_image hVc
  have hB' : ∀ t ∈ Icc 0 T, ‖transitionCov F S t‖ ≤ B := fun t ht => hB ⟨t, ht, rfl⟩
  have hB0 : 0 ≤ B := (norm_nonneg _).trans (hB' 0 ⟨le_rfl, hT.le⟩)
  obtain ⟨X, hX⟩ : ∃ X, X = Real.exp (T * L) := ⟨_, rfl⟩
  have hX0 : 0 ≤ X := by rw [hX]; positivity
  obtain ⟨K, hK⟩ : ∃ K, K = a' + L0 ^ 3 * Real.exp (T * L0) := ⟨_, rfl⟩
  have hK0 : 0 ≤ K := by rw [hK]; positivity
  obtain ⟨Y, hY⟩ : ∃ Y, Y = Real.exp (2 * T * L) := ⟨_, rfl⟩
  have hY0 : 0 ≤ Y := by rw [hY]; positivity
  have hnear : ∀ {G q : Mat d d} {h : ℝ}, ‖G‖ ≤ L0 → 0 < h → h ≤ T → ‖q - trans15 G h‖ ≤ a' * h ^ 3 →
      ‖q‖ ≤ Real.exp (h * L) ∧ ‖q - expm (h • G)‖ ≤ K * h ^ 3 := fun {G q h} hG h0 hhT hq => by
    constructor
    · have h1 : ‖q‖ ≤ ‖trans15 G h‖ + a' * h ^ 3 := by
        have := norm_le_norm_add_norm_sub' q (trans15 G h)
        linarith
      have h2 := trans15_norm_le G hG h0.le
      have h3 : a' * h ^ 3 ≤ h * (a' * T ^ 2) := by
        calc a' * h ^ 3 = h * (a' * h ^ 2) := by ring
          _ ≤ _ := by gcongr
      have h4 := Real.add_one_le_exp (h * (a' * T ^ 2))
      have h5 : 1 ≤ Real.exp (h * L0) := Real.one_le_exp (by positivity)
      have h6 : 0 ≤ h * (a' * T ^ 2) := by positivity
      rw [hL, mul_add, Real.exp_add]
      nlinarith
    · have h2 := trans15_sub G hG h0.le hhT
      have e : q - expm (h • G) = (q - trans15 G h) + (trans15 G h - expm (h • G)) := by abel
      rw [e]
      refine (norm_add_le _ _).trans ?_
      rw [hK, add_mul]
      gcongr
  refine ⟨T * K * X + T * (2 * K * B * X + |c|) * Y, by positivity, fun N hN k hk => ?_⟩
  have hN' : (0 : ℝ) < N := by exact_mod_cast hN
  obtain ⟨δ, hδ⟩ : ∃ δ, δ = T / N := ⟨_, rfl⟩
  rw [← hδ]
  have hδ0 : 0 < δ := by rw [hδ]; positivity
  have hNδ : (N : ℝ) * δ = T := by rw [hδ]; field_simp
  have hδT : δ ≤ T := by
    rw [← hNδ]
    have : (1 : ℝ) ≤ N := by exact_mod_cast hN
    nlinarith
  have hkδ : (k : ℝ) * δ ≤ T := by rw [← hNδ]; exact mul_le_mul_of_nonneg_right (by exact_mod_cast hk) hδ0.le
  have q1 := hQ δ hδ0 hδT
  obtain ⟨n1, n2⟩ := hnear hF1 hδ0 hδT (q1.trans (by gcongr))
  have hTe : (expm (δ • F))ᵀ = expm (δ • Fᵀ) := by rw [← transpose_smul]; exact (Matrix.exp_transpose _).symm
  obtain ⟨n3, n4⟩ := hnear (q := (Q δ)ᵀ) hF2 hδ0 hδT (by
    rw [← trans15_transpose, ← transpose_sub]
    refine (norm_transpose_le _).trans ?_
    calc (d : ℝ) * ‖Q δ - trans15 F δ‖ ≤ d * (a * δ ^ 3) := by gcongr
      _ = d * a * δ ^ 3 := by ring
      _ ≤ _ := by gcongr)
  rw [← hTe] at n4
  have s1 : 0 ≤ T * (2 * K * B * X + |c|) * Y := by positivity
  have s2 : 0 ≤ T * K * X := by positivity
  constructor
  · rw [← expm_pow]
    refine (pow_sub_pow_le _ _ (x := δ * L) (by positivity) n1 (exp_norm_le F (hF1.trans hLL) hδ0.le) k).trans ?_
    have h1 : Real.exp (k * (δ * L)) ≤ X := by
      rw [hX]
      refine Real.exp_le_exp.mpr ?_
      rw [← mul_assoc]
      gcongr
    calc (k : ℝ) * ‖Q δ - expm (δ • F)‖ * Real.exp (k * (δ * L)) ≤ k * (K * δ ^ 3) * X := by gcongr
      _ = (k * δ) * K * X * δ ^ 2 := by ring
      _ ≤ T * K * X * δ ^ 2 := by gcongr
      _ ≤ _ := by gcongr; linarith only [s1]
  · have h1 := cov_recursion_near F S (hF1.trans hLL) hδ0 hB0 (a := K * δ ^ 3) (b := |c| * δ ^ 3) (by positivity) (by positivity) hNδ.le hδT hB' n1 n3 n2 n4
      ((hR δ hδ0 hδT).trans (by gcongr; exact le_abs_self c)) k hk
    refine h1.trans ?_
    rw [← hX, ← hY]
    calc (k : ℝ) * (2 * (K * δ ^ 3) * B * X + |c| * δ ^ 3) * Y = (k * δ) * (2 * K * B * X + |c|) * Y * δ ^ 2 := by ring
      _ ≤ T * (2 * K * B * X + |c|) * Y * δ ^ 2 := by gcongr
      _ ≤ _ := by gcongr; linarith only [s2]

theorem rosWi_norm (F : Mat d d) (δ : ℝ) : ‖(rosW δ F)⁻¹‖ ≤ 4 * d := by
  rw [linfty_opNorm_eq_opNorm]
  exact ContinuousLinearMap.opNorm_le_bound _ (by positivity) fun v => rosW_inv_le δ F v

theorem rosR_local (F : Mat d d) {T : ℝ} (hT : 0 < T) : ∃ a : ℝ, 0 ≤ a ∧ ∀ h, 0 < h → h ≤ T → ‖rosR h F - trans15 F h‖ ≤ a * h ^ 3 := by
  obtain ⟨G1, hG1⟩ : ∃ G1, G1 = (1 / 4 : ℝ) • ((F + Fᵀ) * F * F) - (1 / 3 : ℝ) • (Fᵀ * F * F) := ⟨_, rfl⟩
  obtain ⟨G2, hG2⟩ : ∃ G2, G2 = (1 / 6 : ℝ) • (Fᵀ * F * F * F) := ⟨_, rfl⟩
  refine ⟨4 * d * (‖G1‖ + T * ‖G2‖), by positivity, fun h h0 hhT => ?_⟩
  have e : rosR h F - trans15 F h = (rosW h F)⁻¹ * (h ^ 3 • G1 - h ^ 4 • G2) := by
    have e1 : rosR h F - trans15 F h = (rosW h F)⁻¹ * ((1 + (h / 2) • (F - Fᵀ) - (h ^ 2 / 6) • (Fᵀ * F)) - rosW h F * trans15 F h) := by
      rw [Matrix.mul_sub, ← Matrix.mul_assoc, rosW_inv_mul, Matrix.one_mul, rosR]
    rw [e1]
    congr 1
    rw [hG1, hG2, rosW, trans15]
    simp only [Matrix.add_mul, Matrix.sub_mul, Matrix.mul_add, Matrix.one_mul, Matrix.mul_one, Matrix.smul_mul, Matrix.mul_smul, smul_add, smul_sub, smul_smul,
      Matrix.mul_assoc]
    ext i j
    simp only [Matrix.add_apply, Matrix.sub_apply, Matrix.smul_apply, smul_eq_mul]
    ring
  rw [e]
  refine (norm_mul_le _ _).trans ?_
  have h1 : ‖h ^ 3 • G1 - h ^ 4 • G2‖ ≤ (‖G1‖ + T * ‖G2‖) * h ^ 3 := by
    refine (norm_sub_le _ _).trans ?_
    rw [norm_smul, norm_smul, Real.norm_of_nonneg (by positivity), Real.norm_of_nonneg (by positivity)]
    calc h ^ 3 * ‖G1‖ + h ^ 4 * ‖G2‖ = (‖G1‖ + h * ‖G2‖) * h ^ 3 := by ring
      _ ≤ _ := by gcongr
  calc _ ≤ 4 * d * ((‖G1‖ + T * ‖G2‖) * h ^ 3) := mul_le_mul (rosWi_norm F h) h1 (norm_nonneg _) (by positivity)
    _ = _ := by ring

theorem rosCov_local (F : Mat d d) (S : Mat d m) {T : ℝ} (hT : 0 < T) : ∃ c : ℝ, ∀ h, 0 < h → h ≤ T →
    ‖rosCov F (S * Sᵀ) h - transitionCov F S h‖ ≤ c * h ^ 3 := by
  obtain ⟨c, hc⟩ := cov15_local F S hT
  obtain ⟨V, hV⟩ : ∃ V, V = S * Sᵀ := ⟨_, rfl⟩
  rw [← hV] at hc ⊢
  -- the factor of the increment
  obtain ⟨G1, hG1⟩ : ∃ G1, G1 = (1 / 4 : ℝ) • ((F + Fᵀ) * F) - (1 / 3 : ℝ) • (Fᵀ * F) := ⟨_, rfl⟩
  obtain ⟨G2, hG2⟩ : ∃ G2, G2 = (1 / 6 : ℝ) • (Fᵀ * F * F) := ⟨_, rfl⟩
  obtain ⟨α, hα⟩ : ∃ α, α = 4 * d * (‖G1‖ + T * ‖G2‖) := ⟨_, rfl⟩
  have hα0 : 0 ≤ α := by rw [hα]; positivity
  have hA : ∀ h, 0 < h → h ≤ T → ‖rosA F h - (1 + (h / 2) • F)‖ ≤ α * h ^ 2 := fun h h0 hhT => by
    have e : rosA F h - (1 + (h / 2) • F) = (rosW h F)⁻¹ * (h ^ 2 • G1 - h ^ 3 • G2) := by
      have e1 : rosA F h - (1 + (h / 2) • F) = (rosW h F)⁻¹ * ((1 - (h / 2) • Fᵀ) - rosW h F * (1 + (h / 2) • F)) := by
        rw [Matrix.mul_sub, ← Matrix.mul_assoc, rosW_inv_mul, Matrix.one_mul, rosA]
      rw [e1]
      congr 1
      rw [hG1, hG2, rosW]
      simp only [Matrix.add_mul, Matrix.sub_mul, Matrix.mul_add, Matrix.one_mul, Matrix.mul_one, Matrix.smul_mul, Matrix.mul_smul, smul_add, smul_sub, smul_smul,
        Matrix.mul_assoc]
      ext i j
      simp only [Matrix.add_apply, Matrix.sub_apply, Matrix.smul_apply, smul_eq_mul]
      ring
    rw [e, hα]
    refine (norm_mul_le _ _).trans ?_
    have h1 : ‖h ^ 2 • G1 - h ^ 3 • G2‖ ≤ (‖G1‖ + T * ‖G2‖) * h ^ 2 := by
      refine (norm_sub_le _ _).trans ?_
      rw [norm_smul, norm_smul, Real.norm_of_nonneg (by positivity), Real.norm_of_nonneg (by positivity)]
      calc h ^ 2 * ‖G1‖ + h ^ 3 * ‖G2‖ = (‖G1‖ + h * ‖G2‖) * h ^ 2 := by ring
        _ ≤ _ := by gcongr
    calc _ ≤ 4 * d * ((‖G1‖ + T * ‖G2‖) * h ^ 2) := mul_le_mul (rosWi_norm F h) h1 (norm_nonneg _) (by positivity)
      _ = _ := by ring
  have hB : ∀ h, 0 < h → ‖rosB F h‖ ≤ 4 * d * ‖Fᵀ‖ * h := fun h h0 => by
    rw [rosB]
    refine (norm_mul_le _ _).trans ?_
    rw [norm_smul, Real.norm_of_nonneg (by positivity)]
    calc _ ≤ 4 * d * (h / 6 * ‖Fᵀ‖) := mul_le_mul_of_nonneg_right (rosWi_norm F h) (by positivity)
      _ ≤ 4 * d * (h * ‖Fᵀ‖) := by gcongr; linarith
      _ = _ := by ring
  obtain ⟨β, hβ⟩ : ∃ β, β = 4 * d * ‖Fᵀ‖ := ⟨_, rfl⟩
  have hβ0 : 0 ≤ β := by rw [hβ]; positivity
  simp only [← hβ] at hB
  obtain ⟨γ, hγ⟩ : ∃ γ, γ = ‖(1 : Mat d d)‖ + T * ‖F‖ + α * T ^ 2 := ⟨_, rfl⟩
  have hd0 : (0 : ℝ) ≤ d := Nat.cast_nonneg d
  have hγ0 : 0 ≤ γ := by rw [hγ]; positivity
  have hA0 : ∀ h, 0 < h → h ≤ T → ‖1 + (h / 2) • F‖ ≤ γ := fun h h0 hhT => by
    refine (norm_add_le _ _).trans ?_
    rw [norm_smul, Real.norm_of_nonneg (by positivity), hγ]
    have h1 : h / 2 * ‖F‖ ≤ T * ‖F‖ := by gcongr; linarith
    have h2 : 0 ≤ α * T ^ 2 := by positivity
    linarith
  have hAn : ∀ h, 0 < h → h ≤ T → ‖rosA F h‖ ≤ γ := fun h h0 hhT => by
    have h1 := norm_le_norm_add_norm_sub' (rosA F h) (1 + (h / 2) • F)
    have h2 := hA h h0 hhT
    have h3 : ‖1 + (h / 2) • F‖ ≤ ‖(1 : Mat d d)‖ + T * ‖F‖ := by
      refine (norm_add_le _ _).trans ?_
      rw [norm_smul, Real.norm_of_nonneg (by positivity)]
      have h1 : h / 2 * ‖F‖ ≤ T * ‖F‖ := by gcongr; linarith
      linarith
    have h4 : α * h ^ 2 ≤ α * T ^ 2 := by gcongr
    rw [hγ]
    linarith
  refine ⟨c + (α * ‖V‖ * (d * γ) + γ * ‖V‖ * (d * α)) + 3 * (β * ‖V‖ * (d * β)) + 1 / 12 * ‖F * V * Fᵀ‖, fun h h0 hhT => ?_⟩
  obtain ⟨A, hAe⟩ : ∃ A, A = rosA F h := ⟨_, rfl⟩
  obtain ⟨A0, hA0e⟩ : ∃ A0, A0 = 1 + (h / 2) • F := ⟨_, rfl⟩
  obtain ⟨B, hBe⟩ : ∃ B, B = rosB F h := ⟨_, rfl⟩
  have hAd := hA h h0 hhT
  have hA1 := hAn h h0 hhT
  have hA2 := hA0 h h0 hhT
  have hB1 := hB h h0
  rw [← hAe, ← hA0e] at hAd
  rw [← hAe] at hA1
  rw [← hA0e] at hA2
  rw [← hBe] at hB1
  have hcov : cov15 F V h = h • (A0 * V * A0ᵀ) + (h ^ 3 / 12) • (F * V * Fᵀ) := by
    rw [hA0e, cov15]
    simp only [transpose_add, transpose_one, transpose_smul, Matrix.add_mul, Matrix.mul_add, Matrix.one_mul, Matrix.mul_one, Matrix.smul_mul, Matrix.mul_smul,
      smul_add, smul_smul]
    ext i j
    simp only [Matrix.add_apply, Matrix.smul_apply, smul_eq_mul]
    ring
  have e : rosCov F V h - transitionCov F S h = (cov15 F V h - transitionCov F S h) + h • ((A - A0) * V * Aᵀ + A0 * V * (A - A0)ᵀ) +
      (3 * h) • (B * V * Bᵀ) - (h ^ 3 / 12) • (F * V * Fᵀ) := by
    rw [rosCov, hcov, ← hAe, ← hBe, transpose_sub]
    simp only [Matrix.sub_mul, Matrix.mul_sub, smul_add, smul_sub]
    abel
  rw [e]
  refine (norm_sub_le _ _).trans ?_
  refine (add_le_add_left ((norm_add_le _ _).trans (add_le_add_left (norm_add_le _ _) _)) _).trans ?_
  rw [norm_smul, norm_smul, norm_smul, Real.norm_of_nonneg h0.le, Real.norm_of_nonneg (by positivity), Real.norm_of_nonneg (by positivity)]
  have k0 := hc h h0 hhT
  have k1 : ‖(A - A0) * V * Aᵀ + A0 * V * (A - A0)ᵀ‖ ≤ (α * ‖V‖ * (d * γ) + γ * ‖V‖ * (d * α)) * h ^ 2 := by
    refine (norm_add_le _ _).trans ?_
    have t1 : ‖(A - A0) * V * Aᵀ‖ ≤ α * h ^ 2 * ‖V‖ * (d * γ) := by
      refine (norm_mul_le _ _).trans (mul_le_mul ((norm_mul_le _ _).trans (by gcongr)) ((norm_transpose_le _).trans (by gcongr)) (norm_nonneg _) (by positivity))
    have t2 : ‖A0 * V * (A - A0)ᵀ‖ ≤ γ * ‖V‖ * (d * (α * h ^ 2)) := by
      refine (norm_mul_le _ _).trans (mul_le_mul ((norm_mul_le _ _).trans (by gcongr)) ((norm_transpose_le _).trans (by gcongr)) (norm_nonneg _) (by positivity))
    calc _ ≤ _ := add_le_add t1 t2
      _ = _ := by ring
  have k2 : ‖B * V * Bᵀ‖ ≤ β * ‖V‖ * (d * β) * h ^ 2 := by
    have t1 : ‖B * V * Bᵀ‖ ≤ β * h * ‖V‖ * (d * (β * h)) := by
      refine (norm_mul_le _ _).trans (mul_le_mul ((norm_mul_le _ _).trans (by gcongr)) ((norm_transpose_le _).trans (by gcongr)) (norm_nonneg _) (by positivity))
    exact t1.trans (le_of_eq (by ring))
  have k3 := mul_le_mul_of_nonneg_left k1 h0.le
  have k4 := mul_le_mul_of_nonneg_left k2 (show 0 ≤ 3 * h by positivity)
  calc _ ≤ c * h ^ (2 + 1) + h * ((α * ‖V‖ * (d * γ) + γ * ‖V‖ * (d * α)) * h ^ 2) + 3 * h * (β * ‖V‖ * (d * β) * h ^ 2) + h ^ 3 / 12 * ‖F * V * Fᵀ‖ :=
        add_le_add (add_le_add (add_le_add k0 k3) k4) le_rfl
    _ = _ := by ring

end Norm

end Verif
