import Verif.Lemmas.EulerLinear
import Verif.Props.SsmOrder

/-! One EKF0 step per interval on linear problems: in `sde_solver` with parabolas, and in the solver of Algorithm 4. -/

namespace Verif

open Matrix Spec Jnp Set MeasureTheory ProbabilityTheory Filter Scripts
open scoped NNReal Topology

variable {d m : ℕ}

/-- The covariance added by one interval of `sde_solver`. -/
noncomputable def heunCov (F V : Mat d d) (δ : ℝ) : Mat d d :=
  δ • ((1 + (δ / 2) • F) * V * (1 + (δ / 2) • F)ᵀ) + (3 * δ ^ 3 / 4) • (F * V * Fᵀ)

/-- The covariance added by one interval of Algorithm 4. -/
noncomputable def parCov (V : Mat d d) (c δ : ℝ) : Mat d d := δ • V + (c ^ 2 * δ ^ 3 / 12) • 1

theorem intervalField_linear (F : Mat d d) (S : Mat d m) (δ : ℝ) (a b : Vec m) (tk : ℝ) :
    intervalField (fun z _ => F *ᵥ z) (fun _ _ => S) (Foster.getApprox m) δ (a, b) tk =
      fun z t => F *ᵥ z + ((1 / δ) • (S *ᵥ a) + (Real.sqrt 6 * (1 - 2 * t / δ) / δ) • (S *ᵥ b)) := by
  funext z t
  have e := jacT_evalParabola δ a b t
  simp only [intervalField, Foster.getApprox, e]
  have e2 : (fun j => (a j + Real.sqrt 6 * b j * (1 - 2 * t / δ)) / δ) = (1 / δ) • a + (Real.sqrt 6 * (1 - 2 * t / δ) / δ) • b := by
    funext j
    simp only [Pi.add_apply, Pi.smul_apply, smul_eq_mul]
    ring
  rw [e2, mulVec_add, mulVec_smul, mulVec_smul]

/-- Heun's step on the field of one interval. -/
theorem heun_interval (F : Mat d d) (S : Mat d m) {δ : ℝ} (hδ : 0 < δ) (a b : Vec m) (tk : ℝ) (x : Vec d) {vf : Field d}
    (hvf : vf = intervalField (fun z _ => F *ᵥ z) (fun _ _ => S) (Foster.getApprox m) δ (a, b) tk) :
    x + (δ / 2) • (vf x 0 + vf (x + δ • vf x 0) δ) =
      trans15 F δ *ᵥ x + ((1 + (δ / 2) • F) *ᵥ (S *ᵥ a) + Real.sqrt 6 • (((δ / 2) • F) *ᵥ (S *ᵥ b))) := by
  rw [hvf, intervalField_linear]
  obtain ⟨u, hu⟩ : ∃ u, u = S *ᵥ a := ⟨_, rfl⟩
  obtain ⟨w, hw⟩ : ∃ w, w = S *ᵥ b := ⟨_, rfl⟩
  simp only [← hu, ← hw]
  have e0 : Real.sqrt 6 * (1 - 2 * 0 / δ) / δ = Real.sqrt 6 / δ := by simp
  have e1 : Real.sqrt 6 * (1 - 2 * δ / δ) / δ = -(Real.sqrt 6 / δ) := by field_simp; ring
  rw [e0, e1, trans15]
  simp only [mulVec_add, mulVec_smul, add_mulVec, one_mulVec, smul_mulVec, mulVec_mulVec, smul_add, smul_smul]
  have c1 : δ / 2 * (1 / δ) = 1 / 2 := by field_simp
  have c2 : δ / 2 * (δ * (1 / δ)) = δ / 2 := by field_simp
  have c3 : δ / 2 * (Real.sqrt 6 / δ) = Real.sqrt 6 / 2 := by field_simp
  have c4 : δ / 2 * (δ * (Real.sqrt 6 / δ)) = Real.sqrt 6 * (δ / 2) := by field_simp
  have c5 : δ / 2 * -(Real.sqrt 6 / δ) = -(Real.sqrt 6 / 2) := by field_simp
  rw [c1, c2, c3, c4, c5]
  funext i
  simp only [Pi.add_apply, Pi.smul_apply, smul_eq_mul]
  ring

/-- The loading of the coefficients of one interval. -/
noncomputable def heunLoad (F : Mat d d) (S : Mat d m) (δ : ℝ) : Matrix (Fin d) (Fin m × Fin 2) ℝ :=
  Matrix.of fun i p => ![((1 + (δ / 2) • F) * S : Mat d m) i p.1, Real.sqrt 6 * (((δ / 2) • F) * S : Mat d m) i p.1] p.2

theorem heunLoad_mulVec (F : Mat d d) (S : Mat d m) (δ : ℝ) (a b : Vec m) :
    heunLoad F S δ *ᵥ (fun p => ![a p.1, b p.1] p.2) = (1 + (δ / 2) • F) *ᵥ (S *ᵥ a) + Real.sqrt 6 • (((δ / 2) • F) *ᵥ (S *ᵥ b)) := by
  obtain ⟨A, hA⟩ : ∃ A, A = (1 + (δ / 2) • F) * S := ⟨_, rfl⟩
  obtain ⟨B, hB⟩ : ∃ B, B = ((δ / 2) • F) * S := ⟨_, rfl⟩
  funext i
  rw [mulVec_mulVec, mulVec_mulVec]
  simp only [heunLoad, ← hA, ← hB, mulVec, dotProduct, Fintype.sum_prod_type, Fin.sum_univ_two, Matrix.of_apply, cons_val_zero, cons_val_one,
    Finset.sum_add_distrib, Pi.add_apply, Pi.smul_apply, smul_eq_mul, Finset.mul_sum]
  congr 1
  exact Finset.sum_congr rfl fun j _ => by ring

theorem heunLoad_cov (F : Mat d d) (S : Mat d m) (δ : ℝ) :
    heunLoad F S δ * diagonal (fun p => ![δ, δ / 2] p.2) * (heunLoad F S δ)ᵀ = heunCov F (S * Sᵀ) δ := by
  obtain ⟨A, hA⟩ : ∃ A, A = (1 + (δ / 2) • F) * S := ⟨_, rfl⟩
  obtain ⟨B, hB⟩ : ∃ B, B = ((δ / 2) • F) * S := ⟨_, rfl⟩
  have eB : B * Bᵀ = (δ ^ 2 / 4) • (F * (S * Sᵀ) * Fᵀ) := by
    rw [hB, transpose_mul, transpose_smul, Matrix.smul_mul, Matrix.smul_mul, Matrix.mul_smul, Matrix.mul_smul, smul_smul]
    simp only [Matrix.mul_assoc]
    congr 1
    ring
  have e : heunCov F (S * Sᵀ) δ = δ • (A * Aᵀ) + (3 * δ) • (B * Bᵀ) := by
    rw [heunCov, eB, hA, transpose_mul, smul_smul]
    simp only [Matrix.mul_assoc]
    congr 2
    ring
  have h6 : Real.sqrt 6 * Real.sqrt 6 = 6 := Real.mul_self_sqrt (by norm_num)
  rw [e]
  ext i j
  rw [mul_apply, Matrix.add_apply, Matrix.smul_apply, Matrix.smul_apply, mul_apply, mul_apply, Fintype.sum_prod_type]
  simp only [mul_diagonal, transpose_apply, heunLoad, Matrix.of_apply, Fin.sum_univ_two, cons_val_zero, cons_val_one, Finset.sum_add_distrib, smul_eq_mul, Finset.mul_sum, ← hA, ← hB]
  congr 1
  · exact Finset.sum_congr rfl fun k _ => by ring
  · refine Finset.sum_congr rfl fun k _ => ?_
    calc Real.sqrt 6 * B i k * (δ / 2) * (Real.sqrt 6 * B j k) = Real.sqrt 6 * Real.sqrt 6 * (δ / 2) * (B i k * B j k) := by ring
      _ = _ := by rw [h6]; ring

theorem diagonal_prod {N : ℕ} {ρ : Type*} [DecidableEq ρ] (D : ρ → ℝ) :
    (diagonal fun q : Fin N × ρ => D q.2) = fun p q => if p.1 = q.1 then diagonal D p.2 q.2 else 0 := by
  ext ⟨i, p⟩ ⟨j, q⟩
  by_cases hij : i = j
  · subst hij
    by_cases hpq : p = q
    · subst hpq; simp
    · rw [diagonal_apply_ne _ (by simpa using hpq)]
      simp [hpq]
  · rw [diagonal_apply_ne _ (by simp [hij])]
    simp [hij]

/-- The law of every state of `sde_solver` with one Heun step per interval. -/
theorem heun_linear_law {Ω : Type*} [MeasurableSpace Ω] {P : Measure Ω} {R : Ω → Rng} (hR : IdealNormals P R) (key : Key) (x0 : Vec d) (F : Mat d d) (S : Mat d m)
    {δ : ℝ} (hδ : 0 < δ) (N : ℕ) (ode : OdeInt (Vec d) d) (hode : ∀ κ x vf, ode κ x vf δ = x + (δ / 2) • (vf x 0 + vf (x + δ • vf x 0) δ))
    (n : ℕ) (hn : n ≤ N) : ∃ y : Ω → Vec d,
      (∀ ω, (sdeSolver (R ω) key (fun x _ => F *ᵥ x) (fun _ _ => S) x0 (Foster.getApprox m) δ N ode).2.1[n]? = some (y ω)) ∧
      IsNormal P y (trans15 F δ ^ n *ᵥ x0) (∑ i ∈ Finset.range n, trans15 F δ ^ i * heunCov F (S * Sᵀ) δ * (trans15 F δ ^ i)ᵀ) := by
  choose y h1 h2 h3 using fun ω => sdeSolver_states (R ω) key (fun x _ => F *ᵥ x) (fun _ _ => S) x0 (Foster.getApprox m) δ N ode
  have h4 : ∀ ω k, ∃ c : Vec m × Vec m, k < N → (sdeSolver (R ω) key (fun x _ => F *ᵥ x) (fun _ _ => S) x0 (Foster.getApprox m) δ N ode).2.2[k]? = some c ∧
      y ω (k + 1) = ode ((key.child N k).child 2 1) (y ω k) (intervalField (fun x _ => F *ᵥ x) (fun _ _ => S) (Foster.getApprox m) δ c (k * δ)) δ := fun ω k => by
    by_cases hk : k < N
    · obtain ⟨c, hc⟩ := h3 ω k hk
      exact ⟨c, fun _ => hc⟩
    · exact ⟨(0, 0), fun h => absurd h hk⟩
  choose c hc using h4
  refine ⟨fun ω => y ω n, fun ω => h1 ω n hn, ?_⟩
  have hlaw := C91_code_law hR key (fun x _ => F *ᵥ x) (fun _ _ => S) x0 hδ N ode (fun ω k => (c ω k).1) (fun ω k => (c ω k).2) (fun ω k hk => (hc ω k hk).1)
  rw [diagonal_prod (fun p : Fin m × Fin 2 => ![δ, δ / 2] p.2)] at hlaw
  have h5 := isNormal_steps hlaw (u := fun k ω p => ![(c ω k).1 p.1, (c ω k).2 p.1] p.2) (trans15 F δ) (heunLoad F S δ) x0 (fun n ω => y ω n) h2
    (fun k hk ω => by rw [(hc ω k hk).2, hode, heun_interval F S hδ (c ω k).1 (c ω k).2 (k * δ) (y ω k) rfl, heunLoad_mulVec]) n hn
  rw [heunLoad_cov] at h5
  exact h5

/-- The law of every state of Algorithm 4 with EKF0 and one filter step per interval. -/
theorem par_linear_law {la : LinAlg} (hla : la.Correct) {Ω : Type*} [MeasurableSpace Ω] {P : Measure Ω} {R : Ω → Rng} (hR : IdealNormals P R) (key : Key)
    (x0 : Vec d) (F S : Mat d d) {δ : ℝ} (hδ : 0 < δ) (N : ℕ) {c : ℝ} (hc : c ≠ 0) (sqrt : Bool) (solver : Ω → Ssm.SsmInt (Vec d) (Vec d × Vec d) d d)
    (hs : ∀ ω k x f g, Ssm.wrapperFixed la (R ω) true (some k) x δ f g δ 1 sqrt (some ⟨2, IOUP.transition 0 c 1 δ 1⟩) none = .ok (solver ω k x f g δ))
    (n : ℕ) (hn : n ≤ N) : ∃ y : Ω → Vec d,
      (∀ ω, (Ssm.sdeSolver key (fun x _ => F *ᵥ x) (fun _ _ => S) x0 δ N (solver ω)).2[n]? = some (y ω)) ∧
      IsNormal P y (trans15 F δ ^ n *ᵥ x0) (∑ i ∈ Finset.range n, trans15 F δ ^ i * parCov (S * Sᵀ) c δ * (trans15 F δ ^ i)ᵀ) := by
  obtain ⟨G, hG, hwr⟩ := Ssm.wrapper_heun hla sqrt hδ hc S
  have hlaw := Ssm.noise_law hR key N hG
  rw [diagonal_prod (Sum.elim (fun _ : Fin d => c ^ 2 * δ ^ 3 / 12) fun _ : Fin d => δ)] at hlaw
  choose z hz1 hz0 hzs using fun ω => Ssm.sdeSolver_states key (fun x _ => F *ᵥ x) (fun _ _ => S) x0 δ N (solver ω)
  refine ⟨fun ω => z ω n, fun ω => hz1 ω n hn, ?_⟩
  have h5 := isNormal_steps hlaw (u := fun k ω p => (G *ᵥ (R ω).normalVec ((key.child N k).child 2 1) (d * (2 + 2))) p) (trans15 F δ)
    (fromCols 1 S) x0 (fun n ω => z ω n) hz0 (fun k hk ω => by
      obtain ⟨i, hi⟩ := hwr (R ω) ((key.child N k).child 2 1) (z ω k) (fun x _ => F *ᵥ x)
      rw [hzs ω k hk, ← Except.ok.inj (hi.symm.trans (hs ω _ _ _ _))]
      obtain ⟨v, hv⟩ : ∃ v, v = G *ᵥ (R ω).normalVec ((key.child N k).child 2 1) (d * (2 + 2)) := ⟨_, rfl⟩
      simp only [← hv]
      have e : (fromCols 1 S) *ᵥ v = (fun j => v (Sum.inl j)) + S *ᵥ (fun j => v (Sum.inr j)) := by
        have hve : v = Sum.elim (fun j => v (Sum.inl j)) (fun j => v (Sum.inr j)) := by
          funext p; rcases p with p | p <;> rfl
        conv_lhs => rw [hve]
        rw [fromCols_mulVec, one_mulVec]
        rfl
      have e2 : z ω k + (δ / 2) • (F *ᵥ z ω k + F *ᵥ (z ω k + δ • F *ᵥ z ω k)) = trans15 F δ *ᵥ z ω k := by
        rw [trans15]
        simp only [mulVec_add, mulVec_smul, add_mulVec, one_mulVec, smul_mulVec, mulVec_mulVec, smul_add, smul_smul]
        funext i
        simp only [Pi.add_apply, Pi.smul_apply, smul_eq_mul]
        ring
      show _ = trans15 F δ *ᵥ z ω k + fromCols 1 S *ᵥ v
      rw [e, e2]
      abel) n hn
  have hcov : (fromCols (1 : Mat d d) S : Matrix (Fin d) (Fin d ⊕ Fin d) ℝ) * diagonal (Sum.elim (fun _ : Fin d => c ^ 2 * δ ^ 3 / 12) fun _ : Fin d => δ) *
      (fromCols (1 : Mat d d) S)ᵀ = parCov (S * Sᵀ) c δ := by
    have hdiag : diagonal (Sum.elim (fun _ : Fin d => c ^ 2 * δ ^ 3 / 12) fun _ : Fin d => δ) =
        fromBlocks ((c ^ 2 * δ ^ 3 / 12) • (1 : Mat d d)) 0 0 (δ • (1 : Mat d d)) := by
      rw [← fromBlocks_diagonal, smul_one_eq_diagonal, smul_one_eq_diagonal]
    rw [hdiag, transpose_fromCols, fromCols_mul_fromBlocks, fromCols_mul_fromRows, parCov]
    simp only [Matrix.mul_zero, add_zero, zero_add, Matrix.mul_smul, Matrix.smul_mul, Matrix.mul_one, Matrix.one_mul, transpose_one]
    rw [add_comm]
  rw [hcov] at h5
  exact h5

section Norm

open scoped Matrix.Norms.Operator

theorem heunCov_local (F : Mat d d) (S : Mat d m) {T : ℝ} (hT : 0 < T) : ∃ c : ℝ, ∀ h, 0 < h → h ≤ T →
    ‖heunCov F (S * Sᵀ) h - transitionCov F S h‖ ≤ c * h ^ (2 + 1) := by
  obtain ⟨c, hc⟩ := cov15_local F S hT
  obtain ⟨V, hV⟩ : ∃ V, V = S * Sᵀ := ⟨_, rfl⟩
  rw [← hV] at hc ⊢
  refine ⟨c + 2 / 3 * ‖F * V * Fᵀ‖, fun h h0 hhT => ?_⟩
  have e : heunCov F V h - transitionCov F S h = (cov15 F V h - transitionCov F S h) + (2 * h ^ 3 / 3) • (F * V * Fᵀ) := by
    rw [heunCov, cov15]
    simp only [transpose_add, transpose_one, transpose_smul, Matrix.add_mul, Matrix.mul_add, Matrix.one_mul, Matrix.mul_one, Matrix.smul_mul, Matrix.mul_smul,
      smul_add, smul_smul]
    ext i j
    simp only [Matrix.add_apply, Matrix.sub_apply, Matrix.smul_apply, smul_eq_mul]
    ring
  rw [e]
  refine (norm_add_le _ _).trans ?_
  have h1 := hc h h0 hhT
  rw [norm_smul, Real.norm_of_nonneg (by positivity)]
  calc _ ≤ c * h ^ (2 + 1) + 2 * h ^ 3 / 3 * ‖F * V * Fᵀ‖ := by gcongr
    _ = _ := by ring

theorem parCov_local (F : Mat d d) (S : Mat d m) (s : ℝ) {T : ℝ} (hT : 0 < T) : ∃ c : ℝ, ∀ h, 0 < h → h ≤ T →
    ‖parCov (S * Sᵀ) s h - transitionCov F S h‖ ≤ c * h ^ (1 + 1) := by
  obtain ⟨c, hc⟩ := cov15_local F S hT
  obtain ⟨V, hV⟩ : ∃ V, V = S * Sᵀ := ⟨_, rfl⟩
  rw [← hV] at hc ⊢
  obtain ⟨n1, hn1⟩ : ∃ n1, n1 = ‖(1 : Mat d d)‖ := ⟨_, rfl⟩
  obtain ⟨n2, hn2⟩ : ∃ n2, n2 = ‖F * V + V * Fᵀ‖ := ⟨_, rfl⟩
  obtain ⟨n3, hn3⟩ : ∃ n3, n3 = ‖F * V * Fᵀ‖ := ⟨_, rfl⟩
  have p1 : 0 ≤ n1 := hn1 ▸ norm_nonneg _
  have p3 : 0 ≤ n3 := hn3 ▸ norm_nonneg _
  refine ⟨|c| * T + s ^ 2 * T / 12 * n1 + n2 / 2 + T / 3 * n3, fun h h0 hhT => ?_⟩
  have e : parCov V s h - transitionCov F S h = (cov15 F V h - transitionCov F S h) + (s ^ 2 * h ^ 3 / 12) • (1 : Mat d d) +
      (-(h ^ 2 / 2)) • (F * V + V * Fᵀ) + (-(h ^ 3 / 3)) • (F * V * Fᵀ) := by
    rw [parCov, cov15, neg_smul, neg_smul]
    abel
  rw [e]
  have h1 := hc h h0 hhT
  have h2 : c * h ^ (2 + 1) ≤ |c| * T * h ^ 2 := by
    calc c * h ^ (2 + 1) ≤ |c| * h ^ (2 + 1) := by gcongr; exact le_abs_self c
      _ = |c| * h ^ 2 * h := by ring
      _ ≤ |c| * h ^ 2 * T := by gcongr
      _ = _ := by ring
  have g1 : ‖(s ^ 2 * h ^ 3 / 12) • (1 : Mat d d)‖ ≤ s ^ 2 * T / 12 * n1 * h ^ 2 := by
    rw [norm_smul, Real.norm_of_nonneg (by positivity), ← hn1]
    calc s ^ 2 * h ^ 3 / 12 * n1 = s ^ 2 * h / 12 * n1 * h ^ 2 := by ring
      _ ≤ _ := by gcongr
  have g2 : ‖(-(h ^ 2 / 2)) • (F * V + V * Fᵀ)‖ ≤ n2 / 2 * h ^ 2 := by
    rw [norm_smul, norm_neg, Real.norm_of_nonneg (by positivity), ← hn2]
    exact le_of_eq (by ring)
  have g3 : ‖(-(h ^ 3 / 3)) • (F * V * Fᵀ)‖ ≤ T / 3 * n3 * h ^ 2 := by
    rw [norm_smul, norm_neg, Real.norm_of_nonneg (by positivity), ← hn3]
    calc h ^ 3 / 3 * n3 = h / 3 * n3 * h ^ 2 := by ring
      _ ≤ _ := by gcongr
  refine (norm_add_le _ _).trans ?_
  refine (add_le_add (norm_add_le _ _) le_rfl).trans ?_
  refine (add_le_add (add_le_add (norm_add_le _ _) le_rfl) le_rfl).trans ?_
  have : (|c| * T + s ^ 2 * T / 12 * n1 + n2 / 2 + T / 3 * n3) * h ^ (1 + 1) =
      |c| * T * h ^ 2 + s ^ 2 * T / 12 * n1 * h ^ 2 + n2 / 2 * h ^ 2 + T / 3 * n3 * h ^ 2 := by ring
  rw [this]
  linarith only [h1, h2, g1, g2, g3]

end Norm

end Verif
