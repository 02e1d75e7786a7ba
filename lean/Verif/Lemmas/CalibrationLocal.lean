import Verif.Lemmas.CalibrationBounded
import Verif.Lemmas.CalibrationPath
import Verif.Lemmas.CalibrationLaw
import Verif.Lemmas.BrownianSup

/-! Helper lemmas: runs of Algorithm 3 that stay in a ball do not see the drift outside a larger ball. -/

namespace Verif

open Matrix Spec Jnp Set MeasureTheory ProbabilityTheory Scripts Filter
open scoped NNReal ENNReal Matrix.Norms.Operator

variable {d m : ℕ}

/-- No coefficient of a run is large, but for an event whose probability is proportional to the step. -/
theorem coeffs_max {Ω : Type*} [MeasurableSpace Ω] {P : Measure Ω} {R : Ω → Rng} (hR : IdealNormals P R) (m : ℕ) {κ : ℝ} (hκ : 0 < κ) :
    ∃ C : ℝ, 0 ≤ C ∧ ∀ (key : Key) (N : ℕ) {fine : ℕ}, 0 < fine → ∀ {δ : ℝ}, 0 < δ →
    P.real {ω | ∃ k < N, κ < ‖((Foster.getApproxFine m fine).coeffs (R ω) ((key.child N k).child 2 0) δ).1‖ +
        ‖((Foster.getApproxFine m fine).coeffs (R ω) ((key.child N k).child 2 0) δ).2.1‖} ≤ C * (N * δ) * δ := by
  have hP : IsProbabilityMeasure P := (secondCoeff_normal hR (1 : Mat m m) one_pos [] one_pos).isProb
  have hg0 := gaussMoment4_nonneg
  refine ⟨8 * m * (m + m) * gaussMoment4 / κ ^ 4, by positivity, fun key N fine hfine δ hδ => ?_⟩
  have hn := fun k : ℕ => (C15_fine_law hR m fine hfine ((key.child N k).child 2 0) δ hδ).1
  obtain ⟨c, hc⟩ : ∃ c : ℕ → Ω → Fin 2 × Fin m → ℝ, ∀ k ω, c k ω = coeffVec ((Foster.getApproxFine m fine).coeffs (R ω) ((key.child N k).child 2 0) δ).1
      ((Foster.getApproxFine m fine).coeffs (R ω) ((key.child N k).child 2 0) δ).2.1 := ⟨_, fun _ _ => rfl⟩
  have h4 : ∀ k p, Integrable (fun ω => c k ω p ^ 4) P ∧ ∫ ω, c k ω p ^ 4 ∂P ≤ δ ^ 2 * gaussMoment4 := by
    intro k p
    have hl := (hn k).eval p
    simp only [← hc, diagonal_apply_eq, Pi.zero_apply] at hl
    have hi := integrable_pow4_gaussian (coeffVar m δ p).toNNReal
    refine ⟨(hl.map_eq ▸ hi).comp_aemeasurable hl.aemeasurable, ?_⟩
    refine (hl.integral_comp (f := fun x => x ^ 4) hi.aestronglyMeasurable).le.trans ?_
    rw [gaussian_pow4]
    refine mul_le_mul_of_nonneg_right (pow_le_pow_left₀ (NNReal.coe_nonneg _) ?_ 2) hg0
    obtain ⟨p1, p2⟩ := p
    fin_cases p1
    · simp [coeffVar, hδ.le]
    · simp [coeffVar, hδ.le]
  obtain ⟨Q, hQ⟩ : ∃ Q : Ω → ℝ, Q = fun ω => ∑ k ∈ Finset.range N, 8 * m * ∑ p, c k ω p ^ 4 := ⟨_, rfl⟩
  have hQi : Integrable Q P := by
    rw [hQ]
    exact integrable_finsetSum _ fun k _ => (integrable_finsetSum _ fun p _ => (h4 k p).1).const_mul _
  have hQe : ∫ ω, Q ω ∂P ≤ N * (8 * m * ((m + m) * (δ ^ 2 * gaussMoment4))) := by
    rw [hQ, integral_finsetSum _ fun k _ => (integrable_finsetSum _ fun p _ => (h4 k p).1).const_mul _]
    refine (Finset.sum_le_card_nsmul _ _ (8 * m * ((m + m) * (δ ^ 2 * gaussMoment4))) fun k _ => ?_).trans (le_of_eq (by rw [Finset.card_range, nsmul_eq_mul]))
    rw [integral_const_mul, integral_finsetSum _ fun p _ => (h4 k p).1]
    refine mul_le_mul_of_nonneg_left ?_ (by positivity)
    refine (Finset.sum_le_card_nsmul _ _ _ fun p _ => (h4 k p).2).trans (le_of_eq ?_)
    rw [Finset.card_univ, Fintype.card_prod, Fintype.card_fin, Fintype.card_fin, nsmul_eq_mul]
    push_cast
    ring
  have hQ0 : ∀ ω, 0 ≤ Q ω := fun ω => by
    rw [hQ]
    exact Finset.sum_nonneg fun k _ => mul_nonneg (by positivity) (Finset.sum_nonneg fun p _ => by positivity)
  have h := mul_meas_ge_le_integral_of_nonneg (ae_of_all P hQ0) hQi (κ ^ 4)
  have hsub : {ω | ∃ k < N, κ < ‖((Foster.getApproxFine m fine).coeffs (R ω) ((key.child N k).child 2 0) δ).1‖ +
        ‖((Foster.getApproxFine m fine).coeffs (R ω) ((key.child N k).child 2 0) δ).2.1‖} ⊆ {ω | κ ^ 4 ≤ Q ω} := by
    rintro ω ⟨k, hk, hlt⟩
    show κ ^ 4 ≤ Q ω
    have hle : 8 * m * ∑ p, c k ω p ^ 4 ≤ Q ω := by
      rw [hQ]
      exact Finset.single_le_sum (f := fun k => 8 * m * ∑ p, c k ω p ^ 4)
        (fun k _ => mul_nonneg (by positivity) (Finset.sum_nonneg fun p _ => by positivity)) (Finset.mem_range.mpr hk)
    refine le_trans ?_ hle
    rw [hc]
    revert hlt
    generalize (Foster.getApproxFine m fine).coeffs (R ω) ((key.child N k).child 2 0) δ = q
    intro hlt
    have h1 := norm_sq_le_sum q.1
    have h2 := norm_sq_le_sum q.2.1
    have e : ∑ p : Fin 2 × Fin m, coeffVec q.1 q.2.1 p ^ 4 = ∑ j, q.1 j ^ 4 + ∑ j, q.2.1 j ^ 4 := by
      rw [Fintype.sum_prod_type, Fin.sum_univ_two]
      rfl
    have cs : ∀ v : Vec m, (∑ j, v j ^ 2) ^ 2 ≤ m * ∑ j, v j ^ 4 := fun v => by
      have := sq_sum_le_card_mul_sum_sq (s := Finset.univ) (f := fun j => v j ^ 2)
      simpa [← pow_mul] using this
    have h3 := cs q.1
    have h5 := cs q.2.1
    have p1 : (‖q.1‖ ^ 2) ^ 2 ≤ (∑ j, q.1 j ^ 2) ^ 2 := pow_le_pow_left₀ (sq_nonneg _) h1 2
    have p2 : (‖q.2.1‖ ^ 2) ^ 2 ≤ (∑ j, q.2.1 j ^ 2) ^ 2 := pow_le_pow_left₀ (sq_nonneg _) h2 2
    have p3 : (‖q.1‖ + ‖q.2.1‖) ^ 4 ≤ 8 * (‖q.1‖ ^ 4 + ‖q.2.1‖ ^ 4) := by
      have h := add_pow_le (norm_nonneg q.1) (norm_nonneg q.2.1) 4
      norm_num at h
      exact h
    have p4 : κ ^ 4 ≤ (‖q.1‖ + ‖q.2.1‖) ^ 4 := pow_le_pow_left₀ hκ.le hlt.le 4
    rw [e]
    rw [← pow_mul] at p1 p2
    norm_num at p1 p2
    linarith
  have h2 := (measureReal_mono hsub (μ := P)).trans ((le_div_iff₀' (by positivity)).mpr h)
  refine h2.trans ((div_le_div_of_nonneg_right hQe (by positivity)).trans (le_of_eq ?_))
  field_simp

/-- Two runs of Algorithm 3 agree as long as the fields agree at the points where they are called. -/
theorem alg3Path_congr {vf wf : ℕ → Field d} {δ : ℝ} {x0 : Vec d} {N : ℕ} (h : ∀ k < N, ∀ y, y = (alg3Path vf δ x0 k).1 →
      vf k y 0 = wf k y 0 ∧ jac (fun x => vf k x 0) y = jac (fun x => wf k x 0) y ∧
      vf k (y + δ • vf k y 0) δ = wf k (y + δ • vf k y 0) δ ∧ jac (fun x => vf k x δ) (y + δ • vf k y 0) = jac (fun x => wf k x δ) (y + δ • vf k y 0)) :
    (∀ n ≤ N, alg3Path vf δ x0 n = alg3Path wf δ x0 n) ∧ (∀ k < N, alg3PathS vf δ x0 k = alg3PathS wf δ x0 k) ∧
      ∀ k < N, alg3Z (vf k) δ (alg3Path vf δ x0 k).1 = alg3Z (wf k) δ (alg3Path wf δ x0 k).1 := by
  have key : ∀ n ≤ N, alg3Path vf δ x0 n = alg3Path wf δ x0 n := by
    intro n
    induction n with
    | zero => intro _; rfl
    | succ n ih =>
      intro hn
      obtain ⟨h1, h2, h3, h4⟩ := h n hn _ rfl
      have e := ih (by omega)
      rw [alg3Path, alg3Path]
      rw [h2, h4, alg3Mean, alg3Mean, h3, h1, e]
  refine ⟨key, fun k hk => ?_, fun k hk => ?_⟩
  · obtain ⟨h1, h2, h3, h4⟩ := h k hk _ rfl
    rw [alg3PathS, alg3PathS]
    rw [h2, h4, h1, key k hk.le]
  · obtain ⟨h1, h2, h3, h4⟩ := h k hk _ rfl
    rw [alg3Z, alg3Z, h3, h1, key k hk.le]

/-- A run of Algorithm 3 that stays in a ball, with small coefficients, is a run with any field that agrees with the drift on a larger ball. -/
theorem alg3Path_local {f g : Field d} {Dg : Vec d → ℝ → Vec d →L[ℝ] Vec d} {T L K F Λ s : ℝ} (hg : SmoothField g Dg T L K) (hs : 0 ≤ s) {S : Mat d m}
    (hS : ∀ v, ‖S *ᵥ v‖ ≤ s * ‖v‖) (hgF : ∀ x t, ‖g x t‖ ≤ F) (heq : ∀ x, ‖x‖ ≤ Λ + 1 → ∀ t ∈ Icc 0 T, g x t = f x t) {δ : ℝ} (hδ : 0 < δ)
    (hδF : δ * F ≤ 1 / 4) {N : ℕ} (hN : N * δ = T) (x0 : Vec d) (a b : ℕ → Vec m) (hab : ∀ k < N, ‖a k‖ + ‖b k‖ ≤ 1 / (6 * (s + 1)))
    (hy : ∀ k ≤ N, ‖(alg3Path (fun (k : ℕ) => additiveField f S (k * δ) δ (a k) (b k)) δ x0 k).1‖ ≤ Λ) (k : ℕ) (hk : k < N) (y : Vec d)
    (hyk : y = (alg3Path (fun (k : ℕ) => additiveField f S (k * δ) δ (a k) (b k)) δ x0 k).1) :
    additiveField f S (k * δ) δ (a k) (b k) y 0 = additiveField g S (k * δ) δ (a k) (b k) y 0 ∧
      jac (fun x => additiveField f S (k * δ) δ (a k) (b k) x 0) y = jac (fun x => additiveField g S (k * δ) δ (a k) (b k) x 0) y ∧
      additiveField f S (k * δ) δ (a k) (b k) (y + δ • additiveField f S (k * δ) δ (a k) (b k) y 0) δ =
        additiveField g S (k * δ) δ (a k) (b k) (y + δ • additiveField f S (k * δ) δ (a k) (b k) y 0) δ ∧
      jac (fun x => additiveField f S (k * δ) δ (a k) (b k) x δ) (y + δ • additiveField f S (k * δ) δ (a k) (b k) y 0) =
        jac (fun x => additiveField g S (k * δ) δ (a k) (b k) x δ) (y + δ • additiveField f S (k * δ) δ (a k) (b k) y 0) := by
  have hyΛ : ‖y‖ ≤ Λ := by rw [hyk]; exact hy k hk.le
  have hkδ : 0 ≤ (k : ℝ) * δ := by positivity
  have hkT : δ + k * δ ≤ T := by
    have h1 : ((k + 1 : ℕ) : ℝ) * δ ≤ N * δ := mul_le_mul_of_nonneg_right (by exact_mod_cast hk) hδ.le
    push_cast at h1
    linarith
  have t0 : 0 + k * δ ∈ Icc 0 T := ⟨by linarith, by linarith⟩
  have t1 : δ + k * δ ∈ Icc 0 T := ⟨by linarith, hkT⟩
  have ef : ∀ x, ‖x‖ ≤ Λ + 1 → ∀ t, t + k * δ ∈ Icc 0 T → additiveField f S (k * δ) δ (a k) (b k) x t = additiveField g S (k * δ) δ (a k) (b k) x t := by
    intro x hx t ht
    simp only [additiveField, heq x hx _ ht]
  have ej : ∀ x, ‖x‖ < Λ + 1 → ∀ t, t + k * δ ∈ Icc 0 T →
      jac (fun x => additiveField f S (k * δ) δ (a k) (b k) x t) x = jac (fun x => additiveField g S (k * δ) δ (a k) (b k) x t) x := by
    intro x hx t ht
    have h : (fun z => additiveField f S (k * δ) δ (a k) (b k) z t) =ᶠ[nhds x] fun z => additiveField g S (k * δ) δ (a k) (b k) z t := by
      filter_upwards [(isOpen_lt continuous_norm continuous_const).mem_nhds hx] with z hz
      exact ef z (le_of_lt hz) t ht
    have hd : HasFDerivAt (fun z => additiveField g S (k * δ) δ (a k) (b k) z t) (Dg x (t + k * δ)) x := (hg.deriv x _ ht).add_const _
    exact (jac_eq_toMatrix (hd.congr_of_eventuallyEq h)).trans (jac_eq_toMatrix hd).symm
  have e0 := ef y (by linarith) 0 t0
  have hz : ‖y + δ • additiveField f S (k * δ) δ (a k) (b k) y 0‖ < Λ + 1 := by
    rw [e0]
    have h1 : ‖additiveField g S (k * δ) δ (a k) (b k) y 0‖ ≤ F + s * (3 * (1 / (6 * (s + 1))) / δ) := by
      refine (norm_add_le _ _).trans (add_le_add (hgF _ _) ((hS _).trans (mul_le_mul_of_nonneg_left ?_ hs)))
      refine (slopes_le hδ (a k) (b k) 0 (by simp)).trans ?_
      gcongr
      exact hab k hk
    have h2 : δ * (s * (3 * (1 / (6 * (s + 1))) / δ)) ≤ 1 / 2 := by
      have h3 : δ * (s * (3 * (1 / (6 * (s + 1))) / δ)) = s / (s + 1) * (1 / 2) := by field_simp; ring
      rw [h3]
      have h2 : s / (s + 1) ≤ 1 := (div_le_one (by positivity)).mpr (by linarith)
      linarith
    have h4 : ‖δ • additiveField g S (k * δ) δ (a k) (b k) y 0‖ ≤ 1 / 4 + 1 / 2 := by
      rw [norm_smul, Real.norm_eq_abs, abs_of_pos hδ]
      refine (mul_le_mul_of_nonneg_left h1 hδ.le).trans ?_
      rw [mul_add]
      linarith
    refine (norm_add_le _ _).trans_lt ?_
    linarith
  exact ⟨e0, ej y (by linarith) 0 t0, ef _ hz.le δ t1, ej _ hz δ t1⟩

end Verif
