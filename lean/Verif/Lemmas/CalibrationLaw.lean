import Verif.Lemmas.Moments
import Verif.Lemmas.Perturbed
import Verif.Lemmas.WeakLaw
import Verif.Lemmas.FineLaw

/-! Helper lemmas: the law of the second parabola coefficients over a run. -/

namespace Verif

open Matrix Spec Jnp MeasureTheory ProbabilityTheory

variable {d m : ℕ}

/-- The second coefficient as a function of the normals drawn. -/
theorem fineB_fun (m fine : ℕ) (δ : ℝ) : ∃ φ : (Fin fine × Fin 2 × Fin m → ℝ) → Vec m, Measurable φ ∧
    ∀ (rng : Rng) (key : Key), ((Foster.getApproxFine m fine).coeffs rng key δ).2.1 =
      φ fun q => rng.normalMat (key.child fine q.1) 2 m q.2.1 q.2.2 := by
  let w : (Fin fine × Fin 2 × Fin m → ℝ) → ℕ → Fin 2 → Fin m → ℝ := fun z l c j => if h : l < fine then z (⟨l, h⟩, c, j) else 0
  have hw : ∀ l c j, Measurable fun z => w z l c j := by
    intro l c j
    by_cases h : l < fine
    · simpa only [w, h, dif_pos] using measurable_pi_apply _
    · simpa only [w, h, dif_neg, not_false_eq_true] using measurable_const
  let a : (Fin fine × Fin 2 × Fin m → ℝ) → ℕ → Vec m := fun z l j => w z l 0 j * √(δ / fine)
  let b : (Fin fine × Fin 2 × Fin m → ℝ) → ℕ → Vec m := fun z l => (1 / √6) • fun j => w z l 1 j * √(0.5 * (δ / fine))
  have ha : ∀ l, Measurable fun z => a z l := fun l => measurable_pi_lambda _ fun j => (hw l 0 j).mul_const _
  have hb : ∀ l, Measurable fun z => b z l := fun l => measurable_pi_lambda _ fun j => ((hw l 1 j).mul_const _).const_mul (1 / √6)
  refine ⟨fun z => √6 • ((1 / δ) • (∑ k ∈ Finset.range fine, (δ / fine) • (∑ i ∈ Finset.range k, a z i + (0.5 : ℝ) • a z k + b z k)) -
    (0.5 : ℝ) • ∑ k ∈ Finset.range fine, a z k), ?_, ?_⟩
  · have hcs : ∀ (c : ℝ) {g : (Fin fine × Fin 2 × Fin m → ℝ) → Vec m}, Measurable g → Measurable fun z => c • g z := fun c g hg =>
      measurable_pi_lambda _ fun j => ((measurable_pi_apply j).comp hg).const_mul c
    refine hcs _ ((hcs _ ?_).sub (hcs _ (Finset.measurable_fun_sum _ fun k _ => ha k)))
    exact Finset.measurable_fun_sum _ fun k _ => hcs _ (((Finset.measurable_fun_sum _ fun i _ => ha i).add (hcs _ (ha k))).add (hb k))
  · intro rng key
    have h : (Foster.getApproxFine m fine).coeffs rng key δ = _ := parabolasFine_eq m fine rng key δ
    rw [h]
    have e1 : ∀ k < fine, a (fun q => rng.normalMat (key.child fine q.1) 2 m q.2.1 q.2.2) k = (finePiece m fine rng key δ k).1 := by
      intro k hk
      funext j
      simp only [a, w, hk, dif_pos]
      rfl
    have e2 : ∀ k < fine, b (fun q => rng.normalMat (key.child fine q.1) 2 m q.2.1 q.2.2) k = (1 / √6) • (finePiece m fine rng key δ k).2 := by
      intro k hk
      funext j
      simp only [b, w, hk, dif_pos]
      rfl
    show √6 • (_ - _) = √6 • (_ - _)
    congr 3
    · refine Finset.sum_congr rfl fun k hk => ?_
      have hk' := Finset.mem_range.mp hk
      rw [e1 k hk', e2 k hk']
      congr 3
      exact Finset.sum_congr rfl fun i hi => (e1 i ((Finset.mem_range.mp hi).trans hk')).symm
    · exact Finset.sum_congr rfl fun k hk => (e1 k (Finset.mem_range.mp hk)).symm

variable {Ω : Type*} [MeasurableSpace Ω] {P : Measure Ω} {R : Ω → Rng}

theorem secondCoeff_normal (hR : IdealNormals P R) (S : Mat d m) {fine : ℕ} (hfine : 0 < fine) (key : Key) {δ : ℝ} (hδ : 0 < δ) :
    IsNormal P (fun ω => S *ᵥ ((Foster.getApproxFine m fine).coeffs (R ω) key δ).2.1) 0 ((δ / 2) • (S * Sᵀ)) := by
  have h := ((C15_fine_law hR m fine hfine key δ hδ).1.reindex (fun j : Fin m => ((1 : Fin 2), j))).affine 0 S
  rw [show (fun k : Fin m => (0 : Fin 2 × Fin m → ℝ) (1, k)) = 0 from rfl, mulVec_zero, add_zero] at h
  refine (congrArg₂ (fun (X : Ω → Vec d) C => IsNormal P X 0 C) ?_ ?_).mp h
  · funext ω
    rw [zero_add]
    rfl
  · rw [submatrix_diagonal _ _ (fun a b hab => (Prod.ext_iff.mp hab).2)]
    have : (coeffVar m δ ∘ fun j : Fin m => ((1 : Fin 2), j)) = fun _ => δ / 2 := by
      funext j
      simp [coeffVar]
    rw [this, ← smul_one_eq_diagonal, Matrix.mul_smul, Matrix.mul_one, Matrix.smul_mul]

/-- The sum of the squares of one component of `S b` over a run is at least a multiple of the length of the run, but for an event whose
probability is exponentially small in the number of intervals. -/
theorem secondCoeff_small (hR : IdealNormals P R) (S : Mat d m) (i : Fin d) (hs : 0 < (S * Sᵀ) i i) : ∃ θ ρ : ℝ, 0 < θ ∧ 0 ≤ ρ ∧ ρ < 1 ∧
    ∀ (key : Key) (N : ℕ) {fine : ℕ}, 0 < fine → ∀ {δ : ℝ}, 0 < δ →
      P.real {ω | ∑ k ∈ Finset.range N, (S *ᵥ ((Foster.getApproxFine m fine).coeffs (R ω) ((key.child N k).child 2 0) δ).2.1) i ^ 2 ≤ θ * (N * δ)} ≤
        ρ ^ N := by
  have hP : IsProbabilityMeasure P := (secondCoeff_normal hR S one_pos [] one_pos).isProb
  obtain ⟨G, hG⟩ : ∃ G, G = gaussianReal 0 (((1 / 2 : ℝ) • (S * Sᵀ)) i i).toNNReal := ⟨_, rfl⟩
  have hv : (((1 / 2 : ℝ) • (S * Sᵀ)) i i).toNNReal ≠ 0 := by
    have : 0 < ((1 / 2 : ℝ) • (S * Sᵀ)) i i := mul_pos (by positivity) hs
    simpa using this
  have hGp : IsProbabilityMeasure G := by rw [hG]; infer_instance
  have hm : Measurable fun x : ℝ => Real.exp (-x ^ 2) := by fun_prop
  have hb : ∀ x : ℝ, Real.exp (-x ^ 2) ≤ 1 := fun x => Real.exp_le_one_iff.mpr (by nlinarith [sq_nonneg x])
  have hGi : Integrable (fun x : ℝ => Real.exp (-x ^ 2)) G :=
    Integrable.of_bound hm.aestronglyMeasurable 1 (ae_of_all _ fun x => by rw [Real.norm_eq_abs, abs_of_pos (Real.exp_pos _)]; exact hb x)
  obtain ⟨r, hr⟩ : ∃ r, r = ∫ x, Real.exp (-x ^ 2) ∂G := ⟨_, rfl⟩
  have hr0 : 0 < r := by rw [hr]; exact integral_exp_pos hGi
  have hr1 : r < 1 := by
    refine lt_of_le_of_ne ?_ ?_
    · rw [hr]
      refine (integral_mono hGi (integrable_const 1) hb).trans (by simp)
    · intro he
      have h0 : ∫ x, (1 - Real.exp (-x ^ 2)) ∂G = 0 := by
        rw [integral_sub (integrable_const 1) hGi, ← hr, he]
        simp
      rw [integral_eq_zero_iff_of_nonneg (fun x => sub_nonneg.mpr (hb x)) ((integrable_const 1).sub hGi)] at h0
      have hna : NullSingletonClass G := by rw [hG]; exact nullSingletonClass_gaussianReal (μ := 0) hv
      have h1 : ∀ᵐ x ∂G, x ≠ 0 := by simp [ae_iff]
      have h2 : ∀ᵐ x ∂G, False := by
        filter_upwards [h0, h1] with x hx hx1
        have : Real.exp (-x ^ 2) = 1 := by
          have : 1 - Real.exp (-x ^ 2) = 0 := hx
          linarith
        rw [Real.exp_eq_one_iff] at this
        exact hx1 (by simpa using this)
      rw [ae_iff] at h2
      simp at h2
  have hlog : Real.log r < 0 := Real.log_neg hr0 hr1
  refine ⟨-Real.log r / 2, √r, by linarith, Real.sqrt_nonneg _, by rw [← Real.sqrt_one]; exact Real.sqrt_lt_sqrt hr0.le hr1, ?_⟩
  intro key N fine hfine δ hδ
  obtain ⟨φ, hφ, hφe⟩ := fineB_fun m fine δ
  obtain ⟨g, hg⟩ : ∃ g : (Fin fine × Fin 2 × Fin m → ℝ) → ℝ, ∀ z, g z = Real.exp (-((((√δ)⁻¹ • S) *ᵥ φ z) i) ^ 2) := ⟨_, fun _ => rfl⟩
  have hgm : Measurable g := by
    have : g = fun z => _ := funext hg
    rw [this]
    refine hm.comp ?_
    show Measurable fun z => ∑ j, ((√δ)⁻¹ • S) i j * φ z j
    exact Finset.measurable_fun_sum _ fun j _ => ((measurable_pi_apply j).comp hφ).const_mul _
  have hi := hR.indep_mats (ι := ℕ × ℕ) (fun q => ((key.child N q.1).child 2 0).child fine q.2) (fun a b hab => by
    by_cases h1 : a.1 = b.1
    · have h2 : a.2 ≠ b.2 := fun h2 => hab (Prod.ext h1 h2)
      show (((key.child N a.1).child 2 0).child fine a.2).Diverge (((key.child N b.1).child 2 0).child fine b.2)
      rw [h1]
      exact Key.diverge_child _ fine a.2 b.2 h2
    · exact (((((Key.diverge_child key N a.1 b.1 h1).child_left 2 0).child_right 2 0).child_left fine a.2).child_right fine b.2)) 2 m
  have hi' := hi.precomp (g := fun q : ℕ × Fin fine × Fin 2 × Fin m => ((q.1, (q.2.1 : ℕ)), q.2.2)) (fun p q h => by
    simp only [Prod.mk.injEq] at h
    exact Prod.ext h.1.1 (Prod.ext (Fin.ext h.1.2) h.2))
  have hX : ∀ (ω : Ω) (k : ℕ), g (fun j => (R ω).normalMat (((key.child N k).child 2 0).child fine j.1) 2 m j.2.1 j.2.2) =
      Real.exp (-((((√δ)⁻¹ • S) *ᵥ ((Foster.getApproxFine m fine).coeffs (R ω) ((key.child N k).child 2 0) δ).2.1) i) ^ 2) := by
    intro ω k
    rw [hg, hφe]
  have hlaw : ∀ k : ℕ, HasLaw (fun ω => (((√δ)⁻¹ • S) *ᵥ ((Foster.getApproxFine m fine).coeffs (R ω) ((key.child N k).child 2 0) δ).2.1) i) G P := by
    intro k
    have h := (secondCoeff_normal hR ((√δ)⁻¹ • S) hfine ((key.child N k).child 2 0) hδ).eval i
    rw [hG]
    refine (congrArg (fun v : ℝ => HasLaw _ (gaussianReal 0 v.toNNReal) P) ?_).mp h
    rw [transpose_smul, Matrix.smul_mul, Matrix.mul_smul, smul_smul, smul_smul]
    have e : δ / 2 * (√δ)⁻¹ * (√δ)⁻¹ = 1 / 2 := by
      rw [mul_assoc, ← mul_inv, Real.mul_self_sqrt hδ.le]
      field_simp
    rw [e]
  have hint : ∀ k : ℕ, ∫ ω, g (fun j => (R ω).normalMat (((key.child N k).child 2 0).child fine j.1) 2 m j.2.1 j.2.2) ∂P = r := by
    intro k
    simp only [hX]
    rw [hr, ← (hlaw k).integral_comp hm.aestronglyMeasurable]
    rfl
  have hpr := integral_prod_groups (κ := Fin fine × Fin 2 × Fin m) hi' (fun p => (hR.law_mat _ _ _).aemeasurable) g hgm (fun k => by
    refine Integrable.of_bound (C := 1) ?_ (ae_of_all _ fun ω => ?_)
    · exact (hgm.comp_aemeasurable (aemeasurable_pi_lambda _ fun j => (hR.law_mat _ _ _).aemeasurable)).aestronglyMeasurable
    · rw [hg, Real.norm_eq_abs, abs_of_pos (Real.exp_pos _)]
      exact hb _) N
  obtain ⟨hpi, hpe⟩ := hpr
  have hpe2 : ∫ ω, ∏ k ∈ Finset.range N, g (fun j => (R ω).normalMat (((key.child N k).child 2 0).child fine j.1) 2 m j.2.1 j.2.2) ∂P = r ^ N := by
    refine hpe.trans ?_
    rw [Finset.prod_congr rfl fun k _ => hint k]
    simp
  have hmk := mul_meas_ge_le_integral_of_nonneg (ae_of_all P fun ω => Finset.prod_nonneg fun k _ => by rw [hg]; exact (Real.exp_pos _).le) hpi (Real.exp (-(-Real.log r / 2 * N)))
  rw [hpe2] at hmk
  have hsub : {ω | ∑ k ∈ Finset.range N, (S *ᵥ ((Foster.getApproxFine m fine).coeffs (R ω) ((key.child N k).child 2 0) δ).2.1) i ^ 2 ≤ -Real.log r / 2 * (N * δ)} ⊆
      {ω | Real.exp (-(-Real.log r / 2 * N)) ≤ ∏ k ∈ Finset.range N, g (fun j => (R ω).normalMat (((key.child N k).child 2 0).child fine j.1) 2 m j.2.1 j.2.2)} := by
    intro ω hω
    simp only [Set.mem_setOf_eq] at hω ⊢
    simp only [hX]
    rw [← Real.exp_sum]
    refine Real.exp_le_exp.mpr ?_
    have e : ∀ k : ℕ, -((((√δ)⁻¹ • S) *ᵥ ((Foster.getApproxFine m fine).coeffs (R ω) ((key.child N k).child 2 0) δ).2.1) i) ^ 2 =
        -δ⁻¹ * (S *ᵥ ((Foster.getApproxFine m fine).coeffs (R ω) ((key.child N k).child 2 0) δ).2.1) i ^ 2 := by
      intro k
      rw [smul_mulVec, Pi.smul_apply, smul_eq_mul, mul_pow, inv_pow, Real.sq_sqrt hδ.le]
      ring
    simp only [e, ← Finset.mul_sum]
    have h2 := mul_le_mul_of_nonneg_left hω (inv_pos.mpr hδ).le
    have h3 : δ⁻¹ * (-Real.log r / 2 * (N * δ)) = -Real.log r / 2 * N := by field_simp
    rw [h3] at h2
    linarith
  refine (measureReal_mono hsub).trans ?_
  have e1 : Real.exp (-(-Real.log r / 2 * N)) = √r ^ N := by
    rw [show -(-Real.log r / 2 * N) = N * (Real.log r / 2) by ring, Real.exp_nat_mul]
    congr 1
    rw [Real.sqrt_eq_rpow, Real.rpow_def_of_pos hr0]
    congr 1
    ring
  rw [e1] at hmk
  have h2 : r ^ N = √r ^ N * √r ^ N := by rw [← mul_pow, Real.mul_self_sqrt hr0.le]
  rw [h2] at hmk
  rw [e1]
  exact le_of_mul_le_mul_left hmk (pow_pos (Real.sqrt_pos.mpr hr0) N)

/-- The sum of the squares of all coefficients over a run has an expectation proportional to the length of the run. -/
theorem coeffs_square_sum (hR : IdealNormals P R) (m : ℕ) (key : Key) (N : ℕ) {fine : ℕ} (hfine : 0 < fine) {δ : ℝ} (hδ : 0 < δ) :
    ∃ Q : Ω → ℝ, Integrable Q P ∧ ∫ ω, Q ω ∂P = 3 * m * (N * δ) ∧ ∀ ω, ∑ k ∈ Finset.range N,
      (‖((Foster.getApproxFine m fine).coeffs (R ω) ((key.child N k).child 2 0) δ).1‖ +
        ‖((Foster.getApproxFine m fine).coeffs (R ω) ((key.child N k).child 2 0) δ).2.1‖) ^ 2 ≤ Q ω := by
  have hn := fun k : ℕ => (C15_fine_law hR m fine hfine ((key.child N k).child 2 0) δ hδ).1
  refine ⟨fun ω => ∑ k ∈ Finset.range N, 2 * ∑ p : Fin 2 × Fin m,
    coeffVec ((Foster.getApproxFine m fine).coeffs (R ω) ((key.child N k).child 2 0) δ).1
      ((Foster.getApproxFine m fine).coeffs (R ω) ((key.child N k).child 2 0) δ).2.1 p ^ 2, ?_, ?_, ?_⟩
  · exact integrable_finsetSum _ fun k _ => (integrable_finsetSum _ fun p _ => ((hn k).second_moment p).1).const_mul _
  · rw [integral_finsetSum _ fun k _ => (integrable_finsetSum _ fun p _ => ((hn k).second_moment p).1).const_mul _]
    have : ∀ k : ℕ, ∫ ω, 2 * ∑ p : Fin 2 × Fin m, coeffVec ((Foster.getApproxFine m fine).coeffs (R ω) ((key.child N k).child 2 0) δ).1
      ((Foster.getApproxFine m fine).coeffs (R ω) ((key.child N k).child 2 0) δ).2.1 p ^ 2 ∂P = 3 * m * δ := by
      intro k
      rw [integral_const_mul, integral_finsetSum _ fun p _ => ((hn k).second_moment p).1]
      simp only [fun p => ((hn k).second_moment p).2, diagonal_apply_eq, Fintype.sum_prod_type, Fin.sum_univ_two, coeffVar, Finset.sum_const,
        Finset.card_univ, Fintype.card_fin, nsmul_eq_mul, cons_val_zero, cons_val_one, cons_val_fin_one]
      ring
    simp only [this, Finset.sum_const, Finset.card_range, nsmul_eq_mul]
    ring
  · intro ω
    refine Finset.sum_le_sum fun k _ => ?_
    generalize (Foster.getApproxFine m fine).coeffs (R ω) ((key.child N k).child 2 0) δ = c
    have h1 := norm_sq_le_sum c.1
    have h2 := norm_sq_le_sum c.2.1
    have e : ∑ p : Fin 2 × Fin m, coeffVec c.1 c.2.1 p ^ 2 = ∑ j, c.1 j ^ 2 + ∑ j, c.2.1 j ^ 2 := by
      rw [Fintype.sum_prod_type, Fin.sum_univ_two]
      rfl
    rw [e]
    nlinarith [sq_nonneg (‖c.1‖ - ‖c.2.1‖)]

end Verif
