import Verif.Spec.Gaussian
import Mathlib.Probability.Distributions.Gaussian.HasGaussianLaw.Independence
import Mathlib.Probability.Independence.InfinitePi

/-! Helper lemmas about normal vectors and ideal generators. -/

namespace Verif

open MeasureTheory ProbabilityTheory WithLp Matrix Spec

variable {Ω : Type*} [MeasurableSpace Ω] {P : Measure Ω}

/-! ## Keys -/

theorem Key.Diverge.ne {k k' : Key} (h : k.Diverge k') : k ≠ k' := by
  obtain ⟨r, a, b, n, i, j, hij, rfl, rfl⟩ := h
  intro he
  have hl : a.length = b.length := by
    have := congrArg List.length he
    simpa using this
  have := List.append_inj_right he hl
  simp at this
  exact hij this

theorem Key.Diverge.symm {k k' : Key} (h : k.Diverge k') : k'.Diverge k := by
  obtain ⟨r, a, b, n, i, j, hij, h1, h2⟩ := h
  exact ⟨r, b, a, n, j, i, hij.symm, h2, h1⟩

theorem Key.Diverge.ext {k k' : Key} (h : k.Diverge k') (a b : Key) : Key.Diverge (a ++ k) (b ++ k') := by
  obtain ⟨r, c, d, n, i, j, hij, rfl, rfl⟩ := h
  exact ⟨r, a ++ c, b ++ d, n, i, j, hij, by simp, by simp⟩

theorem Key.diverge_child (k : Key) (n i j : ℕ) (h : i ≠ j) : (k.child n i).Diverge (k.child n j) :=
  ⟨k, [], [], n, i, j, h, rfl, rfl⟩

theorem Key.Diverge.child_left {k k' : Key} (h : k.Diverge k') (n i : ℕ) : (k.child n i).Diverge k' := by
  exact h.ext [(n, i)] []

theorem Key.Diverge.child_right {k k' : Key} (h : k.Diverge k') (n i : ℕ) : k.Diverge (k'.child n i) := by
  exact h.ext [] [(n, i)]

/-! ## Normal vectors -/

section normal

variable {ι κ : Type*} [Fintype ι] [DecidableEq ι] [Fintype κ] [DecidableEq κ]

theorem Spec.IsNormal.isProb {X : Ω → ι → ℝ} {m : ι → ℝ} {C : Matrix ι ι ℝ} (h : IsNormal P X m C) :
    IsProbabilityMeasure P := h.hasLaw.isProbabilityMeasure

theorem Spec.IsNormal.hasGaussianLaw {X : Ω → ι → ℝ} {m : ι → ℝ} {C : Matrix ι ι ℝ} (h : IsNormal P X m C) :
    HasGaussianLaw X P := by
  have := h.hasLaw.hasGaussianLaw
  exact this.map_equiv_fun (PiLp.continuousLinearEquiv 2 ℝ (fun _ : ι => ℝ))

theorem Spec.IsNormal.mean {X : Ω → ι → ℝ} {m : ι → ℝ} {C : Matrix ι ι ℝ} (h : IsNormal P X m C) (i : ι) :
    ∫ ω, X ω i ∂P = m i := by
  have h1 := h.hasLaw.integral_comp (f := fun x : EuclideanSpace ℝ ι => x i) (by fun_prop)
  simp only [Function.comp_def] at h1
  have h2 : ∫ x : EuclideanSpace ℝ ι, x i ∂(multivariateGaussian (toLp 2 m) C) = m i := by
    have h3 := ContinuousLinearMap.integral_comp_comm (μ := multivariateGaussian (toLp 2 m) C)
      (EuclideanSpace.proj i : EuclideanSpace ℝ ι →L[ℝ] ℝ) IsGaussian.integrable_fun_id
    rw [integral_id_multivariateGaussian] at h3
    simpa using h3
  rw [h2] at h1
  simpa using h1

theorem Spec.IsNormal.cov {X : Ω → ι → ℝ} {m : ι → ℝ} {C : Matrix ι ι ℝ} (h : IsNormal P X m C) (i j : ι) :
    cov[fun ω => X ω i, fun ω => X ω j; P] = C i j := by
  have h1 := h.hasLaw.covariance_fun_comp (f := fun x : EuclideanSpace ℝ ι => x i)
    (g := fun x : EuclideanSpace ℝ ι => x j) (by fun_prop) (by fun_prop)
  rw [covariance_eval_multivariateGaussian h.posSemidef] at h1
  simpa using h1

theorem Spec.IsNormal.memLp {X : Ω → ι → ℝ} {m : ι → ℝ} {C : Matrix ι ι ℝ} (h : IsNormal P X m C) (i : ι) :
    MemLp (fun ω => X ω i) 2 P :=
  (h.hasGaussianLaw.eval (X := fun i ω => X ω i) i).memLp_two

/-- A Gaussian vector with the given first two moments is normal with these parameters. -/
theorem isNormal_of_moments {X : Ω → ι → ℝ} {m : ι → ℝ} {C : Matrix ι ι ℝ} (hG : HasGaussianLaw X P)
    (hm : ∀ i, ∫ ω, X ω i ∂P = m i) (hc : ∀ i j, cov[fun ω => X ω i, fun ω => X ω j; P] = C i j) :
    IsNormal P X m C := by
  have hP := hG.isProbabilityMeasure
  have hLp : ∀ i, MemLp (fun ω => X ω i) 2 P := fun i =>
    (hG.eval (X := fun i ω => X ω i) i).memLp_two
  have hbil : ∀ x y : EuclideanSpace ℝ ι, covarianceBilin (P.map (fun ω ↦ toLp 2 (X ω))) x y =
      x ⬝ᵥ C *ᵥ y := by
    intro x y
    have := covarianceBilin_apply_pi (X := fun i ω => X ω i) hLp x y
    rw [show (fun ω => toLp 2 (X ω)) = (fun ω ↦ toLp 2 ((fun i ω => X ω i) · ω)) from rfl, this]
    simp only [hc, dotProduct, mulVec, Finset.mul_sum]
    refine Finset.sum_congr rfl fun i _ => Finset.sum_congr rfl fun j _ => by ring
  have hsymm : C.IsHermitian := by
    ext i j
    simp only [conjTranspose_apply, star_trivial]
    rw [← hc, ← hc, covariance_comm]
  have hpsd : C.PosSemidef := by
    refine PosSemidef.of_dotProduct_mulVec_nonneg hsymm fun x => ?_
    have := hbil (toLp 2 x) (toLp 2 x)
    have h0 := covarianceBilin_self_nonneg (μ := P.map (fun ω ↦ toLp 2 (X ω))) (toLp 2 x)
    rw [this] at h0
    simpa using h0
  have hG2 : HasGaussianLaw (fun ω => toLp 2 (X ω)) P := hG.toLp_pi (X := fun i ω => X ω i) 2
  refine ⟨hpsd, ⟨hG2.aemeasurable, ?_⟩⟩
  have := hG2.isGaussian_map
  refine IsGaussian.ext ?_ ?_
  · rw [integral_map hG2.aemeasurable (by fun_prop)]
    simp only [id]
    rw [show (∫ x, x ∂multivariateGaussian (toLp 2 m) C) = toLp 2 m from integral_id_multivariateGaussian]
    ext i
    have h3 := ContinuousLinearMap.integral_comp_comm (μ := P)
      (EuclideanSpace.proj i : EuclideanSpace ℝ ι →L[ℝ] ℝ) hG2.integrable
    exact h3.symm.trans (hm i)
  · ext x y
    rw [hbil, covarianceBilin_multivariateGaussian hpsd]

/-- Independent standard normals form a standard normal vector. -/
theorem isNormal_std {Z : ι → Ω → ℝ} (hl : ∀ i, HasLaw (Z i) (gaussianReal 0 1) P) (hi : iIndepFun Z P) :
    IsNormal P (fun ω i => Z i ω) 0 1 := by
  have hP := hi.isProbabilityMeasure
  have hg : ∀ i, HasGaussianLaw (Z i) P := fun i => (hl i).hasGaussianLaw
  refine isNormal_of_moments (hi.hasGaussianLaw hg) (fun i => ?_) (fun i j => ?_)
  · rw [(hl i).integral_eq]; simp
  · rcases eq_or_ne i j with rfl | hij
    · rw [covariance_self (hl i).aemeasurable, (hl i).variance_eq]; simp
    · rw [(hi.indepFun hij).covariance_eq_zero (hg i).memLp_two (hg j).memLp_two]
      simp [hij]

/-- Affine images of normal vectors are normal. -/
theorem Spec.IsNormal.affine {X : Ω → ι → ℝ} {m : ι → ℝ} {C : Matrix ι ι ℝ} (h : IsNormal P X m C) (b : κ → ℝ)
    (M : Matrix κ ι ℝ) : IsNormal P (fun ω => b + M *ᵥ X ω) (b + M *ᵥ m) (M * C * Mᵀ) := by
  have hP := h.isProb
  have hLp : ∀ k i, MemLp (fun ω => M k i * X ω i) 2 P := fun k i => (h.memLp i).const_mul _
  have hG : HasGaussianLaw (fun ω => b + M *ᵥ X ω) P := by
    have h1 := h.hasGaussianLaw.map_fun (LinearMap.toContinuousLinearMap M.mulVecLin)
    have h2 : HasGaussianLaw (fun ω => M *ᵥ X ω) P := by simpa using h1
    constructor
    have := h2.isGaussian_map
    have he : P.map (fun ω => b + M *ᵥ X ω) = (P.map (fun ω => M *ᵥ X ω)).map (fun x => b + x) := by
      rw [AEMeasurable.map_map_of_aemeasurable (by fun_prop) h2.aemeasurable]; rfl
    rw [he]
    infer_instance
  refine isNormal_of_moments hG (fun k => ?_) (fun k l => ?_)
  · simp only [Pi.add_apply, mulVec, dotProduct]
    rw [integral_add (integrable_const _)
      (integrable_finsetSum _ fun i _ => (hLp k i).integrable (by norm_num)), integral_finsetSum]
    · simp [integral_const_mul, h.mean]
    · exact fun i _ => (hLp k i).integrable (by norm_num)
  · simp only [Pi.add_apply, mulVec, dotProduct]
    rw [covariance_const_add_left (integrable_finsetSum _ fun i _ => (hLp k i).integrable (by norm_num)),
      covariance_const_add_right (integrable_finsetSum _ fun i _ => (hLp l i).integrable (by norm_num)),
      covariance_fun_sum_fun_sum (hLp k) (hLp l)]
    simp only [covariance_const_mul_left, covariance_const_mul_right, h.cov, Matrix.mul_apply, transpose_apply,
      Finset.sum_mul]
    rw [Finset.sum_comm]
    refine Finset.sum_congr rfl fun i _ => Finset.sum_congr rfl fun j _ => by ring

/-- Linear images of independent standard normals. -/
theorem isNormal_linear {Z : ι → Ω → ℝ} (hl : ∀ i, HasLaw (Z i) (gaussianReal 0 1) P) (hi : iIndepFun Z P)
    (b : κ → ℝ) (M : Matrix κ ι ℝ) :
    IsNormal P (fun ω => b + M *ᵥ fun i => Z i ω) b (M * Mᵀ) := by
  have := (isNormal_std hl hi).affine b M
  simpa using this

/-- Uncorrelated components of a normal vector are independent. -/
theorem Spec.IsNormal.iIndepFun_of_diagonal {X : Ω → ι → ℝ} {m v : ι → ℝ} (h : IsNormal P X m (diagonal v)) :
    iIndepFun (fun i ω => X ω i) P := by
  refine HasGaussianLaw.iIndepFun_of_covariance_eq_zero (X := fun i ω => X ω i) h.hasGaussianLaw fun i j hij => ?_
  rw [h.cov, diagonal_apply_ne _ hij]

/-- The law of one component. -/
theorem Spec.IsNormal.eval {X : Ω → ι → ℝ} {m : ι → ℝ} {C : Matrix ι ι ℝ} (h : IsNormal P X m C) (i : ι) :
    HasLaw (fun ω => X ω i) (gaussianReal (m i) (C i i).toNNReal) P := by
  have hg := h.hasGaussianLaw.eval (X := fun i ω => X ω i) i
  refine ⟨hg.aemeasurable, ?_⟩
  rw [hg.map_eq_gaussianReal, h.mean, ← covariance_self hg.aemeasurable, h.cov]

end normal

/-! ## An ideal generator exists -/

/-- The sample space of all draws. -/
abbrev Draws := Key × List ℕ × ℕ → ℝ

/-- The generator that reads its draws off the sample point. -/
def drawsRng (z : Draws) : Rng := ⟨fun k sh i => z (k, sh, i)⟩

/-- Independent standard normals for every key, shape and index. -/
noncomputable def drawsMeasure : Measure Draws := Measure.infinitePi fun _ => gaussianReal 0 1

/-- Ideal generators exist, so `IdealNormals` is not a contradictory hypothesis. -/
theorem idealNormals_drawsRng : IdealNormals drawsMeasure drawsRng where
  law k sh i _ := by
    refine ⟨(measurable_pi_apply (k, sh, i)).aemeasurable, ?_⟩
    exact Measure.infinitePi_map_eval (fun _ : Key × List ℕ × ℕ => gaussianReal 0 1) (k, sh, i)
  indep {ι} K sh hK := by
    have h : iIndepFun (fun (q : Key × List ℕ × ℕ) (z : Draws) => z q) drawsMeasure :=
      iIndepFun_infinitePi (P := fun _ : Key × List ℕ × ℕ => gaussianReal 0 1) (X := fun _ x => x)
        (fun _ => measurable_id)
    refine h.precomp (g := fun p : Σ a, Fin (sh a).prod => (K p.1, sh p.1, (p.2 : ℕ))) ?_
    rintro ⟨a, i⟩ ⟨b, j⟩ hab
    simp only [Prod.mk.injEq] at hab
    have : a = b := by
      by_contra hne
      exact (hK hne).ne hab.1
    subst this
    simp only [Sigma.mk.injEq, heq_eq_eq, true_and]
    exact Fin.ext hab.2.2

/-- The numbers of one draw are independent. -/
theorem Spec.IdealNormals.indep_single {R : Ω → Rng} (h : IdealNormals P R) (k : Key) (sh : List ℕ) :
    iIndepFun (fun (i : Fin sh.prod) ω => (R ω).normal k sh i) P := by
  have := h.indep (ι := Unit) (fun _ => k) (fun _ => sh) (fun a b hab => (hab (Subsingleton.elim a b)).elim)
  exact this.precomp (g := fun i => ⟨(), i⟩) (fun i j hij => by simpa using hij)

end Verif
