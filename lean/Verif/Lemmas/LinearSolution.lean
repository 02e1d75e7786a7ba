import Mathlib.MeasureTheory.Function.ConvergenceInMeasure
import Verif.Lemmas.ExpTaylor
import Verif.Lemmas.LinearLaw
import Verif.Lemmas.Prior
import Verif.Props.WeakEkf

/-! The law of the solution of a linear SDE with additive noise: the limit of the laws of Euler–Maruyama. -/

namespace Verif

open Matrix Spec Jnp Set MeasureTheory ProbabilityTheory Filter
open scoped NNReal Topology

variable {d m : ℕ}

section Norm

/-- Powers of `1 + x` are close to those of the exponential. -/
theorem pow_near_exp_core {𝔸 : Type*} [NormedRing 𝔸] [NormedAlgebra ℝ 𝔸] [CompleteSpace 𝔸] [NormOneClass 𝔸] (x : 𝔸) {M : ℝ} (hM : ‖x‖ ≤ M)
    (k : ℕ) : ‖(1 + x) ^ k - NormedSpace.exp ((k : ℝ) • x)‖ ≤ k * ((M ^ 3 + M ^ 2) * Real.exp M) * Real.exp (k * M) := by
  have hM0 : 0 ≤ M := (norm_nonneg x).trans hM
  obtain ⟨a, ha⟩ : ∃ a : 𝔸, a = 1 + x := ⟨_, rfl⟩
  obtain ⟨b, hb⟩ : ∃ b : 𝔸, b = NormedSpace.exp x := ⟨_, rfl⟩
  have ha1 : ‖a‖ ≤ Real.exp M := by
    rw [ha]
    refine (norm_add_le _ _).trans ?_
    rw [norm_one]
    linarith [Real.add_one_le_exp M]
  have hb1 : ‖b‖ ≤ Real.exp M := by
    have hs : Summable fun n : ℕ => ((n.factorial : ℝ)⁻¹) • x ^ n := NormedSpace.expSeries_summable' (𝕂 := ℝ) x
    have e : NormedSpace.exp x = ∑' n : ℕ, ((n.factorial : ℝ)⁻¹) • x ^ n := congrFun (NormedSpace.exp_eq_tsum (𝕂 := ℝ)) x
    have hsr := Real.summable_pow_div_factorial M
    have h1 := tsum_of_norm_bounded (f := fun n : ℕ => ((n.factorial : ℝ)⁻¹) • x ^ n) hsr.hasSum (fun n => by
      rw [norm_smul, Real.norm_of_nonneg (by positivity), mul_comm, ← div_eq_mul_inv]
      have : ‖x ^ n‖ ≤ M ^ n := (norm_pow_le x n).trans (by gcongr)
      gcongr)
    rw [hb, e, Real.exp_eq_exp_ℝ, NormedSpace.exp_eq_tsum_div]
    exact h1
  have hab : ‖a - b‖ ≤ (M ^ 3 + M ^ 2) * Real.exp M := by
    have h1 := exp_taylor x
    rw [← hb] at h1
    have e : a - b = (1 / 2 : ℝ) • -x ^ 2 - (b - (1 + x + (1 / 2 : ℝ) • x ^ 2)) := by
      rw [ha, smul_neg]; abel
    have h2 : ‖(1 / 2 : ℝ) • -x ^ 2‖ ≤ M ^ 2 := by
      rw [norm_smul, norm_neg, Real.norm_of_nonneg (by norm_num)]
      have : ‖x ^ 2‖ ≤ M ^ 2 := (norm_pow_le x 2).trans (by gcongr)
      nlinarith [norm_nonneg (x ^ 2)]
    have h3 : ‖x‖ ^ 3 * Real.exp ‖x‖ ≤ M ^ 3 * Real.exp M := by gcongr
    have h4 : 1 ≤ Real.exp M := Real.one_le_exp hM0
    rw [e]
    refine (norm_sub_le _ _).trans ((add_le_add h2 (h1.trans h3)).trans ?_)
    nlinarith [sq_nonneg M]
  have hpow : ‖a ^ k - b ^ k‖ ≤ k * ‖a - b‖ * Real.exp (k * M) := by
    induction k with
    | zero => simp
    | succ k ih =>
      have e : a ^ (k + 1) - b ^ (k + 1) = a * (a ^ k - b ^ k) + (a - b) * b ^ k := by rw [pow_succ' a, pow_succ' b]; noncomm_ring
      have hbk : ‖b ^ k‖ ≤ Real.exp (k * M) := by
        rw [Real.exp_nat_mul]
        exact (norm_pow_le b k).trans (by gcongr)
      have hE : Real.exp ((k + 1 : ℕ) * M) = Real.exp M * Real.exp (k * M) := by
        rw [← Real.exp_add]; congr 1; push_cast; ring
      have hE1 : 1 ≤ Real.exp M := Real.one_le_exp hM0
      rw [e, hE]
      refine (norm_add_le _ _).trans ((add_le_add (norm_mul_le _ _) (norm_mul_le _ _)).trans ?_)
      have h1 : ‖a‖ * ‖a ^ k - b ^ k‖ ≤ Real.exp M * (k * ‖a - b‖ * Real.exp (k * M)) := by gcongr
      have h2 : ‖a - b‖ * ‖b ^ k‖ ≤ Real.exp M * (‖a - b‖ * Real.exp (k * M)) :=
        (mul_le_mul_of_nonneg_left hbk (norm_nonneg _)).trans (le_mul_of_one_le_left (by positivity) hE1)
      push_cast
      nlinarith
  have hbk : NormedSpace.exp ((k : ℝ) • x) = b ^ k := by
    let : NormedAlgebra ℚ 𝔸 := .restrictScalars ℚ ℝ 𝔸
    rw [hb, ← NormedSpace.exp_nsmul, ← Nat.cast_smul_eq_nsmul ℝ]
  rw [hbk, ← ha]
  refine hpow.trans ?_
  gcongr

open scoped Matrix.Norms.Operator

/-- Powers of Euler's transition matrix are close to the exponential. -/
theorem pow_near_exp (F : Mat d d) {T : ℝ} (hT : 0 < T) : ∃ C : ℝ, 0 ≤ C ∧ ∀ N : ℕ, 0 < N → ∀ k ≤ N, ∀ i j,
    |((1 + (T / N) • F) ^ k) i j - expm ((k * (T / N)) • F) i j| ≤ C * (T / N) := by
  rcases isEmpty_or_nonempty (Fin d) with he | hne
  · exact ⟨0, le_rfl, fun N _ k _ i => he.elim i⟩
  obtain ⟨M, hM⟩ : ∃ M, M = ‖F‖ := ⟨_, rfl⟩
  have hM0 : 0 ≤ M := hM ▸ norm_nonneg F
  refine ⟨T * (M ^ 3 * T + M ^ 2) * Real.exp (T * M) * Real.exp (T * M), by positivity, fun N hN k hk i j => ?_⟩
  have hN' : (0 : ℝ) < N := by exact_mod_cast hN
  obtain ⟨h, hh⟩ : ∃ h, h = T / N := ⟨_, rfl⟩
  rw [← hh]
  have hh0 : 0 < h := by rw [hh]; positivity
  have hNh : (N : ℝ) * h = T := by rw [hh]; field_simp
  have hhT : h ≤ T := by
    rw [← hNh]
    have : (1 : ℝ) ≤ N := by exact_mod_cast hN
    nlinarith
  have hn : ‖h • F‖ ≤ h * M := by rw [norm_smul, Real.norm_of_nonneg hh0.le, hM]
  have hp := pow_near_exp_core (h • F) hn k
  have hkN : (k : ℝ) * h ≤ T := by rw [← hNh]; exact mul_le_mul_of_nonneg_right (by exact_mod_cast hk) hh0.le
  have e := abs_entry_le ((1 + h • F) ^ k - NormedSpace.exp ((k : ℝ) • h • F)) i j
  have e2 : ((1 + h • F) ^ k - NormedSpace.exp ((k : ℝ) • h • F) : Mat d d) i j = ((1 + h • F) ^ k) i j - expm ((k * h) • F) i j := by
    rw [smul_smul]; rfl
  rw [e2] at e
  refine e.trans (hp.trans ?_)
  have h1 : Real.exp (k * (h * M)) ≤ Real.exp (T * M) := by
    rw [← mul_assoc]; gcongr
  calc (k : ℝ) * (((h * M) ^ 3 + (h * M) ^ 2) * Real.exp (h * M)) * Real.exp (k * (h * M)) =
        (k * h) * (((M ^ 3 * h + M ^ 2) * Real.exp (h * M)) * Real.exp (k * (h * M)) * h) := by ring
    _ ≤ T * ((M ^ 3 * T + M ^ 2) * Real.exp (T * M) * Real.exp (T * M) * h) := by gcongr
    _ = _ := by ring

end Norm

/-- A linear drift is smooth. -/
theorem smooth_linear (F : Mat d d) (T : ℝ) : ∃ L, SmoothField (fun (x : Vec d) (_ : ℝ) => F *ᵥ x)
    (fun _ _ => LinearMap.toContinuousLinearMap (mulVecLin F)) T L 0 := by
  obtain ⟨L, -, hL⟩ := exists_mulVec_bound F
  refine ⟨L, ⟨?_, fun x y t _ => ?_, fun x t _ => ?_, fun x y s _ t _ => by simp⟩⟩
  · show Continuous fun z : Vec d × ℝ => F *ᵥ z.1
    fun_prop
  · rw [← mulVec_sub]
    exact hL _
  · exact (LinearMap.toContinuousLinearMap (mulVecLin F)).hasFDerivAt

theorem timeLipschitz_linear (F : Mat d d) (T : ℝ) : TimeLipschitz (fun (x : Vec d) (_ : ℝ) => F *ᵥ x) T 0 := fun x s _ t _ => by simp

/-- The covariances of Euler–Maruyama converge to the covariance of the solution. -/
theorem em_cov_tendsto (F : Mat d d) (S : Mat d m) {T : ℝ} (hT : 0 < T) (i j : Fin d) :
    Tendsto (fun n : ℕ => (∑ k ∈ Finset.range (n + 1), (1 + (T / (n + 1 : ℕ)) • F) ^ k * ((T / (n + 1 : ℕ)) • (S * Sᵀ)) *
      ((1 + (T / (n + 1 : ℕ)) • F) ^ k)ᵀ : Mat d d) i j) atTop (𝓝 (transitionCov F S T i j)) := by
  obtain ⟨C, hC0, hC⟩ := pow_near_exp F hT
  -- entries of the products are continuous in the entries
  obtain ⟨g, hg⟩ : ∃ g : ℝ → ℝ, ∀ s, g s = (expm (s • F) * (S * Sᵀ) * (expm (s • F))ᵀ) i j := ⟨_, fun _ => rfl⟩
  have hgsum : ∀ A : Mat d d, (A * (S * Sᵀ) * Aᵀ) i j = ∑ b, ∑ a, A i a * A j b * (S * Sᵀ) a b := fun A => by
    rw [Matrix.mul_apply]
    refine Finset.sum_congr rfl fun b _ => ?_
    rw [Matrix.mul_apply, Finset.sum_mul, transpose_apply]
    exact Finset.sum_congr rfl fun a _ => by ring
  have hgc : Continuous g := by
    rw [show g = _ from funext hg]
    simp only [hgsum]
    exact continuous_finsetSum _ fun b _ => continuous_finsetSum _ fun a _ =>
      ((expm_continuous F i a).mul (expm_continuous F j b)).mul continuous_const
  have h1 := tendsto_riemann hgc hT
  have hcov : transitionCov F S T i j = ∫ t in (0 : ℝ)..T, g t := by
    rw [transitionCov]
    refine intervalIntegral.integral_congr fun s _ => ?_
    simp only [hg, Matrix.mul_assoc, transpose_mul]
  rw [hcov]
  -- the exponentials are bounded
  obtain ⟨E, hE⟩ : ∃ E : ℝ, ∀ s ∈ Icc 0 T, ∀ a b, |expm (s • F) a b| ≤ E := by
    have : ∀ a b, ∃ E : ℝ, ∀ s ∈ Icc 0 T, |expm (s • F) a b| ≤ E := fun a b => by
      obtain ⟨E, hE⟩ := isCompact_Icc.exists_bound_of_continuousOn (expm_continuous F a b).continuousOn (s := Icc 0 T)
      exact ⟨E, fun s hs => hE s hs⟩
    choose E hE using this
    refine ⟨∑ a, ∑ b, |E a b|, fun s hs a b => (hE a b s hs).trans ((le_abs_self _).trans ?_)⟩
    refine (Finset.single_le_sum (f := fun b => |E a b|) (fun _ _ => abs_nonneg _) (Finset.mem_univ b)).trans ?_
    exact Finset.single_le_sum (f := fun a => ∑ b, |E a b|) (fun _ _ => Finset.sum_nonneg fun _ _ => abs_nonneg _) (Finset.mem_univ a)
  obtain ⟨W, hW⟩ : ∃ W : ℝ, W = ∑ b, ∑ a, |(S * Sᵀ) a b| := ⟨_, rfl⟩
  have hdiff : ∀ n : ℕ, |(∑ k ∈ Finset.range (n + 1), (1 + (T / (n + 1 : ℕ)) • F) ^ k * ((T / (n + 1 : ℕ)) • (S * Sᵀ)) *
      ((1 + (T / (n + 1 : ℕ)) • F) ^ k)ᵀ : Mat d d) i j - T / (n + 1 : ℕ) * ∑ k ∈ Finset.range (n + 1), g (k * (T / (n + 1 : ℕ)))| ≤
        T * ((2 * E + C * T) * C * W) * (T / (n + 1 : ℕ)) := by
    intro n
    have hn' : (0 : ℝ) < (n + 1 : ℕ) := by positivity
    obtain ⟨h, hh⟩ : ∃ h, h = T / (n + 1 : ℕ) := ⟨_, rfl⟩
    have hC' := hC (n + 1) (by omega)
    rw [← hh] at hC' ⊢
    have hh0 : 0 < h := by rw [hh]; positivity
    have hNh : ((n + 1 : ℕ) : ℝ) * h = T := by rw [hh]; field_simp
    have hhT : h ≤ T := by
      rw [← hNh]
      exact le_mul_of_one_le_left hh0.le (by exact_mod_cast (by omega : 1 ≤ n + 1))
    rw [Matrix.sum_apply, Finset.mul_sum, ← Finset.sum_sub_distrib]
    have hterm : ∀ k ∈ Finset.range (n + 1), |((1 + h • F) ^ k * (h • (S * Sᵀ)) * ((1 + h • F) ^ k)ᵀ : Mat d d) i j - h * g (k * h)| ≤
        h * ((2 * E + C * T) * (C * h) * W) := by
      intro k hk
      have hk' := (Finset.mem_range.mp hk).le
      have hkT : (k : ℝ) * h ∈ Icc 0 T := ⟨by positivity, by rw [← hNh]; exact mul_le_mul_of_nonneg_right (by exact_mod_cast hk') hh0.le⟩
      rw [Matrix.mul_smul, Matrix.smul_mul, Matrix.smul_apply, smul_eq_mul, hgsum, hg, hgsum, ← mul_sub, abs_mul, abs_of_pos hh0,
        ← Finset.sum_sub_distrib]
      refine mul_le_mul_of_nonneg_left ?_ hh0.le
      rw [hW, Finset.mul_sum]
      refine (Finset.abs_sum_le_sum_abs _ _).trans (Finset.sum_le_sum fun b _ => ?_)
      rw [← Finset.sum_sub_distrib, Finset.mul_sum]
      refine (Finset.abs_sum_le_sum_abs _ _).trans (Finset.sum_le_sum fun a _ => ?_)
      rw [← sub_mul, abs_mul]
      refine mul_le_mul_of_nonneg_right ?_ (abs_nonneg _)
      have e1 := hC' k hk' i a
      have e2 := hC' k hk' j b
      have f1 := hE _ hkT i a
      have f2 := hE _ hkT j b
      generalize ((1 + h • F) ^ k) i a = p at *
      generalize ((1 + h • F) ^ k) j b = q at *
      generalize expm ((k * h) • F) i a = u at *
      generalize expm ((k * h) • F) j b = v at *
      have hCh : C * h ≤ C * T := by gcongr
      have hCh0 : 0 ≤ C * h := by positivity
      calc |p * q - u * v| = |(p - u) * (q - v) + (p - u) * v + u * (q - v)| := by congr 1; ring
        _ ≤ |p - u| * |q - v| + |p - u| * |v| + |u| * |q - v| := by
            refine (abs_add_le _ _).trans (add_le_add ((abs_add_le _ _).trans (add_le_add ?_ ?_)) ?_) <;> rw [abs_mul]
        _ ≤ C * h * (C * T) + C * h * E + E * (C * h) := by
            have := abs_nonneg (q - v)
            have := abs_nonneg u
            have := abs_nonneg v
            have := abs_nonneg (p - u)
            refine add_le_add (add_le_add ?_ ?_) ?_
            · exact mul_le_mul e1 (e2.trans hCh) (by assumption) hCh0
            · exact mul_le_mul e1 f2 (by assumption) hCh0
            · exact mul_le_mul f1 e2 (by assumption) ((abs_nonneg u).trans f1)
        _ = _ := by ring
    refine (Finset.abs_sum_le_sum_abs _ _).trans ((Finset.sum_le_sum hterm).trans (le_of_eq ?_))
    rw [Finset.sum_const, Finset.card_range, nsmul_eq_mul, ← mul_assoc, hNh]
    ring
  have hz : Tendsto (fun n : ℕ => T * ((2 * E + C * T) * C * W) * (T / (n + 1 : ℕ))) atTop (𝓝 0) := by
    have h2 := (tendsto_const_div_atTop_nhds_zero_nat T).comp (tendsto_add_atTop_nat 1)
    simpa using h2.const_mul (T * ((2 * E + C * T) * C * W))
  have h3 := squeeze_zero_norm (fun n => by rw [Real.norm_eq_abs]; exact hdiff n) hz
  simpa using h3.add h1

/-- The states of a linear recursion driven by the increments of a Brownian motion. -/
theorem isNormal_inc_recursion {Ω : Type*} [MeasurableSpace Ω] {P : Measure Ω} {B : Fin m → ℝ≥0 → Ω → ℝ} (hB : IsBrownianVec B P) {δ : ℝ}
    (hδ : 0 < δ) (A : Mat d d) (S : Mat d m) (x0 : Vec d) (x : ℕ → Ω → Vec d) (N : ℕ) (h0 : ∀ ω, x 0 ω = x0)
    (hx : ∀ k < N, ∀ ω, x (k + 1) ω = A *ᵥ x k ω + S *ᵥ fun j => B j ((k + 1 : ℕ) * δ).toNNReal ω - B j (k * δ).toNNReal ω) :
    IsNormal P (x N) (A ^ N *ᵥ x0) (∑ i ∈ Finset.range N, A ^ i * (δ • (S * Sᵀ)) * (A ^ i)ᵀ) := by
  have h := (hB.inc_law hδ N).affine (A ^ N *ᵥ x0) (Matrix.of fun a (p : Fin N × Fin m) => (A ^ (N - 1 - p.1) * S) a p.2)
  refine (congrArg₂ (fun (μ : Vec d) C => IsNormal P _ μ C) ?_ ?_).mp (h.congr_ae (Eventually.of_forall fun ω => ?_))
  · rw [mulVec_zero, add_zero]
  · rw [← Finset.sum_range_reflect, Finset.sum_range]
    ext a b
    rw [Matrix.mul_apply, Fintype.sum_prod_type, Matrix.sum_apply]
    refine Finset.sum_congr rfl fun i _ => ?_
    rw [show A ^ (N - 1 - i) * (δ • (S * Sᵀ)) * (A ^ (N - 1 - i))ᵀ = δ • ((A ^ (N - 1 - i) * S) * (A ^ (N - 1 - i) * S)ᵀ) by
      rw [transpose_mul, Matrix.mul_smul, Matrix.smul_mul]; simp only [Matrix.mul_assoc]]
    rw [Matrix.smul_apply, Matrix.mul_apply, smul_eq_mul, Finset.mul_sum]
    refine Finset.sum_congr rfl fun j _ => ?_
    rw [mul_diagonal, transpose_apply, transpose_apply, of_apply, of_apply]
    ring
  · beta_reduce
    rw [linear_recursion A x0 _ (fun k => x k ω) N (h0 ω) (fun k hk => hx k hk ω) N le_rfl]
    congr 1
    funext a
    rw [Finset.sum_apply, Finset.sum_range, mulVec, dotProduct, Fintype.sum_prod_type]
    refine Finset.sum_congr rfl fun i _ => ?_
    rw [mulVec_mulVec, mulVec, dotProduct]
    rfl

/-- The law of the solution of a linear SDE with additive noise. -/
theorem linear_solution_law {Ω : Type*} [MeasurableSpace Ω] {P : Measure Ω} {B : Fin m → ℝ≥0 → Ω → ℝ} (hB : IsBrownianVec B P) (F : Mat d d)
    (S : Mat d m) (x0 : Vec d) {T : ℝ} {X : Ω → ℝ → Vec d}
    (hX : ∀ᵐ ω ∂P, SolvesAdditive (fun x _ => F *ᵥ x) S (fun t j => B j t.toNNReal ω) x0 T (X ω)) {t : ℝ} (ht : t ∈ Icc 0 T) :
    IsNormal P (fun ω => X ω t) (expm (t • F) *ᵥ x0) (transitionCov F S t) := by
  have hP := hB.isProb
  rcases ht.1.eq_or_lt with rfl | ht0
  · have h := (hB.inc_law one_pos 1).affine x0 (0 : Matrix (Fin d) (Fin 1 × Fin m) ℝ)
    rw [transitionCov_zero, expm_zero_smul, one_mulVec]
    simp only [Matrix.zero_mulVec, add_zero, Matrix.zero_mul] at h
    refine h.congr_ae ?_
    filter_upwards [hX] with ω hω
    have := hω.eq 0 ⟨le_rfl, ht.2⟩
    simpa using this.symm
  have hXt : ∀ᵐ ω ∂P, SolvesAdditive (fun x _ => F *ᵥ x) S (fun t j => B j t.toNNReal ω) x0 t (X ω) := by
    filter_upwards [hX] with ω hω
    exact ⟨hω.cont.mono (Icc_subset_Icc le_rfl ht.2), fun s hs => hω.eq s ⟨hs.1, hs.2.trans ht.2⟩⟩
  obtain ⟨L, hf⟩ := smooth_linear F t
  obtain ⟨A, hA⟩ := C93_em_strong hB ht0 hf (timeLipschitz_linear F t) S x0 hXt
  obtain ⟨δ, hδd⟩ : ∃ δ : ℕ → ℝ, ∀ n, δ n = t / (n + 1 : ℕ) := ⟨_, fun _ => rfl⟩
  have hδ0 : ∀ n, 0 < δ n := fun n => by rw [hδd]; positivity
  have hNδ : ∀ n : ℕ, ((n + 1 : ℕ) : ℝ) * δ n = t := fun n => by rw [hδd]; field_simp
  choose y hy1 hy2 hy3 using fun n : ℕ => hA (n + 1) (Nat.succ_pos n) (n + 1) le_rfl
  simp only [← hδd] at hy1 hy2 hy3
  simp only [hNδ] at hy2 hy3
  -- the law of Euler–Maruyama
  have hlaw : ∀ n, IsNormal P (y n) ((1 + δ n • F) ^ (n + 1) *ᵥ x0)
      (∑ i ∈ Finset.range (n + 1), (1 + δ n • F) ^ i * (δ n • (S * Sᵀ)) * ((1 + δ n • F) ^ i)ᵀ) := fun n => by
    choose ts Y hY1 hY2 hY3 using fun ω => emPathwise_states
      (fun k j => B j ((k + 1 : ℕ) * δ n).toNNReal ω - B j (k * δ n).toNNReal ω) x0 (fun x _ => F *ᵥ x) (fun _ _ => S) (δ n) (n + 1)
    have e : y n = fun ω => Y ω (n + 1) := funext fun ω => by
      obtain ⟨ts', xs, h1, h2⟩ := hy1 n ω
      have h3 := Except.ok.inj (h1.symm.trans (hY1 ω))
      have h4 : xs = _ := (Prod.ext_iff.mp h3).2
      rw [h4, List.getElem?_map, List.getElem?_range (by omega)] at h2
      exact (Option.some.inj h2).symm
    rw [e]
    refine isNormal_inc_recursion hB (hδ0 n) _ S x0 (fun k ω => Y ω k) (n + 1) hY2 fun k hk ω => ?_
    rw [hY3 ω k hk, add_mulVec, one_mulVec, smul_mulVec]
  -- almost sure convergence along a subsequence
  have hδz : Tendsto δ atTop (𝓝 0) := by
    have h2 := (tendsto_const_div_atTop_nhds_zero_nat t).comp (tendsto_add_atTop_nat 1)
    exact h2.congr fun n => (hδd n).symm
  have hmeas : TendstoInMeasure P y atTop fun ω => X ω t := by
    refine (tendstoInMeasure_iff_norm).mpr fun ε hε => ?_
    have hz : Tendsto (fun n => ENNReal.ofReal (A * δ n ^ 2 / ε ^ 2)) atTop (𝓝 0) := by
      have := ((hδz.pow 2).const_mul A).div_const (ε ^ 2)
      simpa using ENNReal.tendsto_ofReal this
    refine tendsto_of_tendsto_of_tendsto_of_le_of_le tendsto_const_nhds hz (fun _ => zero_le') fun n => ?_
    have h1 := mul_meas_ge_le_integral_of_nonneg (μ := P) (f := fun ω => ‖X ω t - y n ω‖ ^ 2) (Eventually.of_forall fun ω => sq_nonneg _)
      (hy2 n) (ε ^ 2)
    have h2 : {ω | ε ≤ ‖y n ω - X ω t‖} ⊆ {ω | ε ^ 2 ≤ ‖X ω t - y n ω‖ ^ 2} := fun ω hω => by
      rw [mem_setOf_eq] at hω ⊢
      rw [norm_sub_rev]
      gcongr
    refine (measure_mono h2).trans ?_
    rw [← ENNReal.ofReal_toReal (measure_ne_top P _)]
    refine ENNReal.ofReal_le_ofReal ?_
    rw [le_div_iff₀ (by positivity), mul_comm]
    exact h1.trans (hy3 n)
  obtain ⟨ns, hns, hlim⟩ := hmeas.exists_seq_tendsto_ae
  -- the means converge
  have hmean : ∀ i, Tendsto (fun n => ((1 + δ n • F) ^ (n + 1) *ᵥ x0) i) atTop (𝓝 ((expm (t • F) *ᵥ x0) i)) := fun i => by
    obtain ⟨C, hC0, hC⟩ := pow_near_exp F ht0
    simp only [mulVec, dotProduct]
    refine tendsto_finsetSum _ fun j _ => Tendsto.mul_const _ ?_
    have h1 : Tendsto (fun n => ((1 + δ n • F) ^ (n + 1)) i j - expm (t • F) i j) atTop (𝓝 0) := by
      refine squeeze_zero_norm (fun n => ?_) (by simpa using hδz.const_mul C)
      have := hC (n + 1) (Nat.succ_pos n) (n + 1) le_rfl i j
      rw [← hδd, hNδ] at this
      exact this
    simpa using h1.add_const (expm (t • F) i j)
  have hcov := em_cov_tendsto F S ht0
  simp only [← hδd] at hcov
  have h1 : ∀ n, IsNormal P (fun ω => y (ns n) ω - (1 + δ (ns n) • F) ^ (ns n + 1) *ᵥ x0) 0
      (∑ i ∈ Finset.range (ns n + 1), (1 + δ (ns n) • F) ^ i * (δ (ns n) • (S * Sᵀ)) * ((1 + δ (ns n) • F) ^ i)ᵀ) := fun n => by
    have := (hlaw (ns n)).affine (-((1 + δ (ns n) • F) ^ (ns n + 1) *ᵥ x0)) 1
    simpa [neg_add_eq_sub] using this
  have h2 : ∀ᵐ ω ∂P, ∀ i, Tendsto (fun n => (y (ns n) ω - (1 + δ (ns n) • F) ^ (ns n + 1) *ᵥ x0 : Vec d) i) atTop
      (𝓝 ((X ω t - expm (t • F) *ᵥ x0) i)) := by
    filter_upwards [hlim] with ω hω i
    exact ((tendsto_pi_nhds.mp hω) i).sub ((hmean i).comp hns.tendsto_atTop)
  have hcen := isNormal_of_tendsto h1 h2 (fun i j => (hcov i j).comp hns.tendsto_atTop)
  have := hcen.affine (expm (t • F) *ᵥ x0) 1
  simpa using this

end Verif
