import Verif.Lemmas.Alg3Step
import Verif.Lemmas.RosStep
import Mathlib.Analysis.Matrix.Normed

/-! Helper lemmas: bounds for the gain and the covariance of Algorithm 3 with EKF1. -/

namespace Verif

open Matrix Spec Jnp
open scoped Matrix.Norms.Operator

variable {d : ℕ}

theorem norm_one_mat_le : ‖(1 : Mat d d)‖ ≤ 1 := by
  have h : (1 : Mat d d) = diagonal fun _ => (1 : ℝ) := diagonal_one.symm
  rw [h, linfty_opNorm_diagonal, pi_norm_le_iff_of_nonneg zero_le_one]
  intro i
  simp

theorem entry_le_norm (A : Mat d d) (i j : Fin d) : |A i j| ≤ ‖A‖ := by
  have h := linfty_opNorm_mulVec A (Pi.single j (1 : ℝ))
  have h1 := (norm_le_pi_norm (A *ᵥ Pi.single j 1) i).trans h
  have h2 : ‖(Pi.single j 1 : Vec d)‖ ≤ 1 := by
    rw [pi_norm_le_iff_of_nonneg zero_le_one]
    intro l
    by_cases h : l = j
    · subst h; simp
    · simp [h]
  rw [mulVec_single_one] at h1
  exact h1.trans ((mul_le_mul_of_nonneg_left h2 (norm_nonneg A)).trans (le_of_eq (mul_one _)))

theorem norm_le_of_mulVec {A : Mat d d} {c : ℝ} (hc : 0 ≤ c) (h : ∀ v, ‖A *ᵥ v‖ ≤ c * ‖v‖) : ‖A‖ ≤ c := by
  rw [linfty_opNorm_eq_opNorm]
  exact ContinuousLinearMap.opNorm_le_bound _ hc h

theorem norm_le_of_entries {A : Mat d d} {c : ℝ} (hc : 0 ≤ c) (h : ∀ i j, |A i j| ≤ c) : ‖A‖ ≤ d * c := by
  refine norm_le_of_mulVec (by positivity) fun v => ?_
  rw [pi_norm_le_iff_of_nonneg (by positivity)]
  intro i
  have h1 : ∀ j ∈ Finset.univ, ‖A i j * v j‖ ≤ c * ‖v‖ := fun j _ => by
    rw [norm_mul]
    exact mul_le_mul (h i j) (norm_le_pi_norm v j) (norm_nonneg _) hc
  have h2 := norm_sum_le_of_le Finset.univ h1
  rw [Finset.sum_const, Finset.card_univ, Fintype.card_fin, nsmul_eq_mul, ← mul_assoc] at h2
  exact h2

theorem norm_transpose_le (A : Mat d d) : ‖Aᵀ‖ ≤ d * ‖A‖ :=
  norm_le_of_entries (norm_nonneg _) fun i j => entry_le_norm A j i

theorem psd_entry_le {p : Mat d d} (hp : p.PosSemidef) (i j : Fin d) : |p i j| ≤ p.trace := by
  have hn : ∀ x : Vec d, 0 ≤ x ⬝ᵥ (p *ᵥ x) := fun x => psd_nonneg hp x
  have hd : ∀ k, 0 ≤ p k k := fun k => by
    have := hn (Pi.single k 1)
    rwa [mulVec_single_one, single_one_dotProduct] at this
  have ht : ∀ k, p k k ≤ p.trace := fun k => Finset.single_le_sum (f := fun k => p k k) (fun k _ => hd k) (Finset.mem_univ k)
  have hs : p j i = p i j := congrFun (congrFun (psd_symm hp) i) j
  have h1 := hn (Pi.single i 1 + Pi.single j 1)
  have h2 := hn (Pi.single i 1 - Pi.single j 1)
  simp only [mulVec_add, mulVec_sub, mulVec_single_one, add_dotProduct, sub_dotProduct, single_one_dotProduct, Pi.add_apply, Pi.sub_apply,
    col_apply] at h1 h2
  rw [abs_le]
  constructor <;> linarith [ht i, ht j]

theorem psd_norm_le {p : Mat d d} (hp : p.PosSemidef) : ‖p‖ ≤ d * p.trace := by
  refine norm_le_of_entries ?_ (psd_entry_le hp)
  exact Finset.sum_nonneg fun k _ => by
    have := psd_nonneg hp (Pi.single k 1)
    rwa [mulVec_single_one, single_one_dotProduct] at this

theorem psd_trace_nonneg {p : Mat d d} (hp : p.PosSemidef) : 0 ≤ p.trace :=
  Finset.sum_nonneg fun k _ => by
    have := psd_nonneg hp (Pi.single k 1)
    rwa [mulVec_single_one, single_one_dotProduct] at this

theorem trace_le_norm (A : Mat d d) : A.trace ≤ d * ‖A‖ := by
  refine (Finset.sum_le_sum fun i _ => (le_abs_self _).trans (entry_le_norm A i i)).trans (le_of_eq ?_)
  simp

/-- The inverse of the covariance of the residual. -/
theorem alg3S_inv_le {h : ℝ} (hh : 0 < h) (J0 J1 : Mat d d) {p : Mat d d} (hp : p.PosSemidef) : ‖(alg3S h J0 J1 p)⁻¹‖ ≤ 4 * d / h := by
  refine norm_le_of_mulVec (by positivity) fun u => ?_
  have hS := alg3S_posDef hh J0 J1 hp
  set x := (alg3S h J0 J1 p)⁻¹ *ᵥ u with hx
  have hu : alg3S h J0 J1 p *ᵥ x = u := by rw [hx, mulVec_mulVec, mul_nonsing_inv _ (pd_isUnit_det hS), one_mulVec]
  have h1 : h * ‖x‖ ^ 2 ≤ 4 * (x ⬝ᵥ (alg3S h J0 J1 p *ᵥ x)) := by
    have h2 := psd_nonneg (psd_mul_mul_transpose hp (alg3E h J0 J1)) x
    have h3 := (sq_norm_le_dot x).trans (rosW_lower h J1ᵀ x)
    rw [alg3S, alg3W_eq, add_mulVec, dotProduct_add, smul_mulVec, dotProduct_smul, smul_eq_mul]
    nlinarith
  rw [hu] at h1
  have h2 := dot_le_norm x u
  by_contra hc
  push Not at hc
  have h3 : 0 < ‖x‖ := lt_of_le_of_lt (by positivity) hc
  have h4 : 4 * d * ‖u‖ < h * ‖x‖ := by
    have := mul_lt_mul_of_pos_left hc hh
    rwa [show h * (4 * d / h * ‖u‖) = 4 * d * ‖u‖ by field_simp] at this
  nlinarith

theorem alg3K_sub {h : ℝ} (hh : 0 < h) (J0 J1 : Mat d d) {p : Mat d d} (hp : p.PosSemidef) :
    alg3K h J0 J1 p - (h / 2) • 1 = (alg3F h J0 * p * (alg3E h J0 J1)ᵀ - (h / 2) • (alg3E h J0 J1 * p * (alg3E h J0 J1)ᵀ) - (h ^ 3 / 3) • J1ᵀ +
      (h ^ 3 / 4) • (J1 + J1ᵀ) - (h ^ 4 / 6) • (J1 * J1ᵀ)) * (alg3S h J0 J1 p)⁻¹ := by
  have hS := pd_isUnit_det (alg3S_posDef hh J0 J1 hp)
  have e : alg3F h J0 * p * (alg3E h J0 J1)ᵀ - (h / 2) • (alg3E h J0 J1 * p * (alg3E h J0 J1)ᵀ) - (h ^ 3 / 3) • J1ᵀ +
      (h ^ 3 / 4) • (J1 + J1ᵀ) - (h ^ 4 / 6) • (J1 * J1ᵀ) = alg3G h J0 J1 p - (h / 2) • alg3S h J0 J1 p := by
    rw [alg3G, alg3S]
    module
  rw [e, Matrix.sub_mul, Matrix.smul_mul, mul_nonsing_inv _ hS, alg3K]

theorem alg3E_eq (h : ℝ) (J0 J1 : Mat d d) : alg3E h J0 J1 = (J0 - J1) - h • (J1 * J0) := by
  rw [alg3E, alg3F, Matrix.mul_add, Matrix.mul_one, Matrix.mul_smul]
  abel

/-- The gain is close to `h / 2` when the two Jacobians and the covariance are close to each other and to zero. -/
theorem alg3_gain (d : ℕ) {L T e τ : ℝ} (hL : 0 ≤ L) (hT : 0 ≤ T) (he : 0 ≤ e) (hτ : 0 ≤ τ) : ∃ C : ℝ, 0 ≤ C ∧ ∀ {h : ℝ}, 0 < h → h ≤ T →
    ∀ {J0 J1 p : Mat d d}, p.PosSemidef → ‖J0‖ ≤ L → ‖J1‖ ≤ L → ‖J0 - J1‖ ≤ e * h → p.trace ≤ τ * h ^ 2 →
      ‖alg3K h J0 J1 p - (h / 2) • 1‖ ≤ C * h ^ 2 := by
  obtain ⟨e', he'⟩ : ∃ e', e' = e + L * L := ⟨_, rfl⟩
  have he0 : 0 ≤ e' := by rw [he']; positivity
  obtain ⟨c, hc⟩ : ∃ c, c = (1 + T * L) * (d * τ) * (d * e') + 1 / 2 * (T * e') * (d * τ) * (T * (d * e')) + 1 / 3 * (d * L) +
    1 / 4 * (L + d * L) + T / 6 * (L * (d * L)) := ⟨_, rfl⟩
  have hc0 : 0 ≤ c := by rw [hc]; positivity
  refine ⟨c * (4 * d), by positivity, ?_⟩
  intro h hh hhT J0 J1 p hp hJ0 hJ1 hJJ hpt
  have hE : ‖alg3E h J0 J1‖ ≤ e' * h := by
    rw [alg3E_eq]
    refine (norm_sub_le _ _).trans ?_
    rw [norm_smul, Real.norm_of_nonneg hh.le]
    have h1 : ‖J1 * J0‖ ≤ L * L := (norm_mul_le _ _).trans (mul_le_mul hJ1 hJ0 (norm_nonneg _) hL)
    have h2 := mul_le_mul_of_nonneg_left h1 hh.le
    rw [he']
    linarith
  have hEt : ‖(alg3E h J0 J1)ᵀ‖ ≤ d * e' * h := by
    refine (norm_transpose_le _).trans ?_
    rw [mul_assoc]
    exact mul_le_mul_of_nonneg_left hE (Nat.cast_nonneg d)
  have hF : ‖alg3F h J0‖ ≤ 1 + T * L := by
    rw [alg3F]
    refine (norm_add_le _ _).trans (add_le_add norm_one_mat_le ?_)
    rw [norm_smul, Real.norm_of_nonneg hh.le]
    exact mul_le_mul hhT hJ0 (norm_nonneg _) hT
  have hpn : ‖p‖ ≤ d * τ * h ^ 2 := by
    refine (psd_norm_le hp).trans ?_
    rw [mul_assoc]
    exact mul_le_mul_of_nonneg_left hpt (Nat.cast_nonneg d)
  have hJt : ‖J1ᵀ‖ ≤ d * L := (norm_transpose_le _).trans (mul_le_mul_of_nonneg_left hJ1 (Nat.cast_nonneg d))
  have t1 : ‖alg3F h J0 * p * (alg3E h J0 J1)ᵀ‖ ≤ (1 + T * L) * (d * τ) * (d * e') * h ^ 3 := by
    have h1 : ‖alg3F h J0 * p‖ ≤ (1 + T * L) * (d * τ * h ^ 2) := (norm_mul_le _ _).trans (mul_le_mul hF hpn (norm_nonneg _) (by positivity))
    refine (norm_mul_le _ _).trans ((mul_le_mul h1 hEt (norm_nonneg _) (by positivity)).trans (le_of_eq ?_))
    ring
  have t2 : ‖(h / 2) • (alg3E h J0 J1 * p * (alg3E h J0 J1)ᵀ)‖ ≤ 1 / 2 * (T * e') * (d * τ) * (T * (d * e')) * h ^ 3 := by
    have h1 : ‖alg3E h J0 J1 * p‖ ≤ e' * h * (d * τ * h ^ 2) := (norm_mul_le _ _).trans (mul_le_mul hE hpn (norm_nonneg _) (by positivity))
    have h2 : ‖alg3E h J0 J1 * p * (alg3E h J0 J1)ᵀ‖ ≤ e' * h * (d * τ * h ^ 2) * (d * e' * h) :=
      (norm_mul_le _ _).trans (mul_le_mul h1 hEt (norm_nonneg _) (by positivity))
    rw [norm_smul, Real.norm_of_nonneg (by positivity)]
    refine (mul_le_mul_of_nonneg_left h2 (by positivity)).trans ?_
    have h3 : h * h ≤ T * T := mul_le_mul hhT hhT hh.le hT
    calc h / 2 * (e' * h * (d * τ * h ^ 2) * (d * e' * h)) = (1 / 2 * e' * (d * τ) * (d * e') * h ^ 3) * (h * h) := by ring
      _ ≤ (1 / 2 * e' * (d * τ) * (d * e') * h ^ 3) * (T * T) := mul_le_mul_of_nonneg_left h3 (by positivity)
      _ = _ := by ring
  have t3 : ‖(h ^ 3 / 3) • J1ᵀ‖ ≤ 1 / 3 * (d * L) * h ^ 3 := by
    rw [norm_smul, Real.norm_of_nonneg (by positivity)]
    refine (mul_le_mul_of_nonneg_left hJt (by positivity)).trans (le_of_eq ?_)
    ring
  have t4 : ‖(h ^ 3 / 4) • (J1 + J1ᵀ)‖ ≤ 1 / 4 * (L + d * L) * h ^ 3 := by
    rw [norm_smul, Real.norm_of_nonneg (by positivity)]
    refine (mul_le_mul_of_nonneg_left ((norm_add_le _ _).trans (add_le_add hJ1 hJt)) (by positivity)).trans (le_of_eq ?_)
    ring
  have t5 : ‖(h ^ 4 / 6) • (J1 * J1ᵀ)‖ ≤ T / 6 * (L * (d * L)) * h ^ 3 := by
    rw [norm_smul, Real.norm_of_nonneg (by positivity)]
    have h1 : ‖J1 * J1ᵀ‖ ≤ L * (d * L) := (norm_mul_le _ _).trans (mul_le_mul hJ1 hJt (norm_nonneg _) hL)
    refine (mul_le_mul_of_nonneg_left h1 (by positivity)).trans ?_
    calc h ^ 4 / 6 * (L * (d * L)) = (L * (d * L) / 6 * h ^ 3) * h := by ring
      _ ≤ (L * (d * L) / 6 * h ^ 3) * T := mul_le_mul_of_nonneg_left hhT (by positivity)
      _ = _ := by ring
  rw [alg3K_sub hh J0 J1 hp]
  have hX : ‖alg3F h J0 * p * (alg3E h J0 J1)ᵀ - (h / 2) • (alg3E h J0 J1 * p * (alg3E h J0 J1)ᵀ) - (h ^ 3 / 3) • J1ᵀ +
      (h ^ 3 / 4) • (J1 + J1ᵀ) - (h ^ 4 / 6) • (J1 * J1ᵀ)‖ ≤ c * h ^ 3 := by
    have h1 := norm_sub_le (alg3F h J0 * p * (alg3E h J0 J1)ᵀ - (h / 2) • (alg3E h J0 J1 * p * (alg3E h J0 J1)ᵀ) - (h ^ 3 / 3) • J1ᵀ +
      (h ^ 3 / 4) • (J1 + J1ᵀ)) ((h ^ 4 / 6) • (J1 * J1ᵀ))
    have h2 := norm_add_le (alg3F h J0 * p * (alg3E h J0 J1)ᵀ - (h / 2) • (alg3E h J0 J1 * p * (alg3E h J0 J1)ᵀ) - (h ^ 3 / 3) • J1ᵀ)
      ((h ^ 3 / 4) • (J1 + J1ᵀ))
    have h3 := norm_sub_le (alg3F h J0 * p * (alg3E h J0 J1)ᵀ - (h / 2) • (alg3E h J0 J1 * p * (alg3E h J0 J1)ᵀ)) ((h ^ 3 / 3) • J1ᵀ)
    have h4 := norm_sub_le (alg3F h J0 * p * (alg3E h J0 J1)ᵀ) ((h / 2) • (alg3E h J0 J1 * p * (alg3E h J0 J1)ᵀ))
    rw [hc]
    linarith
  refine (norm_mul_le _ _).trans ((mul_le_mul hX (alg3S_inv_le hh J0 J1 hp) (norm_nonneg _) (by positivity)).trans (le_of_eq ?_))
  field_simp

/-- The covariance grows slowly. -/
theorem alg3_trace (d : ℕ) {L T : ℝ} (hL : 0 ≤ L) (hT : 0 ≤ T) : ∃ C : ℝ, 0 ≤ C ∧ ∀ {h : ℝ}, 0 < h → h ≤ T →
    ∀ {J0 J1 p : Mat d d}, p.PosSemidef → ‖J0‖ ≤ L → (alg3P h J0 J1 p).trace ≤ (1 + C * h) * p.trace + d * h ^ 3 / 3 := by
  refine ⟨d * (L * d) * 2 + T * (d * (L * d * (d * L))), by positivity, ?_⟩
  intro h hh hhT J0 J1 p hp hJ0
  have ht := psd_trace_nonneg hp
  have hpn := psd_norm_le hp
  have h1 : 0 ≤ (alg3K h J0 J1 p * alg3S h J0 J1 p * (alg3K h J0 J1 p)ᵀ).trace :=
    psd_trace_nonneg (psd_mul_mul_transpose (alg3S_posDef hh J0 J1 hp).posSemidef _)
  have hJp : ‖J0 * p‖ ≤ L * (d * p.trace) := (norm_mul_le _ _).trans (mul_le_mul hJ0 hpn (norm_nonneg _) hL)
  have h2 : (J0 * p).trace ≤ d * (L * (d * p.trace)) := (trace_le_norm _).trans (mul_le_mul_of_nonneg_left hJp (Nat.cast_nonneg d))
  have h3 : (J0 * p * J0ᵀ).trace ≤ d * (L * (d * p.trace) * (d * L)) := by
    refine (trace_le_norm _).trans (mul_le_mul_of_nonneg_left ?_ (Nat.cast_nonneg d))
    refine (norm_mul_le _ _).trans (mul_le_mul hJp ?_ (norm_nonneg _) (by positivity))
    exact (norm_transpose_le _).trans (mul_le_mul_of_nonneg_left hJ0 (Nat.cast_nonneg d))
  have h4 : (p * J0ᵀ).trace = (J0 * p).trace := by
    rw [← trace_transpose, transpose_mul, transpose_transpose, psd_symm hp]
  have e : (alg3P h J0 J1 p).trace = p.trace + 2 * h * (J0 * p).trace + h ^ 2 * (J0 * p * J0ᵀ).trace + d * h ^ 3 / 3 -
      (alg3K h J0 J1 p * alg3S h J0 J1 p * (alg3K h J0 J1 p)ᵀ).trace := by
    rw [alg3P, trace_sub, trace_add, alg3F, transpose_add, transpose_one, transpose_smul]
    simp only [Matrix.add_mul, Matrix.mul_add, Matrix.one_mul, Matrix.mul_one, Matrix.smul_mul, Matrix.mul_smul, trace_add, trace_smul, h4, smul_eq_mul,
      trace_one, Fintype.card_fin]
    ring
  rw [e]
  have h5 : h ^ 2 * (J0 * p * J0ᵀ).trace ≤ h * T * (d * (L * (d * p.trace) * (d * L))) := by
    calc h ^ 2 * (J0 * p * J0ᵀ).trace ≤ h ^ 2 * (d * (L * (d * p.trace) * (d * L))) := mul_le_mul_of_nonneg_left h3 (by positivity)
      _ = (h * h) * (d * (L * (d * p.trace) * (d * L))) := by ring
      _ ≤ (h * T) * (d * (L * (d * p.trace) * (d * L))) := mul_le_mul_of_nonneg_right (mul_le_mul_of_nonneg_left hhT hh.le) (by positivity)
  have h6 := mul_le_mul_of_nonneg_left h2 (by positivity : 0 ≤ 2 * h)
  nlinarith

end Verif
