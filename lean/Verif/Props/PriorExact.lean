import Verif.Lemmas.Ioup
import Verif.Lemmas.Matern
import Verif.Lemmas.Transition
import Verif.Props.Prior

/-!
# Properties C34-C36: Ornstein-Uhlenbeck and Matérn priors
-/

namespace Verif

open Matrix Spec Jnp

/-! ## Ornstein-Uhlenbeck -/

theorem blockDiag_last {d n : ℕ} {M : Mat (d * (n + 1)) (d * (n + 1))} {B : Mat (n + 1) (n + 1)} (h : IsBlockDiag M B)
    (i : Fin d) (s t : Fin (n + 1)) : M (flat i s) (flat i t) = B s t := by
  rw [h, modNat_flat, modNat_flat, if_pos]
  have h1 := congrArg Fin.val (divNat_flat i s)
  have h2 := congrArg Fin.val (divNat_flat i t)
  exact h1.trans h2.symm

/-- C34 is false: for every `theta ≠ 0`, noise scale, step, order and number of coordinates the returned `Q` is not the covariance of
the integrated Ornstein-Uhlenbeck transition, and transitions do not compose. -/
theorem C34_fails {θ σ : ℝ} (hθ : θ ≠ 0) (hσ : σ ≠ 0) (q : ℕ) {dim : ℕ} (hdim : 0 < dim) :
    (∀ dt, dt ≠ 0 → ¬ IsBlockDiag (IOUP.transition θ σ q dt dim).Q (transitionCov (ioupDrift θ q) (lastNoise σ q) dt)) ∧
    (∀ s t, s ≠ 0 → t ≠ 0 → (IOUP.transition θ σ q (s + t) dim).Q ≠
      (IOUP.transition θ σ q t dim).A * (IOUP.transition θ σ q s dim).Q * (IOUP.transition θ σ q t dim).Aᵀ +
        (IOUP.transition θ σ q t dim).Q) := by
  have hσ2 : σ ^ 2 ≠ 0 := pow_ne_zero 2 hσ
  constructor
  · intro dt hdt h
    have h1 := blockDiag_last h ⟨0, hdim⟩ (Fin.last q) (Fin.last q)
    rw [transitionCov_ioup_last hθ] at h1
    simp only [IOUP.transition, kron_flat, Matrix.one_apply_eq, one_mul, ibm_Q1_last] at h1
    have h2 := mul_left_cancel₀ hσ2 h1
    have h3 : Real.exp (-2 * θ * dt) = -2 * θ * dt + 1 := by
      rw [eq_div_iff (mul_ne_zero two_ne_zero hθ)] at h2; linarith
    have h4 := Real.add_one_lt_exp (show -2 * θ * dt ≠ 0 by
      exact mul_ne_zero (mul_ne_zero (by norm_num) hθ) hdt)
    linarith
  · intro s t hs ht h
    simp only [IOUP.transition] at h
    rw [kron_one_transpose, kron_one_mul, kron_one_mul, kron_one_add, ioup_F_eq] at h
    have h1 := congrFun (congrFun h (flat ⟨0, hdim⟩ (Fin.last q))) (flat ⟨0, hdim⟩ (Fin.last q))
    simp only [kron_flat, Matrix.one_apply_eq, one_mul, Matrix.add_apply, ibm_Q1_last] at h1
    have h2 : (expm (t • ioupDrift θ q) * IOUP.Q1 σ q s * (expm (t • ioupDrift θ q))ᵀ) (Fin.last q) (Fin.last q) =
        Real.exp (-θ * t) * Real.exp (-θ * t) * (σ ^ 2 * s) := by
      rw [mul_apply, Finset.sum_eq_single (Fin.last q)]
      · rw [mul_apply, Finset.sum_eq_single (Fin.last q)]
        · rw [transpose_apply, expm_ioup_last, if_pos rfl, ibm_Q1_last]
          ring
        · intro b _ hb
          rw [expm_ioup_last, if_neg hb, zero_mul]
        · simp
      · intro b _ hb
        rw [transpose_apply, expm_ioup_last θ q t b, if_neg hb, mul_zero]
      · simp
    rw [h2, ← Real.exp_add] at h1
    have h3 : σ ^ 2 * s * (Real.exp (-θ * t + -θ * t) - 1) = 0 := by linarith
    have h4 : Real.exp (-θ * t + -θ * t) = 1 := by
      rcases mul_eq_zero.1 h3 with h5 | h5
      · exact absurd h5 (mul_ne_zero hσ2 hs)
      · linarith
    rw [Real.exp_eq_one_iff] at h4
    have : θ * t = 0 := by linarith
    exact (mul_ne_zero hθ ht) this

/-- C34, what holds for every `theta`: `Q` is the exact covariance up to a factor between `exp(-2 |theta| dt)` and
`exp(2 |theta| dt)`, entry by entry. Missing: equality, which is false by `C34_fails`. -/
theorem C34_partial (θ σ : ℝ) (q : ℕ) {dt : ℝ} (hdt : 0 ≤ dt) (dim : ℕ) (M : Mat (dim * (q + 1)) (dim * (q + 1)))
    (hM : IsBlockDiag M (transitionCov (ioupDrift θ q) (lastNoise σ q) dt)) (i j : Fin (dim * (q + 1))) :
    Real.exp (-(2 * |θ| * dt)) * (IOUP.transition θ σ q dt dim).Q i j ≤ M i j ∧
    M i j ≤ Real.exp (2 * |θ| * dt) * (IOUP.transition θ σ q dt dim).Q i j := by
  have hQ : IsBlockDiag (IOUP.transition θ σ q dt dim).Q (IOUP.Q1 σ q dt) := kron_one_blockDiag _
  rw [hM, hQ]
  split_ifs
  · exact transitionCov_ioup_bounds θ σ q hdt _ _
  · simp

/-! ## Matérn -/

theorem lam_one (length : ℝ) : Matern.lam 1 length = Real.sqrt 3 / length := by
  rw [Matern.lam]; norm_num

/-- C35: the closed form for `k = 1` is the exact transition of `dX = F X dt + L dW` with `F = [[0, 1], [-l², -2 l]]`,
`l = sqrt 3 / length` and `L = (0, magnitude)`. -/
theorem C35_exact (magnitude : ℝ) {length : ℝ} (hlen : length ≠ 0) (dt : ℝ) (dim : ℕ) :
    let l := Real.sqrt 3 / length
    let F : Mat 2 2 := !![0, 1; -l ^ 2, -2 * l]
    let L : Mat 2 1 := !![0; magnitude]
    (Matern.transition 1 magnitude length dt dim).xi = 0 ∧
    IsBlockDiag (Matern.transition 1 magnitude length dt dim).A (NormedSpace.exp (dt • F)) ∧
    IsBlockDiag (Matern.transition 1 magnitude length dt dim).Q (transitionCov F L dt) := by
  intro l F L
  have hl : l ≠ 0 := div_ne_zero (by positivity) hlen
  have hL : L = lastNoise magnitude 1 := by
    ext i j
    fin_cases i <;> simp [L, lastNoise, Fin.ext_iff]
  have hF : F = maternDrift 1 l := (maternDrift_one l).symm
  refine ⟨rfl, ?_, ?_⟩
  · have h := kron_one_blockDiag (d := dim) (Matern.A32 l dt)
    have h0 := expm_matern_one l dt
    simp only [expm] at h0
    rw [hF, h0]
    simpa [Matern.transition, lam_one] using h
  · have h := kron_one_blockDiag (d := dim) (Matern.Q32 magnitude l dt)
    rw [hF, hL, transitionCov_matern_one magnitude hl]
    simpa [Matern.transition, lam_one] using h

/-- C35: these transitions compose, and `Q` is positive semi-definite. -/
theorem C35_compose (magnitude : ℝ) {length : ℝ} (hlen : length ≠ 0) (s t : ℝ) (dim : ℕ) :
    let p := fun dt => Matern.transition 1 magnitude length dt dim
    (p (s + t)).A = (p t).A * (p s).A ∧ (p (s + t)).Q = (p t).A * (p s).Q * (p t).Aᵀ + (p t).Q ∧
    (0 ≤ t → (p t).Q.PosSemidef) := by
  intro p
  have hl : Matern.lam 1 length ≠ 0 := by rw [lam_one]; exact div_ne_zero (by positivity) hlen
  refine ⟨?_, ?_, fun ht => ?_⟩
  · simp only [p, Matern.transition]
    rw [kron_one_mul, ← expm_matern_one, ← expm_matern_one, ← expm_matern_one, ← expm_add, add_comm s t]
  · simp only [p, Matern.transition]
    rw [kron_one_transpose, kron_one_mul, kron_one_mul, kron_one_add, ← expm_matern_one,
      ← transitionCov_matern_one _ hl, ← transitionCov_matern_one _ hl, ← transitionCov_matern_one _ hl, transitionCov_add]
  · simp only [p, Matern.transition]
    refine kron_one_posSemidef ?_
    rw [← transitionCov_matern_one _ hl]
    refine psd_of (transitionCov_symm _ _ _) fun x => ?_
    rw [transitionCov_quadratic]
    exact intervalIntegral.integral_nonneg ht fun s _ => Finset.sum_nonneg fun k _ => sq_nonneg _

theorem transition_mc (k : ℕ) (magnitude length dt : ℝ) (dim : ℕ) :
    (Matern.transition k magnitude length dt dim true).A = kron (1 : Mat dim dim) (expm (dt • Matern.F k (Matern.lam k length))) ∧
    (Matern.transition k magnitude length dt dim true).Q =
      kron (1 : Mat dim dim) (computeTransition (Matern.F k (Matern.lam k length)) 0 (Matern.L k magnitude) dt).Q ∧
    (Matern.transition k magnitude length dt dim true).xi = 0 := by
  have h : Matern.transition k magnitude length dt dim true =
      ⟨kronVec (fun _ => 1) (Matern.general k magnitude length dt).xi,
        kron (1 : Mat dim dim) (Matern.general k magnitude length dt).Q,
        kron (1 : Mat dim dim) (Matern.general k magnitude length dt).A⟩ := by
    rcases k with _ | _ | k <;> rfl
  rw [h]
  refine ⟨rfl, rfl, ?_⟩
  simp only [Matern.general]
  rw [(C37_scaling _ (0 : Vec (k + 1)) _ _ _ 0).2]
  funext i
  simp [kronVec]

theorem lam_sq (k : ℕ) (length : ℝ) : Matern.lam k length ^ 2 = (2 * k + 1) / length ^ 2 := by
  rw [Matern.lam, div_pow, Real.sq_sqrt (by positivity)]
  ring

theorem lam_ne {k : ℕ} {length : ℝ} (hlen : length ≠ 0) : Matern.lam k length ≠ 0 :=
  div_ne_zero (by positivity) hlen

/-- C36 is false: unless `length² = 2 k + 1` the numerically integrated branch does not use the companion matrix of
`(s + lambda)^(k+1)`, and its transition matrix is wrong for every step; for `k = 1` it differs from the closed form. -/
theorem C36_fails (k : ℕ) (magnitude : ℝ) {length : ℝ} (hlen : length ≠ 0) (hbad : length ^ 2 ≠ 2 * k + 1) {dt : ℝ} (hdt : dt ≠ 0)
    {dim : ℕ} (hdim : 0 < dim) :
    Matern.F k (Matern.lam k length) ≠ maternDrift k (Matern.lam k length) ∧
    ¬ IsBlockDiag (Matern.transition k magnitude length dt dim true).A
      (NormedSpace.exp (dt • maternDrift k (Matern.lam k length))) ∧
    (k = 1 → (Matern.transition 1 magnitude length dt dim true).A ≠ (Matern.transition 1 magnitude length dt dim false).A) := by
  set l := Matern.lam k length with hldef
  have hl : l ≠ 0 := lam_ne hlen
  have hl2 : l⁻¹ ≠ l := by
    intro h
    have h1 : l ^ 2 = 1 := by
      have : l * l⁻¹ = 1 := mul_inv_cancel₀ hl
      rw [h] at this
      rw [sq, this]
    rw [hldef, lam_sq, div_eq_one_iff_eq (pow_ne_zero 2 hlen)] at h1
    exact hbad h1.symm
  have htr : (Matern.F k l).trace ≠ (maternDrift k l).trace := by
    rw [matern_F_last k hl, maternDrift_trace, maternDrift_trace]
    intro h
    exact hl2 (mul_left_cancel₀ (neg_ne_zero.2 (by positivity)) h)
  have hexp : expm (dt • Matern.F k l) ≠ expm (dt • maternDrift k l) := by
    intro h
    have := congrArg det h
    rw [det_expm, det_expm] at this
    exact htr (mul_left_cancel₀ hdt (Real.exp_injective this))
  have hblock : ¬ IsBlockDiag (Matern.transition k magnitude length dt dim true).A (NormedSpace.exp (dt • maternDrift k l)) := by
    intro h
    rw [(transition_mc k magnitude length dt dim).1] at h
    refine hexp (Matrix.ext fun s t => ?_)
    have := blockDiag_last h ⟨0, hdim⟩ s t
    rwa [kron_flat, Matrix.one_apply_eq, one_mul] at this
  refine ⟨fun h => htr (by rw [h]), hblock, ?_⟩
  rintro rfl h
  refine hblock ?_
  rw [h, hldef, lam_one]
  have := (C35_exact magnitude hlen dt dim).2.1
  rwa [← maternDrift_one] at this

/-- C36, what holds: the branch is a valid Gaussian transition of the Matérn process with `lambda` inverted, hence of the right
one if `length² = 2 k + 1` and `length > 0`. Missing: all other lengths, for which the claim is false by `C36_fails`. -/
theorem C36_partial (k : ℕ) (magnitude : ℝ) {length : ℝ} (hlen : length ≠ 0) (dt : ℝ) (dim : ℕ) :
    IsBlockDiag (Matern.transition k magnitude length dt dim true).A
      (NormedSpace.exp (dt • maternDrift k (length / Real.sqrt (2 * k + 1)))) ∧
    IsBlockDiag (Matern.transition k magnitude length dt dim true).Q
      (computeTransition (maternDrift k (length / Real.sqrt (2 * k + 1))) 0 (lastNoise magnitude k) dt).Q ∧
    (0 ≤ dt → (Matern.transition k magnitude length dt dim true).Q.PosSemidef) ∧
    (length ^ 2 = 2 * k + 1 → length / Real.sqrt (2 * k + 1) = Real.sqrt (2 * k + 1) / length) := by
  obtain ⟨hA, hQ, -⟩ := transition_mc k magnitude length dt dim
  have hF : Matern.F k (Matern.lam k length) = maternDrift k (length / Real.sqrt (2 * k + 1)) := by
    rw [matern_F_last k (lam_ne hlen), Matern.lam, inv_div]
    congr 3
    ring
  have hL : Matern.L k magnitude = lastNoise magnitude k := by
    ext i j
    have hi : i = Fin.last k ↔ ¬ i.1 < k := by
      rw [Fin.ext_iff, Fin.val_last]; have := i.2; omega
    simp only [Matern.L, lastNoise, hi]
    split_ifs <;> simp_all
  refine ⟨?_, ?_, ?_, ?_⟩
  · rw [hA, hF]; exact kron_one_blockDiag _
  · rw [hQ, hF, hL]; exact kron_one_blockDiag _
  · intro hdt
    rw [hQ]
    exact kron_one_posSemidef ((C37_valid _ _ _ _ _).2 hdt)
  · intro h
    have hpos : Real.sqrt (2 * k + 1) ≠ 0 := by positivity
    field_simp
    rw [h, Real.sq_sqrt (by positivity)]

/-! ## The hypotheses can be met -/

example : ∃ M, IsBlockDiag (d := 2) M (transitionCov (ioupDrift 1 1) (lastNoise 1 1) 1) := ⟨_, kron_one_blockDiag _⟩

example : (1 : ℝ) ^ 2 ≠ 2 * (2 : ℕ) + 1 := by norm_num

end Verif
