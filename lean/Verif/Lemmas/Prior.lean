import Verif.Spec.Prior
import Verif.Lemmas.Exp
import Verif.Lemmas.Index
import Verif.Lemmas.LinAlg
import Mathlib.MeasureTheory.Integral.IntervalIntegral.FundThmCalculus
import Mathlib.Analysis.SpecialFunctions.Integrals.Basic
import Mathlib.Analysis.Calculus.Deriv.Pow
import Mathlib.Algebra.Polynomial.Roots

/-! Helper lemmas: Kronecker products with the identity, transition covariances, and the IBM prior. -/

namespace Verif

open Matrix Spec Jnp

/-! ## `kron 1` -/

section kron
variable {d n : ℕ}

theorem kron_one_mul (A B : Mat n n) : kron (1 : Mat d d) A * kron (1 : Mat d d) B = kron 1 (A * B) := by
  ext p q
  rw [← flat_div_mod p, ← flat_div_mod q, mul_apply, sum_flat]
  simp only [kron_flat, Matrix.one_apply, mul_apply]
  rw [Finset.sum_eq_single p.divNat]
  · simp [Finset.mul_sum, mul_left_comm]
  · intro b _ hb; simp [hb.symm]
  · simp

theorem kron_one_add (A B : Mat n n) : kron (1 : Mat d d) A + kron (1 : Mat d d) B = kron 1 (A + B) := by
  ext p q; simp [kron, mul_add]

theorem kron_one_transpose (A : Mat n n) : (kron (1 : Mat d d) A)ᵀ = kron 1 Aᵀ := by
  ext p q
  simp only [kron, transpose_apply, Matrix.one_apply, eq_comm]

theorem kron_one_one : kron (1 : Mat d d) (1 : Mat n n) = 1 := by
  ext p q
  rw [← flat_div_mod p, ← flat_div_mod q]
  simp only [kron_flat, Matrix.one_apply, flat_inj]
  split_ifs <;> simp_all

theorem kron_eq_submatrix (A : Mat d d) (B : Mat n n) :
    kron A B = (Matrix.kronecker A B).submatrix finProdFinEquiv.symm finProdFinEquiv.symm := by
  ext p q; rfl

theorem kron_one_posDef {B : Mat n n} (hB : B.PosDef) : (kron (1 : Mat d d) B).PosDef := by
  rw [kron_eq_submatrix]
  exact (PosDef.one.kronecker hB).submatrix finProdFinEquiv.symm.injective

theorem kron_one_posSemidef {B : Mat n n} (hB : B.PosSemidef) : (kron (1 : Mat d d) B).PosSemidef := by
  rw [kron_eq_submatrix]
  exact (PosSemidef.one.kronecker hB).submatrix _

theorem kron_one_blockDiag (B : Mat n n) : IsBlockDiag (kron (1 : Mat d d) B) B := by
  intro p q
  have : p.divNat = q.divNat ↔ p.1 / n = q.1 / n := by rw [Fin.ext_iff]; rfl
  simp only [kron, Matrix.one_apply, this]
  split_ifs <;> simp

end kron

/-! ## Transition covariances -/

section transition
variable {n l : ℕ}

theorem transitionCov_integrand_continuous (F : Mat n n) (L : Mat n l) (i j : Fin n) :
    Continuous fun s : ℝ => (expm (s • F) * L * (expm (s • F) * L)ᵀ) i j := by
  have h : ∀ i k, Continuous fun s : ℝ => (expm (s • F) * L) i k := fun i k => by
    simp only [mul_apply]
    exact continuous_finset_sum _ fun a _ => (expm_continuous F i a).mul continuous_const
  simp only [mul_apply (N := (_ : Matrix (Fin n) (Fin l) ℝ)ᵀ), transpose_apply]
  exact continuous_finset_sum _ fun k _ => (h i k).mul (h j k)

theorem transitionCov_zero (F : Mat n n) (L : Mat n l) : transitionCov F L 0 = 0 := by
  ext i j; simp [transitionCov]

/-- Chapman-Kolmogorov for the exact transition covariance. -/
theorem transitionCov_add (F : Mat n n) (L : Mat n l) (s t : ℝ) :
    transitionCov F L (s + t) = expm (t • F) * transitionCov F L s * (expm (t • F))ᵀ + transitionCov F L t := by
  have hint : ∀ a b i j, IntervalIntegrable (fun s : ℝ => (expm (s • F) * L * (expm (s • F) * L)ᵀ) i j)
      MeasureTheory.volume a b := fun a b i j => (transitionCov_integrand_continuous F L i j).intervalIntegrable a b
  ext i j
  have h1 : transitionCov F L (s + t) i j = transitionCov F L t i j +
      ∫ u in t..(s + t), (expm (u • F) * L * (expm (u • F) * L)ᵀ) i j :=
    (intervalIntegral.integral_add_adjacent_intervals (hint 0 t i j) (hint t (s + t) i j)).symm
  have h2 : ∫ u in t..(s + t), (expm (u • F) * L * (expm (u • F) * L)ᵀ) i j =
      ∫ u in (0 : ℝ)..s, (expm ((u + t) • F) * L * (expm ((u + t) • F) * L)ᵀ) i j := by
    have := intervalIntegral.integral_comp_add_right (a := 0) (b := s)
      (fun u => (expm (u • F) * L * (expm (u • F) * L)ᵀ) i j) t
    rw [this, zero_add]
  have h3 : ∀ u : ℝ, (expm ((u + t) • F) * L * (expm ((u + t) • F) * L)ᵀ) i j =
      ∑ a, ∑ b, expm (t • F) i a * expm (t • F) j b * (expm (u • F) * L * (expm (u • F) * L)ᵀ) a b := by
    intro u
    have e : expm ((u + t) • F) * L * (expm ((u + t) • F) * L)ᵀ =
        expm (t • F) * (expm (u • F) * L * (expm (u • F) * L)ᵀ) * (expm (t • F))ᵀ := by
      rw [add_comm, expm_add]
      simp only [transpose_mul, Matrix.mul_assoc]
    rw [e, mul_apply]
    simp only [mul_apply (M := expm (t • F)), transpose_apply, Finset.sum_mul]
    rw [Finset.sum_comm]
    refine Finset.sum_congr rfl fun a _ => Finset.sum_congr rfl fun b _ => by ring
  rw [h1, h2, Matrix.add_apply, add_comm]
  congr 1
  simp only [h3]
  rw [intervalIntegral.integral_finset_sum]
  · simp_rw [intervalIntegral.integral_finset_sum (fun b _ => ((hint 0 s _ b).const_mul _)),
      intervalIntegral.integral_const_mul]
    rw [mul_apply]
    simp only [mul_apply (M := expm (t • F)), transpose_apply, Finset.sum_mul]
    conv_rhs => rw [Finset.sum_comm]
    refine Finset.sum_congr rfl fun a _ => Finset.sum_congr rfl fun b _ => ?_
    simp only [transitionCov]
    ring
  · intro a _
    exact (continuous_finset_sum _ fun b _ =>
      continuous_const.mul (transitionCov_integrand_continuous F L a b)).intervalIntegrable _ _

theorem transitionCov_symm (F : Mat n n) (L : Mat n l) (h : ℝ) : (transitionCov F L h)ᵀ = transitionCov F L h := by
  ext i j
  simp only [transitionCov, transpose_apply]
  congr 1
  funext s
  simp only [mul_apply (N := (_ : Matrix (Fin n) (Fin l) ℝ)ᵀ), transpose_apply]
  exact Finset.sum_congr rfl fun k _ => mul_comm _ _

/-- The quadratic form of the transition covariance. -/
theorem transitionCov_quadratic (F : Mat n n) (L : Mat n l) (h : ℝ) (x : Vec n) :
    x ⬝ᵥ transitionCov F L h *ᵥ x = ∫ s in (0 : ℝ)..h, ∑ k, (x ᵥ* (expm (s • F) * L)) k ^ 2 := by
  have hc := transitionCov_integrand_continuous F L
  have h1 : ∀ s : ℝ, ∑ k, (x ᵥ* (expm (s • F) * L)) k ^ 2 =
      ∑ i, ∑ j, x i * x j * (expm (s • F) * L * (expm (s • F) * L)ᵀ) i j := by
    intro s
    have e : ∑ k, (x ᵥ* (expm (s • F) * L)) k ^ 2 = x ⬝ᵥ (expm (s • F) * L * (expm (s • F) * L)ᵀ) *ᵥ x := by
      rw [← mulVec_mulVec, mulVec_transpose, dotProduct_mulVec]
      simp [dotProduct, sq]
    rw [e]
    simp only [dotProduct, mulVec, Finset.mul_sum]
    exact Finset.sum_congr rfl fun i _ => Finset.sum_congr rfl fun j _ => by ring
  simp only [h1]
  have hc2 : ∀ i j, Continuous fun s : ℝ => x i * x j * (expm (s • F) * L * (expm (s • F) * L)ᵀ) i j := fun i j =>
    continuous_const.mul (hc i j)
  have hc3 : ∀ i, Continuous fun s : ℝ => ∑ j, x i * x j * (expm (s • F) * L * (expm (s • F) * L)ᵀ) i j := fun i =>
    continuous_finset_sum _ fun j _ => hc2 i j
  rw [intervalIntegral.integral_finset_sum fun i _ => (hc3 i).intervalIntegrable _ _]
  simp only [dotProduct, mulVec, Finset.mul_sum]
  refine Finset.sum_congr rfl fun i _ => ?_
  rw [intervalIntegral.integral_finset_sum fun j _ => (hc2 i j).intervalIntegrable _ _]
  refine Finset.sum_congr rfl fun j _ => ?_
  rw [intervalIntegral.integral_const_mul]
  simp only [transitionCov]
  ring

end transition

/-! ## Integrated Ornstein-Uhlenbeck and integrated Brownian motion -/

theorem ioup_F_eq (θ : ℝ) (q : ℕ) : IOUP.F θ q = ioupDrift θ q := by
  ext i j
  have hi : i = Fin.last q ↔ ¬ i.1 < q := by
    rw [Fin.ext_iff, Fin.val_last]; have := i.2; omega
  have hj : j = Fin.last q ↔ ¬ j.1 < q := by
    rw [Fin.ext_iff, Fin.val_last]; have := j.2; omega
  simp only [IOUP.F, ioupDrift, hi, hj]
  split_ifs <;> simp_all

/-- The matrix of monomials `t^(j-i) / (j-i)!`. -/
noncomputable def ibmA (q : ℕ) (t : ℝ) : Mat (q + 1) (q + 1) := fun i j =>
  if i.1 ≤ j.1 then t ^ (j.1 - i.1) / ((j.1 - i.1).factorial : ℝ) else 0

theorem hasDerivAt_pow_div_factorial (k : ℕ) (t : ℝ) :
    HasDerivAt (fun s : ℝ => s ^ (k + 1) / ((k + 1).factorial : ℝ)) (t ^ k / (k.factorial : ℝ)) t := by
  have := (hasDerivAt_pow (k + 1) t).div_const ((k + 1).factorial : ℝ)
  refine this.congr_deriv ?_
  rw [Nat.factorial_succ, Nat.add_sub_cancel]
  push_cast
  have : ((k : ℝ) + 1) ≠ 0 := by positivity
  field_simp

theorem ioupDrift_mul {q : ℕ} (θ : ℝ) (M : Mat (q + 1) (q + 1)) (i j : Fin (q + 1)) :
    (ioupDrift θ q * M) i j =
      if h : i.1 < q then M ⟨i.1 + 1, by omega⟩ j else -θ * M (Fin.last q) j := by
  rw [mul_apply]
  by_cases h : i.1 < q
  · have hi : i ≠ Fin.last q := by rw [Ne, Fin.ext_iff, Fin.val_last]; omega
    rw [dif_pos h, Finset.sum_eq_single ⟨i.1 + 1, by omega⟩]
    · simp [ioupDrift, hi]
    · intro b _ hb
      have : b.1 ≠ i.1 + 1 := fun hb' => hb (Fin.ext hb')
      simp [ioupDrift, hi, this]
    · simp
  · have hi : i = Fin.last q := by rw [Fin.ext_iff, Fin.val_last]; have := i.2; omega
    rw [dif_neg h, Finset.sum_eq_single (Fin.last q)]
    · simp [ioupDrift, hi]
    · intro b _ hb; simp [ioupDrift, hi, hb]
    · simp

theorem expm_ibm (q : ℕ) (t : ℝ) : expm (t • ioupDrift 0 q) = ibmA q t := by
  refine (expm_unique _ (ibmA q) ?_ ?_ t).symm
  · ext i j
    simp only [ibmA, Matrix.one_apply]
    by_cases h : i = j
    · subst h; simp
    · rw [if_neg h]
      split_ifs with hij
      · have : j.1 - i.1 ≠ 0 := by
          have := Fin.val_ne_of_ne h; omega
        simp [zero_pow this]
      · rfl
  · intro t i j
    rw [ioupDrift_mul]
    have hi := i.2; have hj := j.2
    by_cases h : i.1 < q
    · rw [dif_pos h]
      simp only [ibmA]
      by_cases hij : i.1 + 1 ≤ j.1
      · have e : j.1 - i.1 = (j.1 - (i.1 + 1)) + 1 := by omega
        have := hasDerivAt_pow_div_factorial (j.1 - (i.1 + 1)) t
        rw [if_pos hij]
        simp only [if_pos (show i.1 ≤ j.1 by omega), e]
        exact this
      · rw [if_neg hij]
        by_cases hij' : i.1 ≤ j.1
        · have : j.1 - i.1 = 0 := by omega
          simp only [if_pos hij', this, pow_zero]
          exact hasDerivAt_const _ _
        · simp only [if_neg hij']
          exact hasDerivAt_const _ _
    · rw [dif_neg h]
      simp only [ibmA, neg_zero, zero_mul]
      by_cases hij' : i.1 ≤ j.1
      · have : j.1 - i.1 = 0 := by omega
        simp only [if_pos hij', this, pow_zero]
        exact hasDerivAt_const _ _
      · simp only [if_neg hij']
        exact hasDerivAt_const _ _

/-- Products of the last column of the exponential. -/
theorem lastNoise_product {q : ℕ} (σ : ℝ) (E : Mat (q + 1) (q + 1)) (i j : Fin (q + 1)) :
    (E * lastNoise σ q * (E * lastNoise σ q)ᵀ) i j = σ ^ 2 * (E i (Fin.last q) * E j (Fin.last q)) := by
  have h : ∀ i, (E * lastNoise σ q) i 0 = σ * E i (Fin.last q) := by
    intro i
    rw [mul_apply, Finset.sum_eq_single (Fin.last q)]
    · simp [lastNoise, mul_comm]
    · intro b _ hb; simp [lastNoise, hb]
    · simp
  rw [mul_apply, Fin.sum_univ_one, transpose_apply, h, h]
  ring

theorem transitionCov_ibm (σ : ℝ) (q : ℕ) (dt : ℝ) :
    transitionCov (ioupDrift 0 q) (lastNoise σ q) dt = IOUP.Q1 σ q dt := by
  ext i j
  have hi := i.2; have hj := j.2
  simp only [transitionCov]
  have h1 : ∀ s : ℝ, (NormedSpace.exp (s • ioupDrift 0 q) * lastNoise σ q *
      (NormedSpace.exp (s • ioupDrift 0 q) * lastNoise σ q)ᵀ) i j =
      σ ^ 2 / ((q - i.1).factorial * (q - j.1).factorial : ℝ) * s ^ (2 * q - i.1 - j.1) := by
    intro s
    have he : NormedSpace.exp (s • ioupDrift 0 q) = ibmA q s := expm_ibm q s
    rw [he, lastNoise_product]
    simp only [ibmA, Fin.val_last, if_pos (show i.1 ≤ q by omega), if_pos (show j.1 ≤ q by omega)]
    rw [show 2 * q - i.1 - j.1 = (q - i.1) + (q - j.1) by omega, pow_add]
    field_simp
  simp only [h1]
  rw [intervalIntegral.integral_const_mul, integral_pow]
  simp only [IOUP.Q1]
  rw [show 2 * q + 1 - i.1 - j.1 = (2 * q - i.1 - j.1) + 1 by omega]
  have : (0 : ℝ) ^ (2 * q - i.1 - j.1 + 1) = 0 := by simp
  rw [this]
  push_cast
  have h3 : ((2 * q - i.1 - j.1 : ℕ) : ℝ) + 1 ≠ 0 := by positivity
  field_simp
  ring

theorem ibm_Q1_posDef {σ : ℝ} (hσ : σ ≠ 0) (q : ℕ) {dt : ℝ} (hdt : 0 < dt) : (IOUP.Q1 σ q dt).PosDef := by
  rw [← transitionCov_ibm]
  refine pd_of (transitionCov_symm _ _ _) fun x hx => ?_
  rw [transitionCov_quadratic]
  -- the integrand is the square of a polynomial
  let p : Polynomial ℝ := ∑ i : Fin (q + 1), Polynomial.C (x i / (q - i.1).factorial) * Polynomial.X ^ (q - i.1)
  have hp : ∀ s : ℝ, ∑ k, (x ᵥ* (expm (s • ioupDrift 0 q) * lastNoise σ q)) k ^ 2 = (σ * p.eval s) ^ 2 := by
    intro s
    rw [Fin.sum_univ_one, expm_ibm]
    congr 1
    simp only [vecMul, dotProduct]
    have h : ∀ i, (ibmA q s * lastNoise σ q) i 0 = σ * ibmA q s i (Fin.last q) := by
      intro i
      rw [mul_apply, Finset.sum_eq_single (Fin.last q)]
      · simp [lastNoise, mul_comm]
      · intro b _ hb; simp [lastNoise, hb]
      · simp
    simp only [h, p, Polynomial.eval_finset_sum, Polynomial.eval_mul, Polynomial.eval_C, Polynomial.eval_pow,
      Polynomial.eval_X, Finset.mul_sum]
    refine Finset.sum_congr rfl fun i _ => ?_
    have := i.2
    simp only [ibmA, Fin.val_last, if_pos (show i.1 ≤ q by omega)]
    ring
  have hp0 : p ≠ 0 := by
    intro h0
    refine hx (funext fun i => ?_)
    have hc : p.coeff (q - i.1) = x i / (q - i.1).factorial := by
      simp only [p, Polynomial.finset_sum_coeff, Polynomial.coeff_C_mul, Polynomial.coeff_X_pow]
      rw [Finset.sum_eq_single i]
      · simp
      · intro b _ hb
        have := i.2; have := b.2
        have : q - i.1 ≠ q - b.1 := fun h => hb (Fin.ext (by omega))
        simp [this]
      · simp
    rw [h0, Polynomial.coeff_zero] at hc
    have hf : ((q - i.1).factorial : ℝ) ≠ 0 := by positivity
    simpa [hf] using hc.symm
  simp only [hp]
  -- some point of (0, dt) is not a root
  obtain ⟨s, hs, hsr⟩ : ∃ s ∈ Set.Ioo 0 dt, p.eval s ≠ 0 := by
    by_contra hcon
    push Not at hcon
    have hinf : Set.Infinite {s | p.IsRoot s} := (Set.Ioo_infinite hdt).mono fun s hs => hcon s hs
    exact hp0 (Polynomial.eq_zero_of_infinite_isRoot p hinf)
  have hcont : Continuous fun s : ℝ => (σ * p.eval s) ^ 2 := by fun_prop
  refine intervalIntegral.integral_pos hdt hcont.continuousOn (fun s _ => sq_nonneg _) ⟨s, ⟨hs.1.le, hs.2.le⟩, ?_⟩
  have : σ * p.eval s ≠ 0 := mul_ne_zero hσ hsr
  positivity

end Verif
