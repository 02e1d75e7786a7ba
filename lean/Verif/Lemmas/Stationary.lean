import Verif.Props.Ivp
import Mathlib.Analysis.SpecialFunctions.Exp
import Mathlib.Analysis.Calculus.Deriv.MeanValue

/-! The harmonic oscillator for large times. -/

namespace Verif

open Matrix Spec Jnp Set Filter
open scoped Topology

/-- The matrix exponential of the damped oscillator tends to zero. -/
theorem harmonic_decay {D γ : ℝ} (hD : 0 < D) (hγ : 0 < γ) (i j : Fin 2) :
    Tendsto (fun t : ℝ => expm (t • Ivp.Harmonic.M D γ) i j) atTop (𝓝 0) := by
  obtain ⟨x, hx⟩ : ∃ x : ℝ → ℝ, x = fun t => expm (t • Ivp.Harmonic.M D γ) 0 j := ⟨_, rfl⟩
  obtain ⟨v, hv⟩ : ∃ v : ℝ → ℝ, v = fun t => expm (t • Ivp.Harmonic.M D γ) 1 j := ⟨_, rfl⟩
  have hx' : ∀ t, HasDerivAt x (v t) t := fun t => by
    have h := expm_hasDerivAt (Ivp.Harmonic.M D γ) t 0 j
    rw [Matrix.mul_apply, Fin.sum_univ_two] at h
    simpa [Ivp.Harmonic.M, hx, hv] using h
  have hv' : ∀ t, HasDerivAt v (-D * x t - γ * v t) t := fun t => by
    have h := expm_hasDerivAt (Ivp.Harmonic.M D γ) t 1 j
    rw [Matrix.mul_apply, Fin.sum_univ_two] at h
    simpa [Ivp.Harmonic.M, hx, hv, sub_eq_add_neg] using h
  obtain ⟨L, hL⟩ : ∃ L : ℝ → ℝ, L = fun t => (γ ^ 2 + D + D ^ 2) * x t ^ 2 + 2 * γ * (x t * v t) + (1 + D) * v t ^ 2 := ⟨_, rfl⟩
  obtain ⟨K, hK⟩ : ∃ K, K = γ ^ 2 + D + D ^ 2 + γ + (1 + D) := ⟨_, rfl⟩
  have hK0 : 0 < K := by rw [hK]; positivity
  obtain ⟨k, hk⟩ : ∃ k, k = 2 * γ * D / K := ⟨_, rfl⟩
  have hk0 : 0 < k := by rw [hk]; positivity
  have hkK : k * K = 2 * γ * D := by rw [hk]; field_simp
  have hLK : ∀ t, L t ≤ K * (x t ^ 2 + v t ^ 2) := fun t => by
    rw [hL, hK]
    have h1 : 0 ≤ γ * (x t - v t) ^ 2 := by positivity
    have h2 : 0 ≤ (1 + D) * x t ^ 2 := by positivity
    have h3 : 0 ≤ (γ ^ 2 + D + D ^ 2) * v t ^ 2 := by positivity
    simp only
    nlinarith
  have hLD : ∀ t, D * (x t ^ 2 + v t ^ 2) ≤ L t := fun t => by
    rw [hL]
    have h1 : 0 ≤ (γ * x t + v t) ^ 2 := sq_nonneg _
    have h2 : 0 ≤ D ^ 2 * x t ^ 2 := by positivity
    simp only
    nlinarith
  have hL' : ∀ t, HasDerivAt L (-(2 * γ * D) * (x t ^ 2 + v t ^ 2)) t := fun t => by
    rw [hL]
    have h := ((((hx' t).pow 2).const_mul (γ ^ 2 + D + D ^ 2)).add (((hx' t).mul (hv' t)).const_mul (2 * γ))).add (((hv' t).pow 2).const_mul (1 + D))
    refine h.congr_deriv ?_
    push_cast
    ring
  have hg' : ∀ t, HasDerivAt (fun t => Real.exp (k * t) * L t) (Real.exp (k * t) * (k * L t - 2 * γ * D * (x t ^ 2 + v t ^ 2))) t := fun t => by
    have h := (((hasDerivAt_id t).const_mul k).exp).mul (hL' t)
    refine h.congr_deriv ?_
    simp only [id, mul_one]
    ring
  have hanti : Antitone fun t => Real.exp (k * t) * L t := by
    refine antitone_of_deriv_nonpos (fun t => (hg' t).differentiableAt) fun t => ?_
    rw [(hg' t).deriv]
    refine mul_nonpos_of_nonneg_of_nonpos (Real.exp_pos _).le ?_
    have := mul_le_mul_of_nonneg_left (hLK t) hk0.le
    rw [← mul_assoc, hkK] at this
    linarith
  have hbound : ∀ t, 0 ≤ t → x t ^ 2 + v t ^ 2 ≤ L 0 / D * Real.exp (-(k * t)) := fun t ht => by
    have h1 := hanti ht
    simp only [mul_zero, Real.exp_zero, one_mul] at h1
    have h2 := hLD t
    have h3 : L t ≤ L 0 * Real.exp (-(k * t)) := by
      rw [Real.exp_neg, ← div_eq_mul_inv, le_div_iff₀ (Real.exp_pos _)]
      linarith
    rw [div_mul_eq_mul_div, le_div_iff₀ hD]
    linarith
  have hlim : Tendsto (fun t : ℝ => L 0 / D * Real.exp (-(k * t))) atTop (𝓝 0) := by
    have := (Real.tendsto_exp_neg_atTop_nhds_zero.comp (tendsto_id.const_mul_atTop hk0)).const_mul (L 0 / D)
    simpa using this
  have hsq : ∀ u : ℝ → ℝ, (∀ t, u t ^ 2 ≤ x t ^ 2 + v t ^ 2) → Tendsto u atTop (𝓝 0) := fun u hu => by
    have h1 : Tendsto (fun t => u t ^ 2) atTop (𝓝 0) := by
      refine squeeze_zero' (Eventually.of_forall fun t => sq_nonneg _) ?_ hlim
      filter_upwards [eventually_ge_atTop 0] with t ht
      exact (hu t).trans (hbound t ht)
    have h2 := (Real.continuous_sqrt.tendsto 0).comp h1
    rw [Real.sqrt_zero] at h2
    refine (tendsto_zero_iff_abs_tendsto_zero _).mpr (h2.congr fun t => ?_)
    exact Real.sqrt_sq_eq_abs _
  fin_cases i
  · have := hsq x fun t => by nlinarith [sq_nonneg (v t)]
    rwa [hx] at this
  · have := hsq v fun t => by nlinarith [sq_nonneg (x t)]
    rwa [hv] at this

/-- The stationary covariance of the oscillator. -/
noncomputable def harmonicStat (D γ s : ℝ) : Mat 2 2 := !![s ^ 2 / (2 * γ * D), 0; 0, s ^ 2 / (2 * γ)]

theorem harmonic_cov {l : ℕ} {D γ s : ℝ} (hD : 0 < D) (hγ : 0 < γ) (C : Mat 2 l) (hC : C * Cᵀ = !![0, 0; 0, s ^ 2]) {V : ℝ → Mat 2 2}
    (hV : SolvesVarianceODE (Ivp.Harmonic.M D γ) C V) (i j : Fin 2) :
    Tendsto (fun t => V t i j) atTop (𝓝 (harmonicStat D γ s i j)) := by
  obtain ⟨M, hM⟩ : ∃ M, M = Ivp.Harmonic.M D γ := ⟨_, rfl⟩
  obtain ⟨Z, hZ⟩ : ∃ Z, Z = harmonicStat D γ s := ⟨_, rfl⟩
  have hst : M * Z + Z * Mᵀ + C * Cᵀ = 0 := by
    rw [hC, hM, hZ]
    ext i j
    simp only [Matrix.add_apply, Matrix.mul_apply, Fin.sum_univ_two, transpose_apply, Matrix.zero_apply]
    fin_cases i <;> fin_cases j <;> simp [Ivp.Harmonic.M, harmonicStat] <;> field_simp <;> ring
  have hlimit : ∀ i j, Tendsto (fun t : ℝ => expm (t • M) i j) atTop (𝓝 0) := fun i j => hM ▸ harmonic_decay hD hγ i j
  rw [← hM] at hV
  have hW : SolvesVarianceODE M C fun t => Z - expm (t • M) * Z * (expm (t • M))ᵀ := by
    refine ⟨by simp [expm_zero_smul], fun t i j => ?_⟩
    have h1 := hasDerivAt_mul_entry (A := fun s => expm (s • M)) (A' := fun s => M * expm (s • M)) (B := fun _ => Z) (B' := fun _ => 0) (t := t)
      (fun i j => expm_hasDerivAt M t i j) (fun i j => hasDerivAt_const _ _)
    have h2 := hasDerivAt_mul_entry (A := fun s => expm (s • M) * Z) (A' := fun s => M * expm (s • M) * Z + expm (s • M) * 0)
      (B := fun s => (expm (s • M))ᵀ) (B' := fun s => (M * expm (s • M))ᵀ) (t := t) h1 (fun i j => expm_hasDerivAt M t j i) i j
    have h3 := h2.const_sub (Z i j)
    refine h3.congr_deriv ?_
    obtain ⟨E, hE⟩ : ∃ E, E = expm (t • M) := ⟨_, rfl⟩
    simp only [← hE]
    have e : M * (Z - E * Z * Eᵀ) + (Z - E * Z * Eᵀ) * Mᵀ + C * Cᵀ = (M * Z + Z * Mᵀ + C * Cᵀ) - ((M * E * Z + E * 0) * Eᵀ + E * Z * (M * E)ᵀ) := by
      rw [transpose_mul]
      simp only [Matrix.mul_sub, Matrix.sub_mul, Matrix.mul_zero, add_zero, Matrix.mul_assoc]
      abel
    rw [e, hst, zero_sub]
    rfl
  have heq : ∀ t, V t i j = Z i j - (expm (t • M) * Z * (expm (t • M))ᵀ) i j := fun t => by
    rw [varianceODE_unique hV t, ← varianceODE_unique hW t]
    rfl
  rw [← hZ]
  simp only [heq]
  have h0 : Tendsto (fun t : ℝ => (expm (t • M) * Z * (expm (t • M))ᵀ) i j) atTop (𝓝 0) := by
    simp only [Matrix.mul_apply, transpose_apply]
    have : (0 : ℝ) = ∑ k : Fin 2, (∑ l : Fin 2, 0 * Z l k) * 0 := by simp
    rw [this]
    exact tendsto_finset_sum _ fun k _ => (tendsto_finset_sum _ fun l _ => (hlimit i l).mul_const _).mul (hlimit j k)
  simpa using h0.const_sub (Z i j)

/-- The integrated variance of the code, with its thousand nodes, grows at least linearly. -/
theorem harmonic_variance_ge {l : ℕ} (D γ : ℝ) (C : Mat 2 l) {t : ℝ} (ht : 0 ≤ t) (i : Fin 2) :
    t / 1998 * (C * Cᵀ) i i ≤ Ivp.Harmonic.variance D γ C t i i := by
  obtain ⟨f, hf⟩ : ∃ f : ℝ → Mat 2 2, f = fun s => expm (s • Ivp.Harmonic.M D γ) * C * (expm (s • Ivp.Harmonic.M D γ) * C)ᵀ := ⟨_, rfl⟩
  obtain ⟨n, hn⟩ : ∃ n : ℕ, n = 998 := ⟨_, rfl⟩
  have h := trapezoid_linspace f t n
  have hv : Ivp.Harmonic.variance D γ C t = trapezoid ((linspace 0 t (n + 2)).map f) (linspace 0 t (n + 2)) := by
    rw [hf, Ivp.Harmonic.variance, hn]
  have hf0 : ∀ s, 0 ≤ f s i i := fun s => by
    rw [hf]
    simp only
    rw [Matrix.mul_apply]
    exact Finset.sum_nonneg fun j _ => by rw [transpose_apply]; exact mul_self_nonneg _
  have hfz : f 0 i i = (C * Cᵀ) i i := by rw [hf]; simp only; rw [expm_zero_smul, Matrix.one_mul]
  rw [hv, h, Matrix.sum_apply, Finset.sum_range_succ']
  have hrest : 0 ≤ ∑ k ∈ Finset.range n, ((t / ((n : ℝ) + 1) / 2) • (f (((k + 1 : ℕ) : ℝ) * (t / ((n : ℝ) + 1))) +
      f ((((k + 1 : ℕ) : ℝ) + 1) * (t / ((n : ℝ) + 1))))) i i :=
    Finset.sum_nonneg fun k _ => by
      rw [Matrix.smul_apply, Matrix.add_apply, smul_eq_mul]
      exact mul_nonneg (by positivity) (add_nonneg (hf0 _) (hf0 _))
  have hfirst : t / 1998 * (C * Cᵀ) i i ≤ ((t / ((n : ℝ) + 1) / 2) • (f (((0 : ℕ) : ℝ) * (t / ((n : ℝ) + 1))) +
      f ((((0 : ℕ) : ℝ) + 1) * (t / ((n : ℝ) + 1))))) i i := by
    rw [Matrix.smul_apply, Matrix.add_apply, smul_eq_mul, Nat.cast_zero, zero_mul, hfz]
    have e : t / ((n : ℝ) + 1) / 2 = t / 1998 := by rw [hn]; push_cast; ring
    rw [e]
    exact mul_le_mul_of_nonneg_left (le_add_of_nonneg_right (hf0 _)) (by positivity)
  linarith

end Verif
