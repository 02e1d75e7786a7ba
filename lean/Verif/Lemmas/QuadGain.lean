import Verif.Lemmas.BlockPriors
import Verif.Model.ScriptsComparison

/-! The priors of the comparison script: independent blocks, gains and residual variances. -/

namespace Verif

open Matrix Spec Jnp Scripts
open scoped Matrix.Norms.Operator

/-! ## The trapezoid rule as a positive functional -/

/-- The trapezoid rule on `[0, h]`. -/
noncomputable def quad (h : ℝ) (n : ℕ) (φ : ℝ → ℝ) : ℝ :=
  ∑ k ∈ Finset.range (n + 1), h / ((n : ℝ) + 1) / 2 * (φ ((k : ℝ) * (h / ((n : ℝ) + 1))) + φ (((k : ℝ) + 1) * (h / ((n : ℝ) + 1))))

theorem quad_mono {h : ℝ} (hh : 0 ≤ h) (n : ℕ) {φ ψ : ℝ → ℝ} (hle : ∀ s, 0 ≤ s → s ≤ h → φ s ≤ ψ s) : quad h n φ ≤ quad h n ψ := by
  unfold quad
  refine Finset.sum_le_sum fun k hk => mul_le_mul_of_nonneg_left ?_ (by positivity)
  have hk' : (k : ℝ) + 1 ≤ n + 1 := by exact_mod_cast Finset.mem_range.mp hk
  have hn : (0 : ℝ) < (n : ℝ) + 1 := by positivity
  have h1 : ((k : ℝ) + 1) * (h / ((n : ℝ) + 1)) ≤ h := by
    calc _ ≤ ((n : ℝ) + 1) * (h / ((n : ℝ) + 1)) := by gcongr
      _ = h := by field_simp
  have h2 : (k : ℝ) * (h / ((n : ℝ) + 1)) ≤ h := le_trans (by gcongr; linarith) h1
  exact add_le_add (hle _ (by positivity) h2) (hle _ (by positivity) h1)

theorem quad_const (h : ℝ) (n : ℕ) (c : ℝ) : quad h n (fun _ => c) = c * h := by
  have hn : (n : ℝ) + 1 ≠ 0 := by positivity
  simp only [quad, Finset.sum_const, Finset.card_range, nsmul_eq_mul]
  push_cast
  field_simp
  ring

theorem quad_add (h : ℝ) (n : ℕ) (φ ψ : ℝ → ℝ) : quad h n (fun s => φ s + ψ s) = quad h n φ + quad h n ψ := by
  simp only [quad, ← Finset.sum_add_distrib]
  exact Finset.sum_congr rfl fun k _ => by ring

theorem quad_smul (h : ℝ) (n : ℕ) (c : ℝ) (φ : ℝ → ℝ) : quad h n (fun s => c * φ s) = c * quad h n φ := by
  simp only [quad, Finset.mul_sum]
  exact Finset.sum_congr rfl fun k _ => by ring

theorem quad_id (h : ℝ) (n : ℕ) : quad h n (fun s => s) = h ^ 2 / 2 := by
  have hn : (n : ℝ) + 1 ≠ 0 := by positivity
  have e : ∀ N : ℕ, ∑ k ∈ Finset.range N, (2 * (k : ℝ) + 1) = N ^ 2 := fun N => by
    induction N with
    | zero => simp
    | succ N ih => rw [Finset.sum_range_succ, ih]; push_cast; ring
  have h1 : quad h n (fun s => s) = ∑ k ∈ Finset.range (n + 1), (h / ((n : ℝ) + 1)) ^ 2 / 2 * (2 * (k : ℝ) + 1) :=
    Finset.sum_congr rfl fun k _ => by ring
  rw [h1, ← Finset.mul_sum, e]
  push_cast
  field_simp

theorem quad_abs {h : ℝ} (hh : 0 ≤ h) (n : ℕ) {φ ψ : ℝ → ℝ} {e : ℝ} (hle : ∀ s, 0 ≤ s → s ≤ h → |φ s - ψ s| ≤ e) :
    |quad h n φ - quad h n ψ| ≤ e * h := by
  have h1 := quad_mono hh n (φ := φ) (ψ := fun s => ψ s + e) fun s h0 h1 => by linarith [(abs_le.mp (hle s h0 h1)).2]
  have h2 := quad_mono hh n (φ := ψ) (ψ := fun s => φ s + e) fun s h0 h1 => by linarith [(abs_le.mp (hle s h0 h1)).1]
  rw [quad_add, quad_const] at h1 h2
  exact abs_le.mpr ⟨by linarith, by linarith⟩

/-- The covariance computed by the trapezoid rule, for noise in the last state. -/
theorem computeTransition_Q_quad {k : ℕ} (F : Mat (k + 1) (k + 1)) (u : Vec (k + 1)) (mag h : ℝ) (n : ℕ) (i j : Fin (k + 1)) :
    (computeTransition F u (Matern.L k mag) h (n + 2)).Q i j =
      quad h n fun s => mag ^ 2 * (expm (s • F) i (Fin.last k) * expm (s • F) j (Fin.last k)) := by
  have hL : ∀ (M : Mat (k + 1) (k + 1)), (M * (Matern.L k mag * (Matern.L k mag)ᵀ) * Mᵀ) i j =
      mag ^ 2 * (M i (Fin.last k) * M j (Fin.last k)) := fun M => by
    have e : ∀ a, (M * Matern.L k mag) a 0 = M a (Fin.last k) * mag := fun a => by
      rw [mul_apply, Finset.sum_eq_single (Fin.last k)]
      · simp [Matern.L]
      · intro b _ hb
        have : b.1 < k := by
          have := b.2
          have h2 : b.1 ≠ k := fun h => hb (Fin.ext h)
          omega
        simp [Matern.L, this]
      · simp
    rw [← Matrix.mul_assoc, Matrix.mul_assoc, ← transpose_mul, mul_apply]
    simp only [Fin.sum_univ_one, Finset.univ_unique, Finset.sum_singleton, transpose_apply, Fin.default_eq_zero, e]
    ring
  rw [computeTransition_Q_eq, Matrix.sum_apply, quad]
  refine Finset.sum_congr rfl fun a _ => ?_
  rw [Matrix.smul_apply, Matrix.add_apply, hL, hL, smul_eq_mul]

/-! ## Gains and residual variances -/

theorem quad_mag {k : ℕ} (F : Mat (k + 1) (k + 1)) (u : Vec (k + 1)) (mag h : ℝ) (n : ℕ) (i j : Fin (k + 1)) :
    (computeTransition F u (Matern.L k mag) h (n + 2)).Q i j =
      mag ^ 2 * quad h n fun s => expm (s • F) i (Fin.last k) * expm (s • F) j (Fin.last k) := by
  rw [computeTransition_Q_quad, quad_smul]

/-- A noisy coordinate: the gain is half the step to second order. -/
theorem noisy_gain {F : Mat 2 2} (hF : IsChain2 F) {M : ℝ} (hM : ‖F‖ ≤ M) : ∃ c h0 : ℝ, 0 ≤ c ∧ 0 < h0 ∧ ∀ h, 0 < h → h ≤ h0 → ∀ mag : ℝ, mag ≠ 0 →
    ∀ n u, let Q := (computeTransition F u (Matern.L 1 mag) h (n + 2)).Q
    0 < Q 1 1 ∧ |Q 0 1 / Q 1 1 - h / 2| ≤ c * h ^ 2 ∧ Q 0 0 ≤ c * mag ^ 2 * h ^ 3 := by
  have hM0 : 0 ≤ M := (norm_nonneg F).trans hM
  obtain ⟨C, hCe⟩ : ∃ C, C = chainC M 1 := ⟨_, rfl⟩
  have hC : 0 ≤ C := by rw [hCe]; exact chainC_nonneg hM0
  obtain ⟨D, hD⟩ : ∃ D, D = M + C := ⟨_, rfl⟩
  have hD0 : 0 ≤ D := by rw [hD]; positivity
  refine ⟨2 * (C * (1 + D) + D + D * (2 + D) / 2) + (1 + C) ^ 2, min 1 (1 / (2 * (D * (2 + D) + 1))), by positivity, by positivity, ?_⟩
  intro h hh hh0 mag hmag n u Q
  have hh1 : h ≤ 1 := hh0.trans (min_le_left _ _)
  have hG : D * (2 + D) * h ≤ 1 / 2 := by
    have h1 := hh0.trans (min_le_right _ _)
    rw [le_div_iff₀ (by positivity)] at h1
    linarith
  have hQ : ∀ i j, Q i j = mag ^ 2 * quad h n fun s => expm (s • F) i 1 * expm (s • F) j 1 := fun i j => quad_mag F u mag h n i j
  have hb : ∀ s, 0 ≤ s → s ≤ h → |expm (s • F) 0 1 - s| ≤ C * s ^ 2 ∧ |expm (s • F) 1 1 - 1| ≤ D * s := fun s h0 h1 => by
    obtain ⟨-, -, h01, h11, -⟩ := chain2_expm hF hM h0 (h1.trans hh1)
    rw [← hCe] at h01 h11
    refine ⟨h01, ?_⟩
    have hr : |F 1 1| ≤ M := (abs_entry_le _ _ _).trans hM
    rw [show expm (s • F) 1 1 - 1 = (expm (s • F) 1 1 - (1 + s * F 1 1)) + s * F 1 1 by ring]
    refine (abs_add_le _ _).trans ?_
    rw [abs_mul, abs_of_nonneg h0]
    have h2 : s * |F 1 1| ≤ s * M := by gcongr
    have h3 : C * s ^ 2 ≤ C * s := by
      have : s * s ≤ s * 1 := mul_le_mul_of_nonneg_left (h1.trans hh1) h0
      rw [pow_two]
      exact mul_le_mul_of_nonneg_left (by linarith) hC
    rw [hD]
    linarith
  have b01 : |quad h n (fun s => expm (s • F) 0 1 * expm (s • F) 1 1) - h ^ 2 / 2| ≤ (C * (1 + D) + D) * h ^ 2 * h := by
    rw [← quad_id h n]
    refine quad_abs hh.le n fun s h0 h1 => ?_
    obtain ⟨e1, e2⟩ := hb s h0 h1
    have e3 : |expm (s • F) 1 1| ≤ 1 + D := by
      have h4 : D * s ≤ D * 1 := by gcongr; exact h1.trans hh1
      exact near_le zero_le_one e2 (by linarith)
    rw [show expm (s • F) 0 1 * expm (s • F) 1 1 - s = (expm (s • F) 0 1 - s) * expm (s • F) 1 1 + s * (expm (s • F) 1 1 - 1) by ring]
    refine (abs_add_le _ _).trans ((add_le_add (abs_mul_le' e1 e3) (abs_mul_le' (abs_of_nonneg h0).le e2)).trans ?_)
    calc C * s ^ 2 * (1 + D) + s * (D * s) = (C * (1 + D) + D) * s ^ 2 := by ring
      _ ≤ _ := by gcongr
  have b11 : |quad h n (fun s => expm (s • F) 1 1 * expm (s • F) 1 1) - h| ≤ D * (2 + D) * h * h := by
    have e : h = quad h n (fun _ => 1) := by rw [quad_const, one_mul]
    nth_rewrite 2 [e]
    refine quad_abs hh.le n fun s h0 h1 => ?_
    obtain ⟨-, e2⟩ := hb s h0 h1
    have h4 : D * s ≤ D * 1 := by gcongr; exact h1.trans hh1
    have e3 : |expm (s • F) 1 1 + 1| ≤ 2 + D := by
      rw [show expm (s • F) 1 1 + 1 = (expm (s • F) 1 1 - 1) + 2 by ring]
      refine (abs_add_le _ _).trans ?_
      rw [abs_two]
      linarith
    rw [show expm (s • F) 1 1 * expm (s • F) 1 1 - 1 = (expm (s • F) 1 1 - 1) * (expm (s • F) 1 1 + 1) by ring]
    refine (abs_mul_le' e2 e3).trans ?_
    calc D * s * (2 + D) = D * (2 + D) * s := by ring
      _ ≤ _ := by gcongr
  have b00 : quad h n (fun s => expm (s • F) 0 1 * expm (s • F) 0 1) ≤ (1 + C) ^ 2 * h ^ 2 * h := by
    rw [← quad_const h n]
    refine quad_mono hh.le n fun s h0 h1 => ?_
    have h2 : |expm (s • F) 0 1| ≤ (1 + C) * s := by
      refine near_le h0 (hb s h0 h1).1 ?_
      have : s * s ≤ s * 1 := mul_le_mul_of_nonneg_left (h1.trans hh1) h0
      have := mul_le_mul_of_nonneg_left this hC
      linarith
    calc _ ≤ |expm (s • F) 0 1 * expm (s • F) 0 1| := le_abs_self _
      _ ≤ (1 + C) * s * ((1 + C) * s) := abs_mul_le' h2 h2
      _ = (1 + C) ^ 2 * s ^ 2 := by ring
      _ ≤ _ := by gcongr
  rw [hQ, hQ, hQ]
  generalize quad h n (fun s => expm (s • F) 0 1 * expm (s • F) 1 1) = q01 at b01
  generalize quad h n (fun s => expm (s • F) 1 1 * expm (s • F) 1 1) = q11 at b11
  generalize quad h n (fun s => expm (s • F) 0 1 * expm (s • F) 0 1) = q00 at b00
  have hm : 0 < mag ^ 2 := by positivity
  have hq : h / 2 ≤ q11 := by
    have h1 := (abs_le.mp b11).1
    have h2 : D * (2 + D) * h * h ≤ 1 / 2 * h := by gcongr
    linarith
  have hq0 : 0 < q11 := by linarith
  refine ⟨by positivity, ?_, ?_⟩
  · rw [mul_div_mul_left _ _ hm.ne', show q01 / q11 - h / 2 = (q01 - h ^ 2 / 2 - h / 2 * (q11 - h)) / q11 by field_simp; ring, abs_div,
      abs_of_pos hq0, div_le_iff₀ hq0]
    have h1 : |q01 - h ^ 2 / 2 - h / 2 * (q11 - h)| ≤ (C * (1 + D) + D + D * (2 + D) / 2) * h ^ 3 := by
      refine (abs_sub _ _).trans ((add_le_add b01 (abs_mul_le' (abs_of_pos (half_pos hh)).le b11)).trans (le_of_eq ?_))
      ring
    refine h1.trans ?_
    calc (C * (1 + D) + D + D * (2 + D) / 2) * h ^ 3 = 2 * (C * (1 + D) + D + D * (2 + D) / 2) * h ^ 2 * (h / 2) := by ring
      _ ≤ (2 * (C * (1 + D) + D + D * (2 + D) / 2) + (1 + C) ^ 2) * h ^ 2 * q11 := by
        gcongr
        linarith [sq_nonneg (1 + C)]
  · calc mag ^ 2 * q00 ≤ mag ^ 2 * ((1 + C) ^ 2 * h ^ 2 * h) := by gcongr
      _ = (0 + (1 + C) ^ 2) * mag ^ 2 * h ^ 3 := by ring
      _ ≤ _ := by
        gcongr
        positivity

/-- A noiseless coordinate: the gain is of the order of the step. -/
theorem smooth_gain {F : Mat 3 3} (hF : IsChain3 F) {M : ℝ} (hM : ‖F‖ ≤ M) : ∃ h0 : ℝ, 0 < h0 ∧ ∀ h, 0 < h → h ≤ h0 → ∀ mag : ℝ, mag ≠ 0 →
    ∀ n u, let Q := (computeTransition F u (Matern.L 2 mag) h (n + 2)).Q
    0 < Q 1 1 ∧ |Q 0 1 / Q 1 1| ≤ 2 * h ∧ Q 0 0 ≤ mag ^ 2 * h ^ 3 := by
  have hM0 : 0 ≤ M := (norm_nonneg F).trans hM
  obtain ⟨C, hCe⟩ : ∃ C, C = chainC M 1 := ⟨_, rfl⟩
  have hC : 0 ≤ C := by rw [hCe]; exact chainC_nonneg hM0
  refine ⟨min 1 (1 / (2 * (C + 1))), by positivity, ?_⟩
  intro h hh hh0 mag hmag n u Q
  have hh1 : h ≤ 1 := hh0.trans (min_le_left _ _)
  have hG : C * h ≤ 1 / 2 := by
    have h1 := hh0.trans (min_le_right _ _)
    rw [le_div_iff₀ (by positivity)] at h1
    linarith
  have hQ : ∀ i j, Q i j = mag ^ 2 * quad h n fun s => expm (s • F) i 2 * expm (s • F) j 2 := fun i j => quad_mag F u mag h n i j
  have hb : ∀ s, 0 ≤ s → s ≤ h → |expm (s • F) 0 2| ≤ s ^ 2 ∧ s / 2 ≤ expm (s • F) 1 2 := fun s h0 h1 => by
    obtain ⟨-, -, -, -, h02, h12⟩ := chain3_expm hF hM h0 (h1.trans hh1)
    rw [← hCe] at h02 h12
    have hCs : C * s ≤ 1 / 2 := le_trans (by gcongr) hG
    constructor
    · refine near_le (by positivity) h02 ?_
      have : C * s * s ^ 2 ≤ 1 / 2 * s ^ 2 := by gcongr
      linarith
    · have h2 := (abs_le.mp h12).1
      have : C * s * s ≤ 1 / 2 * s := by gcongr
      linarith
  have b01 : |quad h n (fun s => expm (s • F) 0 2 * expm (s • F) 1 2)| ≤ 2 * h * quad h n (fun s => expm (s • F) 1 2 * expm (s • F) 1 2) := by
    have hle : ∀ s, 0 ≤ s → s ≤ h → |expm (s • F) 0 2 * expm (s • F) 1 2| ≤ 2 * h * (expm (s • F) 1 2 * expm (s • F) 1 2) := fun s h0 h1 => by
      obtain ⟨e1, e2⟩ := hb s h0 h1
      have e3 : 0 ≤ expm (s • F) 1 2 := le_trans (by positivity) e2
      rw [abs_mul, abs_of_nonneg e3]
      calc _ ≤ s ^ 2 * expm (s • F) 1 2 := by gcongr
        _ = 2 * s * (s / 2 * expm (s • F) 1 2) := by ring
        _ ≤ _ := by gcongr
    rw [← quad_smul]
    refine abs_le.mpr ⟨?_, quad_mono hh.le n fun s h0 h1 => (le_abs_self _).trans (hle s h0 h1)⟩
    have h2 := quad_mono hh.le n (φ := fun s => (-1) * (2 * h * (expm (s • F) 1 2 * expm (s • F) 1 2)))
      (ψ := fun s => expm (s • F) 0 2 * expm (s • F) 1 2) fun s h0 h1 => by linarith [neg_abs_le (expm (s • F) 0 2 * expm (s • F) 1 2), hle s h0 h1]
    rw [quad_smul] at h2
    linarith
  have b11 : 0 < quad h n (fun s => expm (s • F) 1 2 * expm (s • F) 1 2) := by
    have h1 := quad_mono hh.le n (φ := fun s => h / 4 * s + -(h ^ 2 / 16)) (ψ := fun s => expm (s • F) 1 2 * expm (s • F) 1 2) fun s h0 h1 => by
      have e2 := (hb s h0 h1).2
      have e3 : s / 2 * (s / 2) ≤ expm (s • F) 1 2 * expm (s • F) 1 2 := mul_self_le_mul_self (by positivity) e2
      linarith [sq_nonneg (s / 2 - h / 4)]
    rw [quad_add, quad_const, quad_smul, quad_id] at h1
    refine lt_of_lt_of_le ?_ h1
    have : 0 < h ^ 3 := by positivity
    linarith
  have b00 : quad h n (fun s => expm (s • F) 0 2 * expm (s • F) 0 2) ≤ h ^ 2 * h := by
    rw [← quad_const h n]
    refine quad_mono hh.le n fun s h0 h1 => ?_
    obtain ⟨e1, -⟩ := hb s h0 h1
    have hs1 : s ≤ 1 := h1.trans hh1
    calc _ ≤ |expm (s • F) 0 2 * expm (s • F) 0 2| := le_abs_self _
      _ ≤ s ^ 2 * s ^ 2 := abs_mul_le' e1 e1
      _ ≤ s ^ 2 * 1 := by gcongr; exact pow_le_one₀ h0 hs1
      _ ≤ _ := by rw [mul_one]; gcongr
  rw [hQ, hQ, hQ]
  generalize quad h n (fun s => expm (s • F) 0 2 * expm (s • F) 1 2) = q01 at b01
  generalize quad h n (fun s => expm (s • F) 1 2 * expm (s • F) 1 2) = q11 at b01 b11
  generalize quad h n (fun s => expm (s • F) 0 2 * expm (s • F) 0 2) = q00 at b00
  have hm : 0 < mag ^ 2 := by positivity
  refine ⟨by positivity, ?_, ?_⟩
  · rw [mul_div_mul_left _ _ hm.ne', abs_div, abs_of_pos b11, div_le_iff₀ b11]
    exact b01
  · calc mag ^ 2 * q00 ≤ mag ^ 2 * (h ^ 2 * h) := by gcongr
      _ = _ := by ring

/-! ## The priors of the script as blocks -/

/-- A prior of independent coordinates with the expansions needed by the block filter, and a residual variance of third order. -/
def GoodBlocks {d m : ℕ} (S : Mat d m) (c γ h : ℝ) (pr : (s : ℕ) × Prior s) : Prop :=
  ∃ (p : Prior (d * (1 + 2))) (A Q : Fin d → Mat 3 3), pr = ⟨_, p⟩ ∧ HasBlocks p.A A ∧ HasBlocks p.Q Q ∧ p.xi = 0 ∧ (∀ i, (Q i).PosSemidef) ∧
    (∀ i, 0 < Q i 1 1) ∧ BlockOk S c h A (fun i => Q i 0 1 / Q i 1 1) ∧ ∑ i, (Q i 0 0 - Q i 0 1 ^ 2 / Q i 1 1) ≤ γ * h ^ 3

theorem hasBlocks_two (M N : Mat 3 3) (B : Mat (3 + (3 + 0)) (3 + (3 + 0))) (hB : B = blockDiag2 M (blockDiag2 N (0 : Mat 0 0))) :
    HasBlocks (d := 2) (n := 1 + 2) B ![M, N] := by
  subst hB
  intro i s j t
  fin_cases i <;> fin_cases j <;> fin_cases s <;> fin_cases t <;> rfl

theorem kron_one_single {n : ℕ} (M : Mat n n) (i j : Fin (1 * n)) : kron (1 : Mat 1 1) M i j = M i.modNat j.modNat := by
  have h : ∀ a b : Fin 1, (1 : Mat 1 1) a b = 1 := fun a b => by fin_cases a; fin_cases b; rfl
  rw [kron, h, one_mul]

theorem review_blocks {p0 : Prior (1 * (2 + 1))} {p1 : Prior (1 * (1 + 1))} {A0 Q0 : Mat 3 3} {A1 Q1 : Mat 2 2} (hA0 : p0.A = kron (1 : Mat 1 1) A0)
    (hQ0 : p0.Q = kron (1 : Mat 1 1) Q0) (hx0 : p0.xi = 0) (hA1 : p1.A = kron (1 : Mat 1 1) A1) (hQ1 : p1.Q = kron (1 : Mat 1 1) Q1) (hx1 : p1.xi = 0) :
    ∃ p : Prior (2 * (1 + 2)), (padPrior p1 2 >>= fun r => factorizedPrior [⟨_, p0⟩, ⟨_, r⟩]) = .ok ⟨_, p⟩ ∧
      HasBlocks p.A ![A0, pad3 A1] ∧ HasBlocks p.Q ![Q0, pad3 Q1] ∧ p.xi = 0 := by
  have e0 : ∀ M : Mat 3 3, (kron (1 : Mat 1 1) M : Mat 3 3) = M := fun M => by
    ext i j
    refine (kron_one_single M i j).trans ?_
    fin_cases i <;> fin_cases j <;> rfl
  have e1 : ∀ M : Mat 2 2, (fun i j : Fin 3 => if h : i.1 < 1 * (1 + 1) ∧ j.1 < 1 * (1 + 1) then kron (1 : Mat 1 1) M ⟨i.1, h.1⟩ ⟨j.1, h.2⟩ else 0) =
      pad3 M := fun M => by
    funext i j
    simp only [kron_one_single]
    fin_cases i <;> fin_cases j <;> rfl
  obtain ⟨r, hr, hrA, hrQ, hrx⟩ : ∃ r : Prior 3, padPrior p1 2 = .ok r ∧ r.A = pad3 A1 ∧ r.Q = pad3 Q1 ∧ r.xi = 0 := by
    rw [padPrior, if_pos (by norm_num)]
    refine ⟨_, rfl, ?_, ?_, ?_⟩
    · rw [← e1]
      simp only [hA1]
      rfl
    · rw [← e1]
      simp only [hQ1]
      rfl
    · funext i
      simp [hx1]
  refine ⟨(p0.append (r.append (⟨0, 0, 0⟩ : Prior 0)) : Prior (3 + (3 + 0))), by rw [hr]; rfl, ?_, ?_, ?_⟩
  · refine hasBlocks_two A0 (pad3 A1) _ ?_
    rw [← hrA, ← e0 A0, ← hA0]
    rfl
  · refine hasBlocks_two Q0 (pad3 Q1) _ ?_
    rw [← hrQ, ← e0 Q0, ← hQ0]
    rfl
  · change Fin.append p0.xi (Fin.append r.xi (0 : Vec 0)) = 0
    rw [hrx, hx0]
    funext i
    refine Fin.addCases (fun i => ?_) (fun i => ?_) i
    · rw [Fin.append_left]; rfl
    · rw [Fin.append_right]
      refine Fin.addCases (fun i => ?_) (fun i => i.elim0) i
      rw [Fin.append_left]; rfl

theorem goodBlocks_mk {m : ℕ} {S : Mat 2 m} (hS : ∀ j, S 0 j = 0) {F3 : Mat 3 3} (h3 : IsChain3 F3) {F2 : Mat 2 2} (h2 : IsChain2 F2) {M T δ c γ : ℝ}
    (hM3 : ‖F3‖ ≤ M) (hM2 : ‖F2‖ ≤ M) (hδ : 0 < δ) (hδT : δ ≤ T) (hc : 0 ≤ c) {Q3 : Mat 3 3} {Q2 : Mat 2 2} (q3 : Q3.PosSemidef) (q2 : Q2.PosSemidef)
    (p3 : 0 < Q3 1 1) (p2 : 0 < Q2 1 1) (g3 : |Q3 0 1 / Q3 1 1| ≤ c * δ) (g2 : |Q2 0 1 / Q2 1 1 - δ / 2| ≤ c * δ ^ 2) (r3 : Q3 0 0 ≤ γ * δ ^ 3)
    (r2 : Q2 0 0 ≤ γ * δ ^ 3) {p0 : Prior (1 * (2 + 1))} {p1 : Prior (1 * (1 + 1))} (hA0 : p0.A = kron (1 : Mat 1 1) (expm (δ • F3)))
    (hQ0 : p0.Q = kron (1 : Mat 1 1) Q3) (hx0 : p0.xi = 0) (hA1 : p1.A = kron (1 : Mat 1 1) (expm (δ • F2)))
    (hQ1 : p1.Q = kron (1 : Mat 1 1) Q2) (hx1 : p1.xi = 0) :
    ∃ pr, (padPrior p1 2 >>= fun r => factorizedPrior [⟨_, p0⟩, ⟨_, r⟩]) = .ok pr ∧ GoodBlocks S (chainK M T c) (2 * γ) δ pr := by
  obtain ⟨p, hp, hA, hQ, hx⟩ := review_blocks hA0 hQ0 hx0 hA1 hQ1 hx1
  refine ⟨_, hp, p, _, _, rfl, hA, hQ, hx, fun i => ?_, fun i => ?_, ?_, ?_⟩
  · fin_cases i
    · exact q3
    · exact pad3_posSemidef q2
  · fin_cases i
    · exact p3
    · exact p2
  · have h := blockOk_chain hS h3 h2 hM3 hM2 hδ hδT hc g3 g2
    have e : (fun i => ![Q3, pad3 Q2] i 0 1 / ![Q3, pad3 Q2] i 1 1) = ![Q3 0 1 / Q3 1 1, Q2 0 1 / Q2 1 1] := by
      funext i
      fin_cases i <;> rfl
    rw [e]
    exact h
  · rw [Fin.sum_univ_two]
    change Q3 0 0 - Q3 0 1 ^ 2 / Q3 1 1 + (Q2 0 0 - Q2 0 1 ^ 2 / Q2 1 1) ≤ _
    have h1 : 0 ≤ Q3 0 1 ^ 2 / Q3 1 1 := by positivity
    have h2 : 0 ≤ Q2 0 1 ^ 2 / Q2 1 1 := by positivity
    linarith

theorem isChain3_ioup (θ : ℝ) : IsChain3 (IOUP.F θ 2) := by
  constructor <;> simp [IOUP.F]

theorem isChain2_ioup (θ : ℝ) : IsChain2 (IOUP.F θ 1) := by
  constructor <;> simp [IOUP.F]

theorem isChain3_matern (l : ℝ) : IsChain3 (Matern.F 2 l) := by
  constructor <;> simp [Matern.F]

theorem isChain2_matern (l : ℝ) : IsChain2 (Matern.F 1 l) := by
  constructor <;> simp [Matern.F]

/-- The integrated Ornstein-Uhlenbeck prior of the script. -/
theorem goodBlocks_ioup {m : ℕ} {S : Mat 2 m} (hS : ∀ j, S 0 j = 0) (θ : ℝ) {σ : ℝ} (hσ : σ ≠ 0) {T : ℝ} (hT : 0 < T) :
    ∃ c γ : ℝ, 0 ≤ c ∧ 0 ≤ γ ∧ ∀ δ, 0 < δ → δ ≤ T → ∃ pr, reviewPriorIoup θ σ δ = .ok pr ∧ GoodBlocks S c γ δ pr := by
  obtain ⟨M, hM⟩ : ∃ M, M = max ‖IOUP.F θ 2‖ ‖IOUP.F θ 1‖ := ⟨_, rfl⟩
  have hM0 : 0 ≤ M := by rw [hM]; exact le_max_of_le_left (norm_nonneg _)
  refine ⟨chainK M T 1, 2 * (σ ^ 2 * (1 + T ^ 2)), chainK_nonneg hM0 hT.le zero_le_one, by positivity, fun δ hδ hδT => ?_⟩
  have hδ3 : 0 < δ ^ 3 := by positivity
  have hσ2 : 0 < σ ^ 2 := by positivity
  have hT2 : δ ^ 2 ≤ T ^ 2 := by gcongr
  have q3 : IOUP.Q1 σ 2 δ 0 0 = σ ^ 2 * (δ ^ 5 / 20) ∧ IOUP.Q1 σ 2 δ 0 1 = σ ^ 2 * (δ ^ 4 / 8) ∧ IOUP.Q1 σ 2 δ 1 1 = σ ^ 2 * (δ ^ 3 / 3) := by
    refine ⟨?_, ?_, ?_⟩ <;> simp [IOUP.Q1, Nat.factorial] <;> norm_num
  have q2 : IOUP.Q1 σ 1 δ 0 0 = σ ^ 2 * (δ ^ 3 / 3) ∧ IOUP.Q1 σ 1 δ 0 1 = σ ^ 2 * (δ ^ 2 / 2) ∧ IOUP.Q1 σ 1 δ 1 1 = σ ^ 2 * δ := by
    refine ⟨?_, ?_, ?_⟩ <;> simp [IOUP.Q1, Nat.factorial]
  refine goodBlocks_mk hS (isChain3_ioup θ) (isChain2_ioup θ) (hM ▸ le_max_left _ _) (hM ▸ le_max_right _ _) hδ hδT zero_le_one
    (ibm_Q1_posDef hσ 2 hδ).posSemidef (ibm_Q1_posDef hσ 1 hδ).posSemidef ?_ ?_ ?_ ?_ ?_ ?_ rfl rfl rfl rfl rfl rfl
  · rw [q3.2.2]; positivity
  · rw [q2.2.2]; positivity
  · rw [q3.2.1, q3.2.2, show σ ^ 2 * (δ ^ 4 / 8) / (σ ^ 2 * (δ ^ 3 / 3)) = 3 / 8 * δ by field_simp, abs_of_pos (by positivity)]
    linarith
  · rw [q2.2.1, q2.2.2, show σ ^ 2 * (δ ^ 2 / 2) / (σ ^ 2 * δ) - δ / 2 = 0 by field_simp; ring, abs_zero]
    positivity
  · rw [q3.1, mul_assoc]
    refine mul_le_mul_of_nonneg_left ?_ hσ2.le
    have : δ ^ 2 * δ ^ 3 ≤ T ^ 2 * δ ^ 3 := by gcongr
    have h5 : 0 < δ ^ 5 := by positivity
    linarith
  · rw [q2.1, mul_assoc]
    refine mul_le_mul_of_nonneg_left ?_ hσ2.le
    have : 0 ≤ T ^ 2 * δ ^ 3 := by positivity
    linarith

/-- The Matérn prior of the script, for small steps. -/
theorem goodBlocks_matern {m : ℕ} {S : Mat 2 m} (hS : ∀ j, S 0 j = 0) (l2 l1 : ℝ) {mag : ℝ} (hmag : mag ≠ 0) :
    ∃ c γ h0 : ℝ, 0 ≤ c ∧ 0 ≤ γ ∧ 0 < h0 ∧ ∀ δ, 0 < δ → δ ≤ h0 → ∃ pr, reviewPriorMatern mag l2 l1 δ = .ok pr ∧ GoodBlocks S c γ δ pr := by
  obtain ⟨h1, hh1, H1⟩ := smooth_gain (isChain3_matern (Matern.lam 2 l2)) le_rfl
  obtain ⟨c, h2, hc, hh2, H2⟩ := noisy_gain (isChain2_matern (Matern.lam 1 l1)) le_rfl
  obtain ⟨M, hM⟩ : ∃ M, M = max ‖Matern.F 2 (Matern.lam 2 l2)‖ ‖Matern.F 1 (Matern.lam 1 l1)‖ := ⟨_, rfl⟩
  have hM0 : 0 ≤ M := by rw [hM]; exact le_max_of_le_left (norm_nonneg _)
  refine ⟨chainK M 1 (c + 2), 2 * ((c + 1) * mag ^ 2), min 1 (min h1 h2), chainK_nonneg hM0 zero_le_one (by positivity), by positivity, by positivity,
    fun δ hδ hδ0 => ?_⟩
  obtain ⟨Q3, hQ3⟩ : ∃ Q3, Q3 = (Matern.general 2 mag l2 δ).Q := ⟨_, rfl⟩
  obtain ⟨Q2, hQ2⟩ : ∃ Q2, Q2 = (Matern.general 1 mag l1 δ).Q := ⟨_, rfl⟩
  obtain ⟨a1, a2, a3⟩ : 0 < Q3 1 1 ∧ |Q3 0 1 / Q3 1 1| ≤ 2 * δ ∧ Q3 0 0 ≤ mag ^ 2 * δ ^ 3 := by
    rw [hQ3]
    exact H1 δ hδ (hδ0.trans ((min_le_right _ _).trans (min_le_left _ _))) mag hmag 9998 0
  obtain ⟨b1, b2, b3⟩ : 0 < Q2 1 1 ∧ |Q2 0 1 / Q2 1 1 - δ / 2| ≤ c * δ ^ 2 ∧ Q2 0 0 ≤ c * mag ^ 2 * δ ^ 3 := by
    rw [hQ2]
    exact H2 δ hδ (hδ0.trans ((min_le_right _ _).trans (min_le_right _ _))) mag hmag 9998 0
  have q3 : Q3.PosSemidef := by rw [hQ3]; exact (C37_valid _ 0 _ δ 10000).2 hδ.le
  have q2 : Q2.PosSemidef := by rw [hQ2]; exact (C37_valid _ 0 _ δ 10000).2 hδ.le
  have hm : 0 < mag ^ 2 * δ ^ 3 := by positivity
  have hδ2 : 0 < δ ^ 2 := by positivity
  have hx : ∀ k l, (Matern.general k mag l δ).xi = 0 := fun k l => by
    change (computeTransition _ _ _ δ (9998 + 2)).xi = 0
    rw [computeTransition_xi_eq]
    simp
  have hk : ∀ k l, kronVec (fun _ : Fin 1 => (1 : ℝ)) (Matern.general k mag l δ).xi = 0 := fun k l => by
    rw [hx]
    funext i
    simp [kronVec]
  refine goodBlocks_mk hS (isChain3_matern (Matern.lam 2 l2)) (isChain2_matern (Matern.lam 1 l1)) (hM ▸ le_max_left _ _) (hM ▸ le_max_right _ _) hδ
    (hδ0.trans (min_le_left _ _)) (by positivity : 0 ≤ c + 2) q3 q2 a1 b1
    (a2.trans ?_) (b2.trans ?_) (a3.trans ?_) (b3.trans ?_) rfl (by rw [hQ3]; rfl) (hk 2 l2) rfl (by rw [hQ2]; rfl) (hk 1 l1)
  · have : 0 ≤ c * δ := by positivity
    linarith
  · linarith
  · have : 0 ≤ c * (mag ^ 2 * δ ^ 3) := by positivity
    linarith
  · linarith

end Verif
