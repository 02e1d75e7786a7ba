import Verif.Lemmas.GainStep
import Verif.Lemmas.BlockSqrt
import Verif.Lemmas.QuadGain

/-! Priors that integrate the last state twice in every coordinate: the gain of EKF0 over one step. -/

namespace Verif

open Matrix Spec Jnp Scripts
open scoped Matrix.Norms.Operator

variable {d m : ℕ}

/-- The trapezoid rule on squares. -/
theorem quad_sq (h : ℝ) (n : ℕ) : quad h n (fun s => s ^ 2) = h ^ 3 * (2 * ((n : ℝ) + 1) ^ 2 + 1) / (6 * ((n : ℝ) + 1) ^ 2) := by
  have hn : (n : ℝ) + 1 ≠ 0 := by positivity
  have e : ∀ N : ℕ, ∑ k ∈ Finset.range N, ((k : ℝ) ^ 2 + ((k : ℝ) + 1) ^ 2) = (N : ℝ) * (2 * (N : ℝ) ^ 2 + 1) / 3 := fun N => by
    induction N with
    | zero => simp
    | succ N ih => rw [Finset.sum_range_succ, ih]; push_cast; ring
  have h1 : quad h n (fun s => s ^ 2) = ∑ k ∈ Finset.range (n + 1), (h / ((n : ℝ) + 1)) ^ 3 / 2 * ((k : ℝ) ^ 2 + ((k : ℝ) + 1) ^ 2) :=
    Finset.sum_congr rfl fun k _ => by ring
  rw [h1, ← Finset.mul_sum, e]
  push_cast
  field_simp
  ring

/-- The trapezoid rule on cubes. -/
theorem quad_cube (h : ℝ) (n : ℕ) : quad h n (fun s => s ^ 3) = h ^ 4 * (((n : ℝ) + 1) ^ 2 + 1) / (4 * ((n : ℝ) + 1) ^ 2) := by
  have hn : (n : ℝ) + 1 ≠ 0 := by positivity
  have e : ∀ N : ℕ, ∑ k ∈ Finset.range N, ((k : ℝ) ^ 3 + ((k : ℝ) + 1) ^ 3) = (N : ℝ) ^ 2 * ((N : ℝ) ^ 2 + 1) / 2 := fun N => by
    induction N with
    | zero => simp
    | succ N ih => rw [Finset.sum_range_succ, ih]; push_cast; ring
  have h1 : quad h n (fun s => s ^ 3) = ∑ k ∈ Finset.range (n + 1), (h / ((n : ℝ) + 1)) ^ 4 / 2 * ((k : ℝ) ^ 3 + ((k : ℝ) + 1) ^ 3) :=
    Finset.sum_congr rfl fun k _ => by ring
  rw [h1, ← Finset.mul_sum, e]
  push_cast
  field_simp
  ring

/-- The gain, in units of the step, of a process whose last state is integrated twice and whose covariance is computed by the trapezoid rule
with `n + 1` intervals. -/
noncomputable def gainLimit (n : ℕ) : ℝ := 3 * (((n : ℝ) + 1) ^ 2 + 1) / (4 * (2 * ((n : ℝ) + 1) ^ 2 + 1))

/-- The gain of a coordinate integrated twice to second order. -/
theorem smooth_gain_limit {F : Mat 3 3} (hF : IsChain3 F) {M : ℝ} (hM : ‖F‖ ≤ M) : ∃ c h0 : ℝ, 0 ≤ c ∧ 0 < h0 ∧ ∀ h, 0 < h → h ≤ h0 →
    ∀ mag : ℝ, mag ≠ 0 → ∀ n u, let Q := (computeTransition F u (Matern.L 2 mag) h (n + 2)).Q
    |Q 0 1 / Q 1 1 - gainLimit n * h| ≤ c * h ^ 2 := by
  have hM0 : 0 ≤ M := (norm_nonneg F).trans hM
  obtain ⟨C, hCe⟩ : ∃ C, C = chainC M 1 := ⟨_, rfl⟩
  have hC : 0 ≤ C := by rw [hCe]; exact chainC_nonneg hM0
  obtain ⟨D, hD⟩ : ∃ D, D = C * (2 + C) + C / 2 := ⟨_, rfl⟩
  have hD0 : 0 ≤ D := by rw [hD]; positivity
  refine ⟨6 * (2 * D), min 1 (1 / (6 * (D + 1))), by positivity, by positivity, ?_⟩
  intro h hh hh0 mag hmag n u Q
  have hh1 : h ≤ 1 := hh0.trans (min_le_left _ _)
  have hG : D * h ≤ 1 / 6 := by
    have h1 := hh0.trans (min_le_right _ _)
    rw [le_div_iff₀ (by positivity)] at h1
    linarith
  have hQ : ∀ i j, Q i j = mag ^ 2 * quad h n fun s => expm (s • F) i 2 * expm (s • F) j 2 := fun i j => quad_mag F u mag h n i j
  have hb : ∀ s, 0 ≤ s → s ≤ h → |expm (s • F) 0 2 - s ^ 2 / 2| ≤ C * s ^ 3 ∧ |expm (s • F) 1 2 - s| ≤ C * s ^ 2 ∧
      |expm (s • F) 1 2| ≤ (1 + C) * s := fun s h0 h1 => by
    obtain ⟨-, -, -, -, h02, h12⟩ := chain3_expm hF hM h0 (h1.trans hh1)
    rw [← hCe] at h02 h12
    refine ⟨h02, h12, near_le h0 h12 ?_⟩
    have : C * s ^ 2 ≤ C * s := by
      rw [pow_two]
      exact mul_le_mul_of_nonneg_left (mul_le_of_le_one_left h0 (h1.trans hh1)) hC
    linarith
  have b01 : |quad h n (fun s => expm (s • F) 0 2 * expm (s • F) 1 2) - quad h n (fun s => 1 / 2 * s ^ 3)| ≤ D * h ^ 4 * h := by
    refine quad_abs hh.le n fun s h0 h1 => ?_
    obtain ⟨e1, e2, e3⟩ := hb s h0 h1
    rw [show expm (s • F) 0 2 * expm (s • F) 1 2 - 1 / 2 * s ^ 3 = (expm (s • F) 0 2 - s ^ 2 / 2) * expm (s • F) 1 2 + s ^ 2 / 2 * (expm (s • F) 1 2 - s) by ring]
    refine (abs_add_le _ _).trans ((add_le_add (abs_mul_le' e1 e3) (abs_mul_le' (abs_of_nonneg (by positivity : 0 ≤ s ^ 2 / 2)).le e2)).trans ?_)
    calc C * s ^ 3 * ((1 + C) * s) + s ^ 2 / 2 * (C * s ^ 2) = (C * (1 + C) + C / 2) * s ^ 4 := by ring
      _ ≤ D * h ^ 4 := by
        rw [hD]
        gcongr
        linarith
  have b11 : |quad h n (fun s => expm (s • F) 1 2 * expm (s • F) 1 2) - quad h n (fun s => s ^ 2)| ≤ D * h ^ 3 * h := by
    refine quad_abs hh.le n fun s h0 h1 => ?_
    obtain ⟨e1, e2, e3⟩ := hb s h0 h1
    rw [show expm (s • F) 1 2 * expm (s • F) 1 2 - s ^ 2 = (expm (s • F) 1 2 - s) * (expm (s • F) 1 2 + s) by ring]
    have e4 : |expm (s • F) 1 2 + s| ≤ (2 + C) * s := by
      refine (abs_add_le _ _).trans ?_
      rw [abs_of_nonneg h0]
      linarith
    refine (abs_mul_le' e2 e4).trans ?_
    calc C * s ^ 2 * ((2 + C) * s) = (C * (2 + C) + 0) * s ^ 3 := by ring
      _ ≤ D * h ^ 3 := by
        rw [hD]
        gcongr
        positivity
  rw [quad_smul, quad_cube] at b01
  rw [quad_sq] at b11
  rw [hQ, hQ]
  generalize quad h n (fun s => expm (s • F) 0 2 * expm (s • F) 1 2) = q01 at b01
  generalize quad h n (fun s => expm (s • F) 1 2 * expm (s • F) 1 2) = q11 at b11
  have hm : 0 < mag ^ 2 := by positivity
  obtain ⟨N, hN⟩ : ∃ N : ℝ, N = (n : ℝ) + 1 := ⟨_, rfl⟩
  have hN1 : 0 < N := by rw [hN]; positivity
  have hg : gainLimit n = 3 * (N ^ 2 + 1) / (4 * (2 * N ^ 2 + 1)) := by rw [hN]; rfl
  have hg1 : 0 ≤ gainLimit n ∧ gainLimit n ≤ 1 := by
    rw [hg]
    refine ⟨by positivity, ?_⟩
    rw [div_le_one (by positivity)]
    have hN2 : 1 ≤ N := by rw [hN]; linarith [Nat.cast_nonneg (α := ℝ) n]
    nlinarith
  rw [← hN] at b01 b11
  obtain ⟨p01, hp01⟩ : ∃ p, p = 1 / 2 * (h ^ 4 * (N ^ 2 + 1) / (4 * N ^ 2)) := ⟨_, rfl⟩
  obtain ⟨p11, hp11⟩ : ∃ p, p = h ^ 3 * (2 * N ^ 2 + 1) / (6 * N ^ 2) := ⟨_, rfl⟩
  rw [← hp01] at b01
  rw [← hp11] at b11
  have ep : p01 = gainLimit n * h * p11 := by
    rw [hp01, hp11, hg]
    field_simp
    ring
  have hp : h ^ 3 / 3 ≤ p11 := by
    rw [hp11, le_div_iff₀ (by positivity)]
    have : 0 < h ^ 3 := by positivity
    nlinarith
  have hq : h ^ 3 / 6 ≤ q11 := by
    have h1 := (abs_le.mp b11).1
    have h2 : D * h ^ 3 * h ≤ 1 / 6 * h ^ 3 := by
      calc D * h ^ 3 * h = D * h * h ^ 3 := by ring
        _ ≤ _ := by gcongr
    linarith
  have hq0 : 0 < q11 := lt_of_lt_of_le (by positivity) hq
  rw [mul_div_mul_left _ _ hm.ne', show q01 / q11 - gainLimit n * h = (q01 - gainLimit n * h * q11) / q11 by field_simp, abs_div, abs_of_pos hq0,
    div_le_iff₀ hq0, show q01 - gainLimit n * h * q11 = (q01 - p01) - gainLimit n * h * (q11 - p11) by rw [ep]; ring]
  have t1 : |gainLimit n * h * (q11 - p11)| ≤ 1 * h * (D * h ^ 3 * h) := by
    refine abs_mul_le' ?_ b11
    rw [abs_of_nonneg (mul_nonneg hg1.1 hh.le)]
    gcongr
    exact hg1.2
  refine (abs_sub _ _).trans ((add_le_add b01 t1).trans ?_)
  calc D * h ^ 4 * h + 1 * h * (D * h ^ 3 * h) = 6 * (2 * D) * h ^ 2 * (h ^ 3 / 6) := by ring
    _ ≤ _ := by gcongr

/-- The covariance of a coordinate integrated twice, computed by the trapezoid rule with at least two intervals, is positive definite for small
steps. -/
theorem smooth_posDef {F : Mat 3 3} (hF : IsChain3 F) {M : ℝ} (hM : ‖F‖ ≤ M) : ∃ h0 : ℝ, 0 < h0 ∧ ∀ h, 0 < h → h ≤ h0 → ∀ mag : ℝ, mag ≠ 0 →
    ∀ n u, 1 ≤ n → (computeTransition F u (Matern.L 2 mag) h (n + 2)).Q.PosDef := by
  have hM0 : 0 ≤ M := (norm_nonneg F).trans hM
  obtain ⟨C, hCe⟩ : ∃ C, C = chainC M 1 := ⟨_, rfl⟩
  have hC : 0 ≤ C := by rw [hCe]; exact chainC_nonneg hM0
  refine ⟨min 1 (1 / (33 * (C + 1))), by positivity, ?_⟩
  intro h hh hh0 mag hmag n u hn
  have hh1 : h ≤ 1 := hh0.trans (min_le_left _ _)
  have hG : 33 * (C * h) + 33 * h ≤ 1 := by
    have h1 := hh0.trans (min_le_right _ _)
    rw [le_div_iff₀ (by positivity)] at h1
    linarith
  obtain ⟨Q, hQe⟩ : ∃ Q, Q = (computeTransition F u (Matern.L 2 mag) h (n + 2)).Q := ⟨_, rfl⟩
  have hQ : ∀ i j, Q i j = mag ^ 2 * quad h n fun s => expm (s • F) i 2 * expm (s • F) j 2 := fun i j => by rw [hQe]; exact quad_mag F u mag h n i j
  rw [← hQe]
  have hb : ∀ s, 0 ≤ s → s ≤ h → |expm (s • F) 0 2 - s ^ 2 / 2| ≤ C * s ^ 3 ∧ |expm (s • F) 1 2 - s| ≤ C * s ^ 2 := fun s h0 h1 => by
    obtain ⟨-, -, -, -, h02, h12⟩ := chain3_expm hF hM h0 (h1.trans hh1)
    rw [← hCe] at h02 h12
    exact ⟨h02, h12⟩
  have hform : ∀ x : Vec 3, x ⬝ᵥ (Q *ᵥ x) = mag ^ 2 * quad h n fun s => (∑ i : Fin 3, x i * expm (s • F) i 2) ^ 2 := fun x => by
    have e : (fun s : ℝ => (∑ i : Fin 3, x i * expm (s • F) i 2) ^ 2) = fun s : ℝ =>
        (x 0 * x 0) * (expm (s • F) 0 2 * expm (s • F) 0 2) + ((x 0 * x 1 + x 1 * x 0) * (expm (s • F) 0 2 * expm (s • F) 1 2) +
        ((x 0 * x 2 + x 2 * x 0) * (expm (s • F) 0 2 * expm (s • F) 2 2) + ((x 1 * x 1) * (expm (s • F) 1 2 * expm (s • F) 1 2) +
        ((x 1 * x 2 + x 2 * x 1) * (expm (s • F) 1 2 * expm (s • F) 2 2) + (x 2 * x 2) * (expm (s • F) 2 2 * expm (s • F) 2 2))))) := by
      funext s
      rw [Fin.sum_univ_three]
      ring
    rw [e, quad_add, quad_add, quad_add, quad_add, quad_add, quad_smul, quad_smul, quad_smul, quad_smul, quad_smul, quad_smul]
    have hs : ∀ i j, Q i j = Q j i := fun i j => by
      rw [hQ, hQ]
      congr 2
      funext s
      ring
    simp only [mulVec, dotProduct, Fin.sum_univ_three]
    rw [hs 1 0, hs 2 0, hs 2 1]
    simp only [hQ]
    ring
  have hpsd : Q.PosSemidef := by rw [hQe]; exact (C37_valid _ u _ h (n + 2)).2 hh.le
  refine PosDef.of_dotProduct_mulVec_pos hpsd.1 fun x hx => ?_
  rw [star_trivial, hform]
  have hm : 0 < mag ^ 2 := by positivity
  refine mul_pos hm ?_
  by_contra hcon
  rw [not_lt] at hcon
  apply hx
  obtain ⟨φ, hφ⟩ : ∃ φ : ℝ → ℝ, φ = fun s => (∑ i : Fin 3, x i * expm (s • F) i 2) ^ 2 := ⟨_, rfl⟩
  rw [← hφ] at hcon
  have hφ0 : ∀ s, 0 ≤ φ s := fun s => by rw [hφ]; positivity
  obtain ⟨w, hw⟩ : ∃ w, w = h / ((n : ℝ) + 1) := ⟨_, rfl⟩
  have hw0 : 0 < w := by rw [hw]; positivity
  have hterm : ∀ k ∈ Finset.range (n + 1), w / 2 * (φ (k * w) + φ ((k + 1) * w)) = 0 := by
    have hnn : ∀ k ∈ Finset.range (n + 1), 0 ≤ w / 2 * (φ (k * w) + φ ((k + 1) * w)) := fun k _ =>
      mul_nonneg (by positivity) (add_nonneg (hφ0 _) (hφ0 _))
    refine (Finset.sum_eq_zero_iff_of_nonneg hnn).mp (le_antisymm ?_ (Finset.sum_nonneg hnn))
    rw [hw]
    exact hcon
  have hz : ∀ k < n + 1, φ (k * w) = 0 ∧ φ (((k : ℝ) + 1) * w) = 0 := fun k hk => by
    have h1 := hterm k (Finset.mem_range.mpr hk)
    have h2 : φ (k * w) + φ ((k + 1) * w) = 0 := by
      rcases mul_eq_zero.mp h1 with h2 | h2
      · linarith
      · exact h2
    constructor <;> linarith [hφ0 (k * w), hφ0 (((k : ℝ) + 1) * w)]
  have hlin : ∀ s, φ s = 0 → x 0 * expm (s • F) 0 2 + x 1 * expm (s • F) 1 2 + x 2 * expm (s • F) 2 2 = 0 := fun s hs => by
    rw [hφ] at hs
    have := pow_eq_zero_iff (two_ne_zero) |>.mp hs
    rwa [Fin.sum_univ_three] at this
  have z0 : φ 0 = 0 := by
    have := (hz 0 (by omega)).1
    rwa [Nat.cast_zero, zero_mul] at this
  have z1 : φ w = 0 := by
    have := (hz 0 (by omega)).2
    rwa [Nat.cast_zero, zero_add, one_mul] at this
  have zh : φ h = 0 := by
    have := (hz n (by omega)).2
    rwa [hw, show ((n : ℝ) + 1) * (h / ((n : ℝ) + 1)) = h by field_simp] at this
  have hwh : w ≤ h / 2 := by
    rw [hw]
    have : (1 : ℝ) ≤ n := by exact_mod_cast hn
    gcongr
    linarith
  have x2 : x 2 = 0 := by
    have h1 := hlin 0 z0
    rw [zero_smul, expm, NormedSpace.exp_zero] at h1
    simpa using h1
  have l1 := hlin w z1
  have lh := hlin h zh
  rw [x2, zero_mul, add_zero] at l1 lh
  have pos1 : ∀ s, 0 < s → s ≤ h → s / 2 ≤ expm (s • F) 1 2 := fun s h0 h1 => by
    have h2 := (abs_le.mp (hb s h0.le h1).2).1
    have : C * s ^ 2 ≤ 1 / 2 * s := by
      have h3 : C * s ≤ C * h := by gcongr
      calc C * s ^ 2 = C * s * s := by ring
        _ ≤ 1 / 2 * s := by gcongr; linarith
    linarith
  have x0 : x 0 = 0 := by
    by_contra hx0
    obtain ⟨t, ht⟩ : ∃ t, t = -x 1 / x 0 := ⟨_, rfl⟩
    have hts : ∀ s, 0 < s → s ≤ h → x 0 * expm (s • F) 0 2 + x 1 * expm (s • F) 1 2 = 0 → |t - s / 2| ≤ 4 * C * s ^ 2 := fun s h0 h1 h2 => by
      obtain ⟨e1, e2⟩ := hb s h0.le h1
      have e3 := pos1 s h0 h1
      have e4 : expm (s • F) 0 2 = t * expm (s • F) 1 2 := by
        rw [ht]
        field_simp
        linarith
      rw [e4] at e1
      have e5 : |(t - s / 2) * expm (s • F) 1 2| ≤ 2 * C * s ^ 3 := by
        rw [show (t - s / 2) * expm (s • F) 1 2 = (t * expm (s • F) 1 2 - s ^ 2 / 2) - s / 2 * (expm (s • F) 1 2 - s) by ring]
        refine (abs_sub _ _).trans ((add_le_add e1 (abs_mul_le' (abs_of_pos (half_pos h0)).le e2)).trans ?_)
        have : 0 ≤ C * s ^ 3 := by positivity
        linarith [show s / 2 * (C * s ^ 2) = C * s ^ 3 / 2 by ring]
      rw [abs_mul, abs_of_pos (lt_of_lt_of_le (by positivity) e3)] at e5
      have e6 : |t - s / 2| * (s / 2) ≤ 4 * C * s ^ 2 * (s / 2) :=
        (mul_le_mul_of_nonneg_left e3 (abs_nonneg _)).trans (e5.trans (le_of_eq (by ring)))
      exact le_of_mul_le_mul_right e6 (by positivity)
    have t1 := hts w hw0 (by linarith) l1
    have th := hts h hh le_rfl lh
    have h1 : 4 * C * w ^ 2 ≤ 4 * C * h ^ 2 := by
      have : w ≤ h := by linarith
      gcongr
    have h2 : h / 4 ≤ 8 * C * h ^ 2 := by
      have h3 := (abs_le.mp t1).2
      have h4 := (abs_le.mp th).1
      linarith
    have h3 : 8 * C * h ^ 2 < h / 4 := by
      have h4 : 32 * (C * h) * h < 1 * h := by
        refine mul_lt_mul_of_pos_right ?_ hh
        have : 0 ≤ C * h := by positivity
        linarith
      linarith [show 8 * C * h ^ 2 = (32 * (C * h) * h) / 4 by ring]
    linarith
  have x1 : x 1 = 0 := by
    rw [x0, zero_mul, zero_add] at lh
    rcases mul_eq_zero.mp lh with h1 | h1
    · exact h1
    · have := pos1 h hh le_rfl
      rw [h1] at this
      linarith
  funext i
  fin_cases i
  · exact x0
  · exact x1
  · exact x2

/-- Coordinates alike. -/
theorem hasBlocks_kron {n : ℕ} (M : Mat n n) : HasBlocks (kron (1 : Mat d d) M) fun _ => M := fun i s j t => by
  rw [kron_flat, Matrix.one_apply]
  split_ifs <;> simp

/-- A prior of independent coordinates whose gains are near multiples of the step and whose residual covariance is of third order. -/
def GainBlocks (c γ0 h : ℝ) (γ : Fin d → ℝ) (pr : (s : ℕ) × Prior s) : Prop :=
  ∃ (p : Prior (d * (1 + 2))) (A Q : Fin d → Mat 3 3), pr = ⟨_, p⟩ ∧ HasBlocks p.A A ∧ HasBlocks p.Q Q ∧ p.xi = 0 ∧ (∀ i, (Q i).PosSemidef) ∧
    (∀ i, 0 < Q i 1 1) ∧ p.Q.PosDef ∧ GainOk c h A (fun i => Q i 0 1 / Q i 1 1) γ ∧ ∑ i, (Q i 0 0 - Q i 0 1 ^ 2 / Q i 1 1) ≤ γ0 * h ^ 3

theorem GainOk.mono {c c' δ : ℝ} {A : Fin d → Mat 3 3} {g γ : Fin d → ℝ} (hδ : 0 ≤ δ) (hc : c ≤ c') (h : GainOk c δ A g γ) : GainOk c' δ A g γ :=
  ⟨fun i => (h.a00 i).trans (by gcongr), fun i => (h.a10 i).trans (by gcongr), fun i => (h.a01 i).trans (by gcongr),
    fun i => (h.a11 i).trans (by gcongr), fun i => (h.a02 i).trans (by gcongr), fun i => (h.a12 i).trans (by gcongr),
    fun i => (h.gain i).trans (by gcongr), fun i => (h.near i).trans (by gcongr)⟩

/-- The transition of a coordinate integrated twice. -/
theorem gainOk_chain {F : Mat 3 3} (hF : IsChain3 F) {δ c g γ : ℝ} (hδ : 0 < δ) (hδ1 : δ ≤ 1) (hc : 0 ≤ c) (hg : |g| ≤ c * δ)
    (hn : |g - γ * δ| ≤ c * δ ^ 2) : GainOk (chainC ‖F‖ 1 + 1 + c) δ (fun _ : Fin d => expm (δ • F)) (fun _ => g) (fun _ => γ) := by
  obtain ⟨u00, u10, u01, u11, u02, u12⟩ := chain3_expm hF le_rfl hδ.le hδ1
  have hC : 0 ≤ chainC ‖F‖ 1 := chainC_nonneg (norm_nonneg _)
  generalize chainC ‖F‖ 1 = C at *
  have h21 : δ ^ 2 ≤ δ := by rw [pow_two]; exact mul_le_of_le_one_left hδ.le hδ1
  have h32 : δ ^ 3 ≤ δ ^ 2 := by
    rw [pow_succ]
    exact mul_le_of_le_one_right (by positivity) hδ1
  have h2 : 0 < δ ^ 2 := by positivity
  have c1 : C * δ ^ 2 ≤ C * δ := by gcongr
  have c2 : C * δ ^ 3 ≤ C * δ ^ 2 := by gcongr
  have c3 : 0 ≤ c * δ := by positivity
  have c4 : 0 ≤ c * δ ^ 2 := by positivity
  have c5 : 0 ≤ C * δ := by positivity
  have c6 : 0 ≤ C * δ ^ 2 := by positivity
  refine ⟨fun _ => u00.trans ?_, fun _ => u10.trans ?_, fun _ => u01.trans ?_, fun _ => u11.trans ?_, fun _ => ?_, fun _ => ?_, fun _ => hg.trans ?_,
    fun _ => hn.trans ?_⟩
  · linarith
  · linarith
  · linarith
  · linarith
  · refine (near_le (by positivity : 0 ≤ δ ^ 2 / 2) u02 (le_refl _)).trans ?_
    linarith
  · refine (near_le hδ.le u12 (le_refl _)).trans ?_
    linarith
  · linarith
  · linarith

/-- The IOUP prior with twice integrated coordinates: the gain is three eighths of the step. -/
theorem gainBlocks_ioup (θ : ℝ) {σ : ℝ} (hσ : σ ≠ 0) : ∃ c γ0 : ℝ, 0 ≤ c ∧ 0 ≤ γ0 ∧ ∀ δ, 0 < δ → δ ≤ 1 →
    GainBlocks (d := d) c γ0 δ (fun _ => 3 / 8) ⟨_, IOUP.transition θ σ 2 δ d⟩ := by
  refine ⟨chainC ‖IOUP.F θ 2‖ 1 + 1 + 1, d * σ ^ 2, by have := chainC_nonneg (T := 1) (norm_nonneg (IOUP.F θ 2)); positivity, by positivity,
    fun δ hδ hδ1 => ?_⟩
  have hσ2 : 0 < σ ^ 2 := by positivity
  obtain ⟨q00, q01, q11⟩ : IOUP.Q1 σ 2 δ 0 0 = σ ^ 2 * (δ ^ 5 / 20) ∧ IOUP.Q1 σ 2 δ 0 1 = σ ^ 2 * (δ ^ 4 / 8) ∧
      IOUP.Q1 σ 2 δ 1 1 = σ ^ 2 * (δ ^ 3 / 3) := by
    refine ⟨?_, ?_, ?_⟩ <;> simp [IOUP.Q1, Nat.factorial] <;> norm_num
  have hpos : 0 < IOUP.Q1 σ 2 δ 1 1 := by rw [q11]; positivity
  have hg : IOUP.Q1 σ 2 δ 0 1 / IOUP.Q1 σ 2 δ 1 1 = 3 / 8 * δ := by
    rw [q01, q11]
    field_simp
  have hpd : (IOUP.Q1 σ 2 δ).PosDef := ibm_Q1_posDef hσ 2 hδ
  refine ⟨IOUP.transition θ σ 2 δ d, fun _ => expm (δ • IOUP.F θ 2), fun _ => IOUP.Q1 σ 2 δ, rfl, hasBlocks_kron _, hasBlocks_kron _, rfl,
    fun _ => hpd.posSemidef, fun _ => hpos, kron_one_posDef hpd, ?_, ?_⟩
  · refine gainOk_chain (isChain3_ioup θ) hδ hδ1 zero_le_one ?_ ?_
    · rw [hg, abs_of_pos (by positivity)]
      linarith
    · rw [hg, sub_self, abs_zero]
      positivity
  · rw [Finset.sum_const, Finset.card_univ, Fintype.card_fin, nsmul_eq_mul, mul_assoc]
    refine mul_le_mul_of_nonneg_left ?_ (by positivity)
    have h1 : 0 ≤ IOUP.Q1 σ 2 δ 0 1 ^ 2 / IOUP.Q1 σ 2 δ 1 1 := by positivity
    refine (sub_le_self _ h1).trans ?_
    rw [q00]
    refine mul_le_mul_of_nonneg_left ?_ hσ2.le
    have h5 : δ ^ 5 ≤ δ ^ 3 := pow_le_pow_of_le_one hδ.le hδ1 (by norm_num)
    have : 0 < δ ^ 5 := by positivity
    linarith

/-- The Matérn prior with twice integrated coordinates, for small steps. -/
theorem gainBlocks_matern (len : ℝ) {mag : ℝ} (hmag : mag ≠ 0) : ∃ c γ0 h0 : ℝ, 0 ≤ c ∧ 0 ≤ γ0 ∧ 0 < h0 ∧ ∀ δ, 0 < δ → δ ≤ h0 →
    GainBlocks (d := d) c γ0 δ (fun _ => gainLimit 9998) ⟨_, Matern.transition 2 mag len δ d⟩ := by
  have hF := isChain3_matern (Matern.lam 2 len)
  obtain ⟨h1, hh1, H1⟩ := smooth_gain hF le_rfl
  obtain ⟨c, h2, hc, hh2, H2⟩ := smooth_gain_limit hF le_rfl
  obtain ⟨h3, hh3, H3⟩ := smooth_posDef hF le_rfl
  refine ⟨chainC ‖Matern.F 2 (Matern.lam 2 len)‖ 1 + 1 + (c + 2), d * mag ^ 2, min 1 (min h1 (min h2 h3)),
    by have := chainC_nonneg (T := 1) (norm_nonneg (Matern.F 2 (Matern.lam 2 len))); positivity, by positivity, by positivity, fun δ hδ hδ0 => ?_⟩
  simp only [le_min_iff] at hδ0
  obtain ⟨hδ1, hδ2, hδ3, hδ4⟩ := hδ0
  obtain ⟨Q, hQ⟩ : ∃ Q, Q = (Matern.general 2 mag len δ).Q := ⟨_, rfl⟩
  obtain ⟨a1, a2, a3⟩ : 0 < Q 1 1 ∧ |Q 0 1 / Q 1 1| ≤ 2 * δ ∧ Q 0 0 ≤ mag ^ 2 * δ ^ 3 := by
    rw [hQ]
    exact H1 δ hδ hδ2 mag hmag 9998 0
  have b : |Q 0 1 / Q 1 1 - gainLimit 9998 * δ| ≤ c * δ ^ 2 := by
    rw [hQ]
    exact H2 δ hδ hδ3 mag hmag 9998 0
  have hpd : Q.PosDef := by
    rw [hQ]
    exact H3 δ hδ hδ4 mag hmag 9998 0 (by norm_num)
  have hx : (Matern.transition 2 mag len δ d).xi = 0 := by
    have e : (Matern.general 2 mag len δ).xi = 0 := by
      change (computeTransition _ _ _ δ (9998 + 2)).xi = 0
      rw [computeTransition_xi_eq]
      simp
    change kronVec (fun _ : Fin d => (1 : ℝ)) (Matern.general 2 mag len δ).xi = 0
    rw [e]
    funext i
    simp [kronVec]
  have hd2 : 0 < δ ^ 2 := by positivity
  refine ⟨Matern.transition 2 mag len δ d, fun _ => expm (δ • Matern.F 2 (Matern.lam 2 len)), fun _ => Q, rfl, hasBlocks_kron _, ?_, hx,
    fun _ => hpd.posSemidef, fun _ => a1, ?_, ?_, ?_⟩
  · rw [hQ]
    exact hasBlocks_kron _
  · rw [hQ] at hpd
    exact kron_one_posDef hpd
  · refine gainOk_chain hF hδ hδ1 (by positivity) (a2.trans ?_) (b.trans ?_)
    · have : 0 ≤ c * δ := by positivity
      linarith
    · linarith
  · rw [Finset.sum_const, Finset.card_univ, Fintype.card_fin, nsmul_eq_mul, mul_assoc]
    refine mul_le_mul_of_nonneg_left ?_ (by positivity)
    exact (sub_le_self _ (by positivity)).trans a3

/-- The step of EKF0 with such a prior, on covariances or on their factors. -/
theorem gain_block_step {la : LinAlg} (hla : la.Correct) (hd : 0 < d) {c γ0 h : ℝ} {γ : Fin d → ℝ} {pr : (s : ℕ) × Prior s}
    (hpr : GainBlocks c γ0 h γ pr) (sqrt : Bool) :
    ∃ (A : Fin d → Mat 3 3) (g : Fin d → ℝ) (U : Mat d (d * (1 + 2))), GainOk c h A g γ ∧ ∑ i, ∑ j, U i j ^ 2 ≤ γ0 * h ^ 3 ∧
      ∀ rng k x vf, Ekf.ekf0 la rng (some k) x vf h 1 sqrt (some pr) none = .ok (blockStep A g vf h x + U *ᵥ rng.normalVec k (d * (1 + 2))) := by
  obtain ⟨p, A, Q, rfl, hA, hQ, hxi, hpsd, hpos, hpd, hok, hres⟩ := hpr
  cases sqrt
  · obtain ⟨U, hU, hs⟩ := Ekf.ekf0_blocks hla hd hA hQ hxi hpsd hpos h
    exact ⟨A, _, U, hok, hU.trans_le hres, hs⟩
  · obtain ⟨U, hU, hs⟩ := Ekf.ekf0_blocks_sqrt hla hd hA hQ hxi hpsd hpos hpd h
    exact ⟨A, _, U, hok, hU.trans_le hres, hs⟩

end Verif
