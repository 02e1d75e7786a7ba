import Verif.Lemmas.Alg3Scalar
import Mathlib.Analysis.SpecialFunctions.Trigonometric.Bounds
import Mathlib.MeasureTheory.Integral.Bochner.Set
import Mathlib.MeasureTheory.Function.L1Space.Integrable
import Mathlib.Probability.Independence.Basic

/-! The mean of the means of Algorithm 3 with EKF1 for the scalar drift `-cos` stays away from the mean of the Euler-Maruyama solution. -/

namespace Verif

open Real MeasureTheory ProbabilityTheory Filter

/-- The variance stays below half the time, in units of the squared step. -/
theorem sP_path {h : ℝ} (hh : 0 < h) (h1 : h ≤ 1) {N : ℕ} (hN : N * h ≤ 1 / 400) {p j0 j1 : ℕ → ℝ} (hp0 : p 0 = 0)
    (hps : ∀ k < N, p (k + 1) = sP h (j0 k) (j1 k) (p k)) (hpn : ∀ k ≤ N, 0 ≤ p k) (hj : ∀ k, |j0 k| ≤ 1) :
    ∀ k ≤ N, p k ≤ h ^ 2 * (k * h / 2) := by
  intro k
  induction k with
  | zero => intro _; rw [hp0]; simp
  | succ k ih =>
    intro hk
    have h2 := ih (by omega)
    have h3 := sP_upper (j1 := j1 k) hh h1 (hj k) (hpn k (by omega))
    rw [hps k (by omega)]
    have h4 : (k : ℝ) * h ≤ 1 / 400 := by
      refine le_trans (mul_le_mul_of_nonneg_right ?_ hh.le) hN
      exact_mod_cast (by omega : k ≤ N)
    have h5 : (1 + 3 * h) * p k ≤ (1 + 3 * h) * (h ^ 2 * (k * h / 2)) := mul_le_mul_of_nonneg_left h2 (by positivity)
    have h6 : h ^ 3 * (k * h) ≤ h ^ 3 * (1 / 400) := mul_le_mul_of_nonneg_left h4 (by positivity)
    have h7 : 0 < h ^ 3 := by positivity
    push_cast
    nlinarith

theorem abs_le_amgm {s : ℝ} (hs : 0 < s) (x : ℝ) : |x| ≤ s + x ^ 2 / s := by
  rw [← sub_nonneg]
  have : s + x ^ 2 / s - |x| = ((s - |x|) ^ 2 + s * |x|) / s := by
    rw [← sq_abs x]
    field_simp
    ring
  rw [this]
  positivity

/-- The noise of one run: what the estimates need to know about the coefficients of the parabolas and the states. -/
structure BiasNoise {Ω : Type*} [MeasurableSpace Ω] (P : Measure Ω) (N : ℕ) (h m4 : ℝ) (y p a b : ℕ → Ω → ℝ) : Prop where
  ya : ∀ k ≤ N, AEStronglyMeasurable (y k) P
  pa : ∀ k ≤ N, AEStronglyMeasurable (p k) P
  ai : ∀ k < N, Integrable (a k) P
  ba : ∀ k < N, AEStronglyMeasurable (b k) P
  z2 : ∀ k < N, Integrable (fun ω => (a k ω + √6 * b k ω) ^ 2) P ∧ ∫ ω, (a k ω + √6 * b k ω) ^ 2 ∂P ≤ 4 * h
  b2 : ∀ k < N, Integrable (fun ω => b k ω ^ 2) P ∧ ∫ ω, b k ω ^ 2 ∂P ≤ h
  z4 : ∀ k < N, Integrable (fun ω => (a k ω + √6 * b k ω) ^ 4) P ∧ ∫ ω, (a k ω + √6 * b k ω) ^ 4 ∂P ≤ m4 * h ^ 2
  w2 : ∀ k ≤ N, Integrable (fun ω => (∑ i ∈ Finset.range k, a i ω) ^ 2) P ∧ ∫ ω, (∑ i ∈ Finset.range k, a i ω) ^ 2 ∂P ≤ k * h
  y0 : ∀ᵐ ω ∂P, y 0 ω = 0
  p0 : ∀ᵐ ω ∂P, p 0 ω = 0
  pn : ∀ᵐ ω ∂P, ∀ k ≤ N, 0 ≤ p k ω
  ys : ∀ᵐ ω ∂P, ∀ k < N, y (k + 1) ω = sY h (y k ω) (p k ω) (a k ω) (b k ω)
  ps : ∀ᵐ ω ∂P, ∀ k < N, p (k + 1) ω = sP h (sin (y k ω)) (sin (sX h (y k ω) (a k ω) (b k ω))) (p k ω)
  ind : ∀ k < N, ∫ ω, p k ω / h ^ 2 * cos (y k ω) * ((a k ω + √6 * b k ω) * b k ω) ∂P =
    (∫ ω, p k ω / h ^ 2 * cos (y k ω) ∂P) * (√6 * (h / 2))

namespace BiasNoise

variable {Ω : Type*} [MeasurableSpace Ω] {P : Measure Ω} [IsProbabilityMeasure P] {N : ℕ} {h m4 s : ℝ} {y p a b : ℕ → Ω → ℝ}

omit [IsProbabilityMeasure P] in
theorem bound (H : BiasNoise P N h m4 y p a b) (hh : 0 < h) (h1 : h ≤ 1) (hN : N * h ≤ 1 / 400) :
    ∀ᵐ ω ∂P, ∀ k ≤ N, 0 ≤ p k ω ∧ p k ω ≤ h ^ 2 * (k * h / 2) ∧ p k ω ≤ h ^ 2 := by
  filter_upwards [H.p0, H.ps, H.pn] with ω h0 hs hn k hk
  have h2 := sP_path hh h1 hN (p := fun k => p k ω) (j0 := fun k => sin (y k ω)) (j1 := fun k => sin (sX h (y k ω) (a k ω) (b k ω)))
    h0 hs hn (fun k => abs_sin_le_one _) k hk
  refine ⟨hn k hk, h2, h2.trans ?_⟩
  have h4 : (k : ℝ) * h ≤ 1 / 400 := by
    refine le_trans (mul_le_mul_of_nonneg_right ?_ hh.le) hN
    exact_mod_cast hk
  nlinarith [sq_nonneg h]

theorem q_integrable (H : BiasNoise P N h m4 y p a b) (hh : 0 < h) (h1 : h ≤ 1) (hN : N * h ≤ 1 / 400) {k : ℕ} (hk : k ≤ N) :
    Integrable (fun ω => p k ω / h ^ 2) P := by
  refine Integrable.of_bound (C := 1) (by simpa only [div_eq_mul_inv] using (H.pa k hk).mul_const _) ?_
  filter_upwards [H.bound hh h1 hN] with ω hω
  obtain ⟨h2, -, h3⟩ := hω k hk
  rw [Real.norm_eq_abs, abs_of_nonneg (by positivity)]
  exact (div_le_one (by positivity)).mpr h3

/-- The mean of the variance. -/
theorem q_lower (H : BiasNoise P N h m4 y p a b) (hs : 0 < s) (hsh : s ^ 2 = h) (h1 : h ≤ 1 / 2) (hN : N * h ≤ 1 / 400) :
    ∀ k ≤ N, k * h * (1 / 12 - 1 / 400 - 241 * s) ≤ ∫ ω, p k ω / h ^ 2 ∂P := by
  have hh : 0 < h := by rw [← hsh]; positivity
  have hhs : h ≤ s := by nlinarith
  intro k
  induction k with
  | zero =>
    intro _
    have : (fun ω => p 0 ω / h ^ 2) =ᵐ[P] fun _ => 0 := by
      filter_upwards [H.p0] with ω hω
      rw [hω, zero_div]
    rw [integral_congr_ae this]
    simp
  | succ k ih =>
    intro hk
    have h2 := ih (by omega)
    obtain ⟨z2i, z2⟩ := H.z2 k (by omega)
    have hle : ∀ᵐ ω ∂P, p k ω / h ^ 2 + (-(h / 400) + h / 12 - h * (32 * (s + (a k ω + √6 * b k ω) ^ 2 / s + 2 * h) + 17 * h)) ≤ p (k + 1) ω / h ^ 2 := by
      filter_upwards [H.bound hh (by linarith) hN, H.ps] with ω hω hps
      obtain ⟨g1, g2, g3⟩ := hω k (by omega)
      rw [hps k (by omega), le_div_iff₀ (by positivity)]
      have h3 := sP_lower hh h1 (abs_sin_le_one (y k ω)) (abs_sin_le_one (sX h (y k ω) (a k ω) (b k ω))) g1 g3
      have h4 := sE_small hh (y k ω) (a k ω) (b k ω)
      have h5 := abs_le_amgm hs (a k ω + √6 * b k ω)
      have h6 : |sE h (sin (y k ω)) (sin (sX h (y k ω) (a k ω) (b k ω)))| ≤ s + (a k ω + √6 * b k ω) ^ 2 / s + 2 * h := by linarith
      have h7 : (k : ℝ) * h ≤ 1 / 400 := by
        refine le_trans (mul_le_mul_of_nonneg_right ?_ hh.le) hN
        exact_mod_cast (by omega : k ≤ N)
      have h8 : p k ω ≤ h ^ 2 * (1 / 800) := g2.trans (mul_le_mul_of_nonneg_left (by linarith) (sq_nonneg h))
      have h9 : h * p k ω ≤ h * (h ^ 2 * (1 / 800)) := mul_le_mul_of_nonneg_left h8 hh.le
      have h10 : h ^ 3 * |sE h (sin (y k ω)) (sin (sX h (y k ω) (a k ω) (b k ω)))| ≤ h ^ 3 * (s + (a k ω + √6 * b k ω) ^ 2 / s + 2 * h) :=
        mul_le_mul_of_nonneg_left h6 (by positivity)
      refine le_trans ?_ h3
      have e : (p k ω / h ^ 2 + (-(h / 400) + h / 12 - h * (32 * (s + (a k ω + √6 * b k ω) ^ 2 / s + 2 * h) + 17 * h))) * h ^ 2 =
          p k ω - h ^ 3 / 400 + h ^ 3 / 12 - 32 * (h ^ 3 * (s + (a k ω + √6 * b k ω) ^ 2 / s + 2 * h)) - 17 * h ^ 4 := by
        generalize s + (a k ω + √6 * b k ω) ^ 2 / s + 2 * h = u
        field_simp
        ring
      rw [e]
      nlinarith
    have hqi := H.q_integrable hh (by linarith) hN (k := k) (by omega)
    have hci : Integrable (fun ω => -(h / 400) + h / 12 - h * (32 * (s + (a k ω + √6 * b k ω) ^ 2 / s + 2 * h) + 17 * h)) P :=
      (integrable_const _).sub ((((((integrable_const s).add (z2i.div_const s)).add (integrable_const (2 * h))).const_mul 32).add
        (integrable_const (17 * h))).const_mul h)
    have h3 := integral_mono_ae (hqi.add hci) (H.q_integrable hh (by linarith) hN hk) hle
    simp only [Pi.add_apply] at h3
    rw [integral_add hqi hci] at h3
    have h4 : ∫ ω, -(h / 400) + h / 12 - h * (32 * (s + (a k ω + √6 * b k ω) ^ 2 / s + 2 * h) + 17 * h) ∂P =
        -(h / 400) + h / 12 - h * (32 * (s + (∫ ω, (a k ω + √6 * b k ω) ^ 2 ∂P) / s + 2 * h) + 17 * h) := by
      have e : (fun ω => -(h / 400) + h / 12 - h * (32 * (s + (a k ω + √6 * b k ω) ^ 2 / s + 2 * h) + 17 * h)) =
          fun ω => (-(h / 400) + h / 12 - h * (32 * (s + 2 * h) + 17 * h)) + -(32 * h / s) * (a k ω + √6 * b k ω) ^ 2 := by
        funext ω
        ring
      rw [e, integral_add (integrable_const _) (z2i.const_mul _), integral_const_mul]
      simp only [integral_const, probReal_univ, smul_eq_mul, one_mul]
      ring
    have h5 : (∫ ω, (a k ω + √6 * b k ω) ^ 2 ∂P) / s ≤ 4 * s := by
      rw [div_le_iff₀ hs]
      nlinarith
    have h6 : h * ((∫ ω, (a k ω + √6 * b k ω) ^ 2 ∂P) / s) ≤ h * (4 * s) := mul_le_mul_of_nonneg_left h5 hh.le
    have h7 : h * h ≤ h * s := mul_le_mul_of_nonneg_left hhs hh.le
    rw [h4] at h3
    push_cast
    nlinarith

/-- What a step adds to the Euler-Maruyama step. -/
noncomputable def dl (h : ℝ) (y a : ℕ → Ω → ℝ) (k : ℕ) (ω : Ω) : ℝ := y (k + 1) ω - (y k ω + h * -cos (y k ω) + a k ω)

/-- The main part of what a step adds. -/
noncomputable def mn (h : ℝ) (y p a b : ℕ → Ω → ℝ) (k : ℕ) (ω : Ω) : ℝ :=
  2 * √6 * (p k ω / h ^ 2 * cos (y k ω) * ((a k ω + √6 * b k ω) * b k ω))

/-- The bound of the rest. -/
noncomputable def mj (h s : ℝ) (a b : ℕ → Ω → ℝ) (k : ℕ) (ω : Ω) : ℝ :=
  3000 * (h * s) + 1000 * s * (a k ω + √6 * b k ω) ^ 2 + 2000 * s * b k ω ^ 2 + 1000 / s * (a k ω + √6 * b k ω) ^ 4

omit [MeasurableSpace Ω] in
theorem sqrt6_bounds : 2 * √6 ≤ 5 ∧ 0 ≤ √6 ∧ √6 * √6 = 6 := by
  have h1 : √6 * √6 = 6 := mul_self_sqrt (by norm_num)
  have h2 := sqrt_nonneg 6
  exact ⟨by nlinarith, h2, h1⟩

theorem mj_int (H : BiasNoise P N h m4 y p a b) (hs : 0 < s) (hsh : s ^ 2 = h) {k : ℕ} (hk : k < N) :
    Integrable (mj h s a b k) P ∧ ∫ ω, mj h s a b k ω ∂P ≤ 1000 * (9 + m4) * (h * s) := by
  obtain ⟨z2i, z2⟩ := H.z2 k hk
  obtain ⟨b2i, b2⟩ := H.b2 k hk
  obtain ⟨z4i, z4⟩ := H.z4 k hk
  have i1 : Integrable (fun ω => 3000 * (h * s) + 1000 * s * (a k ω + √6 * b k ω) ^ 2) P := (integrable_const _).add (z2i.const_mul _)
  have i2 : Integrable (fun ω => 3000 * (h * s) + 1000 * s * (a k ω + √6 * b k ω) ^ 2 + 2000 * s * b k ω ^ 2) P := i1.add (b2i.const_mul _)
  have hh : 0 < h := by rw [← hsh]; positivity
  refine ⟨i2.add (z4i.const_mul _), ?_⟩
  unfold mj
  rw [integral_add i2 (z4i.const_mul _), integral_add i1 (b2i.const_mul _), integral_add (integrable_const _) (z2i.const_mul _)]
  simp only [integral_const_mul, integral_const, probReal_univ, smul_eq_mul, one_mul]
  have e1 : 1000 * s * ∫ ω, (a k ω + √6 * b k ω) ^ 2 ∂P ≤ 1000 * s * (4 * h) := mul_le_mul_of_nonneg_left z2 (by positivity)
  have e2 : 2000 * s * ∫ ω, b k ω ^ 2 ∂P ≤ 2000 * s * h := mul_le_mul_of_nonneg_left b2 (by positivity)
  have e3 : 1000 / s * ∫ ω, (a k ω + √6 * b k ω) ^ 4 ∂P ≤ 1000 / s * (m4 * h ^ 2) := mul_le_mul_of_nonneg_left z4 (by positivity)
  have e4 : 1000 / s * (m4 * h ^ 2) = 1000 * m4 * (h * s) := by
    rw [← hsh]
    field_simp
  rw [e4] at e3
  nlinarith

theorem mn_int (H : BiasNoise P N h m4 y p a b) (hh : 0 < h) (h1 : h ≤ 1) (hN : N * h ≤ 1 / 400) {k : ℕ} (hk : k < N) :
    Integrable (mn h y p a b k) P ∧ (∫ ω, |mn h y p a b k ω| ∂P ≤ h / 50) ∧
      ∫ ω, mn h y p a b k ω ∂P = 6 * h * ∫ ω, p k ω / h ^ 2 * cos (y k ω) ∂P := by
  obtain ⟨z2i, z2⟩ := H.z2 k hk
  obtain ⟨b2i, b2⟩ := H.b2 k hk
  have hai := (H.ai k hk).aestronglyMeasurable
  have hle : ∀ᵐ ω ∂P, |mn h y p a b k ω| ≤ 1 / 320 * ((a k ω + √6 * b k ω) ^ 2 + b k ω ^ 2) := by
    filter_upwards [H.bound hh h1 hN] with ω hω
    obtain ⟨g1, g2, -⟩ := hω k hk.le
    obtain ⟨r1, r2, -⟩ := sqrt6_bounds
    have h4 : (k : ℝ) * h ≤ 1 / 400 := by
      refine le_trans (mul_le_mul_of_nonneg_right ?_ hh.le) hN
      exact_mod_cast hk.le
    have g3 : p k ω / h ^ 2 ≤ 1 / 800 := by
      rw [div_le_iff₀ (by positivity)]
      nlinarith [sq_nonneg h]
    have g4 : 0 ≤ p k ω / h ^ 2 := by positivity
    rw [mn, abs_mul, abs_of_nonneg (by positivity : 0 ≤ 2 * √6), abs_mul, abs_mul, abs_of_nonneg g4]
    have g5 : p k ω / h ^ 2 * |cos (y k ω)| ≤ 1 / 800 * 1 := mul_le_mul g3 (abs_cos_le_one _) (abs_nonneg _) (by norm_num)
    have g6 : |(a k ω + √6 * b k ω) * b k ω| ≤ ((a k ω + √6 * b k ω) ^ 2 + b k ω ^ 2) / 2 := by
      rw [abs_mul, ← sq_abs (a k ω + √6 * b k ω), ← sq_abs (b k ω)]
      nlinarith [sq_nonneg (|a k ω + √6 * b k ω| - |b k ω|)]
    have g7 : p k ω / h ^ 2 * |cos (y k ω)| * |(a k ω + √6 * b k ω) * b k ω| ≤ 1 / 800 * 1 * (((a k ω + √6 * b k ω) ^ 2 + b k ω ^ 2) / 2) :=
      mul_le_mul g5 g6 (abs_nonneg _) (by norm_num)
    have g8 := mul_le_mul r1 g7 (by positivity) (by norm_num)
    linarith
  have hi : Integrable (mn h y p a b k) P := by
    refine Integrable.mono' ((z2i.add b2i).const_mul (1 / 320)) ?_ hle
    have hy := H.ya k hk.le
    have hc : AEStronglyMeasurable (fun ω => cos (y k ω)) P := continuous_cos.comp_aestronglyMeasurable hy
    have hp : AEStronglyMeasurable (fun ω => p k ω / h ^ 2) P := (H.q_integrable hh h1 hN hk.le).aestronglyMeasurable
    exact ((hp.mul hc).mul ((hai.add ((H.ba k hk).const_mul _)).mul (H.ba k hk))).const_mul _
  refine ⟨hi, ?_, ?_⟩
  · have h2 := integral_mono_ae hi.abs ((z2i.add b2i).const_mul (1 / 320)) hle
    rw [integral_const_mul] at h2
    simp only [Pi.add_apply] at h2
    rw [integral_add z2i b2i] at h2
    refine h2.trans ?_
    linarith
  · unfold mn
    rw [integral_const_mul, H.ind k hk]
    obtain ⟨-, -, r3⟩ := sqrt6_bounds
    linear_combination (∫ ω, p k ω / h ^ 2 * cos (y k ω) ∂P) * h * r3

omit [IsProbabilityMeasure P] in
theorem dl_near (H : BiasNoise P N h m4 y p a b) (hs : 0 < s) (hsh : s ^ 2 = h) (h1 : h ≤ 1) (hN : N * h ≤ 1 / 400) {k : ℕ} (hk : k < N) :
    ∀ᵐ ω ∂P, |dl h y a k ω - mn h y p a b k ω| ≤ mj h s a b k ω := by
  have hh : 0 < h := by rw [← hsh]; positivity
  filter_upwards [H.bound hh h1 hN, H.ys] with ω hω hys
  obtain ⟨g1, -, g3⟩ := hω k hk.le
  have := sY_majorant (y := y k ω) (a := a k ω) (b := b k ω) hs hsh h1 g1 g3
  rw [dl, hys k hk, mn, mj]
  refine le_trans (le_of_eq ?_) (this.trans (le_of_eq ?_))
  · congr 1
    ring
  · ring

theorem dl_int (H : BiasNoise P N h m4 y p a b) (hs : 0 < s) (hsh : s ^ 2 = h) (h1 : h ≤ 1) (hN : N * h ≤ 1 / 400) {k : ℕ} (hk : k < N) :
    Integrable (dl h y a k) P ∧ (∫ ω, |dl h y a k ω| ∂P ≤ h / 50 + 1000 * (9 + m4) * (h * s)) ∧
      6 * h * (∫ ω, p k ω / h ^ 2 * cos (y k ω) ∂P) - 1000 * (9 + m4) * (h * s) ≤ ∫ ω, dl h y a k ω ∂P := by
  have hh : 0 < h := by rw [← hsh]; positivity
  obtain ⟨ji, jb⟩ := H.mj_int hs hsh hk
  obtain ⟨ni, nb, ne⟩ := H.mn_int hh h1 hN hk
  have hnear := H.dl_near hs hsh h1 hN hk
  have hle : ∀ᵐ ω ∂P, |dl h y a k ω| ≤ |mn h y p a b k ω| + mj h s a b k ω := by
    filter_upwards [hnear] with ω hω
    have := abs_sub_abs_le_abs_sub (dl h y a k ω) (mn h y p a b k ω)
    linarith
  have hi : Integrable (dl h y a k) P := by
    refine Integrable.mono' (ni.abs.add ji) ?_ hle
    have hy := H.ya k hk.le
    have hc : AEStronglyMeasurable (fun ω => -cos (y k ω)) P := (continuous_cos.comp_aestronglyMeasurable hy).neg
    exact (H.ya (k + 1) hk).sub ((hy.add (hc.const_mul h)).add (H.ai k hk).aestronglyMeasurable)
  refine ⟨hi, ?_, ?_⟩
  · have h2 := integral_mono_ae hi.abs (ni.abs.add ji) hle
    simp only [Pi.add_apply] at h2
    rw [integral_add ni.abs ji] at h2
    linarith
  · have hle2 : ∀ᵐ ω ∂P, mn h y p a b k ω - mj h s a b k ω ≤ dl h y a k ω := by
      filter_upwards [hnear] with ω hω
      have := (abs_le.mp hω).1
      linarith
    have h2 := integral_mono_ae (ni.sub ji) hi hle2
    simp only [Pi.sub_apply] at h2
    rw [integral_sub ni ji, ne] at h2
    linarith

omit [IsProbabilityMeasure P] in
theorem y_sum (H : BiasNoise P N h m4 y p a b) : ∀ᵐ ω ∂P, ∀ k, y k ω =
    ∑ i ∈ Finset.range k, (h * -cos (y i ω) + dl h y a i ω) + ∑ i ∈ Finset.range k, a i ω := by
  filter_upwards [H.y0] with ω hω k
  have h2 := Finset.sum_range_sub (fun i => y i ω) k
  rw [hω, sub_zero] at h2
  rw [← Finset.sum_add_distrib, ← h2]
  refine Finset.sum_congr rfl fun i _ => ?_
  rw [dl]
  ring

/-- The mean size of the states. -/
theorem y_int (H : BiasNoise P N h m4 y p a b) (hs : 0 < s) (hsh : s ^ 2 = h) (h1 : h ≤ 1) (hm4 : 0 ≤ m4) (hN : N * h ≤ 1 / 400) {k : ℕ} (hk : k ≤ N) :
    Integrable (y k) P ∧ ∫ ω, |y k ω| ∂P ≤ 6 / 100 + 1000 * (9 + m4) * s := by
  have hh : 0 < h := by rw [← hsh]; positivity
  obtain ⟨wi, wb⟩ := H.w2 k hk
  have hdi : ∀ i ∈ Finset.range k, Integrable (fun ω => h + |dl h y a i ω|) P := fun i hi =>
    (integrable_const _).add (H.dl_int hs hsh h1 hN (by have := Finset.mem_range.mp hi; omega)).1.abs
  have hle : ∀ᵐ ω ∂P, |y k ω| ≤ ∑ i ∈ Finset.range k, (h + |dl h y a i ω|) + (1 / 40 + 10 * (∑ i ∈ Finset.range k, a i ω) ^ 2) := by
    filter_upwards [H.y_sum] with ω hω
    rw [hω k]
    refine (abs_add_le _ _).trans (add_le_add ?_ ?_)
    · refine (Finset.abs_sum_le_sum_abs _ _).trans (Finset.sum_le_sum fun i _ => (abs_add_le _ _).trans (add_le_add_left ?_ _))
      rw [abs_mul, abs_neg, abs_of_pos hh]
      nlinarith [abs_cos_le_one (y i ω)]
    · rw [← sq_abs]
      nlinarith [sq_nonneg (|∑ i ∈ Finset.range k, a i ω| - 1 / 20)]
  have hsi : Integrable (fun ω => ∑ i ∈ Finset.range k, (h + |dl h y a i ω|)) P := integrable_finsetSum _ hdi
  have hwi : Integrable (fun ω => 1 / 40 + 10 * (∑ i ∈ Finset.range k, a i ω) ^ 2) P := (integrable_const _).add (wi.const_mul _)
  have hi : Integrable (y k) P := Integrable.mono' (hsi.add hwi) (H.ya k hk) hle
  refine ⟨hi, ?_⟩
  have h2 := integral_mono_ae hi.abs (hsi.add hwi) hle
  simp only [Pi.add_apply] at h2
  rw [integral_add hsi hwi, integral_finsetSum _ hdi, integral_add (integrable_const _) (wi.const_mul _), integral_const_mul] at h2
  have h3 : ∑ i ∈ Finset.range k, ∫ ω, h + |dl h y a i ω| ∂P ≤ ∑ i ∈ Finset.range k, (h + (h / 50 + 1000 * (9 + m4) * (h * s))) := by
    refine Finset.sum_le_sum fun i hi => ?_
    obtain ⟨d1, d2, -⟩ := H.dl_int hs hsh h1 hN (k := i) (by have := Finset.mem_range.mp hi; omega)
    rw [integral_add (integrable_const _) d1.abs]
    simp only [integral_const, probReal_univ, smul_eq_mul, one_mul]
    linarith
  rw [Finset.sum_const, Finset.card_range, nsmul_eq_mul] at h3
  simp only [integral_const, probReal_univ, smul_eq_mul, one_mul] at h2
  have h4 : (k : ℝ) * h ≤ 1 / 400 := by
    refine le_trans (mul_le_mul_of_nonneg_right ?_ hh.le) hN
    exact_mod_cast hk
  have h5 : (k : ℝ) * (h + (h / 50 + 1000 * (9 + m4) * (h * s))) = (k * h) * (1 + 1 / 50 + 1000 * (9 + m4) * s) := by ring
  have h6 : (k * h) * (1 + 1 / 50 + 1000 * (9 + m4) * s) ≤ 1 / 400 * (1 + 1 / 50 + 1000 * (9 + m4) * s) :=
    mul_le_mul_of_nonneg_right h4 (by positivity)
  have h7 : 0 ≤ 1000 * (9 + m4) * s := by positivity
  rw [h5] at h3
  linarith

/-- The mean drift of a step. -/
theorem dl_lower (H : BiasNoise P N h m4 y p a b) (hs : 0 < s) (hsh : s ^ 2 = h) (h1 : h ≤ 1 / 2) (hm4 : 0 ≤ m4) (hN : N * h ≤ 1 / 400) {k : ℕ} (hk : k < N) :
    3 / 10 * h * (k * h) - (1446 + 7000 * (9 + m4)) * (h * s) ≤ ∫ ω, dl h y a k ω ∂P := by
  have hh : 0 < h := by rw [← hsh]; positivity
  obtain ⟨-, -, d3⟩ := H.dl_int hs hsh (by linarith) hN hk
  obtain ⟨yi, yb⟩ := H.y_int hs hsh (by linarith) hm4 hN hk.le
  have hq := H.q_lower hs hsh h1 hN k hk.le
  have hqi := H.q_integrable hh (by linarith) hN hk.le
  have h4 : (k : ℝ) * h ≤ 1 / 400 := by
    refine le_trans (mul_le_mul_of_nonneg_right ?_ hh.le) hN
    exact_mod_cast hk.le
  have hle : ∀ᵐ ω ∂P, p k ω / h ^ 2 - k * h / 2 * |y k ω| ≤ p k ω / h ^ 2 * cos (y k ω) := by
    filter_upwards [H.bound hh (by linarith) hN] with ω hω
    obtain ⟨g1, g2, -⟩ := hω k hk.le
    have g3 : p k ω / h ^ 2 ≤ k * h / 2 := by
      rw [div_le_iff₀ (by positivity)]
      linarith
    have g4 : 0 ≤ p k ω / h ^ 2 := by positivity
    have g5 : 1 - |y k ω| ≤ cos (y k ω) := by
      have := abs_cos_sub_cos_le 0 (y k ω)
      rw [cos_zero, zero_sub, abs_neg] at this
      linarith [(abs_le.mp this).2]
    have g6 := mul_le_mul_of_nonneg_left g5 g4
    have g7 := mul_le_mul_of_nonneg_right g3 (abs_nonneg (y k ω))
    linarith
  have hci : Integrable (fun ω => p k ω / h ^ 2 * cos (y k ω)) P := by
    refine Integrable.mono' hqi (hqi.aestronglyMeasurable.mul (continuous_cos.comp_aestronglyMeasurable (H.ya k hk.le))) ?_
    filter_upwards [H.bound hh (by linarith) hN] with ω hω
    obtain ⟨g1, -, -⟩ := hω k hk.le
    have g4 : 0 ≤ p k ω / h ^ 2 := by positivity
    rw [Real.norm_eq_abs, abs_mul, abs_of_nonneg g4]
    nlinarith [abs_cos_le_one (y k ω)]
  have h2 := integral_mono_ae (hqi.sub (yi.abs.const_mul (k * h / 2))) hci hle
  simp only [Pi.sub_apply] at h2
  rw [integral_sub hqi (yi.abs.const_mul _), integral_const_mul] at h2
  have hk0 : (0 : ℝ) ≤ k * h := by positivity
  have h3 : k * h / 2 * ∫ ω, |y k ω| ∂P ≤ k * h / 2 * (6 / 100 + 1000 * (9 + m4) * s) := mul_le_mul_of_nonneg_left yb (by positivity)
  have h5 : k * h / 20 - (241 + 1000 * (9 + m4)) * s ≤ ∫ ω, p k ω / h ^ 2 * cos (y k ω) ∂P := by
    have e1 : k * h * (241 * s + 500 * (9 + m4) * s) ≤ 1 / 400 * (241 * s + 500 * (9 + m4) * s) := mul_le_mul_of_nonneg_right h4 (by positivity)
    have e2 : 0 ≤ m4 * s := by positivity
    nlinarith
  have h6 := mul_le_mul_of_nonneg_left h5 (by positivity : 0 ≤ 6 * h)
  refine le_trans (le_of_eq ?_) ((sub_le_sub_right h6 _).trans d3)
  ring

/-- The mean difference from the Euler-Maruyama solution does not tend to zero. -/
theorem away (H : BiasNoise P N h m4 y p a b) (hs : 0 < s) (hsh : s ^ 2 = h) (h1 : h ≤ 1 / 2) (hm4 : 0 ≤ m4) (hN : N * h = 1 / 400) {z : ℕ → Ω → ℝ}
    (hz0 : ∀ᵐ ω ∂P, z 0 ω = 0) (hz : ∀ᵐ ω ∂P, ∀ k < N, z (k + 1) ω = z k ω + h * -cos (z k ω) + a k ω)
    (hzi : ∀ k ≤ N, Integrable (z k) P) :
    ∃ n ≤ N, 1 / 10000000 ≤ ∫ ω, |y n ω - z n ω| ∂P + (1446 + 7000 * (9 + m4)) * s := by
  by_contra hcon
  push Not at hcon
  have hh : 0 < h := by rw [← hsh]; positivity
  have hyi : ∀ k ≤ N, Integrable (y k) P := fun k hk => (H.y_int hs hsh (by linarith) hm4 hN.le hk).1
  have hei : ∀ k ≤ N, Integrable (fun ω => |y k ω - z k ω|) P := fun k hk => ((hyi k hk).sub (hzi k hk)).abs
  have hle : ∀ᵐ ω ∂P, ∑ i ∈ Finset.range N, (dl h y a i ω - h * |y i ω - z i ω|) ≤ |y N ω - z N ω| := by
    filter_upwards [H.y0, hz0, hz] with ω hy0 hz0 hz
    have h2 := Finset.sum_range_sub (fun i => y i ω - z i ω) N
    rw [hy0, hz0, sub_zero, sub_zero] at h2
    refine le_trans ?_ (le_abs_self _)
    rw [← h2]
    refine Finset.sum_le_sum fun i hi => ?_
    rw [hz i (Finset.mem_range.mp hi), dl]
    have h3 := abs_cos_sub_cos_le (y i ω) (z i ω)
    have h4 := mul_le_mul_of_nonneg_left (abs_le.mp h3).2 hh.le
    linarith
  have hdi : ∀ i ∈ Finset.range N, Integrable (fun ω => dl h y a i ω - h * |y i ω - z i ω|) P := fun i hi =>
    (H.dl_int hs hsh (by linarith) hN.le (Finset.mem_range.mp hi)).1.sub ((hei i (Finset.mem_range.mp hi).le).const_mul h)
  have h2 := integral_mono_ae (integrable_finsetSum _ hdi) (hei N le_rfl) hle
  rw [integral_finsetSum _ hdi] at h2
  set c := 1 / 10000000 - (1446 + 7000 * (9 + m4)) * s with hc
  have h3 : ∑ i ∈ Finset.range N, (3 / 10 * h * (i * h) - (1446 + 7000 * (9 + m4)) * (h * s) - h * c) ≤
      ∑ i ∈ Finset.range N, ∫ ω, dl h y a i ω - h * |y i ω - z i ω| ∂P := by
    refine Finset.sum_le_sum fun i hi => ?_
    have hi' := Finset.mem_range.mp hi
    rw [integral_sub (H.dl_int hs hsh (by linarith) hN.le hi').1 ((hei i hi'.le).const_mul h), integral_const_mul]
    have e1 := H.dl_lower hs hsh h1 hm4 hN.le hi'
    have e2 : ∫ ω, |y i ω - z i ω| ∂P ≤ c := by
      have := hcon i hi'.le
      linarith
    have e3 := mul_le_mul_of_nonneg_left e2 hh.le
    linarith
  have h4 : ∑ i ∈ Finset.range N, (3 / 10 * h * (i * h) - (1446 + 7000 * (9 + m4)) * (h * s) - h * c) =
      3 / 20 * ((N * h) ^ 2 - (N * h) * h) - (1446 + 7000 * (9 + m4)) * ((N * h) * s) - (N * h) * c := by
    have e1 : ∑ i ∈ Finset.range N, (i : ℝ) = N * (N - 1) / 2 := by
      have := Finset.sum_range_id_mul_two N
      have h5 : ((∑ i ∈ Finset.range N, i : ℕ) : ℝ) * 2 = N * ((N - 1 : ℕ) : ℝ) := by exact_mod_cast this
      rcases Nat.eq_zero_or_pos N with h0 | h0
      · subst h0; simp
      · rw [Nat.cast_sub h0] at h5
        push_cast at h5
        linarith
    have e2 : ∀ i : ℕ, 3 / 10 * h * (i * h) - (1446 + 7000 * (9 + m4)) * (h * s) - h * c =
        3 / 10 * h ^ 2 * i + (-(1446 + 7000 * (9 + m4)) * (h * s) - h * c) := fun i => by ring
    simp only [e2]
    rw [Finset.sum_add_distrib, ← Finset.mul_sum, e1, Finset.sum_const, Finset.card_range, nsmul_eq_mul]
    ring
  have h5 : ∫ ω, |y N ω - z N ω| ∂P ≤ c := by
    have := hcon N le_rfl
    linarith
  rw [h4, hN] at h3
  have hhs : h ≤ s := by nlinarith
  have h6 : 0 ≤ m4 * s := by positivity
  rw [hc] at h3 h5
  nlinarith

end BiasNoise

end Verif
