import Verif.Lemmas.Lin15
import Verif.Lemmas.LinearSolution
import Verif.Lemmas.LevyBrownian
import Verif.Props.HypoOrder
import Verif.Model.Ivp

/-! C139: the schemes of order 1.5 on linear problems: the law of every state, the order of its moments, and the values asserted by the tests
on the harmonic oscillator. -/

namespace Verif

open Matrix Spec Jnp Set MeasureTheory ProbabilityTheory Filter
open scoped NNReal Topology

variable {d m : ℕ}

/-- C139, `diag_15_scheme` with the drift `F x` and a constant diffusion with a diagonal square, with an ideal generator: every state is normal.
Its mean is the power of `1 + hF + h²F²/2`, its covariance accumulates `∫₀ʰ (1 + sF) S Sᵀ (1 + sF)ᵀ ds`. -/
theorem C139_diag_law {la : LinAlg} (hla : la.Correct) {Ω : Type*} [MeasurableSpace Ω] {P : Measure Ω} {R : Ω → Rng} (hR : IdealNormals P R)
    (key : Key) (init : Vec d) (F : Mat d d) {S : Mat d d} (hS : ∀ j k, j ≠ k → ∑ l, S j l * S k l = 0) {h : ℝ} (hh : 0 < h) (N : ℕ)
    {Q V : Mat d d} (hQ : Q = 1 + h • F + (h ^ 2 / 2) • (F * F))
    (hV : V = h • (S * Sᵀ) + (h ^ 2 / 2) • (F * (S * Sᵀ) + S * Sᵀ * Fᵀ) + (h ^ 3 / 3) • (F * (S * Sᵀ) * Fᵀ)) :
    ∀ n ≤ N, ∃ y : Ω → Vec d,
      (∀ ω, ∃ ts xs, Diag15.solver la (R ω) key init (fun x => F *ᵥ x) (fun _ => S) h N = .ok (ts, xs) ∧ xs[n]? = some (y ω)) ∧
      IsNormal P y (Q ^ n *ᵥ init) (∑ i ∈ Finset.range n, Q ^ i * V * (Q ^ i)ᵀ) := by
  obtain ⟨ts, xs, y, h1, h2, h3⟩ := diag15_linear_law hla hR key init F hS hh N
  intro n hn
  refine ⟨y n, fun ω => ⟨ts ω, xs ω, h1 ω, h2 ω n hn⟩, ?_⟩
  rw [hQ, hV]
  exact h3 n hn

/-- C139, the same for the hypoelliptic scheme: only the first row of `F` enters the covariance of a step. -/
theorem C139_hypo_law {la : LinAlg} (hla : la.Correct) {Ω : Type*} [MeasurableSpace Ω] {P : Measure Ω} {R : Ω → Rng} (hR : IdealNormals P R)
    (key : Key) (init : Vec (d + 1)) (F : Mat (d + 1) (d + 1)) {S : Mat (d + 1) m} (hS : ∀ l, S 0 l = 0)
    (hG : (S.submatrix Fin.succ id * (S.submatrix Fin.succ id)ᵀ : Mat d d).PosDef) (hu : ∃ j : Fin d, F 0 j.succ ≠ 0) {h : ℝ} (hh : 0 < h) (N : ℕ)
    {F0 Q V : Mat (d + 1) (d + 1)} (hF0 : ∀ i j, F0 i j = if i = 0 then F i j else 0) (hQ : Q = 1 + h • F + (h ^ 2 / 2) • (F * F))
    (hV : V = h • (S * Sᵀ) + (h ^ 2 / 2) • (F0 * (S * Sᵀ) + S * Sᵀ * F0ᵀ) + (h ^ 3 / 3) • (F0 * (S * Sᵀ) * F0ᵀ)) :
    ∀ n ≤ N, ∃ y : Ω → Vec (d + 1),
      (∀ ω, (Hypo15.solver la (R ω) key init (fun x => F *ᵥ x) (fun _ => S) h N).2[n]? = some (y ω)) ∧
      IsNormal P y (Q ^ n *ᵥ init) (∑ i ∈ Finset.range n, Q ^ i * V * (Q ^ i)ᵀ) := by
  have hF : F0 = topRow F := by
    ext i j
    rw [hF0, topRow, Matrix.of_apply]
    by_cases hi : i = 0
    · rw [hi]
    · rw [if_neg hi, if_neg hi]
  obtain ⟨y, h1, h2⟩ := hypo15_linear_law hla hR key init F hS (topRow_posDef F hS hG hu hh) N
  intro n hn
  refine ⟨y n, fun ω => h1 ω n hn, ?_⟩
  rw [hQ, hV, hF]
  exact h2 n hn

/-- C139, `diag_15_scheme` on a linear problem: the means and covariances of the states are those of the solution of the SDE up to `C h²`. -/
theorem C139_diag_order {la : LinAlg} (hla : la.Correct) {Ω : Type*} [MeasurableSpace Ω] {P : Measure Ω} {B : Fin d → ℝ≥0 → Ω → ℝ}
    (hB : IsBrownianVec B P) (F : Mat d d) {S : Mat d d} (hS : ∀ j k, j ≠ k → ∑ l, S j l * S k l = 0) (x0 : Vec d) {T : ℝ} (hT : 0 < T)
    {X : Ω → ℝ → Vec d} (hX : ∀ᵐ ω ∂P, SolvesAdditive (fun x _ => F *ᵥ x) S (fun t j => B j t.toNNReal ω) x0 T (X ω)) :
    ∃ C : ℝ, ∀ {Ω' : Type} [MeasurableSpace Ω'] {P' : Measure Ω'} {R : Ω' → Rng}, IdealNormals P' R → ∀ (key : Key) (N : ℕ), 0 < N →
      ∀ n ≤ N, ∃ y : Ω' → Vec d,
        (∀ ω, ∃ ts xs, Diag15.solver la (R ω) key x0 (fun x => F *ᵥ x) (fun _ => S) (T / N) N = .ok (ts, xs) ∧ xs[n]? = some (y ω)) ∧
        (∀ j, |∫ ω, y ω j ∂P' - ∫ ω, X ω (n * (T / N)) j ∂P| ≤ C * (T / N) ^ 2) ∧
        ∀ i j, |cov[fun ω => y ω i, fun ω => y ω j; P'] - cov[fun ω => X ω (n * (T / N)) i, fun ω => X ω (n * (T / N)) j; P]| ≤ C * (T / N) ^ 2 := by
  obtain ⟨c, hc⟩ := cov15_local F S hT
  obtain ⟨C, hC⟩ := moments_of_laws hB F S x0 hT hX (by norm_num) (cov15 F (S * Sᵀ)) hc
  refine ⟨C, fun {Ω'} _ {P'} {R} hR key N hN n hn => ?_⟩
  have hh : 0 < T / N := by positivity
  obtain ⟨y, h1, h2⟩ := C139_diag_law hla hR key x0 F hS hh N rfl rfl n hn
  exact ⟨y, h1, hC N hN n hn h2⟩

/-- C139, the hypoelliptic scheme on a linear problem: the means are those of the solution up to `C h²`, the covariances up to `C h` only. -/
theorem C139_hypo_order {la : LinAlg} (hla : la.Correct) {Ω : Type*} [MeasurableSpace Ω] {P : Measure Ω} {B : Fin m → ℝ≥0 → Ω → ℝ}
    (hB : IsBrownianVec B P) (F : Mat (d + 1) (d + 1)) {S : Mat (d + 1) m} (hS : ∀ l, S 0 l = 0)
    (hG : (S.submatrix Fin.succ id * (S.submatrix Fin.succ id)ᵀ : Mat d d).PosDef) (hu : ∃ j : Fin d, F 0 j.succ ≠ 0) (x0 : Vec (d + 1))
    {T : ℝ} (hT : 0 < T) {X : Ω → ℝ → Vec (d + 1)}
    (hX : ∀ᵐ ω ∂P, SolvesAdditive (fun x _ => F *ᵥ x) S (fun t j => B j t.toNNReal ω) x0 T (X ω)) :
    ∃ C : ℝ, ∀ {Ω' : Type} [MeasurableSpace Ω'] {P' : Measure Ω'} {R : Ω' → Rng}, IdealNormals P' R → ∀ (key : Key) (N : ℕ), 0 < N →
      ∀ n ≤ N, ∃ y : Ω' → Vec (d + 1),
        (∀ ω, (Hypo15.solver la (R ω) key x0 (fun x => F *ᵥ x) (fun _ => S) (T / N) N).2[n]? = some (y ω)) ∧
        (∀ j, |∫ ω, y ω j ∂P' - ∫ ω, X ω (n * (T / N)) j ∂P| ≤ C * (T / N) ^ 2) ∧
        ∀ i j, |cov[fun ω => y ω i, fun ω => y ω j; P'] - cov[fun ω => X ω (n * (T / N)) i, fun ω => X ω (n * (T / N)) j; P]| ≤ C * (T / N) := by
  obtain ⟨c, hc⟩ := hypo_local F (topRow F) S hT
  obtain ⟨C, hC⟩ := moments_of_laws hB F S x0 hT hX (by norm_num) (cov15 (topRow F) (S * Sᵀ)) hc
  refine ⟨C, fun {Ω'} _ {P'} {R} hR key N hN n hn => ?_⟩
  have hh : 0 < T / N := by positivity
  obtain ⟨y, h1, h2⟩ := C139_hypo_law hla hR key x0 F hS hG hu hh N (F0 := topRow F) (fun i j => by
    by_cases hi : i = 0
    · rw [hi]; rfl
    · rw [topRow, Matrix.of_apply, if_neg hi, if_neg hi]) rfl rfl n hn
  have h3 := hC N hN n hn h2
  rw [pow_one] at h3
  exact ⟨y, h1, h3⟩

/-- C139, `test_harmonic_oscillator` for `diag_15_scheme`: with an ideal generator and any step, the covariance of the first step is the one the
test compares with, except that the off-diagonal entries exceed it by `2h³/3`; after the 100 steps of `1/100` of the test, the mean is within
0.007 of the exact mean. -/
theorem C139_diag_tests {la : LinAlg} (hla : la.Correct) {Ω : Type*} [MeasurableSpace Ω] {P : Measure Ω} {R : Ω → Rng} (hR : IdealNormals P R) (key : Key) :
    (∀ (h : ℝ), 0 < h → ∀ N, 0 < N → ∃ y : Ω → Vec 2,
      (∀ ω, ∃ ts xs, Diag15.solver la (R ω) key Ivp.Harmonic.x0 (fun x => Ivp.Harmonic.drift 1 1 x 0) (fun _ => Ivp.Harmonic.Csquare 2) h N = .ok (ts, xs) ∧
        xs[1]? = some (y ω)) ∧
      ∀ i j, cov[fun ω => y ω i, fun ω => y ω j; P] = Ivp.Harmonic.var3 1 1 2 h i j + if i = j then 0 else 2 / 3 * h ^ 3) ∧
    ∃ y : Ω → Vec 2,
      (∀ ω, ∃ ts xs, Diag15.solver la (R ω) key Ivp.Harmonic.x0 (fun x => Ivp.Harmonic.drift 1 1 x 0) (fun _ => Ivp.Harmonic.Csquare 2) (1 / 100) 100 = .ok (ts, xs) ∧
        xs[100]? = some (y ω)) ∧
      ∀ j, |∫ ω, y ω j ∂P - Ivp.Harmonic.mean 1 1 1 j| ≤ 7 / 1000 := by
  have hS : ∀ j k, j ≠ k → ∑ l, Ivp.Harmonic.Csquare 2 j l * Ivp.Harmonic.Csquare 2 k l = 0 := fun j k hjk => by
    fin_cases j <;> fin_cases k <;> simp_all [Ivp.Harmonic.Csquare]
  refine ⟨fun h hh N hN => ?_, ?_⟩
  · obtain ⟨y, h1, h2⟩ := C139_diag_law hla hR key Ivp.Harmonic.x0 (Ivp.Harmonic.M 1 1) hS hh N rfl rfl 1 hN
    refine ⟨y, h1, fun i j => ?_⟩
    rw [h2.cov]
    have e : (cov15 (Ivp.Harmonic.M 1 1) (Ivp.Harmonic.Csquare 2 * (Ivp.Harmonic.Csquare 2)ᵀ) h) i j = Ivp.Harmonic.var3 1 1 2 h i j + if i = j then 0 else 2 / 3 * h ^ 3 := by
      rw [harmonic_cov15]
      fin_cases i <;> fin_cases j <;> simp [Ivp.Harmonic.var3] <;> ring
    rw [← e]
    simp [cov15]
  · obtain ⟨y, h1, h2⟩ := C139_diag_law hla hR key Ivp.Harmonic.x0 (Ivp.Harmonic.M 1 1) hS (h := 1 / 100) (by norm_num) 100 rfl rfl 100 le_rfl
    refine ⟨y, h1, fun j => ?_⟩
    rw [h2.mean]
    exact harmonic_mean100 j

/-- C139, `test_harmonic_oscillator` for the hypoelliptic scheme: the covariance of the first step differs from the one the test compares with by
`2h³` outside the diagonal and by `4h² - 4h³/3` in the rough component, which is within the tolerance 0.015 for every step up to 1/20. -/
theorem C139_hypo_tests {la : LinAlg} (hla : la.Correct) {Ω : Type*} [MeasurableSpace Ω] {P : Measure Ω} {R : Ω → Rng} (hR : IdealNormals P R) (key : Key)
    {h : ℝ} (hh : 0 < h) {N : ℕ} (hN : 0 < N) : ∃ y : Ω → Vec 2,
      (∀ ω, (Hypo15.solver la (R ω) key Ivp.Harmonic.x0 (fun x => Ivp.Harmonic.drift 1 1 x 0) (fun _ => Ivp.Harmonic.Csquare 2) h N).2[1]? = some (y ω)) ∧
      (∀ i j, cov[fun ω => y ω i, fun ω => y ω j; P] =
        Ivp.Harmonic.var3 1 1 2 h i j + (!![0, 2 * h ^ 3; 2 * h ^ 3, 4 * h ^ 2 - 4 / 3 * h ^ 3] : Mat 2 2) i j) ∧
      (h ≤ 1 / 20 → ∀ i j, |cov[fun ω => y ω i, fun ω => y ω j; P] - Ivp.Harmonic.var3 1 1 2 h i j| < 15 / 1000) := by
  have hG : ((Ivp.Harmonic.Csquare 2).submatrix (Fin.succ : Fin 1 → Fin 2) id * ((Ivp.Harmonic.Csquare 2).submatrix (Fin.succ : Fin 1 → Fin 2) id)ᵀ : Mat 1 1).PosDef := by
    have : ((Ivp.Harmonic.Csquare 2).submatrix (Fin.succ : Fin 1 → Fin 2) id * ((Ivp.Harmonic.Csquare 2).submatrix (Fin.succ : Fin 1 → Fin 2) id)ᵀ : Mat 1 1) = (4 : ℝ) • 1 := by
      ext i j
      fin_cases i; fin_cases j
      simp [mul_apply, Ivp.Harmonic.Csquare]
      norm_num
    rw [this]
    exact PosDef.one.smul (by norm_num)
  obtain ⟨y, h1, h2⟩ := C139_hypo_law hla hR key Ivp.Harmonic.x0 (Ivp.Harmonic.M 1 1) (S := Ivp.Harmonic.Csquare 2)
    (fun l => by fin_cases l <;> simp [Ivp.Harmonic.Csquare]) hG ⟨0, by simp [Ivp.Harmonic.M]⟩ hh N (F0 := !![0, 1; 0, 0])
    (fun i j => by fin_cases i <;> fin_cases j <;> simp [Ivp.Harmonic.M]) rfl rfl 1 hN
  have hcov : ∀ i j, cov[fun ω => y ω i, fun ω => y ω j; P] =
      Ivp.Harmonic.var3 1 1 2 h i j + (!![0, 2 * h ^ 3; 2 * h ^ 3, 4 * h ^ 2 - 4 / 3 * h ^ 3] : Mat 2 2) i j := fun i j => by
    rw [h2.cov]
    have e : (cov15 !![0, 1; 0, 0] (Ivp.Harmonic.Csquare 2 * (Ivp.Harmonic.Csquare 2)ᵀ) h) i j =
        Ivp.Harmonic.var3 1 1 2 h i j + (!![0, 2 * h ^ 3; 2 * h ^ 3, 4 * h ^ 2 - 4 / 3 * h ^ 3] : Mat 2 2) i j := by
      rw [harmonic_cov15_top]
      fin_cases i <;> fin_cases j <;> simp [Ivp.Harmonic.var3] <;> ring
    rw [← e]
    simp [cov15]
  refine ⟨y, h1, hcov, fun hle i j => ?_⟩
  rw [hcov, add_sub_cancel_left]
  have h3 : 0 < h ^ 3 := by positivity
  have h4 : h ^ 2 ≤ 1 / 400 := by nlinarith
  have h5 : h ^ 3 ≤ 1 / 8000 := by
    calc h ^ 3 ≤ (1 / 20) ^ 3 := by gcongr
      _ = _ := by norm_num
  have h6 : h ^ 3 ≤ h ^ 2 := by nlinarith [sq_nonneg h]
  have k0 : |(0 : ℝ)| < 15 / 1000 := by norm_num
  have k1 : |2 * h ^ 3| < 15 / 1000 := by rw [abs_lt]; constructor <;> linarith
  have k2 : |4 * h ^ 2 - 4 / 3 * h ^ 3| < 15 / 1000 := by rw [abs_lt]; constructor <;> linarith
  fin_cases i <;> fin_cases j
  · exact k0
  · exact k1
  · exact k1
  · exact k2

/-- C139, the problem of the tests meets the hypotheses, with the constructed Brownian motion and generator. -/
example : ∃ (B : Fin 2 → ℝ≥0 → (Fin 2 → ℕ × ℕ → ℝ) → ℝ) (X : (Fin 2 → ℕ × ℕ → ℝ) → ℝ → Vec 2),
    IsBrownianVec B (Measure.pi fun _ => Levy.noise) ∧
      (∀ᵐ ω ∂(Measure.pi fun _ : Fin 2 => Levy.noise), SolvesAdditive (fun x _ => Ivp.Harmonic.M 1 1 *ᵥ x) (Ivp.Harmonic.Csquare 2)
        (fun t j => B j t.toNNReal ω) Ivp.Harmonic.x0 1 (X ω)) ∧
      (∀ j k, j ≠ k → ∑ l, Ivp.Harmonic.Csquare 2 j l * Ivp.Harmonic.Csquare 2 k l = 0) ∧
      (∀ l, Ivp.Harmonic.Csquare 2 0 l = 0) ∧ (∃ j : Fin 1, Ivp.Harmonic.M 1 1 0 j.succ ≠ 0) ∧
      ((Ivp.Harmonic.Csquare 2).submatrix (Fin.succ : Fin 1 → Fin 2) id * ((Ivp.Harmonic.Csquare 2).submatrix (Fin.succ : Fin 1 → Fin 2) id)ᵀ : Mat 1 1).PosDef ∧
      IdealNormals drawsMeasure drawsRng := by
  obtain ⟨B, hB⟩ := Levy.exists_brownianVec 2
  obtain ⟨L, K4, hb⟩ := smooth15_linear (Ivp.Harmonic.M 1 1) (Ivp.Harmonic.Csquare 2)
  have hex : ∀ ω, ∃ X, Continuous (fun (t : ℝ) (j : Fin 2) => B j t.toNNReal ω) →
      SolvesAdditive (fun (x : Vec 2) _ => Ivp.Harmonic.M 1 1 *ᵥ x) (Ivp.Harmonic.Csquare 2) (fun t j => B j t.toNNReal ω) Ivp.Harmonic.x0 1 X := fun ω => by
    by_cases h : Continuous (fun (t : ℝ) (j : Fin 2) => B j t.toNNReal ω)
    · obtain ⟨X, hX⟩ := exists_solvesAdditive zero_le_one (hb.field 1).cont (hb.field 1).lip (Ivp.Harmonic.Csquare 2) h.continuousOn Ivp.Harmonic.x0
      exact ⟨X, fun _ => hX⟩
    · exact ⟨0, fun h' => absurd h' h⟩
  choose X hX using hex
  refine ⟨B, X, hB, ?_, fun j k hjk => ?_, fun l => by fin_cases l <;> simp [Ivp.Harmonic.Csquare], ⟨0, by simp [Ivp.Harmonic.M]⟩, ?_, idealNormals_drawsRng⟩
  · filter_upwards [ae_all_iff.mpr fun j => (hB.brownian j).cont] with ω hω
    exact hX ω (continuous_pi fun j => (hω j).comp continuous_real_toNNReal)
  · fin_cases j <;> fin_cases k <;> simp_all [Ivp.Harmonic.Csquare]
  · have : ((Ivp.Harmonic.Csquare 2).submatrix (Fin.succ : Fin 1 → Fin 2) id * ((Ivp.Harmonic.Csquare 2).submatrix (Fin.succ : Fin 1 → Fin 2) id)ᵀ : Mat 1 1) = (4 : ℝ) • 1 := by
      ext i j
      fin_cases i; fin_cases j
      simp [mul_apply, Ivp.Harmonic.Csquare]
      norm_num
    rw [this]
    exact PosDef.one.smul (by norm_num)

end Verif
