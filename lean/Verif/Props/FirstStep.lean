import Verif.Lemmas.FirstStep

/-! C140: the moments of the first step asserted by the tests of the schemes of order 1.5, on the FitzHugh-Nagumo and synaptic conductance
problems. -/

namespace Verif

open Matrix Spec Jnp Set MeasureTheory ProbabilityTheory Filter Ivp
open scoped NNReal Topology

/-- C140, `test_fitzhugh_nagumo`: with an ideal generator and any step, the first state of the hypoelliptic scheme is normal. Its mean is the
asserted one minus `8h²` in the first component, its covariance the asserted one plus `0.09h²` in the rough component; both are within the
tolerance of the test for steps up to 1/100. -/
theorem C140_fhn {la : LinAlg} (hla : la.Correct) {Ω : Type*} [MeasurableSpace Ω] {P : Measure Ω} {R : Ω → Rng} (hR : IdealNormals P R) (key : Key)
    {h : ℝ} (hh : 0 < h) {N : ℕ} (hN : 0 < N) : ∃ y : Ω → Vec 2,
      (∀ ω, (Hypo15.solver la (R ω) key Fhn.x0 (fun x => Fhn.drift x 0) (fun x => Fhn.sigmaSquare x 0) h N).2[1]? = some (y ω)) ∧
      IsNormal P y (Fhn.mean2 h - ![8 * h ^ 2, 0]) (Fhn.var3 h + !![0, 0; 0, 0.09 * h ^ 2]) ∧
      (h ≤ 1 / 100 → (∀ i, |∫ ω, y ω i ∂P - Fhn.mean2 h i| < 15 / 1000) ∧
        ∀ i j, |cov[fun ω => y ω i, fun ω => y ω j; P] - Fhn.var3 h i j| < 15 / 1000) := by
  have hpu : Hypo15.partialua (d := 1) (fun x => Fhn.drift x 0) Fhn.x0 = ![-10] := by
    funext j
    fin_cases j
    exact Fhn.grad
  have hGG : Hypo15.GammaGammaT (d := 1) (fun x => Fhn.sigmaSquare x 0) Fhn.x0 = !![0.09] := by
    ext i j
    fin_cases i; fin_cases j
    simp [Hypo15.GammaGammaT, Hypo15.Gamma, Fhn.sigmaSquare, Fhn.sigma, Fhn.sig, mul_apply, Fin.sum_univ_two]
    norm_num
  have hcov : Hypo15.noiseCov (d := 1) (fun x => Fhn.drift x 0) (fun x => Fhn.sigmaSquare x 0) h Fhn.x0 = Fhn.var3 h + !![0, 0; 0, 0.09 * h ^ 2] := by
    ext i j
    fin_cases i <;> fin_cases j <;>
      simp [Hypo15.noiseCov, hpu, hGG, Fhn.var3, Fhn.sig, Fhn.eps, vecMul, dotProduct] <;> ring
  have hPD : (Hypo15.noiseCov (d := 1) (fun x => Fhn.drift x 0) (fun x => Fhn.sigmaSquare x 0) h Fhn.x0).PosDef := by
    refine C63_posDef _ _ _ hh ?_ ⟨0, ?_⟩
    · rw [hGG]
      have : (!![0.09] : Mat 1 1) = (0.09 : ℝ) • 1 := by
        ext i j
        fin_cases i; fin_cases j
        simp
      rw [this]
      exact PosDef.one.smul (by norm_num)
    · have h1 := Fhn.grad
      rw [pd] at h1
      rw [show (Fin.succ (0 : Fin 1) : Fin 2) = 1 from rfl, h1]
      norm_num
  have hgen : driftGenerator (fun x => Fhn.drift x 0) (Fhn.sigmaSquare Fhn.x0 0) Fhn.x0 = driftGenerator (fun x => Fhn.drift x 0) (Fhn.sigma Fhn.x0 0) Fhn.x0 := by
    have h1 : ∀ j k, ∑ l, Fhn.sigmaSquare Fhn.x0 0 j l * Fhn.sigmaSquare Fhn.x0 0 k l = ∑ l, Fhn.sigma Fhn.x0 0 j l * Fhn.sigma Fhn.x0 0 k l := fun j k => by
      fin_cases j <;> fin_cases k <;> simp [Fhn.sigmaSquare, Fhn.sigma, Fin.sum_univ_two]
    simp only [driftGenerator, h1]
  have hmean : Fhn.x0 + h • Fhn.drift Fhn.x0 0 + (h ^ 2 / 2) • driftGenerator (fun x => Fhn.drift x 0) (Fhn.sigmaSquare Fhn.x0 0) Fhn.x0 =
      Fhn.mean2 h - ![8 * h ^ 2, 0] := by
    rw [hgen]
    have h0 := (C66_fails h).1
    have h1 := (C66_partial h).1
    funext i
    fin_cases i
    · show meanExpansion (fun x => Fhn.drift x 0) (fun x => Fhn.sigma x 0) Fhn.x0 h 0 = Fhn.mean2 h 0 - 8 * h ^ 2
      rw [h0]; ring
    · show meanExpansion (fun x => Fhn.drift x 0) (fun x => Fhn.sigma x 0) Fhn.x0 h 1 = Fhn.mean2 h 1 - 0
      rw [h1]; ring
  have hlaw := C63_one_step hla hR (key.child N 0) Fhn.smooth (fun x => Fhn.sigmaSquare x 0) Fhn.x0 hPD
  rw [hmean, hcov] at hlaw
  refine ⟨_, fun ω => hypo_first la (R ω) key Fhn.x0 _ _ h hN, hlaw, fun hle => ?_⟩
  have h2 : h ^ 2 ≤ 1 / 10000 := by nlinarith
  have h3 : 0 < h ^ 2 := by positivity
  refine ⟨fun i => ?_, fun i j => ?_⟩
  · rw [hlaw.mean, Pi.sub_apply, sub_sub_cancel_left, abs_neg]
    fin_cases i
    · show |8 * h ^ 2| < _
      rw [abs_lt]; constructor <;> linarith
    · show |(0 : ℝ)| < _
      norm_num
  · rw [hlaw.cov, Matrix.add_apply, add_sub_cancel_left]
    have k0 : |(0 : ℝ)| < 15 / 1000 := by norm_num
    have k1 : |0.09 * h ^ 2| < 15 / 1000 := by rw [abs_lt]; constructor <;> linarith
    fin_cases i <;> fin_cases j
    · exact k0
    · exact k0
    · exact k0
    · exact k1

theorem synaptic_mean (h : ℝ) : meanExpansion Synaptic.drift Synaptic.sigma Synaptic.x0 h = Synaptic.mean2 h + ![27.3 * h ^ 2, 0, 0] := by
  have h0 := (C67_full_fails h).1
  have h1 := C67_full_partial.1 h
  funext i
  fin_cases i
  · show meanExpansion Synaptic.drift Synaptic.sigma Synaptic.x0 h 0 = Synaptic.mean2 h 0 + 27.3 * h ^ 2
    rw [h0]; ring
  · show meanExpansion Synaptic.drift Synaptic.sigma Synaptic.x0 h 1 = Synaptic.mean2 h 1 + 0
    rw [h1 1 (by simp), add_zero]
  · show meanExpansion Synaptic.drift Synaptic.sigma Synaptic.x0 h 2 = Synaptic.mean2 h 2 + 0
    rw [h1 2 (by simp), add_zero]

theorem synaptic_tol {h : ℝ} (hh : 0 < h) (hle : h ≤ 1 / 100) (i : Fin 3) : |(![27.3 * h ^ 2, 0, 0] : Vec 3) i| < 15 / 1000 := by
  have h2 : h ^ 2 ≤ 1 / 10000 := by nlinarith
  have h3 : 0 < h ^ 2 := by positivity
  have k0 : |(0 : ℝ)| < 15 / 1000 := by norm_num
  have k1 : |27.3 * h ^ 2| < 15 / 1000 := by rw [abs_lt]; constructor <;> linarith
  fin_cases i
  · exact k1
  · exact k0
  · exact k0

/-- C140, `test_synaptic_conductance` for the hypoelliptic scheme: the mean of the first state is the asserted one plus `27.3h²` in the voltage,
within the tolerance for steps up to 1/100, and the variance of the voltage after one step is exactly the reference at that time. -/
theorem C140_synaptic_hypo {la : LinAlg} (hla : la.Correct) {Ω : Type*} [MeasurableSpace Ω] {P : Measure Ω} {R : Ω → Rng} (hR : IdealNormals P R) (key : Key)
    {h : ℝ} (hh : 0 < h) {N : ℕ} (hN : 0 < N) : ∃ y : Ω → Vec 3,
      (∀ ω, (Hypo15.solver la (R ω) key Synaptic.x0 Synaptic.drift Synaptic.sigma h N).2[1]? = some (y ω)) ∧
      (∃ C, IsNormal P y (Synaptic.mean2 h + ![27.3 * h ^ 2, 0, 0]) C) ∧
      cov[fun ω => y ω 0, fun ω => y ω 0; P] = Synaptic.var3 h ∧
      (h ≤ 1 / 100 → ∀ i, |∫ ω, y ω i ∂P - Synaptic.mean2 h i| < 15 / 1000) := by
  have hpu : Hypo15.partialua (d := 2) Synaptic.drift Synaptic.x0 = ![3, -1] := by
    funext j
    fin_cases j
    · exact Synaptic.grad.1
    · exact Synaptic.grad.2
  have hGG : Hypo15.GammaGammaT (d := 2) Synaptic.sigma Synaptic.x0 = (1 / 10 : ℝ) • 1 := by
    ext i j
    have h1 : Hypo15.GammaGammaT (d := 2) Synaptic.sigma Synaptic.x0 i j = (Synaptic.sigma Synaptic.x0 * (Synaptic.sigma Synaptic.x0)ᵀ) i.succ j.succ := rfl
    rw [h1, Synaptic.square]
    fin_cases i <;> fin_cases j <;> simp [Matrix.diagonal, Matrix.one_apply]
  have h00 : Hypo15.noiseCov (d := 2) Synaptic.drift Synaptic.sigma h Synaptic.x0 0 0 = Synaptic.var3 h := by
    simp [Hypo15.noiseCov, hpu, hGG, vecMul, dotProduct, Fin.sum_univ_two, Matrix.one_apply]
    simp [Synaptic.var3, Synaptic.C, Synaptic.x0, Synaptic.VE, Synaptic.VI, Synaptic.sigIE]
    ring
  have hPD : (Hypo15.noiseCov (d := 2) Synaptic.drift Synaptic.sigma h Synaptic.x0).PosDef := by
    refine C63_posDef _ _ _ hh ?_ ⟨0, ?_⟩
    · rw [hGG]
      exact PosDef.one.smul (by norm_num)
    · have h1 := Synaptic.grad.1
      rw [pd] at h1
      rw [show (Fin.succ (0 : Fin 2) : Fin 3) = 1 from rfl, h1]
      norm_num
  have hlaw := C63_one_step hla hR (key.child N 0) Synaptic.smooth Synaptic.sigma Synaptic.x0 hPD
  have hmean : Synaptic.x0 + h • Synaptic.drift Synaptic.x0 + (h ^ 2 / 2) • driftGenerator Synaptic.drift (Synaptic.sigma Synaptic.x0) Synaptic.x0 =
      Synaptic.mean2 h + ![27.3 * h ^ 2, 0, 0] := synaptic_mean h
  rw [hmean] at hlaw
  refine ⟨_, fun ω => hypo_first la (R ω) key Synaptic.x0 _ _ h hN, ⟨_, hlaw⟩, ?_, fun hle i => ?_⟩
  · rw [hlaw.cov, h00]
  · rw [hlaw.mean, Pi.add_apply, add_sub_cancel_left]
    exact synaptic_tol hh hle i

/-- C140, `test_synaptic_conductance` for the diagonal scheme on the full problem, whose diffusion matrix has a zero diagonal: the same holds. -/
theorem C140_synaptic_diag {la : LinAlg} (hla : la.Correct) {Ω : Type*} [MeasurableSpace Ω] {P : Measure Ω} {R : Ω → Rng} (hR : IdealNormals P R) (key : Key)
    {h : ℝ} (hh : 0 < h) {N : ℕ} (hN : 0 < N) : ∃ y : Ω → Vec 3,
      (∀ ω, ∃ ts xs, Diag15.solver la (R ω) key Synaptic.x0 Synaptic.drift Synaptic.sigma h N = .ok (ts, xs) ∧ xs[1]? = some (y ω)) ∧
      (∃ C, IsNormal P y (Synaptic.mean2 h + ![27.3 * h ^ 2, 0, 0]) C) ∧
      cov[fun ω => y ω 0, fun ω => y ω 0; P] = Synaptic.var3 h ∧
      (h ≤ 1 / 100 → ∀ i, |∫ ω, y ω i ∂P - Synaptic.mean2 h i| < 15 / 1000) := by
  have hS : ∀ j k, j ≠ k → ∑ l, Synaptic.sigma Synaptic.x0 j l * Synaptic.sigma Synaptic.x0 k l = 0 := fun j k hjk => by
    have h1 : ∑ l, Synaptic.sigma Synaptic.x0 j l * Synaptic.sigma Synaptic.x0 k l = (Synaptic.sigma Synaptic.x0 * (Synaptic.sigma Synaptic.x0)ᵀ) j k := rfl
    rw [h1, Synaptic.square, diagonal_apply_ne _ hjk]
  have hlaw := diag15_first_law hla hR (key.child N 0) Synaptic.smooth (σ := Synaptic.sigma) (c := 0) (fun z i => by
    fin_cases i <;> rfl) (x := Synaptic.x0) hS hh
  rw [synaptic_mean, Synaptic.square] at hlaw
  have h00 : cov15 (jac Synaptic.drift Synaptic.x0) (diagonal ![0, 1 / 10, 1 / 10]) h 0 0 = Synaptic.var3 h := by
    have e1 : jac Synaptic.drift Synaptic.x0 0 1 = 3 := Synaptic.grad.1
    have e2 : jac Synaptic.drift Synaptic.x0 0 2 = -1 := Synaptic.grad.2
    obtain ⟨J, hJ⟩ : ∃ J, J = jac Synaptic.drift Synaptic.x0 := ⟨_, rfl⟩
    rw [← hJ] at e1 e2 ⊢
    have e3 : ∀ D : Mat 3 3, cov15 J D h 0 0 = h * D 0 0 + (h ^ 2 / 2) * ((J * D : Mat 3 3) 0 0 + (D * Jᵀ : Mat 3 3) 0 0) + (h ^ 3 / 3) * (J * D * Jᵀ : Mat 3 3) 0 0 := fun D => rfl
    rw [e3, mul_apply (M := J * _)]
    simp only [mul_diagonal, diagonal_mul, Fin.sum_univ_three, transpose_apply, e1, e2, diagonal_apply_eq]
    simp [Synaptic.var3, Synaptic.C, Synaptic.x0, Synaptic.VE, Synaptic.VI, Synaptic.sigIE]
    ring
  refine ⟨_, fun ω => diag_first la (R ω) key Synaptic.x0 _ _ h hN, ⟨_, hlaw⟩, ?_, fun hle i => ?_⟩
  · rw [hlaw.cov, h00]
  · rw [hlaw.mean, Pi.add_apply, add_sub_cancel_left]
    exact synaptic_tol hh hle i

/-- C140, `test_synaptic_conductance` for the diagonal scheme on the reduced problem: the mean of the first state is the asserted one plus
`h / (24000 √10)` in both components, the bias of C61, far below the tolerance of the test. -/
theorem C140_synaptic_reduced {la : LinAlg} (hla : la.Correct) {Ω : Type*} [MeasurableSpace Ω] {P : Measure Ω} {R : Ω → Rng} (hR : IdealNormals P R) (key : Key)
    {h : ℝ} (hh : 0 < h) {N : ℕ} (hN : 0 < N) : ∃ y : Ω → Vec 2,
      (∀ ω, ∃ ts xs, Diag15.solver la (R ω) key SynReduced.x0 SynReduced.drift SynReduced.sigma h N = .ok (ts, xs) ∧ xs[1]? = some (y ω)) ∧
      (∀ i, Integrable (fun ω => y ω i) P ∧ ∫ ω, y ω i ∂P = SynReduced.mean2 h i + h / (24000 * Real.sqrt 10)) ∧
      (h ≤ 1 → ∀ i, |∫ ω, y ω i ∂P - SynReduced.mean2 h i| < 15 / 1000) := by
  have hS : ∀ j k, j ≠ k → ∑ l, SynReduced.sigma SynReduced.x0 j l * SynReduced.sigma SynReduced.x0 k l = 0 := fun j k hjk => by
    fin_cases j <;> fin_cases k <;> simp_all [SynReduced.sigma, Fin.sum_univ_two]
  have hm : ∀ i, Integrable (fun ω => (Diag15.body la (R ω) SynReduced.drift SynReduced.sigma h SynReduced.x0 (key.child N 0)).1 i) P ∧
      ∫ ω, (Diag15.body la (R ω) SynReduced.drift SynReduced.sigma h SynReduced.x0 (key.child N 0)).1 i ∂P = SynReduced.mean2 h i + h / (24000 * Real.sqrt 10) := fun i => by
    obtain ⟨h1, h2⟩ := C61_mean hla hR (key.child N 0) hh SynReduced.drift SynReduced.sigma SynReduced.x0 i
    refine ⟨h1, ?_⟩
    rw [h2, diag15_mean_terms SynReduced.smooth hS, SynReduced.bias, C67_reduced_partial.2.2 h]
    have : Real.sqrt 10 ≠ 0 := by positivity
    push_cast
    field_simp
    ring
  refine ⟨_, fun ω => diag_first la (R ω) key SynReduced.x0 _ _ h hN, hm, fun hle i => ?_⟩
  rw [(hm i).2, add_sub_cancel_left, abs_of_pos (by positivity), div_lt_iff₀ (by positivity)]
  have h1 : (1 : ℝ) ≤ Real.sqrt 10 := by
    rw [Real.one_le_sqrt]; norm_num
  linarith

/-- C140, the generator exists. -/
example {la : LinAlg} (hla : la.Correct) (key : Key) : ∃ y : _ → Vec 2,
    (∀ ω, (Hypo15.solver la (drawsRng ω) key Fhn.x0 (fun x => Fhn.drift x 0) (fun x => Fhn.sigmaSquare x 0) (1 / 1000) 10000).2[1]? = some (y ω)) ∧
      ∫ ω, y ω 0 ∂drawsMeasure = Fhn.mean2 (1 / 1000) 0 - 8 / 1000000 := by
  obtain ⟨y, h1, h2, -⟩ := C140_fhn hla idealNormals_drawsRng key (h := 1 / 1000) (by norm_num) (N := 10000) (by norm_num)
  refine ⟨y, h1, ?_⟩
  rw [h2.mean]
  simp
  norm_num

end Verif
