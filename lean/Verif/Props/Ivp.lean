import Verif.Lemmas.Ivp
import Verif.Lemmas.Gaussian
import Verif.Lemmas.Foster
import Verif.Lemmas.Trapezoid
import Verif.Props.Prior

/-! # C64–C68, C70–C73: the reference problems of `utils/ivp.py` -/

namespace Verif

open Matrix Spec MeasureTheory ProbabilityTheory Ivp

/-! ## C64: integrated Brownian motion -/

/-- C64: the variance returned by `ibm` solves the variance equation of the drift and diffusion returned with it, and is hence the
variance of the solution; the drift is linear and the diffusion constant. -/
theorem C64_ibm : ∃ F : Mat 2 2, (∀ x t, Ibm.drift x t = F *ᵥ x) ∧ (∀ x y s t, Ibm.sigma x s = Ibm.sigma y t) ∧
    (∀ x t, Ibm.sigmaSquare x t * (Ibm.sigmaSquare x t)ᵀ = Ibm.sigma x t * (Ibm.sigma x t)ᵀ) ∧
    SolvesVarianceODE F (Ibm.sigma 0 0) Ibm.var ∧ ∀ t, Ibm.var t = transitionCov F (Ibm.sigma 0 0) t := by
  have h : SolvesVarianceODE !![0, 1; 0, 0] (Ibm.sigma 0 0) Ibm.var := by
    refine ⟨?_, fun t i j => ?_⟩
    · ext i j; fin_cases i <;> fin_cases j <;> simp [Ibm.var]
    · have h3 := (hasDerivAt_pow 3 t).div_const 3
      have h2 := (hasDerivAt_pow 2 t).div_const 2
      have h1 := hasDerivAt_id t
      norm_num at h3 h2
      simp only [Matrix.add_apply, Matrix.mul_apply, transpose_apply, Fin.sum_univ_two, Fin.sum_univ_one]
      fin_cases i <;> fin_cases j <;> simp [Ibm.var, Ibm.sigma]
      · exact h3.congr_deriv (by first | rfl | (simp; done) | ring | (simp [vecHead, vecTail]; ring))
      · exact h2
      · exact h2
      · exact h1
  refine ⟨_, fun _ _ => rfl, fun _ _ _ _ => rfl, fun x t => ?_, h, varianceODE_unique h⟩
  ext i j
  simp only [Matrix.mul_apply, transpose_apply, Fin.sum_univ_two, Fin.sum_univ_one]
  fin_cases i <;> fin_cases j <;> simp [Ibm.sigma, Ibm.sigmaSquare]

/-- C64 for `double_ibm`. -/
theorem C64_double_ibm : ∃ F : Mat 3 3, (∀ x t, DoubleIbm.drift x t = F *ᵥ x) ∧
    (∀ x y s t, DoubleIbm.sigma x s = DoubleIbm.sigma y t) ∧
    SolvesVarianceODE F (DoubleIbm.sigma 0 0) DoubleIbm.var ∧
    ∀ t, DoubleIbm.var t = transitionCov F (DoubleIbm.sigma 0 0) t := by
  have h : SolvesVarianceODE !![0, 1, 0; 0, 0, 1; 0, 0, 0] (DoubleIbm.sigma 0 0) DoubleIbm.var := by
    refine ⟨?_, fun t i j => ?_⟩
    · ext i j; fin_cases i <;> fin_cases j <;> simp [DoubleIbm.var]
    · have h5 := (hasDerivAt_pow 5 t).div_const 20
      have h4 := (hasDerivAt_pow 4 t).div_const 8
      have h3 := (hasDerivAt_pow 3 t).div_const 3
      have h3' := (hasDerivAt_pow 3 t).div_const 6
      have h2 := (hasDerivAt_pow 2 t).div_const 2
      have h1 := hasDerivAt_id t
      norm_num at h5 h4 h3 h3' h2
      simp only [Matrix.add_apply, Matrix.mul_apply, transpose_apply, Fin.sum_univ_three, Fin.sum_univ_one]
      fin_cases i <;> fin_cases j <;> simp [DoubleIbm.var, DoubleIbm.sigma]
      · exact h5.congr_deriv (by first | rfl | (simp; done) | ring | (simp [vecHead, vecTail]; ring))
      · exact h4.congr_deriv (by first | rfl | (simp; done) | ring | (simp [vecHead, vecTail]; ring))
      · exact h3'.congr_deriv (by first | rfl | (simp; done) | ring | (simp [vecHead, vecTail]; ring))
      · exact h4.congr_deriv (by first | rfl | (simp; done) | ring | (simp [vecHead, vecTail]; ring))
      · exact h3.congr_deriv (by first | rfl | (simp; done) | ring | (simp [vecHead, vecTail]; ring))
      · exact h2
      · exact h3'.congr_deriv (by first | rfl | (simp; done) | ring | (simp [vecHead, vecTail]; ring))
      · exact h2
      · exact h1
  exact ⟨_, fun _ _ => rfl, fun _ _ _ _ => rfl, h, varianceODE_unique h⟩

/-- The variances are those of the q-times integrated Brownian motion prior. -/
theorem C64_prior (t : ℝ) : Ibm.var t = IOUP.Q1 1 1 t ∧ DoubleIbm.var t = IOUP.Q1 1 2 t := by
  constructor
  · ext i j; fin_cases i <;> fin_cases j <;> norm_num [Ibm.var, IOUP.Q1] <;> ring
  · ext i j; fin_cases i <;> fin_cases j <;> norm_num [DoubleIbm.var, IOUP.Q1, Nat.factorial] <;> ring

example : Ibm.var 2 0 0 = 8 / 3 ∧ DoubleIbm.var 2 0 2 = 8 / 6 := by
  constructor <;> simp [Ibm.var, DoubleIbm.var] <;> norm_num

/-! ## C65: harmonic oscillator -/

/-- C65: `theoretical_mean` solves the drift equation from the initial state. -/
theorem C65_mean (D gamma : ℝ) : SolvesODE (Harmonic.drift D gamma) Harmonic.x0 (Harmonic.mean D gamma) := by
  refine ⟨?_, fun t i => ?_⟩
  · rw [Harmonic.mean, expm_zero_smul, one_mulVec]
  · simp only [Harmonic.drift, Harmonic.mean, mulVec_mulVec]
    simp only [mulVec, dotProduct]
    exact HasDerivAt.fun_sum fun k _ => (expm_hasDerivAt _ t i k).mul_const _

/-- C65: `theoretical_variance_up_to_order3` and the solution of the variance equation have the same derivatives of order at most
three at zero. -/
theorem C65_variance (D gamma sig : ℝ) : ∃ V : ℝ → Mat 2 2,
    SolvesVarianceODE (Harmonic.M D gamma) (Harmonic.C sig) V ∧
    SolvesVarianceODE (Harmonic.M D gamma) (Harmonic.Csquare sig) V ∧
    ∀ k ≤ 3, ∀ i j, iteratedDeriv k (fun t => Harmonic.var3 D gamma sig t i j) 0 = iteratedDeriv k (fun t => V t i j) 0 := by
  have hCC : Harmonic.Csquare sig * (Harmonic.Csquare sig)ᵀ = Harmonic.C sig * (Harmonic.C sig)ᵀ := by
    ext i j
    simp only [Matrix.mul_apply, transpose_apply, Fin.sum_univ_two, Fin.sum_univ_one]
    fin_cases i <;> fin_cases j <;> simp [Harmonic.C, Harmonic.Csquare]
  refine ⟨transitionCov (Harmonic.M D gamma) (Harmonic.C sig), transitionCov_solves _ _, ?_, fun k hk i j => ?_⟩
  · have := transitionCov_solves (Harmonic.M D gamma) (Harmonic.C sig)
    rwa [SolvesVarianceODE, ← hCC] at this
  · obtain ⟨v0, v1, v2, v3⟩ := iteratedDeriv_transitionCov_zero (Harmonic.M D gamma) (Harmonic.C sig) i j
    have key : ∀ a b c : ℝ, (∀ t, Harmonic.var3 D gamma sig t i j = a * t + b * t ^ 2 + c * t ^ 3) →
        a = (Harmonic.C sig * (Harmonic.C sig)ᵀ) i j →
        2 * b = (Harmonic.M D gamma * (Harmonic.C sig * (Harmonic.C sig)ᵀ) +
          Harmonic.C sig * (Harmonic.C sig)ᵀ * (Harmonic.M D gamma)ᵀ) i j →
        6 * c = (Harmonic.M D gamma * (Harmonic.M D gamma * (Harmonic.C sig * (Harmonic.C sig)ᵀ) +
            Harmonic.C sig * (Harmonic.C sig)ᵀ * (Harmonic.M D gamma)ᵀ) +
          (Harmonic.M D gamma * (Harmonic.C sig * (Harmonic.C sig)ᵀ) +
            Harmonic.C sig * (Harmonic.C sig)ᵀ * (Harmonic.M D gamma)ᵀ) * (Harmonic.M D gamma)ᵀ) i j →
        iteratedDeriv k (fun t => Harmonic.var3 D gamma sig t i j) 0 =
          iteratedDeriv k (fun t => transitionCov (Harmonic.M D gamma) (Harmonic.C sig) t i j) 0 := by
      intro a b c hp ha hb hc
      rw [show (fun t => Harmonic.var3 D gamma sig t i j) = fun t => a * t + b * t ^ 2 + c * t ^ 3 from funext hp]
      obtain ⟨p0, p1, p2, p3⟩ := iteratedDeriv_cubic_zero a b c
      interval_cases k
      · rw [p0, v0]
      · rw [p1, v1, ha]
      · rw [p2, v2, hb]
      · rw [p3, v3, hc]
    clear v0 v1 v2 v3
    simp only [Matrix.add_apply, Matrix.mul_apply, transpose_apply, Fin.sum_univ_two, Fin.sum_univ_one] at key
    fin_cases i <;> fin_cases j
    · refine key 0 0 (sig ^ 2 / 3) (fun t => ?_) ?_ ?_ ?_ <;>
        simp [Harmonic.var3, Harmonic.C, Harmonic.M, Matrix.mul_apply, Fin.sum_univ_two] <;> ring
    · refine key 0 (sig ^ 2 / 2) (-(sig ^ 2 * gamma / 2)) (fun t => ?_) ?_ ?_ ?_ <;>
        simp [Harmonic.var3, Harmonic.C, Harmonic.M, Matrix.mul_apply, Fin.sum_univ_two] <;> ring
    · refine key 0 (sig ^ 2 / 2) (-(sig ^ 2 * gamma / 2)) (fun t => ?_) ?_ ?_ ?_ <;>
        simp [Harmonic.var3, Harmonic.C, Harmonic.M, Matrix.mul_apply, Fin.sum_univ_two] <;> ring
    · refine key (sig ^ 2) (-(sig ^ 2 * gamma)) (sig ^ 2 * (2 * gamma ^ 2 - D) / 3) (fun t => ?_) ?_ ?_ ?_ <;>
        simp [Harmonic.var3, Harmonic.C, Harmonic.M, Matrix.mul_apply, Fin.sum_univ_two] <;> ring

/-! ## C66: FitzHugh-Nagumo -/

theorem Ivp.Fhn.generator : driftGenerator (fun x => Fhn.drift x 0) (Fhn.sigma Fhn.x0 0) Fhn.x0 = ![-8, -0.8] := by
  have hb : ContDiff ℝ 2 fun x => Fhn.drift x 0 := by
    rw [contDiff_pi]
    intro i
    fin_cases i <;> simp [Fhn.drift, vecHead, vecTail] <;> fun_prop
  rw [driftGenerator_of_affine hb]
  · refine fderiv_of_line (hb.differentiable (by norm_num)) fun i => ?_
    have hi : i = 0 ∨ i = 1 := by fin_cases i <;> simp
    rcases hi with rfl | rfl
    · refine hasDerivAt_of_quadratic 0 _ 0 fun s => ?_
      simp [Fhn.drift, Fhn.x0, Fhn.alpha, Fhn.eps, Fhn.gamma, Fhn.s]
      norm_num [mul_comm, mul_assoc]
    · refine hasDerivAt_of_quadratic 0.8 _ 0 fun s => ?_
      simp [Fhn.drift, Fhn.x0, Fhn.alpha, Fhn.eps, Fhn.gamma, Fhn.s]
      ring
  · intro j k hjk
    fin_cases j <;> fin_cases k <;> simp_all [Fhn.sigma]
  · intro j
    have hj : j = 0 ∨ j = 1 := by fin_cases j <;> simp
    rcases hj with rfl | rfl
    · left; simp [Fhn.sigma]
    · right
      refine ⟨![-1 / Fhn.eps, -1], fun s => ?_⟩
      ext i
      fin_cases i <;> simp [Fhn.drift, Fhn.x0] <;> ring

/-- C66 fails: the first component of the reference mean differs from the second-order expansion by `8 t²`. -/
theorem C66_fails (t : ℝ) : Fhn.mean2 t 0 = meanExpansion (fun x => Fhn.drift x 0) (fun x => Fhn.sigma x 0) Fhn.x0 t 0 + 8 * t ^ 2 ∧
    (t ≠ 0 → Fhn.mean2 t 0 ≠ meanExpansion (fun x => Fhn.drift x 0) (fun x => Fhn.sigma x 0) Fhn.x0 t 0) := by
  have h : Fhn.mean2 t 0 = meanExpansion (fun x => Fhn.drift x 0) (fun x => Fhn.sigma x 0) Fhn.x0 t 0 + 8 * t ^ 2 := by
    simp only [meanExpansion, Fhn.generator]
    simp [Fhn.mean2, Fhn.drift, Fhn.x0, Fhn.alpha, Fhn.eps, Fhn.gamma, Fhn.s]
    ring
  refine ⟨h, fun ht he => ?_⟩
  rw [h] at he
  have : 0 < t ^ 2 := by positivity
  linarith

/-- C66, the part that holds: the second component is the second-order expansion, and the first agrees to first order. -/
theorem C66_partial (t : ℝ) :
    Fhn.mean2 t 1 = meanExpansion (fun x => Fhn.drift x 0) (fun x => Fhn.sigma x 0) Fhn.x0 t 1 ∧
    Fhn.mean2 0 = Fhn.x0 ∧ ∀ i, HasDerivAt (fun s => Fhn.mean2 s i) (Fhn.drift Fhn.x0 0 i) 0 := by
  refine ⟨?_, ?_, fun i => ?_⟩
  · simp only [meanExpansion, Fhn.generator]
    simp [Fhn.mean2, Fhn.drift, Fhn.x0, Fhn.alpha, Fhn.eps, Fhn.gamma, Fhn.s]
    ring
  · simp [Fhn.mean2]
  · have hi : i = 0 ∨ i = 1 := by fin_cases i <;> simp
    rcases hi with rfl | rfl
    · refine hasDerivAt_of_quadratic 0 _ 4 fun s => ?_
      simp [Fhn.mean2, Fhn.drift, Fhn.x0, Fhn.alpha, Fhn.eps, Fhn.gamma, Fhn.s]
      ring
    · refine hasDerivAt_of_quadratic 0 _ (-0.4) fun s => ?_
      simp [Fhn.mean2, Fhn.drift, Fhn.x0, Fhn.alpha, Fhn.eps, Fhn.gamma, Fhn.s]
      ring

/-! ## C67: synaptic conductances -/

/-- C67 fails for the reduced problem: no component of drift or diffusion depends on the first conductance, while the first
component of the drift changes with the second conductance. -/
theorem C67_reduced_fails :
    (∀ x y : Vec 2, x 1 = y 1 → SynReduced.drift x = SynReduced.drift y ∧ SynReduced.sigma x = SynReduced.sigma y) ∧
    (∀ x y : Vec 2, x 1 ≠ y 1 → SynReduced.drift x 0 ≠ SynReduced.drift y 0) := by
  constructor
  · intro x y h
    simp [SynReduced.drift, SynReduced.sigma, SynReduced.get2, h]
  · intro x y h he
    simp [SynReduced.drift, SynReduced.get2, SynReduced.tauE] at he
    exact he.elim h (by norm_num)

/-- C67, the part that holds for the reduced problem: the second component depends on its own conductance, injectively, and the
initial state hides the wrong reads, both conductances being equal there. -/
theorem C67_reduced_partial :
    (∀ x y : Vec 2, x 1 ≠ y 1 → SynReduced.drift x 1 ≠ SynReduced.drift y 1) ∧
    SynReduced.drift SynReduced.x0 = ![-1 / SynReduced.tauE * (SynReduced.x0 0 - SynReduced.gbarE),
      -1 / SynReduced.tauI * (SynReduced.x0 1 - SynReduced.gbarI)] ∧
    ∀ t, SynReduced.mean2 t = meanExpansion SynReduced.drift SynReduced.sigma SynReduced.x0 t := by
  have hb : ContDiff ℝ 2 SynReduced.drift := by
    rw [contDiff_pi]
    intro i
    fin_cases i <;> simp [SynReduced.drift, SynReduced.get2] <;> fun_prop
  refine ⟨?_, ?_, fun t => ?_⟩
  · intro x y h he
    simp [SynReduced.drift, SynReduced.get2, SynReduced.tauI] at he
    exact h he
  · simp [SynReduced.drift, SynReduced.get2, SynReduced.x0]
  · rw [meanExpansion, driftGenerator_of_affine hb, fderiv_of_line (hb.differentiable (by norm_num))
      (w := ![-1 / SynReduced.tauE * SynReduced.drift SynReduced.x0 1, -1 / SynReduced.tauI * SynReduced.drift SynReduced.x0 1])]
    · rfl
    · intro i
      have hi : i = 0 ∨ i = 1 := by fin_cases i <;> simp
      rcases hi with rfl | rfl
      · refine hasDerivAt_of_quadratic (SynReduced.drift SynReduced.x0 0) _ 0 fun s => ?_
        simp [SynReduced.drift, SynReduced.get2]
        ring
      · refine hasDerivAt_of_quadratic (SynReduced.drift SynReduced.x0 1) _ 0 fun s => ?_
        simp [SynReduced.drift, SynReduced.get2]
        ring
    · intro j k hjk
      fin_cases j <;> fin_cases k <;> simp_all [SynReduced.sigma]
    · intro j
      right
      have hj : j = 0 ∨ j = 1 := by fin_cases j <;> simp
      rcases hj with rfl | rfl
      · refine ⟨0, fun s => ?_⟩
        simp [SynReduced.drift, SynReduced.get2]
      · refine ⟨![-1 / SynReduced.tauE, -1 / SynReduced.tauI], fun s => ?_⟩
        ext i
        fin_cases i <;> simp [SynReduced.drift, SynReduced.get2] <;> ring

theorem Ivp.Synaptic.generator : driftGenerator Synaptic.drift (Synaptic.sigma Synaptic.x0) Synaptic.x0 =
    ![-1 / Synaptic.C * (Synaptic.drift Synaptic.x0 0 * (Synaptic.gLeak + Synaptic.x0 1 + Synaptic.x0 2) +
        Synaptic.drift Synaptic.x0 1 * (Synaptic.x0 0 - Synaptic.VE) + Synaptic.drift Synaptic.x0 2 * (Synaptic.x0 0 - Synaptic.VI)),
      -1 / Synaptic.tauE * Synaptic.drift Synaptic.x0 1, -1 / Synaptic.tauI * Synaptic.drift Synaptic.x0 2] := by
  have hb : ContDiff ℝ 2 Synaptic.drift := by
    rw [contDiff_pi]
    intro i
    fin_cases i <;> simp [Synaptic.drift] <;> fun_prop
  rw [driftGenerator_of_affine hb]
  · refine fderiv_of_line (hb.differentiable (by norm_num)) fun i => ?_
    have hi : i = 0 ∨ i = 1 ∨ i = 2 := by fin_cases i <;> simp
    set v := Synaptic.drift Synaptic.x0 with hv
    clear_value v
    rcases hi with rfl | rfl | rfl
    · refine hasDerivAt_of_quadratic (v 0) _ (-1 / Synaptic.C * ((v 1 + v 2) * v 0)) fun s => ?_
      rw [hv]
      simp [Synaptic.drift]
      ring
    · refine hasDerivAt_of_quadratic (v 1) _ 0 fun s => ?_
      rw [hv]
      simp [Synaptic.drift]
      ring
    · refine hasDerivAt_of_quadratic (v 2) _ 0 fun s => ?_
      rw [hv]
      simp [Synaptic.drift]
      ring
  · intro j k hjk
    fin_cases j <;> fin_cases k <;> simp_all [Synaptic.sigma, Fin.sum_univ_three]
  · intro j
    have hj : j = 0 ∨ j = 1 ∨ j = 2 := by fin_cases j <;> simp
    rcases hj with rfl | rfl | rfl
    · left; simp [Synaptic.sigma, Fin.sum_univ_three]
    · right
      refine ⟨![-1 / Synaptic.C * (Synaptic.x0 0 - Synaptic.VE), -1 / Synaptic.tauE, 0], fun s => ?_⟩
      ext i
      fin_cases i <;> simp [Synaptic.drift] <;> ring
    · right
      refine ⟨![-1 / Synaptic.C * (Synaptic.x0 0 - Synaptic.VI), 0, -1 / Synaptic.tauI], fun s => ?_⟩
      ext i
      fin_cases i <;> simp [Synaptic.drift] <;> ring

/-- C67 fails for the full problem: the first component of the reference mean is off by `-27.3 t²`. -/
theorem C67_full_fails (t : ℝ) :
    Synaptic.mean2 t 0 = meanExpansion Synaptic.drift Synaptic.sigma Synaptic.x0 t 0 - 27.3 * t ^ 2 ∧
    (t ≠ 0 → Synaptic.mean2 t 0 ≠ meanExpansion Synaptic.drift Synaptic.sigma Synaptic.x0 t 0) := by
  have h : Synaptic.mean2 t 0 = meanExpansion Synaptic.drift Synaptic.sigma Synaptic.x0 t 0 - 27.3 * t ^ 2 := by
    simp only [meanExpansion, Synaptic.generator]
    simp [Synaptic.mean2, Synaptic.drift, Synaptic.x0, Synaptic.VE, Synaptic.C, Synaptic.tauE, Synaptic.gbarE]
    ring
  refine ⟨h, fun ht he => ?_⟩
  rw [h] at he
  have : 0 < t ^ 2 := by positivity
  linarith

/-- C67, the part that holds for the full problem: the conductance components of the reference mean are the second-order
expansion, and each of these components of the drift depends exactly on its own conductance. -/
theorem C67_full_partial :
    (∀ t, ∀ i ≠ 0, Synaptic.mean2 t i = meanExpansion Synaptic.drift Synaptic.sigma Synaptic.x0 t i) ∧
    (∀ x y : Vec 3, (Synaptic.drift x 1 = Synaptic.drift y 1 ↔ x 1 = y 1) ∧
      (Synaptic.drift x 2 = Synaptic.drift y 2 ↔ x 2 = y 2)) ∧
    (∀ x y : Vec 3, (∀ i, i ≠ 0 → x i = y i) → Synaptic.sigma x = Synaptic.sigma y) := by
  refine ⟨fun t i hi => ?_, fun x y => ⟨?_, ?_⟩, fun x y h => ?_⟩
  · have hi : i = 1 ∨ i = 2 := by fin_cases i <;> simp_all
    simp only [meanExpansion, Synaptic.generator]
    rcases hi with rfl | rfl <;> simp [Synaptic.mean2]
  · norm_num [Synaptic.drift, Synaptic.tauE]
  · simp [Synaptic.drift, Synaptic.tauI]
  · simp [Synaptic.sigma, h 1 (by simp), h 2 (by simp)]

/-! ## C68: random linear problem -/

/-- C68 fails: the two matrices are equal whatever the generator and the key, so with independent standard normal numbers they
are not independent. -/
theorem C68_fails {Ω : Type*} [MeasurableSpace Ω] {P : Measure Ω} {R : Ω → Rng} (hR : IdealNormals P R) (key : Key) {dim : ℕ}
    (hd : 0 < dim) :
    (∀ rng : Rng, RandomLinear.driftMatrix rng key dim = RandomLinear.sigmaMatrix rng key dim) ∧
    ¬ IndepFun (fun ω => RandomLinear.driftMatrix (R ω) key dim ⟨0, hd⟩ ⟨0, hd⟩)
      (fun ω => RandomLinear.sigmaMatrix (R ω) key dim ⟨0, hd⟩ ⟨0, hd⟩) P := by
  refine ⟨fun _ => rfl, fun h => ?_⟩
  have hl := hR.law_mat key (⟨0, hd⟩ : Fin dim) (⟨0, hd⟩ : Fin dim)
  have hm : MemLp (fun ω => (R ω).normalMat key dim dim ⟨0, hd⟩ ⟨0, hd⟩) 2 P := by
    have h2 : MemLp id 2 (gaussianReal 0 1) := memLp_id_gaussianReal 2
    rw [← hl.map_eq] at h2
    exact h2.comp_of_map hl.aemeasurable
  have hc := h.covariance_eq_zero hm hm
  change covariance (fun ω => (R ω).normalMat key dim dim ⟨0, hd⟩ ⟨0, hd⟩)
    (fun ω => (R ω).normalMat key dim dim ⟨0, hd⟩ ⟨0, hd⟩) P = 0 at hc
  rw [covariance_self hl.aemeasurable, hl.variance_eq, variance_id_gaussianReal] at hc
  simp at hc

/-- C68, the part that holds: each of the two matrices has independent standard normal entries. -/
theorem C68_partial {Ω : Type*} [MeasurableSpace Ω] {P : Measure Ω} {R : Ω → Rng} (hR : IdealNormals P R) (key : Key) (dim : ℕ) :
    (∀ i j, HasLaw (fun ω => RandomLinear.driftMatrix (R ω) key dim i j) (gaussianReal 0 1) P ∧
      HasLaw (fun ω => RandomLinear.sigmaMatrix (R ω) key dim i j) (gaussianReal 0 1) P) ∧
    iIndepFun (fun (p : Fin dim × Fin dim) ω => RandomLinear.driftMatrix (R ω) key dim p.1 p.2) P ∧
    iIndepFun (fun (p : Fin dim × Fin dim) ω => RandomLinear.sigmaMatrix (R ω) key dim p.1 p.2) P := by
  have hi := hR.indep_mats (ι := Unit) (fun _ => key) (fun a b h => (h (Subsingleton.elim a b)).elim) dim dim
  have hi' := hi.precomp (g := fun p : Fin dim × Fin dim => ((), p)) (by intro a b h; simpa using h)
  exact ⟨fun i j => ⟨hR.law_mat key i j, hR.law_mat key i j⟩, hi', hi'⟩

example : IdealNormals drawsMeasure drawsRng := idealNormals_drawsRng

/-! ## C70: geometric Brownian motion -/

/-- Two solutions of `y' = c y + f(t)` with the same value at zero are equal. -/
theorem linear_ode_unique {c : ℝ} {f y z : ℝ → ℝ} (hy : ∀ t, HasDerivAt y (c * y t + f t) t)
    (hz : ∀ t, HasDerivAt z (c * z t + f t) t) (h0 : y 0 = z 0) : y = z := by
  have hd : ∀ t, HasDerivAt (fun t => Real.exp (-c * t) * (y t - z t)) 0 t := by
    intro t
    have h1 : HasDerivAt (fun t : ℝ => Real.exp (-c * t)) (Real.exp (-c * t) * (-c * 1)) t :=
      ((hasDerivAt_id t).const_mul (-c)).exp
    refine (h1.mul ((hy t).sub (hz t))).congr_deriv ?_
    simp only [Pi.sub_apply]
    ring
  funext t
  have := is_const_of_deriv_eq_zero (fun s => (hd s).differentiableAt) (fun s => (hd s).deriv) t 0
  simp only [h0, sub_self, mul_zero, mul_eq_zero, Real.exp_ne_zero, false_or] at this
  linarith

/-- C70: the mean and the variance returned by `gbm` solve the moment equations of the problem returned with them. -/
theorem C70_gbm : ∃ a b : ℝ, (∀ x t, Gbm.drift x t 0 = a * x 0) ∧ (∀ x t, Gbm.sigma x t 0 0 = b * x 0) ∧
    Gbm.mean 0 = Gbm.x0 ∧ (∀ t, HasDerivAt (fun s => Gbm.mean s 0) (a * Gbm.mean t 0) t) ∧
    Gbm.variance 0 = 0 ∧
    (∀ t, HasDerivAt (fun s => Gbm.variance s 0) ((2 * a + b ^ 2) * Gbm.variance t 0 + b ^ 2 * Gbm.mean t 0 ^ 2) t) ∧
    (∀ m v : ℝ → ℝ, m 0 = Gbm.x0 0 → (∀ t, HasDerivAt m (a * m t) t) → v 0 = 0 →
      (∀ t, HasDerivAt v ((2 * a + b ^ 2) * v t + b ^ 2 * m t ^ 2) t) →
      ∀ t, Gbm.mean t 0 = m t ∧ Gbm.variance t 0 = v t) := by
  have hm : ∀ t, HasDerivAt (fun s => Gbm.mean s 0) (Gbm.a * Gbm.mean t 0) t := by
    intro t
    have h1 : HasDerivAt (fun t : ℝ => Real.exp (Gbm.a * t)) (Real.exp (Gbm.a * t) * (Gbm.a * 1)) t :=
      ((hasDerivAt_id t).const_mul Gbm.a).exp
    simp only [Gbm.mean, Gbm.x0, Pi.smul_apply, Pi.one_apply, smul_eq_mul, mul_one]
    exact h1.congr_deriv (by ring)
  have hv : ∀ t, HasDerivAt (fun s => Gbm.variance s 0)
      ((2 * Gbm.a + Gbm.b ^ 2) * Gbm.variance t 0 + Gbm.b ^ 2 * Gbm.mean t 0 ^ 2) t := by
    intro t
    have h1 : HasDerivAt (fun t : ℝ => Real.exp (Gbm.b ^ 2 * t) - 1) (Real.exp (Gbm.b ^ 2 * t) * (Gbm.b ^ 2 * 1)) t :=
      (((hasDerivAt_id t).const_mul (Gbm.b ^ 2)).exp).sub_const 1
    have h2 : HasDerivAt (fun t : ℝ => Real.exp (2 * Gbm.a * t)) (Real.exp (2 * Gbm.a * t) * (2 * Gbm.a * 1)) t :=
      ((hasDerivAt_id t).const_mul (2 * Gbm.a)).exp
    simp only [Gbm.mean, Gbm.variance, Gbm.x0, Pi.smul_apply, Pi.pow_apply, Pi.one_apply, smul_eq_mul, one_pow, mul_one]
    refine (h1.mul h2).congr_deriv ?_
    have h3 : Real.exp (Gbm.a * t) ^ 2 = Real.exp (2 * Gbm.a * t) := by
      rw [← Real.exp_nat_mul]; congr 1; push_cast; ring
    rw [h3]
    ring
  have hm0 : Gbm.mean 0 = Gbm.x0 := by simp [Gbm.mean]
  have hv0 : Gbm.variance 0 = 0 := by simp [Gbm.variance]
  refine ⟨Gbm.a, Gbm.b, fun x t => by simp [Gbm.drift], fun x t => by simp [Gbm.sigma], hm0, hm, hv0, hv,
    fun m v h0 h1 h2 h3 t => ?_⟩
  have e1 : (fun s => Gbm.mean s 0) = m := linear_ode_unique (c := Gbm.a) (f := fun _ => 0) (fun t => by simpa using hm t)
    (fun t => by simpa using h1 t) (by rw [hm0, h0])
  have e2 : (fun s => Gbm.variance s 0) = v := by
    refine linear_ode_unique hv (fun t => ?_) (by rw [hv0, h2]; rfl)
    have : Gbm.mean t 0 = m t := congrFun e1 t
    rw [this]
    exact h3 t
  exact ⟨congrFun e1 t, congrFun e2 t⟩

example : Gbm.mean 1 0 = Real.exp 1 := by simp [Gbm.mean, Gbm.a, Gbm.x0]

/-! ## C71, C72: reference variances of the nonlinear problems -/

/-- The linearisation of the FitzHugh-Nagumo drift at the initial state. -/
theorem Ivp.Fhn.linearisation (v : Vec 2) :
    !![1 / Fhn.eps, -1 / Fhn.eps; Fhn.gamma, -1] *ᵥ v = fderiv ℝ (fun x => Fhn.drift x 0) Fhn.x0 v := by
  have hb : ContDiff ℝ 2 fun x => Fhn.drift x 0 := by
    rw [contDiff_pi]
    intro i
    fin_cases i <;> simp [Fhn.drift, vecHead, vecTail] <;> fun_prop
  refine (fderiv_of_line (hb.differentiable (by norm_num)) fun i => ?_).symm
  have hi : i = 0 ∨ i = 1 := by fin_cases i <;> simp
  rcases hi with rfl | rfl
  · refine hasDerivAt_of_cubic 0 _ 0 (-(v 0 ^ 3 / Fhn.eps)) fun s => ?_
    simp [Fhn.drift, Fhn.x0, Fhn.s, vecHead, vecTail]
    ring
  · refine hasDerivAt_of_cubic Fhn.alpha _ 0 0 fun s => ?_
    simp [Fhn.drift, Fhn.x0, vecHead, vecTail]
    ring

/-- The square diffusion gives the same noise. -/
theorem Ivp.Fhn.sigmaSquare_cov (x : Vec 2) (t : ℝ) :
    Fhn.sigmaSquare x t * (Fhn.sigmaSquare x t)ᵀ = Fhn.sigma x t * (Fhn.sigma x t)ᵀ := by
  ext i j
  simp only [Matrix.mul_apply, transpose_apply, Fin.sum_univ_two, Fin.sum_univ_one]
  fin_cases i <;> fin_cases j <;> simp [Fhn.sigma, Fhn.sigmaSquare]

/-- Derivatives at zero of the entries of the reference variance. -/
theorem Ivp.Fhn.var3_derivs {V : ℝ → Mat 2 2}
    (hV : SolvesLinearisedVariance (fun x => Fhn.drift x 0) (fun x => Fhn.sigma x 0) Fhn.x0 V) (i j : Fin 2) :
    (∀ k ≤ 2, iteratedDeriv k (fun t => Fhn.var3 t i j) 0 = iteratedDeriv k (fun t => V t i j) 0) ∧
    iteratedDeriv 3 (fun t => Fhn.var3 t i j) 0 - iteratedDeriv 3 (fun t => V t i j) 0 =
      !![0, 70 * Fhn.sig ^ 2; 70 * Fhn.sig ^ 2, 26 * Fhn.sig ^ 2] i j := by
  obtain ⟨F, hF, hV⟩ := hV
  have hF' : F = !![1 / Fhn.eps, -1 / Fhn.eps; Fhn.gamma, -1] := by
    apply Matrix.mulVec_injective
    funext v
    rw [hF, Fhn.linearisation]
  have hV' : V = transitionCov !![1 / Fhn.eps, -1 / Fhn.eps; Fhn.gamma, -1] (Fhn.sigma Fhn.x0 0) := by
    subst hF'
    exact funext (varianceODE_unique hV)
  subst hV'
  obtain ⟨v0, v1, v2, v3⟩ :=
    iteratedDeriv_transitionCov_zero !![1 / Fhn.eps, -1 / Fhn.eps; Fhn.gamma, -1] (Fhn.sigma Fhn.x0 0) i j
  rw [v3]
  simp only [Matrix.add_apply, Matrix.mul_apply, transpose_apply, Fin.sum_univ_two, Fin.sum_univ_one] at v1 v2 ⊢
  have key : ∀ a b c : ℝ, (∀ t, Fhn.var3 t i j = a * t + b * t ^ 2 + c * t ^ 3) →
      (∀ k ≤ 2, a = iteratedDeriv 1 (fun t => transitionCov !![1 / Fhn.eps, -1 / Fhn.eps; Fhn.gamma, -1]
        (Fhn.sigma Fhn.x0 0) t i j) 0 → 2 * b = iteratedDeriv 2 (fun t => transitionCov !![1 / Fhn.eps, -1 / Fhn.eps; Fhn.gamma, -1]
        (Fhn.sigma Fhn.x0 0) t i j) 0 → iteratedDeriv k (fun t => Fhn.var3 t i j) 0 =
          iteratedDeriv k (fun t => transitionCov !![1 / Fhn.eps, -1 / Fhn.eps; Fhn.gamma, -1]
            (Fhn.sigma Fhn.x0 0) t i j) 0) ∧ iteratedDeriv 3 (fun t => Fhn.var3 t i j) 0 = 6 * c := by
    intro a b c hp
    rw [show (fun t => Fhn.var3 t i j) = fun t => a * t + b * t ^ 2 + c * t ^ 3 from funext hp]
    obtain ⟨p0, p1, p2, p3⟩ := iteratedDeriv_cubic_zero a b c
    refine ⟨fun k hk ha hb => ?_, p3⟩
    interval_cases k
    · rw [p0, v0]
    · rw [p1, ha]
    · rw [p2, hb]
  rw [v1, v2] at key
  clear v0 v1 v2 v3
  have hi : i = 0 ∨ i = 1 := by fin_cases i <;> simp
  have hj : j = 0 ∨ j = 1 := by fin_cases j <;> simp
  rcases hi with rfl | rfl <;> rcases hj with rfl | rfl
  · obtain ⟨k1, k2⟩ := key 0 0 (Fhn.sig ^ 2 / 3 / Fhn.eps ^ 2) fun t => by simp [Fhn.var3]; ring
    refine ⟨fun k hk => k1 k hk ?_ ?_, ?_⟩
    · simp [Fhn.sigma]
    · simp [Fhn.sigma]
    · rw [k2]; simp [Fhn.sigma]; ring
  · obtain ⟨k1, k2⟩ := key 0 (-(Fhn.sig ^ 2 / 2 / Fhn.eps)) 0 fun t => by simp [Fhn.var3]; ring
    refine ⟨fun k hk => k1 k hk ?_ ?_, ?_⟩
    · simp [Fhn.sigma]
    · simp [Fhn.sigma]; ring
    · rw [k2]; simp [Fhn.sigma, Fhn.eps, Fhn.gamma]; ring
  · obtain ⟨k1, k2⟩ := key 0 (-(Fhn.sig ^ 2 / 2 / Fhn.eps)) 0 fun t => by simp [Fhn.var3]; ring
    refine ⟨fun k hk => k1 k hk ?_ ?_, ?_⟩
    · simp [Fhn.sigma]
    · simp [Fhn.sigma]; ring
    · rw [k2]; simp [Fhn.sigma, Fhn.eps, Fhn.gamma]; ring
  · obtain ⟨k1, k2⟩ := key (Fhn.sig ^ 2) (-(Fhn.sig ^ 2)) 0 fun t => by simp [Fhn.var3]; ring
    refine ⟨fun k hk => k1 k hk ?_ ?_, ?_⟩
    · simp [Fhn.sigma]; ring
    · simp [Fhn.sigma]; ring
    · rw [k2]; simp [Fhn.sigma, Fhn.eps, Fhn.gamma]; ring

/-- The linearised variance exists. -/
theorem Ivp.Fhn.linearised_exists :
    ∃ V, SolvesLinearisedVariance (fun x => Fhn.drift x 0) (fun x => Fhn.sigma x 0) Fhn.x0 V :=
  ⟨_, _, Fhn.linearisation, transitionCov_solves _ _⟩

/-- C71 fails: the third derivatives at zero of the entries (0,1), (1,0) and (1,1) are not those of the linearised variance. -/
theorem C71_fails {V : ℝ → Mat 2 2}
    (hV : SolvesLinearisedVariance (fun x => Fhn.drift x 0) (fun x => Fhn.sigma x 0) Fhn.x0 V) (i j : Fin 2) (hij : ¬ (i = 0 ∧ j = 0)) :
    iteratedDeriv 3 (fun t => Fhn.var3 t i j) 0 ≠ iteratedDeriv 3 (fun t => V t i j) 0 := by
  intro h
  have := (Fhn.var3_derivs hV i j).2
  rw [h, sub_self] at this
  fin_cases i <;> fin_cases j <;> simp [Fhn.sig] at this hij <;> norm_num at this

/-- C71, the part that holds: all derivatives of order at most two, and those of order three of the entry (0,0), are right; this
also holds for the square form of the diffusion. -/
theorem C71_partial {V : ℝ → Mat 2 2}
    (hV : SolvesLinearisedVariance (fun x => Fhn.drift x 0) (fun x => Fhn.sigma x 0) Fhn.x0 V ∨
      SolvesLinearisedVariance (fun x => Fhn.drift x 0) (fun x => Fhn.sigmaSquare x 0) Fhn.x0 V) :
    (∀ i j, ∀ k ≤ 2, iteratedDeriv k (fun t => Fhn.var3 t i j) 0 = iteratedDeriv k (fun t => V t i j) 0) ∧
    (∀ k ≤ 3, iteratedDeriv k (fun t => Fhn.var3 t 0 0) 0 = iteratedDeriv k (fun t => V t 0 0) 0) := by
  have hV : SolvesLinearisedVariance (fun x => Fhn.drift x 0) (fun x => Fhn.sigma x 0) Fhn.x0 V := by
    rcases hV with h | ⟨F, hF, h0, hd⟩
    · exact h
    · refine ⟨F, hF, h0, fun t i j => ?_⟩
      have := hd t i j
      rwa [Fhn.sigmaSquare_cov] at this
  refine ⟨fun i j => (Fhn.var3_derivs hV i j).1, fun k hk => ?_⟩
  rcases Nat.lt_or_ge 2 k with h | h
  · obtain rfl : k = 3 := by omega
    have := (Fhn.var3_derivs hV 0 0).2
    simp at this
    linarith
  · exact (Fhn.var3_derivs hV 0 0).1 k h

example : ∃ V, SolvesLinearisedVariance (fun x => Fhn.drift x 0) (fun x => Fhn.sigma x 0) Fhn.x0 V := Fhn.linearised_exists

/-- The linearisation of the synaptic drift at the initial state. -/
noncomputable def Ivp.Synaptic.F0 : Mat 3 3 :=
  !![-(Synaptic.gLeak + Synaptic.x0 1 + Synaptic.x0 2) / Synaptic.C, -(Synaptic.x0 0 - Synaptic.VE) / Synaptic.C,
      -(Synaptic.x0 0 - Synaptic.VI) / Synaptic.C;
    0, -1 / Synaptic.tauE, 0; 0, 0, -1 / Synaptic.tauI]

theorem Ivp.Synaptic.linearisation (v : Vec 3) : Synaptic.F0 *ᵥ v = fderiv ℝ Synaptic.drift Synaptic.x0 v := by
  have hb : ContDiff ℝ 2 Synaptic.drift := by
    rw [contDiff_pi]
    intro i
    fin_cases i <;> simp [Synaptic.drift] <;> fun_prop
  refine (fderiv_of_line (hb.differentiable (by norm_num)) fun i => ?_).symm
  have hi : i = 0 ∨ i = 1 ∨ i = 2 := by fin_cases i <;> simp
  rcases hi with rfl | rfl | rfl
  · refine hasDerivAt_of_quadratic (Synaptic.drift Synaptic.x0 0) _ (-1 / Synaptic.C * ((v 1 + v 2) * v 0)) fun s => ?_
    simp [Synaptic.drift, Synaptic.F0, vecHead, vecTail]
    ring
  · refine hasDerivAt_of_quadratic (Synaptic.drift Synaptic.x0 1) _ 0 fun s => ?_
    simp [Synaptic.drift, Synaptic.F0, vecHead, vecTail]
    ring
  · refine hasDerivAt_of_quadratic (Synaptic.drift Synaptic.x0 2) _ 0 fun s => ?_
    simp [Synaptic.drift, Synaptic.F0, vecHead, vecTail]
    ring

/-- C72: the reference variance of the membrane potential has the right derivatives of order at most three at zero. -/
theorem C72_variance {V : ℝ → Mat 3 3} (hV : SolvesLinearisedVariance Synaptic.drift Synaptic.sigma Synaptic.x0 V) :
    ∀ k ≤ 3, iteratedDeriv k Synaptic.var3 0 = iteratedDeriv k (fun t => V t 0 0) 0 := by
  obtain ⟨F, hF, hV⟩ := hV
  have hF' : F = Synaptic.F0 := by
    apply Matrix.mulVec_injective
    funext v
    rw [hF, Synaptic.linearisation]
  have hV' : V = transitionCov Synaptic.F0 (Synaptic.sigma Synaptic.x0) := by
    subst hF'
    exact funext (varianceODE_unique hV)
  subst hV'
  obtain ⟨v0, v1, v2, v3⟩ := iteratedDeriv_transitionCov_zero Synaptic.F0 (Synaptic.sigma Synaptic.x0) 0 0
  simp only [Matrix.add_apply, Matrix.mul_apply, transpose_apply, Fin.sum_univ_three] at v1 v2 v3
  obtain ⟨p0, p1, p2, p3⟩ := iteratedDeriv_cubic_zero 0 0 (1 / (3 * Synaptic.C ^ 2) *
    ((Synaptic.x0 0 - Synaptic.VE) ^ 2 * Synaptic.sigIE ^ 2 * Synaptic.x0 2 +
      (Synaptic.x0 0 - Synaptic.VI) ^ 2 * Synaptic.sigIE ^ 2 * Synaptic.x0 2))
  have hp : Synaptic.var3 = fun s => 0 * s + 0 * s ^ 2 + (1 / (3 * Synaptic.C ^ 2) *
    ((Synaptic.x0 0 - Synaptic.VE) ^ 2 * Synaptic.sigIE ^ 2 * Synaptic.x0 2 +
      (Synaptic.x0 0 - Synaptic.VI) ^ 2 * Synaptic.sigIE ^ 2 * Synaptic.x0 2)) * s ^ 3 := by
    funext s; simp only [Synaptic.var3]; ring
  rw [hp]
  have hr : ((10 : ℝ) ^ (0.5 : ℝ)) * ((10 : ℝ) ^ (0.5 : ℝ)) = 10 := by
    rw [← Real.rpow_add (by norm_num)]; norm_num
  intro k hk
  interval_cases k
  · rw [p0, v0]
  · rw [p1, v1]; simp [Synaptic.sigma]
  · rw [p2, v2]; simp [Synaptic.sigma]
  · rw [p3, v3]
    have hs : ∀ i j, Synaptic.sigma Synaptic.x0 i 0 * Synaptic.sigma Synaptic.x0 j 0 +
        Synaptic.sigma Synaptic.x0 i 1 * Synaptic.sigma Synaptic.x0 j 1 +
        Synaptic.sigma Synaptic.x0 i 2 * Synaptic.sigma Synaptic.x0 j 2 =
        !![0, 0, 0; 0, Synaptic.sigIE ^ 2 * 10, 0; 0, 0, Synaptic.sigIE ^ 2 * 10] i j := by
      intro i j
      fin_cases i <;> fin_cases j <;> simp [Synaptic.sigma, Synaptic.x0] <;> linear_combination Synaptic.sigIE ^ 2 * hr
    simp only [hs]
    simp [Synaptic.F0, Synaptic.x0]
    ring

example : ∃ V, SolvesLinearisedVariance Synaptic.drift Synaptic.sigma Synaptic.x0 V :=
  ⟨_, _, Synaptic.linearisation, transitionCov_solves _ _⟩

/-! ## C73: numerically integrated variance of the harmonic oscillators -/

/-- C73: the returned matrix vanishes at zero, is positive semidefinite for `t ≥ 0` and approximates the solution of the variance
equation with the error of the trapezoidal rule over 999 intervals. -/
theorem C73_integrated {l : ℕ} (D gamma : ℝ) (C : Mat 2 l) (V : ℝ → Mat 2 2)
    (hV : SolvesVarianceODE (Harmonic.M D gamma) C V) :
    Harmonic.variance D gamma C 0 = 0 ∧ (∀ t, 0 ≤ t → (Harmonic.variance D gamma C t).PosSemidef) ∧
    ∀ t i j z, (∀ s ∈ Set.uIcc 0 t, |iteratedDeriv 3 (fun s => V s i j) s| ≤ z) →
      |Harmonic.variance D gamma C t i j - V t i j| ≤ |t| ^ 3 * z / (12 * 999 ^ 2) := by
  have hN : ∀ (N : ℕ) (t : ℝ), Jnp.trapezoid ((Jnp.linspace 0 t N).map fun s =>
      expm (s • Harmonic.M D gamma) * C * (expm (s • Harmonic.M D gamma) * C)ᵀ) (Jnp.linspace 0 t N) =
      (computeTransition (Harmonic.M D gamma) 0 C t N).Q := fun _ _ => rfl
  have hq : ∀ t, Harmonic.variance D gamma C t = (computeTransition (Harmonic.M D gamma) 0 C t 1000).Q := fun t => by
    rw [← hN, Harmonic.variance]
  refine ⟨?_, fun t ht => ?_, fun t i j z hz => ?_⟩
  · rw [hq, computeTransition_Q_eq _ _ _ _ 998]
    simp
  · rw [hq]
    exact (C37_valid _ _ _ t 1000).2 ht
  · rw [varianceODE_unique hV t]
    have hV' : V = transitionCov (Harmonic.M D gamma) C := funext (varianceODE_unique hV)
    subst hV'
    have := computeTransition_error (Harmonic.M D gamma) 0 C t i j hz 998
    rw [hq]
    norm_num at this ⊢
    exact this

example : SolvesVarianceODE (Harmonic.M 1 1) (Harmonic.C 2) (transitionCov (Harmonic.M 1 1) (Harmonic.C 2)) :=
  transitionCov_solves _ _

end Verif
