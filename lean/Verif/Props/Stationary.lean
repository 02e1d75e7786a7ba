import Verif.Lemmas.Stationary
import Verif.Lemmas.LinearSolution
import Verif.Lemmas.LevyBrownian
import Verif.Props.Lin15

/-! C148: the harmonic oscillators of `utils/ivp.py` for large times. -/

namespace Verif

open Matrix Spec Jnp Set MeasureTheory ProbabilityTheory Filter
open scoped NNReal Topology

/-- C148 fails: `theoretical_variance` integrates with a thousand nodes over the whole of `[0, t]`, so for every oscillator with noise, in both of its forms, the variance
of the velocity that it returns grows beyond all bounds, at least like `sig² t / 1998`, and does not tend to the stationary one. -/
theorem C148_fails (D γ : ℝ) {s : ℝ} (hs : s ≠ 0) {l : ℕ} (C : Mat 2 l) (hC : C * Cᵀ = !![0, 0; 0, s ^ 2]) :
    (∀ t, 0 ≤ t → s ^ 2 * t / 1998 ≤ Ivp.Harmonic.variance D γ C t 1 1) ∧
    Tendsto (fun t => Ivp.Harmonic.variance D γ C t 1 1) atTop atTop ∧ ∀ v, ¬ Tendsto (fun t => Ivp.Harmonic.variance D γ C t 1 1) atTop (𝓝 v) := by
  have hge : ∀ t, 0 ≤ t → s ^ 2 * t / 1998 ≤ Ivp.Harmonic.variance D γ C t 1 1 := fun t ht => by
    have h := harmonic_variance_ge D γ C ht 1
    rw [hC] at h
    have e : (!![0, 0; 0, s ^ 2] : Mat 2 2) 1 1 = s ^ 2 := rfl
    rw [e] at h
    calc s ^ 2 * t / 1998 = t / 1998 * s ^ 2 := by ring
      _ ≤ _ := h
  have hs2 : 0 < s ^ 2 / 1998 := by positivity
  have hinf : Tendsto (fun t => Ivp.Harmonic.variance D γ C t 1 1) atTop atTop := by
    refine tendsto_atTop_mono' atTop ?_ (tendsto_id.const_mul_atTop hs2)
    filter_upwards [eventually_ge_atTop 0] with t ht
    calc s ^ 2 / 1998 * id t = s ^ 2 * t / 1998 := by simp only [id]; ring
      _ ≤ _ := hge t ht
  exact ⟨hge, hinf, fun v hv => not_tendsto_nhds_of_tendsto_atTop hinf v hv⟩

/-- C148, what remains: for positive `D` and `γ` the reference mean tends to zero, and the means and covariances of the solution of the SDE tend to zero and to
`diag(s² / (2 γ D), s² / (2 γ))`. Missing: the reference variance does not (`C148_fails`). -/
theorem C148_partial {Ω : Type*} [MeasurableSpace Ω] {P : Measure Ω} {l : ℕ} {B : Fin l → ℝ≥0 → Ω → ℝ} (hB : IsBrownianVec B P) {D γ s : ℝ} (hD : 0 < D) (hγ : 0 < γ)
    (C : Mat 2 l) (hC : C * Cᵀ = !![0, 0; 0, s ^ 2]) {X : ℝ → Ω → ℝ → Vec 2}
    (hX : ∀ T, 0 ≤ T → ∀ᵐ ω ∂P, SolvesAdditive (Ivp.Harmonic.drift D γ) C (fun t j => B j t.toNNReal ω) Ivp.Harmonic.x0 T (X T ω)) :
    (∀ j, Tendsto (fun t => Ivp.Harmonic.mean D γ t j) atTop (𝓝 0)) ∧
    (∀ j, Tendsto (fun T => ∫ ω, X T ω T j ∂P) atTop (𝓝 0)) ∧
    ∀ i j, Tendsto (fun T => cov[fun ω => X T ω T i, fun ω => X T ω T j; P]) atTop (𝓝 ((!![s ^ 2 / (2 * γ * D), 0; 0, s ^ 2 / (2 * γ)] : Mat 2 2) i j)) := by
  have hmean : ∀ j, Tendsto (fun t => Ivp.Harmonic.mean D γ t j) atTop (𝓝 0) := fun j => by
    simp only [Ivp.Harmonic.mean, mulVec, dotProduct]
    have : (0 : ℝ) = ∑ k : Fin 2, 0 * Ivp.Harmonic.x0 k := by simp
    rw [this]
    exact tendsto_finset_sum _ fun k _ => (harmonic_decay hD hγ j k).mul_const _
  have hlaw := fun T (hT : 0 ≤ T) => linear_solution_law hB (Ivp.Harmonic.M D γ) C Ivp.Harmonic.x0 (hX T hT) ⟨hT, le_rfl⟩
  refine ⟨hmean, fun j => (hmean j).congr' ?_, fun i j => ?_⟩
  · filter_upwards [eventually_ge_atTop 0] with T hT
    exact ((hlaw T hT).mean j).symm
  · refine (harmonic_cov hD hγ C hC (transitionCov_solves _ C) i j).congr' ?_
    filter_upwards [eventually_ge_atTop 0] with T hT
    exact ((hlaw T hT).cov i j).symm

/-- C148, the oscillators of the code: the solution of the variance equation tends to `diag(2, 2)` for `harmonic_oscillator_square` and to `diag(50, 5)` for
`harmonic_oscillator`, while the reference variance of the velocity is at least twice these values from the times 1998 and 19980 on. -/
theorem C148_shipped_partial :
    (∀ V, SolvesVarianceODE (Ivp.Harmonic.M Ivp.Harmonic.paramsSquare.1 Ivp.Harmonic.paramsSquare.2.1) (Ivp.Harmonic.Csquare Ivp.Harmonic.paramsSquare.2.2) V →
      ∀ i j, Tendsto (fun t => V t i j) atTop (𝓝 ((!![2, 0; 0, 2] : Mat 2 2) i j))) ∧
    (∀ V, SolvesVarianceODE (Ivp.Harmonic.M Ivp.Harmonic.params.1 Ivp.Harmonic.params.2.1) (Ivp.Harmonic.C Ivp.Harmonic.params.2.2) V →
      ∀ i j, Tendsto (fun t => V t i j) atTop (𝓝 ((!![50, 0; 0, 5] : Mat 2 2) i j))) ∧
    (∀ t, 1998 ≤ t → 4 ≤ Ivp.Harmonic.variance Ivp.Harmonic.paramsSquare.1 Ivp.Harmonic.paramsSquare.2.1 (Ivp.Harmonic.Csquare Ivp.Harmonic.paramsSquare.2.2) t 1 1) ∧
    ∀ t, 19980 ≤ t → 10 ≤ Ivp.Harmonic.variance Ivp.Harmonic.params.1 Ivp.Harmonic.params.2.1 (Ivp.Harmonic.C Ivp.Harmonic.params.2.2) t 1 1 := by
  have h1 : ∀ s : ℝ, Ivp.Harmonic.Csquare s * (Ivp.Harmonic.Csquare s)ᵀ = !![0, 0; 0, s ^ 2] := fun s => by
    ext i j
    fin_cases i <;> fin_cases j <;> simp [Ivp.Harmonic.Csquare, Matrix.mul_apply, Fin.sum_univ_two, sq]
  have h2 : ∀ s : ℝ, Ivp.Harmonic.C s * (Ivp.Harmonic.C s)ᵀ = !![0, 0; 0, s ^ 2] := fun s => by
    ext i j
    fin_cases i <;> fin_cases j <;> simp [Ivp.Harmonic.C, Matrix.mul_apply, sq]
  refine ⟨fun V hV i j => ?_, fun V hV i j => ?_, fun t ht => ?_, fun t ht => ?_⟩
  · have h := harmonic_cov (s := 2) one_pos one_pos _ (h1 2) hV i j
    have e : harmonicStat 1 1 2 = !![2, 0; 0, 2] := by
      rw [harmonicStat]; norm_num
    rwa [e] at h
  · have h := harmonic_cov (s := 1) (D := 0.1) (γ := 0.1) (by norm_num) (by norm_num) _ (h2 1) hV i j
    have e : harmonicStat 0.1 0.1 1 = !![50, 0; 0, 5] := by
      rw [harmonicStat]; norm_num
    rwa [e] at h
  · have h := (C148_fails Ivp.Harmonic.paramsSquare.1 Ivp.Harmonic.paramsSquare.2.1 (s := 2) two_ne_zero _ (h1 2)).1 t (by linarith)
    refine le_trans ?_ h
    linarith
  · have h := (C148_fails Ivp.Harmonic.params.1 Ivp.Harmonic.params.2.1 (s := 1) one_ne_zero _ (h2 1)).1 t (by linarith)
    refine le_trans ?_ h
    linarith

/-- C148: the hypotheses are met by the oscillator of `harmonic_oscillator_square`, a Brownian motion and its solutions. -/
example : ∃ (Ω : Type) (_ : MeasurableSpace Ω) (P : Measure Ω) (X : ℝ → Ω → ℝ → Vec 2),
    Tendsto (fun T => cov[fun ω => X T ω T 1, fun ω => X T ω T 1; P]) atTop (𝓝 2) ∧
    Tendsto (fun t => Ivp.Harmonic.variance 1 1 (Ivp.Harmonic.Csquare 2) t 1 1) atTop atTop := by
  obtain ⟨B, hB⟩ := Levy.exists_brownianVec 2
  obtain ⟨L, K4, hb⟩ := smooth15_linear (Ivp.Harmonic.M 1 1) (Ivp.Harmonic.Csquare 2)
  have hC : Ivp.Harmonic.Csquare 2 * (Ivp.Harmonic.Csquare 2)ᵀ = !![0, 0; 0, 2 ^ 2] := by
    ext i j
    fin_cases i <;> fin_cases j <;> simp [Ivp.Harmonic.Csquare, Matrix.mul_apply, Fin.sum_univ_two, sq]
  have hex : ∀ T : ℝ, ∃ X : (Fin 2 → ℕ × ℕ → ℝ) → ℝ → Vec 2, 0 ≤ T → ∀ᵐ ω ∂(Measure.pi fun _ => Levy.noise), SolvesAdditive (Ivp.Harmonic.drift 1 1) (Ivp.Harmonic.Csquare 2) (fun t j => B j t.toNNReal ω) Ivp.Harmonic.x0 T (X ω) := fun T => by
    by_cases hT : 0 ≤ T
    · obtain ⟨X, hX⟩ := hB.exists_solution hT (hb.field T) (Ivp.Harmonic.Csquare 2) Ivp.Harmonic.x0
      exact ⟨X, fun _ => hX⟩
    · exact ⟨fun _ _ => 0, fun h => absurd h hT⟩
  choose X hX using hex
  refine ⟨_, _, Measure.pi fun _ => Levy.noise, X, ?_, (C148_fails 1 1 two_ne_zero _ hC).2.1⟩
  have h := (C148_partial hB one_pos one_pos _ hC hX).2.2 1 1
  have e : (!![(2 : ℝ) ^ 2 / (2 * 1 * 1), 0; 0, 2 ^ 2 / (2 * 1)] : Mat 2 2) 1 1 = 2 := by
    show (2 : ℝ) ^ 2 / (2 * 1) = 2
    norm_num
  rwa [e] at h

end Verif
