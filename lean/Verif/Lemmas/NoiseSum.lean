import Verif.Lemmas.L2Local
import Verif.Lemmas.WeakLaw

/-! Helper lemmas: a one step scheme with independent noise added in every step stays close to the scheme without. -/

namespace Verif

open Matrix Spec MeasureTheory ProbabilityTheory Filter Set
open scoped NNReal

variable {d : ℕ}

theorem abs_dot_le (u v : Vec d) : |u ⬝ᵥ v| ≤ d * (‖u‖ * ‖v‖) := by
  refine (Finset.abs_sum_le_sum_abs _ _).trans ?_
  have : ∀ i ∈ Finset.univ, |u i * v i| ≤ ‖u‖ * ‖v‖ := fun i _ => by
    rw [abs_mul]
    exact mul_le_mul (norm_le_pi_norm u i) (norm_le_pi_norm v i) (abs_nonneg _) (norm_nonneg _)
  refine (Finset.sum_le_sum this).trans (le_of_eq ?_)
  simp

/-- A perturbation of relative size `C δ` changes the squared length by a factor `1 + κ δ`. -/
theorem dot_perturb {C δ T : ℝ} (hC : 0 ≤ C) (hδ : 0 ≤ δ) (hδT : δ ≤ T) {e D : Vec d} (hD : ‖D‖ ≤ C * δ * ‖e‖) :
    (e + D) ⬝ᵥ (e + D) ≤ (1 + (2 * d * C + d * C ^ 2 * T) * δ) * (e ⬝ᵥ e) := by
  have h1 : (e + D) ⬝ᵥ (e + D) = e ⬝ᵥ e + 2 * (e ⬝ᵥ D) + D ⬝ᵥ D := by
    rw [add_dotProduct, dotProduct_add, dotProduct_add, dotProduct_comm D e]
    ring
  have hn := sq_norm_le_dot e
  have h2 : e ⬝ᵥ D ≤ d * (C * δ) * (e ⬝ᵥ e) := by
    refine (le_abs_self _).trans ((abs_dot_le e D).trans ?_)
    have : ‖e‖ * ‖D‖ ≤ C * δ * ‖e‖ ^ 2 := by nlinarith [mul_le_mul_of_nonneg_left hD (norm_nonneg e)]
    calc (d : ℝ) * (‖e‖ * ‖D‖) ≤ d * (C * δ * ‖e‖ ^ 2) := mul_le_mul_of_nonneg_left this (Nat.cast_nonneg d)
      _ ≤ d * (C * δ * (e ⬝ᵥ e)) := by gcongr
      _ = _ := by ring
  have h3 : D ⬝ᵥ D ≤ d * C ^ 2 * T * δ * (e ⬝ᵥ e) := by
    refine (dot_le_sq_norm D).trans ?_
    have h4 := pow_le_pow_left₀ (norm_nonneg _) hD 2
    have hT : 0 ≤ T := hδ.trans hδT
    calc (d : ℝ) * ‖D‖ ^ 2 ≤ d * (C * δ * ‖e‖) ^ 2 := mul_le_mul_of_nonneg_left h4 (Nat.cast_nonneg d)
      _ = d * C ^ 2 * δ * δ * ‖e‖ ^ 2 := by ring
      _ ≤ d * C ^ 2 * T * δ * (e ⬝ᵥ e) := by gcongr
  rw [h1]
  nlinarith

theorem memLp_dot {Ω : Type*} [MeasurableSpace Ω] {P : Measure Ω} {u : Ω → Vec d} (hu : ∀ i, MemLp (fun ω => u ω i) 2 P) :
    Integrable (fun ω => u ω ⬝ᵥ u ω) P := by
  simp only [dotProduct]
  exact integrable_finset_sum _ fun i _ => (hu i).integrable_mul (hu i)

/-- The mean square of the difference between a scheme with noise `η` and the scheme without: if the noise of every step is
centred, of mean square at most `v` and independent of the past, and the scheme is stable. -/
theorem noisy_scheme {Ω : Type*} [MeasurableSpace Ω] {P : Measure Ω} [IsProbabilityMeasure P] {N : ℕ} {C δ T v : ℝ} (hC : 0 ≤ C)
    (hδ : 0 < δ) (hNδ : N * δ ≤ T) (hv : 0 ≤ v) {Y Z η : ℕ → Ω → Vec d} (h0 : ∀ ω, Y 0 ω = Z 0 ω)
    {Φ : ℕ → Ω → Vec d → Vec d} (hY : ∀ k < N, ∀ ω, Y (k + 1) ω = Φ k ω (Y k ω)) (hZ : ∀ k < N, ∀ ω, Z (k + 1) ω = Φ k ω (Z k ω) + η k ω)
    (hst : ∀ k < N, ∀ ω y y', ‖Φ k ω y - y - (Φ k ω y' - y')‖ ≤ C * δ * ‖y - y'‖)
    (hη : ∀ k < N, ∀ i, MemLp (fun ω => η k ω i) 2 P ∧ ∫ ω, η k ω i ∂P = 0) (hηv : ∀ k < N, ∫ ω, η k ω ⬝ᵥ η k ω ∂P ≤ v)
    (hind : ∀ k < N, IndepFun (fun ω => Φ k ω (Z k ω) - Φ k ω (Y k ω)) (η k) P)
    (hmeas : ∀ k < N, AEStronglyMeasurable (fun ω => Φ k ω (Z k ω) - Φ k ω (Y k ω)) P) (n : ℕ) (hn : n ≤ N) :
    (∀ i, MemLp (fun ω => Z n ω i - Y n ω i) 2 P) ∧
    ∫ ω, (Z n ω - Y n ω) ⬝ᵥ (Z n ω - Y n ω) ∂P ≤ n * v * Real.exp ((2 * d * C + d * C ^ 2 * T) * (n * δ)) := by
  have hT : 0 ≤ T := le_trans (by positivity) hNδ
  set κ := 2 * d * C + d * C ^ 2 * T with hκ
  have hκ0 : 0 ≤ κ := by positivity
  induction n with
  | zero => exact ⟨fun i => by simp [h0], by simp [h0]⟩
  | succ n ih =>
    obtain ⟨hLp, hle⟩ := ih (by omega)
    have hnN : n < N := by omega
    have hδT : δ ≤ T := by
      refine le_trans ?_ hNδ
      have : (1 : ℝ) ≤ N := by exact_mod_cast (by omega : 1 ≤ N)
      nlinarith
    obtain ⟨u, hu⟩ : ∃ u : Ω → Vec d, ∀ ω, u ω = Φ n ω (Z n ω) - Φ n ω (Y n ω) := ⟨_, fun _ => rfl⟩
    have hind' : IndepFun u (η n) P := by rw [show u = _ from funext hu]; exact hind n hnN
    have hum : AEStronglyMeasurable u P := by rw [show u = _ from funext hu]; exact hmeas n hnN
    have hstep : ∀ ω, Z (n + 1) ω - Y (n + 1) ω = u ω + η n ω := fun ω => by rw [hZ n hnN, hY n hnN, hu]; abel
    have hub : ∀ ω, u ω ⬝ᵥ u ω ≤ (1 + κ * δ) * ((Z n ω - Y n ω) ⬝ᵥ (Z n ω - Y n ω)) := fun ω => by
      have := dot_perturb hC hδ.le hδT (hst n hnN ω (Z n ω) (Y n ω))
      rwa [show Z n ω - Y n ω + (Φ n ω (Z n ω) - Z n ω - (Φ n ω (Y n ω) - Y n ω)) = u ω by rw [hu]; abel] at this
    have hdi : Integrable (fun ω => (Z n ω - Y n ω) ⬝ᵥ (Z n ω - Y n ω)) P := memLp_dot hLp
    have hui : ∀ i, MemLp (fun ω => u ω i) 2 P := fun i => by
      have hm : AEStronglyMeasurable (fun ω => u ω i) P := (continuous_apply i).comp_aestronglyMeasurable hum
      refine (memLp_two_iff_integrable_sq hm).2 ((hdi.const_mul (1 + κ * δ)).mono' (hm.pow 2) (Eventually.of_forall fun ω => ?_))
      rw [Real.norm_of_nonneg (sq_nonneg _), sq]
      exact (Finset.single_le_sum (f := fun i => u ω i * u ω i) (fun i _ => mul_self_nonneg _) (Finset.mem_univ i)).trans (hub ω)
    refine ⟨fun i => ?_, ?_⟩
    · have : (fun ω => Z (n + 1) ω i - Y (n + 1) ω i) = fun ω => u ω i + η n ω i := by
        funext ω
        have := congrFun (hstep ω) i
        simpa using this
      rw [this]
      exact (hui i).add (hη n hnN i).1
    · have hcross : ∫ ω, u ω ⬝ᵥ η n ω ∂P = 0 := by
        simp only [dotProduct]
        have hii : ∀ i ∈ Finset.univ, Integrable (fun ω => u ω i * η n ω i) P := fun i _ => (hui i).integrable_mul (hη n hnN i).1
        rw [integral_finset_sum _ hii]
        refine Finset.sum_eq_zero fun i _ => ?_
        have hi : IndepFun (fun ω => u ω i) (fun ω => η n ω i) P :=
          hind'.comp (φ := fun x : Vec d => x i) (ψ := fun x : Vec d => x i) (measurable_pi_apply i) (measurable_pi_apply i)
        have := hi.integral_fun_mul_eq_mul_integral (hui i).1 (hη n hnN i).1.1
        rw [this, (hη n hnN i).2, mul_zero]
      have hci : Integrable (fun ω => u ω ⬝ᵥ η n ω) P := by
        simp only [dotProduct]
        exact integrable_finset_sum _ fun i _ => (hui i).integrable_mul (hη n hnN i).1
      have e : ∀ ω, (Z (n + 1) ω - Y (n + 1) ω) ⬝ᵥ (Z (n + 1) ω - Y (n + 1) ω) = u ω ⬝ᵥ u ω + 2 * (u ω ⬝ᵥ η n ω) + η n ω ⬝ᵥ η n ω := by
        intro ω
        rw [hstep, add_dotProduct, dotProduct_add, dotProduct_add, dotProduct_comm (η n ω) (u ω)]
        ring
      simp only [e]
      have hs : Integrable (fun ω => u ω ⬝ᵥ u ω + 2 * (u ω ⬝ᵥ η n ω)) P := (memLp_dot hui).add (hci.const_mul 2)
      rw [integral_add hs (memLp_dot fun i => (hη n hnN i).1),
        integral_add (memLp_dot hui) (hci.const_mul 2), integral_const_mul, hcross, mul_zero, add_zero]
      have h1 : ∫ ω, u ω ⬝ᵥ u ω ∂P ≤ (1 + κ * δ) * ∫ ω, (Z n ω - Y n ω) ⬝ᵥ (Z n ω - Y n ω) ∂P := by
        rw [← integral_const_mul]
        exact integral_mono (memLp_dot hui) (hdi.const_mul _) hub
      have h2 : 1 + κ * δ ≤ Real.exp (κ * δ) := by linarith [Real.add_one_le_exp (κ * δ)]
      have h3 : Real.exp (κ * ((n + 1 : ℕ) * δ)) = Real.exp (κ * δ) * Real.exp (κ * (n * δ)) := by
        rw [← Real.exp_add]; push_cast; ring_nf
      have h4 : v ≤ v * Real.exp (κ * ((n + 1 : ℕ) * δ)) := le_mul_of_one_le_right hv (Real.one_le_exp (by positivity))
      have h5 : (1 + κ * δ) * ∫ ω, (Z n ω - Y n ω) ⬝ᵥ (Z n ω - Y n ω) ∂P ≤ Real.exp (κ * δ) * (n * v * Real.exp (κ * (n * δ))) :=
        mul_le_mul h2 hle (integral_nonneg fun ω => Finset.sum_nonneg fun i _ => mul_self_nonneg _) (Real.exp_nonneg _)
      have h6 := hηv n hnN
      calc _ ≤ Real.exp (κ * δ) * (n * v * Real.exp (κ * (n * δ))) + v * Real.exp (κ * ((n + 1 : ℕ) * δ)) := by linarith
        _ = _ := by rw [h3]; push_cast; ring

end Verif
