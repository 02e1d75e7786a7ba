import Verif.Lemmas.RamTransfer

/-!
# C100: the error that the pathwise experiments measure
-/

namespace Verif

open Matrix Spec Jnp Set MeasureTheory ProbabilityTheory Scripts Filter
open scoped NNReal

variable {d m : ℕ}

set_option maxHeartbeats 1000000 in
/-- C100: the quantity plotted by the pathwise experiments. The low-memory solver is run with an ideal generator on an SDE with additive
noise; `y` is the point at time `n δ` of the EKF0 trajectory (the filter without key; `C108_measured` has the one with keys), `z` the one of its Euler-Maruyama reference, computed with `r ≥ 1`
fine steps per interval from the fine increments that were drawn for the parabolas. The mean square distance of the two is at most a
constant times `δ²`, with one constant for all numbers of intervals, filter steps and fine steps. -/
theorem C100_measured_error {la : LinAlg} (hla : la.Correct) (hd : 0 < d) {f : Field d} {Df : Vec d → ℝ → Vec d →L[ℝ] Vec d} {T L K Lt : ℝ}
    (hT : 0 < T) (hf : SmoothField f Df T L K) (htl : TimeLipschitz f T Lt) (S : Mat d m) (x0 : Vec d) :
    ∃ A : ℝ, ∀ {Ω : Type} [MeasurableSpace Ω] {Q : Measure Ω} {R : Ω → Rng}, IdealNormals Q R → ∀ N : ℕ, 0 < N → ∀ M : ℕ, 0 < M →
      ∀ r : ℕ, 0 < r → ∀ σ : ℝ, σ ≠ 0 → ∀ (sqrt : Bool) (rng : Rng) (key : Key) (odeInt : OdeInt (Vec d) d),
      (∀ k x vf, Ekf.ekf0 la rng none x vf (T / N / M) M sqrt
        (some ⟨_, IOUP.transition 0 σ 1 (T / N / M) d⟩) none = .ok (odeInt k x vf (T / N))) →
      ∀ n ≤ N, ∃ y z : Ω → Vec d,
        (∀ ω, ∃ ts traj traj2, ramSolver (R ω) key f (fun _ _ => S) x0 x0 (T / N) N r odeInt = .ok (ts, traj, traj2) ∧
          ts[n]? = some (n * (T / N)) ∧ traj[n]? = some (y ω) ∧ traj2[n]? = some (z ω)) ∧
        Integrable (fun ω => ‖y ω - z ω‖ ^ 2) Q ∧ ∫ ω, ‖y ω - z ω‖ ^ 2 ∂Q ≤ A * (T / N) ^ 2 := by
  obtain ⟨B, hB⟩ := Levy.exists_brownianVec m
  obtain ⟨P, hP⟩ : ∃ P : Measure (Fin m → ℕ × ℕ → ℝ), P = Measure.pi fun _ => Levy.noise := ⟨_, rfl⟩
  rw [← hP] at hB
  obtain ⟨X, hX⟩ := hB.exists_solution hT.le hf S x0
  obtain ⟨A1, h1⟩ := C92_ekf0_strong hla hB hd hT hf htl S x0 hX
  obtain ⟨A2, h2⟩ := C93_em_strong hB hT hf htl S x0 hX
  refine ⟨2 * A1 + 2 * |A2|, ?_⟩
  intro Ω _ Q R hR N hN M hM r hr σ hσ sqrt rng key odeInt hode n hn
  have hN' : (0 : ℝ) < N := by exact_mod_cast hN
  have hM' : (0 : ℝ) < M := by exact_mod_cast hM
  have hr' : (1 : ℝ) ≤ r := by exact_mod_cast hr
  have h1' := h1 N hN M hM σ hσ sqrt rng
  obtain ⟨z0, hz1, hz2, hz3⟩ := h2 (N * r) (by positivity) (n * r) (Nat.mul_le_mul_right r hn)
  obtain ⟨δ, hδdef⟩ : ∃ δ, δ = T / N := ⟨_, rfl⟩
  obtain ⟨η, hη⟩ : ∃ η, η = δ / r := ⟨_, rfl⟩
  have hηT : T / (N * r : ℕ) = η := by rw [hη, hδdef]; push_cast; field_simp
  have hδ : 0 < δ := by rw [hδdef]; positivity
  have hη0 : 0 < η := by rw [hη]; positivity
  have hrη : (r : ℝ) * η = δ := by rw [hη]; field_simp
  have et : ((n * r : ℕ) : ℝ) * η = n * δ := by rw [← hrη]; push_cast; ring
  rw [hηT] at hz1 hz2 hz3
  rw [et] at hz2 hz3
  rw [← hδdef] at hode h1' ⊢
  have hηδ : η ≤ δ := by rw [hη]; exact div_le_self hδ.le hr'
  have hint : ∀ k x vf, odeInt k x vf δ = (trapScheme vf (δ / M) x M).1 := fun k x vf =>
    Except.ok.inj ((hode k x vf).symm.trans (C43_trapezoidal hla rng hd vf hσ (by positivity) x M sqrt))
  obtain ⟨R0, hm, htr⟩ := ram_transfer hB hf.cont S x0 hR hδ hr hη key odeInt hint hn
  obtain ⟨y0, hy1, hy2, hy3⟩ := h1' R0 key (Foster.getApproxFine m r) (fun c => c.1) (fun c => c.2.1) (fun _ _ _ => rfl) odeInt hode hm n hn
  obtain ⟨y, z, hyz, hid⟩ := htr y0 z0 hy1 hz1
  have hide : IdentDistrib (fun ω => ‖y0 ω - z0 ω‖ ^ 2) (fun ω => ‖y ω - z ω‖ ^ 2) P Q :=
    hid.comp (u := fun p : Vec d × Vec d => ‖p.1 - p.2‖ ^ 2) ((measurable_fst.sub measurable_snd).norm.pow_const 2)
  have hb : ∀ ω, ‖y0 ω - z0 ω‖ ^ 2 ≤ 2 * ‖X ω (n * δ) - y0 ω‖ ^ 2 + 2 * ‖X ω (n * δ) - z0 ω‖ ^ 2 := fun ω => by
    have h : ‖y0 ω - z0 ω‖ ≤ ‖X ω (n * δ) - y0 ω‖ + ‖X ω (n * δ) - z0 ω‖ := by
      rw [show y0 ω - z0 ω = (X ω (n * δ) - z0 ω) - (X ω (n * δ) - y0 ω) by abel]
      exact (norm_sub_le _ _).trans (le_of_eq (add_comm _ _))
    nlinarith [norm_nonneg (y0 ω - z0 ω), sq_nonneg (‖X ω (n * δ) - y0 ω‖ - ‖X ω (n * δ) - z0 ω‖)]
  have hi0 : Integrable (fun ω => ‖y0 ω - z0 ω‖ ^ 2) P :=
    ((hy2.const_mul 2).add (hz2.const_mul 2)).mono' hide.aemeasurable_fst.aestronglyMeasurable (Eventually.of_forall fun ω => by
      rw [Real.norm_eq_abs, abs_of_nonneg (by positivity)]
      exact hb ω)
  have hle : ∫ ω, ‖y0 ω - z0 ω‖ ^ 2 ∂P ≤ (2 * A1 + 2 * |A2|) * δ ^ 2 := by
    have hsq : η ^ 2 ≤ δ ^ 2 := pow_le_pow_left₀ hη0.le hηδ 2
    have hz4 : A2 * η ^ 2 ≤ |A2| * δ ^ 2 := mul_le_mul (le_abs_self _) hsq (by positivity) (abs_nonneg _)
    calc ∫ ω, ‖y0 ω - z0 ω‖ ^ 2 ∂P ≤ ∫ ω, (2 * ‖X ω (n * δ) - y0 ω‖ ^ 2 + 2 * ‖X ω (n * δ) - z0 ω‖ ^ 2) ∂P :=
          integral_mono hi0 ((hy2.const_mul 2).add (hz2.const_mul 2)) hb
      _ = 2 * (∫ ω, ‖X ω (n * δ) - y0 ω‖ ^ 2 ∂P) + 2 * ∫ ω, ‖X ω (n * δ) - z0 ω‖ ^ 2 ∂P := by
          rw [integral_add (hy2.const_mul 2) (hz2.const_mul 2), integral_const_mul, integral_const_mul]
      _ ≤ (2 * A1 + 2 * |A2|) * δ ^ 2 := by linarith
  refine ⟨y, z, hyz, hide.integrable_iff.mp hi0, ?_⟩
  rw [← hide.integral_eq]
  exact hle

/-- C100: a generator, a drift and a filter that satisfy the hypotheses. -/
example {la : LinAlg} (hla : la.Correct) : ∃ A : ℝ, ∀ N : ℕ, 0 < N → ∃ y z : _ → Vec 2,
    (∀ ω, ∃ ts traj traj2, ramSolver (drawsRng ω) [] (fun (x : Vec 2) (t : ℝ) => -(t • x)) (fun _ _ => (1 : Mat 2 2)) 0 0 (1 / N) N 7
      (fun _ x vf δ => (trapScheme vf (δ / (1 : ℕ)) x 1).1) = .ok (ts, traj, traj2) ∧ traj[N]? = some (y ω) ∧ traj2[N]? = some (z ω)) ∧
    ∫ ω, ‖y ω - z ω‖ ^ 2 ∂drawsMeasure ≤ A * (1 / N) ^ 2 := by
  obtain ⟨A, hA⟩ := C100_measured_error hla (by norm_num : 0 < 2) one_pos smooth_decay timeLipschitz_decay (1 : Mat 2 2) 0
  refine ⟨A, fun N hN => ?_⟩
  have hN' : (0 : ℝ) < N := by exact_mod_cast hN
  obtain ⟨y, z, h1, -, h2⟩ := hA idealNormals_drawsRng N hN 1 one_pos 7 (by norm_num) 1 one_ne_zero false ⟨fun _ _ _ => 0⟩ []
    (fun _ x vf δ => (trapScheme vf (δ / (1 : ℕ)) x 1).1)
    (fun _ x vf => C43_trapezoidal hla ⟨fun _ _ _ => 0⟩ (by norm_num : 0 < 2) vf one_ne_zero (by positivity : 0 < 1 / (N : ℝ) / (1 : ℕ)) x 1
      false) N le_rfl
  refine ⟨y, z, fun ω => ?_, h2⟩
  obtain ⟨ts, traj, traj2, g1, -, g2, g3⟩ := h1 ω
  exact ⟨ts, traj, traj2, g1, g2, g3⟩

end Verif
