import Mathlib.Analysis.Calculus.ContDiff.Operations
import Verif.Lemmas.OneSided
import Verif.Lemmas.RamTransfer
import Verif.Props.LocalOrder
import Verif.Model.Ivp

/-!
# Property C104: the errors measured on FitzHugh-Nagumo
-/

namespace Verif

open Matrix Spec Jnp Set MeasureTheory ProbabilityTheory Scripts Filter
open scoped NNReal ENNReal

variable {d m : ℕ}

theorem Spec.IsBrownianVec.exists_solution_of_paths {Ω : Type*} [MeasurableSpace Ω] {P : Measure Ω} {B : Fin m → ℝ≥0 → Ω → ℝ}
    (hB : IsBrownianVec B P) {f : Field d} {T : ℝ} {S : Mat d m} {x0 : Vec d}
    (hsol : ∀ w : ℝ → Vec m, Continuous w → ∃ x, SolvesAdditive f S w x0 T x) :
    ∃ X : Ω → ℝ → Vec d, ∀ᵐ ω ∂P, SolvesAdditive f S (fun t j => B j t.toNNReal ω) x0 T (X ω) := by
  have hex : ∀ ω, ∃ x : ℝ → Vec d, (∀ j, Continuous fun t => B j t ω) → SolvesAdditive f S (fun t j => B j t.toNNReal ω) x0 T x := by
    intro ω
    by_cases h : ∀ j, Continuous fun t => B j t ω
    · obtain ⟨x, hx⟩ := hsol (fun t j => B j t.toNNReal ω) (continuous_pi fun j => (h j).comp continuous_real_toNNReal)
      exact ⟨x, fun _ => hx⟩
    · exact ⟨fun _ => 0, fun h' => absurd h' h⟩
  choose X hX using hex
  refine ⟨X, ?_⟩
  have hc : ∀ᵐ ω ∂P, ∀ j, Continuous fun t => B j t ω := ae_all_iff.mpr fun j => (hB.brownian j).cont
  filter_upwards [hc] with ω hω
  exact hX ω hω

/-- C104: the quantity plotted by the pathwise experiments, for a drift with two continuous derivatives whose equation has a solution
along every continuous path of the noise. For every level `ε` the distance between the filter (called without key; `C108_prob` has the one with keys) and its Euler-Maruyama reference exceeds
`A δ` with probability at most `ε`, with one constant for all numbers of filter steps and fine steps and all sufficiently
large numbers of intervals. -/
theorem C104_measured {la : LinAlg} (hla : la.Correct) (hd : 0 < d) {f : Field d} (hf : ContDiff ℝ 2 (Function.uncurry f)) {T : ℝ}
    (hT : 0 < T) (S : Mat d m) (x0 : Vec d) (hsol : ∀ w : ℝ → Vec m, Continuous w → ∃ x, SolvesAdditive f S w x0 T x) {ε : ℝ} (hε : 0 < ε) :
    ∃ (A : ℝ) (N0 : ℕ), ∀ {Ω : Type} [MeasurableSpace Ω] {Q : Measure Ω} {R : Ω → Rng}, IdealNormals Q R → ∀ N ≥ N0, ∀ M : ℕ, 0 < M →
      ∀ r : ℕ, 0 < r → ∀ σ : ℝ, σ ≠ 0 → ∀ (sqrt : Bool) (rng : Rng) (key : Key) (odeInt : OdeInt (Vec d) d),
      (∀ k x vf, Ekf.ekf0 la rng none x vf (T / N / M) M sqrt
        (some ⟨_, IOUP.transition 0 σ 1 (T / N / M) d⟩) none = .ok (odeInt k x vf (T / N))) →
      ∀ n ≤ N, ∃ y z : Ω → Vec d,
        (∀ ω, ∃ ts traj traj2, ramSolver (R ω) key f (fun _ _ => S) x0 x0 (T / N) N r odeInt = .ok (ts, traj, traj2) ∧
          ts[n]? = some (n * (T / N)) ∧ traj[n]? = some (y ω) ∧ traj2[n]? = some (z ω)) ∧
        Q {ω | A * (T / N) < ‖y ω - z ω‖} ≤ ENNReal.ofReal ε := by
  obtain ⟨B, hB⟩ := Levy.exists_brownianVec m
  obtain ⟨P, hP⟩ : ∃ P : Measure (Fin m → ℕ × ℕ → ℝ), P = Measure.pi fun _ => Levy.noise := ⟨_, rfl⟩
  rw [← hP] at hB
  obtain ⟨X, hX⟩ := hB.exists_solution_of_paths hsol
  obtain ⟨A1, N1, h1⟩ := C103_ekf0 hla hB hd hf hT S x0 hX (half_pos hε)
  obtain ⟨A2, N2, h2⟩ := C103_em hB hf hT S x0 hX (half_pos hε)
  refine ⟨A1 + |A2|, N1 + N2 + 1, ?_⟩
  intro Ω _ Q R hR N hN M hM r hr σ hσ sqrt rng key odeInt hode n hn
  have hN0 : 0 < N := by omega
  have hN' : (0 : ℝ) < N := by exact_mod_cast hN0
  have hM' : (0 : ℝ) < M := by exact_mod_cast hM
  have hr' : (1 : ℝ) ≤ r := by exact_mod_cast hr
  have h1' := h1 N (by omega) M hM σ hσ sqrt rng
  obtain ⟨z0, hz1, hz2⟩ := h2 (N * r) (le_trans (by omega) (Nat.le_mul_of_pos_right N hr)) (n * r) (Nat.mul_le_mul_right r hn)
  obtain ⟨δ, hδdef⟩ : ∃ δ, δ = T / N := ⟨_, rfl⟩
  obtain ⟨η, hη⟩ : ∃ η, η = δ / r := ⟨_, rfl⟩
  have hηT : T / (N * r : ℕ) = η := by rw [hη, hδdef]; push_cast; field_simp
  have hδ : 0 < δ := by rw [hδdef]; positivity
  have hη0 : 0 < η := by rw [hη]; positivity
  have hrη : (r : ℝ) * η = δ := by rw [hη]; field_simp
  have et : ((n * r : ℕ) : ℝ) * η = n * δ := by rw [← hrη]; push_cast; ring
  rw [hηT] at hz1 hz2
  rw [et] at hz2
  rw [← hδdef] at hode h1' ⊢
  have hηδ : η ≤ δ := by rw [hη]; exact div_le_self hδ.le hr'
  have hint : ∀ k x vf, odeInt k x vf δ = (trapScheme vf (δ / M) x M).1 := fun k x vf =>
    Except.ok.inj ((hode k x vf).symm.trans (C43_trapezoidal hla rng hd vf hσ (by positivity) x M sqrt))
  obtain ⟨R0, hm, htr⟩ := ram_transfer hB hf.continuous S x0 hR hδ hr hη key odeInt hint hn
  obtain ⟨y0, hy1, hy2⟩ := h1' R0 key (Foster.getApproxFine m r) (fun c => c.1) (fun c => c.2.1) (fun _ _ _ => rfl) odeInt hode hm n hn
  obtain ⟨y, z, hyz, hid⟩ := htr y0 z0 hy1 hz1
  refine ⟨y, z, hyz, ?_⟩
  have hide : IdentDistrib (fun ω => ‖y0 ω - z0 ω‖) (fun ω => ‖y ω - z ω‖) P Q :=
    hid.comp (u := fun p : Vec d × Vec d => ‖p.1 - p.2‖) (measurable_fst.sub measurable_snd).norm
  have hmeas := hide.measure_mem_eq (s := Ioi ((A1 + |A2|) * δ)) measurableSet_Ioi
  have e : Q {ω | (A1 + |A2|) * δ < ‖y ω - z ω‖} = P {ω | (A1 + |A2|) * δ < ‖y0 ω - z0 ω‖} := hmeas.symm
  rw [e]
  have hsub : {ω | (A1 + |A2|) * δ < ‖y0 ω - z0 ω‖} ⊆ {ω | A1 * δ < ‖X ω (n * δ) - y0 ω‖} ∪ {ω | A2 * η < ‖X ω (n * δ) - z0 ω‖} := by
    intro ω hω
    rw [mem_setOf_eq] at hω
    by_contra hcon
    simp only [mem_union, mem_setOf_eq, not_or, not_lt] at hcon
    have h3 : ‖y0 ω - z0 ω‖ ≤ ‖X ω (n * δ) - y0 ω‖ + ‖X ω (n * δ) - z0 ω‖ := by
      rw [show y0 ω - z0 ω = (X ω (n * δ) - z0 ω) - (X ω (n * δ) - y0 ω) by abel]
      exact (norm_sub_le _ _).trans (le_of_eq (add_comm _ _))
    have h4 : A2 * η ≤ |A2| * δ := mul_le_mul (le_abs_self _) hηδ hη0.le (abs_nonneg _)
    linarith [hcon.1, hcon.2]
  refine (measure_mono hsub).trans ((measure_union_le _ _).trans ((add_le_add hy2 hz2).trans ?_))
  rw [← ENNReal.ofReal_add (by positivity) (by positivity), add_halves]

namespace Ivp.Fhn

theorem contDiff_drift : ContDiff ℝ 2 (Function.uncurry drift) := by
  have h : Function.uncurry drift = fun p : Vec 2 × ℝ => fun i => (![1 / eps * p.1 0 + -1 / eps * p.1 1 + (s / eps - p.1 0 ^ 3 / eps),
      gamma * p.1 0 + -1 * p.1 1 + alpha] : Vec 2) i := by
    funext p i
    fin_cases i <;> simp [Function.uncurry, drift, mulVec, dotProduct, Fin.sum_univ_two]
  rw [h]
  refine contDiff_pi.mpr fun i => ?_
  have h0 : ContDiff ℝ 2 fun p : Vec 2 × ℝ => p.1 0 := (contDiff_apply ℝ ℝ (0 : Fin 2)).comp contDiff_fst
  have h1 : ContDiff ℝ 2 fun p : Vec 2 × ℝ => p.1 1 := (contDiff_apply ℝ ℝ (1 : Fin 2)).comp contDiff_fst
  fin_cases i
  · exact ((contDiff_const.mul h0).add (contDiff_const.mul h1)).add (contDiff_const.sub ((h0.pow 3).div_const _))
  · exact ((contDiff_const.mul h0).add (contDiff_const.mul h1)).add contDiff_const

/-- The drift does not push outward faster than linearly, if the noise only acts on the second component. -/
theorem drift_onesided (c : ℝ) (z : Vec 2) (t : ℝ) : z ⬝ᵥ drift (z + ![0, c]) t ≤ (40 + 40 * c ^ 2) * (1 + z ⬝ᵥ z) := by
  simp only [drift, mulVec, dotProduct, Fin.sum_univ_two, eps, gamma, alpha, s, Pi.add_apply, of_apply, cons_val_zero, cons_val_one,
    cons_val_fin_one, add_zero]
  generalize z 0 = p
  generalize z 1 = q
  have h1 : 0 ≤ p ^ 4 := by positivity
  have e : p * (1 / 0.1 * p + -1 / 0.1 * (q + c) + (0 / 0.1 - p ^ 3 / 0.1)) + q * (1.5 * p + -1 * (q + c) + 0.8) =
      10 * p ^ 2 - 8.5 * (p * q) - 10 * (p * c) - 10 * p ^ 4 - q ^ 2 - q * c + 0.8 * q := by
    norm_num
    ring
  rw [e]
  nlinarith [sq_nonneg (p + q), sq_nonneg (p + c), sq_nonneg (q + c), sq_nonneg (q - 1), mul_nonneg (sq_nonneg c) (sq_nonneg p),
    mul_nonneg (sq_nonneg c) (sq_nonneg q), sq_nonneg c, sq_nonneg p, sq_nonneg q]

/-- The FitzHugh-Nagumo equation has a solution along every continuous path of the noise. -/
theorem exists_solution {T : ℝ} (hT : 0 ≤ T) {m : ℕ} (S : Mat 2 m) (hS : ∀ j, S 0 j = 0) (w : ℝ → Vec m) (hw : Continuous w) (y0 : Vec 2) :
    ∃ x, SolvesAdditive drift S w y0 T x := by
  refine exists_solution_onesided contDiff_drift hT S (fun ρ => ?_) hw.continuousOn y0
  obtain ⟨b, hb, hSb⟩ := exists_mulVec_bound S
  refine ⟨40 + 40 * (b * |ρ|) ^ 2, fun v hv z t _ => ?_⟩
  have e : S *ᵥ v = ![0, (S *ᵥ v) 1] := by
    ext i
    fin_cases i
    · simp [mulVec, dotProduct, hS]
    · rfl
  have h1 : |(S *ᵥ v) 1| ≤ b * |ρ| := (norm_le_pi_norm (S *ᵥ v) 1).trans ((hSb v).trans (mul_le_mul_of_nonneg_left (hv.trans (le_abs_self ρ)) hb))
  have h2 : ((S *ᵥ v) 1) ^ 2 ≤ (b * |ρ|) ^ 2 := by
    rw [← sq_abs ((S *ᵥ v) 1)]
    exact pow_le_pow_left₀ (abs_nonneg _) h1 2
  rw [e]
  refine (drift_onesided _ z t).trans (mul_le_mul_of_nonneg_right (by linarith) ?_)
  have := (sq_nonneg ‖z‖).trans (norm_sq_le_dotProduct z)
  linarith

end Ivp.Fhn

/-- C104: FitzHugh-Nagumo itself, as `ivp.py` defines it, with its own diffusion or with the padded square one. -/
theorem C104_fhn {la : LinAlg} (hla : la.Correct) {T : ℝ} (hT : 0 < T) {ε : ℝ} (hε : 0 < ε) :
    (∃ (A : ℝ) (N0 : ℕ), ∀ {Ω : Type} [MeasurableSpace Ω] {Q : Measure Ω} {R : Ω → Rng}, IdealNormals Q R → ∀ N ≥ N0, ∀ M : ℕ, 0 < M →
      ∀ r : ℕ, 0 < r → ∀ σ : ℝ, σ ≠ 0 → ∀ (sqrt : Bool) (rng : Rng) (key : Key) (odeInt : OdeInt (Vec 2) 2),
      (∀ k x vf, Ekf.ekf0 la rng none x vf (T / N / M) M sqrt
        (some ⟨_, IOUP.transition 0 σ 1 (T / N / M) 2⟩) none = .ok (odeInt k x vf (T / N))) →
      ∀ n ≤ N, ∃ y z : Ω → Vec 2,
        (∀ ω, ∃ ts traj traj2, ramSolver (R ω) key Ivp.Fhn.drift Ivp.Fhn.sigma Ivp.Fhn.x0 Ivp.Fhn.x0 (T / N) N r odeInt =
            .ok (ts, traj, traj2) ∧
          ts[n]? = some (n * (T / N)) ∧ traj[n]? = some (y ω) ∧ traj2[n]? = some (z ω)) ∧
        Q {ω | A * (T / N) < ‖y ω - z ω‖} ≤ ENNReal.ofReal ε) ∧
    (∃ (A : ℝ) (N0 : ℕ), ∀ {Ω : Type} [MeasurableSpace Ω] {Q : Measure Ω} {R : Ω → Rng}, IdealNormals Q R → ∀ N ≥ N0, ∀ M : ℕ, 0 < M →
      ∀ r : ℕ, 0 < r → ∀ σ : ℝ, σ ≠ 0 → ∀ (sqrt : Bool) (rng : Rng) (key : Key) (odeInt : OdeInt (Vec 2) 2),
      (∀ k x vf, Ekf.ekf0 la rng none x vf (T / N / M) M sqrt
        (some ⟨_, IOUP.transition 0 σ 1 (T / N / M) 2⟩) none = .ok (odeInt k x vf (T / N))) →
      ∀ n ≤ N, ∃ y z : Ω → Vec 2,
        (∀ ω, ∃ ts traj traj2, ramSolver (R ω) key Ivp.Fhn.drift Ivp.Fhn.sigmaSquare Ivp.Fhn.x0 Ivp.Fhn.x0 (T / N) N r odeInt =
            .ok (ts, traj, traj2) ∧
          ts[n]? = some (n * (T / N)) ∧ traj[n]? = some (y ω) ∧ traj2[n]? = some (z ω)) ∧
        Q {ω | A * (T / N) < ‖y ω - z ω‖} ≤ ENNReal.ofReal ε) := by
  have e2 : Ivp.Fhn.sigmaSquare = fun _ _ => !![0, 0; Ivp.Fhn.sig, 0] := by
    funext x t
    simp [Ivp.Fhn.sigmaSquare, Ivp.Fhn.sigma]
  constructor
  · exact C104_measured hla (by norm_num) Ivp.Fhn.contDiff_drift hT (!![0; Ivp.Fhn.sig]) Ivp.Fhn.x0
      (fun w hw => Ivp.Fhn.exists_solution hT.le _ (fun j => by fin_cases j; rfl) w hw _) hε
  · rw [e2]
    exact C104_measured hla (by norm_num) Ivp.Fhn.contDiff_drift hT (!![0, 0; Ivp.Fhn.sig, 0]) Ivp.Fhn.x0
      (fun w hw => Ivp.Fhn.exists_solution hT.le _ (fun j => by fin_cases j <;> rfl) w hw _) hε

/-- C103 and C104: a generator and a filter that satisfy the hypotheses. -/
example {la : LinAlg} (hla : la.Correct) : ∃ (A : ℝ) (N0 : ℕ), ∀ N ≥ N0, 0 < N → ∃ y z : _ → Vec 2,
    (∀ ω, ∃ ts traj traj2, ramSolver (drawsRng ω) [] Ivp.Fhn.drift Ivp.Fhn.sigma Ivp.Fhn.x0 Ivp.Fhn.x0 (1 / N) N 7
      (fun _ x vf δ => (trapScheme vf (δ / (1 : ℕ)) x 1).1) = .ok (ts, traj, traj2) ∧ traj[N]? = some (y ω) ∧ traj2[N]? = some (z ω)) ∧
    drawsMeasure {ω | A * (1 / N) < ‖y ω - z ω‖} ≤ ENNReal.ofReal 0.01 := by
  obtain ⟨A, N0, hA⟩ := (C104_fhn hla one_pos (by norm_num : (0 : ℝ) < 0.01)).1
  refine ⟨A, N0, fun N hN hN0 => ?_⟩
  have hN' : (0 : ℝ) < N := by exact_mod_cast hN0
  obtain ⟨y, z, h1, h2⟩ := hA idealNormals_drawsRng N hN 1 one_pos 7 (by norm_num) 1 one_ne_zero false ⟨fun _ _ _ => 0⟩ []
    (fun _ x vf δ => (trapScheme vf (δ / (1 : ℕ)) x 1).1)
    (fun _ x vf => C43_trapezoidal hla ⟨fun _ _ _ => 0⟩ (by norm_num : 0 < 2) vf one_ne_zero (by positivity : 0 < 1 / (N : ℝ) / (1 : ℕ)) x 1
      false) N le_rfl
  refine ⟨y, z, fun ω => ?_, h2⟩
  obtain ⟨ts, traj, traj2, g1, -, g2, g3⟩ := h1 ω
  exact ⟨ts, traj, traj2, g1, g2, g3⟩

end Verif
