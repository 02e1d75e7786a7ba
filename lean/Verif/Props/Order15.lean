import Verif.Lemmas.Order15Scheme
import Verif.Lemmas.WeakLaw
import Verif.Lemmas.LevyBrownian
import Verif.Model.Ivp

/-!
# Property C137: the order of the Itô-Taylor scheme for additive noise
-/

namespace Verif

open Matrix Spec Jnp Set MeasureTheory ProbabilityTheory Filter
open scoped NNReal Topology

variable {d : ℕ}

/-- C137: when the drawn noise is made of the increments and the integrals of a Brownian motion, the scheme of `diag_15_scheme.py`
with a constant diffusion `S`, where `S Sᵀ` is diagonal, has strong order 1.5 in mean square, uniformly over the grid points and the number of steps. -/
theorem C137_strong {Ω : Type*} [MeasurableSpace Ω] {P : Measure Ω} {B : Fin d → ℝ≥0 → Ω → ℝ}
    (hB : IsBrownianVec B P) {b : Vec d → Vec d} {S : Mat d d} (hS : ∀ j k, j ≠ k → ∑ l, S j l * S k l = 0) {T L K K3 K4 : ℝ} (hT : 0 < T) (hb : Smooth15 b S L K K3 K4) (x0 : Vec d)
    {X : Ω → ℝ → Vec d} (hX : ∀ᵐ ω ∂P, SolvesAdditive (fun x _ => b x) S (fun t j => B j t.toNNReal ω) x0 T (X ω)) :
    ∃ A : ℝ, ∀ N : ℕ, 0 < N → ∀ (la : LinAlg) (R : Ω → Rng) (key : Key),
      (∀ᵐ ω ∂P, ∀ k < N, Diag15.noise la (R ω) d (T / N) (key.child N k) =
        (fun j => ∫ t in (0 : ℝ)..T / N, (B j (k * (T / N) + t).toNNReal ω - B j (k * (T / N)).toNNReal ω),
          fun j => B j (k * (T / N) + T / N).toNNReal ω - B j (k * (T / N)).toNNReal ω)) →
      ∀ n ≤ N, ∃ y : Ω → Vec d,
        (∀ ω, ∃ ts xs, Diag15.solver la (R ω) key x0 b (fun _ => S) (T / N) N = .ok (ts, xs) ∧ xs[n]? = some (y ω)) ∧
        Integrable (fun ω => ‖X ω (n * (T / N)) - y ω‖ ^ 2) P ∧ ∫ ω, ‖X ω (n * (T / N)) - y ω‖ ^ 2 ∂P ≤ A * (T / N) ^ 3 := by
  obtain ⟨A, -, hA⟩ := order15_core hB hT hb x0 hX
  refine ⟨A, fun N hN la R key hR n hn => ?_⟩
  have hA' := hA N hN
  have hN' : (0 : ℝ) < N := by exact_mod_cast hN
  obtain ⟨δ, hδdef⟩ : ∃ δ, δ = T / N := ⟨_, rfl⟩
  rw [← hδdef] at hA' hR ⊢
  have hδ : 0 < δ := by rw [hδdef]; positivity
  choose ts xs y h1 h2 h3 h4 using fun ω => diag15_states la (R ω) key x0 hb.diff hS δ N
  obtain ⟨a, ha⟩ : ∃ a : Ω → ℕ → Vec d, ∀ ω k, a ω k = (Diag15.noise la (R ω) d δ (key.child N k)).2 := ⟨_, fun _ _ => rfl⟩
  obtain ⟨c, hc⟩ : ∃ c : Ω → ℕ → Vec d, ∀ ω k, c ω k = fun j => Real.sqrt 6 * ((Diag15.noise la (R ω) d δ (key.child N k)).1 j / δ - a ω k j / 2) :=
    ⟨_, fun _ _ => rfl⟩
  have h6 : Real.sqrt 6 ≠ 0 := by positivity
  have hz : ∀ ω k, δ • ((1 / 2 : ℝ) • a ω k + (1 / Real.sqrt 6) • c ω k) = (Diag15.noise la (R ω) d δ (key.child N k)).1 := fun ω k => by
    funext j
    rw [hc]
    simp only [Pi.smul_apply, Pi.add_apply, smul_eq_mul]
    field_simp
    ring
  have hres := hA' (fun k ω => y ω k) a c (Eventually.of_forall h3) ?_ ?_ n hn
  · exact ⟨fun ω => y ω n, fun ω => ⟨_, _, h1 ω, h2 ω n hn⟩, hres⟩
  · filter_upwards [hR] with ω hω k hk
    have h7 := exists_sameEndAndArea hδ.ne' (pathOf B ω) (k * δ)
    have e1 : a ω k = pathOf B ω (k * δ + δ) - pathOf B ω (k * δ) := by rw [ha, hω k hk]; rfl
    have e2 : c ω k = fun j => Real.sqrt 6 * ((∫ t in (0 : ℝ)..δ, (pathOf B ω (k * δ + t) j - pathOf B ω (k * δ) j)) / δ -
        (pathOf B ω (k * δ + δ) - pathOf B ω (k * δ)) j / 2) := by rw [hc, e1, hω k hk]; rfl
    rw [e1, e2]
    exact h7
  · refine Eventually.of_forall fun ω k hk => ?_
    rw [hz, ha]
    exact h4 ω k hk

/-- C137: with an ideal generator, on any probability space, the law of the output of `diag_15_scheme.py` with a constant
diffusion `S`, where `S Sᵀ` is diagonal, converges to the law of the solution with order 1.5, for every Lipschitz function (so in the Wasserstein distance). -/
theorem C137_law {la : LinAlg} (hla : la.Correct) {Ω : Type*} [MeasurableSpace Ω] {P : Measure Ω} {B : Fin d → ℝ≥0 → Ω → ℝ}
    (hB : IsBrownianVec B P) {b : Vec d → Vec d} {S : Mat d d} (hS : ∀ j k, j ≠ k → ∑ l, S j l * S k l = 0) {T L K K3 K4 : ℝ} (hT : 0 < T) (hb : Smooth15 b S L K K3 K4) (x0 : Vec d)
    {X : Ω → ℝ → Vec d} (hX : ∀ᵐ ω ∂P, SolvesAdditive (fun x _ => b x) S (fun t j => B j t.toNNReal ω) x0 T (X ω)) :
    ∃ A : ℝ, ∀ {Ω' : Type} [MeasurableSpace Ω'] {Q : Measure Ω'} {R : Ω' → Rng}, IdealNormals Q R → ∀ N : ℕ, 0 < N → ∀ (key : Key),
      ∀ n ≤ N, ∃ y : Ω' → Vec d,
        (∀ ω, ∃ ts xs, Diag15.solver la (R ω) key x0 b (fun _ => S) (T / N) N = .ok (ts, xs) ∧ xs[n]? = some (y ω)) ∧
        ∀ (κ : ℝ≥0) (g : Vec d → ℝ), LipschitzWith κ g → Integrable (fun ω => g (y ω)) Q ∧
          Integrable (fun ω => g (X ω (n * (T / N)))) P ∧
          |∫ ω, g (y ω) ∂Q - ∫ ω, g (X ω (n * (T / N))) ∂P| ≤ A * κ * (T / N) ^ (3 / 2 : ℝ) := by
  have hP := hB.isProb
  obtain ⟨A, hA⟩ := C137_strong hB hS hT hb x0 hX
  refine ⟨Real.sqrt (|A| + 1), fun {Ω'} _ {Q} {R} hR N hN key n hn => ?_⟩
  have hN' : (0 : ℝ) < N := by exact_mod_cast hN
  have hA' := hA N hN la
  obtain ⟨δ, hδdef⟩ : ∃ δ, δ = T / N := ⟨_, rfl⟩
  rw [← hδdef] at hA' ⊢
  have hδ : 0 < δ := by rw [hδdef]; positivity
  have hNδ : (N : ℝ) * δ = T := by rw [hδdef]; field_simp
  have hnT : (n : ℝ) * δ ∈ Icc 0 T := ⟨by positivity, by
    rw [← hNδ]; exact mul_le_mul_of_nonneg_right (by exact_mod_cast hn) hδ.le⟩
  choose R0 hR0 using fun ω => exists_rng_noise15 hla key hδ N fun k =>
    ((fun j => ∫ t in (0 : ℝ)..δ, (B j (k * δ + t).toNNReal ω - B j (k * δ).toNNReal ω),
      fun j => B j (k * δ + δ).toNNReal ω - B j (k * δ).toNNReal ω) : Vec d × Vec d)
  obtain ⟨y0, hy0, hy0i, hy0e⟩ := hA' R0 key (Eventually.of_forall hR0) n hn
  choose ts0 xs0 Y hY1 hY2 hY3 hY4 using fun ω => diag15_states la (R0 ω) key x0 hb.diff hS δ N
  choose ts1 xs1 Z hZ1 hZ2 hZ3 hZ4 using fun ω => diag15_states la (R ω) key x0 hb.diff hS δ N
  obtain ⟨Ψ, hΨ⟩ : ∃ Ψ : ℕ → Vec d → (Fin N × (Fin 2 × Fin d) → ℝ) → Vec d, ∀ k y z, Ψ k y z =
      itoTaylorStep b S δ y (fun j => if h : k < N then z (⟨k, h⟩, 0, j) else 0) (fun j => if h : k < N then z (⟨k, h⟩, 1, j) else 0) :=
    ⟨_, fun _ _ _ => rfl⟩
  have hΨm : ∀ k, Measurable fun p : Vec d × (Fin N × (Fin 2 × Fin d) → ℝ) => Ψ k p.1 p.2 := fun k => by
    have hm : ∀ i : Fin 2, Measurable fun (p : Vec d × (Fin N × (Fin 2 × Fin d) → ℝ)) (j : Fin d) => if h : k < N then p.2 (⟨k, h⟩, i, j) else 0 :=
      fun i => measurable_pi_lambda _ fun j => by
        split_ifs with h
        · exact (measurable_pi_apply ((⟨k, h⟩, i, j) : Fin N × (Fin 2 × Fin d))).comp measurable_snd
        · exact measurable_const
    have h1 := (itoTaylorStep_continuous hb δ).measurable.comp (measurable_fst.prodMk ((hm 0).prodMk (hm 1)))
    simp only [Function.comp_def] at h1
    simp only [hΨ]
    exact h1
  have hl0 := brownian_noise15 hB hδ N
  have hl1 := C60_noise hla hR key d hδ N
  have hid := hl0.identDistrib hl1
  have hidn := scheme_identDistrib hid hΨm (Y := fun k ω => Y ω k) (Y' := fun k ω => Z ω k) hY3 hZ3
    (fun k hk ω => by
      rw [hY4 ω k hk, hΨ, hR0 ω k hk]
      simp [hk, coeffVec])
    (fun k hk ω => by
      rw [hZ4 ω k hk, hΨ]
      simp [hk, coeffVec]) n hn
  have hYy : (fun ω => Y ω n) = y0 := funext fun ω => by
    obtain ⟨ts, xs, h1, h2⟩ := hy0 ω
    have h3 := Except.ok.inj ((hY1 ω).symm.trans h1)
    have h4 : xs0 ω = xs := congrArg Prod.snd h3
    rw [← h4] at h2
    exact Option.some.inj ((hY2 ω n hn).symm.trans h2)
  rw [hYy] at hidn
  refine ⟨fun ω => Z ω n, fun ω => ⟨_, _, hZ1 ω, hZ2 ω n hn⟩, fun κ g hg => ?_⟩
  have hp : (δ ^ (3 / 2 : ℝ)) ^ 2 = δ ^ 3 := by
    rw [← Real.rpow_natCast, ← Real.rpow_mul hδ.le]
    norm_num
  have hr : 0 < Real.sqrt (|A| + 1) * δ ^ (3 / 2 : ℝ) := by positivity
  have hle : ∫ ω, ‖X ω (n * δ) - y0 ω‖ ^ 2 ∂P ≤ (Real.sqrt (|A| + 1) * δ ^ (3 / 2 : ℝ)) ^ 2 := by
    rw [mul_pow, Real.sq_sqrt (by positivity), hp]
    exact hy0e.trans (mul_le_mul_of_nonneg_right (by linarith [le_abs_self A]) (by positivity))
  obtain ⟨h1, h2, h3⟩ := weak_of_strong hidn (solution_integrable hB hT (hb.field T) hb.L_nonneg S x0 hX hnT) hy0i hr hle hg
  exact ⟨h1, h2, h3.trans (le_of_eq (by ring))⟩

/-- C137, a problem meeting the hypotheses (diagonal matrices have `S Sᵀ` diagonal): a nonlinear drift in two dimensions driven by the constructed Brownian motion, an ideal
generator, and a generator whose noise is the increments and the integrals. -/
example {la : LinAlg} (hla : la.Correct) (s x0 : Vec 2) : ∃ (B : Fin 2 → ℝ≥0 → (Fin 2 → ℕ × ℕ → ℝ) → ℝ) (X : (Fin 2 → ℕ × ℕ → ℝ) → ℝ → Vec 2)
    (R : (Fin 2 → ℕ × ℕ → ℝ) → Rng),
    IsBrownianVec B (Measure.pi fun _ => Levy.noise) ∧ Smooth15 (fun (x : Vec 2) i => Real.sin (x i)) (diagonal s) 1 1 1 (2 + ‖s‖ ^ 2) ∧
      (∀ᵐ ω ∂(Measure.pi fun _ : Fin 2 => Levy.noise), SolvesAdditive (fun x _ i => Real.sin (x i)) (diagonal s) (fun t j => B j t.toNNReal ω) x0 1 (X ω)) ∧
      (∀ ω, ∀ k < 10, Diag15.noise la (R ω) 2 (1 / 10) (Key.child [] 10 k) =
        (fun j => ∫ t in (0 : ℝ)..1 / 10, (B j ((k : ℝ) * (1 / 10) + t).toNNReal ω - B j ((k : ℝ) * (1 / 10)).toNNReal ω),
          fun j => B j ((k : ℝ) * (1 / 10) + 1 / 10).toNNReal ω - B j ((k : ℝ) * (1 / 10)).toNNReal ω)) ∧ IdealNormals drawsMeasure drawsRng := by
  obtain ⟨B, hB⟩ := Levy.exists_brownianVec 2
  have hb := smooth15_sin s
  have hex : ∀ ω, ∃ X, Continuous (fun (t : ℝ) (j : Fin 2) => B j t.toNNReal ω) →
      SolvesAdditive (fun (x : Vec 2) _ i => Real.sin (x i)) (diagonal s) (fun t j => B j t.toNNReal ω) x0 1 X := fun ω => by
    by_cases h : Continuous (fun (t : ℝ) (j : Fin 2) => B j t.toNNReal ω)
    · obtain ⟨X, hX⟩ := exists_solvesAdditive zero_le_one (hb.field 1).cont (hb.field 1).lip (diagonal s) h.continuousOn x0
      exact ⟨X, fun _ => hX⟩
    · exact ⟨0, fun h' => absurd h' h⟩
  choose X hX using hex
  choose R hR using fun ω => exists_rng_noise15 hla ([] : Key) (by norm_num : (0 : ℝ) < 1 / 10) 10 fun k =>
    ((fun j => ∫ t in (0 : ℝ)..1 / 10, (B j ((k : ℝ) * (1 / 10) + t).toNNReal ω - B j ((k : ℝ) * (1 / 10)).toNNReal ω),
      fun j => B j ((k : ℝ) * (1 / 10) + 1 / 10).toNNReal ω - B j ((k : ℝ) * (1 / 10)).toNNReal ω) : Vec 2 × Vec 2)
  refine ⟨B, X, R, hB, hb, ?_, hR, idealNormals_drawsRng⟩
  filter_upwards [ae_all_iff.mpr fun j => (hB.brownian j).cont] with ω hω
  exact hX ω (continuous_pi fun j => (hω j).comp continuous_real_toNNReal)

/-- C137, the problem `harmonic_oscillator_square` on which the repository tests the scheme meets the hypotheses on the coefficients. -/
example (D gamma sig : ℝ) : (∃ L K4, Smooth15 (fun x => Ivp.Harmonic.M D gamma *ᵥ x) (Ivp.Harmonic.Csquare sig) L 0 0 K4) ∧
    ∀ j k, j ≠ k → ∑ l, Ivp.Harmonic.Csquare sig j l * Ivp.Harmonic.Csquare sig k l = 0 := by
  refine ⟨smooth15_linear _ _, fun j k hjk => ?_⟩
  fin_cases j <;> fin_cases k <;> simp_all [Ivp.Harmonic.Csquare]

end Verif
