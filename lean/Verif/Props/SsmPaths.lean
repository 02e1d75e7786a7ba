import Verif.Lemmas.SsmProb
import Verif.Model.ScriptsSsm
import Verif.Model.Ivp
import Verif.Props.FhnOrder
import Verif.Props.Ito
import Verif.Props.LowMemory
import Verif.Props.Ssm

/-!
# Property C125: what the pathwise experiment of Algorithm 4 shows
-/

namespace Verif

open Matrix Spec Jnp Set MeasureTheory ProbabilityTheory Scripts Filter
open scoped NNReal ENNReal

variable {d m : ℕ}

/-- The loop of Algorithm 4 with an integrator that does not raise. -/
theorem ssmSolver_states {C : Type} (key : Key) (f : Field d) (sigma : Diffusion d m) (x0 : Vec d) (δ : ℝ) (N : ℕ) (solver : SsmIntE C d m)
    (hs : ∀ k x vf g, ∃ r, solver k x vf g δ = .ok r) :
    ∃ z : ℕ → Vec d, z 0 = x0 ∧ (∀ k < N, ∃ i, solver ((key.child N k).child 2 1) (z k) (fun x t => f x (t + k * δ))
        (fun x t => sigma x (t + k * δ)) δ = .ok (z (k + 1), i)) ∧
      ∃ ts path, ssmSolver key f sigma x0 δ N solver = .ok (ts, path) ∧ ∀ n ≤ N, path[n]? = some (z n) := by
  choose S hS using hs
  have hb : ∀ x inp, ssmBody f sigma δ solver x inp =
      .ok (S (inp.1.child 2 1) x (fun z t => f z (t + inp.2)) (fun z t => sigma z (t + inp.2))).1 := fun x inp => by
    rw [ssmBody, hS]
    rfl
  obtain ⟨g, hg⟩ : ∃ g : Vec d → ℕ → Vec d, ∀ x k, g x k = (S ((key.child N k).child 2 1) x (fun z t => f z (t + k * δ))
    (fun z t => sigma z (t + k * δ))).1 := ⟨_, fun _ _ => rfl⟩
  have hz : ∀ k < N, (scan (fun s i => (g s i, g s i)) x0 (List.range (k + 1))).1 =
      g (scan (fun s i => (g s i, g s i)) x0 (List.range k)).1 k := fun k _ => by
    have h := scan_take_succ_fst (fun s i => (g s i, g s i)) x0 (List.range (k + 1)) k k (by simp)
    rw [List.take_of_length_le (by simp), List.take_range, min_eq_left (Nat.le_succ k)] at h
    exact h
  refine ⟨fun k => (scan (fun s i => (g s i, g s i)) x0 (List.range k)).1, rfl, fun k hk => ?_, ?_⟩
  · have h : ∀ r : Vec d × C, r.1 = (scan (fun s i => (g s i, g s i)) x0 (List.range (k + 1))).1 → ∃ i,
        (Except.ok r : Except PyErr (Vec d × C)) = .ok ((scan (fun s i => (g s i, g s i)) x0 (List.range (k + 1))).1, i) := fun r hr =>
      ⟨r.2, by rw [← hr]⟩
    simp only [hS]
    refine h _ ?_
    rw [hz k hk, hg]
  · have hin : (key.split N).zip (linspace 0 (N * δ) (N + 1)).dropLast = (List.range N).map fun k => (key.child N k, (k : ℝ) * δ) := by
      rw [linspace_grid_dropLast, Key.split, zip_map_range]
    have hrun : scanE (ssmBody f sigma δ solver) x0 ((key.split N).zip (linspace 0 (N * δ) (N + 1)).dropLast) =
        .ok (scan (fun s i => (g s i, g s i)) x0 (List.range N)).2 := by
      rw [hin, ← scanE_map]
      refine scanE_pure (fun s k => ?_) x0 _
      rw [hb, hg]
    refine ⟨linspace 0 (N * δ) (N + 1), x0 :: (scan (fun s i => (g s i, g s i)) x0 (List.range N)).2, ?_, fun n hn => ?_⟩
    · rw [ssmSolver, hrun, ← insertArr_eq]
      rfl
    · rw [traj_getElem? g x0 _ n (by simpa using hn), List.take_range, min_eq_left hn]

/-- What the experiment saves for the `j`-th key, with the wrapper repaired. -/
theorem ssmExperiment_states (la : LinAlg) (rng : Rng) (f : Field d) (S : Mat d d) (x0 : Vec d) (δ : ℝ) (N : ℕ) {keys : List Key} {j : ℕ}
    {key : Key} (hj : keys[j]? = some key) :
    ∃ z : ℕ → Vec d, z 0 = x0 ∧ (∀ k < N, ∃ i, Ssm.wrapperFixed la rng true (some ((key.child N k).child 2 1)) (z k) δ
        (fun x t => f x (t + k * δ)) (fun _ _ => S) δ 1 true (some ⟨2, IOUP.transition 0 1 1 δ 1⟩) none = .ok (z (k + 1), i)) ∧
      ∃ sols path, ssmExperiment (ssmFilterFixed la rng true) keys f (fun _ _ => S) x0 δ N 1 = .ok sols ∧ sols[j]? = some path ∧
        ∀ n ≤ N, path[n]? = some (z n) := by
  have h1 : (toStratonovich f (fun _ _ => S)).1 = f := (C10_additive_noise f fun _ => S).2
  have h2 : (toStratonovich f (fun _ _ => S)).2 = fun _ _ => S := rfl
  obtain ⟨solver, hsolver⟩ : ∃ solver : SsmIntE (Vec d × Vec d) d d, solver = fun key init drift diffusion T =>
    ssmFilterFixed la rng true key init T drift diffusion (T / (1 : ℕ)) 1 true := ⟨_, rfl⟩
  have hs : ∀ k x vf g, ∃ r, solver k x vf g δ = .ok r := fun k x vf g => by
    rw [hsolver]
    exact C58_partial la rng true (some k) x δ vf g (δ / (1 : ℕ)) 1 true none (Or.inl rfl) none (Or.inl rfl)
  choose z hz0 hzs ts path hp hn using fun key => ssmSolver_states key f (fun _ _ => S) x0 δ N solver hs
  have hrun : ssmExperiment (ssmFilterFixed la rng true) keys f (fun _ _ => S) x0 δ N 1 = .ok (keys.map path) := by
    rw [ssmExperiment]
    simp only [h1, h2]
    rw [← hsolver, mapM_ok keys (fun k _ => hp k)]
    change Except.ok (List.map (·.2) (keys.map fun k => (ts k, path k))) = _
    rw [List.map_map]
    rfl
  refine ⟨z key, hz0 key, fun k hk => ?_, keys.map path, path key, hrun, by rw [List.getElem?_map, hj]; rfl, hn key⟩
  obtain ⟨i, hi⟩ := hzs key k hk
  refine ⟨i, ?_⟩
  rw [hsolver] at hi
  simp only [ssmFilterFixed, Nat.cast_one, div_one] at hi
  rw [← Ssm.wrapperFixed_default]
  exact hi

/-- C125 fails of the code: with either filter, for every problem with a square diffusion, the experiment raises TypeError as soon as there
are a key and an interval, and so does the script. -/
theorem C125_fails (la : LinAlg) (rng : Rng) (EKF0 : Bool) (drift : Field d) (sigma : Diffusion d d) (x0 : Vec d) :
    (∀ (keys : List Key) (δ : ℝ) (N M : ℕ), keys ≠ [] → 0 < N →
      ssmExperiment (ssmFilter la rng EKF0) keys drift sigma x0 δ N M = .error .typeError) ∧
    ∀ (key : Key) (samples : ℕ), 0 < samples → ssmScript (ssmFilter la rng EKF0) key samples drift sigma x0 = .error .typeError := by
  have h1 : ∀ (keys : List Key) (δ : ℝ) (N M : ℕ), keys ≠ [] → 0 < N →
      ssmExperiment (ssmFilter la rng EKF0) keys drift sigma x0 δ N M = .error .typeError := by
    intro keys δ N M hk hN
    obtain ⟨key, keys, rfl⟩ := List.exists_cons_of_ne_nil hk
    have hw : ∀ k x vf g, ssmFilter la rng EKF0 (m := d) k x δ vf g (δ / M) M true = .error .typeError := fun k x vf g =>
      (C58_fails la rng EKF0 (some k) x δ vf g (δ / M) M true none none).2 rfl (Or.inl rfl)
    obtain ⟨N, rfl⟩ : ∃ N', N = N' + 1 := ⟨N - 1, by omega⟩
    have hs : ssmSolver key (toStratonovich drift sigma).1 (toStratonovich drift sigma).2 x0 δ (N + 1)
        (fun key init drift diffusion T => ssmFilter la rng EKF0 key init T drift diffusion (T / M) M true) = .error .typeError := by
      rw [ssmSolver]
      have hin : (key.split (N + 1)).zip (linspace 0 ((N + 1 : ℕ) * δ) (N + 1 + 1)).dropLast =
          (List.range (N + 1)).map fun k => (key.child (N + 1) k, (k : ℝ) * δ) := by
        rw [linspace_grid_dropLast, Key.split, zip_map_range]
      simp only [hin]
      rw [List.range_succ_eq_map, List.map_cons, scanE, ssmBody, hw]
      rfl
    rw [ssmExperiment]
    simp only []
    rw [List.mapM_cons, hs]
    rfl
  refine ⟨h1, fun key samples hsam => ?_⟩
  have hne : key.split samples ≠ [] := by
    rw [Key.split]
    simpa using hsam.ne'
  have hcons : ssmNs = 2 :: (List.range 9).map fun i => 2 ^ (i + 2) := by decide
  rw [ssmScript, hcons, List.mapM_cons, h1 _ _ 2 1 hne (by norm_num)]
  rfl

/-- C125, the part on laws: with the wrapper repaired, along all drifts with two continuous derivatives whose equation has a solution for every continuous
path of the noise, expectations of bounded Lipschitz functions of the saved values tend to those of the solution, uniformly in
the functions, the times of the grid, the keys and the generator. Missing: the code raises (`C125_fails`). -/
theorem C125_law_partial {la : LinAlg} (hla : la.Correct) {f : Field d} (hf : ContDiff ℝ 2 (Function.uncurry f)) {T : ℝ} (hT : 0 < T)
    (S : Mat d d) (x0 : Vec d) (hsol : ∀ w : ℝ → Vec d, Continuous w → ∃ x, SolvesAdditive f S w x0 T x) {Ω' : Type*} [MeasurableSpace Ω']
    {P : Measure Ω'} {B : Fin d → ℝ≥0 → Ω' → ℝ} (hB : IsBrownianVec B P) {X : Ω' → ℝ → Vec d}
    (hX : ∀ᵐ ω ∂P, SolvesAdditive f S (fun t j => B j t.toNNReal ω) x0 T (X ω)) {ε : ℝ} (hε : 0 < ε) :
    ∃ N0 : ℕ, ∀ {Ω : Type} [MeasurableSpace Ω] {Q : Measure Ω} {R : Ω → Rng}, IdealNormals Q R → ∀ N ≥ N0, ∀ (keys : List Key) (j : ℕ)
      (key : Key), keys[j]? = some key → ∀ n ≤ N, ∃ z : Ω → Vec d,
        (∀ ω, ∃ sols path, ssmExperiment (ssmFilterFixed la (R ω) true) keys f (fun _ _ => S) x0 (T / N) N 1 = .ok sols ∧
          sols[j]? = some path ∧ path[n]? = some (z ω)) ∧
        AEMeasurable z Q ∧ AEMeasurable (fun ω => X ω (n * (T / N))) P ∧
        ∀ g : Vec d → ℝ, LipschitzWith 1 g → (∀ x, |g x| ≤ 1) → |∫ ω, g (z ω) ∂Q - ∫ ω, g (X ω (n * (T / N))) ∂P| ≤ ε := by
  obtain ⟨B2, hB2⟩ := Levy.exists_brownianVec (d + d)
  obtain ⟨P2, hP2⟩ : ∃ P2 : Measure (Fin (d + d) → ℕ × ℕ → ℝ), P2 = Measure.pi fun _ => Levy.noise := ⟨_, rfl⟩
  rw [← hP2] at hB2
  have hB1 := hB2.comp_inj (Fin.castAdd_injective d d)
  have : IsProbabilityMeasure P := hB.isProb
  have : IsProbabilityMeasure P2 := hB2.isProb
  obtain ⟨X2, hX2⟩ := hB1.exists_solution_of_paths hsol
  obtain ⟨η, hη⟩ : ∃ η, η = ε / 9 := ⟨_, rfl⟩
  have hη0 : 0 < η := by rw [hη]; positivity
  obtain ⟨A1, N1, h1⟩ := heun_prob hB2 hf hT S x0 hX2 1 hη0
  obtain ⟨A2, N2, h2⟩ := C103_em hB1 hf hT S x0 hX2 hη0
  obtain ⟨A3, N3, h3⟩ := C103_em hB hf hT S x0 hX hη0
  obtain ⟨A, hA⟩ : ∃ A, A = |A1| + |A2| + |A3| := ⟨_, rfl⟩
  obtain ⟨N4, hN4⟩ := exists_nat_gt (A * T / η)
  refine ⟨N1 + N2 + N3 + N4 + 1, ?_⟩
  intro Ω _ Q R hR N hN keys j key hj n hn
  have hN0 : 0 < N := by omega
  have hN' : (0 : ℝ) < N := by exact_mod_cast hN0
  obtain ⟨δ, hδdef⟩ : ∃ δ, δ = T / N := ⟨_, rfl⟩
  have hδ : 0 < δ := by rw [hδdef]; positivity
  have hsmall : A * δ ≤ η := by
    have hNN : (N4 : ℝ) ≤ N := by exact_mod_cast (by omega : N4 ≤ N)
    rw [hδdef, ← mul_div_assoc, div_le_iff₀ hN']
    rw [div_lt_iff₀ hη0] at hN4
    nlinarith
  have hle : ∀ A' : ℝ, |A'| ≤ A → A' * δ ≤ η := fun A' h => (mul_le_mul_of_nonneg_right ((le_abs_self A').trans h) hδ.le).trans hsmall
  have h1' := h1 N (by omega)
  obtain ⟨y2, hy2, hy2p⟩ := h2 N (by omega) n hn
  obtain ⟨y3, hy3, hy3p⟩ := h3 N (by omega) n hn
  rw [← hδdef] at h1' hy2 hy2p hy3 hy3p ⊢
  obtain ⟨Y, hY0, hYs⟩ : ∃ Y : ℕ → (Fin (d + d) → ℕ × ℕ → ℝ) → Vec d, (∀ ω, Y 0 ω = x0) ∧ ∀ k < N, ∀ ω, Y (k + 1) ω =
      Ssm.heun f δ (k * δ) (Y k ω) +
        S *ᵥ (fun j => B2 (Fin.castAdd d j) ((k + 1 : ℕ) * δ).toNNReal ω - B2 (Fin.castAdd d j) (k * δ).toNNReal ω) +
        (1 * Real.sqrt (δ ^ 3 / 12) * (1 / Real.sqrt δ)) •
          fun j => B2 (Fin.natAdd d j) ((k + 1 : ℕ) * δ).toNNReal ω - B2 (Fin.natAdd d j) (k * δ).toNNReal ω :=
    ⟨fun k ω => Nat.rec x0 (fun k y => Ssm.heun f δ (k * δ) y +
        S *ᵥ (fun j => B2 (Fin.castAdd d j) ((k + 1 : ℕ) * δ).toNNReal ω - B2 (Fin.castAdd d j) (k * δ).toNNReal ω) +
        (1 * Real.sqrt (δ ^ 3 / 12) * (1 / Real.sqrt δ)) •
          fun j => B2 (Fin.natAdd d j) ((k + 1 : ℕ) * δ).toNNReal ω - B2 (Fin.natAdd d j) (k * δ).toNNReal ω) k, fun _ => rfl, fun _ _ _ => rfl⟩
  choose z hz0 hzs sols path he1 he2 he3 using fun ω => ssmExperiment_states la (R ω) f S x0 δ N hj
  obtain ⟨H, -, -, hlaw⟩ := ssm_run_law hla hR key hδ N one_ne_zero true hf.continuous S x0 hz0 hzs
  have hid := hlaw hB2 Y hY0 hYs n hn
  have hgrid : (n : ℝ) * δ ∈ Icc 0 T := by
    refine ⟨by positivity, ?_⟩
    have : (n : ℝ) ≤ N := by exact_mod_cast hn
    rw [hδdef, mul_div_assoc', div_le_iff₀ hN']
    nlinarith
  have hXm := solution_aemeasurable hB hf hT S x0 hX hgrid
  have hX2m := solution_aemeasurable hB1 hf hT S x0 hX2 hgrid
  have hyy := em_identDistrib hB1 hB hf.continuous S x0 hδ hn hy2 hy3
  refine ⟨fun ω => z ω n, fun ω => ⟨sols ω, path ω, he1 ω, he2 ω, he3 ω n hn⟩, hid.aemeasurable_fst, hXm, fun g hg hgb => ?_⟩
  have hgm := hg.continuous.measurable
  have e1 : ∫ ω, g (z ω n) ∂Q = ∫ ω, g (Y n ω) ∂P2 := (hid.comp hgm).integral_eq
  have e2 : ∫ ω, g (y2 ω) ∂P2 = ∫ ω, g (y3 ω) ∂P := (hyy.comp hgm).integral_eq
  have w1 := weak_of_prob hX2m hid.aemeasurable_snd hη0.le hη0.le ((measure_mono fun ω hω => lt_of_le_of_lt
    (hle A1 (by rw [hA]; linarith [abs_nonneg A2, abs_nonneg A3])) hω).trans (h1' Y hY0 hYs n hn)) hg hgb
  have w2 := weak_of_prob hX2m hyy.aemeasurable_fst hη0.le hη0.le ((measure_mono fun ω hω => lt_of_le_of_lt
    (hle A2 (by rw [hA]; linarith [abs_nonneg A1, abs_nonneg A3])) hω).trans hy2p) hg hgb
  have w3 := weak_of_prob hXm hyy.aemeasurable_snd hη0.le hη0.le ((measure_mono fun ω hω => lt_of_le_of_lt
    (hle A3 (by rw [hA]; linarith [abs_nonneg A1, abs_nonneg A2])) hω).trans hy3p) hg hgb
  rw [e1]
  rw [e2] at w2
  rw [abs_le] at w1 w2 w3 ⊢
  constructor <;> linarith [w1.1, w1.2, w2.1, w2.2, w3.1, w3.2]

/-- C125, the part on paths, "no path convergence": with the wrapper repaired, if the noise reaches some coordinate, the value saved at
the final time stays away from the Euler-Maruyama reference that the other pathwise experiments save for the same key, however small
the interval and however fine the reference: for every level `ε` there is a distance `κ` that is reached with probability at least `1 - ε`. Missing: the code raises (`C125_fails`). -/
theorem C125_paths_partial {la : LinAlg} (hla : la.Correct) {f : Field d} (hf : ContDiff ℝ 2 (Function.uncurry f)) {T : ℝ} (hT : 0 < T)
    (S : Mat d d) (x0 : Vec d) (hsol : ∀ w : ℝ → Vec d, Continuous w → ∃ x, SolvesAdditive f S w x0 T x) {i : Fin d} (hi : S i ≠ 0)
    {ε : ℝ} (hε : 0 < ε) :
    ∃ κ > 0, ∃ N0 : ℕ, ∀ {Ω : Type} [MeasurableSpace Ω] {Q : Measure Ω} {R : Ω → Rng}, IdealNormals Q R → ∀ N ≥ N0, ∀ r : ℕ, 0 < r →
      ∀ (keys : List Key) (j : ℕ) (key : Key), keys[j]? = some key → ∀ {α : Type} (init : α) (odeInt : Ω → OdeInt α d),
      ∃ z y : Ω → Vec d,
        (∀ ω, ∃ sols path, ssmExperiment (ssmFilterFixed la (R ω) true) keys f (fun _ _ => S) x0 (T / N) N 1 = .ok sols ∧
          sols[j]? = some path ∧ path[N]? = some (z ω)) ∧
        (∀ ω, ∃ ts traj traj2, ramSolver (R ω) key f (fun _ _ => S) init x0 (T / N) N r (odeInt ω) = .ok (ts, traj, traj2) ∧
          traj2[N]? = some (y ω)) ∧
        AEMeasurable z Q ∧ AEMeasurable y Q ∧ Q {ω | ‖z ω - y ω‖ ≤ κ} ≤ ENNReal.ofReal ε := by
  obtain ⟨B2, hB2⟩ := Levy.exists_brownianVec (d + d)
  obtain ⟨P2, hP2⟩ : ∃ P2 : Measure (Fin (d + d) → ℕ × ℕ → ℝ), P2 = Measure.pi fun _ => Levy.noise := ⟨_, rfl⟩
  rw [← hP2] at hB2
  have hB1 := hB2.comp_inj (Fin.castAdd_injective d d)
  have : IsProbabilityMeasure P2 := hB2.isProb
  obtain ⟨X2, hX2⟩ := hB1.exists_solution_of_paths hsol
  obtain ⟨κ, hκ, hsp⟩ := solution_spread hB1 hf hT S x0 hX2 hi (half_pos hε)
  obtain ⟨A1, N1, h1⟩ := heun_prob hB2 hf hT S x0 hX2 1 (half_pos hε)
  obtain ⟨N4, hN4⟩ := exists_nat_gt (|A1| * T / (κ / 2))
  refine ⟨κ / 2, by positivity, N1 + N4 + 1, ?_⟩
  intro Ω _ Q R hR N hN r hr keys j key hj α init odeInt
  have : IsProbabilityMeasure Q := (hR.law [] [1] 0 one_pos).isProbabilityMeasure
  have hN0 : 0 < N := by omega
  have hN' : (0 : ℝ) < N := by exact_mod_cast hN0
  obtain ⟨δ, hδdef⟩ : ∃ δ, δ = T / N := ⟨_, rfl⟩
  have hδ : 0 < δ := by rw [hδdef]; positivity
  have hsmall : A1 * δ ≤ κ / 2 := by
    have hNN : (N4 : ℝ) ≤ N := by exact_mod_cast (by omega : N4 ≤ N)
    refine (mul_le_mul_of_nonneg_right (le_abs_self A1) hδ.le).trans ?_
    rw [hδdef, ← mul_div_assoc, div_le_iff₀ hN']
    rw [div_lt_iff₀ (by positivity)] at hN4
    nlinarith
  have hNδ : (N : ℝ) * δ = T := by rw [hδdef]; field_simp
  have h1' := h1 N (by omega)
  rw [← hδdef] at h1' ⊢
  obtain ⟨Y, hY0, hYs⟩ : ∃ Y : ℕ → (Fin (d + d) → ℕ × ℕ → ℝ) → Vec d, (∀ ω, Y 0 ω = x0) ∧ ∀ k < N, ∀ ω, Y (k + 1) ω =
      Ssm.heun f δ (k * δ) (Y k ω) +
        S *ᵥ (fun j => B2 (Fin.castAdd d j) ((k + 1 : ℕ) * δ).toNNReal ω - B2 (Fin.castAdd d j) (k * δ).toNNReal ω) +
        (1 * Real.sqrt (δ ^ 3 / 12) * (1 / Real.sqrt δ)) •
          fun j => B2 (Fin.natAdd d j) ((k + 1 : ℕ) * δ).toNNReal ω - B2 (Fin.natAdd d j) (k * δ).toNNReal ω :=
    ⟨fun k ω => Nat.rec x0 (fun k y => Ssm.heun f δ (k * δ) y +
        S *ᵥ (fun j => B2 (Fin.castAdd d j) ((k + 1 : ℕ) * δ).toNNReal ω - B2 (Fin.castAdd d j) (k * δ).toNNReal ω) +
        (1 * Real.sqrt (δ ^ 3 / 12) * (1 / Real.sqrt δ)) •
          fun j => B2 (Fin.natAdd d j) ((k + 1 : ℕ) * δ).toNNReal ω - B2 (Fin.natAdd d j) (k * δ).toNNReal ω) k, fun _ => rfl, fun _ _ _ => rfl⟩
  choose z hz0 hzs sols path he1 he2 he3 using fun ω => ssmExperiment_states la (R ω) f S x0 δ N hj
  obtain ⟨H, hH1, hH2, hlaw⟩ := ssm_run_law hla hR key hδ N one_ne_zero true hf.continuous S x0 hz0 hzs
  have hid := hlaw hB2 Y hY0 hYs N le_rfl
  obtain ⟨y, hy1, hy2, hdm, hind⟩ := ram_reference_indep hf.continuous S x0 hR (δ := δ) N hr key init odeInt le_rfl (d * (2 + 2))
  refine ⟨fun ω => z ω N, y, fun ω => ⟨sols ω, path ω, he1 ω, he2 ω, he3 ω N le_rfl⟩, hy1, hid.aemeasurable_fst, hy2, ?_⟩
  have hzH : (fun ω => z ω N) = fun ω => H N fun p => (R ω).normalVec ((key.child N p.1).child 2 1) (d * (2 + 2)) p.2 :=
    funext fun ω => hH2 N le_rfl ω
  refine indep_far hy2 hid.aemeasurable_fst ?_ i fun a => ?_
  · rw [hzH]
    exact hind.comp measurable_id (hH1 N)
  · have hm : MeasurableSet {x : Vec d | |x i - a| ≤ κ / 2} := measurableSet_le (by fun_prop) measurable_const
    have e : Q {ω | |z ω N i - a| ≤ κ / 2} = P2 {ω | |Y N ω i - a| ≤ κ / 2} := hid.measure_mem_eq hm
    rw [e]
    have hY := h1' Y hY0 hYs N le_rfl
    rw [hNδ] at hY
    calc P2 {ω | |Y N ω i - a| ≤ κ / 2} ≤ P2 ({ω | |X2 ω T i - a| ≤ κ} ∪ {ω | A1 * δ < ‖X2 ω T - Y N ω‖}) := measure_mono fun ω hω => by
          by_cases hfar : A1 * δ < ‖X2 ω T - Y N ω‖
          · exact Or.inr hfar
          · refine Or.inl ?_
            have hω : |Y N ω i - a| ≤ κ / 2 := hω
            have h3 : |X2 ω T i - Y N ω i| ≤ κ / 2 := (norm_le_pi_norm (X2 ω T - Y N ω) i).trans ((not_lt.1 hfar).trans hsmall)
            rw [mem_setOf_eq]
            rw [abs_le] at hω h3 ⊢
            constructor <;> linarith [hω.1, hω.2, h3.1, h3.2]
      _ ≤ ENNReal.ofReal (ε / 2) + ENNReal.ofReal (ε / 2) := (measure_union_le _ _).trans (add_le_add (hsp a) hY)
      _ = ENNReal.ofReal ε := by
          rw [← ENNReal.ofReal_add (by positivity) (by positivity), add_halves]

/-- C125, the part on paths, as the mean error that the notebooks plot: it stays above a positive constant as the interval tends to zero.
Missing: the code raises (`C125_fails`). -/
theorem C125_error_partial {la : LinAlg} (hla : la.Correct) {f : Field d} (hf : ContDiff ℝ 2 (Function.uncurry f)) {T : ℝ} (hT : 0 < T)
    (S : Mat d d) (x0 : Vec d) (hsol : ∀ w : ℝ → Vec d, Continuous w → ∃ x, SolvesAdditive f S w x0 T x) {i : Fin d} (hi : S i ≠ 0) :
    ∃ κ > 0, ∃ N0 : ℕ, ∀ {Ω : Type} [MeasurableSpace Ω] {Q : Measure Ω} {R : Ω → Rng}, IdealNormals Q R → ∀ N ≥ N0, ∀ r : ℕ, 0 < r →
      ∀ (keys : List Key) (j : ℕ) (key : Key), keys[j]? = some key → ∀ {α : Type} (init : α) (odeInt : Ω → OdeInt α d),
      ∃ z y : Ω → Vec d,
        (∀ ω, ∃ sols path, ssmExperiment (ssmFilterFixed la (R ω) true) keys f (fun _ _ => S) x0 (T / N) N 1 = .ok sols ∧
          sols[j]? = some path ∧ path[N]? = some (z ω)) ∧
        (∀ ω, ∃ ts traj traj2, ramSolver (R ω) key f (fun _ _ => S) init x0 (T / N) N r (odeInt ω) = .ok (ts, traj, traj2) ∧
          traj2[N]? = some (y ω)) ∧
        ENNReal.ofReal κ ≤ ∫⁻ ω, ENNReal.ofReal ‖z ω - y ω‖ ∂Q := by
  obtain ⟨κ, hκ, N0, h⟩ := C125_paths_partial hla hf hT S x0 hsol hi (ε := 1 / 2) (by norm_num)
  refine ⟨κ / 2, by positivity, N0, ?_⟩
  intro Ω _ Q R hR N hN r hr keys j key hj α init odeInt
  have : IsProbabilityMeasure Q := (hR.law [] [1] 0 one_pos).isProbabilityMeasure
  obtain ⟨z, y, h1, h2, hzm, hym, h3⟩ := h hR N hN r hr keys j key hj init odeInt
  refine ⟨z, y, h1, h2, ?_⟩
  have hm : AEMeasurable (fun ω => ENNReal.ofReal ‖z ω - y ω‖) Q := (hzm.sub hym).norm.ennreal_ofReal
  have hmk := mul_meas_ge_le_lintegral₀ hm (ENNReal.ofReal κ)
  refine le_trans ?_ hmk
  have hhalf : ENNReal.ofReal (1 / 2) ≤ Q {ω | ENNReal.ofReal κ ≤ ENNReal.ofReal ‖z ω - y ω‖} := by
    have hcov : (1 : ℝ≥0∞) ≤ Q {ω | ENNReal.ofReal κ ≤ ENNReal.ofReal ‖z ω - y ω‖} + Q {ω | ‖z ω - y ω‖ ≤ κ} := by
      rw [← measure_univ (μ := Q)]
      refine (measure_mono fun ω _ => ?_).trans (measure_union_le _ _)
      rcases le_total κ ‖z ω - y ω‖ with hle | hle
      · exact Or.inl (ENNReal.ofReal_le_ofReal hle)
      · exact Or.inr hle
    have h1e : (1 : ℝ≥0∞) = ENNReal.ofReal (1 / 2) + ENNReal.ofReal (1 / 2) := by
      rw [← ENNReal.ofReal_add (by norm_num) (by norm_num)]
      norm_num
    have hcov2 := hcov.trans (add_le_add_right h3 _)
    rw [h1e] at hcov2
    exact (ENNReal.add_le_add_iff_right ENNReal.ofReal_ne_top).1 hcov2
  calc ENNReal.ofReal (κ / 2) = ENNReal.ofReal κ * ENNReal.ofReal (1 / 2) := by
        rw [← ENNReal.ofReal_mul hκ.le]
        congr 1
        ring
    _ ≤ _ := mul_le_mul_right hhalf _

/-- C125 for the problem of the script, FitzHugh-Nagumo with the square diffusion, at `T = 1` as there. -/
theorem C125_fhn_partial {la : LinAlg} (hla : la.Correct) :
    ∃ κ > 0, ∃ N0 : ℕ, ∀ {Ω : Type} [MeasurableSpace Ω] {Q : Measure Ω} {R : Ω → Rng}, IdealNormals Q R → ∀ N ≥ N0, ∀ r : ℕ, 0 < r →
      ∀ (keys : List Key) (j : ℕ) (key : Key), keys[j]? = some key → ∀ {α : Type} (init : α) (odeInt : Ω → OdeInt α 2),
      ∃ z y : Ω → Vec 2,
        (∀ ω, ∃ sols path, ssmExperiment (ssmFilterFixed la (R ω) true) keys Ivp.Fhn.drift Ivp.Fhn.sigmaSquare Ivp.Fhn.x0 (1 / N) N 1 =
            .ok sols ∧ sols[j]? = some path ∧ path[N]? = some (z ω)) ∧
        (∀ ω, ∃ ts traj traj2, ramSolver (R ω) key Ivp.Fhn.drift Ivp.Fhn.sigmaSquare init Ivp.Fhn.x0 (1 / N) N r (odeInt ω) =
            .ok (ts, traj, traj2) ∧ traj2[N]? = some (y ω)) ∧
        ENNReal.ofReal κ ≤ ∫⁻ ω, ENNReal.ofReal ‖z ω - y ω‖ ∂Q := by
  have e2 : Ivp.Fhn.sigmaSquare = fun _ _ => !![0, 0; Ivp.Fhn.sig, 0] := by
    funext x t
    simp [Ivp.Fhn.sigmaSquare, Ivp.Fhn.sigma]
  rw [e2]
  exact C125_error_partial hla Ivp.Fhn.contDiff_drift one_pos (!![0, 0; Ivp.Fhn.sig, 0]) Ivp.Fhn.x0
    (fun w hw => Ivp.Fhn.exists_solution zero_le_one _ (fun j => by fin_cases j <;> rfl) w hw _) (i := 1) fun h => by
      have := congrFun h 0
      norm_num [Ivp.Fhn.sig] at this

/-- C125: the hypotheses of `C125_fails` are met by the script (100000 samples). -/
example (la : LinAlg) (rng : Rng) : ssmScript (ssmFilter la rng true) [] 100000 Ivp.Fhn.drift Ivp.Fhn.sigmaSquare Ivp.Fhn.x0 =
    .error .typeError := (C125_fails la rng true _ _ _).2 [] 100000 (by norm_num)

/-- C125: a generator, keys and a reference that satisfy the hypotheses of `C125_paths_partial` and `C125_error_partial`. -/
example {la : LinAlg} (hla : la.Correct) : ∃ κ > 0, ∃ N0 : ℕ, ∀ N ≥ N0, ∃ z y : _ → Vec 2,
    (∀ ω, ∃ sols path, ssmExperiment (ssmFilterFixed la (drawsRng ω) true) (Key.split [] 3) Ivp.Fhn.drift Ivp.Fhn.sigmaSquare Ivp.Fhn.x0 (1 / N)
      N 1 = .ok sols ∧ sols[2]? = some path ∧ path[N]? = some (z ω)) ∧
    (∀ ω, ∃ ts traj traj2, ramSolver (drawsRng ω) (Key.child [] 3 2) Ivp.Fhn.drift Ivp.Fhn.sigmaSquare Ivp.Fhn.x0 Ivp.Fhn.x0 (1 / N) N 7
      (fun _ x vf δ => (trapScheme vf (δ / (1 : ℕ)) x 1).1) = .ok (ts, traj, traj2) ∧ traj2[N]? = some (y ω)) ∧
    ENNReal.ofReal κ ≤ ∫⁻ ω, ENNReal.ofReal ‖z ω - y ω‖ ∂drawsMeasure := by
  obtain ⟨κ, hκ, N0, h⟩ := C125_fhn_partial hla
  exact ⟨κ, hκ, N0, fun N hN => h idealNormals_drawsRng N hN 7 (by norm_num) (Key.split [] 3) 2 (Key.child [] 3 2) (by simp [Key.split])
    Ivp.Fhn.x0 fun _ _ x vf δ => (trapScheme vf (δ / (1 : ℕ)) x 1).1⟩

/-- C125: a Brownian motion, a solution and a generator that satisfy the hypotheses of `C125_law_partial`, on FitzHugh-Nagumo. -/
example {la : LinAlg} (hla : la.Correct) : ∃ (P : Measure (Fin 2 → ℕ × ℕ → ℝ)) (X : (Fin 2 → ℕ × ℕ → ℝ) → ℝ → Vec 2) (N0 : ℕ),
    ∀ N ≥ N0, ∃ z : _ → Vec 2,
      (∀ ω, ∃ sols path, ssmExperiment (ssmFilterFixed la (drawsRng ω) true) [[]] Ivp.Fhn.drift (fun _ _ => !![0, 0; Ivp.Fhn.sig, 0]) Ivp.Fhn.x0
        (1 / N) N 1 = .ok sols ∧ sols[0]? = some path ∧ path[N]? = some (z ω)) ∧
      ∀ g : Vec 2 → ℝ, LipschitzWith 1 g → (∀ x, |g x| ≤ 1) → |∫ ω, g (z ω) ∂drawsMeasure - ∫ ω, g (X ω (N * (1 / N))) ∂P| ≤ 0.01 := by
  obtain ⟨B, hB⟩ := Levy.exists_brownianVec 2
  have hsol : ∀ w : ℝ → Vec 2, Continuous w → ∃ x, SolvesAdditive Ivp.Fhn.drift !![0, 0; Ivp.Fhn.sig, 0] w Ivp.Fhn.x0 1 x := fun w hw =>
    Ivp.Fhn.exists_solution zero_le_one _ (fun j => by fin_cases j <;> rfl) w hw _
  obtain ⟨X, hX⟩ := hB.exists_solution_of_paths hsol
  obtain ⟨N0, h⟩ := C125_law_partial hla Ivp.Fhn.contDiff_drift one_pos _ _ hsol hB hX (by norm_num : (0 : ℝ) < 0.01)
  refine ⟨Measure.pi fun _ => Levy.noise, X, N0, fun N hN => ?_⟩
  obtain ⟨z, h1, -, -, h2⟩ := h idealNormals_drawsRng N hN [[]] 0 [] rfl N le_rfl
  exact ⟨z, h1, h2⟩

/-- C125, what the script saves: with the wrapper repaired, for additive noise, ten arrays. The one with index `k` holds for every sample a trajectory of
`2 ^ (k + 1)` steps of the filter, each over an interval of length `1 / 2 ^ (k + 1)`, so that all of them end at time one. Missing: the code raises (`C125_fails`). -/
theorem C125_script_partial (la : LinAlg) (rng : Rng) (key : Key) {samples : ℕ} (hsam : 0 < samples) (f : Field d) (S : Mat d d) (x0 : Vec d) :
    ∃ out, ssmScript (ssmFilterFixed la rng true) key samples f (fun _ _ => S) x0 = .ok out ∧ out.length = 10 ∧
      ∀ k < 10, ∀ j < samples, ∃ (sols : List (List (Vec d))) (path : List (Vec d)) (z : ℕ → Vec d), out[k]? = some sols ∧ sols[j]? = some path ∧
        z 0 = x0 ∧ (∀ n ≤ 2 ^ (k + 1), path[n]? = some (z n)) ∧
        ∀ n < 2 ^ (k + 1), ∃ i, Ssm.wrapperFixed la rng true (some (((key.child samples j).child (2 ^ (k + 1)) n).child 2 1)) (z n) (1 / 2 ^ (k + 1))
          (fun x t => f x (t + n / 2 ^ (k + 1))) (fun _ _ => S) (1 / 2 ^ (k + 1)) 1 true (some ⟨2, IOUP.transition 0 1 1 (1 / 2 ^ (k + 1)) 1⟩) none =
            .ok (z (n + 1), i) := by
  have hkey : ∀ j < samples, (key.split samples)[j]? = some (key.child samples j) := fun j hj => by
    rw [Key.split, List.getElem?_map, List.getElem?_range hj]
    rfl
  have hex : ∀ n : ℕ, ∃ sols, ssmExperiment (ssmFilterFixed la rng true) (key.split samples) f (fun _ _ => S) x0 (1 / n) n 1 = .ok sols := fun n => by
    obtain ⟨-, -, -, sols, -, h, -⟩ := ssmExperiment_states la rng f S x0 (1 / n) n (hkey 0 hsam)
    exact ⟨sols, h⟩
  choose sols hsols using hex
  refine ⟨ssmNs.map sols, ?_, by simp [ssmNs], fun k hk j hj => ?_⟩
  · rw [ssmScript]
    exact mapM_ok ssmNs fun n _ => hsols n
  · obtain ⟨z, hz0, hzs, sols', path, h1, h2, h3⟩ := ssmExperiment_states la rng f S x0 (1 / (2 ^ (k + 1) : ℕ)) (2 ^ (k + 1)) (hkey j hj)
    have he := Except.ok.inj (h1.symm.trans (hsols _))
    refine ⟨sols (2 ^ (k + 1)), path, z, ?_, he ▸ h2, hz0, h3, fun n hn => ?_⟩
    · rw [List.getElem?_map, ssmNs, List.getElem?_map, List.getElem?_range hk]
      rfl
    · obtain ⟨i, hi⟩ := hzs n hn
      refine ⟨i, ?_⟩
      simpa only [Nat.cast_pow, Nat.cast_ofNat, mul_one_div] using hi

/-- C125: the script on FitzHugh-Nagumo with one sample; the first array holds the initial value and the states at one half and at one. -/
example (la : LinAlg) (rng : Rng) (key : Key) : ∃ out sols path, ssmScript (ssmFilterFixed la rng true) key 1 Ivp.Fhn.drift (fun _ _ => (1 : Mat 2 2)) Ivp.Fhn.x0 =
    .ok out ∧ out[0]? = some sols ∧ sols[0]? = some path ∧ path[0]? = some Ivp.Fhn.x0 := by
  obtain ⟨out, h1, -, h2⟩ := C125_script_partial la rng key one_pos Ivp.Fhn.drift (1 : Mat 2 2) Ivp.Fhn.x0
  obtain ⟨sols, path, z, h3, h4, h5, h6, -⟩ := h2 0 (by norm_num) 0 one_pos
  exact ⟨out, sols, path, h1, h3, h4, by rw [h6 0 (by norm_num), h5]⟩

end Verif
