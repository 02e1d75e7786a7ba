import Verif.Lemmas.SdeSolver
import Mathlib.Data.Int.CardIntervalMod

/-!
# Property C07: the progress bar
-/

namespace Verif

open Jnp

namespace ProgressBar

/-- A scan with a decorated body, keeping the emitted events of each iteration. -/
def loggedScan {S I O : Type*} (numSamples : ℕ) (f : S → ℕ × I → S × O) (s : S) (inps : List (ℕ × I)) :
    S × List (O × List Event) :=
  scan (fun s x => let r := wrap numSamples f s x; (r.1.1, (r.1.2, r.2))) s inps

/-- What a user of the bar expects of its life cycle: created first, then updates that sum to the total, then
closed. -/
def GoodLog (numSamples : ℕ) (log : List Event) : Prop :=
  ∃ us : List ℕ, log = .define :: us.map .update ++ [.close] ∧ us.sum = numSamples

theorem printRate_pos (N : ℕ) : 0 < printRate N := by
  unfold printRate; split <;> omega

/-- The updates of one iteration. -/
def iterUpdates (N i : ℕ) : List ℕ :=
  (if i % printRate N = 0 ∧ i ≠ N - remainder N then [printRate N] else []) ++
  (if i = N - remainder N then [remainder N] else [])

theorem iterEvents_eq (N i : ℕ) : iterEvents N i =
    (if i = 0 then [.define] else []) ++ (iterUpdates N i).map .update ++ (if i + 1 = N then [.close] else []) := by
  unfold iterEvents updateProgressBar iterUpdates
  split_ifs <;> simp

theorem flatten_events (N n : ℕ) (h1 : 1 ≤ n) (hn : n < N) :
    ((List.range n).map (iterEvents N)).flatten =
      .define :: (((List.range n).map (iterUpdates N)).flatten.map .update) := by
  induction n, h1 using Nat.le_induction with
  | base => have h : ¬ N = 1 := by omega
            simp [iterEvents_eq, h, eq_comm]
  | succ n h1 ih =>
    have ih := ih (by omega)
    rw [List.range_succ, List.map_append, List.map_append, List.flatten_append, List.flatten_append, ih]
    have h0 : n ≠ 0 := by omega
    have h2 : n + 1 ≠ N := by omega
    simp [iterEvents_eq, h0, h2]

theorem flatten_events_all (N : ℕ) (hN : 1 ≤ N) :
    ((List.range N).map (iterEvents N)).flatten =
      .define :: (((List.range N).map (iterUpdates N)).flatten.map .update) ++ [.close] := by
  obtain ⟨n, rfl⟩ : ∃ n, N = n + 1 := ⟨N - 1, by omega⟩
  rw [List.range_succ, List.map_append, List.map_append, List.flatten_append, List.flatten_append]
  rcases Nat.eq_zero_or_pos n with rfl | hn
  · simp [iterEvents_eq]
  · rw [flatten_events (n + 1) n hn (by omega)]
    have h0 : n ≠ 0 := by omega
    simp [iterEvents_eq, h0]

theorem sum_flatten (N n : ℕ) : ((List.range n).map (iterUpdates N)).flatten.sum =
    ∑ i ∈ Finset.range n, (iterUpdates N i).sum := by
  induction n with
  | zero => simp
  | succ n ih =>
    rw [List.range_succ, List.map_append, List.flatten_append, List.sum_append, ih, Finset.sum_range_succ]
    simp

theorem sum_updates (N : ℕ) : ∑ i ∈ Finset.range N, (iterUpdates N i).sum = N := by
  set p := printRate N with hp
  have hp0 : 0 < p := printRate_pos N
  set r := remainder N with hr
  have hrp : r = N % p := rfl
  have hrN : r ≤ N := by rw [hrp]; exact Nat.mod_le _ _
  have hmul : (N - r) % p = 0 := by
    rw [hrp]
    exact Nat.mod_eq_zero_of_dvd (Nat.dvd_sub_mod N)
  have key : ∀ i, (iterUpdates N i).sum + (if i = N - r then p else 0) =
      (if i % p = 0 then p else 0) + (if i = N - r then r else 0) := by
    intro i
    unfold iterUpdates
    rw [← hp, ← hr]
    by_cases h1 : i = N - r
    · subst h1; simp [hmul, add_comm]
    · by_cases h2 : i % p = 0 <;> simp [h1, h2]
  have hs : ∑ i ∈ Finset.range N, (iterUpdates N i).sum + (if N - r < N then p else 0) =
      (∑ i ∈ Finset.range N, if i % p = 0 then p else 0) + (if N - r < N then r else 0) := by
    have := Finset.sum_congr (rfl : Finset.range N = Finset.range N) (fun i _ => key i)
    rw [Finset.sum_add_distrib, Finset.sum_add_distrib, Finset.sum_ite_eq', Finset.sum_ite_eq'] at this
    simpa using this
  have hc : (∑ i ∈ Finset.range N, if i % p = 0 then p else 0) = (N / p + if 0 < r then 1 else 0) * p := by
    rw [← Finset.sum_filter, Finset.sum_const, smul_eq_mul]
    congr 1
    have := Nat.count_modEq_card N hp0 0
    rw [Nat.count_eq_card_filter_range] at this
    rw [Nat.zero_mod, ← hrp] at this
    rw [← this]
    exact congrArg _ (Finset.filter_congr fun i _ => by simp [Nat.ModEq])
  rw [hc] at hs
  have hdiv := Nat.div_add_mod N p
  rw [← hrp, mul_comm] at hdiv
  by_cases h0 : 0 < r
  · have hlt : N - r < N := by omega
    simp only [h0, hlt, if_true, add_mul, one_mul] at hs
    omega
  · have hlt : ¬ N - r < N := by omega
    simp only [h0, hlt, if_false, add_zero] at hs
    omega

end ProgressBar

open ProgressBar

/-- C07: decorating a scan body with the progress bar changes neither the final carry nor the outputs. -/
theorem C07_transparent {S I O : Type*} (numSamples : ℕ) (f : S → ℕ × I → S × O) (s : S) (inps : List (ℕ × I)) :
    let r := loggedScan numSamples f s inps
    (r.1, r.2.map (·.1)) = scan f s inps := by
  induction inps generalizing s with
  | nil => rfl
  | cons i is ih =>
    have ih := ih (f s i).1
    simp only [loggedScan, scan_cons, wrap_fst, List.map_cons] at ih ⊢
    rw [← ih]

/-- C07: over inputs numbered `0, ..., n-1` with `n ≥ 1` the bar is defined once, before any update; the updates sum to
exactly `n`; it is closed once, after all updates. -/
theorem C07_log {S I O : Type*} (f : S → ℕ × I → S × O) (s : S) (inps : List I) (hn : 1 ≤ inps.length) :
    GoodLog inps.length
      ((loggedScan inps.length f s ((List.range inps.length).zip inps)).2.map (·.2)).flatten := by
  have h : ∀ (N : ℕ) (xs : List (ℕ × I)) (s : S),
      (loggedScan N f s xs).2.map (·.2) = (xs.map (·.1)).map (iterEvents N) := by
    intro N xs
    induction xs with
    | nil => intro s; rfl
    | cons x xs ih =>
      intro s
      have := ih (f s x).1
      simp only [loggedScan, scan_cons, wrap_fst, wrap_snd, List.map_cons] at this ⊢
      rw [this]
  rw [h, List.map_fst_zip (by simp), flatten_events_all _ hn]
  exact ⟨_, rfl, by rw [sum_flatten, sum_updates]⟩

/-- C07 for a run of `sde_solver`: the bar it shows. -/
theorem C07_sde_solver_log {X C : Type} {d m : ℕ} (rng : Rng) (key : Key) (drift : Field d) (sigma : Diffusion d m) (x0 : X)
    (bm : BmApprox C m) (δ : ℝ) (N : ℕ) (odeInt : OdeInt X d) (hN : 1 ≤ N) :
    GoodLog N (sdeSolverLog rng key drift sigma x0 bm δ N odeInt).2 := by
  rw [sdeSolverLog_eq]
  simp only
  rw [flatten_events_all N hN]
  exact ⟨_, rfl, by rw [sum_flatten, sum_updates]⟩

/-- C07 hypotheses: for 2500 samples the print rate is 2 and every update is 2. -/
example : 1 ≤ 2500 ∧ printRate 2500 = 2 ∧ remainder 2500 = 0 := by
  refine ⟨?_, ?_, ?_⟩ <;> simp [remainder, printRate]

/-- For 2501 samples the last update is the remainder 1. -/
example : printRate 2501 = 2 ∧ remainder 2501 = 1 := by
  constructor <;> simp [remainder, printRate]

end Verif
