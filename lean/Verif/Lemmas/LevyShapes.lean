import Mathlib.Analysis.SpecialFunctions.Pow.Real
import Mathlib.Topology.Algebra.InfiniteSum.Real
import Mathlib.Analysis.Normed.Group.FunctionSeries
import Mathlib.Algebra.Order.Floor.Semiring
import Mathlib.Analysis.SpecificLimits.Basic

/-! Lévy's construction of Brownian motion: the Schauder functions, their kernel, and the continuity of the series. -/

namespace Verif.Levy

open Finset Filter
open scoped Topology

/-- The integral of the indicator function of `[0, 1]`. -/
noncomputable def ramp (s : ℝ) : ℝ := max 0 (min s 1)

/-- The hat function on `[0, 1]`. -/
noncomputable def tent (s : ℝ) : ℝ := max 0 (1 - |2 * s - 1|)

theorem continuous_ramp : Continuous ramp := by unfold ramp; fun_prop

theorem continuous_tent : Continuous tent := by unfold tent; fun_prop

theorem ramp_of_nonpos {s : ℝ} (h : s ≤ 0) : ramp s = 0 := by
  unfold ramp
  exact max_eq_left ((min_le_left _ _).trans h)

theorem ramp_of_one_le {s : ℝ} (h : 1 ≤ s) : ramp s = 1 := by
  unfold ramp
  rw [min_eq_right h, max_eq_right zero_le_one]

theorem ramp_of_mem {s : ℝ} (h0 : 0 ≤ s) (h1 : s ≤ 1) : ramp s = s := by
  unfold ramp
  rw [min_eq_left h1, max_eq_right h0]

theorem tent_of_nonpos {s : ℝ} (h : s ≤ 0) : tent s = 0 := by
  unfold tent
  rw [abs_of_neg (by linarith)]
  exact max_eq_left (by linarith)

theorem tent_of_one_le {s : ℝ} (h : 1 ≤ s) : tent s = 0 := by
  unfold tent
  rw [abs_of_nonneg (by linarith)]
  exact max_eq_left (by linarith)

theorem tent_left {s : ℝ} (h0 : 0 ≤ s) (h1 : s ≤ 1 / 2) : tent s = 2 * s := by
  unfold tent
  rw [abs_of_nonpos (by linarith), max_eq_right (by linarith)]
  ring

theorem tent_right {s : ℝ} (h0 : 1 / 2 ≤ s) (h1 : s ≤ 1) : tent s = 2 - 2 * s := by
  unfold tent
  rw [abs_of_nonneg (by linarith), max_eq_right (by linarith)]
  ring

theorem tent_nonneg (s : ℝ) : 0 ≤ tent s := le_max_left _ _

theorem tent_le_one (s : ℝ) : tent s ≤ 1 := max_le zero_le_one (by linarith [abs_nonneg (2 * s - 1)])

/-- The amplitude of the hats of a level. -/
noncomputable def amp (j : ℕ) : ℝ := Real.sqrt (1 / 2) ^ j / 2

theorem amp_sq (j : ℕ) : amp j * amp j = (1 / 2) ^ j / 4 := by
  unfold amp
  rw [div_mul_div_comm, ← mul_pow, Real.mul_self_sqrt (by norm_num)]
  norm_num

theorem amp_nonneg (j : ℕ) : 0 ≤ amp j := by unfold amp; positivity

/-- The error of the kernel of the first levels. -/
noncomputable def rest (n : ℕ) (s t : ℝ) : ℝ :=
  (1 / 2) ^ n * if ⌊2 ^ n * s⌋₊ = ⌊2 ^ n * t⌋₊ then
    min (2 ^ n * s - ⌊2 ^ n * s⌋₊) (2 ^ n * t - ⌊2 ^ n * t⌋₊) - (2 ^ n * s - ⌊2 ^ n * s⌋₊) * (2 ^ n * t - ⌊2 ^ n * t⌋₊)
  else 0

theorem exists_floor {x : ℝ} (hx : 0 ≤ x) : ∃ (i : ℕ) (u : ℝ), 0 ≤ u ∧ u < 1 ∧ x = i + u ∧ ⌊x⌋₊ = i := by
  refine ⟨⌊x⌋₊, x - ⌊x⌋₊, by linarith [Nat.floor_le hx], by linarith [Nat.lt_floor_add_one x], by ring, rfl⟩

theorem floor_double {i : ℕ} {u : ℝ} (h0 : 0 ≤ u) (h1 : u < 1) :
    ⌊2 * ((i : ℝ) + u)⌋₊ = if u < 1 / 2 then 2 * i else 2 * i + 1 := by
  split_ifs with h
  · rw [Nat.floor_eq_iff (by positivity)]
    push_cast
    constructor <;> linarith
  · rw [Nat.floor_eq_iff (by positivity)]
    push_cast
    constructor <;> linarith

theorem rest_bound {s t : ℝ} (hs : 0 ≤ s) (ht : 0 ≤ t) (n : ℕ) : |rest n s t| ≤ (1 / 2) ^ n := by
  unfold rest
  rw [abs_mul, abs_of_nonneg (by positivity : (0 : ℝ) ≤ (1 / 2) ^ n)]
  refine mul_le_of_le_one_right (by positivity) ?_
  obtain ⟨i, u, hu0, hu1, hx, hi⟩ := exists_floor (by positivity : 0 ≤ 2 ^ n * s)
  obtain ⟨j, v, hv0, hv1, hy, hj⟩ := exists_floor (by positivity : 0 ≤ 2 ^ n * t)
  rw [hi, hj, hx, hy, add_sub_cancel_left, add_sub_cancel_left]
  split_ifs
  · rw [abs_le]
    have h1 : u * v ≤ 1 := by nlinarith
    have h2 : 0 ≤ u * v := by positivity
    have h3 : 0 ≤ min u v := le_min hu0 hv0
    have h4 : min u v ≤ 1 := (min_le_left _ _).trans hu1.le
    constructor <;> linarith
  · simp

theorem rest_tendsto {s t : ℝ} (hs : 0 ≤ s) (ht : 0 ≤ t) : Tendsto (fun n => rest n s t) atTop (𝓝 0) :=
  squeeze_zero_norm (rest_bound hs ht) (tendsto_pow_atTop_nhds_zero_of_lt_one (by norm_num) (by norm_num))

/-- One cell contributes to a level. -/
theorem tent_kernel {x y : ℝ} (hx : 0 ≤ x) (hy : 0 ≤ y) {K : ℕ} (hK : ⌊x⌋₊ < K) :
    ∑ k ∈ range K, tent (x - k) * tent (y - k) = if ⌊x⌋₊ = ⌊y⌋₊ then tent (x - ⌊x⌋₊) * tent (y - ⌊y⌋₊) else 0 := by
  obtain ⟨i, u, hu0, hu1, rfl, hi⟩ := exists_floor hx
  obtain ⟨j, v, hv0, hv1, rfl, hj⟩ := exists_floor hy
  rw [hi] at hK
  rw [hi, hj]
  have hz : ∀ (i : ℕ) (u : ℝ), 0 ≤ u → u < 1 → ∀ k : ℕ, k ≠ i → tent ((i : ℝ) + u - k) = 0 := fun i u hu0 hu1 k hk => by
    rcases lt_or_gt_of_ne hk with h | h
    · have : ((k + 1 : ℕ) : ℝ) ≤ i := by exact_mod_cast h
      push_cast at this
      exact tent_of_one_le (by linarith)
    · have : ((i + 1 : ℕ) : ℝ) ≤ k := by exact_mod_cast h
      push_cast at this
      exact tent_of_nonpos (by linarith)
  rw [Finset.sum_eq_single_of_mem i (mem_range.mpr hK) fun k _ hk => by rw [hz i u hu0 hu1 k hk, zero_mul]]
  split_ifs with h
  · rw [h]
  · rw [hz j v hv0 hv1 i h, mul_zero]

theorem rest_step {s t : ℝ} (hs : 0 ≤ s) (ht : 0 ≤ t) (n : ℕ) {K : ℕ} (hK : ⌊2 ^ n * s⌋₊ < K) :
    ∑ k ∈ range K, (amp n * tent (2 ^ n * s - k)) * (amp n * tent (2 ^ n * t - k)) = rest n s t - rest (n + 1) s t := by
  have e : ∀ k : ℕ, (amp n * tent (2 ^ n * s - k)) * (amp n * tent (2 ^ n * t - k)) =
      (1 / 2) ^ n / 4 * (tent (2 ^ n * s - k) * tent (2 ^ n * t - k)) := fun k => by rw [← amp_sq]; ring
  simp only [e]
  rw [← Finset.mul_sum, tent_kernel (by positivity) (by positivity) hK]
  unfold rest
  have e2 : ∀ r : ℝ, 2 ^ (n + 1) * r = 2 * (2 ^ n * r) := fun r => by rw [pow_succ]; ring
  rw [e2, e2, pow_succ (1 / 2 : ℝ) n]
  obtain ⟨i, u, hu0, hu1, hx, hi⟩ := exists_floor (by positivity : 0 ≤ 2 ^ n * s)
  obtain ⟨j, v, hv0, hv1, hy, hj⟩ := exists_floor (by positivity : 0 ≤ 2 ^ n * t)
  rw [hi, hj, hx, hy, floor_double hu0 hu1, floor_double hv0 hv1]
  simp only [add_sub_cancel_left]
  obtain ⟨q, hq⟩ : ∃ q : ℝ, q = (1 / 2) ^ n := ⟨_, rfl⟩
  rw [← hq]
  by_cases hij : i = j
  · subst hij
    rw [if_pos rfl, if_pos rfl]
    by_cases hu : u < 1 / 2 <;> by_cases hv : v < 1 / 2
    · rw [if_pos hu, if_pos hv, if_pos rfl, tent_left hu0 hu.le, tent_left hv0 hv.le]
      push_cast
      rw [show 2 * ((i : ℝ) + u) - 2 * i = 2 * u by ring, show 2 * ((i : ℝ) + v) - 2 * i = 2 * v by ring,
        ← mul_min_of_nonneg u v (by norm_num : (0 : ℝ) ≤ 2)]
      ring
    · rw [if_pos hu, if_neg hv, if_neg (by omega), tent_left hu0 hu.le, tent_right (not_lt.mp hv) hv1.le, min_eq_left (by linarith)]
      ring
    · rw [if_neg hu, if_pos hv, if_neg (by omega), tent_right (not_lt.mp hu) hu1.le, tent_left hv0 hv.le, min_eq_right (by linarith)]
      ring
    · rw [if_neg hu, if_neg hv, if_pos rfl, tent_right (not_lt.mp hu) hu1.le, tent_right (not_lt.mp hv) hv1.le]
      push_cast
      rw [show 2 * ((i : ℝ) + u) - (2 * i + 1) = 2 * u - 1 by ring, show 2 * ((i : ℝ) + v) - (2 * i + 1) = 2 * v - 1 by ring,
        min_sub_sub_right, ← mul_min_of_nonneg u v (by norm_num : (0 : ℝ) ≤ 2)]
      ring
  · rw [if_neg hij, if_neg hij, if_neg]
    · ring
    · split_ifs <;> omega

theorem rest_zero {s t : ℝ} (hs : 0 ≤ s) (ht : 0 ≤ t) {K : ℕ} (hKs : ⌊s⌋₊ < K) (hKt : ⌊t⌋₊ < K) :
    ∑ k ∈ range K, ramp (s - k) * ramp (t - k) = min s t - rest 0 s t := by
  wlog hst : s ≤ t generalizing s t
  · have := this ht hs hKt hKs (not_le.mp hst).le
    rw [min_comm, show rest 0 s t = rest 0 t s by
      unfold rest
      simp only [pow_zero, one_mul]
      by_cases h : ⌊s⌋₊ = ⌊t⌋₊
      · rw [if_pos h, if_pos h.symm, min_comm, mul_comm]
      · rw [if_neg h, if_neg (Ne.symm h)], ← this]
    exact Finset.sum_congr rfl fun k _ => mul_comm _ _
  unfold rest
  simp only [pow_zero, one_mul]
  obtain ⟨i, u, hu0, hu1, rfl, hi⟩ := exists_floor hs
  obtain ⟨j, v, hv0, hv1, rfl, hj⟩ := exists_floor ht
  rw [hi] at hKs
  rw [hi, hj, min_eq_left hst]
  simp only [add_sub_cancel_left]
  have h1 : ∑ k ∈ range K, ramp ((i : ℝ) + u - k) * ramp ((j : ℝ) + v - k) =
      ∑ k ∈ range (i + 1), ramp ((i : ℝ) + u - k) * ramp ((j : ℝ) + v - k) := by
    refine (Finset.sum_subset (fun k hk => mem_range.mpr ((mem_range.mp hk).trans_le hKs)) fun k _ hk => ?_).symm
    rw [mem_range, not_lt] at hk
    have : ((i + 1 : ℕ) : ℝ) ≤ k := by exact_mod_cast hk
    push_cast at this
    rw [ramp_of_nonpos (by linarith), zero_mul]
  have h2 : ∑ k ∈ range i, ramp ((i : ℝ) + u - k) * ramp ((j : ℝ) + v - k) = i := by
    rw [Finset.sum_congr rfl (g := fun _ => (1 : ℝ))]
    · simp
    · intro k hk
      have : ((k + 1 : ℕ) : ℝ) ≤ i := by exact_mod_cast mem_range.mp hk
      push_cast at this
      rw [ramp_of_one_le (by linarith), ramp_of_one_le (by linarith), one_mul]
  rw [h1, Finset.sum_range_succ, h2, add_sub_cancel_left, ramp_of_mem hu0 hu1.le]
  by_cases hij : i = j
  · subst hij
    rw [if_pos rfl, add_sub_cancel_left, ramp_of_mem hv0 hv1.le, min_eq_left (by linarith)]
    ring
  · have hlt : i < j := by
      rcases lt_or_gt_of_ne hij with h | h
      · exact h
      · exfalso
        have : ((j + 1 : ℕ) : ℝ) ≤ i := by exact_mod_cast h
        push_cast at this
        linarith
    have : ((i + 1 : ℕ) : ℝ) ≤ j := by exact_mod_cast hlt
    push_cast at this
    rw [if_neg hij, ramp_of_one_le (by linarith)]
    ring

/-- The function of a level on one cell, and the scale of a level. -/
noncomputable def shape (j : ℕ) (s : ℝ) : ℝ := if j = 0 then ramp s else amp (j - 1) * tent s

def scale (j : ℕ) : ℝ := 2 ^ (j - 1)

theorem scale_pos (j : ℕ) : 0 < scale j := by unfold scale; positivity

theorem scale_le {j n : ℕ} (h : j ≤ n) : scale j ≤ 2 ^ n := by
  unfold scale
  exact pow_le_pow_right₀ (by norm_num) (by omega)

theorem continuous_shape (j : ℕ) : Continuous (shape j) := by
  unfold shape
  split_ifs
  · exact continuous_ramp
  · exact continuous_tent.const_mul _

theorem shape_of_nonpos (j : ℕ) {s : ℝ} (h : s ≤ 0) : shape j s = 0 := by
  unfold shape
  split_ifs
  · exact ramp_of_nonpos h
  · rw [tent_of_nonpos h, mul_zero]

/-- The kernel of the first levels. -/
theorem kernel_eq {s t : ℝ} (hs : 0 ≤ s) (ht : 0 ≤ t) (n : ℕ) {K : ℕ} (hKs : 2 ^ n * s < K) (hKt : 2 ^ n * t < K) :
    ∑ j ∈ range (n + 1), ∑ k ∈ range K, shape j (scale j * s - k) * shape j (scale j * t - k) = min s t - rest n s t := by
  have hfl : ∀ {j : ℕ} {r : ℝ}, j ≤ n → 0 ≤ r → 2 ^ n * r < K → ⌊2 ^ j * r⌋₊ < K := fun {j r} hj hr h => by
    rw [Nat.floor_lt (by positivity)]
    refine lt_of_le_of_lt (mul_le_mul_of_nonneg_right ?_ hr) h
    exact pow_le_pow_right₀ (by norm_num) hj
  have key : ∀ l ≤ n, ∑ j ∈ range (l + 1), ∑ k ∈ range K, shape j (scale j * s - k) * shape j (scale j * t - k) = min s t - rest l s t := by
    intro l
    induction l with
    | zero =>
      intro _
      rw [zero_add, Finset.sum_range_one]
      have := rest_zero hs ht (K := K) (by simpa using hfl (j := 0) (by omega) hs hKs) (by simpa using hfl (j := 0) (by omega) ht hKt)
      simpa [shape, scale] using this
    | succ l ih =>
      intro hl
      rw [Finset.sum_range_succ, ih (by omega)]
      have := rest_step hs ht l (hfl (by omega) hs hKs)
      simp only [shape, scale, Nat.add_one_ne_zero, if_false, Nat.add_sub_cancel]
      rw [this]
      ring
  exact key n le_rfl

/-- The contribution of a level. -/
noncomputable def level (z : ℕ → ℝ) (j : ℕ) (t : ℝ) : ℝ := ∑ k ∈ range (⌊scale j * t⌋₊ + 1), z k * shape j (scale j * t - k)

theorem level_eq (z : ℕ → ℝ) (j : ℕ) {t : ℝ} {K : ℕ} (hK : scale j * t < K) :
    level z j t = ∑ k ∈ range K, z k * shape j (scale j * t - k) := by
  unfold level
  rcases lt_or_ge (scale j * t) 0 with ht | ht
  · have h : ∀ k : ℕ, z k * shape j (scale j * t - k) = 0 := fun k => by
      have : (0 : ℝ) ≤ k := Nat.cast_nonneg k
      rw [shape_of_nonpos j (by linarith), mul_zero]
    simp [h]
  · refine Finset.sum_subset (fun k hk => ?_) fun k _ hk => ?_
    · rw [mem_range] at hk ⊢
      have : ⌊scale j * t⌋₊ < K := (Nat.floor_lt ht).mpr hK
      omega
    · rw [mem_range, not_lt] at hk
      have h1 : ((⌊scale j * t⌋₊ + 1 : ℕ) : ℝ) ≤ k := by exact_mod_cast hk
      push_cast at h1
      have h2 := Nat.lt_floor_add_one (scale j * t)
      rw [shape_of_nonpos j (by linarith), mul_zero]

theorem continuous_level (z : ℕ → ℝ) (j : ℕ) : Continuous (level z j) := by
  refine continuous_iff_continuousAt.mpr fun t => ?_
  obtain ⟨K, hK⟩ := exists_nat_gt (scale j * t)
  have hc : Continuous fun t => ∑ k ∈ range K, z k * shape j (scale j * t - k) :=
    continuous_finset_sum _ fun k _ => ((continuous_shape j).comp (by fun_prop)).const_mul _
  refine hc.continuousAt.congr ?_
  have : ∀ᶠ r in 𝓝 t, scale j * r < K := (continuous_const_mul (scale j)).continuousAt.eventually_lt continuousAt_const hK
  filter_upwards [this] with r hr
  exact (level_eq z j hr).symm

theorem level_bound {z : ℕ → ℝ} (j : ℕ) {t c : ℝ} (ht : 0 ≤ t) {K : ℕ} (hK : scale (j + 1) * t < K) (hz : ∀ k < K, |z k| ≤ c) :
    |level z (j + 1) t| ≤ amp j * c := by
  rw [level_eq z (j + 1) hK]
  have hx : 0 ≤ scale (j + 1) * t := mul_nonneg (scale_pos _).le ht
  obtain ⟨i, u, hu0, hu1, hx', hi⟩ := exists_floor hx
  have hiK : i < K := by rw [← hi]; exact (Nat.floor_lt hx).mpr hK
  rw [Finset.sum_eq_single_of_mem i (mem_range.mpr hiK)]
  · rw [abs_mul, mul_comm]
    refine mul_le_mul ?_ (hz i hiK) (abs_nonneg _) (amp_nonneg j)
    simp only [shape, Nat.add_one_ne_zero, if_false, Nat.add_sub_cancel]
    rw [abs_mul, abs_of_nonneg (amp_nonneg j), abs_of_nonneg (tent_nonneg _)]
    exact mul_le_of_le_one_right (amp_nonneg j) (tent_le_one _)
  · intro k _ hk
    simp only [shape, Nat.add_one_ne_zero, if_false]
    rw [hx']
    have : tent ((i : ℝ) + u - k) = 0 := by
      rcases lt_or_gt_of_ne hk with h | h
      · have : ((k + 1 : ℕ) : ℝ) ≤ i := by exact_mod_cast h
        push_cast at this
        exact tent_of_one_le (by linarith)
      · have : ((i + 1 : ℕ) : ℝ) ≤ k := by exact_mod_cast h
        push_cast at this
        exact tent_of_nonpos (by linarith)
    rw [this, mul_zero, mul_zero]

/-- Coefficients that grow slowly enough. -/
def Good (z : ℕ → ℕ → ℝ) : Prop := ∀ T : ℕ, ∀ᶠ j in atTop, ∀ k < 2 ^ j * T, |z (j + 1) k| ≤ (5 / 4) ^ j

theorem summable_amp (c : ℝ) : Summable fun j => amp j * (c * (5 / 4) ^ j) := by
  have h : ∀ j, amp j * (c * (5 / 4) ^ j) = c / 2 * (Real.sqrt (1 / 2) * (5 / 4)) ^ j := fun j => by
    unfold amp
    rw [mul_pow]
    ring
  simp only [h]
  refine (summable_geometric_of_lt_one (by positivity) ?_).mul_left _
  have : Real.sqrt (1 / 2) < 4 / 5 := by
    rw [Real.sqrt_lt' (by norm_num)]
    norm_num
  linarith

theorem good_bound {z : ℕ → ℕ → ℝ} (hz : Good z) (T : ℕ) : ∃ c : ℝ, ∀ j, ∀ k < 2 ^ j * T, |z (j + 1) k| ≤ c * (5 / 4) ^ j := by
  obtain ⟨J, hJ⟩ := eventually_atTop.mp (hz T)
  have hn : ∀ j, 0 ≤ ∑ k ∈ range (2 ^ j * T), |z (j + 1) k| := fun j => Finset.sum_nonneg fun _ _ => abs_nonneg _
  refine ⟨1 + ∑ j ∈ range J, ∑ k ∈ range (2 ^ j * T), |z (j + 1) k|, fun j k hk => ?_⟩
  have hp : (1 : ℝ) ≤ (5 / 4) ^ j := one_le_pow₀ (by norm_num)
  have hs : 0 ≤ ∑ j ∈ range J, ∑ k ∈ range (2 ^ j * T), |z (j + 1) k| := Finset.sum_nonneg fun j _ => hn j
  rcases lt_or_ge j J with h | h
  · have h1 : |z (j + 1) k| ≤ ∑ k ∈ range (2 ^ j * T), |z (j + 1) k| :=
      Finset.single_le_sum (f := fun k => |z (j + 1) k|) (fun _ _ => abs_nonneg _) (mem_range.mpr hk)
    have h2 := Finset.single_le_sum (f := fun j => ∑ k ∈ range (2 ^ j * T), |z (j + 1) k|) (fun j _ => hn j) (mem_range.mpr h)
    calc |z (j + 1) k| ≤ 1 + ∑ j ∈ range J, ∑ k ∈ range (2 ^ j * T), |z (j + 1) k| := by linarith
      _ ≤ _ := le_mul_of_one_le_right (by linarith) hp
  · refine (hJ j h k hk).trans ?_
    exact le_mul_of_one_le_left (by positivity) (by linarith)

theorem good_level {z : ℕ → ℕ → ℝ} (hz : Good z) (T : ℕ) : ∃ u : ℕ → ℝ, Summable u ∧ ∀ (j : ℕ) (t : ℝ), 0 ≤ t → t < T →
    ‖level (z (j + 1)) (j + 1) t‖ ≤ u j := by
  obtain ⟨c, hc⟩ := good_bound hz T
  refine ⟨_, summable_amp c, fun j t h0 h1 => ?_⟩
  refine level_bound j h0 (K := 2 ^ j * T) ?_ (hc j)
  push_cast
  simp only [scale, Nat.add_sub_cancel]
  exact mul_lt_mul_of_pos_left h1 (by positivity)

/-- The sum of all levels. -/
noncomputable def path (z : ℕ → ℕ → ℝ) (t : ℝ) : ℝ := level (z 0) 0 t + ∑' j, level (z (j + 1)) (j + 1) t

theorem continuousOn_path {z : ℕ → ℕ → ℝ} (hz : Good z) : ContinuousOn (path z) (Set.Ici 0) := by
  intro t ht
  obtain ⟨T, hT⟩ := exists_nat_gt t
  obtain ⟨u, hu, hb⟩ := good_level hz T
  have h : ContinuousOn (path z) (Set.Ico 0 T) :=
    (continuous_level (z 0) 0).continuousOn.add
      (continuousOn_tsum (fun j => (continuous_level (z (j + 1)) (j + 1)).continuousOn) hu fun j r hr => hb j r hr.1 hr.2)
  refine (h t ⟨ht, hT⟩).mono_of_mem_nhdsWithin ?_
  have : Set.Ico (0 : ℝ) T = Set.Ici 0 ∩ Set.Iio (T : ℝ) := rfl
  rw [this]
  exact Filter.inter_mem self_mem_nhdsWithin (mem_nhdsWithin_of_mem_nhds (Iio_mem_nhds hT))

/-- The sum of the first levels. -/
noncomputable def partialPath (z : ℕ → ℕ → ℝ) (n : ℕ) (t : ℝ) : ℝ := ∑ j ∈ range (n + 1), level (z j) j t

theorem partialPath_tendsto {z : ℕ → ℕ → ℝ} (hz : Good z) {t : ℝ} (ht : 0 ≤ t) :
    Tendsto (fun n => partialPath z n t) atTop (𝓝 (path z t)) := by
  obtain ⟨T, hT⟩ := exists_nat_gt t
  obtain ⟨u, hu, hb⟩ := good_level hz T
  have hs : Summable fun j => level (z (j + 1)) (j + 1) t := Summable.of_norm_bounded hu fun j => hb j t ht hT
  have h := hs.hasSum.tendsto_sum_nat.const_add (level (z 0) 0 t)
  refine h.congr fun n => ?_
  unfold partialPath
  rw [Finset.sum_range_succ', add_comm]

end Verif.Levy
