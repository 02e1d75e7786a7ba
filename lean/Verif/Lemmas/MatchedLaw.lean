import Verif.Lemmas.BrownianVec
import Verif.Lemmas.NormalLimit

/-! The joint law of the increments and the integrals of a Brownian motion over the intervals of a grid. -/

namespace Verif

open MeasureTheory ProbabilityTheory Set Filter Spec Matrix
open scoped NNReal ENNReal Topology

variable {Ω : Type*} [MeasurableSpace Ω] {P : Measure Ω} {m : ℕ} {B : Fin m → ℝ≥0 → Ω → ℝ}

/-- Summation by parts. -/
theorem sum_weighted_increments (g : ℕ → ℝ) (n : ℕ) :
    ∑ i ∈ Finset.range n, ((n : ℝ) - 1 - i) * (g (i + 1) - g i) = ∑ i ∈ Finset.range n, (g i - g 0) := by
  induction n with
  | zero => simp
  | succ n ih =>
    rw [Finset.sum_range_succ, Finset.sum_range_succ, ← ih, ← Finset.sum_range_sub g n, ← Finset.sum_add_distrib]
    push_cast
    have : ((n : ℝ) + 1 - 1 - n) * (g (n + 1) - g n) = 0 := by ring
    rw [this, add_zero]
    refine Finset.sum_congr rfl fun i _ => by ring

theorem sum_centred (n : ℕ) : ∑ i ∈ Finset.range (n + 1), (((n : ℝ) - i) / (n + 1) - 1 / 2) = -1 / 2 := by
  have h1 : ∑ i ∈ Finset.range (n + 1), ((n : ℝ) - i) = n * (n + 1) / 2 := by
    induction n with
    | zero => simp
    | succ n ih =>
      rw [Finset.sum_range_succ]
      have : ∑ i ∈ Finset.range (n + 1), (((n + 1 : ℕ) : ℝ) - i) = ∑ i ∈ Finset.range (n + 1), (((n : ℝ) - i) + 1) :=
        Finset.sum_congr rfl fun i _ => by push_cast; ring
      rw [this, Finset.sum_add_distrib, ih]
      simp
      ring
  have hn : (n : ℝ) + 1 ≠ 0 := by positivity
  rw [Finset.sum_sub_distrib, ← Finset.sum_div, h1]
  simp
  field_simp
  ring

theorem sum_centred_sq (n : ℕ) : ∑ i ∈ Finset.range (n + 1), (((n : ℝ) - i) / (n + 1) - 1 / 2) ^ 2 =
    ((n : ℝ) + 1) / 12 + 1 / (6 * (n + 1)) := by
  have h1 : ∀ N : ℕ, ∑ i ∈ Finset.range (N + 1), (i : ℝ) = N * (N + 1) / 2 := fun N => by
    induction N with
    | zero => simp
    | succ n ih => rw [Finset.sum_range_succ, ih]; push_cast; ring
  have h2 : ∀ N : ℕ, ∑ i ∈ Finset.range (N + 1), (i : ℝ) ^ 2 = N * (N + 1) * (2 * N + 1) / 6 := fun N => by
    induction N with
    | zero => simp
    | succ n ih => rw [Finset.sum_range_succ, ih]; push_cast; ring
  have hn : (n : ℝ) + 1 ≠ 0 := by positivity
  have e : ∀ i : ℕ, (((n : ℝ) - i) / (n + 1) - 1 / 2) ^ 2 =
      1 / (n + 1) ^ 2 * (i : ℝ) ^ 2 + (-(2 * (n : ℝ) / (n + 1) ^ 2) + 1 / (n + 1)) * i +
        ((n : ℝ) ^ 2 / (n + 1) ^ 2 - n / (n + 1) + 1 / 4) := fun i => by
    field_simp
    ring
  simp_rw [e]
  rw [Finset.sum_add_distrib, Finset.sum_add_distrib, ← Finset.mul_sum, ← Finset.mul_sum, h1, h2]
  simp
  field_simp
  ring

/-- The increments over a regular grid, scaled, are independent standard normals. -/
theorem Spec.IsBrownianVec.std_increments (hB : IsBrownianVec B P) {h : ℝ} (hh : 0 < h) :
    (∀ p : Fin m × ℕ, HasLaw (fun ω => (Real.sqrt h)⁻¹ * (B p.1 (((p.2 + 1 : ℕ) * h).toNNReal) ω - B p.1 ((p.2 * h).toNNReal) ω))
      (gaussianReal 0 1) P) ∧
    iIndepFun (fun (p : Fin m × ℕ) ω => (Real.sqrt h)⁻¹ * (B p.1 (((p.2 + 1 : ℕ) * h).toNNReal) ω - B p.1 ((p.2 * h).toNNReal) ω)) P := by
  have hs : Real.sqrt h ≠ 0 := (Real.sqrt_pos.mpr hh).ne'
  have hm := hB.meas
  constructor
  · rintro ⟨j, i⟩
    have h1 := (hB.brownian j).hasLaw_sub (((i + 1 : ℕ) * h).toNNReal) ((i * h).toNNReal)
    have h2 := gaussianReal_const_mul h1 (Real.sqrt h)⁻¹
    have e : (NNReal.mk ((Real.sqrt h)⁻¹ ^ 2) (sq_nonneg _) * nndist ((((i + 1 : ℕ) : ℝ) * h).toNNReal : ℝ) (((i : ℝ) * h).toNNReal : ℝ) :
        ℝ≥0) = 1 := by
      refine NNReal.eq ?_
      rw [NNReal.coe_mul, coe_nndist, Real.dist_eq, Real.coe_toNNReal _ (by positivity), Real.coe_toNNReal _ (by positivity),
        show ((i + 1 : ℕ) : ℝ) * h - i * h = h by push_cast; ring, abs_of_pos hh]
      change (Real.sqrt h)⁻¹ ^ 2 * h = 1
      rw [inv_pow, Real.sq_sqrt hh.le]
      exact inv_mul_cancel₀ hh.ne'
    rw [mul_zero] at h2
    exact e ▸ h2
  · refine iIndepFun_uncurry' (X := fun j i ω => (Real.sqrt h)⁻¹ * (B j (((i + 1 : ℕ) * h).toNNReal) ω - B j ((i * h).toNNReal) ω))
      (fun j i => by have := hm j; fun_prop) ?_ fun j => ?_
    · exact hB.indep.comp (fun j (p : ℝ≥0 → ℝ) (i : ℕ) => (Real.sqrt h)⁻¹ * (p (((i + 1 : ℕ) * h).toNNReal) - p ((i * h).toNNReal)))
        (fun j => by fun_prop)
    · have := (hB.brownian j).hasIndepIncrements.nat (t := fun i : ℕ => ((i : ℝ) * h).toNNReal) (fun a b hab => by
        refine Real.toNNReal_le_toNNReal (mul_le_mul_of_nonneg_right (by exact_mod_cast hab) hh.le))
      exact this.comp (fun _ x => (Real.sqrt h)⁻¹ * x) (fun _ => by fun_prop)

/-- The increment and the (centred, scaled) integral of a path over the interval `[kδ, (k+1)δ]`. -/
noncomputable def incArea (w : ℝ → ℝ) (δ : ℝ) (k : ℕ) (s : Fin 2) : ℝ :=
  ![w (k * δ + δ) - w (k * δ), Real.sqrt 6 * ((∫ t in (0 : ℝ)..δ, (w (k * δ + t) - w (k * δ))) / δ - (w (k * δ + δ) - w (k * δ)) / 2)] s

theorem Spec.IsBrownianVec.incArea_law (hB : IsBrownianVec B P) {δ : ℝ} (hδ : 0 < δ) (N : ℕ) :
    IsNormal P (fun ω (q : Fin N × Fin m × Fin 2) => incArea (fun t => B q.2.1 t.toNNReal ω) δ q.1 q.2.2) 0
      (diagonal fun q => ![δ, δ / 2] q.2.2) := by
  have hP := hB.isProb
  obtain ⟨h, hh⟩ : ∃ h : ℕ → ℝ, ∀ n, h n = δ / (n + 1) := ⟨_, fun _ => rfl⟩
  have hh0 : ∀ n, 0 < h n := fun n => by rw [hh]; positivity
  obtain ⟨c, hc⟩ : ∃ c : ℕ → Fin 2 → ℕ → ℝ, ∀ n s i, c n s i = ![1, Real.sqrt 6 * (((n : ℝ) - i) / (n + 1) - 1 / 2)] s := ⟨_, fun _ _ _ => rfl⟩
  obtain ⟨Z, hZ⟩ : ∃ Z : ℕ → Fin m × ℕ → Ω → ℝ, ∀ n p ω, Z n p ω = (Real.sqrt (h n))⁻¹ *
    (B p.1 (((p.2 + 1 : ℕ) * h n).toNNReal) ω - B p.1 ((p.2 * h n).toNNReal) ω) := ⟨_, fun _ _ _ => rfl⟩
  have hZl : ∀ n p, HasLaw (Z n p) (gaussianReal 0 1) P := fun n p => by
    rw [show Z n p = _ from funext (hZ n p)]
    exact (hB.std_increments (hh0 n)).1 p
  have hZi : ∀ n, iIndepFun (Z n) P := fun n => by
    rw [show Z n = _ from funext fun p => funext (hZ n p)]
    exact (hB.std_increments (hh0 n)).2
  -- the grid points of the `n`-th subdivision inside the intervals
  obtain ⟨g, hg⟩ : ∃ g : (n : ℕ) → Fin m × Fin N × Fin (n + 1) → Fin m × ℕ, ∀ n p, g n p = (p.1, p.2.1 * (n + 1) + p.2.2) :=
    ⟨_, fun _ _ => rfl⟩
  have hginj : ∀ n, Function.Injective (g n) := by
    rintro n ⟨j, k, i⟩ ⟨j', k', i'⟩ he
    rw [hg, hg] at he
    simp only [Prod.mk.injEq] at he
    obtain ⟨rfl, he⟩ := he
    have e1 : (k : ℕ) = k' := by
      have h1 := congrArg (· / (n + 1)) he
      rw [Nat.add_comm, Nat.add_mul_div_right _ _ (Nat.succ_pos n), Nat.div_eq_of_lt i.2, Nat.add_comm ((k' : ℕ) * _),
        Nat.add_mul_div_right _ _ (Nat.succ_pos n), Nat.div_eq_of_lt i'.2] at h1
      omega
    have e2 : (i : ℕ) = i' := by rw [e1] at he; omega
    rw [Fin.ext e1, Fin.ext e2]
  obtain ⟨M, hM⟩ : ∃ M : (n : ℕ) → Matrix (Fin N × Fin m × Fin 2) (Fin m × Fin N × Fin (n + 1)) ℝ,
    ∀ n q p, M n q p = if q.1 = p.2.1 ∧ q.2.1 = p.1 then Real.sqrt (h n) * c n q.2.2 p.2.2 else 0 :=
    ⟨fun n => Matrix.of fun q p => if q.1 = p.2.1 ∧ q.2.1 = p.1 then Real.sqrt (h n) * c n q.2.2 p.2.2 else 0, fun _ _ _ => rfl⟩
  have hX := fun n => isNormal_linear (fun p => hZl n (g n p)) ((hZi n).precomp (hginj n)) 0 (M n)
  have hsum : ∀ n (F : Fin N → Fin m → Fin (n + 1) → ℝ) (k : Fin N) (j : Fin m),
      ∑ p : Fin m × Fin N × Fin (n + 1), (if k = p.2.1 ∧ j = p.1 then F p.2.1 p.1 p.2.2 else 0) = ∑ i, F k j i := by
    intro n F k j
    rw [Fintype.sum_prod_type, Finset.sum_eq_single j, Fintype.sum_prod_type, Finset.sum_eq_single k]
    · simp
    · intro b _ hb; simp [hb.symm]
    · simp
    · intro b _ hb; simp [hb.symm]
    · simp
  refine isNormal_of_tendsto hX ?_ ?_
  · filter_upwards [ae_all_iff.mpr fun j => (hB.brownian j).cont] with ω hω
    rintro ⟨k, j, s⟩
    have hwc : Continuous fun t : ℝ => B j t.toNNReal ω := (hω j).comp continuous_real_toNNReal
    generalize hw : (fun t : ℝ => B j t.toNNReal ω) = w at hwc
    have hw' : ∀ t : ℝ, B j t.toNNReal ω = w t := fun t => congrFun hw t
    -- the value of the approximation
    have hval : ∀ n, ((0 : Fin N × Fin m × Fin 2 → ℝ) + M n *ᵥ fun p => Z n (g n p) ω) (k, j, s) =
        ∑ i ∈ Finset.range (n + 1), c n s i * (w (k * δ + (i + 1 : ℕ) * h n) - w (k * δ + i * h n)) := by
      intro n
      have hs : Real.sqrt (h n) ≠ 0 := (Real.sqrt_pos.mpr (hh0 n)).ne'
      rw [Pi.add_apply, Pi.zero_apply, zero_add]
      simp only [mulVec, dotProduct, hM, hg, ite_mul, zero_mul]
      rw [hsum n (fun k j i => Real.sqrt (h n) * c n s i * Z n (j, k * (n + 1) + i) ω) k j, ← Fin.sum_univ_eq_sum_range
        (fun i => c n s i * (w (k * δ + (i + 1 : ℕ) * h n) - w (k * δ + i * h n)))]
      refine Finset.sum_congr rfl fun i _ => ?_
      have e1 : ((k * (n + 1) + i + 1 : ℕ) : ℝ) * h n = k * δ + (i + 1 : ℕ) * h n := by rw [hh]; push_cast; field_simp; ring
      have e2 : ((k * (n + 1) + i : ℕ) : ℝ) * h n = k * δ + i * h n := by rw [hh]; push_cast; field_simp
      rw [hZ]
      simp only [hw', e1, e2]
      field_simp
    simp_rw [hval]
    have htel : ∀ n, ∑ i ∈ Finset.range (n + 1), (w (k * δ + (i + 1 : ℕ) * h n) - w (k * δ + i * h n)) = w (k * δ + δ) - w (k * δ) := by
      intro n
      rw [Finset.sum_range_sub (fun i : ℕ => w (k * δ + i * h n))]
      have : ((n + 1 : ℕ) : ℝ) * h n = δ := by rw [hh]; push_cast; field_simp
      rw [this]
      simp
    fin_cases s
    · simp only [hc, incArea, Fin.zero_eta, cons_val_zero, one_mul, htel]
      exact tendsto_const_nhds
    · simp only [hc, incArea, Fin.mk_one, cons_val_one, cons_val_fin_one, hw']
      have hR := tendsto_riemann (g := fun t => w (k * δ + t) - w (k * δ)) (by fun_prop) hδ
      refine ((((hR.div_const δ).sub_const ((w (k * δ + δ) - w (k * δ)) / 2)).const_mul (Real.sqrt 6))).congr fun n => ?_
      have e := sum_weighted_increments (fun i => w (k * δ + i * h n)) (n + 1)
      have e' : ∀ i : ℕ, ((n + 1 : ℕ) : ℝ) - 1 - i = n - i := fun i => by push_cast; ring
      simp only [e', Nat.cast_zero, zero_mul, add_zero] at e
      have hn : ((n : ℝ) + 1) ≠ 0 := by positivity
      have e2 : (δ / ((n + 1 : ℕ) : ℝ)) = h n := by rw [hh]; push_cast; rfl
      rw [e2, ← e, ← htel n, Finset.sum_div, Finset.mul_sum, Finset.sum_div, ← Finset.sum_sub_distrib, Finset.mul_sum]
      refine Finset.sum_congr rfl fun i _ => ?_
      rw [hh]
      field_simp
  · rintro ⟨k, j, s⟩ ⟨k', j', s'⟩
    have hval : ∀ n, (M n * (M n)ᵀ) (k, j, s) (k', j', s') =
        if k = k' ∧ j = j' then h n * ∑ i ∈ Finset.range (n + 1), c n s i * c n s' i else 0 := by
      intro n
      simp only [Matrix.mul_apply, transpose_apply, hM]
      have hsq : Real.sqrt (h n) * Real.sqrt (h n) = h n := Real.mul_self_sqrt (hh0 n).le
      by_cases he : k = k' ∧ j = j'
      · obtain ⟨rfl, rfl⟩ := he
        simp only [and_self, if_true, ite_mul, zero_mul]
        have : ∀ p : Fin m × Fin N × Fin (n + 1), (if k = p.2.1 ∧ j = p.1 then Real.sqrt (h n) * c n s p.2.2 *
            (if k = p.2.1 ∧ j = p.1 then Real.sqrt (h n) * c n s' p.2.2 else 0) else 0) =
            if k = p.2.1 ∧ j = p.1 then h n * (c n s p.2.2 * c n s' p.2.2) else 0 := fun p => by
          split_ifs
          · linear_combination (c n s p.2.2 * c n s' p.2.2) * hsq
          · rfl
        simp_rw [this]
        rw [hsum n (fun k j i => h n * (c n s i * c n s' i)) k j, ← Finset.mul_sum, ← Fin.sum_univ_eq_sum_range
          (fun i => c n s i * c n s' i)]
      · rw [if_neg he]
        refine Finset.sum_eq_zero fun p _ => ?_
        by_cases h1 : k = p.2.1 ∧ j = p.1
        · rw [if_neg (c := k' = p.2.1 ∧ j' = p.1), mul_zero]
          rintro ⟨h2, h3⟩
          exact he ⟨h1.1.trans h2.symm, h1.2.trans h3.symm⟩
        · rw [if_neg h1, zero_mul]
    simp_rw [hval]
    by_cases he : k = k' ∧ j = j'
    · obtain ⟨rfl, rfl⟩ := he
      simp only [and_self, if_true]
      have hone : Tendsto (fun n : ℕ => (1 : ℝ) / (n + 1)) atTop (𝓝 0) := tendsto_one_div_add_atTop_nhds_zero_nat
      have hoff : Tendsto (fun n : ℕ => h n * ∑ i ∈ Finset.range (n + 1), Real.sqrt 6 * (((n : ℝ) - i) / (n + 1) - 1 / 2)) atTop (𝓝 0) := by
        have := hone.const_mul (-(Real.sqrt 6 * δ / 2))
        rw [mul_zero] at this
        refine this.congr fun n => ?_
        rw [← Finset.mul_sum, sum_centred, hh]
        ring
      have h6 : Real.sqrt 6 * Real.sqrt 6 = 6 := Real.mul_self_sqrt (by norm_num)
      fin_cases s <;> fin_cases s'
      · simp only [hc, Fin.zero_eta, cons_val_zero, mul_one, diagonal_apply_eq]
        refine tendsto_const_nhds.congr fun n => ?_
        rw [hh]
        simp
        field_simp
      · simp only [hc, Fin.zero_eta, Fin.mk_one, cons_val_zero, cons_val_one, cons_val_fin_one, one_mul]
        rw [diagonal_apply_ne _ (by simp)]
        exact hoff
      · simp only [hc, Fin.zero_eta, Fin.mk_one, cons_val_zero, cons_val_one, cons_val_fin_one, mul_one]
        rw [diagonal_apply_ne _ (by simp)]
        exact hoff
      · simp only [hc, Fin.mk_one, cons_val_one, cons_val_fin_one, diagonal_apply_eq]
        have := ((hone.mul hone).const_mul δ).const_add (δ / 2)
        rw [mul_zero, mul_zero, add_zero] at this
        refine this.congr fun n => ?_
        have e : ∀ i : ℕ, Real.sqrt 6 * (((n : ℝ) - i) / (n + 1) - 1 / 2) * (Real.sqrt 6 * (((n : ℝ) - i) / (n + 1) - 1 / 2)) =
            6 * (((n : ℝ) - i) / (n + 1) - 1 / 2) ^ 2 := fun i => by
          linear_combination ((((n : ℝ) - i) / (n + 1) - 1 / 2) ^ 2) * h6
        simp_rw [e]
        rw [← Finset.mul_sum, sum_centred_sq, hh]
        field_simp
        ring
    · simp only [if_neg he]
      rw [diagonal_apply_ne _ (by rintro h; simp only [Prod.mk.injEq] at h; exact he ⟨h.1, h.2.1⟩)]
      exact tendsto_const_nhds

end Verif
