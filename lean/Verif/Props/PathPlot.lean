import Verif.Model.Notebooks
import Verif.Props.PosteriorScripts

/-!
# Property C121: the driving path as the notebook plots it
-/

namespace Verif

open Matrix Jnp Foster Notebooks

variable {d m : ℕ}

/-- The path on the grid is the sequence of partial sums. -/
theorem brownianPath_getElem? (incs : List (Vec m)) {k : ℕ} (hk : k ≤ incs.length) : (brownianPath incs)[k]? = some (incs.take k).sum := by
  cases k with
  | zero => simp [brownianPath, insertArr_eq]
  | succ k => rw [brownianPath, insertArr_eq, List.getElem?_cons_succ, cumsum_getElem? _ _ hk]

theorem brownianPath_length (incs : List (Vec m)) : (brownianPath incs).length = incs.length + 1 := by
  simp [brownianPath, insertArr_eq, cumsum_length]

theorem clampGet_eq {V : Type*} [Zero V] {l : List V} {k : ℕ} {x : V} (h : l[k]? = some x) : clampGet l k = x := by
  have hk : k < l.length := (List.getElem?_eq_some_iff.mp h).1
  rw [clampGet, min_eq_left (by omega), List.getD_eq_getElem?_getD, h]
  rfl

/-- The plotted parabola in the interior of interval `k`. -/
theorem parabola_eq {incs coeffs : List (Vec m)} {δ : ℝ} (hδ : 0 < δ) {k : ℕ} {a b : Vec m} (ha : incs[k]? = some a) (hb : coeffs[k]? = some b)
    {s : ℝ} (hs0 : 0 ≤ s) (hs1 : s < δ) :
    parabola (brownianPath incs) incs coeffs δ (k * δ + s) =
      ((incs.take k).sum + evalParabola s δ a b, a + (Real.sqrt 6 * (1 / δ - 2 * (s / δ) / δ)) • b) := by
  have hk : k < incs.length := (List.getElem?_eq_some_iff.mp ha).1
  have e1 : (k * δ + s) / δ = k + s / δ := by field_simp
  have e2 : ⌊(k * δ + s) / δ⌋₊ = k := by
    rw [e1, Nat.floor_eq_iff (by positivity)]
    have : s / δ < 1 := (div_lt_one hδ).mpr hs1
    have : 0 ≤ s / δ := by positivity
    constructor <;> linarith
  have e3 : (k * δ + s) / δ - ⌊(k * δ + s) / δ⌋₊ = s / δ := by rw [e2, e1]; ring
  simp only [parabola, e2]
  rw [e1, add_sub_cancel_left, clampGet_eq ha, clampGet_eq hb, clampGet_eq (brownianPath_getElem? incs hk.le)]
  refine Prod.ext ?_ rfl
  funext j
  simp [evalParabola, evalParabola1]
  ring

/-- The plotted parabola at the end of interval `k`, also of the last one. -/
theorem parabola_end {incs : List (Vec m)} (coeffs : List (Vec m)) {δ : ℝ} (hδ : 0 < δ) {k : ℕ} (hk : k ≤ incs.length) :
    (parabola (brownianPath incs) incs coeffs δ (k * δ)).1 = (incs.take k).sum := by
  have e1 : k * δ / δ = (k : ℝ) := by field_simp
  simp only [parabola, e1, Nat.floor_natCast, sub_self, clampGet_eq (brownianPath_getElem? incs hk)]
  simp

/-- C121: the path that drives interval `k` of the solver for the key `k0`. -/
noncomputable def drivingPath (m : ℕ) (rng : Rng) (k0 : Key) (δ : ℝ) (N fine k : ℕ) (s : ℝ) : Vec m :=
  (getApproxFine m fine).eval s δ ((getApproxFine m fine).coeffs rng ((k0.child N k).child 2 0) δ)

theorem drivingPath_end (rng : Rng) (k0 : Key) {δ : ℝ} (hδ : δ ≠ 0) (N fine k : ℕ) :
    drivingPath m rng k0 δ N fine k δ = ((getApproxFine m fine).coeffs rng ((k0.child N k).child 2 0) δ).1 :=
  (evalParabola_shape δ hδ _ _).2.1

/-- C121: what the notebook plots for the arrays saved by `pathwise_sampling_from_posterior.py`, for every step, every number of intervals
and fine steps. The path on the coarse grid, the path on the fine grid and the parabolas agree at the ends of the intervals; between them the
curve is the parabola whose derivative drove the solver on this interval. Missing: the plotted slopes are not those of the curve; they lack
the factor `1 / δ` in front of the increment. -/
theorem C121_partial (rng : Rng) (k0 : Key) (ks : List Key) (drift : Field d) (sigma : Diffusion d m) (x0 : Vec d) {δ : ℝ} (hδ : 0 < δ) (N : ℕ)
    {fine : ℕ} (hfine : 1 ≤ fine) : ∃ r, Scripts.references rng (k0 :: ks) drift sigma x0 δ N fine = .ok r ∧
    let p := pathPlot r δ (N * δ) N fine
    let w : ℕ → Vec m := fun k => ∑ j ∈ Finset.range k, drivingPath m rng k0 δ N fine j δ
    p.brownian.length = N + 1 ∧ p.brownianFine.length = N * fine + 1 ∧ p.paraTraj.length = N * fine + 1 ∧ p.dparaTraj.length = N * fine + 1 ∧
    (∀ k ≤ N, p.brownian[k]? = some (w k) ∧ p.brownianFine[k * fine]? = some (w k) ∧ p.paraTraj[k * fine]? = some (w k)) ∧
    (∀ k < N, ∀ i ≤ fine, p.paraTraj[k * fine + i]? = some (w k + drivingPath m rng k0 δ N fine k (i * (δ / fine)))) ∧
    ∀ k < N, ∀ i < fine, ∃ v, p.dparaTraj[k * fine + i]? = some v ∧
      jacT (drivingPath m rng k0 δ N fine k) (i * (δ / fine)) = v + (1 / δ - 1) • drivingPath m rng k0 δ N fine k δ := by
  obtain ⟨r, -, -, h1, -, h2, -, h3, h3', h4, -⟩ := C116_references rng k0 ks drift sigma x0 δ N fine
  refine ⟨r, h1, ?_⟩
  intro p w
  have hf0 : (0 : ℝ) < fine := by exact_mod_cast hfine
  simp only [sdeSolver_coeffs] at h2 h3 h3' h4
  set c := fun k => (getApproxFine m fine).coeffs rng ((k0.child N k).child 2 0) δ with hc
  set a := (List.range N).map fun k => (c k).1 with ha
  set b := (List.range N).map fun k => (c k).2.1 with hb
  set blocks := (List.range N).map fun k => (c k).2.2.1 with hbl
  have e2 : r.inc.headD [] = blocks.flatten := by rw [h2]; simp [hbl, hc, Function.comp_def]
  have e3 : r.coeffs0.headD [] = a := by rw [h3]; simp [ha, hc, Function.comp_def]
  have e3' : a = blocks.map List.sum := by rw [← e3, h3']; simp [hbl, hc, Function.comp_def]
  have e4 : r.coeffs1.headD [] = b := by rw [h4]; simp [hb, hc, Function.comp_def]
  have hal : a.length = N := by simp [ha]
  have hblen : ∀ x ∈ blocks, x.length = fine := by
    intro x hx
    obtain ⟨k, -, rfl⟩ := List.mem_map.mp hx
    simp only [hc, getApproxFine, parabolasFine_eq]
    simp
  have hlen : ∀ l : List (List (Vec m)), (∀ x ∈ l, x.length = fine) → l.flatten.length = l.length * fine := by
    intro l hl
    rw [List.length_flatten, List.map_congr_left (g := fun _ => fine) hl, List.map_const', List.sum_replicate, smul_eq_mul]
  have hbN : blocks.length = N := by simp [hbl]
  have hw : ∀ k ≤ N, (a.take k).sum = w k := by
    intro k hk
    simp only [ha, ← List.map_take, List.take_range, min_eq_left hk, w]
    rw [Finset.sum_range, ← List.sum_ofFn, List.ofFn_eq_map, ← List.map_coe_finRange_eq_range, List.map_map]
    simp only [drivingPath_end rng k0 hδ.ne']
    rfl
  have hp : p = ⟨brownianPath blocks.flatten, brownianPath a,
      ((linspace 0 (N * δ) (N * fine + 1)).map (parabola (brownianPath a) a b δ)).map (·.1),
      ((linspace 0 (N * δ) (N * fine + 1)).map (parabola (brownianPath a) a b δ)).map (·.2)⟩ := by
    simp only [p, pathPlot, e2, e3, e4]
  have hgrid : linspace 0 (N * δ) (N * fine + 1) = (List.range (N * fine + 1)).map fun (k : ℕ) => (k : ℝ) * (δ / fine) := by
    rw [← linspace_grid]
    congr 1
    push_cast
    field_simp
  have hget : ∀ j < N * fine + 1, ((linspace 0 (N * δ) (N * fine + 1)).map (parabola (brownianPath a) a b δ))[j]? =
      some (parabola (brownianPath a) a b δ (j * (δ / fine))) := by
    intro j hj
    rw [hgrid, List.getElem?_map, List.getElem?_map, List.getElem?_range hj]
    rfl
  have hidx : ∀ k < N, ∀ i ≤ fine, k * fine + i < N * fine + 1 := by
    intro k hk i hi
    have : (k + 1) * fine ≤ N * fine := Nat.mul_le_mul_right fine hk
    rw [add_mul] at this
    omega
  have htime : ∀ k i : ℕ, ((k * fine + i : ℕ) : ℝ) * (δ / fine) = k * δ + i * (δ / fine) := by
    intro k i
    push_cast
    field_simp
  have hak : ∀ k < N, a[k]? = some (c k).1 := fun k hk => by simp [ha, hk]
  have hbk : ∀ k < N, b[k]? = some (c k).2.1 := fun k hk => by simp [hb, hk]
  have hend : ∀ k ≤ N, (parabola (brownianPath a) a b δ (k * δ)).1 = w k := fun k hk => by
    rw [parabola_end b hδ (hk.trans_eq hal.symm), hw k hk]
  have hsmall : ∀ i < fine, (i : ℝ) * (δ / fine) < δ := by
    intro i hi
    have : (i : ℝ) < fine := by exact_mod_cast hi
    calc (i : ℝ) * (δ / fine) < fine * (δ / fine) := by gcongr
      _ = δ := by field_simp
  rw [hp]
  refine ⟨by simp [brownianPath_length, hal], by rw [brownianPath_length, hlen _ hblen, hbN], by simp, by simp, fun k hk => ⟨?_, ?_, ?_⟩,
    fun k hk i hi => ?_, fun k hk i hi => ?_⟩
  · rw [brownianPath_getElem? _ (hk.trans_eq hal.symm), hw k hk]
  · have ht : blocks.flatten.take (k * fine) = (blocks.take k).flatten := by
      conv_lhs => rw [← List.take_append_drop k blocks, List.flatten_append]
      have hl := hlen (blocks.take k) (fun x hx => hblen x (List.mem_of_mem_take hx))
      rw [List.length_take, hbN, min_eq_left hk] at hl
      rw [← hl, List.take_left']
      rfl
    rw [brownianPath_getElem? _ (by rw [hlen _ hblen, hbN]; exact Nat.mul_le_mul_right fine hk), ht, List.sum_flatten, List.map_take, ← e3', hw k hk]
  · have h : k * fine < N * fine + 1 := by have := Nat.mul_le_mul_right fine hk; omega
    rw [List.getElem?_map, hget _ h, Option.map_some]
    have := htime k 0
    simp only [add_zero, Nat.cast_zero, zero_mul] at this
    rw [this, hend k hk]
  · rw [List.getElem?_map, hget _ (hidx k hk i hi), Option.map_some, htime]
    rcases hi.lt_or_eq with hi' | rfl
    · rw [parabola_eq hδ (hak k hk) (hbk k hk) (by positivity) (hsmall i hi'), hw k hk.le]
      rfl
    · have e : (i : ℝ) * (δ / i) = δ := by field_simp
      have e' : (k : ℝ) * δ + δ = ((k + 1 : ℕ) : ℝ) * δ := by push_cast; ring
      rw [e, e', hend (k + 1) hk]
      simp only [w, Finset.sum_range_succ]
  · refine ⟨_, by rw [List.getElem?_map, hget _ (hidx k hk i hi.le), Option.map_some, htime,
      parabola_eq hδ (hak k hk) (hbk k hk) (by positivity) (hsmall i hi)], ?_⟩
    rw [drivingPath_end rng k0 hδ.ne']
    funext j
    refine (((evalParabola_shape δ hδ.ne' (c k).1 (c k).2.1).2.2 _ j).deriv).trans ?_
    simp only [Pi.add_apply, Pi.smul_apply, smul_eq_mul]
    show _ = (c k).1 j + _ + (1 / δ - 1) * (c k).1 j
    field_simp
    ring

/-- C121: for a step other than one, every plotted slope on an interval with a non-zero increment is wrong. -/
theorem C121_slopes_fail (rng : Rng) (k0 : Key) (ks : List Key) (drift : Field d) (sigma : Diffusion d m) (x0 : Vec d) {δ : ℝ} (hδ : 0 < δ)
    (hδ1 : δ ≠ 1) (N : ℕ) {fine : ℕ} (hfine : 1 ≤ fine) : ∃ r, Scripts.references rng (k0 :: ks) drift sigma x0 δ N fine = .ok r ∧
    ∀ k < N, drivingPath m rng k0 δ N fine k δ ≠ 0 → ∀ i < fine,
      (pathPlot r δ (N * δ) N fine).dparaTraj[k * fine + i]? ≠ some (jacT (drivingPath m rng k0 δ N fine k) (i * (δ / fine))) := by
  obtain ⟨r, h1, -, -, -, -, -, -, h2⟩ := C121_partial rng k0 ks drift sigma x0 hδ N hfine
  refine ⟨r, h1, fun k hk hne i hi h => ?_⟩
  obtain ⟨v, h3, h4⟩ := h2 k hk i hi
  rw [h3, Option.some.injEq] at h
  rw [h, left_eq_add, smul_eq_zero] at h4
  rcases h4 with h4 | h4
  · rw [sub_eq_zero, div_eq_one_iff_eq hδ.ne'] at h4
    exact hδ1 h4.symm
  · exact hne h4

/-- C121: the curves do not all show the driving path and its derivative: with steps of length `1 / 9`, as in the notebook, and draws equal
to one, the first plotted slope is wrong. -/
theorem C121_fails : ¬ ∀ (rng : Rng) (k0 : Key) (drift : Field 1) (sigma : Diffusion 1 1) (x0 : Vec 1) (δ : ℝ), 0 < δ → ∀ N fine : ℕ, 1 ≤ fine →
    ∃ r, Scripts.references rng [k0] drift sigma x0 δ N fine = .ok r ∧ ∀ k < N, ∀ i < fine,
      (pathPlot r δ (N * δ) N fine).dparaTraj[k * fine + i]? = some (jacT (drivingPath 1 rng k0 δ N fine k) (i * (δ / fine))) := by
  intro h
  obtain ⟨r, h1, h2⟩ := h ⟨fun _ _ _ => 1⟩ [] (fun _ _ => 0) (fun _ _ => 1) 0 (1 / 9) (by norm_num) 1 1 le_rfl
  obtain ⟨r', h1', h2'⟩ := C121_slopes_fail ⟨fun _ _ _ => 1⟩ [] [] (fun _ _ => (0 : Vec 1)) (fun _ _ => (1 : Mat 1 1)) 0 (δ := 1 / 9) (by norm_num)
    (by norm_num) 1 (fine := 1) le_rfl
  obtain rfl : r = r' := Except.ok.inj (h1.symm.trans h1')
  refine h2' 0 one_pos (fun hz => ?_) 0 one_pos (h2 0 one_pos 0 one_pos)
  rw [drivingPath_end _ _ (by norm_num)] at hz
  have := congrFun hz 0
  simp [getApproxFine, parabolasFine_eq, finePiece, getApprox, parabolas, Rng.normalMat] at this

/-- C121: the notebook's own setting: three intervals of length `1 / 9` with nine fine steps on the FitzHugh-Nagumo model. -/
example (rng : Rng) (k0 k1 : Key) : ∃ r, Scripts.references rng [k0, k1] Ivp.Fhn.drift Ivp.Fhn.sigma Ivp.Fhn.x0 (1 / 9) 3 9 = .ok r ∧
    (pathPlot r (1 / 9) ((3 : ℕ) * (1 / 9)) 3 9).paraTraj[27]? = (pathPlot r (1 / 9) ((3 : ℕ) * (1 / 9)) 3 9).brownianFine[27]? := by
  obtain ⟨r, h1, -, -, -, -, h2, -⟩ := C121_partial rng k0 [k1] Ivp.Fhn.drift Ivp.Fhn.sigma Ivp.Fhn.x0 (δ := 1 / 9) (by norm_num) 3
    (fine := 9) (by norm_num)
  exact ⟨r, h1, (h2 3 le_rfl).2.2.trans (h2 3 le_rfl).2.1.symm⟩

end Verif
