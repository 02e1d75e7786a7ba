import Verif.Props.LowMemory
import Verif.Props.StrongEkf

/-!
# C102: the reference solution of `breaking_multidimensionnal.py`
-/

namespace Verif

open Matrix Verif.Jnp Scripts

variable {d : ℕ}

/-- With a step at least as long as the interval, `arange` has the left end only. -/
theorem arange_single {δ : ℝ} {M : ℕ} (hδ : 0 < δ) (hM : δ ≤ M) : arange 0 δ M = [0] := by
  have hM' : (0 : ℝ) < M := hδ.trans_le hM
  have h : ⌈(δ - 0) / (M : ℝ)⌉₊ = 1 := by
    rw [sub_zero]
    refine le_antisymm (Nat.ceil_le.mpr ?_) (Nat.one_le_ceil_iff.mpr (by positivity))
    rw [Nat.cast_one, div_le_one hM']
    exact hM
  unfold arange
  rw [h]
  simp

theorem linearRefBody_eq (A S : Mat d d) {δ : ℝ} {M : ℕ} (hδ : 0 < δ) (hM : δ ≤ M) (x2 : Vec d) (incs : List (Vec d)) :
    linearRefBody A S δ M x2 incs = NormedSpace.exp (δ • A) *ᵥ (x2 + S *ᵥ incs.sum) := by
  unfold linearRefBody
  simp only [arange_single hδ hM]
  have hc : ∀ idx, clampGet [(0 : ℝ)] idx = 0 := fun idx => by simp [clampGet]
  simp only [hc, sub_zero]
  rw [mulVec_add, mulVec_mulVec]
  congr 1
  have hl : (List.range incs.length).map (fun idx => clampGet incs idx) = incs := by
    refine List.ext_getElem (by simp) fun i h1 h2 => ?_
    simp only [List.getElem_map, List.getElem_range, clampGet]
    rw [List.getD_eq_getElem?_getD, min_eq_left (by omega), List.getElem?_eq_getElem h2]
    rfl
  have hs : ∀ (l : List (Vec d)) (E : Mat d d), (l.map fun w => E *ᵥ w).sum = E *ᵥ l.sum := by
    intro l E
    induction l with
    | nil => simp
    | cons w l ih => rw [List.map_cons, List.sum_cons, List.sum_cons, ih, mulVec_add]
  conv_rhs => rw [← hl, ← hs, List.map_map]
  rfl

/-- C102, the part that holds: for the random linear problem with its default arguments and `0 < δ ≤ M` (in the script `M = 1`,
`δ ≤ 1`), the loop never raises, its first trajectory is that of `sde_solver`, and its reference starts at the vector of ones and is
multiplied by `exp(δ G)` after adding `G ΔW` with the whole increment of the interval, `G` being the one matrix of normal draws of the
problem. -/
theorem C102_partial (rng : Rng) (pkey key : Key) {δ : ℝ} {M : ℕ} (hδ : 0 < δ) (hM : δ ≤ M) (N fine : ℕ) (odeInt : OdeInt (Vec d) d) :
    let G := rng.normalMat pkey d d
    let out := sdeSolver rng key (Ivp.RandomLinear.drift rng pkey d) (Ivp.RandomLinear.sigma rng pkey d) (Ivp.RandomLinear.x0 d)
      (Foster.getApproxFine d fine) δ N odeInt
    ∃ (y : ℕ → Vec d) (traj2 : List (Vec d)), linearSolver rng key (Ivp.RandomLinear.drift rng pkey d) (Ivp.RandomLinear.sigma rng pkey d)
        (Ivp.RandomLinear.x0 d) δ N M fine odeInt = .ok (out.1, out.2.1, traj2) ∧
      traj2.length = N + 1 ∧ (∀ n ≤ N, traj2[n]? = some (y n)) ∧ (y 0 = fun _ => 1) ∧
      ∀ k < N, ∃ c, out.2.2[k]? = some c ∧ y (k + 1) = NormedSpace.exp (δ • G) *ᵥ (y k + G *ᵥ c.1) := by
  intro G out
  have hA : (fun i j => (Ivp.RandomLinear.drift rng pkey d : Field d) (Pi.single j 1) 0 i : Mat d d) = G := by
    funext i j
    simp [Ivp.RandomLinear.drift, Ivp.RandomLinear.driftMatrix, G]
  have hS : (Ivp.RandomLinear.sigma rng pkey d : Diffusion d d) 0 0 = G := by
    simp [Ivp.RandomLinear.sigma, Ivp.RandomLinear.sigmaMatrix, G]
  obtain ⟨e1, e2⟩ := sdeSolver_scan rng key (Ivp.RandomLinear.drift rng pkey d) (Ivp.RandomLinear.sigma rng pkey d) (Ivp.RandomLinear.x0 d)
    (Foster.getApproxFine d fine) δ N odeInt
  have hsum : ∀ k, ((Foster.getApproxFine d fine).coeffs rng k δ).2.2.1.sum = ((Foster.getApproxFine d fine).coeffs rng k δ).1 := fun k => by
    show (Foster.parabolasFine d fine rng k δ).2.2.1.sum = (Foster.parabolasFine d fine rng k δ).1
    rw [parabolasFine_eq]
    simp only
    rw [← List.sum_toFinset _ List.nodup_range, List.toFinset_range]
  have hp := scanE_pair (fg := linearBody rng G G (Ivp.RandomLinear.drift rng pkey d) (Ivp.RandomLinear.sigma rng pkey d) δ M fine odeInt)
    (f := fun x (inp : Key × ℝ) => .ok (odeInt (inp.1.child 2 1) x (intervalField (Ivp.RandomLinear.drift rng pkey d)
      (Ivp.RandomLinear.sigma rng pkey d) (Foster.getApproxFine d fine) δ ((Foster.getApproxFine d fine).coeffs rng (inp.1.child 2 0) δ) inp.2) δ))
    (g := fun x (inp : Key × ℝ) => .ok (linearRefBody G G δ M x ((Foster.getApproxFine d fine).coeffs rng (inp.1.child 2 0) δ).2.2.1))
    (l := (key.split N).zip (linspace 0 (N * δ) (N + 1)).dropLast) (fun s t i => rfl)
    (scanE_pure (fun _ _ => rfl) (Ivp.RandomLinear.x0 d) _) (scanE_pure (fun _ _ => rfl) (Ivp.RandomLinear.x0 d) _)
  obtain ⟨st, hst⟩ : ∃ st : Vec d → ℕ → Vec d, st = fun x k => NormedSpace.exp (δ • G) *ᵥ (x + G *ᵥ
    ((Foster.getApproxFine d fine).coeffs rng ((key.child N k).child 2 0) δ).1) := ⟨_, rfl⟩
  have hlen : ((key.split N).zip (linspace 0 (N * δ) (N + 1)).dropLast).length = N := by
    simp [Key.split, linspace_grid_dropLast]
  have hscan : (scan (fun x (inp : Key × ℝ) =>
      (linearRefBody G G δ M x ((Foster.getApproxFine d fine).coeffs rng (inp.1.child 2 0) δ).2.2.1,
        linearRefBody G G δ M x ((Foster.getApproxFine d fine).coeffs rng (inp.1.child 2 0) δ).2.2.1)) (Ivp.RandomLinear.x0 d)
      ((key.split N).zip (linspace 0 (N * δ) (N + 1)).dropLast)).2 =
      (scan (fun x k => (st x k, st x k)) (Ivp.RandomLinear.x0 d) (List.range N)).2 := by
    rw [linspace_grid_dropLast, Key.split, zip_map_range, scan_map, hst]
    simp only [linearRefBody_eq G G hδ hM, hsum]
  have hk : ∀ n ≤ N, (insertArr (scan (fun x k => (st x k, st x k)) (Ivp.RandomLinear.x0 d) (List.range N)).2 (Ivp.RandomLinear.x0 d))[n]? =
      some (scan (fun x k => (st x k, st x k)) (Ivp.RandomLinear.x0 d) ((List.range N).take n)).1 := by
    intro n hn
    cases n with
    | zero => rfl
    | succ n =>
      have hn' : (List.range N)[n]? = some n := List.getElem?_range (by omega)
      rw [scan_take_succ_fst _ _ _ n n hn']
      show (scan _ _ _).2[n]? = _
      rw [scan_getElem?, hn']
      rfl
  refine ⟨fun n => (scan (fun x k => (st x k, st x k)) (Ivp.RandomLinear.x0 d) ((List.range N).take n)).1, _, ?_, ?_, hk, rfl, fun k hk' => ?_⟩
  · unfold linearSolver
    simp only [hA, hS, hp]
    show Except.ok (_, insertArr _ _, insertArr _ _) = Except.ok (_, _, _)
    rw [e2, List.map_fst_zip (by rw [scan_length, scan_length]), List.map_snd_zip (by rw [scan_length, scan_length]), hscan]
    rfl
  · simp [insertArr, insertAt]
  · refine ⟨(Foster.getApproxFine d fine).coeffs rng ((key.child N k).child 2 0) δ, ?_, ?_⟩
    · rw [sdeSolver_coeffs, List.getElem?_map, List.getElem?_range hk']
      rfl
    · have hk2 : (List.range N)[k]? = some k := List.getElem?_range hk'
      show (scan _ _ ((List.range N).take (k + 1))).1 = _
      rw [scan_take_succ_fst _ _ _ k k hk2, hst]

/-- C102 fails: the reference is not the sum `∑ exp((δ - s_i) A) S ΔW_i` over the left ends `s_i = i δ / fine` of the fine intervals. -/
theorem C102_fails : ¬ ∀ (A S : Mat 1 1) (δ : ℝ) (M : ℕ) (x2 : Vec 1) (incs : List (Vec 1)), 0 < δ → δ ≤ 1 → 1 ≤ M → incs ≠ [] →
    linearRefBody A S δ M x2 incs = NormedSpace.exp (δ • A) *ᵥ x2 +
      ∑ i ∈ Finset.range incs.length, (NormedSpace.exp ((δ - i * (δ / incs.length)) • A) * S) *ᵥ incs.getD i 0 := by
  intro hall
  have h := hall 1 1 1 1 0 [0, fun _ => 1] one_pos le_rfl le_rfl (by simp)
  rw [linearRefBody_eq 1 1 one_pos (by norm_num)] at h
  have h0 := congrFun h 0
  have he : ∀ t : ℝ, NormedSpace.exp (t • (1 : Mat 1 1)) 0 0 = Real.exp t := fun t => by
    rw [show t • (1 : Mat 1 1) = diagonal (fun _ => t) by rw [← Matrix.diagonal_one, ← Matrix.diagonal_smul]; congr 1; funext i; simp,
      Matrix.exp_diagonal, diagonal_apply_eq, Pi.coe_exp, Real.exp_eq_exp_ℝ]
  have e1 : (NormedSpace.exp ((1 : ℝ) • (1 : Mat 1 1)) *ᵥ ((0 : Vec 1) + (1 : Mat 1 1) *ᵥ ([0, fun _ => 1] : List (Vec 1)).sum)) 0 = Real.exp 1 := by
    rw [← he 1]
    simp [mulVec, dotProduct]
  rw [e1] at h0
  have e2 : (1 : ℝ) - (1 : ℕ) * (1 / (([0, fun _ => 1] : List (Vec 1)).length : ℝ)) = 1 / 2 := by norm_num
  have e3 : Real.exp 1 = NormedSpace.exp ((1 / 2 : ℝ) • (1 : Mat 1 1)) 0 0 := by
    rw [← e2]
    simpa [mulVec, dotProduct, Finset.sum_range_succ] using h0
  have h1 := e3.trans (he _)
  have := Real.exp_injective h1
  norm_num at this

/-- C102: in the script `M = 1` and `δ = 1 / 16` is one of the steps. -/
example : (0 : ℝ) < 1 / 16 ∧ (1 / 16 : ℝ) ≤ (1 : ℕ) := by norm_num

end Verif
