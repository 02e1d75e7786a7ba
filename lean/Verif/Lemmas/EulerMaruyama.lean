import Verif.Lemmas.SdeSolver
import Verif.Model.EulerMaruyama
import Verif.Model.Euler
import Mathlib.Analysis.Calculus.MeanValue
import Mathlib.Analysis.Calculus.Deriv.Mul
import Mathlib.Analysis.Calculus.Deriv.Add
import Mathlib.Analysis.Calculus.Deriv.Pow
import Mathlib.Analysis.SpecialFunctions.Exp

/-! Helper lemmas about the Euler and Euler-Maruyama loops. -/

namespace Verif

open Jnp Matrix

variable {d m : ℕ}

/-- The state reached from `x` at time `k h` after the given Brownian increments. -/
noncomputable def emFold (h : ℝ) (drift : Field d) (sigma : Diffusion d m) : Vec d → ℕ → List (Vec m) → Vec d
  | x, _, [] => x
  | x, k, w :: ws => emFold h drift sigma (x + h • drift x (k * h) + sigma x (k * h) *ᵥ w) (k + 1) ws

theorem emFold_append (h : ℝ) (drift : Field d) (sigma : Diffusion d m) (x : Vec d) (k : ℕ) (a b : List (Vec m)) :
    emFold h drift sigma x k (a ++ b) = emFold h drift sigma (emFold h drift sigma x k a) (k + a.length) b := by
  induction a generalizing x k with
  | nil => rfl
  | cons w ws ih =>
    simp only [List.cons_append, emFold, ih, List.length_cons]
    congr 1; omega

theorem emFold_shift (h : ℝ) (drift : Field d) (sigma : Diffusion d m) (n : ℕ) (x : Vec d) (k : ℕ)
    (a : List (Vec m)) :
    emFold h (fun z t => drift z (t + n * h)) (fun z t => sigma z (t + n * h)) x k a =
      emFold h drift sigma x (n + k) a := by
  induction a generalizing x k with
  | nil => rfl
  | cons w ws ih =>
    have : (k : ℝ) * h + n * h = ((n + k : ℕ) : ℝ) * h := by push_cast; ring
    simp only [emFold, ih, this]
    congr 1

/-- The scan used by both solvers. -/
noncomputable def emStep (h : ℝ) (drift : Field d) (sigma : Diffusion d m) (x : Vec d) (inp : Vec m × ℝ) : Vec d :=
  x + h • drift x inp.2 + sigma x inp.2 *ᵥ inp.1

theorem scan_emStep (h : ℝ) (drift : Field d) (sigma : Diffusion d m) (ws : List (Vec m)) (x : Vec d) (k : ℕ) :
    (scan (fun x i => (emStep h drift sigma x i, emStep h drift sigma x i)) x
      (ws.zip ((List.range ws.length).map fun (j : ℕ) => ((k + j : ℕ) : ℝ) * h))).1 = emFold h drift sigma x k ws := by
  induction ws generalizing x k with
  | nil => rfl
  | cons w ws ih =>
    rw [List.length_cons, List.range_succ_eq_map, List.map_cons, List.map_map, List.zip_cons_cons, scan_cons, emFold]
    simp only [add_zero, emStep]
    rw [← ih]
    simp only [emStep, Function.comp_def, Nat.succ_eq_add_one]
    congr 4
    funext j
    congr 2; omega

/-- Closed form of the pathwise solver. -/
theorem emPathwise_eq (incs : List (Vec m)) (init : Vec d) (drift : Field d) (sigma : Diffusion d m) (h : ℝ) (N : ℕ)
    (standard : Bool) (hl : incs.length = N) :
    emPathwise incs init drift sigma h N standard =
      .ok ((List.range (N + 1)).map fun (k : ℕ) => (k : ℝ) * h,
        (List.range (N + 1)).map fun k => emFold h drift sigma init 0
          ((if standard then incs.map (Real.sqrt h • ·) else incs).take k)) := by
  subst hl
  unfold emPathwise
  simp only [linspace_grid_dropLast]
  simp only [← Real.sqrt_eq_rpow, linspace_grid, List.length_map, List.length_range, insertArr_eq,
    show (0.5 : ℝ) = 1 / 2 by norm_num]
  set ws := if standard = true then incs.map (Real.sqrt h • ·) else incs with hws
  have hlen : ws.length = incs.length := by rw [hws]; split <;> simp
  rw [if_pos hlen]
  congr 2
  apply List.ext_getElem?
  intro k
  by_cases hk : k ≤ incs.length
  · have hl2 : (ws.zip ((List.range incs.length).map fun (k : ℕ) => (k : ℝ) * h)).length = incs.length := by
      simp [hlen]
    have := traj_getElem? (emStep h drift sigma) init (ws.zip ((List.range incs.length).map fun (k : ℕ) => (k : ℝ) * h)) k
      (by rw [hl2]; exact hk)
    refine Eq.trans this ?_
    rw [List.getElem?_map, List.getElem?_range (by omega)]
    simp only [Option.map_some]
    rw [← scan_emStep]
    have hz : (ws.zip ((List.range incs.length).map fun (k : ℕ) => (k : ℝ) * h)).take k =
        (ws.take k).zip ((List.range (ws.take k).length).map fun (j : ℕ) => ((0 + j : ℕ) : ℝ) * h) := by
      rw [List.zip_eq_zipWith, List.zip_eq_zipWith, List.take_zipWith, ← List.map_take, List.take_range, List.length_take, hlen]
      simp
    rw [hz]
  · rw [List.getElem?_eq_none (by simp [hlen]; omega), List.getElem?_eq_none (by simp; omega)]

theorem emPathwise_error (incs : List (Vec m)) (init : Vec d) (drift : Field d) (sigma : Diffusion d m) (h : ℝ) (N : ℕ)
    (standard : Bool) (hl : incs.length ≠ N) :
    emPathwise incs init drift sigma h N standard = .error .valueError := by
  unfold emPathwise
  simp only [linspace_grid_dropLast, List.length_map, List.length_range]
  rw [if_neg]
  split <;> simpa using hl

/-- The keyed solver is the pathwise solver on its own draws. -/
theorem emSolver_eq (rng : Rng) (key : Key) (init : Vec d) (drift : Field d) (sigma : Diffusion d m) (h : ℝ) (N : ℕ) :
    emPathwise ((List.range N).map fun k => rng.normalVec ((key.child N k).child 2 0) m) init drift sigma h N true =
      .ok (emSolver rng key init drift sigma h N) := by
  unfold emPathwise emSolver
  simp only [linspace_grid_dropLast, List.length_map, List.length_range, if_true, List.map_map, Key.split, zip_map_range,
    Function.comp_def]
  simp only [scan_map]

theorem emFold_zero_noise (h : ℝ) (drift : Field d) (sigma : Diffusion d m) (hs : ∀ x t, sigma x t = 0) (x : Vec d)
    (k : ℕ) (ws : List (Vec m)) :
    emFold h drift sigma x k ws =
      (scan (fun x t => (x + h • drift x t, ())) x ((List.range ws.length).map fun (j : ℕ) => ((k + j : ℕ) : ℝ) * h)).1 := by
  induction ws generalizing x k with
  | nil => rfl
  | cons w ws ih =>
    rw [List.length_cons, List.range_succ_eq_map, List.map_cons, List.map_map, scan_cons, emFold, ih, hs]
    simp only [zero_mulVec, add_zero, Function.comp_def, Nat.succ_eq_add_one]
    congr 3
    funext j
    congr 2; omega

theorem eulerSolver_eq (init : Vec d) (vf : Field d) (h : ℝ) (N : ℕ) :
    eulerSolver init vf h N = (scan (fun x t => (x + h • vf x t, ())) init
      ((List.range N).map fun (j : ℕ) => (j : ℝ) * h)).1 := by
  unfold eulerSolver; simp only [linspace_euler]

theorem eulerSolver_zero (init : Vec d) (vf : Field d) (h : ℝ) : eulerSolver init vf h 0 = init := by
  rw [eulerSolver_eq]; rfl

theorem eulerSolver_succ (init : Vec d) (vf : Field d) (h : ℝ) (N : ℕ) :
    eulerSolver init vf h (N + 1) = eulerSolver init vf h N + h • vf (eulerSolver init vf h N) (N * h) := by
  rw [eulerSolver_eq, eulerSolver_eq, List.range_succ, List.map_append, scan_append]
  rfl

/-- Taylor estimate with a derivative that is `M`-Lipschitz from the left end point. -/
theorem taylor1_bound {y y' : ℝ → Vec d} {a b M : ℝ} (hab : a ≤ b)
    (hy : ∀ t ∈ Set.Icc a b, HasDerivWithinAt y (y' t) (Set.Icc a b) t)
    (hL : ∀ t ∈ Set.Icc a b, ‖y' t - y' a‖ ≤ M * (t - a)) :
    ‖y b - y a - (b - a) • y' a‖ ≤ M / 2 * (b - a) ^ 2 := by
  have := image_norm_le_of_norm_deriv_right_le_deriv_boundary (a := a) (b := b)
    (f := fun t => y t - y a - (t - a) • y' a) (f' := fun t => y' t - y' a) (B := fun t => M / 2 * (t - a) ^ 2)
    (B' := fun t => M * (t - a)) ?_ ?_ ?_ ?_ ?_ (Set.right_mem_Icc.mpr hab)
  · exact this
  · have h1 : ContinuousOn y (Set.Icc a b) := fun t ht => (hy t ht).continuousWithinAt
    fun_prop
  · intro t ht
    have h1 := (hy t (Set.Ico_subset_Icc_self ht)).mono_of_mem_nhdsWithin (Icc_mem_nhdsGE_of_mem ht)
    have h2 : HasDerivWithinAt (fun t : ℝ => (t - a) • y' a) ((1 : ℝ) • y' a) (Set.Ici t) t :=
      (((hasDerivAt_id t).sub_const a).smul_const (y' a)).hasDerivWithinAt
    have := (h1.sub_const (y a)).sub h2
    exact this.congr_deriv (by simp)
  · simp
  · intro t
    have := (((hasDerivAt_id t).sub_const a).pow 2).const_mul (M / 2)
    refine this.congr_deriv ?_
    simp; ring
  · intro t ht
    exact hL t (Set.Ico_subset_Icc_self ht)

end Verif
