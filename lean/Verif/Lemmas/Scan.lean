import Verif.Jnp
import Mathlib.Tactic.Ring
import Mathlib.Tactic.FieldSimp
import Mathlib.Tactic.Linarith

/-! Helper lemmas about `scan`, `linspace` and lists. -/

namespace Verif

open Jnp

section scan

variable {S I O : Type*} (f : S → I → S × O)

@[simp] theorem scan_nil (s : S) : scan f s [] = (s, []) := rfl

@[simp] theorem scan_cons (s : S) (i : I) (is : List I) :
    scan f s (i :: is) = ((scan f (f s i).1 is).1, (f s i).2 :: (scan f (f s i).1 is).2) := rfl

@[simp] theorem scan_length (s : S) (is : List I) : (scan f s is).2.length = is.length := by
  induction is generalizing s with
  | nil => rfl
  | cons i is ih => simp [ih]

theorem scan_append (s : S) (is js : List I) :
    scan f s (is ++ js) =
      ((scan f (scan f s is).1 js).1, (scan f s is).2 ++ (scan f (scan f s is).1 js).2) := by
  induction is generalizing s with
  | nil => simp
  | cons i is ih => simp [ih]

theorem scan_take_succ_fst (s : S) (is : List I) (k : ℕ) (i : I) (hi : is[k]? = some i) :
    (scan f s (is.take (k + 1))).1 = (f (scan f s (is.take k)).1 i).1 := by
  rw [List.take_add_one, hi, scan_append]; simp

theorem scan_getElem? (s : S) (is : List I) (k : ℕ) :
    (scan f s is).2[k]? = (is[k]?).map fun i => (f (scan f s (is.take k)).1 i).2 := by
  induction is generalizing s k with
  | nil => simp
  | cons i is ih => cases k with
    | zero => simp
    | succ k => simp [ih]

theorem scan_take (s : S) (is : List I) (k : ℕ) :
    (scan f s (is.take k)).2 = (scan f s is).2.take k := by
  induction is generalizing s k with
  | nil => simp
  | cons i is ih => cases k with
    | zero => simp
    | succ k => simp [ih]

theorem scan_congr {f g : S → I → S × O} (s : S) (is : List I)
    (h : ∀ i ∈ is, ∀ s, f s i = g s i) : scan f s is = scan g s is := by
  induction is generalizing s with
  | nil => rfl
  | cons i is ih =>
    have h1 := h i (by simp) s
    simp only [scan_cons, h1]
    rw [ih _ (fun j hj => h j (by simp [hj]))]

theorem scan_map {J : Type*} (g : J → I) (s : S) (js : List J) :
    scan f s (js.map g) = scan (fun s j => f s (g j)) s js := by
  induction js generalizing s with
  | nil => rfl
  | cons j js ih => simp [ih]

/-- The carry component of a scan only depends on the carry part of the body. -/
theorem scan_fst_eq_foldl (s : S) (is : List I) :
    (scan f s is).1 = is.foldl (fun s i => (f s i).1) s := by
  induction is generalizing s with
  | nil => rfl
  | cons i is ih => simp [ih]

/-- Invariants of the carry. -/
theorem scan_invariant (P : S → Prop) (s : S) (is : List I) (h0 : P s)
    (hstep : ∀ s, P s → ∀ i ∈ is, P (f s i).1) : P (scan f s is).1 := by
  induction is generalizing s with
  | nil => simpa
  | cons i is ih =>
    exact ih _ (hstep s h0 i (by simp)) (fun s hs j hj => hstep s hs j (by simp [hj]))

/-- Relational invariants of two scans over the same inputs. -/
theorem scan_rel {S' O' : Type*} {g : S' → I → S' × O'} (R : S → S' → Prop) (s : S) (s' : S')
    (is : List I) (h0 : R s s') (hstep : ∀ s s', R s s' → ∀ i ∈ is, R (f s i).1 (g s' i).1) :
    R (scan f s is).1 (scan g s' is).1 := by
  induction is generalizing s s' with
  | nil => simpa
  | cons i is ih =>
    exact ih _ _ (hstep s s' h0 i (by simp)) (fun s s' hs j hj => hstep s s' hs j (by simp [hj]))

end scan

section linspace

@[simp] theorem linspace_length (a b : ℝ) (n : ℕ) : (linspace a b n).length = n := by
  simp [linspace]

theorem linspace_getElem? (a b : ℝ) (n k : ℕ) (hk : k < n) :
    (linspace a b n)[k]? = some (if n = 1 then a else a + (k : ℝ) * ((b - a) / ((n : ℝ) - 1))) := by
  simp [linspace, hk]

/-- The time grid of every solver. -/
theorem linspace_grid (N : ℕ) (δ : ℝ) :
    linspace 0 (N * δ) (N + 1) = (List.range (N + 1)).map fun (k : ℕ) => (k : ℝ) * δ := by
  unfold linspace
  apply List.map_congr_left
  intro k hk
  have hk' : k < N + 1 := List.mem_range.mp hk
  rcases Nat.eq_zero_or_pos N with rfl | hN
  · have : k = 0 := by omega
    simp [this]
  · have : (N : ℝ) ≠ 0 := by positivity
    have h1 : N + 1 ≠ 1 := by omega
    have h2 : ((N + 1 : ℕ) : ℝ) - 1 = N := by push_cast; ring
    simp only [h1, if_false, h2]
    field_simp
    ring

theorem linspace_grid_dropLast (N : ℕ) (δ : ℝ) :
    (linspace 0 (N * δ) (N + 1)).dropLast = (List.range N).map fun (k : ℕ) => (k : ℝ) * δ := by
  rw [linspace_grid, List.range_succ]; simp

/-- The grid of observation times of the filters. -/
theorem linspace_obs (N : ℕ) (h : ℝ) :
    linspace h (N * h) N = (List.range N).map fun (k : ℕ) => ((k : ℝ) + 1) * h := by
  unfold linspace
  apply List.map_congr_left
  intro k hk
  have hk' : k < N := List.mem_range.mp hk
  split
  · have : k = 0 := by omega
    simp [this]
  · rename_i h1
    have : (1 : ℝ) < N := by exact_mod_cast (by omega : 1 < N)
    have : (N : ℝ) - 1 ≠ 0 := by linarith
    field_simp
    ring

/-- The grid of the Euler solver. -/
theorem linspace_euler (N : ℕ) (h : ℝ) :
    linspace 0 (N * h - h) N = (List.range N).map fun (k : ℕ) => (k : ℝ) * h := by
  unfold linspace
  apply List.map_congr_left
  intro k hk
  have hk' : k < N := List.mem_range.mp hk
  split
  · have : k = 0 := by omega
    simp [this]
  · rename_i h1
    have : (1 : ℝ) < N := by exact_mod_cast (by omega : 1 < N)
    have : (N : ℝ) - 1 ≠ 0 := by linarith
    field_simp
    ring

end linspace

theorem zip_map_range {A B : Type*} (f : ℕ → A) (g : ℕ → B) (n : ℕ) :
    ((List.range n).map f).zip ((List.range n).map g) = (List.range n).map fun k => (f k, g k) := by
  rw [List.zip_map']

theorem range_zip_map {B : Type*} (g : ℕ → B) (n : ℕ) :
    (List.range n).zip ((List.range n).map g) = (List.range n).map fun k => (k, g k) := by
  have := zip_map_range id g n
  simpa using this

end Verif
