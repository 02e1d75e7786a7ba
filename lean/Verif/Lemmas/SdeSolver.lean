import Verif.Model.SdeSolver
import Verif.Model.Ssm
import Verif.Lemmas.Scan

/-! Helper lemmas: `sdeSolver` as a scan over interval indices. -/

namespace Verif

open Jnp

theorem insertArr_eq {X : Type*} (x : List X) (y : X) : insertArr x y = y :: x := rfl

theorem ProgressBar.wrap_fst {S I R : Type*} (n : ℕ) (f : S → ℕ × I → R) (c : S) (x : ℕ × I) :
    (ProgressBar.wrap n f c x).1 = f c x := by
  unfold ProgressBar.wrap ProgressBar.closeTqdm; simp only; split <;> rfl

/-- The events emitted at one iteration. -/
def ProgressBar.iterEvents (n i : ℕ) : List ProgressBar.Event :=
  ProgressBar.updateProgressBar n i ++ (if i + 1 = n then [.close] else [])

theorem ProgressBar.wrap_snd {S I R : Type*} (n : ℕ) (f : S → ℕ × I → R) (c : S) (x : ℕ × I) :
    (ProgressBar.wrap n f c x).2 = ProgressBar.iterEvents n x.1 := by
  unfold ProgressBar.wrap ProgressBar.closeTqdm ProgressBar.iterEvents; simp only; split <;> rfl

/-- The inputs of the scan of `sde_solver`. -/
theorem sde_inps (key : Key) (N : ℕ) (δ : ℝ) :
    (List.range N).zip ((key.split N).zip (linspace 0 (N * δ) (N + 1)).dropLast) =
      (List.range N).map fun k => (k, key.child N k, (k : ℝ) * δ) := by
  rw [linspace_grid_dropLast, Key.split, zip_map_range, range_zip_map]

section
variable {X C : Type} {d m : ℕ} (rng : Rng) (key : Key) (drift : Field d)
    (sigma : Diffusion d m) (x0 : X) (bm : BmApprox C m) (delta : ℝ) (N : ℕ) (odeInt : OdeInt X d)

/-- One interval of `sde_solver`, by index. -/
noncomputable def sdeStep (x : X) (k : ℕ) : X × (X × C) :=
  sdeBody rng drift sigma bm delta odeInt x (k, key.child N k, (k : ℝ) * delta)

theorem sdeSolverLog_eq :
    sdeSolverLog rng key drift sigma x0 bm delta N odeInt =
      (((List.range (N + 1)).map fun (k : ℕ) => (k : ℝ) * delta,
        x0 :: (scan (sdeStep rng key drift sigma bm delta N odeInt) x0 (List.range N)).2.map (·.1),
        (scan (sdeStep rng key drift sigma bm delta N odeInt) x0 (List.range N)).2.map (·.2)),
       ((List.range N).map (ProgressBar.iterEvents N)).flatten) := by
  have key1 : ∀ (is : List ℕ) (s : X),
      (scan (fun x (inp : ℕ × Key × ℝ) =>
          (((ProgressBar.wrap N (sdeBody rng drift sigma bm delta odeInt) x inp).1.1,
            ((ProgressBar.wrap N (sdeBody rng drift sigma bm delta odeInt) x inp).1.2,
             (ProgressBar.wrap N (sdeBody rng drift sigma bm delta odeInt) x inp).2)) :
              X × ((X × C) × List ProgressBar.Event)))
        s (is.map fun k => (k, key.child N k, (k : ℝ) * delta))).2 =
      ((scan (sdeStep rng key drift sigma bm delta N odeInt) s is).2).zip
        (is.map (ProgressBar.iterEvents N)) := by
    intro is
    induction is with
    | nil => intro s; simp
    | cons i is ih =>
      intro s
      simp only [List.map_cons, scan_cons, List.zip_cons_cons]
      rw [ih]
      simp only [ProgressBar.wrap_fst, ProgressBar.wrap_snd]
      rfl
  have hl : (scan (sdeStep rng key drift sigma bm delta N odeInt) x0 (List.range N)).2.length =
      ((List.range N).map (ProgressBar.iterEvents N)).length := by simp
  unfold sdeSolverLog
  simp only [sde_inps, insertArr_eq]
  rw [key1, linspace_grid]
  refine Prod.ext (Prod.ext rfl (Prod.ext ?_ ?_)) ?_
  · simp only
    congr 1
    rw [show (fun x : (X × C) × List ProgressBar.Event => x.1.1) =
      (fun y : X × C => y.1) ∘ Prod.fst from rfl, ← List.map_map, List.map_fst_zip (le_of_eq hl)]
  · simp only
    rw [show (fun x : (X × C) × List ProgressBar.Event => x.1.2) =
      (fun y : X × C => y.2) ∘ Prod.fst from rfl, ← List.map_map, List.map_fst_zip (le_of_eq hl)]
  · simp only
    rw [List.map_snd_zip (le_of_eq hl.symm)]

theorem sdeSolver_eq :
    sdeSolver rng key drift sigma x0 bm delta N odeInt =
      ((List.range (N + 1)).map fun (k : ℕ) => (k : ℝ) * delta,
        x0 :: (scan (sdeStep rng key drift sigma bm delta N odeInt) x0 (List.range N)).2.map (·.1),
        (scan (sdeStep rng key drift sigma bm delta N odeInt) x0 (List.range N)).2.map (·.2)) := by
  unfold sdeSolver; rw [sdeSolverLog_eq]

end

section
variable {X C : Type} {d m : ℕ} (key : Key) (drift : Field d)
    (sigma : Diffusion d m) (x0 : X) (delta : ℝ) (N : ℕ) (solver : Ssm.SsmInt X C d m)

theorem Ssm.sdeSolver_eq :
    Ssm.sdeSolver key drift sigma x0 delta N solver =
      ((List.range (N + 1)).map fun (k : ℕ) => (k : ℝ) * delta,
        x0 :: (scan (fun x (k : ℕ) => Ssm.sdeBody drift sigma delta solver x
          (k, key.child N k, (k : ℝ) * delta)) x0 (List.range N)).2) := by
  unfold Ssm.sdeSolver
  simp only [sde_inps, insertArr_eq, ProgressBar.wrap_fst, scan_map]
  rw [linspace_grid]

end

/-- In a scan whose output is its carry, the list `init :: outputs` is the list of successive carries. -/
theorem traj_getElem? {S I : Type*} (g : S → I → S) (s : S) (is : List I) (k : ℕ) (hk : k ≤ is.length) :
    (s :: (scan (fun s i => (g s i, g s i)) s is).2)[k]? =
      some (scan (fun s i => (g s i, g s i)) s (is.take k)).1 := by
  cases k with
  | zero => simp
  | succ k =>
    have hk' : k < is.length := hk
    rw [List.getElem?_cons_succ, scan_getElem?, List.getElem?_eq_getElem hk',
      scan_take_succ_fst _ _ _ k is[k] (by simp)]
    rfl

end Verif
