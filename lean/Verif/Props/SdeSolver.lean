import Verif.Lemmas.SdeSolver
import Verif.Model.EulerMaruyama
import Verif.Model.Euler
import Verif.Model.Taylor15
import Verif.Spec.Grid

/-!
# Properties C01-C05: the outer loop of the SDE solvers
-/

namespace Verif

open Jnp Matrix Spec

theorem uniformGrid_range (N : ℕ) (δ : ℝ) :
    UniformGrid ((List.range (N + 1)).map fun (k : ℕ) => (k : ℝ) * δ) N δ := by
  refine ⟨by simp, fun k hk => ?_⟩
  rw [List.getElem?_map, List.getElem?_range (by omega)]; rfl

/-! ## C01 -/

/-- C01: the time array of `sde_solver` is the uniform grid, for every `N` (also 0). -/
theorem C01_sde_solver_grid {X C : Type} {d m : ℕ} (rng : Rng) (key : Key) (drift : Field d)
    (sigma : Diffusion d m) (x0 : X) (bm : BmApprox C m) (δ : ℝ) (N : ℕ) (odeInt : OdeInt X d) :
    UniformGrid (sdeSolver rng key drift sigma x0 bm δ N odeInt).1 N δ := by
  rw [sdeSolver_eq]; exact uniformGrid_range N δ

/-- C01 for the state-space parabola solver. -/
theorem C01_ssm_grid {X C : Type} {d m : ℕ} (key : Key) (drift : Field d) (sigma : Diffusion d m) (x0 : X)
    (δ : ℝ) (N : ℕ) (solver : Ssm.SsmInt X C d m) :
    UniformGrid (Ssm.sdeSolver key drift sigma x0 δ N solver).1 N δ := by
  rw [Ssm.sdeSolver_eq]; exact uniformGrid_range N δ

/-- C01 for Euler-Maruyama. -/
theorem C01_em_grid {d m : ℕ} (rng : Rng) (key : Key) (x0 : Vec d) (drift : Field d)
    (sigma : Diffusion d m) (h : ℝ) (N : ℕ) :
    UniformGrid (emSolver rng key x0 drift sigma h N).1 N h := by
  unfold emSolver; simp only; rw [linspace_grid]; exact uniformGrid_range N h

/-- C01 for pathwise Euler-Maruyama, whenever it returns. -/
theorem C01_em_pathwise_grid {d m : ℕ} (incs : List (Vec m)) (x0 : Vec d) (drift : Field d)
    (sigma : Diffusion d m) (h : ℝ) (N : ℕ) (standard : Bool) (r : List ℝ × List (Vec d))
    (hr : emPathwise incs x0 drift sigma h N standard = .ok r) : UniformGrid r.1 N h := by
  unfold emPathwise at hr
  simp only at hr
  generalize (if standard = true then _ else incs) = ws at hr
  by_cases hc : ws.length = (linspace 0 (↑N * h) (N + 1)).dropLast.length
  · rw [if_pos hc] at hr
    obtain rfl := (Except.ok.inj hr).symm
    simp only; rw [linspace_grid]; exact uniformGrid_range N h
  · rw [if_neg hc] at hr
    cases hr

/-- C01 for the diagonal 1.5 scheme. -/
theorem C01_diag15_grid {d m : ℕ} (la : LinAlg) (rng : Rng) (key : Key) (x0 : Vec d) (drift : Vec d → Vec d)
    (sigma : Vec d → Mat d m) (h : ℝ) (N : ℕ) (r : List ℝ × List (Vec d))
    (hr : Diag15.solver la rng key x0 drift sigma h N = .ok r) : UniformGrid r.1 N h := by
  unfold Diag15.solver at hr
  split at hr
  · obtain rfl := (Except.ok.inj hr).symm
    simp only; rw [linspace_grid]; exact uniformGrid_range N h
  · cases hr

/-- C01 for the hypoelliptic 1.5 scheme. -/
theorem C01_hypo15_grid {d m : ℕ} (la : LinAlg) (rng : Rng) (key : Key) (x0 : Vec (d + 1))
    (drift : Vec (d + 1) → Vec (d + 1)) (sigma : Vec (d + 1) → Mat (d + 1) m) (h : ℝ) (N : ℕ) :
    UniformGrid (Hypo15.solver la rng key x0 drift sigma h N).1 N h := by
  unfold Hypo15.solver; simp only; rw [linspace_grid]; exact uniformGrid_range N h

/-- C01: consequences of being the uniform grid: it starts at 0, ends at `N δ`, and increases. -/
theorem C01_grid_ends_and_increases (ts : List ℝ) (N : ℕ) (δ : ℝ) (h : UniformGrid ts N δ) :
    ts.head? = some 0 ∧ ts.getLast? = some (N * δ) ∧ (0 < δ → ts.Pairwise (· < ·)) := by
  obtain ⟨hl, hk⟩ := h
  refine ⟨?_, ?_, fun hδ => ?_⟩
  · have := hk 0 (Nat.zero_le N)
    rw [List.head?_eq_getElem?, this]; simp
  · rw [List.getLast?_eq_getElem?, hl]
    simpa using hk N le_rfl
  · rw [List.pairwise_iff_getElem]
    intro i j hi hj hij
    have h1 := hk i (by omega)
    have h2 := hk j (by omega)
    rw [List.getElem?_eq_getElem hi] at h1
    rw [List.getElem?_eq_getElem hj] at h2
    rw [Option.some.inj h1, Option.some.inj h2]
    exact mul_lt_mul_of_pos_right (by exact_mod_cast hij) hδ

/-- C01 hypotheses can be met: the grid with three intervals of length 1/2. -/
example : UniformGrid [0, 1 / 2, 1, 3 / 2] 3 (1 / 2) := by
  refine ⟨rfl, fun k hk => ?_⟩
  interval_cases k <;> norm_num

/-! ## C02 -/

/-- C02: one state per grid point, the first one being `x0`, and one coefficient tuple per interval. -/
theorem C02_trajectory_shape {X C : Type} {d m : ℕ} (rng : Rng) (key : Key) (drift : Field d)
    (sigma : Diffusion d m) (x0 : X) (bm : BmApprox C m) (δ : ℝ) (N : ℕ) (odeInt : OdeInt X d) :
    let out := sdeSolver rng key drift sigma x0 bm δ N odeInt
    out.2.1.length = N + 1 ∧ out.2.1.head? = some x0 ∧ out.2.2.length = N := by
  rw [sdeSolver_eq]; simp

/-- C02 for the state-space parabola solver. -/
theorem C02_ssm_trajectory_shape {X C : Type} {d m : ℕ} (key : Key) (drift : Field d) (sigma : Diffusion d m)
    (x0 : X) (δ : ℝ) (N : ℕ) (solver : Ssm.SsmInt X C d m) :
    let out := Ssm.sdeSolver key drift sigma x0 δ N solver
    out.2.length = N + 1 ∧ out.2.head? = some x0 := by
  rw [Ssm.sdeSolver_eq]; simp

/-! ## C03 -/

/-- The state and coefficients of interval `k` in terms of the scan. -/
theorem sdeSolver_interval {X C : Type} {d m : ℕ} (rng : Rng) (key : Key) (drift : Field d)
    (sigma : Diffusion d m) (x0 : X) (bm : BmApprox C m) (δ : ℝ) (N : ℕ) (odeInt : OdeInt X d)
    (k : ℕ) (hk : k < N) :
    let out := sdeSolver rng key drift sigma x0 bm δ N odeInt
    ∃ x c, out.2.1[k]? = some x ∧ out.2.2[k]? = some c ∧
      c = bm.coeffs rng ((key.child N k).child 2 0) δ ∧
      out.2.1[k + 1]? = some (odeInt ((key.child N k).child 2 1) x
        (intervalField drift sigma bm δ c ((k : ℝ) * δ)) δ) := by
  rw [sdeSolver_eq]
  simp only
  set st := sdeStep rng key drift sigma bm δ N odeInt with hst
  set x := (scan st x0 ((List.range N).take k)).1 with hx
  refine ⟨x, bm.coeffs rng ((key.child N k).child 2 0) δ, ?_, ?_, rfl, ?_⟩
  · cases k with
    | zero => simp [hx]
    | succ k =>
      have hk' : (List.range N)[k]? = some k := List.getElem?_range (by omega)
      rw [List.getElem?_cons_succ, List.getElem?_map, scan_getElem?, hk', hx,
        scan_take_succ_fst _ _ _ k k hk']
      rfl
  · have hk' : (List.range N)[k]? = some k := List.getElem?_range hk
    rw [List.getElem?_map, scan_getElem?, hk']
    rfl
  · have hk' : (List.range N)[k]? = some k := List.getElem?_range hk
    rw [List.getElem?_cons_succ, List.getElem?_map, scan_getElem?, hk']
    rfl

/-- C03: state `k+1` is the integrator applied to state `k` over a horizon `δ`, with the drift and diffusion
evaluated at absolute time `t + k δ` and driven by the time derivative of the path rebuilt from the coefficients
returned for interval `k`; these coefficients are drawn with the first half of the interval's key and the
integrator gets the second half. -/
theorem C03_interval_step {X C : Type} {d m : ℕ} (rng : Rng) (key : Key) (drift : Field d)
    (sigma : Diffusion d m) (x0 : X) (bm : BmApprox C m) (δ : ℝ) (N : ℕ) (odeInt : OdeInt X d)
    (k : ℕ) (hk : k < N) :
    let out := sdeSolver rng key drift sigma x0 bm δ N odeInt
    ∃ (x x' : X) (c : C), out.2.1[k]? = some x ∧ out.2.1[k + 1]? = some x' ∧ out.2.2[k]? = some c ∧
      c = bm.coeffs rng ((key.child N k).child 2 0) δ ∧
      x' = odeInt ((key.child N k).child 2 1) x
        (fun z t => drift z (t + k * δ) +
          sigma z (t + k * δ) *ᵥ (fun i => deriv (fun s => bm.eval s δ c i) t)) δ := by
  obtain ⟨x, c, h1, h2, h3, h4⟩ := sdeSolver_interval rng key drift sigma x0 bm δ N odeInt k hk
  exact ⟨x, _, c, h1, h4, h2, h3, rfl⟩

/-- C03 for the state-space parabola solver: the integrator gets the shifted problem. -/
theorem C03_ssm_interval_step {X C : Type} {d m : ℕ} (key : Key) (drift : Field d) (sigma : Diffusion d m)
    (x0 : X) (δ : ℝ) (N : ℕ) (solver : Ssm.SsmInt X C d m) (k : ℕ) (hk : k < N) :
    let out := Ssm.sdeSolver key drift sigma x0 δ N solver
    ∃ x x', out.2[k]? = some x ∧ out.2[k + 1]? = some x' ∧
      x' = (solver ((key.child N k).child 2 1) x (fun z t => drift z (t + k * δ))
        (fun z t => sigma z (t + k * δ)) δ).1 := by
  rw [Ssm.sdeSolver_eq]
  have h := traj_getElem? (fun (x : X) (j : ℕ) => (Ssm.sdeBody drift sigma δ solver x
          (j, key.child N j, (j : ℝ) * δ)).1) x0 (List.range N)
  have hk' : (List.range N)[k]? = some k := List.getElem?_range hk
  have h1 := h k (by simp; omega)
  have h2 := h (k + 1) (by simp; omega)
  rw [scan_take_succ_fst _ _ _ k k hk'] at h2
  exact ⟨_, _, h1, h2, rfl⟩

/-! ## C04, C05: comparing runs

Two runs may use different root keys and generators; what matters is that they consume the same coefficients and the same
integrators on the intervals that are compared. -/

theorem sdeScan_congr {X C : Type} {d m : ℕ} {ra rb : Rng} {ka kb : Key} {da db : Field d}
    {sa sb : Diffusion d m} {bma bmb : BmApprox C m} {δ : ℝ} {Na Nb : ℕ} {oa ob : OdeInt X d}
    (i0 j0 n : ℕ) (x : X)
    (h : ∀ i < n, ∀ x : X, sdeStep ra ka da sa bma δ Na oa x (i0 + i) =
      sdeStep rb kb db sb bmb δ Nb ob x (j0 + i)) :
    scan (sdeStep ra ka da sa bma δ Na oa) x ((List.range n).map (i0 + ·)) =
      scan (sdeStep rb kb db sb bmb δ Nb ob) x ((List.range n).map (j0 + ·)) := by
  rw [scan_map, scan_map]
  exact scan_congr _ _ (fun i hi x => h i (List.mem_range.mp hi) x)

/-- C04: solving `N1 + N2` intervals is solving `N1` and then restarting from the reached state with drift and diffusion
shifted by `N1 δ`. The two partial runs may have their own keys and generators, as long as these deliver on each interval
the same coefficients and the same integrator randomness as the full run. -/
theorem C04_restart {X C : Type} {d m : ℕ} (r ra rb : Rng) (key ka kb : Key) (drift : Field d)
    (sigma : Diffusion d m) (x0 : X) (bm : BmApprox C m) (δ : ℝ) (N1 N2 : ℕ) (o oa ob : OdeInt X d)
    (hca : ∀ i < N1, bm.coeffs ra ((ka.child N1 i).child 2 0) δ =
      bm.coeffs r ((key.child (N1 + N2) i).child 2 0) δ)
    (hoa : ∀ i < N1, oa ((ka.child N1 i).child 2 1) = o ((key.child (N1 + N2) i).child 2 1))
    (hcb : ∀ i < N2, bm.coeffs rb ((kb.child N2 i).child 2 0) δ =
      bm.coeffs r ((key.child (N1 + N2) (N1 + i)).child 2 0) δ)
    (hob : ∀ i < N2, ob ((kb.child N2 i).child 2 1) = o ((key.child (N1 + N2) (N1 + i)).child 2 1)) :
    let full := sdeSolver r key drift sigma x0 bm δ (N1 + N2) o
    let a := sdeSolver ra ka drift sigma x0 bm δ N1 oa
    ∃ x1, a.2.1.getLast? = some x1 ∧
      let b := sdeSolver rb kb (fun z t => drift z (t + N1 * δ)) (fun z t => sigma z (t + N1 * δ)) x1 bm δ N2 ob
      full.2.1 = a.2.1 ++ b.2.1.tail ∧ full.2.2 = a.2.2 ++ b.2.2 := by
  simp only [sdeSolver_eq]
  set sF := sdeStep r key drift sigma bm δ (N1 + N2) o with hsF
  set sA := sdeStep ra ka drift sigma bm δ N1 oa with hsA
  have hA : ∀ x, scan sA x (List.range N1) = scan sF x (List.range N1) := by
    intro x
    refine scan_congr _ _ (fun i hi x => ?_)
    have hi' := List.mem_range.mp hi
    rw [hsA, hsF]
    simp only [sdeStep, sdeBody, hca i hi', hoa i hi']
  have hr : List.range (N1 + N2) = List.range N1 ++ (List.range N2).map (N1 + ·) := List.range_add
  refine ⟨(scan sF x0 (List.range N1)).1, ?_, ?_, ?_⟩
  · rw [hA]
    have : ∀ (is : List ℕ) (x : X), (x :: (scan sF x is).2.map (·.1)).getLast? = some (scan sF x is).1 := by
      intro is
      induction is with
      | nil => intro x; simp
      | cons i is ih =>
        intro x
        have := ih (sF x i).1
        rw [scan_cons]
        simp only [List.map_cons, List.getLast?_cons_cons]
        exact this
    exact this _ _
  all_goals
    rw [hr, scan_append, hA]
    set x1 := (scan sF x0 (List.range N1)).1
    have hB : scan (sdeStep rb kb (fun z t => drift z (t + N1 * δ)) (fun z t => sigma z (t + N1 * δ)) bm δ N2 ob)
        x1 (List.range N2) = scan sF x1 ((List.range N2).map (N1 + ·)) := by
      rw [scan_map]
      refine scan_congr _ _ (fun i hi x => ?_)
      have hi' := List.mem_range.mp hi
      rw [hsF]
      simp only [sdeStep, sdeBody, hcb i hi', hob i hi', intervalField]
      have hf : ∀ t : ℝ, t + (i : ℝ) * δ + N1 * δ = t + ((N1 + i : ℕ) : ℝ) * δ := by
        intro t; push_cast; ring
      simp only [hf]
    rw [hB]
    simp

/-- C04: the hypotheses can be met: with one generator whose draws ignore the key and the parabola approximation, any
integrator that ignores its key. -/
example (x0 : Vec 1) :
    let r : Rng := ⟨fun _ _ i => i⟩
    let o : OdeInt (Vec 1) 1 := fun _ x vf T => eulerSolver x vf T 1
    let drift : Field 1 := fun x t => x + fun _ => t
    let sigma : Diffusion 1 1 := fun _ t => fun _ _ => t
    ∃ x1, (sdeSolver r [] drift sigma x0 (Foster.getApprox 1) 1 2 o).2.1.getLast? = some x1 ∧
      (sdeSolver r [] drift sigma x0 (Foster.getApprox 1) 1 (2 + 3) o).2.1 =
        (sdeSolver r [] drift sigma x0 (Foster.getApprox 1) 1 2 o).2.1 ++
        (sdeSolver r [] (fun z t => drift z (t + (2 : ℕ) * 1)) (fun z t => sigma z (t + (2 : ℕ) * 1)) x1
          (Foster.getApprox 1) 1 3 o).2.1.tail := by
  intro r o drift sigma
  obtain ⟨x1, h1, h2, _⟩ := C04_restart r r r [] [] [] drift sigma x0 (Foster.getApprox 1) 1 2 3 o o o
    (fun _ _ => rfl) (fun _ _ => rfl) (fun _ _ => rfl) (fun _ _ => rfl)
  exact ⟨x1, h1, h2⟩

/-- An integrator that only evaluates its vector field at times in `[0, T]`. -/
def LooksOnlyAt {X : Type} {d : ℕ} (o : OdeInt X d) (T : ℝ) : Prop :=
  ∀ key x (vf vf' : Field d), (∀ z, ∀ t, 0 ≤ t → t ≤ T → vf z t = vf' z t) → o key x vf T = o key x vf' T

/-- C05: two problems whose drift and diffusion agree up to time `k δ`, and whose runs consume the same randomness on the first
`k` intervals, have the same first `k + 1` states and the same first `k` coefficients. Horizons may differ. -/
theorem C05_causality {X C : Type} {d m : ℕ} (ra rb : Rng) (ka kb : Key) (da db : Field d)
    (sa sb : Diffusion d m) (x0 : X) (bm : BmApprox C m) (δ : ℝ) (hδ : 0 ≤ δ) (Na Nb k : ℕ) (hka : k ≤ Na) (hkb : k ≤ Nb)
    (oa ob : OdeInt X d) (hloc : LooksOnlyAt oa δ)
    (hd : ∀ z t, 0 ≤ t → t ≤ k * δ → da z t = db z t) (hs : ∀ z t, 0 ≤ t → t ≤ k * δ → sa z t = sb z t)
    (hc : ∀ i < k, bm.coeffs ra ((ka.child Na i).child 2 0) δ = bm.coeffs rb ((kb.child Nb i).child 2 0) δ)
    (ho : ∀ i < k, oa ((ka.child Na i).child 2 1) = ob ((kb.child Nb i).child 2 1)) :
    let a := sdeSolver ra ka da sa x0 bm δ Na oa
    let b := sdeSolver rb kb db sb x0 bm δ Nb ob
    a.2.1.take (k + 1) = b.2.1.take (k + 1) ∧ a.2.2.take k = b.2.2.take k := by
  simp only [sdeSolver_eq, List.take_succ_cons, ← List.map_take, ← scan_take]
  have ht : ∀ n, k ≤ n → (List.range n).take k = List.range k := by
    intro n hn; rw [List.take_range, min_eq_left hn]
  rw [ht _ hka, ht _ hkb]
  have : scan (sdeStep ra ka da sa bm δ Na oa) x0 (List.range k) =
      scan (sdeStep rb kb db sb bm δ Nb ob) x0 (List.range k) := by
    refine scan_congr _ _ (fun i hi x => ?_)
    have hi' := List.mem_range.mp hi
    have hfield : oa ((ka.child Na i).child 2 1) x
        (intervalField da sa bm δ (bm.coeffs ra ((ka.child Na i).child 2 0) δ) (i * δ)) δ =
      oa ((ka.child Na i).child 2 1) x
        (intervalField db sb bm δ (bm.coeffs ra ((ka.child Na i).child 2 0) δ) (i * δ)) δ := by
      apply hloc
      intro z t h0 hT
      have h1 : 0 ≤ t + i * δ := by positivity
      have h2 : t + i * δ ≤ k * δ := by
        have : ((i : ℝ) + 1) * δ ≤ k * δ := mul_le_mul_of_nonneg_right (by exact_mod_cast hi') hδ
        linarith
      simp only [intervalField, hd z _ h1 h2, hs z _ h1 h2]
    simp only [sdeStep, sdeBody]
    rw [hfield, hc i hi', ho i hi']
  rw [this]
  exact ⟨rfl, rfl⟩

/-- C05: the locality hypothesis is met by the Euler integrator with any number of inner steps. -/
theorem C05_euler_looksOnlyAt {d : ℕ} (M : ℕ) (T : ℝ) (hT : 0 ≤ T) :
    LooksOnlyAt (fun _ x vf T => eulerSolver x vf (T / M) M : OdeInt (Vec d) d) T := by
  intro key x vf vf' h
  simp only [eulerSolver, linspace_euler]
  congr 1
  refine scan_congr _ _ (fun t ht s => ?_)
  obtain ⟨k, hk, rfl⟩ := List.mem_map.mp ht
  have hk' := List.mem_range.mp hk
  have hM : (0 : ℝ) < M := by exact_mod_cast (by omega : 0 < M)
  have h1 : (k : ℝ) * (T / M) ≤ T := by
    rw [mul_div_assoc', div_le_iff₀ hM, mul_comm]
    exact mul_le_mul_of_nonneg_left (by exact_mod_cast hk'.le) hT
  simp only [h s _ (by positivity) h1]

end Verif
