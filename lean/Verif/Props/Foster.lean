import Verif.Lemmas.Foster
import Verif.Spec.Brownian
import Verif.Model.EulerMaruyama

/-!
# Properties C11-C17: the polynomial approximations of Brownian motion
-/

namespace Verif

open Jnp MeasureTheory ProbabilityTheory Matrix Spec Foster

/-! ## C11, C12: shape of one parabola -/

/-- C11, for one path with increment coefficient `a` and area coefficient `b`. -/
def C11Shape {dim : ℕ} (path : ℝ → Vec dim) (dt : ℝ) (a b : Vec dim) : Prop :=
  path 0 = 0 ∧ path dt = a ∧ ∀ t j, HasDerivAt (fun s => path s j)
    ((a j + Real.sqrt 6 * b j * (1 - 2 * t / dt)) / dt) t

theorem evalParabola_shape {dim : ℕ} (dt : ℝ) (hdt : dt ≠ 0) (a b : Vec dim) :
    C11Shape (fun t => evalParabola t dt a b) dt a b := by
  refine ⟨?_, ?_, fun t j => hasDerivAt_evalParabola1 t dt (a j) (b j)⟩
  · funext j; simp [evalParabola, evalParabola1]
  · funext j; simp [evalParabola, evalParabola1, hdt]

/-- C11: for all three approximations the path starts at 0, ends at the increment coefficient and has the stated
slope. -/
theorem C11_parabola_ends_and_slope (dim N : ℕ) (dt : ℝ) (hdt : dt ≠ 0) :
    (∀ c, C11Shape (fun t => (getApprox dim).eval t dt c) dt c.1 c.2) ∧
    (∀ c, C11Shape (fun t => (getApproxAndBrownian dim N).eval t dt c) dt c.1 c.2.1) ∧
    (∀ c, C11Shape (fun t => (getApproxFine dim N).eval t dt c) dt c.1 c.2.1) :=
  ⟨fun c => evalParabola_shape dt hdt c.1 c.2, fun c => evalParabola_shape dt hdt c.1 c.2.1,
    fun c => evalParabola_shape dt hdt c.1 c.2.1⟩

example : (1 / 4 : ℝ) ≠ 0 := by norm_num

/-- C12: the area under the path, for all three approximations. -/
theorem C12_parabola_area (dim N : ℕ) (dt : ℝ) (j : Fin dim) :
    (∀ c, ∫ t in (0 : ℝ)..dt, (getApprox dim).eval t dt c j = dt * (c.1 j / 2 + c.2 j / Real.sqrt 6)) ∧
    (∀ c, ∫ t in (0 : ℝ)..dt, (getApproxAndBrownian dim N).eval t dt c j =
      dt * (c.1 j / 2 + c.2.1 j / Real.sqrt 6)) ∧
    (∀ c, ∫ t in (0 : ℝ)..dt, (getApproxFine dim N).eval t dt c j =
      dt * (c.1 j / 2 + c.2.1 j / Real.sqrt 6)) := by
  rcases eq_or_ne dt 0 with rfl | hdt
  · simp
  · exact ⟨fun c => integral_evalParabola1 dt _ _ hdt, fun c => integral_evalParabola1 dt _ _ hdt,
      fun c => integral_evalParabola1 dt _ _ hdt⟩

/-! ## C13: law of the sampled parabola -/

/-- The coefficients as one random vector: `(0, j)` is the increment, `(1, j)` the area coefficient of
coordinate `j`. -/
def coeffVec {dim : ℕ} (a b : Vec dim) : Fin 2 × Fin dim → ℝ := fun p => ![a p.2, b p.2] p.1

/-- The variances of the coefficients: `dt` and `dt / 2`. -/
noncomputable def coeffVar (dim : ℕ) (dt : ℝ) : Fin 2 × Fin dim → ℝ := fun p => ![dt, dt / 2] p.1

/-- C13: the coefficients of `get_approx` are independent centred normals with variances `dt`, `dt / 2`. -/
theorem C13_coefficients_law {Ω : Type*} [MeasurableSpace Ω] {P : Measure Ω} {R : Ω → Rng} (hR : IdealNormals P R)
    (dim : ℕ) (key : Key) (dt : ℝ) (hdt : 0 ≤ dt) :
    let X := fun ω => coeffVec ((getApprox dim).coeffs (R ω) key dt).1 ((getApprox dim).coeffs (R ω) key dt).2
    IsNormal P X 0 (diagonal (coeffVar dim dt)) ∧ iIndepFun (fun p ω => X ω p) P := by
  intro X
  have hi := hR.indep_mats (ι := Unit) (fun _ => key) (fun a b h => (h (Subsingleton.elim a b)).elim) 2 dim
  have hi' := hi.precomp (g := fun p : Fin 2 × Fin dim => ((), p)) (fun p q h => by simpa using h)
  set v : Fin 2 × Fin dim → ℝ := fun p => ![Real.sqrt dt, Real.sqrt (0.5 * dt)] p.1 with hv
  have hn := isNormal_linear (P := P)
    (Z := fun (p : Fin 2 × Fin dim) ω => (R ω).normalMat key 2 dim p.1 p.2)
    (fun p => hR.law_mat key p.1 p.2) hi' 0 (diagonal v)
  have hX : X = fun ω => 0 + diagonal v *ᵥ fun p => (R ω).normalMat key 2 dim p.1 p.2 := by
    funext ω p
    obtain ⟨s, j⟩ := p
    fin_cases s <;>
    simp [X, coeffVec, getApprox, parabolas, mulVec_diagonal, hv, mul_comm]
  have hC : diagonal v * (diagonal v)ᵀ = diagonal (coeffVar dim dt) := by
    rw [diagonal_transpose, diagonal_mul_diagonal]
    congr 1
    funext p
    obtain ⟨s, j⟩ := p
    fin_cases s
    · simp [hv, coeffVar, Real.mul_self_sqrt hdt]
    · simp only [hv, coeffVar]
      have := Real.mul_self_sqrt (by positivity : 0 ≤ 0.5 * dt)
      simp [this]; ring
  rw [hC, ← hX] at hn
  exact ⟨hn, hn.iIndepFun_of_diagonal⟩

/-- Vector of path increments and path integrals over `[0, dt]`. -/
noncomputable def incrArea {dim : ℕ} (path : ℝ → Vec dim) (dt : ℝ) : Fin 2 × Fin dim → ℝ :=
  fun p => ![path dt p.2 - path 0 p.2, ∫ t in (0 : ℝ)..dt, path t p.2] p.1

/-- The covariance of `dim` independent copies of (increment, integral) of Brownian motion. -/
noncomputable def bmCovDim (dim : ℕ) (dt : ℝ) : Matrix (Fin 2 × Fin dim) (Fin 2 × Fin dim) ℝ :=
  fun p q => if p.2 = q.2 then bmCov dt p.1 q.1 else 0

/-- Independent coefficients with variances `dt`, `dt/2` give increments and integrals distributed as for Brownian motion. -/
theorem incrArea_law {Ω : Type*} [MeasurableSpace Ω] {P : Measure Ω} {dim : ℕ} {a b : Ω → Vec dim} {dt : ℝ} (hdt : 0 < dt)
    (h : IsNormal P (fun ω => coeffVec (a ω) (b ω)) 0 (diagonal (coeffVar dim dt))) :
    IsNormal P (fun ω => incrArea (fun t => evalParabola t dt (a ω) (b ω)) dt) 0 (bmCovDim dim dt) := by
  set B : Matrix (Fin 2) (Fin 2) ℝ := !![1, 0; dt / 2, dt / Real.sqrt 6] with hB
  set M : Matrix (Fin 2 × Fin dim) (Fin 2 × Fin dim) ℝ := fun p q => if p.2 = q.2 then B p.1 q.1 else 0
  have hM : ∀ p q, M p q = if p.2 = q.2 then B p.1 q.1 else 0 := fun _ _ => rfl
  have hn := h.affine 0 M
  have h6 : Real.sqrt 6 ≠ 0 := by positivity
  have hX : (fun ω => incrArea (fun t => evalParabola t dt (a ω) (b ω)) dt) =
      fun ω => 0 + M *ᵥ coeffVec (a ω) (b ω) := by
    funext ω p
    obtain ⟨s, j⟩ := p
    have he : ∀ c : Fin 2, (∑ x : Fin dim, (if j = x then B s c else 0) * coeffVec (a ω) (b ω) (c, x)) =
        B s c * coeffVec (a ω) (b ω) (c, j) := by
      intro c; simp
    simp only [Pi.add_apply, Pi.zero_apply, zero_add, mulVec, dotProduct, hM, Fintype.sum_prod_type, he,
      Fin.sum_univ_two]
    fin_cases s
    · simp [incrArea, coeffVec, hB, evalParabola, evalParabola1, hdt.ne']
    · simp only [incrArea, evalParabola, Fin.mk_one, cons_val_one, cons_val_fin_one, integral_evalParabola1 dt _ _ hdt.ne']
      simp [coeffVec, hB]; ring
  have hC : M * diagonal (coeffVar dim dt) * Mᵀ = bmCovDim dim dt := by
    ext ⟨s, j⟩ ⟨s', j'⟩
    have he : ∀ c : Fin 2, (∑ x : Fin dim, (if j = x then B s c else 0) * coeffVar dim dt (c, x) *
        (if j' = x then B s' c else 0)) =
        if j = j' then B s c * coeffVar dim dt (c, j) * B s' c else 0 := by
      intro c
      rcases eq_or_ne j j' with rfl | hne
      · simp
      · rw [if_neg hne]
        refine Finset.sum_eq_zero fun x _ => ?_
        by_cases h1 : j = x
        · have : ¬ j' = x := fun h2 => hne (h1.trans h2.symm)
          simp [this]
        · simp [h1]
    rw [Matrix.mul_apply]
    simp only [Matrix.mul_diagonal, transpose_apply, hM, Fintype.sum_prod_type, he, bmCovDim]
    split
    · have h2 : Real.sqrt 6 * Real.sqrt 6 = 6 := sqrt6_sq
      fin_cases s <;> fin_cases s' <;> simp [hB, coeffVar, bmCov]
      · ring
      · ring
      · have h3 : dt / Real.sqrt 6 * (dt / 2) * (dt / Real.sqrt 6) = dt ^ 3 / 12 := by
          rw [div_mul_eq_mul_div, div_mul_div_comm, h2]; ring
        rw [h3]; ring
    · simp
  rw [← hX, hC] at hn
  simpa using hn

/-- C13: the increment and the integral of the sampled parabola have exactly the joint law of those of a Brownian motion. -/
theorem C13_increment_and_area_law {Ω : Type*} [MeasurableSpace Ω] {P : Measure Ω} {R : Ω → Rng} (hR : IdealNormals P R)
    (dim : ℕ) (key : Key) (dt : ℝ) (hdt : 0 < dt) :
    IsNormal P (fun ω => incrArea (fun t => (getApprox dim).eval t dt ((getApprox dim).coeffs (R ω) key dt)) dt) 0
      (bmCovDim dim dt) :=
  incrArea_law hdt (C13_coefficients_law hR dim key dt hdt.le).1

/-- Ideal generators exist, so the hypothesis of C13 and C15 can be met. -/
example : IdealNormals drawsMeasure drawsRng := idealNormals_drawsRng

/-! ## C14, C15: aggregation of fine parabolas -/

theorem fine_scan {dim : ℕ} (h : ℝ) (f g : ℕ → Vec dim) (N : ℕ) :
    (scan (updateEps h) (0, 0) ((List.range N).map fun k => (f k, g k))).1 =
      (∑ k ∈ Finset.range N, f k,
       ∑ k ∈ Finset.range N, h • (∑ i ∈ Finset.range k, f i + (0.5 : ℝ) • f k + g k)) := by
  induction N with
  | zero => simp
  | succ N ih =>
    rw [List.range_succ, List.map_append, scan_append, Finset.sum_range_succ, Finset.sum_range_succ]
    simp only [List.map_cons, List.map_nil, scan_cons, scan_nil, ih, updateEps]

/-- The `k`-th fine parabola drawn by `get_approx_fine`. -/
noncomputable def finePiece (dim N : ℕ) (rng : Rng) (key : Key) (dt : ℝ) (k : ℕ) : Vec dim × Vec dim :=
  (getApprox dim).coeffs rng (key.child N k) (dt / N)

theorem parabolasFine_eq (dim N : ℕ) (rng : Rng) (key : Key) (dt : ℝ) :
    parabolasFine dim N rng key dt =
      let a := fun k => (finePiece dim N rng key dt k).1
      let b := fun k => (1 / Real.sqrt 6) • (finePiece dim N rng key dt k).2
      let E := ∑ k ∈ Finset.range N, (dt / N) • (∑ i ∈ Finset.range k, a i + (0.5 : ℝ) • a k + b k)
      (∑ k ∈ Finset.range N, a k,
        Real.sqrt 6 • ((1 / dt) • E - (0.5 : ℝ) • ∑ k ∈ Finset.range N, a k),
        (List.range N).map a, (List.range N).map b) := by
  simp only [parabolasFine, Key.split, List.map_map]
  rw [zip_map_range, fine_scan]
  rfl

/-- C14: let `path` be the continuous path made of the `N` fine parabolas drawn by `get_approx_fine`, one after the other.
The coarse parabola returned by it has the same value at `dt` and the same integral over `[0, dt]`, in
every coordinate; and the returned fine increments are those of the pieces. -/
theorem C14_fine_aggregates (dim N : ℕ) (hN : 1 ≤ N) (rng : Rng) (key : Key) (dt : ℝ) (hdt : 0 < dt)
    (path : ℝ → Vec dim)
    (hpath : ∀ k < N, ∀ s, 0 ≤ s → s ≤ dt / N → path (k * (dt / N) + s) =
      ∑ i ∈ Finset.range k, (finePiece dim N rng key dt i).1 +
        (getApprox dim).eval s (dt / N) (finePiece dim N rng key dt k)) :
    let c := (getApproxFine dim N).coeffs rng key dt
    let coarse := fun t => (getApproxFine dim N).eval t dt c
    path 0 = coarse 0 ∧ path dt = coarse dt ∧
    (∀ j, ∫ t in (0 : ℝ)..dt, path t j = ∫ t in (0 : ℝ)..dt, coarse t j) ∧
    c.2.2.1 = (List.range N).map fun (k : ℕ) => path ((k + 1) * (dt / N)) - path (k * (dt / N)) := by
  have hN0 : (0 : ℝ) < N := by exact_mod_cast hN
  set h := dt / N with hh
  have hh0 : 0 < h := by positivity
  have hNh : (N : ℝ) * h = dt := by rw [hh]; field_simp
  set a := fun k => (finePiece dim N rng key dt k).1 with ha
  set b := fun k => (finePiece dim N rng key dt k).2 with hb
  have hp0 : ∀ k < N, path (k * h) = ∑ i ∈ Finset.range k, a i := by
    intro k hk
    have := hpath k hk 0 le_rfl hh0.le
    simp only [add_zero] at this
    rw [this]
    funext j
    simp [getApprox, evalParabola, evalParabola1]
  have hp1 : ∀ k < N, path ((k + 1) * h) = ∑ i ∈ Finset.range (k + 1), a i := by
    intro k hk
    have := hpath k hk h hh0.le le_rfl
    rw [show ((k : ℝ) + 1) * h = k * h + h by ring, this, Finset.sum_range_succ]
    congr 1
    funext j
    simp [getApprox, evalParabola, evalParabola1, hh0.ne']; rfl
  intro c coarse
  have hc : c = parabolasFine dim N rng key dt := rfl
  rw [parabolasFine_eq] at hc
  have hc1 : c.1 = ∑ k ∈ Finset.range N, a k := by rw [hc]
  have hshape := evalParabola_shape dt hdt.ne' c.1 c.2.1
  refine ⟨?_, ?_, ?_, ?_⟩
  · have := hp0 0 (by omega)
    have h2 : coarse 0 = 0 := hshape.1
    rw [h2]; simpa using this
  · obtain ⟨n, rfl⟩ : ∃ n, N = n + 1 := ⟨N - 1, by omega⟩
    have h1 := hp1 n (by omega)
    have h2 : coarse dt = c.1 := hshape.2.1
    rw [h2, hc1, ← h1, ← hNh]
    push_cast; rfl
  · intro j
    have h2 : ∫ t in (0 : ℝ)..dt, coarse t j = dt * (c.1 j / 2 + c.2.1 j / Real.sqrt 6) :=
      integral_evalParabola1 dt _ _ hdt.ne'
    have hint : ∀ k < N, IntervalIntegrable (fun t => path t j) volume (k * h) ((k + 1 : ℕ) * h) ∧
        ∫ t in (k * h)..((k + 1 : ℕ) * h), path t j =
          h * (∑ i ∈ Finset.range k, a i j + a k j / 2 + b k j / Real.sqrt 6) := by
      intro k hk
      have hle : (k : ℝ) * h ≤ (k + 1 : ℕ) * h := by push_cast; nlinarith
      have heq : Set.EqOn (fun t => path t j)
          (fun t => (∑ i ∈ Finset.range k, a i j) + evalParabola1 (t - k * h) h (a k j) (b k j))
          (Set.uIcc (k * h) ((k + 1 : ℕ) * h)) := by
        intro t ht
        rw [Set.uIcc_of_le hle] at ht
        have h1 : t - k * h ≤ h := by
          have := ht.2; push_cast at this; linarith
        have := hpath k hk (t - k * h) (by linarith [ht.1]) h1
        simp only [add_sub_cancel] at this
        simp only [this, Pi.add_apply, Finset.sum_apply]
        rfl
      have hcont' : Continuous (fun t => evalParabola1 (t - k * h) h (a k j) (b k j)) :=
        (continuous_evalParabola1 h (a k j) (b k j)).comp (by fun_prop)
      have hcont : Continuous (fun t => (∑ i ∈ Finset.range k, a i j) +
          evalParabola1 (t - k * h) h (a k j) (b k j)) :=
        continuous_const.add hcont'
      refine ⟨(hcont.intervalIntegrable _ _).congr (fun t ht => (heq (Set.uIoc_subset_uIcc ht)).symm), ?_⟩
      rw [intervalIntegral.integral_congr heq,
        intervalIntegral.integral_add (by simp)
          (hcont'.intervalIntegrable _ _),
        intervalIntegral.integral_const,
        intervalIntegral.integral_comp_sub_right (fun t => evalParabola1 t h (a k j) (b k j))]
      have e1 : (k : ℝ) * h - k * h = 0 := by ring
      have e2 : ((k + 1 : ℕ) : ℝ) * h - k * h = h := by push_cast; ring
      rw [e1, e2, integral_evalParabola1 h _ _ hh0.ne', smul_eq_mul]
      ring
    have hsum := intervalIntegral.sum_integral_adjacent_intervals (μ := volume) (f := fun t => path t j)
      (a := fun k : ℕ => (k : ℝ) * h) (n := N) (fun k hk => (hint k hk).1)
    simp only [Nat.cast_zero, zero_mul, hNh] at hsum
    rw [← hsum, h2, Finset.sum_congr rfl (fun k hk => (hint k (Finset.mem_range.mp hk)).2)]
    have hc2 : c.2.1 j = Real.sqrt 6 * (1 / dt * (∑ k ∈ Finset.range N, h * (∑ i ∈ Finset.range k, a i j + 0.5 * a k j +
        1 / Real.sqrt 6 * b k j)) - 0.5 * ∑ k ∈ Finset.range N, a k j) := by
      rw [hc]
      simp only [Pi.smul_apply, Pi.sub_apply, smul_eq_mul, Finset.sum_apply, Pi.add_apply]
      rfl
    have hc1' : c.1 j = ∑ k ∈ Finset.range N, a k j := by rw [hc1, Finset.sum_apply]
    rw [hc2, hc1']
    have h6 : Real.sqrt 6 ≠ 0 := by positivity
    set S := ∑ k ∈ Finset.range N, h * (∑ i ∈ Finset.range k, a i j + a k j / 2 + b k j / Real.sqrt 6) with hS
    have hS' : ∑ k ∈ Finset.range N, h * (∑ i ∈ Finset.range k, a i j + 0.5 * a k j + 1 / Real.sqrt 6 * b k j) = S := by
      refine Finset.sum_congr rfl fun k _ => ?_
      ring
    rw [hS']
    field_simp
    ring
  · have : c.2.2.1 = (List.range N).map a := by rw [hc]
    rw [this]
    refine List.map_congr_left fun k hk => ?_
    rw [hp1 k (List.mem_range.mp hk), hp0 k (List.mem_range.mp hk), Finset.sum_range_succ]
    simp

/-- C14: such a path exists, so the hypothesis is satisfiable for every realisation. -/
theorem C14_path_exists (dim N : ℕ) (hN : 1 ≤ N) (rng : Rng) (key : Key) (dt : ℝ) (hdt : 0 < dt) :
    ∃ path : ℝ → Vec dim, ∀ k < N, ∀ s, 0 ≤ s → s ≤ dt / N → path (k * (dt / N) + s) =
      ∑ i ∈ Finset.range k, (finePiece dim N rng key dt i).1 +
        (getApprox dim).eval s (dt / N) (finePiece dim N rng key dt k) := by
  have hN0 : (0 : ℝ) < N := by exact_mod_cast hN
  set h := dt / N with hh
  have hh0 : 0 < h := by positivity
  set piece := finePiece dim N rng key dt
  refine ⟨fun t => let k := ⌈t / h⌉₊ - 1
    ∑ i ∈ Finset.range k, (piece i).1 + (getApprox dim).eval (t - k * h) h (piece k), ?_⟩
  intro k hk s hs0 hs1
  have hz : ∀ c, (getApprox dim).eval 0 h c = 0 := fun c => (evalParabola_shape h hh0.ne' c.1 c.2).1
  have he : ∀ c, (getApprox dim).eval h h c = c.1 := fun c => (evalParabola_shape h hh0.ne' c.1 c.2).2.1
  rcases hs0.eq_or_lt with rfl | hs
  · cases k with
    | zero => simp
    | succ k =>
      have h1 : ⌈(((k + 1 : ℕ) : ℝ) * h + 0) / h⌉₊ = k + 1 := by
        rw [add_zero, mul_div_assoc, div_self hh0.ne', mul_one, Nat.ceil_natCast]
      dsimp only
      rw [h1]
      simp only [Nat.add_sub_cancel, add_zero, hz]
      rw [show ((k + 1 : ℕ) : ℝ) * h - k * h = h by push_cast; ring, he, Finset.sum_range_succ]
  · have h1 : ⌈((k : ℝ) * h + s) / h⌉₊ = k + 1 := by
      rw [Nat.ceil_eq_iff (by omega)]
      push_cast
      rw [lt_div_iff₀ hh0, div_le_iff₀ hh0]
      constructor <;> nlinarith
    dsimp only
    rw [h1]
    simp only [Nat.add_sub_cancel, add_sub_cancel_left]

theorem sum_sum_range (N : ℕ) (a : ℕ → ℝ) :
    ∑ k ∈ Finset.range N, ∑ i ∈ Finset.range k, a i = ∑ i ∈ Finset.range N, ((N : ℝ) - 1 - i) * a i := by
  induction N with
  | zero => simp
  | succ N ih =>
    rw [Finset.sum_range_succ, ih, Finset.sum_range_succ, ← Finset.sum_add_distrib]
    push_cast
    rw [show ((N : ℝ) + 1 - 1 - N) * a N = 0 by ring, add_zero]
    refine Finset.sum_congr rfl fun i _ => by ring

theorem sum_sq_range (N : ℕ) : ∑ i ∈ Finset.range N, ((N : ℝ) - 1 - 2 * i) ^ 2 = N * ((N : ℝ) ^ 2 - 1) / 3 := by
  have h : ∀ (c : ℝ) (N : ℕ), ∑ i ∈ Finset.range N, (c - 2 * i) ^ 2 =
      N * c ^ 2 - 2 * c * (N * (N - 1)) + 4 * (N * (N - 1) * (2 * N - 1) / 6) := by
    intro c N
    induction N with
    | zero => simp
    | succ N ih => rw [Finset.sum_range_succ, ih]; push_cast; ring
  have := h ((N : ℝ) - 1) N
  rw [this]; ring

theorem sum_lin_range (N : ℕ) : ∑ i ∈ Finset.range N, ((N : ℝ) - 1 - 2 * i) = 0 := by
  have h : ∀ (c : ℝ) (N : ℕ), ∑ i ∈ Finset.range N, (c - 2 * i) = N * c - N * (N - 1) := by
    intro c N
    induction N with
    | zero => simp
    | succ N ih => rw [Finset.sum_range_succ, ih]; push_cast; ring
  have := h ((N : ℝ) - 1) N
  rw [this]; ring

/-- C15: whatever the number `N` of fine pieces, the coarse coefficients are independent centred normals with variances
`dt` and `dt / 2`: the same law as that of `get_approx` (C13). -/
theorem C15_fine_law {Ω : Type*} [MeasurableSpace Ω] {P : Measure Ω} {R : Ω → Rng} (hR : IdealNormals P R)
    (dim N : ℕ) (hN : 1 ≤ N) (key : Key) (dt : ℝ) (hdt : 0 < dt) :
    let X := fun ω => coeffVec ((getApproxFine dim N).coeffs (R ω) key dt).1
      ((getApproxFine dim N).coeffs (R ω) key dt).2.1
    IsNormal P X 0 (diagonal (coeffVar dim dt)) ∧ iIndepFun (fun p ω => X ω p) P := by
  intro X
  have hN0 : (0 : ℝ) < N := by exact_mod_cast hN
  set h := dt / N with hh
  have hh0 : 0 < h := by positivity
  have hK : Pairwise fun a b : Fin N => (key.child N a).Diverge (key.child N b) := fun a b hab =>
    Key.diverge_child key N a b (fun he => hab (Fin.ext he))
  have hi := hR.indep_mats (fun k : Fin N => key.child N k) hK 2 dim
  -- weights of the draw `(k, c)` in the two coefficients
  set w : Fin 2 → Fin 2 → ℕ → ℝ := fun s c k => if s = 0 then (if c = 0 then Real.sqrt h else 0)
    else (if c = 0 then Real.sqrt 6 * ((N - 1 - 2 * k) / (2 * N)) * Real.sqrt h else Real.sqrt (0.5 * h) / N) with hw
  set M : Matrix (Fin 2 × Fin dim) (Fin N × Fin 2 × Fin dim) ℝ := fun p q =>
    if p.2 = q.2.2 then w p.1 q.2.1 q.1 else 0
  have hM : ∀ p q, M p q = if p.2 = q.2.2 then w p.1 q.2.1 q.1 else 0 := fun _ _ => rfl
  have hn := isNormal_linear (P := P) (Z := fun (q : Fin N × Fin 2 × Fin dim) ω =>
      (R ω).normalMat (key.child N q.1) 2 dim q.2.1 q.2.2) (fun q => hR.law_mat _ _ _) hi 0 M
  have h6 : Real.sqrt 6 ≠ 0 := by positivity
  have hX : X = fun ω => 0 + M *ᵥ fun q => (R ω).normalMat (key.child N q.1) 2 dim q.2.1 q.2.2 := by
    funext ω p
    obtain ⟨s, j⟩ := p
    set z : ℕ → Fin 2 → ℝ := fun k c => (R ω).normalMat (key.child N k) 2 dim c j with hz
    have hr : (0 + M *ᵥ fun q => (R ω).normalMat (key.child N q.1) 2 dim q.2.1 q.2.2) (s, j) =
        ∑ k ∈ Finset.range N, (w s 0 k * z k 0 + w s 1 k * z k 1) := by
      simp only [Pi.add_apply, Pi.zero_apply, zero_add, mulVec, dotProduct, hM, Fintype.sum_prod_type, Fin.sum_univ_two,
        ite_mul, zero_mul, Finset.sum_ite_eq, Finset.mem_univ, if_true]
      rw [Finset.sum_range]
    rw [hr]
    have hc : (getApproxFine dim N).coeffs (R ω) key dt = parabolasFine dim N (R ω) key dt := rfl
    rw [parabolasFine_eq] at hc
    have ha : ∀ k, (finePiece dim N (R ω) key dt k).1 j = z k 0 * Real.sqrt h := fun k => rfl
    have hb : ∀ k, (finePiece dim N (R ω) key dt k).2 j = z k 1 * Real.sqrt (0.5 * h) := fun k => rfl
    fin_cases s
    · simp only [X, coeffVec, hc, Fin.zero_eta, cons_val_zero, Finset.sum_apply, ha, hw]
      refine Finset.sum_congr rfl fun k _ => by simp [mul_comm]
    · simp only [X, coeffVec, hc, Fin.mk_one, cons_val_one, cons_val_fin_one, Pi.smul_apply, Pi.sub_apply,
        Finset.sum_apply, Pi.add_apply, smul_eq_mul, ha, hb, hw]
      simp only [← hh, one_ne_zero, if_false, if_true]
      rw [← Finset.mul_sum]
      simp only [Finset.sum_add_distrib]
      rw [sum_sum_range N (fun k => z k 0 * Real.sqrt h), ← Finset.mul_sum, ← Finset.mul_sum]
      have e1 : ∑ k ∈ Finset.range N, Real.sqrt 6 * (((N : ℝ) - 1 - 2 * k) / (2 * N)) * Real.sqrt h * z k 0 =
          Real.sqrt 6 * (1 / N * (∑ k ∈ Finset.range N, ((N : ℝ) - 1 - k) * (z k 0 * Real.sqrt h)) +
            (1 / (2 * N) - 1 / 2) * ∑ k ∈ Finset.range N, z k 0 * Real.sqrt h) := by
        rw [Finset.mul_sum, Finset.mul_sum, ← Finset.sum_add_distrib, Finset.mul_sum]
        refine Finset.sum_congr rfl fun k _ => ?_
        field_simp
        ring
      have e2 : ∑ k ∈ Finset.range N, Real.sqrt (0.5 * h) / N * z k 1 =
          1 / N * ∑ k ∈ Finset.range N, z k 1 * Real.sqrt (0.5 * h) := by
        rw [Finset.mul_sum]
        refine Finset.sum_congr rfl fun k _ => by ring
      rw [e1, e2]
      generalize ∑ k ∈ Finset.range N, z k 1 * Real.sqrt (0.5 * h) = S1
      generalize ∑ k ∈ Finset.range N, z k 0 * Real.sqrt h = S2
      generalize ∑ k ∈ Finset.range N, ((N : ℝ) - 1 - k) * (z k 0 * Real.sqrt h) = S3
      rw [hh]
      field_simp
      ring
  have hC : M * Mᵀ = diagonal (coeffVar dim dt) := by
    ext ⟨s, j⟩ ⟨s', j'⟩
    have he : (M * Mᵀ) (s, j) (s', j') = if j = j' then
        ∑ k ∈ Finset.range N, (w s 0 k * w s' 0 k + w s 1 k * w s' 1 k) else 0 := by
      simp only [Matrix.mul_apply, transpose_apply, hM, Fintype.sum_prod_type, Fin.sum_univ_two]
      rw [Finset.sum_range]
      rcases eq_or_ne j j' with rfl | hne
      · simp
      · rw [if_neg hne]
        refine Finset.sum_eq_zero fun k _ => ?_
        have : ∀ c, (∑ x : Fin dim, (if j = x then w s c k else 0) * (if j' = x then w s' c k else 0)) = 0 := by
          intro c
          refine Finset.sum_eq_zero fun x _ => ?_
          by_cases h1 : j = x
          · have : ¬ j' = x := fun h2 => hne (h1.trans h2.symm)
            simp [this]
          · simp [h1]
        rw [this, this, add_zero]
    have hsh : Real.sqrt h * Real.sqrt h = h := Real.mul_self_sqrt hh0.le
    have hsh2 : Real.sqrt (0.5 * h) * Real.sqrt (0.5 * h) = 0.5 * h := Real.mul_self_sqrt (by positivity)
    rw [he]
    rcases eq_or_ne j j' with rfl | hne
    · rw [if_pos rfl]
      have hNh : (N : ℝ) * h = dt := by rw [hh]; field_simp
      fin_cases s <;> fin_cases s'
      · simp [hw, coeffVar, hsh, hNh]
      · have : ∀ k : ℕ, Real.sqrt h * (Real.sqrt 6 * (((N : ℝ) - 1 - 2 * k) / (2 * N)) * Real.sqrt h) =
            Real.sqrt 6 * h / (2 * N) * ((N : ℝ) - 1 - 2 * k) := by
          intro k
          linear_combination (Real.sqrt 6 * (((N : ℝ) - 1 - 2 * k) / (2 * N))) * hsh
        simp only [hw, Fin.zero_eta, Fin.mk_one, one_ne_zero, if_false, if_true, this, zero_mul, mul_zero, add_zero,
          ← Finset.mul_sum, sum_lin_range]
        simp
      · have : ∀ k : ℕ, (Real.sqrt 6 * (((N : ℝ) - 1 - 2 * k) / (2 * N)) * Real.sqrt h) * Real.sqrt h =
            Real.sqrt 6 * h / (2 * N) * ((N : ℝ) - 1 - 2 * k) := by
          intro k
          linear_combination (Real.sqrt 6 * (((N : ℝ) - 1 - 2 * k) / (2 * N))) * hsh
        simp only [hw, Fin.zero_eta, Fin.mk_one, one_ne_zero, if_false, if_true, this, zero_mul, mul_zero, add_zero,
          ← Finset.mul_sum, sum_lin_range]
        simp
      · have e1 : ∀ k : ℕ, (Real.sqrt 6 * (((N : ℝ) - 1 - 2 * k) / (2 * N)) * Real.sqrt h) *
            (Real.sqrt 6 * (((N : ℝ) - 1 - 2 * k) / (2 * N)) * Real.sqrt h) =
            6 * h / (4 * N ^ 2) * ((N : ℝ) - 1 - 2 * k) ^ 2 := by
          intro k
          have : Real.sqrt 6 * Real.sqrt 6 = 6 := sqrt6_sq
          calc _ = (Real.sqrt 6 * Real.sqrt 6) * (Real.sqrt h * Real.sqrt h) * (((N : ℝ) - 1 - 2 * k) / (2 * N)) ^ 2 := by ring
            _ = _ := by rw [this, hsh]; field_simp; ring
        have e2 : Real.sqrt (0.5 * h) / N * (Real.sqrt (0.5 * h) / N) = 0.5 * h / N ^ 2 := by
          rw [div_mul_div_comm, hsh2]; ring
        simp only [hw, Fin.mk_one, one_ne_zero, if_false, if_true, e1, e2, Finset.sum_add_distrib, ← Finset.mul_sum,
          sum_sq_range, Finset.sum_const, Finset.card_range, nsmul_eq_mul, diagonal_apply_eq, coeffVar, cons_val_one,
          cons_val_fin_one]
        rw [← hNh]
        field_simp
        ring
    · rw [if_neg hne, diagonal_apply_ne]
      simp [hne]
  rw [hC, ← hX] at hn
  exact ⟨hn, hn.iIndepFun_of_diagonal⟩

/-- C15: hence increment and integral of the coarse parabola are distributed as those of Brownian motion. -/
theorem C15_fine_increment_and_area_law {Ω : Type*} [MeasurableSpace Ω] {P : Measure Ω} {R : Ω → Rng}
    (hR : IdealNormals P R) (dim N : ℕ) (hN : 1 ≤ N) (key : Key) (dt : ℝ) (hdt : 0 < dt) :
    IsNormal P (fun ω => incrArea (fun t => (getApproxFine dim N).eval t dt
      ((getApproxFine dim N).coeffs (R ω) key dt)) dt) 0 (bmCovDim dim dt) :=
  incrArea_law hdt (C15_fine_law hR dim N hN key dt hdt).1

end Verif
