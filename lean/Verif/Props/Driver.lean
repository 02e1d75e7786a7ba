import Verif.Props.FosterBrownian
import Verif.Props.SdeSolver
import Verif.Props.IbmLaw
import Verif.Props.WeakBias
import Verif.Spec.BrownianGrid
import Mathlib.Probability.Distributions.Gaussian.Real

/-!
# Properties C79, C80: the Brownian motion that drives a run, and the strong solution of geometric Brownian motion
-/

namespace Verif

open Matrix Spec Jnp MeasureTheory ProbabilityTheory Foster

/-! ## C79 -/

/-- Sums of independent blocks of normals form a Brownian motion on the grid. -/
theorem brownianOnGrid_of_blocks {Ω : Type*} [MeasurableSpace Ω] {P : Measure Ω} {ι : Type} [Fintype ι] [DecidableEq ι]
    {m N : ℕ} {δ : ℝ} (hδ : 0 ≤ δ) (Z : ℕ × ι × Fin m → Ω → ℝ) (hZ : iIndepFun Z P)
    (hl : ∀ p, HasLaw (Z p) (gaussianReal 0 1) P) (w : ι → ℝ) (hw : ∑ i, w i ^ 2 = δ) (a : ℕ → Ω → Vec m)
    (ha : ∀ k < N, ∀ ω j, a k ω j = ∑ i, w i * Z (k, i, j) ω) :
    BrownianOnGrid P (fun k ω => ∑ i ∈ Finset.range k, a i ω) δ N := by
  have hi : iIndepFun (fun (p : Fin N × ι × Fin m) => Z (p.1, p.2)) P :=
    hZ.precomp (g := fun p : Fin N × ι × Fin m => ((p.1 : ℕ), p.2)) (fun p q h => by
      simp only [Prod.mk.injEq] at h
      exact Prod.ext (Fin.ext h.1) h.2)
  have h := isNormal_linear (P := P) (fun p => hl _) hi (0 : Fin (N + 1) × Fin m → ℝ)
    (Matrix.of fun q p => if p.1.1 < q.1.1 ∧ p.2.2 = q.2 then w p.2.1 else 0)
  refine (congrArg₂ (fun X C => IsNormal P X _ C) ?_ ?_).mp h
  · funext ω q
    simp only [zero_add, mulVec, dotProduct, Finset.sum_apply, of_apply, Fintype.sum_prod_type, ite_mul, zero_mul]
    have h1 : ∀ x : Fin N, ∑ x_1 : ι, ∑ x_2 : Fin m, (if x.1 < q.1.1 ∧ x_2 = q.2 then w x_1 * Z (x, x_1, x_2) ω else 0) =
        if x.1 < q.1.1 then a x ω q.2 else 0 := fun x => by
      rw [ha x x.2]
      by_cases hx : x.1 < q.1.1
      · simp [hx]
      · simp [hx]
    simp only [h1]
    rw [← Finset.sum_range fun x => if x < q.1.1 then a x ω q.2 else 0, ← Finset.sum_filter]
    refine Finset.sum_congr (Finset.ext fun x => ?_) fun _ _ => rfl
    simp only [Finset.mem_filter, Finset.mem_range]
    have := q.1.2
    omega
  · ext q q'
    rw [Matrix.mul_apply, of_apply]
    simp only [transpose_apply, of_apply, Fintype.sum_prod_type, ite_mul, mul_ite, zero_mul, mul_zero]
    have h1 : ∀ x : Fin N, ∑ i : ι, ∑ j : Fin m, (if x.1 < q'.1.1 ∧ j = q'.2 then
        if x.1 < q.1.1 ∧ j = q.2 then w i * w i else 0 else 0) =
        if x.1 < min q.1.1 q'.1.1 then (if q.2 = q'.2 then δ else 0) else 0 := fun x => by
      have h2 : ∀ i : ι, ∑ j : Fin m, (if x.1 < q'.1.1 ∧ j = q'.2 then
          if x.1 < q.1.1 ∧ j = q.2 then w i * w i else 0 else 0) =
          if x.1 < min q.1.1 q'.1.1 then (if q.2 = q'.2 then w i ^ 2 else 0) else 0 := fun i => by
        rw [Finset.sum_eq_single q'.2 (fun j _ hj => by simp [hj]) (by simp)]
        simp only [lt_min_iff]
        by_cases hx : x.1 < q.1.1 <;> by_cases hx' : x.1 < q'.1.1 <;> by_cases hq : q.2 = q'.2
        all_goals simp [hx, hx', hq, sq, eq_comm]
        all_goals exact fun h => absurd h.symm hq
      simp only [h2]
      split_ifs
      · exact hw
      · simp
      · simp
    simp only [h1]
    rw [← Finset.sum_range fun x => if x < min q.1.1 q'.1.1 then (if q.2 = q'.2 then δ else 0) else 0, ← Finset.sum_filter]
    have h3 : (Finset.range N).filter (fun x => x < min q.1.1 q'.1.1) = Finset.range (min q.1.1 q'.1.1) := by
      ext x
      simp only [Finset.mem_filter, Finset.mem_range]
      have := q.1.2
      omega
    rw [h3, Finset.sum_const, Finset.card_range, nsmul_eq_mul, Nat.cast_min]
    split_ifs
    · exact min_mul_of_nonneg _ _ hδ
    · simp

/-- The coefficients returned by `sde_solver`. -/
theorem sdeSolver_coeffs {X C : Type} {d m : ℕ} (rng : Rng) (key : Key) (drift : Field d) (sigma : Diffusion d m) (x0 : X)
    (bm : BmApprox C m) (δ : ℝ) (N : ℕ) (odeInt : OdeInt X d) :
    (sdeSolver rng key drift sigma x0 bm δ N odeInt).2.2 =
      (List.range N).map fun k => bm.coeffs rng ((key.child N k).child 2 0) δ := by
  refine List.ext_getElem? fun k => ?_
  have hl := (C02_trajectory_shape rng key drift sigma x0 bm δ N odeInt).2.2
  by_cases hk : k < N
  · obtain ⟨x, c, -, h2, h3, -⟩ := sdeSolver_interval rng key drift sigma x0 bm δ N odeInt k hk
    rw [h2, h3, List.getElem?_map, List.getElem?_range hk]
    rfl
  · rw [List.getElem?_eq_none (by omega), List.getElem?_eq_none (by simp; omega)]

theorem sdeSolver_driver {X C : Type} {d m : ℕ} (rng : Rng) (key : Key) (drift : Field d) (sigma : Diffusion d m) (x0 : X)
    (bm : BmApprox C m) (δ : ℝ) (N : ℕ) (odeInt : OdeInt X d) (a : C → Vec m) (k : ℕ) (hk : k ≤ N) :
    (((sdeSolver rng key drift sigma x0 bm δ N odeInt).2.2.take k).map a).sum =
      ∑ i ∈ Finset.range k, a (bm.coeffs rng ((key.child N i).child 2 0) δ) := by
  rw [sdeSolver_coeffs, ← List.map_take, List.take_range, min_eq_left hk, List.map_map, sum_map_range]
  rfl

theorem BrownianOnGrid.congr {Ω : Type*} [MeasurableSpace Ω] {P : Measure Ω} {m : ℕ} {W W' : ℕ → Ω → Vec m} {δ : ℝ} {N : ℕ}
    (h : BrownianOnGrid P W δ N) (hW : ∀ k ≤ N, ∀ ω, W k ω = W' k ω) : BrownianOnGrid P W' δ N := by
  refine (congrArg (fun X => IsNormal P X _ _) ?_).mp h
  funext ω q
  rw [hW q.1 (by have := q.1.2; omega)]

/-- C79: the partial sums of the increments among the coefficients returned by `sde_solver` form a Brownian motion on the time
grid. -/
theorem C79_driver {Ω : Type*} [MeasurableSpace Ω] {P : Measure Ω} {R : Ω → Rng} (hR : IdealNormals P R) (key : Key) {X : Type}
    {d m : ℕ} (drift : Field d) (sigma : Diffusion d m) (x0 : X) {δ : ℝ} (hδ : 0 < δ) (N : ℕ) (odeInt : OdeInt X d) :
    BrownianOnGrid P (fun k ω => (((sdeSolver (R ω) key drift sigma x0 (getApprox m) δ N odeInt).2.2.take k).map (·.1)).sum) δ N := by
  have hi := hR.indep_mats (ι := ℕ) (fun i => (key.child N i).child 2 0)
    (fun a b hab => ((Key.diverge_child key N a b hab).child_left 2 0).child_right 2 0) 2 m
  have hi' := hi.precomp (g := fun p : ℕ × Unit × Fin m => (p.1, (0 : Fin 2), p.2.2)) (fun p q h => by
    simp only [Prod.mk.injEq, true_and] at h
    exact Prod.ext h.1 (Prod.ext rfl h.2))
  refine BrownianOnGrid.congr (brownianOnGrid_of_blocks (N := N) hδ.le _ hi' (fun p => hR.law_mat _ _ _) (fun _ => Real.sqrt δ)
    (by simp [Real.sq_sqrt hδ.le]) (fun k ω => ((getApprox m).coeffs (R ω) ((key.child N k).child 2 0) δ).1) fun k _ ω j => ?_)
    fun k hk ω => (sdeSolver_driver (R ω) key drift sigma x0 (getApprox m) δ N odeInt _ k hk).symm
  simp [getApprox, parabolas, mul_comm]

/-- C79 for `get_approx_fine` with any number of fine parabolas. -/
theorem C79_driver_fine {Ω : Type*} [MeasurableSpace Ω] {P : Measure Ω} {R : Ω → Rng} (hR : IdealNormals P R) (key : Key)
    {X : Type} {d m : ℕ} (drift : Field d) (sigma : Diffusion d m) (x0 : X) {δ : ℝ} (hδ : 0 < δ) (N n : ℕ) (hn : 1 ≤ n)
    (odeInt : OdeInt X d) :
    BrownianOnGrid P (fun k ω => (((sdeSolver (R ω) key drift sigma x0 (getApproxFine m n) δ N odeInt).2.2.take k).map
      (·.1)).sum) δ N := by
  have hn' : (0 : ℝ) < n := by exact_mod_cast hn
  have hi := hR.indep_mats (ι := ℕ × Fin n) (fun i => ((key.child N i.1).child 2 0).child n i.2)
    (fun a b hab => by
      rcases eq_or_ne a.1 b.1 with h | h
      · rw [h]
        exact Key.diverge_child _ n _ _ fun h2 => hab (Prod.ext h (Fin.ext h2))
      · exact ((((Key.diverge_child key N _ _ h).child_left 2 0).child_right 2 0).child_left n _).child_right n _) 2 m
  have hi' := hi.precomp (g := fun p : ℕ × Fin n × Fin m => ((p.1, p.2.1), (0 : Fin 2), p.2.2)) (fun p q h => by
    simp only [Prod.mk.injEq, true_and] at h
    exact Prod.ext h.1.1 (Prod.ext h.1.2 h.2))
  refine BrownianOnGrid.congr (brownianOnGrid_of_blocks (N := N) hδ.le _ hi' (fun p => hR.law_mat _ _ _)
    (fun _ => Real.sqrt (δ / n)) ?_ (fun k ω => ((getApproxFine m n).coeffs (R ω) ((key.child N k).child 2 0) δ).1)
    fun k _ ω j => ?_)
    fun k hk ω => (sdeSolver_driver (R ω) key drift sigma x0 (getApproxFine m n) δ N odeInt _ k hk).symm
  · have : (0 : ℝ) ≤ δ / n := by positivity
    rw [Finset.sum_const, Finset.card_univ, Fintype.card_fin, nsmul_eq_mul, Real.sq_sqrt this]
    field_simp
  · rw [show (getApproxFine m n).coeffs = parabolasFine m n from rfl, parabolasFine_eq]
    simp only
    rw [Finset.sum_apply, Finset.sum_range]
    refine Finset.sum_congr rfl fun i _ => ?_
    simp [finePiece, getApprox, parabolas, mul_comm]

/-- C79 for `get_approx_and_brownian` with any number of sampled increments. -/
theorem C79_driver_brownian {Ω : Type*} [MeasurableSpace Ω] {P : Measure Ω} {R : Ω → Rng} (hR : IdealNormals P R) (key : Key)
    {X : Type} {d m : ℕ} (drift : Field d) (sigma : Diffusion d m) (x0 : X) {δ : ℝ} (hδ : 0 < δ) (N n : ℕ) (hn : 1 ≤ n)
    (odeInt : OdeInt X d) :
    BrownianOnGrid P (fun k ω => (((sdeSolver (R ω) key drift sigma x0 (getApproxAndBrownian m n) δ N odeInt).2.2.take k).map
      (·.1)).sum) δ N := by
  have hn' : (0 : ℝ) < n := by exact_mod_cast hn
  have hi := hR.indep_mats (ι := ℕ) (fun i => (key.child N i).child 2 0)
    (fun a b hab => ((Key.diverge_child key N a b hab).child_left 2 0).child_right 2 0) n m
  refine BrownianOnGrid.congr (brownianOnGrid_of_blocks (N := N) hδ.le _ hi (fun p => hR.law_mat _ _ _)
    (fun _ => Real.sqrt (δ / n)) ?_ (fun k ω => ((getApproxAndBrownian m n).coeffs (R ω) ((key.child N k).child 2 0) δ).1)
    fun k _ ω j => ?_)
    fun k hk ω => (sdeSolver_driver (R ω) key drift sigma x0 (getApproxAndBrownian m n) δ N odeInt _ k hk).symm
  · have : (0 : ℝ) ≤ δ / n := by positivity
    rw [Finset.sum_const, Finset.card_univ, Fintype.card_fin, nsmul_eq_mul, Real.sq_sqrt this]
    field_simp
  · rw [(C16_brownian_increments m n hn (R ω) ((key.child N k).child 2 0) δ 0).2.1]
    have e : ((getApproxAndBrownian m n).coeffs (R ω) ((key.child N k).child 2 0) δ).2.2 =
        List.ofFn fun i j => (R ω).normalMat ((key.child N k).child 2 0) n m i j := rfl
    rw [e, List.sum_ofFn, Pi.smul_apply, Finset.sum_apply, smul_eq_mul, Finset.mul_sum]

/-- C79: the hypotheses can be met. -/
example : BrownianOnGrid drawsMeasure (fun k z => (((sdeSolver (drawsRng z) [] (fun x _ => -x) (fun _ _ => (1 : Mat 2 2)) (0 : Vec 2)
    (getApproxFine 2 10) (1 / 10) 20 (fun _ x vf T => eulerSolver x vf T 1)).2.2.take k).map (·.1)).sum) (1 / 10) 20 :=
  C79_driver_fine idealNormals_drawsRng [] _ _ _ (by norm_num) 20 10 (by norm_num) _

/-! ## C80 -/

/-- One interval of a linear scalar problem with an exact integrator. -/
theorem linear_exact {δ : ℝ} (hδ : 0 < δ) (int : Vec 1 → Field 1 → Vec 1) (hint : ExactIntegrator δ int) (μ s a b : ℝ)
    (x : Vec 1) :
    int x (fun z t => (μ + s * ((a + Real.sqrt 6 * b * (1 - 2 * t / δ)) / δ)) • z) = Real.exp (μ * δ + s * a) • x := by
  have h := hint (fun z t => (μ + s * ((a + Real.sqrt 6 * b * (1 - 2 * t / δ)) / δ)) • z)
    (|μ| + |s| * ((|a| + Real.sqrt 6 * |b|) / δ)) (fun z z' t ht => ?_)
    (fun t => Real.exp (μ * t + s * evalParabola1 t δ a b) • x) (fun t _ => ?_)
  · have e0 : evalParabola1 0 δ a b = 0 := by simp [evalParabola1]
    have e1 : evalParabola1 δ δ a b = a := by simp [evalParabola1, hδ.ne']
    simp only [e0, e1, mul_zero, add_zero, Real.exp_zero, one_smul] at h
    exact h
  · rw [← smul_sub, norm_smul]
    refine mul_le_mul_of_nonneg_right ?_ (norm_nonneg _)
    have h1 : |1 - 2 * t / δ| ≤ 1 := by
      have h2 : t / δ ≤ 1 := (div_le_one hδ).mpr ht.2
      have h3 : 0 ≤ t / δ := div_nonneg ht.1 hδ.le
      rw [abs_le]
      constructor <;> rw [mul_div_assoc] <;> linarith
    refine (norm_add_le _ _).trans ?_
    rw [norm_mul, norm_div, Real.norm_eq_abs, Real.norm_eq_abs, Real.norm_eq_abs, Real.norm_eq_abs, abs_of_pos hδ]
    gcongr
    refine (abs_add_le _ _).trans ?_
    rw [abs_mul, abs_mul, abs_of_nonneg (Real.sqrt_nonneg 6)]
    have : Real.sqrt 6 * |b| * |1 - 2 * t / δ| ≤ Real.sqrt 6 * |b| * 1 := by gcongr
    linarith
  · have hp := Foster.hasDerivAt_evalParabola1 t δ a b
    have h1 := ((((hasDerivAt_id t).const_mul μ).add (hp.const_mul s)).exp.smul_const x)
    refine HasDerivAt.hasDerivWithinAt (h1.congr_deriv ?_)
    rw [smul_smul]
    congr 1
    simp only [id, mul_one, Pi.add_apply]
    ring

/-- C80: with an exact ODE integrator and any of the parabola approximations, `sde_solver` on the Stratonovich problem
`dx = μ x dt + s x ∘ dW` returns its strong solution `x0 exp(μ t + s W(t))` at every grid point, `W(t)` being the sum of the
increments among the returned coefficients. -/
theorem C80_strong_solution (rng : Rng) (key : Key) {C : Type} (bm : BmApprox C 1) (a b : C → Vec 1)
    (hbm : ∀ t dt c, bm.eval t dt c = evalParabola t dt (a c) (b c)) (μ s : ℝ) (x0 : Vec 1) {δ : ℝ} (hδ : 0 < δ) (N : ℕ)
    (odeInt : OdeInt (Vec 1) 1) (hode : ∀ k, ExactIntegrator δ fun x vf => odeInt k x vf δ) :
    let out := sdeSolver rng key (fun z _ => μ • z) (fun z _ => s • diagonal z) x0 bm δ N odeInt
    ∀ k ≤ N, out.2.1[k]? = some (Real.exp (μ * (k * δ) + s * ((out.2.2.take k).map a).sum 0) • x0) := by
  intro out k hk
  induction k with
  | zero =>
    have := (C02_trajectory_shape rng key (fun z _ => μ • z) (fun z _ => s • diagonal z) x0 bm δ N odeInt).2.1
    rw [List.head?_eq_getElem?] at this
    simpa using this
  | succ k ih =>
    obtain ⟨x, c, h1, h2, -, h4⟩ := sdeSolver_interval rng key (fun z _ => μ • z) (fun z _ => s • diagonal z) x0 bm δ N odeInt k
      (by omega)
    have hx := Option.some.inj (h1.symm.trans (ih (by omega)))
    have hf : intervalField (fun z _ => μ • z) (fun z _ => s • diagonal z) bm δ c (k * δ) = fun z t =>
        (μ + s * ((a c 0 + Real.sqrt 6 * b c 0 * (1 - 2 * t / δ)) / δ)) • z := by
      funext z t j
      simp only [intervalField, hbm, jacT_evalParabola]
      fin_cases j
      simp only [Pi.add_apply, Pi.smul_apply, smul_mulVec, mulVec_diagonal, smul_eq_mul, Fin.zero_eta]
      ring
    rw [h4, hf, linear_exact hδ (fun x vf => odeInt ((key.child N k).child 2 1) x vf δ) (hode _), hx, smul_smul, ← Real.exp_add,
      List.take_succ, h2]
    simp only [Option.toList_some, List.map_append, List.map_cons, List.map_nil, List.sum_append, List.sum_cons,
      List.sum_nil, add_zero, Pi.add_apply]
    congr 3
    push_cast
    ring

/-- Mean and variance of the exponential of a normal variable. -/
theorem exp_normal_moments {Ω : Type*} [MeasurableSpace Ω] {P : Measure Ω} {B : Ω → ℝ} {v : NNReal}
    (hB : HasLaw B (gaussianReal 0 v) P) (m s x : ℝ) :
    ∫ ω, Real.exp (m + s * B ω) * x ∂P = Real.exp (m + s ^ 2 * v / 2) * x ∧
    Var[fun ω => Real.exp (m + s * B ω) * x; P] = (Real.exp (s ^ 2 * v) - 1) * Real.exp (2 * m + s ^ 2 * v) * x ^ 2 := by
  have hP := hB.isProbabilityMeasure
  have hmgf : ∀ u : ℝ, ∫ ω, Real.exp (u * B ω) ∂P = Real.exp (v * u ^ 2 / 2) := fun u => by
    have := mgf_gaussianReal (p := P) (X := B) hB.map_eq u
    rw [mgf] at this
    rw [this]
    simp
  have hint : ∀ u : ℝ, Integrable (fun ω => Real.exp (u * B ω)) P := fun u => by
    by_contra h
    have := hmgf u
    rw [integral_undef h] at this
    exact (Real.exp_pos _).ne this
  have e : ∀ u ω, Real.exp (m + u * B ω) = Real.exp m * Real.exp (u * B ω) := fun u ω => Real.exp_add _ _
  have hm : ∫ ω, Real.exp (m + s * B ω) * x ∂P = Real.exp (m + s ^ 2 * v / 2) * x := by
    rw [integral_mul_const]
    simp only [e]
    rw [integral_const_mul, hmgf, ← Real.exp_add]
    ring_nf
  refine ⟨hm, ?_⟩
  have hsq : (fun ω => (Real.exp (m + s * B ω) * x) ^ 2) = fun ω => Real.exp (2 * m) * x ^ 2 * Real.exp (2 * s * B ω) := by
    funext ω
    rw [mul_pow, sq (Real.exp _), ← Real.exp_add, show m + s * B ω + (m + s * B ω) = 2 * m + 2 * s * B ω by ring, Real.exp_add]
    ring
  have hmem : MemLp (fun ω => Real.exp (m + s * B ω) * x) 2 P := by
    rw [memLp_two_iff_integrable_sq]
    · rw [hsq]
      exact (hint _).const_mul _
    · exact (((hB.aemeasurable.const_mul s).const_add m).exp.mul_const x).aestronglyMeasurable
  rw [variance_eq_sub hmem]
  simp only [Pi.pow_apply]
  rw [show ∫ ω, (Real.exp (m + s * B ω) * x) ^ 2 ∂P = _ from congrArg (fun f => ∫ ω, f ω ∂P) hsq, hm,
    integral_const_mul, hmgf]
  have e1 : Real.exp (v * (2 * s) ^ 2 / 2) = Real.exp (s ^ 2 * v) * Real.exp (s ^ 2 * v) := by
    rw [← Real.exp_add]
    ring_nf
  have e2 : Real.exp (m + s ^ 2 * v / 2) ^ 2 = Real.exp (2 * m) * Real.exp (s ^ 2 * v) := by
    rw [sq, ← Real.exp_add, ← Real.exp_add]
    ring_nf
  rw [e1, mul_pow, e2, Real.exp_add]
  ring

/-- The driving motion at a grid point is normal with the elapsed time as variance. -/
theorem BrownianOnGrid.law {Ω : Type*} [MeasurableSpace Ω] {P : Measure Ω} {m : ℕ} {W : ℕ → Ω → Vec m} {δ : ℝ} {N : ℕ}
    (h : BrownianOnGrid P W δ N) (k : ℕ) (hk : k ≤ N) (j : Fin m) :
    HasLaw (fun ω => W k ω j) (gaussianReal 0 (k * δ).toNNReal) P := by
  have := IsNormal.eval h (⟨k, by omega⟩, j)
  simpa using this

/-- C80, moments: with an exact ODE integrator and the drift converted by `to_stratonovich`, the state at every grid point of the
gbm problem of `ivp.py` has mean `theoretical_mean(t)` and variance `theoretical_variance(t)`. -/
theorem C80_moments {Ω : Type*} [MeasurableSpace Ω] {P : Measure Ω} {R : Ω → Rng} (hR : IdealNormals P R) (key : Key)
    {δ : ℝ} (hδ : 0 < δ) (N : ℕ) (odeInt : OdeInt (Vec 1) 1) (hode : ∀ k, ExactIntegrator δ fun x vf => odeInt k x vf δ)
    (k : ℕ) (hk : k ≤ N) :
    ∃ X : Ω → Vec 1, (∀ ω, (sdeSolver (R ω) key (toStratonovich Ivp.Gbm.drift Ivp.Gbm.sigma).1
        (toStratonovich Ivp.Gbm.drift Ivp.Gbm.sigma).2 Ivp.Gbm.x0 (getApprox 1) δ N odeInt).2.1[k]? = some (X ω)) ∧
      ∫ ω, X ω 0 ∂P = Ivp.Gbm.mean (k * δ) 0 ∧ Var[fun ω => X ω 0; P] = Ivp.Gbm.variance (k * δ) 0 := by
  rw [gbm_stratonovich]
  refine ⟨_, fun ω => C80_strong_solution (R ω) key (getApprox 1) (·.1) (·.2) (fun _ _ _ => rfl) _ _ _ hδ N odeInt hode k hk, ?_⟩
  have hB := BrownianOnGrid.law (C79_driver hR key (fun z _ => (Ivp.Gbm.a - Ivp.Gbm.b ^ 2 / 2) • z) (fun z _ => Ivp.Gbm.b • diagonal z)
    Ivp.Gbm.x0 hδ N odeInt) k hk 0
  obtain ⟨h1, h2⟩ := exp_normal_moments hB ((Ivp.Gbm.a - Ivp.Gbm.b ^ 2 / 2) * (k * δ)) Ivp.Gbm.b (Ivp.Gbm.x0 0)
  have hv : ((k * δ : ℝ).toNNReal : ℝ) = k * δ := Real.coe_toNNReal _ (by positivity)
  rw [hv] at h1 h2
  simp only [Pi.smul_apply, smul_eq_mul]
  refine ⟨h1.trans ?_, h2.trans ?_⟩
  · simp only [Ivp.Gbm.mean, Pi.smul_apply, smul_eq_mul]
    congr 2
    ring
  · simp only [Ivp.Gbm.variance, Pi.smul_apply, smul_eq_mul, Pi.pow_apply]
    congr 3
    ring

/-- C80, without the conversion: `sde_solver` applied to the Itô drift gives a mean that is too large at every later grid point, by
the factor `exp(b² t / 2)`. -/
theorem C80_ito_drift {Ω : Type*} [MeasurableSpace Ω] {P : Measure Ω} {R : Ω → Rng} (hR : IdealNormals P R) (key : Key)
    {δ : ℝ} (hδ : 0 < δ) (N : ℕ) (odeInt : OdeInt (Vec 1) 1) (hode : ∀ k, ExactIntegrator δ fun x vf => odeInt k x vf δ)
    (k : ℕ) (hk : k ≤ N) :
    ∃ X : Ω → Vec 1, (∀ ω, (sdeSolver (R ω) key Ivp.Gbm.drift Ivp.Gbm.sigma Ivp.Gbm.x0 (getApprox 1) δ N odeInt).2.1[k]? =
        some (X ω)) ∧ ∫ ω, X ω 0 ∂P = Real.exp (Ivp.Gbm.b ^ 2 * (k * δ) / 2) * Ivp.Gbm.mean (k * δ) 0 := by
  refine ⟨_, fun ω => C80_strong_solution (R ω) key (getApprox 1) (·.1) (·.2) (fun _ _ _ => rfl) Ivp.Gbm.a Ivp.Gbm.b
    Ivp.Gbm.x0 hδ N odeInt hode k hk, ?_⟩
  have hB := BrownianOnGrid.law (C79_driver hR key Ivp.Gbm.drift Ivp.Gbm.sigma Ivp.Gbm.x0 hδ N odeInt) k hk 0
  have h1 := (exp_normal_moments hB (Ivp.Gbm.a * (k * δ)) Ivp.Gbm.b (Ivp.Gbm.x0 0)).1
  have hv : ((k * δ : ℝ).toNNReal : ℝ) = k * δ := Real.coe_toNNReal _ (by positivity)
  rw [hv] at h1
  simp only [Pi.smul_apply, smul_eq_mul]
  refine h1.trans ?_
  simp only [Ivp.Gbm.mean, Pi.smul_apply, smul_eq_mul]
  rw [Real.exp_add]
  ring

/-- C80: the hypotheses can be met, and the mean with the Itô drift is really different. -/
example : (∃ odeInt : OdeInt (Vec 1) 1, ∀ k, ExactIntegrator (1 / 10) fun x vf => odeInt k x vf (1 / 10)) ∧
    Real.exp (Ivp.Gbm.b ^ 2 * ((20 : ℕ) * (1 / 10)) / 2) * Ivp.Gbm.mean ((20 : ℕ) * (1 / 10)) 0 ≠ Ivp.Gbm.mean ((20 : ℕ) * (1 / 10)) 0 := by
  obtain ⟨int, h⟩ := exists_exactIntegrator 1 (1 / 10) (by norm_num)
  refine ⟨⟨fun _ x vf _ => int x vf, fun _ => h⟩, ?_⟩
  simp [Ivp.Gbm.mean, Ivp.Gbm.b, Ivp.Gbm.x0]

end Verif
