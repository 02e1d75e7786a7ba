import Verif.Model.Foster
import Verif.Lemmas.Scan
import Verif.Lemmas.Gaussian
import Mathlib.Analysis.SpecialFunctions.Integrals.Basic
import Mathlib.MeasureTheory.Integral.IntervalIntegral.FundThmCalculus
import Mathlib.Algebra.BigOperators.Intervals

/-! Helper lemmas about the Brownian approximations. -/

namespace Verif

open Jnp MeasureTheory ProbabilityTheory Matrix Spec

namespace Foster

theorem hasDerivAt_evalParabola1 (t dt a b : ℝ) :
    HasDerivAt (fun s => evalParabola1 s dt a b) ((a + Real.sqrt 6 * b * (1 - 2 * t / dt)) / dt) t := by
  unfold evalParabola1
  have h1 : HasDerivAt (fun s : ℝ => s / dt) (1 / dt) t := (hasDerivAt_id t).div_const dt
  have h2 := (h1.const_mul a).add ((h1.const_mul (b * Real.sqrt 6)).mul (h1.const_sub 1))
  refine h2.congr_deriv ?_
  rcases eq_or_ne dt 0 with rfl | h
  · simp
  · field_simp
    ring

theorem continuous_evalParabola1 (dt a b : ℝ) : Continuous fun s => evalParabola1 s dt a b := by
  unfold evalParabola1; fun_prop

theorem sqrt6_sq : Real.sqrt 6 * Real.sqrt 6 = 6 := Real.mul_self_sqrt (by norm_num)

theorem integral_evalParabola1 (dt a b : ℝ) (hdt : dt ≠ 0) :
    ∫ t in (0 : ℝ)..dt, evalParabola1 t dt a b = dt * (a / 2 + b / Real.sqrt 6) := by
  have hF : ∀ t ∈ Set.uIcc 0 dt, HasDerivAt
      (fun s : ℝ => a / (2 * dt) * s ^ 2 + b * Real.sqrt 6 / (2 * dt) * s ^ 2 - b * Real.sqrt 6 / (3 * dt ^ 2) * s ^ 3)
      (evalParabola1 t dt a b) t := by
    intro t _
    have h2 := hasDerivAt_pow 2 t
    have h3 := hasDerivAt_pow 3 t
    have := ((h2.const_mul (a / (2 * dt))).add (h2.const_mul (b * Real.sqrt 6 / (2 * dt)))).sub
      (h3.const_mul (b * Real.sqrt 6 / (3 * dt ^ 2)))
    refine this.congr_deriv ?_
    unfold evalParabola1
    push_cast
    field_simp
    ring
  rw [intervalIntegral.integral_eq_sub_of_hasDerivAt hF
    ((continuous_evalParabola1 dt a b).intervalIntegrable _ _)]
  have h6 : Real.sqrt 6 ≠ 0 := by positivity
  field_simp
  have := sqrt6_sq
  linear_combination (dt ^ 3 * b) * this

end Foster

theorem trapzDx_range {V : Type*} [AddCommGroup V] [Module ℝ V] (dx : ℝ) (n : ℕ) (f : ℕ → V) :
    trapzDx dx ((List.range (n + 1)).map f) = ∑ i ∈ Finset.range n, (dx / 2) • (f i + f (i + 1)) := by
  induction n generalizing f with
  | zero => simp [trapzDx]
  | succ n ih =>
    have h := ih (fun i => f (i + 1))
    rw [List.range_succ_eq_map, List.map_cons, List.map_map, List.range_succ_eq_map, List.map_cons]
    rw [List.range_succ_eq_map, List.map_cons] at h
    simp only [trapzDx, Function.comp_def, Nat.succ_eq_add_one, zero_add] at h ⊢
    rw [h, Finset.sum_range_succ', add_comm]

theorem cumsum_length {V : Type*} [AddCommMonoid V] (l : List V) : (cumsum l).length = l.length := by
  induction l with
  | nil => rfl
  | cons x xs ih => simp [cumsum, ih]

theorem cumsum_getElem? {V : Type*} [AddCommMonoid V] (l : List V) (k : ℕ) (hk : k < l.length) :
    (cumsum l)[k]? = some ((l.take (k + 1)).sum) := by
  induction l generalizing k with
  | nil => simp at hk
  | cons x xs ih =>
    cases k with
    | zero => simp [cumsum]
    | succ k =>
      have := ih k (by simpa using hk)
      simp [cumsum, this]

theorem ofFn_take_sum {V : Type*} [AddCommMonoid V] (N : ℕ) (f : ℕ → V) (k : ℕ) (hk : k ≤ N) :
    ((List.ofFn (fun i : Fin N => f i)).take k).sum = ∑ i ∈ Finset.range k, f i := by
  have h : List.ofFn (fun i : Fin N => f i) = (List.range N).map f := by
    apply List.ext_getElem <;> simp
  rw [h, ← List.map_take, List.take_range, min_eq_left hk, Finset.sum_range]
  clear h hk
  induction k generalizing f with
  | zero => simp
  | succ k ih => rw [List.range_succ_eq_map, Fin.sum_univ_succ]; simp [Function.comp_def, ih (fun i => f (i + 1))]

/-- The numbers of one draw of a matrix are independent. -/
theorem Spec.IdealNormals.indep_mats {Ω : Type*} [MeasurableSpace Ω] {P : Measure Ω} {R : Ω → Rng}
    (h : IdealNormals P R) {ι : Type} (K : ι → Key) (hK : Pairwise (fun a b => (K a).Diverge (K b))) (r c : ℕ) :
    iIndepFun (fun (p : ι × Fin r × Fin c) ω => (R ω).normalMat (K p.1) r c p.2.1 p.2.2) P := by
  have h0 := h.indep K (fun _ => [r, c]) hK
  have hlt : ∀ (i : Fin r) (j : Fin c), i.1 * c + j.1 < [r, c].prod := by
    intro i j
    simp only [List.prod_cons, List.prod_nil, mul_one]
    have := i.2; have := j.2
    calc i.1 * c + j.1 < i.1 * c + c := by omega
      _ = (i.1 + 1) * c := by ring
      _ ≤ r * c := Nat.mul_le_mul_right _ (by omega)
  refine h0.precomp (g := fun p : ι × Fin r × Fin c => ⟨p.1, ⟨p.2.1 * c + p.2.2, hlt _ _⟩⟩) ?_
  rintro ⟨a, i, j⟩ ⟨b, i', j'⟩ hab
  simp only [Sigma.mk.injEq] at hab
  obtain ⟨rfl, hab⟩ := hab
  have hab := congrArg Fin.val (eq_of_heq hab)
  simp only at hab
  have hj := j.2; have hj' := j'.2
  have h1 : (i.1 * c + j.1) % c = (i'.1 * c + j'.1) % c := by rw [hab]
  rw [Nat.mul_comm i.1 c, Nat.mul_comm i'.1 c, Nat.mul_add_mod, Nat.mul_add_mod, Nat.mod_eq_of_lt hj,
    Nat.mod_eq_of_lt hj'] at h1
  have h2 : i.1 = i'.1 := by
    rw [h1] at hab
    have := Nat.add_right_cancel hab
    exact Nat.eq_of_mul_eq_mul_right (by omega) this
  simp [Fin.ext h1, Fin.ext h2]

theorem Spec.IdealNormals.law_mat {Ω : Type*} [MeasurableSpace Ω] {P : Measure Ω} {R : Ω → Rng}
    (h : IdealNormals P R) (k : Key) {r c : ℕ} (i : Fin r) (j : Fin c) :
    HasLaw (fun ω => (R ω).normalMat k r c i j) (gaussianReal 0 1) P := by
  refine h.law k [r, c] (i * c + j) ?_
  simp only [List.prod_cons, List.prod_nil, mul_one]
  have := i.2; have := j.2
  calc i.1 * c + j.1 < i.1 * c + c := by omega
    _ = (i.1 + 1) * c := by ring
    _ ≤ r * c := Nat.mul_le_mul_right _ (by omega)

end Verif
