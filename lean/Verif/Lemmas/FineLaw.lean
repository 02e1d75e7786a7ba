import Verif.Props.Matched
import Verif.Props.Foster

/-!
# The fine parabolas of `get_approx_fine` over a whole run
-/

namespace Verif

open Matrix Spec Jnp Set MeasureTheory ProbabilityTheory
open scoped NNReal

variable {m : ℕ}

/-- The coarse coefficients made of `r` fine pairs, as in `parabolasFine_eq`. -/
noncomputable def foldFine (δ : ℝ) (r : ℕ) (p : ℕ → Vec m × Vec m) : Vec m × Vec m :=
  (∑ k ∈ Finset.range r, (p k).1, Real.sqrt 6 • ((1 / δ) • (∑ k ∈ Finset.range r, (δ / r) • (∑ i ∈ Finset.range k, (p i).1 +
    (0.5 : ℝ) • (p k).1 + (1 / Real.sqrt 6) • (p k).2)) - (0.5 : ℝ) • ∑ k ∈ Finset.range r, (p k).1))

theorem coeffs_foldFine (r : ℕ) (rng : Rng) (key : Key) (δ : ℝ) :
    ((Foster.getApproxFine m r).coeffs rng key δ).1 = (foldFine δ r (finePiece m r rng key δ)).1 ∧
    ((Foster.getApproxFine m r).coeffs rng key δ).2.1 = (foldFine δ r (finePiece m r rng key δ)).2 ∧
    ((Foster.getApproxFine m r).coeffs rng key δ).2.2.1 = (List.range r).map fun i => (finePiece m r rng key δ i).1 := by
  have h : (Foster.getApproxFine m r).coeffs rng key δ = _ := parabolasFine_eq m r rng key δ
  rw [h]
  exact ⟨rfl, rfl, rfl⟩

/-- Fine parabolas matched to a path make a coarse parabola matched to it. -/
theorem foldFine_matched {δ : ℝ} (hδ : 0 < δ) {r : ℕ} (hr : 0 < r) {w : ℝ → Vec m} {a0 : ℝ}
    (hw : ∀ j, ContinuousOn (fun t => w t j) (Ici 0)) (ha : 0 ≤ a0)
    {p : ℕ → Vec m × Vec m} (h : ∀ i < r, SameEndAndArea (fun t => Foster.evalParabola t (δ / r) (p i).1 (p i).2) w
      (a0 + i * (δ / r)) (δ / r)) :
    SameEndAndArea (fun t => Foster.evalParabola t δ (foldFine δ r p).1 (foldFine δ r p).2) w a0 δ := by
  have hr' : (0 : ℝ) < r := by exact_mod_cast hr
  obtain ⟨η, hη⟩ : ∃ η, η = δ / r := ⟨_, rfl⟩
  have hη0 : 0 < η := by rw [hη]; positivity
  have hrη : (r : ℝ) * η = δ := by rw [hη]; field_simp
  rw [← hη] at h
  have hinc : ∀ i < r, (p i).1 = w (a0 + (i + 1 : ℕ) * η) - w (a0 + i * η) := fun i hi => by
    have := (h i hi).atEnd
    rw [evalParabola_end hη0.ne'] at this
    rw [this]
    congr 2
    push_cast
    ring
  have htel : ∀ k ≤ r, ∑ i ∈ Finset.range k, (p i).1 = w (a0 + k * η) - w a0 := fun k => by
    induction k with
    | zero => intro _; simp
    | succ k ih =>
      intro hk
      rw [Finset.sum_range_succ, ih (by omega), hinc k (by omega)]
      abel
  have harea : ∀ i < r, ∀ j, ∫ t in (0 : ℝ)..η, (w (a0 + i * η + t) j - w (a0 + i * η) j) = η * ((p i).1 j / 2 + (p i).2 j / Real.sqrt 6) :=
    fun i hi j => by
      rw [← (h i hi).area j]
      exact Foster.integral_evalParabola1 η _ _ hη0.ne'
  refine ⟨?_, fun j => ?_⟩
  · rw [evalParabola_end hδ.ne']
    show ∑ k ∈ Finset.range r, (p k).1 = _
    rw [htel r le_rfl, hrη]
  · have h6 : Real.sqrt 6 ≠ 0 := by positivity
    have hl : ∫ t in (0 : ℝ)..δ, Foster.evalParabola t δ (foldFine δ r p).1 (foldFine δ r p).2 j =
        δ * ((foldFine δ r p).1 j / 2 + (foldFine δ r p).2 j / Real.sqrt 6) := Foster.integral_evalParabola1 δ _ _ hδ.ne'
    have hci : ∀ k : ℕ, IntervalIntegrable (fun t => w (a0 + t) j - w a0 j) volume (k * η) ((k + 1 : ℕ) * η) := fun k => by
      refine ContinuousOn.intervalIntegrable ?_
      refine ContinuousOn.sub ?_ continuousOn_const
      refine (hw j).comp (by fun_prop) fun t ht => ?_
      rw [uIcc_of_le (by push_cast; nlinarith)] at ht
      have : (0 : ℝ) ≤ k * η := by positivity
      exact (by linarith [ht.1] : (0 : ℝ) ≤ a0 + t)
    have hsum := intervalIntegral.sum_integral_adjacent_intervals (μ := volume) (f := fun t => w (a0 + t) j - w a0 j)
      (a := fun k : ℕ => (k : ℝ) * η) (n := r) fun k _ => hci k
    simp only [Nat.cast_zero, zero_mul, hrη] at hsum
    have hpiece : ∀ k < r, ∫ t in ((k : ℝ) * η)..((k + 1 : ℕ) * η), (w (a0 + t) j - w a0 j) =
        η * (∑ i ∈ Finset.range k, (p i).1 j + (p k).1 j / 2 + (p k).2 j / Real.sqrt 6) := fun k hk => by
      have e := intervalIntegral.integral_comp_add_left (a := 0) (b := η) (fun t => w (a0 + t) j - w a0 j) ((k : ℝ) * η)
      rw [add_zero, show (k : ℝ) * η + η = (k + 1 : ℕ) * η by push_cast; ring] at e
      rw [← e]
      have e2 : ∀ t, w (a0 + (k * η + t)) j - w a0 j = (w (a0 + k * η + t) j - w (a0 + k * η) j) + (w (a0 + k * η) j - w a0 j) := fun t => by
        rw [add_assoc]; ring
      simp only [e2]
      rw [intervalIntegral.integral_add _ (by simp), harea k hk j, intervalIntegral.integral_const]
      · have := congrFun (htel k hk.le) j
        rw [Finset.sum_apply, Pi.sub_apply] at this
        rw [this]
        simp only [sub_zero, smul_eq_mul]
        ring
      · refine ContinuousOn.intervalIntegrable ?_
        refine ContinuousOn.sub ?_ continuousOn_const
        refine (hw j).comp (by fun_prop) fun t ht => ?_
        rw [uIcc_of_le hη0.le] at ht
        have : (0 : ℝ) ≤ k * η := by positivity
        exact (by linarith [ht.1] : (0 : ℝ) ≤ a0 + k * η + t)
    rw [hl, ← hsum, Finset.sum_congr rfl fun k hk => hpiece k (Finset.mem_range.mp hk)]
    have h1 : (foldFine δ r p).1 j = ∑ k ∈ Finset.range r, (p k).1 j := by simp [foldFine]
    have h2 : (foldFine δ r p).2 j = Real.sqrt 6 * (1 / δ * (∑ k ∈ Finset.range r, η * (∑ i ∈ Finset.range k, (p i).1 j + 0.5 * (p k).1 j +
        1 / Real.sqrt 6 * (p k).2 j)) - 0.5 * ∑ k ∈ Finset.range r, (p k).1 j) := by
      simp [foldFine, hη]
      exact Or.inl (Finset.sum_congr rfl fun x _ => by ring)
    have h3 : ∑ k ∈ Finset.range r, η * (∑ i ∈ Finset.range k, (p i).1 j + (p k).1 j / 2 + (p k).2 j / Real.sqrt 6) =
        ∑ k ∈ Finset.range r, η * (∑ i ∈ Finset.range k, (p i).1 j + 0.5 * (p k).1 j + 1 / Real.sqrt 6 * (p k).2 j) :=
      Finset.sum_congr rfl fun k _ => by ring
    rw [h1, h2, h3]
    field_simp
    ring

/-- A generator that makes `sde_solver` with `get_approx_fine` draw prescribed fine parabolas. -/
theorem exists_rng_fine (key : Key) {δ : ℝ} (hδ : 0 < δ) (N : ℕ) {r : ℕ} (hr : 0 < r) (c : ℕ → Vec m × Vec m) :
    ∃ rng : Rng, ∀ k < N, ∀ i < r, finePiece m r rng ((key.child N k).child 2 0) δ i = c (k * r + i) := by
  classical
  have hr' : (0 : ℝ) < r := by exact_mod_cast hr
  refine ⟨⟨fun K _ l => if h : ∃ q : ℕ × ℕ, K = ((key.child N q.1).child 2 0).child r q.2 then
      if h' : l < m then (c (h.choose.1 * r + h.choose.2)).1 ⟨l, h'⟩ / Real.sqrt (δ / r)
      else if h'' : l - m < m then (c (h.choose.1 * r + h.choose.2)).2 ⟨l - m, h''⟩ / Real.sqrt (0.5 * (δ / r)) else 0
    else 0⟩, fun k _ i _ => ?_⟩
  have hex : ∃ q : ℕ × ℕ, ((key.child N k).child 2 0).child r i = ((key.child N q.1).child 2 0).child r q.2 := ⟨(k, i), rfl⟩
  have hch : hex.choose = (k, i) := by
    have := hex.choose_spec
    generalize hex.choose = q at this ⊢
    simp only [Key.child, List.cons.injEq, Prod.mk.injEq, true_and, and_true] at this
    exact Prod.ext this.2.symm this.1.symm
  have h1 : Real.sqrt (δ / r) ≠ 0 := by positivity
  have h2 : Real.sqrt (0.5 * (δ / r)) ≠ 0 := by positivity
  simp only [finePiece, Foster.getApprox, Foster.parabolas, Rng.normalMat]
  refine Prod.ext (funext fun j => ?_) (funext fun j => ?_)
  · simp only [Fin.val_zero, zero_mul, zero_add, dif_pos hex, j.2, dif_pos, hch]
    rw [div_mul_cancel₀ _ h1]
  · simp only [Fin.val_one, one_mul, dif_pos hex, hch]
    rw [dif_neg (by omega), dif_pos (by omega)]
    simp only [add_tsub_cancel_left]
    rw [div_mul_cancel₀ _ h2]

/-- The law of all fine parabolas of a run. -/
theorem fine_code_law {Ω : Type*} [MeasurableSpace Ω] {P : Measure Ω} {R : Ω → Rng} (hR : IdealNormals P R) (key : Key)
    {δ : ℝ} (hδ : 0 < δ) (N : ℕ) {r : ℕ} (hr : 0 < r) :
    IsNormal P (fun ω (q : Fin (N * r) × Fin m × Fin 2) =>
      ![(finePiece m r (R ω) ((key.child N (q.1 / r)).child 2 0) δ (q.1 % r)).1 q.2.1,
        (finePiece m r (R ω) ((key.child N (q.1 / r)).child 2 0) δ (q.1 % r)).2 q.2.1] q.2.2) 0
      (diagonal fun q => ![δ / r, δ / r / 2] q.2.2) := by
  have hr' : (0 : ℝ) < r := by exact_mod_cast hr
  have hi := hR.indep_mats (ι := ℕ × ℕ) (fun q => ((key.child N q.1).child 2 0).child r q.2) (fun a b hab => by
    by_cases h1 : a.1 = b.1
    · have h2 : a.2 ≠ b.2 := fun h2 => hab (Prod.ext h1 h2)
      show (((key.child N a.1).child 2 0).child r a.2).Diverge (((key.child N b.1).child 2 0).child r b.2)
      rw [h1]
      exact Key.diverge_child _ r a.2 b.2 h2
    · exact (((((Key.diverge_child key N a.1 b.1 h1).child_left 2 0).child_right 2 0).child_left r a.2).child_right r b.2)) 2 m
  have hi' := hi.precomp (g := fun q : Fin (N * r) × Fin m × Fin 2 => (((q.1 : ℕ) / r, (q.1 : ℕ) % r), q.2.2, q.2.1)) (fun p q h => by
    simp only [Prod.mk.injEq] at h
    refine Prod.ext (Fin.ext ?_) (Prod.ext h.2.2 h.2.1)
    rw [← Nat.div_add_mod (p.1 : ℕ) r, ← Nat.div_add_mod (q.1 : ℕ) r, h.1.1, h.1.2])
  have hl : ∀ q : Fin (N * r) × Fin m × Fin 2, HasLaw (fun ω => (R ω).normalMat (((key.child N ((q.1 : ℕ) / r)).child 2 0).child r
      ((q.1 : ℕ) % r)) 2 m q.2.2 q.2.1) (gaussianReal 0 1) P := fun q => hR.law_mat _ _ _
  have hn := isNormal_linear hl hi' 0 (diagonal fun q => ![Real.sqrt (δ / r), Real.sqrt (0.5 * (δ / r))] q.2.2)
  have hc : diagonal (fun q : Fin (N * r) × Fin m × Fin 2 => ![Real.sqrt (δ / r), Real.sqrt (0.5 * (δ / r))] q.2.2) *
      (diagonal fun q : Fin (N * r) × Fin m × Fin 2 => ![Real.sqrt (δ / r), Real.sqrt (0.5 * (δ / r))] q.2.2)ᵀ =
      diagonal fun q => ![δ / r, δ / r / 2] q.2.2 := by
    rw [diagonal_transpose, diagonal_mul_diagonal]
    congr 1
    funext q
    generalize q.2.2 = s
    fin_cases s
    · simp only [Fin.zero_eta, cons_val_zero]
      rw [Real.mul_self_sqrt (by positivity)]
    · simp only [Fin.mk_one, cons_val_one, cons_val_fin_one]
      rw [Real.mul_self_sqrt (by positivity)]
      ring
  rw [hc] at hn
  refine hn.congr_ae (Filter.Eventually.of_forall fun ω => ?_)
  funext ⟨k, j, s⟩
  simp only [Pi.add_apply, Pi.zero_apply, zero_add, mulVec_diagonal, finePiece]
  fin_cases s
  · simp [Foster.getApprox, Foster.parabolas, mul_comm]
  · simp [Foster.getApprox, Foster.parabolas, mul_comm]

/-- States computed step by step are a measurable function of the inputs. -/
theorem exists_scheme_map {E ι : Type*} [MeasurableSpace E] {N : ℕ} {Ψ : ℕ → E → (ι → ℝ) → E}
    (hΨ : ∀ k, Measurable fun p : E × (ι → ℝ) => Ψ k p.1 p.2) (x0 : E) : ∃ F : ℕ → (ι → ℝ) → E, (∀ n, Measurable (F n)) ∧
      ∀ (y : ℕ → E) (z : ι → ℝ), y 0 = x0 → (∀ k < N, y (k + 1) = Ψ k (y k) z) → ∀ n ≤ N, y n = F n z := by
  obtain ⟨F, hF⟩ : ∃ F : ℕ → (ι → ℝ) → E, F = fun n z => Nat.rec x0 (fun k y => Ψ k y z) n := ⟨_, rfl⟩
  have hF0 : ∀ z, F 0 z = x0 := fun z => by subst hF; rfl
  have hFs : ∀ k z, F (k + 1) z = Ψ k (F k z) z := fun k z => by subst hF; rfl
  refine ⟨F, fun n => ?_, fun y z h0 h n => ?_⟩
  · induction n with
    | zero => rw [show F 0 = fun _ => x0 from funext hF0]; exact measurable_const
    | succ n ih =>
      rw [show F (n + 1) = fun z => Ψ n (F n z) z from funext (hFs n)]
      exact (hΨ n).comp (ih.prodMk measurable_id)
  · induction n with
    | zero => exact fun _ => by rw [h0, hF0]
    | succ n ih => exact fun hn => by rw [h n (by omega), ih (by omega), hFs]

end Verif
