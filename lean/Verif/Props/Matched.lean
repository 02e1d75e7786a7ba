import Verif.Lemmas.MatchedLaw
import Verif.Props.Driver
import Verif.Props.Strong

/-!
# Property C91: the law of the parabola coefficients
-/

namespace Verif

open Matrix Spec Jnp Set MeasureTheory ProbabilityTheory
open scoped NNReal

/-- The coefficients of a parabola are determined by its end point and its integral. -/
theorem sameEndAndArea_coeffs {m : ℕ} {δ : ℝ} (hδ : δ ≠ 0) {w : ℝ → Vec m} {k : ℕ} {a b : Vec m}
    (h : SameEndAndArea (fun t => Foster.evalParabola t δ a b) w (k * δ) δ) (j : Fin m) (s : Fin 2) :
    ![a j, b j] s = incArea (fun t => w t j) δ k s := by
  have h1 : a = w (k * δ + δ) - w (k * δ) := by rw [← h.atEnd]; exact (evalParabola_end hδ a b).symm
  have h2 : ∫ t in (0 : ℝ)..δ, Foster.evalParabola t δ a b j = _ := Foster.integral_evalParabola1 δ (a j) (b j) hδ
  have h3 := h.area j
  rw [h2] at h3
  fin_cases s
  · simp [incArea, h1]
  · simp only [Fin.mk_one, cons_val_one, cons_val_fin_one, incArea]
    have ha : w (k * δ + δ) j - w (k * δ) j = a j := by rw [h1]; rfl
    rw [← h3, ha]
    have h6 : Real.sqrt 6 ≠ 0 := by positivity
    field_simp
    ring

/-- C91: parabolas that agree with the paths of a Brownian motion in end point and integral over the intervals of a grid have
independent normal coefficients, with variance `δ` for the increment and `δ / 2` for the other one. -/
theorem C91_matched_law {Ω : Type*} [MeasurableSpace Ω] {P : Measure Ω} {m : ℕ} {B : Fin m → ℝ≥0 → Ω → ℝ} (hB : IsBrownianVec B P)
    {δ : ℝ} (hδ : 0 < δ) (N : ℕ) (a b : Ω → ℕ → Vec m)
    (h : ∀ᵐ ω ∂P, ∀ k < N, SameEndAndArea (fun t => Foster.evalParabola t δ (a ω k) (b ω k)) (fun t j => B j t.toNNReal ω) (k * δ) δ) :
    IsNormal P (fun ω (q : Fin N × Fin m × Fin 2) => ![a ω q.1 q.2.1, b ω q.1 q.2.1] q.2.2) 0
      (diagonal fun q => ![δ, δ / 2] q.2.2) := by
  refine (hB.incArea_law hδ N).congr_ae ?_
  filter_upwards [h] with ω hω
  funext q
  exact (sameEndAndArea_coeffs hδ.ne' (hω q.1 q.1.2) q.2.1 q.2.2).symm

/-- C91: for every Brownian motion there are such parabolas. -/
example {Ω : Type*} [MeasurableSpace Ω] {P : Measure Ω} {m : ℕ} {B : Fin m → ℝ≥0 → Ω → ℝ} {δ : ℝ} (hδ : 0 < δ) :
    ∃ a b : Ω → ℕ → Vec m, ∀ᵐ ω ∂P, ∀ k < 5, SameEndAndArea (fun t => Foster.evalParabola t δ (a ω k) (b ω k))
      (fun t j => B j t.toNNReal ω) (k * δ) δ :=
  ⟨_, _, Filter.Eventually.of_forall fun _ k _ => exists_sameEndAndArea hδ.ne' _ (k * δ)⟩

/-- C91: the coefficients that `sde_solver` draws with `get_approx` have the same law. -/
theorem C91_code_law {Ω : Type*} [MeasurableSpace Ω] {P : Measure Ω} {R : Ω → Rng} (hR : IdealNormals P R) (key : Key) {X : Type}
    {d m : ℕ} (drift : Field d) (sigma : Diffusion d m) (x0 : X) {δ : ℝ} (hδ : 0 < δ) (N : ℕ) (odeInt : OdeInt X d)
    (a b : Ω → ℕ → Vec m) (h : ∀ ω, ∀ k < N, (sdeSolver (R ω) key drift sigma x0 (Foster.getApprox m) δ N odeInt).2.2[k]? =
      some (a ω k, b ω k)) :
    IsNormal P (fun ω (q : Fin N × Fin m × Fin 2) => ![a ω q.1 q.2.1, b ω q.1 q.2.1] q.2.2) 0
      (diagonal fun q => ![δ, δ / 2] q.2.2) := by
  have hi := hR.indep_mats (ι := ℕ) (fun i => (key.child N i).child 2 0)
    (fun a b hab => ((Key.diverge_child key N a b hab).child_left 2 0).child_right 2 0) 2 m
  have hi' := hi.precomp (g := fun q : Fin N × Fin m × Fin 2 => ((q.1 : ℕ), q.2.2, q.2.1)) (fun p q h => by
    simp only [Prod.mk.injEq] at h
    exact Prod.ext (Fin.ext h.1) (Prod.ext h.2.2 h.2.1))
  have hl : ∀ q : Fin N × Fin m × Fin 2, HasLaw (fun ω => (R ω).normalMat ((key.child N q.1).child 2 0) 2 m q.2.2 q.2.1)
      (gaussianReal 0 1) P := fun q => hR.law_mat _ _ _
  have hn := isNormal_linear hl hi' 0 (diagonal fun q => ![Real.sqrt δ, Real.sqrt (0.5 * δ)] q.2.2)
  have hc : diagonal (fun q : Fin N × Fin m × Fin 2 => ![Real.sqrt δ, Real.sqrt (0.5 * δ)] q.2.2) *
      (diagonal fun q : Fin N × Fin m × Fin 2 => ![Real.sqrt δ, Real.sqrt (0.5 * δ)] q.2.2)ᵀ =
      diagonal fun q => ![δ, δ / 2] q.2.2 := by
    rw [diagonal_transpose, diagonal_mul_diagonal]
    congr 1
    funext q
    generalize q.2.2 = s
    fin_cases s
    · simp [Real.mul_self_sqrt hδ.le]
    · simp only [Fin.mk_one, cons_val_one, cons_val_fin_one]
      rw [Real.mul_self_sqrt (by positivity)]
      ring
  rw [hc] at hn
  refine hn.congr_ae (Filter.Eventually.of_forall fun ω => ?_)
  funext ⟨k, j, s⟩
  have h1 := h ω k k.2
  rw [sdeSolver_coeffs, List.getElem?_map, List.getElem?_range k.2] at h1
  have h2 : (Foster.getApprox m).coeffs (R ω) ((key.child N k).child 2 0) δ = (a ω k, b ω k) := Option.some.inj h1
  have ha : a ω k = ((Foster.getApprox m).coeffs (R ω) ((key.child N k).child 2 0) δ).1 := by rw [h2]
  have hb : b ω k = ((Foster.getApprox m).coeffs (R ω) ((key.child N k).child 2 0) δ).2 := by rw [h2]
  simp only [Pi.add_apply, Pi.zero_apply, zero_add, mulVec_diagonal, ha, hb]
  fin_cases s
  · simp [Foster.getApprox, Foster.parabolas, mul_comm]
  · simp [Foster.getApprox, Foster.parabolas, mul_comm]

/-- C91: an ideal generator, and the coefficients of a run with it. -/
example : IsNormal drawsMeasure (fun ω (q : Fin 3 × Fin 2 × Fin 2) =>
      ![((Foster.getApprox 2).coeffs (drawsRng ω) ((Key.child [] 3 q.1).child 2 0) 1).1 q.2.1,
        ((Foster.getApprox 2).coeffs (drawsRng ω) ((Key.child [] 3 q.1).child 2 0) 1).2 q.2.1] q.2.2) 0
      (diagonal fun q => ![1, 1 / 2] q.2.2) :=
  C91_code_law idealNormals_drawsRng ([] : Key) (d := 2) (fun x _ => -x) (fun _ _ => 1) (0 : Vec 2) one_pos 3 (fun _ x _ _ => x)
    (fun ω k => ((Foster.getApprox 2).coeffs (drawsRng ω) ((Key.child [] 3 k).child 2 0) 1).1)
    (fun ω k => ((Foster.getApprox 2).coeffs (drawsRng ω) ((Key.child [] 3 k).child 2 0) 1).2) fun ω k hk => by
      rw [sdeSolver_coeffs, List.getElem?_map, List.getElem?_range hk]; rfl

end Verif
