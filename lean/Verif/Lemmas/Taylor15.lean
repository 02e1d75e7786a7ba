import Verif.Model.Taylor15
import Verif.Lemmas.Gaussian
import Verif.Lemmas.LinAlg
import Verif.Lemmas.SdeSolver
import Verif.Spec.Taylor15
import Verif.Props.Foster
import Mathlib.Analysis.Calculus.ContDiff.Basic
import Mathlib.Analysis.Calculus.ContDiff.Operations
import Mathlib.Analysis.Calculus.FDeriv.Pi

/-! Helper lemmas about the order 1.5 schemes. -/

namespace Verif

open Jnp MeasureTheory ProbabilityTheory Matrix Spec

/-! ## Derivatives -/

theorem pd_apply {n m : ℕ} {f : Vec n → Vec m} {x : Vec n} (hf : DifferentiableAt ℝ f x) (i : Fin m) (j : Fin n) :
    pd j (fun z => f z i) x = fderiv ℝ f x (Pi.single j 1) i := by
  rw [pd, fderiv_apply hf]
  rfl

theorem jac_mulVec {n m : ℕ} {f : Vec n → Vec m} {x : Vec n} (hf : DifferentiableAt ℝ f x) (v : Vec n) :
    jac f x *ᵥ v = fderiv ℝ f x v := by
  funext i
  have hv : v = ∑ j, v j • (Pi.single j (1 : ℝ) : Vec n) := by
    funext k
    simp [Finset.sum_apply, Pi.single_apply]
  conv_rhs => rw [hv]
  simp only [map_sum, map_smul, Finset.sum_apply, Pi.smul_apply, smul_eq_mul, mulVec, dotProduct, jac, pd_apply hf]
  exact Finset.sum_congr rfl fun j _ => mul_comm _ _

theorem hessian_eq {n m : ℕ} {f : Vec n → Vec m} (hf : ContDiff ℝ 2 f) (x : Vec n) (i : Fin m) (j k : Fin n) :
    hessian f x i j k = iteratedFDeriv ℝ 2 f x ![Pi.single k 1, Pi.single j 1] i := by
  have h1 : ∀ z, DifferentiableAt ℝ f z := fun z => hf.differentiable (by norm_num) z
  have h2 : DifferentiableAt ℝ (fderiv ℝ f) x :=
    (hf.fderiv_right (m := 1) (by norm_num)).differentiable (by norm_num) x
  have h3 : (fun z => pd j (fun w => f w i) z) = fun z => (fderiv ℝ f z (Pi.single j 1)) i := by
    funext z; exact pd_apply (h1 z) i j
  have h4 : HasFDerivAt (fun z => fderiv ℝ f z (Pi.single j 1)) ((fderiv ℝ (fderiv ℝ f) x).flip (Pi.single j 1)) x := by
    simpa using h2.hasFDerivAt.clm_apply (hasFDerivAt_const (Pi.single j (1 : ℝ) : Vec n) x)
  rw [hessian, h3, iteratedFDeriv_two_apply, pd_apply (f := fun z => fderiv ℝ f z (Pi.single j 1)) h4.differentiableAt, h4.fderiv]
  rfl

theorem jac_const {n m : ℕ} (c : Vec m) (x : Vec n) : jac (fun _ => c) x = 0 := by
  ext i j
  simp [jac, pd]

theorem hessian_const {n m : ℕ} (c : Vec m) (x : Vec n) (i : Fin m) : hessian (fun _ => c) x i = 0 := by
  ext j k
  simp [hessian, pd]

/-! ## The noise of the diagonal scheme -/

namespace Diag15

variable {d : ℕ}

/-- The pair (integral, increment) drawn in one step. -/
noncomputable def noise (la : LinAlg) (rng : Rng) (d : ℕ) (h : ℝ) (key : Key) : Vec d × Vec d :=
  let ze := rng.multivariateNormal la (key.child 1 0) (0 : Vec (d + d)) (noiseCov d h)
  (fun i => ze (Fin.castAdd d i), fun i => ze (Fin.natAdd d i))

theorem body_eq (la : LinAlg) (rng : Rng) (drift : Vec d → Vec d) (sigma : Vec d → Mat d d) (h : ℝ) (x : Vec d)
    (key : Key) : body la rng drift sigma h x key =
      (stepFn drift sigma h x (noise la rng d h key).1 (noise la rng d h key).2,
        stepFn drift sigma h x (noise la rng d h key).1 (noise la rng d h key).2) := rfl

/-- Position of the entry `p` of (increment, integral) in the drawn vector. -/
def pos (d : ℕ) (p : Fin 2 × Fin d) : Fin (d + d) := if p.1 = 0 then Fin.natAdd d p.2 else Fin.castAdd d p.2

theorem noiseCov_pos (h : ℝ) (p q : Fin 2 × Fin d) : noiseCov d h (pos d p) (pos d q) = bmCovDim d h p q := by
  obtain ⟨s, i⟩ := p
  obtain ⟨t, j⟩ := q
  have hs : s = 0 ∨ s = 1 := by fin_cases s <;> simp
  have ht : t = 0 ∨ t = 1 := by fin_cases t <;> simp
  rcases hs with rfl | rfl <;> rcases ht with rfl | rfl <;>
  by_cases hij : i = j <;>
  simp [pos, noiseCov, bmCovDim, bmCov, Matrix.smul_apply, hij, -Fin.natAdd_eq_addNat]

theorem noiseCov_posDef {h : ℝ} (hh : 0 < h) : (noiseCov d h).PosDef := by
  refine pd_of ?_ fun x hx => ?_
  · rw [noiseCov, reindex_apply, transpose_submatrix, fromBlocks_transpose]
    simp
  · set u : Vec d := fun i => x (Fin.castAdd d i)
    set v : Vec d := fun i => x (Fin.natAdd d i)
    have hx' : (x ∘ finSumFinEquiv) = Sum.elim u v := by
      funext s; cases s <;> simp [u, v]
    have hq : x ⬝ᵥ noiseCov d h *ᵥ x = ∑ i, (h * (v i + h / 2 * u i) ^ 2 + h ^ 3 / 12 * u i ^ 2) := by
      have h1 : noiseCov d h *ᵥ x = (fromBlocks ((h ^ 3 / 3) • (1 : Mat d d)) ((h ^ 2 / 2) • 1) ((h ^ 2 / 2) • 1)
          (h • (1 : Mat d d)) *ᵥ (x ∘ finSumFinEquiv)) ∘ finSumFinEquiv.symm := by
        rw [noiseCov, reindex_apply, submatrix_mulVec_equiv]
        simp
      have h2 : x = (x ∘ finSumFinEquiv) ∘ finSumFinEquiv.symm := by
        funext i; simp
      conv_lhs => rw [h1]
      rw [← comp_equiv_dotProduct_comp_equiv _ _ finSumFinEquiv]
      have h3 : ∀ w : Fin d ⊕ Fin d → ℝ, (w ∘ finSumFinEquiv.symm) ∘ finSumFinEquiv = w := by
        intro w; funext i; simp
      rw [h3, hx', fromBlocks_mulVec]
      simp only [dotProduct, Fintype.sum_sum_type, Sum.elim_inl, Sum.elim_inr, ← Finset.sum_add_distrib]
      refine Finset.sum_congr rfl fun i _ => ?_
      simp [smul_mulVec, Function.comp_def]
      ring
    rw [hq]
    have hne : ∃ i, u i ≠ 0 ∨ v i ≠ 0 := by
      by_contra hc
      push Not at hc
      apply hx
      have : x ∘ finSumFinEquiv = 0 := by
        rw [hx']; funext s; cases s with
        | inl i => exact (hc i).1
        | inr i => exact (hc i).2
      funext i
      have := congrFun this (finSumFinEquiv.symm i)
      simpa using this
    obtain ⟨i, hi⟩ := hne
    refine Finset.sum_pos' (fun j _ => by positivity) ⟨i, Finset.mem_univ _, ?_⟩
    by_cases hu : u i = 0
    · have hv : v i ≠ 0 := hi.resolve_left (by simpa using hu)
      rw [hu]
      have : 0 < v i ^ 2 := by positivity
      nlinarith [mul_pos hh this]
    · have : 0 < u i ^ 2 := by positivity
      have h3 : 0 < h ^ 3 / 12 * u i ^ 2 := by positivity
      have h4 : 0 ≤ h * (v i + h / 2 * u i) ^ 2 := by positivity
      linarith

end Diag15

end Verif
