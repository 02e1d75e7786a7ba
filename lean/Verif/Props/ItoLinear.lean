import Verif.Props.Ito
import Mathlib.Data.Matrix.Mul
import Mathlib.Analysis.Calculus.FDeriv.Pi

/-! C141: conversions between Itô and Stratonovich form for linear diffusions, and the values asserted by `tests/test_ito_strato.py`. -/

namespace Verif

open Jnp Matrix

variable {d m : ℕ}

/-- The diffusion whose `k`-th column is `A k` times the state. -/
def linearDiffusion (A : Fin m → Mat d d) : Diffusion d m := fun x _ => Matrix.of fun i k => (A k *ᵥ x) i

/-- C141: for a diffusion whose columns are `A k x`, the conversions add and subtract half the sum of the `A k² x`. -/
theorem C141_linear (drift : Field d) (A : Fin m → Mat d d) (x : Vec d) (t : ℝ) :
    (toIto drift (linearDiffusion A)).1 x t = drift x t + (1 / 2 : ℝ) • ∑ k, (A k * A k) *ᵥ x ∧
    (toStratonovich drift (linearDiffusion A)).1 x t = drift x t - (1 / 2 : ℝ) • ∑ k, (A k * A k) *ᵥ x := by
  have hs : ∀ i, ∑ j, ∑ k, linearDiffusion A x t j k * A k i j = (∑ k, (A k * A k) *ᵥ x) i := fun i => by
    rw [Finset.sum_comm, Finset.sum_apply]
    refine Finset.sum_congr rfl fun k _ => ?_
    rw [← mulVec_mulVec]
    simp only [linearDiffusion, Matrix.of_apply, mulVec, dotProduct]
    exact Finset.sum_congr rfl fun j _ => mul_comm _ _
  have hc := fun i => C09_correction_formula drift (linearDiffusion A) x t (fun i k => by
    simp only [linearDiffusion, Matrix.of_apply, mulVec, dotProduct]
    fun_prop) (fun i k j => A k i j) (fun i k j => by
    have e : (fun s : ℝ => linearDiffusion A (x + s • Pi.single j 1) t i k) = fun s : ℝ => (A k *ᵥ x) i + s * A k i j := by
      funext s
      simp [linearDiffusion, mulVec_add, mulVec_smul]
    rw [e]
    simpa using ((hasDerivAt_id (0 : ℝ)).mul_const (A k i j)).const_add ((A k *ᵥ x) i)) i
  constructor <;> funext i
  · rw [(hc i).1, hs, Pi.add_apply, Pi.smul_apply, smul_eq_mul]
  · rw [(hc i).2, hs, Pi.sub_apply, Pi.smul_apply, smul_eq_mul]

/-- The diffusion of `test_md` and of the second half of `test_symmetry` (tests/test_ito_strato.py:19-20, 56). -/
def testDiffusion : Diffusion 2 2 := fun x _ => !![x 0, 2 * x 1; 3 * x 0 + 4 * x 1, 5 * x 1]

/-- C141, `test_symmetry`, `test_diagonal`, `test_1d` and `test_md` at every state and time: the round trip returns the drift, the diagonal diffusion `diag(x)` takes half of the
state off the drift in any dimension, and the diffusion of `test_md` adds the written term. -/
theorem C141_tests (x : Vec d) (y : Vec 1) (z : Vec 2) (t : ℝ) (drift : Field 2) :
    (let p := toIto drift testDiffusion; toStratonovich p.1 p.2).1 z t = drift z t ∧
    (toStratonovich (fun x _ => x) (fun x _ => diagonal x : Diffusion d d)).1 x t = x - (0.5 : ℝ) • x ∧
    (toStratonovich (fun _ _ => fun _ => 1) (fun x _ => Matrix.of fun _ => x : Diffusion 1 1)).1 y t = (fun _ => 1 - y 0 * 0.5) ∧
    (toIto drift testDiffusion).1 z t = drift z t + (0.5 : ℝ) • ![z 0 * 1 + 2 * z 1 * 0 + (3 * z 0 + 4 * z 1) * 0 + 5 * z 1 * 2,
      z 0 * 3 + 2 * z 1 * 0 + (3 * z 0 + 4 * z 1) * 4 + 5 * z 1 * 5] := by
  refine ⟨by rw [(C08_conversions_inverse drift testDiffusion).1], ?_, ?_, ?_⟩
  · have e : (fun x _ => diagonal x : Diffusion d d) = linearDiffusion fun k => diagonal (Pi.single k 1) := by
      funext x t
      ext i k
      by_cases h : i = k
      · subst h; simp [linearDiffusion, mulVec_diagonal]
      · simp [linearDiffusion, mulVec_diagonal, h]
    rw [e, (C141_linear _ _ x t).2]
    have h : ∑ k : Fin d, (diagonal (Pi.single k (1 : ℝ)) * diagonal (Pi.single k 1) : Mat d d) *ᵥ x = x := by
      funext i
      simp [Finset.sum_apply, diagonal_mul_diagonal, mulVec_diagonal, Pi.single_apply]
    rw [h]
    norm_num
  · have e : (fun x _ => Matrix.of fun _ => x : Diffusion 1 1) = linearDiffusion fun _ => 1 := by
      funext x t
      ext i k
      rw [Subsingleton.elim i k]
      simp [linearDiffusion]
    rw [e, (C141_linear _ _ y t).2]
    funext i
    rw [Subsingleton.elim i 0]
    simp
    ring
  · have e : testDiffusion = linearDiffusion ![!![1, 0; 3, 4], !![0, 2; 0, 5]] := by
      funext x t
      ext i k
      fin_cases i <;> fin_cases k <;> simp [linearDiffusion, testDiffusion, mulVec, dotProduct, Fin.sum_univ_two]
    rw [e, (C141_linear _ _ z t).1]
    funext i
    fin_cases i <;> simp [Fin.sum_univ_two, mulVec, dotProduct, mul_apply] <;> ring

/-- C141: the noise of geometric Brownian motion in two coordinates driven by a rotation, for which the correction is half the state with a minus sign. -/
example (x : Vec 2) (t : ℝ) : (toIto (fun _ _ => 0) (linearDiffusion fun _ : Fin 1 => !![0, -1; 1, 0])).1 x t = -(1 / 2 : ℝ) • x := by
  rw [(C141_linear _ _ x t).1]
  funext i
  fin_cases i <;> simp [mulVec, dotProduct, Fin.sum_univ_two, mul_apply]

end Verif
