import Verif.Model.ItoStratonovich
import Mathlib.Tactic.NormNum
import Mathlib.Analysis.Calculus.FDeriv.Add
import Mathlib.Analysis.Calculus.FDeriv.Const
import Mathlib.Analysis.Calculus.FDeriv.Mul
import Mathlib.Analysis.Calculus.Deriv.Basic
import Mathlib.Analysis.Calculus.Deriv.Comp
import Mathlib.Analysis.Calculus.Deriv.Add
import Mathlib.Analysis.Calculus.Deriv.Mul

/-!
# Properties C08-C10: conversions between Itô and Stratonovich form
-/

namespace Verif

open Jnp

/-- C08: the two conversions are mutually inverse on the pair (drift, diffusion), and each alone returns the
diffusion unchanged. No differentiability is needed. -/
theorem C08_conversions_inverse {d m : ℕ} (drift : Field d) (sigma : Diffusion d m) :
    (let p := toIto drift sigma; toStratonovich p.1 p.2) = (drift, sigma) ∧
    (let p := toStratonovich drift sigma; toIto p.1 p.2) = (drift, sigma) ∧
    (toIto drift sigma).2 = sigma ∧ (toStratonovich drift sigma).2 = sigma := by
  refine ⟨?_, ?_, rfl, rfl⟩ <;>
  · simp only [toIto, toStratonovich]
    refine Prod.ext ?_ rfl
    funext x t
    simp

/-- C09: with `D i k j` the partial derivative of `sigma_ik` in the `j`-th coordinate direction (given by one-dimensional
derivatives along the line through `x`), the drift changes by `1/2 Σ_jk sigma_jk ∂_j sigma_ik`. -/
theorem C09_correction_formula {d m : ℕ} (drift : Field d) (sigma : Diffusion d m) (x : Vec d) (t : ℝ)
    (hdiff : ∀ i k, DifferentiableAt ℝ (fun z => sigma z t i k) x)
    (D : Fin d → Fin m → Fin d → ℝ)
    (hD : ∀ i k j, HasDerivAt (fun s : ℝ => sigma (x + s • Pi.single j 1) t i k) (D i k j) 0) (i : Fin d) :
    (toIto drift sigma).1 x t i = drift x t i + 1 / 2 * ∑ j, ∑ k, sigma x t j k * D i k j ∧
    (toStratonovich drift sigma).1 x t i = drift x t i - 1 / 2 * ∑ j, ∑ k, sigma x t j k * D i k j := by
  have key : ∀ i k j, pd j (fun z => sigma z t i k) x = D i k j := by
    intro i k j
    have h1 : HasFDerivAt (fun z => sigma z t i k) (fderiv ℝ (fun z => sigma z t i k) x)
        (x + (0 : ℝ) • (Pi.single j 1 : Vec d)) := by
      simpa using (hdiff i k).hasFDerivAt
    have h2 : HasDerivAt (fun s : ℝ => x + s • (Pi.single j 1 : Vec d)) (Pi.single j 1) 0 := by
      have := ((hasDerivAt_id (0 : ℝ)).smul_const (Pi.single j 1 : Vec d)).const_add x
      simpa using this
    have h3 := h1.comp_hasDerivAt (0 : ℝ) h2
    exact h3.unique (hD i k j)
  constructor
  · simp only [toIto, driftCorrection, key, Pi.add_apply, Pi.smul_apply, smul_eq_mul]
    norm_num
  · simp only [toStratonovich, driftCorrection, key, Pi.sub_apply, Pi.smul_apply, smul_eq_mul]
    norm_num

/-- C09, example: for `sigma(x) = x` (geometric Brownian motion) the corrected drift is `drift + x/2`. -/
example (drift : Field 1) (x : Vec 1) (t : ℝ) :
    (toIto drift (fun x _ => fun _ _ => x 0 : Diffusion 1 1)).1 x t 0 = drift x t 0 + x 0 / 2 := by
  have h := (C09_correction_formula drift (fun x _ => fun _ _ => x 0 : Diffusion 1 1) x t
    (fun _ _ => by fun_prop) (fun _ _ _ => 1) (fun i k j => by
      have : HasDerivAt (fun s : ℝ => x 0 + s * 1) 1 0 := by
        simpa using ((hasDerivAt_id (0 : ℝ)).mul_const 1).const_add (x 0)
      have hj : j = 0 := Subsingleton.elim _ _
      subst hj
      simpa using this) 0).1
  rw [h]; simp; ring

/-- C10: for a diffusion that does not depend on the state, neither conversion changes the drift. -/
theorem C10_additive_noise {d m : ℕ} (drift : Field d) (S : ℝ → Mat d m) :
    (toIto drift (fun _ t => S t)).1 = drift ∧ (toStratonovich drift (fun _ t => S t)).1 = drift := by
  have h : ∀ t (x : Vec d), driftCorrection (fun _ t => S t) t x = 0 := by
    intro t x
    funext i
    simp [driftCorrection, pd]
  constructor <;>
  · funext x t
    simp [toIto, toStratonovich, h]

end Verif
