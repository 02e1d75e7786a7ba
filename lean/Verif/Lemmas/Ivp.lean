import Verif.Model.Ivp
import Verif.Lemmas.Lyapunov
import Verif.Spec.Taylor15
import Mathlib.Analysis.Calculus.ContDiff.Basic
import Mathlib.Analysis.Calculus.ContDiff.Operations
import Mathlib.Analysis.Calculus.FDeriv.Pi
import Mathlib.Analysis.Calculus.Deriv.Pi

/-! Helper lemmas about the reference problems. -/

namespace Verif

open Matrix Spec

variable {d m : ℕ}

theorem hasDerivAt_line (x v : Vec d) (s : ℝ) : HasDerivAt (fun s : ℝ => x + s • v) v s := by
  simpa using ((hasDerivAt_id s).smul_const v).const_add x

theorem hasDerivAt_of_quadratic {f : ℝ → ℝ} (a b c : ℝ) (h : ∀ s, f s = a + b * s + c * s ^ 2) : HasDerivAt f b 0 := by
  rw [show f = fun s => a + b * s + c * s ^ 2 from funext h]
  have := (((hasDerivAt_id (0 : ℝ)).const_mul b).const_add a).add ((hasDerivAt_pow 2 (0 : ℝ)).const_mul c)
  refine HasDerivAt.congr_deriv (f := fun s : ℝ => a + b * s + c * s ^ 2) this ?_
  norm_num

theorem hasDerivAt_of_cubic {f : ℝ → ℝ} (a b c e : ℝ) (h : ∀ s, f s = a + b * s + c * s ^ 2 + e * s ^ 3) :
    HasDerivAt f b 0 := by
  rw [show f = fun s => (a + b * s + c * s ^ 2) + e * s ^ 3 from funext h]
  have h1 := hasDerivAt_of_quadratic (f := fun s => a + b * s + c * s ^ 2) a b c fun _ => rfl
  refine HasDerivAt.congr_deriv (f := fun s : ℝ => (a + b * s + c * s ^ 2) + e * s ^ 3)
    (h1.add ((hasDerivAt_pow 3 (0 : ℝ)).const_mul e)) ?_
  norm_num

theorem deriv_line {b : Vec d → Vec d} (hb : Differentiable ℝ b) (x v : Vec d) :
    deriv (fun s : ℝ => b (x + s • v)) = fun s => fderiv ℝ b (x + s • v) v :=
  funext fun s => ((hb _).hasFDerivAt.comp_hasDerivAt s (hasDerivAt_line x v s)).deriv

theorem fderiv_of_line {b : Vec d → Vec d} (hb : Differentiable ℝ b) {x v w : Vec d}
    (h : ∀ i, HasDerivAt (fun s : ℝ => b (x + s • v) i) (w i) 0) : fderiv ℝ b x v = w := by
  have h1 := congrFun (deriv_line hb x v) 0
  simp only [zero_smul, add_zero] at h1
  rw [← h1]
  exact (hasDerivAt_pi.mpr h).deriv

theorem iteratedFDeriv_line {b : Vec d → Vec d} (hb : ContDiff ℝ 2 b) (x v : Vec d) :
    iteratedFDeriv ℝ 2 b x ![v, v] = deriv (deriv fun s : ℝ => b (x + s • v)) 0 := by
  have hD : Differentiable ℝ (fderiv ℝ b) := (hb.fderiv_right (m := 1) (by norm_num)).differentiable (by norm_num)
  have h3 : HasDerivAt (fun s : ℝ => fderiv ℝ b (x + s • v)) (fderiv ℝ (fderiv ℝ b) (x + (0 : ℝ) • v) v) 0 :=
    (hD _).hasFDerivAt.comp_hasDerivAt 0 (hasDerivAt_line x v 0)
  have h4 := h3.clm_apply (hasDerivAt_const (0 : ℝ) v)
  rw [zero_smul, add_zero, map_zero, add_zero] at h4
  rw [deriv_line (hb.differentiable (by norm_num)), h4.deriv, iteratedFDeriv_two_apply]
  rfl

/-- With noise that only acts along directions in which the drift is affine, the generator only has its first-order term. -/
theorem driftGenerator_of_affine {b : Vec d → Vec d} (hb : ContDiff ℝ 2 b) {σ : Mat d m} {x : Vec d}
    (hdiag : ∀ j k, j ≠ k → ∑ l, σ j l * σ k l = 0)
    (haff : ∀ j, (∑ l, σ j l * σ j l = 0) ∨ ∃ w : Vec d, ∀ s : ℝ, b (x + s • Pi.single j 1) = b x + s • w) :
    driftGenerator b σ x = fderiv ℝ b x (b x) := by
  have : ∀ j k, (∑ l, σ j l * σ k l) • iteratedFDeriv ℝ 2 b x ![Pi.single j 1, Pi.single k 1] = 0 := by
    intro j k
    by_cases hjk : j = k
    · subst hjk
      rcases haff j with h | ⟨w, hw⟩
      · rw [h, zero_smul]
      · rw [iteratedFDeriv_line hb]
        have h1 : deriv (fun s : ℝ => b (x + s • Pi.single j 1)) = fun _ => w := by
          funext s
          have : (fun s : ℝ => b (x + s • Pi.single j 1)) = fun s => b x + s • w := funext hw
          rw [this]
          exact (hasDerivAt_line (b x) w s).deriv
        rw [h1]
        simp
    · rw [hdiag j k hjk, zero_smul]
  simp [driftGenerator, this]

end Verif
