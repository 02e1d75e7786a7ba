import Verif.Jnp

/-!
# Model of `bayesian_sde_solver/ito_stratonovich.py`
-/

namespace Verif

/-- A time dependent vector field `(x, t) ↦ ...`. -/
abbrev Field (d : ℕ) := Vec d → ℝ → Vec d

/-- A diffusion `(x, t) ↦ d × m matrix`. -/
abbrev Diffusion (d m : ℕ) := Vec d → ℝ → Mat d m

/-- `drift_correction(diffusion, t, x)`, `ito_stratonovich.py:8-15`:
`einsum("jk,ikj->i", diff_val, jac_val)` with `jac_val[i,k,j] = ∂ sigma_ik / ∂ x_j`. -/
noncomputable def driftCorrection {d m : ℕ} (diffusion : Diffusion d m) (t : ℝ) (x : Vec d) : Vec d :=
  let diffVal := diffusion x t
  let jacVal (i : Fin d) (k : Fin m) (j : Fin d) : ℝ := Jnp.pd j (fun z => diffusion z t i k) x
  fun i => ∑ j, ∑ k, diffVal j k * jacVal i k j

/-- `to_stratonovich(drift, diffusion)`, `ito_stratonovich.py:18-22`. -/
noncomputable def toStratonovich {d m : ℕ} (drift : Field d) (diffusion : Diffusion d m) :
    Field d × Diffusion d m :=
  (fun x t => drift x t - (0.5 : ℝ) • driftCorrection diffusion t x, diffusion)

/-- `to_ito(drift, diffusion)`, `ito_stratonovich.py:25-29`. -/
noncomputable def toIto {d m : ℕ} (drift : Field d) (diffusion : Diffusion d m) :
    Field d × Diffusion d m :=
  (fun x t => drift x t + (0.5 : ℝ) • driftCorrection diffusion t x, diffusion)

end Verif
