import Verif.LinAlg

/-!
# Model of `ode_solvers/probnum/calibration.py`
-/

namespace Verif

open Matrix

/-- `mle_diffusion(zs, Ss)`, `calibration.py:6-22`. `zs` has shape `(N, dim)`, `Ss` has shape `(N, dim, dim)`. -/
noncomputable def mleDiffusion (la : LinAlg) {N dim : ℕ} (zs : Fin N → Vec dim)
    (Ss : Fin N → Mat dim dim) : ℝ :=
  (∑ i, zs i ⬝ᵥ la.solve (Ss i) (zs i)) / ((N : ℝ) * (dim : ℝ))

end Verif
