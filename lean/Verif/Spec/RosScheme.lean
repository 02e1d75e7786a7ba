import Verif.Spec.Ekf
import Verif.Jnp

/-!
# The linearly implicit scheme of EKF1 with several steps

One step is `rosStep`; later steps start from an uncertain state, which enters through the matrix `C`, the covariance of the solution in
units of `σ² h³`, and through the last Jacobian `J`.
-/

namespace Verif.Spec

open Matrix

/-- The state of the scheme: solution, slope, last Jacobian and covariance. -/
structure RosState (dim : ℕ) where
  x : Vec dim
  v : Vec dim
  J : Mat dim dim
  C : Mat dim dim

variable {dim : ℕ}

/-- The change of the linearised residual along the uncertain direction: `J - J' (1 + h J)`. -/
def rosD (h : ℝ) (J J' : Mat dim dim) : Mat dim dim := J - J' * (1 + h • J)

/-- The covariance of the residual, in units of `σ² h`. -/
noncomputable def rosInn (h : ℝ) (J C J' : Mat dim dim) : Mat dim dim := rosW h J'ᵀ + h ^ 2 • (rosD h J J' * C * (rosD h J J')ᵀ)

/-- The gain for the solution. -/
noncomputable def rosGain (h : ℝ) (J C J' : Mat dim dim) : Mat dim dim :=
  ((h / 2) • (1 : Mat dim dim) - (h ^ 2 / 3) • J'ᵀ + h ^ 2 • ((1 + h • J) * C * (rosD h J J')ᵀ)) * (rosInn h J C J')⁻¹

/-- The covariance of the solution after a step. -/
noncomputable def rosCov (h : ℝ) (J C J' : Mat dim dim) : Mat dim dim :=
  (1 + h • J) * C * (1 + h • J)ᵀ + (1 / 3 : ℝ) • (1 : Mat dim dim) -
    (h ^ 2)⁻¹ • (rosGain h J C J' * rosInn h J C J' * (rosGain h J C J')ᵀ)

/-- The scheme, from the state `s0`: prediction `z = x + h v`, Jacobian `J'` of the field at the prediction, correction
`e = G (f(z) - v)`, new solution `z + e` and new slope `f(z) + J' e`. -/
noncomputable def rosScheme (f : Vec dim → ℝ → Vec dim) (h : ℝ) (s0 : RosState dim) : ℕ → RosState dim
  | 0 => s0
  | k + 1 =>
    let s := rosScheme f h s0 k
    let t := (k + 1) * h
    let z := s.x + h • s.v
    let J' := Jnp.jac (fun x => f x t) z
    let e := rosGain h s.J s.C J' *ᵥ (f z t - s.v)
    ⟨z + e, f z t + J' *ᵥ e, J', rosCov h s.J s.C J'⟩

end Verif.Spec
