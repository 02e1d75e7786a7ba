import Verif.Jnp

/-! The step of EKF0 when the coordinates of the prior are independent but may have different transitions. -/

namespace Verif.Spec

open Matrix

/-- One step of a filter that observes the slope without noise and whose coordinates are independent processes with three states: the
states of coordinate `i` (value, slope, second derivative) are propagated by `A i`, and the residual of the slope is fed back to the value
with the weight `g i`. The second derivative starts from the Jacobian of the field times the field. -/
noncomputable def blockStep {d : ℕ} (A : Fin d → Mat 3 3) (g : Fin d → ℝ) (f : Vec d → ℝ → Vec d) (h : ℝ) (x : Vec d) : Vec d :=
  let v := f x 0
  let w := Jnp.jac (fun z => f z 0) x *ᵥ v
  let pred : Vec d := fun i => A i 0 0 * x i + A i 0 1 * v i + A i 0 2 * w i
  fun i => pred i + g i * (f pred h i - (A i 1 0 * x i + A i 1 1 * v i + A i 1 2 * w i))

/-- A matrix over the states of all coordinates consists of one block per coordinate. -/
def HasBlocks {d n : ℕ} (M : Mat (d * n) (d * n)) (B : Fin d → Mat n n) : Prop :=
  ∀ i s j t, M (Jnp.flat i s) (Jnp.flat j t) = if i = j then B i s t else 0

end Verif.Spec
