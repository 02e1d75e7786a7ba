import Verif.Model.ItoStratonovich

/-! Specification: the random ODE an SDE is replaced with, and its exact solutions. -/

namespace Verif.Spec

open Matrix

/-- The right-hand side `b(z, t + t₀) + σ(z, t + t₀) W'(t)` on an interval that starts at `t₀`; `W` is the path in local time. -/
noncomputable def randomField {d m : ℕ} (drift : Vec d → ℝ → Vec d) (sigma : Vec d → ℝ → Mat d m) (W : ℝ → Vec m) (t₀ : ℝ) :
    Vec d → ℝ → Vec d :=
  fun z t => drift z (t + t₀) + sigma z (t + t₀) *ᵥ fun i => deriv (fun s => W s i) t

/-- `y 0, ..., y (N-1)` (in local time) are the pieces of a solution of the random ODE driven by the paths `W 0, W 1, ...` on the
intervals of length `δ`, each piece starting where the previous one ended. -/
structure SolvesPieces {d m : ℕ} (drift : Vec d → ℝ → Vec d) (sigma : Vec d → ℝ → Mat d m) (W : ℕ → ℝ → Vec m) (δ : ℝ) (N : ℕ)
    (y : ℕ → ℝ → Vec d) : Prop where
  joined : ∀ k < N, y (k + 1) 0 = y k δ
  solves : ∀ k < N, ∀ t ∈ Set.Icc 0 δ,
    HasDerivWithinAt (y k) (randomField drift sigma (W k) (k * δ) (y k t) t) (Set.Icc 0 δ) t

/-- The field is `L`-Lipschitz in the state on every interval, and the second and third derivatives of the pieces are
bounded by `M2` and `M3`. -/
structure SmoothPieces {d m : ℕ} (drift : Vec d → ℝ → Vec d) (sigma : Vec d → ℝ → Mat d m) (W : ℕ → ℝ → Vec m) (δ : ℝ) (N : ℕ)
    (y y2 y3 : ℕ → ℝ → Vec d) (L M2 M3 : ℝ) : Prop where
  lip : ∀ k < N, ∀ x x' t,
    ‖randomField drift sigma (W k) (k * δ) x t - randomField drift sigma (W k) (k * δ) x' t‖ ≤ L * ‖x - x'‖
  deriv2 : ∀ k < N, ∀ t ∈ Set.Icc 0 δ,
    HasDerivWithinAt (fun s => randomField drift sigma (W k) (k * δ) (y k s) s) (y2 k t) (Set.Icc 0 δ) t
  deriv3 : ∀ k < N, ∀ t ∈ Set.Icc 0 δ, HasDerivWithinAt (y2 k) (y3 k t) (Set.Icc 0 δ) t
  bound2 : ∀ k < N, ∀ t ∈ Set.Icc 0 δ, ‖y2 k t‖ ≤ M2
  bound3 : ∀ k < N, ∀ t ∈ Set.Icc 0 δ, ‖y3 k t‖ ≤ M3

/-- `int` integrates over `[0, T]` exactly: for a field that is Lipschitz in the state, uniformly over `[0, T]`, it maps the
initial value of a solution to its value at `T`. -/
def ExactIntegrator {d : ℕ} (T : ℝ) (int : Vec d → (Vec d → ℝ → Vec d) → Vec d) : Prop :=
  ∀ (vf : Vec d → ℝ → Vec d) (L : ℝ), (∀ x x', ∀ t ∈ Set.Icc 0 T, ‖vf x t - vf x' t‖ ≤ L * ‖x - x'‖) →
    ∀ y : ℝ → Vec d, (∀ t ∈ Set.Icc 0 T, HasDerivWithinAt y (vf (y t) t) (Set.Icc 0 T) t) → int (y 0) vf = y T

end Verif.Spec
