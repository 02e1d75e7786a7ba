import Verif.Spec.Kalman
import Verif.Spec.Gaussian
import Mathlib.Probability.Independence.Basic

/-!
# Specification: linear Gaussian state-space models and their exact posterior
-/

namespace Verif.Spec

open Matrix MeasureTheory ProbabilityTheory

/-- `X` is a Gauss-Markov chain and `Y` are its noisy linear observations: `X 0 ~ N(m, P)`, `X (k+1) = A X k + xi + ε k`
with `ε k ~ N(0, Q)`, and `Y k = H k X (k+1) + c k + V k` with `V k ~ N(0, R)`, the noises of step `k` being independent of
each other and of the states and observations so far. -/
structure LinearModel {Ω : Type*} [MeasurableSpace Ω] (μ : Measure Ω) {nx ny : ℕ} (X : ℕ → Ω → Vec nx) (Y : ℕ → Ω → Vec ny)
    (m : Vec nx) (P A Q : Mat nx nx) (xi : Vec nx) (H : ℕ → Mat ny nx) (c : ℕ → Vec ny) (R : Mat ny ny)
    (ε : ℕ → Ω → Vec nx) (V : ℕ → Ω → Vec ny) : Prop where
  init : IsNormal μ (X 0) m P
  stateNoise : ∀ k, IsNormal μ (ε k) 0 Q
  obsNoise : ∀ k, IsNormal μ (V k) 0 R
  trans : ∀ k ω, X (k + 1) ω = A *ᵥ X k ω + xi + ε k ω
  obs : ∀ k ω, Y k ω = H k *ᵥ X (k + 1) ω + c k + V k ω
  indep_noises : ∀ k, IndepFun (ε k) (V k) μ
  indep_past : ∀ k, IndepFun (fun ω => (X k ω, fun j : Fin k => Y j ω)) (fun ω => (ε k ω, V k ω)) μ

/-- A Gauss-Markov chain: `X 0 ~ N(m, P)` and `X (k+1) = A X k + xi + ε k` with `ε k ~ N(0, Q)` independent of the states so far. -/
structure GaussMarkov {Ω : Type*} [MeasurableSpace Ω] (μ : Measure Ω) {nx : ℕ} (X : ℕ → Ω → Vec nx) (m : Vec nx)
    (P A Q : Mat nx nx) (xi : Vec nx) (ε : ℕ → Ω → Vec nx) : Prop where
  init : IsNormal μ (X 0) m P
  noise : ∀ k, IsNormal μ (ε k) 0 Q
  trans : ∀ k ω, X (k + 1) ω = A *ᵥ X k ω + xi + ε k ω
  indep : ∀ k, IndepFun (fun ω (j : Fin (k + 1)) => X j ω) (ε k) μ

/-- The prior of Algorithm 3 over consecutive intervals of `N` steps: `Y k` is the solution at the start of interval `k` and `X k j` the
state (value and derivative of every coordinate) after `j` steps in it. The solution is continuous across intervals and the derivative
starts from the vector field of the interval; within an interval the states are a Gauss-Markov chain. All noises are independent. -/
structure PiecewisePrior {Ω : Type*} [MeasurableSpace Ω] (μ : Measure Ω) {dim : ℕ} (A Q : Mat (dim * (0 + 2)) (dim * (0 + 2)))
    (xi : Vec (dim * (0 + 2))) (vf : ℕ → Vec dim → ℝ → Vec dim) (N : ℕ) (m : Vec dim) (P : Mat dim dim) (Y : ℕ → Ω → Vec dim)
    (X ε : ℕ → ℕ → Ω → Vec (dim * (0 + 2))) : Prop where
  init : IsNormal μ (Y 0) m P
  noise : ∀ k j, IsNormal μ (ε k j) 0 Q
  start : ∀ k ω, Jnp.stride 0 (X k 0 ω) = Y k ω ∧ Jnp.stride 1 (X k 0 ω) = vf k (Y k ω) 0
  trans : ∀ k j ω, X k (j + 1) ω = A *ᵥ X k j ω + xi + ε k j ω
  next : ∀ k ω, Y (k + 1) ω = Jnp.stride 0 (X k N ω)
  indep : ∀ k j, IndepFun (fun ω => ((Y 0 ω, fun (i : Fin k) (l : Fin N) => ε i l ω), fun l : Fin j => ε k l ω)) (ε k j) μ

end Verif.Spec
