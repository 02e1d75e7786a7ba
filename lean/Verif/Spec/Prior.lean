import Verif.Basic
import Mathlib.Analysis.Normed.Algebra.MatrixExponential
import Mathlib.MeasureTheory.Integral.IntervalIntegral.Basic
import Mathlib.Algebra.Polynomial.Coeff

/-! Specification: the transition of a linear stochastic differential equation `dX = F X dt + L dW`. -/

namespace Verif.Spec

open Matrix

/-- The covariance of the transition over a time `h`: `∫_0^h exp(s F) L Lᵀ exp(s F)ᵀ ds`. -/
noncomputable def transitionCov {n l : ℕ} (F : Mat n n) (L : Mat n l) (h : ℝ) : Mat n n := fun i j =>
  ∫ s in (0 : ℝ)..h, (NormedSpace.exp (s • F) * L * (NormedSpace.exp (s • F) * L)ᵀ) i j

/-- Drift of the `q` times integrated Ornstein-Uhlenbeck process: `X_i' = X_{i+1}`, `dX_q = -θ X_q dt + ...`. -/
def ioupDrift (θ : ℝ) (q : ℕ) : Mat (q + 1) (q + 1) := fun i j =>
  if i = Fin.last q then (if j = Fin.last q then -θ else 0) else (if j.1 = i.1 + 1 then 1 else 0)

/-- Noise enters the last component with scale `σ`. -/
def lastNoise (σ : ℝ) (q : ℕ) : Mat (q + 1) 1 := fun i _ => if i = Fin.last q then σ else 0

/-- Drift of the Matérn process with smoothness `k + 1/2` and inverse length `l`: the companion matrix of `(X + l)^(k+1)`. -/
noncomputable def maternDrift (k : ℕ) (l : ℝ) : Mat (k + 1) (k + 1) := fun i j =>
  if i = Fin.last k then -((Polynomial.X + Polynomial.C l) ^ (k + 1)).coeff j else (if j.1 = i.1 + 1 then 1 else 0)

/-- Block diagonal matrix with `d` equal blocks, on flat indices: entry `(i n + s, j n + t)` is `B s t` for `i = j`
and zero otherwise. -/
def IsBlockDiag {d n : ℕ} (M : Mat (d * n) (d * n)) (B : Mat n n) : Prop :=
  ∀ (p q : Fin (d * n)), M p q = if p.1 / n = q.1 / n then B p.modNat q.modNat else 0

end Verif.Spec
