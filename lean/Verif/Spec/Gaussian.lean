import Mathlib.Probability.Distributions.Gaussian.Multivariate
import Verif.Rng

/-! Specification: normal random vectors, and what is expected of an ideal random generator. -/

namespace Verif.Spec

open MeasureTheory ProbabilityTheory WithLp

variable {Ω : Type*} [MeasurableSpace Ω]

/-- The random vector `X` has the multivariate normal law `N(m, C)` (possibly degenerate). -/
structure IsNormal {ι : Type*} [Fintype ι] [DecidableEq ι] (P : Measure Ω) (X : Ω → ι → ℝ) (m : ι → ℝ)
    (C : Matrix ι ι ℝ) : Prop where
  posSemidef : C.PosSemidef
  hasLaw : HasLaw (fun ω => toLp 2 (X ω)) (multivariateGaussian (toLp 2 m) C) P

/-- An ideal generator: every requested number is standard normal, and the numbers of one draw, together with the numbers of
any other draws from keys that descend from different children of some split, are independent. Nothing is
said about two draws from the same key, or about a draw from a key that is also split. -/
structure IdealNormals (P : Measure Ω) (R : Ω → Rng) : Prop where
  law : ∀ (k : Key) (sh : List ℕ) (i : ℕ), i < sh.prod →
    HasLaw (fun ω => (R ω).normal k sh i) (gaussianReal 0 1) P
  indep : ∀ {ι : Type} (K : ι → Key) (sh : ι → List ℕ), Pairwise (fun a b => (K a).Diverge (K b)) →
    iIndepFun (fun (p : Σ a, Fin (sh a).prod) ω => (R ω).normal (K p.1) (sh p.1) p.2) P

end Verif.Spec
