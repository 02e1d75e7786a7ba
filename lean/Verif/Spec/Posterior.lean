import Verif.Basic

/-!
# Specification of draws from the posteriors at several time points
-/

namespace Verif.Spec

/-- Covariance of independent vectors with covariances `V i`. -/
def independentBlocks {n dim : ℕ} (V : Fin n → Mat dim dim) : Matrix (Fin n × Fin dim) (Fin n × Fin dim) ℝ :=
  fun p q => if p.1 = q.1 then V p.1 p.2 q.2 else 0

end Verif.Spec
