import Verif.Model.Prior
import Verif.Model.ScriptsPathwise

/-!
# Model of `scripts/EKF0_Mat_vs_IBM_FHN`

The priors of `comparison_2_RAM_setup_in_the_response_to_the_reviewer.py` and `comparison_2_RAM.py`. Their low-memory solvers (lines 43-91 and
42-90) are that of `pathwise_convergence_experiment_2_RAM.py`, modelled by `Scripts.ramSolver`. Parameters that the script fixes (`theta`, `sigma`, `magnitude`
and the lengths) are arguments here.
-/

namespace Verif.Scripts

/-- `prior_IBM`, lines 95-97 and 102: a twice integrated prior for the first coordinate, a once integrated one, padded, for the second. The
script takes `theta = sigma = 1`. -/
noncomputable def reviewPriorIoup (theta sigma dt : ℝ) : Except PyErr ((s : ℕ) × Prior s) := do
  let prior2 := IOUP.transition theta sigma 2 dt 1
  let prior1 := IOUP.transition theta sigma 1 dt 1
  let prior1 ← padPrior prior1 2
  factorizedPrior [⟨_, prior2⟩, ⟨_, prior1⟩]

/-- `prior_mat`, lines 98-100 and 103. The script takes magnitude 1 and lengths `sqrt(5) / 3` and `sqrt(3) / 2`. -/
noncomputable def reviewPriorMatern (magnitude length2 length1 dt : ℝ) : Except PyErr ((s : ℕ) × Prior s) := do
  let prior2 := Matern.transition 2 magnitude length2 dt 1
  let prior1 := Matern.transition 1 magnitude length1 dt 1 true
  let prior1 ← padPrior prior1 2
  factorizedPrior [⟨_, prior2⟩, ⟨_, prior1⟩]

/-- `prior_ioup` of `comparison_2_RAM.py`, line 94: twice integrated (`order = 2`, line 16) in every coordinate. The script takes `theta = 0` and
`sigma = 1`. -/
noncomputable def comparePriorIoup (theta sigma dt : ℝ) (dim : ℕ) : (s : ℕ) × Prior s := ⟨_, IOUP.transition theta sigma 2 dt dim⟩

/-- `prior_mat` of `comparison_2_RAM.py`, line 95. The script takes magnitude 1 and length 1. -/
noncomputable def comparePriorMatern (magnitude length dt : ℝ) (dim : ℕ) : (s : ℕ) × Prior s := ⟨_, Matern.transition 2 magnitude length dt dim⟩

end Verif.Scripts
