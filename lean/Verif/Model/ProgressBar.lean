import Verif.Basic

/-!
# Model of `bayesian_sde_solver/utils/progress_bar.py`

Host callbacks are a log of events in program order (DESIGN.md, decision 7). The message and the tqdm
object itself are not modelled.
-/

namespace Verif.ProgressBar

/-- The calls made on the tqdm bar: `_define_tqdm` (19-21), `_update_tqdm(arg)` (23-24), `_close_tqdm` (49-50). -/
inductive Event
  | define
  | update (n : ℕ)
  | close
  deriving DecidableEq, Repr

/-- `print_rate`, `progress_bar.py:13-16`. `int(num_samples / 1_000)` is the floor. -/
def printRate (numSamples : ℕ) : ℕ := if 1000 < numSamples then numSamples / 1000 else 1

/-- `remainder`, `progress_bar.py:17`. -/
def remainder (numSamples : ℕ) : ℕ := numSamples % printRate numSamples

/-- `_update_progress_bar(iter_num)`, `progress_bar.py:26-47`: the three `lax.cond`s.
The comparison with `num_samples - remainder` is over integers in Python; `remainder ≤ num_samples`, so
natural subtraction agrees. -/
def updateProgressBar (numSamples iter : ℕ) : List Event :=
  (if iter = 0 then [.define] else []) ++
  (if iter % printRate numSamples = 0 ∧ iter ≠ numSamples - remainder numSamples
    then [.update (printRate numSamples)] else []) ++
  (if iter = numSamples - remainder numSamples then [.update (remainder numSamples)] else [])

/-- `close_tqdm(result, iter_num)`, `progress_bar.py:52-58`: emits the close event after the body result is
available; the result is passed through by `id_tap`. -/
def closeTqdm {R : Type*} (numSamples : ℕ) (result : R) (iter : ℕ) : R × List Event :=
  if iter + 1 = numSamples then (result, [.close]) else (result, [])

/-- `wrapper_progress_bar(carry, x)`, `progress_bar.py:67-74`, for inputs that are tuples whose first element is
the iteration number (lines 68-69). Returns the value and the emitted events. -/
def wrap {S I R : Type*} (numSamples : ℕ) (func : S → ℕ × I → R) (carry : S) (x : ℕ × I) :
    R × List Event :=
  let iter := x.1
  let ev := updateProgressBar numSamples iter
  let result := func carry x
  let (result', ev') := closeTqdm numSamples result iter
  (result', ev ++ ev')

end Verif.ProgressBar
