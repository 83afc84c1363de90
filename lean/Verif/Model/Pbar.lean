import Verif.Core.Arr

/-!
# `gradient_csmc/utils/pbar.py`: progress bar of a scan

Host callbacks are recorded, in order, in a log that is carried along the scan (the python callbacks act on a
`tqdm` object outside of the traced computation; `lax.cond` executes the callback of the selected branch only).
-/

namespace Verif.Model
open Verif

/-- Host callbacks.  `update k s` advances the bar by `k` and displays the shown part `s` of the carry. -/
inductive PbarEvent (V : Type)
  | define
  | update (k : ℕ) (shown : Option V)
  | close

variable {m : Type → Type} [Monad m] {C I O V : Type}

/-- `print_rate`: `/repo/gradient_csmc/utils/pbar.py:15-18` (`int(n / 1_000)` is `n / 1000` on naturals). -/
def printRate (num_samples : ℕ) : ℕ := if num_samples > 1000 then num_samples / 1000 else 1

/-- `remainder`: `/repo/gradient_csmc/utils/pbar.py:19`. -/
def pbarRemainder (num_samples : ℕ) : ℕ := num_samples % printRate num_samples

/-- Callbacks of `_update_progress_bar`: `/repo/gradient_csmc/utils/pbar.py:30-53`.
`num_samples - remainder` is never negative. -/
def pbarUpdate (num_samples iter_num : ℕ) (carry_show : Option V) : List (PbarEvent V) :=
  (if iter_num = 0 then [.define] else []) ++
  (if iter_num % printRate num_samples = 0 ∧ iter_num ≠ num_samples - pbarRemainder num_samples then
    [.update (printRate num_samples) carry_show] else []) ++
  (if iter_num = num_samples - pbarRemainder num_samples then
    [.update (pbarRemainder num_samples) carry_show] else [])

/-- Callbacks of `close_tqdm`: `/repo/gradient_csmc/utils/pbar.py:58-64`
(`iter_num == num_samples - 1`, an integer comparison). -/
def pbarClose (num_samples iter_num : ℕ) : List (PbarEvent V) :=
  if iter_num + 1 = num_samples then [.close] else []

/-- `wrapper_progress_bar` around the body of a scan over tuples whose first entry is the iteration number:
`/repo/gradient_csmc/utils/pbar.py:66-86`; `show` is the projection `carry[show]`, if any. -/
def progress_bar_scan (num_samples : ℕ) (shown : Option (C → V)) (func : C → ℕ × I → m (C × O))
    (carry : C × List (PbarEvent V)) (x : ℕ × I) : m ((C × List (PbarEvent V)) × O) := do
  let iter_num := x.1
  let carry_show := shown.map (fun s => s carry.1)
  let log := carry.2 ++ pbarUpdate num_samples iter_num carry_show
  let result ← func carry.1 x
  pure ((result.1, log ++ pbarClose num_samples iter_num), result.2)

end Verif.Model
