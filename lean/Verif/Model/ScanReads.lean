import Verif.Spec.PySlice

/-!
# Which entries the scans over time read

The arrays with a time axis are replaced by the lists of their positions, `0, ..., T - 1` for an array of length `T`, and the slices are those of
python. `T` is any number, also one for which the arrays are too short.
-/

namespace Verif.Model
open Verif.Spec

/-- The message of `jax.lax.scan` for arrays of different lengths. -/
def scanLengths : String := "scan got values with different leading axis sizes"

/-- The message of `jax.lax.scan` for a carry that changes its shape. -/
def scanCarry : String := "scan body function carry input and carry output must have equal types"

/-- The number of iterations of a scan over arrays of the given lengths. -/
def scanLen : List ℕ → Except String ℕ
  | [] => .ok 0
  | n :: ns => if ns.all (· == n) then .ok n else .error scanLengths

/-- The message of `jnp` for arrays whose shapes cannot be broadcast. -/
def badBroadcast : String := "incompatible shapes for broadcasting"

/-- The entries read by one iteration of the scan in `csmc.forward_pass`: of `prop_params` and `Gamma_params`, `b_star[:-1]`, `b_star[1:]`,
`keys_loop`, `x_star[1:]`. -/
structure FwdRead where
  params : ℕ
  bPrev : ℕ
  bCur : ℕ
  key : ℕ
  xstar : ℕ
deriving DecidableEq

/-- The scan of `forward_pass`: `/repo/gradient_csmc/csmc.py:163-168`.  The parameters have one entry per transition. -/
def csmcFwdReads (T : ℕ) : Except String (List FwdRead) := do
  let params := List.range (T - 1)
  let bPrev := pySlice (List.range T) none (some (-1))
  let bCur := pySlice (List.range T) (some 1) none
  let keys := List.range (T - 1)
  let xstar := pySlice (List.range T) (some 1) none
  let n ← scanLen [params.length, bPrev.length, bCur.length, keys.length, xstar.length]
  pure ((List.range n).map fun k => ⟨params[k]!, bPrev[k]!, bCur[k]!, keys[k]!, xstar[k]!⟩)

/-- The entries read by one iteration of the scan in `csmc.backward_sampling_pass`: of `keys[:-1]`, `xs[-2::-1]`, `log_ws[-2::-1]`,
`Gamma_params[::-1]`. -/
structure BwdRead where
  key : ℕ
  xs : ℕ
  log_ws : ℕ
  params : ℕ
deriving DecidableEq

/-- The scan of `backward_sampling_pass`: `/repo/gradient_csmc/csmc.py:234-239`. -/
def csmcBwdReads (T : ℕ) : Except String (List BwdRead) := do
  let params := pyDown (List.range (T - 1)) (-1)
  let keys := pySlice (List.range T) none (some (-1))
  let xs := pyDown (List.range T) (-2)
  let log_ws := pyDown (List.range T) (-2)
  let n ← scanLen [keys.length, xs.length, log_ws.length, params.length]
  pure ((List.range n).map fun k => ⟨keys[k]!, xs[k]!, log_ws[k]!, params[k]!⟩)

/-- The entries of `xs[-2::-1]` and `As[::-1]` read by the iterations of the scan in `backward_scanning_pass`: `/repo/gradient_csmc/csmc.py:289`.  `As` has
one entry per transition. -/
def csmcScanReads (T : ℕ) : Except String (List (ℕ × ℕ)) := do
  let xs := pyDown (List.range T) (-2)
  let As := pyDown (List.range (T - 1)) (-1)
  let n ← scanLen [xs.length, As.length]
  pure ((List.range n).map fun k => (xs[k]!, As[k]!))

/-- The times of the states that `backward_sampling_pass` returns: `/repo/gradient_csmc/csmc.py:221, 239-245`. -/
def csmcBwdTimes (T : ℕ) : Except String (List ℕ) := do
  let r ← csmcBwdReads T
  let x_T := (pyAt (List.range T) (-1)).getD 0
  let xs := x_T :: r.map (·.xs)
  pure (pyDown xs (-1))

/-- The entries read by one iteration of the scan in the forward pass of `al_csmc_s.kernel`: `key` is the position among all keys of the kernel. -/
structure SmoothFwdRead where
  params_t_m_1 : ℕ
  params_t : ℕ
  x_t : ℕ
  bPrev : ℕ
  bCur : ℕ
  key : ℕ
deriving DecidableEq

/-- The scan of the forward pass: `/repo/gradient_csmc/al_csmc_s.py:62-63, 214-226`. -/
def smoothFwdReads (T : ℕ) : Except String (List SmoothFwdRead) := do
  let params_t_m_1 := pySlice (List.range (T - 1)) none (some (-1))
  let params_t := pySlice (List.range (T - 1)) (some 1) none
  let x_t := pySlice (List.range T) (some 2) none
  let bPrev := pySlice (List.range T) (some 1) (some (-1))
  let bCur := pySlice (List.range T) (some 2) none
  let keys_resampling := pySlice (List.range (T + 2)) (some 3) none
  let keys := pySlice keys_resampling (some 1) none
  let n ← scanLen [params_t_m_1.length, params_t.length, x_t.length, bPrev.length, bCur.length, keys.length]
  pure ((List.range n).map fun k => ⟨params_t_m_1[k]!, params_t[k]!, x_t[k]!, bPrev[k]!, bCur[k]!, keys[k]!⟩)

/-- The entries read by one iteration of the scan in `al_csmc_s.backward_sampling_pass`. -/
structure SmoothRead where
  key : ℕ
  xs_m_1 : ℕ
  xs : ℕ
  log_ws : ℕ
  params_t : ℕ
  params_t_p_1 : ℕ
  params_t_p_2 : ℕ
deriving DecidableEq

/-- The scan of `backward_sampling_pass`: `/repo/gradient_csmc/al_csmc_s.py:320-328`, also `/repo/gradient_csmc/atp_csmc_s.py:377-385`.  `xs_m_1` and the
parameters have `T - 1` entries: `/repo/gradient_csmc/al_csmc_s.py:216, 232`. -/
def smoothBwdReads (T : ℕ) : Except String (List SmoothRead) := do
  let keys := pySlice (List.range T) (some 1) (some (-2))
  let xs_m_1 := pySlice (List.range (T - 1)) none (some (-2))
  let xs := pySlice (List.range T) (some 1) (some (-2))
  let log_ws := pySlice (List.range T) (some 1) (some (-2))
  let params_t := pySlice (List.range (T - 1)) none (some (-2))
  let params_t_p_1 := pySlice (List.range (T - 1)) (some 1) (some (-1))
  let params_t_p_2 := pySlice (List.range (T - 1)) (some 2) none
  let n ← scanLen [keys.length, xs_m_1.length, xs.length, log_ws.length, params_t.length, params_t_p_1.length, params_t_p_2.length]
  pure ((List.range n).map fun k => ⟨keys[k]!, xs_m_1[k]!, xs[k]!, log_ws[k]!, params_t[k]!, params_t_p_1[k]!, params_t_p_2[k]!⟩)

/-- The times of the states that `backward_sampling_pass` returns: `/repo/gradient_csmc/al_csmc_s.py:294, 307, 328-349`, also
`/repo/gradient_csmc/atp_csmc_s.py:351, 364, 385-406`. -/
def smoothBwdTimes (T : ℕ) : Except String (List ℕ) := do
  let r ← smoothBwdReads T
  let x_T := (pyAt (List.range T) (-1)).getD 0
  let x_T_m_1 := (pyAt (List.range T) (-2)).getD 0
  let xs_out := r.map (·.xs)
  let xs_out := xs_out ++ [x_T_m_1]
  let xs_out := xs_out ++ [x_T]
  pure (0 :: xs_out)

/-- `sampling_routine`, as far as the length of the trajectory is concerned: `/repo/gradient_csmc/utils/mcmc_utils.py:77-89`.  The carry of the scan has
length `T`; `times` is what the kernel returns. First `next_bs != bs` is computed, then the scan compares the carries. -/
def routineShape (T : ℕ) (times : Except String (List ℕ)) : Except String Unit := do
  let next_bs ← times
  if next_bs.length ≠ T ∧ next_bs.length ≠ 1 ∧ T ≠ 1 then .error badBroadcast
  else if next_bs.length ≠ T then .error scanCarry
  else pure ()

end Verif.Model
