import Verif.Model.ExpGrid
import Verif.Model.ExpRuns
import Verif.Model.ResultsAnalysis

/-!
# Job arrays: `distribute.py`, `distributed_experiment.sh` and the files of the experiment of the linear model

Simplifications: the decimal numbers passed on the command line are exact; `log_var` is counted in tenths.
-/

namespace Verif.Model

/-- `combination[i]`, where a negative index counts from the end (`none`: `IndexError`).
`/repo/experiments/lgssm_scaling/distribute.py:83`, `/repo/experiments/stochastic_volatility/distribute.py:50`. -/
def pyGet {α : Type} (l : List α) (i : ℤ) : Option α :=
  if 0 ≤ i then l[i.toNat]? else if -(l.length : ℤ) ≤ i then l[(l.length + i).toNat]? else none

namespace Lg

/-- `LOG_SIGMAS`, in tenths: `/repo/experiments/lgssm_scaling/distribute.py:24`. -/
def LOG_SIGMAS : List ℤ := (List.range 91).map fun i : ℕ => (i : ℤ) - 60

/-- A job: `log_var` in tenths, `T`, `d` and an entry of the grid. -/
abbrev Config := ℤ × ℕ × ℕ × KernelType × String × (ℕ × ℕ) × String

/-- `combination_3`, the one in use: `/repo/experiments/lgssm_scaling/distribute.py:14-15, 77-79`. -/
def combination : List Config := LOG_SIGMAS ×ˢ ([10] ×ˢ ([10] ×ˢ grid))

/-- The configuration of the job with a given number: `/repo/experiments/lgssm_scaling/distribute.py:83`. -/
def job (i : ℤ) : Option Config := pyGet combination i

/-- The default of `--i`: `/repo/experiments/lgssm_scaling/distribute.py:11`. -/
def defaultJob : ℤ := -1

/-- `#SBATCH -a 0-1819`: `/repo/experiments/lgssm_scaling/distributed_experiment.sh:2, 13`. -/
def jobArray : List ℤ := (List.range 1820).map fun i : ℕ => (i : ℤ)

/-- The number of time steps passed with `--T`: `/repo/experiments/lgssm_scaling/distribute.py:85-87`. -/
def Config.T (c : Config) : ℕ := c.2.1

/-- The options of the script: those of `exec_str`, `/repo/experiments/lgssm_scaling/distribute.py:85-87`, and the defaults,
`/repo/experiments/lgssm_scaling/experiment.py:24-56`. -/
noncomputable def Config.args (c : Config) : LgArgs where
  D := c.2.2.1
  K := 50
  M := 1000
  log_var := (c.1 : ℝ) / 10
  delta := 1
  delta_scale := (c.2.2.2.2.2.1.1 : ℝ) / c.2.2.2.2.2.1.2
  delta_arg := c.2.2.2.2.2.2
  kernel := c.2.2.2.1.value
  style := c.2.2.2.2.1
  backward := true
  resampling := "killing"
  last_step := "forced"
  N := 31

/-- Name of a member of the enumeration (`kernel_type.name`): `/repo/experiments/lgssm_scaling/kernels.py:24-33`. -/
def _root_.Verif.Model.LgType.name : LgType → String
  | .CSMC => "CSMC" | .TP => "TP" | .TP_CSMC => "TP_CSMC" | .MALA_CSMC => "MALA_CSMC" | .ADAPTED_CSMC => "ADAPTED_CSMC"
  | .RW_CSMC => "RW_CSMC" | .MALA => "MALA" | .RW => "RW" | .IMH => "IMH"

/-- Name of the file: `/repo/experiments/lgssm_scaling/experiment.py:169-171`, without the directory. -/
def file_name (kernel : String) (T D N : ℕ) (style scaling scaletype log_var : String) : String :=
  "kernel=" ++ kernel ++ ",T=" ++ toString T ++ ",D=" ++ toString D ++ ",N=" ++ toString N ++ ",style=" ++ style
    ++ ",scaling=" ++ scaling ++ ",scaletype=" ++ scaletype ++ ",log_var=" ++ log_var ++ ".csv"

/-- `str(float(...))` of the values of `SCALES`. -/
def fmtScale (s : ℕ × ℕ) : String := if s = (1, 1) then "1.0" else "0.3333333333333333"

/-- `str(round(x, 2))` of the elements of `LOG_SIGMAS`: the one that should be zero is negative before it is rounded, which gives `-0.0`. -/
def fmtTenths (k : ℤ) : String :=
  (if k ≤ 0 then "-" else "") ++ toString (k.natAbs / 10) ++ "." ++ toString (k.natAbs % 10)

/-- The file written by the script, given the strings of the two numbers (`ValueError` for an unknown kernel):
`/repo/experiments/lgssm_scaling/experiment.py:99, 169-173`. -/
def lg_file (T : ℕ) (args : LgArgs) (scaling log_var : String) : Except String String := do
  let kernel_type ← LgType.ofValue args.kernel
  pure (file_name kernel_type.name T args.D args.N args.style scaling args.delta_arg log_var)

/-- The file written by a job: `/repo/experiments/lgssm_scaling/distribute.py:85-87`. -/
noncomputable def Config.file (c : Config) : Except String String :=
  lg_file c.T c.args (fmtScale c.2.2.2.2.2.1) (fmtTenths c.1)

end Lg

namespace Sv

/-- The configuration of the job with a given number: `/repo/experiments/stochastic_volatility/distribute.py:50`. -/
def job (i : ℤ) : Option (ℕ × KernelType × String) := pyGet combination i

/-- `#SBATCH -a 0-7`: `/repo/experiments/stochastic_volatility/distributed_experiment.sh:2, 15`. -/
def jobArray : List ℤ := (List.range 8).map fun i : ℕ => (i : ℤ)

end Sv

end Verif.Model
