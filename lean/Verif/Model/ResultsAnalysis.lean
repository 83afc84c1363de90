import Verif.Model.Diagnostics
import Verif.Model.ExpGrid
import Mathlib.Data.List.FinRange
import Mathlib.Data.List.ProdSigma

/-!
# `experiments/stochastic_volatility/results/results_analysis.py`

The tables written to `csv` files.  A data frame with a product index is a list of pairs (row label, entry), per column.  Plots and the
way `pandas` stores tables are not modelled; assignments to `df[column].iloc[:]` change `df`, as they do before `pandas` 3.
-/

namespace Verif.Model
open Verif

/-! ## Names -/

namespace Sv

/-- Name of a member of the enumeration (`kernel_type.name`). -/
def KernelType.name : KernelType → String
  | .CSMC => "CSMC" | .TP => "TP" | .TP_CSMC => "TP_CSMC" | .MALA_CSMC => "MALA_CSMC" | .ADAPTED_CSMC => "ADAPTED_CSMC"
  | .RW_CSMC => "RW_CSMC" | .MALA => "MALA"

/-- `kernel_sytle_lst`: `/repo/experiments/stochastic_volatility/results/results_analysis.py:79-94`. -/
def kernel_style_lst : List (String × String) :=
  [("CSMC", "bootstrap"),
   ("RW_CSMC", "na"),
   ("ADAPTED_CSMC", "filtering"),
   ("ADAPTED_CSMC", "marginal"),
   ("ADAPTED_CSMC", "twisted"),
   ("MALA_CSMC", "filtering"),
   ("MALA_CSMC", "marginal"),
   ("MALA_CSMC", "smoothing"),
   ("TP", "na"),
   ("TP_CSMC", "filtering"),
   ("TP_CSMC", "marginal"),
   ("TP_CSMC", "twisted"),
   ("MALA", "auxiliary"),
   ("MALA", "marginal")]

/-- `name_in_paper`: `/repo/experiments/stochastic_volatility/results/results_analysis.py:95-110`. -/
def name_in_paper : List String :=
  ["CSMC\n",
   "Particle-RWM\n",
   "Particle-aGRAD\n($\\kappa = 0$)",
   "Particle-mGRAD\n($\\kappa = 0$)",
   "Particle-aGRAD\n($\\kappa = 0$, twisted)",
   "Particle-aMALA\n",
   "Particle-MALA\n",
   "Particle-aMALA+\n",
   "aGRAD\n",
   "Particle-aGRAD\n($\\kappa = 1$)",
   "Particle-mGRAD\n($\\kappa = 1$)",
   "Particle-aGRAD\n($\\kappa = 1$, twisted)",
   "aMALA\n",
   "MALA\n"]

/-- `/repo/experiments/stochastic_volatility/results/results_analysis.py:112-120`. -/
def NON_GAUSSIAN_KERNELS : List String :=
  ["CSMC\n", "Particle-RWM\n", "Particle-aMALA\n", "Particle-MALA\n", "Particle-aMALA+\n", "aMALA\n", "MALA\n"]

/-- `/repo/experiments/stochastic_volatility/results/results_analysis.py:122-126`. -/
def EXCLUDED_KERNELS : List String := ["CSMC\n", "aMALA\n", "MALA\n"]

/-- `/repo/experiments/stochastic_volatility/results/results_analysis.py:128`. -/
def NON_GAUSSIAN_KERNELS_WITHOUT_EXCLUDED : List String := NON_GAUSSIAN_KERNELS.filter fun k => !EXCLUDED_KERNELS.contains k

/-- `/repo/experiments/stochastic_volatility/results/results_analysis.py:130-136`. -/
def GAUSSIAN_KERNELS : List String :=
  ["Particle-aGRAD\n($\\kappa = 0$)", "Particle-mGRAD\n($\\kappa = 0$)", "Particle-aGRAD\n($\\kappa = 1$)",
   "Particle-mGRAD\n($\\kappa = 1$)", "aGRAD\n"]

/-- `/repo/experiments/stochastic_volatility/results/results_analysis.py:138-142`. -/
def TWISTED_KERNELS : List String :=
  ["aGRAD\n", "Particle-aGRAD\n($\\kappa = 0$, twisted)", "Particle-aGRAD\n($\\kappa = 1$, twisted)"]

/-- `/repo/experiments/stochastic_volatility/results/results_analysis.py:144`. -/
def ALL_GAUSSIAN_KERNELS : List String := GAUSSIAN_KERNELS ++ TWISTED_KERNELS.filter fun k => !GAUSSIAN_KERNELS.contains k

/-- `name_to_kernel_style[name]`, a dictionary made from pairs (the last one counts):
`/repo/experiments/stochastic_volatility/results/results_analysis.py:145, 204`. -/
def name_to_kernel_style (name : String) : Option (String × String) :=
  ((name_in_paper.zip kernel_style_lst).reverse.find? fun p => p.1 = name).map Prod.snd

/-! ## Files -/

/-- Two decimal digits. -/
def twoDigits (k : ℕ) : String := toString (k / 10 % 10) ++ toString (k % 10)

/-- `"{:.2f}".format(target / 100)` for a natural number. -/
def fmtTarget (target : ℕ) : String := toString (target / 100) ++ "." ++ twoDigits target

/-- Name of the file: `/repo/experiments/stochastic_volatility/experiment.py:274-275`, without the directory. -/
def file_name (kernel : String) (T D tau N : ℕ) (style target : String) : String :=
  "kernel=" ++ kernel ++ ",T=" ++ toString T ++ ",D=" ++ toString D ++ ",tau=" ++ toString tau ++ ",N=" ++ toString N ++ ",style=" ++ style
    ++ ",target=" ++ target ++ ".npz"

/-- The file read for one column: `/repo/experiments/stochastic_volatility/results/results_analysis.py:16-20, 203-206`. -/
def fileRead (tau : ℕ) (name : String) : Option String :=
  (name_to_kernel_style name).map fun p => file_name p.1 128 30 tau 31 p.2 "0.75"

/-- `product(TAUS, name_in_paper)`: `/repo/experiments/stochastic_volatility/results/results_analysis.py:28, 202`. -/
def columns : List (ℕ × String) := [10, 50, 100, 200] ×ˢ name_in_paper

/-- `combination`: `/repo/experiments/stochastic_volatility/distribute.py:11-12, 44-46`; the first component is `tau`, with `T = 128` and
`target = 75`. -/
def combination : List (ℕ × KernelType × String) := [10, 50, 100, 200] ×ˢ grid

/-- The file written by one job of `distribute.py` (`--D 30 --N 31`), `none` if the style is rejected. -/
def fileWritten (c : ℕ × KernelType × String) : Option String :=
  if c.2.1.kernel_maker.any fun mk => mk.maker.accepts c.2.2 then some (file_name c.2.1.name 128 30 c.1 31 c.2.2 (fmtTarget 75)) else none

end Sv

/-! ## Tables -/

/-- The arrays of a file: `K` experiments, `M` chains, `S` samples (`/repo/experiments/stochastic_volatility/experiment.py:209-219, 277-279`;
`iacf_all` and `ys` are not read). -/
structure SvFile (K M S T D : ℕ) where
  ess : Fin K → Fin T → Fin D → ℝ
  final_pct : Fin K → Fin M → Fin T → ℝ
  delta : Fin K → Fin T → ℝ
  sampling_time : Fin K → ℝ
  energy : Fin K → Fin S → Fin M → ℝ
  means : Fin K → Fin M → Fin T → Fin D → ℝ
  std_devs : Fin K → Fin M → Fin T → Fin D → ℝ
  true_xs : Fin K → Fin T → Fin D → ℝ
  init_xs : Fin K → Fin T → Fin D → ℝ

/-- `range(start, stop, step)` with `start = 0`. -/
def pyRange (stop step : ℕ) : List ℕ := (List.range (strideLen stop step)).map (· * step)

section flatten
variable {a b c d : ℕ} {α : Type}

/-- `x.flatten()`, one axis. -/
def flat1 (x : Fin a → α) : List α := List.ofFn x
/-- `x.flatten()`, two axes, row-major. -/
def flat2 (x : Fin a → Fin b → α) : List α := (flat1 x).flatMap flat1
/-- `x.flatten()`, three axes. -/
def flat3 (x : Fin a → Fin b → Fin c → α) : List α := (flat1 x).flatMap flat2
/-- `x.flatten()`, four axes. -/
def flat4 (x : Fin a → Fin b → Fin c → Fin d → α) : List α := (flat1 x).flatMap flat3

/-- `df[column].iloc[:] = values` and `df[column].loc[label] = values`: `ValueError` unless there is one value per row, or a single
one, which is repeated. -/
def setColumn {ι : Type} (index : List ι) (values : List ℝ) : Except String (List (ι × ℝ)) :=
  if values.length = index.length then .ok (index.zip values)
  else if values.length = 1 then .ok (index.map fun i => (i, values.headD 0))
  else .error "ValueError"

end flatten

/-- Smallest entry (`x.min(-1)`). -/
noncomputable def minOf {k : ℕ} (x : Fin k → ℝ) : ℝ := ((List.ofFn x).insertionSort (· ≤ ·)).headD 0
/-- Largest entry (`x.max(-1)`). -/
noncomputable def maxOf {k : ℕ} (x : Fin k → ℝ) : ℝ := ((List.ofFn x).insertionSort (· ≤ ·)).getLastD 0
/-- `np.median(x, -1)`. -/
noncomputable def medianOf {k : ℕ} (x : Fin k → ℝ) : ℝ := quantileOf ((List.ofFn x).insertionSort (· ≤ ·)) 0.5

/-- The sizes for which the script prepares its tables: `/repo/experiments/stochastic_volatility/results/results_analysis.py:17-18, 23-27`. -/
structure Sizes where
  N_EXPERIMENTS : ℕ
  N_CHAINS : ℕ
  N_SAMPLES : ℕ
  T : ℕ
  D : ℕ
  ENERGY_SUBSAMPLE : ℕ
  MAX_LAG : ℕ

/-- The constants of the script. -/
def theSizes : Sizes := ⟨5, 4, 45000, 128, 30, 100, 249⟩

/-- One column of every table. -/
structure Tables where
  ess : List ((String × ℕ × ℕ) × ℝ)
  ess_time : List ((String × ℕ × ℕ) × ℝ)
  acceptance_rate : List ((ℕ × ℕ × ℕ) × ℝ)
  delta : List ((ℕ × ℕ) × ℝ)
  true_trajectory : List ((ℕ × ℕ × ℕ) × ℝ)
  initial_trajectory : List ((ℕ × ℕ × ℕ) × ℝ)
  marginal_mean : List ((ℕ × ℕ × ℕ × ℕ) × ℝ)
  marginal_conf_plus : List ((ℕ × ℕ × ℕ × ℕ) × ℝ)
  marginal_conf_minus : List ((ℕ × ℕ × ℕ × ℕ) × ℝ)
  energy_data : List ((ℕ × ℕ × ℕ) × ℝ)
  energy_acfs : List ((ℕ × ℕ) × ℝ)

/-- `STD_CONFIDENCE`. -/
noncomputable def STD_CONFIDENCE : ℝ := 1.96

/-- Three blocks of rows of `ess_df`: `/repo/experiments/stochastic_volatility/results/results_analysis.py:161-162, 219-225`. -/
noncomputable def essTable {K T D : ℕ} (index : List (ℕ × ℕ)) (x : Fin K → Fin T → Fin D → ℝ) :
    Except String (List ((String × ℕ × ℕ) × ℝ)) := do
  let lo ← setColumn (index.map fun p => ("min", p)) (flat2 fun e t => minOf (x e t))
  let med ← setColumn (index.map fun p => ("med", p)) (flat2 fun e t => medianOf (x e t))
  let hi ← setColumn (index.map fun p => ("max", p)) (flat2 fun e t => maxOf (x e t))
  pure (lo ++ med ++ hi)

/-- The loop body: `/repo/experiments/stochastic_volatility/results/results_analysis.py:148-174, 202-227`.  There is at least one sample
(`L + 1` of them). -/
noncomputable def tablesOf (s : Sizes) {K M L T D : ℕ} (data : SvFile K M (L + 1) T D) : Except String Tables := do
  let experiments_range := pyRange s.N_EXPERIMENTS 1
  let chains_range := pyRange s.N_CHAINS 1
  let samples_range := pyRange s.N_SAMPLES s.ENERGY_SUBSAMPLE
  let lags_range := pyRange (s.MAX_LAG + 1) 1
  let time_range := pyRange s.T 1
  let dimensions_range := pyRange s.D 1
  let energy_index := experiments_range ×ˢ (chains_range ×ˢ samples_range)
  let energy_acf_index := experiments_range ×ˢ lags_range
  let ess_index := experiments_range ×ˢ time_range
  let true_trajectory_index := experiments_range ×ˢ (time_range ×ˢ dimensions_range)
  let marginal_mean_index := experiments_range ×ˢ (chains_range ×ˢ (time_range ×ˢ dimensions_range))
  let acceptance_rate_index := experiments_range ×ˢ (chains_range ×ˢ time_range)
  let delta_index := experiments_range ×ˢ time_range
  let energy_acfs := fun e (lag : Fin (tfp_lags L s.MAX_LAG)) => cross_chains_autocorr (data.energy e) lag
  let energy_data_df ← setColumn energy_index
    (flat3 fun e i (k : Fin (strideLen (L + 1) s.ENERGY_SUBSAMPLE)) => -strideA s.ENERGY_SUBSAMPLE (data.energy e) k i)
  let energy_acfs_df ← setColumn energy_acf_index (flat2 energy_acfs)
  let marginal_mean_df ← setColumn marginal_mean_index (flat4 data.means)
  let marginal_conf_df_plus ← setColumn marginal_mean_index
    (flat4 fun e i t j => data.means e i t j + STD_CONFIDENCE * data.std_devs e i t j)
  let marginal_conf_df_minus ← setColumn marginal_mean_index
    (flat4 fun e i t j => data.means e i t j - STD_CONFIDENCE * data.std_devs e i t j)
  let true_trajectory_df ← setColumn true_trajectory_index (flat3 data.true_xs)
  let initial_trajectory_df ← setColumn true_trajectory_index (flat3 data.init_xs)
  let ess_df ← essTable ess_index data.ess
  let ess_time_df ← essTable ess_index fun e t j => data.ess e t j / data.sampling_time e
  let acceptance_rate_df ← setColumn acceptance_rate_index (flat3 data.final_pct)
  let delta_df ← setColumn delta_index (flat2 data.delta)
  pure ⟨ess_df, ess_time_df, acceptance_rate_df, delta_df, true_trajectory_df, initial_trajectory_df, marginal_mean_df,
    marginal_conf_df_plus, marginal_conf_df_minus, energy_data_df, energy_acfs_df⟩

end Verif.Model
