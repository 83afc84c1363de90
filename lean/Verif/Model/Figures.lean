import Verif.Model.ResultsAnalysis
import Mathlib.Analysis.Real.Sqrt

/-!
# Figures of `experiments/stochastic_volatility/results/results_analysis.py`

From the tables to the lines drawn: reading the `csv` files back, `stack`, selections, merges, facets, and the points which
`sns.lineplot` computes.  Axes, colours and titles are not modelled; neither is the order of the rows of a stacked table, on which no line
depends.  No entry is `NaN`.
-/

namespace Verif.Model
open Verif Sv

/-! ## Tables with all their columns -/

/-- A data frame: its columns, each with its label `(tau, name)` and its labelled rows. -/
abbrev Frame (ι : Type) := List ((ℕ × String) × List (ι × ℝ))

/-- The loop over the columns: `/repo/experiments/stochastic_volatility/results/results_analysis.py:202-227`. -/
noncomputable def allTables (s : Sizes) {K M L T D : ℕ} (file : ℕ × String → SvFile K M (L + 1) T D) :
    Except String (List ((ℕ × String) × Tables)) :=
  columns.mapM fun column => do
    let tb ← tablesOf s (file column)
    pure (column, tb)

/-- One of the data frames after the loop. -/
def frameOf {ι : Type} (df : Tables → List (ι × ℝ)) (tbs : List ((ℕ × String) × Tables)) : Frame ι := tbs.map fun p => (p.1, df p.2)

/-! ## Reading back -/

/-- `df = pd.read_csv(...)`, `df.set_index(index, inplace=True)`, `df.columns = columns`: the labels written in the file are dropped, the
new ones are put in their place by position; `ValueError` when the lengths differ
(`/repo/experiments/stochastic_volatility/results/results_analysis.py:244-278`). -/
def reload {ι κ ι' : Type} (index : List ι) (columns : List (ℕ × String)) (saved : List (κ × List (ι' × ℝ))) : Except String (Frame ι) :=
  if saved.length = columns.length ∧ ∀ c ∈ saved, c.2.length = index.length then
    .ok (columns.zip (saved.map fun c => index.zip (c.2.map Prod.snd)))
  else .error "ValueError: Length mismatch"

section indices
variable (s : Sizes)
/-- `/repo/experiments/stochastic_volatility/results/results_analysis.py:157-158`. -/
def energy_index : List (ℕ × ℕ × ℕ) := pyRange s.N_EXPERIMENTS 1 ×ˢ (pyRange s.N_CHAINS 1 ×ˢ pyRange s.N_SAMPLES s.ENERGY_SUBSAMPLE)
/-- `/repo/experiments/stochastic_volatility/results/results_analysis.py:159-160`. -/
def energy_acf_index : List (ℕ × ℕ) := pyRange s.N_EXPERIMENTS 1 ×ˢ pyRange (s.MAX_LAG + 1) 1
/-- `/repo/experiments/stochastic_volatility/results/results_analysis.py:161-162`. -/
def ess_index : List (String × ℕ × ℕ) := ["min", "med", "max"] ×ˢ (pyRange s.N_EXPERIMENTS 1 ×ˢ pyRange s.T 1)
/-- `/repo/experiments/stochastic_volatility/results/results_analysis.py:164-167`. -/
def true_trajectory_index : List (ℕ × ℕ × ℕ) := pyRange s.N_EXPERIMENTS 1 ×ˢ (pyRange s.T 1 ×ˢ pyRange s.D 1)
/-- `/repo/experiments/stochastic_volatility/results/results_analysis.py:168-170`. -/
def marginal_mean_index : List (ℕ × ℕ × ℕ × ℕ) :=
  pyRange s.N_EXPERIMENTS 1 ×ˢ (pyRange s.N_CHAINS 1 ×ˢ (pyRange s.T 1 ×ˢ pyRange s.D 1))
/-- `/repo/experiments/stochastic_volatility/results/results_analysis.py:171-172`. -/
def acceptance_rate_index : List (ℕ × ℕ × ℕ) := pyRange s.N_EXPERIMENTS 1 ×ˢ (pyRange s.N_CHAINS 1 ×ˢ pyRange s.T 1)
/-- `/repo/experiments/stochastic_volatility/results/results_analysis.py:173-174`. -/
def delta_index : List (ℕ × ℕ) := pyRange s.N_EXPERIMENTS 1 ×ˢ pyRange s.T 1
end indices

/-! ## Selections -/

section select
variable {ι κ α β : Type}

/-- `df.stack([0, 1]).reset_index()`: one row per entry, labelled with the row and the column. -/
def stackFrame (F : Frame ι) : List ((ι × ℕ × String) × ℝ) := F.flatMap fun c => c.2.map fun r => ((r.1, c.1), r.2)

/-- `df[df["$\\tau$"] == tau]`. -/
def whereTau (tau : ℕ) (rows : List ((ι × ℕ × String) × α)) : List ((ι × ℕ × String) × α) := rows.filter fun r => r.1.2.1 = tau

/-- `df[df["name"].isin(kernels)]`. -/
def whereName (kernels : List String) (rows : List ((ι × ℕ × String) × α)) : List ((ι × ℕ × String) × α) :=
  rows.filter fun r => r.1.2.2 ∈ kernels

/-- `pd.merge(left, right, how='inner')`: the pairs of rows which agree on the common columns.  These are the label of `left`, part (`on`) of
the label of `right`. -/
def innerMerge [DecidableEq ι] (on : κ → ι) (left : List (ι × α)) (right : List (κ × β)) : List (κ × α × β) :=
  left.flatMap fun l => (right.filter fun r => on r.1 = l.1).map fun r => (r.1, l.2, r.2)

end select

/-! ## Lines -/

/-- Entries of `y` over one value of `x`. -/
def atX (rows : List (ℕ × ℝ)) (x : ℕ) : List ℝ := (rows.filter fun r => r.1 = x).map Prod.snd

/-- The line of `sns.lineplot` (`estimator="mean"`): over each value of `x`, the average of `y`. -/
noncomputable def lineplot (rows : List (ℕ × ℝ)) (x : ℕ) : Option ℝ :=
  if atX rows x = [] then none else some ((atX rows x).sum / (atX rows x).length)

/-- The band of `sns.lineplot` with `errorbar=("se", 2)`: two standard errors (`ddof=1`) on both sides of the average, where there are at
least two entries. -/
noncomputable def lineband (rows : List (ℕ × ℝ)) (x : ℕ) : Option (ℝ × ℝ) :=
  let ys := atX rows x
  if ys.length ≤ 1 then none else
    let m := ys.sum / ys.length
    let sem := Real.sqrt ((ys.map fun y => (y - m) ^ 2).sum / ((ys.length : ℝ) - 1)) / Real.sqrt ys.length
    some (m - 2 * sem, m + 2 * sem)

/-! ## Figures of one value of `tau` -/

/-- Rows of one panel and one line of the energy traces:
`/repo/experiments/stochastic_volatility/results/results_analysis.py:289-321`. -/
noncomputable def energyTraceRows (df : Frame (ℕ × ℕ × ℕ)) (tau : ℕ) (kernels : List String) (name : String) (n_experiment n_chain : ℕ) :
    List (ℕ × ℝ) :=
  let flat_energy_df := whereTau tau (stackFrame df)
  ((whereName kernels flat_energy_df).filter fun r => r.1.2.2 = name ∧ r.1.1.1 = n_experiment ∧ r.1.1.2.1 = n_chain).map
    fun r => (r.1.1.2.2, r.2)

/-- `figures/gaussian_energy_trace_{tau}.pdf`: `/repo/experiments/stochastic_volatility/results/results_analysis.py:291, 295-307`. -/
noncomputable def gaussian_energy_trace (df : Frame (ℕ × ℕ × ℕ)) (tau : ℕ) (name : String) (n_experiment n_chain sample : ℕ) : Option ℝ :=
  lineplot (energyTraceRows df tau ALL_GAUSSIAN_KERNELS name n_experiment n_chain) sample

/-- `figures/non_gaussian_energy_trace_{tau}.pdf`: `/repo/experiments/stochastic_volatility/results/results_analysis.py:292, 309-321`. -/
noncomputable def non_gaussian_energy_trace (df : Frame (ℕ × ℕ × ℕ)) (tau : ℕ) (name : String) (n_experiment n_chain sample : ℕ) :
    Option ℝ :=
  lineplot (energyTraceRows df tau NON_GAUSSIAN_KERNELS name n_experiment n_chain) sample

/-- Rows of one panel of the autocorrelations and of the step sizes: a table labelled with the experiment and a number `x`
(`/repo/experiments/stochastic_volatility/results/results_analysis.py:330-360, 490-524`). -/
noncomputable def panelRows (df : Frame (ℕ × ℕ)) (tau : ℕ) (kernels : List String) (name : String) (n_experiment : ℕ) : List (ℕ × ℝ) :=
  let flat_df := whereTau tau (stackFrame df)
  ((whereName kernels flat_df).filter fun r => r.1.2.2 = name ∧ r.1.1.1 = n_experiment).map fun r => (r.1.1.2, r.2)

/-- `figures/gaussian_energy_acf_{tau}.pdf`: `/repo/experiments/stochastic_volatility/results/results_analysis.py:332, 336-347`. -/
noncomputable def gaussian_energy_acf (df : Frame (ℕ × ℕ)) (tau : ℕ) (name : String) (n_experiment lag : ℕ) : Option ℝ :=
  lineplot (panelRows df tau ALL_GAUSSIAN_KERNELS name n_experiment) lag

/-- `figures/non_gaussian_energy_acf_{tau}.pdf`: `/repo/experiments/stochastic_volatility/results/results_analysis.py:333, 349-360`. -/
noncomputable def non_gaussian_energy_acf (df : Frame (ℕ × ℕ)) (tau : ℕ) (name : String) (n_experiment lag : ℕ) : Option ℝ :=
  lineplot (panelRows df tau NON_GAUSSIAN_KERNELS_WITHOUT_EXCLUDED name n_experiment) lag

/-- `figures/gaussian_delta_{tau}.pdf`: `/repo/experiments/stochastic_volatility/results/results_analysis.py:493, 496-509`. -/
noncomputable def gaussian_delta (df : Frame (ℕ × ℕ)) (tau : ℕ) (name : String) (n_experiment time : ℕ) : Option ℝ :=
  lineplot (panelRows df tau ALL_GAUSSIAN_KERNELS name n_experiment) time

/-- `figures/non_gaussian_delta_{tau}.pdf`: `/repo/experiments/stochastic_volatility/results/results_analysis.py:494, 511-524`. -/
noncomputable def non_gaussian_delta (df : Frame (ℕ × ℕ)) (tau : ℕ) (name : String) (n_experiment time : ℕ) : Option ℝ :=
  lineplot (panelRows df tau NON_GAUSSIAN_KERNELS_WITHOUT_EXCLUDED name n_experiment) time

/-- Rows of one panel of the acceptance rates, for all the chains:
`/repo/experiments/stochastic_volatility/results/results_analysis.py:445-460`. -/
noncomputable def acceptanceRows (df : Frame (ℕ × ℕ × ℕ)) (tau : ℕ) (kernels : List String) (name : String) (n_experiment : ℕ) :
    List (ℕ × ℝ) :=
  let flat_acceptance_rate_df := whereTau tau (stackFrame df)
  ((whereName kernels flat_acceptance_rate_df).filter fun r => r.1.2.2 = name ∧ r.1.1.1 = n_experiment).map fun r => (r.1.1.2.2, r.2)

/-- `figures/gaussian_acceptance_rate_{tau}.pdf`, line and band:
`/repo/experiments/stochastic_volatility/results/results_analysis.py:448-466`. -/
noncomputable def gaussian_acceptance_rate (df : Frame (ℕ × ℕ × ℕ)) (tau : ℕ) (name : String) (n_experiment time : ℕ) :
    Option ℝ × Option (ℝ × ℝ) :=
  let rows := acceptanceRows df tau ALL_GAUSSIAN_KERNELS name n_experiment
  (lineplot rows time, lineband rows time)

/-- `figures/non_gaussian_acceptance_rate_{tau}.pdf`, line and band:
`/repo/experiments/stochastic_volatility/results/results_analysis.py:450-451, 468-481`. -/
noncomputable def non_gaussian_acceptance_rate (df : Frame (ℕ × ℕ × ℕ)) (tau : ℕ) (name : String) (n_experiment time : ℕ) :
    Option ℝ × Option (ℝ × ℝ) :=
  let rows := acceptanceRows df tau NON_GAUSSIAN_KERNELS name n_experiment
  (lineplot rows time, lineband rows time)

/-! ## Trajectories -/

/-- The five tables of the trajectories. -/
structure TrajFrames where
  true_trajectory : Frame (ℕ × ℕ × ℕ)
  initial_trajectory : Frame (ℕ × ℕ × ℕ)
  marginal_mean : Frame (ℕ × ℕ × ℕ × ℕ)
  marginal_conf_plus : Frame (ℕ × ℕ × ℕ × ℕ)
  marginal_conf_minus : Frame (ℕ × ℕ × ℕ × ℕ)

/-- A row of the merged table: true state, initial state, mean, upper and lower limits. -/
structure TrajRow where
  true_trajectory : ℝ
  initial_trajectory : ℝ
  mean : ℝ
  conf_plus : ℝ
  conf_minus : ℝ

/-- The merged table, labelled with experiment, chain, time, dimension, `tau` and name:
`/repo/experiments/stochastic_volatility/results/results_analysis.py:373-391`. -/
noncomputable def trajectoryTable (df : TrajFrames) (tau dimension : ℕ) (kernels : List String) :
    List (((ℕ × ℕ × ℕ × ℕ) × ℕ × String) × TrajRow) :=
  let short := fun F : Frame (ℕ × ℕ × ℕ) =>
    whereName kernels ((whereTau tau (stackFrame F)).filter fun r => r.1.1.2.2 = dimension)
  let long := fun F : Frame (ℕ × ℕ × ℕ × ℕ) =>
    whereName kernels ((whereTau tau (stackFrame F)).filter fun r => r.1.1.2.2.2 = dimension)
  let m1 := innerMerge id (short df.true_trajectory) (short df.initial_trajectory)
  let m2 := innerMerge (fun i => ((i.1.1, i.1.2.2), i.2)) m1 (long df.marginal_mean)
  let m3 := innerMerge id m2 (long df.marginal_conf_plus)
  let m4 := innerMerge id m3 (long df.marginal_conf_minus)
  m4.map fun r => (r.1, ⟨r.2.1.1.1.1, r.2.1.1.1.2, r.2.1.1.2, r.2.1.2, r.2.2⟩)

/-- Rows of one panel and one line of the trajectories; `y` is the column drawn:
`/repo/experiments/stochastic_volatility/results/results_analysis.py:393-436`. -/
noncomputable def trajectoryRows (df : TrajFrames) (tau dimension : ℕ) (kernels : List String) (y : TrajRow → ℝ) (name : String)
    (n_experiment n_chain : ℕ) : List (ℕ × ℝ) :=
  ((trajectoryTable df tau dimension kernels).filter fun r => r.1.2.2 = name ∧ r.1.1.1 = n_experiment ∧ r.1.1.2.1 = n_chain).map
    fun r => (r.1.1.2.2.1, y r.2)

/-- `figures/gaussian_trajectory_{tau}.pdf`: `/repo/experiments/stochastic_volatility/results/results_analysis.py:386, 389, 393-414`. -/
noncomputable def gaussian_trajectory (df : TrajFrames) (tau PLOT_TRAJECTORY : ℕ) (y : TrajRow → ℝ) (name : String)
    (n_experiment n_chain time : ℕ) : Option ℝ :=
  lineplot (trajectoryRows df tau PLOT_TRAJECTORY ALL_GAUSSIAN_KERNELS y name n_experiment n_chain) time

/-- `figures/non_gaussian_trajectory_{tau}.pdf`: `/repo/experiments/stochastic_volatility/results/results_analysis.py:387, 391, 416-436`. -/
noncomputable def non_gaussian_trajectory (df : TrajFrames) (tau PLOT_TRAJECTORY : ℕ) (y : TrajRow → ℝ) (name : String)
    (n_experiment n_chain time : ℕ) : Option ℝ :=
  lineplot (trajectoryRows df tau PLOT_TRAJECTORY NON_GAUSSIAN_KERNELS y name n_experiment n_chain) time

/-! ## Effective sample sizes -/

/-- `row_order=[0.1, 0.5, 1.0, 2.0]`. -/
def row_order : List ℚ := [1 / 10, 1 / 2, 1, 2]

/-- Rows of one panel of the effective sample sizes, for all the experiments; `row` is a value of `tau / 100`, and rows of panels which are
not in `row_order` are not drawn (`/repo/experiments/stochastic_volatility/results/results_analysis.py:532-547`). -/
noncomputable def essRows (df : Frame (String × ℕ × ℕ)) (kernels : List String) (row : ℚ) (name : String) : List (ℕ × ℝ) :=
  let flat_ess_df := (stackFrame df).map fun r => ((r.1.1, (r.1.2.1 : ℚ) / 100, r.1.2.2), r.2)
  let flat_ess_df := flat_ess_df.filter fun r => r.1.1.1 = "med"
  let df := flat_ess_df.filter fun r => r.1.2.2 ∈ kernels
  if row ∈ row_order then (df.filter fun r => r.1.2.1 = row ∧ r.1.2.2 = name).map fun r => (r.1.1.2.2, r.2) else []

/-- One of the figures of effective sample sizes, line and band. -/
noncomputable def essFigure (df : Frame (String × ℕ × ℕ)) (kernels : List String) (row : ℚ) (name : String) (time : ℕ) :
    Option ℝ × Option (ℝ × ℝ) :=
  let rows := essRows df kernels row name
  (lineplot rows time, lineband rows time)

/-- `figures/gaussian_ess_med.pdf`, and `figures/gaussian_ess_per_sec_med.pdf` for the other table:
`/repo/experiments/stochastic_volatility/results/results_analysis.py:540, 544, 549-573, 617-644`. -/
noncomputable def gaussian_ess (df : Frame (String × ℕ × ℕ)) := essFigure df GAUSSIAN_KERNELS
/-- `figures/non_gaussian_ess_med.pdf`, and `figures/non_gaussian_ess_per_sec_med.pdf` for the other table:
`/repo/experiments/stochastic_volatility/results/results_analysis.py:541, 545-546, 575-591, 647-664`. -/
noncomputable def non_gaussian_ess (df : Frame (String × ℕ × ℕ)) := essFigure df NON_GAUSSIAN_KERNELS_WITHOUT_EXCLUDED
/-- `figures/twisted_ess_med.pdf`, and `figures/twisted_ess_per_sec_med.pdf` for the other table:
`/repo/experiments/stochastic_volatility/results/results_analysis.py:542, 547, 595-613, 668-686`. -/
noncomputable def twisted_ess (df : Frame (String × ℕ × ℕ)) := essFigure df TWISTED_KERNELS

end Verif.Model
