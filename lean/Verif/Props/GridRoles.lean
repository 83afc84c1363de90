import Verif.Props.Jobs

/-!
# C56: what the entries of the grid of `lgssm_scaling` mean
-/

namespace Verif.Props
open Verif Verif.Model Verif.Spec

/-- **C56** (`lgssm`, numbers).  The number of a kernel is its position in the enumeration, on the command line as well. -/
theorem C56_values (k : Lg.KernelType) : Lg.KernelType.all[k.value]? = some k ∧
    LgType.ofValue k.value = .ok (lgTypeOf k) ∧
    ["CSMC", "TP", "TP_CSMC", "MALA_CSMC", "ADAPTED_CSMC", "RW_CSMC", "MALA", "RW", "IMH"][k.value]? = some (lgTypeOf k).name := by
  cases k <;> exact ⟨rfl, rfl, rfl⟩

/-- **C56** (`lgssm`, shapes).  The step size has one entry per time exactly for the kernels whose name ends with `_CSMC`, which propose a
state per time; all its entries are the step size of the command line, and so is the number passed to the others. -/
theorem C56_shapes (k : Lg.KernelType) (delta : ℝ) (T : ℕ) :
    (k.shape_delta = some .perTime ↔ "_CSMC".toList <:+ (lgTypeOf k).name.toList) ∧
    (lgTypeOf k).shape_delta delta T = if "_CSMC".toList <:+ (lgTypeOf k).name.toList then .perStep fun _ => delta else .scalar delta := by
  constructor
  · cases k <;> decide
  · split_ifs with hs
    all_goals cases k
    all_goals first
      | exact absurd hs (by decide)
      | simp [lgTypeOf, LgType.shape_delta]

section
variable {m : Type → Type} [RandM m] {N n d : ℕ}

/-- Calling a constructor of `kernels.py` of `lgssm_scaling`, `stop_gradient` being `False` unless it is given. -/
noncomputable def callMaker (c : MakerCall) (svd : Mat d d → SvdOut d) (sigma : ℝ) (style : String) (resampling : Resampling m N)
    (move : AncestorMove m N) (backward : Bool) : Except String (Traj (n + 1) d → KernelPair m (n + 1) d) :=
  match c.maker with
  | .get_tp_kernel => lg_get_tp_kernel sigma N
  | .get_csmc_kernel => lg_get_csmc_kernel sigma style resampling move backward
  | .get_tp_csmc_kernel => lg_get_tp_csmc_kernel svd sigma style (c.stop_gradient.getD false) resampling move backward
  | .get_mala_csmc_kernel => lg_get_mala_csmc_kernel sigma style resampling move backward
  | .get_rw_csmc_kernel => lg_get_rw_csmc_kernel sigma resampling move backward
  | .get_mala_kernel => lg_get_mala_kernel sigma N style (c.stop_gradient.getD false)
  | .get_imh_kernel => lg_get_imh_kernel sigma N

/-- **C56** (`lgssm`, constructors).  The constructor in the table is the one that the script calls, with the same `stop_gradient`. -/
theorem C56_makers (k : Lg.KernelType) (svd : Mat d d → SvdOut d) (sigma : ℝ) (style : String) (resampling : Resampling m N)
    (move : AncestorMove m N) (backward : Bool) :
    ∃ c, k.kernel_maker = some c ∧ callMaker (n := n) c svd sigma style resampling move backward =
      (lgTypeOf k).kernel_maker svd sigma style resampling move backward := by
  cases k <;> exact ⟨_, rfl, rfl⟩

end

/-- **C56** (`lgssm`, gradients).  Exactly the adapted kernel and the random walk stop the gradient; the constructor is named after the kernel
but for these two. -/
theorem C56_gradients (k : Lg.KernelType) :
    (k.kernel_maker.bind MakerCall.stop_gradient = some true ↔ k = .ADAPTED_CSMC ∨ k = .RW) ∧
    k.kernel_maker.map MakerCall.maker = some (match k with
      | .CSMC => .get_csmc_kernel | .TP => .get_tp_kernel | .TP_CSMC | .ADAPTED_CSMC => .get_tp_csmc_kernel
      | .MALA_CSMC => .get_mala_csmc_kernel | .RW_CSMC => .get_rw_csmc_kernel | .MALA | .RW => .get_mala_kernel
      | .IMH => .get_imh_kernel) := by
  cases k <;> decide

/-- **C56** (`lgssm`, scaling).  Step sizes of kernels which move the whole trajectory at once are scaled with `T * D`, those of particle
kernels with `D`; the power is `1` or `1/3`, and `1/3` only for kernels that use gradients. -/
theorem C56_scaling : ∀ c ∈ Lg.grid,
    (c.2.2.2 = "D" ↔ "CSMC".toList <:+ (lgTypeOf c.1).name.toList) ∧ (c.2.2.2 = "TD" ↔ ¬ "CSMC".toList <:+ (lgTypeOf c.1).name.toList) ∧
    (c.2.2.1 = (1, 1) ∨ c.2.2.1 = (1, 3) ∧ c.1 ∈ [.TP, .TP_CSMC, .MALA_CSMC, .MALA]) := by
  decide +kernel

/-- The two powers both occur for the kernels with gradients and a state per time, in the styles that have both. -/
example : (.MALA_CSMC, "filtering", (1, 1), "D") ∈ Lg.grid ∧ (.MALA_CSMC, "filtering", (1, 3), "D") ∈ Lg.grid ∧
    (.TP, "na", (1, 3), "TD") ∈ Lg.grid ∧ (.RW, "auxiliary", (1, 1), "TD") ∈ Lg.grid := by
  decide +kernel

end Verif.Props
