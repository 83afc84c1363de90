import Mathlib.Data.List.Basic

/-!
# `KernelType` of the experiments and the grids of `distribute.py`
-/

namespace Verif.Model

/-- Constructors of kernels, as named in `kernels.py` of the experiments. -/
inductive Maker
  | get_tp_kernel | get_csmc_kernel | get_tp_csmc_kernel | get_mala_csmc_kernel | get_rw_csmc_kernel | get_mala_kernel
  | get_imh_kernel
  deriving DecidableEq

/-- A constructor with the argument `stop_gradient` bound by `functools.partial` (`none` when it is not bound). -/
structure MakerCall where
  maker : Maker
  stop_gradient : Option Bool
  deriving DecidableEq

/-- Shape of the step size returned by `shape_delta`. -/
inductive DeltaShape
  | scalar | perTime
  deriving DecidableEq

/-- Values of `style` that a constructor accepts (`none`: the argument is ignored); the others raise
`NotImplementedError`.  `/repo/experiments/lgssm_scaling/kernels.py:84, 111-116, 128-145, 179-193, 213-223, 230, 250` and
`/repo/experiments/stochastic_volatility/kernels.py:58, 83-88, 106-123, 160-172, 213-223, 239`. -/
def Maker.styles : Maker → Option (List String)
  | .get_tp_kernel => none
  | .get_csmc_kernel => some ["bootstrap"]
  | .get_tp_csmc_kernel => some ["marginal", "filtering", "smoothing", "twisted"]
  | .get_mala_csmc_kernel => some ["filtering", "smoothing", "marginal"]
  | .get_rw_csmc_kernel => none
  | .get_mala_kernel => some ["marginal", "auxiliary"]
  | .get_imh_kernel => none

/-- The constructor does not raise `NotImplementedError`. -/
def Maker.accepts (k : Maker) (style : String) : Bool :=
  match k.styles with
  | none => true
  | some l => l.contains style

namespace Lg

/-- `KernelType`: `/repo/experiments/lgssm_scaling/kernels.py:24-33`. -/
inductive KernelType
  | CSMC | TP | TP_CSMC | MALA_CSMC | ADAPTED_CSMC | RW_CSMC | MALA | RW | IMH
  deriving DecidableEq

/-- The values of the enumeration. -/
def KernelType.value : KernelType → ℕ
  | .CSMC => 0 | .TP => 1 | .TP_CSMC => 2 | .MALA_CSMC => 3 | .ADAPTED_CSMC => 4 | .RW_CSMC => 5 | .MALA => 6 | .RW => 7
  | .IMH => 8

/-- The members of the enumeration. -/
def KernelType.all : List KernelType := [.CSMC, .TP, .TP_CSMC, .MALA_CSMC, .ADAPTED_CSMC, .RW_CSMC, .MALA, .RW, .IMH]

/-- `kernel_maker`: `/repo/experiments/lgssm_scaling/kernels.py:35-56` (`none`: `NotImplementedError`). -/
def KernelType.kernel_maker (k : KernelType) : Option MakerCall :=
  if k = .TP then some ⟨.get_tp_kernel, none⟩
  else if k = .CSMC then some ⟨.get_csmc_kernel, none⟩
  else if k = .TP_CSMC then some ⟨.get_tp_csmc_kernel, none⟩
  else if k = .MALA_CSMC then some ⟨.get_mala_csmc_kernel, none⟩
  else if k = .ADAPTED_CSMC then some ⟨.get_tp_csmc_kernel, some true⟩
  else if k = .RW_CSMC then some ⟨.get_rw_csmc_kernel, none⟩
  else if k = .MALA then some ⟨.get_mala_kernel, some false⟩
  else if k = .RW then some ⟨.get_mala_kernel, some true⟩
  else if k = .IMH then some ⟨.get_imh_kernel, none⟩
  else none

/-- `shape_delta`: `/repo/experiments/lgssm_scaling/kernels.py:58-76` (`none`: `None`). -/
def KernelType.shape_delta (k : KernelType) : Option DeltaShape :=
  if k = .TP then some .scalar
  else if k = .CSMC then some .scalar
  else if k = .TP_CSMC then some .perTime
  else if k = .MALA_CSMC then some .perTime
  else if k = .ADAPTED_CSMC then some .perTime
  else if k = .RW_CSMC then some .perTime
  else if k = .RW then some .scalar
  else if k = .IMH then some .scalar
  else if k = .MALA then some .scalar
  else none

/-- `KERNELS`: `/repo/experiments/lgssm_scaling/distribute.py:26-36`. -/
def KERNELS : List KernelType :=
  [.CSMC,
   .RW_CSMC,
   .TP_CSMC, .TP_CSMC, .TP_CSMC, .TP_CSMC, .TP_CSMC,
   .MALA_CSMC, .MALA_CSMC, .MALA_CSMC, .MALA_CSMC, .MALA_CSMC,
   .ADAPTED_CSMC, .ADAPTED_CSMC, .ADAPTED_CSMC,
   .TP,
   .MALA, .MALA,
   .RW,
   .IMH]

/-- `STYLES`: `/repo/experiments/lgssm_scaling/distribute.py:38-48`. -/
def STYLES : List String :=
  ["bootstrap",
   "na",
   "filtering", "marginal", "filtering", "marginal", "twisted",
   "filtering", "marginal", "filtering", "marginal", "smoothing",
   "filtering", "marginal", "twisted",
   "na",
   "auxiliary", "marginal",
   "auxiliary",
   "na"]

/-- `SCALES`: `/repo/experiments/lgssm_scaling/distribute.py:50-60`, with `1 / 3` written as the pair `(1, 3)`. -/
def SCALES : List (ℕ × ℕ) :=
  [(1, 1),
   (1, 1),
   (1, 1), (1, 1), (1, 3), (1, 3), (1, 3),
   (1, 1), (1, 1), (1, 3), (1, 3), (1, 3),
   (1, 1), (1, 1), (1, 1),
   (1, 3),
   (1, 3), (1, 3),
   (1, 1),
   (1, 1)]

/-- `DELTA_ARGS`: `/repo/experiments/lgssm_scaling/distribute.py:62-72`. -/
def DELTA_ARGS : List String :=
  ["D",
   "D",
   "D", "D", "D", "D", "D",
   "D", "D", "D", "D", "D",
   "D", "D", "D",
   "TD",
   "TD", "TD",
   "TD",
   "TD"]

/-- `zip(KERNELS, STYLES, SCALES, DELTA_ARGS)`: `/repo/experiments/lgssm_scaling/distribute.py:75-77`. -/
def grid : List (KernelType × String × (ℕ × ℕ) × String) := KERNELS.zip (STYLES.zip (SCALES.zip DELTA_ARGS))

end Lg

namespace Sv

/-- `KernelType`: `/repo/experiments/stochastic_volatility/kernels.py:24-31`. -/
inductive KernelType
  | CSMC | TP | TP_CSMC | MALA_CSMC | ADAPTED_CSMC | RW_CSMC | MALA
  deriving DecidableEq

/-- The members of the enumeration. -/
def KernelType.all : List KernelType := [.CSMC, .TP, .TP_CSMC, .MALA_CSMC, .ADAPTED_CSMC, .RW_CSMC, .MALA]

/-- `kernel_maker`: `/repo/experiments/stochastic_volatility/kernels.py:33-50`. -/
def KernelType.kernel_maker (k : KernelType) : Option MakerCall :=
  if k = .TP then some ⟨.get_tp_kernel, none⟩
  else if k = .CSMC then some ⟨.get_csmc_kernel, none⟩
  else if k = .TP_CSMC then some ⟨.get_tp_csmc_kernel, none⟩
  else if k = .MALA_CSMC then some ⟨.get_mala_csmc_kernel, none⟩
  else if k = .ADAPTED_CSMC then some ⟨.get_tp_csmc_kernel, some true⟩
  else if k = .RW_CSMC then some ⟨.get_rw_csmc_kernel, none⟩
  else if k = .MALA then some ⟨.get_mala_kernel, none⟩
  else none

/-- `KERNELS`: `/repo/experiments/stochastic_volatility/distribute.py:14-22`. -/
def KERNELS : List KernelType :=
  [.CSMC,
   .RW_CSMC,
   .TP_CSMC, .TP_CSMC, .TP_CSMC, .TP_CSMC, .TP_CSMC,
   .MALA_CSMC, .MALA_CSMC, .MALA_CSMC, .MALA_CSMC, .MALA_CSMC,
   .ADAPTED_CSMC, .ADAPTED_CSMC, .ADAPTED_CSMC,
   .TP,
   .MALA, .MALA]

/-- `STYLES`: `/repo/experiments/stochastic_volatility/distribute.py:24-32`. -/
def STYLES : List String :=
  ["bootstrap",
   "na",
   "filtering", "marginal", "twisted",
   "filtering", "marginal", "smoothing",
   "filtering", "marginal", "twisted",
   "na",
   "auxiliary", "marginal"]

/-- `zip(KERNELS, STYLES)`: `/repo/experiments/stochastic_volatility/distribute.py:46`. -/
def grid : List (KernelType × String) := KERNELS.zip STYLES

end Sv

end Verif.Model
