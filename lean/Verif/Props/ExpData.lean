import Mathlib.LinearAlgebra.Matrix.PosDef
import Verif.Props.Keys
import Verif.Model.ExpSv
import Verif.Model.ExpGrid

/-!
# C53, C54, C56: data generation, stationarity and the grids of the experiments
-/

namespace Verif.Props
open Verif Verif.Model Verif.Spec Matrix

variable {d T : ℕ}

/-! ## C53: keys of the data generators -/

/-- **C53 is false** for `experiments/lgssm_scaling/model.py:get_data`: `init_key` is used for the initial state and
again for all the noises, and `sampling_key` is never used. -/
theorem C53_lgssm_false (key : Key) (sigma : ℝ) (d T : ℕ) : ¬ FreshKeys key (lg_get_data key sigma d T) := by
  intro h
  have := (h _ [splitKey key 2 0, splitKey key 2 0]
    ⟨fun _ => 0, [splitKey key 2 0], [splitKey key 2 0], rfl,
      ⟨fun _ _ _ => 0, [splitKey key 2 0], [], rfl, ⟨rfl, rfl⟩, rfl⟩, rfl⟩).2
  simp only [List.pairwise_cons, List.mem_singleton, forall_eq] at this
  exact this.1.1 (List.suffix_refl _)

/-- **C53** (`lgssm`): what it consumes on every run, namely twice the same key. -/
theorem C53_lgssm_log (key : Key) (sigma : ℝ) (d T : ℕ) (r : (Fin T → Vec d) × (Fin T → Vec d)) (L : List Key)
    (h : lg_get_data (m := Poss) key sigma d T r L) : L = [key.child 0, key.child 0] := by
  obtain ⟨_, L₁, L₂, h1, ⟨_, L₃, L₄, h3, ⟨_, h5⟩, rfl⟩, rfl⟩ := h
  rw [show L₁ = [key.child 0] from h1, show L₃ = [key.child 0] from h3, h5]
  rfl

/-- **C53** (`experiments/stochastic_volatility/model.py:get_data`): no key is used twice. -/
theorem C53_stochastic_volatility (key : Key) (nu phi tau rho : ℝ) (d T : ℕ) :
    FreshKeys key (sv_get_data key nu phi tau rho d T) := by
  rw [within_iff]
  refine Within.of_splitSet (I := {0} ∪ {1}) ?_
  refine (within_child (within_normal1 _ _)).bind_split (fun e => ?_) (by simp)
  refine Within.bind_pure ?_
  refine within_child (num := 2) (i := 1) ?_
  refine Within.of_splitSet (I := Set.range fun t : Fin T => t.1) ?_
  refine within_scanM_split _ _ _ _ Fin.val_injective fun t c => ?_
  refine Within.of_splitSet (I := {1} ∪ {0}) ?_
  refine (within_child (num := 2) (i := 1) (within_normal1 _ _)).bind_split (fun e => ?_) (by simp)
  exact (within_child (num := 2) (i := 0) (within_normal1 _ _)).bind_pure

/-! ## C54: stationarity -/

/-- **C54** (covariance): `P0` is the stationary covariance of `x' = F x + b + N(0, Q)`. -/
theorem C54_covariance (nu : ℝ) {phi : ℝ} (hphi : phi ^ 2 ≠ 1) (tau rho : ℝ) (d : ℕ) :
    let D := get_dynamics nu phi tau rho d
    D.F * D.P0 * D.Fᵀ + D.Q = D.P0 := by
  have h : (1 : ℝ) - phi ^ 2 ≠ 0 := sub_ne_zero.mpr hphi.symm
  ext i j
  have hF : ∀ P : Mat d d, phi • (1 : Mat d d) * P * (phi • (1 : Mat d d))ᵀ = (phi * phi) • P := fun P => by
    rw [transpose_smul, transpose_one, smul_mul_assoc, one_mul, Matrix.mul_smul, mul_one, smul_smul]
  show (phi • (1 : Mat d d) * (stationary_covariance phi tau rho d).2 * (phi • (1 : Mat d d))ᵀ +
      (stationary_covariance phi tau rho d).1) i j = (stationary_covariance phi tau rho d).2 i j
  rw [hF, Matrix.add_apply, Matrix.smul_apply, smul_eq_mul]
  simp only [stationary_covariance]
  split_ifs <;> field_simp <;> ring

/-- **C54** (mean): `m0` is a fixed point of `x ↦ F x + b` exactly when `phi * nu = 0`: the code returns
`b = mu + F mu` and not `mu - F mu`. -/
theorem C54_mean_iff (nu phi tau rho : ℝ) (hd : 0 < d) :
    let D := get_dynamics nu phi tau rho d
    D.F *ᵥ D.m0 + D.b = D.m0 ↔ phi * nu = 0 := by
  simp only [get_dynamics, smul_mulVec, one_mulVec]
  constructor
  · intro h
    have := congrFun h ⟨0, hd⟩
    simp at this
    linarith
  · intro h
    ext i
    simp
    linarith

/-- **C54 is false**: with `nu = 1` and `phi = 0.9` the initial mean is not stationary, in any dimension. -/
theorem C54_false (hd : 0 < d) :
    ¬ ∀ nu phi tau rho : ℝ, phi ^ 2 ≠ 1 →
      let D := get_dynamics nu phi tau rho d
      D.F *ᵥ D.m0 + D.b = D.m0 ∧ D.F * D.P0 * D.Fᵀ + D.Q = D.P0 := by
  intro h
  have := (C54_mean_iff 1 0.9 1 0 hd).1 (h 1 0.9 1 0 (by norm_num)).1
  norm_num at this

/-- **C54** at the value `NU = 0` used by `experiments/stochastic_volatility/experiment.py:99`: the initial law is
stationary. -/
theorem C54_partial {phi : ℝ} (hphi : phi ^ 2 ≠ 1) (tau rho : ℝ) (d : ℕ) :
    let D := get_dynamics 0 phi tau rho d
    D.F *ᵥ D.m0 + D.b = D.m0 ∧ D.F * D.P0 * D.Fᵀ + D.Q = D.P0 := by
  refine ⟨?_, C54_covariance 0 hphi tau rho d⟩
  simp only [get_dynamics, smul_mulVec, one_mulVec]
  ext i
  simp

example : (0.9 : ℝ) ^ 2 ≠ 1 := by norm_num

/-! ## C56: dispatch and grids -/

/-- **C56** (`lgssm`): every member of `KernelType` has a constructor and a shape of step size, and is enumerated. -/
theorem C56_lgssm_dispatch (k : Lg.KernelType) :
    k ∈ Lg.KernelType.all ∧ k.kernel_maker.isSome ∧ k.shape_delta.isSome ∧ ∃ c ∈ Lg.grid, c.1 = k := by
  cases k <;> decide

/-- **C56** (`lgssm`): `zip` truncates nothing and every configuration is accepted by its constructor. -/
theorem C56_lgssm_grid :
    Lg.grid.length = Lg.KERNELS.length ∧ Lg.grid.length = Lg.STYLES.length ∧ Lg.grid.length = Lg.SCALES.length ∧
      Lg.grid.length = Lg.DELTA_ARGS.length ∧
      ∀ c ∈ Lg.grid, ∃ mk, c.1.kernel_maker = some mk ∧ mk.maker.accepts c.2.1 = true := by
  refine ⟨by decide, by decide, by decide, by decide, ?_⟩
  have : ∀ c ∈ Lg.grid, (c.1.kernel_maker.any fun mk => mk.maker.accepts c.2.1) = true := by decide
  intro c hc
  have := this c hc
  cases hk : c.1.kernel_maker with
  | none => simp [hk] at this
  | some mk => exact ⟨mk, rfl, by simpa [hk] using this⟩

/-- **C56** (`lgssm`): no two configurations coincide. -/
theorem C56_lgssm_nodup : Lg.grid.Nodup := by decide

/-- **C56** (stochastic volatility): every member of `KernelType` has a constructor. -/
theorem C56_sv_dispatch (k : Sv.KernelType) : k ∈ Sv.KernelType.all ∧ k.kernel_maker.isSome := by
  cases k <;> decide

/-- **C56 is false** of `experiments/stochastic_volatility/distribute.py`: `KERNELS` has 18 entries and `STYLES` 14, and
the two lists are not aligned; `zip` silently truncates.  The grid contains configurations that raise
`NotImplementedError`, and some listed kernels are never run. -/
theorem C56_sv_false :
    Sv.KERNELS.length = 18 ∧ Sv.STYLES.length = 14 ∧ Sv.grid.length = 14 ∧
      (∃ c ∈ Sv.grid, ∃ mk, c.1.kernel_maker = some mk ∧ mk.maker.accepts c.2 = false) ∧
      (∃ k ∈ Sv.KERNELS, ∀ c ∈ Sv.grid, c.1 ≠ k) := by
  refine ⟨by decide, by decide, by decide, ⟨(.MALA_CSMC, "twisted"), by decide, ⟨.get_mala_csmc_kernel, none⟩, by decide,
    by decide⟩, ⟨.TP, by decide, by decide⟩⟩

/-- **C56** (stochastic volatility): exactly three of the fourteen configurations are rejected, at positions 10, 11 and
12, and exactly the kernels `TP` and `MALA` are never run. -/
theorem C56_sv_grid_partial :
    (Sv.grid.filter fun c => !(c.1.kernel_maker.any fun mk => mk.maker.accepts c.2)) =
        [(.MALA_CSMC, "twisted"), (.MALA_CSMC, "na"), (.ADAPTED_CSMC, "auxiliary")] ∧
      (Sv.KernelType.all.filter fun k => !(Sv.grid.any fun c => c.1 = k)) = [.TP, .MALA] := by
  constructor <;> decide

end Verif.Props
