import Verif.Lemmas.ScanReads

/-!
# The scans over time read the entries they should, for three or more time steps (C112)
-/

namespace Verif.Props
open Verif Verif.Spec Verif.Model

variable {α : Type} {n : ℕ}

/-- **C112** (arrays): the operations on arrays of the model are the slices of python. -/
theorem C112_arrays (a : Fin (n + 1) → α) :
    List.ofFn (initA a) = pySlice (List.ofFn a) none (some (-1)) ∧ List.ofFn (tailA a) = pySlice (List.ofFn a) (some 1) none ∧
    List.ofFn (rev a) = pyDown (List.ofFn a) (-1) ∧ List.ofFn (revInit a) = pyDown (List.ofFn a) (-2) ∧ some (lastA a) = pyAt (List.ofFn a) (-1) := by
  refine ⟨?_, ?_, ?_, ?_, ?_⟩
  · rw [show (-1 : ℤ) = -((1 : ℕ) : ℤ) by rfl, pySlice_to_neg _ _ one_pos]
    refine List.ext_getElem (by simp [-List.ofFn_succ]) fun i h1 h2 => ?_
    simp [-List.ofFn_succ, initA]
  · rw [show (1 : ℤ) = ((1 : ℕ) : ℤ) by rfl, pySlice_from]
    refine List.ext_getElem (by simp [-List.ofFn_succ]) fun i h1 h2 => ?_
    simp [-List.ofFn_succ, tailA]
  · rw [show (-1 : ℤ) = -((0 : ℕ) : ℤ) - 1 by rfl, pyDown_neg]
    refine List.ext_getElem (by simp [-List.ofFn_succ]) fun i h1 h2 => ?_
    simp only [List.length_ofFn] at h1
    simp only [List.getElem_ofFn, rev, Fin.rev, List.getElem_reverse, List.getElem_take, List.length_take, List.length_ofFn]
    congr 1
    simp only [Fin.mk.injEq]
    omega
  · rw [show (-2 : ℤ) = -((1 : ℕ) : ℤ) - 1 by rfl, pyDown_neg]
    refine List.ext_getElem (by simp [-List.ofFn_succ]) fun i h1 h2 => ?_
    simp only [List.length_ofFn] at h1
    simp only [List.getElem_ofFn, revInit, rev, initA, Fin.rev, List.getElem_reverse, List.getElem_take, List.length_take, List.length_ofFn]
    congr 1
    simp only [Fin.castSucc_mk, Fin.mk.injEq]
    omega
  · rw [show (-1 : ℤ) = -((0 : ℕ) : ℤ) - 1 by rfl, pyAt_neg _ _ (by simp)]
    simp [-List.ofFn_succ, lastA, Fin.last]

/-- **C112** (arrays, smoothing gradients): the compositions used in `al_csmc_s` and `atp_csmc_s`. -/
theorem C112_arrays_smooth (a : Fin (n + 2) → α) :
    List.ofFn (initA (initA a)) = pySlice (List.ofFn a) none (some (-2)) ∧ List.ofFn (tailA (initA a)) = pySlice (List.ofFn a) (some 1) (some (-1)) ∧
    List.ofFn (tailA (tailA a)) = pySlice (List.ofFn a) (some 2) none ∧ some (last2A a) = pyAt (List.ofFn a) (-2) := by
  refine ⟨?_, ?_, ?_, ?_⟩
  · rw [show (-2 : ℤ) = -((2 : ℕ) : ℤ) by rfl, pySlice_to_neg _ _ two_pos]
    refine List.ext_getElem (by simp [-List.ofFn_succ]) fun i h1 h2 => ?_
    simp [-List.ofFn_succ, initA]
  · rw [show (-1 : ℤ) = -((1 : ℕ) : ℤ) by rfl, show (1 : ℤ) = ((1 : ℕ) : ℤ) by rfl, pySlice_neg _ _ _ one_pos]
    refine List.ext_getElem (by simp [-List.ofFn_succ]) fun i h1 h2 => ?_
    simp [-List.ofFn_succ, initA, tailA]
  · rw [show (2 : ℤ) = ((2 : ℕ) : ℤ) by rfl, pySlice_from]
    refine List.ext_getElem (by simp [-List.ofFn_succ]) fun i h1 h2 => ?_
    simp [-List.ofFn_succ, tailA, add_comm 2]
  · rw [show (-2 : ℤ) = -((1 : ℕ) : ℤ) - 1 by rfl, pyAt_neg _ _ (by simp)]
    simp [-List.ofFn_succ, last2A, lastA, initA, Fin.last]

/-- **C112** (arrays, smoothing gradients). -/
theorem C112_arrays_three (a : Fin (n + 3) → α) : List.ofFn (tailA (initA (initA a))) = pySlice (List.ofFn a) (some 1) (some (-2)) := by
  rw [show (-2 : ℤ) = -((2 : ℕ) : ℤ) by rfl, show (1 : ℤ) = ((1 : ℕ) : ℤ) by rfl, pySlice_neg _ _ _ two_pos]
  refine List.ext_getElem (by simp [-List.ofFn_succ]) fun i h1 h2 => ?_
  simp [-List.ofFn_succ, initA, tailA]

/-- **C112** (arrays, thinning): the samples kept by the sampling routines are those of the steps that are multiples of `get_samples`. -/
theorem C112_stride {g : ℕ} (hg : 0 < g) (a : Fin n → α) : List.ofFn (strideA g a) = pyStride (List.ofFn a) g := by
  rw [pyStride, List.length_ofFn, multiples_eq hg, List.filterMap_map]
  have h : ∀ i ∈ List.range (strideLen n g), ((fun i => (List.ofFn a)[i]?) ∘ (· * g)) i = if h : i < strideLen n g then some (strideA g a ⟨i, h⟩) else none := by
    intro i hi
    have hi := List.mem_range.mp hi
    have hl := strideLen_lt ⟨i, hi⟩
    simp only [Function.comp, dif_pos hi, strideA, List.getElem?_ofFn]
    simp only at hl
    rw [dif_pos hl]
  rw [List.filterMap_congr h]
  refine List.ext_getElem? fun i => ?_
  have e : List.ofFn (strideA g a) = (List.range (strideLen n g)).filterMap fun i => if h : i < strideLen n g then some (strideA g a ⟨i, h⟩) else none := by
    rw [List.ofFn_eq_map, ← List.map_coe_finRange_eq_range, List.filterMap_map]
    simp
  rw [e]

/-- **C112** (scans): a scan runs exactly if all arrays have the same length, for as many iterations; otherwise it stops with an error. -/
theorem C112_scan (n : ℕ) (ns : List ℕ) : scanLen (n :: ns) = if ∀ k ∈ ns, k = n then .ok n else .error scanLengths := by
  simp [scanLen]

/-- **C112** (`csmc.forward_pass`): for every number of time steps, iteration `k` reads the parameters and the key of transition `k`, the indices of the
reference at times `k` and `k + 1`, and its state at time `k + 1`. -/
theorem C112_csmc_forward {T : ℕ} (hT : 1 ≤ T) : csmcFwdReads T = .ok ((List.range (T - 1)).map fun k => ⟨k, k, k + 1, k, k + 1⟩) := by
  obtain ⟨n, rfl⟩ := Nat.exists_eq_add_of_le' hT
  have e1 : pySlice (List.range (n + 1)) none (some (-1)) = List.range n := by
    rw [show (-1 : ℤ) = -((1 : ℕ) : ℤ) by rfl, pySlice_to_neg _ _ one_pos]
    simp [List.take_range]
  have e2 : pySlice (List.range (n + 1)) (some 1) none = (List.range n).map (· + 1) := by
    rw [show (1 : ℤ) = ((1 : ℕ) : ℤ) by rfl, pySlice_from]
    refine List.ext_getElem (by simp) fun i h1 h2 => ?_
    simp [add_comm]
  simp only [csmcFwdReads, e1, e2, List.length_range, List.length_map, Nat.add_sub_cancel, scanLen, List.all_cons, List.all_nil, beq_self_eq_true,
    Bool.and_true, if_true, pure, Except.pure, bind, Except.bind]
  refine congrArg Except.ok (List.map_congr_left fun k hk => ?_)
  have hk := List.mem_range.mp hk
  simp [hk]

/-- **C112** (`csmc.backward_sampling_pass`): for every number of time steps, iteration `k` reads key `k`, the particles and weights of time `T - 2 - k` and
the parameters of the transition out of it. -/
theorem C112_csmc_backward {T : ℕ} (hT : 1 ≤ T) :
    csmcBwdReads T = .ok ((List.range (T - 1)).map fun k => ⟨k, T - 2 - k, T - 2 - k, T - 2 - k⟩) := by
  obtain ⟨n, rfl⟩ := Nat.exists_eq_add_of_le' hT
  have e1 : pySlice (List.range (n + 1)) none (some (-1)) = List.range n := by
    rw [show (-1 : ℤ) = -((1 : ℕ) : ℤ) by rfl, pySlice_to_neg _ _ one_pos]
    simp [List.take_range]
  have e2 : pyDown (List.range n) (-1) = (List.range n).reverse := by
    rw [show (-1 : ℤ) = -((0 : ℕ) : ℤ) - 1 by rfl, pyDown_neg]
    simp [List.take_range]
  have e3 : pyDown (List.range (n + 1)) (-2) = (List.range n).reverse := by
    rw [show (-2 : ℤ) = -((1 : ℕ) : ℤ) - 1 by rfl, pyDown_neg]
    simp [List.take_range]
  simp only [csmcBwdReads, e1, e2, e3, List.length_range, List.length_reverse, Nat.add_sub_cancel, scanLen, List.all_cons, List.all_nil,
    beq_self_eq_true, Bool.and_true, if_true, pure, Except.pure, bind, Except.bind]
  refine congrArg Except.ok (List.map_congr_left fun k hk => ?_)
  have hk := List.mem_range.mp hk
  simp [hk]

/-- **C112** (`csmc.backward_scanning_pass`): iteration `k` reads the particles of time `T - 2 - k` and the ancestors of the particles of the time after. -/
theorem C112_csmc_scanning {T : ℕ} (hT : 1 ≤ T) : csmcScanReads T = .ok ((List.range (T - 1)).map fun k => (T - 2 - k, T - 2 - k)) := by
  obtain ⟨n, rfl⟩ := Nat.exists_eq_add_of_le' hT
  have e2 : pyDown (List.range n) (-1) = (List.range n).reverse := by
    rw [show (-1 : ℤ) = -((0 : ℕ) : ℤ) - 1 by rfl, pyDown_neg]
    simp [List.take_range]
  have e3 : pyDown (List.range (n + 1)) (-2) = (List.range n).reverse := by
    rw [show (-2 : ℤ) = -((1 : ℕ) : ℤ) - 1 by rfl, pyDown_neg]
    simp [List.take_range]
  simp only [csmcScanReads, e2, e3, List.length_range, List.length_reverse, Nat.add_sub_cancel, scanLen, List.all_cons, List.all_nil,
    beq_self_eq_true, Bool.and_true, if_true, pure, Except.pure, bind, Except.bind]
  refine congrArg Except.ok (List.map_congr_left fun k hk => ?_)
  have hk := List.mem_range.mp hk
  simp [hk]

/-- **C112** (`sampling_routine`): it accepts exactly the kernels that return as many states as they are given. -/
theorem C112_shape (T : ℕ) (times : Except String (List ℕ)) : routineShape T times = .ok () ↔ ∃ l, times = .ok l ∧ l.length = T := by
  cases times with
  | error e => simp [routineShape, bind, Except.bind]
  | ok l =>
    simp only [routineShape, bind, Except.bind, pure, Except.pure, Except.ok.injEq, exists_eq_left']
    split_ifs with h1 h2
    · simp [h1.1]
    · simp [h2]
    · simpa using h2

/-- **C112** (`csmc.backward_sampling_pass`): the states returned are those of times `0, ..., T - 1`, in this order, and the sampling routine accepts them. -/
theorem C112_csmc_times {T : ℕ} (hT : 1 ≤ T) : csmcBwdTimes T = .ok (List.range T) ∧ routineShape T (csmcBwdTimes T) = .ok () := by
  have h : csmcBwdTimes T = .ok (List.range T) := by
    obtain ⟨n, rfl⟩ := Nat.exists_eq_add_of_le' hT
    have e1 : pyAt (List.range (n + 1)) (-1) = some n := by
      rw [show (-1 : ℤ) = -((0 : ℕ) : ℤ) - 1 by rfl, pyAt_neg _ _ (by simp)]
      simp
    simp only [csmcBwdTimes, C112_csmc_backward hT, e1, Option.getD_some, pure, Except.pure, bind, Except.bind]
    rw [show (-1 : ℤ) = -((0 : ℕ) : ℤ) - 1 by rfl, pyDown_neg, Nat.sub_zero, List.take_length]
    refine congrArg Except.ok ?_
    rw [List.reverse_cons, List.map_map, Nat.add_sub_cancel, List.range_succ]
    congr 1
    refine List.ext_getElem (by simp) fun i h1 h2 => ?_
    have hi : i < n := by simpa using h2
    simp
    omega
  exact ⟨h, by simp [routineShape, h, pure, Except.pure, bind, Except.bind]⟩

/-- The slices of the backward sampling pass with smoothing gradients. -/
theorem smooth_slices (n : ℕ) :
    pySlice (List.range (n + 3)) (some 1) (some (-2)) = (List.range n).map (· + 1) ∧ pySlice (List.range (n + 2)) none (some (-2)) = List.range n ∧
    pySlice (List.range (n + 2)) (some 1) (some (-1)) = (List.range n).map (· + 1) ∧
    pySlice (List.range (n + 2)) (some 2) none = (List.range n).map (· + 2) := by
  refine ⟨?_, ?_, ?_, ?_⟩
  · rw [show (-2 : ℤ) = -((2 : ℕ) : ℤ) by rfl, show (1 : ℤ) = ((1 : ℕ) : ℤ) by rfl, pySlice_neg _ _ _ two_pos]
    refine List.ext_getElem (by simp) fun i h1 h2 => ?_
    simp [add_comm]
  · rw [show (-2 : ℤ) = -((2 : ℕ) : ℤ) by rfl, pySlice_to_neg _ _ two_pos]
    simp [List.take_range]
  · rw [show (-1 : ℤ) = -((1 : ℕ) : ℤ) by rfl, show (1 : ℤ) = ((1 : ℕ) : ℤ) by rfl, pySlice_neg _ _ _ one_pos]
    refine List.ext_getElem (by simp) fun i h1 h2 => ?_
    simp [add_comm]
  · rw [show (2 : ℤ) = ((2 : ℕ) : ℤ) by rfl, pySlice_from]
    refine List.ext_getElem (by simp) fun i h1 h2 => ?_
    simp [add_comm]

/-- **C112** (`al_csmc_s`, forward pass): for two or more time steps, iteration `k` reads the parameters of the transitions into times `k + 1` and `k + 2`, the
particles of time `k + 2`, the indices of the reference at times `k + 1` and `k + 2`, and key `k + 4` of the `T + 2` keys. -/
theorem C112_smooth_forward {T : ℕ} (hT : 2 ≤ T) :
    smoothFwdReads T = .ok ((List.range (T - 2)).map fun k => ⟨k, k + 1, k + 2, k + 1, k + 2, k + 4⟩) := by
  obtain ⟨n, rfl⟩ := Nat.exists_eq_add_of_le' hT
  have drop (a m : ℕ) : pySlice (List.range (m + a)) (some (a : ℤ)) none = (List.range m).map (· + a) := by
    rw [pySlice_from]
    refine List.ext_getElem (by simp) fun i h1 h2 => ?_
    simp [add_comm]
  have e1 : pySlice (List.range (n + 1)) none (some (-1)) = List.range n := by
    rw [show (-1 : ℤ) = -((1 : ℕ) : ℤ) by rfl, pySlice_to_neg _ _ one_pos]
    simp [List.take_range]
  have e2 : pySlice (List.range (n + 1)) (some 1) none = (List.range n).map (· + 1) := drop 1 n
  have e3 : pySlice (List.range (n + 2)) (some 2) none = (List.range n).map (· + 2) := drop 2 n
  have e4 : pySlice (List.range (n + 2)) (some 1) (some (-1)) = (List.range n).map (· + 1) := (smooth_slices n).2.2.1
  have e5 : pySlice (pySlice (List.range (n + 2 + 2)) (some 3) none) (some 1) none = (List.range n).map (· + 4) := by
    rw [show (3 : ℤ) = ((3 : ℕ) : ℤ) by rfl, show (1 : ℤ) = ((1 : ℕ) : ℤ) by rfl, pySlice_from, pySlice_from, List.drop_drop]
    refine List.ext_getElem (by simp) fun i h1 h2 => ?_
    simp [add_comm]
  have e0 : n + 2 - 1 = n + 1 := rfl
  simp only [smoothFwdReads, e0, e1, e2, e3, e4, e5, List.length_range, List.length_map, Nat.add_sub_cancel, scanLen, List.all_cons, List.all_nil,
    beq_self_eq_true, Bool.and_true, if_true, pure, Except.pure, bind, Except.bind]
  refine congrArg Except.ok (List.map_congr_left fun k hk => ?_)
  have hk := List.mem_range.mp hk
  simp [hk]

/-- **C112** (`al_csmc_s`, `atp_csmc_s`): for three or more time steps, the iteration at position `k` reads the particles, the weights and the key of time
`k + 1`, the parents (entry `k`) of those particles, and the parameters of the transitions into times `k + 1`, `k + 2` and `k + 3`. -/
theorem C112_smooth_reads {T : ℕ} (hT : 3 ≤ T) :
    smoothBwdReads T = .ok ((List.range (T - 3)).map fun k => ⟨k + 1, k, k + 1, k + 1, k, k + 1, k + 2⟩) := by
  obtain ⟨n, rfl⟩ := Nat.exists_eq_add_of_le' hT
  obtain ⟨e1, e2, e3, e4⟩ := smooth_slices n
  have e0 : n + 3 - 1 = n + 2 := rfl
  simp only [smoothBwdReads, e0, e1, e2, e3, e4, List.length_range, List.length_map, Nat.add_sub_cancel, scanLen, List.all_cons, List.all_nil,
    beq_self_eq_true, Bool.and_true, if_true, pure, Except.pure, bind, Except.bind]
  refine congrArg Except.ok (List.map_congr_left fun k hk => ?_)
  have hk := List.mem_range.mp hk
  simp [hk]

/-- **C112** (`al_csmc_s`, `atp_csmc_s`): for three or more time steps the states returned are those of times `0, ..., T - 1`, in this order. -/
theorem C112_smooth_times {T : ℕ} (hT : 3 ≤ T) : smoothBwdTimes T = .ok (List.range T) := by
  obtain ⟨n, rfl⟩ := Nat.exists_eq_add_of_le' hT
  have e1 : pyAt (List.range (n + 3)) (-1) = some (n + 2) := by
    rw [show (-1 : ℤ) = -((0 : ℕ) : ℤ) - 1 by rfl, pyAt_neg _ _ (by simp)]
    simp
  have e2 : pyAt (List.range (n + 3)) (-2) = some (n + 1) := by
    rw [show (-2 : ℤ) = -((1 : ℕ) : ℤ) - 1 by rfl, pyAt_neg _ _ (by simp)]
    simp
  simp only [smoothBwdTimes, C112_smooth_reads hT, e1, e2, Option.getD_some, pure, Except.pure, bind, Except.bind, List.map_map, Nat.add_sub_cancel]
  refine congrArg Except.ok ?_
  have h1 : List.map ((fun r : SmoothRead => r.xs) ∘ fun k => ⟨k + 1, k, k + 1, k + 1, k, k + 1, k + 2⟩) (List.range n) = (List.range n).map Nat.succ := rfl
  rw [h1, List.range_succ, List.range_succ, List.range_succ_eq_map]
  simp

/-- **C112** (two time steps): the pass returns three states, two of them of time zero. -/
theorem C112_two : smoothBwdTimes 2 = .ok [0, 0, 1] := by decide

/-- **C112** (exact condition): with two or more time steps, a run of `sampling_routine` over these kernels with backward sampling gets past its first step
if and only if there are at least three. -/
theorem C112_routine {T : ℕ} (hT : 2 ≤ T) : routineShape T (smoothBwdTimes T) = if 3 ≤ T then .ok () else .error badBroadcast := by
  split_ifs with h
  · simp [routineShape, C112_smooth_times h, pure, Except.pure, bind, Except.bind]
  · obtain rfl : T = 2 := by omega
    rw [C112_two]
    rfl

/-- Four time steps. -/
example : smoothFwdReads 4 = .ok [⟨0, 1, 2, 1, 2, 4⟩, ⟨1, 2, 3, 2, 3, 5⟩] ∧ smoothBwdReads 4 = .ok [⟨1, 0, 1, 1, 0, 1, 2⟩] ∧ smoothBwdTimes 4 = .ok [0, 1, 2, 3] := by decide

/-- Three time steps of `csmc`. -/
example : csmcFwdReads 3 = .ok [⟨0, 0, 1, 0, 1⟩, ⟨1, 1, 2, 1, 2⟩] ∧ csmcBwdReads 3 = .ok [⟨0, 1, 1, 1⟩, ⟨1, 0, 0, 0⟩] ∧
    csmcScanReads 3 = .ok [(1, 1), (0, 0)] ∧
    csmcBwdTimes 3 = .ok [0, 1, 2] := by decide

/-- An array of four entries. -/
example : pyStride [5, 6, 7, 8, 9] 2 = [5, 7, 9] ∧ pySlice [5, 6, 7, 8] (some 1) (some (-2)) = [6] ∧ pyDown [5, 6, 7, 8] (-2) = [7, 6, 5] ∧ pySlice [5] none (some (-2)) = ([] : List ℕ) := by decide

end Verif.Props
