import Mathlib.Data.Fin.Tuple.Basic
import Mathlib.Data.Fin.Rev
import Mathlib.Data.Real.Basic
import Mathlib.Data.Finset.Max
import Mathlib.Data.Fintype.Basic
import Mathlib.Algebra.BigOperators.Fin

/-!
# Arrays and scans

Numpy/JAX array primitives used by the python code, as total functions on `Fin n → α`.
The leading axis of an array of shape `(n, ...)` is `Fin n`.
-/

namespace Verif

/-- `jnp.insert(a, 0, v, axis=0)` (e.g. `/repo/gradient_csmc/csmc.py:170-171, 242-243, 290-291`). -/
def insert0 {α : Type} {n : ℕ} (v : α) (a : Fin n → α) : Fin (n + 1) → α :=
  Fin.cons (α := fun _ => α) v a

/-- `a[::-1]` (e.g. `/repo/gradient_csmc/csmc.py:245, 292`). -/
def rev {α : Type} {n : ℕ} (a : Fin n → α) : Fin n → α := fun i => a i.rev

/-- `a[:-1]` for an array of length `n+1` (e.g. `/repo/gradient_csmc/csmc.py:165`, `b_star[:-1]`). -/
def initA {α : Type} {n : ℕ} (a : Fin (n + 1) → α) : Fin n → α := fun i => a i.castSucc

/-- `a[1:]` for an array of length `n+1` (e.g. `/repo/gradient_csmc/csmc.py:165`, `b_star[1:]`). -/
def tailA {α : Type} {n : ℕ} (a : Fin (n + 1) → α) : Fin n → α := fun i => a i.succ

/-- `a[-1]` for an array of length `n+1` (e.g. `/repo/gradient_csmc/csmc.py:220`, `log_ws[-1]`). -/
def lastA {α : Type} {n : ℕ} (a : Fin (n + 1) → α) : α := a (Fin.last n)

/-- `a[-2::-1]` for an array of length `n+1`: everything but the last entry, reversed
(`/repo/gradient_csmc/csmc.py:236, 289`). -/
def revInit {α : Type} {n : ℕ} (a : Fin (n + 1) → α) : Fin n → α := rev (initA a)

/-- Appending at the end (specification side only). -/
def snocA {α : Type} {n : ℕ} (a : Fin n → α) (v : α) : Fin (n + 1) → α :=
  Fin.snoc (α := fun _ => α) a v

/-- `a.at[i].set(v)` (e.g. `/repo/gradient_csmc/csmc.py:129, 151`). -/
def atSet {α : Type} {n : ℕ} (a : Fin n → α) (i : Fin n) (v : α) : Fin n → α :=
  Function.update a i v

/-- `jnp.take(a, idx, axis=0)` (e.g. `/repo/gradient_csmc/csmc.py:146`). -/
def take {α : Type} {n k : ℕ} (a : Fin n → α) (idx : Fin k → Fin n) : Fin k → α := fun i => a (idx i)

/-- `jnp.roll(a, s)`: entry `k` of the result is entry `(k - s) mod n` of `a`
(`/repo/gradient_csmc/utils/resamplings.py:82`).  Only the residue of the shift matters, so the
shift is taken in `Fin n` (arithmetic modulo `n`). -/
def roll {α : Type} {n : ℕ} (a : Fin (n + 1) → α) (s : Fin (n + 1)) : Fin (n + 1) → α :=
  fun k => a (k - s)

/-- `a.max()` / `jnp.max(a)` of a non-empty real vector
(e.g. `/repo/gradient_csmc/utils/resamplings.py:63`, `/repo/gradient_csmc/csmc.py:226`). -/
noncomputable def maxA {n : ℕ} (a : Fin (n + 1) → ℝ) : ℝ :=
  Finset.univ.sup' Finset.univ_nonempty a

/-- `jax.lax.scan(body, init, inputs)` with an effectful body: the carry is threaded through the
leading axis from `0` to `n-1`, the per-step outputs are stacked
(e.g. `/repo/gradient_csmc/csmc.py:166-168`). -/
def scanM {m : Type → Type} [Monad m] {C I O : Type} (body : C → I → m (C × O)) :
    {n : ℕ} → C → (Fin n → I) → m (C × (Fin n → O))
  | 0, c, _ => pure (c, Fin.elim0)
  | _ + 1, c, inp => do
    let r ← body c (inp 0)
    let rs ← scanM body r.1 (tailA inp)
    pure (rs.1, insert0 r.2 rs.2)

/-- `jax.lax.scan` with a pure body. -/
def scan {C I O : Type} (body : C → I → C × O) : {n : ℕ} → C → (Fin n → I) → C × (Fin n → O)
  | 0, c, _ => (c, Fin.elim0)
  | _ + 1, c, inp =>
    let r := body c (inp 0)
    let rs := scan body r.1 (tailA inp)
    (rs.1, insert0 r.2 rs.2)

/-! ### Elementary lemmas -/

section lemmas
variable {α β : Type} {n : ℕ}

@[simp] theorem insert0_zero (v : α) (a : Fin n → α) : insert0 v a 0 = v := rfl
@[simp] theorem insert0_succ (v : α) (a : Fin n → α) (i : Fin n) : insert0 v a i.succ = a i := rfl
@[simp] theorem tailA_insert0 (v : α) (a : Fin n → α) : tailA (insert0 v a) = a := rfl
@[simp] theorem insert0_tailA (a : Fin (n + 1) → α) : insert0 (a 0) (tailA a) = a := by
  funext i; refine Fin.cases ?_ (fun j => ?_) i <;> rfl
@[simp] theorem rev_apply (a : Fin n → α) (i : Fin n) : rev a i = a i.rev := rfl
@[simp] theorem rev_rev (a : Fin n → α) : rev (rev a) = a := by funext i; simp
@[simp] theorem initA_apply (a : Fin (n + 1) → α) (i : Fin n) : initA a i = a i.castSucc := rfl
@[simp] theorem tailA_apply (a : Fin (n + 1) → α) (i : Fin n) : tailA a i = a i.succ := rfl
@[simp] theorem snocA_last (a : Fin n → α) (v : α) : snocA a v (Fin.last n) = v := by simp [snocA]
@[simp] theorem snocA_castSucc (a : Fin n → α) (v : α) (i : Fin n) : snocA a v i.castSucc = a i := by
  simp [snocA]
@[simp] theorem initA_snocA (a : Fin n → α) (v : α) : initA (snocA a v) = a := by funext i; simp
@[simp] theorem lastA_snocA (a : Fin n → α) (v : α) : lastA (snocA a v) = v := by simp [lastA]
@[simp] theorem snocA_initA (a : Fin (n + 1) → α) : snocA (initA a) (lastA a) = a := by
  funext i; refine Fin.lastCases ?_ (fun j => ?_) i <;> simp [lastA]
@[simp] theorem atSet_same (a : Fin n → α) (i : Fin n) (v : α) : atSet a i v i = v := by simp [atSet]
theorem atSet_ne (a : Fin n → α) {i k : Fin n} (v : α) (h : k ≠ i) : atSet a i v k = a k := by
  simp [atSet, h]
theorem atSet_apply (a : Fin n → α) (i k : Fin n) (v : α) :
    atSet a i v k = if k = i then v else a k := by
  by_cases h : k = i
  · subst h; simp
  · simp [h, atSet_ne]
@[simp] theorem atSet_self (a : Fin n → α) (i : Fin n) : atSet a i (a i) = a := by simp [atSet]
@[simp] theorem take_apply {k : ℕ} (a : Fin n → α) (idx : Fin k → Fin n) (i : Fin k) :
    take a idx i = a (idx i) := rfl
@[simp] theorem roll_apply (a : Fin (n + 1) → α) (s k : Fin (n + 1)) : roll a s k = a (k - s) := rfl

theorem rev_insert0 (v : α) (a : Fin n → α) : rev (insert0 v a) = snocA (rev a) v := by
  funext i
  refine Fin.lastCases ?_ (fun j => ?_) i
  · simp
  · simp [Fin.rev_castSucc]

theorem rev_snocA (v : α) (a : Fin n → α) : rev (snocA a v) = insert0 v (rev a) := by
  have := rev_insert0 v (rev a)
  rw [rev_rev] at this
  rw [← this, rev_rev]

@[simp] theorem tailA_snocA (a : Fin (n + 1) → α) (v : α) :
    tailA (snocA a v) = snocA (tailA a) v := by
  funext i
  refine Fin.lastCases ?_ (fun j => ?_) i
  · simp only [tailA_apply, Fin.succ_last, snocA_last]
  · rw [tailA_apply, Fin.succ_castSucc, snocA_castSucc, snocA_castSucc, tailA_apply]

theorem insert0_snocA (u v : α) (a : Fin n → α) :
    insert0 u (snocA a v) = snocA (insert0 u a) v := by
  funext i
  refine Fin.lastCases ?_ (fun j => ?_) i
  · rw [snocA_last, ← Fin.succ_last, insert0_succ, snocA_last]
  · refine Fin.cases ?_ (fun k => ?_) j
    · simp only [Fin.castSucc_zero, insert0_zero]
      exact (snocA_castSucc (insert0 u a) v 0).symm
    · rw [snocA_castSucc, ← Fin.succ_castSucc, insert0_succ, insert0_succ, snocA_castSucc]

theorem maxA_mem (a : Fin (n + 1) → ℝ) : ∃ k, maxA a = a k := by
  obtain ⟨k, _, hk⟩ := Finset.exists_mem_eq_sup' Finset.univ_nonempty a
  exact ⟨k, hk⟩

theorem le_maxA (a : Fin (n + 1) → ℝ) (k : Fin (n + 1)) : a k ≤ maxA a :=
  Finset.le_sup' a (Finset.mem_univ k)

end lemmas

section scan
variable {m : Type → Type} [Monad m] [LawfulMonad m] {C I O : Type}

omit [LawfulMonad m] in
theorem scanM_zero (body : C → I → m (C × O)) (c : C) (inp : Fin 0 → I) :
    scanM body c inp = pure (c, Fin.elim0) := rfl

omit [LawfulMonad m] in
theorem scanM_succ {n : ℕ} (body : C → I → m (C × O)) (c : C) (inp : Fin (n + 1) → I) :
    scanM body c inp = (do
      let r ← body c (inp 0)
      let rs ← scanM body r.1 (tailA inp)
      pure (rs.1, insert0 r.2 rs.2)) := rfl

/-- A scan can be unrolled from its last step. -/
theorem scanM_snoc {n : ℕ} (body : C → I → m (C × O)) (c : C) (inp : Fin (n + 1) → I) :
    scanM body c inp = (do
      let rs ← scanM body c (initA inp)
      let r ← body rs.1 (lastA inp)
      pure (r.1, snocA rs.2 r.2)) := by
  induction n generalizing c with
  | zero =>
    have h0 : lastA inp = inp 0 := rfl
    rw [scanM_succ, h0]
    simp only [scanM_zero, pure_bind]
    congr 1; funext r; congr 2; funext i
    have hi : i = Fin.last 0 := Fin.ext (by omega)
    rw [hi, snocA_last]; rfl
  | succ k ih =>
    rw [scanM_succ, scanM_succ body c (initA inp)]
    conv_lhs => simp only [ih]
    simp only [bind_assoc, pure_bind, initA_apply, Fin.castSucc_zero]
    congr 1; funext r
    have h1 : initA (tailA inp) = tailA (initA inp) := rfl
    have h2 : lastA (tailA inp) = lastA inp := rfl
    rw [h1, h2]
    congr 1; funext rs
    congr 1; funext q
    rw [insert0_snocA]

omit [Monad m] [LawfulMonad m] in
theorem scan_succ {n : ℕ} (body : C → I → C × O) (c : C) (inp : Fin (n + 1) → I) :
    scan body c inp = ((scan body (body c (inp 0)).1 (tailA inp)).1,
      insert0 (body c (inp 0)).2 (scan body (body c (inp 0)).1 (tailA inp)).2) := rfl

theorem scan_snoc {n : ℕ} (body : C → I → C × O) (c : C) (inp : Fin (n + 1) → I) :
    scan body c inp =
      ((body (scan body c (initA inp)).1 (lastA inp)).1,
        snocA (scan body c (initA inp)).2 (body (scan body c (initA inp)).1 (lastA inp)).2) := by
  induction n generalizing c with
  | zero =>
    have h0 : lastA inp = inp 0 := rfl
    rw [h0]
    simp only [scan]
    congr 1; funext i
    have hi : i = Fin.last 0 := Fin.ext (by omega)
    rw [hi, snocA_last]; rfl
  | succ k ih =>
    rw [scan_succ, scan_succ body c (initA inp)]
    conv_lhs => simp only [ih]
    simp only [initA_apply, Fin.castSucc_zero]
    have h1 : initA (tailA inp) = tailA (initA inp) := rfl
    have h2 : lastA (tailA inp) = lastA inp := rfl
    rw [h1, h2, insert0_snocA]

theorem scanM_pure {n : ℕ} (body : C → I → C × O) (c : C) (inp : Fin n → I) :
    scanM (m := m) (fun c i => pure (body c i)) c inp = pure (scan body c inp) := by
  induction n generalizing c with
  | zero => rfl
  | succ k ih => rw [scanM_succ]; simp [ih, scan]

end scan

end Verif
