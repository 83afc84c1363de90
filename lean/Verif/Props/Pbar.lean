import Verif.Core.Rand
import Verif.Model.Mcmc
import Verif.Lemmas.Pbar

/-!
# Properties of `utils/pbar.py` (C51)
-/

namespace Verif.Props
open Verif Verif.Model Verif.Spec

variable {m : Type → Type} [Monad m] [LawfulMonad m] {C I O V : Type}

/-- **C51** (transparency): removing the callbacks gives back the scan of the undecorated body, whatever the
inputs, the carry and the number of iterations announced. -/
theorem C51_transparent (num_samples : ℕ) (shown : Option (C → V)) (func : C → ℕ × I → m (C × O)) {k : ℕ}
    (c : C) (log : List (PbarEvent V)) (inp : Fin k → ℕ × I) :
    (fun r => (r.1.1, r.2)) <$> scanM (progress_bar_scan num_samples shown func) (c, log) inp =
      scanM func c inp := by
  induction k generalizing c log with
  | zero => simp [scanM_zero]
  | succ k ih =>
    rw [scanM_succ, scanM_succ]
    simp only [progress_bar_scan, map_bind, bind_assoc, pure_bind, map_pure]
    congr 1; funext r
    rw [← ih r.1 (log ++ pbarUpdate num_samples (inp 0).1 (Option.map (fun s => s c) shown) ++
                pbarClose num_samples (inp 0).1) (tailA inp)]
    simp only [map_eq_bind_pure_comp, bind_assoc, Function.comp, pure_bind]

/-- The callbacks of `k` iterations from iteration `t`, replayed on a bar. -/
theorem pbar_replay (n : ℕ) (shown : Option (C → V)) (func : C → ℕ × I → m (C × O)) {k : ℕ} (t : ℕ)
    (hk : t + k ≤ n) (c : C) (log : List (PbarEvent V)) (hlog : Bar.absent.run log = some (barAt n t))
    (x : Fin k → I) :
    (fun r => (r.1.1, r.2, Bar.absent.run r.1.2)) <$>
        scanM (progress_bar_scan n shown func) (c, log) (fun i => (t + i.1, x i)) =
      (fun r => (r.1, r.2, some (barAt n (t + k)))) <$> scanM func c (fun i => (t + i.1, x i)) := by
  induction k generalizing t c log with
  | zero => simp [scanM_zero, hlog]
  | succ k ih =>
    rw [scanM_succ, scanM_succ]
    simp only [progress_bar_scan, map_bind, bind_assoc, pure_bind, map_pure, Fin.val_zero, Nat.add_zero]
    congr 1; funext r
    have hstep : Bar.absent.run (log ++ pbarUpdate n t (Option.map (fun s => s c) shown) ++ pbarClose n t) =
        some (barAt n (t + 1)) := by
      rw [List.append_assoc, Bar.run_append, hlog]
      exact run_iter (by omega) _
    have h := ih (t + 1) (by omega) r.1 _ hstep (tailA x)
    have hin : (tailA fun i : Fin (k + 1) => (t + i.1, x i)) = fun i : Fin k => (t + 1 + i.1, tailA x i) := by
      funext i
      simp only [tailA_apply, Fin.val_succ]
      congr 1; omega
    rw [hin]
    have h1 := congrArg (fun P => (fun z : C × (Fin k → O) × Option Bar =>
      (z.1, insert0 r.2 z.2.1, z.2.2)) <$> P) h
    simp only [Functor.map_map] at h1
    simp only [map_eq_bind_pure_comp, bind_assoc, Function.comp, pure_bind] at h1 ⊢
    rw [show t + (k + 1) = t + 1 + k by omega]
    exact h1

/-- **C51** (completeness): for a scan of `n ≥ 1` iterations over `arange(n)`, the callbacks create the bar once,
never use it before its creation or after its closing, advance it by exactly `n` in total and close it once, at
the end; and the result of the scan is the one of the undecorated body. -/
theorem C51_complete {n : ℕ} (hn : 1 ≤ n) (shown : Option (C → V)) (func : C → ℕ × I → m (C × O))
    (c : C) (x : Fin n → I) :
    (fun r => (r.1.1, r.2, Bar.absent.run r.1.2)) <$>
        scanM (progress_bar_scan n shown func) (c, []) (fun i => (i.1, x i)) =
      (fun r => (r.1, r.2, some (Bar.closed n))) <$> scanM func c (fun i => (i.1, x i)) := by
  have h := pbar_replay n shown func 0 (by omega) c [] (by simp [Bar.run, barAt]) x
  have hb : barAt n (0 + n) = .closed n := by
    have : ¬ n = 0 := by omega
    simp [barAt, this]
  rw [hb] at h
  simpa only [Nat.zero_add] using h

/-- **C51** (progress): during the run, after `k` of the `n` iterations, the bar is open and shows at least `k`,
at most `n`, and less than `k + print_rate`. -/
theorem C51_progress {n k : ℕ} (hk0 : 0 < k) (hk : k < n) (shown : Option (C → V))
    (func : C → ℕ × I → m (C × O)) (c : C) (x : Fin k → I) :
    ∃ p, (k ≤ p ∧ p ≤ n ∧ p < k + max 1 (n / 1000)) ∧
      (fun r => (r.1.1, r.2, Bar.absent.run r.1.2)) <$>
        scanM (progress_bar_scan n shown func) (c, []) (fun i => (i.1, x i)) =
      (fun r => (r.1, r.2, some (Bar.opened p))) <$> scanM func c (fun i => (i.1, x i)) := by
  have h := pbar_replay n shown func 0 (by omega) c [] (by simp [Bar.run, barAt]) x
  have hb : barAt n (0 + k) = .opened (barPos n k) := by
    have h1 : ¬ k = 0 := by omega
    have h2 : ¬ k = n := by omega
    simp [barAt, h1, h2]
  rw [hb] at h
  refine ⟨barPos n k, ?_, by simpa only [Nat.zero_add] using h⟩
  have hr0 := printRate_pos n
  have hr : printRate n ≤ max 1 (n / 1000) := by unfold printRate; split <;> omega
  have h1 := Nat.div_add_mod (k + printRate n - 1) (printRate n)
  have h2 := Nat.mod_lt (k + printRate n - 1) hr0
  rw [Nat.mul_comm] at h1
  unfold barPos
  refine ⟨le_min (by omega) (by omega), min_le_left _ _, ?_⟩
  refine lt_of_le_of_lt (min_le_right _ _) ?_
  omega

/-- **C51** for the drivers: the scans of `sampling_routine` and `delta_adaptation_routine` run over
`(arange(n), split(key, n))`, so that `C51_complete` applies to them. -/
theorem C51_stepInputs (key : Key) {n : ℕ} (hn : 1 ≤ n) (shown : Option (C → V)) (func : C → ℕ × Key → m (C × O))
    (c : C) :
    (fun r => (r.1.1, r.2, Bar.absent.run r.1.2)) <$>
        scanM (progress_bar_scan n shown func) (c, []) (stepInputs key n) =
      (fun r => (r.1, r.2, some (Bar.closed n))) <$> scanM func c (stepInputs key n) :=
  C51_complete hn shown func c (splitKey key n)

-- 2500 iterations: the rate is 2, the remainder 0; 3001 iterations: the rate is 3, the remainder 1.
example : printRate 2500 = 2 ∧ pbarRemainder 2500 = 0 ∧ printRate 3001 = 3 ∧ pbarRemainder 3001 = 1 := by decide

-- three iterations of a counter
example : (scan (fun c (x : ℕ × Unit) => Id.run (progress_bar_scan (m := Id) (O := ℕ) 3 (some fun c : ℕ => c)
    (fun c _ => (c + 1, c)) c x)) (0, []) (fun i : Fin 3 => (i.1, ()))).1 =
    (3, [.define, .update 1 (some 0), .update 1 (some 1), .update 1 (some 2), .close]) := by
  rfl

end Verif.Props
