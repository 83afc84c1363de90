import Verif.Lemmas.CsmcKernel
import Verif.Lemmas.Drivers

/-!
# Invariance along a chain
-/

open scoped ENNReal
open MeasureTheory Finset

namespace Verif
open Verif.Spec Verif.Model

section chain
variable {S : Type} [MeasurableSpace S]

/-- A chain denotes a kernel. -/
theorem chain_ker {step : Key → S → Ex S} (hk : ∀ key, IsKer (step key)) {n : ℕ} (keys : Fin n → Key) :
    IsKer (fun s => chain step s keys) := by
  induction n with
  | zero => exact IsKer.pure (g := fun s (_ : Fin 1) => s) (measurable_pi_lambda _ fun _ => measurable_id)
  | succ n ih =>
    refine IsKer.bind (F := fun s s' => chain step s' (tailA keys) >>= fun rest => pure (insert0 s rest)) (hk _) ?_
    refine IsKer.bind (F := fun (p : S × S) rest => pure (insert0 p.1 rest)) ((ih (tailA keys)).comp measurable_snd) ?_
    exact IsKer.pure (g := fun q : (S × S) × (Fin (n + 1) → S) => insert0 q.1.1 q.2)
      (measurable_insert0 (measurable_fst.comp measurable_fst) measurable_snd)

omit [MeasurableSpace S] in
theorem chain_mass {step : Key → S → Ex S} (hm : ∀ key s, step key s (fun _ => 1) = 1) {n : ℕ} (keys : Fin n → Key)
    (s : S) : chain step s keys (fun _ => 1) = 1 := by
  induction n generalizing s with
  | zero => rfl
  | succ n ih =>
    show step (keys 0) s (fun s' => chain step s' (tailA keys) (fun _ => 1)) = 1
    simp only [ih]
    exact hm _ _

/-- A functional that each step preserves is preserved at every time of the chain. -/
theorem chain_invariant {step : Key → S → Ex S} (hk : ∀ key, IsKer (step key))
    (hm : ∀ key s, step key s (fun _ => 1) = 1) (I : (S → ℝ≥0∞) → ℝ≥0∞)
    (hinv : ∀ key f, Measurable f → I (fun s => step key s f) = I f) {n : ℕ} (keys : Fin n → Key) (i : Fin (n + 1))
    {f : S → ℝ≥0∞} (hf : Measurable f) : I (fun s => chain step s keys (fun tr => f (tr i))) = I f := by
  induction n with
  | zero =>
    rfl
  | succ n ih =>
    refine Fin.cases ?_ (fun j => ?_) i
    · congr 1
      funext s
      show step (keys 0) s (fun s' => chain step s' (tailA keys) (fun _ => f s)) = f s
      have h1 : ∀ s', chain step s' (tailA keys) (fun _ => f s) = f s := fun s' => by
        rw [(chain_ker hk (tailA keys)).const_fun s' (f s), chain_mass hm, mul_one]
      simp only [h1]
      rw [(hk (keys 0)).const_fun s (f s), hm, mul_one]
    · show I (fun s => step (keys 0) s (fun s' => chain step s' (tailA keys) (fun rest => f (rest j)))) = I f
      rw [hinv (keys 0) (fun s' => chain step s' (tailA keys) (fun rest => f (rest j)))
        ((chain_ker hk (tailA keys)).measurable' (by fun_prop))]
      exact ih (tailA keys) j

end chain

section mass
variable {X : Type} [MeasurableSpace X] {N n : ℕ}

omit [MeasurableSpace X] in
theorem Sys.bs_mass {n : ℕ} (S : Sys X N n) (Γ : Fin n → X → X → ℝ) (h : Hist X N n) (k : Fin (N + 1)) :
    S.bs Γ h k (fun _ => 1) = 1 := by
  induction n generalizing k with
  | zero => rfl
  | succ n ih =>
    show ∑ i, catP (normalizeW (fun i => S.init.lwLast h.init i +
      Γ (Fin.last n) (lastA h.init.2 i) (lastA h.2 k))) i * S.init.bs (initA Γ) h.init i (fun _ => 1) = 1
    simp only [ih, mul_one, catP_of_isProb (normalize_isProb _), sum_ofReal_of_isProb (normalize_isProb _)]

/-- The kernel of an abstract conditional particle system has total mass one. -/
theorem Sys.OK.kernel_mass {S : Sys X N n} (hS : S.OK) (Γ : Fin n → X → X → ℝ)
    {move : (Fin (N + 1) → ℝ) → Fin (N + 1) → Ex (Fin (N + 1))}
    (hm : ∀ w, IsProb w → ∀ k, move w k (fun _ => 1) = 1) (backward : Bool) (x : Fin (n + 1) → X)
    (b : Fin (n + 1) → Fin (N + 1)) : S.kernel Γ move backward x b (fun _ => 1) = 1 := by
  have h1 : ∀ h k, (if backward = true then S.bs Γ h k else (pure (h.tracex k, h.trace k) : Ex _)) (fun _ => 1) = 1 := by
    intro h k
    cases backward with
    | true => exact S.bs_mass Γ h k
    | false => rfl
  show S.fwd b x (fun h => move (S.wLast h) (lastA b) (fun k =>
    (if backward = true then S.bs Γ h k else (pure (h.tracex k, h.trace k) : Ex _)) (fun _ => 1))) = 1
  simp only [h1]
  have h2 : ∀ h, move (S.wLast h) (lastA b) (fun _ => 1) = 1 := fun h => hm _ (normalize_isProb _) _
  simp only [h2]
  exact hS.fwd_mass b x

theorem barker_mass (key : Key) {w : Fin (N + 1) → ℝ} (hw : IsProb w) (k : Fin (N + 1)) :
    moveIndex (fun key w k => barker_move key w k) key w k (fun _ => 1) = 1 := by
  show ∑ i, catP w i * 1 = 1
  simp only [catP_of_isProb hw, mul_one, sum_ofReal_of_isProb hw]

end mass

end Verif
