import Verif.Lemmas.ChainInv

/-!
# Facts that hold surely under the probabilistic reading

`Supp P Q`: the value of `P` depends on its argument only at points where `Q` holds.
-/

open scoped ENNReal
open MeasureTheory Finset

namespace Verif
open Verif.Spec Verif.Model

/-- All that `P` looks at satisfies `Q`. -/
def Supp {α : Type} (P : Ex α) (Q : α → Prop) : Prop := ∀ f f' : α → ℝ≥0∞, (∀ a, Q a → f a = f' a) → P f = P f'

section rules
variable {α β : Type}

theorem supp_pure {a : α} {Q : α → Prop} (h : Q a) : Supp (pure a : Ex α) Q := fun _ _ e => e a h

theorem supp_true (P : Ex α) : Supp P fun _ => True := fun _ _ e => Ex.congr_fun' P fun a => e a trivial

theorem supp_bind {P : Ex α} {F : α → Ex β} {R : α → Prop} {Q : β → Prop} (hP : Supp P R)
    (hF : ∀ a, R a → Supp (F a) Q) : Supp (P >>= F) Q := fun f f' e => hP _ _ fun a ha => hF a ha f f' e

theorem supp_bind' {P : Ex α} {F : α → Ex β} {Q : β → Prop} (hF : ∀ a, Supp (F a) Q) : Supp (P >>= F) Q :=
  supp_bind (supp_true P) fun a _ => hF a

theorem supp_mono {P : Ex α} {Q R : α → Prop} (h : Supp P Q) (i : ∀ a, Q a → R a) : Supp P R :=
  fun f f' e => h f f' fun a ha => e a (i a ha)

theorem supp_scanM {C I O : Type} {body : C → I → Ex (C × O)} {Inv : C → Prop}
    (hb : ∀ c i, Inv c → Supp (body c i) fun r => Inv r.1) {k : ℕ} (inp : Fin k → I) (c : C) (hc : Inv c) :
    Supp (scanM body c inp) fun r => Inv r.1 := by
  induction k generalizing c with
  | zero => exact supp_pure hc
  | succ k ih =>
    rw [scanM_succ]
    refine supp_bind (hb c (inp 0) hc) fun r hr => ?_
    refine supp_bind (ih (tailA inp) r.1 hr) fun rs hrs => ?_
    exact supp_pure hrs

theorem supp_chain {S : Type} {step : Key → S → Ex S} {I : S → Prop} (hs : ∀ key s, I s → Supp (step key s) I) {k : ℕ}
    (keys : Fin k → Key) (s : S) (h : I s) : Supp (chain step s keys) fun tr => ∀ i, I (tr i) := by
  induction k generalizing s with
  | zero => exact supp_pure fun _ => h
  | succ k ih =>
    refine supp_bind (hs (keys 0) s h) fun s' hs' => ?_
    refine supp_bind (ih (tailA keys) s' hs') fun rest hr => supp_pure fun i => ?_
    exact Fin.cases h hr i

end rules

section chain
variable {S : Type} [MeasurableSpace S] {step : Key → S → Ex S}

/-- The law of a chain does not depend on its keys. -/
theorem chain_free (hk : ∀ key, IsKer (step key)) (hf : ∀ key key' s f, Measurable f → step key s f = step key' s f) {n : ℕ}
    (keys keys' : Fin n → Key) (s : S) (F : (Fin (n + 1) → S) → ℝ≥0∞) (hF : Measurable F) :
    chain step s keys F = chain step s keys' F := by
  induction n generalizing s with
  | zero => rfl
  | succ n ih =>
    show step (keys 0) s (fun s' => chain step s' (tailA keys) fun rest => F (insert0 s rest)) =
      step (keys' 0) s (fun s' => chain step s' (tailA keys') fun rest => F (insert0 s rest))
    have hF' : Measurable fun rest => F (insert0 s rest) := hF.comp (measurable_insert0 measurable_const measurable_id)
    refine (Ex.congr_fun' _ fun s' => ih (tailA keys) (tailA keys') s' _ hF').trans ?_
    exact hf _ _ s _ ((chain_ker hk (tailA keys')).measurable' hF')

/-- The state after `b` steps, followed by `n` steps: the last `n` of `n + b` steps. -/
theorem chain_append (hk : ∀ key, IsKer (step key)) (hf : ∀ key key' s f, Measurable f → step key s f = step key' s f) {n b : ℕ}
    (kb : Fin b → Key) (ka : Fin n → Key) (keys : Fin (n + b) → Key) (s : S) (G : (Fin (n + 1) → S) → ℝ≥0∞) (hG : Measurable G) :
    chain step s kb (fun tr => chain step (tr (Fin.last b)) ka G) =
      chain step s keys (fun tr => G fun i => tr ⟨i + b, by omega⟩) := by
  induction b generalizing s with
  | zero => exact chain_free hk hf ka keys s G hG
  | succ b ih =>
    have hF : Measurable fun tr : Fin (n + b + 1) → S => G fun i => tr ⟨i + b, by omega⟩ := by fun_prop
    show step (kb 0) s (fun s' => chain step s' (tailA kb) fun rest => chain step (rest (Fin.last b)) ka G) =
      step (keys 0) s (fun s' => chain step s' (tailA keys) fun rest => G fun i => rest ⟨i + b, by have : n.add b = n + b := rfl; omega⟩)
    refine (Ex.congr_fun' _ fun s' => ih (tailA kb) (tailA keys) s').trans ?_
    exact hf _ _ s _ ((chain_ker hk (tailA (n := n + b) keys)).measurable' hF)

end chain

end Verif
