import Verif.Spec.Keys

/-!
# Key discipline: rules
-/

namespace Verif
open Verif.Spec

theorem KeyDisj.symm {k k' : Key} (h : KeyDisj k k') : KeyDisj k' k := ⟨h.2, h.1⟩

theorem KeyDisj.mono {s s' k k' : Key} (h : KeyDisj s s') (hk : s <:+ k) (hk' : s' <:+ k') : KeyDisj k k' := by
  constructor
  · intro hc
    rcases List.suffix_or_suffix_of_suffix (hk.trans hc) hk' with h1 | h1
    · exact h.1 h1
    · exact h.2 h1
  · intro hc
    rcases List.suffix_or_suffix_of_suffix hk (hk'.trans hc) with h1 | h1
    · exact h.1 h1
    · exact h.2 h1

theorem keyDisj_child (key : Key) {i j : ℕ} (h : i ≠ j) : KeyDisj (key.child i) (key.child j) := by
  constructor
  · intro hc
    have := hc.eq_of_length rfl
    exact h (List.cons.inj this).1
  · intro hc
    have := hc.eq_of_length rfl
    exact h (List.cons.inj this).1.symm

theorem keyDisj_split (key : Key) {num : ℕ} {i j : Fin num} (h : i ≠ j) :
    KeyDisj (splitKey key num i) (splitKey key num j) :=
  keyDisj_child key fun hc => h (Fin.ext hc)

theorem suffix_split (key : Key) {num : ℕ} (i : Fin num) : key <:+ splitKey key num i :=
  List.suffix_cons _ _

/-- Every key consumed descends from `S`, and no consumed key is an ancestor of another one. -/
def Within {α : Type} (P : Poss α) (S : Set Key) : Prop :=
  ∀ a L, P a L → (∀ k ∈ L, ∃ s ∈ S, s <:+ k) ∧ L.Pairwise KeyDisj

theorem within_iff {α : Type} {P : Poss α} {key : Key} : FreshKeys key P ↔ Within P {key} := by
  unfold FreshKeys Within
  simp

theorem Within.mono {α : Type} {P : Poss α} {S S' : Set Key} (h : Within P S)
    (hS : ∀ s ∈ S, ∃ s' ∈ S', s' <:+ s) : Within P S' := by
  intro a L hP
  obtain ⟨h1, h2⟩ := h a L hP
  refine ⟨fun k hk => ?_, h2⟩
  obtain ⟨s, hs, hsk⟩ := h1 k hk
  obtain ⟨s', hs', hss⟩ := hS s hs
  exact ⟨s', hs', hss.trans hsk⟩

theorem within_pure {α : Type} (a : α) (S : Set Key) : Within (pure a : Poss α) S := by
  rintro b L ⟨-, rfl⟩
  exact ⟨fun k hk => absurd hk (List.not_mem_nil), List.Pairwise.nil⟩

theorem Within.bind {α β : Type} {P : Poss α} {f : α → Poss β} {S₁ S₂ : Set Key} (h1 : Within P S₁)
    (h2 : ∀ a, Within (f a) S₂) (hd : ∀ s ∈ S₁, ∀ s' ∈ S₂, KeyDisj s s') : Within (P >>= f) (S₁ ∪ S₂) := by
  rintro b L ⟨a, L₁, L₂, hP, hf, rfl⟩
  obtain ⟨a1, a2⟩ := h1 a L₁ hP
  obtain ⟨b1, b2⟩ := h2 a b L₂ hf
  refine ⟨fun k hk => ?_, List.pairwise_append.mpr ⟨a2, b2, fun k hk k' hk' => ?_⟩⟩
  · rcases List.mem_append.mp hk with hk | hk
    · obtain ⟨s, hs, h⟩ := a1 k hk; exact ⟨s, Or.inl hs, h⟩
    · obtain ⟨s, hs, h⟩ := b1 k hk; exact ⟨s, Or.inr hs, h⟩
  · obtain ⟨s, hs, h⟩ := a1 k hk
    obtain ⟨s', hs', h'⟩ := b1 k' hk'
    exact KeyDisj.mono (hd s hs s' hs') h h'

theorem Within.bind_pure {α β : Type} {P : Poss α} {g : α → β} {S : Set Key} (h : Within P S) :
    Within (P >>= fun a => pure (g a)) S := by
  rintro b L ⟨a, L₁, L₂, hP, ⟨-, rfl⟩, rfl⟩
  simpa using h a L₁ hP

theorem within_ite {α : Type} {c : Prop} [Decidable c] {P P' : Poss α} {S : Set Key} (h : Within P S)
    (h' : Within P' S) : Within (if c then P else P') S := by
  split <;> assumption

/-- A scan whose step `t` uses keys descending from `keys t`. -/
theorem within_scanM {C I O : Type} {body : C → I → Poss (C × O)} {n : ℕ} (c : C) (inp : Fin n → I)
    (keys : Fin n → Key) (hb : ∀ t c, Within (body c (inp t)) {keys t})
    (hd : ∀ t t', t ≠ t' → KeyDisj (keys t) (keys t')) :
    Within (scanM body c inp) (Set.range keys) := by
  induction n generalizing c with
  | zero => exact within_pure _ _
  | succ n ih =>
    rw [scanM_succ]
    have h := (hb 0 c).bind (f := fun r => scanM body r.1 (tailA inp) >>= fun rs => pure (rs.1, insert0 r.2 rs.2))
      (S₂ := Set.range (tailA keys)) (fun r => (ih r.1 (tailA inp) (tailA keys) (fun t c => hb t.succ c)
        (fun t t' h => hd _ _ fun hc => h (Fin.succ_injective _ hc))).bind_pure) ?_
    · refine h.mono fun s hs => ⟨s, ?_, List.suffix_rfl⟩
      rcases hs with hs | ⟨t, rfl⟩
      · exact ⟨0, (Set.mem_singleton_iff.mp hs).symm⟩
      · exact ⟨t.succ, rfl⟩
    · rintro s hs s' ⟨t, rfl⟩
      rw [Set.mem_singleton_iff.mp hs]
      exact hd _ _ (Fin.succ_ne_zero t).symm

section draws
variable {n : ℕ}

theorem within_draw {α : Type} {P : Poss α} {key : Key} (h : ∀ a L, P a L → L = [key]) : Within P {key} := by
  intro a L hP
  rw [h a L hP]
  refine ⟨fun k hk => ⟨key, rfl, ?_⟩, List.pairwise_singleton _ _⟩
  rw [List.mem_singleton.mp hk]

theorem within_choice (key : Key) (p : Fin n → ℝ) : Within (choice key p : Poss _) {key} :=
  within_draw fun _ _ h => h.2
theorem within_choices (key : Key) (k : ℕ) (p : Fin n → ℝ) : Within (choices key k p : Poss _) {key} :=
  within_draw fun _ _ h => h.2
theorem within_uniform (key : Key) : Within (uniform key : Poss _) {key} := within_draw fun _ _ h => h.2
theorem within_uniforms (key : Key) (k : ℕ) : Within (uniforms key k : Poss _) {key} :=
  within_draw fun _ _ h => h.2
theorem within_normal1 (key : Key) (d : ℕ) : Within (normal1 key d : Poss _) {key} := within_draw fun _ _ h => h
theorem within_normal2 (key : Key) (k d : ℕ) : Within (normal2 key k d : Poss _) {key} :=
  within_draw fun _ _ h => h
theorem within_normal3 (key : Key) (l k d : ℕ) : Within (normal3 key l k d : Poss _) {key} :=
  within_draw fun _ _ h => h

end draws

/-- Keys of `split(key, num)` with indices in `I`. -/
def splitSet (key : Key) (I : Set ℕ) : Set Key := {k | ∃ i ∈ I, k = key.child i}

theorem splitSet_disj (key : Key) {I J : Set ℕ} (h : ∀ i ∈ I, i ∉ J) :
    ∀ s ∈ splitSet key I, ∀ s' ∈ splitSet key J, KeyDisj s s' := by
  rintro s ⟨i, hi, rfl⟩ s' ⟨j, hj, rfl⟩
  exact keyDisj_child key fun hc => h i hi (hc ▸ hj)

theorem Within.of_splitSet {α : Type} {P : Poss α} {key : Key} {I : Set ℕ} (h : Within P (splitSet key I)) :
    Within P {key} :=
  h.mono fun s hs => ⟨key, rfl, by obtain ⟨i, -, rfl⟩ := hs; exact List.suffix_cons _ _⟩

/-- A program whose keys descend from child `i` of `key`. -/
theorem Within.to_splitSet {α : Type} {P : Poss α} {key : Key} {i : ℕ} (h : Within P {key.child i}) :
    Within P (splitSet key {i}) :=
  h.mono fun s hs => ⟨s, ⟨i, rfl, Set.mem_singleton_iff.mp hs⟩, List.suffix_rfl⟩

/-- Sequencing of programs that use distinct children of one key. -/
theorem Within.bind_split {α β : Type} {P : Poss α} {f : α → Poss β} {key : Key} {I J : Set ℕ}
    (h1 : Within P (splitSet key I)) (h2 : ∀ a, Within (f a) (splitSet key J)) (hd : ∀ i ∈ I, i ∉ J) :
    Within (P >>= f) (splitSet key (I ∪ J)) :=
  (h1.bind h2 (splitSet_disj key hd)).mono fun s hs => ⟨s, by
    rcases hs with ⟨i, hi, rfl⟩ | ⟨i, hi, rfl⟩
    · exact ⟨i, Or.inl hi, rfl⟩
    · exact ⟨i, Or.inr hi, rfl⟩, List.suffix_rfl⟩

theorem within_scanM_split {C I O : Type} {body : C → I → Poss (C × O)} {n : ℕ} (c : C) (inp : Fin n → I)
    (key : Key) (idx : Fin n → ℕ) (hi : Function.Injective idx)
    (hb : ∀ t c, Within (body c (inp t)) {key.child (idx t)}) :
    Within (scanM body c inp) (splitSet key (Set.range idx)) :=
  (within_scanM c inp (fun t => key.child (idx t)) hb
    fun t t' h => keyDisj_child key fun hc => h (hi hc)).mono fun s hs => ⟨s, by
      obtain ⟨t, rfl⟩ := hs
      exact ⟨idx t, ⟨t, rfl⟩, rfl⟩, List.suffix_rfl⟩

end Verif
