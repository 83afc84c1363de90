import Verif.Model.Figures
import Verif.Lemmas.Tables

/-!
# Lemmas on stacked, selected and merged tables
-/

namespace Verif.Lemmas
open Verif Verif.Model Verif.Spec Verif.Model.Sv

section tabulates
variable {ι κ α β : Type}

theorem tab_mono {l : List (ι × α)} {R S : ι → α → Prop} (h : Tabulates l R) (hRS : ∀ i v, R i v ↔ S i v) : Tabulates l S :=
  ⟨h.1, fun i v => (h.2 i v).trans (hRS i v)⟩

theorem tab_fun {l : List (ι × α)} {R : ι → α → Prop} (h : Tabulates l R) {i : ι} {v w : α} (hv : R i v) (hw : R i w) : v = w := by
  have h1 := (h.2 i v).mpr hv
  have h2 := (h.2 i w).mpr hw
  have := List.inj_on_of_nodup_map h.1 h1 h2 rfl
  exact (Prod.mk.injEq _ _ _ _ ▸ this).2

theorem tab_nodup {l : List (ι × α)} {R : ι → α → Prop} (h : Tabulates l R) : l.Nodup := List.Nodup.of_map _ h.1

theorem tab_filter {l : List (ι × α)} {R : ι → α → Prop} (h : Tabulates l R) (p : ι → Bool) :
    Tabulates (l.filter fun r => p r.1) fun i v => R i v ∧ p i = true := by
  refine ⟨(List.filter_sublist.map _).nodup h.1, fun i v => ?_⟩
  rw [List.mem_filter, h.2]

theorem tab_whereTau {l : List ((ι × ℕ × String) × α)} {R : ι × ℕ × String → α → Prop} (h : Tabulates l R) (tau : ℕ) :
    Tabulates (whereTau tau l) fun i v => R i v ∧ i.2.1 = tau :=
  tab_mono (tab_filter h fun i => i.2.1 = tau) fun i v => by simp

theorem tab_whereName {l : List ((ι × ℕ × String) × α)} {R : ι × ℕ × String → α → Prop} (h : Tabulates l R) (ks : List String) :
    Tabulates (whereName ks l) fun i v => R i v ∧ i.2.2 ∈ ks :=
  tab_mono (tab_filter h fun i => i.2.2 ∈ ks) fun i v => by simp

theorem tab_stack {F : Frame ι} {R : ℕ × String → ι → ℝ → Prop} (hF : (F.map Prod.fst).Nodup)
    (hR : ∀ c ∈ F, Tabulates c.2 (R c.1)) :
    Tabulates (stackFrame F) fun i v => i.2 ∈ F.map Prod.fst ∧ R i.2 i.1 v := by
  constructor
  · unfold stackFrame
    rw [List.map_flatMap]
    rw [List.nodup_flatMap]
    constructor
    · intro c hc
      rw [List.map_map]
      have := (hR c hc).1
      rw [show (Prod.fst ∘ fun r : ι × ℝ => ((r.1, c.1), r.2)) = (fun i : ι => (i, c.1)) ∘ Prod.fst from rfl, ← List.map_map]
      exact this.map fun _ _ h => (Prod.mk.injEq _ _ _ _ ▸ h).1
    · have := List.pairwise_map.mp hF
      refine this.imp ?_
      intro c d hcd i hi hi'
      simp only [List.map_map, List.mem_map, Function.comp_apply] at hi hi'
      obtain ⟨_, -, rfl⟩ := hi
      obtain ⟨_, -, h⟩ := hi'
      exact hcd (Prod.mk.injEq _ _ _ _ ▸ h).2.symm
  · rintro ⟨i, c⟩ v
    simp only [stackFrame, List.mem_flatMap, List.mem_map, Prod.mk.injEq]
    constructor
    · rintro ⟨d, hd, ⟨j, w⟩, hr, ⟨rfl, rfl⟩, rfl⟩
      exact ⟨⟨d, hd, rfl⟩, ((hR d hd).2 _ _).mp hr⟩
    · rintro ⟨⟨d, hd, rfl⟩, h⟩
      exact ⟨d, hd, (i, v), ((hR d hd).2 _ _).mpr h, ⟨rfl, rfl⟩, rfl⟩

theorem tab_merge [DecidableEq ι] {on : κ → ι} {l : List (ι × α)} {r : List (κ × β)} {R : ι → α → Prop} {S : κ → β → Prop}
    (hl : Tabulates l R) (hr : Tabulates r S) : Tabulates (innerMerge on l r) fun k w => R (on k) w.1 ∧ S k w.2 := by
  constructor
  · unfold innerMerge
    rw [List.map_flatMap, List.nodup_flatMap]
    constructor
    · intro c _
      rw [List.map_map]
      exact (List.filter_sublist.map _).nodup hr.1
    · refine (List.pairwise_map.mp hl.1).imp ?_
      intro c d hcd k hk hk'
      simp only [List.map_map, List.mem_map, List.mem_filter, Function.comp_apply, decide_eq_true_eq] at hk hk'
      obtain ⟨a, ⟨-, ha⟩, rfl⟩ := hk
      obtain ⟨b, ⟨-, hb⟩, hab⟩ := hk'
      exact hcd (by rw [← ha, ← hb, hab])
  · rintro k ⟨v, w⟩
    simp only [innerMerge, List.mem_flatMap, List.mem_map, List.mem_filter, decide_eq_true_eq, Prod.mk.injEq]
    constructor
    · rintro ⟨⟨i, a⟩, hi, ⟨k', b⟩, ⟨hk, rfl⟩, rfl, rfl, rfl⟩
      exact ⟨(hl.2 _ _).mp hi, (hr.2 _ _).mp hk⟩
    · rintro ⟨h1, h2⟩
      exact ⟨(on k, v), (hl.2 _ _).mpr h1, (k, w), ⟨(hr.2 _ _).mpr h2, rfl⟩, rfl, rfl, rfl⟩

theorem tab_map {l : List (ι × α)} {R : ι → α → Prop} (h : Tabulates l R) {f : ι → κ} (hf : Function.Injective f) (g : α → β) :
    Tabulates (l.map fun r => (f r.1, g r.2)) fun k w => ∃ i v, f i = k ∧ g v = w ∧ R i v := by
  constructor
  · rw [List.map_map, show (Prod.fst ∘ fun r : ι × α => (f r.1, g r.2)) = f ∘ Prod.fst from rfl, ← List.map_map]
    exact h.1.map hf
  · intro k w
    simp only [List.mem_map, Prod.mk.injEq, Prod.exists]
    constructor
    · rintro ⟨i, v, hi, rfl, rfl⟩
      exact ⟨i, v, rfl, rfl, (h.2 _ _).mp hi⟩
    · rintro ⟨i, v, rfl, rfl, hi⟩
      exact ⟨i, v, (h.2 _ _).mpr hi, rfl, rfl⟩

end tabulates

/-! ## Points of a line -/

section line
variable {ι α : Type}

/-- The entries over `x`, when they are indexed by a finite type. -/
theorem atX_perm {l : List (ι × α)} {R : ι → α → Prop} (h : Tabulates l R) (sel : ι → Bool) (xc : ι → ℕ) (y : α → ℝ) (x : ℕ) {n : ℕ}
    {g : Fin n → ι} (hg : Function.Injective g) {f : Fin n → α} (hR : ∀ i v, (R i v ∧ sel i = true ∧ xc i = x) ↔ ∃ c, i = g c ∧ v = f c) :
    (atX ((l.filter fun r => sel r.1).map fun r => (xc r.1, y r.2)) x).Perm (List.ofFn fun c => y (f c)) := by
  have e : atX ((l.filter fun r => sel r.1).map fun r => (xc r.1, y r.2)) x =
      (l.filter fun r => sel r.1 && decide (xc r.1 = x)).map fun r => y r.2 := by
    unfold atX
    rw [List.filter_map, List.map_map, List.filter_filter]
    congr 1
    apply List.filter_congr
    intro r _
    exact Bool.and_comm _ _
  have hp : (l.filter fun r => sel r.1 && decide (xc r.1 = x)).Perm (List.ofFn fun c => (g c, f c)) := by
    refine (List.perm_ext_iff_of_nodup ?_ ?_).mpr ?_
    · exact (tab_nodup h).filter _
    · exact List.nodup_ofFn.mpr fun a b hab => hg (Prod.mk.injEq _ _ _ _ ▸ hab).1
    · rintro ⟨i, v⟩
      rw [List.mem_filter, h.2, List.mem_ofFn]
      have := hR i v
      simp only [Bool.and_eq_true, decide_eq_true_eq, Prod.mk.injEq] at this ⊢
      rw [this]
      exact ⟨fun ⟨c, h1, h2⟩ => ⟨c, h1.symm, h2.symm⟩, fun ⟨c, h1, h2⟩ => ⟨c, h1.symm, h2.symm⟩⟩
  rw [e]
  refine (hp.map _).trans ?_
  rw [List.map_ofFn]
  rfl

theorem lineplot_of_perm {rows : List (ℕ × ℝ)} {x n : ℕ} {f : Fin n → ℝ} (h : (atX rows x).Perm (List.ofFn f)) (v : ℝ) :
    lineplot rows x = some v ↔ 0 < n ∧ v = (∑ c, f c) / n := by
  have hl : (atX rows x).length = n := by rw [h.length_eq, List.length_ofFn]
  have hs : (atX rows x).sum = ∑ c, f c := by rw [h.sum_eq, List.sum_ofFn]
  unfold lineplot
  rw [hl, hs]
  split_ifs with h0
  · rw [h0] at hl
    simp only [List.length_nil] at hl
    subst hl
    simp
  · have : 0 < n := by
      rw [← hl]
      exact List.length_pos_of_ne_nil h0
    simp [this, eq_comm]

theorem lineband_of_perm {rows : List (ℕ × ℝ)} {x n : ℕ} {f : Fin n → ℝ} (h : (atX rows x).Perm (List.ofFn f)) (v : ℝ × ℝ) :
    lineband rows x = some v ↔ 1 < n ∧
      v.1 = (∑ c, f c) / n - 2 * (Real.sqrt ((∑ c, (f c - (∑ c, f c) / n) ^ 2) / (n - 1)) / Real.sqrt n) ∧
      v.2 = (∑ c, f c) / n + 2 * (Real.sqrt ((∑ c, (f c - (∑ c, f c) / n) ^ 2) / (n - 1)) / Real.sqrt n) := by
  have hl : (atX rows x).length = n := by rw [h.length_eq, List.length_ofFn]
  have hs : (atX rows x).sum = ∑ c, f c := by rw [h.sum_eq, List.sum_ofFn]
  have hq : ((atX rows x).map fun y => (y - (∑ c, f c) / n) ^ 2).sum = ∑ c, (f c - (∑ c, f c) / n) ^ 2 := by
    rw [(h.map _).sum_eq, List.map_ofFn, List.sum_ofFn]
    rfl
  unfold lineband
  simp only [hl, hs, hq]
  split_ifs with h0
  · simp [show ¬ 1 < n by omega]
  · obtain ⟨a, b⟩ := v
    simp only [Option.some.injEq, Prod.mk.injEq, show 1 < n by omega, true_and, eq_comm]

/-- At most one entry over each `x`. -/
theorem lineplot_unique {l : List (ι × α)} {R : ι → α → Prop} (h : Tabulates l R) (sel : ι → Bool) (xc : ι → ℕ) (y : α → ℝ) (x : ℕ)
    (hu : ∀ i j v w, R i v → R j w → sel i = true → sel j = true → xc i = xc j → i = j) (v : ℝ) :
    lineplot ((l.filter fun r => sel r.1).map fun r => (xc r.1, y r.2)) x = some v ↔
      ∃ i w, R i w ∧ sel i = true ∧ xc i = x ∧ v = y w := by
  by_cases hex : ∃ i w, R i w ∧ sel i = true ∧ xc i = x
  · obtain ⟨i, w, hR, hs, hx⟩ := hex
    have hp := atX_perm h sel xc y x (n := 1) (g := fun _ => i) (Function.injective_of_subsingleton _) (f := fun _ => w) (by
      intro j v
      constructor
      · rintro ⟨h1, h2, h3⟩
        obtain rfl := hu _ _ _ _ h1 hR h2 hs (h3.trans hx.symm)
        exact ⟨0, rfl, tab_fun h h1 hR⟩
      · rintro ⟨-, rfl, rfl⟩
        exact ⟨hR, hs, hx⟩)
    rw [lineplot_of_perm hp]
    simp only [Nat.lt_one_iff, pos_of_gt, true_and, Finset.univ_unique, Finset.sum_const, Finset.card_singleton, one_smul, Nat.cast_one,
      div_one]
    constructor
    · rintro rfl
      exact ⟨i, w, hR, hs, hx, rfl⟩
    · rintro ⟨j, w', h1, h2, h3, rfl⟩
      obtain rfl := hu _ _ _ _ h1 hR h2 hs (h3.trans hx.symm)
      rw [tab_fun h h1 hR]
  · have hp := atX_perm h sel xc y x (n := 0) (g := Fin.elim0) (Function.injective_of_subsingleton _) (f := Fin.elim0) (by
      intro j v
      constructor
      · rintro ⟨h1, h2, h3⟩
        exact absurd ⟨j, v, h1, h2, h3⟩ hex
      · rintro ⟨c, -⟩
        exact c.elim0)
    rw [lineplot_of_perm hp]
    simp only [lt_irrefl, false_and, false_iff]
    rintro ⟨i, w, h1, h2, h3, -⟩
    exact hex ⟨i, w, h1, h2, h3⟩

end line

end Verif.Lemmas
