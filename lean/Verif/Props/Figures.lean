import Verif.Lemmas.Figures
import Verif.Props.ResultsAnalysis

/-!
# C94: figures of `results_analysis.py`

Every point drawn is computed from the file of the kernel, style and `tau` named on the figure, at the experiment, chain, time, dimension,
sample or lag where it is drawn; nothing else is drawn.
-/

namespace Verif.Props
open Verif Verif.Model Verif.Spec Verif.Lemmas Verif.Model.Sv

/-! ## Frames -/

theorem mapM_ok {α β : Type} {f : α → Except String β} : ∀ {l : List α} {r : List β}, l.mapM f = .ok r → List.Forall₂ (fun a b => f a = .ok b) l r
  | [], r, h => by
    simp only [List.mapM_nil] at h
    cases h
    exact .nil
  | a :: l, r, h => by
    rw [List.mapM_cons] at h
    cases ha : f a with
    | error e => rw [ha] at h; cases h
    | ok b =>
      rw [ha] at h
      cases hl : l.mapM f with
      | error e => rw [hl] at h; cases h
      | ok bs =>
        rw [hl] at h
        cases h
        exact .cons ha (mapM_ok hl)

theorem mapM_of_ok {α β : Type} {f : α → Except String β} : ∀ {l : List α}, (∀ a ∈ l, ∃ b, f a = .ok b) → ∃ r, l.mapM f = .ok r
  | [], _ => ⟨[], rfl⟩
  | a :: l, h => by
    obtain ⟨b, hb⟩ := h a List.mem_cons_self
    obtain ⟨r, hr⟩ := mapM_of_ok (l := l) fun a' h' => h a' (List.mem_cons_of_mem _ h')
    refine ⟨b :: r, ?_⟩
    rw [List.mapM_cons, hb, hr]
    rfl

section frames
variable {s : Sizes} {K M L T D : ℕ} {file : ℕ × String → SvFile K M (L + 1) T D} {tbs : List ((ℕ × String) × Tables)}

theorem allTables_forall₂ (h : allTables s file = .ok tbs) :
    List.Forall₂ (fun c p => c = p.1 ∧ tablesOf s (file c) = .ok p.2) columns tbs := by
  refine (mapM_ok h).imp fun c p hp => ?_
  cases ht : tablesOf s (file c) with
  | error e => rw [ht] at hp; cases hp
  | ok tb =>
    rw [ht] at hp
    cases hp
    exact ⟨rfl, rfl⟩

theorem allTables_fst (h : allTables s file = .ok tbs) : tbs.map Prod.fst = columns := by
  replace h := allTables_forall₂ h
  generalize columns = cs at h
  induction h with
  | nil => rfl
  | cons hab _ ih => rw [List.map_cons, ih, hab.1]

theorem allTables_mem (h : allTables s file = .ok tbs) : ∀ p ∈ tbs, tablesOf s (file p.1) = .ok p.2 := by
  replace h := allTables_forall₂ h
  generalize columns = cs at h
  induction h with
  | nil => simp
  | cons hab _ ih =>
    intro p hp
    rcases List.mem_cons.mp hp with rfl | hp
    · rw [← hab.1]
      exact hab.2
    · exact ih p hp

theorem columns_nodup : columns.Nodup := by decide +kernel

theorem mem_columns {tau : ℕ} {name : String} : (tau, name) ∈ columns ↔ tau ∈ [10, 50, 100, 200] ∧ name ∈ name_in_paper :=
  List.pair_mem_product

theorem tab_frame {ι : Type} {df : Tables → List (ι × ℝ)} {R : SvFile K M (L + 1) T D → ι → ℝ → Prop} (h : allTables s file = .ok tbs)
    (hR : ∀ data tb, tablesOf s data = .ok tb → Tabulates (df tb) (R data)) :
    Tabulates (stackFrame (frameOf df tbs)) fun i v => i.2 ∈ columns ∧ R (file i.2) i.1 v := by
  have hf : (frameOf df tbs).map Prod.fst = columns := by
    rw [frameOf, List.map_map, ← allTables_fst h]
    rfl
  have := tab_stack (F := frameOf df tbs) (R := fun c => R (file c)) (by rw [hf]; exact columns_nodup) (by
    intro c hc
    obtain ⟨p, hp, rfl⟩ := List.mem_map.mp hc
    exact hR _ _ (allTables_mem h p hp))
  rw [hf] at this
  exact this

end frames

/-! ## Reading back -/

theorem setColumn_fst {ι : Type} {index : List ι} {values : List ℝ} {tb : List (ι × ℝ)} (h : setColumn index values = .ok tb) :
    tb.map Prod.fst = index := by
  unfold setColumn at h
  split_ifs at h with h1 h2
  · cases h
    exact List.map_fst_zip h1.ge
  · cases h
    rw [List.map_map]
    exact List.map_id _

theorem bind_ok' {α β : Type} {x : Except String α} {f : α → Except String β} {b : β} (h : (x >>= f) = .ok b) :
    ∃ a, x = .ok a ∧ f a = .ok b := by
  cases x with
  | ok a => exact ⟨a, rfl, h⟩
  | error e => cases h

theorem essTable_fst {K T D : ℕ} {index : List (ℕ × ℕ)} {x : Fin K → Fin T → Fin D → ℝ} {tb : List ((String × ℕ × ℕ) × ℝ)}
    (h : essTable index x = .ok tb) : tb.map Prod.fst = ["min", "med", "max"] ×ˢ index := by
  unfold essTable at h
  obtain ⟨lo, h1, h⟩ := bind_ok' h
  obtain ⟨med, h2, h⟩ := bind_ok' h
  obtain ⟨hi, h3, h⟩ := bind_ok' h
  cases h
  rw [List.map_append, List.map_append, setColumn_fst h1, setColumn_fst h2, setColumn_fst h3, List.product_cons, List.product_cons,
    List.product_cons, List.nil_product, List.append_nil, List.append_assoc]

/-- The row labels of the tables. -/
structure LabelsOk (s : Sizes) (tb : Tables) : Prop where
  ess : tb.ess.map Prod.fst = ess_index s
  ess_time : tb.ess_time.map Prod.fst = ess_index s
  acceptance_rate : tb.acceptance_rate.map Prod.fst = acceptance_rate_index s
  delta : tb.delta.map Prod.fst = delta_index s
  true_trajectory : tb.true_trajectory.map Prod.fst = true_trajectory_index s
  initial_trajectory : tb.initial_trajectory.map Prod.fst = true_trajectory_index s
  marginal_mean : tb.marginal_mean.map Prod.fst = marginal_mean_index s
  marginal_conf_plus : tb.marginal_conf_plus.map Prod.fst = marginal_mean_index s
  marginal_conf_minus : tb.marginal_conf_minus.map Prod.fst = marginal_mean_index s
  energy_data : tb.energy_data.map Prod.fst = energy_index s
  energy_acfs : tb.energy_acfs.map Prod.fst = energy_acf_index s

theorem labelsOk {s : Sizes} {K M L T D : ℕ} {data : SvFile K M (L + 1) T D} {tb : Tables} (h : tablesOf s data = .ok tb) :
    LabelsOk s tb := by
  unfold tablesOf at h
  obtain ⟨a1, h1, h⟩ := bind_ok' h
  obtain ⟨a2, h2, h⟩ := bind_ok' h
  obtain ⟨a3, h3, h⟩ := bind_ok' h
  obtain ⟨a4, h4, h⟩ := bind_ok' h
  obtain ⟨a5, h5, h⟩ := bind_ok' h
  obtain ⟨a6, h6, h⟩ := bind_ok' h
  obtain ⟨a7, h7, h⟩ := bind_ok' h
  obtain ⟨a8, h8, h⟩ := bind_ok' h
  obtain ⟨a9, h9, h⟩ := bind_ok' h
  obtain ⟨a10, h10, h⟩ := bind_ok' h
  obtain ⟨a11, h11, h⟩ := bind_ok' h
  cases h
  exact ⟨essTable_fst h8, essTable_fst h9, setColumn_fst h10, setColumn_fst h11, setColumn_fst h6, setColumn_fst h7, setColumn_fst h3,
    setColumn_fst h4, setColumn_fst h5, setColumn_fst h1, setColumn_fst h2⟩

theorem reload_same {ι : Type} {index : List ι} {columns : List (ℕ × String)} {F : Frame ι} (hc : F.map Prod.fst = columns)
    (hi : ∀ c ∈ F, c.2.map Prod.fst = index) : reload index columns F = .ok F := by
  subst hc
  unfold reload
  rw [if_pos ⟨by rw [List.length_map], fun c h => by rw [← hi c h, List.length_map]⟩]
  congr 1
  have hz : ∀ l : List (ι × ℝ), (l.map Prod.fst).zip (l.map Prod.snd) = l := fun l => by
    rw [List.zip_map']
    exact List.map_id _
  rw [List.zip_map']
  conv_rhs => rw [← List.map_id F]
  refine List.map_congr_left fun c h => ?_
  rw [← hi c h, hz]
  rfl

/-- **C94** (reading back).  The data frames read from the `csv` files, with the labels of the script put in place by position, are those
that were written. -/
theorem C94_reload {s : Sizes} {K M L T D : ℕ} {file : ℕ × String → SvFile K M (L + 1) T D} {tbs : List ((ℕ × String) × Tables)}
    (h : allTables s file = .ok tbs) :
    reload (ess_index s) columns (frameOf Tables.ess tbs) = .ok (frameOf Tables.ess tbs) ∧
    reload (ess_index s) columns (frameOf Tables.ess_time tbs) = .ok (frameOf Tables.ess_time tbs) ∧
    reload (acceptance_rate_index s) columns (frameOf Tables.acceptance_rate tbs) = .ok (frameOf Tables.acceptance_rate tbs) ∧
    reload (delta_index s) columns (frameOf Tables.delta tbs) = .ok (frameOf Tables.delta tbs) ∧
    reload (true_trajectory_index s) columns (frameOf Tables.true_trajectory tbs) = .ok (frameOf Tables.true_trajectory tbs) ∧
    reload (true_trajectory_index s) columns (frameOf Tables.initial_trajectory tbs) = .ok (frameOf Tables.initial_trajectory tbs) ∧
    reload (marginal_mean_index s) columns (frameOf Tables.marginal_mean tbs) = .ok (frameOf Tables.marginal_mean tbs) ∧
    reload (marginal_mean_index s) columns (frameOf Tables.marginal_conf_plus tbs) = .ok (frameOf Tables.marginal_conf_plus tbs) ∧
    reload (marginal_mean_index s) columns (frameOf Tables.marginal_conf_minus tbs) = .ok (frameOf Tables.marginal_conf_minus tbs) ∧
    reload (energy_index s) columns (frameOf Tables.energy_data tbs) = .ok (frameOf Tables.energy_data tbs) ∧
    reload (energy_acf_index s) columns (frameOf Tables.energy_acfs tbs) = .ok (frameOf Tables.energy_acfs tbs) := by
  have key : ∀ {ι : Type} {df : Tables → List (ι × ℝ)} {index : List ι}, (∀ tb, LabelsOk s tb → (df tb).map Prod.fst = index) →
      reload index columns (frameOf df tbs) = .ok (frameOf df tbs) := by
    intro ι df index hl
    refine reload_same ?_ ?_
    · rw [frameOf, List.map_map, ← allTables_fst h]
      rfl
    · intro c hc
      obtain ⟨p, hp, rfl⟩ := List.mem_map.mp hc
      exact hl _ (labelsOk (allTables_mem h p hp))
  exact ⟨key fun _ h => h.ess, key fun _ h => h.ess_time, key fun _ h => h.acceptance_rate, key fun _ h => h.delta,
    key fun _ h => h.true_trajectory, key fun _ h => h.initial_trajectory, key fun _ h => h.marginal_mean,
    key fun _ h => h.marginal_conf_plus, key fun _ h => h.marginal_conf_minus, key fun _ h => h.energy_data, key fun _ h => h.energy_acfs⟩

/-- **C94** (labels of the files).  The labels written in the files have no effect on what is read back. -/
theorem C94_reload_labels {ι κ ι' κ' ι'' : Type} (index : List ι) (cols : List (ℕ × String)) (saved : List (κ × List (ι' × ℝ)))
    (f : κ → κ') (g : ι' → ι'') :
    reload index cols (saved.map fun c => (f c.1, c.2.map fun r => (g r.1, r.2))) = reload index cols saved := by
  unfold reload
  have e : (saved.map fun c => (f c.1, c.2.map fun r => (g r.1, r.2))).map (fun c => index.zip (c.2.map Prod.snd)) =
      saved.map fun c => index.zip (c.2.map Prod.snd) := by
    rw [List.map_map]
    refine List.map_congr_left fun c _ => ?_
    simp only [Function.comp_apply, List.map_map]
    rfl
  rw [e]
  simp only [List.length_map, List.forall_mem_map]

/-- In particular, columns saved in another order come back under wrong names. -/
example : reload [0] [(10, "a"), (50, "a")] [((50, "a"), [(0, 3)]), ((10, "a"), [(0, 4)])] =
    .ok [((10, "a"), [(0, 3)]), ((50, "a"), [(0, 4)])] := by
  unfold reload
  rw [if_pos (by simp)]
  rfl

/-- **C94** (files that are refused).  A file is read back exactly if it has as many columns as there are kernels and values of `tau`, and as many
rows in each as the index; what comes back then has these columns, these rows and the numbers of the file. -/
theorem C94_reload_lengths {ι κ ι' : Type} (index : List ι) (cols : List (ℕ × String)) (saved : List (κ × List (ι' × ℝ))) :
    ((∃ F, reload index cols saved = .ok F) ↔ saved.length = cols.length ∧ ∀ c ∈ saved, c.2.length = index.length) ∧
    ∀ F, reload index cols saved = .ok F → F.map Prod.fst = cols ∧ (∀ c ∈ F, c.2.map Prod.fst = index) ∧
      F.map (fun c => c.2.map Prod.snd) = saved.map fun c => c.2.map Prod.snd := by
  unfold reload
  refine ⟨⟨fun ⟨F, hF⟩ => ?_, fun h => ⟨_, if_pos h⟩⟩, fun F hF => ?_⟩
  · by_contra hn
    rw [if_neg hn] at hF
    cases hF
  · by_cases h : saved.length = cols.length ∧ ∀ c ∈ saved, c.2.length = index.length
    swap
    · rw [if_neg h] at hF
      cases hF
    rw [if_pos h] at hF
    cases hF
    obtain ⟨h1, h2⟩ := h
    refine ⟨List.map_fst_zip (by simp [h1]), fun c hc => ?_, ?_⟩
    · obtain ⟨q, hq, e⟩ := List.mem_map.mp (List.of_mem_zip hc).2
      rw [← e]
      exact List.map_fst_zip (by simp [h2 q hq])
    · have e : ((cols.zip (saved.map fun c => index.zip (c.2.map Prod.snd))).map fun c => c.2.map Prod.snd) =
          ((cols.zip (saved.map fun c => index.zip (c.2.map Prod.snd))).map Prod.snd).map (List.map Prod.snd) := by
        rw [List.map_map]
        rfl
      rw [e, List.map_snd_zip (by simp [h1]), List.map_map]
      refine List.map_congr_left fun c hc => ?_
      exact List.map_snd_zip (by simp [h2 c hc])

/-- A file with a column too few. -/
example : ¬ ∃ F, reload [0] [(10, "a"), (50, "a")] [((50, "a"), [(0, 3)])] = .ok F := by
  rw [(C94_reload_lengths _ _ _).1]
  simp

/-! ## Figures -/

section figures
variable {K M L T D g lag : ℕ} {file : ℕ × String → SvFile K M (L + 1) T (D + 1)} {tbs : List ((ℕ × String) × Tables)}

/-- **C94** (tables).  When the files have the sizes the script was written for, all the tables are made without error. -/
theorem C94_tables (hg : 0 < g) (hlag : lag ≤ L) (file : ℕ × String → SvFile K M (L + 1) T (D + 1)) :
    ∃ tbs, allTables ⟨K, M, L + 1, T, D + 1, g, lag⟩ file = .ok tbs ∧ tbs.map Prod.fst = columns := by
  obtain ⟨tbs, h⟩ := mapM_of_ok (l := columns) (f := fun column => do
    let tb ← tablesOf ⟨K, M, L + 1, T, D + 1, g, lag⟩ (file column)
    pure (column, tb)) fun c _ => by
      obtain ⟨tb, h, -⟩ := C74_tables hg hlag (file c)
      refine ⟨(c, tb), ?_⟩
      rw [h]
      rfl
  exact ⟨tbs, h, allTables_fst h⟩

/-- The facts of C74, for the table obtained. -/
theorem facts (hg : 0 < g) (hlag : lag ≤ L) {data : SvFile K M (L + 1) T (D + 1)} {tb : Tables}
    (h : tablesOf ⟨K, M, L + 1, T, D + 1, g, lag⟩ data = .ok tb) :
      Tabulates tb.ess (EssRows data.ess) ∧
      Tabulates tb.ess_time (EssRows fun e t j => data.ess e t j / data.sampling_time e) ∧
      Tabulates tb.acceptance_rate (fun i v => ∃ (e : Fin K) (c : Fin M) (t : Fin T), i = (e.1, c.1, t.1) ∧ v = data.final_pct e c t) ∧
      Tabulates tb.delta (fun i v => ∃ (e : Fin K) (t : Fin T), i = (e.1, t.1) ∧ v = data.delta e t) ∧
      Tabulates tb.true_trajectory
        (fun i v => ∃ (e : Fin K) (t : Fin T) (j : Fin (D + 1)), i = (e.1, t.1, j.1) ∧ v = data.true_xs e t j) ∧
      Tabulates tb.initial_trajectory
        (fun i v => ∃ (e : Fin K) (t : Fin T) (j : Fin (D + 1)), i = (e.1, t.1, j.1) ∧ v = data.init_xs e t j) ∧
      Tabulates tb.marginal_mean (fun i v => ∃ (e : Fin K) (c : Fin M) (t : Fin T) (j : Fin (D + 1)), i = (e.1, c.1, t.1, j.1) ∧
        v = data.means e c t j) ∧
      Tabulates tb.marginal_conf_plus (fun i v => ∃ (e : Fin K) (c : Fin M) (t : Fin T) (j : Fin (D + 1)), i = (e.1, c.1, t.1, j.1) ∧
        v = data.means e c t j + 1.96 * data.std_devs e c t j) ∧
      Tabulates tb.marginal_conf_minus (fun i v => ∃ (e : Fin K) (c : Fin M) (t : Fin T) (j : Fin (D + 1)), i = (e.1, c.1, t.1, j.1) ∧
        v = data.means e c t j - 1.96 * data.std_devs e c t j) ∧
      Tabulates tb.energy_data (fun i v => ∃ (e : Fin K) (c : Fin M) (k : Fin (L + 1)), g ∣ k.1 ∧ i = (e.1, c.1, k.1) ∧
        v = -data.energy e k c) ∧
      Tabulates tb.energy_acfs (fun i v => ∃ (e : Fin K) (k : ℕ), k ≤ lag ∧ i = (e.1, k) ∧
        v = cross_chains_autocorr (data.energy e) k) := by
  obtain ⟨tb', htb', h'⟩ := C74_tables hg hlag data
  rw [h] at htb'
  cases htb'
  exact h'

variable (hg : 0 < g) (hlag : lag ≤ L) (h : allTables ⟨K, M, L + 1, T, D + 1, g, lag⟩ file = .ok tbs)

theorem gaussian_sub {name : String} (h : name ∈ ALL_GAUSSIAN_KERNELS) : name ∈ name_in_paper := (C75_families.1 name).mpr (.inr h)

theorem non_gaussian_sub {name : String} (h : name ∈ NON_GAUSSIAN_KERNELS) : name ∈ name_in_paper := (C75_families.1 name).mpr (.inl h)

theorem without_sub {name : String} (h : name ∈ NON_GAUSSIAN_KERNELS_WITHOUT_EXCLUDED) : name ∈ name_in_paper :=
  non_gaussian_sub (List.mem_of_mem_filter h)

include hg hlag h

theorem energy_trace (kernels : List String) (hk : ∀ name ∈ kernels, name ∈ name_in_paper) (tau : ℕ) (name : String) (e c k : ℕ) (v : ℝ) :
    lineplot (energyTraceRows (frameOf Tables.energy_data tbs) tau kernels name e c) k = some v ↔
      tau ∈ [10, 50, 100, 200] ∧ name ∈ kernels ∧ ∃ (he : e < K) (hc : c < M) (hk : k < L + 1), g ∣ k ∧
        v = -(file (tau, name)).energy ⟨e, he⟩ ⟨k, hk⟩ ⟨c, hc⟩ := by
  have ht := tab_frame (df := Tables.energy_data) h (R := fun data i v => ∃ (e : Fin K) (c : Fin M) (k : Fin (L + 1)), g ∣ k.1 ∧
    i = (e.1, c.1, k.1) ∧ v = -data.energy e k c) fun data tb htb => by
      have h' := facts hg hlag htb
      exact h'.2.2.2.2.2.2.2.2.2.1
  have ht := tab_whereName (tab_whereTau ht tau) kernels
  have := lineplot_unique ht (fun i => decide (i.2.2 = name ∧ i.1.1 = e ∧ i.1.2.1 = c)) (fun i => i.1.2.2) id k (by
    rintro ⟨⟨e1, c1, k1⟩, t1, n1⟩ ⟨⟨e2, c2, k2⟩, t2, n2⟩ v w h1 h2 h3 h4 h5
    simp only [decide_eq_true_eq] at h1 h2 h3 h4 h5
    obtain ⟨⟨-, rfl⟩, -⟩ := h1
    obtain ⟨⟨-, h2⟩, -⟩ := h2
    obtain ⟨rfl, rfl, rfl⟩ := h3
    obtain ⟨rfl, rfl, rfl⟩ := h4
    rw [h5, h2]) v
  refine this.trans ?_
  constructor
  · rintro ⟨⟨⟨e1, c1, k1⟩, t1, n1⟩, w, ⟨⟨⟨h1, e', c', k', hd, h2, rfl⟩, h3⟩, h4⟩, h5, h6, rfl⟩
    simp only [decide_eq_true_eq, Prod.mk.injEq] at h1 h2 h3 h4 h5 h6
    obtain ⟨rfl, rfl, rfl⟩ := h5
    obtain ⟨rfl, rfl, rfl⟩ := h2
    subst h3
    subst h6
    exact ⟨(mem_columns.mp h1).1, h4, e'.2, c'.2, k'.2, hd, rfl⟩
  · rintro ⟨h1, h2, he, hc, hk', hd, rfl⟩
    exact ⟨((e, c, k), tau, name), _, ⟨⟨⟨mem_columns.mpr ⟨h1, hk _ h2⟩, ⟨e, he⟩, ⟨c, hc⟩, ⟨k, hk'⟩, hd, rfl, rfl⟩, rfl⟩, h2⟩, by simp, rfl, rfl⟩

/-- **C94** (energy traces). -/
theorem C94_energy_trace (tau : ℕ) (name : String) (e c k : ℕ) (v : ℝ) :
    (gaussian_energy_trace (frameOf Tables.energy_data tbs) tau name e c k = some v ↔
      tau ∈ [10, 50, 100, 200] ∧ name ∈ ALL_GAUSSIAN_KERNELS ∧ ∃ (he : e < K) (hc : c < M) (hk : k < L + 1), g ∣ k ∧
        v = -(file (tau, name)).energy ⟨e, he⟩ ⟨k, hk⟩ ⟨c, hc⟩) ∧
    (non_gaussian_energy_trace (frameOf Tables.energy_data tbs) tau name e c k = some v ↔
      tau ∈ [10, 50, 100, 200] ∧ name ∈ NON_GAUSSIAN_KERNELS ∧ ∃ (he : e < K) (hc : c < M) (hk : k < L + 1), g ∣ k ∧
        v = -(file (tau, name)).energy ⟨e, he⟩ ⟨k, hk⟩ ⟨c, hc⟩) :=
  ⟨energy_trace hg hlag h _ (fun _ => gaussian_sub) _ _ _ _ _ _, energy_trace hg hlag h _ (fun _ => non_gaussian_sub) _ _ _ _ _ _⟩

omit hg hlag in
theorem panel_line {df : Tables → List ((ℕ × ℕ) × ℝ)} {n : ℕ} {F : SvFile K M (L + 1) T (D + 1) → Fin K → ℕ → ℝ}
    (hdf : ∀ data tb, tablesOf ⟨K, M, L + 1, T, D + 1, g, lag⟩ data = .ok tb →
      Tabulates (df tb) fun i v => ∃ (e : Fin K) (k : ℕ), k < n ∧ i = (e.1, k) ∧ v = F data e k)
    (kernels : List String) (hk : ∀ name ∈ kernels, name ∈ name_in_paper) (tau : ℕ) (name : String) (e k : ℕ) (v : ℝ) :
    lineplot (panelRows (frameOf df tbs) tau kernels name e) k = some v ↔
      tau ∈ [10, 50, 100, 200] ∧ name ∈ kernels ∧ ∃ (he : e < K), k < n ∧ v = F (file (tau, name)) ⟨e, he⟩ k := by
  have ht := tab_whereName (tab_whereTau (tab_frame (df := df) h hdf) tau) kernels
  have := lineplot_unique ht (fun i => decide (i.2.2 = name ∧ i.1.1 = e)) (fun i => i.1.2) id k (by
    rintro ⟨⟨e1, k1⟩, t1, n1⟩ ⟨⟨e2, k2⟩, t2, n2⟩ v w h1 h2 h3 h4 h5
    simp only [decide_eq_true_eq] at h1 h2 h3 h4 h5
    obtain ⟨⟨-, rfl⟩, -⟩ := h1
    obtain ⟨⟨-, h2⟩, -⟩ := h2
    obtain ⟨rfl, rfl⟩ := h3
    obtain ⟨rfl, rfl⟩ := h4
    rw [h5, h2]) v
  refine this.trans ?_
  constructor
  · rintro ⟨⟨⟨e1, k1⟩, t1, n1⟩, w, ⟨⟨⟨h1, e', k', hn, h2, rfl⟩, h3⟩, h4⟩, h5, h6, rfl⟩
    simp only [decide_eq_true_eq, Prod.mk.injEq] at h1 h2 h3 h4 h5 h6
    obtain ⟨rfl, rfl⟩ := h5
    obtain ⟨rfl, rfl⟩ := h2
    subst h3
    subst h6
    exact ⟨(mem_columns.mp h1).1, h4, e'.2, hn, rfl⟩
  · rintro ⟨h1, h2, he, hn, rfl⟩
    exact ⟨((e, k), tau, name), _, ⟨⟨⟨mem_columns.mpr ⟨h1, hk _ h2⟩, ⟨e, he⟩, k, hn, rfl, rfl⟩, rfl⟩, h2⟩, by simp, rfl, rfl⟩

/-- **C94** (autocorrelations of the energy). -/
theorem C94_energy_acf (tau : ℕ) (name : String) (e k : ℕ) (v : ℝ) :
    (gaussian_energy_acf (frameOf Tables.energy_acfs tbs) tau name e k = some v ↔
      tau ∈ [10, 50, 100, 200] ∧ name ∈ ALL_GAUSSIAN_KERNELS ∧ ∃ (he : e < K), k < lag + 1 ∧
        v = cross_chains_autocorr ((file (tau, name)).energy ⟨e, he⟩) k) ∧
    (non_gaussian_energy_acf (frameOf Tables.energy_acfs tbs) tau name e k = some v ↔
      tau ∈ [10, 50, 100, 200] ∧ name ∈ NON_GAUSSIAN_KERNELS_WITHOUT_EXCLUDED ∧ ∃ (he : e < K), k < lag + 1 ∧
        v = cross_chains_autocorr ((file (tau, name)).energy ⟨e, he⟩) k) := by
  have hdf : ∀ (data : SvFile K M (L + 1) T (D + 1)) tb, tablesOf ⟨K, M, L + 1, T, D + 1, g, lag⟩ data = .ok tb →
      Tabulates tb.energy_acfs fun i v => ∃ (e : Fin K) (k : ℕ), k < lag + 1 ∧ i = (e.1, k) ∧
        v = cross_chains_autocorr (data.energy e) k := fun data tb htb => by
    have h' := facts hg hlag htb
    exact tab_mono h'.2.2.2.2.2.2.2.2.2.2 fun i v => by simp only [Nat.lt_succ_iff]
  exact ⟨panel_line h hdf _ (fun _ => gaussian_sub) _ _ _ _ _, panel_line h hdf _ (fun _ => without_sub) _ _ _ _ _⟩

/-- **C94** (step sizes). -/
theorem C94_delta (tau : ℕ) (name : String) (e t : ℕ) (v : ℝ) :
    (gaussian_delta (frameOf Tables.delta tbs) tau name e t = some v ↔
      tau ∈ [10, 50, 100, 200] ∧ name ∈ ALL_GAUSSIAN_KERNELS ∧ ∃ (he : e < K) (ht : t < T), v = (file (tau, name)).delta ⟨e, he⟩ ⟨t, ht⟩) ∧
    (non_gaussian_delta (frameOf Tables.delta tbs) tau name e t = some v ↔
      tau ∈ [10, 50, 100, 200] ∧ name ∈ NON_GAUSSIAN_KERNELS_WITHOUT_EXCLUDED ∧ ∃ (he : e < K) (ht : t < T),
        v = (file (tau, name)).delta ⟨e, he⟩ ⟨t, ht⟩) := by
  have hdf : ∀ (data : SvFile K M (L + 1) T (D + 1)) tb, tablesOf ⟨K, M, L + 1, T, D + 1, g, lag⟩ data = .ok tb →
      Tabulates tb.delta fun i v => ∃ (e : Fin K) (k : ℕ), k < T ∧ i = (e.1, k) ∧
        v = (if hk : k < T then data.delta e ⟨k, hk⟩ else 0) := fun data tb htb => by
    have h' := facts hg hlag htb
    refine tab_mono h'.2.2.2.1 fun i v => ⟨?_, ?_⟩
    · rintro ⟨e, t, rfl, rfl⟩
      exact ⟨e, t, t.2, rfl, by rw [dif_pos t.2]⟩
    · rintro ⟨e, k, hk, rfl, rfl⟩
      exact ⟨e, ⟨k, hk⟩, rfl, by rw [dif_pos hk]⟩
  have e2 : ∀ (he : e < K), (t < T ∧ v = (if hk : t < T then (file (tau, name)).delta ⟨e, he⟩ ⟨t, hk⟩ else 0)) ↔
      ∃ (ht : t < T), v = (file (tau, name)).delta ⟨e, he⟩ ⟨t, ht⟩ := fun he => by
    constructor
    · rintro ⟨h1, h2⟩
      rw [dif_pos h1] at h2
      exact ⟨h1, h2⟩
    · rintro ⟨h1, h2⟩
      exact ⟨h1, by rw [dif_pos h1]; exact h2⟩
  refine ⟨(panel_line h hdf _ (fun _ => gaussian_sub) _ _ _ _ _).trans ?_, (panel_line h hdf _ (fun _ => without_sub) _ _ _ _ _).trans ?_⟩
  all_goals simp only [e2]

/-! ### Averages -/

/-- Average of finitely many numbers, and two standard errors on both sides of it. -/
def BandOf {n : ℕ} (f : Fin n → ℝ) (lo hi : ℝ) : Prop :=
  ∃ mean var, n * mean = ∑ c, f c ∧ (n - 1) * var = ∑ c, (f c - mean) ^ 2 ∧
    lo = mean - 2 * Real.sqrt (var / n) ∧ hi = mean + 2 * Real.sqrt (var / n)

omit hg hlag h in
theorem bandOf_iff {n : ℕ} (hn : 1 < n) (f : Fin n → ℝ) (v : ℝ × ℝ) :
    (v.1 = (∑ c, f c) / n - 2 * (Real.sqrt ((∑ c, (f c - (∑ c, f c) / n) ^ 2) / (n - 1)) / Real.sqrt n) ∧
      v.2 = (∑ c, f c) / n + 2 * (Real.sqrt ((∑ c, (f c - (∑ c, f c) / n) ^ 2) / (n - 1)) / Real.sqrt n)) ↔ BandOf f v.1 v.2 := by
  have h0 : (0 : ℝ) < n := by exact_mod_cast (by omega : 0 < n)
  have h1 : (0 : ℝ) < n - 1 := by
    have : (1 : ℝ) < n := by exact_mod_cast hn
    linarith
  rw [← Real.sqrt_div' _ h0.le]
  constructor
  · rintro ⟨h2, h3⟩
    exact ⟨_, _, by field_simp, by field_simp, h2, h3⟩
  · rintro ⟨m, w, hm, hw, h2, h3⟩
    have em : m = (∑ c, f c) / n := by rw [← hm]; field_simp
    subst em
    have ew : w = (∑ c, (f c - (∑ c, f c) / n) ^ 2) / (n - 1) := by rw [← hw]; field_simp
    subst ew
    exact ⟨h2, h3⟩

theorem acceptance_line (kernels : List String) (hk : ∀ name ∈ kernels, name ∈ name_in_paper) (tau : ℕ) (name : String) (e t : ℕ) :
    (∀ v, lineplot (acceptanceRows (frameOf Tables.acceptance_rate tbs) tau kernels name e) t = some v ↔
      tau ∈ [10, 50, 100, 200] ∧ name ∈ kernels ∧ ∃ (he : e < K) (ht : t < T), 0 < M ∧
        v = (∑ c, (file (tau, name)).final_pct ⟨e, he⟩ c ⟨t, ht⟩) / M) ∧
    (∀ v, lineband (acceptanceRows (frameOf Tables.acceptance_rate tbs) tau kernels name e) t = some v ↔
      tau ∈ [10, 50, 100, 200] ∧ name ∈ kernels ∧ ∃ (he : e < K) (ht : t < T), 1 < M ∧
        BandOf (fun c => (file (tau, name)).final_pct ⟨e, he⟩ c ⟨t, ht⟩) v.1 v.2) := by
  have ht := tab_frame (df := Tables.acceptance_rate) h (R := fun data i v => ∃ (e : Fin K) (c : Fin M) (t : Fin T),
    i = (e.1, c.1, t.1) ∧ v = data.final_pct e c t) fun data tb htb => by
      have h' := facts hg hlag htb
      exact h'.2.2.1
  have hT := tab_whereName (tab_whereTau ht tau) kernels
  by_cases hok : tau ∈ [10, 50, 100, 200] ∧ name ∈ kernels ∧ e < K ∧ t < T
  · obtain ⟨h1, h2, he, ht⟩ := hok
    have hp := atX_perm hT (fun i => decide (i.2.2 = name ∧ i.1.1 = e)) (fun i => i.1.2.2) id t (n := M)
      (g := fun c => ((e, c.1, t), tau, name)) (fun a b hab => Fin.ext (by simpa using hab))
      (f := fun c => (file (tau, name)).final_pct ⟨e, he⟩ c ⟨t, ht⟩) (by
        rintro ⟨⟨e1, c1, t1⟩, tau1, n1⟩ v
        constructor
        · rintro ⟨⟨⟨⟨h1, e', c', t', h2, rfl⟩, h3⟩, h4⟩, h5, h6⟩
          simp only [decide_eq_true_eq, Prod.mk.injEq] at h1 h2 h3 h4 h5 h6
          obtain ⟨hn, hee⟩ := h5
          obtain ⟨q1, q2, q3⟩ := h2
          obtain rfl : e' = ⟨e, he⟩ := Fin.ext (q1.symm.trans hee)
          obtain rfl : t' = ⟨t, ht⟩ := Fin.ext (q3.symm.trans h6)
          subst h3 hn
          exact ⟨c', by rw [q1, q2, q3], rfl⟩
        · rintro ⟨c', h5, rfl⟩
          simp only [Prod.mk.injEq] at h5
          obtain ⟨⟨rfl, rfl, rfl⟩, rfl, rfl⟩ := h5
          exact ⟨⟨⟨⟨mem_columns.mpr ⟨h1, hk _ h2⟩, ⟨_, he⟩, c', ⟨_, ht⟩, rfl, rfl⟩, rfl⟩, h2⟩, by simp, rfl⟩)
    refine ⟨fun v => (lineplot_of_perm hp v).trans ?_, fun v => (lineband_of_perm hp v).trans ?_⟩
    · exact ⟨fun h3 => ⟨h1, h2, he, ht, h3⟩, fun ⟨_, _, _, _, h3⟩ => h3⟩
    · constructor
      · rintro ⟨h3, h4⟩
        exact ⟨h1, h2, he, ht, h3, (bandOf_iff h3 _ _).mp h4⟩
      · rintro ⟨_, _, _, _, h3, h4⟩
        exact ⟨h3, (bandOf_iff h3 _ _).mpr h4⟩
  · have hp := atX_perm hT (fun i => decide (i.2.2 = name ∧ i.1.1 = e)) (fun i => i.1.2.2) id t (n := 0)
      (g := Fin.elim0) (Function.injective_of_subsingleton _) (f := Fin.elim0) (by
        rintro ⟨⟨e1, c1, t1⟩, tau1, n1⟩ v
        constructor
        · rintro ⟨⟨⟨⟨h1, e', c', t', h2, rfl⟩, h3⟩, h4⟩, h5, h6⟩
          simp only [decide_eq_true_eq, Prod.mk.injEq] at h1 h2 h3 h4 h5 h6
          obtain ⟨rfl, rfl⟩ := h5
          obtain ⟨rfl, rfl, rfl⟩ := h2
          subst h3
          subst h6
          exact absurd ⟨(mem_columns.mp h1).1, h4, e'.2, t'.2⟩ hok
        · rintro ⟨c, -⟩
          exact c.elim0)
    refine ⟨fun v => (lineplot_of_perm hp v).trans ?_, fun v => (lineband_of_perm hp v).trans ?_⟩
    · simp only [lt_irrefl, false_and, false_iff]
      rintro ⟨h1, h2, he, ht, -⟩
      exact hok ⟨h1, h2, he, ht⟩
    · simp only [Nat.not_lt_zero, false_and, false_iff]
      rintro ⟨h1, h2, he, ht, -⟩
      exact hok ⟨h1, h2, he, ht⟩

/-- **C94** (acceptance rates).  The lines are averages over the chains, with two standard errors on both sides. -/
theorem C94_acceptance_rate (tau : ℕ) (name : String) (e t : ℕ) :
    (∀ v, (gaussian_acceptance_rate (frameOf Tables.acceptance_rate tbs) tau name e t).1 = some v ↔
      tau ∈ [10, 50, 100, 200] ∧ name ∈ ALL_GAUSSIAN_KERNELS ∧ ∃ (he : e < K) (ht : t < T), 0 < M ∧
        v = (∑ c, (file (tau, name)).final_pct ⟨e, he⟩ c ⟨t, ht⟩) / M) ∧
    (∀ v, (gaussian_acceptance_rate (frameOf Tables.acceptance_rate tbs) tau name e t).2 = some v ↔
      tau ∈ [10, 50, 100, 200] ∧ name ∈ ALL_GAUSSIAN_KERNELS ∧ ∃ (he : e < K) (ht : t < T), 1 < M ∧
        BandOf (fun c => (file (tau, name)).final_pct ⟨e, he⟩ c ⟨t, ht⟩) v.1 v.2) ∧
    (∀ v, (non_gaussian_acceptance_rate (frameOf Tables.acceptance_rate tbs) tau name e t).1 = some v ↔
      tau ∈ [10, 50, 100, 200] ∧ name ∈ NON_GAUSSIAN_KERNELS ∧ ∃ (he : e < K) (ht : t < T), 0 < M ∧
        v = (∑ c, (file (tau, name)).final_pct ⟨e, he⟩ c ⟨t, ht⟩) / M) ∧
    (∀ v, (non_gaussian_acceptance_rate (frameOf Tables.acceptance_rate tbs) tau name e t).2 = some v ↔
      tau ∈ [10, 50, 100, 200] ∧ name ∈ NON_GAUSSIAN_KERNELS ∧ ∃ (he : e < K) (ht : t < T), 1 < M ∧
        BandOf (fun c => (file (tau, name)).final_pct ⟨e, he⟩ c ⟨t, ht⟩) v.1 v.2) := by
  have h1 := acceptance_line hg hlag h _ (fun _ => gaussian_sub) tau name e t
  have h2 := acceptance_line hg hlag h _ (fun _ => non_gaussian_sub) tau name e t
  exact ⟨h1.1, h1.2, h2.1, h2.2⟩

/-! ### Trajectories -/

omit hg hlag in
theorem tab_short {df : Tables → List ((ℕ × ℕ × ℕ) × ℝ)} {F : SvFile K M (L + 1) T (D + 1) → Fin K → Fin T → Fin (D + 1) → ℝ}
    (hdf : ∀ data tb, tablesOf ⟨K, M, L + 1, T, D + 1, g, lag⟩ data = .ok tb →
      Tabulates (df tb) fun i v => ∃ (e : Fin K) (t : Fin T) (j : Fin (D + 1)), i = (e.1, t.1, j.1) ∧ v = F data e t j)
    (kernels : List String) (tau dim : ℕ) :
    Tabulates (whereName kernels ((whereTau tau (stackFrame (frameOf df tbs))).filter fun r => r.1.1.2.2 = dim)) fun i v =>
      i.2 ∈ columns ∧ i.2.1 = tau ∧ i.2.2 ∈ kernels ∧ ∃ (e : Fin K) (t : Fin T) (j : Fin (D + 1)), j.1 = dim ∧ i.1 = (e.1, t.1, j.1) ∧
        v = F (file i.2) e t j := by
  refine tab_mono (tab_whereName (tab_filter (tab_whereTau (tab_frame (df := df) h hdf) tau) fun i => decide (i.1.2.2 = dim)) kernels) ?_
  rintro ⟨i, c⟩ v
  constructor
  · rintro ⟨⟨⟨⟨h1, e, t, j, h2, h3⟩, h4⟩, h5⟩, h6⟩
    simp only [decide_eq_true_eq] at h2 h5
    subst h2
    exact ⟨h1, h4, h6, e, t, j, h5, rfl, h3⟩
  · rintro ⟨h1, h4, h6, e, t, j, h5, h2, h3⟩
    simp only at h2
    subst h2
    exact ⟨⟨⟨⟨h1, e, t, j, rfl, h3⟩, h4⟩, by simpa using h5⟩, h6⟩

omit hg hlag in
theorem tab_long {df : Tables → List ((ℕ × ℕ × ℕ × ℕ) × ℝ)} {F : SvFile K M (L + 1) T (D + 1) → Fin K → Fin M → Fin T → Fin (D + 1) → ℝ}
    (hdf : ∀ data tb, tablesOf ⟨K, M, L + 1, T, D + 1, g, lag⟩ data = .ok tb →
      Tabulates (df tb) fun i v => ∃ (e : Fin K) (c : Fin M) (t : Fin T) (j : Fin (D + 1)), i = (e.1, c.1, t.1, j.1) ∧ v = F data e c t j)
    (kernels : List String) (tau dim : ℕ) :
    Tabulates (whereName kernels ((whereTau tau (stackFrame (frameOf df tbs))).filter fun r => r.1.1.2.2.2 = dim)) fun i v =>
      i.2 ∈ columns ∧ i.2.1 = tau ∧ i.2.2 ∈ kernels ∧ ∃ (e : Fin K) (c : Fin M) (t : Fin T) (j : Fin (D + 1)), j.1 = dim ∧
        i.1 = (e.1, c.1, t.1, j.1) ∧ v = F (file i.2) e c t j := by
  refine tab_mono (tab_whereName (tab_filter (tab_whereTau (tab_frame (df := df) h hdf) tau) fun i => decide (i.1.2.2.2 = dim)) kernels) ?_
  rintro ⟨i, cl⟩ v
  constructor
  · rintro ⟨⟨⟨⟨h1, e, c, t, j, h2, h3⟩, h4⟩, h5⟩, h6⟩
    simp only [decide_eq_true_eq] at h2 h5
    subst h2
    exact ⟨h1, h4, h6, e, c, t, j, h5, rfl, h3⟩
  · rintro ⟨h1, h4, h6, e, c, t, j, h5, h2, h3⟩
    simp only at h2
    subst h2
    exact ⟨⟨⟨⟨h1, e, c, t, j, rfl, h3⟩, h4⟩, by simpa using h5⟩, h6⟩

omit hg hlag h in
/-- The tables of trajectories. -/
noncomputable def trajOf (tbs : List ((ℕ × String) × Tables)) : TrajFrames :=
  ⟨frameOf Tables.true_trajectory tbs, frameOf Tables.initial_trajectory tbs, frameOf Tables.marginal_mean tbs,
    frameOf Tables.marginal_conf_plus tbs, frameOf Tables.marginal_conf_minus tbs⟩

/-- **C94** (merge).  The merged table has one row for every kernel selected, experiment, chain and time, with the numbers of its file. -/
theorem C94_merge (kernels : List String) (hk : ∀ name ∈ kernels, name ∈ name_in_paper) (tau dim : ℕ) :
    Tabulates (trajectoryTable (trajOf tbs) tau dim kernels) fun i r =>
      i.2.1 = tau ∧ tau ∈ [10, 50, 100, 200] ∧ i.2.2 ∈ kernels ∧ ∃ (e : Fin K) (c : Fin M) (t : Fin T) (j : Fin (D + 1)), j.1 = dim ∧
        i.1 = (e.1, c.1, t.1, j.1) ∧ r.true_trajectory = (file i.2).true_xs e t j ∧ r.initial_trajectory = (file i.2).init_xs e t j ∧
        r.mean = (file i.2).means e c t j ∧ r.conf_plus = (file i.2).means e c t j + 1.96 * (file i.2).std_devs e c t j ∧
        r.conf_minus = (file i.2).means e c t j - 1.96 * (file i.2).std_devs e c t j := by
  have t1 := tab_short h (df := Tables.true_trajectory) (fun d tb ht => (facts hg hlag ht).2.2.2.2.1) kernels tau dim
  have t2 := tab_short h (df := Tables.initial_trajectory) (fun d tb ht => (facts hg hlag ht).2.2.2.2.2.1) kernels tau dim
  have t3 := tab_long h (df := Tables.marginal_mean) (fun d tb ht => (facts hg hlag ht).2.2.2.2.2.2.1) kernels tau dim
  have t4 := tab_long h (df := Tables.marginal_conf_plus) (fun d tb ht => (facts hg hlag ht).2.2.2.2.2.2.2.1) kernels tau dim
  have t5 := tab_long h (df := Tables.marginal_conf_minus) (fun d tb ht => (facts hg hlag ht).2.2.2.2.2.2.2.2.1) kernels tau dim
  have m1 := tab_merge (on := id) t1 t2
  have m2 := tab_merge (on := fun i : (ℕ × ℕ × ℕ × ℕ) × ℕ × String => ((i.1.1, i.1.2.2), i.2)) m1 t3
  have m3 := tab_merge (on := id) m2 t4
  have m4 := tab_merge (on := id) m3 t5
  have m5 := tab_map m4 (f := id) Function.injective_id
    fun w => (⟨w.1.1.1.1, w.1.1.1.2, w.1.1.2, w.1.2, w.2⟩ : TrajRow)
  refine tab_mono m5 ?_
  rintro ⟨i, tau', name⟩ r
  constructor
  · rintro ⟨-, ⟨⟨⟨⟨w1, w2⟩, w3⟩, w4⟩, w5⟩, rfl, rfl, ⟨⟨⟨⟨⟨a1, a2, a3, e1, s1, j1, d1, l1, v1⟩, ⟨-, -, -, e2, s2, j2, d2, l2, v2⟩⟩,
      ⟨-, -, -, e3, c3, s3, j3, d3, l3, v3⟩⟩, ⟨-, -, -, e4, c4, s4, j4, d4, l4, v4⟩⟩, ⟨-, -, -, e5, c5, s5, j5, d5, l5, v5⟩⟩⟩
    simp only [id_eq] at *
    subst a2
    subst l3
    simp only [Prod.mk.injEq] at l1 l2 l4 l5
    obtain rfl : e3 = e1 := Fin.ext l1.1
    obtain rfl : e3 = e2 := Fin.ext l2.1
    obtain rfl : e3 = e4 := Fin.ext l4.1
    obtain rfl : e3 = e5 := Fin.ext l5.1
    obtain rfl : c3 = c4 := Fin.ext l4.2.1
    obtain rfl : c3 = c5 := Fin.ext l5.2.1
    obtain rfl : s3 = s1 := Fin.ext l1.2.1
    obtain rfl : s3 = s2 := Fin.ext l2.2.1
    obtain rfl : s3 = s4 := Fin.ext l4.2.2.1
    obtain rfl : s3 = s5 := Fin.ext l5.2.2.1
    obtain rfl : j3 = j1 := Fin.ext l1.2.2
    obtain rfl : j3 = j2 := Fin.ext l2.2.2
    obtain rfl : j3 = j4 := Fin.ext l4.2.2.2
    obtain rfl : j3 = j5 := Fin.ext l5.2.2.2
    exact ⟨rfl, (mem_columns.mp a1).1, a3, e3, c3, s3, j3, d3, rfl, v1, v2, v3, v4, v5⟩
  · obtain ⟨r1, r2, r3, r4, r5⟩ := r
    rintro ⟨a2, a1, a3, e, c, t, j, d, l, v1, v2, v3, v4, v5⟩
    simp only at a1 a2 a3 d l v1 v2 v3 v4 v5
    subst a2
    subst l
    have hc := mem_columns.mpr ⟨a1, hk _ a3⟩
    exact ⟨((e.1, c.1, t.1, j.1), tau', name), ((((r1, r2), r3), r4), r5), rfl, rfl,
      ⟨⟨⟨⟨⟨hc, rfl, a3, e, t, j, d, rfl, v1⟩, ⟨hc, rfl, a3, e, t, j, d, rfl, v2⟩⟩,
        ⟨hc, rfl, a3, e, c, t, j, d, rfl, v3⟩⟩, ⟨hc, rfl, a3, e, c, t, j, d, rfl, v4⟩⟩, ⟨hc, rfl, a3, e, c, t, j, d, rfl, v5⟩⟩⟩

theorem trajectory_line (kernels : List String) (hk : ∀ name ∈ kernels, name ∈ name_in_paper) (tau dim : ℕ) (y : TrajRow → ℝ)
    (name : String) (e c t : ℕ) (v : ℝ) :
    lineplot (trajectoryRows (trajOf tbs) tau dim kernels y name e c) t = some v ↔
      tau ∈ [10, 50, 100, 200] ∧ name ∈ kernels ∧ ∃ (he : e < K) (hc : c < M) (ht : t < T) (hd : dim < D + 1),
        let f := file (tau, name)
        v = y ⟨f.true_xs ⟨e, he⟩ ⟨t, ht⟩ ⟨dim, hd⟩, f.init_xs ⟨e, he⟩ ⟨t, ht⟩ ⟨dim, hd⟩, f.means ⟨e, he⟩ ⟨c, hc⟩ ⟨t, ht⟩ ⟨dim, hd⟩,
          f.means ⟨e, he⟩ ⟨c, hc⟩ ⟨t, ht⟩ ⟨dim, hd⟩ + 1.96 * f.std_devs ⟨e, he⟩ ⟨c, hc⟩ ⟨t, ht⟩ ⟨dim, hd⟩,
          f.means ⟨e, he⟩ ⟨c, hc⟩ ⟨t, ht⟩ ⟨dim, hd⟩ - 1.96 * f.std_devs ⟨e, he⟩ ⟨c, hc⟩ ⟨t, ht⟩ ⟨dim, hd⟩⟩ := by
  have hT := C94_merge hg hlag h kernels hk tau dim
  have := lineplot_unique hT (fun i => decide (i.2.2 = name ∧ i.1.1 = e ∧ i.1.2.1 = c)) (fun i => i.1.2.2.1) y t (by
    rintro ⟨⟨e1, c1, t1, d1⟩, tau1, n1⟩ ⟨⟨e2, c2, t2, d2⟩, tau2, n2⟩ v w h1 h2 h3 h4 h5
    simp only [decide_eq_true_eq] at h1 h2 h3 h4 h5
    obtain ⟨rfl, -, -, _, _, _, j, rfl, hl, -⟩ := h1
    obtain ⟨rfl, -, -, _, _, _, j', hj', hl', -⟩ := h2
    simp only [Prod.mk.injEq] at hl hl'
    obtain ⟨rfl, rfl, rfl⟩ := h3
    obtain ⟨rfl, rfl, rfl⟩ := h4
    rw [h5, hl.2.2.2, hl'.2.2.2, hj']) v
  refine this.trans ?_
  constructor
  · rintro ⟨⟨⟨e1, c1, t1, d1⟩, tau1, n1⟩, ⟨r1, r2, r3, r4, r5⟩, ⟨a1, a2, a3, e', c', t', j', d', l', v1, v2, v3, v4, v5⟩, hs, hx, rfl⟩
    simp only [decide_eq_true_eq, Prod.mk.injEq] at a1 a2 a3 l' v1 v2 v3 v4 v5 hs hx
    obtain ⟨rfl, rfl, rfl, rfl⟩ := l'
    obtain ⟨rfl, rfl, rfl⟩ := hs
    subst a1 hx d'
    refine ⟨a2, a3, e'.2, c'.2, t'.2, j'.2, ?_⟩
    rw [v1, v2, v3, v4, v5]
  · rintro ⟨h1, h2, he, hc, ht, hd, rfl⟩
    exact ⟨((e, c, t, dim), tau, name), _, ⟨rfl, h1, h2, ⟨e, he⟩, ⟨c, hc⟩, ⟨t, ht⟩, ⟨dim, hd⟩, rfl, rfl, rfl, rfl, rfl, rfl, rfl⟩,
      by simp, rfl, rfl⟩

/-- **C94** (trajectories).  The four lines of every chain are the true states, the posterior means and the limits `mean ± 1.96 std` of the
dimension chosen. -/
theorem C94_trajectory (tau dim : ℕ) (name : String) (e c t : ℕ) (v : ℝ) :
    ∀ fig ∈ [(gaussian_trajectory, ALL_GAUSSIAN_KERNELS), (non_gaussian_trajectory, NON_GAUSSIAN_KERNELS)],
      (fig.1 (trajOf tbs) tau dim TrajRow.mean name e c t = some v ↔ tau ∈ [10, 50, 100, 200] ∧ name ∈ fig.2 ∧
        ∃ (he : e < K) (hc : c < M) (ht : t < T) (hd : dim < D + 1), v = (file (tau, name)).means ⟨e, he⟩ ⟨c, hc⟩ ⟨t, ht⟩ ⟨dim, hd⟩) ∧
      (fig.1 (trajOf tbs) tau dim TrajRow.conf_plus name e c t = some v ↔ tau ∈ [10, 50, 100, 200] ∧ name ∈ fig.2 ∧
        ∃ (he : e < K) (hc : c < M) (ht : t < T) (hd : dim < D + 1), v = (file (tau, name)).means ⟨e, he⟩ ⟨c, hc⟩ ⟨t, ht⟩ ⟨dim, hd⟩ +
          1.96 * (file (tau, name)).std_devs ⟨e, he⟩ ⟨c, hc⟩ ⟨t, ht⟩ ⟨dim, hd⟩) ∧
      (fig.1 (trajOf tbs) tau dim TrajRow.conf_minus name e c t = some v ↔ tau ∈ [10, 50, 100, 200] ∧ name ∈ fig.2 ∧
        ∃ (he : e < K) (hc : c < M) (ht : t < T) (hd : dim < D + 1), v = (file (tau, name)).means ⟨e, he⟩ ⟨c, hc⟩ ⟨t, ht⟩ ⟨dim, hd⟩ -
          1.96 * (file (tau, name)).std_devs ⟨e, he⟩ ⟨c, hc⟩ ⟨t, ht⟩ ⟨dim, hd⟩) ∧
      (fig.1 (trajOf tbs) tau dim TrajRow.true_trajectory name e c t = some v ↔ tau ∈ [10, 50, 100, 200] ∧ name ∈ fig.2 ∧
        ∃ (he : e < K) (_ : c < M) (ht : t < T) (hd : dim < D + 1), v = (file (tau, name)).true_xs ⟨e, he⟩ ⟨t, ht⟩ ⟨dim, hd⟩) := by
  have hg' := fun y => trajectory_line hg hlag h _ (fun _ => gaussian_sub) tau dim y name e c t v
  have hn' := fun y => trajectory_line hg hlag h _ (fun _ => non_gaussian_sub) tau dim y name e c t v
  intro fig hfig
  simp only [List.mem_cons, List.not_mem_nil, or_false] at hfig
  rcases hfig with rfl | rfl
  · dsimp only
    exact ⟨hg' TrajRow.mean, hg' TrajRow.conf_plus, hg' TrajRow.conf_minus, hg' TrajRow.true_trajectory⟩
  · dsimp only
    exact ⟨hn' TrajRow.mean, hn' TrajRow.conf_plus, hn' TrajRow.conf_minus, hn' TrajRow.true_trajectory⟩

/-! ### Effective sample sizes -/

omit hg hlag in
theorem ess_line {df : Tables → List ((String × ℕ × ℕ) × ℝ)} {X : SvFile K M (L + 1) T (D + 1) → Fin K → Fin T → Fin (D + 1) → ℝ}
    (hdf : ∀ data tb, tablesOf ⟨K, M, L + 1, T, D + 1, g, lag⟩ data = .ok tb → Tabulates (df tb) (EssRows (X data)))
    (kernels : List String) (hk : ∀ name ∈ kernels, name ∈ name_in_paper) (row : ℚ) (name : String) (t : ℕ) :
    (∀ v, (essFigure (frameOf df tbs) kernels row name t).1 = some v ↔
      ∃ tau ∈ ([10, 50, 100, 200] : List ℕ), row = (tau : ℚ) / 100 ∧ name ∈ kernels ∧ ∃ (ht : t < T), 0 < K ∧ ∃ m : Fin K → ℝ,
        (∀ e, IsQuantile (X (file (tau, name)) e ⟨t, ht⟩) (1 / 2) (m e)) ∧ v = (∑ e, m e) / K) ∧
    (∀ v, (essFigure (frameOf df tbs) kernels row name t).2 = some v ↔
      ∃ tau ∈ ([10, 50, 100, 200] : List ℕ), row = (tau : ℚ) / 100 ∧ name ∈ kernels ∧ ∃ (ht : t < T), 1 < K ∧ ∃ m : Fin K → ℝ,
        (∀ e, IsQuantile (X (file (tau, name)) e ⟨t, ht⟩) (1 / 2) (m e)) ∧ BandOf m v.1 v.2) := by
  have inj : Function.Injective fun i : (String × ℕ × ℕ) × ℕ × String => (i.1, (i.2.1 : ℚ) / 100, i.2.2) := by
    rintro ⟨i, a, n⟩ ⟨j, b, m⟩ hij
    simp only [Prod.mk.injEq] at hij
    obtain ⟨rfl, h1, rfl⟩ := hij
    have : (a : ℚ) = b := by linarith
    rw [Nat.cast_injective this]
  have hT := tab_filter (tab_filter (tab_map (tab_frame (df := df) h hdf) inj id) fun i => decide (i.1.1 = "med"))
    fun i => decide (i.2.2 ∈ kernels)
  have hrow : ∀ tau ∈ [10, 50, 100, 200], ((tau : ℕ) : ℚ) / 100 ∈ row_order := by
    intro tau ht
    simp only [List.mem_cons, List.not_mem_nil, or_false] at ht
    rcases ht with rfl | rfl | rfl | rfl <;> norm_num [row_order]
  by_cases hok : (∃ tau ∈ [10, 50, 100, 200], row = ((tau : ℕ) : ℚ) / 100) ∧ name ∈ kernels ∧ t < T
  · obtain ⟨⟨tau, h1, hr⟩, h2, ht⟩ := hok
    have hp := atX_perm hT (fun i => decide (i.2.1 = row ∧ i.2.2 = name)) (fun i => i.1.2.2) id t (n := K)
      (g := fun e => (("med", e.1, t), row, name)) (fun a b hab => Fin.ext (by simpa using hab))
      (f := fun e => medianOf (X (file (tau, name)) e ⟨t, ht⟩)) (by
        rintro ⟨⟨st, e1, t1⟩, q, n1⟩ v
        constructor
        · rintro ⟨⟨⟨⟨⟨i, tau', n'⟩, w, hf, rfl, hc, e', t', hi, hE⟩, hst⟩, hn⟩, hs, hx⟩
          simp only [decide_eq_true_eq, Prod.mk.injEq] at hf hi hst hn hs hx
          obtain ⟨rfl, rfl, rfl⟩ := hf
          simp only [Prod.mk.injEq] at hi
          obtain ⟨q1, q2⟩ := hi
          obtain rfl : t' = ⟨t, ht⟩ := Fin.ext (q2.symm.trans hx)
          obtain ⟨s1, rfl⟩ := hs
          have : (tau' : ℚ) = tau := by rw [hr] at s1; linarith
          obtain rfl := Nat.cast_injective this
          have hE' : IsQuantile (X (file (tau', n')) e' ⟨t, ht⟩) (1 / 2) w := by
            subst hst
            simpa using hE
          exact ⟨e', by rw [hst, q1, hx, hr], hE'.unique (medianOf_spec _)⟩
        · rintro ⟨e', h5, rfl⟩
          simp only [Prod.mk.injEq] at h5
          obtain ⟨⟨rfl, rfl, rfl⟩, rfl, rfl⟩ := h5
          exact ⟨⟨⟨⟨(("med", e'.1, _), tau, _), _, by rw [hr], rfl, mem_columns.mpr ⟨h1, hk _ h2⟩, e', ⟨_, ht⟩, rfl,
            .inr (.inl ⟨rfl, medianOf_spec _⟩)⟩, by simp⟩, by simpa using h2⟩, by simp, rfl⟩)
    have hp' : (atX (essRows (frameOf df tbs) kernels row name) t).Perm
        (List.ofFn fun e => medianOf (X (file (tau, name)) e ⟨t, ht⟩)) := by
      unfold essRows
      rw [if_pos (hr ▸ hrow tau h1)]
      exact hp
    have uniq : ∀ tau' : ℕ, row = (tau' : ℚ) / 100 → tau' = tau := fun tau' h' => by
      have : (tau' : ℚ) = tau := by rw [hr] at h'; linarith
      exact Nat.cast_injective this
    refine ⟨fun v => (lineplot_of_perm hp' v).trans ?_, fun v => (lineband_of_perm hp' v).trans ?_⟩
    · constructor
      · rintro ⟨hK, rfl⟩
        exact ⟨tau, h1, hr, h2, ht, hK, _, fun e => medianOf_spec _, rfl⟩
      · rintro ⟨tau', _, hr', _, _, hK, m, hm, rfl⟩
        obtain rfl := uniq _ hr'
        exact ⟨hK, by rw [Finset.sum_congr rfl fun e _ => (hm e).unique (medianOf_spec _)]⟩
    · constructor
      · rintro ⟨hK, hb⟩
        exact ⟨tau, h1, hr, h2, ht, hK, _, fun e => medianOf_spec _, (bandOf_iff hK _ _).mp hb⟩
      · rintro ⟨tau', _, hr', _, _, hK, m, hm, hb⟩
        obtain rfl := uniq _ hr'
        obtain rfl : m = fun e => medianOf (X (file (tau', name)) e ⟨t, ht⟩) := funext fun e => (hm e).unique (medianOf_spec _)
        exact ⟨hK, (bandOf_iff hK _ _).mpr hb⟩
  · have hp : (atX (essRows (frameOf df tbs) kernels row name) t).Perm (List.ofFn (n := 0) (Fin.elim0 : Fin 0 → ℝ)) := by
      unfold essRows
      split_ifs with hro
      · refine atX_perm hT (fun i => decide (i.2.1 = row ∧ i.2.2 = name)) (fun i => i.1.2.2) id t (n := 0)
          (g := Fin.elim0) (Function.injective_of_subsingleton _) (f := Fin.elim0) ?_ |>.trans ?_
        · rintro ⟨⟨st, e1, t1⟩, q, n1⟩ v
          constructor
          · rintro ⟨⟨⟨⟨⟨i, tau', n'⟩, w, hf, rfl, hc, e', t', hi, hE⟩, hst⟩, hn⟩, hs, hx⟩
            simp only [decide_eq_true_eq, Prod.mk.injEq] at hf hi hst hn hs hx
            obtain ⟨rfl, rfl, rfl⟩ := hf
            simp only [Prod.mk.injEq] at hi
            obtain ⟨q1, q2⟩ := hi
            obtain ⟨s1, rfl⟩ := hs
            refine absurd ⟨⟨tau', (mem_columns.mp hc).1, s1.symm⟩, hn, ?_⟩ hok
            rw [← hx, q2]
            exact t'.2
          · rintro ⟨c, -⟩
            exact c.elim0
        · exact List.Perm.refl _
      · exact List.Perm.refl _
    refine ⟨fun v => (lineplot_of_perm hp v).trans ?_, fun v => (lineband_of_perm hp v).trans ?_⟩
    · simp only [lt_irrefl, false_and, false_iff]
      rintro ⟨tau, h1, hr, h2, ht, -⟩
      exact hok ⟨⟨tau, h1, hr⟩, h2, ht⟩
    · simp only [Nat.not_lt_zero, false_and, false_iff]
      rintro ⟨tau, h1, hr, h2, ht, -⟩
      exact hok ⟨⟨tau, h1, hr⟩, h2, ht⟩

omit hg hlag h in
theorem grad_sub : ∀ name ∈ GAUSSIAN_KERNELS, name ∈ name_in_paper := by decide +kernel
omit hg hlag h in
theorem twisted_sub : ∀ name ∈ TWISTED_KERNELS, name ∈ name_in_paper := by decide +kernel

/-- **C94** (effective sample sizes).  In the row `tau / 100` the line of a kernel is the average over the experiments of the median over the
dimensions, with two standard errors on both sides; no value of `tau` is left out. -/
theorem C94_ess (row : ℚ) (name : String) (t : ℕ) :
    ∀ fig ∈ [(gaussian_ess, GAUSSIAN_KERNELS), (non_gaussian_ess, NON_GAUSSIAN_KERNELS_WITHOUT_EXCLUDED), (twisted_ess, TWISTED_KERNELS)],
      (∀ v, (fig.1 (frameOf Tables.ess tbs) row name t).1 = some v ↔
        ∃ tau ∈ ([10, 50, 100, 200] : List ℕ), row = (tau : ℚ) / 100 ∧ name ∈ fig.2 ∧ ∃ (ht : t < T), 0 < K ∧ ∃ m : Fin K → ℝ,
          (∀ e, IsQuantile ((file (tau, name)).ess e ⟨t, ht⟩) (1 / 2) (m e)) ∧ v = (∑ e, m e) / K) ∧
      (∀ v, (fig.1 (frameOf Tables.ess tbs) row name t).2 = some v ↔
        ∃ tau ∈ ([10, 50, 100, 200] : List ℕ), row = (tau : ℚ) / 100 ∧ name ∈ fig.2 ∧ ∃ (ht : t < T), 1 < K ∧ ∃ m : Fin K → ℝ,
          (∀ e, IsQuantile ((file (tau, name)).ess e ⟨t, ht⟩) (1 / 2) (m e)) ∧ BandOf m v.1 v.2) := by
  have hl := fun ks hk => ess_line h (df := Tables.ess) (X := SvFile.ess) (fun _ _ ht => (facts hg hlag ht).1) ks hk row name t
  intro fig hfig
  simp only [List.mem_cons, List.not_mem_nil, or_false] at hfig
  rcases hfig with rfl | rfl | rfl
  · exact hl _ grad_sub
  · exact hl _ fun _ => without_sub
  · exact hl _ twisted_sub

/-- **C94** (effective sample sizes per second). -/
theorem C94_ess_time (row : ℚ) (name : String) (t : ℕ) :
    ∀ fig ∈ [(gaussian_ess, GAUSSIAN_KERNELS), (non_gaussian_ess, NON_GAUSSIAN_KERNELS_WITHOUT_EXCLUDED), (twisted_ess, TWISTED_KERNELS)],
      (∀ v, (fig.1 (frameOf Tables.ess_time tbs) row name t).1 = some v ↔
        ∃ tau ∈ ([10, 50, 100, 200] : List ℕ), row = (tau : ℚ) / 100 ∧ name ∈ fig.2 ∧ ∃ (ht : t < T), 0 < K ∧ ∃ m : Fin K → ℝ,
          (∀ e, IsQuantile (fun j => (file (tau, name)).ess e ⟨t, ht⟩ j / (file (tau, name)).sampling_time e) (1 / 2) (m e)) ∧
            v = (∑ e, m e) / K) ∧
      (∀ v, (fig.1 (frameOf Tables.ess_time tbs) row name t).2 = some v ↔
        ∃ tau ∈ ([10, 50, 100, 200] : List ℕ), row = (tau : ℚ) / 100 ∧ name ∈ fig.2 ∧ ∃ (ht : t < T), 1 < K ∧ ∃ m : Fin K → ℝ,
          (∀ e, IsQuantile (fun j => (file (tau, name)).ess e ⟨t, ht⟩ j / (file (tau, name)).sampling_time e) (1 / 2) (m e)) ∧
            BandOf m v.1 v.2) := by
  have hl := fun ks hk => ess_line h (df := Tables.ess_time) (X := fun data e t j => data.ess e t j / data.sampling_time e)
    (fun _ _ ht => (facts hg hlag ht).2.1) ks hk row name t
  intro fig hfig
  simp only [List.mem_cons, List.not_mem_nil, or_false] at hfig
  rcases hfig with rfl | rfl | rfl
  · exact hl _ grad_sub
  · exact hl _ fun _ => without_sub
  · exact hl _ twisted_sub

end figures

/-- Files in which every number says where it comes from: 2 experiments, 3 chains, 7 samples, 4 times, 2 dimensions. -/
noncomputable def exampleFiles (c : ℕ × String) : SvFile 2 3 (6 + 1) 4 (1 + 1) where
  ess e t j := c.1 + 1000 * e + 100 * t + j
  final_pct e i t := c.1 + 1000 * e + 100 * i + 10 * t
  delta e t := c.1 + 1000 * e + 100 * t
  sampling_time e := 1 + e
  energy e k i := c.1 + 1000 * e + 100 * k + 10 * i
  means e i t j := c.1 + 1000 * e + 100 * i + 10 * t + j
  std_devs _ _ _ _ := 1
  true_xs e t j := 1000 * e + 100 * t + j
  init_xs _ _ _ := 0

/-- The hypotheses hold, lines are drawn, and they have the values announced. -/
example : ∃ tbs, allTables ⟨2, 3, 7, 4, 2, 2, 4⟩ exampleFiles = .ok tbs ∧
    non_gaussian_energy_trace (frameOf Tables.energy_data tbs) 50 "Particle-MALA\n" 1 2 4 = some (-1470) ∧
    gaussian_energy_trace (frameOf Tables.energy_data tbs) 50 "Particle-MALA\n" 1 2 4 ≠ some (-1470) ∧
    non_gaussian_trajectory (trajOf tbs) 50 1 TrajRow.conf_plus "Particle-MALA\n" 1 2 3 = some (50 + 1000 + 200 + 30 + 1 + 1.96) ∧
    (non_gaussian_acceptance_rate (frameOf Tables.acceptance_rate tbs) 50 "MALA\n" 1 3).1 = some (50 + 1000 + 100 + 30) := by
  obtain ⟨tbs, h, -⟩ := C94_tables (g := 2) (lag := 4) (by norm_num) (by norm_num) exampleFiles
  refine ⟨tbs, h, ?_, ?_, ?_, ?_⟩
  · refine (C94_energy_trace (by norm_num) (by norm_num) h 50 _ 1 2 4 _).2.mpr
      ⟨by decide, by decide +kernel, by norm_num, by norm_num, by norm_num, ⟨2, rfl⟩, ?_⟩
    norm_num [exampleFiles]
  · intro hn
    have := ((C94_energy_trace (by norm_num) (by norm_num) h 50 _ 1 2 4 _).1.mp hn).2.1
    exact absurd this (by decide +kernel)
  · have ht := C94_trajectory (by norm_num) (by norm_num) h 50 1 "Particle-MALA\n" 1 2 3 (50 + 1000 + 200 + 30 + 1 + 1.96)
      (non_gaussian_trajectory, NON_GAUSSIAN_KERNELS) (.tail _ (.head _))
    dsimp only at ht
    rw [ht.2.1]
    refine ⟨by decide, by decide +kernel, by norm_num, by norm_num, by norm_num, by norm_num, ?_⟩
    norm_num [exampleFiles]
  · refine ((C94_acceptance_rate (by norm_num) (by norm_num) h 50 "MALA\n" 1 3).2.2.1 _).mpr
      ⟨by decide, by decide +kernel, by norm_num, by norm_num, by norm_num, ?_⟩
    simp only [exampleFiles, Fin.sum_univ_three]
    norm_num

end Verif.Props
