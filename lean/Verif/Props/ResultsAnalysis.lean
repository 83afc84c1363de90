import Verif.Lemmas.Tables
import Verif.Props.Diagnostics

/-!
# C74, C75: tables and files of `results_analysis.py`
-/

namespace Verif.Props
open Verif Verif.Model Verif.Spec Verif.Lemmas

/-! ## C74: tables -/

theorem zip2 {a b : ℕ} (x : Fin a → Fin b → ℝ) :
    (flat2 x).length = (pyRange a 1 ×ˢ pyRange b 1).length ∧
    Tabulates ((pyRange a 1 ×ˢ pyRange b 1).zip (flat2 x)) fun i v => ∃ p q, (p.1, q.1) = i ∧ x p q = v := by
  have hl : (flat2 x).length = (pyRange a 1 ×ˢ pyRange b 1).length := by
    rw [flat2_length, List.length_product, pyRange_length, pyRange_length, strideLen_one, strideLen_one]
  refine ⟨hl, tabulates_zip hl ((pyRange_nodup a one_pos).product (pyRange_nodup b one_pos)) ?_⟩
  rintro ⟨i, j⟩ v
  rw [pyRange_one, pyRange_one, flat2, mem_zip_axis (by simp [flat1_length])]
  simp only [mem_zip1, Prod.mk.injEq]
  constructor
  · rintro ⟨p, h1, q, h2, h3⟩
    exact ⟨p, q, ⟨h1, h2⟩, h3⟩
  · rintro ⟨p, q, ⟨h1, h2⟩, h3⟩
    exact ⟨p, h1, q, h2, h3⟩

theorem zip3 {a b n g : ℕ} (hg : 0 < g) (x : Fin a → Fin b → Fin (strideLen n g) → ℝ) :
    (flat3 x).length = (pyRange a 1 ×ˢ (pyRange b 1 ×ˢ pyRange n g)).length ∧
    Tabulates ((pyRange a 1 ×ˢ (pyRange b 1 ×ˢ pyRange n g)).zip (flat3 x)) fun i v =>
      ∃ p q r, (p.1, q.1, r.1 * g) = i ∧ x p q r = v := by
  have hl : (flat3 x).length = (pyRange a 1 ×ˢ (pyRange b 1 ×ˢ pyRange n g)).length := by
    rw [flat3_length, List.length_product, List.length_product, pyRange_length, pyRange_length, pyRange_length, strideLen_one,
      strideLen_one]
  refine ⟨hl, tabulates_zip hl ((pyRange_nodup a one_pos).product ((pyRange_nodup b one_pos).product (pyRange_nodup n hg))) ?_⟩
  rintro ⟨i, j, k⟩ v
  rw [pyRange_one, pyRange_one, pyRange_eq, flat3,
    mem_zip_axis (by intro y; rw [flat2_length, List.length_product, List.length_map, List.length_map, List.length_finRange,
      List.length_finRange])]
  simp only [flat2]
  constructor
  · rintro ⟨p, rfl, h⟩
    rw [mem_zip_axis (by simp [flat1_length])] at h
    obtain ⟨q, rfl, h⟩ := h
    obtain ⟨r, rfl, rfl⟩ := mem_zip1.mp h
    exact ⟨p, q, r, rfl, rfl⟩
  · rintro ⟨p, q, r, h, rfl⟩
    simp only [Prod.mk.injEq] at h
    obtain ⟨rfl, rfl, rfl⟩ := h
    refine ⟨p, rfl, ?_⟩
    rw [mem_zip_axis (by simp [flat1_length])]
    exact ⟨q, rfl, mem_zip1.mpr ⟨r, rfl, rfl⟩⟩

theorem zip3_one {a b c : ℕ} (x : Fin a → Fin b → Fin c → ℝ) :
    (flat3 x).length = (pyRange a 1 ×ˢ (pyRange b 1 ×ˢ pyRange c 1)).length ∧
    Tabulates ((pyRange a 1 ×ˢ (pyRange b 1 ×ˢ pyRange c 1)).zip (flat3 x)) fun i v =>
      ∃ p q r, (p.1, q.1, r.1) = i ∧ x p q r = v := by
  have key : ∀ c' (hc : c' = c) (y : Fin a → Fin b → Fin c' → ℝ), (∀ p q r, y p q r = x p q (Fin.cast hc r)) → flat3 y = flat3 x := by
    rintro c' rfl y hy
    congr 1
    funext p q r
    exact hy p q r
  have hs := strideLen_one c
  have h := zip3 (n := c) one_pos fun p q r => x p q (Fin.cast hs r)
  rw [key _ hs _ fun _ _ _ => rfl] at h
  refine ⟨h.1, h.2.1, fun i v => (h.2.2 i v).trans ?_⟩
  constructor
  · rintro ⟨p, q, r, h1, h2⟩
    exact ⟨p, q, Fin.cast hs r, by simpa using h1, h2⟩
  · rintro ⟨p, q, r, h1, h2⟩
    exact ⟨p, q, Fin.cast hs.symm r, by simpa using h1, by simpa using h2⟩

theorem zip4 {a b c d : ℕ} (x : Fin a → Fin b → Fin c → Fin d → ℝ) :
    (flat4 x).length = (pyRange a 1 ×ˢ (pyRange b 1 ×ˢ (pyRange c 1 ×ˢ pyRange d 1))).length ∧
    Tabulates ((pyRange a 1 ×ˢ (pyRange b 1 ×ˢ (pyRange c 1 ×ˢ pyRange d 1))).zip (flat4 x)) fun i v =>
      ∃ p q r s, (p.1, q.1, r.1, s.1) = i ∧ x p q r s = v := by
  have hl : (flat4 x).length = (pyRange a 1 ×ˢ (pyRange b 1 ×ˢ (pyRange c 1 ×ˢ pyRange d 1))).length := by
    simp only [flat4_length, List.length_product, pyRange_length, strideLen_one]
  refine ⟨hl, tabulates_zip hl ((pyRange_nodup a one_pos).product ((pyRange_nodup b one_pos).product
    ((pyRange_nodup c one_pos).product (pyRange_nodup d one_pos)))) ?_⟩
  rintro ⟨i, j⟩ v
  have h3 := fun p => (zip3_one (x p)).2.2 j v
  rw [pyRange_one a, flat4, mem_zip_axis (by intro y; rw [(zip3_one y).1])]
  simp only [h3]
  constructor
  · rintro ⟨p, rfl, q, r, s, rfl, rfl⟩
    exact ⟨p, q, r, s, rfl, rfl⟩
  · rintro ⟨p, q, r, s, h, rfl⟩
    simp only [Prod.mk.injEq] at h
    obtain ⟨rfl, rfl⟩ := h
    exact ⟨p, rfl, q, r, s, rfl, rfl⟩

/-- The rows of a table of effective sample sizes: over the dimensions, the smallest, the median and the largest. -/
def EssRows {K T D : ℕ} (x : Fin K → Fin T → Fin (D + 1) → ℝ) (i : String × ℕ × ℕ) (v : ℝ) : Prop :=
  ∃ (e : Fin K) (t : Fin T), i.2 = (e.1, t.1) ∧
    (i.1 = "min" ∧ IsLeast (Set.range (x e t)) v ∨ i.1 = "med" ∧ IsQuantile (x e t) (1 / 2) v ∨
      i.1 = "max" ∧ IsGreatest (Set.range (x e t)) v)

theorem zip_label {ι : Type} (stat : String) (index : List ι) (v : List ℝ) :
    (index.map fun p => (stat, p)).zip v = (index.zip v).map fun q => ((stat, q.1), q.2) := by
  rw [List.zip_map_left]
  rfl

theorem ess_table {K T D : ℕ} (x : Fin K → Fin T → Fin (D + 1) → ℝ) :
    ∃ tb, essTable (pyRange K 1 ×ˢ pyRange T 1) x = .ok tb ∧ Tabulates tb (EssRows x) := by
  have h1 := zip2 fun e t => minOf (x e t)
  have h2 := zip2 fun e t => medianOf (x e t)
  have h3 := zip2 fun e t => maxOf (x e t)
  refine ⟨_, by
    rw [essTable, setColumn_ok (by rw [List.length_map]; exact h1.1), setColumn_ok (by rw [List.length_map]; exact h2.1),
      setColumn_ok (by rw [List.length_map]; exact h3.1)]
    rfl, ?_, ?_⟩
  · have hn : (pyRange K 1 ×ˢ pyRange T 1).Nodup := (pyRange_nodup K one_pos).product (pyRange_nodup T one_pos)
    have hm : ∀ stat : String, ((pyRange K 1 ×ˢ pyRange T 1).map fun p => (stat, p)).Nodup := fun stat =>
      hn.map fun _ _ h => by simpa using h
    rw [List.map_append, List.map_append, List.map_fst_zip (by rw [List.length_map]; exact h1.1.ge),
      List.map_fst_zip (by rw [List.length_map]; exact h2.1.ge), List.map_fst_zip (by rw [List.length_map]; exact h3.1.ge)]
    refine ((hm _).append (hm _) ?_).append (hm _) ?_
    · intro i hi hi'
      simp only [List.mem_map] at hi hi'
      obtain ⟨_, -, rfl⟩ := hi
      obtain ⟨_, -, h⟩ := hi'
      simp at h
    · intro i hi hi'
      simp only [List.mem_append, List.mem_map] at hi hi'
      obtain ⟨_, -, rfl⟩ := hi'
      rcases hi with ⟨_, -, h⟩ | ⟨_, -, h⟩ <;> simp at h
  · rintro ⟨stat, i⟩ v
    simp only [zip_label, List.mem_append, List.mem_map, Prod.mk.injEq]
    constructor
    · rintro ((⟨⟨j, w⟩, hq, ⟨rfl, rfl⟩, rfl⟩ | ⟨⟨j, w⟩, hq, ⟨rfl, rfl⟩, rfl⟩) | ⟨⟨j, w⟩, hq, ⟨rfl, rfl⟩, rfl⟩)
      · obtain ⟨e, t, rfl, rfl⟩ := (h1.2.2 _ _).mp hq
        exact ⟨e, t, rfl, .inl ⟨rfl, minOf_spec _⟩⟩
      · obtain ⟨e, t, rfl, rfl⟩ := (h2.2.2 _ _).mp hq
        exact ⟨e, t, rfl, .inr (.inl ⟨rfl, medianOf_spec _⟩)⟩
      · obtain ⟨e, t, rfl, rfl⟩ := (h3.2.2 _ _).mp hq
        exact ⟨e, t, rfl, .inr (.inr ⟨rfl, maxOf_spec _⟩)⟩
    · rintro ⟨e, t, hi, ⟨rfl, h⟩ | ⟨rfl, h⟩ | ⟨rfl, h⟩⟩
      · exact .inl (.inl ⟨(i, v), (h1.2.2 _ _).mpr ⟨e, t, hi.symm, (minOf_spec _).unique h⟩, ⟨rfl, rfl⟩, rfl⟩)
      · exact .inl (.inr ⟨(i, v), (h2.2.2 _ _).mpr ⟨e, t, hi.symm, (medianOf_spec _).unique h⟩, ⟨rfl, rfl⟩, rfl⟩)
      · exact .inr ⟨(i, v), (h3.2.2 _ _).mpr ⟨e, t, hi.symm, (maxOf_spec _).unique h⟩, ⟨rfl, rfl⟩, rfl⟩

/-- **C74** (tables).  When the file has the sizes the script was written for, every table is filled without error, and every row holds
the numbers of the experiment, chain, time, dimension, sample or lag written in its label. -/
theorem C74_tables {K M L T D g lag : ℕ} (hg : 0 < g) (hlag : lag ≤ L) (data : SvFile K M (L + 1) T (D + 1)) :
    ∃ tb, tablesOf ⟨K, M, L + 1, T, D + 1, g, lag⟩ data = .ok tb ∧
      Tabulates tb.ess (EssRows data.ess) ∧
      Tabulates tb.ess_time (EssRows fun e t j => data.ess e t j / data.sampling_time e) ∧
      Tabulates tb.acceptance_rate (fun i v => ∃ (e : Fin K) (c : Fin M) (t : Fin T), i = (e.1, c.1, t.1) ∧ v = data.final_pct e c t) ∧
      Tabulates tb.delta (fun i v => ∃ (e : Fin K) (t : Fin T), i = (e.1, t.1) ∧ v = data.delta e t) ∧
      Tabulates tb.true_trajectory
        (fun i v => ∃ (e : Fin K) (t : Fin T) (j : Fin (D + 1)), i = (e.1, t.1, j.1) ∧ v = data.true_xs e t j) ∧
      Tabulates tb.initial_trajectory
        (fun i v => ∃ (e : Fin K) (t : Fin T) (j : Fin (D + 1)), i = (e.1, t.1, j.1) ∧ v = data.init_xs e t j) ∧
      Tabulates tb.marginal_mean (fun i v => ∃ (e : Fin K) (c : Fin M) (t : Fin T) (j : Fin (D + 1)), i = (e.1, c.1, t.1, j.1) ∧
        v = data.means e c t j) ∧
      Tabulates tb.marginal_conf_plus (fun i v => ∃ (e : Fin K) (c : Fin M) (t : Fin T) (j : Fin (D + 1)), i = (e.1, c.1, t.1, j.1) ∧
        v = data.means e c t j + 1.96 * data.std_devs e c t j) ∧
      Tabulates tb.marginal_conf_minus (fun i v => ∃ (e : Fin K) (c : Fin M) (t : Fin T) (j : Fin (D + 1)), i = (e.1, c.1, t.1, j.1) ∧
        v = data.means e c t j - 1.96 * data.std_devs e c t j) ∧
      Tabulates tb.energy_data (fun i v => ∃ (e : Fin K) (c : Fin M) (k : Fin (L + 1)), g ∣ k.1 ∧ i = (e.1, c.1, k.1) ∧
        v = -data.energy e k c) ∧
      Tabulates tb.energy_acfs (fun i v => ∃ (e : Fin K) (k : ℕ), k ≤ lag ∧ i = (e.1, k) ∧
        v = cross_chains_autocorr (data.energy e) k) := by
  obtain ⟨ess, he, hess⟩ := ess_table data.ess
  obtain ⟨essT, heT, hessT⟩ := ess_table fun e t j => data.ess e t j / data.sampling_time e
  have hen := zip3 hg fun (e : Fin K) (i : Fin M) (k : Fin (strideLen (L + 1) g)) => -strideA g (data.energy e) k i
  have hlags : tfp_lags L lag = lag + 1 := by rw [tfp_lags, min_eq_right hlag]
  have hac := zip2 fun e (k : Fin (lag + 1)) => cross_chains_autocorr (data.energy e) k
  have hac' : (flat2 fun e (k : Fin (tfp_lags L lag)) => cross_chains_autocorr (data.energy e) k) =
      flat2 fun e (k : Fin (lag + 1)) => cross_chains_autocorr (data.energy e) k := by rw [hlags]
  have hmm := zip4 data.means
  have hcp := zip4 fun e i t j => data.means e i t j + STD_CONFIDENCE * data.std_devs e i t j
  have hcm := zip4 fun e i t j => data.means e i t j - STD_CONFIDENCE * data.std_devs e i t j
  have htr := zip3_one data.true_xs
  have hin := zip3_one data.init_xs
  have hac2 := zip3_one data.final_pct
  have hde := zip2 data.delta
  refine ⟨_, by
    unfold tablesOf
    simp only [hac']
    rw [he, heT, setColumn_ok hen.1, setColumn_ok hac.1, setColumn_ok hmm.1, setColumn_ok hcp.1, setColumn_ok hcm.1,
      setColumn_ok htr.1, setColumn_ok hin.1, setColumn_ok hac2.1, setColumn_ok hde.1]
    rfl, hess, hessT, ⟨hac2.2.1, fun i v => ?_⟩, ⟨hde.2.1, fun i v => ?_⟩, ⟨htr.2.1, fun i v => ?_⟩, ⟨hin.2.1, fun i v => ?_⟩,
    ⟨hmm.2.1, fun i v => ?_⟩, ⟨hcp.2.1, fun i v => ?_⟩, ⟨hcm.2.1, fun i v => ?_⟩, ⟨hen.2.1, fun i v => ?_⟩,
    ⟨hac.2.1, fun i v => ?_⟩⟩
  · exact (hac2.2.2 i v).trans ⟨fun ⟨p, q, r, h1, h2⟩ => ⟨p, q, r, h1.symm, h2.symm⟩, fun ⟨p, q, r, h1, h2⟩ => ⟨p, q, r, h1.symm, h2.symm⟩⟩
  · exact (hde.2.2 i v).trans ⟨fun ⟨p, q, h1, h2⟩ => ⟨p, q, h1.symm, h2.symm⟩, fun ⟨p, q, h1, h2⟩ => ⟨p, q, h1.symm, h2.symm⟩⟩
  · exact (htr.2.2 i v).trans ⟨fun ⟨p, q, r, h1, h2⟩ => ⟨p, q, r, h1.symm, h2.symm⟩, fun ⟨p, q, r, h1, h2⟩ => ⟨p, q, r, h1.symm, h2.symm⟩⟩
  · exact (hin.2.2 i v).trans ⟨fun ⟨p, q, r, h1, h2⟩ => ⟨p, q, r, h1.symm, h2.symm⟩, fun ⟨p, q, r, h1, h2⟩ => ⟨p, q, r, h1.symm, h2.symm⟩⟩
  · exact (hmm.2.2 i v).trans
      ⟨fun ⟨p, q, r, s, h1, h2⟩ => ⟨p, q, r, s, h1.symm, h2.symm⟩, fun ⟨p, q, r, s, h1, h2⟩ => ⟨p, q, r, s, h1.symm, h2.symm⟩⟩
  · exact (hcp.2.2 i v).trans
      ⟨fun ⟨p, q, r, s, h1, h2⟩ => ⟨p, q, r, s, h1.symm, h2.symm⟩, fun ⟨p, q, r, s, h1, h2⟩ => ⟨p, q, r, s, h1.symm, h2.symm⟩⟩
  · exact (hcm.2.2 i v).trans
      ⟨fun ⟨p, q, r, s, h1, h2⟩ => ⟨p, q, r, s, h1.symm, h2.symm⟩, fun ⟨p, q, r, s, h1, h2⟩ => ⟨p, q, r, s, h1.symm, h2.symm⟩⟩
  · refine (hen.2.2 i v).trans ⟨?_, ?_⟩
    · rintro ⟨p, q, r, rfl, rfl⟩
      exact ⟨p, q, ⟨r.1 * g, strideLen_lt r⟩, dvd_mul_left _ _, rfl, rfl⟩
    · rintro ⟨p, q, ⟨k, hk⟩, ⟨r, hr⟩, rfl, rfl⟩
      rw [Nat.mul_comm] at hr
      have hk' : k = r * g := hr
      have hr' : r < strideLen (L + 1) g := by
        unfold strideLen
        rw [Nat.lt_div_iff_mul_lt hg]
        have : g * r = r * g := Nat.mul_comm _ _
        omega
      subst hk'
      exact ⟨p, q, ⟨r, hr'⟩, rfl, rfl⟩
  · refine (hac.2.2 i v).trans ⟨?_, ?_⟩
    · rintro ⟨p, q, rfl, rfl⟩
      exact ⟨p, q.1, Nat.lt_succ_iff.mp q.2, rfl, rfl⟩
    · rintro ⟨p, k, hk, rfl, rfl⟩
      exact ⟨p, ⟨k, Nat.lt_succ_of_le hk⟩, rfl, rfl⟩

example : ∃ tb, tablesOf ⟨2, 3, 7, 2, 2, 2, 4⟩ (⟨fun _ _ _ => 5, fun _ _ _ => 0.5, fun _ _ => 1, fun _ => 2, fun e k c => e + 10 * k + 100 * c,
      fun _ _ _ _ => 0, fun _ _ _ _ => 1, fun _ _ _ => 0, fun _ _ _ => 0⟩ : SvFile 2 3 (6 + 1) 2 (1 + 1)) = .ok tb ∧
      ((1, 2, 4), -241) ∈ tb.energy_data := by
  obtain ⟨tb, h, -, -, -, -, -, -, -, -, -, hen, -⟩ := C74_tables (g := 2) (lag := 4) (by norm_num) (by norm_num)
    (⟨fun _ _ _ => 5, fun _ _ _ => 0.5, fun _ _ => 1, fun _ => 2, fun e k c => e + 10 * k + 100 * c,
      fun _ _ _ _ => 0, fun _ _ _ _ => 1, fun _ _ _ => 0, fun _ _ _ => 0⟩ : SvFile 2 3 (6 + 1) 2 (1 + 1))
  refine ⟨tb, h, (hen.2 _ _).mpr ⟨1, 2, 4, ⟨2, rfl⟩, rfl, ?_⟩⟩
  simp only [Fin.isValue]
  norm_num [show ((4 : Fin (6 + 1)) : ℕ) = 4 from rfl]

theorem setColumn_iff {ι : Type} {index : List ι} {values : List ℝ} (h : values.length ≠ 1) :
    (∃ tb, setColumn index values = .ok tb) ↔ values.length = index.length := by
  unfold setColumn
  split_ifs with h1
  · exact ⟨fun _ => h1, fun _ => ⟨_, rfl⟩⟩
  · exact ⟨fun ⟨_, h⟩ => (by simp at h), fun h => absurd h h1⟩

theorem bind_ok {α β : Type} {x : Except String α} {f : α → Except String β} {b : β} (h : (x >>= f) = .ok b) : ∃ a, x = .ok a := by
  cases x with
  | ok a => exact ⟨a, rfl⟩
  | error e => cases h

/-- **C74** (number of samples).  With the constants of the script, a file of `n` samples can be read exactly if
`44900 < n ≤ 45000`; otherwise the script stops with an error. -/
theorem C74_samples {L : ℕ} (data : SvFile 5 4 (L + 1) 128 30) :
    (∃ tb, tablesOf theSizes data = .ok tb) ↔ 44900 < L + 1 ∧ L + 1 ≤ 45000 := by
  have hlen : ∀ x : Fin 5 → Fin 4 → Fin (strideLen (L + 1) 100) → ℝ, (flat3 x).length = 20 * strideLen (L + 1) 100 := fun x => by
    rw [flat3_length]
    ring
  have hidx : (pyRange 5 1 ×ˢ (pyRange 4 1 ×ˢ pyRange 45000 100)).length = 20 * 450 := by
    simp only [List.length_product, pyRange_length, strideLen]
  have hst : strideLen (L + 1) 100 = 450 ↔ 44900 < L + 1 ∧ L + 1 ≤ 45000 := by
    unfold strideLen
    omega
  rw [← hst]
  constructor
  · rintro ⟨tb, h⟩
    obtain ⟨c, hc⟩ := bind_ok h
    have := (setColumn_iff (by
      have := hlen fun e i k => -strideA 100 (data.energy e) k i
      show (flat3 fun e i k => -strideA 100 (data.energy e) k i).length ≠ 1
      omega)).mp ⟨c, hc⟩
    have h1 : 20 * strideLen (L + 1) 100 = 20 * 450 := by
      rw [← hidx, ← hlen fun e i k => -strideA 100 (data.energy e) k i]
      exact this
    omega
  · intro h
    have hL := hst.mp h
    obtain ⟨tb, htb, -⟩ := C74_tables (D := 29) (g := 100) (lag := 249) (by norm_num) (by omega) data
    refine ⟨tb, htb ▸ ?_⟩
    have e : pyRange 45000 100 = pyRange (L + 1) 100 := by
      unfold pyRange
      rw [h]
      rfl
    unfold tablesOf theSizes
    simp only [e]

/-- **C74** (order of the rows of one block).  The median lies between the smallest and the largest effective sample size. -/
theorem C74_order {K T D : ℕ} (x : Fin K → Fin T → Fin (D + 1) → ℝ) {e t : ℕ} {lo med hi : ℝ} (hlo : EssRows x ("min", e, t) lo)
    (hmed : EssRows x ("med", e, t) med) (hhi : EssRows x ("max", e, t) hi) : lo ≤ med ∧ med ≤ hi := by
  obtain ⟨p, q, h, h1⟩ := hlo
  obtain ⟨p', q', h', h2⟩ := hmed
  obtain ⟨p'', q'', h'', h3⟩ := hhi
  simp only [Prod.mk.injEq] at h h' h''
  obtain rfl : p = p' := Fin.ext (by omega)
  obtain rfl : q = q' := Fin.ext (by omega)
  obtain rfl : p = p'' := Fin.ext (by omega)
  obtain rfl : q = q'' := Fin.ext (by omega)
  have h1 : IsLeast (Set.range (x p q)) lo := by simpa using h1
  have h2 : IsQuantile (x p q) (1 / 2) med := by simpa using h2
  have h3 : IsGreatest (Set.range (x p q)) hi := by simpa using h3
  obtain ⟨⟨i, hi⟩, ⟨j, hj⟩⟩ := quantile_between h2
  exact ⟨(h1.2 ⟨i, rfl⟩).trans hi, hj.trans (h3.2 ⟨j, rfl⟩)⟩

theorem orderStat_div {k : ℕ} {h : Fin k → ℝ} {j : ℕ} {a s : ℝ} (hs : 0 < s) (ha : IsOrderStat h j a) :
    IsOrderStat (fun i => h i / s) j (a / s) := by
  have e1 : (fun i => h i / s < a / s) = fun i => h i < a := by
    funext i
    rw [div_lt_div_iff_of_pos_right hs]
  have e2 : (fun i => h i / s ≤ a / s) = fun i => h i ≤ a := by
    funext i
    rw [div_le_div_iff_of_pos_right hs]
  refine ⟨?_, ?_⟩
  · have := ha.1
    rw [← e1] at this
    exact this
  · have := ha.2
    rw [← e2] at this
    exact this

/-- **C74** (per second).  For a positive sampling time, every effective sample size per second is the effective sample size divided by
the sampling time of its experiment. -/
theorem C74_per_second {K T D : ℕ} (x : Fin K → Fin T → Fin (D + 1) → ℝ) {time : Fin K → ℝ} (ht : ∀ e, 0 < time e) (stat : String)
    (e : Fin K) (t : Fin T) (v : ℝ) (h : EssRows x (stat, e, t) v) : EssRows (fun e t j => x e t j / time e) (stat, e, t) (v / time e) := by
  obtain ⟨p, q, hi, h⟩ := h
  simp only [Prod.mk.injEq] at hi
  obtain rfl : e = p := Fin.ext hi.1
  obtain rfl : t = q := Fin.ext hi.2
  refine ⟨e, t, rfl, ?_⟩
  rcases h with ⟨hs, ⟨i, hi⟩, h⟩ | ⟨hs, a, b, ha, hb, hv⟩ | ⟨hs, ⟨i, hi⟩, h⟩
  · refine .inl ⟨hs, ⟨i, by simp only [hi]⟩, ?_⟩
    rintro _ ⟨j, rfl⟩
    exact div_le_div_of_nonneg_right (h ⟨j, rfl⟩) (ht e).le
  · exact .inr (.inl ⟨hs, a / time e, b / time e, orderStat_div (ht e) ha, orderStat_div (ht e) hb, by rw [hv]; ring⟩)
  · refine .inr (.inr ⟨hs, ⟨i, by simp only [hi]⟩, ?_⟩)
    rintro _ ⟨j, rfl⟩
    exact div_le_div_of_nonneg_right (h ⟨j, rfl⟩) (ht e).le

example : EssRows (fun (_ : Fin 1) (_ : Fin 1) (j : Fin 2) => ((j : ℕ) : ℝ) + 3) ("max", 0, 0) 4 :=
  ⟨0, 0, rfl, .inr (.inr ⟨rfl, ⟨1, by norm_num⟩, by
    rintro _ ⟨j, rfl⟩
    fin_cases j <;> norm_num⟩)⟩

/-! ## C75: names and files -/

open Sv

/-- **C75** (names).  The names of the paper and the pairs (kernel, style) correspond one to one, and the script looks up the pair written at
the position of the name. -/
theorem C75_names : name_in_paper.Nodup ∧ kernel_style_lst.Nodup ∧ name_in_paper.length = kernel_style_lst.length ∧
    ∀ i, i < name_in_paper.length → ∃ name, name_in_paper[i]? = some name ∧ name_to_kernel_style name = kernel_style_lst[i]? := by
  decide

/-- **C75** (runnable).  Every pair is one that the experiment accepts, and the name mentions `κ = 0` exactly when the kernel is built with
`stop_gradient=True`, `twisted` exactly when the style is. -/
theorem C75_runnable : ∀ q ∈ name_in_paper.zip kernel_style_lst, ∃ kt ∈ KernelType.all, kt.name = q.2.1 ∧
    ∃ call ∈ kt.kernel_maker, call.maker.accepts q.2.2 = true ∧
      (("$\\kappa = 0$".toList <:+: q.1.toList) ↔ call.stop_gradient = some true) ∧
      (("twisted".toList <:+: q.1.toList) ↔ q.2.2 = "twisted") := by
  decide +kernel

/-- **C75** (figures).  The two families of kernels shown apart cover all the names and have none in common; the excluded ones are all
among the first; no kernel is listed twice. -/
theorem C75_families : (∀ name, name ∈ name_in_paper ↔ (name ∈ NON_GAUSSIAN_KERNELS ∨ name ∈ ALL_GAUSSIAN_KERNELS)) ∧
    (∀ name ∈ NON_GAUSSIAN_KERNELS, name ∉ ALL_GAUSSIAN_KERNELS) ∧ (∀ name ∈ EXCLUDED_KERNELS, name ∈ NON_GAUSSIAN_KERNELS) ∧
    NON_GAUSSIAN_KERNELS.Nodup ∧ ALL_GAUSSIAN_KERNELS.Nodup := by
  have h1 : ∀ name ∈ name_in_paper, name ∈ NON_GAUSSIAN_KERNELS ∨ name ∈ ALL_GAUSSIAN_KERNELS := by decide +kernel
  have h2 : ∀ name ∈ NON_GAUSSIAN_KERNELS, name ∈ name_in_paper := by decide +kernel
  have h3 : ∀ name ∈ ALL_GAUSSIAN_KERNELS, name ∈ name_in_paper := by decide +kernel
  exact ⟨fun name => ⟨h1 name, fun h => h.elim (h2 name) (h3 name)⟩, by decide +kernel, by decide +kernel, by decide +kernel, by decide +kernel⟩

/-- **C75** (panels).  What the names of a panel have in common: the excluded kernels are those without a proposal around the current
trajectory at all times and particles (`CSMC` and the ones with one proposal that are not `aGRAD`), the twisted ones are compared with `aGRAD`,
and the panels for the Gaussian dynamics show the auxiliary and adapted kernels. -/
theorem C75_panels : ∀ q ∈ name_in_paper.zip kernel_style_lst,
    (q.1 ∈ EXCLUDED_KERNELS ↔ q.2.1 = "CSMC" ∨ q.2.1 = "MALA") ∧
    (q.1 ∈ NON_GAUSSIAN_KERNELS_WITHOUT_EXCLUDED ↔ q.2.1 = "RW_CSMC" ∨ q.2.1 = "MALA_CSMC") ∧
    (q.1 ∈ TWISTED_KERNELS ↔ q.2.1 = "TP" ∨ q.2.2 = "twisted") ∧
    (q.1 ∈ GAUSSIAN_KERNELS ↔ q.2.1 = "TP" ∨ (q.2.1 = "TP_CSMC" ∨ q.2.1 = "ADAPTED_CSMC") ∧ q.2.2 ≠ "twisted") := by
  decide +kernel

/-- **C75** (targets).  The target in the name of a file has two decimals, and different targets (in percent) give different names. -/
theorem C75_targets : (∀ a ∈ List.range 101, ∀ b ∈ List.range 101, fmtTarget a = fmtTarget b → a = b) ∧
    (∀ a ∈ List.range 101, (fmtTarget a).length = 4) ∧ fmtTarget 5 = "0.05" ∧ fmtTarget 75 = "0.75" ∧ fmtTarget 100 = "1.00" := by
  refine ⟨?_, ?_, ?_, ?_, ?_⟩ <;> decide +kernel

/-- **C75** (columns).  Different columns are read from different files. -/
theorem C75_columns : ∀ c ∈ columns, (fileRead c.1 c.2).isSome ∧ ∀ c' ∈ columns, fileRead c.1 c.2 = fileRead c'.1 c'.2 → c = c' := by
  decide +kernel

/-- **C75** (files).  A file read by the script is written by some job of `distribute.py` unless the name is one of five. -/
theorem C75_files_partial : ∀ c ∈ columns, (∃ j ∈ combination, fileWritten j = fileRead c.1 c.2) ↔
    ¬ c.2 ∈ ["Particle-aGRAD\n($\\kappa = 0$)", "Particle-aGRAD\n($\\kappa = 0$, twisted)", "aGRAD\n", "aMALA\n", "MALA\n"] := by
  decide +kernel

/-- **C75**, not true of the code: some files are read by the script and written by no job. -/
theorem C75_missing : ¬ ∀ c ∈ columns, ∃ j ∈ combination, fileWritten j = fileRead c.1 c.2 := by
  decide +kernel

/-- **C75** (overwriting).  Two jobs write the same file only if they have the same parameters; this happens. -/
theorem C75_overwrite : (∀ j ∈ combination, ∀ j' ∈ combination, fileWritten j ≠ none → fileWritten j = fileWritten j' → j = j') ∧
    ∃ i j, i < j ∧ j < combination.length ∧ combination[i]? = combination[j]? ∧ (combination[i]?.bind fileWritten).isSome := by
  exact ⟨by decide +kernel, 2, 5, by decide +kernel⟩

end Verif.Props
