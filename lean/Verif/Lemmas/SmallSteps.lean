import Verif.Lemmas.OneTrajCand
import Verif.Lemmas.MovePairs
import Verif.Lemmas.TwistedOnly
import Mathlib.Analysis.Calculus.ContDiff.Operations
import Mathlib.Analysis.SpecialFunctions.Log.Deriv
import Mathlib.Analysis.SpecialFunctions.ExpDeriv

/-!
# Acceptance probabilities for small step sizes
-/

open scoped ENNReal Topology
open MeasureTheory Finset Filter

namespace Verif
open Verif.Model Verif.Spec

variable {N n d T : ℕ}

/-- `force_move` moves with probability at least `c` if no weight is below `c` times that of the current index. -/
theorem force_accepts {w : Fin (N + 1) → ℝ} (hw : IsProb w) (hN : 1 ≤ N) (key : Key) {k : Fin (N + 1)} {c : ℝ} (hc0 : 1e-11 ≤ c) (hc1 : c ≤ 1)
    (h : ∀ i, c * w k ≤ w i) : ENNReal.ofReal c ≤ forcedIdx key w k fun i => if i ≠ k then 1 else 0 := by
  have hcp : 0 < c := lt_of_lt_of_le (by norm_num) hc0
  have hk0 := hw.nonneg k
  have hk : w k < 1 - 1e-12 := by
    have : Nontrivial (Fin (N + 1)) := Fin.nontrivial_iff_two_le.mpr (by omega)
    obtain ⟨i, hi⟩ := exists_ne k
    have h1 := pair_le_one hw hi
    have h2 := h i
    by_contra h3
    rw [not_lt] at h3
    have h4 : 1e-11 * (1 - 1e-12) ≤ c * w k := mul_le_mul hc0 h3 (by norm_num) hcp.le
    have h5 : w k + c * w k ≤ 1 := by linarith
    norm_num at h3 h4
    linarith
  have hkt : w k < forceThreshold (N + 1) := lt_of_lt_of_le hk (forceThreshold_ge _)
  have hk1 : 0 < 1 - w k := by linarith
  have hQ : ∀ l ∈ univ.erase k, c * (w l / (1 - w k)) ≤ forceQ w k l := fun l hl => by
    have hne := ne_of_mem_erase hl
    have h1 := pair_le_one hw hne
    have hr : forceRest w k l = w l / (1 - w k) := by
      simp only [forceRest, hkt, if_true]
      rw [atSet_ne _ _ hne]
    rw [forceQ, hr, mul_comm]
    refine mul_le_mul_of_nonneg_left ?_ (div_nonneg (hw.nonneg l) hk1.le)
    unfold forceAcc
    split_ifs with hh
    · exact hc1
    · have hl1 : w l < w k := by
        by_contra h3
        exact hh ⟨by linarith, not_lt.mp h3⟩
      rw [le_div_iff₀ (by linarith)]
      nlinarith [h l, mul_le_mul_of_nonneg_right hc1 (by linarith : 0 ≤ 1 - w k - w l)]
  have e : (forcedIdx key w k fun i => if i ≠ k then 1 else 0) = (force_move key w k : Ex _) fun r => if r.1 ≠ k then 1 else 0 := rfl
  rw [e, force_move_law' hw]
  refine le_trans ?_ le_self_add
  rw [sum_congr rfl fun l hl => by rw [if_pos (ne_of_mem_erase hl), mul_one],
    ← ENNReal.ofReal_sum_of_nonneg fun l _ => forceQ_nonneg hw k l]
  refine ENNReal.ofReal_le_ofReal (le_trans (le_of_eq ?_) (sum_le_sum hQ))
  rw [← mul_sum, ← sum_div]
  have := Finset.add_sum_erase univ w (mem_univ k)
  rw [hw.sum_one] at this
  rw [show ∑ l ∈ univ.erase k, w l = 1 - w k by linarith, div_self hk1.ne', mul_one]

theorem forced_le_one {w : Fin (N + 1) → ℝ} (hw : IsProb w) (key : Key) (k : Fin (N + 1)) {f : Fin (N + 1) → ℝ≥0∞} (hf : ∀ i, f i ≤ 1) :
    forcedIdx key w k f ≤ 1 := by
  refine le_trans (le_of_eq (force_move_law' hw key k fun r => f r.1)) (le_trans ?_ (force_mass key hw k).le)
  refine le_trans ?_ (force_move_law' hw key k fun _ => 1).ge
  exact add_le_add (sum_le_sum fun l _ => mul_le_mul_right (hf l) _) (mul_le_mul_right (hf k) _)

/-- A lower bound on the acceptance probability. -/
noncomputable def smallAcc (s : ℝ) : ℝ≥0∞ := if 1e-11 ≤ Real.exp (-s) then ENNReal.ofReal (Real.exp (-s)) else 0

theorem measurable_smallAcc : Measurable smallAcc := by
  unfold smallAcc
  exact Measurable.ite (measurableSet_le measurable_const (by fun_prop)) (by fun_prop) measurable_const

theorem smallAcc_le {s : ℝ} (hs : 0 ≤ s) : smallAcc s ≤ 1 := by
  unfold smallAcc
  split_ifs
  · exact ENNReal.ofReal_le_one.mpr (Real.exp_le_one_iff.mpr (by linarith))
  · exact zero_le

theorem smallAcc_tendsto : Tendsto smallAcc (𝓝 0) (𝓝 1) := by
  have h : Tendsto (fun s : ℝ => Real.exp (-s)) (𝓝 0) (𝓝 1) := by
    have h : Continuous fun s : ℝ => Real.exp (-s) := by fun_prop
    simpa using h.tendsto 0
  have h1 : Tendsto (fun s : ℝ => ENNReal.ofReal (Real.exp (-s))) (𝓝 0) (𝓝 1) := by
    have := ENNReal.tendsto_ofReal h
    simpa using this
  refine h1.congr' ?_
  filter_upwards [h.eventually (lt_mem_nhds (by norm_num : (1e-11 : ℝ) < 1))] with s hs
  rw [smallAcc, if_pos hs.le]

/-- Spread of the log-weights. -/
noncomputable def lwSpread (lw : Fin (N + 1) → ℝ) : ℝ := ∑ i, |lw i - lw 0|

theorem forced_small (hN : 1 ≤ N) (key : Key) (lw : Fin (N + 1) → ℝ) :
    smallAcc (lwSpread lw) ≤ forcedIdx key (normalizeW lw) 0 fun i => if i ≠ 0 then 1 else 0 := by
  unfold smallAcc
  split_ifs with h
  · refine force_accepts (normalize_isProb lw) hN key h (Real.exp_le_one_iff.mpr ?_) fun i => ?_
    · have : 0 ≤ lwSpread lw := sum_nonneg fun i _ => abs_nonneg _
      linarith
    · rw [normalize_eq, normalize_eq, ← mul_div_assoc, ← Real.exp_add]
      refine div_le_div_of_nonneg_right (Real.exp_le_exp.mpr ?_) (sum_nonneg fun j _ => (Real.exp_pos _).le)
      have h1 : |lw i - lw 0| ≤ lwSpread lw := single_le_sum (f := fun i => |lw i - lw 0|) (fun i _ => abs_nonneg _) (mem_univ i)
      have h2 := neg_abs_le (lw i - lw 0)
      linarith
  · exact zero_le

theorem lwSpread_tendsto {ι : Type} {F : Filter ι} {lw : ι → Fin (N + 1) → ℝ} {c : ℝ} (h : ∀ i, Tendsto (fun a => lw a i) F (𝓝 c)) :
    Tendsto (fun a => smallAcc (lwSpread (lw a))) F (𝓝 1) := by
  refine smallAcc_tendsto.comp ?_
  have : Tendsto (fun a => lwSpread (lw a)) F (𝓝 (∑ _ : Fin (N + 1), |c - c|)) :=
    tendsto_finsetSum _ fun i _ => ((h i).sub (h 0)).abs
  simpa using this

theorem measurable_lwSpread : Measurable (lwSpread (N := N)) := by
  unfold lwSpread
  exact Finset.measurable_fun_sum _ fun i _ => by fun_prop

theorem dot2_tendsto {ι : Type} {F : Filter ι} {a b : ι → Traj T d} {A B : Traj T d} (ha : Tendsto a F (𝓝 A)) (hb : Tendsto b F (𝓝 B)) :
    Tendsto (fun s => dot2 (a s) (b s)) F (𝓝 (dot2 A B)) := by
  have h : Continuous fun p : Traj T d × Traj T d => dot2 p.1 p.2 := by
    unfold dot2
    fun_prop
  exact Tendsto.comp (f := fun s => (a s, b s)) (h.tendsto (A, B)) (ha.prodMk_nhds hb)

/-! ## `mala.py` -/

/-- The log-weights of `mala.kernel`, written with differences that vanish with the step size. -/
theorem malaLogWeights_eq {delta : ℝ} (hd : 0 < delta) (auxiliary : Bool) (us : Traj T d) (samples : Fin (N + 1) → Traj T d)
    (vals : Fin (N + 1) → ℝ) (grads : Fin (N + 1) → Traj T d) (i : Fin (N + 1)) :
    malaLogWeights auxiliary delta (Real.sqrt (0.5 * delta)) us samples vals grads i =
      vals i + if auxiliary then dot2 (us - samples i - (0.25 * delta) • grads i) (grads i)
        else dot2 ((fun t j => (∑ i, samples i t j) / ((N : ℝ) + 1)) - samples i - (N / (N + 1) * (0.25 * delta)) • grads i) (grads i) := by
  have hs : Real.sqrt (0.5 * delta) ^ 2 = 0.5 * delta := Real.sq_sqrt (by positivity)
  cases auxiliary
  · simp only [malaLogWeights, Bool.false_eq_true, if_false]
    rw [mala_log_H_eq _ hd.ne']
    congr 1
    simp only [dot2, mul_sum, ← sum_sub_distrib, sum_div]
    refine sum_congr rfl fun t _ => sum_congr rfl fun j _ => ?_
    simp only [Pi.sub_apply, Pi.smul_apply, smul_eq_mul]
    field_simp
    ring
  · simp only [malaLogWeights, if_true, hs]
    rw [add_sub_assoc]
    congr 1
    rw [← sub_div, div_eq_iff (by positivity)]
    simp only [dot2, sumSq2, mul_sum, ← sum_sub_distrib, sum_mul]
    refine sum_congr rfl fun t _ => sum_congr rfl fun j _ => ?_
    simp only [Pi.sub_apply, Pi.smul_apply, smul_eq_mul]
    ring

/-- The spread of the log-weights of `mala.kernel`. -/
noncomputable def malaSpread (delta : ℝ) (log_pdf : Traj T d → ℝ) (grad : Traj T d → Traj T d) (auxiliary : Bool) (s : VGState T d)
    (e : Traj T d × (Fin N → Traj T d)) : ℝ :=
  lwSpread (malaLogWeights auxiliary delta (Real.sqrt (0.5 * delta)) (malaU delta s e) (insert0 s.1 (malaProp delta s e))
    (insert0 s.2.1 fun i => log_pdf (malaProp delta s e i)) (insert0 s.2.2 fun i => grad (malaProp delta s e i)))

theorem lwSpread_nonneg (lw : Fin (N + 1) → ℝ) : 0 ≤ lwSpread lw := sum_nonneg fun i _ => abs_nonneg _

theorem measurable_malaSpread {log_pdf : Traj T d → ℝ} {grad : Traj T d → Traj T d} (hl : Measurable log_pdf) (hg : Measurable grad)
    (delta : ℝ) (auxiliary : Bool) : Measurable fun p : VGState T d × (Traj T d × (Fin N → Traj T d)) => malaSpread delta log_pdf grad auxiliary p.1 p.2 := by
  have h1 := measurable_malaU (N := N) (T := T) (d := d) delta
  have h2 := measurable_malaProp (N := N) (T := T) (d := d) delta
  refine measurable_lwSpread.comp (measurable_malaLogWeights _ _ _ h1 ?_ ?_ ?_)
  · exact measurable_insert0 (by fun_prop) h2
  · exact measurable_insert0 (by fun_prop) (measurable_pi_lambda _ fun i => hl.comp ((measurable_pi_apply i).comp h2))
  · exact measurable_insert0 (by fun_prop) (measurable_pi_lambda _ fun i => hg.comp ((measurable_pi_apply i).comp h2))

theorem insert0_map {α β : Type} (f : α → β) (a : α) (v : Fin N → α) (i : Fin (N + 1)) : insert0 (f a) (fun i => f (v i)) i = f (insert0 a v i) :=
  Fin.cases rfl (fun _ => rfl) i

theorem auxTraj_tendsto (s : VGState T d) (e : Traj T d) :
    Tendsto (fun δ => auxTraj s δ (Real.sqrt (0.5 * δ)) e) (𝓝[>] 0) (𝓝 s.1) := by
  have h : Continuous fun δ => auxTraj s δ (Real.sqrt (0.5 * δ)) e := by
    unfold auxTraj
    fun_prop
  have h0 := h.tendsto 0
  have e0 : auxTraj s 0 (Real.sqrt (0.5 * 0)) e = s.1 := by
    funext t j
    simp [auxTraj]
  rw [e0] at h0
  exact h0.mono_left nhdsWithin_le_nhds

theorem malaProp_tendsto (s : VGState T d) (e : Traj T d × (Fin N → Traj T d)) (i : Fin (N + 1)) :
    Tendsto (fun δ => insert0 s.1 (malaProp δ s e) i) (𝓝[>] 0) (𝓝 s.1) := by
  refine Fin.cases tendsto_const_nhds (fun i => ?_) i
  have h : Continuous fun δ => malaProp δ s e i := by
    unfold malaProp malaU auxTraj
    fun_prop
  have h0 := h.tendsto 0
  have e0 : malaProp 0 s e i = s.1 := by
    funext t j
    simp [malaProp, malaU, auxTraj]
  rw [e0] at h0
  exact h0.mono_left nhdsWithin_le_nhds

/-- As the step size vanishes, so does the spread of the log-weights. -/
theorem malaSpread_tendsto {log_pdf : Traj T d → ℝ} {grad : Traj T d → Traj T d} {x : Traj T d} (hl : ContinuousAt log_pdf x)
    (hg : ContinuousAt grad x) (auxiliary : Bool) (e : Traj T d × (Fin N → Traj T d)) :
    Tendsto (fun δ => smallAcc (malaSpread δ log_pdf grad auxiliary (tp_init log_pdf grad x) e)) (𝓝[>] 0) (𝓝 1) := by
  have hp := malaProp_tendsto (tp_init log_pdf grad x) e
  have hu : Tendsto (fun δ => malaU (N := N) δ (tp_init log_pdf grad x) e) (𝓝[>] 0) (𝓝 x) := auxTraj_tendsto _ _
  have hδ : Tendsto (fun δ : ℝ => δ) (𝓝[>] 0) (𝓝 0) := tendsto_id.mono_left nhdsWithin_le_nhds
  refine lwSpread_tendsto (c := log_pdf x) fun i => ?_
  have hgi : Tendsto (fun δ => grad (insert0 x (malaProp δ (tp_init log_pdf grad x) e) i)) (𝓝[>] 0) (𝓝 (grad x)) := hg.tendsto.comp (hp i)
  have hli : Tendsto (fun δ => log_pdf (insert0 x (malaProp δ (tp_init log_pdf grad x) e) i)) (𝓝[>] 0) (𝓝 (log_pdf x)) := hl.tendsto.comp (hp i)
  have hm : Tendsto (fun δ => (fun t j => (∑ i, insert0 x (malaProp δ (tp_init log_pdf grad x) e) i t j) / ((N : ℝ) + 1) : Traj T d)) (𝓝[>] 0) (𝓝 x) := by
    refine tendsto_pi_nhds.mpr fun t => tendsto_pi_nhds.mpr fun j => ?_
    have h1 : Tendsto (fun δ => (∑ i, insert0 x (malaProp δ (tp_init log_pdf grad x) e) i t j) / ((N : ℝ) + 1)) (𝓝[>] 0)
        (𝓝 ((∑ _ : Fin (N + 1), x t j) / ((N : ℝ) + 1))) :=
      (tendsto_finsetSum _ fun i _ => tendsto_pi_nhds.mp (tendsto_pi_nhds.mp (hp i) t) j).div_const _
    have h2 : (∑ _ : Fin (N + 1), x t j) / ((N : ℝ) + 1) = x t j := by
      rw [sum_const, card_univ, Fintype.card_fin, nsmul_eq_mul]
      push_cast
      field_simp
    rwa [h2] at h1
  have key (c : ℝ) {a : ℝ → Traj T d} (ha : Tendsto a (𝓝[>] 0) (𝓝 x)) :
      Tendsto (fun δ => log_pdf (insert0 x (malaProp δ (tp_init log_pdf grad x) e) i) +
        dot2 (a δ - insert0 x (malaProp δ (tp_init log_pdf grad x) e) i - (c * (0.25 * δ)) • grad (insert0 x (malaProp δ (tp_init log_pdf grad x) e) i))
          (grad (insert0 x (malaProp δ (tp_init log_pdf grad x) e) i))) (𝓝[>] 0) (𝓝 (log_pdf x)) := by
    have h1 := (ha.sub (hp i)).sub (((hδ.const_mul 0.25).const_mul c).smul hgi)
    have h2 := hli.add (dot2_tendsto h1 hgi)
    have e0 : log_pdf x + dot2 (x - (tp_init log_pdf grad x).1 - (c * (0.25 * 0)) • grad x) (grad x) = log_pdf x := by
      simp [tp_init, dot2]
    rw [e0] at h2
    exact h2
  have hpos : ∀ᶠ δ : ℝ in 𝓝[>] 0, 0 < δ := eventually_mem_nhdsWithin
  cases auxiliary
  · refine (key (N / (N + 1)) hm).congr' ?_
    filter_upwards [hpos] with δ hd
    rw [malaLogWeights_eq hd]
    simp only [Bool.false_eq_true, if_false, tp_init, insert0_map]
  · refine (key 1 hu).congr' ?_
    filter_upwards [hpos] with δ hd
    rw [malaLogWeights_eq hd]
    simp only [if_true, tp_init, insert0_map, one_mul]

/-- The lower bound on the acceptance probability of `mala.kernel`, for given noise. -/
noncomputable def malaLow (delta : ℝ) (log_pdf : Traj T d → ℝ) (grad : Traj T d → Traj T d) (auxiliary : Bool) (s : VGState T d)
    (e : Traj T d × (Fin N → Traj T d)) : ℝ≥0∞ := smallAcc (malaSpread delta log_pdf grad auxiliary s e)

theorem measurable_malaLow {log_pdf : Traj T d → ℝ} {grad : Traj T d → Traj T d} (hl : Measurable log_pdf) (hg : Measurable grad)
    (delta : ℝ) (auxiliary : Bool) : Measurable fun p : VGState T d × (Traj T d × (Fin N → Traj T d)) => malaLow delta log_pdf grad auxiliary p.1 p.2 :=
  measurable_smallAcc.comp (measurable_malaSpread hl hg delta auxiliary)

theorem malaLow_le (delta : ℝ) (log_pdf : Traj T d → ℝ) (grad : Traj T d → Traj T d) (auxiliary : Bool) (s : VGState T d)
    (e : Traj T d × (Fin N → Traj T d)) : malaLow delta log_pdf grad auxiliary s e ≤ 1 := smallAcc_le (lwSpread_nonneg _)

theorem malaLow_tendsto {log_pdf : Traj T d → ℝ} {grad : Traj T d → Traj T d} {x : Traj T d} (hl : ContinuousAt log_pdf x)
    (hg : ContinuousAt grad x) (auxiliary : Bool) (e : Traj T d × (Fin N → Traj T d)) :
    Tendsto (fun δ => malaLow δ log_pdf grad auxiliary (tp_init log_pdf grad x) e) (𝓝[>] 0) (𝓝 1) := malaSpread_tendsto hl hg auxiliary e

theorem malaLow_forced (hN : 1 ≤ N) (key : Key) (delta : ℝ) (log_pdf : Traj T d → ℝ) (grad : Traj T d → Traj T d) (auxiliary : Bool) (s : VGState T d)
    (e : Traj T d × (Fin N → Traj T d)) :
    malaLow delta log_pdf grad auxiliary s e ≤ forcedIdx key (malaW delta log_pdf grad auxiliary s e) 0 fun i => if i ≠ 0 then 1 else 0 :=
  forced_small hN key _

attribute [irreducible] malaLow

/-! ## `tp.py` -/

/-- A Gaussian density is bounded. -/
theorem normalLogpdf_bounded {P : Mat d d} (hP : P.PosDef) : ∃ C, ∀ m x : Vec d, normalLogpdf m P x ≤ C := by
  refine ⟨- (d / 2 * Real.log (2 * Real.pi)) - Real.log P.det / 2, fun m x => ?_⟩
  have h := hP.inv.posSemidef.dotProduct_mulVec_nonneg (x - m)
  rw [star_trivial] at h
  unfold normalLogpdf
  linarith

theorem gaussPathLog_bounded {D : Dyn n d} (hP : D.P0.PosDef) (hQ : ∀ t, (D.Qs t).PosDef) :
    ∃ C, ∀ x, gaussPathLog D.m0 D.P0 D.Fs D.Qs D.bs x ≤ C := by
  obtain ⟨C, hC⟩ := normalLogpdf_bounded hP
  choose B hB using fun t => normalLogpdf_bounded (hQ t)
  exact ⟨C + ∑ t, B t, fun x => add_le_add (hC _ _) (sum_le_sum fun t _ => hB t _ _)⟩

section tp
variable {D : Dyn n d} (hP : D.P0.PosDef) (hQ : ∀ t, (D.Qs t).PosDef) {delta : ℝ} (hd : 0 < delta)
include hP hQ hd

/-- The proposals of `tp.get_kernel`, written with noise around the auxiliary variable. -/
noncomputable def tpAround (delta : ℝ) (u : Traj T d) (b : Fin N → Traj T d) : Fin N → Traj T d :=
  fun i t j => u t j + Real.sqrt (0.5 * delta) * b i t j

/-- The density of the dynamics at all the proposals. -/
noncomputable def tpPrior (D : Dyn n d) (y : Fin N → Traj (n + 1) d) : ℝ≥0∞ := ENNReal.ofReal (Real.exp (∑ i, gaussPathLog D.m0 D.P0 D.Fs D.Qs D.bs (y i)))

omit hP hQ hd in
theorem measurable_tpPrior (D : Dyn n d) : Measurable (tpPrior (N := N) D) := by
  unfold tpPrior
  have := fun i : Fin N => (continuous_gaussPathLog D.m0 D.P0 D.Fs D.Qs D.bs).measurable.comp (measurable_pi_apply (X := fun _ : Fin N => Traj (n + 1) d) i)
  exact measurable_expR (Finset.measurable_fun_sum _ fun i _ => this i)

theorem tp_draws_around (key : Key) (u : Traj (n + 1) d) {F : (Fin N → Traj (n + 1) d) → ℝ≥0∞} (hF : Measurable F) :
    (kalman_sampling key (tpFilter delta D u).1 (tpFilter delta D u).2.1 D.Fs D.Qs D.bs N : Ex _) F =
      (∫⁻ b, tpPrior D (tpAround delta u b) * F (tpAround delta u b) ∂(Measure.pi fun _ => Measure.pi fun _ => gaussM d)) /
        ∫⁻ b, tpPrior (N := N) D (tpAround delta u b) ∂(Measure.pi fun _ => Measure.pi fun _ => gaussM d) := by
  have key' : ∀ F : (Fin N → Traj (n + 1) d) → ℝ≥0∞, Measurable F →
      (kalman_sampling key (tpFilter delta D u).1 (tpFilter delta D u).2.1 D.Fs D.Qs D.bs N : Ex _) F =
        ENNReal.ofReal (Real.exp (-(N * (tpFilter delta D u).2.2))) *
        ∫⁻ b, tpPrior D (tpAround delta u b) * F (tpAround delta u b) ∂(Measure.pi fun _ => Measure.pi fun _ => gaussM d) := fun F hF => by
    have h1 := pi_draws (N := N) (q := isoT (Real.sqrt (0.5 * delta)) u)
      (g := fun (e : Traj (n + 1) d) t j => u t j + Real.sqrt (0.5 * delta) * e t j) (by fun_prop)
      (measurable_isoT _ measurable_const measurable_id)
      (fun F hF => isoT_law (sd_pos hd) u F hF) (fun y => tpPrior D y * F y) ((measurable_tpPrior D).mul hF)
    rw [tp_draws hP hQ hd key u hF]
    refine Eq.trans ?_ (congrArg (ENNReal.ofReal (Real.exp (-(N * (tpFilter delta D u).2.2))) * ·) h1.symm)
    rw [← lintegral_const_mul' _ _ ENNReal.ofReal_ne_top]
    refine lintegral_congr fun y => ?_
    rw [← mul_assoc, ← mul_assoc, tpPrior, ← ENNReal.ofReal_mul (Real.exp_pos _).le, ← Real.exp_add,
      ← ENNReal.ofReal_mul (Real.exp_pos _).le, ← Real.exp_add]
    congr 3
    simp only [tpQ, obsLog_iso hd, isoT_comm _ _ u, sum_sub_distrib, sum_add_distrib, sum_const, card_univ, Fintype.card_fin, nsmul_eq_mul]
    ring
  have h1 := tp_draws_mass (N := N) hP hQ hd key u
  rw [key' _ measurable_const] at h1
  simp only [mul_one] at h1
  rw [key' F hF]
  have hI : ENNReal.ofReal (Real.exp (-(N * (tpFilter delta D u).2.2))) =
      (∫⁻ b, tpPrior (N := N) D (tpAround delta u b) ∂(Measure.pi fun _ => Measure.pi fun _ => gaussM d))⁻¹ := ENNReal.eq_inv_of_mul_eq_one_left h1
  rw [hI, mul_comm, div_eq_mul_inv]

end tp

/-- The lower bound on the acceptance probability of the kernel of `tp.py`, for a given auxiliary variable and given proposals. -/
noncomputable def tpLow (delta : ℝ) (log_pdf : Traj T d → ℝ) (grad : Traj T d → Traj T d) (s : VGState T d)
    (e : Traj T d × (Fin N → Traj T d)) : ℝ≥0∞ :=
  smallAcc (lwSpread (tpLogWeights delta e.1 (insert0 s.1 e.2) (insert0 s.2.1 fun i => log_pdf (e.2 i)) (insert0 s.2.2 fun i => grad (e.2 i))))

theorem measurable_tpLow {log_pdf : Traj T d → ℝ} {grad : Traj T d → Traj T d} (hl : Measurable log_pdf) (hg : Measurable grad)
    (delta : ℝ) : Measurable fun p : VGState T d × (Traj T d × (Fin N → Traj T d)) => tpLow delta log_pdf grad p.1 p.2 := by
  have h2 : Measurable fun p : VGState T d × (Traj T d × (Fin N → Traj T d)) => p.2.2 := by fun_prop
  refine measurable_smallAcc.comp (measurable_lwSpread.comp (measurable_tpLogWeights _ (by fun_prop) ?_ ?_ ?_))
  · exact measurable_insert0 (by fun_prop) h2
  · exact measurable_insert0 (by fun_prop) (measurable_pi_lambda _ fun i => hl.comp ((measurable_pi_apply i).comp h2))
  · exact measurable_insert0 (by fun_prop) (measurable_pi_lambda _ fun i => hg.comp ((measurable_pi_apply i).comp h2))

theorem tpLow_le (delta : ℝ) (log_pdf : Traj T d → ℝ) (grad : Traj T d → Traj T d) (s : VGState T d)
    (e : Traj T d × (Fin N → Traj T d)) : tpLow delta log_pdf grad s e ≤ 1 := smallAcc_le (lwSpread_nonneg _)

theorem tpLow_forced (hN : 1 ≤ N) (key : Key) (delta : ℝ) (log_pdf : Traj T d → ℝ) (grad : Traj T d → Traj T d) (s : VGState T d)
    (e : Traj T d × (Fin N → Traj T d)) :
    tpLow delta log_pdf grad s e ≤ forcedIdx key (tpW delta log_pdf grad s e) 0 fun i => if i ≠ 0 then 1 else 0 :=
  forced_small hN key _

theorem tpAround_tendsto (s : VGState T d) (a : Traj T d) (b : Fin N → Traj T d) (i : Fin N) :
    Tendsto (fun δ => tpAround δ (auxTraj s δ (Real.sqrt (0.5 * δ)) a) b i) (𝓝[>] 0) (𝓝 s.1) := by
  have h : Continuous fun δ => tpAround δ (auxTraj s δ (Real.sqrt (0.5 * δ)) a) b i := by
    unfold tpAround auxTraj
    fun_prop
  have h0 := h.tendsto 0
  have e0 : tpAround 0 (auxTraj s 0 (Real.sqrt (0.5 * 0)) a) b i = s.1 := by
    funext t j
    simp [tpAround, auxTraj]
  rw [e0] at h0
  exact h0.mono_left nhdsWithin_le_nhds

theorem tpLow_tendsto {log_pdf : Traj T d → ℝ} {grad : Traj T d → Traj T d} {x : Traj T d} (hl : ContinuousAt log_pdf x)
    (hg : ContinuousAt grad x) (a : Traj T d) (b : Fin N → Traj T d) :
    Tendsto (fun δ => tpLow δ log_pdf grad (tp_init log_pdf grad x) (auxTraj (tp_init log_pdf grad x) δ (Real.sqrt (0.5 * δ)) a,
      tpAround δ (auxTraj (tp_init log_pdf grad x) δ (Real.sqrt (0.5 * δ)) a) b)) (𝓝[>] 0) (𝓝 1) := by
  have hu := auxTraj_tendsto (tp_init log_pdf grad x) a
  have hp : ∀ i : Fin (N + 1), Tendsto (fun δ => insert0 x (tpAround δ (auxTraj (tp_init log_pdf grad x) δ (Real.sqrt (0.5 * δ)) a) b) i)
      (𝓝[>] 0) (𝓝 x) := Fin.cases tendsto_const_nhds fun i => tpAround_tendsto (tp_init log_pdf grad x) a b i
  have hδ : Tendsto (fun δ : ℝ => δ) (𝓝[>] 0) (𝓝 0) := tendsto_id.mono_left nhdsWithin_le_nhds
  refine lwSpread_tendsto (c := log_pdf x) fun i => ?_
  have hgi := hg.tendsto.comp (hp i)
  have hli := hl.tendsto.comp (hp i)
  have h1 := (hu.sub (hp i)).sub ((hδ.const_mul 0.25).smul hgi)
  have h2 := hli.add (dot2_tendsto h1 hgi)
  have e0 : log_pdf x + dot2 ((tp_init log_pdf grad x).1 - x - (0.25 * (0 : ℝ)) • grad x) (grad x) = log_pdf x := by
    simp [tp_init, dot2]
  rw [e0] at h2
  refine h2.congr fun δ => ?_
  unfold tpLogWeights
  simp only [tp_init, insert0_map]
  rfl

attribute [irreducible] tpLow

theorem tpPrior_tendsto (D : Dyn n d) (s : VGState (n + 1) d) (a : Traj (n + 1) d) (b : Fin N → Traj (n + 1) d) :
    Tendsto (fun δ => tpPrior D (tpAround δ (auxTraj s δ (Real.sqrt (0.5 * δ)) a) b)) (𝓝[>] 0) (𝓝 (tpPrior (N := N) D fun _ => s.1)) := by
  unfold tpPrior
  refine (ENNReal.continuous_ofReal.comp Real.continuous_exp).tendsto _ |>.comp (tendsto_finsetSum _ fun i _ => ?_)
  exact ((continuous_gaussPathLog D.m0 D.P0 D.Fs D.Qs D.bs).tendsto _).comp (tpAround_tendsto s a b i)

theorem tp_draws_tendsto {D : Dyn n d} (hP : D.P0.PosDef) (hQ : ∀ t, (D.Qs t).PosDef) {log_pdf : Traj (n + 1) d → ℝ}
    {grad : Traj (n + 1) d → Traj (n + 1) d} (hlm : Measurable log_pdf) (hgm : Measurable grad) {x : Traj (n + 1) d} (hl : ContinuousAt log_pdf x)
    (hg : ContinuousAt grad x) (key : Key) (a : Traj (n + 1) d) :
    Tendsto (fun δ => (kalman_sampling key (tpFilter δ D (auxTraj (tp_init log_pdf grad x) δ (Real.sqrt (0.5 * δ)) a)).1
      (tpFilter δ D (auxTraj (tp_init log_pdf grad x) δ (Real.sqrt (0.5 * δ)) a)).2.1 D.Fs D.Qs D.bs N : Ex _)
        fun y => tpLow δ log_pdf grad (tp_init log_pdf grad x) (auxTraj (tp_init log_pdf grad x) δ (Real.sqrt (0.5 * δ)) a, y)) (𝓝[>] 0) (𝓝 1) := by
  obtain ⟨C, hC⟩ := gaussPathLog_bounded hP hQ
  have hb : ∀ y : Fin N → Traj (n + 1) d, tpPrior D y ≤ ENNReal.ofReal (Real.exp (N * C)) := fun y => by
    refine ENNReal.ofReal_le_ofReal (Real.exp_le_exp.mpr ((sum_le_sum fun i _ => hC (y i)).trans (le_of_eq ?_)))
    simp
  have hma : ∀ δ (u : Traj (n + 1) d), Measurable fun b : Fin N → Traj (n + 1) d => tpAround δ u b := fun δ u => by unfold tpAround; fun_prop
  have hml : ∀ δ (u : Traj (n + 1) d), Measurable fun y : Fin N → Traj (n + 1) d => tpLow δ log_pdf grad (tp_init log_pdf grad x) (u, y) := fun δ u =>
    (measurable_tpLow hlm hgm δ).comp (by fun_prop : Measurable fun y : Fin N → Traj (n + 1) d => (tp_init log_pdf grad x, (u, y)))
  set K := tpPrior (N := N) D fun _ => x with hK
  have hK0 : K ≠ 0 := (ENNReal.ofReal_pos.mpr (Real.exp_pos _)).ne'
  have hK1 : K ≠ ∞ := ENNReal.ofReal_ne_top
  set γ := (Measure.pi fun _ : Fin N => Measure.pi fun _ : Fin (n + 1) => gaussM d) with hγ
  have h1 : Tendsto (fun δ => ∫⁻ b, tpPrior (N := N) D (tpAround δ (auxTraj (tp_init log_pdf grad x) δ (Real.sqrt (0.5 * δ)) a) b) ∂γ) (𝓝[>] 0)
      (𝓝 (∫⁻ _, K ∂γ)) :=
    tendsto_lintegral_filter_of_dominated_convergence (fun _ => ENNReal.ofReal (Real.exp (N * C)))
      (.of_forall fun δ => (measurable_tpPrior D).comp (hma δ _)) (.of_forall fun δ => .of_forall fun e => hb _) (by simp)
      (.of_forall fun b => tpPrior_tendsto D (tp_init log_pdf grad x) a b)
  have h2 : Tendsto (fun δ => ∫⁻ b, tpPrior (N := N) D (tpAround δ (auxTraj (tp_init log_pdf grad x) δ (Real.sqrt (0.5 * δ)) a) b) *
      tpLow δ log_pdf grad (tp_init log_pdf grad x) (auxTraj (tp_init log_pdf grad x) δ (Real.sqrt (0.5 * δ)) a,
        tpAround δ (auxTraj (tp_init log_pdf grad x) δ (Real.sqrt (0.5 * δ)) a) b) ∂γ) (𝓝[>] 0) (𝓝 (∫⁻ _, K ∂γ)) := by
    refine tendsto_lintegral_filter_of_dominated_convergence (fun _ => ENNReal.ofReal (Real.exp (N * C)))
      (.of_forall fun δ => ?_) (.of_forall fun δ => .of_forall fun e => ?_) (by simp) (.of_forall fun b => ?_)
    · exact ((measurable_tpPrior D).comp (hma δ _)).mul ((hml δ _).comp (hma δ _))
    · exact (mul_le_mul' (hb _) (tpLow_le _ _ _ _ _)).trans (by simp)
    · have := ENNReal.Tendsto.mul (tpPrior_tendsto D (tp_init log_pdf grad x) a b) (.inr ENNReal.one_ne_top) (tpLow_tendsto hl hg a b) (.inl one_ne_zero)
      rwa [mul_one] at this
  rw [lintegral_const, measure_univ, mul_one] at h1 h2
  have h3 := ENNReal.Tendsto.div h2 (.inl hK0) h1 (.inr hK1)
  rw [ENNReal.div_self hK0 hK1] at h3
  refine h3.congr' ?_
  filter_upwards [eventually_mem_nhdsWithin] with δ hd
  exact (tp_draws_around hP hQ hd key _ (hml δ _)).symm

/-! ## The targets of the experiments -/

theorem continuous_jaxGrad2 {f : Traj T d → ℝ} (hf : ContDiff ℝ 1 f) : Continuous (jaxGrad2 f) := by
  have h := hf.continuous_fderiv one_ne_zero
  refine continuous_pi fun t => continuous_pi fun j => ?_
  exact h.clm_apply continuous_const

theorem contDiff_sumNorm {E : Type} [NormedAddCommGroup E] [NormedSpace ℝ E] {s : ℝ} {a b : E → Vec d} (ha : ContDiff ℝ 1 a) (hb : ContDiff ℝ 1 b) : ContDiff ℝ 1 fun x => sumNorm (a x) (b x) s := by
  simp only [sumNorm, norm_logpdf, if_true]
  refine ContDiff.sum fun j _ => ?_
  have ha' := contDiff_pi.mp ha j
  have hb' := contDiff_pi.mp hb j
  exact ((contDiff_const.add (((ha'.sub hb').pow 2).div_const _)).neg).div_const _

theorem contDiff_lg_log_likelihood (ys : Traj T d) : ContDiff ℝ 1 fun xs => lg_log_likelihood xs ys := by
  unfold lg_log_likelihood lg_log_potential
  exact ContDiff.sum fun t _ => contDiff_sumNorm contDiff_const (contDiff_apply _ _ t)

theorem contDiff_lg_log_pdf (ys : Traj (n + 1) d) (sigma : ℝ) : ContDiff ℝ 1 fun xs => lg_log_pdf xs ys sigma := by
  unfold lg_log_pdf
  refine ContDiff.add (ContDiff.add (contDiff_sumNorm (contDiff_apply _ _ _) contDiff_const) (ContDiff.sum fun t _ => ?_)) (ContDiff.sum fun t _ => ?_)
  · exact contDiff_sumNorm (contDiff_apply _ _ _) (contDiff_apply _ _ _)
  · exact contDiff_sumNorm (contDiff_apply _ _ t) contDiff_const

theorem contDiff_sv_log_likelihood (ys : Traj T d) : ContDiff ℝ 1 fun xs => sv_log_likelihood xs ys := by
  unfold sv_log_likelihood sv_log_potential
  simp only [norm_logpdf, if_true]
  refine ContDiff.sum fun t _ => ContDiff.sum fun j _ => ?_
  have hx : ContDiff ℝ 1 fun xs : Traj T d => xs t j := contDiff_apply_apply _ _ t j
  have he : ContDiff ℝ 1 fun xs : Traj T d => Real.exp (0.5 * xs t j) ^ 2 := ((contDiff_const.mul hx).exp).pow 2
  refine ((ContDiff.add (ContDiff.log (contDiff_const.mul he) fun xs => by positivity) (contDiff_const.div he fun xs => by positivity)).neg).div_const _

theorem contDiff_mvn_inv {E : Type} [NormedAddCommGroup E] [NormedSpace ℝ E] {A : Mat d d} {C : Mat d d} {k : Bool} {a b : E → Vec d} (ha : ContDiff ℝ 1 a) (hb : ContDiff ℝ 1 b) :
    ContDiff ℝ 1 fun x => mvn_logpdf (a x) (b x) C (some A) k := by
  unfold mvn_logpdf logpdf_with_inv
  simp only [Matrix.mulVec, dotProduct, Pi.sub_apply]
  refine (contDiff_const.mul (ContDiff.sum fun i _ => ?_)).sub contDiff_const
  have h : ContDiff ℝ 1 fun x => ∑ j, A i j * (a x j - b x j) :=
    ContDiff.sum fun j _ => contDiff_const.mul ((contDiff_pi.mp ha j).sub (contDiff_pi.mp hb j))
  exact h.mul h

theorem contDiff_svFullLogPdf (ys : Traj (n + 1) d) (D : SvDyn d) : ContDiff ℝ 1 (svFullLogPdf ys D) := by
  unfold svFullLogPdf sv_log_pdf
  refine ContDiff.add (ContDiff.add (contDiff_mvn_inv (contDiff_apply _ _ _) contDiff_const) (ContDiff.sum fun t _ => ?_)) (contDiff_sv_log_likelihood ys)
  refine contDiff_mvn_inv (contDiff_apply _ _ _) (contDiff_pi.mpr fun i => ContDiff.sum fun j _ => ?_)
  exact ((contDiff_apply_apply _ _ _ _).mul contDiff_const).mul contDiff_const

end Verif
