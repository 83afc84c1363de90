import Verif.Lemmas.LargeTrajSteps
import Verif.Lemmas.Near
import Verif.Props.SmallSteps

/-!
# The acceptance rate as a function of the step size
-/

open scoped ENNReal Topology
open MeasureTheory Filter Finset

namespace Verif
open Verif.Spec Verif.Model

variable {N T d : ℕ}

/-- The probability that the Metropolised Gibbs move leaves the index zero. -/
noncomputable def liuOut (w : Fin (N + 1) → ℝ) : ℝ≥0∞ := liuMove w 0 fun i => if i ≠ 0 then 1 else 0

theorem liuOut_eq (w : Fin (N + 1) → ℝ) : liuOut w = ∑ l ∈ univ.erase 0, ENNReal.ofReal (liuQ w 0 l) := by
  unfold liuOut liuMove
  simp only [ne_eq, not_true_eq_false, if_false, mul_zero, add_zero]
  refine sum_congr rfl fun l hl => ?_
  rw [if_pos (ne_of_mem_erase hl), mul_one]

theorem liuOut_le {w : Fin (N + 1) → ℝ} (hw : IsProb w) : liuOut w ≤ 1 := by
  rw [liuOut_eq, ← ENNReal.ofReal_sum_of_nonneg fun l _ => liuQ_nonneg hw 0 l]
  exact ENNReal.ofReal_le_one.mpr (liuQ_sum_le hw 0)

theorem measurable_liuOut : Measurable (liuOut : (Fin (N + 1) → ℝ) → ℝ≥0∞) := by
  simp only [funext liuOut_eq, liuQ]
  refine Finset.measurable_sum _ fun l _ => ENNReal.measurable_ofReal.comp ?_
  exact (measurable_pi_apply l).div ((measurable_const.sub (measurable_pi_apply 0)).max (measurable_const.sub (measurable_pi_apply l)))

theorem normalize_lt_one (hN : 1 ≤ N) (lw : Fin (N + 1) → ℝ) (k : Fin (N + 1)) : normalizeW lw k < 1 := by
  have : Nontrivial (Fin (N + 1)) := Fin.nontrivial_iff_two_le.mpr (by omega)
  obtain ⟨l, hl⟩ := exists_ne k
  linarith [pair_le_one (normalize_isProb lw) hl.symm, normalize_pos lw l]

theorem continuous_normalize : Continuous (normalizeW : (Fin (N + 1) → ℝ) → Fin (N + 1) → ℝ) := by
  refine continuous_pi fun k => ?_
  simp only [normalize_eq]
  refine Continuous.div (by fun_prop) (by fun_prop) fun lw => ?_
  exact (sum_pos (fun _ _ => Real.exp_pos _) univ_nonempty).ne'

theorem continuous_liuOut (hN : 1 ≤ N) : Continuous fun lw : Fin (N + 1) → ℝ => liuOut (normalizeW lw) := by
  have h : ∀ k, Continuous fun lw : Fin (N + 1) → ℝ => normalizeW lw k := fun k => (continuous_apply k).comp continuous_normalize
  simp only [liuOut_eq, liuQ]
  refine continuous_finsetSum _ fun l _ => ENNReal.continuous_ofReal.comp ?_
  refine (h l).div ((continuous_const.sub (h 0)).max (continuous_const.sub (h l))) fun lw => ?_
  exact (lt_max_of_lt_left (by linarith [normalize_lt_one hN lw 0])).ne'

theorem continuous_insert0 {X Y : Type} [TopologicalSpace X] [TopologicalSpace Y] (a : Y) {f : X → Fin N → Y} (hf : ∀ i, Continuous fun x => f x i)
    (i : Fin (N + 1)) : Continuous fun x => insert0 a (f x) i := by
  refine Fin.cases ?_ (fun i => ?_) i
  · exact continuous_const
  · exact hf i

/-- The log-weights of `mala.kernel` are continuous in the step size. -/
theorem malaLw_continuousOn {log_pdf : Traj T d → ℝ} {grad : Traj T d → Traj T d} (hl : Continuous log_pdf) (hg : Continuous grad) (auxiliary : Bool)
    (s : VGState T d) (e : Traj T d × (Fin N → Traj T d)) : ContinuousOn (fun δ => malaLw δ log_pdf grad auxiliary s e) (Set.Ioi 0) := by
  have hu : Continuous fun δ => malaU (N := N) δ s e := by
    unfold malaU auxTraj
    fun_prop
  have hp : ∀ i, Continuous fun δ => malaProp δ s e i := fun i => by
    unfold malaProp malaU auxTraj
    fun_prop
  have hx := continuous_insert0 s.1 hp
  have hv := continuous_insert0 s.2.1 (f := fun δ i => log_pdf (malaProp δ s e i)) fun i => hl.comp (hp i)
  have hq := continuous_insert0 s.2.2 (f := fun δ i => grad (malaProp δ s e i)) fun i => hg.comp (hp i)
  have hdot : Continuous fun p : Traj T d × Traj T d => dot2 p.1 p.2 := by
    unfold dot2
    fun_prop
  refine continuousOn_pi.mpr fun i => ?_
  refine ContinuousOn.congr (f := fun δ => insert0 s.2.1 (fun i => log_pdf (malaProp δ s e i)) i + if auxiliary then
      dot2 (malaU δ s e - insert0 s.1 (malaProp δ s e) i - (0.25 * δ) • insert0 s.2.2 (fun i => grad (malaProp δ s e i)) i)
        (insert0 s.2.2 (fun i => grad (malaProp δ s e i)) i)
      else dot2 ((fun t j => (∑ i, insert0 s.1 (malaProp δ s e) i t j) / ((N : ℝ) + 1)) - insert0 s.1 (malaProp δ s e) i -
        (N / (N + 1) * (0.25 * δ)) • insert0 s.2.2 (fun i => grad (malaProp δ s e i)) i) (insert0 s.2.2 (fun i => grad (malaProp δ s e i)) i))
    (Continuous.continuousOn ?_) fun δ hδ => malaLogWeights_eq (Set.mem_Ioi.mp hδ) auxiliary _ _ _ _ i
  refine (hv i).add ?_
  cases auxiliary
  · simp only [Bool.false_eq_true, if_false]
    have hm : Continuous fun δ => (fun t j => (∑ i, insert0 s.1 (malaProp δ s e) i t j) / ((N : ℝ) + 1) : Traj T d) :=
      continuous_pi fun t => continuous_pi fun j => (continuous_finsetSum _ fun i _ =>
        (continuous_apply j).comp ((continuous_apply t).comp (hx i))).div_const _
    exact hdot.comp (((hm.sub (hx i)).sub (((continuous_const.mul (continuous_const.mul continuous_id))).smul (hq i))).prodMk (hq i))
  · simp only [if_true]
    exact hdot.comp (((hu.sub (hx i)).sub ((continuous_const.mul continuous_id).smul (hq i))).prodMk (hq i))

/-- The probability that the Metropolised Gibbs move, given the weights of `mala.kernel`, leaves the present trajectory. -/
noncomputable def liuMala (delta : ℝ) (log_pdf : Traj T d → ℝ) (grad : Traj T d → Traj T d) (auxiliary : Bool) (s : VGState T d)
    (e : Traj T d × (Fin N → Traj T d)) : ℝ≥0∞ := liuOut (malaW delta log_pdf grad auxiliary s e)

theorem liuMala_le (delta : ℝ) (log_pdf : Traj T d → ℝ) (grad : Traj T d → Traj T d) (auxiliary : Bool) (s : VGState T d)
    (e : Traj T d × (Fin N → Traj T d)) : liuMala delta log_pdf grad auxiliary s e ≤ 1 := liuOut_le (normalize_isProb _)

theorem liuMala_continuousOn {log_pdf : Traj T d → ℝ} {grad : Traj T d → Traj T d} (hl : Continuous log_pdf) (hg : Continuous grad) (hN : 1 ≤ N)
    (auxiliary : Bool) (s : VGState T d) (e : Traj T d × (Fin N → Traj T d)) :
    ContinuousOn (fun δ => liuMala δ log_pdf grad auxiliary s e) (Set.Ioi 0) :=
  (continuous_liuOut hN).comp_continuousOn (malaLw_continuousOn hl hg auxiliary s e)

theorem measurable_liuMala' {log_pdf : Traj T d → ℝ} {grad : Traj T d → Traj T d} (hl : Measurable log_pdf) (hg : Measurable grad) (δ : ℝ)
    (auxiliary : Bool) : Measurable fun p : VGState T d × (Traj T d × (Fin N → Traj T d)) => liuMala δ log_pdf grad auxiliary p.1 p.2 :=
  measurable_liuOut.comp (measurable_malaW hl hg δ auxiliary)

theorem liuMala_near (key : Key) (delta : ℝ) (log_pdf : Traj T d → ℝ) (grad : Traj T d → Traj T d) (auxiliary : Bool) (s : VGState T d)
    (e : Traj T d × (Fin N → Traj T d)) :
    forcedIdx key (malaW delta log_pdf grad auxiliary s e) 0 (fun i => if i ≠ 0 then 1 else 0) ≤
        liuMala delta log_pdf grad auxiliary s e + ENNReal.ofReal 3e-12 ∧
      liuMala delta log_pdf grad auxiliary s e ≤
        forcedIdx key (malaW delta log_pdf grad auxiliary s e) 0 (fun i => if i ≠ 0 then 1 else 0) + ENNReal.ofReal 3e-12 :=
  force_near_liu key (normalize_isProb _) 0 (fun i => if i ≠ 0 then 1 else 0) (measurable_of_finite _) fun i => ind_le_one _

attribute [irreducible] liuMala

/-- The average probability that the Metropolised Gibbs move, given the weights of `mala.kernel`, leaves the present trajectory. -/
noncomputable def malaRate (log_pdf : Traj T d → ℝ) (grad : Traj T d → Traj T d) (N : ℕ) (auxiliary : Bool) (π : Measure (Traj T d)) (δ : ℝ) : ℝ≥0∞ :=
  ∫⁻ x, ∫⁻ e, liuMala δ log_pdf grad auxiliary (tp_init log_pdf grad x) e ∂Props.malaMeasure N T d ∂π

section rate
variable {log_pdf : Traj T d → ℝ} {grad : Traj T d → Traj T d} (hl : Continuous log_pdf) (hg : Continuous grad)
include hl hg

theorem measurable_liuMala (δ : ℝ) (auxiliary : Bool) : Measurable fun p : Traj T d × (Traj T d × (Fin N → Traj T d)) =>
    liuMala δ log_pdf grad auxiliary (tp_init log_pdf grad p.1) p.2 := by
  have hi := measurable_tp_init hl.measurable hg.measurable
  exact (measurable_liuMala' hl.measurable hg.measurable δ auxiliary).comp
    (by fun_prop : Measurable fun p : Traj T d × (Traj T d × (Fin N → Traj T d)) => (tp_init log_pdf grad p.1, p.2))

theorem malaRate_continuousOn (hN : 1 ≤ N) (auxiliary : Bool) (π : Measure (Traj T d)) [IsProbabilityMeasure π] :
    ContinuousOn (malaRate log_pdf grad N auxiliary π) (Set.Ioi 0) := by
  intro δ hδ
  refine tendsto_lintegral_filter_of_dominated_convergence (fun _ => 1) (.of_forall fun δ => ?_) (.of_forall fun δ => .of_forall fun x => ?_)
    (by simp) (.of_forall fun x => ?_)
  · exact (measurable_liuMala hl hg δ auxiliary).lintegral_prod_right'
  · exact (lintegral_mono fun e => liuMala_le _ _ _ _ _ _).trans (by simp)
  · refine tendsto_lintegral_filter_of_dominated_convergence (fun _ => 1) (.of_forall fun δ => ?_) (.of_forall fun δ => .of_forall fun e => ?_)
      (by simp) (.of_forall fun e => ?_)
    · exact (measurable_liuMala hl hg δ auxiliary).comp measurable_prodMk_left
    · exact liuMala_le _ _ _ _ _ _
    · exact liuMala_continuousOn hl hg hN auxiliary (tp_init log_pdf grad x) e δ hδ

theorem mala_flag_near (key : Key) (x : Traj T d) (δ : ℝ) (auxiliary : Bool) :
    flagProb (mala_kernel key (tp_init log_pdf grad x) δ log_pdf grad N auxiliary) ≤
        (∫⁻ e, liuMala δ log_pdf grad auxiliary (tp_init log_pdf grad x) e ∂Props.malaMeasure N T d) + ENNReal.ofReal 3e-12 ∧
      (∫⁻ e, liuMala δ log_pdf grad auxiliary (tp_init log_pdf grad x) e ∂Props.malaMeasure N T d) ≤
        flagProb (mala_kernel key (tp_init log_pdf grad x) δ log_pdf grad N auxiliary) + ENNReal.ofReal 3e-12 := by
  have hm : Measurable fun e : Traj T d × (Fin N → Traj T d) => liuMala δ log_pdf grad auxiliary (tp_init log_pdf grad x) e :=
    (measurable_liuMala hl hg δ auxiliary).comp measurable_prodMk_left
  have hf : flagProb (mala_kernel key (tp_init log_pdf grad x) δ log_pdf grad N auxiliary) =
      ∫⁻ a, ∫⁻ b, forcedIdx (splitKey key 3 1) (malaW δ log_pdf grad auxiliary (tp_init log_pdf grad x) (a, b)) 0 (fun i => if i ≠ 0 then 1 else 0)
        ∂(Measure.pi fun _ : Fin N => Measure.pi fun _ : Fin T => gaussM d) ∂(Measure.pi fun _ : Fin T => gaussM d) := by
    rw [flagProb, mala_flag_eq]
    refine lintegral_congr fun a => lintegral_congr fun b => ?_
    show forcedIdx _ _ _ _ = _
    congr 1
    funext i
    by_cases hi : i = 0 <;> simp [hi]
  have hadd : ∀ F : Traj T d → (Fin N → Traj T d) → ℝ≥0∞,
      ∫⁻ a, ∫⁻ b, (F a b + ENNReal.ofReal 3e-12) ∂(Measure.pi fun _ : Fin N => Measure.pi fun _ : Fin T => gaussM d) ∂(Measure.pi fun _ : Fin T => gaussM d) =
      (∫⁻ a, ∫⁻ b, F a b ∂(Measure.pi fun _ : Fin N => Measure.pi fun _ : Fin T => gaussM d) ∂(Measure.pi fun _ : Fin T => gaussM d)) +
        ENNReal.ofReal 3e-12 := fun F => by
    simp only [lintegral_add_right _ measurable_const, lintegral_const, measure_univ, mul_one]
  rw [hf, Props.malaMeasure, lintegral_prod _ hm.aemeasurable, ← hadd, ← hadd]
  exact ⟨lintegral_mono fun a => lintegral_mono fun b => (liuMala_near _ _ _ _ _ _ _).1, lintegral_mono fun a => lintegral_mono fun b => (liuMala_near _ _ _ _ _ _ _).2⟩

/-- The acceptance rate is close to a function that is continuous. -/
theorem mala_rate_near (key : Key) (δ : ℝ) (auxiliary : Bool) (π : Measure (Traj T d)) [IsProbabilityMeasure π] :
    |(∫⁻ x, flagProb (mala_kernel key (tp_init log_pdf grad x) δ log_pdf grad N auxiliary) ∂π).toReal - (malaRate log_pdf grad N auxiliary π δ).toReal|
      ≤ 3e-12 := by
  have hadd : ∀ F : Traj T d → ℝ≥0∞, ∫⁻ x, (F x + ENNReal.ofReal 3e-12) ∂π = (∫⁻ x, F x ∂π) + ENNReal.ofReal 3e-12 := fun F => by
    rw [lintegral_add_right _ measurable_const, lintegral_const, measure_univ, mul_one]
  have h1 := lintegral_mono (μ := π) fun x => (mala_flag_near (N := N) hl hg key x δ auxiliary).1
  have h2 := lintegral_mono (μ := π) fun x => (mala_flag_near (N := N) hl hg key x δ auxiliary).2
  rw [hadd] at h1 h2
  have b1 : (∫⁻ x, flagProb (mala_kernel key (tp_init log_pdf grad x) δ log_pdf grad N auxiliary) ∂π) ≤ 1 :=
    (lintegral_mono fun x => Props.mala_flag_le key _ δ auxiliary).trans (by simp)
  have t1 := ne_top_of_le_ne_top ENNReal.one_ne_top b1
  have t2 : malaRate log_pdf grad N auxiliary π δ ≠ ⊤ := ne_top_of_le_ne_top (ENNReal.add_ne_top.mpr ⟨t1, ENNReal.ofReal_ne_top⟩) h2
  have r1 := ENNReal.toReal_mono (ENNReal.add_ne_top.mpr ⟨t2, ENNReal.ofReal_ne_top⟩) h1
  have r2 := ENNReal.toReal_mono (ENNReal.add_ne_top.mpr ⟨t1, ENNReal.ofReal_ne_top⟩) h2
  rw [ENNReal.toReal_add t2 ENNReal.ofReal_ne_top, ENNReal.toReal_ofReal (by norm_num)] at r1
  rw [ENNReal.toReal_add t1 ENNReal.ofReal_ne_top, ENNReal.toReal_ofReal (by norm_num)] at r2
  rw [abs_le]
  constructor <;> (unfold malaRate at *; linarith)

theorem malaRate_real_continuousOn (hN : 1 ≤ N) (auxiliary : Bool) (π : Measure (Traj T d)) [IsProbabilityMeasure π] :
    ContinuousOn (fun δ => (malaRate log_pdf grad N auxiliary π δ).toReal) (Set.Ioi 0) := fun δ hδ => by
  have t : malaRate log_pdf grad N auxiliary π δ ≠ ⊤ := ne_top_of_le_ne_top ENNReal.one_ne_top
    ((lintegral_mono fun x => (lintegral_mono fun e => liuMala_le _ _ _ _ _ _).trans (by simp : _ ≤ (1 : ℝ≥0∞))).trans (by simp))
  exact (ENNReal.tendsto_toReal t).comp (malaRate_continuousOn hl hg hN auxiliary π δ hδ)

end rate

/-- A function that crosses a level and is close to one that is continuous comes close to the level. -/
theorem near_level {F E : ℝ → ℝ} {ε c a b : ℝ} (ha : 0 < a) (hab : a ≤ b) (hE : ContinuousOn E (Set.Ioi 0)) (hn : ∀ δ, |F δ - E δ| ≤ ε)
    (h1 : c < F a) (h2 : F b < c) : ∃ δ, a ≤ δ ∧ δ ≤ b ∧ |F δ - c| ≤ ε := by
  have na := abs_le.mp (hn a)
  have nb := abs_le.mp (hn b)
  rcases lt_or_ge (E a) c with h | h
  · exact ⟨a, le_rfl, hab, abs_le.mpr ⟨by linarith, by linarith⟩⟩
  rcases lt_or_ge c (E b) with h' | h'
  · exact ⟨b, hab, le_rfl, abs_le.mpr ⟨by linarith, by linarith⟩⟩
  obtain ⟨δ, hδ, e⟩ := intermediate_value_Icc' hab (hE.mono fun x hx => ha.trans_le hx.1) ⟨h', h⟩
  exact ⟨δ, hδ.1, hδ.2, by rw [← e]; exact hn δ⟩

end Verif
