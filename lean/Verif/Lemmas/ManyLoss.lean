import Verif.Lemmas.ManyKernel
import Verif.Lemmas.Replicates

/-!
# Conditional particle systems with many particles whose reference may have no children

With killing resampling the reference may have no other children than its own, so that backward sampling can lose the
trajectories that would have been proposed from it. They are few.
-/

open scoped ENNReal
open MeasureTheory ProbabilityTheory Finset

namespace Verif
open Verif.Spec Verif.Model

variable {X : Type} {N n : ℕ}

theorem Sys.link_sum (S : Sys X N n) (γ : X → X → ℝ) (bw : Bool) (h : Hist X N n) (l0 : Fin (N + 1)) (x' : X) :
    ∑ l, S.link γ bw h l0 x' l = 1 := by
  cases bw with
  | true =>
    simp only [Sys.link, if_true]
    rw [← ENNReal.ofReal_sum_of_nonneg fun i _ => (normalize_pos _ i).le, (normalize_isProb _).2, ENNReal.ofReal_one]
  | false => simp [Sys.link]

theorem Sys.av_const {n : ℕ} (S : Sys X N n) (Γ : Fin n → X → X → ℝ) (bw : Bool) (b : Fin (n + 1) → Fin (N + 1)) (h : Hist X N n)
    (k : Fin (N + 1)) {f : (Fin (n + 1) → X) → ℝ≥0∞} {C : ℝ≥0∞} (hf : ∀ x, f x ≤ C) : S.av Γ bw b h k f ≤ C := by
  induction n generalizing k with
  | zero => exact hf _
  | succ n ih =>
    calc S.av Γ bw b h k f ≤ ∑ l, S.init.link (Γ (Fin.last n)) bw h.init (lastA h.1 k) (lastA h.2 k) l * C := by
          refine sum_le_sum fun l _ => mul_le_mul' ?_ (ih S.init (initA Γ) (initA b) h.init l fun y => hf _)
          split_ifs
          · exact zero_le
          · exact le_rfl
      _ = C := by rw [← sum_mul, S.init.link_sum, one_mul]

theorem Sys.avStep_const (S : Sys X N (n + 1)) (Γ : Fin (n + 1) → X → X → ℝ) (bw : Bool) (b : Fin (n + 2) → Fin (N + 1)) (h : Hist X N n)
    {f : (Fin (n + 2) → X) → ℝ≥0∞} {C : ℝ≥0∞} (hf : ∀ x, f x ≤ C) (l0 : Fin (N + 1)) (x' : X) : S.avStep Γ bw b h f l0 x' ≤ C := by
  calc S.avStep Γ bw b h f l0 x' ≤ ∑ l, S.init.link (Γ (Fin.last n)) bw h l0 x' l * C := by
        refine sum_le_sum fun l _ => mul_le_mul' ?_ (S.init.av_const (initA Γ) bw (initA b) h l fun y => hf _)
        split_ifs
        · exact zero_le
        · exact le_rfl
    _ = C := by rw [← sum_mul, S.init.link_sum, one_mul]

section
variable [MeasurableSpace X] {lam : Measure X} [SFinite lam]

/-- The transitions of the target have at most the mass of the largest weight. -/
theorem Sys.OK.G_le {S : Sys X N n} (hS : S.OK) (hN : 1 ≤ N) {c B : Fin (n + 1) → ℝ} (hI : S.Indep c B) (t : Fin n) (y : X)
    {g : X → ℝ≥0∞} (hg : Measurable g) {C : ℝ≥0∞} (hC : ∀ x, g x ≤ C) : S.G t y g ≤ ENNReal.ofReal (Real.exp (B t.succ)) * C := by
  have hk : (Fin.last N : Fin (N + 1)) ≠ 0 := by
    intro h
    have := congrArg Fin.val h
    simp at this
    omega
  have h1 := hI.one t (fun _ => y) 0 y (Fin.last N) hk g hg
  rw [← h1]
  refine ((hS.Q_ker t).mono ((fun _ => y), 0, y) ((hS.measurable_weight t _ _ _).mul (by fun_prop))
    (g := fun _ => ENNReal.ofReal (Real.exp (B t.succ)) * C) measurable_const fun Xs => ?_).trans (le_of_eq ?_)
  · exact mul_le_mul' (ENNReal.ofReal_le_ofReal (Real.exp_le_exp.mpr (hI.le t _ _ _))) (hC _)
  · rw [(hS.Q_ker t).const_fun ((fun _ => y), 0, y) _]
    show _ * S.Q t (fun _ => y) 0 y (fun _ => 1) = _
    rw [hS.Q_mass, mul_one]

/-- First moment, if only the particles other than the reference are known to have children. -/
theorem Sys.OK.first_low_loss {n : ℕ} {S : Sys X N n} (hS : S.OK) (hN : 1 ≤ N) {c B : Fin (n + 1) → ℝ} (hI : S.Indep c B)
    {Γ : Fin n → X → X → ℝ} (hd : S.Density lam Γ) {q : ℝ≥0∞} (hq1 : q * ((N : ℝ≥0∞) + 1)⁻¹ ≤ 1) (bw : Bool)
    (hoff : ∀ t, Spreads q false (S.R t))
    (b : Fin (n + 1) → Fin (N + 1)) (x : Fin (n + 1) → X) {f : (Fin (n + 1) → X) → ℝ≥0∞} (hf : Measurable f) {C : ℝ≥0∞} (hC : ∀ x, f x ≤ C) :
    N * (q * ((N : ℝ≥0∞) + 1)⁻¹) ^ n * S.path f ≤ S.fwd b x (fun h => S.past c h * S.avSum c Γ bw b h f) +
      n * ((∏ t, ENNReal.ofReal (Real.exp (B t))) * C) := by
  induction n generalizing C with
  | zero =>
    refine (hS.first_low hI hd (q := q) bw (fun t => t.elim0) b x hf).trans le_self_add
  | succ n ih =>
    have hg := hS.measurable_ahead hf
    have hgC : ∀ y, S.ahead f y ≤ ENNReal.ofReal (Real.exp (B (Fin.last (n + 1)))) * C := fun y =>
      hS.G_le hN hI (Fin.last n) _ (by fun_prop) fun x' => hC _
    have h1 := ih hS.init hI.init (Γ := initA Γ) hd.init (fun t => hoff t.castSucc) (initA b) (initA x) hg hgC
    have hm := hS.init.measurable_first (initA c) (Γ := initA Γ) (fun t => hd.meas t.castSucc) bw (initA b) hg
    have hm' := hS.measurable_first c hd.meas bw b hf
    have eP : (∏ t : Fin (n + 1), ENNReal.ofReal (Real.exp (initA B t))) * (ENNReal.ofReal (Real.exp (B (Fin.last (n + 1)))) * C) =
        (∏ t, ENNReal.ofReal (Real.exp (B t))) * C := by
      rw [Fin.prod_univ_castSucc (fun t : Fin (n + 2) => ENNReal.ofReal (Real.exp (B t))), mul_assoc]
      rfl
    rw [eP] at h1
    have hstep : ∀ h, q * ((N : ℝ≥0∞) + 1)⁻¹ * (S.init.past (initA c) h * S.init.avSum (initA c) (initA Γ) bw (initA b) h (S.ahead f)) ≤
        S.lastStep b x (fun h => S.past c h * S.avSum c Γ bw b h f) h +
          (∏ t, ENNReal.ofReal (Real.exp (B t))) * C := fun h => by
      have hA := hS.measurable_avStep hd.meas bw b h hf
      have h2 : q * ∑ l, ENNReal.ofReal (S.init.wLast h l) * S.G (Fin.last n) (lastA h.2 l) (S.avStep Γ bw b h f l) ≤
          ∑ l, S.G (Fin.last n) (lastA h.2 l) (S.avStep Γ bw b h f l) *
            offspring (S.R (Fin.last n)) (S.init.wLast h) (b (Fin.last n).castSucc) (b (Fin.last (n + 1))) l +
          q * (ENNReal.ofReal (S.init.wLast h (b (Fin.last n).castSucc)) * (ENNReal.ofReal (Real.exp (B (Fin.last (n + 1)))) * C)) := by
        rw [← Finset.add_sum_erase univ _ (mem_univ (b (Fin.last n).castSucc)), mul_add, add_comm]
        refine add_le_add ?_ (mul_le_mul_right (mul_le_mul_right
          (hS.G_le hN hI (Fin.last n) _ (hA _) fun x' => S.avStep_const Γ bw b h hC _ x') _) _)
        rw [mul_sum]
        refine (sum_le_sum fun l hl => ?_).trans (sum_le_sum_of_subset (erase_subset (b (Fin.last n).castSucc) univ))
        rw [← mul_assoc, mul_comm]
        gcongr
        exact hoff _ _ (normalize_isProb _) (normalize_pos _) _ _ l fun _ => ne_of_mem_erase hl
      rw [hS.first_step hI hd.meas bw b x hf]
      have h3 := mul_le_mul_right h2 (S.init.past (initA c) h * S.init.mass (initA c) h)
      have h4 : S.init.past (initA c) h * S.init.mass (initA c) h *
          (q * (ENNReal.ofReal (S.init.wLast h (b (Fin.last n).castSucc)) * (ENNReal.ofReal (Real.exp (B (Fin.last (n + 1)))) * C))) ≤
          (∏ t, ENNReal.ofReal (Real.exp (B t))) * C := by
        have e1 := S.init.mass_mul (initA c) h (b (Fin.last n).castSucc)
        have e2 := hI.init.vLast_le h (b (Fin.last n).castSucc)
        have e3 : S.init.past (initA c) h * ENNReal.ofReal (Real.exp (initA B (Fin.last n))) ≤
            ∏ t : Fin (n + 1), ENNReal.ofReal (Real.exp (initA B t)) := by
          cases n with
          | zero => simp [Sys.past]
          | succ n =>
            rw [Fin.prod_univ_castSucc]
            exact mul_le_mul_left (hI.init.init.past_le h.init) _
        rw [← eP]
        calc _ = q * S.init.past (initA c) h * (S.init.mass (initA c) h * ENNReal.ofReal (S.init.wLast h (b (Fin.last n).castSucc))) *
              (ENNReal.ofReal (Real.exp (B (Fin.last (n + 1)))) * C) := by ring
          _ = (q * ((N : ℝ≥0∞) + 1)⁻¹) * (S.init.past (initA c) h * S.init.vLast (initA c) h (b (Fin.last n).castSucc)) *
              (ENNReal.ofReal (Real.exp (B (Fin.last (n + 1)))) * C) := by rw [e1]; ring
          _ ≤ 1 * (∏ t : Fin (n + 1), ENNReal.ofReal (Real.exp (initA B t))) * (ENNReal.ofReal (Real.exp (B (Fin.last (n + 1)))) * C) := by
              gcongr
              exact (mul_le_mul_right e2 _).trans e3
          _ = _ := by rw [one_mul]
      rw [mul_add] at h3
      refine le_trans (le_of_eq ?_) (h3.trans (add_le_add le_rfl h4))
      calc q * ((N : ℝ≥0∞) + 1)⁻¹ * (S.init.past (initA c) h * S.init.avSum (initA c) (initA Γ) bw (initA b) h (S.ahead f))
          = q * S.init.past (initA c) h * (((N : ℝ≥0∞) + 1)⁻¹ * S.init.avSum (initA c) (initA Γ) bw (initA b) h (S.ahead f)) := by ring
        _ = _ := by
          rw [← hS.mass_avStep c hd bw b hf h]
          ring
    have h5 := (hS.init.fwd_ker).mono (initA b, initA x) (hm.const_mul _) ((hS.measurable_lastStep b x hm').add_const _) hstep
    have h6 := (hS.init.fwd_ker).add (initA b, initA x) (hS.measurable_lastStep b x hm')
      (g := fun _ => (∏ t, ENNReal.ofReal (Real.exp (B t))) * C) measurable_const
    have h7 : S.init.fwd (initA b) (initA x) (fun _ => (∏ t, ENNReal.ofReal (Real.exp (B t))) * C) =
        (∏ t, ENNReal.ofReal (Real.exp (B t))) * C := by
      have := (hS.init.fwd_ker).const_fun (initA b, initA x) ((∏ t, ENNReal.ofReal (Real.exp (B t))) * C)
      refine this.trans ?_
      rw [show S.init.fwd (initA b, initA x).1 (initA b, initA x).2 (fun _ => 1) = 1 from hS.init.fwd_mass _ _, mul_one]
    have e : S.path f = S.init.path (S.ahead f) := rfl
    generalize (∏ t, ENNReal.ofReal (Real.exp (B t))) * C = L at *
    calc N * (q * ((N : ℝ≥0∞) + 1)⁻¹) ^ (n + 1) * S.path f
        = q * ((N : ℝ≥0∞) + 1)⁻¹ * (N * (q * ((N : ℝ≥0∞) + 1)⁻¹) ^ n * S.init.path (S.ahead f)) := by rw [e]; ring
      _ ≤ q * ((N : ℝ≥0∞) + 1)⁻¹ * (S.init.fwd (initA b) (initA x) (fun h => S.init.past (initA c) h *
            S.init.avSum (initA c) (initA Γ) bw (initA b) h (S.ahead f)) + n * L) := by gcongr
      _ = q * ((N : ℝ≥0∞) + 1)⁻¹ * S.init.fwd (initA b) (initA x) (fun h => S.init.past (initA c) h *
            S.init.avSum (initA c) (initA Γ) bw (initA b) h (S.ahead f)) + q * ((N : ℝ≥0∞) + 1)⁻¹ * (n * L) := by rw [mul_add]
      _ ≤ (S.fwd b x (fun h => S.past c h * S.avSum c Γ bw b h f) + L) + 1 * (n * L) := by
          refine add_le_add ?_ (mul_le_mul_left hq1 _)
          refine ((hS.init.fwd_ker).const_mul (initA b, initA x) _ hm).symm.le.trans (h5.trans (h6.le.trans ?_))
          exact add_le_add le_rfl h7.le
      _ = _ := by push_cast; ring

/-- Lower bound on the kernel of an abstract conditional particle system. -/
theorem Sys.OK.kernel_many_loss {S : Sys X N n} (hS : S.OK) (hN : 1 ≤ N) {c B : Fin (n + 1) → ℝ} (hI : S.Indep c B)
    {Γ : Fin n → X → X → ℝ} (hd : S.Density lam Γ) {q : ℝ≥0∞} (hq1 : q * ((N : ℝ≥0∞) + 1)⁻¹ ≤ 1) (bw : Bool)
    (hq : ∀ t, Spreads q false (S.R t)) (ho : ∀ t, FewOffspring (S.R t)) (hp : ∀ t, PairsSpread (S.R t))
    {move : (Fin (N + 1) → ℝ) → Fin (N + 1) → Ex (Fin (N + 1))} (hm : MoveKer move) (hmove : MovesAway 1 move)
    (hZ0 : S.path (fun _ => 1) ≠ 0) (hZ : S.path (fun _ => 1) ≠ ∞)
    (x : Fin (n + 1) → X) (b : Fin (n + 1) → Fin (N + 1)) {f : (Fin (n + 1) → X) → ℝ≥0∞} (hf : Measurable f) (hf1 : ∀ x, f x ≤ 1) :
    2 * (N * ((N : ℝ≥0∞) + 1)⁻¹ * (q * ((N : ℝ≥0∞) + 1)⁻¹) ^ n) * S.path f *
        (S.path (fun _ => 1) + 2 * (n + 1) * ((N : ℝ≥0∞) + 1)⁻¹ * ∏ t, ENNReal.ofReal (Real.exp (B t)))⁻¹ ≤
      S.kernel Γ move bw x b (fun r => f r.1) + S.path f *
        (S.path (fun _ => 1) + 2 * (n + 1) * ((N : ℝ≥0∞) + 1)⁻¹ * ∏ t, ENNReal.ofReal (Real.exp (B t)))⁻¹ +
      2 * n * ((N : ℝ≥0∞) + 1)⁻¹ * (∏ t, ENNReal.ofReal (Real.exp (B t))) * (S.path (fun _ => 1))⁻¹ := by
  have h1 := hS.first_low_loss hN hI hd hq1 bw hq b x hf hf1
  have h2 := hS.kernel_first hN hI hd bw ho hp hm hmove hZ0 hZ x b hf
  have hC : (S.path (fun _ => 1) + 2 * (n + 1) * ((N : ℝ≥0∞) + 1)⁻¹ * ∏ t, ENNReal.ofReal (Real.exp (B t)))⁻¹ ≤ (S.path (fun _ => 1))⁻¹ :=
    ENNReal.inv_le_inv.mpr le_self_add
  generalize (S.path (fun _ => 1) + 2 * (n + 1) * ((N : ℝ≥0∞) + 1)⁻¹ * ∏ t, ENNReal.ofReal (Real.exp (B t)))⁻¹ = C at *
  generalize ((N : ℝ≥0∞) + 1)⁻¹ = ν at *
  calc 2 * (N * ν * (q * ν) ^ n) * S.path f * C = 2 * C * ν * (N * (q * ν) ^ n * S.path f) := by ring
    _ ≤ 2 * C * ν * (S.fwd b x (fun h => S.past c h * S.avSum c Γ bw b h f) + n * ((∏ t, ENNReal.ofReal (Real.exp (B t))) * 1)) := by gcongr
    _ = 2 * C * ν * S.fwd b x (fun h => S.past c h * S.avSum c Γ bw b h f) + 2 * n * ν * (∏ t, ENNReal.ofReal (Real.exp (B t))) * C := by ring
    _ ≤ _ := by gcongr

end

/-- A law is close to another if it is nowhere much smaller. -/
theorem tvLe_of_le_add {S α β : Type} [MeasurableSpace S] [MeasurableSpace α] [MeasurableSpace β] {K : S → Ex α} (hK : IsKer K) (s : S)
    (h1 : K s (fun _ => 1) = 1) {p : α → β} (hp : Measurable p) {π : Measure β} [IsProbabilityMeasure π] {E : ℝ≥0∞}
    (h : ∀ f : β → ℝ≥0∞, Measurable f → (∀ b, f b ≤ 1) → ∫⁻ b, f b ∂π ≤ K s (fun a => f (p a)) + E) :
    TVLe E (fun f => K s fun a => f (p a)) fun f => ∫⁻ b, f b ∂π := fun f hf hf1 => by
  have hg : Measurable fun b => 1 - f b := measurable_const.sub hf
  have hπ : ∫⁻ b, (1 - f b) ∂π ≤ 1 := (lintegral_mono fun b => tsub_le_self).trans (by rw [lintegral_one, measure_univ])
  have e1 : ∫⁻ b, f b ∂π + ∫⁻ b, (1 - f b) ∂π = 1 := by
    rw [← lintegral_add_left hf, lintegral_congr fun b => add_tsub_cancel_of_le (hf1 b), lintegral_one, measure_univ]
  have e2 : K s (fun a => f (p a)) + K s (fun a => 1 - f (p a)) = 1 := by
    refine (hK.add s (hf.comp hp) (hg.comp hp)).symm.trans (Eq.trans ?_ h1)
    exact Ex.congr_fun' _ fun a => add_tsub_cancel_of_le (hf1 (p a))
  refine ⟨?_, h f hf hf1⟩
  have h3 := h _ hg fun b => tsub_le_self
  refine (ENNReal.add_le_add_iff_right (ne_top_of_le_ne_top ENNReal.one_ne_top hπ)).mp ?_
  calc K s (fun a => f (p a)) + ∫⁻ b, (1 - f b) ∂π ≤ K s (fun a => f (p a)) + (K s (fun a => 1 - f (p a)) + E) := by gcongr
    _ = ∫⁻ b, f b ∂π + ∫⁻ b, (1 - f b) ∂π + E := by rw [← add_assoc, e2, e1]
    _ = _ := by ring

theorem manyErrAny_eq (N n : ℕ) (B : Fin (n + 1) → ℝ) (Z : ℝ≥0∞) : manyErrAny N n B Z =
    manyErr N n B Z + 2 * n * ((N : ℝ≥0∞) + 1)⁻¹ * (∏ t, ENNReal.ofReal (Real.exp (B t))) * Z⁻¹ := by
  rw [manyErrAny, manyErr]
  simp only [div_eq_mul_inv]
  ring

theorem manyErrAny_le (N n : ℕ) (B : Fin (n + 1) → ℝ) (Z : ℝ≥0∞) : manyErr N n B Z ≤ manyErrAny N n B Z := by
  rw [manyErrAny_eq]
  exact le_self_add

theorem manyErrAny_le_two (N n : ℕ) (B : Fin (n + 1) → ℝ) (Z : ℝ≥0∞) : manyErrAny N n B Z ≤ 2 * manyErr N n B Z := by
  rw [manyErrAny_eq]
  refine (add_le_add le_rfl ?_).trans (two_mul _).ge
  rw [manyErr]
  simp only [div_eq_mul_inv]
  calc 2 * n * ((N : ℝ≥0∞) + 1)⁻¹ * (∏ t, ENNReal.ofReal (Real.exp (B t))) * Z⁻¹ =
        (2 * n * (∏ t, ENNReal.ofReal (Real.exp (B t))) * Z⁻¹) * ((N : ℝ≥0∞) + 1)⁻¹ := by ring
    _ ≤ _ := by
      gcongr
      refine le_trans ?_ le_add_self
      gcongr
      exact le_self_add

theorem manyErrAny_ne_top (N n : ℕ) (B : Fin (n + 1) → ℝ) {Z : ℝ≥0∞} (hZ : Z ≠ 0) : manyErrAny N n B Z ≠ ∞ := by
  rw [manyErrAny]
  refine ENNReal.div_ne_top (ENNReal.mul_ne_top (by finiteness) (ENNReal.add_ne_top.mpr ⟨by finiteness, ENNReal.div_ne_top ?_ hZ⟩)) (by simp)
  exact ENNReal.prod_ne_top fun t _ => ENNReal.ofReal_ne_top

theorem manyErrAny_tendsto (n : ℕ) (B : Fin (n + 1) → ℝ) {Z : ℝ≥0∞} (hZ : Z ≠ 0) :
    Filter.Tendsto (fun N => manyErrAny N n B Z) Filter.atTop (nhds 0) := by
  refine tendsto_of_tendsto_of_tendsto_of_le_of_le tendsto_const_nhds (h := fun N => 2 * manyErr N n B Z) ?_ (fun _ => zero_le)
    fun N => manyErrAny_le_two N n B Z
  have := ENNReal.Tendsto.const_mul (a := 2) (manyErr_tendsto n B hZ) (Or.inr (by finiteness))
  rwa [mul_zero] at this

/-- `csmc.kernel` with many particles: nothing is much less likely than under the target. -/
theorem csmc_many_loss {X P G : Type} [MeasurableSpace X] {lam : Measure X} [SigmaFinite lam] (key : Key) {M : FK Ex X P G N}
    {Mparams : Fin n → P} {Gparams : Fin n → G} {resampling : Resampling Ex N} {mv : AncestorMove Ex N} {backward : Bool}
    (hM : ProperFK lam M) (hN : 1 ≤ N) {B : Fin (n + 1) → ℝ} (hB : BoundedFK lam M Mparams Gparams B) {q : ℝ≥0∞} (hq1 : q ≤ N)
    (hq2 : N ≤ q + 1) (hR : ∀ key, CondResampling (fun w i j => resampling key w i j true))
    (hq : ∀ key, Spreads q false (fun w i j => resampling key w i j true))
    (ho : ∀ key, FewOffspring (fun w i j => resampling key w i j true)) (hp : ∀ key, PairsSpread (fun w i j => resampling key w i j true))
    (hm : ∀ key, MoveKer (moveIndex mv key)) (ha : ∀ key, MovesAway 1 (moveIndex mv key)) {Z : ℝ≥0∞}
    (hZ : ∫⁻ y, ENNReal.ofReal (Real.exp (pathLogDensity M.Gamma0 (fun t y x => M.Gammat y x (Gparams t)) y)) ∂(Measure.pi fun _ => lam) = Z)
    (hZ0 : Z ≠ 0) (hZ1 : Z ≠ ∞) (x : Fin (n + 1) → X) (b : Fin (n + 1) → Fin (N + 1)) {f : (Fin (n + 1) → X) → ℝ≥0∞} (hf : Measurable f)
    (hf1 : ∀ x, f x ≤ 1) :
    ∫⁻ x, f x ∂lawOf (Measure.pi fun _ => lam) (pathLogDensity M.Gamma0 (fun t y x => M.Gammat y x (Gparams t))) ≤
      ((csmc_kernel key x b M Mparams Gparams resampling mv backward true : Ex _) >>= fun r => pure (r.xs, r.Bs)) (fun r => f r.1) +
        manyErrAny N n B Z := by
  obtain ⟨c0, c, hS⟩ := csmcDSys_OK (lam := lam) key Mparams Gparams hM hR
  obtain ⟨c', hS'⟩ := csmcDSys_indep key resampling hM hB c0 c
  have e := csmc_kernel_eq key M Mparams Gparams resampling mv backward
    (fun f => ∫⁻ x, ENNReal.ofReal (Real.exp (M.Gamma0 x)) * f x ∂lam)
    (fun t y f => ∫⁻ x, ENNReal.ofReal (Real.exp (M.Gammat y x (Gparams t))) * f x ∂lam)
    (tilt c0 (M.M0_rvs (splitKey key 3 0)))
    (fun t Y => tilt (c t) (M.Mt_rvs (splitKey (splitKey (splitKey key 3 1) n t) 2 0) Y (Mparams t))) x b
  have hd : (csmcDSys lam key M Mparams Gparams resampling c0 c).Density lam (fun t y x => M.Gammat y x (Gparams t)) :=
    ⟨fun t => hM.Gammat_meas _, fun t y f _ => rfl⟩
  have e1 : (csmcDSys lam key M Mparams Gparams resampling c0 c).path (fun _ => 1) = Z := by
    rw [hS.path_eq hM.Gamma0_meas (fun f _ => rfl) hd _ measurable_const, ← hZ]
    simp only [mul_one]
  have hl : Measurable (pathLogDensity M.Gamma0 (fun t y x => M.Gammat y x (Gparams t))) :=
    measurable_pathLogDensity hM.Gamma0_meas fun _ => hM.Gammat_meas _
  have hq3 : q * ((N : ℝ≥0∞) + 1)⁻¹ ≤ 1 := by
    refine le_trans ?_ (ENNReal.mul_inv_cancel (by positivity : ((N : ℝ≥0∞) + 1) ≠ 0) (by finiteness)).le
    gcongr
    exact hq1.trans le_self_add
  have h := hS.kernel_many_loss hN hS' hd hq3 backward (fun t => hq _) (fun t => ho _) (fun t => hp _) (hm _)
    (ha (if backward then lastA (splitKey (splitKey key 3 2) (n + 1)) else splitKey key 3 2)) (e1 ▸ hZ0) (e1 ▸ hZ1) x b hf hf1
  rw [e1, hS.path_eq hM.Gamma0_meas (fun f _ => rfl) hd f hf] at h
  have hrate := many_rate hN hq1 hq2 (n := n) (B := B) hZ0 hZ1
  have hP := lawOf_isProb (lam := Measure.pi fun _ => lam) (by rw [hZ]; exact ⟨hZ0, hZ1⟩) hl
  have hP1 : ∫⁻ x, f x ∂lawOf (Measure.pi fun _ => lam) (pathLogDensity M.Gamma0 (fun t y x => M.Gammat y x (Gparams t))) ≤ 1 :=
    (lintegral_mono hf1).trans (by rw [lintegral_one, measure_univ])
  have hI : ∫⁻ y, ENNReal.ofReal (Real.exp (pathLogDensity M.Gamma0 (fun t y x => M.Gammat y x (Gparams t)) y)) * f y
      ∂(Measure.pi fun _ => lam) = Z * ∫⁻ x, f x ∂lawOf (Measure.pi fun _ => lam)
        (pathLogDensity M.Gamma0 (fun t y x => M.Gammat y x (Gparams t))) := by
    rw [lintegral_lawOf hl hf, hZ, ← mul_assoc, ENNReal.mul_inv_cancel hZ0 hZ1, one_mul]
  have hc : (Z + 2 * (n + 1) * ((N : ℝ≥0∞) + 1)⁻¹ * ∏ t, ENNReal.ofReal (Real.exp (B t)))⁻¹ ≠ ∞ :=
    ENNReal.inv_ne_top.mpr fun h => hZ0 (add_eq_zero.mp h).1
  rw [e, manyErrAny_eq]
  rw [hI] at h
  generalize ∫⁻ x, f x ∂lawOf (Measure.pi fun _ => lam) (pathLogDensity M.Gamma0 (fun t y x => M.Gammat y x (Gparams t))) = p at *
  generalize (Z + 2 * (n + 1) * ((N : ℝ≥0∞) + 1)⁻¹ * ∏ t, ENNReal.ofReal (Real.exp (B t)))⁻¹ = C at *
  generalize 2 * (n : ℝ≥0∞) * ((N : ℝ≥0∞) + 1)⁻¹ * (∏ t, ENNReal.ofReal (Real.exp (B t))) * Z⁻¹ = L at *
  generalize N * ((N : ℝ≥0∞) + 1)⁻¹ * (q * ((N : ℝ≥0∞) + 1)⁻¹) ^ n = r at *
  generalize manyErr N n B Z = m at *
  have hfin : C * Z * p ≠ ∞ := ENNReal.mul_ne_top (ENNReal.mul_ne_top hc hZ1) (ne_top_of_le_ne_top ENNReal.one_ne_top hP1)
  have h2 : (2 * r - 1) * (C * Z * p) ≤ (csmcDSys lam key M Mparams Gparams resampling c0 c).kernel (fun t y x => M.Gammat y x (Gparams t))
      (moveIndex mv (if backward then lastA (splitKey (splitKey key 3 2) (n + 1)) else splitKey key 3 2)) backward x b (fun r => f r.1) + L := by
    rw [ENNReal.sub_mul fun _ _ => hfin, one_mul, tsub_le_iff_right]
    refine le_trans (le_of_eq ?_) (h.trans (le_of_eq ?_))
    · ring
    · ring
  rw [tsub_le_iff_right] at hrate
  calc p = 1 * p := (one_mul p).symm
    _ ≤ (m + (2 * r - 1) * C * Z) * p := by gcongr
    _ = (2 * r - 1) * (C * Z * p) + m * p := by ring
    _ ≤ _ + L + m * 1 := by gcongr
    _ = _ := by rw [mul_one, add_assoc, add_comm L]; rfl

end Verif
