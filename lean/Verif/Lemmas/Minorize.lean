import Verif.Lemmas.CsmcKernel
import Verif.Spec.Ergodic

/-!
# A lower bound on the kernel of a conditional particle system

The probability of selecting a trajectory that avoids the reference is bounded from below by a multiple of the target,
whatever the reference.
-/

open scoped ENNReal
open MeasureTheory ProbabilityTheory Finset

namespace Verif
open Verif.Spec Verif.Model

variable {X : Type} [MeasurableSpace X] {N n : ℕ}

/-- What the lower bound needs of an abstract conditional particle system: the particles other than the reference are drawn
so that their weights are those of the target (up to the constants `exp (-c t)`), and the log-weights are bounded. -/
structure Sys.Bounded (S : Sys X N n) (c B : Fin (n + 1) → ℝ) : Prop where
  q0 : ∀ b x i, i ≠ b → ∀ f, Measurable f → S.Q0 b x (fun Xs => ENNReal.ofReal (Real.exp (S.LW0 Xs i)) * f (Xs i)) =
    ENNReal.ofReal (Real.exp (-c 0)) * S.G0 f
  q : ∀ t Y b x i, i ≠ b → ∀ f, Measurable f → S.Q t Y b x (fun Xs => ENNReal.ofReal (Real.exp (S.LW t Y Xs i)) * f (Xs i)) =
    ENNReal.ofReal (Real.exp (-c t.succ)) * S.G t (Y i) f
  lw0 : ∀ Xs i, S.LW0 Xs i ≤ B 0
  lw : ∀ t Y Xs i, S.LW t Y Xs i ≤ B t.succ

theorem Sys.Bounded.init {S : Sys X N (n + 1)} {c B : Fin (n + 2) → ℝ} (h : S.Bounded c B) :
    S.init.Bounded (initA c) (initA B) where
  q0 := h.q0
  q t := h.q t.castSucc
  lw0 := h.lw0
  lw t := h.lw t.castSucc

theorem Sys.Bounded.lwLast_le {n : ℕ} {S : Sys X N n} {c B : Fin (n + 1) → ℝ} (h : S.Bounded c B) (H : Hist X N n) (i : Fin (N + 1)) :
    S.lwLast H i ≤ B (Fin.last n) := by
  cases n with
  | zero => exact h.lw0 _ _
  | succ n => exact h.lw (Fin.last n) _ _ _

theorem normalizeW_ge {lw : Fin (N + 1) → ℝ} {B : ℝ} (h : ∀ i, lw i ≤ B) (k : Fin (N + 1)) :
    ENNReal.ofReal (Real.exp (-B) / (N + 1)) * ENNReal.ofReal (Real.exp (lw k)) ≤ ENNReal.ofReal (normalizeW lw k) := by
  have hN : (0 : ℝ) < N + 1 := by positivity
  rw [← ENNReal.ofReal_mul (by positivity), normalize_eq]
  refine ENNReal.ofReal_le_ofReal ?_
  have hpos : 0 < ∑ i, Real.exp (lw i) := Finset.sum_pos (fun i _ => Real.exp_pos _) Finset.univ_nonempty
  have hle : ∑ i, Real.exp (lw i) ≤ (N + 1) * Real.exp B := by
    refine (Finset.sum_le_sum fun i _ => Real.exp_le_exp.mpr (h i)).trans ?_
    simp
  rw [le_div_iff₀ hpos, Real.exp_neg]
  calc (Real.exp B)⁻¹ / (N + 1) * Real.exp (lw k) * ∑ i, Real.exp (lw i)
      ≤ (Real.exp B)⁻¹ / (N + 1) * Real.exp (lw k) * ((N + 1) * Real.exp B) := by gcongr
    _ = Real.exp (lw k) := by field_simp

/-- The trajectory selected from particle `k` of the last time step. -/
noncomputable def Sys.sel (S : Sys X N n) (Γ : Fin n → X → X → ℝ) (backward : Bool) (h : Hist X N n) (k : Fin (N + 1)) :
    Ex (Fin (n + 1) → X) :=
  if backward then S.bs Γ h k >>= fun r => pure r.1 else pure (h.tracex k)

theorem offspring_sum {R : (Fin (N + 1) → ℝ) → Fin (N + 1) → Fin (N + 1) → Ex (Anc N)} (hR : CondResampling R)
    (w : Fin (N + 1) → ℝ) (i j : Fin (N + 1)) (φ : Fin (N + 1) → ℝ≥0∞) :
    R w i j (fun a => ∑ k ∈ univ.erase j, φ (a k)) = ∑ l, φ l * offspring R w i j l := by
  have e : ∀ a : Anc N, ∑ k ∈ univ.erase j, φ (a k) = ∑ l, φ l * ∑ k ∈ univ.erase j, if a k = l then 1 else 0 := fun a => by
    simp only [mul_sum]
    rw [sum_comm]
    refine sum_congr rfl fun k _ => ?_
    simp
  simp only [e]
  refine (hR.ker.sum (w, i, j) univ fun l _ => measurable_of_finite _).trans (sum_congr rfl fun l _ => ?_)
  exact hR.ker.const_mul (w, i, j) (φ l) (measurable_of_finite _)

/-- The weights of the children that are not the reference, given their parents. -/
theorem Sys.OK.children {S : Sys X N (n + 1)} (hS : S.OK) {c B : Fin (n + 2) → ℝ} (hB : S.Bounded c B)
    (i j : Fin (N + 1)) (xl : X) (w : Fin (N + 1) → ℝ) (y : PA X N) {g : Fin (N + 1) → X → ℝ≥0∞} (hg : ∀ l, Measurable (g l)) :
    S.R (Fin.last n) w i j (fun a => S.Q (Fin.last n) (take y a) j xl fun Xs =>
        ∑ k ∈ univ.erase j, ENNReal.ofReal (Real.exp (S.LW (Fin.last n) (take y a) Xs k)) * g (a k) (Xs k)) =
      ENNReal.ofReal (Real.exp (-c (Fin.last (n + 1)))) * ∑ l, S.G (Fin.last n) (y l) (g l) * offspring (S.R (Fin.last n)) w i j l := by
  have e : ∀ a : Anc N, S.Q (Fin.last n) (take y a) j xl (fun Xs =>
        ∑ k ∈ univ.erase j, ENNReal.ofReal (Real.exp (S.LW (Fin.last n) (take y a) Xs k)) * g (a k) (Xs k)) =
      ∑ k ∈ univ.erase j, ENNReal.ofReal (Real.exp (-c (Fin.last (n + 1)))) * S.G (Fin.last n) (y (a k)) (g (a k)) := fun a => by
    refine ((hS.Q_ker (Fin.last n)).sum (take y a, j, xl) _ fun k _ => Measurable.mul ?_ ((hg _).comp (measurable_pi_apply k))).trans
      (sum_congr rfl fun k hk => ?_)
    · have h1 : Measurable fun Xs => S.LW (Fin.last n) (take y a) Xs :=
        (hS.LW_meas (Fin.last n)).comp (by fun_prop : Measurable fun Xs : PA X N => (take y a, Xs))
      exact ENNReal.measurable_ofReal.comp (Real.measurable_exp.comp ((measurable_pi_apply k).comp h1))
    · exact hB.q (Fin.last n) (take y a) j xl k (ne_of_mem_erase hk) _ (hg _)
  simp only [e]
  rw [offspring_sum (hS.R_ok _) w i j fun l => ENNReal.ofReal (Real.exp (-c (Fin.last (n + 1)))) * S.G (Fin.last n) (y l) (g l), mul_sum]
  simp only [mul_assoc]

/-- One step of the lower bound, for scanning. -/
theorem Sys.OK.step_scan {S : Sys X N (n + 1)} (hS : S.OK) {c B : Fin (n + 2) → ℝ} (hB : S.Bounded c B) {q : ℝ≥0∞}
    {i j : Fin (N + 1)} (xl : X) (h : Hist X N n)
    (hoff : ∀ l, l ≠ i → q * ENNReal.ofReal (S.init.wLast h l) ≤ offspring (S.R (Fin.last n)) (S.init.wLast h) i j l)
    {f : (Fin (n + 2) → X) → ℝ≥0∞} (hf : Measurable f) :
    q * ENNReal.ofReal (Real.exp (-c (Fin.last (n + 1)))) * ∑ l ∈ univ.erase i, ENNReal.ofReal (S.init.wLast h l) *
        S.G (Fin.last n) (lastA (h.tracex l)) (fun x' => f (snocA (h.tracex l) x')) ≤
      S.R (Fin.last n) (S.init.wLast h) i j fun a => S.Q (Fin.last n) (take (lastA h.2) a) j xl fun Xs =>
        ∑ k ∈ univ.erase j, ENNReal.ofReal (Real.exp (S.LW (Fin.last n) (take (lastA h.2) a) Xs k)) *
          f (snocA (h.tracex (a k)) (Xs k)) := by
  rw [hS.children hB i j xl (S.init.wLast h) (lastA h.2) (g := fun l x' => f (snocA (h.tracex l) x')) fun l => by fun_prop,
    mul_comm q, mul_assoc]
  gcongr
  rw [mul_sum]
  refine le_trans (sum_le_sum fun l hl => ?_) (sum_le_sum_of_subset (erase_subset i univ))
  have e : lastA (h.tracex l) = lastA h.2 l := h.tracex_last l
  rw [e, ← mul_assoc, mul_comm]
  gcongr
  exact hoff l (ne_of_mem_erase hl)

/-- Reweighting and normalising. -/
theorem normalizeW_add (lw g : Fin (N + 1) → ℝ) (k : Fin (N + 1)) :
    (∑ l, ENNReal.ofReal (normalizeW lw l) * ENNReal.ofReal (Real.exp (g l))) * ENNReal.ofReal (normalizeW (fun l => lw l + g l) k) =
      ENNReal.ofReal (normalizeW lw k) * ENNReal.ofReal (Real.exp (g k)) := by
  have hn := fun l => (normalize_isProb lw).nonneg l
  have e : ∀ l, ENNReal.ofReal (normalizeW lw l) * ENNReal.ofReal (Real.exp (g l)) =
      ENNReal.ofReal (normalizeW lw l * Real.exp (g l)) := fun l => (ENNReal.ofReal_mul (hn l)).symm
  simp only [e]
  rw [← ENNReal.ofReal_sum_of_nonneg fun l _ => mul_nonneg (hn l) (Real.exp_pos _).le,
    ← ENNReal.ofReal_mul (sum_nonneg fun l _ => mul_nonneg (hn l) (Real.exp_pos _).le)]
  congr 1
  simp only [normalize_eq, div_mul_eq_mul_div, ← Real.exp_add, ← sum_div]
  have h1 : 0 < ∑ i, Real.exp (lw i) := Finset.sum_pos (fun i _ => Real.exp_pos _) Finset.univ_nonempty
  have h2 : 0 < ∑ i, Real.exp (lw i + g i) := Finset.sum_pos (fun i _ => Real.exp_pos _) Finset.univ_nonempty
  field_simp

/-- One step of the lower bound, for backward sampling. -/
theorem Sys.OK.step_bs {S : Sys X N (n + 1)} (hS : S.OK) {c B : Fin (n + 2) → ℝ} (hB : S.Bounded c B) {lam : Measure X}
    [SFinite lam] {Γ : Fin (n + 1) → X → X → ℝ} (hd : S.Density lam Γ) {q : ℝ≥0∞} {i j : Fin (N + 1)} (xl : X) (h : Hist X N n)
    (hoff : ∀ l, q * ENNReal.ofReal (S.init.wLast h l) ≤ offspring (S.R (Fin.last n)) (S.init.wLast h) i j l)
    {f : (Fin (n + 2) → X) → ℝ≥0∞} (hf : Measurable f) :
    q * ENNReal.ofReal (Real.exp (-c (Fin.last (n + 1)))) * ∑ l ∈ univ.erase i, ENNReal.ofReal (S.init.wLast h l) *
        S.init.bs (initA Γ) h l (fun r => S.G (Fin.last n) (lastA r.1) (fun x' => f (snocA r.1 x'))) ≤
      S.R (Fin.last n) (S.init.wLast h) i j fun a => S.Q (Fin.last n) (take (lastA h.2) a) j xl fun Xs =>
        ∑ k ∈ univ.erase j, ENNReal.ofReal (Real.exp (S.LW (Fin.last n) (take (lastA h.2) a) Xs k)) *
          S.bs Γ (h.snoc a Xs) k (fun r => f r.1) := by
  -- backward sampling from a child at `x'`
  let β : X → Fin (N + 1) → ℝ := fun x' i => S.init.lwLast h i + Γ (Fin.last n) (lastA h.2 i) x'
  let Ψ : X → ℝ≥0∞ := fun x' => ∑ l, ENNReal.ofReal (normalizeW (β x') l) * S.init.bs (initA Γ) h l (fun r => f (snocA r.1 x'))
  have hbs : ∀ a Xs k, S.bs Γ (h.snoc a Xs) k (fun r => f r.1) = Ψ (Xs k) := fun a Xs k => by
    show (∑ l, catP (normalizeW fun i => S.init.lwLast (h.snoc a Xs).init i +
      Γ (Fin.last n) (lastA (h.snoc a Xs).init.2 i) (lastA (h.snoc a Xs).2 k)) l *
      S.init.bs (initA Γ) (h.snoc a Xs).init l fun r => f (snocA r.1 (lastA (h.snoc a Xs).2 k))) = _
    have e : lastA (h.snoc a Xs).2 k = Xs k := by simp [Hist.snoc, lastA]
    simp only [catP_normalize, Hist.init_snoc, e]
    rfl
  have hβ : Measurable β := measurable_pi_lambda _ fun i => measurable_const.add
    ((hd.meas (Fin.last n)).comp (by fun_prop : Measurable fun x' : X => ((lastA h.2 : PA X N) i, x')))
  have hbm : ∀ l, Measurable fun x' => S.init.bs (initA Γ) h l (fun r => f (snocA r.1 x')) := fun l =>
    ((hS.init.bs_ker (Γ := initA Γ) fun t => hd.meas t.castSucc).comp (g := fun _ : X => (h, l)) (by fun_prop)).measurable
      (f := fun x' r => f (snocA r.1 x')) (by fun_prop)
  have hw : ∀ l, Measurable fun x' => ENNReal.ofReal (normalizeW (β x') l) := fun l =>
    ENNReal.measurable_ofReal.comp ((measurable_pi_apply l).comp (measurable_normalizeW hβ))
  have hΨ : Measurable Ψ := Finset.measurable_fun_sum _ fun l _ => (hw l).mul (hbm l)
  simp only [hbs]
  rw [hS.children hB i j xl (S.init.wLast h) (lastA h.2) (g := fun _ => Ψ) fun l => hΨ, mul_comm q, mul_assoc]
  gcongr
  refine le_trans ?_ (sum_le_sum fun l _ => mul_le_mul_right (hoff l) _)
  refine le_trans (mul_le_mul_right (sum_le_sum_of_subset (erase_subset i univ)) _) (le_of_eq ?_)
  rw [mul_sum]
  -- both sides are `q` times the same sum
  have hG : ∀ l, Measurable fun x' => ENNReal.ofReal (Real.exp (Γ (Fin.last n) (lastA h.2 l) x')) := fun l =>
    ENNReal.measurable_ofReal.comp (Real.measurable_exp.comp
      ((hd.meas (Fin.last n)).comp (by fun_prop : Measurable fun x' : X => ((lastA h.2 : PA X N) l, x'))))
  have key : ∑ l, ENNReal.ofReal (S.init.wLast h l) * S.init.bs (initA Γ) h l
        (fun r => S.G (Fin.last n) (lastA r.1) (fun x' => f (snocA r.1 x'))) =
      ∑ l, ENNReal.ofReal (S.init.wLast h l) * S.G (Fin.last n) (lastA h.2 l) Ψ := by
    have e1 : ∀ l, S.init.bs (initA Γ) h l (fun r => S.G (Fin.last n) (lastA r.1) (fun x' => f (snocA r.1 x'))) =
        ∫⁻ x', ENNReal.ofReal (Real.exp (Γ (Fin.last n) (lastA h.2 l) x')) *
          S.init.bs (initA Γ) h l (fun r => f (snocA r.1 x')) ∂lam := fun l => by
      refine (S.init.bs_last (initA Γ) h l fun y r => S.G (Fin.last n) y (fun x' => f (snocA r.1 x'))).trans ?_
      have hK := hS.init.bs_ker (Γ := initA Γ) fun t => hd.meas t.castSucc
      have e2 : (fun r : (Fin (n + 1) → X) × (Fin (n + 1) → Fin (N + 1)) => S.G (Fin.last n) (lastA h.2 l) (fun x' => f (snocA r.1 x'))) =
          fun r => ∫⁻ x', ENNReal.ofReal (Real.exp (Γ (Fin.last n) (lastA h.2 l) x')) * f (snocA r.1 x') ∂lam :=
        funext fun r => hd.eq (Fin.last n) _ _ (by fun_prop)
      rw [e2]
      refine (hK.lintegral_swap (h, l) lam (f := fun r x' => ENNReal.ofReal (Real.exp (Γ (Fin.last n) (lastA h.2 l) x')) *
        f (snocA r.1 x')) (((hG l).comp measurable_snd).mul (by fun_prop))).trans ?_
      exact lintegral_congr fun x' => hK.const_mul (h, l) _ (by fun_prop)
    have e3 : ∀ l, S.G (Fin.last n) (lastA h.2 l) Ψ = ∫⁻ x', ENNReal.ofReal (Real.exp (Γ (Fin.last n) (lastA h.2 l) x')) * Ψ x' ∂lam :=
      fun l => hd.eq _ _ _ hΨ
    simp only [e1, e3]
    have e4 : ∀ (g : Fin (N + 1) → X → ℝ≥0∞), (∀ l, Measurable (g l)) →
        ∑ l, ENNReal.ofReal (S.init.wLast h l) * ∫⁻ x', ENNReal.ofReal (Real.exp (Γ (Fin.last n) (lastA h.2 l) x')) * g l x' ∂lam =
        ∫⁻ x', ∑ l, ENNReal.ofReal (S.init.wLast h l) * (ENNReal.ofReal (Real.exp (Γ (Fin.last n) (lastA h.2 l) x')) * g l x') ∂lam :=
      fun g hg => by
        refine Eq.trans ?_ (lintegral_finsetSum univ fun l _ => ((hG l).mul (hg l)).const_mul (ENNReal.ofReal (S.init.wLast h l))).symm
        exact sum_congr rfl fun l _ => (lintegral_const_mul _ ((hG l).mul (hg l))).symm
    rw [e4 _ hbm, e4 _ fun _ => hΨ]
    refine lintegral_congr fun x' => ?_
    have e5 := normalizeW_add (S.init.lwLast h) (fun l => Γ (Fin.last n) (lastA h.2 l) x')
    simp only [← mul_assoc]
    rw [← sum_mul, mul_sum]
    refine sum_congr rfl fun l _ => ?_
    rw [← mul_assoc]
    exact congrArg (· * _) (e5 l).symm
  rw [← mul_sum, key, mul_sum]
  exact sum_congr rfl fun l _ => by ring

/-- Factor lost at one time step. -/
noncomputable def minorStep (N : ℕ) (q : ℝ≥0∞) (c B : ℝ) : ℝ≥0∞ :=
  q * ENNReal.ofReal (Real.exp (-c)) * ENNReal.ofReal (Real.exp (-B) / (N + 1))

theorem Sys.OK.sel_ker {S : Sys X N n} (hS : S.OK) {Γ : Fin n → X → X → ℝ} (hΓ : ∀ t, Measurable fun p : X × X => Γ t p.1 p.2)
    (backward : Bool) : IsKer (fun p : Hist X N n × Fin (N + 1) => S.sel Γ backward p.1 p.2) := by
  cases backward with
  | true => exact (hS.bs_ker hΓ).bind (F := fun _ r => pure r.1) (IsKer.pure (by fun_prop))
  | false => exact IsKer.pure (g := fun p : Hist X N n × Fin (N + 1) => p.1.tracex p.2) (by fun_prop)

theorem Sys.OK.measurable_selSum {S : Sys X N n} (hS : S.OK) {Γ : Fin n → X → X → ℝ} (hΓ : ∀ t, Measurable fun p : X × X => Γ t p.1 p.2)
    (backward : Bool) (s : Finset (Fin (N + 1))) {f : (Fin (n + 1) → X) → ℝ≥0∞} (hf : Measurable f) :
    Measurable fun h => ∑ k ∈ s, ENNReal.ofReal (Real.exp (S.lwLast h k)) * S.sel Γ backward h k f := by
  refine Finset.measurable_fun_sum _ fun k _ => Measurable.mul ?_ ?_
  · exact ENNReal.measurable_ofReal.comp (Real.measurable_exp.comp ((measurable_pi_apply k).comp hS.measurable_lwLast))
  · exact ((hS.sel_ker hΓ backward).comp (g := fun h : Hist X N n => (h, k)) (by fun_prop)).measurable' hf

/-- Lower bound on the weights of the trajectories that avoid the reference. -/
theorem Sys.OK.fwd_ge {n : ℕ} {S : Sys X N n} (hS : S.OK) {c B : Fin (n + 1) → ℝ} (hB : S.Bounded c B) {lam : Measure X}
    [SFinite lam] {Γ : Fin n → X → X → ℝ} (hd : S.Density lam Γ) {q : ℝ≥0∞} (backward : Bool)
    (hoff : ∀ t w, IsProb w → (∀ i, 0 < w i) → ∀ i j l, (backward = false → l ≠ i) →
      q * ENNReal.ofReal (w l) ≤ offspring (S.R t) w i j l)
    (b : Fin (n + 1) → Fin (N + 1)) (x : Fin (n + 1) → X) {f : (Fin (n + 1) → X) → ℝ≥0∞} (hf : Measurable f) :
    N * ENNReal.ofReal (Real.exp (-c (Fin.last n))) * (∏ t : Fin n, minorStep N q (c t.castSucc) (B t.castSucc)) * S.path f ≤
      S.fwd b x fun h => ∑ k ∈ univ.erase (lastA b), ENNReal.ofReal (Real.exp (S.lwLast h k)) * S.sel Γ backward h k f := by
  induction n with
  | zero =>
    have e : ∀ x0 k, S.sel Γ backward (Fin.elim0, fun _ => x0) k f = f fun _ => x0 k := fun x0 k => by
      cases backward <;> rfl
    show _ ≤ S.Q0 (b 0) (x 0) fun x0 => ∑ k ∈ univ.erase (b 0), ENNReal.ofReal (Real.exp (S.LW0 x0 k)) *
      S.sel Γ backward (Fin.elim0, fun _ => x0) k f
    simp only [e]
    have h1 := hS.Q0_ker.sum (b 0, x 0) (univ.erase (b 0)) (f := fun k x0 => ENNReal.ofReal (Real.exp (S.LW0 x0 k)) * f fun _ => x0 k)
      fun k _ => Measurable.mul (ENNReal.measurable_ofReal.comp (Real.measurable_exp.comp ((measurable_pi_apply k).comp hS.LW0_meas)))
        (by fun_prop)
    refine le_of_eq (Eq.trans ?_ h1.symm)
    have h2 : ∀ k ∈ univ.erase (b 0), S.Q0 (b 0) (x 0) (fun x0 => ENNReal.ofReal (Real.exp (S.LW0 x0 k)) * f fun _ => x0 k) =
        ENNReal.ofReal (Real.exp (-c 0)) * S.G0 fun x => f fun _ => x := fun k hk =>
      hB.q0 (b 0) (x 0) k (ne_of_mem_erase hk) (fun x => f fun _ => x) (by fun_prop)
    rw [sum_congr rfl h2, sum_const, card_erase_of_mem (mem_univ _), card_univ, Fintype.card_fin]
    simp only [univ_eq_empty, prod_empty, mul_one, Nat.add_sub_cancel, nsmul_eq_mul, mul_assoc]
    rfl
  | succ n ih =>
    have hw : ∀ h, IsProb (S.init.wLast h) := fun h => normalize_isProb _
    have hp : ∀ h i, 0 < S.init.wLast h i := fun h i => normalize_pos _ i
    let g : (Fin (n + 1) → X) → ℝ≥0∞ := fun y => S.G (Fin.last n) (lastA y) fun x' => f (snocA y x')
    have hg : Measurable g := ((hS.G_ker (Fin.last n)).comp (g := fun y : Fin (n + 1) → X => lastA y) (by fun_prop)).measurable
      (f := fun y x' => f (snocA y x')) (by fun_prop)
    let Φ : Hist X N (n + 1) → ℝ≥0∞ := fun h => ∑ k ∈ univ.erase (lastA b), ENNReal.ofReal (Real.exp (S.lwLast h k)) * S.sel Γ backward h k f
    have hΦ : Measurable Φ := hS.measurable_selSum hd.meas backward _ hf
    have hstep : ∀ h, q * ENNReal.ofReal (Real.exp (-c (Fin.last (n + 1)))) * ∑ l ∈ univ.erase (b (Fin.last n).castSucc),
        ENNReal.ofReal (S.init.wLast h l) * S.init.sel (initA Γ) backward h l g ≤
        S.R (Fin.last n) (S.init.wLast h) (b (Fin.last n).castSucc) (b (Fin.last (n + 1))) fun a =>
          S.Q (Fin.last n) (take (lastA h.2) a) (b (Fin.last (n + 1))) (x (Fin.last (n + 1))) fun Xs => Φ (h.snoc a Xs) := fun h => by
      have eΦ : ∀ a Xs, Φ (h.snoc a Xs) = ∑ k ∈ univ.erase (lastA b),
          ENNReal.ofReal (Real.exp (S.LW (Fin.last n) (take (lastA h.2) a) Xs k)) * S.sel Γ backward (h.snoc a Xs) k f := fun a Xs => by
        simp only [Φ, S.lwLast_snoc]
      simp only [eΦ]
      cases backward with
      | true => exact hS.step_bs hB hd (x (Fin.last (n + 1))) h (fun l => hoff _ _ (hw h) (hp h) _ _ l (by simp)) hf
      | false =>
        have h1 := hS.step_scan hB (i := b (Fin.last n).castSucc) (j := lastA b) (x (Fin.last (n + 1))) h
          (fun l hl => hoff _ _ (hw h) (hp h) _ _ l fun _ => hl) hf
        have e : ∀ a Xs k, S.sel Γ false (h.snoc a Xs) k f = f (snocA (h.tracex (a k)) (Xs k)) := fun a Xs k => by
          show f ((h.snoc a Xs).tracex k) = _
          rw [Hist.tracex_snoc]
        simp only [e]
        exact h1
    have hlow : ∀ h, minorStep N q (c (Fin.last (n + 1))) (B (Fin.last n).castSucc) *
        (∑ l ∈ univ.erase (b (Fin.last n).castSucc), ENNReal.ofReal (Real.exp (S.init.lwLast h l)) * S.init.sel (initA Γ) backward h l g) ≤
        S.R (Fin.last n) (S.init.wLast h) (b (Fin.last n).castSucc) (b (Fin.last (n + 1))) fun a =>
          S.Q (Fin.last n) (take (lastA h.2) a) (b (Fin.last (n + 1))) (x (Fin.last (n + 1))) fun Xs => Φ (h.snoc a Xs) := fun h => by
      refine le_trans ?_ (hstep h)
      unfold minorStep
      rw [mul_assoc]
      gcongr
      rw [mul_sum]
      refine sum_le_sum fun l _ => ?_
      rw [← mul_assoc]
      gcongr
      exact normalizeW_ge (fun i => hB.init.lwLast_le h i) l
    have hm1 : Measurable fun h => ∑ l ∈ univ.erase (b (Fin.last n).castSucc), ENNReal.ofReal (Real.exp (S.init.lwLast h l)) *
        S.init.sel (initA Γ) backward h l g := hS.init.measurable_selSum (fun t => hd.meas t.castSucc) backward _ hg
    have hm2 : Measurable fun h => S.R (Fin.last n) (S.init.wLast h) (b (Fin.last n).castSucc) (b (Fin.last (n + 1))) fun a =>
          S.Q (Fin.last n) (take (lastA h.2) a) (b (Fin.last (n + 1))) (x (Fin.last (n + 1))) fun Xs => Φ (h.snoc a Xs) := by
      have hk := hS.step_ker (Fin.last n) (β := Hist X N n) (w := fun h => S.init.wLast h) (y := fun h => lastA h.2)
        (i := fun _ => b (Fin.last n).castSucc) (j := fun _ => b (Fin.last (n + 1))) (x := fun _ => x (Fin.last (n + 1)))
        hS.init.measurable_wLast (by fun_prop) (by fun_prop) (by fun_prop) (by fun_prop)
      exact hk.measurable (f := fun h r => Φ (h.snoc r.1 r.2)) (hΦ.comp (by fun_prop))
    have h3 := (hS.init.fwd_ker).mono (initA b, initA x) (hm1.const_mul _) hm2 hlow
    refine le_trans ?_ h3
    rw [(hS.init.fwd_ker).const_mul (initA b, initA x) _ hm1]
    have h4 := ih hS.init hB.init (Γ := initA Γ) hd.init (fun t => hoff t.castSucc) (initA b) (initA x) hg
    refine le_trans (le_of_eq ?_) (mul_le_mul_right h4 _)
    rw [Fin.prod_univ_castSucc]
    have e : S.path f = S.init.path g := rfl
    rw [e]
    simp only [minorStep]
    have e1 : initA c (Fin.last n) = c (Fin.last n).castSucc := rfl
    have e2 : (∏ t : Fin n, q * ENNReal.ofReal (Real.exp (-initA c t.castSucc)) * ENNReal.ofReal (Real.exp (-initA B t.castSucc) / (N + 1))) =
      ∏ t : Fin n, q * ENNReal.ofReal (Real.exp (-c t.castSucc.castSucc)) * ENNReal.ofReal (Real.exp (-B t.castSucc.castSucc) / (N + 1)) := rfl
    rw [e1, e2]
    ring

/-- **Lower bound** on the kernel of an abstract conditional particle system. -/
theorem Sys.OK.kernel_ge {S : Sys X N n} (hS : S.OK) {c B : Fin (n + 1) → ℝ} (hB : S.Bounded c B) {lam : Measure X}
    [SFinite lam] {Γ : Fin n → X → X → ℝ} (hd : S.Density lam Γ) {q a : ℝ≥0∞} (backward : Bool)
    (hoff : ∀ t w, IsProb w → (∀ i, 0 < w i) → ∀ i j l, (backward = false → l ≠ i) →
      q * ENNReal.ofReal (w l) ≤ offspring (S.R t) w i j l)
    {move : (Fin (N + 1) → ℝ) → Fin (N + 1) → Ex (Fin (N + 1))} (hm : MoveKer move)
    (hmove : ∀ w, IsProb w → (∀ i, 0 < w i) → ∀ k f, a * ∑ l ∈ univ.erase k, ENNReal.ofReal (w l) * f l ≤ move w k f)
    (x : Fin (n + 1) → X) (b : Fin (n + 1) → Fin (N + 1)) {f : (Fin (n + 1) → X) → ℝ≥0∞} (hf : Measurable f) :
    a * N * q ^ n * (∏ t : Fin (n + 1), ENNReal.ofReal (Real.exp (-c t)) * ENNReal.ofReal (Real.exp (-B t) / (N + 1))) * S.path f ≤
      S.kernel Γ move backward x b fun r => f r.1 := by
  have h1 := hS.fwd_ge hB hd backward hoff b x hf
  have hm1 := hS.measurable_selSum hd.meas backward (univ.erase (lastA b)) hf
  have e : (S.kernel Γ move backward x b fun r => f r.1) =
      S.fwd b x fun h => move (S.wLast h) (lastA b) fun k => S.sel Γ backward h k f := by
    cases backward <;> rfl
  rw [e]
  have hm2 : Measurable fun h => move (S.wLast h) (lastA b) fun k => S.sel Γ backward h k f := by
    refine (hm.comp (g := fun h : Hist X N n => (S.wLast h, lastA b)) (hS.measurable_wLast.prodMk measurable_const)).measurable
      (f := fun h k => S.sel Γ backward h k f) ?_
    exact (hS.sel_ker hd.meas backward).measurable' hf
  refine le_trans ?_ ((hS.fwd_ker).mono (b, x) (hm1.const_mul (a * ENNReal.ofReal (Real.exp (-B (Fin.last n)) / (N + 1)))) hm2 fun h => ?_)
  · rw [(hS.fwd_ker).const_mul (b, x) _ hm1]
    refine le_trans (le_of_eq ?_) (mul_le_mul_right h1 _)
    rw [Fin.prod_univ_castSucc]
    have e2 : (∏ t : Fin n, minorStep N q (c t.castSucc) (B t.castSucc)) = q ^ n *
        ∏ t : Fin n, ENNReal.ofReal (Real.exp (-c t.castSucc)) * ENNReal.ofReal (Real.exp (-B t.castSucc) / (N + 1)) := by
      simp only [minorStep, mul_assoc, prod_mul_distrib, prod_const, card_univ, Fintype.card_fin]
    rw [e2]
    ring
  · refine le_trans ?_ (hmove _ (normalize_isProb _) (normalize_pos _) (lastA b) _)
    rw [mul_assoc]
    gcongr
    rw [mul_sum]
    refine sum_le_sum fun l _ => ?_
    rw [← mul_assoc]
    gcongr
    exact normalizeW_ge (fun i => hB.lwLast_le h i) l

end Verif
