import Verif.Lemmas.Minorize
import Verif.Spec.ManyParticles

/-!
# Conditional particle systems with many particles

The trajectories that avoid the reference are followed as in `Minorize`, but the normalising constants of the weights are
not replaced by their upper bounds: the linear inequality `2 / c ≤ 1 / y + y / c ^ 2` reduces the claim to a first and a second
moment of the estimated normalising constant, computed by induction over time.
-/

open scoped ENNReal
open MeasureTheory ProbabilityTheory Finset

namespace Verif
open Verif.Spec Verif.Model

variable {X : Type} {N n : ℕ}

/-- The particles other than the reference are independent draws that the weights turn into draws from the target; the
weights are bounded. -/
structure Sys.Indep [MeasurableSpace X] (S : Sys X N n) (c B : Fin (n + 1) → ℝ) : Prop where
  one0 : ∀ b x k, k ≠ b → ∀ f, Measurable f →
    S.Q0 b x (fun Xs => ENNReal.ofReal (Real.exp (c 0 + S.LW0 Xs k)) * f (Xs k)) = S.G0 f
  two0 : ∀ b x k m, k ≠ b → m ≠ b → m ≠ k → ∀ f g, Measurable f → Measurable g →
    S.Q0 b x (fun Xs => ENNReal.ofReal (Real.exp (c 0 + S.LW0 Xs k)) * f (Xs k) *
      (ENNReal.ofReal (Real.exp (c 0 + S.LW0 Xs m)) * g (Xs m))) = S.G0 f * S.G0 g
  one : ∀ t Y b x k, k ≠ b → ∀ f, Measurable f →
    S.Q t Y b x (fun Xs => ENNReal.ofReal (Real.exp (c t.succ + S.LW t Y Xs k)) * f (Xs k)) = S.G t (Y k) f
  two : ∀ t Y b x k m, k ≠ b → m ≠ b → m ≠ k → ∀ f g, Measurable f → Measurable g →
    S.Q t Y b x (fun Xs => ENNReal.ofReal (Real.exp (c t.succ + S.LW t Y Xs k)) * f (Xs k) *
      (ENNReal.ofReal (Real.exp (c t.succ + S.LW t Y Xs m)) * g (Xs m))) = S.G t (Y k) f * S.G t (Y m) g
  le0 : ∀ Xs i, c 0 + S.LW0 Xs i ≤ B 0
  le : ∀ t Y Xs i, c t.succ + S.LW t Y Xs i ≤ B t.succ

theorem Sys.Indep.init [MeasurableSpace X] {S : Sys X N (n + 1)} {c B : Fin (n + 2) → ℝ} (h : S.Indep c B) :
    S.init.Indep (initA c) (initA B) where
  one0 := h.one0
  two0 := h.two0
  one t := h.one t.castSucc
  two t := h.two t.castSucc
  le0 := h.le0
  le t := h.le t.castSucc

/-- Weights of the last time step, times a constant. -/
noncomputable def Sys.vLast (S : Sys X N n) (c : Fin (n + 1) → ℝ) (h : Hist X N n) (k : Fin (N + 1)) : ℝ≥0∞ :=
  ENNReal.ofReal (Real.exp (c (Fin.last n) + S.lwLast h k))

/-- Mean of the weights of the last time step. -/
noncomputable def Sys.mass (S : Sys X N n) (c : Fin (n + 1) → ℝ) (h : Hist X N n) : ℝ≥0∞ :=
  ((N : ℝ≥0∞) + 1)⁻¹ * ∑ k, S.vLast c h k

/-- Product of the means of the weights before the last time step. -/
noncomputable def Sys.past : {n : ℕ} → Sys X N n → (Fin (n + 1) → ℝ) → Hist X N n → ℝ≥0∞
  | 0, _, _, _ => 1
  | _ + 1, S, c, h => S.init.past (initA c) h.init * S.init.mass (initA c) h.init

/-- Probability that particle `l` is the selected parent of a particle with value `x'` and ancestor `l0`. -/
noncomputable def Sys.link (S : Sys X N n) (γ : X → X → ℝ) (backward : Bool) (h : Hist X N n) (l0 : Fin (N + 1)) (x' : X)
    (l : Fin (N + 1)) : ℝ≥0∞ :=
  if backward then ENNReal.ofReal (normalizeW (fun i => S.lwLast h i + γ (lastA h.2 i) x') l) else if l0 = l then 1 else 0

/-- Selection of a trajectory from particle `k`, given up when it meets the reference before the last time step. -/
noncomputable def Sys.av : {n : ℕ} → Sys X N n → (Fin n → X → X → ℝ) → Bool → (Fin (n + 1) → Fin (N + 1)) → Hist X N n →
    Fin (N + 1) → Ex (Fin (n + 1) → X)
  | 0, _, _, _, _, h, k => fun f => f fun _ => h.2 0 k
  | n + 1, S, Γ, bw, b, h, k => fun f => ∑ l, (if l = b (Fin.last n).castSucc then 0 else
      S.init.link (Γ (Fin.last n)) bw h.init (lastA h.1 k) (lastA h.2 k) l) *
        S.init.av (initA Γ) bw (initA b) h.init l fun y => f (snocA y (lastA h.2 k))

/-- The same, one step later, as a function of ancestor and value. -/
noncomputable def Sys.avStep (S : Sys X N (n + 1)) (Γ : Fin (n + 1) → X → X → ℝ) (bw : Bool) (b : Fin (n + 2) → Fin (N + 1))
    (h : Hist X N n) (f : (Fin (n + 2) → X) → ℝ≥0∞) (l0 : Fin (N + 1)) (x' : X) : ℝ≥0∞ :=
  ∑ l, (if l = b (Fin.last n).castSucc then 0 else S.init.link (Γ (Fin.last n)) bw h l0 x' l) *
    S.init.av (initA Γ) bw (initA b) h l fun y => f (snocA y x')

theorem Sys.av_snoc (S : Sys X N (n + 1)) (Γ : Fin (n + 1) → X → X → ℝ) (bw : Bool) (b : Fin (n + 2) → Fin (N + 1))
    (h : Hist X N n) (a : Anc N) (Xs : PA X N) (k : Fin (N + 1)) (f : (Fin (n + 2) → X) → ℝ≥0∞) :
    S.av Γ bw b (h.snoc a Xs) k f = S.avStep Γ bw b h f (a k) (Xs k) := by
  have e1 : lastA (h.snoc a Xs).2 = Xs := by simp [Hist.snoc]
  have e2 : lastA (h.snoc a Xs).1 = a := by simp [Hist.snoc]
  simp only [Sys.av, Sys.avStep, Hist.init_snoc, e1, e2]

theorem Sys.past_snoc (S : Sys X N (n + 1)) (c : Fin (n + 2) → ℝ) (h : Hist X N n) (a : Anc N) (Xs : PA X N) :
    S.past c (h.snoc a Xs) = S.init.past (initA c) h * S.init.mass (initA c) h := by
  simp only [Sys.past, Hist.init_snoc]

theorem Sys.vLast_snoc (S : Sys X N (n + 1)) (c : Fin (n + 2) → ℝ) (h : Hist X N n) (a : Anc N) (Xs : PA X N) (k : Fin (N + 1)) :
    S.vLast c (h.snoc a Xs) k =
      ENNReal.ofReal (Real.exp (c (Fin.last n).succ + S.LW (Fin.last n) (take (lastA h.2) a) Xs k)) := by
  rw [Sys.vLast, S.lwLast_snoc, Fin.succ_last]

/-- The weights divided by their mean. -/
theorem Sys.mass_mul (S : Sys X N n) (c : Fin (n + 1) → ℝ) (h : Hist X N n) (k : Fin (N + 1)) :
    S.mass c h * ENNReal.ofReal (S.wLast h k) = ((N : ℝ≥0∞) + 1)⁻¹ * S.vLast c h k := by
  rw [Sys.mass, mul_assoc]
  congr 1
  have hpos : 0 < ∑ i, Real.exp (S.lwLast h i) := Finset.sum_pos (fun i _ => Real.exp_pos _) Finset.univ_nonempty
  simp only [Sys.vLast, Sys.wLast, normalize_eq]
  rw [← ENNReal.ofReal_sum_of_nonneg fun i _ => (Real.exp_pos _).le, ← ENNReal.ofReal_mul (sum_nonneg fun i _ => (Real.exp_pos _).le)]
  congr 1
  simp only [Real.exp_add, ← mul_sum]
  field_simp

theorem Sys.mass_pos (S : Sys X N n) (c : Fin (n + 1) → ℝ) (h : Hist X N n) : S.mass c h ≠ 0 := by
  refine mul_ne_zero (ENNReal.inv_ne_zero.mpr (by finiteness)) ?_
  have : S.vLast c h 0 ≤ ∑ k, S.vLast c h k := single_le_sum (f := fun k => S.vLast c h k) (fun _ _ => zero_le) (mem_univ _)
  exact ((ENNReal.ofReal_pos.mpr (Real.exp_pos _)).trans_le this).ne'

theorem Sys.mass_ne_top (S : Sys X N n) (c : Fin (n + 1) → ℝ) (h : Hist X N n) : S.mass c h ≠ ∞ :=
  ENNReal.mul_ne_top (ENNReal.inv_ne_top.mpr (by positivity)) (ENNReal.sum_ne_top.mpr fun _ _ => ENNReal.ofReal_ne_top)

theorem Sys.past_pos {n : ℕ} (S : Sys X N n) (c : Fin (n + 1) → ℝ) (h : Hist X N n) : S.past c h ≠ 0 := by
  induction n with
  | zero => exact one_ne_zero
  | succ n ih => exact mul_ne_zero (ih _ _ _) (S.init.mass_pos _ _)

theorem Sys.past_ne_top {n : ℕ} (S : Sys X N n) (c : Fin (n + 1) → ℝ) (h : Hist X N n) : S.past c h ≠ ∞ := by
  induction n with
  | zero => exact ENNReal.one_ne_top
  | succ n ih => exact ENNReal.mul_ne_top (ih _ _ _) (S.init.mass_ne_top _ _)

section meas
variable [MeasurableSpace X]

theorem Sys.Indep.vLast_le {n : ℕ} {S : Sys X N n} {c B : Fin (n + 1) → ℝ} (hF : S.Indep c B) (h : Hist X N n) (k : Fin (N + 1)) :
    S.vLast c h k ≤ ENNReal.ofReal (Real.exp (B (Fin.last n))) := by
  refine ENNReal.ofReal_le_ofReal (Real.exp_le_exp.mpr ?_)
  cases n with
  | zero => exact hF.le0 _ _
  | succ n => exact hF.le (Fin.last n) _ _ _

theorem Sys.Indep.mass_le {S : Sys X N n} {c B : Fin (n + 1) → ℝ} (hF : S.Indep c B) (h : Hist X N n) :
    S.mass c h ≤ ENNReal.ofReal (Real.exp (B (Fin.last n))) := by
  rw [Sys.mass, ENNReal.inv_mul_le_iff (by positivity) (by finiteness)]
  refine (sum_le_sum fun k _ => hF.vLast_le h k).trans ?_
  simp

theorem Sys.Indep.past_le {n : ℕ} {S : Sys X N n} {c B : Fin (n + 1) → ℝ} (hF : S.Indep c B) (h : Hist X N n) :
    S.past c h * S.mass c h ≤ ∏ t, ENNReal.ofReal (Real.exp (B t)) := by
  induction n with
  | zero => simpa [Sys.past] using hF.mass_le h
  | succ n ih =>
    rw [Fin.prod_univ_castSucc]
    exact mul_le_mul' (ih hF.init h.init) (hF.mass_le h)

theorem Sys.OK.measurable_vLast {S : Sys X N n} (hS : S.OK) (c : Fin (n + 1) → ℝ) (k : Fin (N + 1)) :
    Measurable fun h => S.vLast c h k :=
  ENNReal.measurable_ofReal.comp (Real.measurable_exp.comp (measurable_const.add ((measurable_pi_apply k).comp hS.measurable_lwLast)))

theorem Sys.OK.measurable_mass {S : Sys X N n} (hS : S.OK) (c : Fin (n + 1) → ℝ) : Measurable fun h => S.mass c h :=
  (Finset.measurable_fun_sum _ fun k _ => hS.measurable_vLast c k).const_mul _

theorem Sys.OK.measurable_past {n : ℕ} {S : Sys X N n} (hS : S.OK) (c : Fin (n + 1) → ℝ) : Measurable fun h => S.past c h := by
  induction n with
  | zero => exact measurable_const
  | succ n ih =>
    exact ((ih hS.init (initA c)).comp (by fun_prop : Measurable fun h : Hist X N (n + 1) => h.init)).mul
      ((hS.init.measurable_mass (initA c)).comp (by fun_prop : Measurable fun h : Hist X N (n + 1) => h.init))

/-- Finite mixtures with finite weights. -/
theorem weighted_ker {β : Type} [MeasurableSpace β] {k : ℕ} {p : β → Fin k → ℝ≥0∞} (hp : ∀ l, Measurable fun b => p b l)
    (hfin : ∀ b l, p b l ≠ ∞) : IsKer (fun b => ((fun f => ∑ l, p b l * f l : Ex (Fin k)))) := by
  have hm : Measurable (Function.uncurry fun (b : β) (i : Fin k) => p b i) := measurable_from_prod_countable_left fun i => hp i
  refine ⟨(Kernel.const β Measure.count).withDensity fun b i => p b i,
    Kernel.IsSFiniteKernel.withDensity _ fun b i => hfin b i, fun b f hf => ?_⟩
  rw [Kernel.lintegral_withDensity _ hm b hf, Kernel.const_apply, lintegral_fintype]
  refine sum_congr rfl fun i _ => ?_
  simp

omit [MeasurableSpace X] in
theorem Sys.link_ne_top (S : Sys X N n) (γ : X → X → ℝ) (bw : Bool) (h : Hist X N n) (l0 : Fin (N + 1)) (x' : X)
    (l : Fin (N + 1)) : S.link γ bw h l0 x' l ≠ ∞ := by
  unfold Sys.link
  split_ifs <;> finiteness

theorem Sys.OK.measurable_link {S : Sys X N n} (hS : S.OK) {γ : X → X → ℝ} (hγ : Measurable fun p : X × X => γ p.1 p.2) (bw : Bool)
    {β : Type} [MeasurableSpace β] {h : β → Hist X N n} {l0 : β → Fin (N + 1)} {x : β → X} (hh : Measurable h) (hl : Measurable l0)
    (hx : Measurable x) (l : Fin (N + 1)) : Measurable fun p => S.link γ bw (h p) (l0 p) (x p) l := by
  cases bw with
  | true =>
    have h1 : Measurable fun p => normalizeW (fun i => S.lwLast (h p) i + γ (lastA (h p).2 i) (x p)) := by
      refine measurable_normalizeW (measurable_pi_lambda _ fun i => Measurable.add ?_ ?_)
      · exact (measurable_pi_apply i).comp (hS.measurable_lwLast.comp hh)
      · exact hγ.comp (Measurable.prodMk (by fun_prop) hx)
    exact ENNReal.measurable_ofReal.comp ((measurable_pi_apply l).comp h1)
  | false =>
    show Measurable fun p => if l0 p = l then (1 : ℝ≥0∞) else 0
    exact Measurable.ite (hl (measurableSet_singleton l)) measurable_const measurable_const

theorem Sys.OK.av_ker {n : ℕ} {S : Sys X N n} (hS : S.OK) {Γ : Fin n → X → X → ℝ} (hΓ : ∀ t, Measurable fun p : X × X => Γ t p.1 p.2)
    (bw : Bool) (b : Fin (n + 1) → Fin (N + 1)) : IsKer (fun p : Hist X N n × Fin (N + 1) => S.av Γ bw b p.1 p.2) := by
  induction n with
  | zero =>
    refine IsKer.pure (g := fun p : Hist X N 0 × Fin (N + 1) => fun _ : Fin 1 => p.1.2 0 p.2) ?_
    refine measurable_pi_lambda _ fun _ => ?_
    exact measurable_index (a := fun p : Hist X N 0 × Fin (N + 1) => p.1.2 0) (by fun_prop) (by fun_prop)
  | succ n ih =>
    have hx : Measurable fun p : Hist X N (n + 1) × Fin (N + 1) => lastA p.1.2 p.2 :=
      measurable_index (a := fun p : Hist X N (n + 1) × Fin (N + 1) => lastA p.1.2) (by fun_prop) (by fun_prop)
    have ha : Measurable fun p : Hist X N (n + 1) × Fin (N + 1) => lastA p.1.1 p.2 :=
      measurable_index (a := fun p : Hist X N (n + 1) × Fin (N + 1) => lastA p.1.1) (by fun_prop) (by fun_prop)
    have hk := weighted_ker (β := Hist X N (n + 1) × Fin (N + 1)) (p := fun p l => if l = b (Fin.last n).castSucc then 0 else
        S.init.link (Γ (Fin.last n)) bw p.1.init (lastA p.1.1 p.2) (lastA p.1.2 p.2) l)
      (fun l => by
        by_cases hl : l = b (Fin.last n).castSucc
        · simp only [hl, if_true]; exact measurable_const
        · simp only [hl, if_false]; exact hS.init.measurable_link (hΓ _) bw (by fun_prop) ha hx l)
      (fun p l => by
        split_ifs
        · finiteness
        · exact Sys.link_ne_top _ _ _ _ _ _ _)
    refine hk.bind (F := fun p l => S.init.av (initA Γ) bw (initA b) p.1.init l >>= fun y => pure (snocA y ((lastA p.1.2 : PA X N) p.2))) ?_
    refine ((ih hS.init (Γ := initA Γ) (fun t => hΓ t.castSucc) (initA b)).comp
      (g := fun p : (Hist X N (n + 1) × Fin (N + 1)) × Fin (N + 1) => (p.1.1.init, p.2)) (by fun_prop)).bind
        (F := fun p y => pure (snocA y ((lastA p.1.1.2 : PA X N) p.1.2))) (IsKer.pure ?_)
    refine measurable_snocA (by fun_prop) ?_
    exact hx.comp (by fun_prop : Measurable fun q : ((Hist X N (n + 1) × Fin (N + 1)) × Fin (N + 1)) × (Fin (n + 1) → X) => q.1.1)

end meas

/-- Trajectories that avoid the reference are among those selected. -/
theorem Sys.av_le {n : ℕ} (S : Sys X N n) (Γ : Fin n → X → X → ℝ) (bw : Bool) (b : Fin (n + 1) → Fin (N + 1)) (h : Hist X N n)
    (k : Fin (N + 1)) (f : (Fin (n + 1) → X) → ℝ≥0∞) : S.av Γ bw b h k f ≤ S.sel Γ bw h k f := by
  induction n generalizing k with
  | zero =>
    cases bw with
    | true => exact le_refl (f _)
    | false => exact le_of_eq (congrArg f (funext fun t => by rw [Fin.fin_one_eq_zero t]; rfl))
  | succ n ih =>
    cases bw with
    | true =>
      show _ ≤ ∑ l, catP (normalizeW fun i => S.init.lwLast h.init i + Γ (Fin.last n) (lastA h.init.2 i) (lastA h.2 k)) l *
        S.init.bs (initA Γ) h.init l fun r => f (snocA r.1 (lastA h.2 k))
      refine sum_le_sum fun l _ => ?_
      rw [catP_normalize]
      refine mul_le_mul' ?_ (ih S.init (initA Γ) (initA b) h.init l _)
      split_ifs
      · exact zero_le
      · exact le_rfl
    | false =>
      have e : h.tracex k = snocA (h.init.tracex (lastA h.1 k)) (lastA h.2 k) := by
        have e1 : h = h.init.snoc (lastA h.1) (lastA h.2) := by simp [Hist.snoc, Hist.init]
        conv_lhs => rw [e1, Hist.tracex_snoc]
      show _ ≤ f (h.tracex k)
      rw [e]
      have h1 := ih S.init (initA Γ) (initA b) h.init (lastA h.1 k) fun y => f (snocA y (lastA h.2 k))
      refine le_trans ?_ h1
      simp only [Sys.av]
      refine (sum_le_sum (g := fun l => if lastA h.1 k = l then S.init.av (initA Γ) false (initA b) h.init l
        fun y => f (snocA y (lastA h.2 k)) else 0) fun l _ => ?_).trans (by simp)
      simp only [Sys.link, Bool.false_eq_true, if_false]
      split_ifs <;> simp

theorem Sys.av_last {n : ℕ} (S : Sys X N n) (Γ : Fin n → X → X → ℝ) (bw : Bool) (b : Fin (n + 1) → Fin (N + 1)) (h : Hist X N n)
    (k : Fin (N + 1)) (f : X → (Fin (n + 1) → X) → ℝ≥0∞) :
    S.av Γ bw b h k (fun y => f (lastA y) y) = S.av Γ bw b h k (fun y => f (lastA h.2 k) y) := by
  cases n with
  | zero => rfl
  | succ n => simp only [Sys.av, lastA_snocA]

/-- Weights of the particles other than one. -/
theorem sum_erase_ite (j : Fin (N + 1)) (v P : Fin (N + 1) → ℝ≥0∞) :
    ∑ k, (if k = j then 0 else v k) * P k = ∑ k ∈ univ.erase j, v k * P k := by
  rw [← Finset.add_sum_erase univ _ (mem_univ j)]
  simp only [if_true, zero_mul, zero_add]
  exact sum_congr rfl fun k hk => by rw [if_neg (ne_of_mem_erase hk)]

section steps
variable [MeasurableSpace X]

theorem Sys.OK.measurable_avStep {S : Sys X N (n + 1)} (hS : S.OK) {Γ : Fin (n + 1) → X → X → ℝ}
    (hΓ : ∀ t, Measurable fun p : X × X => Γ t p.1 p.2) (bw : Bool) (b : Fin (n + 2) → Fin (N + 1)) (h : Hist X N n)
    {f : (Fin (n + 2) → X) → ℝ≥0∞} (hf : Measurable f) (l0 : Fin (N + 1)) : Measurable (S.avStep Γ bw b h f l0) := by
  refine Finset.measurable_fun_sum _ fun l _ => Measurable.mul ?_ ?_
  · by_cases hl : l = b (Fin.last n).castSucc
    · simp only [hl, if_true]; exact measurable_const
    · simp only [hl, if_false]; exact hS.init.measurable_link (hΓ _) bw measurable_const measurable_const measurable_id l
  · exact ((hS.init.av_ker (Γ := initA Γ) (fun t => hΓ t.castSucc) bw (initA b)).comp (g := fun _ : X => (h, l)) (by fun_prop)).measurable
      (f := fun x' y => f (snocA y x')) (by fun_prop)

/-- The weighted mean over parents of the trajectories of their children. -/
theorem Sys.OK.avStep_sum {S : Sys X N (n + 1)} (hS : S.OK) {lam : Measure X} [SFinite lam] {Γ : Fin (n + 1) → X → X → ℝ}
    (hd : S.Density lam Γ) (bw : Bool) (b : Fin (n + 2) → Fin (N + 1)) (h : Hist X N n) {f : (Fin (n + 2) → X) → ℝ≥0∞}
    (hf : Measurable f) :
    ∑ l, ENNReal.ofReal (S.init.wLast h l) * S.G (Fin.last n) (lastA h.2 l) (S.avStep Γ bw b h f l) =
      ∑ l, (if l = b (Fin.last n).castSucc then 0 else ENNReal.ofReal (S.init.wLast h l)) *
        S.init.av (initA Γ) bw (initA b) h l (fun y => S.G (Fin.last n) (lastA y) fun x' => f (snocA y x')) := by
  let F : Fin (N + 1) → X → ℝ≥0∞ := fun l x' => S.init.av (initA Γ) bw (initA b) h l fun y => f (snocA y x')
  have hK := hS.init.av_ker (Γ := initA Γ) (fun t => hd.meas t.castSucc) bw (initA b)
  have hF : ∀ l, Measurable (F l) := fun l =>
    (hK.comp (g := fun _ : X => (h, l)) (by fun_prop)).measurable (f := fun x' y => f (snocA y x')) (by fun_prop)
  have hG : ∀ l, Measurable fun x' => ENNReal.ofReal (Real.exp (Γ (Fin.last n) (lastA h.2 l) x')) := fun l =>
    ENNReal.measurable_ofReal.comp (Real.measurable_exp.comp
      ((hd.meas (Fin.last n)).comp (by fun_prop : Measurable fun x' : X => ((lastA h.2 : PA X N) l, x'))))
  have e1 : ∀ l, S.init.av (initA Γ) bw (initA b) h l (fun y => S.G (Fin.last n) (lastA y) fun x' => f (snocA y x')) =
      ∫⁻ x', ENNReal.ofReal (Real.exp (Γ (Fin.last n) (lastA h.2 l) x')) * F l x' ∂lam := fun l => by
    refine (S.init.av_last (initA Γ) bw (initA b) h l fun y r => S.G (Fin.last n) y fun x' => f (snocA r x')).trans ?_
    have e2 : (fun r : Fin (n + 1) → X => S.G (Fin.last n) (lastA h.2 l) fun x' => f (snocA r x')) =
        fun r => ∫⁻ x', ENNReal.ofReal (Real.exp (Γ (Fin.last n) (lastA h.2 l) x')) * f (snocA r x') ∂lam :=
      funext fun r => hd.eq (Fin.last n) _ _ (by fun_prop)
    rw [e2]
    refine (hK.lintegral_swap (h, l) lam (f := fun r x' => ENNReal.ofReal (Real.exp (Γ (Fin.last n) (lastA h.2 l) x')) *
      f (snocA r x')) (((hG l).comp measurable_snd).mul (by fun_prop))).trans ?_
    exact lintegral_congr fun x' => hK.const_mul (h, l) _ (by fun_prop)
  have e3 : ∀ l, S.G (Fin.last n) (lastA h.2 l) (S.avStep Γ bw b h f l) =
      ∫⁻ x', ENNReal.ofReal (Real.exp (Γ (Fin.last n) (lastA h.2 l) x')) * S.avStep Γ bw b h f l x' ∂lam :=
    fun l => hd.eq _ _ _ (hS.measurable_avStep hd.meas bw b h hf l)
  simp only [e1, e3]
  have e4 : ∀ (κ : Fin (N + 1) → ℝ≥0∞) (g : Fin (N + 1) → X → ℝ≥0∞), (∀ l, Measurable (g l)) →
      ∑ l, κ l * ∫⁻ x', ENNReal.ofReal (Real.exp (Γ (Fin.last n) (lastA h.2 l) x')) * g l x' ∂lam =
      ∫⁻ x', ∑ l, κ l * (ENNReal.ofReal (Real.exp (Γ (Fin.last n) (lastA h.2 l) x')) * g l x') ∂lam :=
    fun κ g hg => by
      refine Eq.trans ?_ (lintegral_finsetSum univ fun l _ => ((hG l).mul (hg l)).const_mul (κ l)).symm
      exact sum_congr rfl fun l _ => (lintegral_const_mul _ ((hG l).mul (hg l))).symm
  rw [e4 _ _ fun l => hS.measurable_avStep hd.meas bw b h hf l, e4 _ _ hF]
  refine lintegral_congr fun x' => ?_
  have e6 : ∀ l0, S.avStep Γ bw b h f l0 x' = ∑ l, (if l = b (Fin.last n).castSucc then 0 else
      S.init.link (Γ (Fin.last n)) bw h l0 x' l) * F l x' := fun _ => rfl
  simp only [e6]
  cases bw with
  | true =>
    have e5 := normalizeW_add (S.init.lwLast h) (fun l => Γ (Fin.last n) (lastA h.2 l) x')
    simp only [Sys.link, if_true, ← mul_assoc]
    rw [← sum_mul, mul_sum]
    refine sum_congr rfl fun l _ => ?_
    by_cases hl : l = b (Fin.last n).castSucc
    · simp [hl]
    · simp only [hl, if_false]
      rw [← mul_assoc]
      exact congrArg (· * _) (e5 l)
  | false =>
    simp only [Sys.link, Bool.false_eq_true, if_false]
    refine sum_congr rfl fun l0 _ => ?_
    have : ∑ l, (if l = b (Fin.last n).castSucc then (0 : ℝ≥0∞) else if l0 = l then 1 else 0) * F l x' =
        (if l0 = b (Fin.last n).castSucc then 0 else 1) * F l0 x' := by
      rw [sum_eq_single l0 (fun l _ hl => by simp [hl.symm]) (by simp)]
      simp
    rw [this]
    split_ifs <;> simp

omit [MeasurableSpace X] in
/-- Without backward sampling nothing is selected through the reference. -/
theorem Sys.avStep_ref (S : Sys X N (n + 1)) (Γ : Fin (n + 1) → X → X → ℝ) (b : Fin (n + 2) → Fin (N + 1)) (h : Hist X N n)
    (f : (Fin (n + 2) → X) → ℝ≥0∞) : S.avStep Γ false b h f (b (Fin.last n).castSucc) = fun _ => 0 := by
  funext x'
  refine sum_eq_zero fun l _ => ?_
  simp only [Sys.link, Bool.false_eq_true, if_false]
  split_ifs with h1 h2
  · simp
  · exact absurd h2.symm h1
  · simp

theorem Sys.OK.measurable_weight {S : Sys X N n} (hS : S.OK) (t : Fin n) (c : ℝ) (Y : PA X N) (k : Fin (N + 1)) :
    Measurable fun Xs => ENNReal.ofReal (Real.exp (c + S.LW t Y Xs k)) := by
  have h1 : Measurable fun Xs => S.LW t Y Xs := (hS.LW_meas t).comp (by fun_prop : Measurable fun Xs : PA X N => (Y, Xs))
  exact ENNReal.measurable_ofReal.comp (Real.measurable_exp.comp (measurable_const.add ((measurable_pi_apply k).comp h1)))

theorem Sys.OK.measurable_weight0 {S : Sys X N n} (hS : S.OK) (c : ℝ) (k : Fin (N + 1)) :
    Measurable fun Xs => ENNReal.ofReal (Real.exp (c + S.LW0 Xs k)) :=
  ENNReal.measurable_ofReal.comp (Real.measurable_exp.comp (measurable_const.add ((measurable_pi_apply k).comp hS.LW0_meas)))

/-- First moment over one step. -/
theorem Sys.OK.step_one {S : Sys X N n} (hS : S.OK) {c B : Fin (n + 1) → ℝ} (hF : S.Indep c B) (t : Fin n)
    (i j : Fin (N + 1)) (xl : X) (w : Fin (N + 1) → ℝ) (y : PA X N) {g : Fin (N + 1) → X → ℝ≥0∞} (hg : ∀ l, Measurable (g l)) :
    S.R t w i j (fun a => S.Q t (take y a) j xl fun Xs =>
        ∑ k ∈ univ.erase j, ENNReal.ofReal (Real.exp (c t.succ + S.LW t (take y a) Xs k)) * g (a k) (Xs k)) =
      ∑ l, S.G t (y l) (g l) * offspring (S.R t) w i j l := by
  have e : ∀ a : Anc N, S.Q t (take y a) j xl (fun Xs =>
        ∑ k ∈ univ.erase j, ENNReal.ofReal (Real.exp (c t.succ + S.LW t (take y a) Xs k)) * g (a k) (Xs k)) =
      ∑ k ∈ univ.erase j, S.G t (y (a k)) (g (a k)) := fun a => by
    refine ((hS.Q_ker t).sum (take y a, j, xl) _ fun k _ => (hS.measurable_weight t _ _ k).mul
      ((hg _).comp (measurable_pi_apply k))).trans (sum_congr rfl fun k hk => ?_)
    exact hF.one t (take y a) j xl k (ne_of_mem_erase hk) _ (hg _)
  simp only [e]
  exact offspring_sum (hS.R_ok _) w i j fun l => S.G t (y l) (g l)

/-- Second moment over one step. -/
theorem Sys.OK.step_two {S : Sys X N n} (hS : S.OK) {c B : Fin (n + 1) → ℝ} (hF : S.Indep c B) (t : Fin n)
    (hp : PairsSpread (S.R t)) (ho : FewOffspring (S.R t)) (i j : Fin (N + 1)) (xl : X) {w : Fin (N + 1) → ℝ} (hw : IsProb w) (y : PA X N)
    {g : Fin (N + 1) → X → ℝ≥0∞} (hg : ∀ l, Measurable (g l)) {r : X → ℝ≥0∞} (hr : Measurable r) {C : ℝ≥0∞} (hC : ∀ x, r x ≤ C) :
    S.R t w i j (fun a => S.Q t (take y a) j xl fun Xs =>
        (∑ k ∈ univ.erase j, ENNReal.ofReal (Real.exp (c t.succ + S.LW t (take y a) Xs k)) * g (a k) (Xs k)) *
        ∑ m, ENNReal.ofReal (Real.exp (c t.succ + S.LW t (take y a) Xs m)) * r (Xs m)) ≤
      (N + 1) ^ 2 * ((∑ l, ENNReal.ofReal (w l) * S.G t (y l) (g l)) * ∑ l, ENNReal.ofReal (w l) * S.G t (y l) r) +
        2 * (ENNReal.ofReal (Real.exp (B t.succ)) * C) * ((N + 1) * ∑ l, ENNReal.ofReal (w l) * S.G t (y l) (g l)) := by
  let v : Anc N → PA X N → Fin (N + 1) → ℝ≥0∞ := fun a Xs k => ENNReal.ofReal (Real.exp (c t.succ + S.LW t (take y a) Xs k))
  let M : ℝ≥0∞ := ENNReal.ofReal (Real.exp (B t.succ)) * C
  have hv : ∀ a k, Measurable fun Xs => v a Xs k := fun a k => hS.measurable_weight t _ _ k
  have hvg : ∀ a k, Measurable fun Xs => v a Xs k * g (a k) (Xs k) := fun a k => (hv a k).mul ((hg _).comp (measurable_pi_apply k))
  have hvr : ∀ a k, Measurable fun Xs => v a Xs k * r (Xs k) := fun a k => (hv a k).mul (hr.comp (measurable_pi_apply k))
  have hM : ∀ a Xs m, v a Xs m * r (Xs m) ≤ M := fun a Xs m =>
    mul_le_mul' (ENNReal.ofReal_le_ofReal (Real.exp_le_exp.mpr (hF.le t _ _ m))) (hC _)
  have hpt : ∀ a Xs, (∑ k ∈ univ.erase j, v a Xs k * g (a k) (Xs k)) * ∑ m, v a Xs m * r (Xs m) ≤
      (∑ k ∈ univ.erase j, ∑ m ∈ (univ.erase j).erase k, v a Xs k * g (a k) (Xs k) * (v a Xs m * r (Xs m))) +
        2 * M * ∑ k ∈ univ.erase j, v a Xs k * g (a k) (Xs k) := fun a Xs => by
    rw [sum_mul, mul_sum, ← sum_add_distrib]
    refine sum_le_sum fun k hk => ?_
    rw [← Finset.add_sum_erase univ _ (mem_univ j), ← Finset.add_sum_erase (univ.erase j) _ hk, ← mul_sum]
    calc v a Xs k * g (a k) (Xs k) * (v a Xs j * r (Xs j) + (v a Xs k * r (Xs k) + ∑ m ∈ (univ.erase j).erase k, v a Xs m * r (Xs m)))
        ≤ v a Xs k * g (a k) (Xs k) * (M + (M + ∑ m ∈ (univ.erase j).erase k, v a Xs m * r (Xs m))) := by
          gcongr
          · exact hM a Xs j
          · exact hM a Xs k
      _ = _ := by ring
  have hQ : ∀ a, S.Q t (take y a) j xl (fun Xs => (∑ k ∈ univ.erase j, v a Xs k * g (a k) (Xs k)) * ∑ m, v a Xs m * r (Xs m)) ≤
      (∑ k ∈ univ.erase j, ∑ m ∈ (univ.erase j).erase k, S.G t (y (a k)) (g (a k)) * S.G t (y (a m)) r) +
        2 * M * S.Q t (take y a) j xl (fun Xs => ∑ k ∈ univ.erase j, v a Xs k * g (a k) (Xs k)) := fun a => by
    have hm1 : ∀ k ∈ univ.erase j, Measurable fun Xs => ∑ m ∈ (univ.erase j).erase k, v a Xs k * g (a k) (Xs k) * (v a Xs m * r (Xs m)) :=
      fun k _ => Finset.measurable_fun_sum _ fun m _ => (hvg a k).mul (hvr a m)
    have hm2 : Measurable fun Xs => ∑ k ∈ univ.erase j, v a Xs k * g (a k) (Xs k) := Finset.measurable_fun_sum _ fun k _ => hvg a k
    refine ((hS.Q_ker t).mono (take y a, j, xl) (hm2.mul (Finset.measurable_fun_sum _ fun m _ => hvr a m))
      ((Finset.measurable_fun_sum _ hm1).add (hm2.const_mul _)) (hpt a)).trans (le_of_eq ?_)
    refine ((hS.Q_ker t).add (take y a, j, xl) (Finset.measurable_fun_sum _ hm1) (hm2.const_mul _)).trans ?_
    refine congrArg₂ (· + ·) ?_ ((hS.Q_ker t).const_mul (take y a, j, xl) _ hm2)
    refine ((hS.Q_ker t).sum (take y a, j, xl) _ hm1).trans (sum_congr rfl fun k hk => ?_)
    refine ((hS.Q_ker t).sum (take y a, j, xl) _ fun m _ => (hvg a k).mul (hvr a m)).trans (sum_congr rfl fun m hm => ?_)
    exact hF.two t (take y a) j xl k m (ne_of_mem_erase hk) (ne_of_mem_erase (mem_of_mem_erase hm)) (ne_of_mem_erase hm) _ _ (hg _) hr
  have hR := (hS.R_ok t).ker
  refine (hR.mono (w, i, j) (measurable_of_finite _) (measurable_of_finite _) hQ).trans ?_
  refine (le_of_eq (hR.add (w, i, j) (measurable_of_finite _) (measurable_of_finite _))).trans ?_
  refine add_le_add (hp w hw i j (fun l => S.G t (y l) (g l)) (fun l => S.G t (y l) r)) ?_
  refine (le_of_eq (hR.const_mul (w, i, j) _ (measurable_of_finite _))).trans ?_
  refine mul_le_mul_right ?_ _
  refine (le_of_eq (hS.step_one hF t i j xl w y hg)).trans ?_
  rw [mul_sum]
  refine sum_le_sum fun l _ => ?_
  calc S.G t (y l) (g l) * offspring (S.R t) w i j l ≤ S.G t (y l) (g l) * ((N + 1) * ENNReal.ofReal (w l)) := by
        gcongr
        exact ho w hw i j l
    _ = _ := by ring

/-- Constants come out of one step. -/
theorem Sys.OK.step_const {S : Sys X N n} (hS : S.OK) (t : Fin n) (w : Fin (N + 1) → ℝ) (i j : Fin (N + 1)) (y : PA X N) (xl : X)
    (K : ℝ≥0∞) {F : Anc N → PA X N → ℝ≥0∞} (hF : ∀ a, Measurable (F a)) :
    S.R t w i j (fun a => S.Q t (take y a) j xl fun Xs => K * F a Xs) =
      K * S.R t w i j (fun a => S.Q t (take y a) j xl (F a)) := by
  have e : ∀ a, S.Q t (take y a) j xl (fun Xs => K * F a Xs) = K * S.Q t (take y a) j xl (F a) := fun a =>
    (hS.Q_ker t).const_mul (take y a, j, xl) K (hF a)
  simp only [e]
  exact (hS.R_ok t).ker.const_mul (w, i, j) K (measurable_of_finite _)

/-- Weights of the trajectories that avoid the reference. -/
noncomputable def Sys.avSum (S : Sys X N n) (c : Fin (n + 1) → ℝ) (Γ : Fin n → X → X → ℝ) (bw : Bool) (b : Fin (n + 1) → Fin (N + 1))
    (h : Hist X N n) (f : (Fin (n + 1) → X) → ℝ≥0∞) : ℝ≥0∞ :=
  ∑ k ∈ univ.erase (lastA b), S.vLast c h k * S.av Γ bw b h k f

theorem Sys.OK.measurable_avSum {S : Sys X N n} (hS : S.OK) (c : Fin (n + 1) → ℝ) {Γ : Fin n → X → X → ℝ}
    (hΓ : ∀ t, Measurable fun p : X × X => Γ t p.1 p.2) (bw : Bool) (b : Fin (n + 1) → Fin (N + 1))
    {f : (Fin (n + 1) → X) → ℝ≥0∞} (hf : Measurable f) : Measurable fun h => S.avSum c Γ bw b h f :=
  Finset.measurable_fun_sum _ fun k _ => (hS.measurable_vLast c k).mul
    (((hS.av_ker hΓ bw b).comp (g := fun h : Hist X N n => (h, k)) (by fun_prop)).measurable' hf)

theorem Sys.OK.measurable_first {S : Sys X N n} (hS : S.OK) (c : Fin (n + 1) → ℝ) {Γ : Fin n → X → X → ℝ}
    (hΓ : ∀ t, Measurable fun p : X × X => Γ t p.1 p.2) (bw : Bool) (b : Fin (n + 1) → Fin (N + 1))
    {f : (Fin (n + 1) → X) → ℝ≥0∞} (hf : Measurable f) : Measurable fun h => S.past c h * S.avSum c Γ bw b h f :=
  (hS.measurable_past c).mul (hS.measurable_avSum c hΓ bw b hf)

omit [MeasurableSpace X] in
theorem Sys.avSum_snoc (S : Sys X N (n + 1)) (c : Fin (n + 2) → ℝ) (Γ : Fin (n + 1) → X → X → ℝ) (bw : Bool)
    (b : Fin (n + 2) → Fin (N + 1)) (h : Hist X N n) (a : Anc N) (Xs : PA X N) (f : (Fin (n + 2) → X) → ℝ≥0∞) :
    S.avSum c Γ bw b (h.snoc a Xs) f = ∑ k ∈ univ.erase (b (Fin.last (n + 1))),
      ENNReal.ofReal (Real.exp (c (Fin.last n).succ + S.LW (Fin.last n) (take (lastA h.2) a) Xs k)) *
        S.avStep Γ bw b h f (a k) (Xs k) := by
  simp only [Sys.avSum, S.vLast_snoc, S.av_snoc]
  rfl

omit [MeasurableSpace X] in
/-- Mean weight times normalised weights. -/
theorem Sys.mass_sum (S : Sys X N n) (c : Fin (n + 1) → ℝ) (h : Hist X N n) (P : Fin (N + 1) → ℝ≥0∞) :
    S.mass c h * ∑ l, ENNReal.ofReal (S.wLast h l) * P l = ((N : ℝ≥0∞) + 1)⁻¹ * ∑ l, S.vLast c h l * P l := by
  rw [mul_sum, mul_sum]
  refine sum_congr rfl fun l _ => ?_
  rw [← mul_assoc, S.mass_mul, mul_assoc]

omit [MeasurableSpace X] in
theorem Sys.mass_avSum (S : Sys X N n) (c : Fin (n + 1) → ℝ) (Γ : Fin n → X → X → ℝ) (bw : Bool) (b : Fin (n + 1) → Fin (N + 1))
    (h : Hist X N n) (f : (Fin (n + 1) → X) → ℝ≥0∞) :
    S.mass c h * ∑ l, (if l = lastA b then 0 else ENNReal.ofReal (S.wLast h l)) * S.av Γ bw b h l f =
      ((N : ℝ≥0∞) + 1)⁻¹ * S.avSum c Γ bw b h f := by
  rw [sum_erase_ite, Sys.avSum, mul_sum, mul_sum]
  refine sum_congr rfl fun l _ => ?_
  rw [← mul_assoc, S.mass_mul, mul_assoc]

/-- The next step of a trajectory, averaged. -/
noncomputable def Sys.ahead (S : Sys X N (n + 1)) (f : (Fin (n + 2) → X) → ℝ≥0∞) (y : Fin (n + 1) → X) : ℝ≥0∞ :=
  S.G (Fin.last n) (lastA y) fun x' => f (snocA y x')

theorem Sys.OK.measurable_ahead {S : Sys X N (n + 1)} (hS : S.OK) {f : (Fin (n + 2) → X) → ℝ≥0∞} (hf : Measurable f) :
    Measurable (S.ahead f) :=
  ((hS.G_ker (Fin.last n)).comp (g := fun y : Fin (n + 1) → X => lastA y) (by fun_prop)).measurable
    (f := fun y x' => f (snocA y x')) (by fun_prop)

variable {lam : Measure X} [SFinite lam]

/-- Expectation over the last step of the forward pass. -/
noncomputable def Sys.lastStep (S : Sys X N (n + 1)) (b : Fin (n + 2) → Fin (N + 1)) (x : Fin (n + 2) → X)
    (Φ : Hist X N (n + 1) → ℝ≥0∞) (h : Hist X N n) : ℝ≥0∞ :=
  S.R (Fin.last n) (S.init.wLast h) (b (Fin.last n).castSucc) (b (Fin.last (n + 1)))
    fun a => S.Q (Fin.last n) (take (lastA h.2) a) (b (Fin.last (n + 1))) (x (Fin.last (n + 1))) fun Xs => Φ (h.snoc a Xs)

theorem Sys.OK.measurable_lastStep {S : Sys X N (n + 1)} (hS : S.OK) (b : Fin (n + 2) → Fin (N + 1)) (x : Fin (n + 2) → X)
    {Φ : Hist X N (n + 1) → ℝ≥0∞} (hΦ : Measurable Φ) : Measurable (S.lastStep b x Φ) := by
  have hk := hS.step_ker (Fin.last n) (β := Hist X N n) (w := fun h => S.init.wLast h) (y := fun h => lastA h.2)
    (i := fun _ => b (Fin.last n).castSucc) (j := fun _ => b (Fin.last (n + 1))) (x := fun _ => x (Fin.last (n + 1)))
    hS.init.measurable_wLast (by fun_prop) (by fun_prop) (by fun_prop) (by fun_prop)
  exact hk.measurable (f := fun h r => Φ (h.snoc r.1 r.2)) (hΦ.comp (by fun_prop))

theorem Sys.OK.lastStep_mono {S : Sys X N (n + 1)} (hS : S.OK) (b : Fin (n + 2) → Fin (N + 1)) (x : Fin (n + 2) → X)
    {Φ : Hist X N (n + 1) → ℝ≥0∞} (hΦ : Measurable Φ) {Ψ : Hist X N n → ℝ≥0∞} (hΨ : Measurable Ψ) :
    ((∀ h, Ψ h ≤ S.lastStep b x Φ h) → S.init.fwd (initA b) (initA x) Ψ ≤ S.fwd b x Φ) ∧
    ((∀ h, S.lastStep b x Φ h ≤ Ψ h) → S.fwd b x Φ ≤ S.init.fwd (initA b) (initA x) Ψ) :=
  ⟨fun h => (hS.init.fwd_ker).mono (initA b, initA x) hΨ (hS.measurable_lastStep b x hΦ) h,
    fun h => (hS.init.fwd_ker).mono (initA b, initA x) (hS.measurable_lastStep b x hΦ) hΨ h⟩

/-- One step of the first moment. -/
theorem Sys.OK.first_step {S : Sys X N (n + 1)} (hS : S.OK) {c B : Fin (n + 2) → ℝ} (hI : S.Indep c B) {Γ : Fin (n + 1) → X → X → ℝ}
    (hΓ : ∀ t, Measurable fun p : X × X => Γ t p.1 p.2) (bw : Bool) (b : Fin (n + 2) → Fin (N + 1)) (x : Fin (n + 2) → X)
    {f : (Fin (n + 2) → X) → ℝ≥0∞} (hf : Measurable f) (h : Hist X N n) :
    S.lastStep b x (fun h => S.past c h * S.avSum c Γ bw b h f) h = S.init.past (initA c) h * S.init.mass (initA c) h *
        ∑ l, S.G (Fin.last n) (lastA h.2 l) (S.avStep Γ bw b h f l) *
          offspring (S.R (Fin.last n)) (S.init.wLast h) (b (Fin.last n).castSucc) (b (Fin.last (n + 1))) l := by
  have hg := hS.measurable_avStep hΓ bw b h hf
  simp only [Sys.lastStep, S.past_snoc, S.avSum_snoc]
  rw [hS.step_const (Fin.last n) _ _ _ _ _ _ (F := fun a Xs => ∑ k ∈ univ.erase (b (Fin.last (n + 1))),
      ENNReal.ofReal (Real.exp (c (Fin.last n).succ + S.LW (Fin.last n) (take (lastA h.2) a) Xs k)) * S.avStep Γ bw b h f (a k) (Xs k))
      fun a => Finset.measurable_fun_sum _ fun k _ => (hS.measurable_weight (Fin.last n) _ _ k).mul ((hg _).comp (measurable_pi_apply k)),
    hS.step_one hI (Fin.last n) _ _ _ _ (lastA h.2) hg]

variable {lam : Measure X} [SFinite lam]

/-- Weighted sum over the parents, times the mean weight. -/
theorem Sys.OK.mass_avStep {S : Sys X N (n + 1)} (hS : S.OK) (c : Fin (n + 2) → ℝ) {Γ : Fin (n + 1) → X → X → ℝ}
    (hd : S.Density lam Γ) (bw : Bool) (b : Fin (n + 2) → Fin (N + 1)) {f : (Fin (n + 2) → X) → ℝ≥0∞} (hf : Measurable f) (h : Hist X N n) :
    S.init.mass (initA c) h * ∑ l, ENNReal.ofReal (S.init.wLast h l) * S.G (Fin.last n) (lastA h.2 l) (S.avStep Γ bw b h f l) =
      ((N : ℝ≥0∞) + 1)⁻¹ * S.init.avSum (initA c) (initA Γ) bw (initA b) h (S.ahead f) := by
  rw [hS.avStep_sum hd bw b h hf, ← S.init.mass_avSum]
  rfl

theorem Sys.OK.first_low {n : ℕ} {S : Sys X N n} (hS : S.OK) {c B : Fin (n + 1) → ℝ} (hI : S.Indep c B) {Γ : Fin n → X → X → ℝ}
    (hd : S.Density lam Γ) {q : ℝ≥0∞} (bw : Bool)
    (hoff : ∀ t w, IsProb w → (∀ i, 0 < w i) → ∀ i j l, (bw = false → l ≠ i) → q * ENNReal.ofReal (w l) ≤ offspring (S.R t) w i j l)
    (b : Fin (n + 1) → Fin (N + 1)) (x : Fin (n + 1) → X) {f : (Fin (n + 1) → X) → ℝ≥0∞} (hf : Measurable f) :
    N * (q * ((N : ℝ≥0∞) + 1)⁻¹) ^ n * S.path f ≤ S.fwd b x fun h => S.past c h * S.avSum c Γ bw b h f := by
  induction n with
  | zero =>
    show _ ≤ S.Q0 (b 0) (x 0) fun x0 => 1 * ∑ k ∈ univ.erase (b 0), ENNReal.ofReal (Real.exp (c 0 + S.LW0 x0 k)) * f fun _ => x0 k
    simp only [one_mul]
    have h1 := hS.Q0_ker.sum (b 0, x 0) (univ.erase (b 0)) (f := fun k x0 => ENNReal.ofReal (Real.exp (c 0 + S.LW0 x0 k)) * f fun _ => x0 k)
      fun k _ => (hS.measurable_weight0 _ k).mul (by fun_prop)
    refine le_of_eq (Eq.trans ?_ h1.symm)
    have h2 : ∀ k ∈ univ.erase (b 0), S.Q0 (b 0) (x 0) (fun x0 => ENNReal.ofReal (Real.exp (c 0 + S.LW0 x0 k)) * f fun _ => x0 k) =
        S.G0 fun x => f fun _ => x := fun k hk => hI.one0 (b 0) (x 0) k (ne_of_mem_erase hk) (fun x => f fun _ => x) (by fun_prop)
    rw [sum_congr rfl h2, sum_const, card_erase_of_mem (mem_univ _), card_univ, Fintype.card_fin]
    simp only [Nat.add_sub_cancel, nsmul_eq_mul, pow_zero, mul_one]
    rfl
  | succ n ih =>
    have hg := hS.measurable_ahead hf
    have h1 := ih hS.init hI.init (Γ := initA Γ) hd.init (fun t => hoff t.castSucc) (initA b) (initA x) hg
    have hm := hS.init.measurable_first (initA c) (Γ := initA Γ) (fun t => hd.meas t.castSucc) bw (initA b) hg
    have hm' := hS.measurable_first c hd.meas bw b hf
    refine le_trans (le_of_eq ?_) ((mul_le_mul_right h1 (q * ((N : ℝ≥0∞) + 1)⁻¹)).trans
      (((hS.init.fwd_ker).const_mul (initA b, initA x) _ hm).symm.le.trans
        ((hS.lastStep_mono b x hm' (hm.const_mul _)).1 fun h => ?_)))
    · have e : S.path f = S.init.path (S.ahead f) := rfl
      rw [e]
      ring
    · have h2 : q * ∑ l, ENNReal.ofReal (S.init.wLast h l) * S.G (Fin.last n) (lastA h.2 l) (S.avStep Γ bw b h f l) ≤
          ∑ l, S.G (Fin.last n) (lastA h.2 l) (S.avStep Γ bw b h f l) *
            offspring (S.R (Fin.last n)) (S.init.wLast h) (b (Fin.last n).castSucc) (b (Fin.last (n + 1))) l := by
        rw [mul_sum]
        refine sum_le_sum fun l _ => ?_
        rw [← mul_assoc, mul_comm]
        by_cases hl : bw = false → l ≠ b (Fin.last n).castSucc
        · gcongr
          exact hoff _ _ (normalize_isProb _) (normalize_pos _) _ _ l hl
        · push Not at hl
          obtain ⟨rfl, rfl⟩ := hl
          rw [S.avStep_ref, (hS.G_ker _).zero, zero_mul]
          exact zero_le
      rw [hS.first_step hI hd.meas bw b x hf]
      refine le_trans (le_of_eq ?_) (mul_le_mul_right h2 _)
      calc q * ((N : ℝ≥0∞) + 1)⁻¹ * (S.init.past (initA c) h * S.init.avSum (initA c) (initA Γ) bw (initA b) h (S.ahead f))
          = q * S.init.past (initA c) h * (((N : ℝ≥0∞) + 1)⁻¹ * S.init.avSum (initA c) (initA Γ) bw (initA b) h (S.ahead f)) := by ring
        _ = _ := by
          rw [← hS.mass_avStep c hd bw b hf h]
          ring

theorem Sys.OK.first_up {n : ℕ} {S : Sys X N n} (hS : S.OK) {c B : Fin (n + 1) → ℝ} (hI : S.Indep c B) {Γ : Fin n → X → X → ℝ}
    (hd : S.Density lam Γ) (bw : Bool) (ho : ∀ t, FewOffspring (S.R t))
    (b : Fin (n + 1) → Fin (N + 1)) (x : Fin (n + 1) → X) {f : (Fin (n + 1) → X) → ℝ≥0∞} (hf : Measurable f) :
    S.fwd b x (fun h => S.past c h * S.avSum c Γ bw b h f) ≤ (N + 1) * S.path f := by
  induction n with
  | zero =>
    show S.Q0 (b 0) (x 0) (fun x0 => 1 * ∑ k ∈ univ.erase (b 0), ENNReal.ofReal (Real.exp (c 0 + S.LW0 x0 k)) * f fun _ => x0 k) ≤ _
    simp only [one_mul]
    have h1 := hS.Q0_ker.sum (b 0, x 0) (univ.erase (b 0)) (f := fun k x0 => ENNReal.ofReal (Real.exp (c 0 + S.LW0 x0 k)) * f fun _ => x0 k)
      fun k _ => (hS.measurable_weight0 _ k).mul (by fun_prop)
    refine h1.le.trans ?_
    have h2 : ∀ k ∈ univ.erase (b 0), S.Q0 (b 0) (x 0) (fun x0 => ENNReal.ofReal (Real.exp (c 0 + S.LW0 x0 k)) * f fun _ => x0 k) =
        S.G0 fun x => f fun _ => x := fun k hk => hI.one0 (b 0) (x 0) k (ne_of_mem_erase hk) (fun x => f fun _ => x) (by fun_prop)
    rw [sum_congr rfl h2, sum_const, card_erase_of_mem (mem_univ _), card_univ, Fintype.card_fin]
    simp only [Nat.add_sub_cancel, nsmul_eq_mul]
    show N * S.path f ≤ _
    gcongr
    exact le_self_add
  | succ n ih =>
    have hg := hS.measurable_ahead hf
    have h1 := ih hS.init hI.init (Γ := initA Γ) hd.init (fun t => ho t.castSucc) (initA b) (initA x) hg
    have hm := hS.init.measurable_first (initA c) (Γ := initA Γ) (fun t => hd.meas t.castSucc) bw (initA b) hg
    have hm' := hS.measurable_first c hd.meas bw b hf
    refine le_trans ((hS.lastStep_mono b x hm' hm).2 fun h => ?_) h1
    have h2 : ∑ l, S.G (Fin.last n) (lastA h.2 l) (S.avStep Γ bw b h f l) *
            offspring (S.R (Fin.last n)) (S.init.wLast h) (b (Fin.last n).castSucc) (b (Fin.last (n + 1))) l ≤
          (N + 1) * ∑ l, ENNReal.ofReal (S.init.wLast h l) * S.G (Fin.last n) (lastA h.2 l) (S.avStep Γ bw b h f l) := by
      rw [mul_sum]
      refine sum_le_sum fun l _ => ?_
      rw [← mul_assoc, mul_comm]
      gcongr
      exact ho _ _ (normalize_isProb _) _ _ l
    rw [hS.first_step hI hd.meas bw b x hf]
    refine (mul_le_mul_right h2 _).trans (le_of_eq ?_)
    calc _ = (N + 1) * S.init.past (initA c) h * (S.init.mass (initA c) h *
          ∑ l, ENNReal.ofReal (S.init.wLast h l) * S.G (Fin.last n) (lastA h.2 l) (S.avStep Γ bw b h f l)) := by ring
      _ = ((N + 1) * ((N : ℝ≥0∞) + 1)⁻¹) * (S.init.past (initA c) h * S.init.avSum (initA c) (initA Γ) bw (initA b) h (S.ahead f)) := by
          rw [hS.mass_avStep c hd bw b hf h]
          ring
      _ = _ := by rw [ENNReal.mul_inv_cancel (by positivity) (by finiteness), one_mul]

/-- Sum of the weights times a function of the last state. -/
noncomputable def Sys.vSum (S : Sys X N n) (c : Fin (n + 1) → ℝ) (r : X → ℝ≥0∞) (h : Hist X N n) : ℝ≥0∞ :=
  ∑ m, S.vLast c h m * r (lastA h.2 m)

theorem Sys.OK.measurable_vSum {S : Sys X N n} (hS : S.OK) (c : Fin (n + 1) → ℝ) {r : X → ℝ≥0∞} (hr : Measurable r) :
    Measurable fun h => S.vSum c r h :=
  Finset.measurable_fun_sum _ fun m _ => (hS.measurable_vLast c m).mul (hr.comp (by fun_prop))

theorem Sys.OK.measurable_second {S : Sys X N n} (hS : S.OK) (c : Fin (n + 1) → ℝ) {Γ : Fin n → X → X → ℝ}
    (hΓ : ∀ t, Measurable fun p : X × X => Γ t p.1 p.2) (bw : Bool) (b : Fin (n + 1) → Fin (N + 1))
    {f : (Fin (n + 1) → X) → ℝ≥0∞} (hf : Measurable f) {r : X → ℝ≥0∞} (hr : Measurable r) :
    Measurable fun h => S.past c h ^ 2 * S.avSum c Γ bw b h f * S.vSum c r h :=
  (((hS.measurable_past c).pow_const 2).mul (hS.measurable_avSum c hΓ bw b hf)).mul (hS.measurable_vSum c hr)

omit [MeasurableSpace X] in
theorem Sys.vSum_one (S : Sys X N n) (c : Fin (n + 1) → ℝ) (h : Hist X N n) :
    S.vSum c (fun _ => 1) h = (N + 1) * S.mass c h := by
  rw [Sys.mass, ← mul_assoc, ENNReal.mul_inv_cancel (by positivity) (by finiteness), one_mul]
  simp [Sys.vSum]

/-- Second moment with a constant. -/
theorem Sys.OK.second_one {S : Sys X N n} (hS : S.OK) {c B : Fin (n + 1) → ℝ} (hI : S.Indep c B) {Γ : Fin n → X → X → ℝ}
    (hd : S.Density lam Γ) (bw : Bool) (ho : ∀ t, FewOffspring (S.R t))
    (b : Fin (n + 1) → Fin (N + 1)) (x : Fin (n + 1) → X) {f : (Fin (n + 1) → X) → ℝ≥0∞} (hf : Measurable f) :
    S.fwd b x (fun h => S.past c h ^ 2 * S.avSum c Γ bw b h f * S.vSum c (fun _ => 1) h) ≤
      (N + 1) ^ 2 * S.path f * ∏ t, ENNReal.ofReal (Real.exp (B t)) := by
  have hm := hS.measurable_first c hd.meas bw b hf
  have hm' := hS.measurable_second c hd.meas bw b hf (r := fun _ => 1) measurable_const
  refine ((hS.fwd_ker).mono (b, x) hm' (hm.const_mul ((N + 1) * ∏ t, ENNReal.ofReal (Real.exp (B t)))) fun h => ?_).trans ?_
  · rw [S.vSum_one]
    calc _ = (N + 1) * (S.past c h * S.mass c h) * (S.past c h * S.avSum c Γ bw b h f) := by ring
      _ ≤ _ := by
        gcongr
        exact hI.past_le h
  · refine ((hS.fwd_ker).const_mul (b, x) _ hm).le.trans ?_
    calc _ ≤ ((N : ℝ≥0∞) + 1) * (∏ t, ENNReal.ofReal (Real.exp (B t))) * ((N + 1) * S.path f) := by
          gcongr
          exact hS.first_up hI hd bw ho b x hf
      _ = _ := by ring

/-- **Second moment** of the estimated normalising constant along trajectories that avoid the reference. -/
theorem Sys.OK.second_up {n : ℕ} {S : Sys X N n} (hS : S.OK) (hN : 1 ≤ N) {c B : Fin (n + 1) → ℝ} (hI : S.Indep c B) {Γ : Fin n → X → X → ℝ}
    (hd : S.Density lam Γ) (bw : Bool) (ho : ∀ t, FewOffspring (S.R t)) (hp : ∀ t, PairsSpread (S.R t))
    (b : Fin (n + 1) → Fin (N + 1)) (x : Fin (n + 1) → X) {f : (Fin (n + 1) → X) → ℝ≥0∞} (hf : Measurable f)
    {r : X → ℝ≥0∞} (hr : Measurable r) {C : ℝ≥0∞} (hC : ∀ x, r x ≤ C) :
    S.fwd b x (fun h => S.past c h ^ 2 * S.avSum c Γ bw b h f * S.vSum c r h) ≤
      (N + 1) ^ 2 * S.path f * (S.path (fun y => r (lastA y)) +
        2 * (n + 1) * ((N : ℝ≥0∞) + 1)⁻¹ * (∏ t, ENNReal.ofReal (Real.exp (B t))) * C) := by
  have hNN : ((N : ℝ≥0∞) + 1) * ((N : ℝ≥0∞) + 1)⁻¹ = 1 := ENNReal.mul_inv_cancel (by positivity) (by finiteness)
  have h10 : (1 : Fin (N + 1)) ≠ 0 := by
    intro e
    have := congrArg Fin.val e
    simp at this
    omega
  induction n generalizing r C with
  | zero =>
    let v : PA X N → Fin (N + 1) → ℝ≥0∞ := fun x0 k => ENNReal.ofReal (Real.exp (c 0 + S.LW0 x0 k))
    let g : X → ℝ≥0∞ := fun x => f fun _ => x
    let M : ℝ≥0∞ := ENNReal.ofReal (Real.exp (B 0)) * C
    have hg : Measurable g := by fun_prop
    show S.Q0 (b 0) (x 0) (fun x0 => 1 ^ 2 * (∑ k ∈ univ.erase (b 0), v x0 k * g (x0 k)) * ∑ m, v x0 m * r (x0 m)) ≤ _
    simp only [one_pow, one_mul]
    have hv : ∀ k, Measurable fun x0 => v x0 k := fun k => hS.measurable_weight0 _ k
    have hvg : ∀ k, Measurable fun x0 => v x0 k * g (x0 k) := fun k => (hv k).mul (hg.comp (measurable_pi_apply k))
    have hvr : ∀ k, Measurable fun x0 => v x0 k * r (x0 k) := fun k => (hv k).mul (hr.comp (measurable_pi_apply k))
    have hM : ∀ x0 m, v x0 m * r (x0 m) ≤ M := fun x0 m =>
      mul_le_mul' (ENNReal.ofReal_le_ofReal (Real.exp_le_exp.mpr (hI.le0 _ m))) (hC _)
    have hpt : ∀ x0, (∑ k ∈ univ.erase (b 0), v x0 k * g (x0 k)) * ∑ m, v x0 m * r (x0 m) ≤
        (∑ k ∈ univ.erase (b 0), ∑ m ∈ (univ.erase (b 0)).erase k, v x0 k * g (x0 k) * (v x0 m * r (x0 m))) +
          2 * M * ∑ k ∈ univ.erase (b 0), v x0 k * g (x0 k) := fun x0 => by
      rw [sum_mul, mul_sum, ← sum_add_distrib]
      refine sum_le_sum fun k hk => ?_
      rw [← Finset.add_sum_erase univ _ (mem_univ (b 0)), ← Finset.add_sum_erase (univ.erase (b 0)) _ hk, ← mul_sum]
      calc v x0 k * g (x0 k) * (v x0 (b 0) * r (x0 (b 0)) + (v x0 k * r (x0 k) + ∑ m ∈ (univ.erase (b 0)).erase k, v x0 m * r (x0 m)))
          ≤ v x0 k * g (x0 k) * (M + (M + ∑ m ∈ (univ.erase (b 0)).erase k, v x0 m * r (x0 m))) := by
            gcongr
            · exact hM x0 (b 0)
            · exact hM x0 k
        _ = _ := by ring
    have hm1 : ∀ k ∈ univ.erase (b 0), Measurable fun x0 => ∑ m ∈ (univ.erase (b 0)).erase k, v x0 k * g (x0 k) * (v x0 m * r (x0 m)) :=
      fun k _ => Finset.measurable_fun_sum _ fun m _ => (hvg k).mul (hvr m)
    have hm2 : Measurable fun x0 => ∑ k ∈ univ.erase (b 0), v x0 k * g (x0 k) := Finset.measurable_fun_sum _ fun k _ => hvg k
    refine (hS.Q0_ker.mono (b 0, x 0) (hm2.mul (Finset.measurable_fun_sum _ fun m _ => hvr m))
      ((Finset.measurable_fun_sum _ hm1).add (hm2.const_mul _)) hpt).trans ?_
    have e1 : S.Q0 (b 0) (x 0) (fun x0 => ∑ k ∈ univ.erase (b 0), v x0 k * g (x0 k)) = N * S.G0 g := by
      refine (hS.Q0_ker.sum (b 0, x 0) _ fun k _ => hvg k).trans ?_
      rw [sum_congr rfl fun k hk => hI.one0 (b 0) (x 0) k (ne_of_mem_erase hk) g hg, sum_const, card_erase_of_mem (mem_univ _), card_univ,
        Fintype.card_fin]
      simp
    have e2 : S.Q0 (b 0) (x 0) (fun x0 => ∑ k ∈ univ.erase (b 0), ∑ m ∈ (univ.erase (b 0)).erase k, v x0 k * g (x0 k) * (v x0 m * r (x0 m))) ≤
        (N + 1) ^ 2 * (S.G0 g * S.G0 r) := by
      refine (hS.Q0_ker.sum (b 0, x 0) _ hm1).le.trans ?_
      have e3 : ∀ k ∈ univ.erase (b 0), S.Q0 (b 0) (x 0) (fun x0 => ∑ m ∈ (univ.erase (b 0)).erase k, v x0 k * g (x0 k) * (v x0 m * r (x0 m))) ≤
          (N + 1) * (S.G0 g * S.G0 r) := fun k hk => by
        refine (hS.Q0_ker.sum (b 0, x 0) _ fun m _ => (hvg k).mul (hvr m)).le.trans ?_
        refine (sum_congr rfl fun m hm => hI.two0 (b 0) (x 0) k m (ne_of_mem_erase hk) (ne_of_mem_erase (mem_of_mem_erase hm))
          (ne_of_mem_erase hm) g r hg hr).le.trans ?_
        rw [sum_const, nsmul_eq_mul]
        gcongr
        have hc : #((univ.erase (b 0)).erase k) ≤ N + 1 := (card_le_univ _).trans (by simp)
        exact_mod_cast hc
      refine (sum_le_sum e3).trans ?_
      rw [sum_const, nsmul_eq_mul, pow_two, mul_assoc]
      gcongr
      have hc : #(univ.erase (b 0)) ≤ N + 1 := (card_le_univ _).trans (by simp)
      exact_mod_cast hc
    refine (hS.Q0_ker.add (b 0, x 0) (Finset.measurable_fun_sum _ hm1) (hm2.const_mul _)).le.trans ?_
    refine (add_le_add e2 ((hS.Q0_ker.const_mul (b 0, x 0) _ hm2).trans (congrArg _ e1)).le).trans ?_
    have ep : S.path f = S.G0 g := rfl
    have er : S.path (fun y => r (lastA y)) = S.G0 r := rfl
    rw [ep, er]
    have hle : 2 * M * (N * S.G0 g) ≤ 2 * M * ((N + 1) * S.G0 g) := by gcongr; exact le_self_add
    refine (add_le_add le_rfl hle).trans (le_of_eq ?_)
    simp only [Fin.prod_univ_succ, univ_eq_empty, prod_empty, mul_one, CharP.cast_eq_zero, zero_add]
    calc (N + 1) ^ 2 * (S.G0 g * S.G0 r) + 2 * M * ((N + 1) * S.G0 g)
        = (N + 1) ^ 2 * S.G0 g * S.G0 r + 2 * M * ((N + 1) * (((N : ℝ≥0∞) + 1) * ((N : ℝ≥0∞) + 1)⁻¹) * S.G0 g) := by rw [hNN]; ring
      _ = _ := by simp only [M]; ring
  | succ n ih =>
    let M : ℝ≥0∞ := ENNReal.ofReal (Real.exp (B (Fin.last n).succ)) * C
    let r' : X → ℝ≥0∞ := fun y => S.G (Fin.last n) y r
    have hr' : Measurable r' := (hS.G_ker (Fin.last n)).measurable' hr
    have hr'M : ∀ y, r' y ≤ M := fun y => by
      have h1 := hI.one (Fin.last n) (fun _ => y) 0 (x 0) 1 h10 r hr
      refine h1.symm.le.trans ?_
      refine ((hS.Q_ker (Fin.last n)).mono ((fun _ => y), 0, x 0) ((hS.measurable_weight (Fin.last n) _ _ 1).mul (hr.comp (measurable_pi_apply 1)))
        measurable_const (g := fun _ => M) fun Xs => mul_le_mul' (ENNReal.ofReal_le_ofReal (Real.exp_le_exp.mpr (hI.le _ _ _ _))) (hC _)).trans ?_
      refine ((hS.Q_ker (Fin.last n)).const_fun ((fun _ => y), 0, x 0) M).le.trans ?_
      simp only [hS.Q_mass, mul_one, le_refl]
    have hg := hS.measurable_ahead hf
    have hΓ' : ∀ t : Fin n, Measurable fun p : X × X => initA Γ t p.1 p.2 := fun t => hd.meas t.castSucc
    have hm1 := hS.init.measurable_second (initA c) hΓ' bw (initA b) hg hr'
    have hm2 := hS.init.measurable_second (initA c) hΓ' bw (initA b) hg (r := fun _ => 1) measurable_const
    have hm' := hS.measurable_second c hd.meas bw b hf hr
    refine ((hS.lastStep_mono b x hm' (hm1.add (hm2.const_mul (2 * M * ((N : ℝ≥0∞) + 1)⁻¹)))).2 fun h => ?_).trans ?_
    · have hgs := hS.measurable_avStep hd.meas bw b h hf
      have h2 := hS.step_two hI (Fin.last n) (hp _) (ho _) (b (Fin.last n).castSucc) (b (Fin.last (n + 1))) (x (Fin.last (n + 1)))
        (w := S.init.wLast h) (normalize_isProb _) (lastA h.2) hgs hr hC
      have e : S.lastStep b x (fun h => S.past c h ^ 2 * S.avSum c Γ bw b h f * S.vSum c r h) h =
          (S.init.past (initA c) h * S.init.mass (initA c) h) ^ 2 *
          S.R (Fin.last n) (S.init.wLast h) (b (Fin.last n).castSucc) (b (Fin.last (n + 1))) (fun a =>
            S.Q (Fin.last n) (take (lastA h.2) a) (b (Fin.last (n + 1))) (x (Fin.last (n + 1))) fun Xs =>
        (∑ k ∈ univ.erase (b (Fin.last (n + 1))), ENNReal.ofReal (Real.exp (c (Fin.last n).succ + S.LW (Fin.last n) (take (lastA h.2) a) Xs k)) *
          S.avStep Γ bw b h f (a k) (Xs k)) *
        ∑ m, ENNReal.ofReal (Real.exp (c (Fin.last n).succ + S.LW (Fin.last n) (take (lastA h.2) a) Xs m)) * r (Xs m)) := by
        have hma : ∀ a : Anc N, Measurable fun Xs : PA X N =>
            (∑ k ∈ univ.erase (b (Fin.last (n + 1))), ENNReal.ofReal (Real.exp (c (Fin.last n).succ + S.LW (Fin.last n) (take (lastA h.2) a) Xs k)) *
              S.avStep Γ bw b h f (a k) (Xs k)) *
            ∑ m, ENNReal.ofReal (Real.exp (c (Fin.last n).succ + S.LW (Fin.last n) (take (lastA h.2) a) Xs m)) * r (Xs m) := fun a =>
          Measurable.mul (Finset.measurable_fun_sum _ fun k _ =>
            (hS.measurable_weight (Fin.last n) _ _ k).mul ((hgs _).comp (measurable_pi_apply k)))
            (Finset.measurable_fun_sum _ fun m _ => (hS.measurable_weight (Fin.last n) _ _ m).mul (hr.comp (measurable_pi_apply m)))
        rw [← hS.step_const (Fin.last n) _ _ _ _ _ _ hma]
        have ev : ∀ a Xs, S.vSum c r (h.snoc a Xs) =
            ∑ m, ENNReal.ofReal (Real.exp (c (Fin.last n).succ + S.LW (Fin.last n) (take (lastA h.2) a) Xs m)) * r (Xs m) := fun a Xs => by
          have el : lastA (h.snoc a Xs).2 = Xs := by simp [Hist.snoc]
          simp only [Sys.vSum, S.vLast_snoc, el]
        simp only [Sys.lastStep, S.past_snoc, S.avSum_snoc, ev, mul_assoc]
      rw [e]
      refine (mul_le_mul_right h2 _).trans (le_of_eq ?_)
      have e1 := hS.mass_avStep c hd bw b hf h
      have e2 := S.init.mass_sum (initA c) h fun l => r' (lastA h.2 l)
      have e3 := S.init.vSum_one (initA c) h
      have e4 : S.init.vSum (initA c) r' h = ∑ l, S.init.vLast (initA c) h l * r' (lastA h.2 l) := rfl
      rw [← e4] at e2
      show _ * (_ * (_ * ∑ l, ENNReal.ofReal (S.init.wLast h l) * r' (lastA h.2 l)) + 2 * M * _) =
        S.init.past (initA c) h ^ 2 * S.init.avSum (initA c) (initA Γ) bw (initA b) h (S.ahead f) * S.init.vSum (initA c) r' h +
        2 * M * ((N : ℝ≥0∞) + 1)⁻¹ * (S.init.past (initA c) h ^ 2 * S.init.avSum (initA c) (initA Γ) bw (initA b) h (S.ahead f) *
          S.init.vSum (initA c) (fun _ => 1) h)
      generalize S.init.past (initA c) h = p at *
      generalize S.init.mass (initA c) h = μ at *
      generalize (∑ l, ENNReal.ofReal (S.init.wLast h l) * S.G (Fin.last n) (lastA h.2 l) (S.avStep Γ bw b h f l)) = D at *
      generalize (∑ l, ENNReal.ofReal (S.init.wLast h l) * r' (lastA h.2 l)) = E at *
      generalize S.init.avSum (initA c) (initA Γ) bw (initA b) h (S.ahead f) = A at *
      generalize S.init.vSum (initA c) r' h = V at *
      rw [e3]
      calc (p * μ) ^ 2 * ((N + 1) ^ 2 * (D * E) + 2 * M * ((N + 1) * D))
          = p ^ 2 * (((N : ℝ≥0∞) + 1) * (μ * D)) * ((N + 1) * (μ * E)) + 2 * M * p ^ 2 * ((N + 1) * (μ * D)) * μ := by ring
        _ = p ^ 2 * ((((N : ℝ≥0∞) + 1) * ((N : ℝ≥0∞) + 1)⁻¹) * A) * ((((N : ℝ≥0∞) + 1) * ((N : ℝ≥0∞) + 1)⁻¹) * V) +
            2 * M * p ^ 2 * ((((N : ℝ≥0∞) + 1) * ((N : ℝ≥0∞) + 1)⁻¹) * A) * μ := by rw [e1, e2]; ring
        _ = p ^ 2 * A * V + 2 * M * p ^ 2 * A * ((((N : ℝ≥0∞) + 1) * ((N : ℝ≥0∞) + 1)⁻¹) * μ) := by rw [hNN]; ring
        _ = _ := by ring
    · refine ((hS.init.fwd_ker).add (initA b, initA x) hm1 (hm2.const_mul _)).le.trans ?_
      have h3 := ih hS.init hI.init (Γ := initA Γ) hd.init (fun t => ho t.castSucc) (fun t => hp t.castSucc) (initA b) (initA x) hg hr' hr'M
      have h4 := hS.init.second_one hI.init (Γ := initA Γ) hd.init bw (fun t => ho t.castSucc) (initA b) (initA x) hg
      refine (add_le_add h3 (((hS.init.fwd_ker).const_mul (initA b, initA x) _ hm2).le.trans (mul_le_mul_right h4 _))).trans (le_of_eq ?_)
      have e : S.path f = S.init.path (S.ahead f) := rfl
      have e' : S.path (fun y => r (lastA y)) = S.init.path fun y => r' (lastA y) := by
        show S.init.path (fun y => S.G (Fin.last n) (lastA y) fun x' => r (lastA (snocA y x'))) = _
        simp only [lastA_snocA]
        rfl
      have eB : ∏ t, ENNReal.ofReal (Real.exp (B t)) =
          (∏ t, ENNReal.ofReal (Real.exp (initA B t))) * ENNReal.ofReal (Real.exp (B (Fin.last (n + 1)))) := Fin.prod_univ_castSucc _
      have eM : M = ENNReal.ofReal (Real.exp (B (Fin.last (n + 1)))) * C := rfl
      rw [e, e', eB, eM]
      push_cast
      ring

end steps

end Verif
