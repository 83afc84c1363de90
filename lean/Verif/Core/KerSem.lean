import Mathlib.Probability.Kernel.WithDensity
import Mathlib.Probability.Kernel.Composition.Lemmas
import Mathlib.Probability.Kernel.MeasurableLIntegral
import Mathlib.Probability.Kernel.Invariance
import Mathlib.MeasureTheory.Measure.Prod
import Verif.Core.Rand

/-!
# Random programs denote kernels

`IsKer P` says that the family of programs `P b`, read in the expectation semantics, is integration
against an s-finite kernel in `b`.  This file shows that the class is closed under everything the model
uses, and gives the consequences used in the invariance proofs (measurability, linearity, Tonelli).
-/

open scoped ENNReal
open MeasureTheory ProbabilityTheory

namespace Verif

/-- The programs `P b` denote an s-finite kernel in `b`. -/
def IsKer {β α : Type} [MeasurableSpace β] [MeasurableSpace α] (P : β → Ex α) : Prop :=
  ∃ κ : Kernel β α, IsSFiniteKernel κ ∧ ∀ b f, Measurable f → P b f = ∫⁻ a, f a ∂κ b

namespace IsKer

variable {β α γ δ : Type} [MeasurableSpace β] [MeasurableSpace α] [MeasurableSpace γ]
  [MeasurableSpace δ]

theorem congr {P Q : β → Ex α} (hP : IsKer P) (h : ∀ b f, Measurable f → P b f = Q b f) :
    IsKer Q := by
  obtain ⟨κ, hκ, h1⟩ := hP
  exact ⟨κ, hκ, fun b f hf => by rw [← h b f hf, h1 b f hf]⟩

theorem pure {g : β → α} (hg : Measurable g) : IsKer (fun b => (Pure.pure (g b) : Ex α)) :=
  ⟨Kernel.deterministic g hg, inferInstance, fun b f hf => by
    rw [Kernel.lintegral_deterministic' hg hf]; rfl⟩

theorem const (μ : Measure α) [SFinite μ] {P : Ex α} (h : ∀ f, Measurable f → P f = ∫⁻ a, f a ∂μ) :
    IsKer (fun _ : β => P) :=
  ⟨Kernel.const β μ, inferInstance, fun b f hf => by rw [Kernel.const_apply]; exact h f hf⟩

theorem comp {P : β → Ex α} (hP : IsKer P) {g : γ → β} (hg : Measurable g) :
    IsKer (fun c => P (g c)) := by
  obtain ⟨κ, hκ, h⟩ := hP
  exact ⟨κ.comap g hg, inferInstance, fun c f hf => by rw [Kernel.comap_apply]; exact h (g c) f hf⟩

/-- Joint measurability of expectations. -/
theorem measurable {P : β → Ex α} (hP : IsKer P) {f : β → α → ℝ≥0∞}
    (hf : Measurable (Function.uncurry f)) : Measurable (fun b => P b (f b)) := by
  obtain ⟨κ, hκ, h⟩ := hP
  have : (fun b => P b (f b)) = fun b => ∫⁻ a, f b a ∂κ b := by
    funext b; exact h b _ (hf.comp (measurable_const.prodMk measurable_id))
  rw [this]
  exact hf.lintegral_kernel_prod_right'

theorem measurable' {P : β → Ex α} (hP : IsKer P) {f : α → ℝ≥0∞} (hf : Measurable f) :
    Measurable (fun b => P b f) :=
  hP.measurable (f := fun _ => f) (hf.comp measurable_snd)

theorem bind {P : β → Ex α} {F : β → α → Ex γ} (hP : IsKer P)
    (hF : IsKer (fun p : β × α => F p.1 p.2)) : IsKer (fun b => P b >>= F b) := by
  obtain ⟨κ, hκ, h⟩ := hP
  obtain ⟨η, hη, h'⟩ := hF
  refine ⟨(κ ⊗ₖ η).snd, inferInstance, fun b f hf => ?_⟩
  have h0 : ∫⁻ c, f c ∂(κ ⊗ₖ η).snd b = ∫⁻ a, ∫⁻ c, f c ∂η (b, a) ∂κ b := by
    rw [Kernel.lintegral_snd _ _ hf]
    exact Kernel.lintegral_compProd _ _ _ (hf.comp measurable_snd)
  rw [h0]
  have h2 : ∀ a, F b a f = ∫⁻ c, f c ∂η (b, a) := fun a => h' (b, a) f hf
  have hm : Measurable (fun a => F b a f) := by
    simp only [h2]
    exact (hf.lintegral_kernel (κ := η)).comp (measurable_const.prodMk measurable_id)
  have h3 : ∫⁻ a, ∫⁻ c, f c ∂η (b, a) ∂κ b = ∫⁻ a, F b a f ∂κ b := lintegral_congr fun a => (h2 a).symm
  rw [h3]
  exact h b _ hm

theorem add {P : β → Ex α} (hP : IsKer P) (b : β) {f g : α → ℝ≥0∞} (hf : Measurable f)
    (hg : Measurable g) : P b (fun a => f a + g a) = P b f + P b g := by
  obtain ⟨κ, hκ, h⟩ := hP
  rw [h b (fun a => f a + g a) (hf.add hg), h b _ hf, h b _ hg, lintegral_add_left hf]

theorem const_mul {P : β → Ex α} (hP : IsKer P) (b : β) (c : ℝ≥0∞) {f : α → ℝ≥0∞}
    (hf : Measurable f) : P b (fun a => c * f a) = c * P b f := by
  obtain ⟨κ, hκ, h⟩ := hP
  rw [h b _ (hf.const_mul c), h b _ hf, lintegral_const_mul c hf]

theorem const_fun {P : β → Ex α} (hP : IsKer P) (b : β) (c : ℝ≥0∞) :
    P b (fun _ => c) = c * P b (fun _ => 1) := by
  have := hP.const_mul b c (f := fun _ => 1) measurable_const
  simpa using this

theorem sum {P : β → Ex α} (hP : IsKer P) (b : β) {ι : Type} (s : Finset ι) {f : ι → α → ℝ≥0∞}
    (hf : ∀ i ∈ s, Measurable (f i)) : P b (fun a => ∑ i ∈ s, f i a) = ∑ i ∈ s, P b (f i) := by
  obtain ⟨κ, hκ, h⟩ := hP
  rw [h b _ (Finset.measurable_fun_sum s hf), lintegral_finsetSum' s fun i hi => (hf i hi).aemeasurable]
  exact Finset.sum_congr rfl fun i hi => (h b _ (hf i hi)).symm

/-- Tonelli: a program commutes with integration against an s-finite measure. -/
theorem lintegral_swap {P : β → Ex α} (hP : IsKer P) (b : β) (μ : Measure γ) [SFinite μ]
    {f : α → γ → ℝ≥0∞} (hf : Measurable (Function.uncurry f)) :
    P b (fun a => ∫⁻ c, f a c ∂μ) = ∫⁻ c, P b (fun a => f a c) ∂μ := by
  obtain ⟨κ, hκ, h⟩ := hP
  have h1 : Measurable (fun a => ∫⁻ c, f a c ∂μ) := hf.lintegral_prod_right'
  rw [h b _ h1, lintegral_lintegral_swap hf.aemeasurable]
  refine lintegral_congr fun c => ?_
  exact (h b _ (hf.comp (measurable_id.prodMk measurable_const))).symm

/-- Tonelli: two programs commute. -/
theorem swap {P : β → Ex α} (hP : IsKer P) (b : β) {Q : γ → Ex δ} (hQ : IsKer Q) (c : γ)
    {f : α → δ → ℝ≥0∞} (hf : Measurable (Function.uncurry f)) :
    P b (fun a => Q c (fun d => f a d)) = Q c (fun d => P b (fun a => f a d)) := by
  obtain ⟨η, hη, h⟩ := hQ
  have h1 : ∀ a, Q c (fun d => f a d) = ∫⁻ d, f a d ∂η c := fun a =>
    h c _ (hf.comp (measurable_const.prodMk measurable_id))
  have h2 : Measurable (fun d => P b (fun a => f a d)) :=
    (hP.comp (measurable_const (a := b) : Measurable fun _ : δ => b)).measurable (f := fun d a => f a d)
      (hf.comp measurable_swap)
  simp only [h1]
  rw [hP.lintegral_swap b (η c) hf, h c _ h2]

theorem mono {P : β → Ex α} (hP : IsKer P) (b : β) {f g : α → ℝ≥0∞} (hf : Measurable f)
    (hg : Measurable g) (hfg : ∀ a, f a ≤ g a) : P b f ≤ P b g := by
  obtain ⟨κ, hκ, h⟩ := hP
  rw [h b _ hf, h b _ hg]
  exact lintegral_mono hfg

theorem zero {P : β → Ex α} (hP : IsKer P) (b : β) : P b (fun _ => 0) = 0 := by
  obtain ⟨κ, hκ, h⟩ := hP
  rw [h b _ measurable_const, lintegral_zero]

/-- Restriction of the programs to a measurable set of parameters, patched by another family. -/
theorem ite {P Q : β → Ex α} (hP : IsKer P) (hQ : IsKer Q) {s : β → Prop} [DecidablePred s]
    (hs : MeasurableSet {b | s b}) : IsKer (fun b => if s b then P b else Q b) := by
  classical
  obtain ⟨κ, hκ, h⟩ := hP
  obtain ⟨η, hη, h'⟩ := hQ
  refine ⟨Kernel.piecewise hs κ η, inferInstance, fun b f hf => ?_⟩
  rw [Kernel.piecewise_apply]
  by_cases hb : s b
  · have : b ∈ {b | s b} := hb
    rw [if_pos this, ← h b f hf]; simp only [if_pos hb]
  · have : b ∉ {b | s b} := hb
    rw [if_neg this, ← h' b f hf]; simp only [if_neg hb]

/-! ### The draws -/

theorem measurable_catP {n : ℕ} : Measurable (fun p : (Fin n → ℝ) × Fin n => catP p.1 p.2) := by
  unfold catP
  refine ENNReal.measurable_ofReal.comp (Measurable.div ?_ ?_)
  · exact measurable_from_prod_countable_left fun i => measurable_pi_apply i
  · exact Finset.measurable_fun_sum _ fun i _ => (measurable_pi_apply i).comp measurable_fst

theorem choice (key : Key) {n : ℕ} {p : β → Fin n → ℝ} (hp : Measurable p) :
    IsKer (fun b => (RandM.choice key (p b) : Ex (Fin n))) := by
  have hm : Measurable (Function.uncurry fun (b : β) (i : Fin n) => catP (p b) i) :=
    measurable_catP.comp ((hp.comp measurable_fst).prodMk measurable_snd)
  refine ⟨(Kernel.const β Measure.count).withDensity fun b i => catP (p b) i,
    Kernel.IsSFiniteKernel.withDensity _ fun b i => ENNReal.ofReal_ne_top, fun b f hf => ?_⟩
  rw [Kernel.lintegral_withDensity _ hm b hf, Kernel.const_apply, lintegral_fintype]
  show ∑ i, catP (p b) i * f i = _
  simp

theorem choices (key : Key) {n : ℕ} (k : ℕ) {p : β → Fin n → ℝ} (hp : Measurable p) :
    IsKer (fun b => (RandM.choices key k (p b) : Ex (Fin k → Fin n))) := by
  have hm : Measurable (Function.uncurry fun (b : β) (a : Fin k → Fin n) => ∏ t, catP (p b) (a t)) :=
    Finset.measurable_fun_prod _ fun t _ =>
      measurable_catP.comp ((hp.comp measurable_fst).prodMk ((measurable_pi_apply t).comp measurable_snd))
  refine ⟨(Kernel.const β Measure.count).withDensity fun b a => ∏ t, catP (p b) (a t),
    Kernel.IsSFiniteKernel.withDensity _ fun b a =>
      ENNReal.prod_ne_top fun t _ => ENNReal.ofReal_ne_top, fun b f hf => ?_⟩
  rw [Kernel.lintegral_withDensity _ hm b hf, Kernel.const_apply, lintegral_fintype]
  show ∑ a, (∏ t, catP (p b) (a t)) * f a = _
  simp

instance : IsFiniteMeasure unifM := by unfold unifM; infer_instance
instance (d : ℕ) : IsProbabilityMeasure (gaussM d) := by unfold gaussM; infer_instance

theorem uniform (key : Key) : IsKer (fun _ : β => (RandM.uniform key : Ex ℝ)) :=
  const unifM fun _ _ => rfl
theorem uniforms (key : Key) (k : ℕ) : IsKer (fun _ : β => (RandM.uniforms key k : Ex (Fin k → ℝ))) :=
  const (Measure.pi fun _ : Fin k => unifM) fun _ _ => rfl
theorem normal1 (key : Key) (d : ℕ) : IsKer (fun _ : β => (RandM.normal1 key d : Ex (Fin d → ℝ))) :=
  const (gaussM d) fun _ _ => rfl
theorem normal2 (key : Key) (k d : ℕ) :
    IsKer (fun _ : β => (RandM.normal2 key k d : Ex (Fin k → Fin d → ℝ))) :=
  const (Measure.pi fun _ : Fin k => gaussM d) fun _ _ => rfl
theorem normal3 (key : Key) (l k d : ℕ) :
    IsKer (fun _ : β => (RandM.normal3 key l k d : Ex (Fin l → Fin k → Fin d → ℝ))) :=
  const (Measure.pi fun _ : Fin l => Measure.pi fun _ : Fin k => gaussM d) fun _ _ => rfl

end IsKer

/-! ### Measurability of array primitives -/

section arr
variable {β α : Type} [MeasurableSpace β] [MeasurableSpace α] {n k : ℕ}

@[fun_prop] theorem measurable_insert0 {v : β → α} {a : β → Fin n → α} (hv : Measurable v) (ha : Measurable a) :
    Measurable (fun b => insert0 (v b) (a b)) := by
  refine measurable_pi_lambda _ fun i => ?_
  refine Fin.cases hv (fun j => ?_) i
  exact (measurable_pi_apply j).comp ha

@[fun_prop] theorem measurable_snocA {v : β → α} {a : β → Fin n → α} (ha : Measurable a) (hv : Measurable v) :
    Measurable (fun b => snocA (a b) (v b)) := by
  refine measurable_pi_lambda _ fun i => ?_
  refine Fin.lastCases ?_ (fun j => ?_) i
  · simpa using hv
  · simp only [snocA_castSucc]; exact (measurable_pi_apply j).comp ha

@[fun_prop] theorem measurable_rev {a : β → Fin n → α} (ha : Measurable a) : Measurable (fun b => rev (a b)) :=
  measurable_pi_lambda _ fun i => (measurable_pi_apply i.rev).comp ha

@[fun_prop] theorem measurable_initA {a : β → Fin (n + 1) → α} (ha : Measurable a) :
    Measurable (fun b => initA (a b)) :=
  measurable_pi_lambda _ fun i => (measurable_pi_apply i.castSucc).comp ha

@[fun_prop] theorem measurable_tailA {a : β → Fin (n + 1) → α} (ha : Measurable a) :
    Measurable (fun b => tailA (a b)) :=
  measurable_pi_lambda _ fun i => (measurable_pi_apply i.succ).comp ha

@[fun_prop] theorem measurable_revInit {a : β → Fin (n + 1) → α} (ha : Measurable a) :
    Measurable (fun b => revInit (a b)) := measurable_rev (measurable_initA ha)

@[fun_prop] theorem measurable_lastA {a : β → Fin (n + 1) → α} (ha : Measurable a) :
    Measurable (fun b => lastA (a b)) := (measurable_pi_apply _).comp ha

/-- Indexing an array at a measurable index. -/
theorem measurable_index {a : β → Fin n → α} {i : β → Fin n} (ha : Measurable a) (hi : Measurable i) :
    Measurable (fun b => a b (i b)) := by
  have : Measurable (fun p : (Fin n → α) × Fin n => p.1 p.2) :=
    measurable_from_prod_countable_left fun j => measurable_pi_apply j
  exact this.comp (ha.prodMk hi)

@[fun_prop] theorem measurable_take {a : β → Fin n → α} {i : β → Fin k → Fin n} (ha : Measurable a)
    (hi : Measurable i) : Measurable (fun b => take (a b) (i b)) :=
  measurable_pi_lambda _ fun t =>
    measurable_index (i := fun b => i b t) ha ((measurable_pi_apply t).comp hi)

@[fun_prop] theorem measurable_atSet {a : β → Fin n → α} {i : β → Fin n} {v : β → α} (ha : Measurable a)
    (hi : Measurable i) (hv : Measurable v) : Measurable (fun b => atSet (a b) (i b) (v b)) := by
  refine measurable_pi_lambda _ fun t => ?_
  simp only [atSet_apply]
  refine Measurable.ite ?_ hv ((measurable_pi_apply t).comp ha)
  exact hi (measurableSet_singleton t) |>.congr (by ext b; simp [eq_comm])

@[fun_prop] theorem measurable_roll {a : β → Fin (n + 1) → α} {s : β → Fin (n + 1)} (ha : Measurable a)
    (hs : Measurable s) : Measurable (fun b => roll (a b) (s b)) :=
  measurable_pi_lambda _ fun t =>
    measurable_index (i := fun b => t - s b) ha ((measurable_from_top (f := fun s => t - s)).comp hs)

@[fun_prop] theorem measurable_maxA {a : β → Fin (n + 1) → ℝ} (ha : Measurable a) :
    Measurable (fun b => maxA (a b)) := by
  unfold maxA
  have : (fun b => Finset.univ.sup' Finset.univ_nonempty (a b)) =
      Finset.univ.sup' Finset.univ_nonempty (fun i b => a b i) := by
    funext b; rw [Finset.sup'_apply]
  rw [this]
  exact Finset.measurable_sup' _ fun i _ => (measurable_pi_apply i).comp ha

end arr

/-- A scan with a kernel body denotes a kernel. -/
theorem IsKer.scanM {β C I O : Type} [MeasurableSpace β] [MeasurableSpace C] [MeasurableSpace I]
    [MeasurableSpace O] {body : C → I → Ex (C × O)} (hbody : IsKer (fun p : C × I => body p.1 p.2))
    {n : ℕ} {c : β → C} {inp : β → Fin n → I} (hc : Measurable c) (hinp : Measurable inp) :
    IsKer (fun b => Verif.scanM body (c b) (inp b)) := by
  induction n generalizing β with
  | zero =>
    refine (IsKer.pure (g := fun b => (c b, (Fin.elim0 : Fin 0 → O))) ?_).congr fun b f hf => rfl
    exact hc.prodMk measurable_const
  | succ k ih =>
    have h1 : IsKer (fun b => body (c b) (inp b 0)) :=
      hbody.comp (hc.prodMk ((measurable_pi_apply 0).comp hinp))
    refine (h1.bind (F := fun b r => do
      let rs ← Verif.scanM body r.1 (tailA (inp b))
      Pure.pure (rs.1, insert0 r.2 rs.2)) ?_).congr fun b f hf => rfl
    have h2 : IsKer (fun p : β × (C × O) => Verif.scanM body p.2.1 (tailA (inp p.1))) :=
      ih (measurable_fst.comp measurable_snd) ((measurable_tailA hinp).comp measurable_fst)
    refine h2.bind (F := fun p rs => Pure.pure (rs.1, insert0 p.2.2 rs.2)) (IsKer.pure ?_)
    refine (measurable_fst.comp measurable_snd).prodMk ?_
    exact measurable_insert0 (measurable_snd.comp (measurable_snd.comp measurable_fst))
      (measurable_snd.comp measurable_snd)

end Verif
