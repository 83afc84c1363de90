import Verif.Lemmas.FlatKernels
import Verif.Lemmas.ManyKernel

/-!
# Genealogies with nearly equal weights
-/

open scoped ENNReal Topology
open MeasureTheory Finset Filter

namespace Verif
open Verif.Model Verif.Spec

variable {N n d : ℕ} {α β : Type}

/-! ## Homogeneous programs -/

/-- Averages of multiples are multiples of averages. -/
def ExHom (P : Ex α) : Prop := ∀ (c : ℝ≥0∞) (f : α → ℝ≥0∞), P (fun a => c * f a) = c * P f

theorem ExHom.pure (a : α) : ExHom (Pure.pure a : Ex α) := fun _ _ => rfl

theorem ExHom.bind {P : Ex α} {F : α → Ex β} (hP : ExHom P) (hF : ∀ a, ExHom (F a)) : ExHom (P >>= F) := fun c f => by
  show P (fun a => F a fun b => c * f b) = c * P fun a => F a f
  rw [← hP]
  exact congrArg P (funext fun a => hF a c f)

theorem ExHom.scanM {C I O : Type} {body : C → I → Ex (C × O)} (h : ∀ c i, ExHom (body c i)) {n : ℕ} (c : C) (inp : Fin n → I) :
    ExHom (Verif.scanM body c inp) := by
  induction n generalizing c with
  | zero => exact ExHom.pure _
  | succ k ih =>
    rw [scanM_snoc]
    exact (ih c _).bind fun rs => (h _ _).bind fun r => ExHom.pure _

theorem ExHom.resampling {resampling : Resampling Ex N} (hR : ∀ key, CondResampling fun w i j => resampling key w i j true) (key : Key)
    (w : Fin (N + 1) → ℝ) (i j : Fin (N + 1)) : ExHom (resampling key w i j true) := fun c f =>
  (hR key).ker.const_mul (w, i, j) c (measurable_of_finite f)

/-! ## Nearly equal weights -/

/-- Probabilities close to `1 / (N + 1)`. -/
structure FlatW (S : ℝ) (w : Fin (N + 1) → ℝ) : Prop where
  prob : IsProb w
  lo : ∀ k, Real.exp (-S) / (N + 1) ≤ w k
  hi : ∀ k, w k ≤ Real.exp S / (N + 1)

theorem Flat.weights {S : ℝ} {lw : Fin (N + 1) → ℝ} (h : Flat S lw) : FlatW S (normalizeW lw) := ⟨normalize_isProb lw, h.lower, h.upper⟩

theorem FlatW.pos {S : ℝ} {w : Fin (N + 1) → ℝ} (h : FlatW S w) (k : Fin (N + 1)) : 0 < w k :=
  lt_of_lt_of_le (by positivity) (h.lo k)

/-- A resampling scheme whose expected numbers of children are known when the weights are nearly equal. -/
structure FlatRes (resampling : Resampling Ex N) (lo hi : ℝ → ℝ≥0∞) : Prop where
  good : ∀ key, CondResampling fun w i j => resampling key w i j true
  lower : ∀ key S w, 0 ≤ S → FlatW S w → ∀ i j l, l ≠ i → lo S ≤ offspring (fun w i j => resampling key w i j true) w i j l
  upper : ∀ key S w, 0 ≤ S → FlatW S w → ∀ i j l, l ≠ i → offspring (fun w i j => resampling key w i j true) w i j l ≤ hi S

section res
variable {resampling : Resampling Ex N} (hR : ∀ key, CondResampling fun w i j => resampling key w i j true)
include hR

theorem resampling_ref (key : Key) {w : Fin (N + 1) → ℝ} (hw : IsProb w) (hpos : ∀ k, 0 < w k) (i j : Fin (N + 1)) :
    ExOn (resampling key w i j true) fun A => A j = i where
  mono f g hfg := by
    obtain ⟨U, hU⟩ := (hR key).law
    have h0 : ENNReal.ofReal (w i) ≠ 0 := (ENNReal.ofReal_pos.mpr (hpos i)).ne'
    rw [← ENNReal.mul_le_mul_iff_right h0 ENNReal.ofReal_ne_top, hU w hw hpos, hU w hw hpos]
    refine sum_le_sum fun a _ => mul_le_mul_right ?_ _
    split_ifs with h
    · exact hfg a h
    · exact le_rfl
  const := (resampling_on hR key hw i j).const

theorem offspring_total (key : Key) {w : Fin (N + 1) → ℝ} (hw : IsProb w) (hpos : ∀ k, 0 < w k) (i j : Fin (N + 1)) {q : Fin (N + 1) → ℝ≥0∞} (hq : q i = 0) :
    resampling key w i j true (fun A => ∑ k, q (A k)) = ∑ l ∈ univ.erase i, q l * offspring (fun w i j => resampling key w i j true) w i j l := by
  have hr := resampling_ref hR key hw hpos i j
  have hk := (hR key).ker
  have e : ∀ A : Fin (N + 1) → Fin (N + 1), A j = i → ∑ k, q (A k) = ∑ l ∈ univ.erase i, q l * ∑ a ∈ univ.erase j, if A a = l then 1 else 0 := fun A hA => by
    rw [← add_sum_erase _ _ (mem_univ j), hA, hq, zero_add]
    simp only [mul_sum]
    rw [sum_comm]
    refine sum_congr rfl fun k _ => ?_
    by_cases h : A k = i
    · rw [h, hq]
      refine (sum_eq_zero fun l hl => ?_).symm
      rw [if_neg (ne_of_mem_erase hl).symm, mul_zero]
    · rw [sum_eq_single (A k)]
      · rw [if_pos rfl, mul_one]
      · intro l _ hl
        rw [if_neg hl.symm, mul_zero]
      · exact fun h' => absurd (mem_erase.mpr ⟨h, mem_univ _⟩) h'
  rw [le_antisymm (hr.mono _ _ fun A hA => (e A hA).le) (hr.mono _ _ fun A hA => (e A hA).ge)]
  rw [hk.sum (w, i, j) _ fun l _ => measurable_of_finite _]
  exact sum_congr rfl fun l _ => hk.const_mul (w, i, j) _ (measurable_of_finite _)

end res

/-- The expected number of children with a property that the reference has not. -/
theorem FlatRes.count {resampling : Resampling Ex N} {lo hi : ℝ → ℝ≥0∞} (h : FlatRes resampling lo hi) (key : Key) {S : ℝ} (hS : 0 ≤ S)
    {w : Fin (N + 1) → ℝ} (hw : FlatW S w) (i j : Fin (N + 1)) {q : Fin (N + 1) → ℝ≥0∞} (hq : q i = 0) :
    lo S * ∑ k, q k ≤ resampling key w i j true (fun A => ∑ k, q (A k)) ∧ resampling key w i j true (fun A => ∑ k, q (A k)) ≤ hi S * ∑ k, q k := by
  rw [offspring_total h.good key hw.prob hw.pos i j hq, ← add_sum_erase _ _ (mem_univ i), hq, zero_add, mul_sum, mul_sum]
  constructor
  · refine sum_le_sum fun l hl => ?_
    rw [mul_comm]
    exact mul_le_mul_right (h.lower key S w hS hw i j l (ne_of_mem_erase hl)) _
  · refine sum_le_sum fun l hl => ?_
    rw [mul_comm (hi S)]
    exact mul_le_mul_right (h.upper key S w hS hw i j l (ne_of_mem_erase hl)) _

/-! ## Genealogies -/

/-- Index at time `t` of the ancestor of particle `k` of the last time. -/
def anc : {n : ℕ} → (Fin n → Fin (N + 1) → Fin (N + 1)) → Fin (N + 1) → Fin (n + 1) → Fin (N + 1)
  | 0, _, k => fun _ => k
  | _ + 1, As, k => snocA (anc (initA As) (lastA As k)) k

theorem anc_last (As : Fin n → Fin (N + 1) → Fin (N + 1)) (k : Fin (N + 1)) : anc As k (Fin.last n) = k := by
  cases n with
  | zero => rfl
  | succ n => exact snocA_last _ _

theorem trace_eq {X : Type} (h : Hist X N n) (k : Fin (N + 1)) : h.trace k = anc h.1 k := by
  induction n generalizing k with
  | zero => rfl
  | succ n ih =>
    show snocA (h.init.trace (lastA h.1 k)) k = snocA (anc (initA h.1) (lastA h.1 k)) k
    rw [ih]
    rfl

/-- The index at time `t` of the trajectory kept without backward sampling. -/
theorem bscan_pass {X : Type} (key : Key) (As : Fin n → Fin (N + 1) → Fin (N + 1)) (bT : Fin (N + 1)) (xs : Fin (n + 1) → Fin (N + 1) → X)
    (lw : Fin (N + 1) → ℝ) (mv : AncestorMove Ex N) (g : (Fin (n + 1) → Fin (N + 1)) → ℝ≥0∞) :
    (backward_scanning_pass key As bT xs lw mv : Ex _) (fun q => g q.2) = moveIndex mv key (normalizeW lw) bT fun k => g (anc As k) := by
  have h : ∀ k, rev (insert0 k (fun t => ((scan bscanBody k (fun t => (revInit xs t, rev As t))).2 t).2)) = anc As k := fun k => by
    have := (bscan_eq (X := X) (As, xs) k).2
    rw [trace_eq] at this
    exact this
  show moveIndex mv key (normalizeW lw) bT (fun k => g (rev (insert0 k (fun t => ((scan bscanBody k (fun t => (revInit xs t, rev As t))).2 t).2)))) = _
  simp only [h]

section scan
variable {X I : Type} {resampling : Resampling Ex N} {lo hi : ℝ → ℝ≥0∞} {S : ℝ}
  {body : (Fin (N + 1) → ℝ) × (Fin (N + 1) → X) → I → Ex (((Fin (N + 1) → ℝ) × (Fin (N + 1) → X)) × ((Fin (N + 1) → ℝ) × (Fin (N + 1) → Fin (N + 1))))}

/-- The step resamples, then computes nearly equal log-weights. -/
def GenBody (resampling : Resampling Ex N) (S : ℝ)
    (body : (Fin (N + 1) → ℝ) × (Fin (N + 1) → X) → I → Ex (((Fin (N + 1) → ℝ) × (Fin (N + 1) → X)) × ((Fin (N + 1) → ℝ) × (Fin (N + 1) → Fin (N + 1)))))
    (inp : Fin n → I) (keys : Fin n → Key) (xs : Fin (n + 1) → Fin (N + 1) → X) (b : Fin (n + 1) → Fin (N + 1)) : Prop :=
  ∀ (t : Fin n) c, c.2 = xs t.castSucc → ∃ ψ : (Fin (N + 1) → Fin (N + 1)) → Fin (N + 1) → ℝ, (∀ A, Flat S (ψ A)) ∧
    body c (inp t) = (resampling (keys t) c.1 (b t.castSucc) (b t.succ) true >>= fun A => pure ((normalizeW (ψ A), xs t.succ), (ψ A, A)))

variable (hR : FlatRes resampling lo hi) (hS : 0 ≤ S) {w0 : Fin (N + 1) → ℝ} (hw0 : FlatW S w0)
include hR hw0

theorem gen_on {inp : Fin n → I} {keys : Fin n → Key} {xs : Fin (n + 1) → Fin (N + 1) → X} {b : Fin (n + 1) → Fin (N + 1)}
    (h : GenBody resampling S body inp keys xs b) : ExOn (scanM body (w0, xs 0) inp) fun r => FlatW S r.1.1 ∧ r.1.2 = xs (Fin.last n) ∧
      (∀ t, anc (fun s => (r.2 s).2) (b (Fin.last n)) t = b t) ∧ ∀ t, Flat S (r.2 t).1 := by
  induction n with
  | zero => exact ExOn.pure ⟨hw0, rfl, fun t => by rw [Fin.fin_one_eq_zero t]; rfl, fun t => t.elim0⟩
  | succ n ih =>
    rw [scanM_snoc]
    refine ExOn.bind (ih (inp := initA inp) (keys := initA keys) (xs := initA xs) (b := initA b) fun t c hc => h t.castSucc c hc) fun rs hrs => ?_
    obtain ⟨ψ, hψ, e⟩ := h (Fin.last n) rs.1 hrs.2.1
    have e' : body rs.1 (lastA inp) = _ := e
    rw [e']
    refine ExOn.bind (ExOn.bind (Q := fun r => ∃ A : Fin (N + 1) → Fin (N + 1), A (b (Fin.last n).succ) = b (Fin.last n).castSucc ∧
        r = ((normalizeW (ψ A), xs (Fin.last n).succ), (ψ A, A))) (resampling_ref hR.good _ hrs.1.prob hrs.1.pos _ _) fun A hA => ExOn.pure ⟨A, hA, rfl⟩) fun r hr => ?_
    obtain ⟨A, hA, rfl⟩ := hr
    refine ExOn.pure ⟨(hψ A).weights, rfl, fun t => ?_, fun t => ?_⟩
    · have e1 : (fun s => (snocA rs.2 (ψ A, A) s).2) = snocA (fun s => (rs.2 s).2) A := by
        funext s
        induction s using Fin.lastCases with
        | last => simp
        | cast s => simp
      show anc (fun s => (snocA rs.2 (ψ A, A) s).2) _ t = _
      rw [e1]
      induction t using Fin.lastCases with
      | last => exact anc_last _ _
      | cast t =>
        show snocA (anc (initA (snocA (fun s => (rs.2 s).2) A)) (lastA (snocA (fun s => (rs.2 s).2) A) (b (Fin.last (n + 1))))) _ t.castSucc = _
        rw [snocA_castSucc, initA_snocA, lastA_snocA]
        have : A (b (Fin.last (n + 1))) = b (Fin.last n).castSucc := hA
        rw [this]
        exact hrs.2.2.1 t
    · show Flat S (snocA rs.2 (ψ A, A) t).1
      induction t using Fin.lastCases with
      | last => rw [snocA_last]; exact hψ A
      | cast t => rw [snocA_castSucc]; exact hrs.2.2.2 t

include hS

/-- The expected number of particles at the last time whose ancestor at time `t` is not the reference. -/
theorem gen_scan (hhom : ∀ c i, ExHom (body c i)) {inp : Fin n → I} {keys : Fin n → Key} {xs : Fin (n + 1) → Fin (N + 1) → X} {b : Fin (n + 1) → Fin (N + 1)}
    (h : GenBody resampling S body inp keys xs b) (t : Fin (n + 1)) :
    lo S ^ (n - t.1) * N ≤ scanM body (w0, xs 0) inp (fun r => ∑ k, if anc (fun s => (r.2 s).2) k t ≠ b t then 1 else 0) ∧
      scanM body (w0, xs 0) inp (fun r => ∑ k, if anc (fun s => (r.2 s).2) k t ≠ b t then 1 else 0) ≤ hi S ^ (n - t.1) * N := by
  have hlast : ∀ c : Fin (N + 1), ∑ k, (if k ≠ c then (1 : ℝ≥0∞) else 0) = N := fun c => by
    rw [← add_sum_erase _ _ (mem_univ c), if_neg (by simp), zero_add, sum_congr rfl fun k hk => if_pos (ne_of_mem_erase hk)]
    simp
  have hl : ∀ {n : ℕ} {inp : Fin n → I} {keys : Fin n → Key} {xs : Fin (n + 1) → Fin (N + 1) → X} {b : Fin (n + 1) → Fin (N + 1)},
      GenBody resampling S body inp keys xs b →
      scanM body (w0, xs 0) inp (fun r => ∑ k, if anc (fun s => (r.2 s).2) k (Fin.last n) ≠ b (Fin.last n) then 1 else 0) = N := fun h => by
    simp only [anc_last, hlast]
    exact (gen_on hR hw0 h).const _
  induction n with
  | zero =>
    have ht : t = Fin.last 0 := Fin.fin_one_eq_zero t
    subst ht
    rw [hl h]
    simp
  | succ n ih =>
    induction t using Fin.lastCases with
    | last =>
      rw [hl h]
      simp
    | cast t =>
      have h' : GenBody resampling S body (initA inp) (initA keys) (initA xs) (initA b) := fun t c hc => h t.castSucc c hc
      have ih' := ih h' t
      have hon := gen_on hR hw0 h'
      have hh := ExHom.scanM hhom (w0, initA xs 0) (initA inp)
      have hexp : n + 1 - (t.castSucc : Fin (n + 2)).1 = (n - t.1) + 1 := by
        have := t.2
        simp only [Fin.val_castSucc]
        omega
      rw [scanM_snoc, hexp, pow_succ', pow_succ', mul_assoc, mul_assoc]
      have hstep : ∀ rs : ((Fin (N + 1) → ℝ) × (Fin (N + 1) → X)) × (Fin n → (Fin (N + 1) → ℝ) × (Fin (N + 1) → Fin (N + 1))),
          (FlatW S rs.1.1 ∧ rs.1.2 = initA xs (Fin.last n) ∧ (∀ t, anc (fun s => (rs.2 s).2) (initA b (Fin.last n)) t = initA b t) ∧ ∀ t, Flat S (rs.2 t).1) →
          lo S * ∑ k, (if anc (fun s => (rs.2 s).2) k t ≠ initA b t then 1 else 0) ≤
            body rs.1 (lastA inp) (fun r => ∑ k, if anc (fun s => (snocA rs.2 r.2 s).2) k t.castSucc ≠ b t.castSucc then 1 else 0) ∧
          body rs.1 (lastA inp) (fun r => ∑ k, if anc (fun s => (snocA rs.2 r.2 s).2) k t.castSucc ≠ b t.castSucc then 1 else 0) ≤
            hi S * ∑ k, (if anc (fun s => (rs.2 s).2) k t ≠ initA b t then 1 else 0) := fun rs hrs => by
        obtain ⟨ψ, hψ, e⟩ := h (Fin.last n) rs.1 hrs.2.1
        have e' : body rs.1 (lastA inp) = _ := e
        have ea : ∀ (p : (Fin (N + 1) → ℝ) × (Fin (N + 1) → Fin (N + 1))) k, anc (fun s => (snocA rs.2 p s).2) k t.castSucc = anc (fun s => (rs.2 s).2) (p.2 k) t := fun p k => by
          have e1 : (fun s => (snocA rs.2 p s).2) = snocA (fun s => (rs.2 s).2) p.2 := by
            funext s
            induction s using Fin.lastCases with
            | last => simp
            | cast s => simp
          rw [e1]
          show snocA (anc (initA (snocA (fun s => (rs.2 s).2) p.2)) (lastA (snocA (fun s => (rs.2 s).2) p.2) k)) _ t.castSucc = _
          rw [snocA_castSucc, initA_snocA, lastA_snocA]
        simp only [ea]
        rw [e']
        exact hR.count (keys (Fin.last n)) hS hrs.1 (b (Fin.last n).castSucc) (b (Fin.last n).succ)
          (q := fun k => if anc (fun s => (rs.2 s).2) k t ≠ initA b t then 1 else 0) (if_neg (not_not.mpr (hrs.2.2.1 t)))
      constructor
      · refine (mul_le_mul_right ih'.1 _).trans ?_
        rw [← hh]
        exact hon.mono _ _ fun rs hrs => (hstep rs hrs).1
      · refine le_trans ?_ (mul_le_mul_right ih'.2 _)
        rw [← hh]
        exact hon.mono _ _ fun rs hrs => (hstep rs hrs).2

end scan

end Verif
