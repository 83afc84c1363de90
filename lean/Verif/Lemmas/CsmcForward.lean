import Verif.Lemmas.CsmcCore

/-!
# The forward identity
-/

open scoped ENNReal
open MeasureTheory ProbabilityTheory Finset

namespace Verif
open Verif.Spec Verif.Model

variable {X : Type} [MeasurableSpace X] {N n : ℕ}

theorem isKer_finite_sum {α β : Type} [MeasurableSpace β] [MeasurableSpace α] [Fintype α]
    [DecidableEq α] [MeasurableSingletonClass α] {P : β → Ex α} (hP : IsKer P) (b : β)
    (f : α → ℝ≥0∞) : P b f = ∑ a, P b (fun a' => if a' = a then 1 else 0) * f a := by
  have hm : ∀ g : α → ℝ≥0∞, Measurable g := fun g => measurable_of_finite g
  have h1 : f = fun a' => ∑ a, f a * (if a' = a then 1 else 0) := by
    funext a'; simp
  conv_lhs => rw [h1]
  rw [hP.sum b _ fun i _ => hm _]
  refine Finset.sum_congr rfl fun a _ => ?_
  rw [hP.const_mul b (f a) (hm _), mul_comm]

namespace Spec.CondResampling
variable {R : (Fin (N + 1) → ℝ) → Fin (N + 1) → Fin (N + 1) → Ex (Anc N)}

theorem Ulaw_mul (hR : CondResampling R) {w : Fin (N + 1) → ℝ} (hw : IsProb w) (hp : ∀ i, 0 < w i)
    (i j : Fin (N + 1)) (f : Anc N → ℝ≥0∞) :
    ENNReal.ofReal (w i) * R w i j f = ∑ a, Ulaw R w a * (if a j = i then f a else 0) := by
  obtain ⟨U, hU⟩ := hR.law
  have h1 : ∀ a, Ulaw R w a = U w a := by
    intro a
    unfold Ulaw
    simp only [hU w hw hp]
    rw [Finset.sum_comm]
    rw [Finset.sum_eq_single a]
    · simp
    · intro a' _ ha'
      simp [ha']
    · simp
  rw [hU w hw hp]
  simp only [h1]

theorem Ulaw_marginal (hR : CondResampling R) {w : Fin (N + 1) → ℝ} (hw : IsProb w)
    (hp : ∀ i, 0 < w i) (j : Fin (N + 1)) (f : Fin (N + 1) → ℝ≥0∞) :
    ∑ a, Ulaw R w a * f (a j) = ∑ i, ENNReal.ofReal (w i) * f i := by
  have h1 : ∀ i, ENNReal.ofReal (w i) * f i =
      ∑ a, Ulaw R w a * (if a j = i then f i else 0) := by
    intro i
    rw [← hR.Ulaw_mul hw hp i j (fun _ => f i)]
    have := hR.ker.const_fun (w, i, j) (f i)
    simp only [hR.mass w hw, mul_one] at this
    rw [this]
  simp only [h1]
  rw [Finset.sum_comm]
  refine Finset.sum_congr rfl fun a _ => ?_
  rw [← Finset.mul_sum]
  simp

theorem measurable_Ulaw (hR : CondResampling R) {β : Type} [MeasurableSpace β]
    {w : β → Fin (N + 1) → ℝ} (hw : Measurable w) (a : Anc N) :
    Measurable (fun b => Ulaw R (w b) a) := by
  unfold Ulaw
  refine Finset.measurable_fun_sum _ fun i _ => Measurable.mul ?_ ?_
  · exact ENNReal.measurable_ofReal.comp ((measurable_pi_apply i).comp hw)
  · exact (hR.ker.measurable' (measurable_of_finite _)).comp
      (hw.prodMk (measurable_const (a := (i, (0 : Fin (N + 1))))))

end Spec.CondResampling

@[fun_prop] theorem Hist.measurable_snoc {β : Type} [MeasurableSpace β] {h : β → Hist X N n}
    {a : β → Anc N} {Xs : β → PA X N} (hh : Measurable h) (ha : Measurable a) (hX : Measurable Xs) :
    Measurable (fun b => (h b).snoc (a b) (Xs b)) :=
  (measurable_snocA hh.fst ha).prodMk (measurable_snocA hh.snd hX)

@[fun_prop] theorem Hist.measurable_init {β : Type} [MeasurableSpace β] {h : β → Hist X N (n + 1)}
    (hh : Measurable h) : Measurable (fun b => (h b).init) :=
  (measurable_initA hh.fst).prodMk (measurable_initA hh.snd)

@[fun_prop] theorem Hist.measurable_trace {n : ℕ} {β : Type} [MeasurableSpace β] {h : β → Hist X N n}
    {k : β → Fin (N + 1)} (hh : Measurable h) (hk : Measurable k) :
    Measurable (fun b => (h b).trace (k b)) := by
  induction n generalizing k with
  | zero => exact measurable_pi_lambda _ fun _ => hk
  | succ n ih =>
    refine measurable_snocA (ih (Hist.measurable_init hh) ?_) hk
    exact measurable_index (a := fun b => lastA (h b).1) (measurable_lastA hh.fst) hk

@[fun_prop] theorem Hist.measurable_tracex {β : Type} [MeasurableSpace β] {h : β → Hist X N n}
    {k : β → Fin (N + 1)} (hh : Measurable h) (hk : Measurable k) :
    Measurable (fun b => (h b).tracex (k b)) := by
  refine measurable_pi_lambda _ fun t => ?_
  exact measurable_index (a := fun b => (h b).2 t) (i := fun b => (h b).trace (k b) t)
    ((measurable_pi_apply t).comp hh.snd)
    ((measurable_pi_apply t).comp (Hist.measurable_trace hh hk))

namespace Sys.OK

theorem measurable_lwLast {n : ℕ} {S : Sys X N n} (hS : S.OK) : Measurable S.lwLast := by
  cases n with
  | zero => exact hS.LW0_meas.comp (by fun_prop)
  | succ n =>
    refine (hS.LW_meas (Fin.last n)).comp (Measurable.prodMk ?_ ?_)
    · exact measurable_take (a := fun h : Hist X N (n + 1) => h.2 (Fin.last n).castSucc)
        (by fun_prop) (by fun_prop)
    · fun_prop

theorem measurable_wLast {S : Sys X N n} (hS : S.OK) : Measurable S.wLast :=
  measurable_normalizeW hS.measurable_lwLast

/-- One step of the forward pass denotes a kernel. -/
theorem step_ker {S : Sys X N n} (hS : S.OK) (t : Fin n) {β : Type} [MeasurableSpace β]
    {w : β → Fin (N + 1) → ℝ} {y : β → PA X N} {i j : β → Fin (N + 1)} {x : β → X}
    (hw : Measurable w) (hy : Measurable y) (hi : Measurable i) (hj : Measurable j)
    (hx : Measurable x) : IsKer (fun b => do
      let a ← S.R t (w b) (i b) (j b)
      let Xs ← S.Q t (take (y b) a) (j b) (x b)
      (pure (a, Xs) : Ex (Anc N × PA X N))) := by
  refine ((hS.R_ok t).ker.comp (hw.prodMk (hi.prodMk hj))).bind (F := fun b a => do
    let Xs ← S.Q t (take (y b) a) (j b) (x b)
    pure (a, Xs)) ?_
  refine IsKer.bind (P := fun p : β × Anc N => S.Q t (take (y p.1) p.2) (j p.1) (x p.1))
    (F := fun p Xs => pure (p.2, Xs)) ?_ (IsKer.pure (by fun_prop))
  exact (hS.Q_ker t).comp (by fun_prop : Measurable fun p : β × Anc N =>
    (take (y p.1) p.2, j p.1, x p.1))

theorem fwd_ker {n : ℕ} {S : Sys X N n} (hS : S.OK) :
    IsKer (fun p : (Fin (n + 1) → Fin (N + 1)) × (Fin (n + 1) → X) => S.fwd p.1 p.2) := by
  induction n with
  | zero =>
    refine IsKer.bind (P := fun p : (Fin 1 → Fin (N + 1)) × (Fin 1 → X) => S.Q0 (p.1 0) (p.2 0))
      (F := fun _ x0 => pure ((Fin.elim0, fun _ => x0) : Hist X N 0)) ?_ (IsKer.pure ?_)
    · exact hS.Q0_ker.comp (by fun_prop : Measurable fun p : (Fin 1 → Fin (N + 1)) × (Fin 1 → X) =>
        (p.1 0, p.2 0))
    · fun_prop
  | succ n ih =>
    have h1 := (ih hS.init).comp (g := fun p : (Fin (n + 2) → Fin (N + 1)) × (Fin (n + 2) → X) =>
      (initA p.1, initA p.2)) (by fun_prop)
    have hw : Measurable fun p : ((Fin (n + 2) → Fin (N + 1)) × (Fin (n + 2) → X)) × Hist X N n =>
      S.init.wLast p.2 := hS.init.measurable_wLast.comp measurable_snd
    refine IsKer.congr (h1.bind (F := fun p h => do
      let r ← (do
        let a ← S.R (Fin.last n) (S.init.wLast h) (p.1 (Fin.last n).castSucc) (p.1 (Fin.last (n + 1)))
        let Xs ← S.Q (Fin.last n) (take (lastA h.2) a) (p.1 (Fin.last (n + 1)))
          (p.2 (Fin.last (n + 1)))
        pure (a, Xs))
      pure (h.snoc r.1 r.2)) ?_) (fun p f hf => rfl)
    refine IsKer.bind (β := ((Fin (n + 2) → Fin (N + 1)) × (Fin (n + 2) → X)) × Hist X N n)
      (F := fun p r => pure (p.2.snoc r.1 r.2)) (hS.step_ker (Fin.last n)
        (w := fun p => S.init.wLast p.2) (y := fun p => lastA p.2.2)
        (i := fun p => p.1.1 (Fin.last n).castSucc) (j := fun p => p.1.1 (Fin.last (n + 1)))
        (x := fun p => p.1.2 (Fin.last (n + 1))) hw
        (by fun_prop) (by fun_prop) (by fun_prop) (by fun_prop))
        (IsKer.pure (by fun_prop))

theorem fwd_mass {n : ℕ} {S : Sys X N n} (hS : S.OK) (b : Fin (n + 1) → Fin (N + 1))
    (x : Fin (n + 1) → X) : S.fwd b x (fun _ => 1) = 1 := by
  induction n with
  | zero => exact hS.Q0_mass _ _
  | succ n ih =>
    have h2 : ∀ h : Hist X N n, S.R (Fin.last n) (S.init.wLast h) (b (Fin.last n).castSucc)
        (b (Fin.last (n + 1))) (fun a => S.Q (Fin.last n) (take (lastA h.2) a) (b (Fin.last (n + 1)))
          (x (Fin.last (n + 1))) (fun _ => 1)) = 1 := by
      intro h
      simp only [hS.Q_mass]
      exact (hS.R_ok _).mass _ (normalize_isProb _) _ _
    show S.init.fwd (initA b) (initA x) (fun h => S.R (Fin.last n) (S.init.wLast h)
      (b (Fin.last n).castSucc) (b (Fin.last (n + 1))) (fun a => S.Q (Fin.last n) (take (lastA h.2) a)
        (b (Fin.last (n + 1))) (x (Fin.last (n + 1))) (fun _ => 1))) = 1
    simp only [h2]
    exact ih hS.init _ _

theorem fwd_const {S : Sys X N n} (hS : S.OK) (b : Fin (n + 1) → Fin (N + 1))
    (x : Fin (n + 1) → X) (c : ℝ≥0∞) : S.fwd b x (fun _ => c) = c := by
  have := hS.fwd_ker.const_fun (b, x) c
  simp only [hS.fwd_mass, mul_one] at this
  exact this

theorem path_ker {n : ℕ} {S : Sys X N n} (hS : S.OK) : IsKer (fun _ : Unit => S.path) := by
  induction n with
  | zero =>
    exact hS.G0_ker.bind (F := fun _ x => pure (fun _ : Fin 1 => x)) (IsKer.pure (by fun_prop))
  | succ n ih =>
    refine (ih hS.init).bind (F := fun _ x => do
      let x' ← S.G (Fin.last n) (lastA x)
      pure (snocA x x')) ?_
    exact ((hS.G_ker (Fin.last n)).comp (g := fun p : Unit × (Fin (n + 1) → X) => lastA p.2)
      (by fun_prop)).bind (F := fun p x' => pure (snocA p.2 x')) (IsKer.pure (by fun_prop))

end Sys.OK

theorem sum_snoc {K : Type} [Fintype K] {n : ℕ} (f : (Fin (n + 1) → K) → ℝ≥0∞) :
    ∑ b, f b = ∑ b' : Fin n → K, ∑ j, f (snocA b' j) := by
  rw [← Fintype.sum_prod_type']
  refine Fintype.sum_equiv (⟨fun b => (initA b, lastA b), fun p => snocA p.1 p.2, ?_, ?_⟩) _ _ ?_
  · intro b; simp
  · intro p; simp
  · intro b; simp

/-- **Forward identity**: the law of (history, reference) under the conditional forward pass started from
the target and a uniform index vector is the law of (history, genealogy of a particle selected with the
final weights) under the unconditional system. -/
theorem Sys.OK.forward_identity {n : ℕ} {S : Sys X N n} (hS : S.OK)
    (g : Hist X N n → (Fin (n + 1) → Fin (N + 1)) → (Fin (n + 1) → X) → ℝ≥0∞)
    (hg : Measurable fun p : Hist X N n × (Fin (n + 1) → Fin (N + 1)) × (Fin (n + 1) → X) =>
      g p.1 p.2.1 p.2.2) :
    ∑ b, S.path (fun x => S.fwd b x (fun h => g h b x)) =
      S.Phi (fun h => ∑ k, ENNReal.ofReal (S.wLast h k) * g h (h.trace k) (h.tracex k)) := by
  induction n with
  | zero =>
    have h1 : ∀ b : Fin 1 → Fin (N + 1), b = fun _ => b 0 := fun b => by
      funext i; rw [Subsingleton.elim i 0]
    have e : ∀ f : (Fin 1 → Fin (N + 1)) → ℝ≥0∞, ∑ b, f b = ∑ k, f (fun _ => k) := by
      intro f
      exact Fintype.sum_equiv (Equiv.funUnique (Fin 1) (Fin (N + 1))) _ _ (fun b => by
        conv_lhs => rw [h1 b]
        rfl)
    rw [e]
    have h2 : ∀ k, S.path (fun x => S.fwd (fun _ => k) x (fun h => g h (fun _ => k) x)) =
        S.Z0 (fun Xs => ENNReal.ofReal (Real.exp (S.LW0 Xs k)) *
          g (Fin.elim0, fun _ => Xs) (fun _ => k) (fun _ => Xs k)) := by
      intro k
      refine hS.id0 k (fun x Xs => g (Fin.elim0, fun _ => Xs) (fun _ => k) (fun _ => x)) ?_
      exact hg.comp (by fun_prop : Measurable fun p : X × PA X N =>
        (((Fin.elim0, fun _ => p.2) : Hist X N 0), (fun _ : Fin 1 => k), fun _ : Fin 1 => p.1))
    simp only [h2]
    have h3 : ∀ k ∈ (Finset.univ : Finset (Fin (N + 1))),
        Measurable (fun Xs => ENNReal.ofReal (Real.exp (S.LW0 Xs k)) *
          g (Fin.elim0, fun _ => Xs) (fun _ => k) (fun _ => Xs k)) := by
      intro k _
      refine Measurable.mul ?_ (hg.comp (by fun_prop : Measurable fun p : PA X N =>
        (((Fin.elim0, fun _ => p) : Hist X N 0), (fun _ : Fin 1 => k), fun _ : Fin 1 => p k)))
      exact ENNReal.measurable_ofReal.comp (Real.measurable_exp.comp
        ((measurable_pi_apply k).comp hS.LW0_meas))
    rw [← hS.Z0_ker.sum () _ h3]
    have h4 : (fun Xs => ∑ k, ENNReal.ofReal (Real.exp (S.LW0 Xs k)) *
          g (Fin.elim0, fun _ => Xs) (fun _ => k) (fun _ => Xs k)) = fun Xs =>
        sumExp (S.LW0 Xs) * ∑ k, ENNReal.ofReal (S.wLast (Fin.elim0, fun _ => Xs) k) *
          g (Fin.elim0, fun _ => Xs) (fun _ => k) (fun _ => Xs k) := by
      funext Xs
      rw [Finset.mul_sum]
      refine Finset.sum_congr rfl fun k _ => ?_
      rw [← mul_assoc]
      congr 1
      exact (sumExp_mul_normalize _ k).symm
    rw [h4]
    rfl
  | succ n ih =>
    set S' := S.init with hS'
    have hSi : S'.OK := hS.init
    set L := Fin.last n
    -- the inner functional
    let step : Hist X N n → Fin (N + 1) → (Fin (n + 1) → Fin (N + 1)) → (Fin (n + 1) → X) → X → ℝ≥0∞ :=
      fun h j b' x' xl => S.R L (S'.wLast h) (lastA b') j (fun a =>
        S.Q L (take (lastA h.2) a) j xl (fun Xs => g (h.snoc a Xs) (snocA b' j) (snocA x' xl)))
    have hstep_meas : ∀ j, Measurable fun p : Hist X N n × (Fin (n + 1) → Fin (N + 1)) ×
        (Fin (n + 1) → X) × X => step p.1 j p.2.1 p.2.2.1 p.2.2.2 := by
      intro j
      have hk := hS.step_ker L (β := Hist X N n × (Fin (n + 1) → Fin (N + 1)) × (Fin (n + 1) → X) × X)
        (w := fun p => S'.wLast p.1) (y := fun p => lastA p.1.2) (i := fun p => lastA p.2.1)
        (j := fun _ => j) (x := fun p => p.2.2.2) (hSi.measurable_wLast.comp measurable_fst)
        (by fun_prop) (by fun_prop) (by fun_prop) (by fun_prop)
      exact hk.measurable (f := fun p r => g (p.1.snoc r.1 r.2) (snocA p.2.1 j) (snocA p.2.2.1 p.2.2.2))
        (hg.comp (by fun_prop : Measurable fun q : (Hist X N n × (Fin (n + 1) → Fin (N + 1)) ×
          (Fin (n + 1) → X) × X) × (Anc N × PA X N) =>
          (q.1.1.snoc q.2.1 q.2.2, snocA q.1.2.1 j, snocA q.1.2.2.1 q.1.2.2.2)))
    let g' : Hist X N n → (Fin (n + 1) → Fin (N + 1)) → (Fin (n + 1) → X) → ℝ≥0∞ :=
      fun h b' x' => ∑ j, S.G L (lastA x') (fun xl => step h j b' x' xl)
    have hg'j : ∀ j, Measurable fun p : Hist X N n × (Fin (n + 1) → Fin (N + 1)) ×
        (Fin (n + 1) → X) => S.G L (lastA p.2.2) (fun xl => step p.1 j p.2.1 p.2.2 xl) := by
      intro j
      refine ((hS.G_ker L).comp (g := fun p : Hist X N n × (Fin (n + 1) → Fin (N + 1)) ×
        (Fin (n + 1) → X) => lastA p.2.2) (by fun_prop)).measurable
        (f := fun p xl => step p.1 j p.2.1 p.2.2 xl) ?_
      exact (hstep_meas j).comp (by fun_prop : Measurable fun q : (Hist X N n ×
        (Fin (n + 1) → Fin (N + 1)) × (Fin (n + 1) → X)) × X => (q.1.1, q.1.2.1, q.1.2.2, q.2))
    have hg' : Measurable fun p : Hist X N n × (Fin (n + 1) → Fin (N + 1)) × (Fin (n + 1) → X) =>
        g' p.1 p.2.1 p.2.2 := Finset.measurable_fun_sum _ fun j _ => hg'j j
    have hIH := ih hSi g' hg'
    -- left-hand side
    have hL : ∑ b, S.path (fun x => S.fwd b x (fun h => g h b x)) =
        ∑ b', S'.path (fun x' => S'.fwd b' x' (fun h => g' h b' x')) := by
      rw [sum_snoc]
      refine Finset.sum_congr rfl fun b' _ => ?_
      have h1 : ∀ j, S.path (fun x => S.fwd (snocA b' j) x (fun h => g h (snocA b' j) x)) =
          S'.path (fun x' => S'.fwd b' x' (fun h => S.G L (lastA x') (fun xl => step h j b' x' xl))) := by
        intro j
        have h2 : ∀ x' xl, S.fwd (snocA b' j) (snocA x' xl)
            (fun h => g h (snocA b' j) (snocA x' xl)) = S'.fwd b' x' (fun h => step h j b' x' xl) := by
          intro x' xl
          have e1 : (snocA b' j) (Fin.last (n + 1)) = j := snocA_last _ _
          have e2 : (snocA b' j) (Fin.last n).castSucc = lastA b' := snocA_castSucc _ _ _
          have e3 : (snocA x' xl) (Fin.last (n + 1)) = xl := snocA_last _ _
          show S'.fwd (initA (snocA b' j)) (initA (snocA x' xl)) (fun h =>
            S.R L (S'.wLast h) ((snocA b' j) (Fin.last n).castSucc) ((snocA b' j) (Fin.last (n + 1)))
              (fun a => S.Q L (take (lastA h.2) a) ((snocA b' j) (Fin.last (n + 1)))
                ((snocA x' xl) (Fin.last (n + 1)))
                (fun Xs => g (h.snoc a Xs) (snocA b' j) (snocA x' xl)))) = _
          rw [e1, e2, e3, initA_snocA, initA_snocA]
        show S'.path (fun x' => S.G L (lastA x') (fun xl => S.fwd (snocA b' j) (snocA x' xl)
            (fun h => g h (snocA b' j) (snocA x' xl)))) = _
        simp only [h2]
        have h3 : ∀ x', S.G L (lastA x') (fun xl => S'.fwd b' x' (fun h => step h j b' x' xl)) =
            S'.fwd b' x' (fun h => S.G L (lastA x') (fun xl => step h j b' x' xl)) := by
          intro x'
          refine (hS.G_ker L).swap (lastA x') hSi.fwd_ker (b', x') (f := fun xl h => step h j b' x' xl) ?_
          exact (hstep_meas j).comp (by fun_prop : Measurable fun q : X × Hist X N n =>
            (q.2, b', x', q.1))
        simp only [h3]
      simp only [h1]
      rw [← hSi.path_ker.sum () _ ?_]
      · have h4 : (fun x' => ∑ j, S'.fwd b' x' (fun h => S.G L (lastA x')
            (fun xl => step h j b' x' xl))) = fun x' => S'.fwd b' x' (fun h => g' h b' x') := by
          funext x'
          rw [← hSi.fwd_ker.sum (b', x') _ ?_]
          intro j _
          exact (hg'j j).comp (by fun_prop : Measurable fun h : Hist X N n => (h, b', x'))
        rw [h4]
      · intro j _
        refine (hSi.fwd_ker.comp (g := fun x' => (b', x')) (by fun_prop)).measurable
          (f := fun x' h => S.G L (lastA x') (fun xl => step h j b' x' xl)) ?_
        exact (hg'j j).comp (by fun_prop : Measurable fun q : (Fin (n + 1) → X) × Hist X N n =>
          (q.2, b', q.1))
    rw [hL, hIH]
    -- inside Phi
    show S'.Phi _ = S'.Phi _
    congr 1
    funext h
    set w := S'.wLast h with hw
    have hwp : IsProb w := normalize_isProb _
    have hwpos : ∀ i, 0 < w i := normalize_pos _
    set y := lastA h.2 with hy
    have e1 : ∀ k, ENNReal.ofReal (w k) * g' h (h.trace k) (h.tracex k) =
        ∑ j, S.G L (y k) (fun xl => ∑ a, Ulaw (S.R L) w a * (if a j = k then
          S.Q L (take y a) j xl (fun Xs => g (h.snoc a Xs) (snocA (h.trace k) j)
            (snocA (h.tracex k) xl)) else 0)) := by
      intro k
      rw [Finset.mul_sum]
      refine Finset.sum_congr rfl fun j _ => ?_
      have hx : lastA (h.tracex k) = y k := h.tracex_last k
      have hb : lastA (h.trace k) = k := h.trace_last k
      rw [← (hS.G_ker L).const_mul _ _ (f := fun xl => step h j (h.trace k) (h.tracex k) xl)
        ((hstep_meas j).comp (by fun_prop : Measurable fun xl : X =>
        (h, h.trace k, h.tracex k, xl))), hx]
      have e2 : (fun xl => ENNReal.ofReal (w k) * step h j (h.trace k) (h.tracex k) xl) = fun xl =>
          ∑ a, Ulaw (S.R L) w a * (if a j = k then
          S.Q L (take y a) j xl (fun Xs => g (h.snoc a Xs) (snocA (h.trace k) j)
            (snocA (h.tracex k) xl)) else 0) := by
        funext xl
        show ENNReal.ofReal (w k) * S.R L w (lastA (h.trace k)) j _ = _
        rw [hb, (hS.R_ok L).Ulaw_mul hwp hwpos]
      rw [e2]
    simp only [e1]
    have hQm : ∀ (a : Anc N) (j k : Fin (N + 1)), Measurable fun xl : X =>
        S.Q L (take y a) j xl (fun Xs => g (h.snoc a Xs) (snocA (h.trace k) j)
          (snocA (h.tracex k) xl)) := by
      intro a j k
      refine ((hS.Q_ker L).comp (g := fun xl : X => (take y a, j, xl)) (by fun_prop)).measurable
        (f := fun xl Xs => g (h.snoc a Xs) (snocA (h.trace k) j) (snocA (h.tracex k) xl)) ?_
      exact hg.comp (by fun_prop : Measurable fun q : X × PA X N =>
        (h.snoc a q.2, snocA (h.trace k) j, snocA (h.tracex k) q.1))
    have e3 : ∀ k j, S.G L (y k) (fun xl => ∑ a, Ulaw (S.R L) w a * (if a j = k then
          S.Q L (take y a) j xl (fun Xs => g (h.snoc a Xs) (snocA (h.trace k) j)
            (snocA (h.tracex k) xl)) else 0)) =
        ∑ a, if a j = k then Ulaw (S.R L) w a * S.G L (y (a j)) (fun xl =>
          S.Q L (take y a) j xl (fun Xs => g (h.snoc a Xs) (snocA (h.trace (a j)) j)
            (snocA (h.tracex (a j)) xl))) else 0 := by
      intro k j
      rw [(hS.G_ker L).sum]
      · refine Finset.sum_congr rfl fun a _ => ?_
        by_cases hak : a j = k
        · subst hak
          simp only [if_true]
          exact (hS.G_ker L).const_mul _ _ (hQm a j (a j))
        · simp only [if_neg hak, mul_zero]
          exact (hS.G_ker L).zero _
      · intro a _
        by_cases hak : a j = k
        · simp only [if_pos hak]; exact (hQm a j k).const_mul _
        · simp only [if_neg hak, mul_zero]; exact measurable_const
    simp only [e3]
    have e4 : ∀ (a : Anc N) (j : Fin (N + 1)), S.G L (y (a j)) (fun xl =>
          S.Q L (take y a) j xl (fun Xs => g (h.snoc a Xs) (snocA (h.trace (a j)) j)
            (snocA (h.tracex (a j)) xl))) = S.Z L (take y a) (fun Xs =>
          ENNReal.ofReal (Real.exp (S.LW L (take y a) Xs j)) *
            g (h.snoc a Xs) (snocA (h.trace (a j)) j) (snocA (h.tracex (a j)) (Xs j))) := by
      intro a j
      refine hS.idt L (take y a) j (fun xl Xs => g (h.snoc a Xs) (snocA (h.trace (a j)) j)
        (snocA (h.tracex (a j)) xl)) ?_
      exact hg.comp (by fun_prop : Measurable fun q : X × PA X N =>
        (h.snoc a q.2, snocA (h.trace (a j)) j, snocA (h.tracex (a j)) q.1))
    rw [Finset.sum_comm]
    have e5 : ∀ j, ∑ k, ∑ a, (if a j = k then Ulaw (S.R L) w a * S.G L (y (a j)) (fun xl =>
          S.Q L (take y a) j xl (fun Xs => g (h.snoc a Xs) (snocA (h.trace (a j)) j)
            (snocA (h.tracex (a j)) xl))) else 0) =
        ∑ a, Ulaw (S.R L) w a * S.Z L (take y a) (fun Xs =>
          ENNReal.ofReal (Real.exp (S.LW L (take y a) Xs j)) *
            g (h.snoc a Xs) (snocA (h.trace (a j)) j) (snocA (h.tracex (a j)) (Xs j))) := by
      intro j
      rw [Finset.sum_comm]
      refine Finset.sum_congr rfl fun a _ => ?_
      rw [Finset.sum_ite_eq]
      simp only [Finset.mem_univ, if_true, e4]
    simp only [e5]
    rw [Finset.sum_comm]
    refine Finset.sum_congr rfl fun a _ => ?_
    rw [← Finset.mul_sum]
    congr 1
    rw [← (hS.Z_ker L).sum]
    · have e6 : (fun Xs => ∑ j, ENNReal.ofReal (Real.exp (S.LW L (take y a) Xs j)) *
            g (h.snoc a Xs) (snocA (h.trace (a j)) j) (snocA (h.tracex (a j)) (Xs j))) = fun Xs =>
          sumExp (S.LW L (take y a) Xs) * ∑ k, ENNReal.ofReal (S.wLast (h.snoc a Xs) k) *
            g (h.snoc a Xs) ((h.snoc a Xs).trace k) ((h.snoc a Xs).tracex k) := by
        funext Xs
        rw [Finset.mul_sum]
        refine Finset.sum_congr rfl fun k _ => ?_
        rw [← mul_assoc, Hist.trace_snoc, Hist.tracex_snoc, Sys.wLast, Sys.lwLast_snoc,
          sumExp_mul_normalize]
      rw [e6]
    · intro j _
      refine Measurable.mul ?_ (hg.comp (by fun_prop : Measurable fun Xs : PA X N =>
        (h.snoc a Xs, snocA (h.trace (a j)) j, snocA (h.tracex (a j)) (Xs j))))
      exact ENNReal.measurable_ofReal.comp (Real.measurable_exp.comp ((measurable_pi_apply j).comp
        ((hS.LW_meas L).comp (by fun_prop : Measurable fun Xs : PA X N => (take y a, Xs)))))

end Verif
