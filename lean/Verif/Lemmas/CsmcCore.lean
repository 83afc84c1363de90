import Verif.Core.KerSem
import Verif.Spec.Invariance
import Verif.Lemmas.Normalize

/-!
# The abstract conditional particle system

A time-inhomogeneous conditional particle system (`Sys`) and the two identities behind the invariance of
all conditional SMC kernels: the forward identity and the backward-sampling identity.
-/

open scoped ENNReal
open MeasureTheory ProbabilityTheory Finset

namespace Verif
open Verif.Spec Verif.Model

/-- Ancestor vectors. -/
abbrev Anc (N : ℕ) := Fin (N + 1) → Fin (N + 1)
/-- Arrays of particles. -/
abbrev PA (X : Type) (N : ℕ) := Fin (N + 1) → X
/-- Ancestors and particles of all time steps. -/
abbrev Hist (X : Type) (N n : ℕ) := (Fin n → Anc N) × (Fin (n + 1) → PA X N)

/-- An abstract conditional particle system with its target. -/
structure Sys (X : Type) (N n : ℕ) where
  /-- target: initial measure -/
  G0 : Ex X
  /-- target: transitions -/
  G : Fin n → X → Ex X
  /-- conditional proposal of the particles at time 0, given index and value of the reference -/
  Q0 : Fin (N + 1) → X → Ex (PA X N)
  /-- log-weights at time 0 -/
  LW0 : PA X N → Fin (N + 1) → ℝ
  /-- conditional proposal at time `t+1`, given the parents, index and value of the reference -/
  Q : Fin n → PA X N → Fin (N + 1) → X → Ex (PA X N)
  /-- log-weights at time `t+1`, given parents and children -/
  LW : Fin n → PA X N → PA X N → Fin (N + 1) → ℝ
  /-- resampling at time `t+1` -/
  R : Fin n → (Fin (N + 1) → ℝ) → Fin (N + 1) → Fin (N + 1) → Ex (Anc N)
  /-- unconditional law of the particles at time 0 -/
  Z0 : Ex (PA X N)
  /-- unconditional law of the particles at time `t+1` -/
  Z : Fin n → PA X N → Ex (PA X N)

/-- The conditions on an abstract conditional particle system. -/
structure Sys.OK {X : Type} [MeasurableSpace X] {N n : ℕ} (S : Sys X N n) : Prop where
  G0_ker : IsKer (fun _ : Unit => S.G0)
  G_ker : ∀ t, IsKer (S.G t)
  Q0_ker : IsKer (fun p : Fin (N + 1) × X => S.Q0 p.1 p.2)
  Q_ker : ∀ t, IsKer (fun p : PA X N × Fin (N + 1) × X => S.Q t p.1 p.2.1 p.2.2)
  Q0_mass : ∀ b x, S.Q0 b x (fun _ => 1) = 1
  Q_mass : ∀ t Y b x, S.Q t Y b x (fun _ => 1) = 1
  LW0_meas : Measurable S.LW0
  LW_meas : ∀ t, Measurable (fun p : PA X N × PA X N => S.LW t p.1 p.2)
  R_ok : ∀ t, CondResampling (S.R t)
  Z0_ker : IsKer (fun _ : Unit => S.Z0)
  Z_ker : ∀ t, IsKer (S.Z t)
  id0 : ∀ b (f : X → PA X N → ℝ≥0∞), Measurable (Function.uncurry f) →
    S.G0 (fun x => S.Q0 b x (f x)) =
      S.Z0 (fun Xs => ENNReal.ofReal (Real.exp (S.LW0 Xs b)) * f (Xs b) Xs)
  idt : ∀ t Y b (f : X → PA X N → ℝ≥0∞), Measurable (Function.uncurry f) →
    S.G t (Y b) (fun x => S.Q t Y b x (f x)) =
      S.Z t Y (fun Xs => ENNReal.ofReal (Real.exp (S.LW t Y Xs b)) * f (Xs b) Xs)

/-- The system without its last time step. -/
def Sys.init {X : Type} {N n : ℕ} (S : Sys X N (n + 1)) : Sys X N n where
  G0 := S.G0
  G := initA S.G
  Q0 := S.Q0
  LW0 := S.LW0
  Q := initA S.Q
  LW := initA S.LW
  R := initA S.R
  Z0 := S.Z0
  Z := initA S.Z

section defs
variable {X : Type} {N : ℕ}

theorem Sys.OK.init [MeasurableSpace X] {n : ℕ} {S : Sys X N (n + 1)} (h : S.OK) : S.init.OK where
  G0_ker := h.G0_ker
  G_ker t := h.G_ker t.castSucc
  Q0_ker := h.Q0_ker
  Q_ker t := h.Q_ker t.castSucc
  Q0_mass := h.Q0_mass
  Q_mass t := h.Q_mass t.castSucc
  LW0_meas := h.LW0_meas
  LW_meas t := h.LW_meas t.castSucc
  R_ok t := h.R_ok t.castSucc
  Z0_ker := h.Z0_ker
  Z_ker t := h.Z_ker t.castSucc
  id0 := h.id0
  idt t := h.idt t.castSucc

/-- Log-weights at the last time step. -/
def Sys.lwLast : {n : ℕ} → Sys X N n → Hist X N n → Fin (N + 1) → ℝ
  | 0, S, h => S.LW0 (h.2 0)
  | n + 1, S, h =>
    S.LW (Fin.last n) (take (h.2 (Fin.last n).castSucc) (h.1 (Fin.last n))) (h.2 (Fin.last (n + 1)))

/-- Normalised weights at the last time step. -/
noncomputable def Sys.wLast {n : ℕ} (S : Sys X N n) (h : Hist X N n) : Fin (N + 1) → ℝ :=
  normalizeW (S.lwLast h)

/-- Extending a history by one time step. -/
def Hist.snoc {n : ℕ} (h : Hist X N n) (a : Anc N) (Xs : PA X N) : Hist X N (n + 1) :=
  (snocA h.1 a, snocA h.2 Xs)

/-- A history without its last time step. -/
def Hist.init {n : ℕ} (h : Hist X N (n + 1)) : Hist X N n := (initA h.1, initA h.2)

/-- The conditional forward pass. -/
noncomputable def Sys.fwd : {n : ℕ} → Sys X N n → (Fin (n + 1) → Fin (N + 1)) → (Fin (n + 1) → X) →
    Ex (Hist X N n)
  | 0, S, b, x => do
    let x0 ← S.Q0 (b 0) (x 0)
    pure (Fin.elim0, fun _ => x0)
  | n + 1, S, b, x => do
    let h ← S.init.fwd (initA b) (initA x)
    let a ← S.R (Fin.last n) (S.init.wLast h) (b (Fin.last n).castSucc) (b (Fin.last (n + 1)))
    let Xs ← S.Q (Fin.last n) (take (lastA h.2) a) (b (Fin.last (n + 1))) (x (Fin.last (n + 1)))
    pure (h.snoc a Xs)

/-- The target path measure. -/
noncomputable def Sys.path : {n : ℕ} → Sys X N n → Ex (Fin (n + 1) → X)
  | 0, S => do
    let x ← S.G0
    pure (fun _ => x)
  | n + 1, S => do
    let x ← S.init.path
    let x' ← S.G (Fin.last n) (lastA x)
    pure (snocA x x')

/-- Indices of the genealogy of particle `k` of the last time step. -/
def Hist.trace : {n : ℕ} → Hist X N n → Fin (N + 1) → (Fin (n + 1) → Fin (N + 1))
  | 0, _, k => fun _ => k
  | _ + 1, h, k => snocA (h.init.trace (lastA h.1 k)) k

/-- Values of the genealogy of particle `k` of the last time step. -/
def Hist.tracex {n : ℕ} (h : Hist X N n) (k : Fin (N + 1)) : Fin (n + 1) → X :=
  fun t => h.2 t (h.trace k t)

/-- Sum of the exponentials of the log-weights. -/
noncomputable def sumExp (lw : Fin (N + 1) → ℝ) : ℝ≥0∞ := ∑ i, ENNReal.ofReal (Real.exp (lw i))

/-- The law of which `R` is the conditional. -/
noncomputable def Ulaw (R : (Fin (N + 1) → ℝ) → Fin (N + 1) → Fin (N + 1) → Ex (Anc N))
    (w : Fin (N + 1) → ℝ) (a : Anc N) : ℝ≥0∞ :=
  ∑ i, ENNReal.ofReal (w i) * R w i 0 (fun a' => if a' = a then 1 else 0)

/-- The unnormalised unconditional particle system. -/
noncomputable def Sys.Phi : {n : ℕ} → Sys X N n → Ex (Hist X N n)
  | 0, S => fun f => S.Z0 fun x0 => sumExp (S.LW0 x0) * f (Fin.elim0, fun _ => x0)
  | n + 1, S => fun f => S.init.Phi fun h =>
      ∑ a, Ulaw (S.R (Fin.last n)) (S.init.wLast h) a *
        S.Z (Fin.last n) (take (lastA h.2) a) fun Xs =>
          sumExp (S.LW (Fin.last n) (take (lastA h.2) a) Xs) * f (h.snoc a Xs)

@[simp] theorem Hist.init_snoc {n : ℕ} (h : Hist X N n) (a : Anc N) (Xs : PA X N) :
    (h.snoc a Xs).init = h := by
  simp [Hist.init, Hist.snoc]

@[simp] theorem Hist.trace_snoc {n : ℕ} (h : Hist X N n) (a : Anc N) (Xs : PA X N) (k : Fin (N + 1)) :
    (h.snoc a Xs).trace k = snocA (h.trace (a k)) k := by
  simp [Hist.trace, Hist.snoc, Hist.init]

theorem Hist.trace_last : {n : ℕ} → (h : Hist X N n) → (k : Fin (N + 1)) →
    h.trace k (Fin.last n) = k
  | 0, _, _ => rfl
  | _ + 1, h, k => by simp [Hist.trace]

theorem Hist.tracex_last {n : ℕ} (h : Hist X N n) (k : Fin (N + 1)) :
    h.tracex k (Fin.last n) = lastA h.2 k := by
  rw [Hist.tracex, h.trace_last]; rfl

@[simp] theorem Hist.tracex_snoc {n : ℕ} (h : Hist X N n) (a : Anc N) (Xs : PA X N)
    (k : Fin (N + 1)) : (h.snoc a Xs).tracex k = snocA (h.tracex (a k)) (Xs k) := by
  funext t
  refine Fin.lastCases ?_ (fun s => ?_) t
  · rw [Hist.tracex_last]; simp [Hist.snoc]
  · simp [Hist.tracex, Hist.snoc, Hist.trace, Hist.init]

theorem Sys.lwLast_snoc {n : ℕ} (S : Sys X N (n + 1)) (h : Hist X N n) (a : Anc N) (Xs : PA X N) :
    S.lwLast (h.snoc a Xs) = S.LW (Fin.last n) (take (lastA h.2) a) Xs := by
  simp [Sys.lwLast, Hist.snoc, lastA]

end defs

/-! ### Weights -/

section weights
variable {N : ℕ}

theorem sumExp_eq (lw : Fin (N + 1) → ℝ) :
    sumExp lw = ENNReal.ofReal (∑ i, Real.exp (lw i)) := by
  rw [sumExp, ENNReal.ofReal_sum_of_nonneg fun i _ => (Real.exp_pos _).le]

theorem sumExp_mul_normalize (lw : Fin (N + 1) → ℝ) (k : Fin (N + 1)) :
    sumExp lw * ENNReal.ofReal (normalizeW lw k) = ENNReal.ofReal (Real.exp (lw k)) := by
  have hpos : 0 < ∑ i, Real.exp (lw i) :=
    Finset.sum_pos (fun i _ => Real.exp_pos _) Finset.univ_nonempty
  rw [sumExp_eq, ← ENNReal.ofReal_mul hpos.le, normalize_eq, mul_div_cancel₀ _ hpos.ne']

@[fun_prop] theorem measurable_normalizeW {β : Type} [MeasurableSpace β] {lw : β → Fin (N + 1) → ℝ}
    (h : Measurable lw) : Measurable (fun b => normalizeW (lw b)) := by
  unfold normalizeW normalizeLog logsumexp
  refine measurable_pi_lambda _ fun k => Real.measurable_exp.comp (Measurable.sub ?_ ?_)
  · exact (measurable_pi_apply k).comp h
  · exact Real.measurable_log.comp (Finset.measurable_fun_sum _ fun i _ =>
      Real.measurable_exp.comp ((measurable_pi_apply i).comp h))

@[fun_prop] theorem measurable_sumExp {β : Type} [MeasurableSpace β] {lw : β → Fin (N + 1) → ℝ}
    (h : Measurable lw) : Measurable (fun b => sumExp (lw b)) := by
  unfold sumExp
  exact Finset.measurable_fun_sum _ fun i _ =>
    ENNReal.measurable_ofReal.comp (Real.measurable_exp.comp ((measurable_pi_apply i).comp h))

end weights

end Verif
