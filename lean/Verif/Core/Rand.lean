import Mathlib.Probability.Distributions.Gaussian.Real
import Mathlib.MeasureTheory.Constructions.Pi
import Mathlib.Data.List.Infix
import Verif.Core.Arr

/-!
# Random programs

`RandM m` is the interface of `jax.random` used by the code; every random program of the model is
written once, for an arbitrary `m`.  Two interpretations are given here:

* `Poss`: the set of possible results together with the list of PRNG keys consumed;
* `Ex`: the expectation of a test function (all draws independent).
-/

open scoped ENNReal
open MeasureTheory ProbabilityTheory

namespace Verif

/-- A PRNG key: the path of `split` indices from the root key, most recent first.
`jax.random.split(key, num)[i]` is `child key i`.  The number `num` of keys requested is not recorded, so
that two splits of the same key are (conservatively) considered to overlap. -/
abbrev Key := List ℕ

/-- `jax.random.split(key, num)[i]`. -/
def Key.child (key : Key) (i : ℕ) : Key := i :: key

/-- `jax.random.split(key, num)`. -/
def splitKey (key : Key) (num : ℕ) : Fin num → Key := fun i => Key.child key i

/-- The draws of `jax.random` used by the code. -/
class RandM (m : Type → Type) extends Monad m where
  /-- `jax.random.choice(key, n, p=p, shape=())`. -/
  choice : Key → {n : ℕ} → (Fin n → ℝ) → m (Fin n)
  /-- `jax.random.choice(key, n, p=p, shape=(k,))`, with replacement. -/
  choices : Key → {n : ℕ} → (k : ℕ) → (Fin n → ℝ) → m (Fin k → Fin n)
  /-- `jax.random.uniform(key, shape=())`. -/
  uniform : Key → m ℝ
  /-- `jax.random.uniform(key, shape=(k,))`. -/
  uniforms : Key → (k : ℕ) → m (Fin k → ℝ)
  /-- `jax.random.normal(key, shape=(d,))`. -/
  normal1 : Key → (d : ℕ) → m (Fin d → ℝ)
  /-- `jax.random.normal(key, shape=(k, d))`. -/
  normal2 : Key → (k d : ℕ) → m (Fin k → Fin d → ℝ)
  /-- `jax.random.normal(key, shape=(l, k, d))`. -/
  normal3 : Key → (l k d : ℕ) → m (Fin l → Fin k → Fin d → ℝ)

export RandM (choice choices uniform uniforms normal1 normal2 normal3)

/-! ## Possible outcomes, with the log of consumed keys -/

/-- A set of (result, consumed keys) pairs. -/
def Poss (α : Type) : Type := α → List Key → Prop

namespace Poss

instance : Monad Poss where
  pure a := fun b L => b = a ∧ L = []
  bind P f := fun b L => ∃ a L₁ L₂, P a L₁ ∧ f a b L₂ ∧ L = L₁ ++ L₂

theorem pure_def {α : Type} (a b : α) (L : List Key) :
    (pure a : Poss α) b L ↔ b = a ∧ L = [] := Iff.rfl

theorem bind_def {α β : Type} (P : Poss α) (f : α → Poss β) (b : β) (L : List Key) :
    (P >>= f) b L ↔ ∃ a L₁ L₂, P a L₁ ∧ f a b L₂ ∧ L = L₁ ++ L₂ := Iff.rfl

instance : LawfulMonad Poss := LawfulMonad.mk'
  (id_map := by
    intro α P; funext b L; apply propext
    constructor
    · rintro ⟨a, L₁, L₂, h, ⟨rfl, rfl⟩, rfl⟩; simpa using h
    · intro h; exact ⟨b, L, [], h, ⟨rfl, rfl⟩, by simp⟩)
  (pure_bind := by
    intro α β a f; funext b L; apply propext
    constructor
    · rintro ⟨a, L₁, L₂, ⟨rfl, rfl⟩, h, rfl⟩; simpa using h
    · intro h; exact ⟨a, [], L, ⟨rfl, rfl⟩, h, by simp⟩)
  (bind_assoc := by
    intro α β γ P f g; funext b L; apply propext
    constructor
    · rintro ⟨a, L₁, L₂, ⟨a', L₃, L₄, h1, h2, rfl⟩, h3, rfl⟩
      exact ⟨a', L₃, L₄ ++ L₂, h1, ⟨a, L₄, L₂, h2, h3, rfl⟩, by simp⟩
    · rintro ⟨a, L₁, L₂, h1, ⟨a', L₃, L₄, h2, h3, rfl⟩, rfl⟩
      exact ⟨a', L₁ ++ L₃, L₄, ⟨a, L₁, L₃, h1, h2, rfl⟩, h3, by simp⟩)

/-- Indices that a draw with (unnormalised) probabilities `p` may return: those of positive
probability, or any index when no entry is positive. -/
def Supp {n : ℕ} (p : Fin n → ℝ) (i : Fin n) : Prop := 0 < p i ∨ ∀ j, p j ≤ 0

instance : RandM Poss where
  choice key _ p := fun i L => Supp p i ∧ L = [key]
  choices key _ _ p := fun a L => (∀ t, Supp p (a t)) ∧ L = [key]
  uniform key := fun u L => (0 ≤ u ∧ u < 1) ∧ L = [key]
  uniforms key _ := fun u L => (∀ t, 0 ≤ u t ∧ u t < 1) ∧ L = [key]
  normal1 key _ := fun _ L => L = [key]
  normal2 key _ _ := fun _ L => L = [key]
  normal3 key _ _ _ := fun _ L => L = [key]

/-- Every possible result satisfies `Q`. -/
def Always {α : Type} (P : Poss α) (Q : α → Prop) : Prop := ∀ a L, P a L → Q a

theorem always_pure {α : Type} {a : α} {Q : α → Prop} (h : Q a) : Always (pure a : Poss α) Q := by
  rintro b L ⟨rfl, _⟩; exact h

theorem always_bind {α β : Type} {P : Poss α} {f : α → Poss β} {R : α → Prop} {Q : β → Prop}
    (hP : Always P R) (hf : ∀ a, R a → Always (f a) Q) : Always (P >>= f) Q := by
  rintro b L ⟨a, L₁, L₂, h1, h2, _⟩
  exact hf a (hP a _ h1) b _ h2

theorem always_bind' {α β : Type} {P : Poss α} {f : α → Poss β} {Q : β → Prop}
    (hf : ∀ a, Always (f a) Q) : Always (P >>= f) Q := by
  rintro b L ⟨a, L₁, L₂, _, h2, _⟩
  exact hf a b _ h2

theorem always_mono {α : Type} {P : Poss α} {Q R : α → Prop} (h : Always P Q)
    (hQR : ∀ a, Q a → R a) : Always P R := fun a L hP => hQR a (h a L hP)

theorem always_and {α : Type} {P : Poss α} {Q R : α → Prop} (h : Always P Q) (h' : Always P R) :
    Always P (fun a => Q a ∧ R a) := fun a L hP => ⟨h a L hP, h' a L hP⟩

theorem always_true {α : Type} (P : Poss α) : Always P (fun _ => True) := fun _ _ _ => trivial

/-- Invariant rule for scans: `Inv t c os` relates the carry and the outputs so far. -/
theorem always_scanM {C I O : Type} {body : C → I → Poss (C × O)}
    {n : ℕ} (c : C) (inp : Fin n → I) (Inv : (t : ℕ) → t ≤ n → C → (Fin t → O) → Prop)
    (h0 : Inv 0 (Nat.zero_le _) c Fin.elim0)
    (hstep : ∀ (t : ℕ) (ht : t < n) (c : C) (os : Fin t → O), Inv t ht.le c os →
      Always (body c (inp ⟨t, ht⟩)) (fun r => Inv (t + 1) ht r.1 (snocA os r.2))) :
    Always (scanM body c inp) (fun r => Inv n le_rfl r.1 r.2) := by
  induction n with
  | zero => exact always_pure h0
  | succ k ih =>
    rw [scanM_snoc]
    refine always_bind (ih (initA inp) (fun t ht => Inv t (ht.trans (Nat.le_succ k))) h0
      (fun t ht c os hI => hstep t (ht.trans (Nat.lt_succ_self k)) c os hI)) ?_
    intro rs hrs
    refine always_bind (hstep k (Nat.lt_succ_self k) rs.1 rs.2 hrs) ?_
    intro r hr
    exact always_pure hr

end Poss

/-! ## Expectations -/

/-- Expectation transformer. -/
def Ex (α : Type) : Type := (α → ℝ≥0∞) → ℝ≥0∞

/-- Probability of index `i` under the (unnormalised) weights `p`. -/
noncomputable def catP {n : ℕ} (p : Fin n → ℝ) (i : Fin n) : ℝ≥0∞ :=
  ENNReal.ofReal (p i / ∑ j, p j)

/-- The uniform law on `[0, 1)`. -/
noncomputable def unifM : Measure ℝ := volume.restrict (Set.Ico 0 1)

/-- The standard Gaussian law on `ℝ^d`. -/
noncomputable def gaussM (d : ℕ) : Measure (Fin d → ℝ) := Measure.pi fun _ => gaussianReal 0 1

namespace Ex

instance : Monad Ex where
  pure a := fun f => f a
  bind P g := fun f => P (fun a => g a f)

instance : LawfulMonad Ex := LawfulMonad.mk'
  (id_map := fun _ => rfl) (pure_bind := fun _ _ => rfl) (bind_assoc := fun _ _ _ => rfl)

theorem pure_def {α : Type} (a : α) (f : α → ℝ≥0∞) : (pure a : Ex α) f = f a := rfl

theorem bind_def {α β : Type} (P : Ex α) (g : α → Ex β) (f : β → ℝ≥0∞) :
    (P >>= g) f = P (fun a => g a f) := rfl

noncomputable instance : RandM Ex where
  choice _ _ p := fun f => ∑ i, catP p i * f i
  choices _ _ _ p := fun f => ∑ a, (∏ t, catP p (a t)) * f a
  uniform _ := fun f => ∫⁻ u, f u ∂unifM
  uniforms _ k := fun f => ∫⁻ u, f u ∂(Measure.pi fun _ : Fin k => unifM)
  normal1 _ d := fun f => ∫⁻ e, f e ∂(gaussM d)
  normal2 _ k d := fun f => ∫⁻ e, f e ∂(Measure.pi fun _ : Fin k => gaussM d)
  normal3 _ l k d := fun f =>
    ∫⁻ e, f e ∂(Measure.pi fun _ : Fin l => Measure.pi fun _ : Fin k => gaussM d)

theorem congr_fun' {α : Type} (P : Ex α) {f g : α → ℝ≥0∞} (h : ∀ a, f a = g a) : P f = P g := by
  rw [show f = g from funext h]

/-- Expectation of `f` under the program `P`. -/
def E {α : Type} (P : Ex α) (f : α → ℝ≥0∞) : ℝ≥0∞ := P f

/-- Probability that the result of the program `P` satisfies `Q`. -/
noncomputable def Pr {α : Type} (P : Ex α) (Q : α → Prop) [DecidablePred Q] : ℝ≥0∞ :=
  P (fun a => if Q a then 1 else 0)

end Ex

end Verif
