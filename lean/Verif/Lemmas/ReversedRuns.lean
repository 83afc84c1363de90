import Verif.Lemmas.ChainInv
import Verif.Lemmas.Supp
import Verif.Lemmas.SlicedUse

/-!
# Runs of reversible chains, and auto-covariances
-/

open scoped ENNReal
open MeasureTheory Finset

namespace Verif
open Verif.Spec Verif.Model

variable {S : Type} {step : Key → S → Ex S}

/-- The last step of a chain, taken apart. -/
theorem chain_snoc {n : ℕ} (keys : Fin (n + 1) → Key) (s : S) (F : (Fin (n + 2) → S) → ℝ≥0∞) :
    chain step s keys F =
      chain step s (initA keys) (fun tr => step (lastA keys) (lastA tr) (fun s' => F (snocA tr s'))) := by
  induction n generalizing s with
  | zero =>
    show step (keys 0) s (fun s' => F (insert0 s (fun _ : Fin 1 => s'))) =
      step (keys 0) s (fun s' => F (snocA (fun _ : Fin 1 => s) s'))
    congr 1
    funext s'
    congr 1
    funext i
    fin_cases i <;> rfl
  | succ n ih =>
    show step (keys 0) s (fun s' => chain step s' (tailA keys) (fun rest => F (insert0 s rest))) =
      step (keys 0) s (fun s' => chain step s' (tailA (initA keys)) (fun rest =>
        step (lastA keys) (lastA (insert0 s rest)) (fun s'' => F (snocA (insert0 s rest) s''))))
    congr 1
    funext s'
    rw [ih (tailA keys) s' (fun rest => F (insert0 s rest))]
    refine congrArg (chain step s' (tailA (initA keys))) (funext fun rest => ?_)
    refine congrArg (step (lastA keys) (lastA rest)) (funext fun s'' => congrArg F ?_)
    exact Fin.cons_snoc_eq_snoc_cons s rest s''

/-- A chain starts where it is started. -/
theorem chain_head {n : ℕ} (keys : Fin n → Key) (s : S) (F : S → (Fin (n + 1) → S) → ℝ≥0∞) :
    chain step s keys (fun tr => F (tr 0) tr) = chain step s keys (F s) := by
  cases n with
  | zero => rfl
  | succ n => rfl

theorem insert0_rev {n : ℕ} (s : S) (tr : Fin (n + 1) → S) : insert0 s (rev tr) = rev (snocA tr s) := by
  funext i
  refine Fin.cases ?_ (fun j => ?_) i
  · show s = snocA tr s (Fin.rev 0)
    rw [Fin.rev_zero]
    exact (Fin.snoc_last (α := fun _ => S) s tr).symm
  · show tr j.rev = snocA tr s (Fin.rev j.succ)
    rw [Fin.rev_succ]
    exact (Fin.snoc_castSucc (α := fun _ => S) s tr j.rev).symm

variable [MeasurableSpace S] {I : Ex S}

/-- If the pair of successive states is reversible for every key, a run read backwards is a run with the keys in the
opposite order. -/
theorem chain_reversed (hk : ∀ key, IsKer (step key))
    (hrev : ∀ key (H : S → S → ℝ≥0∞), Measurable (Function.uncurry H) →
      I (fun s => step key s (H s)) = I (fun s => step key s (fun s' => H s' s))) {n : ℕ} (keys : Fin n → Key)
    {F : (Fin (n + 1) → S) → ℝ≥0∞} (hF : Measurable F) :
    I (fun s => chain step s keys F) = I (fun s => chain step s (rev keys) (fun tr => F (rev tr))) := by
  induction n with
  | zero =>
    rfl
  | succ n ih =>
    have hin : Measurable fun q : S × (Fin (n + 1) → S) => F (insert0 q.1 q.2) :=
      hF.comp (measurable_insert0 measurable_fst measurable_snd)
    have hch := chain_ker hk (tailA keys)
    have h1 := hrev (keys 0) (fun s s' => chain step s' (tailA keys) (fun rest => F (insert0 s rest)))
      ((hch.comp measurable_snd).measurable (f := fun (p : S × S) rest => F (insert0 p.1 rest))
        (hin.comp (by fun_prop : Measurable fun q : (S × S) × (Fin (n + 1) → S) => (q.1.1, q.2))))
    refine h1.trans ?_
    have h2 : ∀ s', step (keys 0) s' (fun s => chain step s' (tailA keys) (fun rest => F (insert0 s rest))) =
        chain step s' (tailA keys) (fun rest => step (keys 0) (rest 0) (fun s => F (insert0 s rest))) := fun s' => by
      rw [(hk (keys 0)).swap s' hch s' (f := fun s rest => F (insert0 s rest)) hin]
      exact (chain_head (tailA keys) s' fun a rest => step (keys 0) a (fun s => F (insert0 s rest))).symm
    simp only [h2]
    have hG : Measurable fun rest : Fin (n + 1) → S => step (keys 0) (rest 0) (fun s => F (insert0 s rest)) :=
      ((hk (keys 0)).comp (g := fun rest : Fin (n + 1) → S => rest 0) (by fun_prop)).measurable
        (f := fun rest s => F (insert0 s rest))
        (hin.comp (by fun_prop : Measurable fun q : (Fin (n + 1) → S) × S => (q.2, q.1)))
    rw [ih (tailA keys) hG]
    congr 1
    funext s
    rw [chain_snoc (rev keys)]
    have e : initA (rev keys) = rev (tailA keys) := by
      funext i
      show keys (Fin.rev i.castSucc) = keys i.rev.succ
      rw [Fin.rev_castSucc]
    have e' : lastA (rev keys) = keys 0 := by
      show keys (Fin.rev (Fin.last n)) = keys 0
      rw [Fin.rev_last]
    have e'' : ∀ tr : Fin (n + 1) → S, rev tr 0 = lastA tr := fun tr => by
      show tr (Fin.rev 0) = tr (Fin.last n)
      rw [Fin.rev_zero]
    rw [e, e']
    simp only [e'', insert0_rev]

/-! ## Powers of a kernel -/

/-- `k` steps. -/
noncomputable def iterK (κ : S → Ex S) : ℕ → (S → ℝ≥0∞) → S → ℝ≥0∞
  | 0, g => g
  | k + 1, g => fun s => κ s (iterK κ k g)

variable {κ : S → Ex S}

theorem measurable_iterK (hκ : IsKer κ) {g : S → ℝ≥0∞} (hg : Measurable g) (k : ℕ) : Measurable (iterK κ k g) := by
  induction k with
  | zero => exact hg
  | succ k ih => exact hκ.measurable' ih

omit [MeasurableSpace S] in
theorem iterK_succ' (g : S → ℝ≥0∞) (k : ℕ) : iterK κ (k + 1) g = iterK κ k (fun s => κ s g) := by
  induction k with
  | zero => rfl
  | succ k ih =>
    funext s
    show κ s (iterK κ (k + 1) g) = κ s (iterK κ k fun s => κ s g)
    rw [ih]

/-- The law of the state after `j` steps. -/
theorem chain_iterK (hk : ∀ key, IsKer (step key)) (hm : ∀ key s, step key s (fun _ => 1) = 1) (hκ : IsKer κ)
    (hf : ∀ key s f, Measurable f → step key s f = κ s f)
    {n : ℕ} (keys : Fin n → Key) (j : Fin (n + 1)) (s : S) {g : S → ℝ≥0∞} (hg : Measurable g) :
    chain step s keys (fun tr => g (tr j)) = iterK κ j g s := by
  induction n generalizing s with
  | zero =>
    have : j = 0 := Fin.fin_one_eq_zero _
    subst this
    rfl
  | succ n ih =>
    refine Fin.cases ?_ (fun i => ?_) j
    · refine (chain_head keys s fun a _ => g a).trans ?_
      rw [(chain_ker hk keys).const_fun s (g s), chain_mass hm, mul_one]
      rfl
    · show step (keys 0) s (fun s' => chain step s' (tailA keys) (fun rest => g (rest i))) = _
      simp only [ih (tailA keys) i]
      exact hf (keys 0) s _ (measurable_iterK hκ hg _)

/-- The law of the states at two times of a stationary chain. -/
theorem chain_pair (hk : ∀ key, IsKer (step key)) (hm : ∀ key s, step key s (fun _ => 1) = 1) (hκ : IsKer κ)
    (hf : ∀ key s f, Measurable f → step key s f = κ s f)
    (hinv : ∀ f, Measurable f → I (fun s => κ s f) = I f) {n : ℕ} (keys : Fin n → Key) (i j : Fin (n + 1)) (hij : i ≤ j)
    {f g : S → ℝ≥0∞} (hF : Measurable f) (hg : Measurable g) :
    I (fun s => chain step s keys (fun tr => f (tr i) * g (tr j))) = I (fun s => f s * iterK κ (j - i) g s) := by
  induction n with
  | zero =>
    have : j = 0 := Fin.fin_one_eq_zero _
    have : i = 0 := Fin.fin_one_eq_zero _
    subst_vars
    rfl
  | succ n ih =>
    revert hij
    refine Fin.cases (fun _ => ?_) (fun i' => ?_) i
    · congr 1
      funext s
      refine (chain_head keys s fun a tr => f a * g (tr j)).trans ?_
      rw [(chain_ker hk keys).const_mul s (f s) (f := fun tr : Fin (n + 2) → S => g (tr j)) (hg.comp (measurable_pi_apply j)), chain_iterK hk hm hκ hf keys j s hg]
      rfl
    · refine Fin.cases (fun h => absurd h (by simp)) (fun j' h => ?_) j
      have h' : i' ≤ j' := by simpa using h
      have e : ((j'.succ : Fin (n + 2)) : ℕ) - ((i'.succ : Fin (n + 2)) : ℕ) = (j' : ℕ) - i' := by
        simp only [Fin.val_succ]; omega
      rw [e, ← ih (tailA keys) i' j' h']
      have hmeas : Measurable fun s' => chain step s' (tailA keys) (fun rest => f (rest i') * g (rest j')) :=
        (chain_ker hk (tailA keys)).measurable'
          ((hF.comp (measurable_pi_apply i')).mul (hg.comp (measurable_pi_apply j')))
      rw [← hinv _ hmeas]
      congr 1
      funext s
      exact hf (keys 0) s _ hmeas

/-! ## Auto-covariances -/

/-- What a kernel has in common with a projection followed by its adjoint: `⟨f, κ g⟩ = ⟨P f, P g⟩`. -/
structure Projective (I : Ex S) (κ : S → Ex S) : Prop where
  /-- the inner product of `f` with `κ g` -/
  rep : ∃ (Ω : Type) (_ : MeasurableSpace Ω) (Φ : Ex Ω) (P : (S → ℝ≥0∞) → Ω → ℝ≥0∞), IsKer (fun _ : Unit => Φ) ∧
    (∀ f, Measurable f → Measurable (P f)) ∧
    (∀ f g, Measurable f → Measurable g → I (fun s => f s * κ s g) = Φ (fun ω => P f ω * P g ω)) ∧
    (∀ f, Measurable f → Φ (P f) = I f) ∧ Φ (fun _ => 1) = I (fun _ => 1) ∧
    ∀ f, Measurable f → Φ (fun ω => P f ω * P f ω) ≤ I (fun s => f s * f s)

theorem Projective.symm (h : Projective I κ) {f g : S → ℝ≥0∞} (hf : Measurable f) (hg : Measurable g) :
    I (fun s => f s * κ s g) = I (fun s => g s * κ s f) := by
  obtain ⟨Ω, mΩ, Φ, P, h1, h2, h3, h4, h5, h6⟩ := h.rep
  rw [h3 f g hf hg, h3 g f hg hf]
  simp only [mul_comm]

theorem two_mul_le_sq (a b : ℝ≥0∞) : 2 * (a * b) ≤ a * a + b * b := by
  rcases eq_or_ne a ∞ with rfl | ha
  · simp
  rcases eq_or_ne b ∞ with rfl | hb
  · simp
  lift a to NNReal using ha
  lift b to NNReal using hb
  norm_cast
  have := two_mul_le_add_sq (a : ℝ) b
  have h : (2 * (a * b) : ℝ) ≤ a * a + b * b := by nlinarith
  exact_mod_cast h

omit [MeasurableSpace S] in
theorem iterK_add (k l : ℕ) (g : S → ℝ≥0∞) : iterK κ (k + l) g = iterK κ k (iterK κ l g) := by
  induction k with
  | zero => rw [Nat.zero_add]; rfl
  | succ k ih =>
    funext s
    rw [Nat.add_right_comm]
    show κ s (iterK κ (k + l) g) = κ s (iterK κ k (iterK κ l g))
    rw [ih]

theorem Projective.iter (h : Projective I κ) (hκ : IsKer κ) {f g : S → ℝ≥0∞} (hf : Measurable f) (hg : Measurable g)
    (k : ℕ) : I (fun s => f s * iterK κ k g s) = I (fun s => g s * iterK κ k f s) := by
  induction k generalizing f g with
  | zero =>
    congr 1
    funext s
    exact mul_comm _ _
  | succ k ih =>
    rw [iterK_succ' g]
    rw [ih hf (hκ.measurable' hg)]
    have := h.symm (measurable_iterK hκ hf k) hg
    rw [show (fun s => g s * iterK κ (k + 1) f s) = fun s => g s * κ s (iterK κ k f) from rfl, ← this]
    congr 1
    funext s
    exact mul_comm _ _

theorem Projective.half (h : Projective I κ) (hκ : IsKer κ) {f : S → ℝ≥0∞} (hf : Measurable f) (j l : ℕ) :
    I (fun s => f s * iterK κ (j + l) f s) = I (fun s => iterK κ j f s * iterK κ l f s) := by
  rw [iterK_add, h.iter hκ hf (measurable_iterK hκ hf l)]
  congr 1
  funext s
  exact mul_comm _ _

theorem Projective.iter_inv (hinv : ∀ f, Measurable f → I (fun s => κ s f) = I f) (hκ : IsKer κ) {f : S → ℝ≥0∞}
    (hf : Measurable f) (k : ℕ) : I (iterK κ k f) = I f := by
  induction k with
  | zero => rfl
  | succ k ih =>
    rw [← ih]
    exact hinv _ (measurable_iterK hκ hf k)

/-- Auto-covariances at every lag are nonnegative. -/
theorem Projective.autocov_nonneg (h : Projective I κ) (hI : IsKer (fun _ : Unit => I)) (hκ : IsKer κ)
    (hinv : ∀ f, Measurable f → I (fun s => κ s f) = I f) {f : S → ℝ≥0∞} (hf : Measurable f) (k : ℕ) :
    (I f) ^ 2 ≤ I (fun _ => 1) * I (fun s => f s * iterK κ k f s) := by
  obtain ⟨j, rfl | rfl⟩ := k.even_or_odd'
  · rw [two_mul, h.half hκ hf j j, ← Projective.iter_inv hinv hκ hf j]
    exact isKer_sq_le hI (measurable_iterK hκ hf j)
  · rw [show 2 * j + 1 = j + (j + 1) by ring, h.half hκ hf j (j + 1), ← Projective.iter_inv hinv hκ hf j]
    obtain ⟨Ω, mΩ, Φ, P, h1, h2, h3, h4, h5, h6⟩ := h.rep
    have hg := measurable_iterK hκ hf j
    have e := h3 _ _ hg hg
    show _ ≤ _ * I (fun s => iterK κ j f s * κ s (iterK κ j f))
    rw [e, ← h4 _ hg, ← h5]
    exact isKer_sq_le h1 (h2 _ hg)

/-- One more step does not make the auto-covariance larger. -/
theorem Projective.autocov_succ (h : Projective I κ) (hI : IsKer (fun _ : Unit => I)) (hκ : IsKer κ)
    (hm : ∀ s, κ s (fun _ => 1) = 1) (hinv : ∀ f, Measurable f → I (fun s => κ s f) = I f) {f : S → ℝ≥0∞}
    (hf : Measurable f) (hfin : I (fun s => f s * f s) ≠ ∞) (k : ℕ) :
    I (fun s => f s * iterK κ (k + 1) f s) ≤ I (fun s => f s * iterK κ k f s) := by
  -- `⟨g, κ g⟩ ≤ ⟨g, g⟩`
  have hA : ∀ g, Measurable g → I (fun s => g s * κ s g) ≤ I (fun s => g s * g s) := fun g hg => by
    obtain ⟨Ω, mΩ, Φ, P, h1, h2, h3, h4, h5, h6⟩ := h.rep
    rw [h3 g g hg hg]
    exact h6 g hg
  -- `⟨κ g, κ g⟩ ≤ ⟨g, κ g⟩`
  have hB : ∀ g, Measurable g → I (fun s => κ s g * κ s g) ≠ ∞ →
      I (fun s => κ s g * κ s g) ≤ I (fun s => g s * κ s g) := fun g hg hfin => by
    have hg' : Measurable fun s => κ s g := hκ.measurable' hg
    have a1 : I (fun s => κ s g * κ s g) = I (fun s => g s * κ s fun s => κ s g) := h.symm hg' hg
    have a2 := hA _ hg'
    obtain ⟨Ω, mΩ, Φ, P, h1, h2, h3, h4, h5, h6⟩ := h.rep
    have a3 : 2 * I (fun s => κ s g * κ s g) ≤ I (fun s => g s * κ s g) + I (fun s => κ s g * κ s g) := by
      calc 2 * I (fun s => κ s g * κ s g) = Φ (fun ω => 2 * (P g ω * P (fun s => κ s g) ω)) := by
            rw [a1, h3 g _ hg hg', h1.const_mul () 2 (f := fun ω => P g ω * P (fun s => κ s g) ω) ((h2 _ hg).mul (h2 _ hg'))]
        _ ≤ Φ (fun ω => P g ω * P g ω + P (fun s => κ s g) ω * P (fun s => κ s g) ω) :=
            h1.mono () (((h2 _ hg).mul (h2 _ hg')).const_mul 2)
              (((h2 _ hg).mul (h2 _ hg)).add ((h2 _ hg').mul (h2 _ hg'))) fun ω => two_mul_le_sq _ _
        _ = I (fun s => g s * κ s g) + I (fun s => κ s g * κ s fun s => κ s g) := by
            rw [h1.add () (f := fun ω => P g ω * P g ω) (g := fun ω => P (fun s => κ s g) ω * P (fun s => κ s g) ω)
              ((h2 _ hg).mul (h2 _ hg)) ((h2 _ hg').mul (h2 _ hg')), h3 g g hg hg, h3 _ _ hg' hg']
        _ ≤ _ := by gcongr
    rw [two_mul] at a3
    exact (ENNReal.add_le_add_iff_right hfin).mp a3
  have hfinj : ∀ j, I (fun s => iterK κ j f s * iterK κ j f s) ≤ I (fun s => f s * f s) := fun j => by
    induction j with
    | zero => exact le_rfl
    | succ j ih =>
      have hg := measurable_iterK hκ hf j
      have : I (fun s => κ s (iterK κ j f) * κ s (iterK κ j f)) ≤ I (fun s => iterK κ j f s * iterK κ j f s) := by
        rw [← hinv (fun s => iterK κ j f s * iterK κ j f s) (hg.mul hg)]
        have hg' := hκ.measurable' hg
        refine hI.mono () (hg'.mul hg') (hκ.measurable' (hg.mul hg)) fun s => ?_
        have := isKer_sq_le (hκ.comp (g := fun _ : Unit => s) measurable_const) hg
        rwa [hm, one_mul, pow_two] at this
      exact this.trans ih
  obtain ⟨j, rfl | rfl⟩ := k.even_or_odd'
  · rw [show 2 * j + 1 = j + (j + 1) by ring, two_mul, h.half hκ hf j (j + 1), h.half hκ hf j j]
    exact hA _ (measurable_iterK hκ hf j)
  · rw [show 2 * j + 1 + 1 = (j + 1) + (j + 1) by ring, show 2 * j + 1 = j + (j + 1) by ring, h.half hκ hf j (j + 1),
      h.half hκ hf (j + 1) (j + 1)]
    exact hB _ (measurable_iterK hκ hf j) (ne_top_of_le_ne_top hfin (hfinj (j + 1)))

/-- Second moment of a sum over different times of a stationary run. -/
theorem Projective.run (h : Projective I κ) (hI : IsKer (fun _ : Unit => I)) (hk : ∀ key, IsKer (step key))
    (hm : ∀ key s, step key s (fun _ => 1) = 1) (hκ : IsKer κ) (hfree : ∀ key s f, Measurable f → step key s f = κ s f)
    (hinv : ∀ f, Measurable f → I (fun s => κ s f) = I f) {n M : ℕ} (keys : Fin n → Key) (t : Fin M → Fin (n + 1))
    {f : S → ℝ≥0∞} (hf : Measurable f) :
    M * (I (fun _ => 1) * I (fun s => f s * f s)) + (M * (M - 1) : ℕ) * (I f) ^ 2 ≤
      I (fun _ => 1) * I (fun s => chain step s keys (fun tr => (∑ k, f (tr (t k))) ^ 2)) := by
  have hft : ∀ k, Measurable fun tr : Fin (n + 1) → S => f (tr (t k)) := fun k => hf.comp (measurable_pi_apply _)
  have hch := chain_ker hk keys
  have e : I (fun s => chain step s keys (fun tr => (∑ k, f (tr (t k))) ^ 2)) =
      ∑ k, ∑ l, I (fun s => chain step s keys (fun tr => f (tr (t k)) * f (tr (t l)))) := by
    have e1 : ∀ s, chain step s keys (fun tr => (∑ k, f (tr (t k))) ^ 2) =
        ∑ k, ∑ l, chain step s keys (fun tr => f (tr (t k)) * f (tr (t l))) := fun s => by
      have : (fun tr : Fin (n + 1) → S => (∑ k, f (tr (t k))) ^ 2) =
          fun tr => ∑ k, ∑ l, f (tr (t k)) * f (tr (t l)) := funext fun tr => by rw [pow_two, sum_mul_sum]
      rw [this, hch.sum s univ (f := fun k tr => ∑ l, f (tr (t k)) * f (tr (t l))) fun k _ =>
        Finset.measurable_fun_sum _ fun l _ => (hft k).mul (hft l)]
      exact sum_congr rfl fun k _ => hch.sum s univ (f := fun l tr => f (tr (t k)) * f (tr (t l))) fun l _ =>
        (hft k).mul (hft l)
    simp only [e1]
    have hmm : ∀ k l, Measurable fun s => chain step s keys (fun tr => f (tr (t k)) * f (tr (t l))) := fun k l =>
      hch.measurable' ((hft k).mul (hft l))
    refine (hI.sum () univ (f := fun k s => ∑ l, chain step s keys (fun tr => f (tr (t k)) * f (tr (t l)))) fun k _ =>
      Finset.measurable_fun_sum _ fun l _ => hmm k l).trans ?_
    exact sum_congr rfl fun k _ => hI.sum () univ (f := fun l s =>
      chain step s keys (fun tr => f (tr (t k)) * f (tr (t l)))) fun l _ => hmm k l
  have hle : ∀ k l, (if k = l then I (fun _ => 1) * I (fun s => f s * f s) else (I f) ^ 2) ≤
      I (fun _ => 1) * I (fun s => chain step s keys (fun tr => f (tr (t k)) * f (tr (t l)))) := fun k l => by
    split_ifs with hkl
    · subst hkl
      rw [chain_pair hk hm hκ hfree hinv keys (t k) (t k) le_rfl hf hf, Nat.sub_self]
      exact le_rfl
    · rcases le_total (t k) (t l) with hle | hle
      · rw [chain_pair hk hm hκ hfree hinv keys _ _ hle hf hf]
        exact h.autocov_nonneg hI hκ hinv hf _
      · have e : (fun s => chain step s keys (fun tr => f (tr (t k)) * f (tr (t l)))) =
            fun s => chain step s keys (fun tr => f (tr (t l)) * f (tr (t k))) := by
          simp only [mul_comm]
        rw [e, chain_pair hk hm hκ hfree hinv keys _ _ hle hf hf]
        exact h.autocov_nonneg hI hκ hinv hf _
  rw [e, mul_sum]
  have e2 : (M : ℝ≥0∞) * (I (fun _ => 1) * I (fun s => f s * f s)) + (M * (M - 1) : ℕ) * (I f) ^ 2 =
      ∑ k : Fin M, ∑ l : Fin M, if k = l then I (fun _ => 1) * I (fun s => f s * f s) else (I f) ^ 2 := by
    have : ∀ k : Fin M, (∑ l : Fin M, if k = l then I (fun _ => 1) * I (fun s => f s * f s) else (I f) ^ 2) =
        I (fun _ => 1) * I (fun s => f s * f s) + (M - 1 : ℕ) * (I f) ^ 2 := fun k => by
      rw [← Finset.add_sum_erase univ _ (mem_univ k), if_pos rfl, sum_congr rfl fun l hl =>
        if_neg (ne_of_mem_erase hl).symm, sum_const, card_erase_of_mem (mem_univ k), card_univ, Fintype.card_fin,
        nsmul_eq_mul]
    rw [sum_congr rfl fun k _ => this k, sum_const, card_univ, Fintype.card_fin, nsmul_eq_mul, mul_add]
    push_cast
    ring
  rw [e2]
  refine sum_le_sum fun k _ => ?_
  rw [mul_sum]
  exact sum_le_sum fun l _ => hle k l

end Verif
