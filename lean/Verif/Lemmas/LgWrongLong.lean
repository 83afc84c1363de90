import Verif.Lemmas.LgWrong
import Verif.Lemmas.AlsLong
import Verif.Spec.LgWrongLong

/-!
# Large deviations of one coordinate of the linear Gaussian model, four times or more
-/

open Filter Topology

namespace Verif
open Verif.Spec

variable {n N : ℕ}

/-! ## The witness -/

/-- The trajectory. -/
def wX : ℕ → ℝ
  | 0 => 1
  | 1 => 26
  | 2 => 73
  | _ => 49

/-- The auxiliary variables. -/
noncomputable def wU : ℕ → ℝ
  | 0 => -1
  | 1 => 39
  | 2 => 5
  | 3 => 73 / 2
  | _ => 49 / 2

theorem wX_far (t : ℕ) : wX (t + 3) = 49 ∧ wX (t + 4) = 49 ∧ wX (t + 1 + 2) = 49 ∧ wX (t + 1 + 3) = 49 ∧ wX (t + 3 + 1) = 49 ∧
    wX (t + 3 + 2) = 49 ∧ wX (t + 3 + 3) = 49 ∧ wX (t + 3 + 4) = 49 := ⟨rfl, rfl, rfl, rfl, rfl, rfl, rfl, rfl⟩

theorem wU_far (t : ℕ) : wU (t + 1 + 3) = 49 / 2 ∧ wU (t + 3 + 1) = 49 / 2 ∧ wU (t + 3 + 2) = 49 / 2 ∧
    wU (t + 3 + 3) = 49 / 2 ∧ wU (t + 3 + 4) = 49 / 2 := ⟨rfl, rfl, rfl, rfl, rfl⟩

theorem win_nat (f : ℕ → ℝ) (t : Fin (n + 2)) : win t (fun t : Fin (n + 4) => f t) = ![f t, f (t + 1), f (t + 2)] := rfl

theorem wMean_tail (t : Fin (n + 1)) : lgMeanL 1 1 0 (fun t : Fin (n + 4) => wX t) t.succ.succ.succ = wU (t + 3) := by
  have h1 : (Fin.snoc (fun t : Fin (n + 3) => 1 * (wX t.succ - wX t.castSucc)) 0 : Fin (n + 4) → ℝ) t.succ.succ.succ = 0 := by
    refine Fin.lastCases ?_ (fun t => ?_) t
    · exact Fin.snoc_last (α := fun _ => ℝ) _ _
    · refine (Fin.snoc_castSucc (α := fun _ => ℝ) _ _ t.succ.succ.succ).trans ?_
      show 1 * (wX (t + 4) - wX (t + 3)) = 0
      rw [(wX_far t).1, (wX_far t).2.1]
      norm_num
  unfold lgMeanL
  rw [h1]
  show wX (t + 3) + 1 / 2 * ((0 - wX (t + 3) - 1 * (wX (t + 3) - wX (t + 2))) + 0) = wU (t + 3)
  obtain ⟨t, ht⟩ := t
  show wX (t + 3) + 1 / 2 * ((0 - wX (t + 3) - 1 * (wX (t + 3) - wX (t + 2))) + 0) = wU (t + 3)
  cases t with
  | zero => norm_num [wX, wU]
  | succ t =>
    simp only [wX_far, wU_far]
    norm_num

theorem lgWitnessL_one : LgWitnessL (n := n) 1 1 (fun t => wX t) (fun t => wU t) 87 42 := by
  have hf : ∀ t : ℕ, lgW2 1 1 0 ![wU t, wU (t + 1), wU (t + 2)] (wX t) (wX (t + 1)) (wU (t + 2)) <
      lgW2 1 1 0 ![wU t, wU (t + 1), wU (t + 2)] (wX t) (wX (t + 1)) (wX (t + 2)) := fun t => by
    simp only [lgW2, lgG2, Matrix.cons_val_zero, Matrix.cons_val_one, Matrix.cons_val, Pi.zero_apply]
    match t with
    | 0 => norm_num [wX, wU]
    | 1 => norm_num [wX, wU]
    | 2 => norm_num [wX, wU]
    | t + 3 =>
      simp only [wX_far, wU_far]
      norm_num [wU]
  have hl : ∀ t : ℕ, lgG2 1 1 0 ![wU (t + 1), wU (t + 2), wU (t + 3)] (wX (t + 1)) (wU (t + 2)) (wX (t + 3)) +
        lgW2 1 1 0 ![wU t, wU (t + 1), wU (t + 2)] (wX t) (wX (t + 1)) (wU (t + 2)) <
      lgG2 1 1 0 ![wU (t + 1), wU (t + 2), wU (t + 3)] (wX (t + 1)) (wX (t + 2)) (wX (t + 3)) +
        lgW2 1 1 0 ![wU t, wU (t + 1), wU (t + 2)] (wX t) (wX (t + 1)) (wX (t + 2)) := fun t => by
    simp only [lgW2, lgG2, Matrix.cons_val_zero, Matrix.cons_val_one, Matrix.cons_val, Pi.zero_apply]
    match t with
    | 0 => norm_num [wX, wU]
    | 1 => norm_num [wX, wU]
    | 2 => norm_num [wX, wU]
    | t + 3 =>
      simp only [wX_far, wU_far]
      norm_num [wU]
  have hb : ∀ t : ℕ, lgG2 1 1 0 ![wU (t + 2), wU (t + 3), wU (t + 4)] (wU (t + 2)) (wX (t + 3)) (wX (t + 4)) +
        lgG2 1 1 0 ![wU (t + 1), wU (t + 2), wU (t + 3)] (wX (t + 1)) (wU (t + 2)) (wX (t + 3)) +
        lgW2 1 1 0 ![wU t, wU (t + 1), wU (t + 2)] (wX t) (wX (t + 1)) (wU (t + 2)) <
      lgG2 1 1 0 ![wU (t + 2), wU (t + 3), wU (t + 4)] (wX (t + 2)) (wX (t + 3)) (wX (t + 4)) +
        lgG2 1 1 0 ![wU (t + 1), wU (t + 2), wU (t + 3)] (wX (t + 1)) (wX (t + 2)) (wX (t + 3)) +
        lgW2 1 1 0 ![wU t, wU (t + 1), wU (t + 2)] (wX t) (wX (t + 1)) (wX (t + 2)) := fun t => by
    simp only [lgW2, lgG2, Matrix.cons_val_zero, Matrix.cons_val_one, Matrix.cons_val, Pi.zero_apply]
    match t with
    | 0 => norm_num [wX, wU]
    | 1 => norm_num [wX, wU]
    | 2 => norm_num [wX, wU]
    | t + 3 =>
      simp only [wX_far, wU_far]
      norm_num [wU]
  have h0 : win 0 (fun t : Fin (n + 4) => wU t) = ![-1, 39, 5] := rfl
  have h1 : win 1 (fun t : Fin (n + 4) => wU t) = ![39, 5, 73 / 2] := rfl
  have x0 : wX ((0 : Fin (n + 4)) : ℕ) = 1 := rfl
  have x1 : wX ((1 : Fin (n + 4)) : ℕ) = 26 := rfl
  have x2 : wX ((2 : Fin (n + 4)) : ℕ) = 73 := rfl
  have x3 : wX ((3 : Fin (n + 4)) : ℕ) = 49 := rfl
  have u0 : wU ((0 : Fin (n + 4)) : ℕ) = -1 := rfl
  have u1 : wU ((1 : Fin (n + 4)) : ℕ) = 39 := rfl
  refine ⟨?_, ?_, fun t => hf t, hl n, fun t => hb t, ?_, ?_, ?_⟩
  · rw [h0]
    simp only [x0, u0, lgW0, Matrix.cons_val_zero, Pi.zero_apply]
    rintro p (rfl | rfl) <;> norm_num
  · rw [h0]
    simp only [x0, x1, u1, lgW1, lgG1, Matrix.cons_val_zero, Matrix.cons_val_one, Pi.zero_apply]
    rintro p (rfl | rfl) <;> norm_num
  · rw [h0, h1]
    simp only [x0, x1, x2, x3, u1, lgW1, lgG1, lgG2, Matrix.cons_val_zero, Matrix.cons_val_one, Matrix.cons_val, Pi.zero_apply]
    rintro p q (⟨rfl, rfl⟩ | ⟨rfl, rfl⟩) <;> norm_num
  · rw [h0]
    simp only [x0, x2, u0, lgW0, lgG1, lgG2, Matrix.cons_val_zero, Matrix.cons_val_one, Matrix.cons_val, Pi.zero_apply]
    rintro p (rfl | rfl) <;> norm_num
  · have hs : ∑ t, (wU (t : Fin (n + 4)) - lgMeanL 1 1 0 (fun t : Fin (n + 4) => wX t) t) ^ 2 / 1 =
        (-1 - lgMeanL 1 1 0 (fun t : Fin (n + 4) => wX t) 0) ^ 2 + ((39 - lgMeanL 1 1 0 (fun t : Fin (n + 4) => wX t) 1) ^ 2 +
          (5 - lgMeanL 1 1 0 (fun t : Fin (n + 4) => wX t) 2) ^ 2) := by
      rw [Fin.sum_univ_succ, Fin.sum_univ_succ, Fin.sum_univ_succ, Finset.sum_eq_zero (s := (Finset.univ : Finset (Fin (n + 1))))]
      · simp only [div_one, add_zero]
        rfl
      · intro t _
        rw [wMean_tail]
        simp
    have m0 : lgMeanL 1 1 0 (fun t : Fin (n + 4) => wX t) 0 = 25 / 2 := by
      show wX 0 + 1 / 2 * ((0 - wX 0 - 1 * wX 0) + 1 * (wX 1 - wX 0)) = _
      norm_num [wX]
    have m1 : lgMeanL 1 1 0 (fun t : Fin (n + 4) => wX t) 1 = 24 := by
      show wX 1 + 1 / 2 * ((0 - wX 1 - 1 * (wX 1 - wX 0)) + 1 * (wX 2 - wX 1)) = _
      norm_num [wX]
    have m2 : lgMeanL 1 1 0 (fun t : Fin (n + 4) => wX t) 2 = 1 := by
      show wX 2 + 1 / 2 * ((0 - wX 2 - 1 * (wX 2 - wX 1)) + 1 * (wX 3 - wX 2)) = _
      norm_num [wX]
    rw [hs, m0, m1, m2, u0, u1]
    have e1 : lgLogL 1 0 (fun t : Fin (n + 4) => wX t) = lgLogL 1 0 (twoNew 87 42 (fun t : Fin (n + 4) => wX t)) +
        (-1 * 1 ^ 2 / 2 - (0 - 1) ^ 2 / 2 - (1 * (26 - 1) ^ 2 / 2 + (0 - 26) ^ 2 / 2) - (1 * (73 - 26) ^ 2 / 2)) -
        (-1 * 87 ^ 2 / 2 - (0 - 87) ^ 2 / 2 - (1 * (42 - 87) ^ 2 / 2 + (0 - 42) ^ 2 / 2) - (1 * (73 - 42) ^ 2 / 2)) := by
      unfold lgLogL
      rw [Fin.sum_univ_succ, Fin.sum_univ_succ, Fin.sum_univ_succ (n := n + 2),
        Fin.sum_univ_succ (n := n + 1) (f := fun i => _ * (twoNew _ _ _ i.succ.succ - _) ^ 2 / 2 + _)]
      show -1 * wX 0 ^ 2 / 2 - (0 - wX 0) ^ 2 / 2 - (1 * (wX 1 - wX 0) ^ 2 / 2 + (0 - wX 1) ^ 2 / 2 +
        (1 * (wX 2 - wX 1) ^ 2 / 2 + (0 - wX 2) ^ 2 / 2 + ∑ t : Fin (n + 1), (1 * (wX (t + 3) - wX (t + 2)) ^ 2 / 2 + (0 - wX (t + 3)) ^ 2 / 2))) =
        -1 * 87 ^ 2 / 2 - (0 - 87) ^ 2 / 2 - (1 * (42 - 87) ^ 2 / 2 + (0 - 42) ^ 2 / 2 +
        (1 * (wX 2 - 42) ^ 2 / 2 + (0 - wX 2) ^ 2 / 2 + ∑ t : Fin (n + 1), (1 * (wX (t + 3) - wX (t + 2)) ^ 2 / 2 + (0 - wX (t + 3)) ^ 2 / 2))) + _ - _
      norm_num [wX]
      ring
    rw [e1]
    linarith

/-- A witness remains one for all parameters close to those it was found for. -/
theorem lgWitnessL_eventually {a δ : ℝ} (hδ : δ ≠ 0) {x u : Fin (n + 4) → ℝ} {z0 z1 : ℝ} (h : LgWitnessL a δ x u z0 z1) :
    ∀ᶠ q : ℝ × ℝ in 𝓝 (a, δ), LgWitnessL q.1 q.2 x u z0 z1 := by
  have hd : ((a, δ) : ℝ × ℝ).2 ≠ 0 := hδ
  have c0 : ∀ (u : Fin 3 → ℝ) p, ContinuousAt (fun q : ℝ × ℝ => lgW0 q.1 q.2 0 u p) (a, δ) := fun u p => by
    unfold lgW0; fun_prop (disch := assumption)
  have c1 : ∀ (u : Fin 3 → ℝ) p p', ContinuousAt (fun q : ℝ × ℝ => lgG1 q.1 q.2 0 u p p') (a, δ) := fun u p p' => by
    unfold lgG1; fun_prop (disch := assumption)
  have c1' : ∀ (u : Fin 3 → ℝ) p p', ContinuousAt (fun q : ℝ × ℝ => lgW1 q.1 q.2 0 u p p') (a, δ) := fun u p p' =>
    (c1 u p p').add (by fun_prop (disch := assumption))
  have c2 : ∀ (u : Fin 3 → ℝ) o p p', ContinuousAt (fun q : ℝ × ℝ => lgG2 q.1 q.2 0 u o p p') (a, δ) := fun u o p p' => by
    unfold lgG2; fun_prop (disch := assumption)
  have c2' : ∀ (u : Fin 3 → ℝ) o p p', ContinuousAt (fun q : ℝ × ℝ => lgW2 q.1 q.2 0 u o p p') (a, δ) := fun u o p p' =>
    (c2 u o p p').add (by fun_prop (disch := assumption))
  have cl : ∀ x : Fin (n + 4) → ℝ, ContinuousAt (fun q : ℝ × ℝ => lgLogL q.1 0 x) (a, δ) := fun x => by
    unfold lgLogL; fun_prop
  have cm : ∀ t, ContinuousAt (fun q : ℝ × ℝ => lgMeanL q.1 q.2 0 x t) (a, δ) := fun t => by
    unfold lgMeanL
    have h1 : ContinuousAt (fun q : ℝ × ℝ => (Fin.cons ((0 : Fin (n + 4) → ℝ) 0 - x 0 - q.1 * x 0) fun t : Fin (n + 3) =>
        (0 : Fin (n + 4) → ℝ) t.succ - x t.succ - q.1 * (x t.succ - x t.castSucc) : Fin (n + 4) → ℝ) t) (a, δ) := by
      refine Fin.cases ?_ (fun t => ?_) t
      · simp only [Fin.cons_zero]; fun_prop
      · simp only [Fin.cons_succ]; fun_prop
    have h2 : ContinuousAt (fun q : ℝ × ℝ => (Fin.snoc (fun t : Fin (n + 3) => q.1 * (x t.succ - x t.castSucc)) 0 : Fin (n + 4) → ℝ) t)
        (a, δ) := by
      refine Fin.lastCases ?_ (fun t => ?_) t
      · simp only [Fin.snoc_last]; fun_prop
      · simp only [Fin.snoc_castSucc]; fun_prop
    fun_prop
  have e3 := eventually_all.mpr fun t => (c2' _ _ _ _).eventually_lt (c2' _ _ _ _) (h.fwd t)
  have e5 := eventually_all.mpr fun t => (((c2 _ _ _ _).add (c2 _ _ _ _)).add (c2' _ _ _ _)).eventually_lt
    (((c2 _ _ _ _).add (c2 _ _ _ _)).add (c2' _ _ _ _)) (h.back t)
  filter_upwards [(c0 _ _).eventually_lt (c0 _ _) (h.zero _ (.inl rfl)), (c0 _ _).eventually_lt (c0 _ _) (h.zero _ (.inr rfl)),
    (c1' _ _ _).eventually_lt (c1' _ _ _) (h.one _ (.inl rfl)), (c1' _ _ _).eventually_lt (c1' _ _ _) (h.one _ (.inr rfl)),
    e3, ((c2 _ _ _ _).add (c2' _ _ _ _)).eventually_lt ((c2 _ _ _ _).add (c2' _ _ _ _)) h.last, e5,
    (((c2 _ _ _ _).add (c2 _ _ _ _)).add (c1' _ _ _)).eventually_lt (((c2 _ _ _ _).add (c2 _ _ _ _)).add (c1' _ _ _))
      (h.back1 _ _ (.inl ⟨rfl, rfl⟩)),
    (((c2 _ _ _ _).add (c2 _ _ _ _)).add (c1' _ _ _)).eventually_lt (((c2 _ _ _ _).add (c2 _ _ _ _)).add (c1' _ _ _))
      (h.back1 _ _ (.inr ⟨rfl, rfl⟩)),
    (((c1 _ _ _).add (c2 _ _ _ _)).add (c0 _ _)).eventually_lt (((c1 _ _ _).add (c2 _ _ _ _)).add (c0 _ _)) (h.back0 _ (.inl rfl)),
    (((c1 _ _ _).add (c2 _ _ _ _)).add (c0 _ _)).eventually_lt (((c1 _ _ _).add (c2 _ _ _ _)).add (c0 _ _)) (h.back0 _ (.inr rfl)),
    (cl _).eventually_lt (f := fun q : ℝ × ℝ => lgLogL q.1 0 (twoNew z0 z1 x)) (g := fun q : ℝ × ℝ => lgLogL q.1 0 x -
      ∑ t, (u t - lgMeanL q.1 q.2 0 x t) ^ 2 / q.2 - (z0 - u 0) ^ 2 / q.2 - (z1 - u 1) ^ 2 / q.2)
      (by fun_prop (disch := assumption)) h.gain] with q a1 a2 b1 b2 d1 d2 d3 e1 e2 f1 f2 g
  exact ⟨by rintro p (rfl | rfl) <;> assumption, by rintro p (rfl | rfl) <;> assumption, d1, d2, d3,
    by rintro p q (⟨rfl, rfl⟩ | ⟨rfl, rfl⟩) <;> assumption, by rintro p (rfl | rfl) <;> assumption, g⟩

/-! ## Linear and quadratic functions -/

section
variable {E : Type} [NormedAddCommGroup E] [NormedSpace ℝ E]

/-- Continuous and homogeneous of degree one. -/
structure IsL (f : E → ℝ) : Prop where
  cont : Continuous f
  smul : ∀ (s : ℝ) z, f (s • z) = s * f z

/-- Continuous and homogeneous of degree two. -/
structure IsQ (f : E → ℝ) : Prop where
  cont : Continuous f
  smul : ∀ (s : ℝ) z, f (s • z) = s ^ 2 * f z

theorem IsQ.add {f g : E → ℝ} (hf : IsQ f) (hg : IsQ g) : IsQ fun z => f z + g z :=
  ⟨hf.cont.add hg.cont, fun s z => by rw [hf.smul, hg.smul]; ring⟩

theorem IsQ.sub {f g : E → ℝ} (hf : IsQ f) (hg : IsQ g) : IsQ fun z => f z - g z :=
  ⟨hf.cont.sub hg.cont, fun s z => by rw [hf.smul, hg.smul]; ring⟩

theorem IsQ.sum {ι : Type} [Fintype ι] {f : ι → E → ℝ} (hf : ∀ i, IsQ (f i)) : IsQ fun z => ∑ i, f i z :=
  ⟨continuous_finsetSum _ fun i _ => (hf i).cont, fun s z => by rw [Finset.mul_sum]; exact Finset.sum_congr rfl fun i _ => (hf i).smul s z⟩

theorem IsL.sq {f : E → ℝ} (hf : IsL f) : IsQ fun z => f z ^ 2 / 2 :=
  ⟨by have := hf.cont; fun_prop, fun s z => by rw [hf.smul]; ring⟩

variable {a δ : ℝ} {y u : E → Fin 3 → ℝ} {o p q : E → ℝ}

theorem isQ_lgW0 (hy : ∀ t, IsL fun z => y z t) (hu : ∀ t, IsL fun z => u z t) (hp : IsL p) :
    IsQ fun z => lgW0 a δ (y z) (u z) (p z) := by
  constructor
  · have h1 := (hy 0).cont
    have h2 := (hu 0).cont
    have h3 := hp.cont
    unfold lgW0
    fun_prop
  · intro s z
    have h1 := (hy 0).smul s z
    have h2 := (hu 0).smul s z
    simp only [lgW0, h1, h2, hp.smul]
    ring

theorem isQ_lgG1 (hy : ∀ t, IsL fun z => y z t) (hu : ∀ t, IsL fun z => u z t) (hp : IsL p) (hq : IsL q) :
    IsQ fun z => lgG1 a δ (y z) (u z) (p z) (q z) := by
  constructor
  · have h1 := fun t => (hy t).cont
    have h2 := fun t => (hu t).cont
    have h3 := hp.cont
    have h4 := hq.cont
    unfold lgG1
    fun_prop
  · intro s z
    have h1 := fun t => (hy t).smul s z
    have h2 := fun t => (hu t).smul s z
    simp only [lgG1, h1, h2, hp.smul, hq.smul]
    ring

theorem isQ_lgW1 (hy : ∀ t, IsL fun z => y z t) (hu : ∀ t, IsL fun z => u z t) (hp : IsL p) (hq : IsL q) :
    IsQ fun z => lgW1 a δ (y z) (u z) (p z) (q z) := by
  refine (isQ_lgG1 hy hu hp hq).add ⟨?_, fun s z => ?_⟩
  · have h2 := (hu 1).cont
    have h4 := hq.cont
    fun_prop
  · have h2 := (hu 1).smul s z
    simp only [h2, hq.smul]
    ring

theorem isQ_lgG2 (hy : ∀ t, IsL fun z => y z t) (hu : ∀ t, IsL fun z => u z t) (ho : IsL o) (hp : IsL p) (hq : IsL q) :
    IsQ fun z => lgG2 a δ (y z) (u z) (o z) (p z) (q z) := by
  constructor
  · have h1 := fun t => (hy t).cont
    have h2 := fun t => (hu t).cont
    have h3 := hp.cont
    have h4 := hq.cont
    have h5 := ho.cont
    unfold lgG2
    fun_prop
  · intro s z
    have h1 := fun t => (hy t).smul s z
    have h2 := fun t => (hu t).smul s z
    simp only [lgG2, h1, h2, hp.smul, hq.smul, ho.smul]
    ring

theorem isQ_lgW2 (hy : ∀ t, IsL fun z => y z t) (hu : ∀ t, IsL fun z => u z t) (ho : IsL o) (hp : IsL p) (hq : IsL q) :
    IsQ fun z => lgW2 a δ (y z) (u z) (o z) (p z) (q z) := by
  refine (isQ_lgG2 hy hu ho hp hq).add ⟨?_, fun s z => ?_⟩
  · have h2 := (hu 2).cont
    have h4 := hq.cont
    fun_prop
  · have h2 := (hu 2).smul s z
    simp only [h2, hq.smul]
    ring

theorem isL_win {v : E → Fin (n + 4) → ℝ} (hv : ∀ t, IsL fun z => v z t) (t : Fin (n + 2)) (i : Fin 3) :
    IsL fun z => win t (v z) i := by
  fin_cases i
  · exact hv _
  · exact hv _
  · exact hv _

/-- Finitely many quadratic functions, positive at `v` where required, are large near large multiples of `v`. -/
theorem quad_eventually {ι : Type} [Finite ι] {P : ι → Prop} {D : ι → E → ℝ} (hD : ∀ i, IsQ (D i)) {v : E}
    (hv : ∀ i, P i → 0 < D i v) (K R : ℝ) :
    ∀ᶠ s : ℝ in atTop, ∀ z, ‖z - s • v‖ ≤ R → ∀ i, P i → K ≤ D i z := by
  have h : ∀ i, ∀ᶠ s : ℝ in atTop, ∀ z, ‖z - s • v‖ ≤ R → P i → K ≤ D i z := fun i => by
    by_cases hP : P i
    · exact (homog_eventually (hD i).cont (hD i).smul (hv i hP) K R).mono fun s hs w hw _ => hs w hw
    · exact Eventually.of_forall fun s w _ h => absurd h hP
  exact (eventually_all.mpr h).mono fun s hs z hz i hi => hs i z hz hi

end

/-! ## One coordinate of the kernel -/

/-- One coordinate of: the observations, the trajectory, the noise of the auxiliary variables and that of the proposals. -/
abbrev LgL (n N : ℕ) : Type := (Fin (n + 4) → ℝ) × (Fin (n + 4) → ℝ) × (Fin (n + 4) → ℝ) × (Fin (n + 4) → Fin (N + 1) → ℝ)

/-- Auxiliary variables. -/
noncomputable def llU (a δ : ℝ) (z : LgL n N) (t : Fin (n + 4)) : ℝ := lgMeanL a δ z.1 z.2.1 t + √(0.5 * δ) * z.2.2.1 t

/-- Particles. -/
noncomputable def llP (a δ : ℝ) (z : LgL n N) (t : Fin (n + 4)) (i : Fin (N + 1)) : ℝ :=
  if i = 0 then z.2.1 t else llU a δ z t + √(0.5 * δ) * z.2.2.2 t i

section
variable (a δ : ℝ)

theorem lgMeanL_lin (r : ℝ) (y x y' x' : Fin (n + 4) → ℝ) (t : Fin (n + 4)) :
    lgMeanL a δ (r • y + y') (r • x + x') t = r * lgMeanL a δ y x t + lgMeanL a δ y' x' t := by
  have h1 : (Fin.cons ((r • y + y') 0 - (r • x + x') 0 - a * (r • x + x') 0) fun t : Fin (n + 3) =>
      (r • y + y') t.succ - (r • x + x') t.succ - a * ((r • x + x') t.succ - (r • x + x') t.castSucc) : Fin (n + 4) → ℝ) t =
      r * (Fin.cons (y 0 - x 0 - a * x 0) fun t : Fin (n + 3) => y t.succ - x t.succ - a * (x t.succ - x t.castSucc) :
        Fin (n + 4) → ℝ) t +
      (Fin.cons (y' 0 - x' 0 - a * x' 0) fun t : Fin (n + 3) => y' t.succ - x' t.succ - a * (x' t.succ - x' t.castSucc) :
        Fin (n + 4) → ℝ) t := by
    refine Fin.cases ?_ (fun t => ?_) t <;> simp only [Fin.cons_zero, Fin.cons_succ, Pi.add_apply, Pi.smul_apply, smul_eq_mul] <;> ring
  have h2 : (Fin.snoc (fun t : Fin (n + 3) => a * ((r • x + x') t.succ - (r • x + x') t.castSucc)) 0 : Fin (n + 4) → ℝ) t =
      r * (Fin.snoc (fun t : Fin (n + 3) => a * (x t.succ - x t.castSucc)) 0 : Fin (n + 4) → ℝ) t +
      (Fin.snoc (fun t : Fin (n + 3) => a * (x' t.succ - x' t.castSucc)) 0 : Fin (n + 4) → ℝ) t := by
    refine Fin.lastCases ?_ (fun t => ?_) t <;> simp only [Fin.snoc_last, Fin.snoc_castSucc, Pi.add_apply, Pi.smul_apply, smul_eq_mul] <;> ring
  unfold lgMeanL
  rw [h1, h2]
  simp only [Pi.add_apply, Pi.smul_apply, smul_eq_mul]
  ring

theorem continuous_lgMeanL (t : Fin (n + 4)) : Continuous fun p : (Fin (n + 4) → ℝ) × (Fin (n + 4) → ℝ) => lgMeanL a δ p.1 p.2 t := by
  have h1 : Continuous fun p : (Fin (n + 4) → ℝ) × (Fin (n + 4) → ℝ) => (Fin.cons (p.1 0 - p.2 0 - a * p.2 0) fun t : Fin (n + 3) =>
      p.1 t.succ - p.2 t.succ - a * (p.2 t.succ - p.2 t.castSucc) : Fin (n + 4) → ℝ) t := by
    refine Fin.cases ?_ (fun t => ?_) t <;> simp only [Fin.cons_zero, Fin.cons_succ] <;> fun_prop
  have h2 : Continuous fun p : (Fin (n + 4) → ℝ) × (Fin (n + 4) → ℝ) =>
      (Fin.snoc (fun t : Fin (n + 3) => a * (p.2 t.succ - p.2 t.castSucc)) 0 : Fin (n + 4) → ℝ) t := by
    refine Fin.lastCases ?_ (fun t => ?_) t <;> simp only [Fin.snoc_last, Fin.snoc_castSucc] <;> fun_prop
  unfold lgMeanL
  fun_prop

theorem llU_lin (r : ℝ) (z z' : LgL n N) (t : Fin (n + 4)) : llU a δ (r • z + z') t = r * llU a δ z t + llU a δ z' t := by
  simp only [llU, Prod.fst_add, Prod.snd_add, Prod.smul_fst, Prod.smul_snd, lgMeanL_lin, Pi.add_apply, Pi.smul_apply, smul_eq_mul]
  ring

theorem llP_lin (r : ℝ) (z z' : LgL n N) (t : Fin (n + 4)) (i : Fin (N + 1)) :
    llP a δ (r • z + z') t i = r * llP a δ z t i + llP a δ z' t i := by
  unfold llP
  rw [llU_lin]
  split_ifs
  · rfl
  · simp only [Prod.snd_add, Prod.smul_snd, Pi.add_apply, Pi.smul_apply, smul_eq_mul]
    ring

theorem llU_zero (t : Fin (n + 4)) : llU a δ (0 : LgL n N) t = 0 := by
  have := llU_lin a δ 1 (0 : LgL n N) 0 t
  rw [smul_zero, add_zero] at this
  linarith

theorem llP_zero (t : Fin (n + 4)) (i : Fin (N + 1)) : llP a δ (0 : LgL n N) t i = 0 := by
  have := llP_lin a δ 1 (0 : LgL n N) 0 t i
  rw [smul_zero, add_zero] at this
  linarith

theorem isL_llU (t : Fin (n + 4)) : IsL fun z : LgL n N => llU a δ z t := by
  constructor
  · unfold llU
    have h : Continuous fun z : LgL n N => lgMeanL a δ z.1 z.2.1 t :=
      (continuous_lgMeanL a δ t).comp (f := fun z : LgL n N => (z.1, z.2.1)) (by fun_prop)
    fun_prop
  · intro s z
    have := llU_lin a δ s z 0 t
    rwa [add_zero, llU_zero, add_zero] at this

theorem isL_llP (t : Fin (n + 4)) (i : Fin (N + 1)) : IsL fun z : LgL n N => llP a δ z t i := by
  constructor
  · unfold llP
    have := (isL_llU (N := N) a δ t).cont
    split_ifs <;> fun_prop
  · intro s z
    have := llP_lin a δ s z 0 t i
    rwa [add_zero, llP_zero, add_zero] at this

theorem isL_obs (t : Fin (n + 4)) : IsL fun z : LgL n N => z.1 t := ⟨by fun_prop, fun _ _ => rfl⟩

/-! ## The log-weights -/

variable (k i : Fin (N + 1))

/-- Log-weights of the forward and backward passes, for one coordinate. -/
noncomputable def ll0 (z : LgL n N) : ℝ := lgW0 a δ (win 0 z.1) (win 0 (llU a δ z)) (llP a δ z 0 i)

@[inherit_doc ll0]
noncomputable def ll1 (z : LgL n N) : ℝ :=
  lgW1 a δ (win 0 z.1) (win 0 (llU a δ z)) (llP a δ z 0 (longA k i)) (llP a δ z 1 i)

@[inherit_doc ll0]
noncomputable def ll2 (t : Fin (n + 2)) (z : LgL n N) : ℝ :=
  lgW2 a δ (win t z.1) (win t (llU a δ z)) (llP a δ z t.castSucc.castSucc 0) (llP a δ z t.castSucc.succ 0) (llP a δ z t.succ.succ i)

@[inherit_doc ll0]
noncomputable def llBL (z : LgL n N) : ℝ :=
  lgG2 a δ (win (Fin.last (n + 1)) z.1) (win (Fin.last (n + 1)) (llU a δ z)) (llP a δ z (Fin.last (n + 1)).castSucc.castSucc 0)
    (llP a δ z (Fin.last (n + 1)).castSucc.succ i) (llP a δ z (Fin.last (n + 3)) 0) + ll2 a δ i (Fin.last n).castSucc z

@[inherit_doc ll0]
noncomputable def llB (t : Fin n) (z : LgL n N) : ℝ :=
  lgG2 a δ (win t.succ.succ z.1) (win t.succ.succ (llU a δ z)) (llP a δ z t.castSucc.castSucc.succ.succ i)
      (llP a δ z t.castSucc.succ.succ.succ 0) (llP a δ z t.succ.succ.succ.succ 0) +
    lgG2 a δ (win t.castSucc.succ z.1) (win t.castSucc.succ (llU a δ z)) (llP a δ z t.castSucc.castSucc.castSucc.succ 0)
      (llP a δ z t.castSucc.castSucc.succ.succ i) (llP a δ z t.castSucc.succ.succ.succ 0) +
    ll2 a δ i t.castSucc.castSucc z

@[inherit_doc ll0]
noncomputable def llB1 (z : LgL n N) : ℝ :=
  lgG2 a δ (win 1 z.1) (win 1 (llU a δ z)) (llP a δ z 1 i) (llP a δ z 2 0) (llP a δ z 3 0) +
    lgG2 a δ (win 0 z.1) (win 0 (llU a δ z)) (llP a δ z 0 0) (llP a δ z 1 i) (llP a δ z 2 0) + ll1 a δ k i z

@[inherit_doc ll0]
noncomputable def llB0 (z : LgL n N) : ℝ :=
  lgG1 a δ (win 0 z.1) (win 0 (llU a δ z)) (llP a δ z 0 i) (llP a δ z 1 k) +
    lgG2 a δ (win 0 z.1) (win 0 (llU a δ z)) (llP a δ z 0 i) (llP a δ z 1 k) (llP a δ z 2 0) + ll0 a δ i z

/-- The new trajectory. -/
noncomputable def llNew (z : LgL n N) : Fin (n + 4) → ℝ := fun t => llP a δ z t (longIdx k t)

/-- Log of the density of the noise and of the trajectory, over the target at the new trajectory, without constants. -/
noncomputable def llQ (z : LgL n N) : ℝ :=
  lgLogL a z.1 z.2.1 - ∑ t, z.2.2.1 t ^ 2 / 2 - ∑ t, ∑ i, z.2.2.2 t i ^ 2 / 2 - lgLogL a z.1 (llNew a δ k z)

theorem isQ_ll0 : IsQ (ll0 (n := n) a δ i) :=
  isQ_lgW0 (isL_win (isL_obs (N := N)) 0) (isL_win (isL_llU a δ) 0) (isL_llP a δ 0 i)

theorem isQ_ll1 : IsQ (ll1 (n := n) a δ k i) :=
  isQ_lgW1 (isL_win (isL_obs (N := N)) 0) (isL_win (isL_llU a δ) 0) (isL_llP a δ 0 _) (isL_llP a δ 1 i)

theorem isQ_ll2 (t : Fin (n + 2)) : IsQ (ll2 a δ i t) :=
  isQ_lgW2 (isL_win (isL_obs (N := N)) t) (isL_win (isL_llU a δ) t) (isL_llP a δ _ _) (isL_llP a δ _ _) (isL_llP a δ _ i)

theorem isQ_llG (t : Fin (n + 2)) (t0 t1 t2 : Fin (n + 4)) (i0 i1 i2 : Fin (N + 1)) : IsQ fun z : LgL n N =>
    lgG2 a δ (win t z.1) (win t (llU a δ z)) (llP a δ z t0 i0) (llP a δ z t1 i1) (llP a δ z t2 i2) :=
  isQ_lgG2 (isL_win (isL_obs (N := N)) t) (isL_win (isL_llU a δ) t) (isL_llP a δ _ _) (isL_llP a δ _ _) (isL_llP a δ _ _)

theorem isQ_llBL : IsQ (llBL (n := n) a δ i) := (isQ_llG a δ _ _ _ _ _ _ _).add (isQ_ll2 a δ i _)

theorem isQ_llB (t : Fin n) : IsQ (llB a δ i t) :=
  ((isQ_llG a δ _ _ _ _ _ _ _).add (isQ_llG a δ _ _ _ _ _ _ _)).add (isQ_ll2 a δ i _)

theorem isQ_llB1 : IsQ (llB1 (n := n) a δ k i) :=
  ((isQ_llG a δ _ _ _ _ _ _ _).add (isQ_llG a δ _ _ _ _ _ _ _)).add (isQ_ll1 a δ k i)

theorem isQ_llB0 : IsQ (llB0 (n := n) a δ k i) :=
  ((isQ_lgG1 (isL_win (isL_obs (N := N)) 0) (isL_win (isL_llU a δ) 0) (isL_llP a δ _ _) (isL_llP a δ _ _)).add
    (isQ_llG a δ _ _ _ _ _ _ _)).add (isQ_ll0 a δ i)

theorem isQ_lgLogL {E : Type} [NormedAddCommGroup E] [NormedSpace ℝ E] {y x : E → Fin (n + 4) → ℝ} (hy : ∀ t, IsL fun z => y z t)
    (hx : ∀ t, IsL fun z => x z t) : IsQ fun z => lgLogL a (y z) (x z) := by
  have h1 := fun t => (hy t).cont
  have h2 := fun t => (hx t).cont
  refine IsQ.sub (g := fun z => ∑ t : Fin (n + 3), _) (IsQ.sub ⟨?_, fun s z => ?_⟩ ⟨?_, fun s z => ?_⟩)
    (IsQ.sum fun t => ⟨?_, fun s z => ?_⟩)
  · fun_prop
  · have h4 := (hx 0).smul s z
    rw [h4]; ring
  · fun_prop
  · have h3 := (hy 0).smul s z
    have h4 := (hx 0).smul s z
    rw [h3, h4]; ring
  · fun_prop
  · have h3 := fun t => (hy t).smul s z
    have h4 := fun t => (hx t).smul s z
    simp only [h3, h4]; ring

theorem isQ_llQ : IsQ (llQ (n := n) a δ k) := by
  refine ((((isQ_lgLogL a isL_obs fun t => ⟨by fun_prop, fun _ _ => rfl⟩).sub (IsQ.sum fun t => IsL.sq ⟨?_, fun _ _ => rfl⟩)).sub
    (IsQ.sum fun t => IsQ.sum fun i => IsL.sq ⟨?_, fun _ _ => rfl⟩))).sub (isQ_lgLogL a isL_obs fun t => isL_llP a δ t _)
  · fun_prop
  · fun_prop

end

/-! ## The direction of the witness -/

/-- All gaps between the log-weights, and the gain, are at least `K`. -/
structure LlGaps (a δ K : ℝ) (k : Fin (N + 1)) (w : LgL n N) : Prop where
  q : K ≤ llQ a δ k w
  g0 : ∀ i, i ≠ k → K ≤ ll0 a δ k w - ll0 a δ i w
  g1 : ∀ i, i ≠ 0 → K ≤ ll1 a δ k 0 w - ll1 a δ k i w
  g2 : ∀ p : Fin (n + 2) × Fin (N + 1), p.2 ≠ 0 → K ≤ ll2 a δ 0 p.1 w - ll2 a δ p.2 p.1 w
  gL : ∀ i, i ≠ 0 → K ≤ llBL a δ 0 w - llBL a δ i w
  gB : ∀ p : Fin n × Fin (N + 1), p.2 ≠ 0 → K ≤ llB a δ 0 p.1 w - llB a δ p.2 p.1 w
  gB1 : ∀ i, i ≠ k → K ≤ llB1 a δ k k w - llB1 a δ k i w
  gB0 : ∀ i, i ≠ k → K ≤ llB0 a δ k k w - llB0 a δ k i w

section
variable {a δ : ℝ} {x u : Fin (n + 4) → ℝ} {z0 z1 : ℝ} {k : Fin (N + 1)}

/-- The direction. -/
noncomputable def llV (a δ : ℝ) (x u : Fin (n + 4) → ℝ) (z0 z1 : ℝ) (k : Fin (N + 1)) : LgL n N :=
  (0, x, fun t => (u t - lgMeanL a δ 0 x t) / √(0.5 * δ), fun t i => if i = k then (twoNew z0 z1 u t - u t) / √(0.5 * δ) else 0)

theorem llU_llV (hδ : 0 < δ) : llU a δ (llV a δ x u z0 z1 k) = u := by
  have : √(0.5 * δ) ≠ 0 := (Real.sqrt_pos.mpr (by positivity)).ne'
  funext t
  simp only [llU, llV]
  field_simp
  ring

theorem llP_llV (hδ : 0 < δ) (t : Fin (n + 4)) (i : Fin (N + 1)) :
    llP a δ (llV a δ x u z0 z1 k) t i = if i = 0 then x t else if i = k then twoNew z0 z1 u t else u t := by
  have : √(0.5 * δ) ≠ 0 := (Real.sqrt_pos.mpr (by positivity)).ne'
  rw [llP, llU_llV hδ]
  split_ifs with h h1
  · rfl
  · simp only [llV, if_pos h1]
    field_simp
    ring
  · simp only [llV, if_neg h1, mul_zero, add_zero]

theorem llNew_llV (hδ : 0 < δ) (hk : k ≠ 0) : llNew a δ k (llV a δ x u z0 z1 k) = twoNew z0 z1 x := by
  funext t
  unfold llNew
  rw [llP_llV hδ]
  refine Fin.cases ?_ (fun t => Fin.cases ?_ (fun t => ?_) t) t
  · show (if k = 0 then _ else if k = k then z0 else _) = z0
    rw [if_neg hk, if_pos rfl]
  · show (if k = 0 then _ else if k = k then z1 else _) = z1
    rw [if_neg hk, if_pos rfl]
  · show (if (0 : Fin (N + 1)) = 0 then _ else _) = x t.succ.succ
    rw [if_pos rfl]

theorem llQ_llV (h : LgWitnessL a δ x u z0 z1) (hδ : 0 < δ) (hk : k ≠ 0) : 0 < llQ a δ k (llV a δ x u z0 z1 k) := by
  have hs : √(0.5 * δ) ^ 2 = δ / 2 := by
    rw [Real.sq_sqrt (by positivity)]; ring
  have h2 : ∑ t, (llV (N := N) a δ x u z0 z1 k).2.2.1 t ^ 2 / 2 = ∑ t, (u t - lgMeanL a δ 0 x t) ^ 2 / δ := by
    refine Finset.sum_congr rfl fun t _ => ?_
    simp only [llV, div_pow, hs]
    field_simp
  have h3 : ∑ t, ∑ i, (llV (N := N) a δ x u z0 z1 k).2.2.2 t i ^ 2 / 2 = (z0 - u 0) ^ 2 / δ + (z1 - u 1) ^ 2 / δ := by
    have h4 : ∀ t, ∑ i, (llV (N := N) a δ x u z0 z1 k).2.2.2 t i ^ 2 / 2 = (twoNew z0 z1 u t - u t) ^ 2 / δ := fun t => by
      simp only [llV]
      rw [Finset.sum_eq_single k (fun i _ hi => by rw [if_neg hi]; simp) (fun h => absurd (Finset.mem_univ k) h), if_pos rfl]
      simp only [div_pow, hs]
      field_simp
    simp only [h4]
    rw [Fin.sum_univ_succ, Fin.sum_univ_succ, Finset.sum_eq_zero, add_zero]
    · rfl
    · intro t _
      show (u t.succ.succ - u t.succ.succ) ^ 2 / δ = 0
      simp
  rw [llQ, llNew_llV hδ hk, h2, h3]
  have := h.gain
  show 0 < lgLogL a 0 x - _ - _ - lgLogL a 0 _
  linarith

/-- Near a large multiple of the direction of the witness all gaps are large. -/
theorem ll_eventually (h : LgWitnessL a δ x u z0 z1) (hδ : 0 < δ) (hk : k ≠ 0) (K R : ℝ) :
    ∀ᶠ s : ℝ in atTop, ∀ w : LgL n N, ‖w - s • llV a δ x u z0 z1 k‖ ≤ R → LlGaps a δ K k w := by
  have hy : (llV (N := N) a δ x u z0 z1 k).1 = 0 := rfl
  have hw0 : ∀ t : Fin (n + 2), win t (0 : Fin (n + 4) → ℝ) = 0 := fun t => by
    funext i
    fin_cases i <;> rfl
  have hA0 : longA k 0 = 0 := Function.update_self _ _ _
  have hA : ∀ i, i ≠ 0 → longA k i = k := fun i hi => Function.update_of_ne hi _ _
  have ht0 : twoNew z0 z1 u 0 = z0 := rfl
  have ht1 : twoNew z0 z1 u 1 = z1 := rfl
  have ht : ∀ t : Fin (n + 2), twoNew z0 z1 u t.succ.succ = u t.succ.succ := fun t => rfl
  have p2 : ∀ t : Fin (n + 2), ∀ i, i ≠ 0 → llP a δ (llV a δ x u z0 z1 k) t.succ.succ i = u t.succ.succ := fun t i hi => by
    rw [llP_llV hδ, if_neg hi, ht, ite_self]
  have p0 : ∀ t, llP a δ (llV a δ x u z0 z1 k) t 0 = x t := fun t => by rw [llP_llV hδ, if_pos rfl]
  have pk0 : llP a δ (llV a δ x u z0 z1 k) 0 k = z0 := by rw [llP_llV hδ, if_neg hk, if_pos rfl, ht0]
  have pk1 : llP a δ (llV a δ x u z0 z1 k) 1 k = z1 := by rw [llP_llV hδ, if_neg hk, if_pos rfl, ht1]
  have f2 : ∀ (t : Fin (n + 2)) i, i ≠ 0 → ll2 a δ i t (llV a δ x u z0 z1 k) =
      lgW2 a δ 0 (win t u) (x t.castSucc.castSucc) (x t.castSucc.succ) (u t.succ.succ) := fun t i hi => by
    simp only [ll2, hy, hw0, llU_llV hδ, p0, p2 t i hi]
  have f20 : ∀ (t : Fin (n + 2)), ll2 a δ 0 t (llV a δ x u z0 z1 k) =
      lgW2 a δ 0 (win t u) (x t.castSucc.castSucc) (x t.castSucc.succ) (x t.succ.succ) := fun t => by
    simp only [ll2, hy, hw0, llU_llV hδ, p0]
  have b0 := quad_eventually (ι := Unit) (P := fun _ => True) (fun _ => isQ_llQ (n := n) (N := N) a δ k)
    (fun _ _ => llQ_llV h hδ hk) K R
  have b1 := quad_eventually (P := fun i => i ≠ k) (fun i => (isQ_ll0 (n := n) a δ k).sub (isQ_ll0 a δ i)) (v := llV a δ x u z0 z1 k)
    (fun i hi => by
      simp only [ll0, hy, hw0, llU_llV hδ, pk0, sub_pos]
      refine h.zero _ ?_
      rw [llP_llV hδ, if_neg hi]
      split_ifs <;> simp) K R
  have b2 := quad_eventually (P := fun i => i ≠ 0) (fun i => (isQ_ll1 (n := n) a δ k 0).sub (isQ_ll1 a δ k i)) (v := llV a δ x u z0 z1 k)
    (fun i hi => by
      simp only [ll1, hy, hw0, llU_llV hδ, hA0, hA i hi, pk0, p0, sub_pos]
      refine h.one _ ?_
      rw [llP_llV hδ, if_neg hi, ht1]
      split_ifs <;> simp) K R
  have b3 := quad_eventually (P := fun p : Fin (n + 2) × Fin (N + 1) => p.2 ≠ 0)
    (fun p => (isQ_ll2 a δ 0 p.1).sub (isQ_ll2 a δ p.2 p.1)) (v := llV a δ x u z0 z1 k)
    (fun p hp => by
      simp only [f20, f2 _ _ hp, sub_pos]
      exact h.fwd _) K R
  have b4 := quad_eventually (P := fun i => i ≠ 0) (fun i => (isQ_llBL (n := n) a δ 0).sub (isQ_llBL a δ i)) (v := llV a δ x u z0 z1 k)
    (fun i hi => by
      have e := p2 (Fin.last n).castSucc i hi
      simp only [llBL, hy, hw0, llU_llV hδ, p0, f20, f2 _ i hi, sub_pos]
      rw [show llP a δ (llV a δ x u z0 z1 k) (Fin.last (n + 1)).castSucc.succ i = u (Fin.last (n + 1)).castSucc.succ from e]
      exact h.last) K R
  have b5 := quad_eventually (P := fun p : Fin n × Fin (N + 1) => p.2 ≠ 0)
    (fun p => (isQ_llB a δ 0 p.1).sub (isQ_llB a δ p.2 p.1)) (v := llV a δ x u z0 z1 k)
    (fun p hp => by
      simp only [llB, hy, hw0, llU_llV hδ, p0, f20, f2 _ _ hp, p2 _ _ hp, sub_pos]
      exact h.back _) K R
  have b6 := quad_eventually (P := fun i => i ≠ k) (fun i => (isQ_llB1 (n := n) a δ k k).sub (isQ_llB1 a δ k i)) (v := llV a δ x u z0 z1 k)
    (fun i hi => by
      simp only [llB1, ll1, hy, hw0, llU_llV hδ, p0, hA k hk, pk0, pk1, sub_pos]
      refine h.back1 _ _ ?_
      by_cases h0 : i = 0
      · left
        rw [h0, hA0, p0, p0]
        exact ⟨rfl, rfl⟩
      · right
        rw [hA i h0, pk0, llP_llV hδ, if_neg h0, if_neg hi]
        exact ⟨rfl, rfl⟩) K R
  have b7 := quad_eventually (P := fun i => i ≠ k) (fun i => (isQ_llB0 (n := n) a δ k k).sub (isQ_llB0 a δ k i)) (v := llV a δ x u z0 z1 k)
    (fun i hi => by
      simp only [llB0, ll0, hy, hw0, llU_llV hδ, p0, pk0, pk1, sub_pos]
      refine h.back0 _ ?_
      rw [llP_llV hδ, if_neg hi]
      split_ifs <;> simp) K R
  filter_upwards [b0, b1, b2, b3, b4, b5, b6, b7] with s c0 c1 c2 c3 c4 c5 c6 c7 w hw
  exact ⟨c0 w hw () trivial, c1 w hw, c2 w hw, c3 w hw, c4 w hw, c5 w hw, c6 w hw, c7 w hw⟩

end

end Verif
