import Verif.Lemmas.MultiTryInv
import Verif.Lemmas.TAtp
import Verif.Props.Kalman

/-!
# The multi-try programs: laws and weights
-/

open scoped ENNReal
open MeasureTheory Finset

namespace Verif
open Verif.Spec Verif.Model

variable {N n d T : ℕ}

/-! ## Exact and forced selection -/

/-- Draw noise, compute candidates and weights, select. -/
noncomputable def drawSelect {E S : Type} (D : Ex E) (W : E → Fin (N + 1) → ℝ) (g : E → Fin (N + 1) → S)
    (move : (Fin (N + 1) → ℝ) → Fin (N + 1) → Ex (Fin (N + 1))) : Ex S :=
  fun f => D fun e => move (W e) 0 fun i => f (g e i)

theorem measurable_select {E S : Type} [MeasurableSpace E] [MeasurableSpace S] {W : E → Fin (N + 1) → ℝ}
    (hW : Measurable W) {g : E → Fin (N + 1) → S} (hg : Measurable g)
    {move : (Fin (N + 1) → ℝ) → Fin (N + 1) → Ex (Fin (N + 1))} (hm : MoveKer move) {f : S → ℝ≥0∞} (hf : Measurable f) :
    Measurable fun e => move (W e) 0 fun i => f (g e i) :=
  measurable_move hm hW 0 (measurable_pi_lambda _ fun i => hf.comp ((measurable_pi_apply i).comp hg))

theorem drawSelect_le {E S : Type} [MeasurableSpace E] [MeasurableSpace S] {D : Ex E} (hD : IsKer fun _ : Unit => D)
    (h1 : D (fun _ => 1) = 1) {W : E → Fin (N + 1) → ℝ} (hW : Measurable W) (hp : ∀ e, IsProb (W e))
    {g : E → Fin (N + 1) → S} (hg : Measurable g) {move move' : (Fin (N + 1) → ℝ) → Fin (N + 1) → Ex (Fin (N + 1))}
    (hm : MoveKer move) (hm' : MoveKer move') {ε : ℝ≥0∞}
    (hn : ∀ w, IsProb w → ∀ k, ∀ f : Fin (N + 1) → ℝ≥0∞, (∀ i, f i ≤ 1) → move w k f ≤ move' w k f + ε)
    {f : S → ℝ≥0∞} (hf : Measurable f) (hf1 : ∀ s, f s ≤ 1) :
    drawSelect D W g move f ≤ drawSelect D W g move' f + ε := by
  have hd := hD.const_fun () ε
  rw [h1, mul_one] at hd
  calc drawSelect D W g move f ≤ D (fun e => (move' (W e) 0 fun i => f (g e i)) + ε) :=
        hD.mono () (measurable_select hW hg hm hf) ((measurable_select hW hg hm' hf).add measurable_const)
          fun e => hn _ (hp e) 0 _ fun i => hf1 _
    _ = drawSelect D W g move' f + D (fun _ => ε) := hD.add () (measurable_select hW hg hm' hf) measurable_const
    _ = _ := by rw [hd]

/-- Two moves that are close give kernels that are close. -/
theorem drawSelect_near {E S : Type} [MeasurableSpace E] [MeasurableSpace S] {D : Ex E} (hD : IsKer fun _ : Unit => D)
    (h1 : D (fun _ => 1) = 1) {W : E → Fin (N + 1) → ℝ} (hW : Measurable W) (hp : ∀ e, IsProb (W e))
    {g : E → Fin (N + 1) → S} (hg : Measurable g) {move move' : (Fin (N + 1) → ℝ) → Fin (N + 1) → Ex (Fin (N + 1))}
    (hm : MoveKer move) (hm' : MoveKer move') {ε : ℝ≥0∞} (hn : ∀ w, IsProb w → ∀ k, TVLe ε (move w k) (move' w k)) :
    TVLe ε (drawSelect D W g move) (drawSelect D W g move') := fun _ hf hf1 =>
  ⟨drawSelect_le hD h1 hW hp hg hm hm' (fun w hw k f h => (hn w hw k f (measurable_of_finite f) h).1) hf hf1,
    drawSelect_le hD h1 hW hp hg hm' hm (fun w hw k f h => (hn w hw k f (measurable_of_finite f) h).2) hf hf1⟩

/-- A kernel close to an invariant one is nearly invariant. -/
theorem stateNearInvariant_of {X S : Type} [MeasurableSpace X] [MeasurableSpace S] {ε : ℝ≥0∞} {lam : Measure X}
    {logpi : X → ℝ} (hpi : Measurable logpi) {init : X → S} {K : S → Ex S} {K' : X → Ex S}
    (hinv : ∀ f, Measurable f → ∫⁻ x, ENNReal.ofReal (Real.exp (logpi x)) * K' x f ∂lam =
      ∫⁻ x, ENNReal.ofReal (Real.exp (logpi x)) * f (init x) ∂lam)
    (hn : ∀ x, TVLe ε (K (init x)) (K' x)) : StateNearInvariant ε lam logpi init K := by
  have hm : Measurable fun x => ENNReal.ofReal (Real.exp (logpi x)) := measurable_expR hpi
  have key : ∀ A B : X → ℝ≥0∞, (∀ x, A x ≤ B x + ε) → ∫⁻ x, ENNReal.ofReal (Real.exp (logpi x)) * A x ∂lam ≤
      ∫⁻ x, ENNReal.ofReal (Real.exp (logpi x)) * B x ∂lam + ε * ∫⁻ x, ENNReal.ofReal (Real.exp (logpi x)) ∂lam := by
    intro A B h
    calc _ ≤ ∫⁻ x, (ENNReal.ofReal (Real.exp (logpi x)) * B x + ε * ENNReal.ofReal (Real.exp (logpi x))) ∂lam := by
          refine lintegral_mono fun x => ?_
          calc _ ≤ ENNReal.ofReal (Real.exp (logpi x)) * (B x + ε) := by gcongr; exact h x
            _ = _ := by ring
      _ = _ := by rw [lintegral_add_right _ (hm.const_mul ε), lintegral_const_mul _ hm]
  intro f hf h1
  have e := hinv f hf
  constructor
  · exact (key _ _ fun x => (hn x f hf h1).1).trans (by rw [e])
  · show ∫⁻ x, ENNReal.ofReal (Real.exp (logpi x)) * f (init x) ∂lam ≤ _
    rw [← e]
    exact key _ _ fun x => (hn x f hf h1).2

/-! ## Isotropic Gaussian trajectories -/

/-- Log-density of independent isotropic Gaussians. -/
noncomputable def isoT (s : ℝ) (m x : Traj T d) : ℝ := ∑ t, isoLogpdf s (m t) (x t)

@[fun_prop] theorem measurable_isoT {β : Type} [MeasurableSpace β] (s : ℝ) {m x : β → Traj T d} (hm : Measurable m)
    (hx : Measurable x) : Measurable fun b => isoT s (m b) (x b) :=
  Finset.measurable_fun_sum _ fun _ _ => by fun_prop

theorem isoT_eq (s : ℝ) (m x : Traj T d) :
    isoT s m x = -sumSq2 (fun t j => x t j - m t j) / (2 * s ^ 2) - T * isoC d s := by
  unfold isoT isoLogpdf sumSq2 sumSq
  rw [Finset.sum_sub_distrib, ← Finset.sum_div, Finset.sum_neg_distrib]
  simp

theorem isoT_comm (s : ℝ) (m x : Traj T d) : isoT s m x = isoT s x m :=
  Finset.sum_congr rfl fun _ _ => isoLogpdf_comm s _ _

theorem isoT_law {s : ℝ} (hs : 0 < s) (m : Traj T d) (F : Traj T d → ℝ≥0∞) (hF : Measurable F) :
    ∫⁻ e, F (fun t j => m t j + s * e t j) ∂(Measure.pi fun _ : Fin T => gaussM d) =
      ∫⁻ u, ENNReal.ofReal (Real.exp (isoT s m u)) * F u ∂(Measure.pi fun _ => volume) :=
  iso_pi_law (s := fun _ => s) (fun _ => hs) m F hF

/-- Independent draws. -/
theorem pi_draws {E X : Type} [MeasurableSpace E] [MeasurableSpace X] {μ : Measure E} [IsProbabilityMeasure μ]
    {lam : Measure X} [SigmaFinite lam] {g : E → X} (hg : Measurable g) {q : X → ℝ} (hq : Measurable q)
    (law : ∀ F : X → ℝ≥0∞, Measurable F → ∫⁻ e, F (g e) ∂μ = ∫⁻ x, ENNReal.ofReal (Real.exp (q x)) * F x ∂lam)
    (F : (Fin N → X) → ℝ≥0∞) (hF : Measurable F) :
    ∫⁻ e, F (fun i => g (e i)) ∂(Measure.pi fun _ : Fin N => μ) =
      ∫⁻ x, ENNReal.ofReal (Real.exp (∑ i, q (x i))) * F x ∂(Measure.pi fun _ => lam) := by
  have hmap : μ.map g = lam.withDensity fun x => ENNReal.ofReal (Real.exp (q x)) := by
    refine Measure.ext_of_lintegral _ fun F hF => ?_
    rw [lintegral_map hF hg, law F hF, lintegral_withDensity_exp hq hF]
  have : ∀ _ : Fin N, SigmaFinite (μ.map g) := fun _ => by
    have := Measure.isProbabilityMeasure_map (μ := μ) hg.aemeasurable
    infer_instance
  have h := Measure.pi_map_pi (μ := fun _ : Fin N => μ) (f := fun _ => g) (fun _ => hg.aemeasurable)
  simp only [hmap] at h
  have hgm : Measurable fun (e : Fin N → E) i => g (e i) :=
    measurable_pi_lambda _ fun i => hg.comp (measurable_pi_apply i)
  rw [← lintegral_pi_withDensity (fun _ => lam) (fun _ => q) (fun _ => hq) F hF, ← h, lintegral_map hF hgm]

/-! ## MALA -/

/-- Standard deviation of the proposals. -/
theorem sd_sq {delta : ℝ} (hd : 0 < delta) : Real.sqrt (0.5 * delta) ^ 2 = 0.5 * delta :=
  Real.sq_sqrt (by positivity)

theorem sd_pos {delta : ℝ} (hd : 0 < delta) : 0 < Real.sqrt (0.5 * delta) := Real.sqrt_pos.mpr (by positivity)

/-- Centre of the auxiliary variable. -/
noncomputable def malaCenter (delta : ℝ) (grad : Traj T d → Traj T d) (x : Traj T d) : Traj T d :=
  fun t j => x t j + 0.5 * delta * grad x t j

theorem measurable_malaCenter (delta : ℝ) {grad : Traj T d → Traj T d} (hg : Measurable grad) :
    Measurable (malaCenter delta grad) := by
  unfold malaCenter
  fun_prop

/-- The states of the candidates. -/
theorem cand_states (log_pdf : Traj T d → ℝ) (grad : Traj T d → Traj T d) (x : Traj T d) (samples : Fin N → Traj T d)
    (i : Fin (N + 1)) : (insert0 x samples i, insert0 (log_pdf x) (fun i => log_pdf (samples i)) i,
      insert0 (grad x) (fun i => grad (samples i)) i) = tp_init log_pdf grad (insert0 x samples i) := by
  refine Fin.cases ?_ (fun j => ?_) i <;> rfl

theorem cand_vals {β : Type} (h : Traj T d → β) (x : Traj T d) (samples : Fin N → Traj T d) :
    insert0 (h x) (fun i => h (samples i)) = fun i => h (insert0 x samples i) := by
  funext i
  refine Fin.cases ?_ (fun j => ?_) i <;> rfl

/-- Weights with the auxiliary variable. -/
theorem mala_aux_weight {delta : ℝ} (hd : 0 < delta) (log_pdf : Traj T d → ℝ) (grad : Traj T d → Traj T d)
    (u : Traj T d) (z : Fin (N + 1) → Traj T d) :
    malaLogWeights true delta (Real.sqrt (0.5 * delta)) u z (fun i => log_pdf (z i)) (fun i => grad (z i)) =
      fun k => log_pdf (z k) + isoT (Real.sqrt (0.5 * delta)) (malaCenter delta grad (z k)) u -
        isoT (Real.sqrt (0.5 * delta)) u (z k) := by
  funext k
  rw [isoT_comm _ u, isoT_eq, isoT_eq]
  simp only [malaLogWeights, if_true, malaCenter]
  have e : (fun t j => u t j - z k t j - 0.5 * delta * grad (z k) t j) =
      fun t j => u t j - (z k t j + 0.5 * delta * grad (z k) t j) := by
    funext t j; ring
  rw [e, sd_sq hd]
  field_simp
  ring

/-- Weights without the auxiliary variable. -/
theorem mala_marg_weight {delta : ℝ} (hd : 0 < delta) (log_pdf : Traj T d → ℝ) (grad : Traj T d → Traj T d)
    (u : Traj T d) (z : Fin (N + 1) → Traj T d) :
    malaLogWeights false delta (Real.sqrt (0.5 * delta)) u z (fun i => log_pdf (z i)) (fun i => grad (z i)) =
      fun k => log_pdf (z k) + ∑ t, logH (Real.sqrt (0.5 * delta)) (fun j => 0.5 * delta * grad (z k) t j)
        (fun i => z i t) k := by
  funext k
  simp only [malaLogWeights, Bool.false_eq_true, if_false]
  rw [mala_log_H_eq _ hd.ne']
  congr 1
  simp only [logH, sd_sq hd, dot2, sumSq, meanP]
  have h2 : 2 * (0.5 * delta) = delta := by ring
  rw [h2, ← Finset.sum_div, Finset.sum_sub_distrib, ← Finset.mul_sum, ← Finset.mul_sum]
  simp only [sq]

/-- The auxiliary variable integrated out. -/
theorem mala_marg_density {s : ℝ} (log_pdf : Traj T d → ℝ) (ψ : Traj T d → Traj T d)
    (z : Fin (N + 1) → Traj T d) (k : Fin (N + 1)) :
    ∫⁻ u, ENNReal.ofReal (Real.exp (mtLog log_pdf (fun x u => isoT s (fun t => x t + ψ x t) u) (fun u y => isoT s u y) u
        (fun i => z (Equiv.swap 0 k i)))) ∂(Measure.pi fun _ : Fin T => (volume : Measure (Vec d))) =
      ENNReal.ofReal (Real.exp (log_pdf (z k) + ∑ t, logH s (ψ (z k) t) (fun i => z i t) k)) *
        ∫⁻ u, ENNReal.ofReal (Real.exp (∑ i, isoT s u (z i))) ∂(Measure.pi fun _ : Fin T => (volume : Measure (Vec d))) := by
  have hm : Measurable fun u : Traj T d => ENNReal.ofReal (Real.exp (∑ i, isoT s u (z i))) :=
    measurable_expR (Finset.measurable_fun_sum _ fun i _ => by fun_prop)
  rw [← lintegral_const_mul _ hm]
  refine (lintegral_add_right_eq_self _ (fun t j => ψ (z k) t j / ((N : ℝ) + 1) : Traj T d)).symm.trans ?_
  refine lintegral_congr fun u => ?_
  rw [mtLog_swap, ← ofReal_exp_add]
  congr 2
  have h : ∀ t, _ := fun t => complete_square s (ψ (z k) t) (u t) (fun i => z i t) k
  have h' := Finset.sum_congr (rfl : (univ : Finset (Fin T)) = univ) fun t _ => h t
  rw [Finset.sum_sub_distrib, Finset.sum_add_distrib, Finset.sum_add_distrib, Finset.sum_comm,
    Finset.sum_comm (f := fun t i => isoLogpdf s (u t) (z i t))] at h'
  simp only [isoT]
  simp only [Pi.add_apply] at h' ⊢
  linarith

/-! ## Programs as selections -/

theorem drawSelect_ker {β E S : Type} [MeasurableSpace β] [MeasurableSpace E] [MeasurableSpace S] {D : β → Ex E}
    (hD : IsKer D) {W : β → E → Fin (N + 1) → ℝ} (hW : Measurable fun p : β × E => W p.1 p.2)
    {g : β → E → Fin (N + 1) → S} (hg : Measurable fun p : β × E => g p.1 p.2)
    {move : (Fin (N + 1) → ℝ) → Fin (N + 1) → Ex (Fin (N + 1))} (hm : MoveKer move) :
    IsKer fun b => drawSelect (D b) (W b) (g b) move := by
  have h2 : IsKer fun p : β × E => (move (W p.1 p.2) 0 >>= fun i => pure (g p.1 p.2 i) : Ex S) := by
    refine IsKer.bind (F := fun (p : β × E) i => pure (g p.1 p.2 i))
      (hm.comp (g := fun p : β × E => (W p.1 p.2, (0 : Fin (N + 1)))) (hW.prodMk measurable_const)) ?_
    exact IsKer.pure (g := fun q : (β × E) × Fin (N + 1) => g q.1.1 q.1.2 q.2)
      (measurable_index (hg.comp measurable_fst) measurable_snd)
  exact (hD.bind (F := fun b e => move (W b e) 0 >>= fun i => pure (g b e i)) h2).congr fun b f _ => rfl

theorem drawSelect_mass {E S : Type} {D : Ex E} (h1 : D (fun _ => 1) = 1) {W : E → Fin (N + 1) → ℝ}
    (hp : ∀ e, IsProb (W e)) (g : E → Fin (N + 1) → S)
    {move : (Fin (N + 1) → ℝ) → Fin (N + 1) → Ex (Fin (N + 1))} (hm : ∀ w, IsProb w → ∀ k, move w k (fun _ => 1) = 1) :
    drawSelect D W g move (fun _ => 1) = 1 := by
  have : (fun e => move (W e) 0 fun _ => (1 : ℝ≥0∞)) = fun _ => 1 := funext fun e => hm _ (hp e) 0
  show D (fun e => move (W e) 0 fun _ => 1) = 1
  rw [this, h1]

@[fun_prop] theorem measurable_sumSq2 {β : Type} [MeasurableSpace β] {a : β → Traj T d} (ha : Measurable a) :
    Measurable fun b => sumSq2 (a b) := by
  unfold sumSq2
  exact Finset.measurable_fun_sum _ fun t _ => Finset.measurable_fun_sum _ fun j _ => by fun_prop

@[fun_prop] theorem measurable_dot2 {β : Type} [MeasurableSpace β] {a c : β → Traj T d} (ha : Measurable a)
    (hc : Measurable c) : Measurable fun b => dot2 (a b) (c b) := by
  unfold dot2
  exact Finset.measurable_fun_sum _ fun t _ => Finset.measurable_fun_sum _ fun j _ => by fun_prop

theorem measurable_malaLogWeights {β : Type} [MeasurableSpace β] (auxiliary : Bool) (delta sd : ℝ) {us : β → Traj T d}
    {samples grads : β → Fin (N + 1) → Traj T d} {vals : β → Fin (N + 1) → ℝ} (hu : Measurable us)
    (hs : Measurable samples) (hv : Measurable vals) (hg : Measurable grads) :
    Measurable fun b => malaLogWeights auxiliary delta sd (us b) (samples b) (vals b) (grads b) := by
  refine measurable_pi_lambda _ fun i => ?_
  have hmean : ∀ t j, Measurable fun b => (∑ i, samples b i t j) / ((N : ℝ) + 1) := fun t j =>
    (Finset.measurable_fun_sum _ fun i _ => by fun_prop).div_const _
  have hmean' : Measurable fun b => (fun t j => (∑ i, samples b i t j) / ((N : ℝ) + 1) : Traj T d) :=
    measurable_pi_lambda _ fun t => measurable_pi_lambda _ fun j => hmean t j
  cases auxiliary
  · simp only [malaLogWeights, Bool.false_eq_true, if_false, mala_log_H]
    refine Measurable.add (by fun_prop) (Measurable.const_mul ?_ _)
    refine Measurable.add (Measurable.add (Measurable.add ?_ ?_) ?_) ?_
    · exact Measurable.const_mul (by fun_prop) _
    · exact Measurable.const_mul (by fun_prop) _
    · exact Measurable.const_mul (measurable_dot2 hmean' (by fun_prop)) _
    · exact Measurable.const_mul (by fun_prop) _
  · simp only [malaLogWeights, if_true]
    fun_prop

/-- The noise of `mala.kernel`. -/
noncomputable def malaNoise (key : Key) (N T d : ℕ) : Ex (Traj T d × (Fin N → Traj T d)) := do
  let a ← normal2 (splitKey key 3 2) T d
  let b ← normal3 (splitKey key 3 0) N T d
  pure (a, b)

theorem malaNoise_ker {β : Type} [MeasurableSpace β] (key : Key) : IsKer fun _ : β => malaNoise key N T d :=
  IsKer.bind (IsKer.normal2 _ _ _) (IsKer.bind (F := fun (p : β × Traj T d) b => pure (p.2, b)) (IsKer.normal3 _ _ _ _)
    (IsKer.pure (g := fun q : (β × Traj T d) × (Fin N → Traj T d) => (q.1.2, q.2)) (by fun_prop)))

theorem malaNoise_mass (key : Key) : malaNoise key N T d (fun _ => 1) = 1 := by
  show ∫⁻ _ : Traj T d, ∫⁻ _ : Fin N → Traj T d, (1 : ℝ≥0∞)
    ∂(Measure.pi fun _ => Measure.pi fun _ => gaussM d) ∂(Measure.pi fun _ => gaussM d) = 1
  simp

/-- The auxiliary trajectory of `mala.kernel`. -/
noncomputable def malaU (delta : ℝ) (s : VGState T d) (e : Traj T d × (Fin N → Traj T d)) : Traj T d :=
  auxTraj s delta (Real.sqrt (0.5 * delta)) e.1

/-- The proposals of `mala.kernel`. -/
noncomputable def malaProp (delta : ℝ) (s : VGState T d) (e : Traj T d × (Fin N → Traj T d)) : Fin N → Traj T d :=
  fun i t j => malaU delta s e t j + Real.sqrt (0.5 * delta) * e.2 i t j

/-- The candidate states. -/
noncomputable def candStates (log_pdf : Traj T d → ℝ) (grad : Traj T d → Traj T d) (s : VGState T d)
    (samples : Fin N → Traj T d) : Fin (N + 1) → VGState T d :=
  fun i => (insert0 s.1 samples i, insert0 s.2.1 (fun i => log_pdf (samples i)) i,
    insert0 s.2.2 (fun i => grad (samples i)) i)

/-- One step of a chain of states. -/
noncomputable def stateStep {S : Type} (kernel : Key → S → Ex (S × Bool)) (key : Key) (s : S) : Ex S := do
  let r ← kernel key s
  pure r.1

/-- The forced selection of an index. -/
noncomputable def forcedIdx (key : Key) (w : Fin (N + 1) → ℝ) (k : Fin (N + 1)) : Ex (Fin (N + 1)) :=
  moveIndex (fun key w k => force_move key w k) key w k

/-- The weights of `mala.kernel`. -/
noncomputable def malaW (delta : ℝ) (log_pdf : Traj T d → ℝ) (grad : Traj T d → Traj T d) (auxiliary : Bool)
    (s : VGState T d) (e : Traj T d × (Fin N → Traj T d)) : Fin (N + 1) → ℝ :=
  normalizeW (malaLogWeights auxiliary delta (Real.sqrt (0.5 * delta)) (malaU delta s e)
    (insert0 s.1 (malaProp delta s e)) (insert0 s.2.1 fun i => log_pdf (malaProp delta s e i))
    (insert0 s.2.2 fun i => grad (malaProp delta s e i)))

theorem mala_step_eq (key : Key) (s : VGState T d) (delta : ℝ) (log_pdf : Traj T d → ℝ) (grad : Traj T d → Traj T d)
    (N : ℕ) (auxiliary : Bool) :
    stateStep (fun key s => mala_kernel key s delta log_pdf grad N auxiliary) key s =
      drawSelect (malaNoise key N T d) (malaW delta log_pdf grad auxiliary s)
        (fun e => candStates log_pdf grad s (malaProp delta s e)) (forcedIdx (splitKey key 3 1)) := by
  unfold malaW
  simp only [← expNormalize_eq]
  rfl

section meas
variable {log_pdf : Traj T d → ℝ} {grad : Traj T d → Traj T d} (hl : Measurable log_pdf) (hg : Measurable grad)
include hl hg

theorem measurable_tp_init : Measurable (tp_init log_pdf grad) := measurable_id.prodMk (hl.prodMk hg)

theorem measurable_candStates {β : Type} [MeasurableSpace β] {s : β → VGState T d} {samples : β → Fin N → Traj T d}
    (hs : Measurable s) (hsm : Measurable samples) :
    Measurable fun b => candStates log_pdf grad (s b) (samples b) := by
  refine measurable_pi_lambda _ fun i => ?_
  have h1 : Measurable fun b => insert0 (s b).1 (samples b) i :=
    (measurable_pi_apply i).comp (measurable_insert0 (measurable_fst.comp hs) hsm)
  have h2 : Measurable fun b => insert0 (s b).2.1 (fun i => log_pdf (samples b i)) i :=
    (measurable_pi_apply i).comp (measurable_insert0 (measurable_fst.comp (measurable_snd.comp hs))
      (measurable_pi_lambda _ fun i => hl.comp ((measurable_pi_apply i).comp hsm)))
  have h3 : Measurable fun b => insert0 (s b).2.2 (fun i => grad (samples b i)) i :=
    (measurable_pi_apply i).comp (measurable_insert0 (measurable_snd.comp (measurable_snd.comp hs))
      (measurable_pi_lambda _ fun i => hg.comp ((measurable_pi_apply i).comp hsm)))
  exact h1.prodMk (h2.prodMk h3)

omit hl hg in
theorem measurable_malaU (delta : ℝ) : Measurable fun p : VGState T d × (Traj T d × (Fin N → Traj T d)) =>
    malaU delta p.1 p.2 := by
  unfold malaU auxTraj
  fun_prop

omit hl hg in
theorem measurable_malaProp (delta : ℝ) : Measurable fun p : VGState T d × (Traj T d × (Fin N → Traj T d)) =>
    malaProp delta p.1 p.2 := by
  have := measurable_malaU (N := N) (T := T) (d := d) delta
  unfold malaProp
  fun_prop

theorem measurable_malaW (delta : ℝ) (auxiliary : Bool) :
    Measurable fun p : VGState T d × (Traj T d × (Fin N → Traj T d)) => malaW delta log_pdf grad auxiliary p.1 p.2 := by
  have h1 := measurable_malaU (N := N) (T := T) (d := d) delta
  have h2 := measurable_malaProp (N := N) (T := T) (d := d) delta
  refine measurable_normalizeW (measurable_malaLogWeights _ _ _ h1 ?_ ?_ ?_)
  · exact measurable_insert0 (by fun_prop) h2
  · exact measurable_insert0 (by fun_prop) (measurable_pi_lambda _ fun i => hl.comp ((measurable_pi_apply i).comp h2))
  · exact measurable_insert0 (by fun_prop) (measurable_pi_lambda _ fun i => hg.comp ((measurable_pi_apply i).comp h2))

theorem mala_step_ker (key : Key) (delta : ℝ) (N : ℕ) (auxiliary : Bool) :
    IsKer (stateStep (fun key s => mala_kernel key s delta log_pdf grad N auxiliary) key) := by
  have h := drawSelect_ker (malaNoise_ker (β := VGState T d) (N := N) key) (measurable_malaW hl hg delta auxiliary)
    (g := fun s e => candStates log_pdf grad s (malaProp delta s e))
    (measurable_candStates hl hg measurable_fst (measurable_malaProp delta)) (force_moveKer (splitKey key 3 1))
  exact h.congr fun s f _ => (congrFun (mala_step_eq key s delta log_pdf grad N auxiliary) f).symm

end meas

theorem mala_step_mass (key : Key) (s : VGState T d) (delta : ℝ) (log_pdf : Traj T d → ℝ) (grad : Traj T d → Traj T d)
    (N : ℕ) (auxiliary : Bool) :
    stateStep (fun key s => mala_kernel key s delta log_pdf grad N auxiliary) key s (fun _ => 1) = 1 := by
  rw [mala_step_eq]
  exact drawSelect_mass (malaNoise_mass key) (fun e => normalize_isProb _) _ fun w hw k => force_mass _ hw k

/-- The noise integrated: auxiliary variable and proposals with their densities. -/
theorem malaNoise_law (key : Key) {delta : ℝ} (hd : 0 < delta) (log_pdf : Traj T d → ℝ) (grad : Traj T d → Traj T d)
    (x : Traj T d) {M : Traj T d → (Fin N → Traj T d) → ℝ≥0∞}
    (hM : Measurable fun p : Traj T d × (Fin N → Traj T d) => M p.1 p.2) :
    malaNoise key N T d (fun e => M (malaU delta (tp_init log_pdf grad x) e) (malaProp delta (tp_init log_pdf grad x) e)) =
      ∫⁻ u, ENNReal.ofReal (Real.exp (isoT (Real.sqrt (0.5 * delta)) (malaCenter delta grad x) u)) *
        ∫⁻ y, ENNReal.ofReal (Real.exp (∑ i, isoT (Real.sqrt (0.5 * delta)) u (y i))) * M u y
          ∂(Measure.pi fun _ : Fin N => Measure.pi fun _ => volume) ∂(Measure.pi fun _ => volume) := by
  obtain ⟨s, hs⟩ : ∃ s, s = Real.sqrt (0.5 * delta) := ⟨_, rfl⟩
  have hsp : 0 < s := hs ▸ sd_pos hd
  have h1 : ∀ u, ∫⁻ b : Fin N → Traj T d, M u (fun i t j => u t j + s * b i t j)
      ∂(Measure.pi fun _ : Fin N => Measure.pi fun _ => gaussM d) =
      ∫⁻ y, ENNReal.ofReal (Real.exp (∑ i, isoT s u (y i))) * M u y
        ∂(Measure.pi fun _ : Fin N => Measure.pi fun _ => volume) := fun u =>
    pi_draws (g := fun (e : Traj T d) t j => u t j + s * e t j) (by fun_prop) (by fun_prop)
      (fun F hF => isoT_law hsp u F hF) (fun y => M u y) (hM.comp (by fun_prop : Measurable fun y : Fin N → Traj T d => (u, y)))
  rw [← hs]
  simp only [← h1]
  have hm : Measurable fun u : Traj T d => ∫⁻ b : Fin N → Traj T d, M u (fun i t j => u t j + s * b i t j)
      ∂(Measure.pi fun _ : Fin N => Measure.pi fun _ => gaussM d) := by
    have : Measurable fun p : Traj T d × (Fin N → Traj T d) => M p.1 (fun i t j => p.1 t j + s * p.2 i t j) :=
      hM.comp (by fun_prop : Measurable fun p : Traj T d × (Fin N → Traj T d) =>
        (p.1, (fun i t j => p.1 t j + s * p.2 i t j : Fin N → Traj T d)))
    exact this.lintegral_prod_right'
  rw [← isoT_law hsp (malaCenter delta grad x) _ hm]
  show ∫⁻ a : Traj T d, ∫⁻ b : Fin N → Traj T d, _ ∂(Measure.pi fun _ => Measure.pi fun _ => gaussM d)
    ∂(Measure.pi fun _ => gaussM d) = _
  subst hs
  rfl

/-! ## `tp.py` -/

theorem measurable_sum_pairs {β Θ X : Type} [MeasurableSpace β] [MeasurableSpace Θ] [MeasurableSpace X] {q : Θ → X → ℝ}
    (hq : Measurable fun p : Θ × X => q p.1 p.2) {u : β → Θ} (hu : Measurable u) :
    Measurable fun p : β × (Fin N → X) => ∑ i, q (u p.1) (p.2 i) := by
  refine Finset.measurable_fun_sum _ fun i _ => ?_
  have hi : Measurable fun p : β × (Fin N → X) => (u p.1, p.2 i) :=
    (hu.comp measurable_fst).prodMk ((measurable_pi_apply i).comp measurable_snd)
  exact hq.comp hi

/-- The filter of `tp.get_kernel` applied to the auxiliary variable. -/
noncomputable def tpFilter (delta : ℝ) (D : Dyn n d) (u : Traj (n + 1) d) :
    (Fin (n + 1) → Vec d) × (Fin (n + 1) → Mat d d) × ℝ :=
  filtering0 u D.m0 D.P0 D.Fs D.Qs D.bs (fun _ => 1) (fun _ => (0.5 * delta) • (1 : Mat d d)) (fun _ => 0)

/-- The log-density of a proposal of `tp.get_kernel` given the auxiliary variable. -/
noncomputable def tpQ (delta : ℝ) (D : Dyn n d) (u y : Traj (n + 1) d) : ℝ :=
  gaussPathLog D.m0 D.P0 D.Fs D.Qs D.bs y +
    obsLog (fun _ => (1 : Mat d d)) (fun _ => (0.5 * delta) • (1 : Mat d d)) (fun _ => 0) u y - (tpFilter delta D u).2.2

theorem measurable_obsLog_iso (delta : ℝ) :
    Measurable fun p : Traj (n + 1) d × Traj (n + 1) d =>
      obsLog (fun _ => (1 : Mat d d)) (fun _ => (0.5 * delta) • (1 : Mat d d)) (fun _ => 0) p.1 p.2 := by
  unfold obsLog
  refine Finset.measurable_fun_sum _ fun t _ => measurable_normalLogpdf _ ?_ ?_
  · exact (measurable_mulVec _ (by fun_prop)).add measurable_const
  · fun_prop

theorem obsLog_iso {delta : ℝ} (hd : 0 < delta) (u y : Traj (n + 1) d) :
    obsLog (fun _ => (1 : Mat d d)) (fun _ => (0.5 * delta) • (1 : Mat d d)) (fun _ => 0) u y =
      isoT (Real.sqrt (0.5 * delta)) y u := by
  unfold obsLog isoT
  refine Finset.sum_congr rfl fun t _ => ?_
  rw [← normalLogpdf_iso (sd_pos hd), sd_sq hd]
  simp

section tp
variable {D : Dyn n d} (hP : D.P0.PosDef) (hQ : ∀ t, (D.Qs t).PosDef) {delta : ℝ} (hd : 0 < delta)
include hP hQ hd

omit hP hQ in
theorem tp_posDef_R (t : Fin (n + 1)) : ((fun _ => (0.5 * delta) • (1 : Mat d d) : Fin (n + 1) → Mat d d) t).PosDef :=
  posDef_smul_one (by positivity)

theorem measurable_tpEll : Measurable fun u => (tpFilter delta D u).2.2 := by
  have h : ∀ u : Traj (n + 1) d, (tpFilter delta D u).2.2 = Real.log (∫⁻ x, ENNReal.ofReal (Real.exp
      (gaussPathLog D.m0 D.P0 D.Fs D.Qs D.bs x +
        obsLog (fun _ => (1 : Mat d d)) (fun _ => (0.5 * delta) • (1 : Mat d d)) (fun _ => 0) u x))
      ∂(Measure.pi fun _ : Fin (n + 1) => (volume : Measure (Vec d)))).toReal := by
    intro u
    rw [Props.C39_evidence u D.m0 D.bs (fun _ => 1) (fun _ => 0) hP hQ (tp_posDef_R hd),
      ENNReal.toReal_ofReal (Real.exp_pos _).le, Real.log_exp]
    rfl
  simp only [h]
  refine Real.measurable_log.comp (ENNReal.measurable_toReal.comp ?_)
  refine Measurable.lintegral_prod_right' (f := fun p : Traj (n + 1) d × Traj (n + 1) d => ENNReal.ofReal (Real.exp
      (gaussPathLog D.m0 D.P0 D.Fs D.Qs D.bs p.2 +
        obsLog (fun _ => (1 : Mat d d)) (fun _ => (0.5 * delta) • (1 : Mat d d)) (fun _ => 0) p.1 p.2))) ?_
  exact measurable_expR ((measurable_gaussPathLog _ _ _ _ measurable_const measurable_snd).add
    (measurable_obsLog_iso delta))

theorem measurable_tpQ : Measurable fun p : Traj (n + 1) d × Traj (n + 1) d => tpQ delta D p.1 p.2 :=
  ((measurable_gaussPathLog _ _ _ _ measurable_const measurable_snd).add (measurable_obsLog_iso delta)).sub
    ((measurable_tpEll hP hQ hd).comp measurable_fst)

theorem tp_draws (key : Key) (u : Traj (n + 1) d) {F : (Fin N → Traj (n + 1) d) → ℝ≥0∞} (hF : Measurable F) :
    (kalman_sampling key (tpFilter delta D u).1 (tpFilter delta D u).2.1 D.Fs D.Qs D.bs N : Ex _) F =
      ∫⁻ y, ENNReal.ofReal (Real.exp (∑ i, tpQ delta D u (y i))) * F y
        ∂(Measure.pi fun _ : Fin N => Measure.pi fun _ => volume) := by
  have h := Props.C39_filtering0 (N := N) u D.m0 (Fs := D.Fs) D.bs (fun _ => 1) (fun _ => 0) hP hQ (tp_posDef_R hd) key
  refine (h.law F hF).trans ?_
  rw [lintegral_pi_withDensity _ _ (fun i => h.meas i) F hF]
  rfl

theorem tp_draws_ker {β : Type} [MeasurableSpace β] (key : Key) {u : β → Traj (n + 1) d} (hu : Measurable u) :
    IsKer fun b => (kalman_sampling key (tpFilter delta D (u b)).1 (tpFilter delta D (u b)).2.1 D.Fs D.Qs D.bs N :
      Ex (Fin N → Traj (n + 1) d)) := by
  have hm : Measurable fun p : β × (Fin N → Traj (n + 1) d) => ∑ i, tpQ delta D (u p.1) (p.2 i) :=
    measurable_sum_pairs (q := tpQ delta D) (measurable_tpQ hP hQ hd) hu
  have h := isKer_density (lam := Measure.pi fun _ : Fin N => Measure.pi fun _ : Fin (n + 1) => (volume : Measure (Vec d)))
    (g := fun (b : β) (y : Fin N → Traj (n + 1) d) => ∑ i, tpQ delta D (u b) (y i)) hm
  exact h.congr fun b f hf => (tp_draws hP hQ hd key (u b) hf).symm

theorem tp_draws_mass (key : Key) (u : Traj (n + 1) d) :
    (kalman_sampling key (tpFilter delta D u).1 (tpFilter delta D u).2.1 D.Fs D.Qs D.bs N :
      Ex (Fin N → Traj (n + 1) d)) (fun _ => 1) = 1 := by
  have h := Props.C39_filtering0 (N := N) u D.m0 (Fs := D.Fs) D.bs (fun _ => 1) (fun _ => 0) hP hQ (tp_posDef_R hd) key
  refine (h.law _ measurable_const).trans ?_
  have : ∀ i : Fin N, IsProbabilityMeasure ((Measure.pi fun _ : Fin (n + 1) => (volume : Measure (Vec d))).withDensity
      fun x => ENNReal.ofReal (Real.exp (gaussPathLog D.m0 D.P0 D.Fs D.Qs D.bs x +
        obsLog (fun _ => (1 : Mat d d)) (fun _ => (0.5 * delta) • (1 : Mat d d)) (fun _ => 0) u x -
        (filtering0 u D.m0 D.P0 D.Fs D.Qs D.bs (fun _ => 1) (fun _ => (0.5 * delta) • (1 : Mat d d)) (fun _ => 0)).2.2))) :=
    fun i => ⟨by rw [withDensity_apply _ MeasurableSet.univ, Measure.restrict_univ]; exact h.norm i⟩
  rw [lintegral_one, measure_univ]

/-- The noise of the kernel of `tp.py`: auxiliary variable and proposals. -/
noncomputable def mtpNoise (key : Key) (delta : ℝ) (D : Dyn n d) (N : ℕ) (s : VGState (n + 1) d) :
    Ex (Traj (n + 1) d × (Fin N → Traj (n + 1) d)) := do
  let a ← normal2 (splitKey key 3 2) (n + 1) d
  let u := auxTraj s delta (Real.sqrt (0.5 * delta)) a
  let b ← kalman_sampling (splitKey key 3 0) (tpFilter delta D u).1 (tpFilter delta D u).2.1 D.Fs D.Qs D.bs N
  pure (u, b)

theorem mtpNoise_ker (key : Key) : IsKer (mtpNoise key delta D N) := by
  have hu : Measurable fun p : VGState (n + 1) d × Traj (n + 1) d => auxTraj p.1 delta (Real.sqrt (0.5 * delta)) p.2 := by
    unfold auxTraj; fun_prop
  refine IsKer.bind (F := fun s a => kalman_sampling (splitKey key 3 0)
      (tpFilter delta D (auxTraj s delta (Real.sqrt (0.5 * delta)) a)).1
      (tpFilter delta D (auxTraj s delta (Real.sqrt (0.5 * delta)) a)).2.1 D.Fs D.Qs D.bs N >>=
        fun b => pure (auxTraj s delta (Real.sqrt (0.5 * delta)) a, b)) (IsKer.normal2 _ _ _) ?_
  refine IsKer.bind (F := fun (p : VGState (n + 1) d × Traj (n + 1) d) b =>
    pure (auxTraj p.1 delta (Real.sqrt (0.5 * delta)) p.2, b)) (tp_draws_ker hP hQ hd _ hu) ?_
  exact IsKer.pure (g := fun q : (VGState (n + 1) d × Traj (n + 1) d) × (Fin N → Traj (n + 1) d) =>
    (auxTraj q.1.1 delta (Real.sqrt (0.5 * delta)) q.1.2, q.2)) ((hu.comp measurable_fst).prodMk measurable_snd)

theorem mtpNoise_mass (key : Key) (s : VGState (n + 1) d) : mtpNoise key delta D N s (fun _ => 1) = 1 := by
  show ∫⁻ a : Traj (n + 1) d, (kalman_sampling (splitKey key 3 0)
      (tpFilter delta D (auxTraj s delta (Real.sqrt (0.5 * delta)) a)).1
      (tpFilter delta D (auxTraj s delta (Real.sqrt (0.5 * delta)) a)).2.1 D.Fs D.Qs D.bs N : Ex _) (fun _ => 1)
      ∂(Measure.pi fun _ => gaussM d) = 1
  simp only [tp_draws_mass hP hQ hd]
  simp

theorem mtpNoise_law (key : Key) (log_pdf : Traj (n + 1) d → ℝ) (grad : Traj (n + 1) d → Traj (n + 1) d)
    (x : Traj (n + 1) d) {M : Traj (n + 1) d → (Fin N → Traj (n + 1) d) → ℝ≥0∞}
    (hM : Measurable fun p : Traj (n + 1) d × (Fin N → Traj (n + 1) d) => M p.1 p.2) :
    mtpNoise key delta D N (tp_init log_pdf grad x) (fun e => M e.1 e.2) =
      ∫⁻ u, ENNReal.ofReal (Real.exp (isoT (Real.sqrt (0.5 * delta)) (malaCenter delta grad x) u)) *
        ∫⁻ y, ENNReal.ofReal (Real.exp (∑ i, tpQ delta D u (y i))) * M u y
          ∂(Measure.pi fun _ : Fin N => Measure.pi fun _ => volume) ∂(Measure.pi fun _ => volume) := by
  have h1 := fun u => tp_draws (N := N) hP hQ hd (splitKey key 3 0) u (F := fun y => M u y)
    (hM.comp (by fun_prop : Measurable fun y : Fin N → Traj (n + 1) d => (u, y)))
  have hm : Measurable fun u : Traj (n + 1) d => ∫⁻ y, ENNReal.ofReal (Real.exp (∑ i, tpQ delta D u (y i))) * M u y
      ∂(Measure.pi fun _ : Fin N => Measure.pi fun _ => volume) := by
    refine Measurable.lintegral_prod_right' (f := fun p : Traj (n + 1) d × (Fin N → Traj (n + 1) d) =>
      ENNReal.ofReal (Real.exp (∑ i, tpQ delta D p.1 (p.2 i))) * M p.1 p.2) ?_
    have hs : Measurable fun p : Traj (n + 1) d × (Fin N → Traj (n + 1) d) => ∑ i, tpQ delta D p.1 (p.2 i) :=
      measurable_sum_pairs (q := tpQ delta D) (u := fun x => x) (measurable_tpQ hP hQ hd) measurable_id
    exact (measurable_expR hs).mul hM
  rw [← isoT_law (sd_pos hd) (malaCenter delta grad x) _ hm]
  simp only [← h1]
  rfl

omit hP hQ in
theorem tp_weight (log_pdf : Traj (n + 1) d → ℝ) (grad : Traj (n + 1) d → Traj (n + 1) d)
    (u : Traj (n + 1) d) (z : Fin (N + 1) → Traj (n + 1) d) :
    normalizeW (tpLogWeights delta u z (fun i => log_pdf (z i)) (fun i => grad (z i))) =
      normalizeW fun k => (gaussPathLog D.m0 D.P0 D.Fs D.Qs D.bs (z k) + log_pdf (z k)) +
        isoT (Real.sqrt (0.5 * delta)) (malaCenter delta grad (z k)) u - tpQ delta D u (z k) := by
  refine normalize_congr_const ⟨-(tpFilter delta D u).2.2, fun k => ?_⟩
  rw [tpQ, obsLog_iso hd, isoT_eq, isoT_eq, sd_sq hd]
  have h : dot2 (fun t j => u t j - z k t j - 0.25 * delta * grad (z k) t j) (grad (z k)) =
      -sumSq2 (fun t j => u t j - malaCenter delta grad (z k) t j) / (2 * (0.5 * delta)) -
        -sumSq2 (fun t j => u t j - z k t j) / (2 * (0.5 * delta)) := by
    rw [← sub_div, eq_div_iff (by positivity)]
    simp only [dot2, sumSq2, malaCenter]
    rw [Finset.sum_mul, ← Finset.sum_neg_distrib, ← Finset.sum_neg_distrib, ← Finset.sum_sub_distrib]
    refine Finset.sum_congr rfl fun t _ => ?_
    rw [Finset.sum_mul, ← Finset.sum_neg_distrib, ← Finset.sum_neg_distrib, ← Finset.sum_sub_distrib]
    refine Finset.sum_congr rfl fun j _ => ?_
    ring
  simp only [tpLogWeights, h]
  ring

end tp

/-- The weights of the kernel of `tp.py`. -/
noncomputable def tpW (delta : ℝ) (log_pdf : Traj T d → ℝ) (grad : Traj T d → Traj T d)
    (s : VGState T d) (e : Traj T d × (Fin N → Traj T d)) : Fin (N + 1) → ℝ :=
  normalizeW (tpLogWeights delta e.1 (insert0 s.1 e.2) (insert0 s.2.1 fun i => log_pdf (e.2 i))
    (insert0 s.2.2 fun i => grad (e.2 i)))

theorem tp_step_eq (key : Key) (s : VGState (n + 1) d) (delta : ℝ) (D : Dyn n d) (log_pdf : Traj (n + 1) d → ℝ)
    (grad : Traj (n + 1) d → Traj (n + 1) d) (N : ℕ) :
    stateStep (fun key s => tp_kernel key s delta D log_pdf grad N) key s =
      drawSelect (mtpNoise key delta D N s) (tpW delta log_pdf grad s)
        (fun e => candStates log_pdf grad s e.2) (forcedIdx (splitKey key 3 1)) := by
  unfold tpW
  simp only [← expNormalize_eq]
  rfl

theorem measurable_tpLogWeights {β : Type} [MeasurableSpace β] (delta : ℝ) {us : β → Traj T d}
    {samples grads : β → Fin (N + 1) → Traj T d} {vals : β → Fin (N + 1) → ℝ} (hu : Measurable us)
    (hs : Measurable samples) (hv : Measurable vals) (hg : Measurable grads) :
    Measurable fun b => tpLogWeights delta (us b) (samples b) (vals b) (grads b) := by
  unfold tpLogWeights
  refine measurable_pi_lambda _ fun i => ?_
  refine Measurable.add (by fun_prop) (measurable_dot2 (by fun_prop) (by fun_prop))

theorem measurable_tpW {log_pdf : Traj T d → ℝ} {grad : Traj T d → Traj T d} (hl : Measurable log_pdf)
    (hg : Measurable grad) (delta : ℝ) :
    Measurable fun p : VGState T d × (Traj T d × (Fin N → Traj T d)) => tpW delta log_pdf grad p.1 p.2 := by
  have h2 : Measurable fun p : VGState T d × (Traj T d × (Fin N → Traj T d)) => p.2.2 := by fun_prop
  refine measurable_normalizeW (measurable_tpLogWeights _ (by fun_prop) ?_ ?_ ?_)
  · exact measurable_insert0 (by fun_prop) h2
  · exact measurable_insert0 (by fun_prop) (measurable_pi_lambda _ fun i => hl.comp ((measurable_pi_apply i).comp h2))
  · exact measurable_insert0 (by fun_prop) (measurable_pi_lambda _ fun i => hg.comp ((measurable_pi_apply i).comp h2))

theorem tp_step_ker {D : Dyn n d} (hP : D.P0.PosDef) (hQ : ∀ t, (D.Qs t).PosDef) {delta : ℝ} (hd : 0 < delta)
    {log_pdf : Traj (n + 1) d → ℝ} {grad : Traj (n + 1) d → Traj (n + 1) d} (hl : Measurable log_pdf)
    (hg : Measurable grad) (key : Key) (N : ℕ) :
    IsKer (stateStep (fun key s => tp_kernel key s delta D log_pdf grad N) key) := by
  have h := drawSelect_ker (mtpNoise_ker (N := N) hP hQ hd key) (measurable_tpW hl hg delta)
    (g := fun s e => candStates log_pdf grad s e.2)
    (measurable_candStates hl hg measurable_fst (by fun_prop)) (force_moveKer (splitKey key 3 1))
  exact h.congr fun s f _ => (congrFun (tp_step_eq key s delta D log_pdf grad N) f).symm

theorem tp_step_mass {D : Dyn n d} (hP : D.P0.PosDef) (hQ : ∀ t, (D.Qs t).PosDef) {delta : ℝ} (hd : 0 < delta)
    (log_pdf : Traj (n + 1) d → ℝ) (grad : Traj (n + 1) d → Traj (n + 1) d) (key : Key) (N : ℕ)
    (s : VGState (n + 1) d) :
    stateStep (fun key s => tp_kernel key s delta D log_pdf grad N) key s (fun _ => 1) = 1 := by
  rw [tp_step_eq]
  exact drawSelect_mass (mtpNoise_mass hP hQ hd key s) (fun e => normalize_isProb _) _ fun w hw k => force_mass _ hw k

/-! ## `imh.py` -/

/-- The weights of the kernel of `imh.py`. -/
noncomputable def imhW (log_pdf : Traj T d → ℝ) (s : Traj T d × ℝ) (e : Fin N → Traj T d) : Fin (N + 1) → ℝ :=
  normalizeW (insert0 s.2 fun i => log_pdf (e i))

/-- The candidate states of the kernel of `imh.py`. -/
noncomputable def imhStates (log_pdf : Traj T d → ℝ) (s : Traj T d × ℝ) (e : Fin N → Traj T d) :
    Fin (N + 1) → Traj T d × ℝ :=
  fun i => (insert0 s.1 e i, insert0 s.2 (fun i => log_pdf (e i)) i)

theorem imh_step_eq (key : Key) (s : Traj (n + 1) d × ℝ) (D : Dyn n d) (log_pdf : Traj (n + 1) d → ℝ) (N : ℕ) :
    stateStep (fun key s => imh_kernel key s D log_pdf N) key s =
      drawSelect (prior_sampling (splitKey key 3 0) D.m0 D.P0 D.Fs D.Qs D.bs N) (imhW log_pdf s)
        (imhStates log_pdf s) (forcedIdx (splitKey key 3 1)) := by
  unfold imhW
  simp only [← expNormalize_eq]
  rfl

section imh
variable {log_pdf : Traj T d → ℝ} (hl : Measurable log_pdf)
include hl

theorem measurable_imhVals : Measurable fun p : (Traj T d × ℝ) × (Fin N → Traj T d) =>
    (insert0 p.1.2 (fun i => log_pdf (p.2 i)) : Fin (N + 1) → ℝ) :=
  measurable_insert0 (by fun_prop) (measurable_pi_lambda _ fun i => hl.comp ((measurable_pi_apply i).comp measurable_snd))

theorem measurable_imhW : Measurable fun p : (Traj T d × ℝ) × (Fin N → Traj T d) => imhW log_pdf p.1 p.2 :=
  measurable_normalizeW (measurable_imhVals hl)

theorem measurable_imhStates : Measurable fun p : (Traj T d × ℝ) × (Fin N → Traj T d) => imhStates log_pdf p.1 p.2 := by
  refine measurable_pi_lambda _ fun i => ?_
  have h1 : Measurable fun p : (Traj T d × ℝ) × (Fin N → Traj T d) => (insert0 p.1.1 p.2 : Fin (N + 1) → Traj T d) :=
    measurable_insert0 (by fun_prop) measurable_snd
  exact ((measurable_pi_apply i).comp h1).prodMk ((measurable_pi_apply i).comp (measurable_imhVals hl))

end imh

section imh2
variable {D : Dyn n d} (hP : D.P0.PosDef) (hQ : ∀ t, (D.Qs t).PosDef)
include hP hQ

theorem imh_draws (key : Key) {F : (Fin N → Traj (n + 1) d) → ℝ≥0∞} (hF : Measurable F) :
    (prior_sampling key D.m0 D.P0 D.Fs D.Qs D.bs N : Ex _) F =
      ∫⁻ y, ENNReal.ofReal (Real.exp (∑ i, gaussPathLog D.m0 D.P0 D.Fs D.Qs D.bs (y i))) * F y
        ∂(Measure.pi fun _ : Fin N => Measure.pi fun _ => volume) := by
  have h := Props.C39_prior (N := N) D.m0 hP (Fs := D.Fs) hQ D.bs key
  rw [h.law F hF, lintegral_pi_withDensity _ _ (fun i => h.meas i) F hF]

theorem imh_draws_ker {β : Type} [MeasurableSpace β] (key : Key) :
    IsKer fun _ : β => (prior_sampling key D.m0 D.P0 D.Fs D.Qs D.bs N : Ex (Fin N → Traj (n + 1) d)) := by
  have h := isKer_density (lam := Measure.pi fun _ : Fin N => Measure.pi fun _ : Fin (n + 1) => (volume : Measure (Vec d)))
    (g := fun (_ : β) (y : Fin N → Traj (n + 1) d) => ∑ i, gaussPathLog D.m0 D.P0 D.Fs D.Qs D.bs (y i))
    (Finset.measurable_fun_sum _ fun i _ => measurable_gaussPathLog _ _ _ _ measurable_const
      ((measurable_pi_apply i).comp measurable_snd))
  exact h.congr fun b f hf => (imh_draws hP hQ key hf).symm

theorem imh_draws_mass (key : Key) :
    (prior_sampling key D.m0 D.P0 D.Fs D.Qs D.bs N : Ex (Fin N → Traj (n + 1) d)) (fun _ => 1) = 1 := by
  have h := Props.C39_prior (N := N) D.m0 hP (Fs := D.Fs) hQ D.bs key
  rw [h.law _ measurable_const]
  have : ∀ i : Fin N, IsProbabilityMeasure ((Measure.pi fun _ : Fin (n + 1) => (volume : Measure (Vec d))).withDensity
      fun x => ENNReal.ofReal (Real.exp (gaussPathLog D.m0 D.P0 D.Fs D.Qs D.bs x))) :=
    fun i => ⟨by rw [withDensity_apply _ MeasurableSet.univ, Measure.restrict_univ]; exact h.norm i⟩
  rw [lintegral_one, measure_univ]

theorem imh_step_ker {log_pdf : Traj (n + 1) d → ℝ} (hl : Measurable log_pdf) (key : Key) (N : ℕ) :
    IsKer (stateStep (fun key s => imh_kernel key s D log_pdf N) key) := by
  have h := drawSelect_ker (imh_draws_ker (β := Traj (n + 1) d × ℝ) (N := N) hP hQ (splitKey key 3 0)) (measurable_imhW hl)
    (measurable_imhStates hl) (force_moveKer (splitKey key 3 1))
  exact h.congr fun s f _ => (congrFun (imh_step_eq key s D log_pdf N) f).symm

theorem imh_step_mass (log_pdf : Traj (n + 1) d → ℝ) (key : Key) (N : ℕ) (s : Traj (n + 1) d × ℝ) :
    stateStep (fun key s => imh_kernel key s D log_pdf N) key s (fun _ => 1) = 1 := by
  rw [imh_step_eq]
  exact drawSelect_mass (imh_draws_mass hP hQ _) (fun e => normalize_isProb _) _ fun w hw k => force_mass _ hw k

end imh2

end Verif
