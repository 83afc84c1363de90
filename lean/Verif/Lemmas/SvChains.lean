import Verif.Spec.Runs
import Verif.Lemmas.Supp
import Verif.Lemmas.ExpRuns
import Verif.Props.Indices

/-!
# Independent chains that restart after a burn-in
-/

open scoped ENNReal
open MeasureTheory Finset

namespace Verif
open Verif.Model Verif.Spec Verif.Props

variable {N n d T : ℕ}

/-! ## Independent calls -/

/-- Independent calls have a product law. -/
theorem vmapM_iid {I O : Type} [MeasurableSpace O] {M : ℕ} {g : I → Ex O} {xs : Fin M → I} {μ : Fin M → Measure O}
    [∀ i, SigmaFinite (μ i)] (h : ∀ i f, Measurable f → g (xs i) f = ∫⁻ o, f o ∂μ i) {F : (Fin M → O) → ℝ≥0∞}
    (hF : Measurable F) : vmapM g xs F = ∫⁻ o, F o ∂Measure.pi μ := by
  induction M with
  | zero =>
    rw [vmapM_zero, Measure.pi_of_empty μ Fin.elim0, lintegral_dirac]
    rfl
  | succ M ih =>
    have hins : Measurable fun q : O × (Fin M → O) => insert0 q.1 q.2 := by fun_prop
    have : ∀ i, SigmaFinite (tailA μ i) := fun i => inferInstanceAs (SigmaFinite (μ i.succ))
    rw [lintegral_pi_cons μ F hF]
    refine (congrFun (vmapM_succ g xs) F).trans ?_
    show g (xs 0) (fun o => vmapM g (tailA xs) fun os => F (insert0 o os)) = _
    have e : ∀ o, vmapM g (tailA xs) (fun os => F (insert0 o os)) = ∫⁻ os, F (insert0 o os) ∂Measure.pi (tailA μ) := fun o =>
      ih (μ := tailA μ) (fun i f hf => h i.succ f hf) (hF.comp (hins.comp measurable_prodMk_left))
    refine (Ex.congr_fun' _ e).trans ?_
    exact h 0 _ (hF.comp hins).lintegral_prod_right'

/-! ## Chains -/

/-- What is needed of a constructed kernel for the law of its chains: `Good` are the states that occur. -/
structure ChainsOK (K : SvKernel Ex T d) (delta : StepSize T) (Good : K.S → Prop) : Prop where
  burn : ∀ s, Good s → ∀ b, ∃ β : Measure (Traj T d), IsProbabilityMeasure β ∧ ∀ key f, Measurable f →
    K.experiment_last key s (fun k s => K.kernel k s delta) b f = ∫⁻ x, f x ∂β
  ker : ∀ key k, IsKer fun x => K.experiment_all key (K.init x) (fun k s => K.kernel k s delta) k >>= fun r => pure (runOf K r)
  mass : ∀ key k x, K.experiment_all key (K.init x) (fun k s => K.kernel k s delta) k (fun _ => 1) = 1
  restart : ∀ s, Good s → ∀ b k kb ka key (f : Run (strideLen k 1) T d → ℝ≥0∞), Measurable f →
    K.experiment_last kb s (fun k s => K.kernel k s delta) b (fun x =>
      K.experiment_all ka (K.init x) (fun k s => K.kernel k s delta) k fun r => f (runOf K r)) =
    K.experiment_all key s (fun k s => K.kernel k s delta) (k + b) fun r => f ((runOf K r).drop b)

/-- The chains of an experiment are independent, and each has the law of one long run without its first steps. -/
theorem ChainsOK.law {K : SvKernel Ex T d} {delta : StepSize T} {Good : K.S → Prop} (h : ChainsOK K delta Good) {s : K.S}
    (hs : Good s) (burnin n_samples : ℕ) :
    ∃ ν : Measure (Run (strideLen n_samples 1) T d), IsProbabilityMeasure ν ∧
      (∀ key f, Measurable f → ∫⁻ r, f r ∂ν =
        K.experiment_all key s (fun k s => K.kernel k s delta) (n_samples + burnin) fun r => f ((runOf K r).drop burnin)) ∧
      ∀ M burnin_key sample_key (F : (Fin M → Run (strideLen n_samples 1) T d) → ℝ≥0∞), Measurable F →
        sv_chains burnin_key sample_key K s delta burnin n_samples M (fun c => F fun i => runOf K (c i)) =
          ∫⁻ c, F c ∂Measure.pi fun _ => ν := by
  obtain ⟨β, hβ, hb⟩ := h.burn s hs burnin
  obtain ⟨g, hg⟩ : ∃ g : Key × K.S → Ex (Run (strideLen n_samples 1) T d), g = fun p =>
    K.experiment_all p.1 p.2 (fun k s => K.kernel k s delta) n_samples >>= fun r => pure (runOf K r) := ⟨_, rfl⟩
  have hk : ∀ key, IsKer fun x => g (key, K.init x) := fun key => by rw [hg]; exact h.ker key n_samples
  have hm : ∀ key x, g (key, K.init x) (fun _ => 1) = 1 := fun key x => by rw [hg]; exact h.mass key n_samples x
  have hr : ∀ key key' f, Measurable f → ∫⁻ x, g (key, K.init x) f ∂β =
      K.experiment_all key' s (fun k s => K.kernel k s delta) (n_samples + burnin) fun r => f ((runOf K r).drop burnin) := by
    intro key key' f hf
    rw [← hb [] _ ((hk key).measurable' hf), hg]
    exact h.restart s hs burnin n_samples [] key key' f hf
  choose μ hμ1 hμ using fun key => exists_isJump (π := β) (hk key) (hm key)
  have hsnd : ∀ key f, Measurable f → ∫⁻ r, f r ∂(μ key).map Prod.snd = ∫⁻ x, g (key, K.init x) f ∂β := fun key f hf => by
    rw [lintegral_map hf measurable_snd, hμ key _ (by fun_prop)]
  have hsame : ∀ key, (μ key).map Prod.snd = (μ []).map Prod.snd := fun key => Measure.ext_of_lintegral _ fun f hf => by
    rw [hsnd key f hf, hsnd [] f hf, hr key [] f hf, hr [] [] f hf]
  refine ⟨(μ []).map Prod.snd, Measure.isProbabilityMeasure_map measurable_snd.aemeasurable, fun key f hf => ?_,
    fun M bk sk F hF => ?_⟩
  · rw [hsnd [] f hf, hr [] key f hf]
  · have e : ∀ xs : Fin M → Traj T d, vmapM (fun p : Key × K.S => K.experiment_all p.1 p.2 (fun k s => K.kernel k s delta) n_samples)
        (fun i => (splitKey sk M i, K.init (xs i))) (fun c => F fun i => runOf K (c i)) =
        vmapM g (fun i => (splitKey sk M i, K.init (xs i))) F := fun xs => by
      rw [hg]
      exact (congrFun (vmapM_map (m := Ex) (fun p : Key × K.S => K.experiment_all p.1 p.2 (fun k s => K.kernel k s delta) n_samples)
        (fun _ r => runOf K r) fun i => (splitKey sk M i, K.init (xs i))) F).symm
    have hG : Measurable fun xs : Fin M → Traj T d => vmapM g (fun i => (splitKey sk M i, K.init (xs i))) F :=
      (vmapM_ker (inp := fun i x => (splitKey sk M i, K.init x)) fun i => hk _).measurable' hF
    have h1 : vmapM (fun key => K.experiment_last key s (fun k s => K.kernel k s delta) burnin) (splitKey bk M)
        (fun xs => vmapM g (fun i => (splitKey sk M i, K.init (xs i))) F) =
        ∫⁻ xs, vmapM g (fun i => (splitKey sk M i, K.init (xs i))) F ∂Measure.pi fun _ => β :=
      vmapM_iid (g := fun key => K.experiment_last key s (fun k s => K.kernel k s delta) burnin) (xs := splitKey bk M)
        (μ := fun _ => β) (fun i f hf => hb _ f hf) hG
    refine Eq.trans ?_ (h1.trans ?_)
    · exact Ex.congr_fun' (vmapM _ _) e
    · have h2 := vmapM_pairs (π := β) (inp := fun (i : Fin M) x => (splitKey sk M i, K.init x)) (fun i => hk (splitKey sk M i))
        (μ := fun i => μ (splitKey sk M i)) (fun i f hf => hμ _ f hf) (F := fun p => F fun i => (p i).2) (by fun_prop)
      refine h2.trans ?_
      have hp := measurePreserving_pi (μ := fun i => μ (splitKey sk M i)) (ν := fun _ : Fin M => (μ []).map Prod.snd)
        (f := fun _ => Prod.snd) fun i => ⟨measurable_snd, hsame _⟩
      exact hp.lintegral_comp hF

/-- What is recorded of a chain of states: `X` of every state but the first, and `P` of every step. -/
def readRun {St : Type} (X : St → Traj T d) (P : St → St → Fin T → ℝ) {k : ℕ} (tr : Fin (k + 1) → St) : Run (strideLen k 1) T d :=
  (fun i => X (tr ⟨i * 1 + 1, Nat.succ_lt_succ (strideLen_lt i)⟩),
   fun i => P (tr ⟨i * 1, Nat.lt_succ_of_lt (strideLen_lt i)⟩) (tr ⟨i * 1 + 1, Nat.succ_lt_succ (strideLen_lt i)⟩))

theorem measurable_readRun {St : Type} [MeasurableSpace St] {X : St → Traj T d} {P : St → St → Fin T → ℝ} (hX : Measurable X)
    (hP : Measurable fun p : St × St => P p.1 p.2) {k : ℕ} : Measurable fun tr : Fin (k + 1) → St => readRun X P tr := by
  refine Measurable.prodMk (measurable_pi_lambda _ fun i => hX.comp (measurable_pi_apply _)) (measurable_pi_lambda _ fun i => ?_)
  exact hP.comp (f := fun tr : Fin (k + 1) → St => (tr ⟨i * 1, Nat.lt_succ_of_lt (strideLen_lt i)⟩,
    tr ⟨i * 1 + 1, Nat.succ_lt_succ (strideLen_lt i)⟩)) (by fun_prop)

theorem readRun_drop {St : Type} (X : St → Traj T d) (P : St → St → Fin T → ℝ) {k b : ℕ} (tr : Fin (k + b + 1) → St) :
    readRun (k := k) X P (fun i => tr ⟨i + b, by omega⟩) = (readRun X P tr).drop b := by
  have e : ∀ (i : ℕ) (h) (h'), tr ⟨i * 1 + 1 + b, h⟩ = tr ⟨(i + b) * 1 + 1, h'⟩ := fun i h h' => congrArg tr (Fin.ext (by simp; omega))
  have e' : ∀ (i : ℕ) (h) (h'), tr ⟨i * 1 + b, h⟩ = tr ⟨(i + b) * 1, h'⟩ := fun i h h' => congrArg tr (Fin.ext (by simp))
  refine Prod.ext (funext fun i => congrArg X (e _ _ _)) (funext fun i => congrArg₂ P (e' _ _ _) (e _ _ _))

/-- A kernel whose runs are read off a chain, and whose `init` after the burn-in changes nothing that is read. -/
theorem chainsOK_of {K : SvKernel Ex T d} {delta : StepSize T} {Good : K.S → Prop} {St : Type} [MeasurableSpace St]
    {step : Key → St → Ex St} (hk : ∀ key, IsKer (step key)) (hm : ∀ key s, step key s (fun _ => 1) = 1)
    (hf : ∀ key key' s f, Measurable f → step key s f = step key' s f) (emb : K.S → St) {X : St → Traj T d}
    {P : St → St → Fin T → ℝ} (hX : Measurable X) (hP : Measurable fun p : St × St => P p.1 p.2)
    (hinit : Measurable fun x => emb (K.init x))
    (hall : ∀ key s k (f : Run (strideLen k 1) T d → ℝ≥0∞), K.experiment_all key s (fun k s => K.kernel k s delta) k
      (fun r => f (runOf K r)) = chain step (emb s) (splitKey key k) fun tr => f (readRun X P tr))
    (hlast : ∀ key s k f, K.experiment_last key s (fun k s => K.kernel k s delta) k f =
      chain step (emb s) (splitKey key k) fun tr => f (X (tr (Fin.last k))))
    (hinv : ∀ s, Good s → ∀ (b k : ℕ) (kb ka : Key) (f : Run (strideLen k 1) T d → ℝ≥0∞), Measurable f →
      chain step (emb s) (splitKey kb b) (fun tr => chain step (emb (K.init (X (tr (Fin.last b))))) (splitKey ka k) fun tr' => f (readRun X P tr')) =
      chain step (emb s) (splitKey kb b) (fun tr => chain step (tr (Fin.last b)) (splitKey ka k) fun tr' => f (readRun X P tr'))) :
    ChainsOK K delta Good where
  burn s _ b := by
    have h1 : IsKer fun _ : Unit => (show Ex (Traj T d) from fun f => chain step (emb s) (splitKey [] b)
        fun tr => f (X (tr (Fin.last b)))) := by
      refine IsKer.bind (P := fun _ : Unit => chain step (emb s) (splitKey [] b)) (F := fun _ tr => pure (X (tr (Fin.last b))))
        ((chain_ker hk _).comp measurable_const) (IsKer.pure ?_)
      exact hX.comp ((measurable_pi_apply _).comp measurable_snd)
    obtain ⟨κ, _, h⟩ := h1
    refine ⟨κ (), ⟨?_⟩, fun key f hf' => ?_⟩
    · have h2 := h () (fun _ => 1) measurable_const
      rw [lintegral_one] at h2
      rw [← h2]
      exact chain_mass hm _ _
    · rw [hlast]
      exact (chain_free hk hf _ _ _ _ (hf'.comp (hX.comp (measurable_pi_apply _)))).trans (h () f hf')
  ker key k := by
    refine (IsKer.bind (P := fun x => chain step (emb (K.init x)) (splitKey key k)) (F := fun _ tr => pure (readRun X P tr))
      ((chain_ker hk _).comp hinit) (IsKer.pure ((measurable_readRun hX hP).comp measurable_snd))).congr fun x f _ => ?_
    exact (hall key (K.init x) k f).symm
  mass key k x := (hall key (K.init x) k fun _ => 1).trans (chain_mass hm _ _)
  restart s hs b k kb ka key f hf' := by
    rw [hlast]
    have h1 : ∀ tr : Fin (b + 1) → St, K.experiment_all ka (K.init (X (tr (Fin.last b)))) (fun k s => K.kernel k s delta) k
        (fun r => f (runOf K r)) = chain step (emb (K.init (X (tr (Fin.last b))))) (splitKey ka k) fun tr' => f (readRun X P tr') :=
      fun tr => hall ka _ k f
    refine (Ex.congr_fun' _ h1).trans ((hinv s hs b k _ _ f hf').trans ?_)
    refine (chain_append hk hf _ _ (splitKey key (k + b)) _ (fun tr => f (readRun X P tr)) (hf'.comp (measurable_readRun hX hP))).trans ?_
    refine Eq.trans ?_ (hall key s (k + b) fun r => f (r.drop b)).symm
    exact Ex.congr_fun' _ fun tr => congrArg f (readRun_drop X P tr)

/-- Conditional SMC kernels. -/
theorem csmcSv_chainsOK {adapt} {kernel : Key → (Fin (n + 1) → Vec d) → (Fin (n + 1) → Fin (N + 1)) → (Fin (n + 1) → ℝ) →
      Ex ((Fin (n + 1) → Vec d) × (Fin (n + 1) → Fin (N + 1)))} {delta : StepSize (n + 1)}
    (hM : ∀ key, MarkovStep fun x b => kernel key x b delta.at) (hR : ∀ key, Relabels fun x b => kernel key x b delta.at)
    (hf : ∀ key key' x b f, Measurable f → kernel key x b delta.at f = kernel key' x b delta.at f) :
    ChainsOK (csmcSv adapt kernel) delta fun _ => True := by
  have hk : ∀ key, IsKer fun s : (Fin (n + 1) → Vec d) × (Fin (n + 1) → Fin (N + 1)) => kernel key s.1 s.2 delta.at :=
    fun key => (hM key).ker
  have hX : Measurable fun s : (Fin (n + 1) → Vec d) × (Fin (n + 1) → Fin (N + 1)) => s.1 := measurable_fst
  have hd : Measurable fun p : Fin (N + 1) × Fin (N + 1) => boolF (decide (p.1 ≠ p.2)) := Measurable.of_discrete
  have hP : Measurable fun p : ((Fin (n + 1) → Vec d) × (Fin (n + 1) → Fin (N + 1))) ×
      ((Fin (n + 1) → Vec d) × (Fin (n + 1) → Fin (N + 1))) => fun t => boolF (decide (p.2.2 t ≠ p.1.2 t)) :=
    measurable_pi_lambda _ fun t => hd.comp (f := fun p : ((Fin (n + 1) → Vec d) × (Fin (n + 1) → Fin (N + 1))) ×
      ((Fin (n + 1) → Vec d) × (Fin (n + 1) → Fin (N + 1))) => (p.2.2 t, p.1.2 t)) (by fun_prop)
  refine chainsOK_of (K := csmcSv adapt kernel) (St := (Fin (n + 1) → Vec d) × (Fin (n + 1) → Fin (N + 1)))
    (step := fun key s => kernel key s.1 s.2 delta.at) hk (fun key s => (hM key).mass s.1 s.2)
    (fun key key' s f hf' => hf key key' s.1 s.2 f hf') (fun s => s) (X := fun s => s.1)
    (P := fun s s' t => boolF (decide (s'.2 t ≠ s.2 t))) hX hP (measurable_id.prodMk measurable_const) ?_ ?_ ?_
  · intro key s k f
    exact congrFun (C49_sampling (m := Ex) key s.1 s.2 (fun key s => kernel key s.1 s.2 delta.at) k 1) _
  · intro key s k f
    exact congrFun (C49_sampling_last (m := Ex) key s.1 s.2 (fun key s => kernel key s.1 s.2 delta.at) k) fun s => f s.1
  · intro s _ b k kb ka f hf'
    refine Ex.congr_fun' _ fun tr => ?_
    obtain ⟨x, c⟩ := tr (Fin.last b)
    have h1 := chain_relabels (kernel := fun key s => kernel key s.1 s.2 delta.at) hk hR (splitKey ka k) x 0 c
      (fun tr' => f (readRun (fun s => s.1) (fun s s' t => boolF (decide (s'.2 t ≠ s.2 t))) tr')) (hf'.comp (measurable_readRun hX hP))
    rw [zero_add] at h1
    refine Eq.trans ?_ h1.symm
    refine Ex.congr_fun' _ fun tr' => congrArg f (Prod.ext rfl (funext fun i => funext fun t => congrArg boolF ?_))
    exact decide_eq_decide.mpr (not_congr (add_left_inj (c t)).symm)

/-- Multi-try kernels, from states with the right cached values. -/
theorem vgSv_chainsOK {kernel : Key → VGState (n + 1) d → ℝ → Ex (VGState (n + 1) d × Bool)}
    {init : Traj (n + 1) d → VGState (n + 1) d} {delta : StepSize (n + 1)} (hin : Measurable init) (hx : ∀ x, (init x).1 = x)
    (hk : ∀ key, IsKer fun s => kernel key s delta.num) (hm : ∀ key s, kernel key s delta.num (fun _ => 1) = 1)
    (hf : ∀ key key' s f, Measurable f → kernel key s delta.num f = kernel key' s delta.num f)
    (hs : ∀ key x, Supp (kernel key (init x) delta.num) fun r => r.1 = init r.1.1) :
    ChainsOK (vgSv kernel init) delta fun s => ∃ x, s = init x := by
  have hX : Measurable fun s : VGState (n + 1) d × Bool => s.1.1 := by fun_prop
  have hP : Measurable fun p : (VGState (n + 1) d × Bool) × (VGState (n + 1) d × Bool) => fun (_ : Fin (n + 1)) => boolF p.2.2 :=
    measurable_pi_lambda _ fun t => (Measurable.of_discrete (f := boolF)).comp (by fun_prop)
  refine chainsOK_of (K := vgSv kernel init) (St := VGState (n + 1) d × Bool) (step := fun key s => kernel key s.1 delta.num)
    (fun key => (hk key).comp measurable_fst) (fun key s => hm key s.1) (fun key key' s f hf' => hf key key' s.1 f hf')
    (fun s => (s, false)) (X := fun s => s.1.1) (P := fun _ s' _ => boolF s'.2) hX hP (hin.prodMk measurable_const) ?_ ?_ ?_
  · intro key s k f
    exact congrFun (C49_tp_sampling (m := Ex) key s false (fun key s => kernel key s delta.num) k 1) _
  · intro key s k f
    exact congrFun (C49_tp_sampling_last (m := Ex) key s false (fun key s => kernel key s delta.num) k) fun r => f r.1
  · rintro s ⟨x, rfl⟩ b k kb ka f hf'
    refine supp_chain (I := fun s : VGState (n + 1) d × Bool => s.1 = init s.1.1) (fun key s h => ?_) (splitKey kb b) (init x, false) ?_ _ _
      fun tr htr => ?_
    · show Supp (kernel key s.1 delta.num) _
      rw [h]
      exact hs key s.1.1
    · show init x = init (init x).1
      rw [hx]
    · have h1 := htr (Fin.last b)
      generalize tr (Fin.last b) = s at h1 ⊢
      obtain ⟨s, c⟩ := s
      have h2 : init s.1 = s := h1.symm
      have e : ∀ c' : Bool, chain (fun key (s : VGState (n + 1) d × Bool) => kernel key s.1 delta.num) (s, c') (splitKey ka k)
          (fun tr' => f (readRun (fun s => s.1.1) (fun _ s' _ => boolF s'.2) tr')) =
          tp_sampling_routine ka s (fun key s => kernel key s delta.num) k 1 fun r => f (r.1, fun i _ => boolF (r.2 i)) := fun c' =>
        (congrFun (C49_tp_sampling (m := Ex) ka s c' (fun key s => kernel key s delta.num) k 1)
          fun r => f (r.1, fun i _ => boolF (r.2 i))).symm
      show chain (fun key (s : VGState (n + 1) d × Bool) => kernel key s.1 delta.num) (init s.1, false) (splitKey ka k) _ = _
      rw [h2]
      exact (e false).trans (e c).symm

end Verif
