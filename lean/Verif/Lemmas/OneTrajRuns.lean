import Verif.Lemmas.MultiTryReach
import Verif.Lemmas.NearRuns
import Verif.Spec.LagLaws

/-!
# Kernels that move a whole trajectory, as kernels with labels

A kernel that chooses among `N + 1` candidate trajectories is embedded into the kernels on trajectories with labels: the labels (of two
values) all change if the trajectory is replaced. The routines of `tp.py` then do what those of `mcmc_utils.py` do.
-/

open scoped ENNReal
open MeasureTheory ProbabilityTheory Finset

namespace Verif
open Verif.Model Verif.Spec Verif.Props

variable {N n d W M : ℕ}

/-! ## Programs that do the same -/

/-- The two programs do the same, up to a relation between their results. -/
def Sim {α β : Type} (R : α → β → Prop) (P : Ex α) (Q : Ex β) : Prop := ∀ f g, (∀ a b, R a b → f a = g b) → P f = Q g

section sim
variable {α β γ δ : Type} {R : α → β → Prop} {S : γ → δ → Prop}

theorem Sim.pure {a : α} {b : β} (h : R a b) : Sim R (Pure.pure a) (Pure.pure b) := fun _ _ hfg => hfg _ _ h

theorem Sim.bind {P : Ex α} {Q : Ex β} {F : α → Ex γ} {G : β → Ex δ} (h : Sim R P Q) (hF : ∀ a b, R a b → Sim S (F a) (G b)) :
    Sim S (P >>= F) (Q >>= G) := fun f g hfg => h _ _ fun a b hab => hF a b hab f g hfg

theorem Sim.mono {R' : α → β → Prop} {P : Ex α} {Q : Ex β} (h : Sim R P Q) (hR : ∀ a b, R a b → R' a b) : Sim R' P Q :=
  fun f g hfg => h f g fun a b hab => hfg a b (hR a b hab)

theorem Sim.refl (P : Ex α) : Sim (fun a b => a = b) P P := fun f g hfg => by
  rw [show f = g from funext fun a => hfg a a rfl]

/-- Two scans. -/
theorem Sim.scanM {C C' I I' O O' : Type} {RC : C → C' → Prop} {RO : O → O' → Prop} {body : C → I → Ex (C × O)} {body' : C' → I' → Ex (C' × O')}
    {k : ℕ} {inp : Fin k → I} {inp' : Fin k → I'}
    (h : ∀ j c c', RC c c' → Sim (fun r r' => RC r.1 r'.1 ∧ RO r.2 r'.2) (body c (inp j)) (body' c' (inp' j))) {c : C} {c' : C'} (hc : RC c c') :
    Sim (fun r r' => RC r.1 r'.1 ∧ ∀ j, RO (r.2 j) (r'.2 j)) (scanM body c inp) (scanM body' c' inp') := by
  induction k generalizing c c' with
  | zero => exact Sim.pure ⟨hc, fun j => j.elim0⟩
  | succ k ih =>
    rw [scanM_succ, scanM_succ]
    refine Sim.bind (h 0 c c' hc) fun r r' hr => Sim.bind (ih (fun j => h j.succ) hr.1) fun q q' hq => Sim.pure ⟨hq.1, fun j => ?_⟩
    exact Fin.cases hr.2 (fun j => hq.2 j) j

theorem Sim.vmapM {I I' O O' : Type} {RO : O → O' → Prop} {g : I → Ex O} {g' : I' → Ex O'} {inp : Fin M → I} {inp' : Fin M → I'}
    (h : ∀ j, Sim RO (g (inp j)) (g' (inp' j))) : Sim (fun r r' => ∀ j, RO (r j) (r' j)) (vmapM g inp) (vmapM g' inp') := by
  unfold Verif.Model.vmapM
  refine Sim.bind (R := fun r r' => True ∧ ∀ j, RO (r.2 j) (r'.2 j)) ?_ fun r r' hr => Sim.pure hr.2
  refine Sim.scanM (RC := fun _ _ => True) (RO := RO) (fun j _ _ _ => ?_) trivial
  exact Sim.bind (h j) fun o o' ho => Sim.pure ⟨trivial, ho⟩

end sim

/-! ## The routines -/

section routines
variable {ker : Key → VGState (n + 1) d → ℝ → Ex (VGState (n + 1) d × Bool)} {init : Traj (n + 1) d → VGState (n + 1) d}
  {emb : Key → (Fin (n + 1) → Vec d) → (Fin (n + 1) → Fin 2) → (Fin (n + 1) → ℝ) → Ex ((Fin (n + 1) → Vec d) × (Fin (n + 1) → Fin 2))}

/-- The state of the kernel is that of a trajectory, and the labels have changed iff the kernel has accepted. -/
def StepRel (init : Traj (n + 1) d → VGState (n + 1) d) (b : Fin (n + 1) → Fin 2) (r : VGState (n + 1) d × Bool)
    (r' : (Fin (n + 1) → Vec d) × (Fin (n + 1) → Fin 2)) : Prop := r.1 = init r'.1 ∧ ∀ t, acceptedFlags r'.2 b t = r.2

/-- The embedded kernel does what the kernel does. -/
def Embeds (ker : Key → VGState (n + 1) d → ℝ → Ex (VGState (n + 1) d × Bool)) (init : Traj (n + 1) d → VGState (n + 1) d)
    (emb : Key → (Fin (n + 1) → Vec d) → (Fin (n + 1) → Fin 2) → (Fin (n + 1) → ℝ) → Ex ((Fin (n + 1) → Vec d) × (Fin (n + 1) → Fin 2))) : Prop :=
  (∀ x, (init x).1 = x) ∧ ∀ key x b δ, Sim (StepRel init b) (ker key (init x) δ) (emb key x b fun _ => δ)

theorem Embeds.adapt (h : Embeds ker init emb) (cfg : AdaptCfg) (W : ℕ) (key : Key) (x : Traj (n + 1) d) (b : Fin (n + 1) → Fin 2) (δ : ℝ) (k : ℕ) :
    Sim (fun r r' => r.1 = init r'.1.1 ∧ r'.2 = fun _ => r.2) (tp_delta_adaptation_routine key (init x) ker cfg W δ k)
      (delta_adaptation_routine key x b (fun key s δ => emb key s.1 s.2 δ) cfg W (fun _ => δ) k) := by
  let RC (c : TpCarry (VGState (n + 1) d) W) (c' : AdaptCarry (Vec d) (Fin 2) (n + 1) W) : Prop :=
    c.state = init c'.xs ∧ (c'.deltas = fun _ => c.delta) ∧ c'.history = fun _ => c.history
  refine Sim.bind (R := fun r r' => RC r.1 r'.1 ∧ ∀ _ : Fin k, True) ?_ fun r r' hr => Sim.pure ⟨hr.1.1, hr.1.2.1⟩
  refine Sim.scanM (RC := RC) (RO := fun _ _ => True) (fun j c c' hc => ?_) ⟨rfl, rfl, rfl⟩
  obtain ⟨s, δ, a⟩ := c
  obtain ⟨xs, bs, δs, as⟩ := c'
  obtain ⟨h1, h2, h3⟩ := hc
  dsimp only at h1 h2 h3
  subst h1 h2 h3
  refine Sim.bind (h.2 _ xs bs δ) fun r r' hr => Sim.pure ⟨⟨hr.1, funext fun t => ?_, funext fun t => ?_⟩, trivial⟩
  · show adaptDelta cfg W _ (nanmean (pushHistory _ (some (boolF (acceptedFlags r'.2 bs t))))) _ = _
    rw [hr.2 t]
  · show pushHistory _ (some (boolF (acceptedFlags r'.2 bs t))) = _
    rw [hr.2 t]

theorem Embeds.last (h : Embeds ker init emb) (key : Key) (x : Traj (n + 1) d) (b : Fin (n + 1) → Fin 2) (δ : ℝ) (k : ℕ) :
    Sim (fun r r' => r.1 = r'.1) (tp_sampling_routine_last key (init x) (fun key s => ker key s δ) k)
      (sampling_routine_last key x b (fun key s => emb key s.1 s.2 fun _ => δ) k) := by
  let RC (c : VGState (n + 1) d) (c' : (Fin (n + 1) → Vec d) × (Fin (n + 1) → Fin 2)) : Prop := c = init c'.1
  refine Sim.bind (R := fun r r' => RC r.1 r'.1 ∧ ∀ _ : Fin k, True) ?_ fun r r' hr => Sim.pure (by rw [show r.1 = init r'.1.1 from hr.1, h.1])
  refine Sim.scanM (RC := RC) (RO := fun _ _ => True) (fun j c c' hc => ?_) rfl
  obtain ⟨x, b⟩ := c'
  obtain rfl : c = init x := hc
  refine Sim.bind (R := fun r r' => RC r.1 r'.1) ?_ fun r r' hr => Sim.pure ⟨hr, trivial⟩
  exact Sim.bind (h.2 _ x b δ) fun r r' hr => Sim.pure hr.1

theorem Embeds.all (h : Embeds ker init emb) (key : Key) (x : Traj (n + 1) d) (b : Fin (n + 1) → Fin 2) (δ : ℝ) (k g : ℕ) :
    Sim (fun r r' => r.1 = r'.1 ∧ ∀ j t, r'.2 j t = r.2 j) (tp_sampling_routine key (init x) (fun key s => ker key s δ) k g)
      (sampling_routine key x b (fun key s => emb key s.1 s.2 fun _ => δ) k g) := by
  let RC (c : VGState (n + 1) d) (c' : (Fin (n + 1) → Vec d) × (Fin (n + 1) → Fin 2)) : Prop := c = init c'.1
  let RO (o : VGState (n + 1) d × Bool) (o' : (Fin (n + 1) → Vec d) × (Fin (n + 1) → Bool)) : Prop := o.1.1 = o'.1 ∧ ∀ t, o'.2 t = o.2
  refine Sim.bind (R := fun r r' => RC r.1 r'.1 ∧ ∀ j, RO (r.2 j) (r'.2 j)) ?_
    fun r r' hr => Sim.pure ⟨funext fun j => (hr.2 _).1, fun j t => (hr.2 _).2 t⟩
  refine Sim.scanM (RC := RC) (RO := RO) (fun j c c' hc => ?_) rfl
  obtain ⟨x, b⟩ := c'
  obtain rfl : c = init x := hc
  refine Sim.bind (h.2 _ x b δ) fun r r' hr => Sim.pure ⟨hr.1, ?_, hr.2⟩
  rw [hr.1, h.1]

/-- The adapted step size and the chains. -/
theorem Embeds.runs (h : Embeds ker init emb) (cfg : AdaptCfg) (W : ℕ) (delta_init : ℝ) (adaptation burnin n_samples : ℕ) (ka kb ks : Key)
    (x : Traj (n + 1) d) : Sim (fun r r' => ∃ δ, r.1 = .scalar δ ∧ (r'.1 = .perStep fun _ => δ) ∧ r'.2 = r.2)
      (adaptedRuns (M := M) (vgSv ker init) cfg W delta_init adaptation burnin n_samples ka kb ks x)
      (adaptedRuns (M := M) (csmcSvPlain emb) cfg W delta_init adaptation burnin n_samples ka kb ks x) := by
  have h0 : Sim (fun (r : VGState (n + 1) d × StepSize (n + 1)) (r' : ((Fin (n + 1) → Vec d) × (Fin (n + 1) → Fin 2)) × StepSize (n + 1)) =>
      r.1 = init r'.1.1 ∧ ∃ δ, r.2 = .scalar δ ∧ r'.2 = .perStep fun _ => δ)
      ((vgSv ker init).adaptation_loop ka ((vgSv ker init).init x) (vgSv ker init).kernel cfg W delta_init adaptation)
      ((csmcSvPlain emb).adaptation_loop ka ((csmcSvPlain emb).init x) (csmcSvPlain emb).kernel cfg W delta_init adaptation) := by
    have h1 := h.adapt cfg W ka x (fun _ => 0) delta_init adaptation
    rw [show (fun _ : Fin (n + 1) => delta_init) = fun _ => delta_init * 1 from funext fun _ => (mul_one _).symm] at h1
    exact Sim.bind h1 fun r r' hr => Sim.pure ⟨hr.1, r.2, rfl, congrArg _ hr.2⟩
  refine Sim.bind h0 fun r r' hr => ?_
  obtain ⟨s, ds⟩ := r
  obtain ⟨⟨x', b'⟩, ds'⟩ := r'
  obtain ⟨hs, δ, hδ, hδ'⟩ := hr
  dsimp only at hs hδ hδ'
  subst hs hδ hδ'
  have h1 : Sim (fun (r : Fin M → _) (r' : Fin M → _) => ∀ j, r j = r' j)
      (vmapM (fun key => (vgSv ker init).experiment_last key (init x') (fun k s => (vgSv ker init).kernel k s (.scalar δ)) burnin) (splitKey kb M))
      (vmapM (fun key => (csmcSvPlain emb).experiment_last key (x', b') (fun k s => (csmcSvPlain emb).kernel k s (.perStep fun _ => δ)) burnin) (splitKey kb M)) :=
    Sim.vmapM fun j => Sim.bind (h.last _ x' b' δ burnin) fun r r' hr => Sim.pure hr
  have h2 : Sim (fun (r : Fin M → _) (r' : Fin M → _) => ∀ j, runOf (vgSv ker init) (r j) = runOf (csmcSvPlain emb) (r' j))
      (sv_chains kb ks (vgSv ker init) (init x') (.scalar δ) burnin n_samples M)
      (sv_chains kb ks (csmcSvPlain emb) (x', b') (.perStep fun _ => δ) burnin n_samples M) := by
    refine Sim.bind h1 fun r r' hr => ?_
    dsimp only
    refine Sim.vmapM (RO := fun q q' => runOf (vgSv ker init) q = runOf (csmcSvPlain emb) q') fun j => ?_
    rw [hr j]
    refine (h.all _ (r' j) (fun _ => 0) δ n_samples 1).mono fun q q' hq => ?_
    refine Prod.ext hq.1 (funext fun i => funext fun t => ?_)
    show boolF (q.2 i) = boolF (q'.2 i t)
    rw [hq.2]
  exact Sim.bind h2 fun r r' hr => Sim.pure ⟨δ, rfl, rfl, funext fun j => (hr j).symm⟩

/-- A run without adaptation. -/
theorem Embeds.run (h : Embeds ker init emb) (key : Key) (x : Traj (n + 1) d) (δ : ℝ) (k : ℕ) :
    Sim (fun r r' => runOf (vgSv ker init) r = runOf (csmcSvPlain emb) r')
      ((vgSv ker init).experiment_all key ((vgSv ker init).init x) (fun k s => (vgSv ker init).kernel k s (.scalar δ)) k)
      ((csmcSvPlain emb).experiment_all key ((csmcSvPlain emb).init x) (fun k s => (csmcSvPlain emb).kernel k s (.perStep fun _ => δ)) k) := by
  refine (h.all key x (fun _ => 0) δ k 1).mono fun q q' hq => Prod.ext hq.1 (funext fun i => funext fun t => ?_)
  show boolF (q.2 i) = boolF (q'.2 i t)
  rw [hq.2]

theorem Embeds.acceptProb (h : Embeds ker init emb) (δ : ℝ) (π : Measure (Traj (n + 1) d)) (t : Fin (n + 1)) :
    Spec.acceptProb (csmcSvPlain emb) (.perStep fun _ => δ) π t = Spec.acceptProb (vgSv ker init) (.scalar δ) π t := by
  unfold Spec.acceptProb
  refine congrArg ENNReal.toReal (lintegral_congr fun x => (h.run [] x δ 1 _ _ fun r r' hr => ?_).symm)
  rw [hr]

theorem Embeds.isLagLaw (h : Embeds ker init emb) (δ : ℝ) (π : Measure (Traj (n + 1) d)) (lag : ℕ) :
    IsLagLaw (csmcSvPlain emb) (.perStep fun _ => δ) π lag = IsLagLaw (vgSv ker init) (.scalar δ) π lag := by
  have e : ∀ (key : Key) (n_steps : ℕ) (i i' : Fin (strideLen n_steps 1)) (u : Traj (n + 1) d × Traj (n + 1) d → ℝ≥0∞) x,
      (vgSv ker init).experiment_all key ((vgSv ker init).init x) (fun k s => (vgSv ker init).kernel k s (.scalar δ)) n_steps (fun r => u (r.1 i, r.1 i')) =
      (csmcSvPlain emb).experiment_all key ((csmcSvPlain emb).init x) (fun k s => (csmcSvPlain emb).kernel k s (.perStep fun _ => δ)) n_steps
        (fun r => u (r.1 i, r.1 i')) := fun key n_steps i i' u x => h.run key x δ n_steps _ _ fun r r' hr => by
      rw [show r.1 = r'.1 from congrArg (fun q : Run (strideLen n_steps 1) (n + 1) d => q.1) hr]
  funext Γ
  refine propext ⟨fun H => ⟨H.prob, fun key n_steps i i' hi u hu => ?_⟩, fun H => ⟨H.prob, fun key n_steps i i' hi u hu => ?_⟩⟩
  · rw [← H.law key n_steps i i' hi u hu]
    exact lintegral_congr fun x => e key n_steps i i' u x
  · rw [← H.law key n_steps i i' hi u hu]
    exact lintegral_congr fun x => (e key n_steps i i' u x).symm

open Classical in
theorem Embeds.lagLaw (h : Embeds ker init emb) (δ : ℝ) (π : Measure (Traj (n + 1) d)) (lag : ℕ) :
    Spec.lagLaw (csmcSvPlain emb) (.perStep fun _ => δ) π lag = Spec.lagLaw (vgSv ker init) (.scalar δ) π lag :=
  congrArg (fun P : Measure (Traj (n + 1) d × Traj (n + 1) d) → Prop => if h : ∃ Γ, P Γ then h.choose else 0) (h.isLagLaw δ π lag)

theorem Embeds.autoCorr (h : Embeds ker init emb) (δ : ℝ) (π : Measure (Traj (n + 1) d)) (t : Fin (n + 1)) (i : Fin d) (lag : ℕ) :
    Spec.autoCorr (csmcSvPlain emb) (.perStep fun _ => δ) π t i lag = Spec.autoCorr (vgSv ker init) (.scalar δ) π t i lag := by
  unfold Spec.autoCorr autoCov
  rw [h.lagLaw]

end routines

end Verif
