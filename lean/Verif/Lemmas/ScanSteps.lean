import Verif.Lemmas.FlatSchemes
import Verif.Lemmas.FlatSteps

/-!
# Small steps of the particle kernels without backward sampling: helpers
-/

open scoped ENNReal Topology
open MeasureTheory Finset Filter

namespace Verif
open Verif.Model Verif.Spec Verif.Props

variable {N n d : ℕ} {X G Pm ι : Type}

/-- What the kernels do once the particles are drawn, without backward sampling. -/
noncomputable def scanTail (body : (Fin (N + 1) → ℝ) × (Fin (N + 1) → X) → AuxInp Pm X N →
      Ex (((Fin (N + 1) → ℝ) × (Fin (N + 1) → X)) × ((Fin (N + 1) → ℝ) × (Fin (N + 1) → Fin (N + 1)))))
    (key kb : Key) (params : Fin n → Pm) (xs : Fin (n + 1) → Fin (N + 1) → X)
    (bstar : Fin (n + 1) → Fin (N + 1)) (w0 lw0 : Fin (N + 1) → ℝ) (mv : AncestorMove Ex N) : Ex (KOut X N n) := do
  let r ← scanM body (w0, xs 0) (auxInputs key params xs bstar)
  let q ← backward_scanning_pass kb (fun t => (r.2 t).2) (lastA bstar) xs (lastA (insert0 lw0 fun t => (r.2 t).1)) mv
  pure { xs := q.1, Bs := q.2, log_ws := insert0 lw0 fun t => (r.2 t).1 }

section tail
variable {resampling : Resampling Ex N} {lo hi clo chi : ℝ → ℝ≥0∞} {S : ℝ} {mv : AncestorMove Ex N}
  {body : (Fin (N + 1) → ℝ) × (Fin (N + 1) → X) → AuxInp Pm X N →
      Ex (((Fin (N + 1) → ℝ) × (Fin (N + 1) → X)) × ((Fin (N + 1) → ℝ) × (Fin (N + 1) → Fin (N + 1))))}
  (hR : FlatRes resampling lo hi) (hm : FlatMove mv clo chi) (hhom : ∀ c i, ExHom (body c i)) (hS : 0 ≤ S)
  {lw0 : Fin (N + 1) → ℝ} (hlw0 : Flat S lw0) {key kb : Key} {params : Fin n → Pm} {xs : Fin (n + 1) → Fin (N + 1) → X} {b : Fin (n + 1) → Fin (N + 1)}
  (hb : GenBody resampling S body (auxInputs key params xs b) (keysResampling key n) xs b)
include hR hm hhom hS hlw0 hb

theorem scanTail_flat (t : Fin (n + 1)) :
    clo S * (lo S ^ (n - t.1) * N) ≤ moveProb (scanTail body key kb params xs b (normalizeW lw0) lw0 mv) t (b t) ∧
      moveProb (scanTail body key kb params xs b (normalizeW lw0) lw0 mv) t (b t) ≤ chi S * (hi S ^ (n - t.1) * N) ∧
      moveProb (scanTail body key kb params xs b (normalizeW lw0) lw0 mv) t (b t) ≤ 1 := by
  have e : moveProb (scanTail body key kb params xs b (normalizeW lw0) lw0 mv) t (b t) =
      scanM body (normalizeW lw0, xs 0) (auxInputs key params xs b) fun r =>
        moveIndex mv kb (normalizeW (lastA (insert0 lw0 fun t => (r.2 t).1))) (lastA b) fun k => if anc (fun t => (r.2 t).2) k t ≠ b t then 1 else 0 := by
    show (scanM body (normalizeW lw0, xs 0) (auxInputs key params xs b) : Ex _) (fun r =>
      (backward_scanning_pass kb (fun t => (r.2 t).2) (lastA b) xs (lastA (insert0 lw0 fun t => (r.2 t).1)) mv : Ex _) fun q => if q.2 t ≠ b t then 1 else 0) = _
    refine Ex.congr_fun' _ fun r => ?_
    exact bscan_pass kb _ _ xs _ mv fun B => if B t ≠ b t then 1 else 0
  have hon := gen_on hR hlw0.weights hb
  have hsc := gen_scan hR hS hlw0.weights hhom hb t
  have hh := ExHom.scanM hhom (normalizeW lw0, xs 0) (auxInputs key params xs b)
  have hfl : ∀ r : ((Fin (N + 1) → ℝ) × (Fin (N + 1) → X)) × (Fin n → (Fin (N + 1) → ℝ) × (Fin (N + 1) → Fin (N + 1))),
      (∀ t, Flat S (r.2 t).1) → FlatW S (normalizeW (lastA (insert0 lw0 fun t => (r.2 t).1))) := fun r hr => by
    have hf : ∀ t, Flat S ((insert0 lw0 fun t => (r.2 t).1 : Fin (n + 1) → Fin (N + 1) → ℝ) t) := Fin.cases hlw0 hr
    exact (hf (Fin.last n)).weights
  rw [e]
  refine ⟨?_, ?_, ?_⟩
  · refine (mul_le_mul_right hsc.1 _).trans ?_
    rw [← hh]
    exact hon.mono _ _ fun r hr => hm.lower kb S _ hS (hfl r hr.2.2.2) (lastA b) _ (if_neg (not_not.mpr (hr.2.2.1 t)))
  · refine le_trans ?_ (mul_le_mul_right hsc.2 _)
    rw [← hh]
    exact hon.mono _ _ fun r hr => hm.upper kb S _ hS (hfl r hr.2.2.2) (lastA b) _ (if_neg (not_not.mpr (hr.2.2.1 t)))
  · refine hon.le fun r hr => (hm.on kb _ (hfl r hr.2.2.2).prob _).le fun k _ => ?_
    split_ifs <;> simp

end tail

section limit
variable {l : Filter ι} {b : Fin (n + 1) → Fin (N + 1)}
    {body : ι → AuxNoise N n d → (Fin (N + 1) → ℝ) × (Fin (N + 1) → Vec d) → AuxInp Pm (Vec d) N →
      Ex (((Fin (N + 1) → ℝ) × (Fin (N + 1) → Vec d)) × ((Fin (N + 1) → ℝ) × (Fin (N + 1) → Fin (N + 1))))}
    {key : Key} {params : ι → AuxNoise N n d → Fin n → Pm} {Γ : Vec d → Vec d → G → ℝ} {Gp : ι → AuxNoise N n d → Fin n → G}
    {xs : ι → AuxNoise N n d → Fin (n + 1) → Fin (N + 1) → Vec d} {lw0 : ι → AuxNoise N n d → Fin (N + 1) → ℝ}
    {H : ι → AuxNoise N n d → Fin n → Fin (N + 1) → Fin (N + 1) → ℝ}
    {resampling : Resampling Ex N} {lo hi clo chi : ℝ → ℝ≥0∞} {mv : AncestorMove Ex N}

/-- The step resamples, then computes the log-weights. -/
def FormBody (resampling : Resampling Ex N) (key : Key) (params : Fin n → Pm) (xs : Fin (n + 1) → Fin (N + 1) → Vec d) (b : Fin (n + 1) → Fin (N + 1))
    (H : Fin n → Fin (N + 1) → Fin (N + 1) → ℝ) (body : (Fin (N + 1) → ℝ) × (Fin (N + 1) → Vec d) → AuxInp Pm (Vec d) N →
      Ex (((Fin (N + 1) → ℝ) × (Fin (N + 1) → Vec d)) × ((Fin (N + 1) → ℝ) × (Fin (N + 1) → Fin (N + 1))))) : Prop :=
  ∀ (t : Fin n) c, c.2 = xs t.castSucc → ∃ ψ : (Fin (N + 1) → Fin (N + 1)) → Fin (N + 1) → ℝ, (∀ A, ∃ k : ℝ, ψ A = fun i => H t (A i) i - k) ∧
    body c (auxInputs key params xs b t) =
      (resampling (keysResampling key n t) c.1 (b t.castSucc) (b t.succ) true >>= fun A => pure ((normalizeW (ψ A), xs t.succ), (ψ A, A)))

theorem min_lim {f : ℝ → ℝ≥0∞} {L : ℝ≥0∞} (h : Tendsto f (𝓝 0) (𝓝 L)) (hL : L ≤ 1) : Tendsto (fun x => min 1 (f x)) (𝓝 0) (𝓝 L) := by
  have := (tendsto_const_nhds (x := (1 : ℝ≥0∞))).min h
  rwa [min_eq_right hL] at this

theorem rate_lim {f c : ℝ → ℝ≥0∞} {r a : ℝ≥0∞} (hr : r ≠ ∞) (ha : a ≠ ∞) (hf : Tendsto f (𝓝 0) (𝓝 r)) (hc : Tendsto c (𝓝 0) (𝓝 a)) (k N : ℕ) :
    Tendsto (fun x => c x * (f x ^ k * N)) (𝓝 0) (𝓝 (a * (r ^ k * N))) :=
  ENNReal.Tendsto.mul hc (.inr (ENNReal.mul_ne_top (ENNReal.pow_ne_top hr) (by simp)))
    (ENNReal.Tendsto.mul_const (ENNReal.Tendsto.pow hf) (.inr (by simp))) (.inr ha)

theorem AuxFlat.scan_limit [l.IsCountablyGenerated] (h : AuxFlat l b body key params Γ Gp xs lw0 H) (kb : Key) (hR : FlatRes resampling lo hi)
    (hm : FlatMove mv clo chi) (hhom : ∀ s p c i, ExHom (body s p c i)) (hform : ∀ s p, FormBody resampling key (params s p) (xs s p) b (H s p) (body s p))
    (hlo : Measurable lo) (hhi : Measurable hi) (hclo : Measurable clo) (hchi : Measurable chi) {r a : ℝ≥0∞} (hr : r ≠ ∞) (ha : a ≠ ∞)
    (lo_r : Tendsto lo (𝓝 0) (𝓝 r)) (hi_r : Tendsto hi (𝓝 0) (𝓝 r)) (clo_a : Tendsto clo (𝓝 0) (𝓝 a)) (chi_a : Tendsto chi (𝓝 0) (𝓝 a))
    (mx : ι → AuxNoise N n d → ℝ) (t : Fin (n + 1)) (hL : a * (r ^ (n - t.1) * N) ≤ 1) :
    Tendsto (fun s => auxAvg N n d fun p => moveProb (scanTail (body s p) key kb (params s p) (xs s p) b
      (normalizeW fun i => lw0 s p i - mx s p) (fun i => lw0 s p i - mx s p) mv) t (b t)) l (𝓝 (a * (r ^ (n - t.1) * N))) := by
  refine noise_limit (h.measurable) (fun s p => spread3_nonneg _ _ _) (h.tendsto) (lo := fun x => min 1 (clo x * (lo x ^ (n - t.1) * N)))
    (hi := fun x => min 1 (chi x * (hi x ^ (n - t.1) * N))) (measurable_const.min (hclo.mul ((hlo.pow_const _).mul_const _)))
    (measurable_const.min (hchi.mul ((hhi.pow_const _).mul_const _))) (fun _ _ => min_le_left _ _) (fun _ _ => min_le_left _ _)
    (min_lim (rate_lim hr ha lo_r clo_a _ _) hL) (min_lim (rate_lim hr ha hi_r chi_a _ _) hL) fun s x e => ?_
  have hg : GenBody resampling (auxSpread Γ Gp xs lw0 H s (x, e)) (body s (x, e)) (auxInputs key (params s (x, e)) (xs s (x, e)) b) (keysResampling key n)
      (xs s (x, e)) b := fun t c hc => by
    obtain ⟨ψ, hψ, e1⟩ := hform s (x, e) t c hc
    refine ⟨ψ, fun A => ?_, e1⟩
    obtain ⟨k, hk⟩ := hψ A
    rw [hk]
    exact (spread3_flatH _ _ _ t A).sub_const k
  have h1 := scanTail_flat hR hm (hhom s (x, e)) (spread3_nonneg _ _ _) ((spread3_flat0 _ _ _).sub_const (mx s (x, e))) (kb := kb) hg t
  exact ⟨(min_le_right _ _).trans h1.1, le_min h1.2.2 h1.2.1⟩

end limit

/-! ## The kernels -/

section kernels
variable {resampling : Resampling Ex N}

theorem rw_form (Γ : Vec d → Vec d → G → ℝ) (key : Key) (params : Fin n → G) (xs : Fin (n + 1) → Fin (N + 1) → Vec d) (b : Fin (n + 1) → Fin (N + 1)) :
    FormBody resampling key params xs b (fun t i j => Γ (xs t.castSucc i) (xs t.succ j) (params t)) (rwBody Γ resampling) := fun t c hc => by
  refine ⟨fun A => normalizeLog fun i => Γ (xs t.castSucc (A i)) (xs t.succ i) (params t), fun A => ⟨_, rfl⟩, ?_⟩
  have e : ∀ lw : Fin (N + 1) → ℝ, normalizeW (normalizeLog lw) = fun i => Real.exp (normalizeLog lw i) := fun lw =>
    normalize_congr_const ⟨-logsumexp lw, fun i => by unfold normalizeLog; ring⟩
  simp only [e, ← hc]
  rfl

theorem al_form (Γ : Vec d → Vec d → G → ℝ) (Γg : Vec d → Vec d → G → Vec d) (key : Key) (params : Fin n → AlParams G d)
    (xs : Fin (n + 1) → Fin (N + 1) → Vec d) (b : Fin (n + 1) → Fin (N + 1)) :
    FormBody resampling key params xs b (fun t i j => alGtTilde Γ Γg (xs t.castSucc i) (xs t.succ j) (params t)) (alBody Γ Γg resampling) := fun t c hc => by
  refine ⟨fun A i => alGtTilde Γ Γg (xs t.castSucc (A i)) (xs t.succ i) (params t) - maxA fun i => alGtTilde Γ Γg (xs t.castSucc (A i)) (xs t.succ i) (params t),
    fun A => ⟨_, rfl⟩, ?_⟩
  simp only [← hc]
  rfl

theorem l_form (Γ : Vec d → Vec d → G → ℝ) (Γg : Vec d → Vec d → G → Vec d) (key : Key) (params : Fin n → LParams G d)
    (xs : Fin (n + 1) → Fin (N + 1) → Vec d) (b : Fin (n + 1) → Fin (N + 1)) :
    FormBody resampling key params xs b (fun t i j => lGammatTilde N Γ Γg (xs t.castSucc i) (xs t.succ j) (params t)) (lBody Γ Γg resampling) := fun t c hc => by
  refine ⟨fun A i => lGammatTilde N Γ Γg (xs t.castSucc (A i)) (xs t.succ i) (params t) -
    maxA fun i => lGammatTilde N Γ Γg (xs t.castSucc (A i)) (xs t.succ i) (params t), fun A => ⟨_, rfl⟩, ?_⟩
  simp only [← hc]
  rfl

theorem rw_hom (hR : ∀ key, CondResampling fun w i j => resampling key w i j true) (Γ : Vec d → Vec d → G → ℝ) (c : (Fin (N + 1) → ℝ) × (Fin (N + 1) → Vec d))
    (inp : AuxInp G (Vec d) N) : ExHom (rwBody Γ resampling c inp) := (ExHom.resampling hR _ _ _ _).bind fun _ => ExHom.pure _

theorem al_hom (hR : ∀ key, CondResampling fun w i j => resampling key w i j true) (Γ : Vec d → Vec d → G → ℝ) (Γg : Vec d → Vec d → G → Vec d)
    (c : (Fin (N + 1) → ℝ) × (Fin (N + 1) → Vec d)) (inp : AuxInp (AlParams G d) (Vec d) N) : ExHom (alBody Γ Γg resampling c inp) :=
  (ExHom.resampling hR _ _ _ _).bind fun _ => ExHom.pure _

theorem l_hom (hR : ∀ key, CondResampling fun w i j => resampling key w i j true) (Γ : Vec d → Vec d → G → ℝ) (Γg : Vec d → Vec d → G → Vec d)
    (c : (Fin (N + 1) → ℝ) × (Fin (N + 1) → Vec d)) (inp : AuxInp (LParams G d) (Vec d) N) : ExHom (lBody Γ Γg resampling c inp) :=
  (ExHom.resampling hR _ _ _ _).bind fun _ => ExHom.pure _

theorem rw_avg_scan (key : Key) (xstar : Fin (n + 1) → Vec d) (bstar : Fin (n + 1) → Fin (N + 1)) (Γ0 : Vec d → ℝ) (Γ : Vec d → Vec d → G → ℝ) (Gp : Fin n → G)
    (δ : Fin (n + 1) → ℝ) (resampling : Resampling Ex N) (mv : AncestorMove Ex N) (t : Fin (n + 1)) (b : Fin (N + 1)) :
    moveProb (rw_kernel (fun _ => true) key xstar bstar Γ0 Γ Gp δ resampling mv false) t b = auxAvg N n d fun p =>
      moveProb (scanTail (rwBody Γ resampling) key (splitKey key (n + 3) 2) Gp (auxParticles (rwU xstar δ p.1) (auxStd δ) p.2 bstar xstar) bstar
        (normalizeW fun i => Γ0 (auxParticles (rwU xstar δ p.1) (auxStd δ) p.2 bstar xstar 0 i) -
          maxA fun i => Γ0 (auxParticles (rwU xstar δ p.1) (auxStd δ) p.2 bstar xstar 0 i))
        (fun i => Γ0 (auxParticles (rwU xstar δ p.1) (auxStd δ) p.2 bstar xstar 0 i) -
          maxA fun i => Γ0 (auxParticles (rwU xstar δ p.1) (auxStd δ) p.2 bstar xstar 0 i)) mv) t b := by
  have e : ∀ r : KOut (Vec d) N n, rwGuard (fun _ => true) xstar bstar r = r := fun r => by simp [rwGuard]
  simp only [rw_kernel, e]
  rfl

theorem al_avg_scan (key : Key) (xstar : Fin (n + 1) → Vec d) (bstar : Fin (n + 1) → Fin (N + 1)) (Γ0 : Vec d → ℝ) (g0 : Vec d → Vec d) (Γ : Vec d → Vec d → G → ℝ)
    (g : Vec d → Vec d → G → Vec d) (Gp : Fin n → G) (δ : Fin (n + 1) → ℝ) (resampling : Resampling Ex N) (mv : AncestorMove Ex N) (t : Fin (n + 1)) (b : Fin (N + 1)) :
    moveProb (al_kernel key xstar bstar Γ0 g0 Γ g Gp δ δ resampling mv false) t b = auxAvg N n d fun p =>
      moveProb (scanTail (alBody Γ g resampling) key (splitKey key (n + 3) 2) (alP Gp δ (auxVars g0 g Gp δ (auxStd δ) xstar p.1))
        (auxParticles (auxVars g0 g Gp δ (auxStd δ) xstar p.1) (auxStd δ) p.2 bstar xstar) bstar
        (normalizeW fun i => alG0Tilde Γ0 g0 (auxParticles (auxVars g0 g Gp δ (auxStd δ) xstar p.1) (auxStd δ) p.2 bstar xstar 0 i) (δ 0) (δ 0)
            (auxVars g0 g Gp δ (auxStd δ) xstar p.1 0) -
          maxA fun i => alG0Tilde Γ0 g0 (auxParticles (auxVars g0 g Gp δ (auxStd δ) xstar p.1) (auxStd δ) p.2 bstar xstar 0 i) (δ 0) (δ 0)
            (auxVars g0 g Gp δ (auxStd δ) xstar p.1 0))
        (fun i => alG0Tilde Γ0 g0 (auxParticles (auxVars g0 g Gp δ (auxStd δ) xstar p.1) (auxStd δ) p.2 bstar xstar 0 i) (δ 0) (δ 0)
            (auxVars g0 g Gp δ (auxStd δ) xstar p.1 0) -
          maxA fun i => alG0Tilde Γ0 g0 (auxParticles (auxVars g0 g Gp δ (auxStd δ) xstar p.1) (auxStd δ) p.2 bstar xstar 0 i) (δ 0) (δ 0)
            (auxVars g0 g Gp δ (auxStd δ) xstar p.1 0)) mv) t b := rfl

theorem l_avg_scan (key : Key) (xstar : Fin (n + 1) → Vec d) (bstar : Fin (n + 1) → Fin (N + 1)) (Γ0 : Vec d → ℝ) (g0 : Vec d → Vec d) (Γ : Vec d → Vec d → G → ℝ)
    (g : Vec d → Vec d → G → Vec d) (Gp : Fin n → G) (δ : Fin (n + 1) → ℝ) (resampling : Resampling Ex N) (mv : AncestorMove Ex N) (t : Fin (n + 1)) (b : Fin (N + 1)) :
    moveProb (l_kernel key xstar bstar Γ0 g0 Γ g Gp δ δ resampling mv false) t b = auxAvg N n d fun p =>
      moveProb (scanTail (lBody Γ g resampling) key (splitKey key (n + 3) 2)
        (lP Gp δ (auxParticles (auxVars g0 g Gp δ (auxStd δ) xstar p.1) (auxStd δ) p.2 bstar xstar))
        (auxParticles (auxVars g0 g Gp δ (auxStd δ) xstar p.1) (auxStd δ) p.2 bstar xstar) bstar
        (normalizeW fun i => lGamma0Tilde N Γ0 g0 (auxParticles (auxVars g0 g Gp δ (auxStd δ) xstar p.1) (auxStd δ) p.2 bstar xstar 0 i)
            (meanP (auxParticles (auxVars g0 g Gp δ (auxStd δ) xstar p.1) (auxStd δ) p.2 bstar xstar 0)) (δ 0) (δ 0) -
          maxA fun i => lGamma0Tilde N Γ0 g0 (auxParticles (auxVars g0 g Gp δ (auxStd δ) xstar p.1) (auxStd δ) p.2 bstar xstar 0 i)
            (meanP (auxParticles (auxVars g0 g Gp δ (auxStd δ) xstar p.1) (auxStd δ) p.2 bstar xstar 0)) (δ 0) (δ 0))
        (fun i => lGamma0Tilde N Γ0 g0 (auxParticles (auxVars g0 g Gp δ (auxStd δ) xstar p.1) (auxStd δ) p.2 bstar xstar 0 i)
            (meanP (auxParticles (auxVars g0 g Gp δ (auxStd δ) xstar p.1) (auxStd δ) p.2 bstar xstar 0)) (δ 0) (δ 0) -
          maxA fun i => lGamma0Tilde N Γ0 g0 (auxParticles (auxVars g0 g Gp δ (auxStd δ) xstar p.1) (auxStd δ) p.2 bstar xstar 0 i)
            (meanP (auxParticles (auxVars g0 g Gp δ (auxStd δ) xstar p.1) (auxStd δ) p.2 bstar xstar 0)) (δ 0) (δ 0)) mv) t b := rfl

end kernels

end Verif
