import Verif.Lemmas.FlatKernels
import Verif.Props.ExpInvariance

/-!
# Small steps of the particle kernels with backward sampling: helpers
-/

open scoped ENNReal Topology
open MeasureTheory Filter

namespace Verif
open Verif.Model Verif.Spec Verif.Props

variable {N n d : ℕ} {G ι : Type}

/-! ## The kernels as averages over the noise -/

/-- Auxiliary variables of `rw_csmc.kernel`. -/
noncomputable def rwU (xstar : Fin (n + 1) → Vec d) (δ : Fin (n + 1) → ℝ) (a : Fin (n + 1) → Vec d) : Fin (n + 1) → Vec d :=
  fun t j => xstar t j + a t j * auxStd δ t

theorem rw_avg (key : Key) (xstar : Fin (n + 1) → Vec d) (bstar : Fin (n + 1) → Fin (N + 1)) (Γ0 : Vec d → ℝ) (Γ : Vec d → Vec d → G → ℝ) (Gp : Fin n → G)
    (δ : Fin (n + 1) → ℝ) (resampling : Resampling Ex N) (mv : AncestorMove Ex N) (t : Fin (n + 1)) (b : Fin (N + 1)) :
    moveProb (rw_kernel (fun _ => true) key xstar bstar Γ0 Γ Gp δ resampling mv true) t b = auxAvg N n d fun p =>
      moveProb (auxTail (rwBody Γ resampling) key (splitKey key (n + 3) 2) Gp Γ Gp (auxParticles (rwU xstar δ p.1) (auxStd δ) p.2 bstar xstar) bstar
        (normalizeW fun i => Γ0 (auxParticles (rwU xstar δ p.1) (auxStd δ) p.2 bstar xstar 0 i) -
          maxA fun i => Γ0 (auxParticles (rwU xstar δ p.1) (auxStd δ) p.2 bstar xstar 0 i))
        (fun i => Γ0 (auxParticles (rwU xstar δ p.1) (auxStd δ) p.2 bstar xstar 0 i) -
          maxA fun i => Γ0 (auxParticles (rwU xstar δ p.1) (auxStd δ) p.2 bstar xstar 0 i)) mv) t b := by
  have e : ∀ r : KOut (Vec d) N n, rwGuard (fun _ => true) xstar bstar r = r := fun r => by simp [rwGuard]
  simp only [rw_kernel, e]
  rfl

/-- Parameters of the weights of `al_csmc_f.kernel`. -/
noncomputable def alP (Gp : Fin n → G) (δ : Fin (n + 1) → ℝ) (u : Fin (n + 1) → Vec d) : Fin n → AlParams G d :=
  fun t => ⟨tailA δ t, tailA δ t, tailA u t, Gp t⟩

theorem al_avg (key : Key) (xstar : Fin (n + 1) → Vec d) (bstar : Fin (n + 1) → Fin (N + 1)) (Γ0 : Vec d → ℝ) (g0 : Vec d → Vec d) (Γ : Vec d → Vec d → G → ℝ)
    (g : Vec d → Vec d → G → Vec d) (Gp : Fin n → G) (δ : Fin (n + 1) → ℝ) (resampling : Resampling Ex N) (mv : AncestorMove Ex N) (t : Fin (n + 1)) (b : Fin (N + 1)) :
    moveProb (al_kernel key xstar bstar Γ0 g0 Γ g Gp δ δ resampling mv true) t b = auxAvg N n d fun p =>
      moveProb (auxTail (alBody Γ g resampling) key (splitKey key (n + 3) 2) (alP Gp δ (auxVars g0 g Gp δ (auxStd δ) xstar p.1)) (alGammatTilde Γ g)
        (alP Gp δ (auxVars g0 g Gp δ (auxStd δ) xstar p.1)) (auxParticles (auxVars g0 g Gp δ (auxStd δ) xstar p.1) (auxStd δ) p.2 bstar xstar) bstar
        (normalizeW fun i => alG0Tilde Γ0 g0 (auxParticles (auxVars g0 g Gp δ (auxStd δ) xstar p.1) (auxStd δ) p.2 bstar xstar 0 i) (δ 0) (δ 0)
            (auxVars g0 g Gp δ (auxStd δ) xstar p.1 0) -
          maxA fun i => alG0Tilde Γ0 g0 (auxParticles (auxVars g0 g Gp δ (auxStd δ) xstar p.1) (auxStd δ) p.2 bstar xstar 0 i) (δ 0) (δ 0)
            (auxVars g0 g Gp δ (auxStd δ) xstar p.1 0))
        (fun i => alG0Tilde Γ0 g0 (auxParticles (auxVars g0 g Gp δ (auxStd δ) xstar p.1) (auxStd δ) p.2 bstar xstar 0 i) (δ 0) (δ 0)
            (auxVars g0 g Gp δ (auxStd δ) xstar p.1 0) -
          maxA fun i => alG0Tilde Γ0 g0 (auxParticles (auxVars g0 g Gp δ (auxStd δ) xstar p.1) (auxStd δ) p.2 bstar xstar 0 i) (δ 0) (δ 0)
            (auxVars g0 g Gp δ (auxStd δ) xstar p.1 0)) mv) t b := rfl

/-- Parameters of the weights of `l_csmc_f.kernel`. -/
noncomputable def lP (Gp : Fin n → G) (δ : Fin (n + 1) → ℝ) (xs : Fin (n + 1) → Fin (N + 1) → Vec d) : Fin n → LParams G d :=
  fun t => ⟨tailA (fun t => meanP (xs t)) t, tailA δ t, tailA δ t, Gp t⟩

theorem l_avg (key : Key) (xstar : Fin (n + 1) → Vec d) (bstar : Fin (n + 1) → Fin (N + 1)) (Γ0 : Vec d → ℝ) (g0 : Vec d → Vec d) (Γ : Vec d → Vec d → G → ℝ)
    (g : Vec d → Vec d → G → Vec d) (Gp : Fin n → G) (δ : Fin (n + 1) → ℝ) (resampling : Resampling Ex N) (mv : AncestorMove Ex N) (t : Fin (n + 1)) (b : Fin (N + 1)) :
    moveProb (l_kernel key xstar bstar Γ0 g0 Γ g Gp δ δ resampling mv true) t b = auxAvg N n d fun p =>
      moveProb (auxTail (lBody Γ g resampling) key (splitKey key (n + 3) 2)
        (lP Gp δ (auxParticles (auxVars g0 g Gp δ (auxStd δ) xstar p.1) (auxStd δ) p.2 bstar xstar)) Γ Gp
        (auxParticles (auxVars g0 g Gp δ (auxStd δ) xstar p.1) (auxStd δ) p.2 bstar xstar) bstar
        (normalizeW fun i => lGamma0Tilde N Γ0 g0 (auxParticles (auxVars g0 g Gp δ (auxStd δ) xstar p.1) (auxStd δ) p.2 bstar xstar 0 i)
            (meanP (auxParticles (auxVars g0 g Gp δ (auxStd δ) xstar p.1) (auxStd δ) p.2 bstar xstar 0)) (δ 0) (δ 0) -
          maxA fun i => lGamma0Tilde N Γ0 g0 (auxParticles (auxVars g0 g Gp δ (auxStd δ) xstar p.1) (auxStd δ) p.2 bstar xstar 0 i)
            (meanP (auxParticles (auxVars g0 g Gp δ (auxStd δ) xstar p.1) (auxStd δ) p.2 bstar xstar 0)) (δ 0) (δ 0))
        (fun i => lGamma0Tilde N Γ0 g0 (auxParticles (auxVars g0 g Gp δ (auxStd δ) xstar p.1) (auxStd δ) p.2 bstar xstar 0 i)
            (meanP (auxParticles (auxVars g0 g Gp δ (auxStd δ) xstar p.1) (auxStd δ) p.2 bstar xstar 0)) (δ 0) (δ 0) -
          maxA fun i => lGamma0Tilde N Γ0 g0 (auxParticles (auxVars g0 g Gp δ (auxStd δ) xstar p.1) (auxStd δ) p.2 bstar xstar 0 i)
            (meanP (auxParticles (auxVars g0 g Gp δ (auxStd δ) xstar p.1) (auxStd δ) p.2 bstar xstar 0)) (δ 0) (δ 0)) mv) t b := rfl

/-! ## Small step sizes -/

section
variable {l : Filter ι} {resampling : Resampling Ex N} (hR : GoodResampling resampling) (key : Key)
  (xstar : Fin (n + 1) → Vec d) (bstar : Fin (n + 1) → Fin (N + 1)) (Gp : Fin n → G) {δ : ι → Fin (n + 1) → ℝ} (hδ : ∀ t, Tendsto (fun s => δ s t) l (𝓝 0))
  {Γ0 : Vec d → ℝ} {Γ : Vec d → Vec d → G → ℝ} (h0 : Continuous Γ0) (hΓ : ∀ y, Continuous fun p : Vec d × Vec d => Γ p.1 p.2 y)
include hR hδ h0 hΓ

omit hR h0 hΓ in
theorem rwU_tendsto (a : Fin (n + 1) → Vec d) : Tendsto (fun s => rwU xstar (δ s) a) l (𝓝 xstar) := by
  refine tendsto_pi_nhds.mpr fun t => tendsto_pi_nhds.mpr fun j => ?_
  have h := ((auxStd_tendsto (hδ t)).const_mul (a t j)).const_add (xstar t j)
  rwa [mul_zero, add_zero] at h

theorem rw_auxFlat : AuxFlat l bstar (fun _ (_ : AuxNoise N n d) => rwBody Γ resampling) key (fun _ _ => Gp) Γ (fun _ _ => Gp)
    (fun s p => auxParticles (rwU xstar (δ s) p.1) (auxStd (δ s)) p.2 bstar xstar)
    (fun s p i => Γ0 (auxParticles (rwU xstar (δ s) p.1) (auxStd (δ s)) p.2 bstar xstar 0 i))
    (fun s p t i j => Γ (auxParticles (rwU xstar (δ s) p.1) (auxStd (δ s)) p.2 bstar xstar (Fin.castSucc t) i)
      (auxParticles (rwU xstar (δ s) p.1) (auxStd (δ s)) p.2 bstar xstar t.succ j) (Gp t)) := by
  have hx : ∀ (p : AuxNoise N n d) t i, Tendsto (fun s => auxParticles (rwU xstar (δ s) p.1) (auxStd (δ s)) p.2 bstar xstar t i) l (𝓝 (xstar t)) := fun p t i =>
    auxParticles_tendsto (rwU_tendsto xstar hδ p.1) (fun t => auxStd_tendsto (hδ t)) p.2 bstar t i
  have hc : ∀ s, Continuous fun p : AuxNoise N n d => auxParticles (rwU xstar (δ s) p.1) (auxStd (δ s)) p.2 bstar xstar := fun s =>
    auxParticles_cont (by unfold rwU; fun_prop) continuous_snd _ _ _
  have hc' : ∀ s t i, Continuous fun p : AuxNoise N n d => auxParticles (rwU xstar (δ s) p.1) (auxStd (δ s)) p.2 bstar xstar t i := fun s t i =>
    (continuous_apply_apply t i).comp (hc s)
  have hl : ∀ (p : AuxNoise N n d) t i j, Tendsto (fun s => Γ (auxParticles (rwU xstar (δ s) p.1) (auxStd (δ s)) p.2 bstar xstar (Fin.castSucc t) i)
      (auxParticles (rwU xstar (δ s) p.1) (auxStd (δ s)) p.2 bstar xstar t.succ j) (Gp t)) l (𝓝 (Γ (xstar (Fin.castSucc t)) (xstar t.succ) (Gp t))) :=
    fun p t i j => ((hΓ (Gp t)).tendsto (xstar (Fin.castSucc t), xstar t.succ)).comp ((hx p _ i).prodMk_nhds (hx p _ j))
  exact
    { step := fun s p t c h h' => rwBody_on hR Γ h h'
      lim0 := fun p => ⟨Γ0 (xstar 0), fun i => (h0.tendsto _).comp (hx p 0 i)⟩
      limH := fun p t => ⟨_, fun i j => hl p t i j⟩
      limK := fun p t i j => by
        have h := (hl p t i j).sub (hl p t 0 j)
        rwa [sub_self] at h
      cont0 := fun s i => h0.comp (hc' s 0 i)
      contH := fun s t i j => (hΓ (Gp t)).comp ((hc' s _ i).prodMk (hc' s _ j))
      contK := fun s t i j => (hΓ (Gp t)).comp ((hc' s _ i).prodMk (hc' s _ j)) }

variable {g0 : Vec d → Vec d} {g : Vec d → Vec d → G → Vec d} (hg0 : Continuous g0) (hg : ∀ y, Continuous fun p : Vec d × Vec d => g p.1 p.2 y)
  (hpos : ∀ᶠ s in l, ∀ t, 0 < δ s t)

omit hR h0 hΓ in
theorem auxVars_tendsto (a : Fin (n + 1) → Vec d) : Tendsto (fun s => auxVars g0 g Gp (δ s) (auxStd (δ s)) xstar a) l (𝓝 xstar) := by
  refine tendsto_pi_nhds.mpr fun t => tendsto_pi_nhds.mpr fun j => ?_
  unfold auxVars
  have h := ((((hδ t).const_mul 0.5).mul_const (insert0 (g0 (xstar 0)) (fun t => g (initA xstar t) (tailA xstar t) (Gp t)) t j)).const_add (xstar t j)).add
    ((auxStd_tendsto (hδ t)).mul_const (a t j))
  simp only [mul_zero, zero_mul, add_zero] at h
  exact h

omit hR h0 hΓ hδ in
theorem auxVars_cont (δ std : Fin (n + 1) → ℝ) : Continuous fun p : AuxNoise N n d => auxVars g0 g Gp δ std xstar p.1 := by
  unfold auxVars
  fun_prop

include hg0 hg hpos

theorem al_auxFlat : AuxFlat l bstar (fun _ (_ : AuxNoise N n d) => alBody Γ g resampling) key
    (fun s p => alP Gp (δ s) (auxVars g0 g Gp (δ s) (auxStd (δ s)) xstar p.1)) (alGammatTilde Γ g)
    (fun s p => alP Gp (δ s) (auxVars g0 g Gp (δ s) (auxStd (δ s)) xstar p.1))
    (fun s p => auxParticles (auxVars g0 g Gp (δ s) (auxStd (δ s)) xstar p.1) (auxStd (δ s)) p.2 bstar xstar)
    (fun s p i => alG0Tilde Γ0 g0 (auxParticles (auxVars g0 g Gp (δ s) (auxStd (δ s)) xstar p.1) (auxStd (δ s)) p.2 bstar xstar 0 i) (δ s 0) (δ s 0)
            (auxVars g0 g Gp (δ s) (auxStd (δ s)) xstar p.1 0))
    (fun s p t i j => alGtTilde Γ g (auxParticles (auxVars g0 g Gp (δ s) (auxStd (δ s)) xstar p.1) (auxStd (δ s)) p.2 bstar xstar (Fin.castSucc t) i)
      (auxParticles (auxVars g0 g Gp (δ s) (auxStd (δ s)) xstar p.1) (auxStd (δ s)) p.2 bstar xstar t.succ j)
      (alP Gp (δ s) (auxVars g0 g Gp (δ s) (auxStd (δ s)) xstar p.1) t)) := by
  have hu : ∀ (p : AuxNoise N n d) t, Tendsto (fun s => auxVars g0 g Gp (δ s) (auxStd (δ s)) xstar p.1 t) l (𝓝 (xstar t)) := fun p =>
    tendsto_pi_nhds.mp (auxVars_tendsto xstar Gp hδ p.1)
  have hx : ∀ (p : AuxNoise N n d) t i, Tendsto (fun s => auxParticles (auxVars g0 g Gp (δ s) (auxStd (δ s)) xstar p.1) (auxStd (δ s)) p.2 bstar xstar t i) l
      (𝓝 (xstar t)) := fun p t i => auxParticles_tendsto (auxVars_tendsto xstar Gp hδ p.1) (fun t => auxStd_tendsto (hδ t)) p.2 bstar t i
  have hcu : ∀ s, Continuous fun p : AuxNoise N n d => auxVars g0 g Gp (δ s) (auxStd (δ s)) xstar p.1 := fun s => auxVars_cont xstar Gp _ _
  have hcu' : ∀ s t, Continuous fun p : AuxNoise N n d => auxVars g0 g Gp (δ s) (auxStd (δ s)) xstar p.1 t := fun s t => (continuous_apply t).comp (hcu s)
  have hc' : ∀ s t i, Continuous fun p : AuxNoise N n d => auxParticles (auxVars g0 g Gp (δ s) (auxStd (δ s)) xstar p.1) (auxStd (δ s)) p.2 bstar xstar t i :=
    fun s t i => (continuous_apply_apply t i).comp (auxParticles_cont (hcu s) continuous_snd _ _ _)
  have hl : ∀ (p : AuxNoise N n d) t i j, Tendsto (fun s => alGtTilde Γ g
      (auxParticles (auxVars g0 g Gp (δ s) (auxStd (δ s)) xstar p.1) (auxStd (δ s)) p.2 bstar xstar (Fin.castSucc t) i)
      (auxParticles (auxVars g0 g Gp (δ s) (auxStd (δ s)) xstar p.1) (auxStd (δ s)) p.2 bstar xstar t.succ j)
      (alP Gp (δ s) (auxVars g0 g Gp (δ s) (auxStd (δ s)) xstar p.1) t)) l (𝓝 (Γ (xstar (Fin.castSucc t)) (xstar t.succ) (Gp t))) := fun p t i j => by
    refine Tendsto.congr' (hpos.mono fun s hs => (alGt_eq Γ g _ _ _ (Gp t) (hs t.succ)).symm) ?_
    have hp := (hx p (Fin.castSucc t) i).prodMk_nhds (hx p t.succ j)
    exact gradWeight_tendsto (hδ t.succ) (((hΓ (Gp t)).tendsto _).comp hp) (hu p t.succ) (hx p t.succ j) (((hg (Gp t)).tendsto _).comp hp)
  have hcG : ∀ s (t : Fin n) i j, Continuous fun p : AuxNoise N n d => alGammatTilde Γ g
      (auxParticles (auxVars g0 g Gp (δ s) (auxStd (δ s)) xstar p.1) (auxStd (δ s)) p.2 bstar xstar (Fin.castSucc t) i)
      (auxParticles (auxVars g0 g Gp (δ s) (auxStd (δ s)) xstar p.1) (auxStd (δ s)) p.2 bstar xstar t.succ j)
      (alP Gp (δ s) (auxVars g0 g Gp (δ s) (auxStd (δ s)) xstar p.1) t) := fun s t i j => by
    have hp := (hc' s (Fin.castSucc t) i).prodMk (hc' s t.succ j)
    have h1 := (hΓ (Gp t)).comp hp
    have h2 := (hg (Gp t)).comp hp
    have h3 := hc' s t.succ j
    have h4 := hcu' s t.succ
    simp only [alGammatTilde, sumSq, alP, tailA]
    refine h1.add (Continuous.div_const (continuous_finsetSum _ fun k _ => ?_).neg _)
    exact ((((continuous_apply k).comp h4).sub ((continuous_apply k).comp h3)).sub (continuous_const.mul ((continuous_apply k).comp h2))).pow 2
  exact
    { step := fun s p t c h h' => alBody_on hR Γ g h h'
      lim0 := fun p => ⟨Γ0 (xstar 0), fun i => by
        refine Tendsto.congr' (hpos.mono fun s hs => (alG0_eq Γ0 g0 _ _ (hs 0)).symm) ?_
        exact gradWeight_tendsto (hδ 0) ((h0.tendsto _).comp (hx p 0 i)) (hu p 0) (hx p 0 i) ((hg0.tendsto _).comp (hx p 0 i))⟩
      limH := fun p t => ⟨_, fun i j => hl p t i j⟩
      limK := fun p t i j => by
        have h := (hl p t i j).sub (hl p t 0 j)
        rw [sub_self] at h
        refine h.congr fun s => ?_
        simp only [alGtTilde]
        ring
      cont0 := fun s i => by
        have h1 := hc' s 0 i
        have h2 := hcu' s 0
        have h3 := h0.comp h1
        have h4 := hg0.comp h1
        simp only [alG0Tilde, alGamma0Tilde, sumSq]
        refine Continuous.sub (h3.add (Continuous.div_const (continuous_finsetSum _ fun k _ => ?_).neg _))
          (Continuous.div_const (continuous_finsetSum _ fun k _ => ?_).neg _)
        · exact ((((continuous_apply k).comp h2).sub ((continuous_apply k).comp h1)).sub (continuous_const.mul ((continuous_apply k).comp h4))).pow 2
        · exact (((continuous_apply k).comp h1).sub ((continuous_apply k).comp h2)).pow 2
      contH := fun s t i j => by
        have h1 := hc' s t.succ j
        have h2 := hcu' s t.succ
        refine (hcG s t i j).sub (Continuous.div_const (continuous_finsetSum _ fun k _ => ?_).neg _)
        exact (((continuous_apply k).comp h1).sub ((continuous_apply k).comp h2)).pow 2
      contK := hcG }

theorem l_auxFlat : AuxFlat l bstar (fun _ (_ : AuxNoise N n d) => lBody Γ g resampling) key
    (fun s p => lP Gp (δ s) (auxParticles (auxVars g0 g Gp (δ s) (auxStd (δ s)) xstar p.1) (auxStd (δ s)) p.2 bstar xstar)) Γ (fun _ _ => Gp)
    (fun s p => auxParticles (auxVars g0 g Gp (δ s) (auxStd (δ s)) xstar p.1) (auxStd (δ s)) p.2 bstar xstar)
    (fun s p i => lGamma0Tilde N Γ0 g0 (auxParticles (auxVars g0 g Gp (δ s) (auxStd (δ s)) xstar p.1) (auxStd (δ s)) p.2 bstar xstar 0 i)
      (meanP (auxParticles (auxVars g0 g Gp (δ s) (auxStd (δ s)) xstar p.1) (auxStd (δ s)) p.2 bstar xstar 0)) (δ s 0) (δ s 0))
    (fun s p t i j => lGammatTilde N Γ g (auxParticles (auxVars g0 g Gp (δ s) (auxStd (δ s)) xstar p.1) (auxStd (δ s)) p.2 bstar xstar (Fin.castSucc t) i)
      (auxParticles (auxVars g0 g Gp (δ s) (auxStd (δ s)) xstar p.1) (auxStd (δ s)) p.2 bstar xstar t.succ j)
      (lP Gp (δ s) (auxParticles (auxVars g0 g Gp (δ s) (auxStd (δ s)) xstar p.1) (auxStd (δ s)) p.2 bstar xstar) t)) := by
  have hx : ∀ (p : AuxNoise N n d) t i, Tendsto (fun s => auxParticles (auxVars g0 g Gp (δ s) (auxStd (δ s)) xstar p.1) (auxStd (δ s)) p.2 bstar xstar t i) l
      (𝓝 (xstar t)) := fun p t i => auxParticles_tendsto (auxVars_tendsto xstar Gp hδ p.1) (fun t => auxStd_tendsto (hδ t)) p.2 bstar t i
  have hm : ∀ (p : AuxNoise N n d) t, Tendsto (fun s => meanP (auxParticles (auxVars g0 g Gp (δ s) (auxStd (δ s)) xstar p.1) (auxStd (δ s)) p.2 bstar xstar t)) l
      (𝓝 (xstar t)) := fun p t => by
    refine tendsto_pi_nhds.mpr fun j => ?_
    have h := (tendsto_finsetSum Finset.univ fun i (_ : i ∈ Finset.univ) => tendsto_pi_nhds.mp (hx p t i) j).div_const ((N : ℝ) + 1)
    have e : (∑ _i : Fin (N + 1), xstar t j) / ((N : ℝ) + 1) = xstar t j := by
      rw [Finset.sum_const, Finset.card_univ, Fintype.card_fin, nsmul_eq_mul]
      push_cast
      field_simp
    rw [e] at h
    exact h
  have hcu : ∀ s, Continuous fun p : AuxNoise N n d => auxVars g0 g Gp (δ s) (auxStd (δ s)) xstar p.1 := fun s => auxVars_cont xstar Gp _ _
  have hc' : ∀ s t i, Continuous fun p : AuxNoise N n d => auxParticles (auxVars g0 g Gp (δ s) (auxStd (δ s)) xstar p.1) (auxStd (δ s)) p.2 bstar xstar t i :=
    fun s t i => (continuous_apply_apply t i).comp (auxParticles_cont (hcu s) continuous_snd _ _ _)
  have hcm : ∀ s t, Continuous fun p : AuxNoise N n d => meanP (auxParticles (auxVars g0 g Gp (δ s) (auxStd (δ s)) xstar p.1) (auxStd (δ s)) p.2 bstar xstar t) :=
    fun s t => continuous_pi fun j => (continuous_finsetSum _ fun i _ => (continuous_apply j).comp (hc' s t i)).div_const _
  have hlH : ∀ {a b : ℝ} {gg mm xx : AuxNoise N n d → Vec d} {vv : AuxNoise N n d → ℝ}, Continuous gg → Continuous mm → Continuous xx → Continuous vv →
      Continuous fun p => lHphi N (gg p) (vv p) a b (mm p) (xx p) := fun h1 h2 h3 h4 => by
    simp only [lHphi, sumSq]
    refine h4.add (Continuous.div_const (Continuous.sub (continuous_const.mul (continuous_finsetSum _ fun k _ => ?_))
      (continuous_const.mul (continuous_finsetSum _ fun k _ => ?_))) _)
    · exact (((continuous_apply k).comp h2).sub ((continuous_apply k).comp h3)).mul (continuous_const.mul ((continuous_apply k).comp h1))
    · exact (continuous_const.mul ((continuous_apply k).comp h1)).pow 2
  have hl : ∀ (p : AuxNoise N n d) t i j, Tendsto (fun s => Γ
      (auxParticles (auxVars g0 g Gp (δ s) (auxStd (δ s)) xstar p.1) (auxStd (δ s)) p.2 bstar xstar (Fin.castSucc t) i)
      (auxParticles (auxVars g0 g Gp (δ s) (auxStd (δ s)) xstar p.1) (auxStd (δ s)) p.2 bstar xstar t.succ j)
      (Gp t)) l (𝓝 (Γ (xstar (Fin.castSucc t)) (xstar t.succ) (Gp t))) := fun p t i j =>
    ((hΓ (Gp t)).tendsto (xstar (Fin.castSucc t), xstar t.succ)).comp ((hx p _ i).prodMk_nhds (hx p _ j))
  exact
    { step := fun s p t c h h' => lBody_on hR Γ g h h'
      lim0 := fun p => ⟨Γ0 (xstar 0), fun i => by
        refine Tendsto.congr' (hpos.mono fun s hs => (lHphi_grad _ _ (hs 0) _ _).symm) ?_
        exact gradWeight_tendsto (hδ 0) ((h0.tendsto _).comp (hx p 0 i)) (hm p 0) (hx p 0 i) ((hg0.tendsto _).comp (hx p 0 i))⟩
      limH := fun p t => ⟨Γ (xstar (Fin.castSucc t)) (xstar t.succ) (Gp t), fun i j => by
        refine Tendsto.congr' (hpos.mono fun s hs => (lHphi_grad _ _ (hs t.succ) _ _).symm) ?_
        exact gradWeight_tendsto (hδ t.succ) (hl p t i j) (hm p t.succ) (hx p t.succ j)
          (((hg (Gp t)).tendsto _).comp ((hx p (Fin.castSucc t) i).prodMk_nhds (hx p t.succ j)))⟩
      limK := fun p t i j => by
        have h := (hl p t i j).sub (hl p t 0 j)
        rwa [sub_self] at h
      cont0 := fun s i => hlH (hg0.comp (hc' s 0 i)) (hcm s 0) (hc' s 0 i) (h0.comp (hc' s 0 i))
      contH := fun s t i j => hlH ((hg (Gp t)).comp ((hc' s (Fin.castSucc t) i).prodMk (hc' s t.succ j))) (hcm s t.succ) (hc' s t.succ j)
        ((hΓ (Gp t)).comp ((hc' s (Fin.castSucc t) i).prodMk (hc' s t.succ j)))
      contK := fun s t i j => (hΓ (Gp t)).comp ((hc' s _ i).prodMk (hc' s _ j)) }

end

end Verif
