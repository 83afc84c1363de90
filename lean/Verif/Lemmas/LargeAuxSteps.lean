import Verif.Lemmas.FarPotentials

/-!
# Large steps of `al_csmc_f` and `l_csmc_f`: helpers
-/

open scoped ENNReal Topology
open MeasureTheory Finset Filter

namespace Verif
open Verif.Model Verif.Spec Verif.Props

variable {N n d : ℕ} {G ι : Type}

/-- Proposals leave every bounded set, with or without a gradient. -/
theorem step_far {E : Type} [NormedAddCommGroup E] [NormedSpace ℝ E] [ProperSpace E] {l : Filter ι} {δ : ι → ℝ} (hδ : Tendsto δ l atTop) (x g : E) {z : E} (hz : z ≠ 0) :
    Tendsto (fun s => x + (0.5 * δ s) • g + Real.sqrt (0.5 * δ s) • z) l (cocompact E) := by
  have hs : Tendsto (fun s => Real.sqrt (0.5 * δ s)) l atTop := Real.tendsto_sqrt_atTop.comp (hδ.const_mul_atTop (by norm_num))
  rw [← Metric.cobounded_eq_cocompact, ← tendsto_norm_atTop_iff_cobounded]
  by_cases hg : g = 0
  · have h1 : Tendsto (fun s => Real.sqrt (0.5 * δ s) * ‖z‖ - ‖x‖) l atTop :=
      tendsto_atTop_add_const_right _ _ (hs.atTop_mul_const (norm_pos_iff.mpr hz))
    refine tendsto_atTop_mono (fun s => ?_) h1
    have e1 : x + (0.5 * δ s) • g + Real.sqrt (0.5 * δ s) • z = Real.sqrt (0.5 * δ s) • z - -x := by rw [hg, smul_zero]; abel
    rw [e1]
    refine le_trans (le_of_eq ?_) (norm_sub_norm_le _ _)
    rw [norm_smul, norm_neg, Real.norm_eq_abs, abs_of_nonneg (Real.sqrt_nonneg _)]
  · have h1 : Tendsto (fun s => Real.sqrt (0.5 * δ s) * (Real.sqrt (0.5 * δ s) * ‖g‖ + -‖z‖) - ‖x‖) l atTop :=
      tendsto_atTop_add_const_right _ _ (hs.atTop_mul_atTop₀ (tendsto_atTop_add_const_right _ _ (hs.atTop_mul_const (norm_pos_iff.mpr hg))))
    refine tendsto_atTop_mono' _ ?_ h1
    filter_upwards [hδ.eventually_ge_atTop 0] with s hs0
    have e0 : Real.sqrt (0.5 * δ s) * Real.sqrt (0.5 * δ s) = 0.5 * δ s := Real.mul_self_sqrt (by positivity)
    have e1 : x + (0.5 * δ s) • g + Real.sqrt (0.5 * δ s) • z = ((0.5 * δ s) • g - -(Real.sqrt (0.5 * δ s) • z)) - -x := by abel
    rw [e1]
    refine le_trans (le_of_eq ?_) ((sub_le_sub_right (norm_sub_norm_le _ _) _).trans (norm_sub_norm_le _ _))
    rw [norm_smul, norm_neg, norm_neg, norm_smul, Real.norm_eq_abs, Real.norm_eq_abs, abs_of_nonneg (Real.sqrt_nonneg _), abs_of_nonneg (by positivity : 0 ≤ 0.5 * δ s)]
    linear_combination ‖g‖ * e0

/-! ## Weights -/

theorem sumSq_nonneg (v : Vec d) : 0 ≤ sumSq v := sum_nonneg fun _ _ => sq_nonneg _

theorem sumSq_std {δ : ℝ} (hδ : 0 < δ) {v e : Vec d} (h : ∀ j, v j = Real.sqrt (0.5 * δ) * e j) : sumSq v / δ = sumSq e / 2 := by
  have hs : Real.sqrt (0.5 * δ) ^ 2 = 0.5 * δ := Real.sq_sqrt (by positivity)
  rw [div_eq_iff hδ.ne']
  simp only [sumSq, h, mul_pow, hs, ← mul_sum]
  ring

section weights
variable (Γ : Vec d → Vec d → G → ℝ) (g : Vec d → Vec d → G → Vec d) {δ : ℝ} (hδ : 0 < δ) (x' : Vec d) {x u e : Vec d} (y : G)
include hδ

theorem al_upper (hx : ∀ j, x j = u j + Real.sqrt (0.5 * δ) * e j) : alGtTilde Γ g x' x ⟨δ, δ, u, y⟩ ≤ Γ x' x y + sumSq e / 2 := by
  simp only [alGtTilde, alGammatTilde]
  have h1 := sumSq_std hδ (v := fun j => x j - u j) (e := e) fun j => by rw [hx]; ring
  have h2 : 0 ≤ sumSq (fun j => u j - x j - 0.5 * δ * g x' x y j) / δ := div_nonneg (sumSq_nonneg _) hδ.le
  rw [neg_div, neg_div, h1]
  linarith

theorem al_back (x'' : Vec d) (hu : ∀ j, u j = x j + 0.5 * δ * g x' x y j + Real.sqrt (0.5 * δ) * e j) :
    alGammatTilde Γ g x'' x ⟨δ, δ, u, y⟩ - alGammatTilde Γ g x' x ⟨δ, δ, u, y⟩ ≤ Γ x'' x y - Γ x' x y + sumSq e / 2 := by
  simp only [alGammatTilde]
  have h1 := sumSq_std hδ (v := fun j => u j - x j - 0.5 * δ * g x' x y j) (e := e) fun j => by rw [hu]; ring
  have h2 : 0 ≤ sumSq (fun j => u j - x j - 0.5 * δ * g x'' x y j) / δ := div_nonneg (sumSq_nonneg _) hδ.le
  rw [neg_div, neg_div, h1]
  linarith

theorem al_lower (hu : ∀ j, u j = x j + 0.5 * δ * g x' x y j + Real.sqrt (0.5 * δ) * e j) : Γ x' x y - sumSq e / 2 ≤ alGtTilde Γ g x' x ⟨δ, δ, u, y⟩ := by
  simp only [alGtTilde, alGammatTilde]
  have h1 := sumSq_std hδ (v := fun j => u j - x j - 0.5 * δ * g x' x y j) (e := e) fun j => by rw [hu]; ring
  have h2 : 0 ≤ sumSq (fun j => x j - u j) / δ := div_nonneg (sumSq_nonneg _) hδ.le
  rw [neg_div, neg_div, h1]
  linarith

end weights

/-! ## The kernel -/

/-- A bound on all the noise. -/
noncomputable def noiseSq (p : AuxNoise N n d) : ℝ := (∑ t, sumSq (p.1 t) + ∑ t, ∑ i, sumSq (p.2 t i)) / 2

theorem noiseSq_le (p : AuxNoise N n d) (t : Fin (n + 1)) (i : Fin (N + 1)) : sumSq (p.1 t) / 2 + sumSq (p.2 t i) / 2 ≤ noiseSq p := by
  have h1 := single_le_sum (f := fun t => sumSq (p.1 t)) (fun t _ => sumSq_nonneg _) (mem_univ t)
  have h2 := single_le_sum (f := fun i => sumSq (p.2 t i)) (fun i _ => sumSq_nonneg _) (mem_univ i)
  have h3 := single_le_sum (f := fun t => ∑ i, sumSq (p.2 t i)) (fun t _ => sum_nonneg fun i _ => sumSq_nonneg _) (mem_univ t)
  unfold noiseSq
  linarith

theorem noiseSq_cont : Continuous fun p : AuxNoise N n d => noiseSq p := by
  unfold noiseSq sumSq
  fun_prop

section kernel
variable {g0 : Vec d → Vec d} {g : Vec d → Vec d → G → Vec d} {Γ0 : Vec d → ℝ} {Γ : Vec d → Vec d → G → ℝ} (Gp : Fin n → G) {δ : Fin (n + 1) → ℝ} (hδ : ∀ t, 0 < δ t)
  (xstar : Fin (n + 1) → Vec d) (b : Fin (n + 1) → Fin (N + 1)) (p : AuxNoise N n d)

/-- Auxiliary variables and particles of `al_csmc_f.kernel`. -/
noncomputable abbrev alU (g0 : Vec d → Vec d) (g : Vec d → Vec d → G → Vec d) (Gp : Fin n → G) (δ : Fin (n + 1) → ℝ) (xstar : Fin (n + 1) → Vec d) (p : AuxNoise N n d) :
    Fin (n + 1) → Vec d := auxVars g0 g Gp δ (auxStd δ) xstar p.1

noncomputable abbrev alX (g0 : Vec d → Vec d) (g : Vec d → Vec d → G → Vec d) (Gp : Fin n → G) (δ : Fin (n + 1) → ℝ) (xstar : Fin (n + 1) → Vec d)
    (b : Fin (n + 1) → Fin (N + 1)) (p : AuxNoise N n d) : Fin (n + 1) → Fin (N + 1) → Vec d := auxParticles (alU g0 g Gp δ xstar p) (auxStd δ) p.2 b xstar

theorem alX_ref (t : Fin (n + 1)) : alX g0 g Gp δ xstar b p t (b t) = xstar t := atSet_same _ _ _

theorem alX_ne {t : Fin (n + 1)} {i : Fin (N + 1)} (hi : i ≠ b t) (j : Fin d) :
    alX g0 g Gp δ xstar b p t i j = alU g0 g Gp δ xstar p t j + Real.sqrt (0.5 * δ t) * p.2 t i j := by
  show atSet _ (b t) (xstar t) i j = _
  rw [atSet_ne _ _ hi]
  rfl

include hδ

theorem al_odds0 : odds (fun i => alG0Tilde Γ0 g0 (alX g0 g Gp δ xstar b p 0 i) (δ 0) (δ 0) (alU g0 g Gp δ xstar p 0)) (b 0) ≤
    Real.exp (noiseSq p) * odds (fun i => Γ0 (alX g0 g Gp δ xstar b p 0 i)) (b 0) := by
  unfold odds
  rw [mul_sum]
  refine sum_le_sum fun i hi => ?_
  rw [← Real.exp_add]
  refine Real.exp_le_exp.mpr ?_
  have h1 := al_upper (G := Unit) (fun _ x _ => Γ0 x) (fun _ x _ => g0 x) (hδ 0) 0 () (x := alX g0 g Gp δ xstar b p 0 i) (u := alU g0 g Gp δ xstar p 0)
    (alX_ne Gp xstar b p (ne_of_mem_erase hi))
  have h2 := al_lower (G := Unit) (fun _ x _ => Γ0 x) (fun _ x _ => g0 x) (hδ 0) 0 () (x := xstar 0) (u := alU g0 g Gp δ xstar p 0) (e := p.1 0) fun j => rfl
  have h3 := noiseSq_le p 0 i
  dsimp only
  rw [alX_ref]
  change alG0Tilde Γ0 g0 _ (δ 0) (δ 0) _ ≤ _ at h1
  change _ ≤ alG0Tilde Γ0 g0 _ (δ 0) (δ 0) _ at h2
  linarith

theorem al_odds {resampling : Resampling Ex N} (key : Key) : OddsBody resampling (fun t => Real.exp (noiseSq p) * ∑ i ∈ univ.erase (b t.succ), ∑ j,
      Real.exp (Γ (alX g0 g Gp δ xstar b p t.castSucc j) (alX g0 g Gp δ xstar b p t.succ i) (Gp t) -
        Γ (alX g0 g Gp δ xstar b p t.castSucc (b t.castSucc)) (alX g0 g Gp δ xstar b p t.succ (b t.succ)) (Gp t)))
      (alBody Γ g resampling) (auxInputs key (alP Gp δ (alU g0 g Gp δ xstar p)) (alX g0 g Gp δ xstar b p) b) (keysResampling key n)
      (alX g0 g Gp δ xstar b p) b := fun t c hc => by
  obtain ⟨ψ, hψ, e⟩ := al_form (resampling := resampling) Γ g key (alP Gp δ (alU g0 g Gp δ xstar p)) (alX g0 g Gp δ xstar b p) b t c hc
  refine ⟨ψ, fun A hA => ?_, e⟩
  obtain ⟨k, hk⟩ := hψ A
  rw [hk, odds_sub]
  unfold odds
  dsimp only
  rw [mul_sum]
  refine sum_le_sum fun i hi => ?_
  refine le_trans ?_ (mul_le_mul_of_nonneg_left (single_le_sum (f := fun j => Real.exp (Γ (alX g0 g Gp δ xstar b p t.castSucc j) (alX g0 g Gp δ xstar b p t.succ i) (Gp t) -
        Γ (alX g0 g Gp δ xstar b p t.castSucc (b t.castSucc)) (alX g0 g Gp δ xstar b p t.succ (b t.succ)) (Gp t)))
    (fun j _ => (Real.exp_pos _).le) (mem_univ (A i))) (Real.exp_pos _).le)
  rw [hA, ← Real.exp_add]
  refine Real.exp_le_exp.mpr ?_
  have h1 := al_upper Γ g (hδ t.succ) (alX g0 g Gp δ xstar b p t.castSucc (A i)) (Gp t) (x := alX g0 g Gp δ xstar b p t.succ i) (u := alU g0 g Gp δ xstar p t.succ)
    (alX_ne Gp xstar b p (ne_of_mem_erase hi))
  have h2 := al_lower Γ g (hδ t.succ) (xstar t.castSucc) (Gp t) (x := xstar t.succ) (u := alU g0 g Gp δ xstar p t.succ) (e := p.1 t.succ) fun j => rfl
  have h3 := noiseSq_le p t.succ i
  rw [alX_ref, alX_ref]
  change alGtTilde Γ g _ _ (alP Gp δ (alU g0 g Gp δ xstar p) t) ≤ _ at h1
  change _ ≤ alGtTilde Γ g _ _ (alP Gp δ (alU g0 g Gp δ xstar p) t) at h2
  linarith

end kernel

theorem al_large_pos {l : Filter ι} [l.IsCountablyGenerated] {δ : ι → Fin (n + 1) → ℝ} (hs : ∀ s t, 0 < δ s t) (hδ : ∀ t, Tendsto (fun s => δ s t) l atTop) (hd : 1 ≤ d)
    {resampling : Resampling Ex N} {mv : AncestorMove Ex N} (hR : ∀ key, CondResampling fun w i j => resampling key w i j true) (hmv : OddsMove mv) (key : Key)
    (xstar : Fin (n + 1) → Vec d) (b : Fin (n + 1) → Fin (N + 1)) (Gp : Fin n → G) {Γ0 : Vec d → ℝ} {Γ : Vec d → Vec d → G → ℝ} (c0 : Continuous Γ0)
    (cΓ : ∀ y, Continuous fun p : Vec d × Vec d => Γ p.1 p.2 y) (h0 : Tendsto Γ0 (cocompact _) atBot) (hΓ : ∀ t, VanishesFar Γ (Gp t))
    (g0 : Vec d → Vec d) (g : Vec d → Vec d → G → Vec d) (backward : Bool) (t : Fin (n + 1)) :
    Tendsto (fun s => moveProb (al_kernel key xstar b Γ0 g0 Γ g Gp (δ s) (δ s) resampling mv backward) t (b t)) l (𝓝 0) := by
  classical
  choose φ hφ hle using hΓ
  set M : ℝ := 1 + ∑ t : Fin n, Real.exp (φ t (xstar t.succ) - Γ (xstar t.castSucc) (xstar t.succ) (Gp t)) with hM
  have hM1 : 1 ≤ M := le_add_of_nonneg_right (sum_nonneg fun _ _ => (Real.exp_pos _).le)
  set K : AuxNoise N n d → ℝ := fun p => Real.exp (noiseSq p) with hK
  have hK1 : ∀ p, 1 ≤ K p := fun p => Real.one_le_exp (by
    unfold noiseSq
    have h1 : 0 ≤ ∑ t, sumSq (p.1 t) := sum_nonneg fun t _ => sumSq_nonneg _
    have h2 : 0 ≤ ∑ t, ∑ i, sumSq (p.2 t i) := sum_nonneg fun t _ => sum_nonneg fun i _ => sumSq_nonneg _
    linarith)
  have hcU : ∀ s, Continuous fun p : AuxNoise N n d => alU g0 g Gp (δ s) xstar p := fun s => by
    simp only [alU, auxVars]
    fun_prop
  have hlim : ∀ᵐ p : AuxNoise N n d ∂((Measure.pi fun _ => gaussM d).prod (Measure.pi fun _ => Measure.pi fun _ => gaussM d)),
      Tendsto (fun s => M * K p * (K p * farOdds Γ0 Γ Gp b (alX g0 g Gp (δ s) xstar b p))) l (𝓝 0) := (noise_ne hd).mono fun p hp => by
    have := ((farOdds_tendsto (l := l) h0 Gp (fun t => ⟨φ t, hφ t, fun x' x => hle t x' x⟩) b xstar (xs := fun s => alX g0 g Gp (δ s) xstar b p)
      (fun s t => alX_ref Gp xstar b p t) fun t i hi => by
        have h1 := step_far (hδ t) (xstar t) (insert0 (g0 (xstar 0)) (fun t => g (initA xstar t) (tailA xstar t) (Gp t)) t) (hp t i)
        refine h1.congr fun s => ?_
        funext j
        rw [alX_ne Gp xstar b p hi]
        simp only [alU, auxVars, auxStd, Pi.add_apply, Pi.smul_apply, smul_eq_mul]
        ring).const_mul (K p)).const_mul (M * K p)
    rwa [mul_zero, mul_zero] at this
  have hmeas : ∀ s, Measurable fun p => M * K p * (K p * farOdds Γ0 Γ Gp b (alX g0 g Gp (δ s) xstar b p)) := fun s => by
    have hKc : Continuous K := noiseSq_cont.rexp
    exact ((continuous_const.mul hKc).mul (hKc.mul (farOdds_cont c0 cΓ Gp b (auxParticles_cont (hcU s) continuous_snd _ _ _)))).measurable
  have hbM : ∀ s, ∀ (p : AuxNoise N n d) (t : Fin n) i, Real.exp (alGammatTilde Γ g (alX g0 g Gp (δ s) xstar b p t.castSucc i)
      (alX g0 g Gp (δ s) xstar b p t.succ (b t.succ)) (alP Gp (δ s) (alU g0 g Gp (δ s) xstar p) t) -
      alGammatTilde Γ g (alX g0 g Gp (δ s) xstar b p t.castSucc (b t.castSucc)) (alX g0 g Gp (δ s) xstar b p t.succ (b t.succ))
        (alP Gp (δ s) (alU g0 g Gp (δ s) xstar p) t)) ≤ M * K p := fun s p t i => by
    rw [alX_ref, alX_ref]
    have h1 := single_le_sum (f := fun t : Fin n => Real.exp (φ t (xstar t.succ) - Γ (xstar t.castSucc) (xstar t.succ) (Gp t)))
      (fun _ _ => (Real.exp_pos _).le) (mem_univ t)
    have h2 := al_back Γ g (hs s t.succ) (xstar t.castSucc) (Gp t) (alX g0 g Gp (δ s) xstar b p t.castSucc i) (x := xstar t.succ)
      (u := alU g0 g Gp (δ s) xstar p t.succ) (e := p.1 t.succ) fun j => rfl
    have h3 := noiseSq_le p t.succ 0
    have h4 := hle t (alX g0 g Gp (δ s) xstar b p t.castSucc i) (xstar t.succ)
    have h5 := sumSq_nonneg (p.2 t.succ 0)
    refine le_trans (Real.exp_le_exp.mpr (h2.trans (?_ : _ ≤ (φ t (xstar t.succ) - Γ (xstar t.castSucc) (xstar t.succ) (Gp t)) + noiseSq p))) ?_
    · linarith
    · rw [Real.exp_add]
      refine mul_le_mul_of_nonneg_right ?_ (Real.exp_pos _).le
      rw [hM]
      linarith
  have hsum : ∀ s, ∀ p : AuxNoise N n d,
      odds (fun i => alG0Tilde Γ0 g0 (alX g0 g Gp (δ s) xstar b p 0 i) (δ s 0) (δ s 0) (alU g0 g Gp (δ s) xstar p 0)) (b 0) +
      ∑ t : Fin n, K p * ∑ i ∈ univ.erase (b t.succ), ∑ j, Real.exp (Γ (alX g0 g Gp (δ s) xstar b p t.castSucc j) (alX g0 g Gp (δ s) xstar b p t.succ i) (Gp t) -
        Γ (alX g0 g Gp (δ s) xstar b p t.castSucc (b t.castSucc)) (alX g0 g Gp (δ s) xstar b p t.succ (b t.succ)) (Gp t)) ≤
      K p * farOdds Γ0 Γ Gp b (alX g0 g Gp (δ s) xstar b p) := fun s p => by
    rw [← mul_sum]
    unfold farOdds
    rw [mul_add]
    exact add_le_add (al_odds0 Gp (hs s) xstar b p) le_rfl
  have hfo : ∀ s p, 0 ≤ K p * farOdds Γ0 Γ Gp b (alX g0 g Gp (δ s) xstar b p) := fun s p => mul_nonneg (Real.exp_pos _).le (add_nonneg (odds_nonneg _ _)
    (sum_nonneg fun _ _ => sum_nonneg fun _ _ => sum_nonneg fun _ _ => (Real.exp_pos _).le))
  have hMK : ∀ p, 1 ≤ M * K p := fun p => one_le_mul_of_one_le_of_one_le hM1 (hK1 p)
  have hle' : ∀ s p, M * K p * (odds (fun i => alG0Tilde Γ0 g0 (alX g0 g Gp (δ s) xstar b p 0 i) (δ s 0) (δ s 0) (alU g0 g Gp (δ s) xstar p 0)) (b 0) +
      ∑ t : Fin n, K p * ∑ i ∈ univ.erase (b t.succ), ∑ j, Real.exp (Γ (alX g0 g Gp (δ s) xstar b p t.castSucc j) (alX g0 g Gp (δ s) xstar b p t.succ i) (Gp t) -
        Γ (alX g0 g Gp (δ s) xstar b p t.castSucc (b t.castSucc)) (alX g0 g Gp (δ s) xstar b p t.succ (b t.succ)) (Gp t))) ≤
      M * K p * (K p * farOdds Γ0 Γ Gp b (alX g0 g Gp (δ s) xstar b p)) := fun s p =>
    mul_le_mul_of_nonneg_left (hsum s p) (zero_le_one.trans (hMK p))
  cases backward with
  | true =>
    simp only [al_avg]
    have h := fun s p => auxTail_odds hR hmv (kb := splitKey key (n + 3) 2)
        (lw0 := fun i => alG0Tilde Γ0 g0 (alX g0 g Gp (δ s) xstar b p 0 i) (δ s 0) (δ s 0) (alU g0 g Gp (δ s) xstar p 0) -
          maxA fun i => alG0Tilde Γ0 g0 (alX g0 g Gp (δ s) xstar b p 0 i) (δ s 0) (δ s 0) (alU g0 g Gp (δ s) xstar p 0))
        (al_odds (Γ := Γ) (g0 := g0) (g := g) Gp (hs s) xstar b p key) (alGammatTilde Γ g) (alP Gp (δ s) (alU g0 g Gp (δ s) xstar p)) (hMK p) (hbM s p) t
    simp only [odds_sub] at h
    exact noise_far hmeas hlim (fun s a e => (h s (a, e)).1.trans (ENNReal.ofReal_le_ofReal (hle' s (a, e)))) fun s a e => (h s (a, e)).2
  | false =>
    simp only [al_avg_scan]
    have h := fun s p => scanTail_odds hR hmv (kb := splitKey key (n + 3) 2)
        (lw0 := fun i => alG0Tilde Γ0 g0 (alX g0 g Gp (δ s) xstar b p 0 i) (δ s 0) (δ s 0) (alU g0 g Gp (δ s) xstar p 0) -
          maxA fun i => alG0Tilde Γ0 g0 (alX g0 g Gp (δ s) xstar b p 0 i) (δ s 0) (δ s 0) (alU g0 g Gp (δ s) xstar p 0))
        (al_odds (Γ := Γ) (g0 := g0) (g := g) Gp (hs s) xstar b p key) t
    simp only [odds_sub] at h
    exact noise_far hmeas hlim (fun s a e => (h s (a, e)).1.trans (ENNReal.ofReal_le_ofReal ((hsum s (a, e)).trans (le_mul_of_one_le_left (hfo s (a, e)) (hMK (a, e))))))
      fun s a e => (h s (a, e)).2

/-- Large steps of `al_csmc_f` are rejected, whatever the functions used as gradients. -/
theorem al_large {l : Filter ι} [l.IsCountablyGenerated] {δ : ι → Fin (n + 1) → ℝ} (hδ : ∀ t, Tendsto (fun s => δ s t) l atTop) (hd : 1 ≤ d)
    {resampling : Resampling Ex N} {mv : AncestorMove Ex N} (hR : ∀ key, CondResampling fun w i j => resampling key w i j true) (hmv : OddsMove mv) (key : Key)
    (xstar : Fin (n + 1) → Vec d) (b : Fin (n + 1) → Fin (N + 1)) (Gp : Fin n → G) {Γ0 : Vec d → ℝ} {Γ : Vec d → Vec d → G → ℝ} (c0 : Continuous Γ0)
    (cΓ : ∀ y, Continuous fun p : Vec d × Vec d => Γ p.1 p.2 y) (h0 : Tendsto Γ0 (cocompact _) atBot) (hΓ : ∀ t, VanishesFar Γ (Gp t))
    (g0 : Vec d → Vec d) (g : Vec d → Vec d → G → Vec d) (backward : Bool) (t : Fin (n + 1)) :
    Tendsto (fun s => moveProb (al_kernel key xstar b Γ0 g0 Γ g Gp (δ s) (δ s) resampling mv backward) t (b t)) l (𝓝 0) := by
  classical
  have hpos := eventually_all.mpr fun t => (hδ t).eventually_gt_atTop 0
  have e : (fun s => if ∀ t, 0 < δ s t then δ s else fun _ => 1) =ᶠ[l] δ := hpos.mono fun s hs => if_pos hs
  have h := al_large_pos (l := l) (δ := fun s => if ∀ t, 0 < δ s t then δ s else fun _ => 1) (fun s t => by
      split_ifs with h
      · exact h t
      · exact one_pos) (fun t => (hδ t).congr' (e.mono fun s hs => (congrFun hs t).symm)) hd hR hmv key xstar b Gp c0 cΓ h0 hΓ g0 g backward t
  exact h.congr' (e.mono fun s hs => by
    dsimp only at hs ⊢
    rw [hs])

/-! ## The marginal kernel -/

theorem marg_ineq {c s : ℝ} (hc : 2 / 3 ≤ c) (w z f φ : ℝ) :
    2 * (s * w - (1 - c) * f) * φ - c * φ ^ 2 - (2 * (c * f + s * z) * f - c * f ^ 2) ≤ 3 * s ^ 2 * (w ^ 2 + z ^ 2) := by
  by_cases h1 : c ≤ 1
  · nlinarith [sq_nonneg (3 * s * w - φ), sq_nonneg (3 * s * z + f), mul_nonneg (sub_nonneg.mpr h1) (sq_nonneg (f + φ)), mul_nonneg (sub_nonneg.mpr hc) (sq_nonneg f),
      mul_nonneg (sub_nonneg.mpr hc) (sq_nonneg φ)]
  · nlinarith [sq_nonneg (3 * s * w - φ), sq_nonneg (3 * s * z + f), mul_nonneg (sub_nonneg.mpr (not_le.mp h1).le) (sq_nonneg (f - φ)), sq_nonneg f, sq_nonneg φ]

/-- With one proposal the noise of the proposal is the opposite of that of the reference. -/
theorem marg_ineq1 (s z f φ : ℝ) :
    2 * (s * -z - (1 - 1 / 2) * f) * φ - 1 / 2 * φ ^ 2 - (2 * (1 / 2 * f + s * z) * f - 1 / 2 * f ^ 2) ≤ 3 * s ^ 2 * ((-z) ^ 2 + z ^ 2) := by
  nlinarith [sq_nonneg (φ + 2 * s * z + f), sq_nonneg (s * z)]

theorem marg_diff (hN : 1 ≤ N) {δ : ℝ} (hδ : 0 < δ) {xbar x xs w z g gs : Vec d} (a as : ℝ) (hw : N = 1 → ∀ j, w j = -z j)
    (h : ∀ j, xbar j - x j = Real.sqrt (0.5 * δ) * w j - (1 - (N : ℝ) / (N + 1)) * (0.5 * δ * gs j))
    (hs : ∀ j, xbar j - xs j = (N : ℝ) / (N + 1) * (0.5 * δ * gs j) + Real.sqrt (0.5 * δ) * z j) :
    lHphi N g a δ δ xbar x - lHphi N gs as δ δ xbar xs ≤ a - as + 3 / 2 * (sumSq w + sumSq z) := by
  have hsq : Real.sqrt (0.5 * δ) ^ 2 = 0.5 * δ := Real.sq_sqrt (by positivity)
  have : ∀ j, 2 * (Real.sqrt (0.5 * δ) * w j - (1 - (N : ℝ) / (N + 1)) * (0.5 * δ * gs j)) * (0.5 * δ * g j) - (N : ℝ) / (N + 1) * (0.5 * δ * g j) ^ 2 -
      (2 * ((N : ℝ) / (N + 1) * (0.5 * δ * gs j) + Real.sqrt (0.5 * δ) * z j) * (0.5 * δ * gs j) - (N : ℝ) / (N + 1) * (0.5 * δ * gs j) ^ 2) ≤
      3 * Real.sqrt (0.5 * δ) ^ 2 * (w j ^ 2 + z j ^ 2) := fun j => by
    rcases hN.eq_or_lt with h1 | h2
    · have e : (N : ℝ) / (N + 1) = 1 / 2 := by rw [← h1]; norm_num
      rw [hw h1.symm, e]
      exact marg_ineq1 _ _ _ _
    · refine marg_ineq ?_ _ _ _ _
      have : (2 : ℝ) ≤ N := by exact_mod_cast h2
      rw [div_le_div_iff₀ (by norm_num) (by positivity)]
      linarith
  have key : (2 * ∑ j, (xbar j - x j) * (0.5 * δ * g j) - (N : ℝ) / (N + 1) * sumSq (fun j => 0.5 * δ * g j)) / δ -
      (2 * ∑ j, (xbar j - xs j) * (0.5 * δ * gs j) - (N : ℝ) / (N + 1) * sumSq (fun j => 0.5 * δ * gs j)) / δ ≤ 3 / 2 * (sumSq w + sumSq z) := by
    rw [← sub_div, div_le_iff₀ hδ]
    simp only [sumSq, mul_sum, ← sum_add_distrib, ← sum_sub_distrib, sum_mul]
    refine sum_le_sum fun j _ => ?_
    rw [h, hs]
    have := this j
    rw [hsq] at this
    linarith
  simp only [lHphi]
  linarith

/-- Noise in the mean of the particles minus a proposal. -/
noncomputable def noiseW (b : Fin (n + 1) → Fin (N + 1)) (p : AuxNoise N n d) (t : Fin (n + 1)) (i : Fin (N + 1)) : Vec d :=
  fun j => (∑ k ∈ univ.erase (b t), p.2 t k j - p.1 t j) / (N + 1) - p.2 t i j

/-- Noise in the mean of the particles minus the reference. -/
noncomputable def noiseZ (b : Fin (n + 1) → Fin (N + 1)) (p : AuxNoise N n d) (t : Fin (n + 1)) : Vec d :=
  fun j => (N * p.1 t j + ∑ k ∈ univ.erase (b t), p.2 t k j) / (N + 1)

noncomputable def noiseMean (b : Fin (n + 1) → Fin (N + 1)) (p : AuxNoise N n d) : ℝ := 3 / 2 * ∑ t, ∑ i, (sumSq (noiseW b p t i) + sumSq (noiseZ b p t))

theorem noiseMean_cont (b : Fin (n + 1) → Fin (N + 1)) : Continuous fun p : AuxNoise N n d => noiseMean b p := by
  unfold noiseMean sumSq noiseW noiseZ
  fun_prop

theorem noiseMean_le (b : Fin (n + 1) → Fin (N + 1)) (p : AuxNoise N n d) (t : Fin (n + 1)) (i : Fin (N + 1)) :
    3 / 2 * (sumSq (noiseW b p t i) + sumSq (noiseZ b p t)) ≤ noiseMean b p := by
  have h0 : ∀ t i, 0 ≤ sumSq (noiseW b p t i) + sumSq (noiseZ b p t) := fun t i => add_nonneg (sumSq_nonneg _) (sumSq_nonneg _)
  have h2 := single_le_sum (f := fun i => sumSq (noiseW b p t i) + sumSq (noiseZ b p t)) (fun i _ => h0 t i) (mem_univ i)
  have h3 := single_le_sum (f := fun t => ∑ i, (sumSq (noiseW b p t i) + sumSq (noiseZ b p t))) (fun t _ => sum_nonneg fun i _ => h0 t i) (mem_univ t)
  exact mul_le_mul_of_nonneg_left (h2.trans h3) (by norm_num)

section marginal
variable {g0 : Vec d → Vec d} {g : Vec d → Vec d → G → Vec d} {Γ0 : Vec d → ℝ} {Γ : Vec d → Vec d → G → ℝ} (Gp : Fin n → G) {δ : Fin (n + 1) → ℝ} (hN : 1 ≤ N)
  (hδ : ∀ t, 0 < δ t) (xstar : Fin (n + 1) → Vec d) (b : Fin (n + 1) → Fin (N + 1)) (p : AuxNoise N n d)

/-- The drift of the auxiliary variables. -/
noncomputable abbrev alG (g0 : Vec d → Vec d) (g : Vec d → Vec d → G → Vec d) (Gp : Fin n → G) (xstar : Fin (n + 1) → Vec d) : Fin (n + 1) → Vec d :=
  insert0 (g0 (xstar 0)) (fun t => g (initA xstar t) (tailA xstar t) (Gp t))

theorem alX_mean (t : Fin (n + 1)) (j : Fin d) : meanP (alX g0 g Gp δ xstar b p t) j =
    (xstar t j + N * alU g0 g Gp δ xstar p t j + Real.sqrt (0.5 * δ t) * ∑ k ∈ univ.erase (b t), p.2 t k j) / (N + 1) := by
  unfold meanP
  rw [← add_sum_erase _ _ (mem_univ (b t)), alX_ref]
  have h : ∑ k ∈ univ.erase (b t), alX g0 g Gp δ xstar b p t k j = ∑ k ∈ univ.erase (b t), (alU g0 g Gp δ xstar p t j + Real.sqrt (0.5 * δ t) * p.2 t k j) :=
    sum_congr rfl fun k hk => alX_ne Gp xstar b p (ne_of_mem_erase hk) j
  rw [h, sum_add_distrib, sum_const, card_erase_of_mem (mem_univ _), card_univ, Fintype.card_fin, ← mul_sum, nsmul_eq_mul, Nat.add_sub_cancel]
  ring

theorem noise_one {N n d : ℕ} {b : Fin (n + 1) → Fin (N + 1)} {p : AuxNoise N n d} {t : Fin (n + 1)} {i : Fin (N + 1)} (hi : i ≠ b t) (h1 : N = 1) (j : Fin d) :
    noiseW b p t i j = -noiseZ b p t j := by
  subst h1
  have e : univ.erase (b t) = {i} := by
    ext k
    simp only [mem_erase, mem_univ, and_true, mem_singleton]
    omega
  simp only [noiseW, noiseZ, e, sum_singleton]
  push_cast
  ring

theorem alX_mean_prop {t : Fin (n + 1)} {i : Fin (N + 1)} (hi : i ≠ b t) (j : Fin d) : meanP (alX g0 g Gp δ xstar b p t) j - alX g0 g Gp δ xstar b p t i j =
    Real.sqrt (0.5 * δ t) * noiseW b p t i j - (1 - (N : ℝ) / (N + 1)) * (0.5 * δ t * alG g0 g Gp xstar t j) := by
  rw [alX_mean, alX_ne Gp xstar b p hi]
  simp only [alU, auxVars, auxStd, noiseW, alG]
  field_simp
  ring

theorem alX_mean_ref (t : Fin (n + 1)) (j : Fin d) : meanP (alX g0 g Gp δ xstar b p t) j - xstar t j =
    (N : ℝ) / (N + 1) * (0.5 * δ t * alG g0 g Gp xstar t j) + Real.sqrt (0.5 * δ t) * noiseZ b p t j := by
  rw [alX_mean]
  simp only [alU, auxVars, auxStd, noiseZ, alG]
  field_simp
  ring

include hN hδ

theorem l_odds0 : odds (fun i => lGamma0Tilde N Γ0 g0 (alX g0 g Gp δ xstar b p 0 i) (meanP (alX g0 g Gp δ xstar b p 0)) (δ 0) (δ 0)) (b 0) ≤
    Real.exp (noiseMean b p) * odds (fun i => Γ0 (alX g0 g Gp δ xstar b p 0 i)) (b 0) := by
  unfold odds
  rw [mul_sum]
  refine sum_le_sum fun i hi => ?_
  rw [← Real.exp_add]
  refine Real.exp_le_exp.mpr ?_
  dsimp only
  rw [alX_ref]
  have h1 := marg_diff hN (hδ 0) (g := g0 (alX g0 g Gp δ xstar b p 0 i)) (gs := g0 (xstar 0)) (Γ0 (alX g0 g Gp δ xstar b p 0 i)) (Γ0 (xstar 0))
    (noise_one (ne_of_mem_erase hi)) (alX_mean_prop (g0 := g0) (g := g) Gp xstar b p (ne_of_mem_erase hi)) (alX_mean_ref Gp xstar b p 0)
  have h3 := noiseMean_le b p 0 i
  unfold lGamma0Tilde
  linarith

theorem l_odds {resampling : Resampling Ex N} (key : Key) : OddsBody resampling (fun t => Real.exp (noiseMean b p) * ∑ i ∈ univ.erase (b t.succ), ∑ j,
      Real.exp (Γ (alX g0 g Gp δ xstar b p t.castSucc j) (alX g0 g Gp δ xstar b p t.succ i) (Gp t) -
        Γ (alX g0 g Gp δ xstar b p t.castSucc (b t.castSucc)) (alX g0 g Gp δ xstar b p t.succ (b t.succ)) (Gp t)))
      (lBody Γ g resampling) (auxInputs key (lP Gp δ (alX g0 g Gp δ xstar b p)) (alX g0 g Gp δ xstar b p) b) (keysResampling key n)
      (alX g0 g Gp δ xstar b p) b := fun t c hc => by
  obtain ⟨ψ, hψ, e⟩ := l_form (resampling := resampling) Γ g key (lP Gp δ (alX g0 g Gp δ xstar b p)) (alX g0 g Gp δ xstar b p) b t c hc
  refine ⟨ψ, fun A hA => ?_, e⟩
  obtain ⟨k, hk⟩ := hψ A
  rw [hk, odds_sub]
  unfold odds
  dsimp only
  rw [mul_sum]
  refine sum_le_sum fun i hi => ?_
  refine le_trans ?_ (mul_le_mul_of_nonneg_left (single_le_sum (f := fun j => Real.exp (Γ (alX g0 g Gp δ xstar b p t.castSucc j) (alX g0 g Gp δ xstar b p t.succ i) (Gp t) -
        Γ (alX g0 g Gp δ xstar b p t.castSucc (b t.castSucc)) (alX g0 g Gp δ xstar b p t.succ (b t.succ)) (Gp t)))
    (fun j _ => (Real.exp_pos _).le) (mem_univ (A i))) (Real.exp_pos _).le)
  rw [hA, ← Real.exp_add]
  refine Real.exp_le_exp.mpr ?_
  rw [alX_ref, alX_ref]
  have h1 := marg_diff hN (hδ t.succ) (g := g (alX g0 g Gp δ xstar b p t.castSucc (A i)) (alX g0 g Gp δ xstar b p t.succ i) (Gp t))
    (gs := g (xstar t.castSucc) (xstar t.succ) (Gp t)) (Γ (alX g0 g Gp δ xstar b p t.castSucc (A i)) (alX g0 g Gp δ xstar b p t.succ i) (Gp t))
    (Γ (xstar t.castSucc) (xstar t.succ) (Gp t))
    (noise_one (ne_of_mem_erase hi)) (alX_mean_prop (g0 := g0) (g := g) Gp xstar b p (ne_of_mem_erase hi)) (alX_mean_ref Gp xstar b p t.succ)
  have h3 := noiseMean_le b p t.succ i
  change lGammatTilde N Γ g _ _ (lP Gp δ (alX g0 g Gp δ xstar b p) t) - lGammatTilde N Γ g _ _ (lP Gp δ (alX g0 g Gp δ xstar b p) t) ≤ _ at h1
  linarith

end marginal

theorem l_large_pos {l : Filter ι} [l.IsCountablyGenerated] {δ : ι → Fin (n + 1) → ℝ} (hs : ∀ s t, 0 < δ s t) (hδ : ∀ t, Tendsto (fun s => δ s t) l atTop) (hd : 1 ≤ d) (hN : 1 ≤ N)
    {resampling : Resampling Ex N} {mv : AncestorMove Ex N} (hR : ∀ key, CondResampling fun w i j => resampling key w i j true) (hmv : OddsMove mv) (key : Key)
    (xstar : Fin (n + 1) → Vec d) (b : Fin (n + 1) → Fin (N + 1)) (Gp : Fin n → G) {Γ0 : Vec d → ℝ} {Γ : Vec d → Vec d → G → ℝ} (c0 : Continuous Γ0)
    (cΓ : ∀ y, Continuous fun p : Vec d × Vec d => Γ p.1 p.2 y) (h0 : Tendsto Γ0 (cocompact _) atBot) (hΓ : ∀ t, VanishesFar Γ (Gp t))
    (g0 : Vec d → Vec d) (g : Vec d → Vec d → G → Vec d) (backward : Bool) (t : Fin (n + 1)) :
    Tendsto (fun s => moveProb (l_kernel key xstar b Γ0 g0 Γ g Gp (δ s) (δ s) resampling mv backward) t (b t)) l (𝓝 0) := by
  classical
  choose φ hφ hle using hΓ
  set M : ℝ := 1 + ∑ t : Fin n, Real.exp (φ t (xstar t.succ) - Γ (xstar t.castSucc) (xstar t.succ) (Gp t)) with hM
  have hM1 : 1 ≤ M := le_add_of_nonneg_right (sum_nonneg fun _ _ => (Real.exp_pos _).le)
  set K : AuxNoise N n d → ℝ := fun p => Real.exp (noiseMean b p) with hK
  have hK1 : ∀ p, 1 ≤ K p := fun p => Real.one_le_exp (by
    exact mul_nonneg (by norm_num) (sum_nonneg fun t _ => sum_nonneg fun i _ => add_nonneg (sumSq_nonneg _) (sumSq_nonneg _)))
  have hcU : ∀ s, Continuous fun p : AuxNoise N n d => alU g0 g Gp (δ s) xstar p := fun s => by
    simp only [alU, auxVars]
    fun_prop
  have hlim : ∀ᵐ p : AuxNoise N n d ∂((Measure.pi fun _ => gaussM d).prod (Measure.pi fun _ => Measure.pi fun _ => gaussM d)),
      Tendsto (fun s => M * K p * (K p * farOdds Γ0 Γ Gp b (alX g0 g Gp (δ s) xstar b p))) l (𝓝 0) := (noise_ne hd).mono fun p hp => by
    have := ((farOdds_tendsto (l := l) h0 Gp (fun t => ⟨φ t, hφ t, fun x' x => hle t x' x⟩) b xstar (xs := fun s => alX g0 g Gp (δ s) xstar b p)
      (fun s t => alX_ref Gp xstar b p t) fun t i hi => by
        have h1 := step_far (hδ t) (xstar t) (insert0 (g0 (xstar 0)) (fun t => g (initA xstar t) (tailA xstar t) (Gp t)) t) (hp t i)
        refine h1.congr fun s => ?_
        funext j
        rw [alX_ne Gp xstar b p hi]
        simp only [alU, auxVars, auxStd, Pi.add_apply, Pi.smul_apply, smul_eq_mul]
        ring).const_mul (K p)).const_mul (M * K p)
    rwa [mul_zero, mul_zero] at this
  have hmeas : ∀ s, Measurable fun p => M * K p * (K p * farOdds Γ0 Γ Gp b (alX g0 g Gp (δ s) xstar b p)) := fun s => by
    have hKc : Continuous K := (noiseMean_cont b).rexp
    exact ((continuous_const.mul hKc).mul (hKc.mul (farOdds_cont c0 cΓ Gp b (auxParticles_cont (hcU s) continuous_snd _ _ _)))).measurable
  have hbM : ∀ s, ∀ (p : AuxNoise N n d) (t : Fin n) i, Real.exp (Γ (alX g0 g Gp (δ s) xstar b p t.castSucc i) (alX g0 g Gp (δ s) xstar b p t.succ (b t.succ)) (Gp t) -
      Γ (alX g0 g Gp (δ s) xstar b p t.castSucc (b t.castSucc)) (alX g0 g Gp (δ s) xstar b p t.succ (b t.succ)) (Gp t)) ≤ M * K p := fun s p t i => by
    rw [alX_ref, alX_ref]
    have h1 := single_le_sum (f := fun t : Fin n => Real.exp (φ t (xstar t.succ) - Γ (xstar t.castSucc) (xstar t.succ) (Gp t)))
      (fun _ _ => (Real.exp_pos _).le) (mem_univ t)
    refine le_trans (Real.exp_le_exp.mpr (sub_le_sub_right (hle t _ _) _)) (le_trans ?_ (le_mul_of_one_le_right (zero_le_one.trans hM1) (hK1 p)))
    rw [hM]
    linarith
  have hsum : ∀ s, ∀ p : AuxNoise N n d,
      odds (fun i => lGamma0Tilde N Γ0 g0 (alX g0 g Gp (δ s) xstar b p 0 i) (meanP (alX g0 g Gp (δ s) xstar b p 0)) (δ s 0) (δ s 0)) (b 0) +
      ∑ t : Fin n, K p * ∑ i ∈ univ.erase (b t.succ), ∑ j, Real.exp (Γ (alX g0 g Gp (δ s) xstar b p t.castSucc j) (alX g0 g Gp (δ s) xstar b p t.succ i) (Gp t) -
        Γ (alX g0 g Gp (δ s) xstar b p t.castSucc (b t.castSucc)) (alX g0 g Gp (δ s) xstar b p t.succ (b t.succ)) (Gp t)) ≤
      K p * farOdds Γ0 Γ Gp b (alX g0 g Gp (δ s) xstar b p) := fun s p => by
    rw [← mul_sum]
    unfold farOdds
    rw [mul_add]
    exact add_le_add (l_odds0 Gp hN (hs s) xstar b p) le_rfl
  have hfo : ∀ s p, 0 ≤ K p * farOdds Γ0 Γ Gp b (alX g0 g Gp (δ s) xstar b p) := fun s p => mul_nonneg (Real.exp_pos _).le (add_nonneg (odds_nonneg _ _)
    (sum_nonneg fun _ _ => sum_nonneg fun _ _ => sum_nonneg fun _ _ => (Real.exp_pos _).le))
  have hMK : ∀ p, 1 ≤ M * K p := fun p => one_le_mul_of_one_le_of_one_le hM1 (hK1 p)
  have hle' : ∀ s p, M * K p * (odds (fun i => lGamma0Tilde N Γ0 g0 (alX g0 g Gp (δ s) xstar b p 0 i) (meanP (alX g0 g Gp (δ s) xstar b p 0)) (δ s 0) (δ s 0)) (b 0) +
      ∑ t : Fin n, K p * ∑ i ∈ univ.erase (b t.succ), ∑ j, Real.exp (Γ (alX g0 g Gp (δ s) xstar b p t.castSucc j) (alX g0 g Gp (δ s) xstar b p t.succ i) (Gp t) -
        Γ (alX g0 g Gp (δ s) xstar b p t.castSucc (b t.castSucc)) (alX g0 g Gp (δ s) xstar b p t.succ (b t.succ)) (Gp t))) ≤
      M * K p * (K p * farOdds Γ0 Γ Gp b (alX g0 g Gp (δ s) xstar b p)) := fun s p =>
    mul_le_mul_of_nonneg_left (hsum s p) (zero_le_one.trans (hMK p))
  cases backward with
  | true =>
    simp only [l_avg]
    have h := fun s p => auxTail_odds hR hmv (kb := splitKey key (n + 3) 2)
        (lw0 := fun i => lGamma0Tilde N Γ0 g0 (alX g0 g Gp (δ s) xstar b p 0 i) (meanP (alX g0 g Gp (δ s) xstar b p 0)) (δ s 0) (δ s 0) -
          maxA fun i => lGamma0Tilde N Γ0 g0 (alX g0 g Gp (δ s) xstar b p 0 i) (meanP (alX g0 g Gp (δ s) xstar b p 0)) (δ s 0) (δ s 0))
        (l_odds (Γ := Γ) (g0 := g0) (g := g) Gp hN (hs s) xstar b p key) Γ Gp (hMK p) (hbM s p) t
    simp only [odds_sub] at h
    exact noise_far hmeas hlim (fun s a e => (h s (a, e)).1.trans (ENNReal.ofReal_le_ofReal (hle' s (a, e)))) fun s a e => (h s (a, e)).2
  | false =>
    simp only [l_avg_scan]
    have h := fun s p => scanTail_odds hR hmv (kb := splitKey key (n + 3) 2)
        (lw0 := fun i => lGamma0Tilde N Γ0 g0 (alX g0 g Gp (δ s) xstar b p 0 i) (meanP (alX g0 g Gp (δ s) xstar b p 0)) (δ s 0) (δ s 0) -
          maxA fun i => lGamma0Tilde N Γ0 g0 (alX g0 g Gp (δ s) xstar b p 0 i) (meanP (alX g0 g Gp (δ s) xstar b p 0)) (δ s 0) (δ s 0))
        (l_odds (Γ := Γ) (g0 := g0) (g := g) Gp hN (hs s) xstar b p key) t
    simp only [odds_sub] at h
    exact noise_far hmeas hlim (fun s a e => (h s (a, e)).1.trans (ENNReal.ofReal_le_ofReal ((hsum s (a, e)).trans (le_mul_of_one_le_left (hfo s (a, e)) (hMK (a, e))))))
      fun s a e => (h s (a, e)).2

/-- Large steps of `l_csmc_f` are rejected, whatever the functions used as gradients. -/
theorem l_large {l : Filter ι} [l.IsCountablyGenerated] {δ : ι → Fin (n + 1) → ℝ} (hδ : ∀ t, Tendsto (fun s => δ s t) l atTop) (hd : 1 ≤ d) (hN : 1 ≤ N)
    {resampling : Resampling Ex N} {mv : AncestorMove Ex N} (hR : ∀ key, CondResampling fun w i j => resampling key w i j true) (hmv : OddsMove mv) (key : Key)
    (xstar : Fin (n + 1) → Vec d) (b : Fin (n + 1) → Fin (N + 1)) (Gp : Fin n → G) {Γ0 : Vec d → ℝ} {Γ : Vec d → Vec d → G → ℝ} (c0 : Continuous Γ0)
    (cΓ : ∀ y, Continuous fun p : Vec d × Vec d => Γ p.1 p.2 y) (h0 : Tendsto Γ0 (cocompact _) atBot) (hΓ : ∀ t, VanishesFar Γ (Gp t))
    (g0 : Vec d → Vec d) (g : Vec d → Vec d → G → Vec d) (backward : Bool) (t : Fin (n + 1)) :
    Tendsto (fun s => moveProb (l_kernel key xstar b Γ0 g0 Γ g Gp (δ s) (δ s) resampling mv backward) t (b t)) l (𝓝 0) := by
  classical
  have hpos := eventually_all.mpr fun t => (hδ t).eventually_gt_atTop 0
  have e : (fun s => if ∀ t, 0 < δ s t then δ s else fun _ => 1) =ᶠ[l] δ := hpos.mono fun s hs => if_pos hs
  have h := l_large_pos (l := l) (δ := fun s => if ∀ t, 0 < δ s t then δ s else fun _ => 1) (fun s t => by
      split_ifs with h
      · exact h t
      · exact one_pos) (fun t => (hδ t).congr' (e.mono fun s hs => (congrFun hs t).symm)) hd hN hR hmv key xstar b Gp c0 cΓ h0 hΓ g0 g backward t
  exact h.congr' (e.mono fun s hs => by
    dsimp only at hs ⊢
    rw [hs])

end Verif
