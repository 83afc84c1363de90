import Verif.Lemmas.EsjdGuard
import Verif.Lemmas.EsjdMoments
import Verif.Props.ExpRunsKeys

/-!
# C101: what `experiments/lgssm_scaling/experiment.py` reports is close to the expected squared jump distance
-/

open scoped ENNReal
open MeasureTheory ProbabilityTheory

namespace Verif.Props
open Verif Verif.Model Verif.Spec Matrix

variable {N n d M : ℕ} {sigma : ℝ}

/-- The value reported for time `t` is off by `η` or more from the expected squared jump of a step of the pair `K`. -/
def JumpOff (sigma : ℝ) (ys : Traj (n + 1) d) (K : KernelPair Ex (n + 1) d) (DELTA : StepSize (n + 1)) (t : Fin (n + 1)) (η : ℝ)
    (e : Fin (n + 1) → ℝ) : Prop :=
  η ≤ |e t - (expectedJump (lgPosterior sigma ys) (jumpStep K DELTA []) t).toReal|

theorem measurable_jumpOff (ys : Traj (n + 1) d) (K : KernelPair Ex (n + 1) d) (DELTA : StepSize (n + 1)) (t : Fin (n + 1)) (η : ℝ) :
    MeasurableSet {e : Fin (n + 1) → ℝ | JumpOff sigma ys K DELTA t η e} := by
  unfold JumpOff
  exact measurableSet_le measurable_const (by fun_prop)

/-- **C101** (the quantity): for every data, the expected squared jump distance of a step that keeps the posterior is at most `4 d` at each
time, whatever the kernel, the step size, the number of particles and the length of the series. It is at most four times the second moment of
the posterior at this time, about any centre. -/
theorem C101_finite (hs : 0 < sigma) (ys : Traj (n + 1) d) {K : KernelPair Ex (n + 1) d} {DELTA : StepSize (n + 1)}
    (hK : PairOK 0 (lgPosterior sigma ys) K DELTA) (t : Fin (n + 1)) :
    expectedJump (lgPosterior sigma ys) (jumpStep K DELTA []) t ≤ 4 * d ∧
    ∀ c : Vec d, expectedJump (lgPosterior sigma ys) (jumpStep K DELTA []) t ≤ 4 * spread (lgPosterior sigma ys) c t 1 := by
  have : Fact (0 < sigma) := ⟨hs⟩
  obtain ⟨μ, hp, hμ, -⟩ := C63_replicates (M := 1) hs ys hK one_pos [] []
  have h := fun c => (exact_jump hK hμ c t).1
  rw [hμ [] _ (measurable_sqJump t).ennreal_ofReal] at h
  obtain ⟨m, hm⟩ := lgPosterior_spread_le hs ys
  exact ⟨(h (m t)).trans (mul_le_mul_right (hm t).1 4), h⟩

open Classical in
/-- **C101** (the report): for every data and every step that keeps the posterior, the value reported for time `t` is within `η` of the
expected squared jump distance, but for a probability of at most `48 d² / (M η²)`, where `M` is the number of replicates: whatever the kernel,
the step size, the number of particles and the length of the series. -/
theorem C101_reported (hs : 0 < sigma) (ys : Traj (n + 1) d) {K : KernelPair Ex (n + 1) d} {DELTA : StepSize (n + 1)}
    (hK : PairOK 0 (lgPosterior sigma ys) K DELTA) (hM : 0 < M) (init_key sample_key : Key) (t : Fin (n + 1)) {η : ℝ} (hη : 0 < η) :
    lg_measure init_key sample_key ys sigma K DELTA M (fun e => if JumpOff sigma ys K DELTA t η e then 1 else 0) ≤
      48 * d ^ 2 / (M * ENNReal.ofReal (η ^ 2)) := by
  have : Fact (0 < sigma) := ⟨hs⟩
  obtain ⟨μ, hp, hμ, -, -, hF⟩ := C63_replicates (M := M) hs ys hK hM init_key sample_key
  have hoff := measurable_jumpOff (sigma := sigma) ys K DELTA t η
  rw [hF _ (Measurable.ite hoff measurable_const measurable_const)]
  have e : ∫⁻ p, ENNReal.ofReal (sqJump p t) ∂μ = expectedJump (lgPosterior sigma ys) (jumpStep K DELTA []) t :=
    hμ [] _ (measurable_sqJump t).ennreal_ofReal
  obtain ⟨m, hm⟩ := lgPosterior_spread_le hs ys
  have h48 : 16 * spread (lgPosterior sigma ys) (m t) t 2 ≤ 48 * d ^ 2 := by
    refine (mul_le_mul_right (hm t).2 16).trans (le_of_eq ?_)
    rw [← mul_assoc]
    norm_num
  have h := meanSqJump_cheb (μ := μ) hM t ((exact_jump hK hμ (m t) t).2.trans h48)
    (ENNReal.mul_ne_top (by simp) (ENNReal.pow_ne_top (ENNReal.natCast_ne_top d))) hη
  rw [e] at h
  refine le_trans (le_of_eq ?_) h
  have hm' : MeasurableSet {p : Fin M → Traj (n + 1) d × Traj (n + 1) d | JumpOff sigma ys K DELTA t η (meanSqJump p)} := measurable_meanSqJump hoff
  show ∫⁻ p, (if JumpOff sigma ys K DELTA t η (meanSqJump p) then 1 else 0) ∂_ = (Measure.pi fun _ : Fin M => μ) {p | JumpOff sigma ys K DELTA t η (meanSqJump p)}
  rw [← lintegral_indicator_one hm']
  rfl

/-- **C101** (comparison): every event about what `one_experiment` returns has the same probability, up to `3e-12` for each replicate, as
with the kernel whose move has no guard against a division by zero. -/
theorem C101_compare (hs : 0 < sigma) (ys : Traj (n + 1) d) {ε : ℝ≥0∞} {K K' : KernelPair Ex (n + 1) d} {DELTA : StepSize (n + 1)}
    (hK : PairOK ε (lgPosterior sigma ys) K DELTA) (h : Guarded (lgPosterior sigma ys) K K' DELTA) (hM : 0 < M) (init_key sample_key : Key)
    {F : (Fin (n + 1) → ℝ) → ℝ≥0∞} (hF : Measurable F) (hF1 : ∀ e, F e ≤ 1) :
    NearBy (M * ENNReal.ofReal 3e-12) (lg_measure init_key sample_key ys sigma K DELTA M F) (lg_measure init_key sample_key ys sigma K' DELTA M F) := by
  have : Fact (0 < sigma) := ⟨hs⟩
  obtain ⟨μ, hp, hμ, -, -, hL⟩ := C63_replicates (M := M) hs ys hK hM init_key sample_key
  obtain ⟨μ', hp', hμ', -, -, hL'⟩ := C63_replicates (M := M) hs ys h.1 hM init_key sample_key
  rw [hL F hF, hL' F hF]
  have hsec : ∀ (f : Traj (n + 1) d × Traj (n + 1) d → ℝ≥0∞), Measurable f → ∀ x, Measurable fun x' => f (x, x') := fun f hf x =>
    hf.comp measurable_prodMk_left
  have hc : ∀ c : ℝ≥0∞, ∫⁻ _, c ∂lgPosterior sigma ys = c := fun c => by rw [lintegral_const, measure_univ, mul_one]
  refine ⟨pi_le (fun f hf hf1 => ?_) (hF.comp measurable_meanSqJump) fun p => hF1 _,
    pi_le (fun f hf hf1 => ?_) (hF.comp measurable_meanSqJump) fun p => hF1 _⟩
  · rw [hμ [] f hf, hμ' [] f hf, ← hc (ENNReal.ofReal 3e-12), ← lintegral_add_right _ measurable_const]
    exact lintegral_mono fun x => (h.2 [] x (fun x' => f (x, x')) (hsec f hf x) fun _ => hf1 _).1
  · rw [hμ [] f hf, hμ' [] f hf, ← hc (ENNReal.ofReal 3e-12), ← lintegral_add_right _ measurable_const]
    exact lintegral_mono fun x => (h.2 [] x (fun x' => f (x, x')) (hsec f hf x) fun _ => hf1 _).2

/-- **C101** (`barker`): the conditional SMC kernels with `last_step = "barker"`, except the smoothing ones. -/
theorem C101_barker {svd : Mat d d → SvdOut d} {k : LgType} (hs : 0 < sigma) {style resampling : String}
    {R : Resampling Ex N} {mv : AncestorMove Ex N} (hR : sel_resampling resampling = .ok R) (hm : sel_last_step "barker" = .ok mv)
    (hcsmc : ¬(k = .TP ∨ k = .MALA ∨ k = .RW ∨ k = .IMH))
    {backward : Bool} {make : Traj (n + 1) d → KernelPair Ex (n + 1) d}
    (hk : k.kernel_maker svd sigma style R mv backward = .ok make) (hstyle : style ≠ "smoothing") {delta : ℝ} (hd : 0 < delta)
    (hsvd : k = .TP_CSMC ∨ k = .ADAPTED_CSMC →
      IsSvd (sigma ^ 2 • 1) (svd (sigma ^ 2 • 1)).U (svd (sigma ^ 2 • 1)).Gamma (svd (sigma ^ 2 • 1)).U_t ∧
      1e-15 ≤ sigma ^ 2 * (delta / 2) / (sigma ^ 2 + delta / 2)) (ys : Traj (n + 1) d) :
    PairOK 0 (lgPosterior sigma ys) (make ys) (k.shape_delta delta (n + 1)) := by
  have h := C63_makers hs hR hm hk hstyle hd hsvd ys
  rwa [lgErr, if_neg hcsmc, if_pos rfl] at h

open Classical in
/-- **C101** (default): with the default `last_step`, and with the kernels `TP`, `MALA`, `RW` and `IMH` whatever the `last_step`, the value
reported for time `t` is within `η` of the expected squared jump distance of the kernel without guard, but for a probability of at most
`48 d² / (M η²)`, plus `3e-12` for each replicate. -/
theorem C101_default {svd : Mat d d → SvdOut d} {k : LgType} (hs : 0 < sigma) {style resampling last_step : String}
    {R : Resampling Ex N} {mv : AncestorMove Ex N} (hR : sel_resampling resampling = .ok R)
    (hm : sel_last_step last_step = .ok mv) (hf : (k = .TP ∨ k = .MALA ∨ k = .RW ∨ k = .IMH) ∨ last_step = "forced")
    {backward : Bool} {make : Traj (n + 1) d → KernelPair Ex (n + 1) d}
    (hk : k.kernel_maker svd sigma style R mv backward = .ok make) (hstyle : style ≠ "smoothing") {delta : ℝ} (hd : 0 < delta)
    (hsvd : k = .TP_CSMC ∨ k = .ADAPTED_CSMC →
      IsSvd (sigma ^ 2 • 1) (svd (sigma ^ 2 • 1)).U (svd (sigma ^ 2 • 1)).Gamma (svd (sigma ^ 2 • 1)).U_t ∧
      1e-15 ≤ sigma ^ 2 * (delta / 2) / (sigma ^ 2 + delta / 2)) :
    ∃ make', lgGuardFree svd k sigma style R backward = .ok make' ∧ ∀ ys : Traj (n + 1) d,
      PairOK 0 (lgPosterior sigma ys) (make' ys) (k.shape_delta delta (n + 1)) ∧
      (∀ {M : ℕ} (_ : 0 < M) (init_key sample_key : Key) {F : (Fin (n + 1) → ℝ) → ℝ≥0∞}, Measurable F → (∀ e, F e ≤ 1) →
        NearBy (M * ENNReal.ofReal 3e-12) (lg_measure init_key sample_key ys sigma (make ys) (k.shape_delta delta (n + 1)) M F)
          (lg_measure init_key sample_key ys sigma (make' ys) (k.shape_delta delta (n + 1)) M F)) ∧
      ∀ {M : ℕ} (_ : 0 < M) (init_key sample_key : Key) (t : Fin (n + 1)) {η : ℝ} (_ : 0 < η),
        lg_measure init_key sample_key ys sigma (make ys) (k.shape_delta delta (n + 1)) M
            (fun e => if JumpOff sigma ys (make' ys) (k.shape_delta delta (n + 1)) t η e then 1 else 0) ≤
          48 * d ^ 2 / (M * ENNReal.ofReal (η ^ 2)) + M * ENNReal.ofReal 3e-12 := by
  obtain ⟨make', hk', h⟩ := lg_guarded hs hR hm hf hk hstyle hd hsvd
  refine ⟨make', hk', fun ys => ?_⟩
  have hK := C63_makers hs hR hm hk hstyle hd hsvd ys
  refine ⟨(h ys).1, fun hM ki ks F hF hF1 => C101_compare hs ys hK (h ys) hM ki ks hF hF1, fun hM ki ks t η hη => ?_⟩
  have h1 := C101_reported hs ys (h ys).1 hM ki ks t hη
  have h2 := C101_compare hs ys hK (h ys) hM ki ks (F := fun e => if JumpOff sigma ys (make' ys) (k.shape_delta delta (n + 1)) t η e then 1 else 0)
    (Measurable.ite (measurable_jumpOff ys _ _ t η) measurable_const measurable_const) fun e => by split_ifs <;> simp
  exact h2.1.trans (add_le_add_left h1 _)

/-- The defaults of the script, `T = 1000`, `D = 10`, kernel `CSMC`, style `bootstrap`, `N = 31`, `M = 10000`: the value reported for one
time is off by `2` or more with a probability of at most `0.1201`, and the expected squared jump distance is at most `40`. -/
example (ys : Traj 1000 10) (init_key sample_key : Key) (t : Fin 1000) :
    ∃ K', PairOK 0 (lgPosterior 1 ys) K' (.scalar 1) ∧ expectedJump (lgPosterior 1 ys) (jumpStep K' (.scalar 1) []) t ≤ 40 ∧
      lg_measure init_key sample_key ys 1
        (csmcPair fun key x b _ => outOf (lg_csmc_kernel (N := 31) ys 1 (fun key w i j c => killing key w i j c) forced true key x b)) (.scalar 1) 10000
        (Set.indicator {e | JumpOff 1 ys K' (.scalar 1) t 2 e} 1) ≤ ENNReal.ofReal 0.1201 := by
  classical
  obtain ⟨make', -, h⟩ := C101_default (N := 31) (n := 999) (d := 10) (k := .CSMC) (svd := fun _ => ⟨1, 1, 1⟩) (sigma := 1) one_pos (style := "bootstrap")
    (resampling := "killing") (last_step := "forced") rfl rfl (.inr rfl) (backward := true) (delta := 1) (by simp [LgType.kernel_maker, lg_get_csmc_kernel]; rfl)
    (by decide) one_pos (by simp)
  obtain ⟨h0, -, h1⟩ := h ys
  have hj := (C101_finite one_pos ys h0 t).1
  refine ⟨make' ys, h0, hj.trans (by norm_num), ?_⟩
  have h2 := h1 (M := 10000) (by norm_num) init_key sample_key t two_pos
  refine le_trans h2 ?_
  have e : (48 * ((10 : ℕ) : ℝ≥0∞) ^ 2 / ((10000 : ℕ) * ENNReal.ofReal (2 ^ 2)) + (10000 : ℕ) * ENNReal.ofReal 3e-12) =
      ENNReal.ofReal (48 * 10 ^ 2 / (10000 * 2 ^ 2) + 10000 * 3e-12) := by
    rw [ENNReal.ofReal_add (by norm_num) (by norm_num), ENNReal.ofReal_div_of_pos (by norm_num), ENNReal.ofReal_mul (by norm_num),
      ENNReal.ofReal_mul (by norm_num), ENNReal.ofReal_mul (by norm_num)]
    norm_num
  rw [e]
  exact ENNReal.ofReal_le_ofReal (by norm_num)

/-- The kernel `MALA` with style `marginal`, `last_step = "barker"`, `N = 31`, `M = 100`, `T = 10`, `D = 2`. -/
example (ys : Traj 10 2) (init_key sample_key : Key) : ∃ make' make : Traj 10 2 → KernelPair Ex 10 2,
    LgType.MALA.kernel_maker (N := 31) (diagSvd 2) 1 "marginal" (fun key w i j c => killing key w i j c) (fun key w k => barker_move key w k) false = .ok make ∧
    lgGuardFree (N := 31) (diagSvd 2) .MALA 1 "marginal" (fun key w i j c => killing key w i j c) false = .ok make' ∧
    NearBy ((100 : ℕ) * ENNReal.ofReal 3e-12)
      (lg_measure init_key sample_key ys 1 (make ys) (LgType.MALA.shape_delta 1 10) 100 (Set.indicator {e | 1 < e 0} 1))
      (lg_measure init_key sample_key ys 1 (make' ys) (LgType.MALA.shape_delta 1 10) 100 (Set.indicator {e | 1 < e 0} 1)) := by
  obtain ⟨make', hk, h⟩ := C101_default (N := 31) (n := 9) (d := 2) (k := .MALA) (svd := diagSvd 2) (sigma := 1) one_pos (style := "marginal")
    (resampling := "killing") (last_step := "barker") rfl rfl (.inl (by simp)) (backward := false) (delta := 1) rfl
    (by decide) one_pos (by simp)
  exact ⟨make', _, rfl, hk, (h ys).2.1 (by norm_num) init_key sample_key
    (measurable_one.indicator (measurableSet_lt measurable_const (measurable_pi_apply 0))) fun e => Set.indicator_le_self' (by simp) e⟩

/-- `--kernel 2 --style marginal --last-step barker`: the pair keeps the posterior, so `C101_finite` and `C101_reported` apply to it. -/
example (ys : Traj 10 2) (t : Fin 10) : ∃ make : Traj 10 2 → KernelPair Ex 10 2,
    LgType.TP_CSMC.kernel_maker (N := 31) (diagSvd 2) 1 "marginal" (fun key w i j c => killing key w i j c) (fun key w k => barker_move key w k) true = .ok make ∧
    expectedJump (lgPosterior 1 ys) (jumpStep (make ys) (LgType.TP_CSMC.shape_delta 1 10) []) t ≤ 4 * (2 : ℕ) := by
  have h := C101_barker (N := 31) (n := 9) (d := 2) (k := .TP_CSMC) (svd := diagSvd 2) (sigma := 1) one_pos (style := "marginal")
    (resampling := "killing") rfl rfl (by simp) (backward := true) (delta := 1) rfl (by decide) one_pos
    (fun _ => ⟨diagSvd_smul 2 (by norm_num), by norm_num⟩) ys
  exact ⟨_, rfl, (C101_finite one_pos ys h t).1⟩

end Verif.Props
