import Std.Data.String.ToNat
import Verif.Model.ExpJobs
import Verif.Props.ExpRunsKeys

/-!
# C89: job arrays and result files
-/

namespace Verif.Props
open Verif Verif.Model

/-! ## Names made of fields separated by commas -/

theorem comma_split {a a' r r' : List Char} (ha : ',' ∉ a) (ha' : ',' ∉ a') (h : a ++ ',' :: r = a' ++ ',' :: r') : a = a' ∧ r = r' := by
  induction a generalizing a' with
  | nil =>
    cases a' with
    | nil => simpa using h
    | cons c a' =>
      simp only [List.nil_append, List.cons_append, List.cons.injEq] at h
      exact absurd (h.1 ▸ List.mem_cons_self) ha'
  | cons c a ih =>
    cases a' with
    | nil =>
      simp only [List.nil_append, List.cons_append, List.cons.injEq] at h
      exact absurd (h.1 ▸ List.mem_cons_self) ha
    | cons c' a' =>
      simp only [List.cons_append, List.cons.injEq] at h
      obtain ⟨h1, h2⟩ := ih (fun hc => ha (List.mem_cons_of_mem _ hc)) (fun hc => ha' (List.mem_cons_of_mem _ hc)) h.2
      exact ⟨by rw [h.1, h1], h2⟩

theorem comma_nat (k : ℕ) : ',' ∉ (toString k).toList := by
  intro h
  have h' : ',' ∈ Nat.toDigits 10 k := by
    rw [← Nat.toList_repr]
    exact h
  exact absurd (Nat.isDigit_of_mem_toDigits (by norm_num) (by norm_num) h') (by decide)

theorem comma_T : ",T=".toList = ',' :: "T=".toList := by decide +kernel
theorem comma_D : ",D=".toList = ',' :: "D=".toList := by decide +kernel
theorem comma_N : ",N=".toList = ',' :: "N=".toList := by decide +kernel
theorem comma_style : ",style=".toList = ',' :: "style=".toList := by decide +kernel
theorem comma_scaling : ",scaling=".toList = ',' :: "scaling=".toList := by decide +kernel
theorem comma_scaletype : ",scaletype=".toList = ',' :: "scaletype=".toList := by decide +kernel
theorem comma_log_var : ",log_var=".toList = ',' :: "log_var=".toList := by decide +kernel

theorem toList_fields (p0 p8 a0 a1 a2 a3 a4 a5 a6 a7 : String) {p1 p2 p3 p4 p5 p6 p7 : String} {q1 q2 q3 q4 q5 q6 q7 : List Char}
    (h1 : p1.toList = ',' :: q1) (h2 : p2.toList = ',' :: q2) (h3 : p3.toList = ',' :: q3) (h4 : p4.toList = ',' :: q4)
    (h5 : p5.toList = ',' :: q5) (h6 : p6.toList = ',' :: q6) (h7 : p7.toList = ',' :: q7) :
    (p0 ++ a0 ++ p1 ++ a1 ++ p2 ++ a2 ++ p3 ++ a3 ++ p4 ++ a4 ++ p5 ++ a5 ++ p6 ++ a6 ++ p7 ++ a7 ++ p8).toList =
      p0.toList ++ (a0.toList ++ ',' :: (q1 ++ (a1.toList ++ ',' :: (q2 ++ (a2.toList ++ ',' :: (q3 ++ (a3.toList ++ ',' :: (q4 ++
        (a4.toList ++ ',' :: (q5 ++ (a5.toList ++ ',' :: (q6 ++ (a6.toList ++ ',' :: (q7 ++ (a7.toList ++ p8.toList))))))))))))))) := by
  simp only [String.toList_append, List.append_assoc, h1, h2, h3, h4, h5, h6, h7, List.cons_append]

/-- **C89** (names).  As long as no field contains a comma, the name of a file determines the kernel, the two sizes, the number of particles,
the style, the two options of the step size and the variance. -/
theorem C89_names {k k' : String} {T T' D D' N N' : ℕ} {st st' sc sc' ty ty' lv lv' : String}
    (hk : ',' ∉ k.toList) (hk' : ',' ∉ k'.toList) (hst : ',' ∉ st.toList) (hst' : ',' ∉ st'.toList)
    (hsc : ',' ∉ sc.toList) (hsc' : ',' ∉ sc'.toList) (hty : ',' ∉ ty.toList) (hty' : ',' ∉ ty'.toList) :
    Lg.file_name k T D N st sc ty lv = Lg.file_name k' T' D' N' st' sc' ty' lv' ↔
      k = k' ∧ T = T' ∧ D = D' ∧ N = N' ∧ st = st' ∧ sc = sc' ∧ ty = ty' ∧ lv = lv' := by
  constructor
  · intro h
    obtain ⟨q1, q2, q3, q4, q5, q6, q7, e⟩ : ∃ q1 q2 q3 q4 q5 q6 q7 : List Char, ∀ (k : String) (T D N : ℕ) (st sc ty lv : String),
        (Lg.file_name k T D N st sc ty lv).toList = "kernel=".toList ++ (k.toList ++ ',' :: (q1 ++ ((toString T).toList ++ ',' :: (q2 ++
          ((toString D).toList ++ ',' :: (q3 ++ ((toString N).toList ++ ',' :: (q4 ++ (st.toList ++ ',' :: (q5 ++ (sc.toList ++ ',' :: (q6 ++
          (ty.toList ++ ',' :: (q7 ++ (lv.toList ++ ".csv".toList))))))))))))))) :=
      ⟨_, _, _, _, _, _, _, fun _ _ _ _ _ _ _ _ => toList_fields _ _ _ _ _ _ _ _ _ _ comma_T comma_D comma_N comma_style comma_scaling
        comma_scaletype comma_log_var⟩
    have h' := congrArg String.toList h
    rw [e, e] at h'
    obtain ⟨h1, h'⟩ := comma_split hk hk' (List.append_cancel_left h')
    obtain ⟨h2, h'⟩ := comma_split (comma_nat T) (comma_nat T') (List.append_cancel_left h')
    obtain ⟨h3, h'⟩ := comma_split (comma_nat D) (comma_nat D') (List.append_cancel_left h')
    obtain ⟨h4, h'⟩ := comma_split (comma_nat N) (comma_nat N') (List.append_cancel_left h')
    obtain ⟨h5, h'⟩ := comma_split hst hst' (List.append_cancel_left h')
    obtain ⟨h6, h'⟩ := comma_split hsc hsc' (List.append_cancel_left h')
    obtain ⟨h7, h'⟩ := comma_split hty hty' (List.append_cancel_left h')
    have h8 := List.append_cancel_right (List.append_cancel_left h')
    exact ⟨String.toList_inj.mp h1, Nat.repr_injective (String.toList_inj.mp h2), Nat.repr_injective (String.toList_inj.mp h3),
      Nat.repr_injective (String.toList_inj.mp h4), String.toList_inj.mp h5, String.toList_inj.mp h6, String.toList_inj.mp h7,
      String.toList_inj.mp h8⟩
  · rintro ⟨rfl, rfl, rfl, rfl, rfl, rfl, rfl, rfl⟩
    rfl

/-- The hypotheses are needed: a style with a comma can imitate the next field. -/
example : Lg.file_name "RW_CSMC" 10 10 31 "na,scaling=1.0" "1.0" "D" "0.0" ≠ Lg.file_name "RW_CSMC" 10 10 31 "na" "1.0" "D" "0.0" ∧
    Lg.file_name "RW_CSMC" 10 10 31 "na" "1.0,scaletype=D" "D" "0.0" = Lg.file_name "RW_CSMC" 10 10 31 "na" "1.0" "D,scaletype=D" "0.0" := by
  decide +kernel

/-- **C89** (overwriting).  The name of the file does not depend on the number of experiments and of chains, the step size, the resampling, the
last step and the backward pass: runs that differ only in these overwrite one another. -/
theorem C89_overwrite (T : ℕ) (args : LgArgs) (sc lv : String) (K M : ℕ) (delta : ℝ) (backward : Bool) (resampling last_step : String) :
    Lg.lg_file T { args with K := K, M := M, delta := delta, backward := backward, resampling := resampling, last_step := last_step } sc lv =
      Lg.lg_file T args sc lv := rfl

/-- **C89**, not true of the code: different options give different files. -/
theorem C89_overwrite_false : ¬ ∀ (T : ℕ) (a a' : LgArgs) (sc lv : String), a.kernel < 9 → a'.kernel < 9 → a.delta_scale = a'.delta_scale →
    a.log_var = a'.log_var → Lg.lg_file T a sc lv = Lg.lg_file T a' sc lv → a = a' := fun h => by
  have := h 10 lgExampleArgs { lgExampleArgs with M := 200 } "" "" (by decide) (by decide) rfl rfl rfl
  exact absurd (congrArg LgArgs.M this) (by decide)

/-! ## The array of the linear model -/

theorem pyGet_natCast {α : Type} (l : List α) (i : ℕ) : pyGet l (i : ℤ) = l[i]? := by
  rw [pyGet, if_pos (Int.natCast_nonneg i), Int.toNat_natCast]

theorem lg_sigmas_nodup : Lg.LOG_SIGMAS.Nodup := List.Nodup.map (fun a b h => by simpa using h) List.nodup_range

theorem lg_combination_nodup : Lg.combination.Nodup :=
  lg_sigmas_nodup.product ((List.nodup_singleton _).product ((List.nodup_singleton _).product (by decide)))

theorem lg_combination_length : Lg.combination.length = 1820 := by
  rw [Lg.combination, List.length_product, Lg.LOG_SIGMAS, List.length_map, List.length_range]
  rfl

theorem mem_lg_sigmas (k : ℤ) : k ∈ Lg.LOG_SIGMAS ↔ -60 ≤ k ∧ k ≤ 30 := by
  simp only [Lg.LOG_SIGMAS, List.mem_map, List.mem_range]
  constructor
  · rintro ⟨i, hi, rfl⟩
    omega
  · rintro ⟨h1, h2⟩
    exact ⟨(k + 60).toNat, by omega, by omega⟩

theorem lg_job_array (i : ℤ) : i ∈ Lg.jobArray ↔ 0 ≤ i ∧ i < 1820 := by
  simp only [Lg.jobArray, List.mem_map, List.mem_range]
  constructor
  · rintro ⟨j, hj, rfl⟩
    omega
  · rintro ⟨h1, h2⟩
    exact ⟨i.toNat, by omega, by omega⟩

theorem lg_job_unique {i j : ℤ} {c : Lg.Config} (hi : i ∈ Lg.jobArray) (hj : j ∈ Lg.jobArray) (h : Lg.job i = some c) (h' : Lg.job j = some c) :
    i = j := by
  obtain ⟨a, ha, rfl⟩ := List.mem_map.mp hi
  obtain ⟨b, hb, rfl⟩ := List.mem_map.mp hj
  rw [Lg.job, pyGet_natCast] at h h'
  obtain ⟨h1, h2⟩ := List.getElem?_eq_some_iff.mp h
  obtain ⟨h3, h4⟩ := List.getElem?_eq_some_iff.mp h'
  rw [(List.Nodup.getElem_inj_iff lg_combination_nodup).mp (h2.trans h4.symm)]

/-- **C89** (jobs of the linear model).  Every job of the array has a configuration, and every configuration — a variance among `10^-6.0, 10^-5.9, …,
10^3.0` and an entry of the grid of kernels — is that of exactly one job; `--i` left out means the last one. -/
theorem C89_jobs : (∀ i, i ∈ Lg.jobArray ↔ 0 ≤ i ∧ (Lg.job i).isSome) ∧
    (∀ c, (∃ i ∈ Lg.jobArray, Lg.job i = some c) ↔ (-60 ≤ c.1 ∧ c.1 ≤ 30) ∧ c.2.1 = 10 ∧ c.2.2.1 = 10 ∧ c.2.2.2 ∈ Lg.grid) ∧
    (∀ c, ∀ i ∈ Lg.jobArray, ∀ j ∈ Lg.jobArray, Lg.job i = some c → Lg.job j = some c → i = j) ∧
    Lg.job Lg.defaultJob = Lg.job 1819 := by
  refine ⟨fun i => ?_, fun c => ?_, fun c i hi j hj h h' => lg_job_unique hi hj h h', ?_⟩
  · rw [lg_job_array]
    refine and_congr_right fun hi => ?_
    lift i to ℕ using hi
    rw [Lg.job, pyGet_natCast, isSome_getElem?, lg_combination_length]
    omega
  · have hm : c ∈ Lg.combination ↔ (-60 ≤ c.1 ∧ c.1 ≤ 30) ∧ c.2.1 = 10 ∧ c.2.2.1 = 10 ∧ c.2.2.2 ∈ Lg.grid := by
      obtain ⟨k, T, D, g⟩ := c
      simp only [Lg.combination, List.mem_product, mem_lg_sigmas, List.mem_singleton]
    rw [← hm]
    constructor
    · rintro ⟨i, hi, h⟩
      obtain ⟨a, ha, rfl⟩ := List.mem_map.mp hi
      rw [Lg.job, pyGet_natCast] at h
      exact List.mem_of_getElem? h
    · intro h
      obtain ⟨a, ha, h⟩ := List.mem_iff_getElem.mp h
      refine ⟨a, (lg_job_array _).mpr ⟨by omega, by rw [lg_combination_length] at ha; exact_mod_cast ha⟩, ?_⟩
      rw [Lg.job, pyGet_natCast]
      exact List.getElem?_eq_some_iff.mpr ⟨ha, h⟩
  · have h1 : Lg.job 1819 = Lg.combination[1819]? := pyGet_natCast _ 1819
    rw [h1, Lg.job, Lg.defaultJob, pyGet, if_neg (by norm_num), if_pos (by rw [lg_combination_length]; norm_num), lg_combination_length]
    rfl

/-- The member of the enumeration with the same value. -/
def lgTypeOf : Lg.KernelType → LgType
  | .CSMC => .CSMC | .TP => .TP | .TP_CSMC => .TP_CSMC | .MALA_CSMC => .MALA_CSMC | .ADAPTED_CSMC => .ADAPTED_CSMC
  | .RW_CSMC => .RW_CSMC | .MALA => .MALA | .RW => .RW | .IMH => .IMH

theorem lgTypeOf_value (k : Lg.KernelType) : LgType.ofValue k.value = .ok (lgTypeOf k) := by cases k <;> rfl

instance (k : LgType) (s : String) : Decidable (styleOK k s) := by cases k <;> (unfold styleOK; infer_instance)

theorem lg_grid_styles : ∀ g ∈ Lg.grid, styleOK (lgTypeOf g.1) g.2.1 := by
  decide +kernel

/-- **C89** (runs of the linear model).  No job of the array stops with an error. -/
theorem C89_runs {m : Type → Type} [RandM m] (svd : ∀ d, Mat d d → SvdOut d) (seed : Key) :
    ∀ i ∈ Lg.jobArray, ∃ c, Lg.job i = some c ∧ c.T = 9 + 1 ∧ ∃ P, lg_script (m := m) svd seed 9 c.args = .ok P := by
  intro i hi
  obtain ⟨c, hc⟩ := Option.isSome_iff_exists.mp ((C89_jobs.1 i).mp hi).2
  obtain ⟨-, hT, -, hg⟩ := (C89_jobs.2.1 c).mp ⟨i, hi, hc⟩
  have hs := lg_grid_styles _ hg
  exact ⟨c, hc, hT, ((C63_errors (m := m) svd seed 7 c.args).2 _ (lgTypeOf_value _) (.inl rfl) (.inl rfl)).2 hs⟩

theorem lg_names : ∀ g ∈ Lg.grid, ',' ∉ (lgTypeOf g.1).name.toList ∧ ',' ∉ g.2.1.toList ∧
    ',' ∉ (Lg.fmtScale g.2.2.1).toList ∧ ',' ∉ g.2.2.2.toList ∧ ∀ g' ∈ Lg.grid, (lgTypeOf g.1).name = (lgTypeOf g'.1).name →
      g.2.1 = g'.2.1 → Lg.fmtScale g.2.2.1 = Lg.fmtScale g'.2.2.1 → g.2.2.2 = g'.2.2.2 → g = g' := by
  decide +kernel

theorem lg_tenths : ∀ a ∈ Lg.LOG_SIGMAS, ∀ b ∈ Lg.LOG_SIGMAS, Lg.fmtTenths a = Lg.fmtTenths b → a = b := by
  decide +kernel

/-- **C89** (files of the linear model).  Different jobs of the array write different files. -/
theorem C89_files : ∀ i ∈ Lg.jobArray, ∀ j ∈ Lg.jobArray, ∀ c c', Lg.job i = some c → Lg.job j = some c' →
    ∃ f f', c.file = .ok f ∧ c'.file = .ok f' ∧ (f = f' → i = j) := by
  intro i hi j hj c c' hc hc'
  obtain ⟨hk, hT, hD, hg⟩ := (C89_jobs.2.1 c).mp ⟨i, hi, hc⟩
  obtain ⟨hk', hT', hD', hg'⟩ := (C89_jobs.2.1 c').mp ⟨j, hj, hc'⟩
  obtain ⟨h2, h3, h4, h5, h6⟩ := lg_names _ hg
  obtain ⟨h2', h3', h4', h5', -⟩ := lg_names _ hg'
  have hf : c.file = .ok (Lg.file_name (lgTypeOf c.2.2.2.1).name c.T c.args.D c.args.N c.args.style (Lg.fmtScale c.2.2.2.2.2.1) c.args.delta_arg
      (Lg.fmtTenths c.1)) := by
    rw [Lg.Config.file, Lg.lg_file, show LgType.ofValue c.args.kernel = _ from lgTypeOf_value _]
    rfl
  have hf' : c'.file = .ok (Lg.file_name (lgTypeOf c'.2.2.2.1).name c'.T c'.args.D c'.args.N c'.args.style (Lg.fmtScale c'.2.2.2.2.2.1) c'.args.delta_arg
      (Lg.fmtTenths c'.1)) := by
    rw [Lg.Config.file, Lg.lg_file, show LgType.ofValue c'.args.kernel = _ from lgTypeOf_value _]
    rfl
  refine ⟨_, _, hf, hf', fun h => ?_⟩
  obtain ⟨e1, -, -, -, e2, e3, e4, e5⟩ := (C89_names h2 h2' h3 h3' h4 h4' h5 h5').mp h
  have e6 := h6 _ hg' e1 e2 e3 e4
  have e7 := lg_tenths _ ((mem_lg_sigmas _).mpr hk) _ ((mem_lg_sigmas _).mpr hk') e5
  have : c = c' := Prod.ext e7 (Prod.ext (hT.trans hT'.symm) (Prod.ext (hD.trans hD'.symm) e6))
  subst this
  exact lg_job_unique hi hj hc hc'

theorem lg_job_sigma : Lg.combination.map (fun c => c.1) = (List.range 1820).map fun i : ℕ => ((i / 20 : ℕ) : ℤ) - 60 := by
  decide +kernel

/-- **C89** (options of the linear model).  The jobs go through `log_var = -6, -5.9, …, 3`, twenty kernels each, and all run 50 times 1000 chains
of 32 particles with backward sampling, `killing` and `forced`, and base step size 1 times the scale of the entry of the grid. -/
theorem C89_options : ∀ i ∈ Lg.jobArray, ∃ c, Lg.job i = some c ∧ c.args.log_var = -6 + (i / 20 : ℤ) / 10 ∧ c.args.D = 10 ∧ c.args.N = 31 ∧
    c.args.M = 1000 ∧ c.args.K = 50 ∧ c.args.delta = 1 ∧ (c.args.delta_scale = 1 ∨ c.args.delta_scale = 1 / 3) ∧
    c.args.backward = true ∧ c.args.resampling = "killing" ∧ c.args.last_step = "forced" := by
  intro i hi
  obtain ⟨c, hc⟩ := Option.isSome_iff_exists.mp ((C89_jobs.1 i).mp hi).2
  obtain ⟨-, hT, hD, hg⟩ := (C89_jobs.2.1 c).mp ⟨i, hi, hc⟩
  obtain ⟨a, ha, rfl⟩ := List.mem_map.mp hi
  have hs : ∀ g ∈ Lg.grid, g.2.2.1 = (1, 1) ∨ g.2.2.1 = (1, 3) := by decide +kernel
  refine ⟨c, hc, ?_, hD, rfl, rfl, rfl, rfl, ?_, rfl, rfl, rfl⟩
  · rw [Lg.job, pyGet_natCast] at hc
    have h1 := congrArg (fun l : List ℤ => l[a]?) lg_job_sigma
    simp only [List.getElem?_map, hc, Option.map_some, List.getElem?_range (List.mem_range.mp ha), Option.some.injEq] at h1
    show (c.1 : ℝ) / 10 = _
    rw [h1]
    push_cast
    ring
  · show (c.2.2.2.2.2.1.1 : ℝ) / c.2.2.2.2.2.1.2 = 1 ∨ (c.2.2.2.2.2.1.1 : ℝ) / c.2.2.2.2.2.1.2 = 1 / 3
    rcases hs _ hg with h | h <;> rw [h] <;> norm_num

/-- The decimal numerals of the variances: zero is written `-0.0`. -/
example : Lg.LOG_SIGMAS.map Lg.fmtTenths = ((List.range 61).map fun i => "-" ++ toString ((60 - i) / 10) ++ "." ++ toString ((60 - i) % 10)) ++
    (List.range 30).map fun i => toString ((i + 1) / 10) ++ "." ++ toString ((i + 1) % 10) := by decide +kernel

/-- Job 1207 runs MALA-CSMC, style filtering, with scale 1, for `log_var = -0.0`. -/
example : Lg.job 1207 = some (0, 10, 10, .MALA_CSMC, "filtering", (1, 1), "D") := by
  let i1 : DecidableEq (Lg.KernelType × String × (ℕ × ℕ) × String) := inferInstance
  let i2 : DecidableEq (ℤ × ℕ × ℕ × Lg.KernelType × String × (ℕ × ℕ) × String) := instDecidableEqProd
  let i3 : DecidableEq (Option (ℤ × ℕ × ℕ × Lg.KernelType × String × (ℕ × ℕ) × String)) := inferInstance
  exact @of_decide_eq_true _ (i3 _ _) (by decide +kernel)

/-! ## The array of the stochastic volatility model -/

/-- **C89** (jobs of the stochastic volatility model), what is true of the code: the array runs the first eight entries of the grid, with
`tau = 10`. -/
theorem C89_sv_partial : ∀ c, (∃ i ∈ Sv.jobArray, Sv.job i = some c) ↔ c.1 = 10 ∧ c.2 ∈ Sv.grid.take 8 := by
  rintro ⟨tau, g⟩
  have e : Sv.jobArray.map Sv.job = (Sv.grid.take 8).map fun g => some (10, g) := by decide +kernel
  rw [← List.mem_map, e]
  simp only [List.mem_map, Option.some.injEq, Prod.mk.injEq]
  constructor
  · rintro ⟨a, h, rfl, rfl⟩
    exact ⟨rfl, h⟩
  · rintro ⟨rfl, h⟩
    exact ⟨g, h, rfl, rfl⟩

/-- **C89**, not true of the code: the array of the stochastic volatility model runs every configuration. -/
theorem C89_sv_false : ¬ ∀ c ∈ Sv.combination, ∃ i ∈ Sv.jobArray, Sv.job i = some c := by
  decide +kernel

/-- **C89** (files of the stochastic volatility model): the files that the analysis reads and that the array writes. -/
theorem C89_sv_files : ∀ c ∈ Sv.columns, (∃ i ∈ Sv.jobArray, (Sv.job i).bind Sv.fileWritten = Sv.fileRead c.1 c.2) ↔
    c.1 = 10 ∧ c.2 ∈ ["CSMC\n", "Particle-RWM\n", "Particle-aMALA+\n", "Particle-aGRAD\n($\\kappa = 1$)", "Particle-mGRAD\n($\\kappa = 1$)",
      "Particle-aGRAD\n($\\kappa = 1$, twisted)"] := by
  decide +kernel

end Verif.Props
