import Verif.Lemmas.CirMoments
import Verif.Props.Moments
import Verif.Props.JumpLaw
import Verif.Props.OuLaw

/-!
# C74: the values simulated for a Cox-Ingersoll-Ross process, and `cir_mean` and `cir_var`
-/

set_option linter.unusedSectionVars false

open MeasureTheory ProbabilityTheory Real

namespace Sdepy

open Spec

section
variable {σ : Type} [MeasurableSpace σ] {μ : Measure σ} [IsProbabilityMeasure μ] {C B : Type}
  [MeasurableSpace C] [MeasurableSpace B]

theorem StepOf_ne {grid : List ℝ} {t0 a b : ℝ} (h : StepOf grid t0 a b) : b - a ≠ 0 := by
  obtain ⟨-, -, ⟨-, h, -⟩ | ⟨-, h, -⟩⟩ := h
  · exact sub_ne_zero.2 h.ne'
  · exact sub_ne_zero.2 h.ne

theorem recursion_congr_law {N N' : ℝ → ℝ → Measure B} {f : ℝ → ℝ → C → B → C} {t0 : ℝ} {y0 : C}
    {grid : List ℝ} {Y : ℝ → σ → C} (h : IsRecursion μ N f t0 y0 grid Y)
    (hN : ∀ t dt, dt ≠ 0 → N t dt = N' t dt) : IsRecursion μ N' f t0 y0 grid Y := by
  refine ⟨h.start, h.meas, fun a b hs => ?_⟩
  obtain ⟨Z, z1, z2, z3, z4⟩ := h.step a b hs
  rw [hN a (b - a) (StepOf_ne hs)] at z2
  exact ⟨Z, z1, z2, z3, z4⟩
end

theorem bounds_of_valid {l : List ℝ} (hp : l.Pairwise (· < ·)) {a b : ℝ} (ha : l.head? = some a)
    (hb : l.getLast? = some b) : ∀ t ∈ l, a ≤ t ∧ t ≤ b := by
  intro t ht
  constructor
  · cases l with
    | nil => simp at ht
    | cons x l =>
      simp only [List.head?_cons, Option.some.injEq] at ha
      subst ha
      rcases List.mem_cons.1 ht with rfl | ht
      · exact le_rfl
      · exact ((List.pairwise_cons.1 hp).1 t ht).le
  · obtain ⟨l1, hl1⟩ := List.getLast?_eq_some_iff.1 hb
    rw [hl1] at ht hp
    rcases List.mem_append.1 ht with ht | ht
    · exact ((List.pairwise_append.1 hp).2.2 t ht b (by simp)).le
    · simp at ht; exact ht.le

section
variable {ι σ : Type} [Countable ι] [MeasurableSpace σ] {μ : Measure σ} [IsProbabilityMeasure μ]

theorem cir_step_eq (theta k xi h y z : ℝ) :
    (if 0 < y then y + k * (theta - y) * h + xi * √y * z else y + k * theta * h) =
      cirStep theta k xi h y z := by
  unfold cirStep
  by_cases hy : 0 < y
  · rw [if_pos hy, max_eq_left hy.le]
  · rw [if_neg hy, max_eq_right (not_lt.1 hy)]; simp

/-- **C74** (recursion). The values simulated by `cox_ingersoll_ross_process` for one cell are those of
the recursion of the stated equation, each step being driven by a normal variate with the length of
the step as variance, independent of the value the step starts from. Parameters may depend on time; both
sides of the initial time are covered. -/
theorem C74_cir_recursion (x0 : ι → ℝ) (theta k xi : ℝ → ι → ℝ) (i : ι) {dw : Src ℝ ι σ}
    (hw : ∀ t dt, dt ≠ 0 → ∃ N, DrawsLaw μ N (dw t dt) ∧
      N.map (fun x => x i) = gaussianReal 0 |dt|.toNNReal)
    {fuel : ℕ} {steps : Steps ℝ} {i0 : ℤ} {tl : TArr ℝ} {grid : List ℝ} {t0 : ℝ}
    (h : Along fuel steps i0 tl grid t0) :
    ∃ (X : ℝ → σ → ι → ℝ) (st : σ → σ),
      (∀ s, (cirSDE x0 theta k xi dw).call fuel steps i0 tl s =
        .ok (tl.data.map fun t => some (X t s), st s)) ∧
      IsRecursion μ (fun _ dt => gaussianReal 0 |dt|.toNNReal)
        (fun a b y z => cirStep (theta a i) (k a i) (xi a i) (b - a) y z) t0 (x0 i) grid
        fun t s => X t s i := by
  obtain ⟨h1, h2, h3⟩ := along_mem h
  choose! N hw1 hw2 using hw
  have hsde : ∀ t x, (cirSDE x0 theta k xi dw).sde t x =
      .ok (some [(idT, (fun t x => k t * (theta t - npPlus x)) t x),
        (idW, (fun t x => xi t * fun i => Real.sqrt (max (x i) 0)) t x)]) :=
    fun t x => by simp only [cirSDE, cirCoef, npSqrt_npPlus]
  obtain ⟨X, st, e, hX⟩ := chain_solution (μ := μ) (E := equation (cirSDE x0 theta k xi dw)) (z := dw)
    (N := N) (φ := fun x : ι → ℝ => x i) (ψ := fun x : ι → ℝ => x i)
    (f := fun a b y z => cirStep (theta a i) (k a i) (xi a i) (b - a) y z)
    (F := fun t t' x r => fun i => x i + (k t * (theta t - npPlus x)) i * (t' - t) +
      (xi t * fun i => Real.sqrt (max (x i) 0)) i * r i)
    (fun t x t' s => step_two rfl hsde t x t' s) hw1 (by fun_prop)
    (fun t t' => by unfold Function.uncurry cirStep; fun_prop) (fun t t' x r => rfl) x0 h.isGrid.1 h2
  refine ⟨X, st, fun s => ?_, recursion_congr_law hX hw2⟩
  rw [call_along _ (two_sources_ok rfl hsde) h s]
  have hlog : (cirSDE x0 theta k xi dw).log = false := rfl
  have hinit : (cirSDE x0 theta k xi dw).init t0 = .ok x0 := rfl
  have hlet : ∀ t x, (cirSDE x0 theta k xi dw).letX t x = x := fun _ _ => rfl
  rw [hlog, hinit]
  simp only [hlet, bind, Except.bind, pure, Except.pure, Bool.false_eq_true, if_false, e, Except.ok.injEq,
    Prod.mk.injEq, and_true]
  apply List.map_congr_left
  intro t ht
  rw [lookup_map_self (fun u => X u s) (h3 t ht)]
  rfl

/-- **C74** (values below zero). Simulated values may be negative, but with constant parameters they
are so by an amount that is, on average, at most of the order of the longest step, at any time. -/
theorem C74_cir_below (theta k xi : ℝ) (hth : 0 < theta) (hk : 0 < k) :
    ∃ B δ0 : ℝ, 0 < B ∧ 0 < δ0 ∧ ∀ (ι σ : Type) [Countable ι] [MeasurableSpace σ] (μ : Measure σ)
      [IsProbabilityMeasure μ] (x0 : ι → ℝ) (th kk xx : ι → ℝ) (i : ι) (dw : Src ℝ ι σ)
      (fuel : ℕ) (steps : Steps ℝ) (i0 : ℤ) (tl : TArr ℝ) (grid : List ℝ) (t0 δ : ℝ),
      0 ≤ x0 i → th i = theta → kk i = k → xx i = xi →
      (∀ t dt, dt ≠ 0 → ∃ N, DrawsLaw μ N (dw t dt) ∧
        N.map (fun x => x i) = gaussianReal 0 |dt|.toNNReal) →
      Along fuel steps i0 tl grid t0 → Mesh grid δ → 0 < δ → δ ≤ δ0 →
      ∃ (X : ℝ → σ → ι → ℝ) (st : σ → σ),
        (∀ s, (cirSDE x0 (fun _ => th) (fun _ => kk) (fun _ => xx) dw).call fuel steps i0 tl s =
          .ok (tl.data.map fun t => some (X t s), st s)) ∧
        ∀ t ∈ tl.data, t0 ≤ t → MemLp (fun s => X t s i) 2 μ ∧
          ∫ s, max (-X t s i) 0 ∂μ ≤ B * δ ∧ ∫ s, max (-X t s i) 0 ^ 2 ∂μ ≤ B * δ ^ 2 := by
  obtain ⟨β, hβ, hnear⟩ := cir_near hth hk xi
  refine ⟨β, 1 / (2 * k), hβ, by positivity, ?_⟩
  intro ι σ _ _ μ _ x0 th kk xx i dw fuel steps i0 tl grid t0 δ hx e1 e2 e3 hw h hm hδ hδ0
  obtain ⟨X, st, e, hX⟩ := C74_cir_recursion x0 (fun _ => th) (fun _ => kk) (fun _ => xx) i hw h
  obtain ⟨h1, h2, h3⟩ := along_mem h
  refine ⟨X, st, e, fun t ht hle => ?_⟩
  have hn := hnear σ μ grid t0 δ _ _ h.isGrid.1 h2 hm hδ hδ0 hx hX.start hX.meas
    (fun a b hs _ _ => by
      obtain ⟨Z, z1, z2, z3, z4⟩ := hX.step a b hs
      simp only [e1, e2, e3] at z4
      exact ⟨Z, z1, z2, z3, z4⟩) t (h3 t ht) hle
  exact ⟨hn.l2, hn.mean, hn.sq⟩

theorem cir_deriv (x0 theta xi : ℝ) {k : ℝ} (hk : k ≠ 0) (t : ℝ) :
    HasDerivAt (fun t => (cirMean x0 theta k xi t, cirVar x0 theta k xi t))
      (k * (theta - cirMean x0 theta k xi t),
        -2 * k * cirVar x0 theta k xi t + xi ^ 2 * cirMean x0 theta k xi t) t := by
  have h1 : HasDerivAt (cirMean x0 theta k xi) (k * (theta - cirMean x0 theta k xi t)) t := by
    have := ((hasDerivAt_exp_mul (-k) t).const_mul (x0 - theta)).const_add theta
    refine this.congr_deriv ?_; simp only [cirMean]; ring
  have h2 : HasDerivAt (cirVar x0 theta k xi)
      (-2 * k * cirVar x0 theta k xi t + xi ^ 2 * cirMean x0 theta k xi t) t := by
    have h := (((hasDerivAt_exp_mul (-k) t).const_sub 1).const_mul (xi * xi / k)).mul
      (((hasDerivAt_exp_mul (-k) t).const_mul (x0 - theta / 2)).const_add (theta / 2))
    refine h.congr_deriv ?_
    simp only [cirVar, cirMean]
    field_simp
    ring
  exact h1.prodMk h2

/-- **C74** (mean and variance). The mean and the variance of the simulated values differ from
`cir_mean` and `cir_var` by at most a constant times the longest step. -/
theorem C74_cir_order (y0 theta k xi : ℝ) (hy : 0 ≤ y0) (hth : 0 < theta) (hk : 0 < k) {T : ℝ}
    (hT : 0 ≤ T) :
    ∃ B δ0 : ℝ, 0 < B ∧ 0 < δ0 ∧ ∀ (ι σ : Type) [Countable ι] [MeasurableSpace σ] (μ : Measure σ)
      [IsProbabilityMeasure μ] (x0 th kk xx : ι → ℝ) (i : ι) (dw : Src ℝ ι σ)
      (fuel : ℕ) (steps : Steps ℝ) (i0 : ℤ) (tl : TArr ℝ) (grid : List ℝ) (t0 δ : ℝ),
      x0 i = y0 → th i = theta → kk i = k → xx i = xi →
      (∀ t dt, dt ≠ 0 → ∃ N, DrawsLaw μ N (dw t dt) ∧
        N.map (fun x => x i) = gaussianReal 0 |dt|.toNNReal) →
      Along fuel steps i0 tl grid t0 → Mesh grid δ → 0 < δ → δ ≤ δ0 →
      ∃ (X : ℝ → σ → ι → ℝ) (st : σ → σ),
        (∀ s, (cirSDE x0 (fun _ => th) (fun _ => kk) (fun _ => xx) dw).call fuel steps i0 tl s =
          .ok (tl.data.map fun t => some (X t s), st s)) ∧
        ∀ t ∈ tl.data, t0 ≤ t → t ≤ t0 + T → MemLp (fun s => X t s i) 2 μ ∧
          |∫ s, X t s i ∂μ - cirMean y0 theta k xi (t - t0)| ≤ B * δ ∧
          |Var[fun s => X t s i; μ] - cirVar y0 theta k xi (t - t0)| ≤ B * δ := by
  obtain ⟨β, hβ, hnear⟩ := cir_near hth hk xi
  have hβ0 := hβ.le
  set M := k ^ 2 + k ^ 2 * β + 2 * (1 + k) * k * β + xi ^ 2 * β + k * β with hMd
  have hM0 : 0 ≤ M := by positivity
  obtain ⟨K, hK, hrec⟩ := recursion_order (E := ℝ × ℝ) (G := fun p => (k * (theta - p.1),
      -2 * k * p.2 + xi ^ 2 * p.1)) (Λ := 2 * k + xi ^ 2) (by positivity)
    (fun x y => by
      have n1 : |x.1 - y.1| ≤ ‖x - y‖ := norm_fst_le (x - y)
      have n2 : |x.2 - y.2| ≤ ‖x - y‖ := norm_snd_le (x - y)
      rw [Prod.norm_def]
      refine max_le ?_ ?_
      · simp only [Prod.fst_sub, Real.norm_eq_abs]
        rw [show k * (theta - x.1) - k * (theta - y.1) = -(k * (x.1 - y.1)) by ring, abs_neg, abs_mul,
          abs_of_pos hk]
        have := mul_le_mul_of_nonneg_left n1 hk.le
        nlinarith [norm_nonneg (x - y), sq_nonneg xi, mul_nonneg hk.le (norm_nonneg (x - y)),
          mul_nonneg (sq_nonneg xi) (norm_nonneg (x - y))]
      · simp only [Prod.snd_sub, Real.norm_eq_abs]
        rw [show -2 * k * x.2 + xi ^ 2 * x.1 - (-2 * k * y.2 + xi ^ 2 * y.1) =
          -(2 * k * (x.2 - y.2)) + xi ^ 2 * (x.1 - y.1) by ring]
        calc _ ≤ |-(2 * k * (x.2 - y.2))| + |xi ^ 2 * (x.1 - y.1)| := abs_add_le _ _
          _ = 2 * k * |x.2 - y.2| + xi ^ 2 * |x.1 - y.1| := by
              rw [abs_neg, abs_mul, abs_mul, abs_mul, abs_two, abs_of_pos hk,
                abs_of_nonneg (sq_nonneg xi)]
          _ ≤ 2 * k * ‖x - y‖ + xi ^ 2 * ‖x - y‖ := by gcongr
          _ = _ := by ring)
    (fun t => cir_deriv y0 theta xi hk.ne' t) hT hM0
  refine ⟨K, min 1 (1 / (2 * k)), hK, by positivity, ?_⟩
  intro ι σ _ _ μ _ x0 th kk xx i dw fuel steps i0 tl grid t0 δ e0 e1 e2 e3 hw h hm hδ hδ0
  obtain ⟨X, st, e, hX⟩ := C74_cir_recursion x0 (fun _ => th) (fun _ => kk) (fun _ => xx) i hw h
  obtain ⟨h1, h2, h3⟩ := along_mem h
  simp only [e0, e1, e2, e3] at hX
  have hδ1 : δ ≤ 1 := hδ0.trans (min_le_left _ _)
  have hn := hnear σ μ grid t0 δ _ _ h.isGrid.1 h2 hm hδ (hδ0.trans (min_le_right _ _)) hy hX.start hX.meas
    (fun a b hs _ _ => hX.step a b hs)
  have key := hrec grid t0 δ (fun t => (∫ s, X t s i ∂μ, Var[fun s => X t s i; μ])) h.isGrid.1 h2 hm
    hδ.le hδ1 (by
      have : (fun s => X t0 s i) = fun _ => y0 := funext hX.start
      simp only [this, variance_eq_sub (memLp_const y0)]
      simp [cirMean, cirVar]) (by
      intro a b hs ha hab _
      obtain ⟨Z, z1, z2, z3, z4⟩ := hX.step a b hs
      have hd : b - a ≤ δ := by
        obtain ⟨m1, m2, ⟨-, -, h3⟩ | ⟨-, h2, -⟩⟩ := hs
        · exact hm a m1 b m2 hab h3
        · exact absurd hab (not_lt.2 h2.le)
      have hna := hn a hs.1 ha
      obtain ⟨s1, s2⟩ := hna.step_error hδ1 hk.le theta xi (sub_nonneg.2 hab.le) hd hβ0 z3 z2
      have eb : (fun s => X b s i) = fun s => cirStep theta k xi (b - a) (X a s i) (Z s) := funext z4
      simp only [eb]
      have hab0 : 0 ≤ b - a := sub_nonneg.2 hab.le
      set m := ∫ s, X a s i ∂μ
      set V := Var[fun s => X a s i; μ]
      have hS : 0 ≤ max |m| |V| := le_max_of_le_left (abs_nonneg _)
      rw [Prod.norm_def]
      refine max_le ?_ ?_
      · simp only [Prod.fst_sub, Prod.smul_fst, smul_eq_mul, Real.norm_eq_abs, Prod.norm_def]
        refine s1.trans ?_
        calc k * β * δ * (b - a) ≤ M * δ * (b - a) := by
              gcongr
              have : 0 ≤ k ^ 2 + k ^ 2 * β + 2 * (1 + k) * k * β + xi ^ 2 * β := by positivity
              linarith
          _ ≤ _ := le_mul_of_one_le_right (by positivity) (by linarith)
      · simp only [Prod.snd_sub, Prod.smul_snd, smul_eq_mul, Real.norm_eq_abs, Prod.norm_def]
        refine s2.trans ?_
        gcongr
        have : 0 ≤ k * β := by positivity
        linarith)
  refine ⟨X, st, e, fun t ht hle hT' => ⟨(hn t (h3 t ht) hle).l2, ?_, ?_⟩⟩
  · exact (norm_fst_le _).trans (key t (h3 t ht) hle hT')
  · exact (norm_snd_le _).trans (key t (h3 t ht) hle hT')

/-- **C74** (number of steps). With enough integration steps, mean and variance of the values simulated at
the times of a timeline are as near as wanted to `cir_mean` and `cir_var`. -/
theorem C74_cir_steps (y0 theta k xi : ℝ) (hy : 0 ≤ y0) (hth : 0 < theta) (hk : 0 < k) (tl : TArr ℝ)
    {ε : ℝ} (hε : 0 < ε) :
    ∃ N : ℕ, ∀ (ι σ : Type) [Countable ι] [MeasurableSpace σ] (μ : Measure σ)
      [IsProbabilityMeasure μ] (x0 th kk xx : ι → ℝ) (i : ι) (dw : Src ℝ ι σ)
      (fuel n : ℕ) (i0 : ℤ) (grid : List ℝ) (t0 : ℝ), N ≤ n →
      x0 i = y0 → th i = theta → kk i = k → xx i = xi →
      (∀ t dt, dt ≠ 0 → ∃ N, DrawsLaw μ N (dw t dt) ∧
        N.map (fun x => x i) = gaussianReal 0 |dt|.toNNReal) →
      Along fuel (.int n) i0 tl grid t0 →
      ∃ (X : ℝ → σ → ι → ℝ) (st : σ → σ),
        (∀ s, (cirSDE x0 (fun _ => th) (fun _ => kk) (fun _ => xx) dw).call fuel (.int n) i0 tl s =
          .ok (tl.data.map fun t => some (X t s), st s)) ∧
        ∀ t ∈ tl.data, t0 ≤ t →
          |∫ s, X t s i ∂μ - cirMean y0 theta k xi (t - t0)| ≤ ε ∧
          |Var[fun s => X t s i; μ] - cirVar y0 theta k xi (t - t0)| ≤ ε := by
  set a := tl.data.head?.getD 0 with ha'
  set b := tl.data.getLast?.getD 0 with hb'
  obtain ⟨B, δ0, hB, hδ0, h⟩ := C74_cir_order y0 theta k xi hy hth hk (T := |b - a|) (abs_nonneg _)
  have hpos : 0 < min δ0 (ε / B) := lt_min hδ0 (by positivity)
  obtain ⟨N, hN⟩ := exists_nat_gt (|b - a| / min δ0 (ε / B))
  refine ⟨N + 2, ?_⟩
  intro ι σ _ _ μ _ x0 th kk xx i dw fuel n i0 grid t0 hn e0 e1 e2 e3 hw hal
  obtain ⟨h1, h2, h3⟩ := along_mem hal
  have hhead : tl.data.head? = some a := by
    cases hl : tl.data with
    | nil => rw [hl] at h1; simp at h1
    | cons x l => simp [ha', hl]
  have hlast : tl.data.getLast? = some b := by
    cases hl : tl.data.getLast? with
    | none => rw [List.getLast?_eq_none_iff] at hl; rw [hl] at h1; simp at h1
    | some x => simp [hb', hl]
  have hm := C65_mesh (by omega) hal hhead hlast
  have hn' : (N : ℝ) + 1 ≤ n - 1 := by
    have : ((N + 2 : ℕ) : ℝ) ≤ n := by exact_mod_cast hn
    push_cast at this; linarith
  have hN0 : (0 : ℝ) ≤ N := N.cast_nonneg
  have hsm : (b - a) / (n - 1) ≤ min δ0 (ε / B) := by
    rw [div_le_iff₀ (by linarith)]
    rw [div_lt_iff₀ hpos] at hN
    calc b - a ≤ |b - a| := le_abs_self _
      _ ≤ min δ0 (ε / B) * N := by rw [mul_comm]; exact hN.le
      _ ≤ _ := by gcongr; linarith
  obtain ⟨X, st, e, hX⟩ := h ι σ μ x0 th kk xx i dw fuel (.int n) i0 tl grid t0 (min δ0 (ε / B)) e0 e1
    e2 e3 hw hal (fun x hx y hy hxy hc => (hm x hx y hy hxy hc).trans hsm) hpos (min_le_left _ _)
  refine ⟨X, st, e, fun t ht hle => ?_⟩
  obtain ⟨-, l1, l2⟩ := hX t ht hle (by
    have hr := bounds_of_valid hal.valid.2 hhead hlast
    have := (hr t ht).2
    have := (hr t0 h1).1
    linarith [le_abs_self (b - a)])
  have hB' : B * min δ0 (ε / B) ≤ ε := by
    calc B * min δ0 (ε / B) ≤ B * (ε / B) := by gcongr; exact min_le_right _ _
      _ = ε := by field_simp
  exact ⟨l1.trans hB', l2.trans hB'⟩

end

section

theorem exCirNoise (i : Cells ([2] ++ [3])) (t dt : ℝ) (_ : dt ≠ 0) :
    ∃ N, DrawsLaw (Measure.infinitePi fun _ : ℕ => itemLaw stdNormal) N
      (wienerCells ([2] ++ [3]) ⟨3, [2], .none⟩ (itemRng ℝ) t dt) ∧
      N.map (fun x => x i) = gaussianReal 0 |dt|.toNNReal :=
  ⟨_, C66_noise (W := ⟨3, [2], .none⟩) rfl (itemRng_draws stdNormal) t dt,
    (measurePreserving_eval (fun _ : Cells ([2] ++ [3]) => gaussianReal 0 |dt|.toNNReal) i).map_eq⟩

example := C74_cir_recursion (μ := Measure.infinitePi fun _ : ℕ => itemLaw stdNormal)
  (fun _ => 1) (fun t _ => 1 + t) (fun t _ => t) (fun t _ => 2 * t) ⟨[1, 2], by decide⟩ (exCirNoise _)
  exAlongR

/-- Values simulated with `theta = 1`, `k = 2`, `xi = 3`, along a timeline with steps no longer than `δ`,
for a process with two components and three paths. -/
example : ∃ B > 0, ∃ δ > 0, ∃ (fuel : ℕ)
    (X : ℝ → (ℕ → Item ℝ) → Cells ([2] ++ [3]) → ℝ) (st : (ℕ → Item ℝ) → ℕ → Item ℝ),
    (∀ s, (cirSDE (fun _ => 4) (fun _ _ => 1) (fun _ _ => 2) (fun _ _ => 3)
      (wienerCells ([2] ++ [3]) ⟨3, [2], .none⟩ (itemRng ℝ))).call fuel (.int 2) 0
        ⟨[2], [1, 1 + δ]⟩ s = .ok ([some (X 1 s), some (X (1 + δ) s)], st s)) ∧
    ∫ s, max (-X (1 + δ) s ⟨[1, 2], by decide⟩) 0 ∂(Measure.infinitePi fun _ : ℕ => itemLaw stdNormal) ≤
      B * δ := by
  obtain ⟨B, δ0, hB, hδ0, h⟩ := C74_cir_below 1 2 3 one_pos two_pos
  obtain ⟨fuel, grid, hal⟩ := along_of_valid (steps := .int 2) (i0 := 0) (tl := ⟨[2], [1, 1 + δ0]⟩)
    (i := 0) (t0 := 1) ⟨rfl, by simp [hδ0]⟩ ⟨by simp, .inl rfl⟩ rfl (by rintro _ ⟨⟩; simp)
  have hm := C65_mesh (n := 2) le_rfl hal rfl rfl
  norm_num at hm
  obtain ⟨X, st, e, hX⟩ := h (Cells ([2] ++ [3])) _ (Measure.infinitePi fun _ : ℕ => itemLaw stdNormal)
    (fun _ => 4) (fun _ => 1) (fun _ => 2) (fun _ => 3) ⟨[1, 2], by decide⟩ _ fuel (.int 2) 0
    ⟨[2], [1, 1 + δ0]⟩ grid 1 δ0 (by norm_num) rfl rfl rfl (exCirNoise _) hal hm hδ0 le_rfl
  exact ⟨B, hB, δ0, hδ0, fuel, X, st, e, (hX (1 + δ0) (by simp) (by linarith)).2.1⟩

/-- With enough steps, the variance of the values simulated is near `cir_var`. -/
example : ∃ (N fuel : ℕ)
    (X : ℝ → (ℕ → Item ℝ) → Cells ([2] ++ [3]) → ℝ) (st : (ℕ → Item ℝ) → ℕ → Item ℝ),
    (∀ s, (cirSDE (fun _ => 4) (fun _ _ => 1) (fun _ _ => 2) (fun _ _ => 3)
      (wienerCells ([2] ++ [3]) ⟨3, [2], .none⟩ (itemRng ℝ))).call fuel (.int N) 0
        ⟨[2], [1, 2]⟩ s = .ok ([some (X 1 s), some (X 2 s)], st s)) ∧
    |Var[fun s => X 2 s ⟨[1, 2], by decide⟩; Measure.infinitePi fun _ : ℕ => itemLaw stdNormal] -
      cirVar 4 1 2 3 1| ≤ 1 / 1000 := by
  obtain ⟨N, h⟩ := C74_cir_steps 4 1 2 3 (by norm_num) one_pos two_pos ⟨[2], [1, 2]⟩ (ε := 1 / 1000)
    (by norm_num)
  obtain ⟨fuel, grid, hal⟩ := along_of_valid (steps := .int N) (i0 := 0) (tl := ⟨[2], [1, 2]⟩)
    (i := 0) (t0 := 1) ⟨rfl, by simp⟩ ⟨by simp, .inl rfl⟩ rfl (by rintro _ ⟨⟩; simp)
  obtain ⟨X, st, e, hX⟩ := h (Cells ([2] ++ [3])) _ (Measure.infinitePi fun _ : ℕ => itemLaw stdNormal)
    (fun _ => 4) (fun _ => 1) (fun _ => 2) (fun _ => 3) ⟨[1, 2], by decide⟩ _ fuel N 0 grid 1 le_rfl
    rfl rfl rfl rfl (exCirNoise _) hal
  have := (hX 2 (by simp) (by norm_num)).2
  norm_num at this
  exact ⟨N, fuel, X, st, e, by norm_num; exact this⟩

end

end Sdepy
