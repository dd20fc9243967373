import Verif.Lemmas.HestonMoments
import Verif.Lemmas.CorrNormal
import Verif.Props.Heston
import Verif.Props.CirLaw
import Verif.Lemmas.MonteCarlo

/-!
# C75: the values simulated for a Heston process, their mean, and `heston_log_mean`, `heston_log_var`
-/

set_option linter.unusedSectionVars false
set_option linter.unusedVariables false

open MeasureTheory ProbabilityTheory Real

namespace Sdepy

open Spec

section
variable {σ : Type} [MeasurableSpace σ] {μ : Measure σ} [IsProbabilityMeasure μ]
variable {a : Bool} {v : List ℕ} {p : ℕ} {P : HestonParams} {dw : Src ℝ (List ℕ) σ}

theorem eqArr_get {L : Layout} (x : Cell L → ℝ) {i : ℕ} {c : List ℕ} {q : ℕ}
    (h : i < L.q ∧ InRange L.vshape c ∧ q < L.paths) :
    (eqArr L x i).get (c ++ [q]) = x ⟨(i, c, q), h⟩ := by
  simp only [eqArr]
  rw [dif_pos (by simpa using h)]
  congr 1
  apply Subtype.ext
  simp

/-- **C75** (recursion). The values simulated by `full_heston_process` and `heston_process` for one
component and path are those of the recursion of the stated equations, each step being driven by the
increments of the noise for that cell and for that of its variance, independent of the values the step
starts from. Parameters may depend on time; both sides of the initial time are covered. -/
theorem C75_heston_recursion (hL : v = [] → a = true) {x0 y0 : Arr ℝ} (h0 : HestonInitOk v p x0 y0)
    {c : List ℕ} {q : ℕ} (hc : InRange v c) (hq : q < p) {M : ℝ → ℝ → Measure (ℝ × ℝ)}
    (hw : ∀ t dt, dt ≠ 0 → ∃ N, DrawsLaw μ N (dw t dt) ∧
      N.map (fun w => (w (workCell a v 0 c q), w (workCell a v 1 c q))) = M t dt)
    {fuel : ℕ} {steps : Steps ℝ} {i0 : ℤ} {tl : TArr ℝ} {grid : List ℝ} {t0 : ℝ}
    (h : Along fuel steps i0 tl grid t0) :
    ∃ (X Y : ℝ → σ → Arr ℝ) (st : σ → σ),
      (∀ s, fullHestonCall a v p P x0 y0 dw fuel steps i0 tl s =
        .ok (tl.data.map fun t => some (X t s, Y t s), st s)) ∧
      (∀ s, hestonCall a v p P x0 y0 dw fuel steps i0 tl s =
        .ok (tl.data.map fun t => some (X t s), st s)) ∧
      (∀ t s, 0 < (X t s).get (c ++ [q])) ∧
      IsRecursion μ M (fun a b => hestonStep (P.mu a (c ++ [q])) (P.sigma a (c ++ [q]))
          (P.theta a (c ++ [q])) (P.k a (c ++ [q])) (P.xi a (c ++ [q])) (b - a)) t0
        (log (bcAt x0 (c ++ [q])), bcAt y0 (c ++ [q])) grid
        fun t s => (log ((X t s).get (c ++ [q])), (Y t s).get (c ++ [q])) := by
  obtain ⟨h1, h2, h3⟩ := along_mem h
  choose! N hw1 hw2 using hw
  have hx : 0 < 2 ∧ InRange v c ∧ q < p := ⟨two_pos, hc, hq⟩
  have hy : 1 < 2 ∧ InRange v c ∧ q < p := ⟨one_lt_two, hc, hq⟩
  let L : Layout := (hestonSys a v p P dw).L
  have hLe : (hestonSys a v p P dw).L = ⟨2, a, v, p⟩ := rfl
  let cx : Cell L := ⟨(0, c, q), hx⟩
  let cy : Cell L := ⟨(1, c, q), hy⟩
  have hcomp : ∀ (w : List ℕ → ℝ) i, component L ((hestonSys a v p P dw).packed w) i c q =
      w (workCell a v i c q) := by
    intro w i
    show (if a = true then w (c ++ [i, q])
      else w (c.dropLast ++ [i * v.getLastD 0 + c.getLastD 0, q])) = _
    unfold workCell
    split_ifs <;> rfl
  obtain ⟨Z, st, e, hZ⟩ := chain_solution (μ := μ) (E := system (hestonSys a v p P dw)) (z := dw)
    (N := N) (φ := fun z : Cell L → ℝ => (z cx, z cy))
    (ψ := fun w : List ℕ → ℝ => (w (workCell a v 0 c q), w (workCell a v 1 c q)))
    (f := fun a b => hestonStep (P.mu a (c ++ [q])) (P.sigma a (c ++ [q]))
          (P.theta a (c ++ [q])) (P.k a (c ++ [q])) (P.xi a (c ++ [q])) (b - a))
    (F := fun t t' z w c =>
            let i := c.1.2.1 ++ [c.1.2.2]
            let y := z (volCell c)
            let dt := t' - t
            let dwc := component (hestonSys a v p P dw).L ((hestonSys a v p P dw).packed w)
              c.1.1 c.1.2.1 c.1.2.2
            z c + (
              if c.1.1 = 0 then
                if 0 < y then (P.mu t i - P.sigma t i ^ 2 * y / 2) * dt +
                  P.sigma t i * Real.sqrt y * dwc
                else P.mu t i * dt
              else
                if 0 < y then P.k t i * (P.theta t i - y) * dt + P.xi t i * Real.sqrt y * dwc
                else P.k t i * P.theta t i * dt))
    (fun t z t' s => by
      rw [C18_heston_step]
      cases dw t (t' - t) s with
      | error e => rfl
      | ok r => rfl) hw1 (by fun_prop)
    (fun t t' => by unfold Function.uncurry hestonStep cirStep; fun_prop)
    (fun t t' z w => by
      have vx : volCell cx = cy := rfl
      have vy : volCell cy = cy := rfl
      have e0 : cx.1.1 = 0 := rfl
      have e1 : ¬ cy.1.1 = 0 := one_ne_zero
      have w0 : component (hestonSys a v p P dw).L ((hestonSys a v p P dw).packed w)
          cx.1.1 cx.1.2.1 cx.1.2.2 = w (workCell a v 0 c q) := hcomp w 0
      have w1 : component (hestonSys a v p P dw).L ((hestonSys a v p P dw).packed w)
          cy.1.1 cy.1.2.1 cy.1.2.2 = w (workCell a v 1 c q) := hcomp w 1
      have i0 : cx.1.2.1 ++ [cx.1.2.2] = c ++ [q] := rfl
      have i1 : cy.1.2.1 ++ [cy.1.2.2] = c ++ [q] := rfl
      simp only [vx, vy, w0, w1, if_pos e0, if_neg e1, i0, i1, hestonStep, cirStep]
      by_cases hz : 0 < z cy
      · simp only [if_pos hz, max_eq_left hz.le]
        exact Prod.ext (by simp only; ring) (by simp only; ring)
      · simp only [if_neg hz, max_eq_right (not_lt.1 hz)]
        exact Prod.ext (by simp) (by simp))
    (hestonStart x0 y0) h.isGrid.1 h2
  have hX : ∀ t s, (eqArr L (fun c => exp (Z t s c)) 0).get (c ++ [q]) = exp (Z t s cx) := fun t s =>
    eqArr_get (L := L) _ hx
  have hY : ∀ t s, (eqArr L (Z t s) 1).get (c ++ [q]) = Z t s cy := fun t s => eqArr_get (L := L) _ hy
  have hfull : ∀ s, fullHestonCall a v p P x0 y0 dw fuel steps i0 tl s =
      .ok (tl.data.map fun t => some (eqArr L (fun c => exp (Z t s c)) 0, eqArr L (Z t s) 1), st s) := by
    intro s
    rw [C17_full_heston a v p P dw hL h0 h s, e]
    simp only [bind, Except.bind, pure, Except.pure, Except.ok.injEq, Prod.mk.injEq, and_true]
    apply List.map_congr_left
    intro t ht
    rw [lookup_map_self (fun u => Z u s) (h3 t ht)]
    rfl
  refine ⟨fun t s => eqArr L (fun c => exp (Z t s c)) 0, fun t s => eqArr L (Z t s) 1, st, hfull,
    fun s => ?_, fun t s => ?_, ?_⟩
  · rw [C17_heston_component a v p P dw hL h s, hfull s]
    simp [bind, Except.bind, pure, Except.pure, Function.comp_def]
  · rw [hX]; exact exp_pos _
  · simp only [hX, hY, log_exp]
    have := recursion_congr_law hZ hw2
    convert this using 1
    simp [hestonStart, cx, cy]

/-- **C75** (mean of the price). Whatever the integration steps, and whatever the parameters that rule the
variance, the mean of the simulated values of `x` is exactly that of a process with drift `mu`: the
discretisation does not bias it. -/
theorem C75_heston_mean (hL : v = [] → a = true) {x0 y0 : Arr ℝ} (h0 : HestonInitOk v p x0 y0)
    {c : List ℕ} {q : ℕ} (hc : InRange v c) (hq : q < p)
    (hw : ∀ t dt, dt ≠ 0 → ∃ N, DrawsLaw μ N (dw t dt) ∧
      N.map (fun w => w (workCell a v 0 c q)) = gaussianReal 0 |dt|.toNNReal)
    (hx0 : 0 < bcAt x0 (c ++ [q])) {mu : ℝ} (hmu : ∀ t, P.mu t (c ++ [q]) = mu)
    {fuel : ℕ} {steps : Steps ℝ} {i0 : ℤ} {tl : TArr ℝ} {grid : List ℝ} {t0 : ℝ}
    (h : Along fuel steps i0 tl grid t0) :
    ∃ (X : ℝ → σ → Arr ℝ) (st : σ → σ),
      (∀ s, hestonCall a v p P x0 y0 dw fuel steps i0 tl s =
        .ok (tl.data.map fun t => some (X t s), st s)) ∧
      ∀ t ∈ tl.data, t0 ≤ t → Integrable (fun s => (X t s).get (c ++ [q])) μ ∧
        ∫ s, (X t s).get (c ++ [q]) ∂μ = bcAt x0 (c ++ [q]) * exp (mu * (t - t0)) := by
  obtain ⟨h1, h2, h3⟩ := along_mem h
  choose! N hw1 hw2 using hw
  obtain ⟨X, Y, st, -, e, hpos, hX⟩ := C75_heston_recursion (P := P) hL h0 hc hq (M := fun t dt =>
    (N t dt).map (fun w => (w (workCell a v 0 c q), w (workCell a v 1 c q))))
    (fun t dt hdt => ⟨N t dt, hw1 t dt hdt, rfl⟩) h
  have key := grid_induction (Q := fun t => ∫⁻ s, ENNReal.ofReal ((X t s).get (c ++ [q])) ∂μ =
    ENNReal.ofReal (bcAt x0 (c ++ [q]) * exp (mu * (t - t0)))) h.isGrid.1 h2 (by
      have : ∀ s, (X t0 s).get (c ++ [q]) = bcAt x0 (c ++ [q]) := fun s => by
        have := congrArg Prod.fst (hX.start s)
        exact log_injOn_pos (Set.mem_Ioi.2 (hpos _ _)) (Set.mem_Ioi.2 hx0) this
      simp [this]) (by
      intro a' b hs ha hab ih
      obtain ⟨Z, z1, z2, z3, z4⟩ := hX.step a' b hs
      have mp := hX.meas a' hs.1
      have hZ : HasLaw (fun s => (Z s).1) (gaussianReal 0 |b - a'|.toNNReal) μ := by
        refine ⟨by fun_prop, ?_⟩
        rw [← hw2 a' (b - a') (StepOf_ne hs), show (fun s => (Z s).1) = Prod.fst ∘ Z from rfl,
          ← Measure.map_map measurable_fst z1, z2.map_eq, Measure.map_map measurable_fst (by fun_prop)]
        rfl
      have es := exp_step (measurable_fst.comp mp) (measurable_snd.comp mp) z1 mu
        (P.sigma a' (c ++ [q])) (P.theta a' (c ++ [q])) (P.k a' (c ++ [q])) (P.xi a' (c ++ [q]))
        (sub_nonneg.2 hab.le) z3 hZ
      have eb : ∀ s, (X b s).get (c ++ [q]) = exp (hestonStep mu (P.sigma a' (c ++ [q]))
          (P.theta a' (c ++ [q])) (P.k a' (c ++ [q])) (P.xi a' (c ++ [q])) (b - a')
          (log ((X a' s).get (c ++ [q])), (Y a' s).get (c ++ [q])) (Z s)).1 := by
        intro s
        have := congrArg Prod.fst (z4 s)
        simp only [hmu] at this
        rw [← this, exp_log (hpos _ _)]
      simp only [eb]
      simp only [Function.comp_apply, exp_log (hpos _ _), ih] at es
      rw [es, ← ENNReal.ofReal_mul (exp_pos _).le]
      congr 1
      rw [mul_left_comm, ← exp_add]
      congr 2; ring)
  have mX : ∀ t ∈ grid, Measurable fun s => (X t s).get (c ++ [q]) := by
    intro t ht
    have : (fun s => (X t s).get (c ++ [q])) = fun s => exp (log ((X t s).get (c ++ [q]))) :=
      funext fun s => (exp_log (hpos t s)).symm
    rw [this]
    exact measurable_exp.comp (measurable_fst.comp (hX.meas t ht))
  refine ⟨X, st, e, fun t ht hle => ?_⟩
  have hk := key t (h3 t ht) hle
  have hi : Integrable (fun s => (X t s).get (c ++ [q])) μ := by
    refine ⟨(mX t (h3 t ht)).aestronglyMeasurable, ?_⟩
    rw [hasFiniteIntegral_iff_ofReal (Filter.Eventually.of_forall fun s => (hpos t s).le), hk]
    exact ENNReal.ofReal_lt_top
  refine ⟨hi, ?_⟩
  rw [integral_eq_lintegral_of_nonneg_ae (Filter.Eventually.of_forall fun s => (hpos t s).le)
    hi.aestronglyMeasurable, hk, ENNReal.toReal_ofReal (by positivity)]

/-- The right hand sides of the equations of mean and variance of `y`, its covariance with `log x`, and
mean and variance of `log x`. -/
noncomputable def hestonField (mu sigma theta k xi rho : ℝ) (x : Fin 5 → ℝ) : Fin 5 → ℝ :=
  ![k * (theta - x 0), -2 * k * x 1 + xi ^ 2 * x 0,
    -k * x 2 - sigma ^ 2 / 2 * x 1 + rho * sigma * xi * x 0, mu - sigma ^ 2 / 2 * x 0,
    -sigma ^ 2 * x 2 + sigma ^ 2 * x 0]

theorem abs_lin3 {S : ℝ} (a b c : ℝ) {x y z : ℝ} (hx : |x| ≤ S) (hy : |y| ≤ S) (hz : |z| ≤ S) :
    |a * x + b * y + c * z| ≤ (|a| + |b| + |c|) * S := by
  calc |a * x + b * y + c * z| ≤ |a * x| + |b * y| + |c * z| := abs_add_three _ _ _
    _ = |a| * |x| + |b| * |y| + |c| * |z| := by rw [abs_mul, abs_mul, abs_mul]
    _ ≤ |a| * S + |b| * S + |c| * S := by gcongr
    _ = _ := by ring

theorem hestonField_lipschitz (mu sigma theta k xi rho : ℝ) : ∃ Λ, 0 ≤ Λ ∧ ∀ x y,
    ‖hestonField mu sigma theta k xi rho x - hestonField mu sigma theta k xi rho y‖ ≤ Λ * ‖x - y‖ := by
  refine ⟨|k| + |2 * k| + |xi ^ 2| + |rho * sigma * xi| + |sigma ^ 2| + |sigma ^ 2| +
    |sigma ^ 2 / 2|, by positivity, fun x y => ?_⟩
  have n : ∀ i, |x i - y i| ≤ ‖x - y‖ := fun i => norm_le_pi_norm (x - y) i
  have hle : ∀ {e a b c : ℝ} (i j l : Fin 5), e = a * (x i - y i) + b * (x j - y j) + c * (x l - y l) →
      |a| + |b| + |c| ≤ |k| + |2 * k| + |xi ^ 2| + |rho * sigma * xi| + |sigma ^ 2| + |sigma ^ 2| +
        |sigma ^ 2 / 2| →
      ‖e‖ ≤ (|k| + |2 * k| + |xi ^ 2| + |rho * sigma * xi| + |sigma ^ 2| + |sigma ^ 2| +
        |sigma ^ 2 / 2|) * ‖x - y‖ := by
    intro e a b c i j l he hs
    rw [he, Real.norm_eq_abs]
    exact (abs_lin3 a b c (n i) (n j) (n l)).trans (mul_le_mul_of_nonneg_right hs (norm_nonneg _))
  have p1 := abs_nonneg k
  have p2 := abs_nonneg (2 * k)
  have p3 := abs_nonneg (xi ^ 2)
  have p4 := abs_nonneg (rho * sigma * xi)
  have p5 := abs_nonneg (sigma ^ 2)
  have p6 := abs_nonneg (sigma ^ 2 / 2)
  rw [pi_norm_le_iff_of_nonneg (by positivity)]
  intro i
  fin_cases i
  · exact hle (a := -k) (b := 0) (c := 0) 0 0 0 (by simp [hestonField]; ring)
      (by rw [abs_neg, abs_zero]; linarith)
  · exact hle (a := -(2 * k)) (b := xi ^ 2) (c := 0) 1 0 0 (by simp [hestonField]; ring)
      (by rw [abs_neg, abs_zero]; linarith)
  · exact hle (a := -k) (b := -(sigma ^ 2 / 2)) (c := rho * sigma * xi) 2 1 0
      (by simp [hestonField]; ring) (by rw [abs_neg, abs_neg]; linarith)
  · exact hle (a := -(sigma ^ 2 / 2)) (b := 0) (c := 0) 0 0 0 (by simp [hestonField]; ring)
      (by rw [abs_neg, abs_zero]; linarith)
  · exact hle (a := -(sigma ^ 2)) (b := sigma ^ 2) (c := 0) 2 0 0 (by simp [hestonField]; ring)
      (by rw [abs_neg, abs_zero]; linarith)

theorem heston_deriv (x0 mu sigma y0 theta xi rho : ℝ) {k : ℝ} (hk : k ≠ 0) (t : ℝ) :
    HasDerivAt (fun t => ![cirMean y0 theta k xi t, cirVar y0 theta k xi t,
        hestonCov sigma y0 theta k xi rho t, hestonLogMean x0 mu sigma y0 theta k xi rho t,
        hestonLogVar x0 mu sigma y0 theta k xi rho t])
      (hestonField mu sigma theta k xi rho ![cirMean y0 theta k xi t, cirVar y0 theta k xi t,
        hestonCov sigma y0 theta k xi rho t, hestonLogMean x0 mu sigma y0 theta k xi rho t,
        hestonLogVar x0 mu sigma y0 theta k xi rho t]) t := by
  have hc := cir_deriv y0 theta xi hk t
  have h3 : HasDerivAt (hestonLogMean x0 mu sigma y0 theta k xi rho)
      (mu - sigma ^ 2 / 2 * cirMean y0 theta k xi t) t := by
    have h := ((((hasDerivAt_exp_mul (-k) t).const_sub 1).const_mul
      (sigma * sigma * (theta - y0))).div_const (2 * k)).const_add (log x0) |>.add
      ((hasDerivAt_id t).const_mul (mu - theta * sigma * sigma / 2))
    refine h.congr_deriv ?_
    simp only [cirMean]
    field_simp
    ring
  rw [hasDerivAt_pi]
  intro i
  fin_cases i
  · exact hc.fst
  · exact hc.snd
  · exact hasDerivAt_hestonCov sigma y0 theta xi rho t hk
  · exact h3
  · exact hasDerivAt_hestonLogVar x0 mu sigma y0 theta xi rho t hk

end

/-- **C75** (statistics). With a constant correlation `rho` of the noises, mean and variance of the
logarithm of the simulated values of `x`, and of the simulated values of `y`, differ from `heston_log_mean`,
`heston_log_var`, `heston_y_mean` and `heston_y_var` by at most a constant times the longest step. -/
theorem C75_heston_order (x0 mu sigma y0 theta k xi rho : ℝ) (hy : 0 ≤ y0) (hth : 0 < theta)
    (hk : 0 < k) {T : ℝ} (hT : 0 ≤ T) :
    ∃ B δ0 : ℝ, 0 < B ∧ 0 < δ0 ∧ ∀ (σ : Type) [MeasurableSpace σ] (μ : Measure σ)
      [IsProbabilityMeasure μ] (a : Bool) (v : List ℕ) (p : ℕ) (P : HestonParams)
      (dw : Src ℝ (List ℕ) σ) (x y : Arr ℝ) (c : List ℕ) (q : ℕ)
      (fuel : ℕ) (steps : Steps ℝ) (i0 : ℤ) (tl : TArr ℝ) (grid : List ℝ) (t0 δ : ℝ),
      (v = [] → a = true) → HestonInitOk v p x y → InRange v c → q < p →
      bcAt x (c ++ [q]) = x0 → bcAt y (c ++ [q]) = y0 →
      (∀ t, P.mu t (c ++ [q]) = mu ∧ P.sigma t (c ++ [q]) = sigma ∧ P.theta t (c ++ [q]) = theta ∧
        P.k t (c ++ [q]) = k ∧ P.xi t (c ++ [q]) = xi) →
      (∀ t dt, dt ≠ 0 → ∃ N, DrawsLaw μ N (dw t dt) ∧
        CorrNoise rho |dt| (N.map fun w => (w (workCell a v 0 c q), w (workCell a v 1 c q)))) →
      Along fuel steps i0 tl grid t0 → Mesh grid δ → 0 < δ → δ ≤ δ0 →
      ∃ (X Y : ℝ → σ → Arr ℝ) (st : σ → σ),
        (∀ s, fullHestonCall a v p P x y dw fuel steps i0 tl s =
          .ok (tl.data.map fun t => some (X t s, Y t s), st s)) ∧
        ∀ t ∈ tl.data, t0 ≤ t → t ≤ t0 + T →
          MemLp (fun s => log ((X t s).get (c ++ [q]))) 2 μ ∧ MemLp (fun s => (Y t s).get (c ++ [q])) 2 μ ∧
          |∫ s, log ((X t s).get (c ++ [q])) ∂μ -
            hestonLogMean x0 mu sigma y0 theta k xi rho (t - t0)| ≤ B * δ ∧
          |Var[fun s => log ((X t s).get (c ++ [q])); μ] -
            hestonLogVar x0 mu sigma y0 theta k xi rho (t - t0)| ≤ B * δ ∧
          |∫ s, (Y t s).get (c ++ [q]) ∂μ - cirMean y0 theta k xi (t - t0)| ≤ B * δ ∧
          |Var[fun s => (Y t s).get (c ++ [q]); μ] - cirVar y0 theta k xi (t - t0)| ≤ B * δ := by
  obtain ⟨β, hβ, hnear⟩ := cir_near hth hk xi
  have hβ0 := hβ.le
  set M1 := k ^ 2 + k ^ 2 * β + 2 * (1 + k) * k * β + xi ^ 2 * β with hM1
  set M2 := sigma ^ 2 / 2 * k + sigma ^ 2 / 2 * k * β + k * (1 + β) + sigma ^ 2 / 2 * (1 + 2 * k) * β +
        |rho * sigma * xi| * β with hM2
  set M3 := (sigma ^ 2 / 2) ^ 2 * (1 + 3 * β) + sigma ^ 2 * (1 + β) + sigma ^ 2 * β with hM3
  set M := M1 + M2 + M3 + k * β + sigma ^ 2 / 2 * β with hMd
  have q1 : 0 ≤ M1 := by positivity
  have q2 : 0 ≤ M2 := by positivity
  have q3 : 0 ≤ M3 := by positivity
  have q4 : 0 ≤ k * β := by positivity
  have q5 : 0 ≤ sigma ^ 2 / 2 * β := by positivity
  have hM0 : 0 ≤ M := by positivity
  obtain ⟨Λ, hΛ, hG⟩ := hestonField_lipschitz mu sigma theta k xi rho
  obtain ⟨K, hK, hrec⟩ := recursion_order hΛ hG
    (fun t => heston_deriv x0 mu sigma y0 theta xi rho hk.ne' t) hT hM0
  refine ⟨K, min 1 (1 / (2 * k)), hK, by positivity, ?_⟩
  intro σ _ μ _ a v p P dw x y c q fuel steps i0 tl grid t0 δ hL h0 hc hq ex ey hP hw h hm hδ hδ0
  choose! N hw1 hw2 using hw
  obtain ⟨X, Y, st, e, -, hpos, hX⟩ := C75_heston_recursion (P := P) hL h0 hc hq (M := fun t dt =>
    (N t dt).map (fun w => (w (workCell a v 0 c q), w (workCell a v 1 c q))))
    (fun t dt hdt => ⟨N t dt, hw1 t dt hdt, rfl⟩) h
  obtain ⟨h1, h2, h3⟩ := along_mem h
  simp only [ex, ey, (hP _).1, (hP _).2.1, (hP _).2.2.1, (hP _).2.2.2.1, (hP _).2.2.2.2] at hX
  have hδ1 : δ ≤ 1 := hδ0.trans (min_le_left _ _)
  set A : ℝ → σ → ℝ := fun t s => log ((X t s).get (c ++ [q])) with hA
  set W : ℝ → σ → ℝ := fun t s => (Y t s).get (c ++ [q]) with hW
  have step : ∀ a' b, StepOf grid t0 a' b → ∃ Z : σ → ℝ × ℝ, Measurable Z ∧
      IndepFun (fun s => (A a' s, W a' s)) Z μ ∧
      HasLaw (fun s => (Z s).1) (gaussianReal 0 |b - a'|.toNNReal) μ ∧
      HasLaw (fun s => (Z s).2) (gaussianReal 0 |b - a'|.toNNReal) μ ∧
      ∫ s, (Z s).1 * (Z s).2 ∂μ = rho * |b - a'| ∧
      A b = (fun s => (hestonStep mu sigma theta k xi (b - a') (A a' s, W a' s) (Z s)).1) ∧
      W b = (fun s => (hestonStep mu sigma theta k xi (b - a') (A a' s, W a' s) (Z s)).2) := by
    intro a' b hs
    obtain ⟨Z, z1, z2, z3, z4⟩ := hX.step a' b hs
    obtain ⟨l1, l2, l3⟩ := corr_noise (hw2 a' (b - a') (StepOf_ne hs)) z1 z2
    exact ⟨Z, z1, z3, l1, l2, l3, funext fun s => congrArg Prod.fst (z4 s),
      funext fun s => congrArg Prod.snd (z4 s)⟩
  have hn := hnear σ μ grid t0 δ W y0 h.isGrid.1 h2 hm hδ (hδ0.trans (min_le_right _ _)) hy
    (fun s => congrArg Prod.snd (hX.start s)) (fun u hu => measurable_snd.comp (hX.meas u hu))
    (fun a' b hs _ _ => by
      obtain ⟨Z, z1, z2, z3, z4, z5, z6, z7⟩ := step a' b hs
      refine ⟨fun s => (Z s).2, measurable_snd.comp z1, z4, ?_, fun s => congrFun z7 s⟩
      exact z2.comp (φ := Prod.snd) (ψ := Prod.snd) measurable_snd measurable_snd)
  have hA0 : A t0 = fun _ => log x0 := funext fun s => congrArg Prod.fst (hX.start s)
  have hW0 : W t0 = fun _ => y0 := funext fun s => congrArg Prod.snd (hX.start s)
  have hA2 := grid_induction (Q := fun t => t ∈ grid → MemLp (A t) 2 μ) h.isGrid.1 h2
    (fun _ => by rw [hA0]; exact memLp_const _)
    (fun a' b hs ha _ ih _ => by
      obtain ⟨Z, z1, z2, z3, z4, z5, z6, z7⟩ := step a' b hs
      rw [z6]
      exact (hn a' hs.1 ha).log_l2 (ih hs.1) mu sigma theta k xi (b - a') z2 z3)
  have key := hrec grid t0 δ (fun t => ![∫ s, W t s ∂μ, Var[W t; μ], cov[A t, W t; μ], ∫ s, A t s ∂μ,
      Var[A t; μ]]) h.isGrid.1 h2 hm hδ.le hδ1 (by
      simp only [hA0, hW0, variance_eq_sub (memLp_const _), covariance_const_left]
      simp [cirMean, cirVar, hestonCov, hestonLogMean, hestonLogVar]
      ring) (by
      intro a' b hs ha hab _
      obtain ⟨Z, z1, z2, z3, z4, z5, z6, z7⟩ := step a' b hs
      have hd : b - a' ≤ δ := by
        obtain ⟨m1, m2, ⟨-, -, h3⟩ | ⟨-, h2, -⟩⟩ := hs
        · exact hm a' m1 b m2 hab h3
        · exact absurd hab (not_lt.2 h2.le)
      have hab0 : 0 < b - a' := sub_pos.2 hab
      have hna := hn a' hs.1 ha
      set F : Fin 5 → ℝ := ![∫ s, W a' s ∂μ, Var[W a'; μ], cov[A a', W a'; μ], ∫ s, A a' s ∂μ,
        Var[A a'; μ]] with hF
      have nF : ∀ i, |F i| ≤ ‖F‖ := fun i => norm_le_pi_norm F i
      obtain ⟨s1, s2⟩ := hna.step_error hδ1 hk.le theta xi hab0.le hd hβ0
        (Z := fun s => (Z s).2) (z2.comp (φ := Prod.snd) (ψ := Prod.snd) measurable_snd measurable_snd) z4
      obtain ⟨r1, r2, r3⟩ := hna.log_error (hA2 a' hs.1 ha hs.1) hδ1 hβ0 hk.le mu sigma theta xi hab0 hd z2
        z3 z4 z5 (R := ‖F‖) (nF 0) ((le_abs_self _).trans (nF 1)) ((le_abs_self _).trans (nF 4))
      rw [pi_norm_le_iff_of_nonneg (by positivity)]
      have up : ∀ {e C : ℝ}, |e| ≤ C * δ * (b - a') * (1 + ‖F‖) → C ≤ M →
          ‖e‖ ≤ M * δ * (b - a') * (1 + ‖F‖) := by
        intro e C he hC
        refine he.trans ?_
        gcongr
      intro i
      fin_cases i
      · refine up (C := k * β) ?_ (by linarith)
        refine le_trans (le_of_eq ?_) (s1.trans (le_mul_of_one_le_right (by positivity)
          (by linarith [norm_nonneg F])))
        simp [hF, hestonField, z7, hestonStep]
      · refine up (C := M1) ?_ (by linarith)
        refine le_trans (le_of_eq ?_) (s2.trans ?_)
        · simp [hF, hestonField, z7, hestonStep]
        · gcongr
          exact max_le (nF 0) (nF 1)
      · refine up (C := M2) (le_trans (le_of_eq ?_) r2) (by linarith)
        simp [hF, hestonField, z6, z7]
      · refine up (C := sigma ^ 2 / 2 * β) (le_trans (le_of_eq ?_) r1) (by linarith)
        simp [hF, hestonField, z6]
      · refine up (C := M3) (le_trans (le_of_eq ?_) r3) (by linarith)
        simp [hF, hestonField, z6])
  refine ⟨X, Y, st, e, fun t ht hle hT' => ⟨hA2 t (h3 t ht) hle (h3 t ht), (hn t (h3 t ht) hle).l2, ?_⟩⟩
  have kt := key t (h3 t ht) hle hT'
  have ki := fun i => (norm_le_pi_norm _ i).trans kt
  exact ⟨ki 3, ki 4, ki 0, ki 1⟩

/-- **C75** (number of steps). With enough integration steps, mean and variance of the logarithm of the values
simulated at the times of a timeline are as near as wanted to `heston_log_mean` and `heston_log_var`. -/
theorem C75_heston_steps (x0 mu sigma y0 theta k xi rho : ℝ) (hy : 0 ≤ y0) (hth : 0 < theta)
    (hk : 0 < k) (tl : TArr ℝ) {ε : ℝ} (hε : 0 < ε) :
    ∃ N : ℕ, ∀ (σ : Type) [MeasurableSpace σ] (μ : Measure σ)
      [IsProbabilityMeasure μ] (a : Bool) (v : List ℕ) (p : ℕ) (P : HestonParams)
      (dw : Src ℝ (List ℕ) σ) (x y : Arr ℝ) (c : List ℕ) (q : ℕ)
      (fuel n : ℕ) (i0 : ℤ) (grid : List ℝ) (t0 : ℝ), N ≤ n →
      (v = [] → a = true) → HestonInitOk v p x y → InRange v c → q < p →
      bcAt x (c ++ [q]) = x0 → bcAt y (c ++ [q]) = y0 →
      (∀ t, P.mu t (c ++ [q]) = mu ∧ P.sigma t (c ++ [q]) = sigma ∧ P.theta t (c ++ [q]) = theta ∧
        P.k t (c ++ [q]) = k ∧ P.xi t (c ++ [q]) = xi) →
      (∀ t dt, dt ≠ 0 → ∃ N, DrawsLaw μ N (dw t dt) ∧
        CorrNoise rho |dt| (N.map fun w => (w (workCell a v 0 c q), w (workCell a v 1 c q)))) →
      Along fuel (.int n) i0 tl grid t0 →
      ∃ (X Y : ℝ → σ → Arr ℝ) (st : σ → σ),
        (∀ s, fullHestonCall a v p P x y dw fuel (.int n) i0 tl s =
          .ok (tl.data.map fun t => some (X t s, Y t s), st s)) ∧
        ∀ t ∈ tl.data, t0 ≤ t →
          |∫ s, log ((X t s).get (c ++ [q])) ∂μ -
            hestonLogMean x0 mu sigma y0 theta k xi rho (t - t0)| ≤ ε ∧
          |Var[fun s => log ((X t s).get (c ++ [q])); μ] -
            hestonLogVar x0 mu sigma y0 theta k xi rho (t - t0)| ≤ ε := by
  set a := tl.data.head?.getD 0 with ha'
  set b := tl.data.getLast?.getD 0 with hb'
  obtain ⟨B, δ0, hB, hδ0, h⟩ := C75_heston_order x0 mu sigma y0 theta k xi rho hy hth hk
    (T := |b - a|) (abs_nonneg _)
  have hpos : 0 < min δ0 (ε / B) := lt_min hδ0 (by positivity)
  obtain ⟨N, hN⟩ := exists_nat_gt (|b - a| / min δ0 (ε / B))
  refine ⟨N + 2, ?_⟩
  intro σ _ μ _ a' v p P dw x y c q fuel n i0 grid t0 hn hL h0 hc hq ex ey hP hw hal
  obtain ⟨h1, h2, h3⟩ := along_mem hal
  have hhead : tl.data.head? = some a := by
    cases hl : tl.data with
    | nil => rw [hl] at h1; simp at h1
    | cons x l => simp [ha', hl]
  have hlast : tl.data.getLast? = some b := by
    cases hl : tl.data.getLast? with
    | none => rw [List.getLast?_eq_none_iff] at hl; rw [hl] at h1; simp at h1
    | some x => simp [hb', hl]
  have hm := C65_mesh (by omega) hal hhead hlast
  have hn' : (N : ℝ) + 1 ≤ n - 1 := by
    have : ((N + 2 : ℕ) : ℝ) ≤ n := by exact_mod_cast hn
    push_cast at this; linarith
  have hN0 : (0 : ℝ) ≤ N := N.cast_nonneg
  have hsm : (b - a) / (n - 1) ≤ min δ0 (ε / B) := by
    rw [div_le_iff₀ (by linarith)]
    rw [div_lt_iff₀ hpos] at hN
    calc b - a ≤ |b - a| := le_abs_self _
      _ ≤ min δ0 (ε / B) * N := by rw [mul_comm]; exact hN.le
      _ ≤ _ := by gcongr; linarith
  obtain ⟨X, Y, st, e, hX⟩ := h σ μ a' v p P dw x y c q fuel (.int n) i0 tl grid t0 (min δ0 (ε / B)) hL h0
    hc hq ex ey hP hw hal (fun x hx y hy hxy hc => (hm x hx y hy hxy hc).trans hsm) hpos (min_le_left _ _)
  refine ⟨X, Y, st, e, fun t ht hle => ?_⟩
  obtain ⟨-, -, l1, l2, -⟩ := hX t ht hle (by
    have hr := bounds_of_valid hal.valid.2 hhead hlast
    have := (hr t ht).2
    have := (hr t0 h1).1
    linarith [le_abs_self (b - a)])
  have hB' : B * min δ0 (ε / B) ≤ ε := by
    calc B * min δ0 (ε / B) ≤ B * (ε / B) := by gcongr; exact min_le_right _ _
      _ = ε := by field_simp
  exact ⟨l1.trans hB', l2.trans hB'⟩

/-! ### The source of noise -/

section
variable {σ : Type} [MeasurableSpace σ] {μ : Measure σ} [IsProbabilityMeasure μ]

instance {M : ℕ} (C : Matrix (Fin M) (Fin M) ℝ) : IsProbabilityMeasure (mvnLaw C) := by
  unfold mvnLaw
  exact Measure.isProbabilityMeasure_map (by fun_prop)

theorem inRange_swap {pre : List ℕ} {M p : ℕ} {i : List ℕ} (h : InRange (pre ++ [M, p]) i) :
    ∃ c k q, i = c ++ [k, q] ∧ InRange pre c ∧ k < M ∧ q < p := by
  obtain ⟨c, j, rfl, hc, hj⟩ := h.of_append
  obtain ⟨k, q, rfl, hk, hq⟩ := inRange_pair.1 hj
  exact ⟨c, k, q, rfl, hc, hk, hq⟩

theorem inRange_two_last {pre : List ℕ} {M p : ℕ} {c : List ℕ} {k q : ℕ} (hc : InRange pre c) (hk : k < M)
    (hq : q < p) : InRange (pre ++ [M, p]) (c ++ [k, q]) :=
  (inRange_append hc.length).2 ⟨hc, inRange_pair.2 ⟨k, q, rfl, hk, hq⟩⟩

/-- **C75** (correlated noise). The increments of a `wiener_source` with a constant correlation matrix `C`: the
values of components `i` and `j` of the last axis, for the same path, are normal with correlation `C[i, j]`. -/
theorem C75_corr_noise {rng : Rng σ} (hr : MvnDraws μ rng) {pre : List ℕ} {M p : ℕ} {C : Arr ℝ}
    (hs : C.shape = [M, M]) (hC : (toMatrix M C).PosSemidef) (h1 : ∀ k, toMatrix M C k k = 1)
    (t dt : ℝ) :
    ∃ N, DrawsLaw μ N (wienerAt ⟨p, pre ++ [M], .arr C⟩ rng t dt) ∧
      ∀ c, InRange pre c → ∀ q < p, ∀ i j : Fin M, CorrNormal (C.get [i, j]) |dt|
        (N.map fun w => (w (c ++ [(i : ℕ), q]), w (c ++ [(j : ℕ), q]))) := by
  classical
  let φ : (Cells (pre ++ [p]) → Fin M → ℝ) → List ℕ → ℝ := fun x i =>
    if h : ∃ (c : Cells (pre ++ [p])) (k : Fin M), ∃ q, i = c.1.dropLast ++ [(k : ℕ), q] ∧
      c.1 = c.1.dropLast ++ [q] then x h.choose h.choose_spec.choose * √|dt| else 0
  have hφ : ∀ x c (hc : InRange pre c) q (hq : q < p) (k : Fin M), φ x (c ++ [(k : ℕ), q]) =
      x ⟨c ++ [q], inRange_snoc hc hq⟩ k * √|dt| := by
    intro x c hc q hq k
    have h : ∃ (c' : Cells (pre ++ [p])) (k' : Fin M), ∃ q', c ++ [(k : ℕ), q] =
        c'.1.dropLast ++ [(k' : ℕ), q'] ∧ c'.1 = c'.1.dropLast ++ [q'] :=
      ⟨⟨c ++ [q], inRange_snoc hc hq⟩, k, q, by simp, by simp⟩
    simp only [φ]
    rw [dif_pos h]
    obtain ⟨q', e1, e2⟩ := h.choose_spec.choose_spec
    obtain ⟨e3, e4⟩ := List.append_inj' e1 rfl
    simp only [List.cons.injEq, and_true] at e4
    have a1 : h.choose = ⟨c ++ [q], inRange_snoc hc hq⟩ := Subtype.ext (by
      rw [e2, ← e3, ← e4.2])
    have a2 : h.choose_spec.choose = k := Fin.ext e4.1.symm
    rw [a2, a1]
  have mφ : Measurable φ := by
    refine measurable_pi_iff.2 fun i => ?_
    simp only [φ]
    split_ifs
    · fun_prop
    · fun_prop
  have hφ0 : ∀ x i, ¬ InRange (pre ++ [M, p]) i → φ x i = 0 := by
    intro x i hi
    simp only [φ]
    rw [dif_neg]
    rintro ⟨c, k, q, e1, e2⟩
    apply hi
    have hc := c.2
    rw [e2] at hc
    obtain ⟨c1, c2, e3, h2, h3⟩ := hc.of_append
    obtain ⟨q', rfl, hq'⟩ := inRange_singleton.1 h3
    obtain ⟨e4, e5⟩ := List.append_inj' e3 rfl
    simp only [List.cons.injEq, and_true] at e5
    rw [e1, e4, e5]
    exact inRange_two_last h2 k.2 hq'
  have hd := (hr M C hs hC (pre ++ [p])).map mφ
  refine ⟨(Measure.pi fun _ : Cells (pre ++ [p]) => mvnLaw (toMatrix M C)).map φ, ?_, ?_⟩
  · convert hd using 1
    funext s
    have hb : broadcast2 (Arr.scalar t) (Arr.scalar dt) = .ok (.scalar t, .scalar dt) := rfl
    have hlast : (pre ++ [M]).getLast? = some M := by simp
    have hcov : covOf C = .ok C := by
      unfold covOf; rw [hs]
    simp only [wienerAt, wienerCall, hb, wienerStd, hlast, hcov, Rng.mvnZ, if_pos hs,
      List.dropLast_concat]
    have hsh : (⟨(Arr.scalar dt).shape ++ pre ++ [p] ++ [M], fun i => (rng.mvn M C ((Arr.scalar dt).shape ++
        pre ++ [p]) s).1 i.dropLast (i.getLastD 0)⟩ : Arr ℝ).swapaxes.shape = pre ++ [M, p] := by
      rw [swapaxes_shape _ (l := (Arr.scalar dt).shape ++ pre) (x := p) (y := M) (by simp)]
      simp [Arr.scalar]
    rw [if_neg (not_not.2 (by rw [hsh]; simp [Arr.scalar]))]
    simp only [hsh, Except.map, Except.ok.injEq, Prod.mk.injEq]
    refine ⟨?_, by simp [Arr.scalar]⟩
    funext i
    by_cases hi : InRange (pre ++ [M, p]) i
    · rw [if_pos hi]
      obtain ⟨c, k, q, rfl, hc, hk, hq⟩ := inRange_swap hi
      refine Eq.trans ?_ (hφ (fun c k => (rng.mvn M C (pre ++ [p]) s).1 c k) c hc q hq
        ⟨k, hk⟩).symm
      rw [swapaxes_get]
      have e1 : (c ++ [q, k]).getLastD 0 = k := by simp
      have e2 : (c ++ [q, k]).dropLast = c ++ [q] := by
        rw [show c ++ [q, k] = (c ++ [q]) ++ [k] by simp, List.dropLast_concat]
      simp only [e1, e2, Arr.scalar, List.nil_append]
    · rw [if_neg hi]
      exact (hφ0 (fun c k => (rng.mvn M C (pre ++ [p]) s).1 c k) i hi).symm
  · intro c hc q hq i j
    have hp := mvn_pair hC h1 i j dt
    have mp := measurePreserving_eval (fun _ : Cells (pre ++ [p]) => mvnLaw (toMatrix M C))
      ⟨c ++ [q], inRange_snoc hc hq⟩
    rw [← mp.map_eq, Measure.map_map (by fun_prop) (by fun_prop)] at hp
    rw [Measure.map_map (by fun_prop) mφ]
    have e : ((fun w : List ℕ → ℝ => (w (c ++ [(i : ℕ), q]), w (c ++ [(j : ℕ), q]))) ∘ φ) =
        (fun y : Fin M → ℝ => (y i * √|dt|, y j * √|dt|)) ∘
          Function.eval ⟨c ++ [q], inRange_snoc hc hq⟩ := by
      funext x
      simp only [Function.comp_apply, hφ _ c hc q hq]
    rw [e]
    exact hp

/-- **C75** (independent noise). Without correlations, the increments of a `wiener_source` at different cells
are normal and not correlated. -/
theorem C75_plain_noise {rng : Rng σ} (hr : NormalDraws μ rng) {shape : List ℕ} {p : ℕ} (t dt : ℝ) :
    ∃ N, DrawsLaw μ N (wienerAt ⟨p, shape, .none⟩ rng t dt) ∧
      ∀ i j, InRange (shape ++ [p]) i → InRange (shape ++ [p]) j → i ≠ j →
        CorrNormal 0 |dt| (N.map fun w => (w i, w j)) := by
  have mφ : Measurable fun (x : Cells (shape ++ [p]) → ℝ) (i : List ℕ) =>
      if h : InRange (shape ++ [p]) i then x ⟨i, h⟩ else 0 := by
    refine measurable_pi_iff.2 fun i => ?_
    split_ifs
    · fun_prop
    · fun_prop
  have hd := (C66_noise (W := ⟨p, shape, .none⟩) rfl hr t dt).map mφ
  refine ⟨(Measure.pi fun _ : Cells (shape ++ [p]) => gaussianReal 0 |dt|.toNNReal).map
    fun x i => if h : InRange (shape ++ [p]) i then x ⟨i, h⟩ else 0, ?_, ?_⟩
  · convert hd using 1
    funext s
    have hb : broadcast2 (Arr.scalar t) (Arr.scalar dt) = .ok (.scalar t, .scalar dt) := rfl
    simp only [wienerAt, wienerCells, wienerCall, hb, wienerStd, Except.map]
    simp only [Arr.scalar, List.nil_append, Except.ok.injEq, Prod.mk.injEq, and_true]
    funext i
    by_cases hi : InRange (shape ++ [p]) i
    · rw [dif_pos hi]; exact if_pos hi
    · rw [dif_neg hi]; exact if_neg hi
  · intro i j hi hj hij
    rw [Measure.map_map (by fun_prop) mφ]
    have e : ((fun w : List ℕ → ℝ => (w i, w j)) ∘ fun (x : Cells (shape ++ [p]) → ℝ) (i : List ℕ) =>
        if h : InRange (shape ++ [p]) i then x ⟨i, h⟩ else 0) = fun x => (x ⟨i, hi⟩, x ⟨j, hj⟩) := by
      funext x
      simp [hi, hj]
    rw [e]
    have mp := fun k : Cells (shape ++ [p]) => (measurePreserving_eval
      (fun _ : Cells (shape ++ [p]) => gaussianReal 0 |dt|.toNNReal) k)
    have hpair : (Measure.pi fun _ : Cells (shape ++ [p]) => gaussianReal 0 |dt|.toNNReal).map
        (fun x => (x ⟨i, hi⟩, x ⟨j, hj⟩)) =
        (gaussianReal 0 |dt|.toNNReal).prod (gaussianReal 0 |dt|.toNNReal) := by
      have hind := (iIndepFun_pi (μ := fun _ : Cells (shape ++ [p]) => gaussianReal 0 |dt|.toNNReal)
        (X := fun _ => id) (fun _ => aemeasurable_id)).indepFun
        (i := ⟨i, hi⟩) (j := ⟨j, hj⟩) (by simpa using hij)
      have := (indepFun_iff_map_prod_eq_prod_map_map (measurable_pi_apply _).aemeasurable
        (measurable_pi_apply _).aemeasurable).1 hind
      refine Eq.trans this ?_
      congr 1
      · exact (mp ⟨i, hi⟩).map_eq
      · exact (mp ⟨j, hj⟩).map_eq
    unfold CorrNormal
    rw [hpair]
    simp

/-- The shape of noises for a system of two equations. -/
theorem wshape_two (a : Bool) (v : List ℕ) (p : ℕ) : (⟨2, a, v, p⟩ : Layout).wshape =
    if a then v ++ [2] else v.dropLast ++ [v.getLastD 0 * 2] := rfl

/-- **C75** (`rho`). Given `rho`, the source set up for a Heston process drives `x` and `y`, in each component,
by normal noises whose correlation is the item of `rho` for that component. -/
theorem C75_rho {rng : Rng σ} (hr : MvnDraws μ rng) {a : Bool} {v : List ℕ} (hL : v = [] → a = true) (p : ℕ)
    {R : Arr ℝ} {n : ℕ} {r : ℕ → ℝ} (hR : RhoArr R n r) (h1 : ∀ i < n, |r i| ≤ 1)
    (hn : n = if a then 1 else v.getLastD 0) :
    ∃ W, wienerNew p (if a then v ++ [2] else v.dropLast ++ [v.getLastD 0 * 2]) .none (.arr R) = .ok W ∧
      ∀ c q, InRange v c → q < p → ∀ t dt, ∃ N, DrawsLaw μ N (wienerAt W rng t dt) ∧
        CorrNormal (r (if a then 0 else c.getLastD 0)) |dt|
          (N.map fun w => (w (workCell a v 0 c q), w (workCell a v 1 c q))) := by
  obtain ⟨-, -, hnew⟩ := C21_new p (if a then v ++ [2] else v.dropLast ++ [v.getLastD 0 * 2])
  set pre := if a then v else v.dropLast with hpre
  have hsh : (if a then v ++ [2] else v.dropLast ++ [v.getLastD 0 * 2]) = pre ++ [2 * n] := by
    rw [hn, hpre]; split_ifs <;> simp [mul_comm]
  obtain ⟨C, hC, hW⟩ := (hnew R n r hR).1 ⟨pre, hsh⟩
  obtain ⟨-, p1, p2⟩ := C32_psd hC
  refine ⟨_, hW, fun c q hc hq t dt => ?_⟩
  rw [hsh]
  obtain ⟨N, d1, d2⟩ := C75_corr_noise hr (pre := pre) (p := p) hC.1 (p2.2 h1) p1 t dt
  refine ⟨N, d1, ?_⟩
  cases a with
  | true =>
    simp only [if_true] at hn hpre
    subst hn
    have := d2 c (by rw [hpre]; exact hc) q hq 0 1
    have e := hC.2 0 (by norm_num) 1 (by norm_num)
    simp only [zero_ne_one, if_false, add_zero, if_true] at e
    simp only [if_true]
    rw [← e]
    exact this
  | false =>
    simp only [Bool.false_eq_true, if_false] at hn hpre
    have hv : v ≠ [] := fun h => by simp [h] at hL
    have ev : v = pre ++ [n] := by
      rw [hpre, hn]
      simp [List.getLastD_eq_getLast?, List.getLast?_eq_some_getLast hv, List.dropLast_append_getLast hv]
    have hc' := hc
    rw [ev] at hc'
    obtain ⟨c1, c2, rfl, hc1, hc2⟩ := hc'.of_append
    obtain ⟨k, rfl, hk⟩ := inRange_singleton.1 hc2
    have := d2 c1 hc1 q hq ⟨k, by omega⟩ ⟨n + k, by omega⟩
    rw [hC.2 k (by omega) (n + k) (by omega), if_neg (by omega), if_pos rfl] at this
    have e : v.getLastD 0 = n := hn.symm
    simp only [workCell, Bool.false_eq_true, if_false, e]
    simpa using this

end

/-! ### Examples

A generator whose state is a sequence of items, each holding an answer to each possible request. -/

section

/-- The answers to a request of normal variates, and to one of multivariate normal ones. -/
abbrev GaussItem := ((size : List ℕ) → Cells size → ℝ) ×
  ((r : (Σ M : ℕ, Matrix (Fin M) (Fin M) ℝ) × List ℕ) → Cells r.2 → Fin r.1.1 → ℝ)

noncomputable def gaussItemLaw : Measure GaussItem :=
  (Measure.infinitePi fun size : List ℕ => Measure.pi fun _ : Cells size => gaussianReal 0 1).prod
    (Measure.infinitePi fun r : (Σ M : ℕ, Matrix (Fin M) (Fin M) ℝ) × List ℕ =>
      Measure.pi fun _ : Cells r.2 => mvnLaw r.1.2)

instance : IsProbabilityMeasure gaussItemLaw := by
  unfold gaussItemLaw; infer_instance

open Classical in
noncomputable def gaussRng : Rng (ℕ → GaussItem) where
  normal size s := (fun i => if h : InRange size i then (s 0).1 size ⟨i, h⟩ else 0, fun n => s (n + 1))
  mvn M C size s := (fun i k => if h : InRange size i ∧ k < M then
    (s 0).2 (⟨M, toMatrix M C⟩, size) ⟨i, h.1⟩ ⟨k, h.2⟩ else 0, fun n => s (n + 1))

theorem gaussRng_normal : NormalDraws (Measure.infinitePi fun _ : ℕ => gaussItemLaw) gaussRng := by
  intro size
  have h := stream_draws (m := gaussItemLaw) (ν := Measure.pi fun _ : Cells size => gaussianReal 0 1)
    (f := fun e => e.1 size) (by fun_prop) ?_
  · convert h using 1
    funext s
    simp only [gaussRng, Except.ok.injEq, Prod.mk.injEq, and_true]
    funext c
    rw [dif_pos c.2]
  · have e : (fun e : GaussItem => e.1 size) = (fun x => x size) ∘ Prod.fst := rfl
    rw [e, ← Measure.map_map (by fun_prop) (by fun_prop), gaussItemLaw, Measure.map_fst_prod, measure_univ,
      one_smul, Measure.infinitePi_map_eval]

theorem gaussRng_mvn : MvnDraws (Measure.infinitePi fun _ : ℕ => gaussItemLaw) gaussRng := by
  intro M C _ _ size
  have h := stream_draws (m := gaussItemLaw)
    (ν := Measure.pi fun _ : Cells size => mvnLaw (toMatrix M C))
    (f := fun e => e.2 (⟨M, toMatrix M C⟩, size)) (by fun_prop) ?_
  · convert h using 1
    funext s
    simp only [gaussRng, Except.ok.injEq, Prod.mk.injEq, and_true]
    funext c k
    rw [dif_pos ⟨c.2, k.2⟩]
  · have e : (fun e : GaussItem => e.2 (⟨M, toMatrix M C⟩, size)) =
      (fun x => x (⟨M, toMatrix M C⟩, size)) ∘ Prod.snd := rfl
    rw [e, ← Measure.map_map (by fun_prop) (by fun_prop), gaussItemLaw, Measure.map_snd_prod, measure_univ,
      one_smul, Measure.infinitePi_map_eval]

/-- A process with two components, that have different correlations of price and variance. -/
theorem exHestonRho : ∃ W, wienerNew 3 [4] .none (.arr ⟨[2], fun i => 1 / 2 - i.headD 0⟩) = .ok W ∧
      ∀ c q, InRange [2] c → q < 3 → ∀ t dt, ∃ N,
        DrawsLaw (Measure.infinitePi fun _ : ℕ => gaussItemLaw) N (wienerAt W gaussRng t dt) ∧
        CorrNormal (1 / 2 - (c.getLastD 0 : ℕ)) |dt|
          (N.map fun w => (w (workCell false [2] 0 c q), w (workCell false [2] 1 c q))) :=
  C75_rho gaussRng_mvn (a := false) (v := [2]) (by simp) 3 (R := ⟨[2], fun i => 1 / 2 - i.headD 0⟩) (n := 2)
    (r := fun k => 1 / 2 - k) (.vec 2 fun i => (1 / 2 - (i.headD 0 : ℕ) : ℝ))
    (by intro i hi; rcases (by omega : i = 0 ∨ i = 1) with rfl | rfl <;> norm_num [abs_le]) rfl

/-- A scalar process, for which an axis is added. -/
example := C75_rho gaussRng_mvn (a := true) (v := []) (by simp) 3 (n := 1) (.scalar fun _ => -1 / 2)
    (by intro i hi; norm_num [abs_le]) rfl

example : ∃ N, DrawsLaw (Measure.infinitePi fun _ : ℕ => gaussItemLaw) N
      (wienerAt ⟨3, [4], .none⟩ gaussRng 1 (-2)) ∧
    CorrNormal 0 |(-2 : ℝ)| (N.map fun w => (w [1, 2], w [3, 2])) := by
  obtain ⟨N, h1, h2⟩ := C75_plain_noise gaussRng_normal (shape := [4]) (p := 3) 1 (-2)
  exact ⟨N, h1, h2 _ _ (by decide) (by decide) (by decide)⟩

/-- Parameters that depend on time. -/
example : ∃ (X Y : ℝ → (ℕ → GaussItem) → Arr ℝ) (st : (ℕ → GaussItem) → ℕ → GaussItem) (W : WienerSrc),
    (∀ s, fullHestonCall false [2] 3 ⟨fun t _ => t, fun _ _ => 2, fun _ _ => 3, fun t _ => 4 * t, fun _ _ => 5⟩
      (.scalar 10) ⟨[2, 1], fun i => i.headD 0⟩ (wienerAt W gaussRng) 10 .none 0 ⟨[2], [1, 2]⟩ s =
        .ok ([some (X 1 s, Y 1 s), some (X 2 s, Y 2 s)], st s)) ∧ ∀ t s, 0 < (X t s).get [1, 2] := by
  obtain ⟨W, -, hW⟩ := exHestonRho
  have hw := fun t dt => hW [1] 2 (by decide) (by decide) t dt
  choose N hN hc using hw
  obtain ⟨X, Y, st, e, -, hp, -⟩ := C75_heston_recursion (a := false) (v := [2]) (p := 3)
    (P := ⟨fun t _ => t, fun _ _ => 2, fun _ _ => 3, fun t _ => 4 * t, fun _ _ => 5⟩) (by simp)
    (x0 := .scalar 10) (y0 := ⟨[2, 1], fun i => i.headD 0⟩) (by unfold HestonInitOk; decide)
    (c := [1]) (q := 2) (by decide) (by decide) (fun t dt _ => ⟨N t dt, hN t dt, rfl⟩) exAlongR
  exact ⟨X, Y, st, W, e, hp⟩

/-- The mean of the values simulated after one unit of time, with drift 3. -/
example : ∃ (X : ℝ → (ℕ → GaussItem) → Arr ℝ) (st : (ℕ → GaussItem) → ℕ → GaussItem) (W : WienerSrc),
    (∀ s, hestonCall false [2] 3 ⟨fun _ _ => 3, fun t _ => t, fun _ _ => 3, fun t _ => 4 * t, fun _ _ => 5⟩
      (.scalar 10) (.scalar 1) (wienerAt W gaussRng) 10 .none 0 ⟨[2], [1, 2]⟩ s =
        .ok ([some (X 1 s), some (X 2 s)], st s)) ∧
    ∫ s, (X 2 s).get [1, 2] ∂(Measure.infinitePi fun _ : ℕ => gaussItemLaw) = 10 * exp 3 := by
  obtain ⟨W, -, hW⟩ := exHestonRho
  obtain ⟨X, st, e, h⟩ := C75_heston_mean (a := false) (v := [2]) (p := 3)
    (P := ⟨fun _ _ => 3, fun t _ => t, fun _ _ => 3, fun t _ => 4 * t, fun _ _ => 5⟩) (by simp)
    (x0 := .scalar 10) (y0 := .scalar 1) (by unfold HestonInitOk; decide)
    (c := [1]) (q := 2) (by decide) (by decide) (fun t dt _ => by
      obtain ⟨N, h1, h2⟩ := hW [1] 2 (by decide) (by decide) t dt
      refine ⟨N, h1, ?_⟩
      rw [← (corrNormal_noise (by norm_num [abs_le]) (abs_nonneg _) h2).fst, Measure.map_map (by fun_prop) (by fun_prop)]
      rfl) (by simp [bcAt, Arr.scalar]) (mu := 3) (fun _ => rfl) exAlongR
  have := (h 2 (by simp) (by norm_num)).2
  refine ⟨X, st, W, e, ?_⟩
  simp only [List.cons_append, List.nil_append] at this
  rw [this]
  norm_num [bcAt, Arr.scalar]

/-- With enough steps, the variance of the logarithm of the values simulated is near `heston_log_var`, with the
correlation given for the component. -/
example : ∃ (N fuel : ℕ) (X Y : ℝ → (ℕ → GaussItem) → Arr ℝ) (st : (ℕ → GaussItem) → ℕ → GaussItem)
    (W : WienerSrc), wienerNew 3 [4] .none (.arr ⟨[2], fun i => 1 / 2 - i.headD 0⟩) = .ok W ∧
    (∀ s, fullHestonCall false [2] 3 exParams (.scalar 10) (.scalar 1) (wienerAt W gaussRng) fuel (.int N) 0
      ⟨[2], [1, 2]⟩ s = .ok ([some (X 1 s, Y 1 s), some (X 2 s, Y 2 s)], st s)) ∧
    |Var[fun s => log ((X 2 s).get [1, 2]); Measure.infinitePi fun _ : ℕ => gaussItemLaw] -
      hestonLogVar 10 1 2 1 3 4 5 (-1 / 2) 1| ≤ 1 / 1000 := by
  obtain ⟨N, h⟩ := C75_heston_steps 10 1 2 1 3 4 5 (-1 / 2) (by norm_num) (by norm_num) (by norm_num)
    ⟨[2], [1, 2]⟩ (ε := 1 / 1000) (by norm_num)
  obtain ⟨fuel, grid, hal⟩ := along_of_valid (steps := .int N) (i0 := 0) (tl := ⟨[2], [1, 2]⟩)
    (i := 0) (t0 := 1) ⟨rfl, by simp⟩ ⟨by simp, .inl rfl⟩ rfl (by rintro _ ⟨⟩; simp)
  obtain ⟨W, hn, hW⟩ := exHestonRho
  obtain ⟨X, Y, st, e, hX⟩ := h _ (Measure.infinitePi fun _ : ℕ => gaussItemLaw) false [2] 3 exParams
    (wienerAt W gaussRng) (.scalar 10) (.scalar 1) [1] 2 fuel N 0 grid 1 le_rfl (by simp)
    (by unfold HestonInitOk; decide) (by decide) (by decide) (by simp [bcAt, Arr.scalar])
    (by simp [bcAt, Arr.scalar]) (fun _ => ⟨rfl, rfl, rfl, rfl, rfl⟩) (fun t dt _ => by
      obtain ⟨N, h1, h2⟩ := hW [1] 2 (by decide) (by decide) t dt
      rw [show (1 / 2 - (([1] : List ℕ).getLastD 0 : ℕ) : ℝ) = -1 / 2 by norm_num] at h2
      exact ⟨N, h1, corrNormal_noise (by norm_num [abs_le]) (abs_nonneg _) h2⟩) hal
  have := (hX 2 (by simp) (by norm_num)).2
  norm_num at this
  exact ⟨N, fuel, X, Y, st, W, hn, e, by norm_num; exact this⟩

end

end Sdepy
