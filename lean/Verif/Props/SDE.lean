import Verif.Lemmas.SDE
import Mathlib.Analysis.SpecialFunctions.Log.Basic

/-!
# Properties C02, C09, C11: integration of a stochastic differential equation
-/

set_option linter.unusedSectionVars false
set_option linter.unusedSimpArgs false

namespace Sdepy

open Spec BigOperators

variable {T X O Id σ : Type} [Field T] [LinearOrder T] [IsStrictOrderedRing T] [CommRing X]
  [LinearOrder Id]

/-! ### C02 -/

section
variable {T X O Id σ : Type} [Zero T] [One T] [Neg T] [Sub T] [Mul T] [LinearOrder T] [Linspace T] [SignOk T]
  [Zero X] [Add X] [Mul X] [LinearOrder Id]

/-- **C02.** The same in any arithmetic, with no laws assumed on operations (they may be rounded): calling an
integrated SDE returns, at each point of the timeline, the value computed step by step along the merged grid,
where each step adds, to the value reached, the sum of the products of coefficients and differentials, taken
from zero in the order in which the dictionary returned by `sde` lists its entries. -/
theorem C02_rounded (S : SDE T X O Id σ) (hS : DictOk S.sources) (fuel : ℕ) (steps : Steps T) (i0 : ℤ)
    (tl : TArr T) (s : σ) (hv : ValidTimeline tl) {i : ℕ} (hi : Designates tl.data.length i0 i)
    (hst : ∀ n : ℤ, steps = .int n → 0 ≤ n) {grid : List T} (hg : IsGrid steps tl.data grid)
    {t0 : T} (h0 : tl.data[i]? = some t0) (hfuel : grid.length ≤ fuel) :
    S.call fuel steps i0 tl s =
      (do let x0 ← S.init t0
          let (ps, s) ← solutionOf (roundedStep S) t0 (if S.log then S.logX x0 else x0) grid s
          pure (tl.data.map fun t => (ps.lookup t).map fun x =>
            if S.log then S.expO (S.letX t x) else S.letX t x, s)) := by
  have hmt : t0 ∈ tl.data := List.mem_of_getElem? h0
  have hmem : t0 ∈ grid := (hg.2 t0).2 (.inl hmt)
  have he := depth2_enough hg hmt
  have hdep : S.toPGen.depth = 2 := rfl
  have h5 := C05_two_way S.toPGen S.stepFun (toPGen_nonAdaptive S) fuel steps i0 tl s
    (by rw [hdep]) hv hi hst hg h0 (fun _ => by rw [hdep]; exact he.1)
    (fun _ => by rw [hdep]; exact he.2) hfuel
  rw [twoWay_pure S.toPGen S.stepFun S.letX (toPGen_pure S) _ _ grid tl.data t0 s hmt hmem hg.1,
    twoWay_solutionOf S hS steps i0 hv.2 hi h0 hg s] at h5
  have hcall : S.call fuel steps i0 tl s = (callPG S.toPGen fuel steps i0 tl s).map
      (fun r => (S.exitX r.xx, r.s)) := by
    unfold SDE.call
    cases callPG S.toPGen fuel steps i0 tl s <;> rfl
  have hfact : (callPG S.toPGen fuel steps i0 tl s).map (fun r => (S.exitX r.xx, r.s)) =
      ((callPG S.toPGen fuel steps i0 tl s).map (fun r => (r.xx, r.s, r.t0))).map
        (fun r => (S.exitX r.1, r.2.1)) := by
    cases callPG S.toPGen fuel steps i0 tl s <;> rfl
  rw [hcall, hfact, h5]
  unfold SDE.beginX
  cases hx : S.init t0 with
  | error e => rfl
  | ok x0 =>
    simp only [bind, Except.bind, pure, Except.pure]
    cases hsol : solutionOf (roundedStep S) t0 (if S.log then S.logX x0 else x0) grid s with
    | error e => rfl
    | ok r =>
      have ht := solutionOf_times (roundedStep S) hg.1 hmem hsol
      have hl := filter_eq_lookup ht hg.1 hv.2 (fun t ht => (hg.2 t).2 (.inl ht)) S.letX
      simp only [Except.map, List.map_map]
      have hcomp : (some ∘ fun p : T × X => S.letX p.1 p.2) = fun p => some (S.letX p.1 p.2) := rfl
      rw [hcomp, hl]
      unfold SDE.exitX
      by_cases hlog : S.log = true
      · simp only [hlog, if_true, List.map_map]
        congr 2
        apply List.map_congr_left
        intro t _
        simp [Option.map_map, Function.comp_def]
      · simp only [hlog, if_false]
        rfl

end

/-- **C02.** Calling an integrated SDE returns, at each point of the timeline, the Euler-Maruyama
solution (`Equation.solution`) of the stated equation on the merged grid, with the initial
condition imposed at `timeline[i0]`; exceptions raised by the methods of the SDE or by its sources
are passed on. The values are passed through `let`, and if `log` is set the initial condition is
converted to its logarithm, results to their exponentials. -/
theorem C02_euler (S : SDE T X O Id σ) (hS : SDEOk S) (fuel : ℕ) (steps : Steps T) (i0 : ℤ)
    (tl : TArr T) (s : σ) (hv : ValidTimeline tl) {i : ℕ} (hi : Designates tl.data.length i0 i)
    (hst : ∀ n : ℤ, steps = .int n → 0 ≤ n) {grid : List T} (hg : IsGrid steps tl.data grid)
    {t0 : T} (h0 : tl.data[i]? = some t0) (hfuel : grid.length ≤ fuel) :
    S.call fuel steps i0 tl s =
      (do let x0 ← S.init t0
          let (ps, s) ← (equation S).solution t0 (if S.log then S.logX x0 else x0) grid s
          pure (tl.data.map fun t => (ps.lookup t).map fun x =>
            if S.log then S.expO (S.letX t x) else S.letX t x, s)) := by
  rw [C02_rounded S hS.sources fuel steps i0 tl s hv hi hst hg h0 hfuel, roundedStep_funext S hS]
  simp only [solution_eq_solutionOf]

/-- The solution along the grid exists at each timeline point: no slot is left empty. -/
theorem C02_no_empty_slot (S : SDE T X O Id σ) (hS : SDEOk S) (fuel : ℕ) (steps : Steps T) (i0 : ℤ)
    (tl : TArr T) (s : σ) (hv : ValidTimeline tl) {i : ℕ} (hi : Designates tl.data.length i0 i)
    (hst : ∀ n : ℤ, steps = .int n → 0 ≤ n) {grid : List T} (hg : IsGrid steps tl.data grid)
    {t0 : T} (h0 : tl.data[i]? = some t0) (hfuel : grid.length ≤ fuel)
    {xx : List (Option O)} {s' : σ} (h : S.call fuel steps i0 tl s = .ok (xx, s')) :
    xx.length = tl.data.length ∧ ∀ o ∈ xx, o.isSome := by
  have hmt : t0 ∈ tl.data := List.mem_of_getElem? h0
  have hmem : t0 ∈ grid := (hg.2 t0).2 (.inl hmt)
  rw [C02_euler S hS fuel steps i0 tl s hv hi hst hg h0 hfuel] at h
  cases hx : S.init t0 with
  | error e => simp [hx, bind, Except.bind] at h
  | ok x0 =>
    simp only [hx, bind, Except.bind, pure, Except.pure] at h
    cases hsol : (equation S).solution t0 (if S.log then S.logX x0 else x0) grid s with
    | error e => simp [hsol] at h
    | ok r =>
      have ht := solution_times (equation S) hg.1 hmem hsol
      simp only [hsol, Except.ok.injEq, Prod.mk.injEq] at h
      rw [← h.1]
      refine ⟨by simp, ?_⟩
      intro o ho
      obtain ⟨t, htt, rfl⟩ := List.mem_map.1 ho
      have : t ∈ r.1.map Prod.fst := by rw [ht]; exact (hg.2 t).2 (.inl htt)
      obtain ⟨p, hp, rfl⟩ := List.mem_map.1 this
      have hnd : DictOk r.1 := by
        unfold DictOk; rw [ht]; exact hg.1.imp fun h => ne_of_lt h
      simp [lookup_of_mem hnd hp]

/-- `dx = (1 - x)*dt + 2*dw(t)`, `x0 = 3`; ids: 0 for `dt`, 1 for `dw`. The increments of `dw` are
taken from a list; the coefficients are listed in inverse order. -/
def exOU : SDE ℚ ℚ ℚ ℕ (List ℚ) where
  sources := [(1, fun _ _ s => match s with
      | [] => .error .runtimeError
      | w :: ws => .ok (w, ws)), (0, fun _ dt s => .ok (dt, s))]
  sde _ x := .ok (some [(1, 2), (0, 1 - x)])
  init _ := .ok 3
  letX _ x := x
  log := false
  logX := id
  expO := id

theorem exOU_ok : SDEOk exOU where
  sources := by simp [DictOk, exOU]
  sde := by intro t x A h; simp [exOU] at h; subst h; simp [DictOk]

/-- Value of `Except`, for tests. -/
def okVal {α : Type} (r : Py α) : Option α :=
  match r with
  | .ok a => some a
  | .error _ => none

example : okVal (exOU.call 10 (.iter [2]) 0 ⟨[3], [0, 1, 4]⟩ [1/2, -1, 1]) =
    -- 3 + (1-3)*1 + 2*(1/2) = 2, 2 + (1-2)*1 + 2*(-1) = -1, -1 + (1+1)*2 + 2*1 = 5
    some ([some 3, some 2, some 5], []) := by decide +kernel

example : IsGrid (.iter [2]) [(0 : ℚ), 1, 4] [0, 1, 2, 4] ∧ SDEOk exOU :=
  ⟨stepsTT_isGrid _ _ (by decide +kernel) (by decide +kernel), exOU_ok⟩

/-- Numbers that are rounded down to multiples of `1/8` after each operation. -/
structure Eighths where
  num : ℤ
deriving DecidableEq

namespace Eighths
instance : Zero Eighths := ⟨⟨0⟩⟩
instance : Add Eighths := ⟨fun a b => ⟨a.num + b.num⟩⟩
instance : Mul Eighths := ⟨fun a b => ⟨a.num * b.num / 8⟩⟩
end Eighths

/-- `dx = x*dt + x*dw(t)`, `x0 = 1`, with rounded values. -/
def exEighths : SDE ℚ Eighths Eighths ℕ (List ℤ) where
  sources := [(1, fun _ _ s => match s with
      | [] => .error .runtimeError
      | w :: ws => .ok (⟨w⟩, ws)), (0, fun _ dt s => .ok (⟨⌊dt * 8⌋⟩, s))]
  sde _ x := .ok (some [(1, x), (0, x)])
  init _ := .ok ⟨8⟩
  letX _ x := x
  log := false
  logX := id
  expO := id

example : DictOk exEighths.sources ∧ IsGrid (.iter [2]) [(0 : ℚ), 1, 4] [0, 1, 2, 4] ∧
    -- products are rounded one by one: 13/8 + (13/8 * 5/8 -> 8/8) + (13/8 * 1) = 34/8, and so on
    okVal (exEighths.call 10 (.iter [2]) 0 ⟨[3], [0, 1, 4]⟩ [-3, 5, 1]) =
      some ([some ⟨8⟩, some ⟨13⟩, some ⟨106⟩], []) :=
  ⟨by simp [DictOk, exEighths], stepsTT_isGrid _ _ (by decide +kernel) (by decide +kernel), by decide +kernel⟩

/-! ### C09 -/

/-- Array valued SDE, with the elementwise logarithm and exponential of NumPy. -/
def RealSDE {ι : Type} (S : SDE T (ι → ℝ) (ι → ℝ) Id σ) : Prop :=
  S.logX = (fun x i => Real.log (x i)) ∧ S.expO = (fun x i => Real.exp (x i)) ∧
    ∀ t x, S.letX t x = x

/-- **C09.** With `log = True` the result is the exponential of the Euler solution of the stated
equation started from `log(x0)`, at each timeline point, and at `timeline[i0]` it is `x0` itself,
provided it is positive. -/
theorem C09_log {ι : Type} (S : SDE T (ι → ℝ) (ι → ℝ) Id σ) (hS : SDEOk S) (hr : RealSDE S)
    (hlog : S.log = true) (fuel : ℕ) (steps : Steps T) (i0 : ℤ) (tl : TArr T) (s : σ)
    (hv : ValidTimeline tl) {i : ℕ} (hi : Designates tl.data.length i0 i)
    (hst : ∀ n : ℤ, steps = .int n → 0 ≤ n) {grid : List T} (hg : IsGrid steps tl.data grid)
    {t0 : T} (h0 : tl.data[i]? = some t0) (hfuel : grid.length ≤ fuel)
    {x0 : ι → ℝ} (hx0 : S.init t0 = .ok x0) (hpos : ∀ k, 0 < x0 k) :
    (S.call fuel steps i0 tl s =
      (do let (ps, s) ← (equation S).solution t0 (fun k => Real.log (x0 k)) grid s
          pure (tl.data.map fun t => (ps.lookup t).map fun x k => Real.exp (x k), s))) ∧
    ∀ xx s', S.call fuel steps i0 tl s = .ok (xx, s') → xx[i]? = some (some x0) := by
  have hmt : t0 ∈ tl.data := List.mem_of_getElem? h0
  have hmem : t0 ∈ grid := (hg.2 t0).2 (.inl hmt)
  have h1 : S.call fuel steps i0 tl s =
      (do let (ps, s) ← (equation S).solution t0 (fun k => Real.log (x0 k)) grid s
          pure (tl.data.map fun t => (ps.lookup t).map fun x k => Real.exp (x k), s)) := by
    rw [C02_euler S hS fuel steps i0 tl s hv hi hst hg h0 hfuel, hx0]
    simp only [hlog, if_true, hr.1, hr.2.1, hr.2.2]
    rfl
  refine ⟨h1, ?_⟩
  intro xx s' hc
  rw [h1] at hc
  cases hsol : (equation S).solution t0 (fun k => Real.log (x0 k)) grid s with
  | error e => simp [hsol, bind, Except.bind] at hc
  | ok r =>
    have ht := solution_times (equation S) hg.1 hmem hsol
    simp only [hsol, bind, Except.bind, pure, Except.pure, Except.ok.injEq, Prod.mk.injEq] at hc
    have hnd : DictOk r.1 := by
      unfold DictOk; rw [ht]; exact hg.1.imp fun h => ne_of_lt h
    have hin : (t0, fun k => Real.log (x0 k)) ∈ r.1 := by
      simp only [Equation.solution, bind, Except.bind, pure, Except.pure] at hsol
      cases h1 : (equation S).path t0 (fun k => Real.log (x0 k)) (grid.filter (· < t0)).reverse s with
      | error e => simp [h1] at hsol
      | ok q =>
        simp only [h1] at hsol
        cases h2 : (equation S).path t0 (fun k => Real.log (x0 k)) (grid.filter (t0 < ·)) q.2 with
        | error e => simp [h2] at hsol
        | ok q2 =>
          simp only [h2, Except.ok.injEq] at hsol
          rw [← hsol]; simp
    rw [← hc.1, List.getElem?_map, h0]
    have hl := lookup_of_mem hnd hin
    simp only at hl
    simp only [Option.map_some, hl, Option.some.injEq]
    funext k
    exact Real.exp_log (hpos k)

/-- Geometric Brownian motion, two cells: `d log x = dw`. -/
noncomputable def exGBM : SDE ℚ (Bool → ℝ) (Bool → ℝ) ℕ Unit where
  sources := [(0, fun _ _ s => .ok (fun _ => 1, s))]
  sde _ _ := .ok (some [(0, fun _ => 1)])
  init _ := .ok (fun b => if b then 2 else 5)
  letX _ x := x
  log := true
  logX := fun x i => Real.log (x i)
  expO := fun x i => Real.exp (x i)

example : SDEOk exGBM ∧ RealSDE exGBM ∧ exGBM.log = true ∧
    exGBM.init 0 = .ok (fun b => if b then 2 else 5) ∧ ∀ b : Bool, (0 : ℝ) < if b then 2 else 5 :=
  ⟨⟨by simp [DictOk, exGBM], by intro t x A h; simp [exGBM] at h; subst h; simp [DictOk]⟩,
    ⟨rfl, rfl, fun _ _ => rfl⟩, rfl, rfl, by intro b; cases b <;> simp⟩

/-! ### C11 -/

/-- **C11**, first part: one integration step fails with `TypeError` if `sde` does not return a
dictionary, and with `KeyError` if it returns a key which is not a declared source. -/
theorem C11_bad_sde_values (S : SDE T X O Id σ) (t : T) (x : X) (t' : T) (s : σ) :
    (S.sde t x = .ok none → S.eulerNext t x t' s = .error .typeError) ∧
    ∀ A k, S.sde t x = .ok (some A) → k ∈ A.map Prod.fst → k ∉ S.sources.map Prod.fst →
      S.eulerNext t x t' s = .error .keyError := by
  constructor
  · intro h; simp [SDE.eulerNext, SDE.A, h, SDE.checkValues]
  · intro A k h hk hk'
    simp only [SDE.eulerNext, SDE.A, h, SDE.checkValues]
    rw [if_neg]
    intro hc
    exact hk' (hc k hk)

/-- **C11**, second part: a step realises all declared sources, in ascending order of id,
whatever the coefficients; sources not mentioned by `sde` are realised but do not contribute. -/
theorem C11_all_sources_realised (S : SDE T X O Id σ) (hS : SDEOk S) (t : T) (x : X) (t' : T) (s : σ)
    {x' : X} {s' : σ} (h : S.eulerNext t x t' s = .ok (x', s')) :
    ∃ A dz, S.sde t x = .ok (some A) ∧
      realise (equation S).noise t (t' - t) ((S.sources.map Prod.fst).toFinset.sort (· ≤ ·)) s =
        .ok (dz, s') ∧
      x' = x + ∑ id ∈ (A.map Prod.fst).toFinset, entry A id * dz id := by
  rw [eulerNext_eq S hS] at h
  unfold Equation.step at h
  cases hsde : S.sde t x with
  | error e => simp [equation, hsde, bind, Except.bind] at h
  | ok A? =>
    cases A? with
    | none => simp [equation, hsde, bind, Except.bind] at h
    | some A =>
      by_cases hk : ∃ k ∈ A.map Prod.fst, k ∉ S.sources.map Prod.fst
      · have hc : (equation S).coef t x = .error .keyError := by
          simp only [equation, hsde, bind, Except.bind]; rw [if_pos hk]
        rw [hc] at h
        simp [bind, Except.bind] at h
      have hc : (equation S).coef t x = .ok (entry A) := by
        simp only [equation, hsde, bind, Except.bind]; rw [if_neg hk]; rfl
      rw [hc] at h
      simp only [bind, Except.bind, pure, Except.pure] at h
      have hids : (equation S).ids = (S.sources.map Prod.fst).toFinset := rfl
      rw [hids] at h
      cases hr : realise (equation S).noise t (t' - t)
          ((S.sources.map Prod.fst).toFinset.sort (· ≤ ·)) s with
      | error e => simp [hr] at h
      | ok q =>
        simp only [hr, Except.ok.injEq, Prod.mk.injEq] at h
        refine ⟨A, q.1, rfl, by rw [← h.2], ?_⟩
        rw [← h.1]
        congr 1
        symm
        apply Finset.sum_subset
        · intro k hk1
          rw [List.mem_toFinset] at hk1 ⊢
          by_contra hc'
          exact hk ⟨k, hk1, hc'⟩
        · intro k _ hk2
          rw [List.mem_toFinset] at hk2
          rw [entry_of_not_mem hk2, zero_mul]

/-- **C11**, third part: the dictionary returned by `sde` only matters as a map from ids to
coefficients, absent ids counting as zero. Two SDEs that differ in the order of keys, or in the
presence of entries with zero coefficients, are integrated to the same values. -/
theorem C11_only_entries_matter (S₁ S₂ : SDE T X O Id σ) (h₁ : SDEOk S₁) (h₂ : SDEOk S₂)
    (hsrc : S₁.sources = S₂.sources) (hinit : S₁.init = S₂.init) (hlet : S₁.letX = S₂.letX)
    (hlog : S₁.log = S₂.log) (hl : S₁.logX = S₂.logX) (he : S₁.expO = S₂.expO)
    (hsde : ∀ t x, ∃ A₁ A₂, S₁.sde t x = .ok (some A₁) ∧ S₂.sde t x = .ok (some A₂) ∧
      entry A₁ = entry A₂ ∧ (∀ k ∈ A₁.map Prod.fst, k ∈ S₁.sources.map Prod.fst) ∧
      (∀ k ∈ A₂.map Prod.fst, k ∈ S₁.sources.map Prod.fst))
    (fuel : ℕ) (steps : Steps T) (i0 : ℤ) (tl : TArr T) (s : σ) :
    S₁.call fuel steps i0 tl s = S₂.call fuel steps i0 tl s := by
  have hE : equation S₁ = equation S₂ := by
    have hc : (equation S₁).coef = (equation S₂).coef := by
      funext t x
      obtain ⟨A₁, A₂, e1, e2, e3, e4, e5⟩ := hsde t x
      simp only [equation, e1, e2, bind, Except.bind]
      rw [if_neg, if_neg, e3]
      · rw [← hsrc]; push Not; exact e5
      · push Not; exact e4
    have h1 : (equation S₁).ids = (equation S₂).ids := by simp only [equation, hsrc]
    have h2 : (equation S₁).noise = (equation S₂).noise := by simp only [equation, hsrc]
    calc equation S₁ = ⟨(equation S₁).ids, (equation S₁).noise, (equation S₁).coef⟩ := rfl
      _ = ⟨(equation S₂).ids, (equation S₂).noise, (equation S₂).coef⟩ := by rw [hc, h1, h2]
  have hP : S₁.toPGen = S₂.toPGen := by
    have hn : S₁.eulerNext = S₂.eulerNext := by
      funext t x t' s
      rw [eulerNext_eq S₁ h₁, eulerNext_eq S₂ h₂, hE]
    simp only [SDE.toPGen, SDE.beginX, hn, hinit, hlet, hlog, hl]
  simp only [SDE.call, SDE.exitX, hP, hlog, he]

/-- `exOU` with keys in the other order: same results. -/
example : okVal ({ exOU with sde := fun _ x => .ok (some [(0, 1 - x), (1, 2)]) }.call 10 (.iter [2]) 0
    ⟨[3], [0, 1, 4]⟩ [1/2, -1, 1]) = some ([some 3, some 2, some 5], []) := by decide +kernel

/-- An unknown key, and a missing one (the noise is consumed all the same). -/
example :
    exc ({ exOU with sde := fun _ x => .ok (some [(0, 1 - x), (7, 2)]) }.call 10 (.iter [2]) 0
      ⟨[3], [0, 1, 4]⟩ [1/2, -1, 1]) = some .keyError ∧
    okVal ({ exOU with sde := fun _ x => .ok (some [(0, 1 - x)]) }.call 10 (.iter [2]) 0
      ⟨[3], [0, 1, 4]⟩ [1/2, -1, 1]) = some ([some 3, some 1, some 1], []) := by decide +kernel

end Sdepy
