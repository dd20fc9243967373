import Verif.Props.Paths

/-!
# Properties C03-C08: grids, validation, directions, counters, step control
-/

set_option linter.unusedSectionVars false
set_option linter.unusedSimpArgs false

namespace Sdepy

open Spec

variable {T W O σ : Type} [Zero T] [One T] [Neg T] [Sub T] [Mul T]
  [LinearOrder T] [Linspace T] [SignOk T]

/-! ### C03 -/

theorem visited_nonAdaptive {g : PGen T W O σ} {step} (hna : NonAdaptive g step) {rev : Bool}
    {st tt : List T} {es : List (Event T W O)} (h : TraceOk g rev st tt es) :
    ∀ t ∈ (visited es).map Prod.fst, t ∈ st := by
  intro t ht
  have key : ∀ (post pre : List (Event T W O)), es = pre ++ post →
      t ∈ (visited post).map Prod.fst → t ∈ st := by
    intro post
    induction post with
    | nil => intro pre _ h; simp [visited] at h
    | cons e post ih =>
      intro pre he ht
      have hok := h pre e post he
      have hrec : t ∈ (visited post).map Prod.fst → t ∈ st :=
        ih (pre ++ [e]) (by simp [he])
      cases e with
      | begun win =>
        simp only [visited, List.map_append, List.mem_append] at ht
        rcases ht with ht | ht
        · rw [hok.2.1] at ht; exact List.mem_of_mem_take ht
        · exact hrec ht
      | stepped win target p =>
        simp only [visited, List.map_cons, List.mem_cons] at ht
        rcases ht with ht | ht
        · obtain ⟨_, htg, ⟨s, s', hn⟩, _, _⟩ := hok
          rw [hna] at hn
          cases hs : step rev win target s with
          | error e => simp [hs, bind, Except.bind] at hn
          | ok r =>
            simp only [hs, bind, Except.bind, pure, Except.pure, Except.ok.injEq,
              Prod.mk.injEq] at hn
            rw [ht, ← hn.1]; exact htg
        · exact hrec ht
      | stored i t' x o => exact hrec (by simpa [visited] using ht)
  exact key es [] (by simp) ht

/-- **C03.** The points touched by an integration that takes steps as they come: each pass
goes through the points of the grid on its side of `timeline[i0]`, in order and without
repetitions; the grid is made of the timeline and of the requested points between its first
and last point (`IsGrid`), and nothing else. -/
theorem C03_points_touched (g : PGen T W O σ) (step) (hna : NonAdaptive g step) (fuel : ℕ)
    (steps : Steps T) (i0 : ℤ) (tl : TArr T) (s : σ) {r : CallResult T O σ}
    (h : callPG g fuel steps i0 tl s = .ok r) :
    ∃ (t0 : T) (grid : List T) (LB LF : List (Event T W O)) (s' : σ),
      IsGrid steps tl.data grid ∧ t0 ∈ tl.data ∧
      (∃ r', callPG (logged g) fuel steps i0 tl (s, []) = .ok r' ∧ r'.s = (s', LB ++ LF)) ∧
      (visited LB).map Prod.fst = (if i0 ≠ 0 then (grid.filter (· ≤ t0)).reverse else []) ∧
      (visited LF).map Prod.fst =
        (if Forw tl.data.length i0 then grid.filter (t0 ≤ ·) else []) := by
  obtain ⟨L, hL⟩ := logged_same g fuel steps i0 tl s h
  obtain ⟨hK, hv, i, grid, t0, hi, hgr, h0, ht0, LB, LF, osB, osF, hLL, hB, hF, hxx⟩ :=
    callPG_trace g fuel steps i0 tl s hL
  simp only at hLL
  subst hLL
  refine ⟨t0, grid, LB, LF, r.s, hgr, List.mem_of_getElem? h0, ⟨_, hL, rfl⟩, ?_, ?_⟩
  · by_cases hz : i0 ≠ 0
    · rw [if_pos hz] at hB ⊢
      have : ((visited LB).map Prod.fst).reverse = grid.filter (· ≤ t0) := by
        apply sorted_ext
        · rw [← pairwise_before_true, List.reverse_reverse]; exact hB.2.2.2.1
        · exact hgr.1.filter _
        · intro t
          rw [List.mem_reverse]
          constructor
          · intro ht
            have := visited_nonAdaptive hna hB.2.2.1 t ht
            simpa using this
          · intro ht
            have : t ∈ grid ∧ t ≤ t0 := by simpa using ht
            exact hB.2.2.2.2 t this.1 this.2
      rw [← this, List.reverse_reverse]
    · rw [if_neg hz] at hB ⊢
      rw [hB.1]; rfl
  · by_cases hz : Forw tl.data.length i0
    · rw [if_pos hz] at hF ⊢
      apply sorted_ext
      · rw [← pairwise_before_false]; exact hF.2.2.2.1
      · exact hgr.1.filter _
      · intro t
        constructor
        · intro ht
          exact visited_nonAdaptive hna hF.2.2.1 t ht
        · intro ht
          have : t ∈ grid ∧ t0 ≤ t := by simpa using ht
          exact hF.2.2.2.2 t this.1 this.2
    · rw [if_neg hz] at hF ⊢
      rw [hF.1]; rfl

/-- The grid is determined by the timeline and the steps. -/
theorem C03_grid_unique {steps : Steps T} {tt g1 g2 : List T} (h1 : IsGrid steps tt g1)
    (h2 : IsGrid steps tt g2) : g1 = g2 := isGrid_unique h1 h2

/-- Steps given as a list with points outside the timeline, repeated and unordered. -/
example : outs (callPG exGen 10 (.iter [5, 1, 9, 1, -3]) 0 ⟨[3], [0, 2, 6]⟩ 0) =
    some [some 10, some 13, some 24] := by decide +kernel

/-- Four equally spaced points merged with the timeline: 0, 2, 3, 4, 6. -/
example : IsGrid (.int 4) [(0 : ℚ), 3, 6] [0, 2, 3, 4, 6] :=
  stepsTT_isGrid _ _ (by decide +kernel) (by decide +kernel)

example : outs (callPG exGen 10 (.int 4) 0 ⟨[3], [0, 3, 6]⟩ 0) =
    some [some 10, some 15, some 25] := by decide +kernel

/-! ### C04 -/

/-- **C04.** Rejection of invalid arguments, with the documented exceptions. -/
theorem C04_rejected (g : PGen T W O σ) (fuel : ℕ) (steps : Steps T) (i0 : ℤ) (tl : TArr T)
    (s : σ) :
    (g.depth < 2 → callPG g fuel steps i0 tl s = .error .valueError) ∧
    (¬ ValidTimeline tl → callPG g fuel steps i0 tl s = .error .valueError) ∧
    (2 ≤ g.depth → ValidTimeline tl → (¬ ∃ i, Designates tl.data.length i0 i) →
      callPG g fuel steps i0 tl s = .error .indexError) := by
  refine ⟨fun h => by rw [callPG, if_pos h], fun h => ?_, fun hK hv hi => ?_⟩
  · rw [callPG]
    by_cases hK : g.depth < 2
    · rw [if_pos hK]
    rw [if_neg hK]
    by_cases h1 : tl.shape = [tl.data.length]
    swap
    · rw [if_pos h1]
    rw [if_neg (not_not.2 h1)]
    simp only
    rw [if_pos]
    intro hc
    exact h ⟨h1, (eq_npUnique_iff _).1 hc⟩
  · rw [callPG, if_neg (by omega), if_neg (not_not.2 hv.1)]
    simp only
    rw [if_neg (not_not.2 ((eq_npUnique_iff _).2 hv.2)), (pyIndex_eq_none _ _).2 hi]

/-- For `depth = 2` there are always enough points on both sides of `timeline[i0]`. -/
theorem depth2_enough {steps : Steps T} {tt grid : List T} (hgr : IsGrid steps tt grid)
    {t0 : T} (hmt : t0 ∈ tt) :
    1 ≤ (grid.filter (· ≤ t0)).length ∧ 1 ≤ (grid.filter (t0 ≤ ·)).length := by
  have hm : t0 ∈ grid := (hgr.2 t0).2 (.inl hmt)
  constructor <;>
  · apply List.length_pos_of_mem (a := t0)
    simp [hm]

/-- For `depth = 2` (the one of all integrators of the package) nothing is required. -/
theorem enoughPoints_two (steps : Steps T) (i0 : ℤ) (tt : List T) : EnoughPoints 2 steps i0 tt := by
  intro i t0 grid _ h0 hgr
  have he := depth2_enough hgr (List.mem_of_getElem? h0)
  exact ⟨fun _ => he.1, fun _ => he.2⟩

/-- The setting of a valid call. -/
theorem validCall_setup {steps : Steps T} {i0 : ℤ} {tl : TArr T} (hv : ValidTimeline tl)
    (hi : ∃ i, Designates tl.data.length i0 i) (hst : ∀ n : ℤ, steps = .int n → 0 ≤ n) :
    ∃ i t0 grid, Designates tl.data.length i0 i ∧ tl.data[i]? = some t0 ∧
      stepsTT steps tl.data = .ok grid ∧ IsGrid steps tl.data grid := by
  obtain ⟨i, hi⟩ := hi
  obtain ⟨t0, h0⟩ : ∃ t0, tl.data[i]? = some t0 := ⟨_, List.getElem?_eq_getElem hi.1⟩
  have hmt : t0 ∈ tl.data := List.mem_of_getElem? h0
  have hne : tl.data ≠ [] := by rintro h; rw [h] at hmt; simp at hmt
  rcases stepsTT_ok steps tl.data hne with ⟨grid, hg⟩ | ⟨⟨n, hn, hs⟩, _, _⟩
  · exact ⟨i, t0, grid, hi, h0, hg, stepsTT_isGrid steps tl.data hv.2 hg⟩
  · have := hst n hs; omega

/-- **C04**, acceptance: valid timelines and `i0` never raise, as long as the callbacks do not raise
and stay in the permitted interval, and there are enough points for the depth of the scheme (always
so for `depth = 2`, `enoughPoints_two`); `steps` must not be a negative integer (NumPy's `linspace`
rejects it). -/
theorem C04_accepted (g : PGen T W O σ) (hw : NeverRaises g) (ho : ¬ CanOverstep g) (fuel : ℕ)
    (steps : Steps T) (i0 : ℤ) (tl : TArr T) (s : σ) (hK : 2 ≤ g.depth) (hv : ValidTimeline tl)
    (hi : ∃ i, Designates tl.data.length i0 i) (hst : ∀ n : ℤ, steps = .int n → 0 ≤ n)
    (he : EnoughPoints g.depth steps i0 tl.data) :
    callPG g fuel steps i0 tl s = .error .noFuel ∨ ∃ r, callPG g fuel steps i0 tl s = .ok r := by
  obtain ⟨i, t0, grid, hi, h0, hg, hgr⟩ := validCall_setup hv hi hst
  have he := he i t0 grid hi h0 hgr
  rcases callPG_safe g hw fuel steps i0 tl s hK hv hi hg h0 he.1 he.2 with
    ⟨h, _⟩ | ⟨r, h, _⟩ | ⟨_, _, h⟩
  · exact .inl h
  · exact .inr ⟨r, h⟩
  · exact absurd h ho

/-- **C04**, schemes of higher depth: a grid with fewer than `depth - 1` points is rejected with
`ValueError`. -/
theorem C04_few_points (g : PGen T W O σ) (fuel : ℕ) (steps : Steps T) (i0 : ℤ) (tl : TArr T) (s : σ)
    (hK : 2 ≤ g.depth) (hv : ValidTimeline tl) (hi : ∃ i, Designates tl.data.length i0 i)
    (hst : ∀ n : ℤ, steps = .int n → 0 ≤ n) {grid : List T} (hgr : IsGrid steps tl.data grid)
    (hlen : grid.length < g.depth - 1) :
    callPG g fuel steps i0 tl s = .error .valueError := by
  obtain ⟨i, t0, grid', hi, h0, hg, hgr'⟩ := validCall_setup hv hi hst
  have := isGrid_unique hgr hgr'
  subst this
  rw [callPG, if_neg (by omega), if_neg (not_not.2 hv.1)]
  simp only
  rw [if_neg (not_not.2 ((eq_npUnique_iff _).2 hv.2)), (pyIndex_eq_some _ _ _).2 hi]
  simp only [hg]
  rw [if_pos hlen]

/-- **C04**, schemes of higher depth: the check is on the grid as a whole. If that is long enough,
but the part of it to be integrated backwards is not, `StopIteration` is raised, whatever the
callbacks; if the part to be integrated forwards is not, `StopIteration` is raised once the backward
pass is over. -/
theorem C04_short_side (g : PGen T W O σ) (fuel : ℕ) (steps : Steps T) (i0 : ℤ) (tl : TArr T) (s : σ)
    (hK : 2 ≤ g.depth) (hv : ValidTimeline tl) {i : ℕ} (hi : Designates tl.data.length i0 i)
    (hst : ∀ n : ℤ, steps = .int n → 0 ≤ n) {grid : List T} (hgr : IsGrid steps tl.data grid)
    (hlen : g.depth - 1 ≤ grid.length) {t0 : T} (h0 : tl.data[i]? = some t0) :
    (i0 ≠ 0 → (grid.filter (· ≤ t0)).length < g.depth - 1 →
      callPG g fuel steps i0 tl s = .error .stopIteration) ∧
    (i0 ≠ 0 → Forw tl.data.length i0 → NeverRaises g → ¬ CanOverstep g →
      g.depth - 1 ≤ (grid.filter (· ≤ t0)).length → (grid.filter (t0 ≤ ·)).length < g.depth - 1 →
      callPG g fuel steps i0 tl s = .error .noFuel ∨
        callPG g fuel steps i0 tl s = .error .stopIteration) := by
  obtain ⟨i', t0', grid', hi', h0', hg, hgr'⟩ := validCall_setup hv ⟨i, hi⟩ hst
  have := isGrid_unique hgr hgr'
  subst this
  have hmt : t0 ∈ tl.data := List.mem_of_getElem? h0
  have hmem : t0 ∈ grid := (hgr.2 t0).2 (.inl hmt)
  have hne : tl.data ≠ [] := by rintro h; rw [h] at hmt; simp at hmt
  obtain ⟨tmax, hmax⟩ : ∃ l, tl.data.getLast? = some l := ⟨_, List.getLast?_eq_some_getLast hne⟩
  obtain ⟨tmin, hmin⟩ : ∃ a, tl.data.head? = some a := by
    cases hd : tl.data with
    | nil => exact absurd hd hne
    | cons c l => exact ⟨c, rfl⟩
  have hsub : tl.data.Sublist grid :=
    sublist_of_sorted hv.2 hgr.1 fun t ht => (hgr.2 t).2 (.inl ht)
  rw [callPG_valid g fuel steps i0 tl s hK hv hi hg hlen h0 hmin hmax]
  have stop : ∀ (st tt : List T) (rev : Bool) (a : PAcc O σ), st.length < g.depth - 1 →
      generatePaths g fuel st tt rev a = .error .stopIteration := by
    intro st tt rev a h
    rw [generatePaths, if_pos h]
  refine ⟨fun hz hb => ?_, fun hz hF hw ho hb hf => ?_⟩
  · simp only [hz, ne_eq, not_false_iff, if_true]
    rw [stop _ _ _ _ (by rw [List.length_reverse]; exact hb)]
    rfl
  · simp only [hz, ne_eq, not_false_iff, if_true, hF]
    rcases generatePaths_safe g hw true fuel (grid.filter (· ≤ t0)).reverse
      (tl.data.filter (· ≤ t0)).reverse ⟨List.replicate (i + 1) none, s, 0, 0⟩ hK
      (by rw [List.length_reverse]; exact hb)
      (pairwise_before_true.2 (hgr.1.filter _)) (List.reverse_sublist.2 (hsub.filter _))
      (by rw [List.getLast?_reverse, List.getLast?_reverse, filter_le_head hgr.1 hmem,
        filter_le_head hv.2 hmt, isGrid_head hv.2 hgr]) with ⟨h, _⟩ | ⟨b, h, _⟩ | ⟨_, _, h'⟩
    · rw [h]; exact .inl rfl
    · rw [h]
      right
      simp only [bind, Except.bind, pure, Except.pure]
      rw [stop _ _ _ _ hf]
    · exact absurd h' ho

theorem exGen_neverRaises : NeverRaises exGen :=
  ⟨fun _ _ _ => ⟨_, rfl⟩, fun _ _ _ _ => ⟨_, rfl⟩, fun _ _ _ _ => ⟨_, rfl⟩, fun _ => ⟨_, rfl⟩⟩

theorem nonAdaptive_stays {g : PGen T W O σ} {step} (hna : NonAdaptive g step) :
    ¬ CanOverstep g := by
  rintro ⟨rev, win, last, target, s, p, s', -, hb, hn, hc⟩
  rw [hna] at hn
  cases hs : step rev win target s with
  | error e => simp [hs, bind, Except.bind] at hn
  | ok r =>
    simp only [hs, bind, Except.bind, pure, Except.pure, Except.ok.injEq, Prod.mk.injEq] at hn
    apply hc
    rw [← hn.1]
    cases rev
    · simp only [Bool.false_eq_true, if_false]; exact ⟨hb, le_rfl⟩
    · simp only [if_true]; exact ⟨le_rfl, hb⟩

example : exGen.depth = 2 ∧ NeverRaises exGen ∧ ¬ CanOverstep exGen ∧
    ValidTimeline (⟨[2], [1, 4]⟩ : TArr ℚ) ∧ (∃ i, Designates 2 (-2) i) ∧
    ¬ (∃ i, Designates 2 (-3) i) ∧ ¬ ValidTimeline (⟨[2], [1, 1]⟩ : TArr ℚ) := by
  refine ⟨rfl, exGen_neverRaises, nonAdaptive_stays exGen_nonAdaptive, ⟨rfl, by decide +kernel⟩,
    ⟨0, by unfold Designates; omega⟩, ?_, ?_⟩
  · rintro ⟨i, h⟩; unfold Designates at h; omega
  · intro h; have := h.2; revert this; decide +kernel

/-- The boundary cases of `i0`: `-size` is accepted, `-size-1` and `size` are not. -/
example : outs (callPG exGen 10 .none (-2) ⟨[2], [1, 4]⟩ 0) = some [some 10, some 14] ∧
    exc (callPG exGen 10 .none (-3) ⟨[2], [1, 4]⟩ 0) = some .indexError ∧
    exc (callPG exGen 10 .none 2 ⟨[2], [1, 4]⟩ 0) = some .indexError := by decide +kernel

/-- A scheme of depth 3. -/
def exDeep : PGen ℚ ℚ ℚ ℕ := { exGen with depth := 3 }

/-- **C04** does not extend to `depth > 2` without conditions: a valid call with as many grid points
as the depth, and callbacks that cannot fail, leaks `StopIteration`. -/
theorem C04_deep_leaks_stopIteration :
    NeverRaises exDeep ∧ ¬ CanOverstep exDeep ∧ ValidTimeline (⟨[3], [0, 1, 2]⟩ : TArr ℚ) ∧
    (∃ i, Designates 3 (-3) i) ∧ exDeep.depth ≤ 3 ∧
    callPG exDeep 10 .none (-3) ⟨[3], [0, 1, 2]⟩ 0 = .error .stopIteration := by
  have hg : IsGrid .none [(0 : ℚ), 1, 2] [0, 1, 2] :=
    stepsTT_isGrid _ _ (by decide +kernel) (by decide +kernel)
  refine ⟨exGen_neverRaises.recOn fun a b c d => ⟨a, b, c, d⟩,
    nonAdaptive_stays (step := exStep) fun _ _ _ _ => rfl, ⟨rfl, by decide +kernel⟩,
    ⟨0, by unfold Designates; omega⟩, le_refl _, ?_⟩
  exact (C04_short_side exDeep 10 .none (-3) ⟨[3], [0, 1, 2]⟩ 0 (by decide) ⟨rfl, by decide +kernel⟩
    (i := 0) (by unfold Designates; simp) (by simp) hg (by decide) (t0 := 0) rfl).1 (by decide)
    (by decide +kernel)

/-- Depth 3 with two points on each side: accepted. With one point on the right side: the backward
pass is done, then `StopIteration`. With a single point in all: `ValueError`. -/
example : EnoughPoints 3 .none 1 [(0 : ℚ), 1, 2] ∧
    (outs (callPG exDeep 10 .none 1 ⟨[3], [0, 1, 2]⟩ 0)).isSome = true ∧
    exc (callPG exDeep 10 .none (-2) ⟨[2], [1, 2]⟩ 0) = some .stopIteration ∧
    exc (callPG exDeep 10 .none 0 ⟨[1], [1]⟩ 0) = some .valueError := by
  refine ⟨?_, by decide +kernel, by decide +kernel, by decide +kernel⟩
  intro i t0 grid hi h0 hgr
  have hg : IsGrid .none [(0 : ℚ), 1, 2] [0, 1, 2] :=
    stepsTT_isGrid _ _ (by decide +kernel) (by decide +kernel)
  obtain rfl := isGrid_unique hgr hg
  have : i = 1 := by
    unfold Designates at hi
    simp at hi
    omega
  subst this
  simp only [List.getElem?_cons_succ, List.getElem?_cons_zero, Option.some.injEq] at h0
  subst h0
  exact ⟨fun _ => by decide +kernel, fun _ => by decide +kernel⟩

/-! ### C05 -/

/-- **C05.** A call is the two way computation `twoWay`: backwards from `timeline[i0]` through
the grid points below it, unless `i0` is literally 0, then forwards through those above, unless
`timeline[i0]` is the last point. All output slots are set. The number of points on each
side must be enough for the depth of the scheme (always so for depth 2). -/
theorem C05_two_way (g : PGen T W O σ) (step) (hna : NonAdaptive g step) (fuel : ℕ)
    (steps : Steps T) (i0 : ℤ) (tl : TArr T) (s : σ)
    (hK : 2 ≤ g.depth) (hv : ValidTimeline tl) {i : ℕ} (hi : Designates tl.data.length i0 i)
    (hst : ∀ n : ℤ, steps = .int n → 0 ≤ n)
    {grid : List T} (hg : IsGrid steps tl.data grid) {t0 : T} (h0 : tl.data[i]? = some t0)
    (hb : i0 ≠ 0 → g.depth - 1 ≤ (grid.filter (· ≤ t0)).length)
    (hf : Forw tl.data.length i0 → g.depth - 1 ≤ (grid.filter (t0 ≤ ·)).length)
    (hfuel : grid.length ≤ fuel) :
    (callPG g fuel steps i0 tl s).map (fun r => (r.xx, r.s, r.t0)) =
      (twoWay g step (i0 ≠ 0) (Forw tl.data.length i0) grid tl.data t0 s).map
        (fun r => (r.1.map some, r.2, t0)) := by
  have hmt : t0 ∈ tl.data := List.mem_of_getElem? h0
  have hne : tl.data ≠ [] := by rintro h; rw [h] at hmt; simp at hmt
  obtain ⟨tmax, hmax⟩ : ∃ l, tl.data.getLast? = some l := ⟨_, List.getLast?_eq_some_getLast hne⟩
  obtain ⟨tmin, hmin⟩ : ∃ a, tl.data.head? = some a := by
    cases hd : tl.data with
    | nil => exact absurd hd hne
    | cons c l => exact ⟨c, rfl⟩
  obtain ⟨grid', hg'⟩ : ∃ grid', stepsTT steps tl.data = .ok grid' := by
    rcases stepsTT_ok steps tl.data hne with h | ⟨⟨n, hn, hs⟩, _, _⟩
    · exact h
    · have := hst n hs; omega
  have := isGrid_unique hg (stepsTT_isGrid steps tl.data hv.2 hg')
  subst this
  rw [callPG_eq g step hna fuel steps i0 tl s hK hv hi hg' h0 hmin hmax hb hf hfuel]
  cases twoWay g step (decide (i0 ≠ 0)) (decide (Forw tl.data.length i0)) grid tl.data t0 s with
  | error e => rfl
  | ok r => rfl

/-- **C05**, initial condition: at `timeline[i0]` the output is what `store` makes of the value
that `begin` set there. For any depth 2 subclass, adaptive or not. -/
theorem C05_initial_condition (g : PGen T W O σ) (out : T → W → O) (hp : PureStore g out)
    (hK : g.depth = 2) (fuel : ℕ) (steps : Steps T) (i0 : ℤ) (tl : TArr T) (s : σ)
    {r : CallResult T O σ} (h : callPG g fuel steps i0 tl s = .ok r) :
    ∃ i t0, Designates tl.data.length i0 i ∧ tl.data[i]? = some t0 ∧ r.t0 = t0 ∧
      ∃ rev s1 xw s2, g.begin rev [t0] s1 = .ok (xw, s2) ∧ r.xx[i]? = some (some (out t0 (xw 0))) := by
  obtain ⟨L, hL⟩ := logged_same g fuel steps i0 tl s h
  obtain ⟨hK', hv, i, grid, t0, hi, hgr, h0, ht0, LB, LF, osB, osF, hLL, hB, hF, hxx⟩ :=
    callPG_trace g fuel steps i0 tl s hL
  simp only at hLL hxx ht0
  subst hLL
  have hmt : t0 ∈ tl.data := List.mem_of_getElem? h0
  have hmem : t0 ∈ grid := (hgr.2 t0).2 (.inl hmt)
  refine ⟨i, t0, hi, h0, ht0, ?_⟩
  -- the value visited at the first point of a pass is the one set by `begin`
  have key : ∀ (rev : Bool) (st tt : List T) (es : List (Event T W O)), st.head? = some t0 →
      TraceOk g rev st tt es → ((visited es).map Prod.fst).Pairwise (Before rev) →
      (∀ t ∈ (visited es).map Prod.fst, t = t0 ∨ Before rev t0 t) →
      ∀ x, (t0, x) ∈ visited es → ∃ s1 xw s2, g.begin rev [t0] s1 = .ok (xw, s2) ∧ x = xw 0 := by
    intro rev st tt es hst hT hpw hall x hx
    have hst1 : st.take 1 = [t0] := by
      cases st with
      | nil => simp at hst
      | cons a st => simp at hst; simp [hst]
    have : ∀ (post pre : List (Event T W O)), es = pre ++ post → (t0, x) ∈ visited post →
        ∃ s1 xw s2, g.begin rev [t0] s1 = .ok (xw, s2) ∧ x = xw 0 := by
      intro post
      induction post with
      | nil => intro pre _ h; simp [visited] at h
      | cons e post ih =>
        intro pre he hx
        have hok := hT pre e post he
        have hrec := ih (pre ++ [e]) (by simp [he])
        cases e with
        | begun win =>
          simp only [visited, List.mem_append] at hx
          rcases hx with hx | hx
          · obtain ⟨_, _, s1, s2, xw, hb, hw⟩ := hok
            rw [hK] at hb hw
            simp only [Nat.add_one_sub_one, hst1] at hb hw
            refine ⟨s1, xw, s2, hb, ?_⟩
            rw [hw] at hx
            simpa using hx
          · exact hrec hx
        | stepped win target p =>
          simp only [visited, List.mem_cons] at hx
          rcases hx with hx | hx
          · exfalso
            obtain ⟨_, _, _, ⟨last, hl, hbf⟩, _⟩ := hok
            have hlm : last.1 ∈ (visited es).map Prod.fst := by
              rw [he, visited_append]
              exact List.mem_map_of_mem (List.mem_append_left _ (List.mem_of_getLast? hl))
            rw [← hx] at hbf
            rcases hall _ hlm with h | h
            · rw [h] at hbf; exact hbf.irrefl
            · exact h.asymm hbf
          · exact hrec hx
        | stored i t' x' o => exact hrec (by simpa [visited] using hx)
    exact this es [] (by simp) hx
  have hhead : ∀ {rev : Bool} {st : List T} {vt : List T}, st.head? = some t0 →
      vt.Pairwise (Before rev) → st.Pairwise (Before rev) → vt.head? = some t0 →
      ∀ t ∈ vt, t = t0 ∨ Before rev t0 t := by
    intro rev st vt _ h1 _ h3 t ht
    cases vt with
    | nil => simp at ht
    | cons a vt =>
      simp at h3; subst h3
      rcases List.mem_cons.1 ht with h | h
      · exact .inl h
      · exact .inr ((List.pairwise_cons.1 h1).1 t h)
  have hbeg : ∀ {rev : Bool} {st tt : List T} {es : List (Event T W O)}, st.head? = some t0 →
      TraceOk g rev st tt es → (visited es) ≠ [] → ((visited es).map Prod.fst).head? = some t0 := by
    intro rev st tt es hst hT hne
    have hst1 : st.take 1 = [t0] := by
      cases st with
      | nil => simp at hst
      | cons a st => simp at hst; simp [hst]
    cases es with
    | nil => simp [visited] at hne
    | cons e es =>
      have hok := hT [] e es (by simp)
      cases e with
      | begun win =>
        have := hok.2.1
        rw [hK] at this
        simp only [Nat.add_one_sub_one, hst1] at this
        simp [visited, this]
      | stepped win target p =>
        obtain ⟨_, _, _, ⟨last, hl, _⟩, _⟩ := hok
        simp [visited] at hl
      | stored j t x o =>
        have := hok.2.2.1
        simp [visited] at this
  have hstoredval : ∀ {rev : Bool} {st tt : List T} {es : List (Event T W O)} {j : ℕ} {o : O},
      TraceOk g rev st tt es → (j, t0, o) ∈ storedEvents es → ∃ x, (t0, x) ∈ visited es ∧ o = out t0 x := by
    intro rev st tt es j o hT hm
    have : ∀ (post pre : List (Event T W O)), es = pre ++ post → (j, t0, o) ∈ storedEvents post →
        ∃ x, (t0, x) ∈ visited es ∧ o = out t0 x := by
      intro post
      induction post with
      | nil => intro pre _ h; simp [storedEvents] at h
      | cons e post ih =>
        intro pre he hx
        have hok := hT pre e post he
        have hrec := ih (pre ++ [e]) (by simp [he])
        cases e with
        | begun win => exact hrec (by simpa [storedEvents] using hx)
        | stepped win target p => exact hrec (by simpa [storedEvents] using hx)
        | stored i t' x' o' =>
          simp only [storedEvents, List.mem_cons] at hx
          rcases hx with hx | hx
          · obtain ⟨_, _, hv, s1, s2, hs⟩ := hok
            simp only [Prod.mk.injEq] at hx
            obtain ⟨rfl, rfl, rfl⟩ := hx
            rw [hp] at hs
            simp only [Except.ok.injEq, Prod.mk.injEq] at hs
            refine ⟨x', ?_, hs.1.symm⟩
            rw [he, visited_append]
            exact List.mem_append_left _ hv
          · exact hrec hx
    exact this es [] (by simp) hm
  by_cases hF0 : Forw tl.data.length i0
  · rw [if_pos hF0] at hF hxx
    have hh : (grid.filter (t0 ≤ ·)).head? = some t0 := by
      have e := filter_ge_of_sorted hgr.1 (getElem?_idxOf hmem)
      rw [← e, List.head?_drop, getElem?_idxOf hmem]
    have hvne : visited LF ≠ [] := by
      have := hF.2.2.2.2 t0 hmem le_rfl
      intro hc; rw [hc] at this; simp at this
    have hlen0 : 0 < osF.length := by rw [hF.2.1]; have := hi.1; omega
    have hm : (0, t0, osF[0]) ∈ storedEvents LF := by
      rw [hF.1, List.mem_iff_getElem?]
      refine ⟨0, ?_⟩
      have h1 : (tl.data.filter (t0 ≤ ·))[0]? = some t0 := by
        rw [← filter_ge_of_sorted hv.2 h0, List.getElem?_drop, ← h0]; simp
      simp [enumOut, List.getElem?_mapIdx, List.getElem?_zip_eq_some, h1]
    obtain ⟨x, hx, ho⟩ := hstoredval hF.2.2.1 hm
    obtain ⟨s1, xw, s2, hbg, hxx0⟩ := key false _ _ LF hh hF.2.2.1 hF.2.2.2.1
      (hhead hh hF.2.2.2.1 (pairwise_before_false.2 (hgr.1.filter _)) (hbeg hh hF.2.2.1 hvne)) x hx
    refine ⟨false, s1, xw, s2, hbg, ?_⟩
    have hlen : osB.reverse.dropLast.length = i := by
      by_cases hz : i0 ≠ 0
      · rw [if_pos hz] at hB; simp [hB.2.1]
      · rw [if_neg hz] at hB
        have h1 := hi.1
        have h2 := hi.2
        simp [hB.2]; omega
    rw [hxx, List.map_append, List.getElem?_append_right (by simp only [List.length_map, hlen]; exact le_rfl),
      List.length_map, hlen, Nat.sub_self, List.getElem?_map, List.getElem?_eq_getElem hlen0, ho, hxx0]
    rfl
  · rw [if_neg hF0] at hF hxx
    have hz : i0 ≠ 0 ∧ tl.data.length = i + 1 := by
      have h1 := hi.1
      have h2 := hi.2
      unfold Forw at hF0
      omega
    rw [if_pos hz.1] at hB
    have hh : (grid.filter (· ≤ t0)).reverse.head? = some t0 := by
      have e := filter_le_of_sorted hgr.1 (getElem?_idxOf hmem)
      rw [← e, List.head?_reverse, List.getLast?_take]
      simp [getElem?_idxOf hmem]
    have hvne : visited LB ≠ [] := by
      have := hB.2.2.2.2 t0 hmem le_rfl
      intro hc; rw [hc] at this; simp at this
    have hlen0 : 0 < osB.length := by rw [hB.2.1]; omega
    have hm : (0, t0, osB[0]) ∈ storedEvents LB := by
      rw [hB.1, List.mem_iff_getElem?]
      refine ⟨0, ?_⟩
      have h1 : ((tl.data.filter (· ≤ t0)).reverse)[0]? = some t0 := by
        rw [← filter_le_of_sorted hv.2 h0, List.getElem?_reverse (by simp; omega)]
        rw [List.length_take, List.getElem?_take, if_pos (by omega)]
        rw [← h0]; congr 1; omega
      simp [enumOut, List.getElem?_mapIdx, List.getElem?_zip_eq_some, h1]
    obtain ⟨x, hx, ho⟩ := hstoredval hB.2.2.1 hm
    obtain ⟨s1, xw, s2, hbg, hxx0⟩ := key true _ _ LB hh hB.2.2.1 hB.2.2.2.1
      (hhead hh hB.2.2.2.1 (pairwise_before_true.2 (hgr.1.filter _)) (hbeg hh hB.2.2.1 hvne)) x hx
    refine ⟨true, s1, xw, s2, hbg, ?_⟩
    rw [hxx, hF.2, List.append_nil, List.getElem?_map, List.getElem?_reverse (by rw [hB.2.1]; omega)]
    rw [show osB.length - 1 - i = 0 by rw [hB.2.1]; omega, List.getElem?_eq_getElem hlen0, ho, hxx0]
    rfl

/-- Start from the middle: 10 at time 2, backwards to 10+1+0, forwards to 10+5+7. -/
example : outs (callPG exGen 10 (.iter [1, 5]) (-2) ⟨[3], [0, 2, 7]⟩ 0) =
    some [some 11, some 10, some 22] := by decide +kernel

example : IsGrid (.iter [1, 5]) [(0 : ℚ), 2, 7] [0, 1, 2, 5, 7] ∧ Designates 3 (-2) 1 ∧
    Forw 3 (-2) :=
  ⟨stepsTT_isGrid _ _ (by decide +kernel) (by decide +kernel), by unfold Designates; omega,
    by unfold Forw; omega⟩

end Sdepy
