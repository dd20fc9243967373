import Verif.Props.PathsCall

/-!
# Properties C06-C08: counters, step control, independence of the output timeline
-/

set_option linter.unusedSectionVars false
set_option linter.unusedSimpArgs false

namespace Sdepy

open Spec

variable {T W O σ : Type} [Zero T] [One T] [Neg T] [Sub T] [Mul T]
  [LinearOrder T] [Linspace T] [SignOk T]

/-! ### C06 -/

theorem length_filter_split {l : List T} (h : l.Pairwise (· < ·)) {t : T} (ht : t ∈ l) :
    (l.filter (· ≤ t)).length + (l.filter (t ≤ ·)).length = l.length + 1 := by
  rw [← filter_le_of_sorted h (getElem?_idxOf ht), ← filter_ge_of_sorted h (getElem?_idxOf ht)]
  have := List.idxOf_lt_length_of_mem ht
  rw [List.length_take, List.length_drop]; omega

theorem length_filter_ne {l : List T} (h : l.Pairwise (· < ·)) {t : T} (ht : t ∈ l) :
    (l.filter (fun u => u ∉ [t])).length + 1 = l.length := by
  have hnd : l.Nodup := h.imp fun h => ne_of_lt h
  have h1 : l.filter (fun u => u ∉ [t]) = l.erase t := by
    rw [hnd.erase_eq_filter]
    apply List.filter_congr
    intro x _
    by_cases hx : x = t <;> simp [hx]
  rw [h1, List.length_erase_of_mem ht]
  have := List.length_pos_of_mem ht
  omega

/-- **C06.** Counters in `info` for a depth 2 scheme with no step adaptation: all the points of
the grid but the initial one are computed, all those of the timeline but the initial one are
stored after a step. Backward and forward steps are cumulated. -/
theorem C06_counters (g : PGen T W O σ) (step) (hna : NonAdaptive g step) (fuel : ℕ)
    (steps : Steps T) (i0 : ℤ) (tl : TArr T) (s : σ) (hK : g.depth = 2)
    {grid : List T} (hg : IsGrid steps tl.data grid) (hfuel : grid.length ≤ fuel)
    {r : CallResult T O σ} (h : callPG g fuel steps i0 tl s = .ok r) :
    r.computed = grid.length - 1 ∧ r.stored = tl.data.length - 1 ∧
      (∃ i, Designates tl.data.length i0 i ∧ tl.data[i]? = some r.t0) ∧
      tl.data.head? = some r.tmin ∧ tl.data.getLast? = some r.tmax := by
  obtain ⟨L, hL⟩ := logged_same g fuel steps i0 tl s h
  obtain ⟨_, hv, i, grid', t0, hi, hgr, h0, _, -⟩ := callPG_trace g fuel steps i0 tl s hL
  have := isGrid_unique hg hgr
  subst this
  have hmt : t0 ∈ tl.data := List.mem_of_getElem? h0
  have hmem : t0 ∈ grid := (hgr.2 t0).2 (.inl hmt)
  have hne : tl.data ≠ [] := by rintro h; rw [h] at hmt; simp at hmt
  obtain ⟨tmax, hmax⟩ : ∃ l, tl.data.getLast? = some l := ⟨_, List.getLast?_eq_some_getLast hne⟩
  obtain ⟨tmin, hmin⟩ : ∃ a, tl.data.head? = some a := by
    cases hd : tl.data with
    | nil => exact absurd hd hne
    | cons c l => exact ⟨c, rfl⟩
  obtain ⟨grid', hg'⟩ : ∃ grid', stepsTT steps tl.data = .ok grid' := by
    rcases stepsTT_ok steps tl.data hne with h' | ⟨⟨n, hn, hs⟩, h1, h2⟩
    · exact h'
    · exfalso
      rw [callPG, if_neg (by omega), if_neg (not_not.2 hv.1)] at h
      simp only at h
      rw [if_neg (not_not.2 ((eq_npUnique_iff _).2 hv.2)), (pyIndex_eq_some _ _ _).2 hi, h2] at h
      simp at h
  have := isGrid_unique hgr (stepsTT_isGrid steps tl.data hv.2 hg')
  subst this
  have he := depth2_enough hgr hmt
  rw [callPG_eq g step hna fuel steps i0 tl s (by omega) hv hi hg' h0 hmin hmax
    (fun _ => by rw [hK]; exact he.1) (fun _ => by rw [hK]; exact he.2) hfuel] at h
  cases htw : twoWay g step (decide (i0 ≠ 0)) (decide (Forw tl.data.length i0)) grid tl.data t0 s with
  | error e => rw [htw] at h; simp [bind, Except.bind] at h
  | ok q =>
    rw [htw] at h
    simp only [bind, Except.bind, pure, Except.pure, Except.ok.injEq, hK, Nat.add_one_sub_one] at h
    subst h
    simp only
    have hb1 : ((grid.filter (· ≤ t0)).reverse).take 1 = [t0] := by
      have e := filter_le_of_sorted hgr.1 (getElem?_idxOf hmem)
      have : (grid.filter (· ≤ t0)).reverse.head? = some t0 := by
        rw [← e, List.head?_reverse, List.getLast?_take]
        simp [getElem?_idxOf hmem]
      cases hc : (grid.filter (· ≤ t0)).reverse with
      | nil => rw [hc] at this; simp at this
      | cons a l => rw [hc] at this; simp at this; simp [this]
    have hf1 : (grid.filter (t0 ≤ ·)).take 1 = [t0] := by
      have e := filter_ge_of_sorted hgr.1 (getElem?_idxOf hmem)
      have : (grid.filter (t0 ≤ ·)).head? = some t0 := by
        rw [← e, List.head?_drop, getElem?_idxOf hmem]
      cases hc : (grid.filter (t0 ≤ ·)) with
      | nil => rw [hc] at this; simp at this
      | cons a l => rw [hc] at this; simp at this; simp [this]
    have hB := length_filter_ne (hv.2.filter (· ≤ t0)) (t := t0) (by simp [hmt])
    have hF := length_filter_ne (hv.2.filter (t0 ≤ ·)) (t := t0) (by simp [hmt])
    rw [hb1, hf1]
    have s1 := length_filter_split hgr.1 hmem
    have s2 := length_filter_split hv.2 hmt
    have ti : (tl.data.filter (· ≤ t0)).length = i + 1 := by
      have h1 := hi.1
      rw [← filter_le_of_sorted hv.2 h0, List.length_take]; omega
    -- if only one pass is made, the other side consists of the starting point
    have hgi : i = 0 → (grid.filter (· ≤ t0)).length = 1 := by
      intro hi0
      subst hi0
      have hhd : grid.head? = some t0 := by
        rw [isGrid_head hv.2 hgr]
        rw [← h0]; cases tl.data <;> simp
      rw [← filter_le_of_sorted hgr.1 (i := 0) (by rw [← hhd]; cases grid <;> simp),
        List.length_take]
      have := List.length_pos_of_mem hmem
      omega
    have hgl : tl.data.length = i + 1 → (grid.filter (t0 ≤ ·)).length = 1 := by
      intro hi0
      have hhd : grid.getLast? = some t0 := by
        rw [isGrid_getLast hv.2 hgr, ← h0, List.getLast?_eq_getElem?]
        congr 1; omega
      rw [← filter_ge_of_sorted hgr.1 (i := grid.length - 1)
        (by rw [← hhd, List.getLast?_eq_getElem?]), List.length_drop]
      have := List.length_pos_of_mem hmem
      omega
    have h1 := hi.1
    have h2 := hi.2
    refine ⟨?_, ?_, ⟨i, hi, h0⟩, hmin, hmax⟩
    · by_cases hz : i0 = 0
      · have hFo : Forw tl.data.length i0 := .inl hz
        rw [if_neg (not_not.2 hz), if_pos hFo]
        have := hgi (by omega)
        omega
      · rw [if_pos hz]
        by_cases hFo : Forw tl.data.length i0
        · rw [if_pos hFo]; omega
        · rw [if_neg hFo]
          have := hgl (by unfold Forw at hFo; omega)
          omega
    · by_cases hz : i0 = 0
      · have hFo : Forw tl.data.length i0 := .inl hz
        rw [if_neg (not_not.2 hz), if_pos hFo]
        omega
      · rw [if_pos hz]
        by_cases hFo : Forw tl.data.length i0
        · rw [if_pos hFo]; omega
        · rw [if_neg hFo]
          have : tl.data.length = i + 1 := by unfold Forw at hFo; omega
          omega

/-- Counters of a call. -/
def counters (r : Py (CallResult T O σ)) : Option (ℕ × ℕ) :=
  match r with
  | .ok r => some (r.computed, r.stored)
  | .error _ => none

/-- The documentation (`integration.py` 92-97) says that if integration is run both backwards and
forwards, `info` pertains to the forward part only. Not so for these counters: here 1 backward and
2 forward steps are made, and 3 are counted. -/
theorem C06_counters_cumulate_both_directions :
    counters (callPG exGen 10 (.iter [5]) 1 ⟨[3], [0, 2, 7]⟩ 0) = some (3, 2) := by decide +kernel

/-! ### C07 -/

/-- **C07.** If callbacks never raise, and there are enough points for the depth of the scheme (always
so for depth 2), an integration either returns, with every move of `next` within the permitted
interval, or raises `RuntimeError`, which requires that `next` is able to leave that interval, or
never ends (`noFuel` whatever the fuel). -/
theorem C07_step_control (g : PGen T W O σ) (hw : NeverRaises g) (fuel : ℕ)
    (steps : Steps T) (i0 : ℤ) (tl : TArr T) (s : σ) (hK : 2 ≤ g.depth) (hv : ValidTimeline tl)
    (hi : ∃ i, Designates tl.data.length i0 i) (hst : ∀ n : ℤ, steps = .int n → 0 ≤ n)
    (he : EnoughPoints g.depth steps i0 tl.data) :
    callPG g fuel steps i0 tl s = .error .noFuel ∨
    (callPG g fuel steps i0 tl s = .error .runtimeError ∧ CanOverstep g) ∨
    ∃ r L, callPG g fuel steps i0 tl s = .ok r ∧
      (∃ r', callPG (logged g) fuel steps i0 tl (s, []) = .ok r' ∧ r'.s = (r.s, L)) ∧
      ∀ win target p, Event.stepped win target p ∈ L → ∃ (rev : Bool) (last : T × W), win.getLast? = some last ∧
        (if rev then target ≤ p.1 ∧ p.1 < last.1 else last.1 < p.1 ∧ p.1 ≤ target) := by
  obtain ⟨i, t0, grid, hi, h0, hg, hgr⟩ := validCall_setup hv hi hst
  have he := he i t0 grid hi h0 hgr
  rcases callPG_safe g hw fuel steps i0 tl s hK hv hi hg h0 he.1 he.2 with
    ⟨h, _⟩ | ⟨r, h, _⟩ | ⟨h, _, h'⟩
  · exact .inl h
  · right; right
    obtain ⟨L, hL⟩ := logged_same g fuel steps i0 tl s h
    refine ⟨r, L, h, ⟨_, hL, rfl⟩, ?_⟩
    obtain ⟨_, _, i', grid', t0', _, _, _, _, LB, LF, osB, osF, hLL, hB, hF, _⟩ :=
      callPG_trace g fuel steps i0 tl s hL
    simp only at hLL
    have key : ∀ {rev : Bool} {st tt : List T} {es : List (Event T W O)} {win target p},
        TraceOk g rev st tt es → Event.stepped win target p ∈ es →
        ∃ (rev : Bool) (last : T × W), win.getLast? = some last ∧
        (if rev then target ≤ p.1 ∧ p.1 < last.1 else last.1 < p.1 ∧ p.1 ≤ target) := by
      intro rev st tt es win target p hT hm
      obtain ⟨pre, post, hpp⟩ := List.append_of_mem hm
      obtain ⟨hw, _, _, ⟨last, hl, hb⟩, htg⟩ := hT pre _ post hpp
      refine ⟨rev, last, ?_, ?_⟩
      · rw [hw, lastN]
        have hlen : 0 < (visited pre).length := List.length_pos_of_mem (List.mem_of_getLast? hl)
        rw [List.getLast?_drop, if_neg (by omega)]
        exact hl
      · cases rev
        · exact ⟨hb, htg⟩
        · exact ⟨htg, hb⟩
    intro win target p hm
    rw [hLL, List.mem_append] at hm
    rcases hm with hm | hm
    · split at hB
      · exact key hB.2.2.1 hm
      · rw [hB.1] at hm; simp at hm
    · split at hF
      · exact key hF.2.2.1 hm
      · rw [hF.1] at hm; simp at hm
  · exact .inr (.inl ⟨h, h'⟩)

/-- **C07**, exactly: `RuntimeError` is raised when, and only when, a move made during the integration
leaves the permitted interval. Let the subclass check its own moves, raising `AssertionError`: the
outcome is the same, with the exception of the subclass where `RuntimeError` was raised. -/
theorem C07_exact (g : PGen T W O σ) (hw : NeverRaises g) (fuel : ℕ)
    (steps : Steps T) (i0 : ℤ) (tl : TArr T) (s : σ) (hK : 2 ≤ g.depth) (hv : ValidTimeline tl)
    (hi : ∃ i, Designates tl.data.length i0 i) (hst : ∀ n : ℤ, steps = .int n → 0 ≤ n)
    (he : EnoughPoints g.depth steps i0 tl.data) :
    (callPG g fuel steps i0 tl s = .error .runtimeError ↔
      callPG (guarded g) fuel steps i0 tl s = .error .assertionError) ∧
    (callPG g fuel steps i0 tl s ≠ .error .runtimeError →
      callPG (guarded g) fuel steps i0 tl s = callPG g fuel steps i0 tl s) := by
  obtain ⟨i, t0, grid, hi, h0, hg, hgr⟩ := validCall_setup hv hi hst
  have he := he i t0 grid hi h0 hgr
  rcases callPG_safe g hw fuel steps i0 tl s hK hv hi hg h0 he.1 he.2 with
    ⟨h, k⟩ | ⟨r, h, k⟩ | ⟨h, k, _⟩
  · rw [h, k]; simp
  · rw [h, k]; simp
  · rw [h, k]; simp

/-- A subclass whose second step goes beyond the target. -/
def exOver : PGen ℚ ℚ ℚ ℕ :=
  { exGen with next := fun _ _ t s => .ok ((if s = 1 then t + 1 else t, 0), s + 1) }

example : NeverRaises exOver ∧ exOver.depth = 2 ∧
    exc (callPG exOver 10 (.iter [5]) 0 ⟨[2], [0, 7]⟩ 0) = some .runtimeError ∧
    exc (callPG (guarded exOver) 10 (.iter [5]) 0 ⟨[2], [0, 7]⟩ 0) = some .assertionError ∧
    outs (callPG (guarded exOver) 10 .none 0 ⟨[2], [0, 7]⟩ 0) = some [some 10, some 0] ∧
    outs (callPG exOver 10 .none 0 ⟨[2], [0, 7]⟩ 0) = some [some 10, some 0] :=
  ⟨⟨fun _ _ _ => ⟨_, rfl⟩, fun _ _ _ _ => ⟨_, rfl⟩, fun _ _ _ _ => ⟨_, rfl⟩, fun _ => ⟨_, rfl⟩⟩,
    rfl, by decide +kernel, by decide +kernel, by decide +kernel, by decide +kernel⟩

/-! ### C08 -/

/-- The points computed by a call are those of the grid. -/
theorem twoWayTrajectory_times (g : PGen T W O σ) (step) (steps : Steps T) (i0 : ℤ)
    {tt grid : List T} {t0 : T} {i : ℕ} (hv : tt.Pairwise (· < ·)) (hi : Designates tt.length i0 i)
    (h0 : tt[i]? = some t0) (hgr : IsGrid steps tt grid) (s : σ) {ps s'}
    (h : twoWayTrajectory g step (i0 ≠ 0) (Forw tt.length i0) grid t0 s = .ok (ps, s')) :
    ps.map Prod.fst = grid := by
  have hmt : t0 ∈ tt := List.mem_of_getElem? h0
  have hmem : t0 ∈ grid := (hgr.2 t0).2 (.inl hmt)
  have eL := filter_le_of_sorted hgr.1 (getElem?_idxOf hmem)
  have eR := filter_ge_of_sorted hgr.1 (getElem?_idxOf hmem)
  have hlt := List.idxOf_lt_length_of_mem hmem
  have h1 := hi.1
  have h2 := hi.2
  simp only [twoWayTrajectory, bind, Except.bind, pure, Except.pure] at h
  have hF : ∀ (s1 s2 : σ) (pf : List (T × W)) (pre : List (T × W)),
      (if decide (Forw tt.length i0) = true then
        trajectory g.depth (g.begin false) (step false) g.fin (grid.filter (t0 ≤ ·)) s1
        else Except.ok ([], s1)) = .ok (pf, s2) →
      pf.map Prod.fst = if Forw tt.length i0 then grid.filter (t0 ≤ ·) else [] := by
    intro s1 s2 pf pre hh
    by_cases hFo : Forw tt.length i0
    · simp only [hFo, decide_true, if_true] at hh ⊢
      exact trajectory_times _ _ _ _ _ _ hh
    · simp only [hFo, decide_false, Bool.false_eq_true, if_false, Except.ok.injEq,
        Prod.mk.injEq] at hh ⊢
      rw [← hh.1]; rfl
  by_cases hz : i0 = 0
  · have hFo : Forw tt.length i0 := .inl hz
    simp only [hz, ne_eq, not_true, decide_false, Bool.false_eq_true, if_false] at h
    cases hf : (if decide (Forw tt.length i0) = true then
        trajectory g.depth (g.begin false) (step false) g.fin (grid.filter (t0 ≤ ·)) s
        else Except.ok ([], s)) with
    | error e => rw [hz] at hf; rw [hf] at h; simp at h
    | ok q =>
      have := hF s q.2 q.1 [] (by rw [hf])
      rw [hz] at hf
      rw [hf] at h
      rw [if_pos hFo] at this
      have hFo' : Forw tt.length 0 := .inl rfl
      simp only [hFo', decide_true, if_true, List.reverse_nil, List.dropLast_nil, List.nil_append,
        Except.ok.injEq, Prod.mk.injEq] at h
      rw [← h.1, this]
      have hhd : grid.head? = some t0 := by
        rw [isGrid_head hv hgr]
        have : i = 0 := by omega
        subst this
        rw [← h0]; cases tt <;> simp
      rw [← filter_ge_of_sorted hgr.1 (i := 0) (by rw [← hhd]; cases grid <;> simp)]
      rfl
  · simp only [hz, ne_eq, not_false_iff, decide_true, if_true] at h
    cases hb : trajectory g.depth (g.begin true) (step true) g.fin
        (grid.filter (· ≤ t0)).reverse s with
    | error e => rw [hb] at h; simp at h
    | ok q =>
      have tb := trajectory_times _ _ _ _ _ _ hb
      rw [hb] at h
      simp only at h
      cases hf : (if decide (Forw tt.length i0) = true then
        trajectory g.depth (g.begin false) (step false) g.fin (grid.filter (t0 ≤ ·)) q.2
        else Except.ok ([], q.2)) with
      | error e => rw [hf] at h; simp at h
      | ok q2 =>
        have := hF q.2 q2.2 q2.1 [] (by rw [hf])
        rw [hf] at h
        by_cases hFo : Forw tt.length i0
        · rw [if_pos hFo] at this
          simp only [hFo, decide_true, if_true, Except.ok.injEq, Prod.mk.injEq] at h
          rw [← h.1, List.map_append, this, List.map_dropLast, List.map_reverse, tb,
            List.reverse_reverse, ← eL, ← eR, List.dropLast_eq_take, List.length_take,
            List.take_take]
          rw [show min (min (List.idxOf t0 grid + 1) grid.length - 1) (List.idxOf t0 grid + 1) =
            List.idxOf t0 grid by omega, List.take_append_drop]
        · rw [if_neg hFo] at this
          simp only [hFo, decide_false, Bool.false_eq_true, if_false, Except.ok.injEq,
            Prod.mk.injEq] at h
          rw [← h.1, List.map_append, this, List.map_reverse, tb, List.reverse_reverse,
            List.append_nil]
          have hhd : grid.getLast? = some t0 := by
            rw [isGrid_getLast hv hgr, ← h0, List.getLast?_eq_getElem?]
            congr 1; unfold Forw at hFo; omega
          rw [← filter_le_of_sorted hgr.1 (i := grid.length - 1)
            (by rw [← hhd, List.getLast?_eq_getElem?]), List.take_of_length_le (by omega)]

/-- What a call with side effect free outputs returns. -/
theorem callPG_pure (g : PGen T W O σ) (step) (out : T → W → O) (hna : NonAdaptive g step)
    (hp : PureStore g out) (hK : g.depth = 2) (fuel : ℕ) (steps : Steps T) (i0 : ℤ) (tl : TArr T)
    (s : σ) {grid : List T} (hg : IsGrid steps tl.data grid) (hfuel : grid.length ≤ fuel)
    {r : CallResult T O σ} (h : callPG g fuel steps i0 tl s = .ok r) :
    ∃ ps, twoWayTrajectory g step (i0 ≠ 0) (Forw tl.data.length i0) grid r.t0 s = .ok (ps, r.s) ∧
      ps.map Prod.fst = grid ∧
      r.xx = (ps.filter (fun p => p.1 ∈ tl.data)).map (fun p => some (out p.1 p.2)) := by
  obtain ⟨L, hL⟩ := logged_same g fuel steps i0 tl s h
  obtain ⟨_, hv, i, grid', t0, hi, hgr, h0, ht0, -⟩ := callPG_trace g fuel steps i0 tl s hL
  have := isGrid_unique hg hgr
  subst this
  have hmt : t0 ∈ tl.data := List.mem_of_getElem? h0
  have hmem : t0 ∈ grid := (hgr.2 t0).2 (.inl hmt)
  have he := depth2_enough hgr hmt
  have hst : ∀ n : ℤ, steps = .int n → tl.data.length ≠ 1 → 0 ≤ n := by
    intro n hn h1
    by_contra hc
    have hne : tl.data ≠ [] := by rintro h; rw [h] at hmt; simp at hmt
    have h2 : stepsTT steps tl.data = .error .valueError := by
      obtain ⟨tmax, hmax⟩ : ∃ l, tl.data.getLast? = some l := ⟨_, List.getLast?_eq_some_getLast hne⟩
      obtain ⟨tmin, hmin⟩ : ∃ a, tl.data.head? = some a := by
        cases hd : tl.data with
        | nil => exact absurd hd hne
        | cons c l => exact ⟨c, rfl⟩
      simp only [stepsTT, pace, npLinspace, hmin, hmax, hn, if_neg h1, if_pos (not_le.1 hc)]
    rw [callPG, if_neg (by omega), if_neg (not_not.2 hv.1)] at h
    simp only at h
    rw [if_neg (not_not.2 ((eq_npUnique_iff _).2 hv.2)), (pyIndex_eq_some _ _ _).2 hi, h2] at h
    simp at h
  have hne : tl.data ≠ [] := by rintro h; rw [h] at hmt; simp at hmt
  obtain ⟨tmax, hmax⟩ : ∃ l, tl.data.getLast? = some l := ⟨_, List.getLast?_eq_some_getLast hne⟩
  obtain ⟨tmin, hmin⟩ : ∃ a, tl.data.head? = some a := by
    cases hd : tl.data with
    | nil => exact absurd hd hne
    | cons c l => exact ⟨c, rfl⟩
  obtain ⟨grid', hg'⟩ : ∃ grid', stepsTT steps tl.data = .ok grid' := by
    rcases stepsTT_ok steps tl.data hne with h' | ⟨⟨n, hn, hs⟩, h1, h2⟩
    · exact h'
    · have := hst n hs h1; omega
  have := isGrid_unique hgr (stepsTT_isGrid steps tl.data hv.2 hg')
  subst this
  rw [callPG_eq g step hna fuel steps i0 tl s (by omega) hv hi hg' h0 hmin hmax
    (fun _ => by rw [hK]; exact he.1) (fun _ => by rw [hK]; exact he.2) hfuel,
    twoWay_pure g step out hp _ _ grid tl.data t0 s hmt hmem hgr.1] at h
  cases htw : twoWayTrajectory g step (decide (i0 ≠ 0)) (decide (Forw tl.data.length i0)) grid t0 s with
  | error e => rw [htw] at h; simp [bind, Except.bind] at h
  | ok q =>
    rw [htw] at h
    simp only [bind, Except.bind, pure, Except.pure, Except.ok.injEq] at h
    subst h
    exact ⟨q.1, htw, twoWayTrajectory_times g step steps i0 hv.2 hi h0 hgr s htw,
      by simp [List.map_map, Function.comp_def]⟩

/-- **C08.** Two integrations by the same subclass, started from the same state (random
generator included) at the same time, along the same grid, but asked to output different
timelines, agree at all common output times. Output being side effect free (`PureStore`), as in
all the integrators of the package; `hb`, `hf`: same passes are run. -/
theorem C08_output_timeline_irrelevant (g : PGen T W O σ) (step) (out : T → W → O)
    (hna : NonAdaptive g step) (hp : PureStore g out) (hK : g.depth = 2) (fuel : ℕ)
    (steps₁ steps₂ : Steps T) (i₁ i₂ : ℤ) (tl₁ tl₂ : TArr T) (s : σ) {grid : List T}
    (hg₁ : IsGrid steps₁ tl₁.data grid) (hg₂ : IsGrid steps₂ tl₂.data grid)
    (hfuel : grid.length ≤ fuel) (hb : i₁ = 0 ↔ i₂ = 0)
    (hf : Forw tl₁.data.length i₁ ↔ Forw tl₂.data.length i₂)
    {r₁ r₂ : CallResult T O σ} (h₁ : callPG g fuel steps₁ i₁ tl₁ s = .ok r₁)
    (h₂ : callPG g fuel steps₂ i₂ tl₂ s = .ok r₂) (ht : r₁.t0 = r₂.t0)
    {j₁ j₂ : ℕ} {t : T} (e₁ : tl₁.data[j₁]? = some t) (e₂ : tl₂.data[j₂]? = some t) :
    r₁.s = r₂.s ∧ ∃ o, r₁.xx[j₁]? = some (some o) ∧ r₂.xx[j₂]? = some (some o) := by
  obtain ⟨ps, hp1, hts, hx1⟩ := callPG_pure g step out hna hp hK fuel steps₁ i₁ tl₁ s hg₁ hfuel h₁
  obtain ⟨ps', hp2, hts', hx2⟩ := callPG_pure g step out hna hp hK fuel steps₂ i₂ tl₂ s hg₂ hfuel h₂
  have hbb : (decide (i₁ ≠ 0)) = decide (i₂ ≠ 0) := by simp [hb]
  have hff : (decide (Forw tl₁.data.length i₁)) = decide (Forw tl₂.data.length i₂) := by simp [hf]
  rw [hbb, hff, ht, hp2] at hp1
  simp only [Except.ok.injEq, Prod.mk.injEq] at hp1
  obtain ⟨rfl, hs⟩ := hp1
  refine ⟨hs.symm, ?_⟩
  have key : ∀ (tl : TArr T) (steps : Steps T) (j : ℕ), IsGrid steps tl.data grid →
      tl.data.Pairwise (· < ·) → tl.data[j]? = some t → ∃ p ∈ ps', p.1 = t ∧
        ((ps'.filter (fun p => p.1 ∈ tl.data)).map (fun p => some (out p.1 p.2)))[j]? =
          some (some (out p.1 p.2)) := by
    intro tl steps j hg hv hj
    have hfst : (ps'.filter (fun p => p.1 ∈ tl.data)).map Prod.fst = tl.data := by
      have e1 : (ps'.filter (fun p => p.1 ∈ tl.data)).map Prod.fst =
          (ps'.map Prod.fst).filter (fun u => u ∈ tl.data) := by
        rw [List.filter_map]; rfl
      rw [e1, hts]
      apply sorted_ext (hg.1.filter _) hv
      intro u
      simp only [List.mem_filter, decide_eq_true_eq]
      exact ⟨fun h => h.2, fun h => ⟨(hg.2 u).2 (.inl h), h⟩⟩
    rw [← hfst, List.getElem?_map] at hj
    cases hq : (ps'.filter (fun p => p.1 ∈ tl.data))[j]? with
    | none => rw [hq] at hj; simp at hj
    | some p =>
      rw [hq] at hj
      simp at hj
      exact ⟨p, List.mem_of_mem_filter (List.mem_of_getElem? hq), hj, by rw [List.getElem?_map, hq]; rfl⟩
  obtain ⟨L1, hL1⟩ := logged_same g fuel steps₁ i₁ tl₁ s h₁
  obtain ⟨L2, hL2⟩ := logged_same g fuel steps₂ i₂ tl₂ s h₂
  obtain ⟨p, hpm, hpt, hpx⟩ := key tl₁ steps₁ j₁ hg₁ (callPG_trace g fuel steps₁ i₁ tl₁ s hL1).2.1.2 e₁
  obtain ⟨q, hqm, hqt, hqx⟩ := key tl₂ steps₂ j₂ hg₂ (callPG_trace g fuel steps₂ i₂ tl₂ s hL2).2.1.2 e₂
  have hnd : (ps'.map Prod.fst).Nodup := by rw [hts]; exact hg₁.1.imp fun h => ne_of_lt h
  have : p = q := List.inj_on_of_nodup_map hnd hpm hqm (by rw [hpt, hqt])
  subst this
  exact ⟨_, by rw [hx1]; exact hpx, by rw [hx2]; exact hqx⟩

/-- Timelines 0, 2, 7 and 0, 1, 7 on the common grid 0, 1, 2, 7. -/
example : outs (callPG exGen 10 (.iter [1]) 0 ⟨[3], [0, 2, 7]⟩ 0) = some [some 10, some 13, some 20] ∧
    outs (callPG exGen 10 (.iter [2]) 0 ⟨[3], [0, 1, 7]⟩ 0) = some [some 10, some 11, some 20] ∧
    IsGrid (.iter [1]) [(0 : ℚ), 2, 7] [0, 1, 2, 7] ∧ IsGrid (.iter [2]) [(0 : ℚ), 1, 7] [0, 1, 2, 7] :=
  ⟨by decide +kernel, by decide +kernel, stepsTT_isGrid _ _ (by decide +kernel) (by decide +kernel),
    stepsTT_isGrid _ _ (by decide +kernel) (by decide +kernel)⟩

end Sdepy
