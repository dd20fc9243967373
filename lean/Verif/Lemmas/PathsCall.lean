import Verif.Lemmas.PathsTrace

set_option linter.unusedSectionVars false
set_option linter.unusedSimpArgs false

namespace Sdepy

open Spec

variable {T W O σ : Type} [Zero T] [One T] [Neg T] [Sub T] [Mul T]
  [LinearOrder T] [Linspace T] [SignOk T]

theorem mem_npUnique (l : List T) (t : T) : t ∈ npUnique l ↔ t ∈ l := by
  simp [npUnique]

theorem npUnique_pairwise (l : List T) : (npUnique l).Pairwise (· < ·) := by
  have h1 : (l.insertionSort (· ≤ ·)).Pairwise (· ≤ ·) := List.pairwise_insertionSort _ _
  have h2 : (npUnique l).Pairwise (· ≤ ·) := h1.sublist (List.dedup_sublist _)
  have h3 : (npUnique l).Pairwise (· ≠ ·) := List.nodup_dedup _
  exact (h2.and h3).imp fun h => lt_of_le_of_ne h.1 h.2

/-- Strictly increasing lists with the same elements are equal. -/
theorem sorted_ext {l m : List T} (hl : l.Pairwise (· < ·)) (hm : m.Pairwise (· < ·))
    (h : ∀ t, t ∈ l ↔ t ∈ m) : l = m := by
  have hp : l.Perm m := by
    rw [List.perm_ext_iff_of_nodup]
    · exact h
    · exact hl.imp fun h => ne_of_lt h
    · exact hm.imp fun h => ne_of_lt h
  exact hp.eq_of_pairwise (fun a b _ _ h1 h2 => absurd h1 (not_lt.mpr h2.le)) hl hm

theorem eq_npUnique_iff (l : List T) : l = npUnique l ↔ l.Pairwise (· < ·) := by
  constructor
  · intro h; rw [h]; exact npUnique_pairwise l
  · intro h; exact sorted_ext h (npUnique_pairwise l) fun t => (mem_npUnique l t).symm

theorem pyIndex_eq_some (n : ℕ) (i0 : ℤ) (i : ℕ) :
    pyIndex n i0 = some i ↔ Designates n i0 i := by
  unfold pyIndex Designates
  split
  · simp; omega
  · split
    · simp; omega
    · simp; omega

theorem pyIndex_eq_none (n : ℕ) (i0 : ℤ) :
    pyIndex n i0 = none ↔ ¬ ∃ i, Designates n i0 i := by
  rw [Option.eq_none_iff_forall_not_mem]
  simp only [Option.mem_def, pyIndex_eq_some, not_exists]

theorem sorted_getLast_ge {l : List T} (h : l.Pairwise (· < ·)) {b : T} (hb : l.getLast? = some b)
    {t : T} (ht : t ∈ l) : t ≤ b := by
  obtain ⟨ini, rfl⟩ := List.getLast?_eq_some_iff.1 hb
  rcases List.mem_append.1 ht with ht | ht
  · exact ((List.pairwise_append.1 h).2.2 t ht b (by simp)).le
  · simp at ht; exact ht.le

theorem sorted_head_le {l : List T} (h : l.Pairwise (· < ·)) {a : T} (ha : l.head? = some a)
    {t : T} (ht : t ∈ l) : a ≤ t := by
  cases l with
  | nil => simp at ha
  | cons c l =>
    simp at ha; subst ha
    rcases List.mem_cons.1 ht with ht | ht
    · exact ht.ge
    · exact ((List.pairwise_cons.1 h).1 t ht).le

/-- The merged grid, when `pace` succeeds, is as specified. -/
theorem stepsTT_isGrid (steps : Steps T) (tt : List T) (htt : tt.Pairwise (· < ·)) {grid : List T}
    (h : stepsTT steps tt = .ok grid) : IsGrid steps tt grid := by
  unfold stepsTT at h
  cases ha : tt.head? with
  | none => simp [ha] at h
  | some a =>
    cases hb : tt.getLast? with
    | none => simp [ha, hb] at h
    | some b =>
      rw [ha, hb] at h
      simp only at h
      cases hp : pace steps tt with
      | error e => simp [hp] at h
      | ok target =>
        rw [hp] at h
        simp only [Except.ok.injEq] at h
        subst h
        have ha' : a ∈ tt := List.mem_of_mem_head? (by simp [ha])
        have hb' : b ∈ tt := List.mem_of_getLast? hb
        refine ⟨npUnique_pairwise _, fun t => ?_⟩
        rw [mem_npUnique, List.mem_append, List.mem_filter, or_comm]
        have hbd : (∃ a ∈ tt, a ≤ t) ∧ (∃ b ∈ tt, t ≤ b) ↔ a ≤ t ∧ t ≤ b := by
          constructor
          · rintro ⟨⟨c, hc, hc'⟩, ⟨d, hd, hd'⟩⟩
            exact ⟨(sorted_head_le htt ha hc).trans hc', hd'.trans (sorted_getLast_ge htt hb hd)⟩
          · exact fun h => ⟨⟨a, ha', h.1⟩, ⟨b, hb', h.2⟩⟩
        rw [hbd]
        unfold pace at hp
        by_cases h1 : tt.length = 1
        · rw [if_pos h1] at hp
          simp only [Except.ok.injEq] at hp
          subst hp
          obtain ⟨c, rfl⟩ := List.length_eq_one_iff.1 h1
          simp at ha hb
          subst ha hb
          simp only [List.mem_cons, List.not_mem_nil, or_false, decide_eq_true_eq]
          constructor
          · rintro (h | h)
            · exact .inl h
            · exact .inl h.1
          · rintro (h | h)
            · exact .inl h
            · exact .inl (le_antisymm h.2.2 h.2.1)
        · rw [if_neg h1] at hp
          cases steps with
          | none =>
            simp at hp; subst hp
            simp [Requested]
          | iter l =>
            simp at hp; subst hp
            simp [Requested]
          | int n =>
            rw [ha, hb] at hp
            simp only [npLinspace] at hp
            by_cases hn : n < 0
            · rw [if_pos hn] at hp; simp at hp
            · rw [if_neg hn] at hp
              simp only [Except.ok.injEq] at hp
              subst hp
              simp only [Requested, ha, hb, decide_eq_true_eq]
              apply or_congr Iff.rfl
              apply and_congr _ Iff.rfl
              constructor
              · exact fun h => ⟨a, b, rfl, rfl, h⟩
              · rintro ⟨a', b', h1, h2, h⟩
                simp at h1 h2
                subst h1 h2
                exact h

/-- `pace` and the merge only fail on a negative number of steps. -/
theorem stepsTT_ok (steps : Steps T) (tt : List T) (hne : tt ≠ []) :
    (∃ grid, stepsTT steps tt = .ok grid) ∨
    ((∃ n : ℤ, n < 0 ∧ steps = .int n) ∧ tt.length ≠ 1 ∧ stepsTT steps tt = .error .valueError) := by
  obtain ⟨a, ha⟩ : ∃ a, tt.head? = some a := by
    cases tt with
    | nil => exact absurd rfl hne
    | cons c l => exact ⟨c, rfl⟩
  obtain ⟨b, hb⟩ : ∃ l, tt.getLast? = some l := ⟨_, List.getLast?_eq_some_getLast hne⟩
  unfold stepsTT pace
  rw [ha, hb]
  simp only
  by_cases h1 : tt.length = 1
  · rw [if_pos h1]; exact .inl ⟨_, rfl⟩
  · rw [if_neg h1]
    cases steps with
    | none => exact .inl ⟨_, rfl⟩
    | iter l => exact .inl ⟨_, rfl⟩
    | int n =>
      simp only [npLinspace]
      by_cases hn : n < 0
      · rw [if_pos hn]; exact .inr ⟨⟨n, hn, rfl⟩, h1, rfl⟩
      · rw [if_neg hn]; exact .inl ⟨_, rfl⟩

/-- Equally spaced points, in exact arithmetic. -/
theorem requested_int {T : Type} [Field T] {n : ℤ} {tt : List T} {t : T} : Requested (.int n) tt t ↔
    ∃ a b, tt.head? = some a ∧ tt.getLast? = some b ∧
      ∃ k : ℕ, (k : ℤ) < n ∧ t = a + k * ((b - a) / ((n : T) - 1)) := by
  simp only [Requested, Linspace.linspace, List.mem_map, List.mem_range]
  refine exists_congr fun a => exists_congr fun b => and_congr_right fun _ => and_congr_right fun _ =>
    exists_congr fun k => ?_
  by_cases hn : 0 ≤ n
  · have : ((n.toNat : ℕ) : T) = (n : T) := by
      rw [← Int.cast_natCast, Int.toNat_of_nonneg hn]
    rw [this]
    exact ⟨fun h => ⟨by omega, h.2.symm⟩, fun h => ⟨by omega, h.2.symm⟩⟩
  · exact ⟨fun h => absurd h.1 (by omega), fun h => absurd h.1 (by omega)⟩

theorem isGrid_unique {steps : Steps T} {tt g1 g2 : List T} (h1 : IsGrid steps tt g1)
    (h2 : IsGrid steps tt g2) : g1 = g2 :=
  sorted_ext h1.1 h2.1 fun t => by rw [h1.2, h2.2]

/-! Splitting a strictly increasing list at one of its elements -/

theorem filter_le_of_sorted {l : List T} (h : l.Pairwise (· < ·)) {i : ℕ} {t : T}
    (ht : l[i]? = some t) : l.take (i + 1) = l.filter (· ≤ t) := by
  induction l generalizing i with
  | nil => simp at ht
  | cons a l ih =>
    have hp := List.pairwise_cons.1 h
    cases i with
    | zero =>
      simp at ht; subst ht
      simp only [zero_add, List.take_succ_cons, List.take_zero, List.filter_cons, le_refl,
        decide_true, if_true]
      congr 1
      symm
      rw [List.filter_eq_nil_iff]
      intro x hx; simpa using hp.1 x hx
    | succ i =>
      simp at ht
      have hle : a ≤ t := (hp.1 t (List.mem_of_getElem? ht)).le
      rw [List.take_succ_cons, List.filter_cons, if_pos (by simpa using hle), ih hp.2 ht]

theorem filter_ge_of_sorted {l : List T} (h : l.Pairwise (· < ·)) {i : ℕ} {t : T}
    (ht : l[i]? = some t) : l.drop i = l.filter (t ≤ ·) := by
  induction l generalizing i with
  | nil => simp at ht
  | cons a l ih =>
    have hp := List.pairwise_cons.1 h
    cases i with
    | zero =>
      simp at ht; subst ht
      simp only [List.drop_zero]
      symm
      rw [List.filter_eq_self]
      intro x hx
      rcases List.mem_cons.1 hx with hx | hx
      · simp [hx]
      · simpa using (hp.1 x hx).le
    | succ i =>
      simp at ht
      have hlt : a < t := hp.1 t (List.mem_of_getElem? ht)
      rw [List.drop_succ_cons, List.filter_cons, if_neg (by simpa using hlt), ih hp.2 ht]

theorem getElem?_idxOf {l : List T} {t : T} (h : t ∈ l) : l[l.idxOf t]? = some t := by
  rw [List.getElem?_eq_getElem (List.idxOf_lt_length_of_mem h), List.getElem_idxOf]

theorem pairwise_before_false {l : List T} : l.Pairwise (Before false) ↔ l.Pairwise (· < ·) :=
  ⟨fun h => h.imp fun h => h, fun h => h.imp fun h => h⟩

theorem pairwise_before_true {l : List T} :
    l.reverse.Pairwise (Before true) ↔ l.Pairwise (· < ·) := by
  rw [List.pairwise_reverse]
  exact ⟨fun h => h.imp fun h => h, fun h => h.imp fun h => h⟩

theorem sublist_of_sorted {l m : List T} (hl : l.Pairwise (· < ·)) (hm : m.Pairwise (· < ·))
    (h : ∀ t ∈ l, t ∈ m) : l.Sublist m := by
  have : l = m.filter (fun t => t ∈ l) := by
    apply sorted_ext hl (hm.filter _)
    intro t
    simp only [List.mem_filter, decide_eq_true_eq]
    exact ⟨fun ht => ⟨h t ht, ht⟩, fun ht => ht.2⟩
  rw [this]; exact List.filter_sublist

theorem isGrid_head {steps : Steps T} {tt grid : List T} (htt : tt.Pairwise (· < ·))
    (hg : IsGrid steps tt grid) : grid.head? = tt.head? := by
  cases tt with
  | nil =>
    cases grid with
    | nil => rfl
    | cons c l =>
      have := (hg.2 c).1 (by simp)
      simp at this
  | cons a l =>
    cases grid with
    | nil => have := (hg.2 a).2 (by simp); simp at this
    | cons c m =>
      have h1 : a ∈ c :: m := (hg.2 a).2 (by simp)
      have h2 : c ≤ a := sorted_head_le hg.1 rfl h1
      have h3 : a ≤ c := by
        rcases (hg.2 c).1 (by simp) with h | h
        · exact sorted_head_le htt rfl h
        · obtain ⟨_, ⟨x, hx, hx2⟩, _⟩ := h
          exact (sorted_head_le htt rfl hx).trans hx2
      simp [le_antisymm h2 h3]

theorem isGrid_getLast {steps : Steps T} {tt grid : List T} (htt : tt.Pairwise (· < ·))
    (hg : IsGrid steps tt grid) : grid.getLast? = tt.getLast? := by
  cases hb : tt.getLast? with
  | none =>
    simp at hb; subst hb
    cases grid with
    | nil => rfl
    | cons c l =>
      have := (hg.2 c).1 (by simp)
      simp at this
  | some b =>
    have hb' := List.mem_of_getLast? hb
    have h1 : b ∈ grid := (hg.2 b).2 (.inl hb')
    have hne : grid ≠ [] := by rintro rfl; simp at h1
    obtain ⟨c, hc⟩ : ∃ l, grid.getLast? = some l := ⟨_, List.getLast?_eq_some_getLast hne⟩
    have h2 := sorted_getLast_ge hg.1 hc h1
    have h3 : c ≤ b := by
      rcases (hg.2 c).1 (List.mem_of_getLast? hc) with h | h
      · exact sorted_getLast_ge htt hb h
      · obtain ⟨_, _, ⟨x, hx, hx2⟩⟩ := h
        exact hx2.trans (sorted_getLast_ge htt hb hx)
    rw [hc, le_antisymm h3 h2]

/-- Unfolding of `callPG` on a valid call. -/
theorem callPG_valid (g : PGen T W O σ) (fuel : ℕ) (steps : Steps T) (i0 : ℤ) (tl : TArr T) (s : σ)
    (hK : 2 ≤ g.depth) (hv : ValidTimeline tl) {i : ℕ} (hi : Designates tl.data.length i0 i)
    {grid : List T} (hg : stepsTT steps tl.data = .ok grid) (hlen : g.depth - 1 ≤ grid.length)
    {t0 tmin tmax : T} (h0 : tl.data[i]? = some t0) (hmin : tl.data.head? = some tmin)
    (hmax : tl.data.getLast? = some tmax) :
    callPG g fuel steps i0 tl s =
      (do let a : PAcc O σ ← (if i0 ≠ 0 then do
              let b ← generatePaths g fuel (grid.filter (· ≤ t0)).reverse
                (tl.data.filter (· ≤ t0)).reverse true
                ⟨List.replicate (i + 1) none, s, 0, 0⟩
              pure { b with xx := b.xx.reverse ++ List.replicate (tl.data.length - (i + 1)) none }
            else pure ⟨List.replicate tl.data.length none, s, 0, 0⟩)
          let a : PAcc O σ ← (if Forw tl.data.length i0 then do
              let b ← generatePaths g fuel (grid.filter (t0 ≤ ·)) (tl.data.filter (t0 ≤ ·)) false
                { a with xx := a.xx.drop i }
              pure { b with xx := a.xx.take i ++ b.xx }
            else pure a)
          pure ⟨a.xx, a.s, t0, tmin, tmax, a.computed, a.stored⟩) := by
  have hgr := stepsTT_isGrid steps tl.data hv.2 hg
  have hmem : t0 ∈ grid := (hgr.2 t0).2 (.inl (List.mem_of_getElem? h0))
  rw [callPG, if_neg (by omega), if_neg (not_not.2 hv.1)]
  simp only
  rw [if_neg (not_not.2 ((eq_npUnique_iff _).2 hv.2)), (pyIndex_eq_some _ _ _).2 hi]
  simp only [hg]
  rw [if_neg (by omega)]
  simp only [h0, hmin, hmax, backPass, forwPass]
  rw [filter_le_of_sorted hv.2 h0, filter_ge_of_sorted hv.2 h0,
    filter_le_of_sorted hgr.1 (getElem?_idxOf hmem), filter_ge_of_sorted hgr.1 (getElem?_idxOf hmem)]
  have hi' := hi.1
  simp only [List.take_replicate, List.drop_replicate, List.reverse_replicate,
    show min (i + 1) tl.data.length = i + 1 by omega]
  by_cases hz : i0 = 0
  · simp only [hz, ne_eq, not_true, if_false, Forw, true_or, if_true, bind, Except.bind, pure,
      Except.pure]
    cases generatePaths g fuel (grid.filter (t0 ≤ ·)) (tl.data.filter (t0 ≤ ·)) false
      ⟨(List.replicate tl.data.length none).drop i, s, 0, 0⟩ with
    | error e => rfl
    | ok b => rfl
  · simp only [hz, ne_eq, not_false_iff, if_true, bind, Except.bind, pure, Except.pure]
    cases generatePaths g fuel (grid.filter (· ≤ t0)).reverse
                (tl.data.filter (· ≤ t0)).reverse true
                ⟨List.replicate (i + 1) none, s, 0, 0⟩ with
    | error e => rfl
    | ok b =>
      simp only
      by_cases hF : Forw tl.data.length i0
      · have hF' : False ∨ ¬ (i0 = -1 ∨ i0 = (tl.data.length : ℤ) - 1) := by
          rcases hF with h | h
          · exact absurd h hz
          · exact .inr h
        rw [if_pos hF, if_pos hF']
        cases generatePaths g fuel (grid.filter (t0 ≤ ·)) (tl.data.filter (t0 ≤ ·)) false
          ⟨List.drop i (b.xx.reverse ++ List.replicate (tl.data.length - (i + 1)) none), b.s,
            b.computed, b.stored⟩ with
        | error e => rfl
        | ok b => rfl
      · have hF' : ¬ (False ∨ ¬ (i0 = -1 ∨ i0 = (tl.data.length : ℤ) - 1)) := by
          rintro (h | h)
          · exact h
          · exact hF (.inr h)
        rw [if_neg hF, if_neg hF']

theorem storeIfReached_length (g : PGen T W O σ) (rev : Bool) (tt : List T) (i p xx s) {xx' di s'}
    (h : storeIfReached g rev tt i p xx s = .ok (xx', di, s')) : xx'.length = xx.length := by
  unfold storeIfReached at h
  cases ht : tt[i]? with
  | none => simp [ht] at h
  | some ti =>
    simp only [ht] at h
    by_cases hc : (ti - p.1) * (if rev then -1 else 1) < 0
    · rw [if_pos hc] at h; simp at h
    rw [if_neg hc] at h
    by_cases h1 : ti = p.1
    · rw [if_pos h1] at h
      cases hs : g.store i p.1 p.2 s with
      | error e => simp [hs] at h
      | ok r => simp [hs] at h; simp [← h.1]
    · rw [if_neg h1] at h
      simp at h; rw [h.1]

theorem storeWindow_length (g : PGen T W O σ) (rev : Bool) (tt : List T) :
    ∀ (ps : List (T × W)) (i xx s) {xx' i' s'},
    storeWindow g rev tt ps i xx s = .ok (xx', i', s') → xx'.length = xx.length := by
  intro ps
  induction ps with
  | nil => intro i xx s xx' i' s' h; simp [storeWindow] at h; rw [h.1]
  | cons p ps ih =>
    intro i xx s xx' i' s' h
    simp only [storeWindow] at h
    cases h1 : storeIfReached g rev tt i p xx s with
    | error e => simp [h1] at h
    | ok r =>
      simp only [h1] at h
      rw [ih _ _ _ h, storeIfReached_length _ _ _ _ _ _ _ h1]

theorem mainLoop_length (g : PGen T W O σ) (rev : Bool) (tt : List T) :
    ∀ (fuel : ℕ) (win st target current i) (a : PAcc O σ) {b},
    mainLoop g rev tt fuel win st target current i a = .ok b → b.xx.length = a.xx.length := by
  intro fuel
  induction fuel with
  | zero =>
    intro win st target current i a b h
    rw [mainLoop] at h
    split at h
    · simp at h
    · simp at h; rw [h]
  | succ fuel ih =>
    intro win st target current i a b h
    rw [mainLoop] at h
    split at h
    · cases h1 : selectTarget current target st with
      | error e => simp [h1] at h
      | ok r =>
        simp only [h1] at h
        cases h2 : g.next rev win r.1 a.s with
        | error e => simp [h2] at h
        | ok q =>
          simp only [h2] at h
          cases h3 : win.getLast? with
          | none => simp [h3] at h
          | some last =>
            simp only [h3] at h
            split at h
            · simp at h
            · cases h4 : storeIfReached g rev tt i q.1 a.xx q.2 with
              | error e => simp [h4] at h
              | ok r2 =>
                simp only [h4] at h
                rw [ih _ _ _ _ _ _ h, storeIfReached_length _ _ _ _ _ _ _ h4]
    · simp at h; rw [h]

theorem generatePaths_length (g : PGen T W O σ) (fuel : ℕ) (steps tt : List T) (rev : Bool)
    (a b : PAcc O σ) (h : generatePaths g fuel steps tt rev a = .ok b) :
    b.xx.length = a.xx.length := by
  unfold generatePaths at h
  by_cases hl : steps.length < g.depth - 1
  · rw [if_pos hl] at h; simp at h
  rw [if_neg hl] at h
  simp only at h
  cases h1 : g.begin rev (steps.take (g.depth - 1)) a.s with
  | error e => simp [h1] at h
  | ok r =>
    simp only [h1] at h
    generalize List.mapIdx (fun k t => (t, r.1 k)) (steps.take (g.depth - 1)) = win at h
    cases h2 : storeWindow g rev tt win 0 a.xx r.2 with
    | error e => simp [h2] at h
    | ok r2 =>
      simp only [h2] at h
      cases h3 : win.getLast? with
      | none => simp [h3] at h
      | some last =>
        simp only [h3] at h
        cases h4 : mainLoop g rev tt fuel win (steps.drop (g.depth - 1)) last.1 last.1 r2.2.1
          { a with xx := r2.1, s := r2.2.2 } with
        | error e => simp [h4] at h
        | ok a2 =>
          simp only [h4] at h
          cases h5 : g.fin a2.s with
          | error e => simp [h5] at h
          | ok s2 =>
            simp only [h5, Except.ok.injEq] at h
            rw [← h]
            simp only
            rw [mainLoop_length _ _ _ _ _ _ _ _ _ _ h4]
            exact storeWindow_length _ _ _ _ _ _ _ h2

/-- Lengths of outputs of a successful pass. -/
theorem pass_length (g : PGen T W O σ) (step) (hna : NonAdaptive g step) (rev : Bool)
    (steps tt : List T) (s : σ)
    (hK : 2 ≤ g.depth) (hlen : g.depth - 1 ≤ steps.length)
    (hpw : steps.Pairwise (Before rev)) (hsub : tt.Sublist steps)
    (hgl : steps.getLast? = tt.getLast?) {os : List O} {s' : σ}
    (h : pass g.depth (g.begin rev) (step rev) g.store g.fin steps tt s = .ok (os, s')) :
    os.length = tt.length := by
  have h1 := generatePaths_eq g step hna rev steps.length steps tt (List.replicate tt.length none) s
    0 0 (by simp) hK hlen hpw hsub hgl le_rfl
  rw [h] at h1
  simp only [bind, Except.bind, pure, Except.pure] at h1
  have := generatePaths_length g _ _ _ _ _ _ h1
  simpa using this

theorem filter_le_head {l : List T} (h : l.Pairwise (· < ·)) {t : T} (ht : t ∈ l) :
    (l.filter (· ≤ t)).head? = l.head? := by
  rw [← filter_le_of_sorted h (getElem?_idxOf ht)]
  cases l <;> simp

theorem filter_ge_getLast {l : List T} (h : l.Pairwise (· < ·)) {t : T} (ht : t ∈ l) :
    (l.filter (t ≤ ·)).getLast? = l.getLast? := by
  rw [← filter_ge_of_sorted h (getElem?_idxOf ht), List.getLast?_drop,
    if_neg (by have := List.idxOf_lt_length_of_mem ht; omega)]

/-- A call with a non adaptive `next`: exactly the specification. -/
theorem callPG_eq (g : PGen T W O σ) (step) (hna : NonAdaptive g step) (fuel : ℕ)
    (steps : Steps T) (i0 : ℤ) (tl : TArr T) (s : σ)
    (hK : 2 ≤ g.depth) (hv : ValidTimeline tl) {i : ℕ} (hi : Designates tl.data.length i0 i)
    {grid : List T} (hg : stepsTT steps tl.data = .ok grid)
    {t0 tmin tmax : T} (h0 : tl.data[i]? = some t0) (hmin : tl.data.head? = some tmin)
    (hmax : tl.data.getLast? = some tmax)
    (hb : i0 ≠ 0 → g.depth - 1 ≤ (grid.filter (· ≤ t0)).length)
    (hf : Forw tl.data.length i0 → g.depth - 1 ≤ (grid.filter (t0 ≤ ·)).length)
    (hfuel : grid.length ≤ fuel) :
    callPG g fuel steps i0 tl s =
      (do let (os, s) ← twoWay g step (i0 ≠ 0) (Forw tl.data.length i0) grid tl.data t0 s
          pure ⟨os.map some, s, t0, tmin, tmax,
            (if i0 ≠ 0 then (grid.filter (· ≤ t0)).length - (g.depth - 1) else 0) +
            (if Forw tl.data.length i0 then (grid.filter (t0 ≤ ·)).length - (g.depth - 1) else 0),
            (if i0 ≠ 0 then ((tl.data.filter (· ≤ t0)).filter
              (fun t => t ∉ (grid.filter (· ≤ t0)).reverse.take (g.depth - 1))).length else 0) +
            (if Forw tl.data.length i0 then ((tl.data.filter (t0 ≤ ·)).filter
              (fun t => t ∉ (grid.filter (t0 ≤ ·)).take (g.depth - 1))).length else 0)⟩) := by
  have hgr := stepsTT_isGrid steps tl.data hv.2 hg
  have hmt : t0 ∈ tl.data := List.mem_of_getElem? h0
  have hmem : t0 ∈ grid := (hgr.2 t0).2 (.inl hmt)
  have hsub : tl.data.Sublist grid := sublist_of_sorted hv.2 hgr.1 fun t ht => (hgr.2 t).2 (.inl ht)
  have hbf : i0 ≠ 0 ∨ Forw tl.data.length i0 := by
    by_cases h : i0 = 0
    · exact .inr (.inl h)
    · exact .inl h
  have hlen : g.depth - 1 ≤ grid.length := by
    rcases hbf with h | h
    · exact (hb h).trans (List.length_filter_le _ _)
    · exact (hf h).trans (List.length_filter_le _ _)
  rw [callPG_valid g fuel steps i0 tl s hK hv hi hg hlen h0 hmin hmax]
  simp only [twoWay]
  have hil := hi.1
  have hln1 : (tl.data.filter (· ≤ t0)).length = i + 1 := by
    rw [← filter_le_of_sorted hv.2 h0, List.length_take]; omega
  have hln2 : (tl.data.filter (t0 ≤ ·)).length = tl.data.length - i := by
    rw [← filter_ge_of_sorted hv.2 h0, List.length_drop]
  -- the two passes
  have back := fun (hz : i0 ≠ 0) => generatePaths_eq g step hna true fuel
    (grid.filter (· ≤ t0)).reverse (tl.data.filter (· ≤ t0)).reverse
    (List.replicate (i + 1) none) s 0 0 (by simp only [List.length_reverse, hln1,
      List.length_replicate]) hK (by rw [List.length_reverse]; exact hb hz)
    (pairwise_before_true.2 (hgr.1.filter _)) (List.reverse_sublist.2 (hsub.filter _))
    (by rw [List.getLast?_reverse, List.getLast?_reverse, filter_le_head hgr.1 hmem,
        filter_le_head hv.2 hmt, isGrid_head hv.2 hgr])
    (by rw [List.length_reverse]; exact (List.length_filter_le _ _).trans hfuel)
  have forw := fun (hz : Forw tl.data.length i0) (xx : List (Option O)) (s' : σ) (c d : ℕ)
    (hxx : xx.length = tl.data.length - i) =>
    generatePaths_eq g step hna false fuel
    (grid.filter (t0 ≤ ·)) (tl.data.filter (t0 ≤ ·)) xx s' c d (by rw [hln2, hxx]) hK (hf hz)
    (pairwise_before_false.2 (hgr.1.filter _)) (hsub.filter _)
    (by rw [filter_ge_getLast hgr.1 hmem, filter_ge_getLast hv.2 hmt, isGrid_getLast hv.2 hgr])
    ((List.length_filter_le _ _).trans hfuel)
  have lback := fun (hz : i0 ≠ 0) (os : List O) (s' : σ) =>
    pass_length g step hna true (grid.filter (· ≤ t0)).reverse (tl.data.filter (· ≤ t0)).reverse
    s hK (by rw [List.length_reverse]; exact hb hz)
    (pairwise_before_true.2 (hgr.1.filter _)) (List.reverse_sublist.2 (hsub.filter _))
    (by rw [List.getLast?_reverse, List.getLast?_reverse, filter_le_head hgr.1 hmem,
        filter_le_head hv.2 hmt, isGrid_head hv.2 hgr]) (os := os) (s' := s')
  by_cases hz : i0 = 0
  · have hF : Forw tl.data.length i0 := .inl hz
    have hi0 : i = 0 := by have := hi.2; omega
    subst hi0
    simp only [hz, ne_eq, not_true, if_false, decide_false, decide_true, if_true, bind, Except.bind,
      pure, Except.pure, Bool.false_eq_true]
    rw [hz] at hF
    simp only [hF, if_true, decide_true, List.drop_zero, List.take_zero]
    rw [forw (hz ▸ hF) _ _ _ _ (by simp)]
    simp only [bind, Except.bind, pure, Except.pure]
    cases pass g.depth (g.begin false) (step false) g.store g.fin
      (grid.filter (t0 ≤ ·)) (tl.data.filter (t0 ≤ ·)) s with
    | error e => rfl
    | ok r => simp
  · simp only [hz, ne_eq, not_false_iff, if_true, decide_true]
    rw [back hz]
    simp only [bind, Except.bind, pure, Except.pure]
    have hlb := lback hz
    revert hlb
    cases pass g.depth (g.begin true) (step true) g.store g.fin
      (grid.filter (· ≤ t0)).reverse (tl.data.filter (· ≤ t0)).reverse s with
    | error e => intro _; rfl
    | ok r =>
      obtain ⟨os, s1⟩ := r
      intro hlb
      have hos := hlb os s1 rfl
      rw [List.length_reverse, hln1] at hos
      simp only [List.filter_reverse, List.length_reverse]
      by_cases hF : Forw tl.data.length i0
      · simp only [hF, if_true, decide_true]
        rw [forw hF _ _ _ _ (by simp [hos]; omega)]
        simp only [bind, Except.bind, pure, Except.pure]
        cases pass g.depth (g.begin false) (step false) g.store g.fin
          (grid.filter (t0 ≤ ·)) (tl.data.filter (t0 ≤ ·)) s1 with
        | error e => rfl
        | ok r2 =>
          simp only [zero_add, List.map_append]
          congr 2
          congr 1
          rw [← List.map_reverse, List.take_append_of_le_length (by simp [hos]), ← List.map_take,
            List.dropLast_eq_take]
          simp [hos]
      · simp only [hF, if_false, decide_false, Bool.false_eq_true]
        have : tl.data.length - (i + 1) = 0 := by
          have h2 := hi.2
          unfold Forw at hF
          omega
        simp [this]

/-- A call with arbitrary callbacks, recorded. -/
theorem callPG_trace (g : PGen T W O σ) (fuel : ℕ) (steps : Steps T) (i0 : ℤ) (tl : TArr T) (s : σ)
    {r : CallResult T O (σ × List (Event T W O))}
    (h : callPG (logged g) fuel steps i0 tl (s, []) = .ok r) :
    2 ≤ g.depth ∧ ValidTimeline tl ∧
    ∃ i grid t0, Designates tl.data.length i0 i ∧ IsGrid steps tl.data grid ∧
      tl.data[i]? = some t0 ∧ r.t0 = t0 ∧
      ∃ (esB esF : List (Event T W O)) (osB osF : List O), r.s.2 = esB ++ esF ∧
        (if i0 ≠ 0 then
          storedEvents esB = enumOut (tl.data.filter (· ≤ t0)).reverse osB ∧
          osB.length = i + 1 ∧
          TraceOk g true (grid.filter (· ≤ t0)).reverse
            (tl.data.filter (· ≤ t0)).reverse esB ∧
          ((visited esB).map Prod.fst).Pairwise (Before true) ∧
          ∀ t ∈ grid, t ≤ t0 → t ∈ (visited esB).map Prod.fst
         else esB = [] ∧ osB = []) ∧
        (if Forw tl.data.length i0 then
          storedEvents esF = enumOut (tl.data.filter (t0 ≤ ·)) osF ∧
          osF.length = tl.data.length - i ∧
          TraceOk g false (grid.filter (t0 ≤ ·)) (tl.data.filter (t0 ≤ ·)) esF ∧
          ((visited esF).map Prod.fst).Pairwise (Before false) ∧
          ∀ t ∈ grid, t0 ≤ t → t ∈ (visited esF).map Prod.fst
         else esF = [] ∧ osF = []) ∧
        r.xx = ((if Forw tl.data.length i0 then osB.reverse.dropLast else osB.reverse) ++
          osF).map some := by
  have hdep : (logged g).depth = g.depth := rfl
  have hK : 2 ≤ g.depth := by
    by_contra hc
    rw [callPG, if_pos (by rw [hdep]; omega)] at h; simp at h
  have hv1 : tl.shape = [tl.data.length] := by
    by_contra hc
    rw [callPG, if_neg (by rw [hdep]; omega), if_pos hc] at h; simp at h
  have hv2 : tl.data.Pairwise (· < ·) := by
    by_contra hc
    rw [callPG, if_neg (by rw [hdep]; omega), if_neg (not_not.2 hv1)] at h
    simp only at h
    rw [if_pos (by rw [← eq_npUnique_iff] at hc; exact hc)] at h; simp at h
  have hv : ValidTimeline tl := ⟨hv1, hv2⟩
  obtain ⟨i, hi⟩ : ∃ i, Designates tl.data.length i0 i := by
    by_contra hc
    rw [callPG, if_neg (by rw [hdep]; omega), if_neg (not_not.2 hv1)] at h
    simp only at h
    rw [if_neg (not_not.2 ((eq_npUnique_iff _).2 hv2)), (pyIndex_eq_none _ _).2 hc] at h
    simp at h
  obtain ⟨grid, hg⟩ : ∃ grid, stepsTT steps tl.data = .ok grid := by
    rw [callPG, if_neg (by rw [hdep]; omega), if_neg (not_not.2 hv1)] at h
    simp only at h
    rw [if_neg (not_not.2 ((eq_npUnique_iff _).2 hv2)), (pyIndex_eq_some _ _ _).2 hi] at h
    simp only at h
    cases hs : stepsTT steps tl.data with
    | error e => simp [hs] at h
    | ok grid => exact ⟨grid, rfl⟩
  have hlen : g.depth - 1 ≤ grid.length := by
    by_contra hc
    rw [callPG, if_neg (by rw [hdep]; omega), if_neg (not_not.2 hv1)] at h
    simp only at h
    rw [if_neg (not_not.2 ((eq_npUnique_iff _).2 hv2)), (pyIndex_eq_some _ _ _).2 hi] at h
    simp only [hg] at h
    rw [if_pos (by rw [hdep]; omega)] at h; simp at h
  have hil := hi.1
  have hne : tl.data ≠ [] := by intro h; rw [h] at hil; simp at hil
  obtain ⟨tmax, hmax⟩ : ∃ l, tl.data.getLast? = some l := ⟨_, List.getLast?_eq_some_getLast hne⟩
  obtain ⟨tmin, hmin⟩ : ∃ a, tl.data.head? = some a := by
    cases hd : tl.data with
    | nil => exact absurd hd hne
    | cons c l => exact ⟨c, rfl⟩
  have h0 : tl.data[i]? = some tl.data[i] := List.getElem?_eq_getElem hil
  generalize tl.data[i] = t0 at h0
  have hgr := stepsTT_isGrid steps tl.data hv.2 hg
  have hmt : t0 ∈ tl.data := List.mem_of_getElem? h0
  have hmem : t0 ∈ grid := (hgr.2 t0).2 (.inl hmt)
  rw [callPG_valid (logged g) fuel steps i0 tl (s, []) hK hv hi hg hlen h0 hmin hmax] at h
  refine ⟨hK, hv, i, grid, t0, hi, hgr, h0, ?_⟩
  have hln1 : (tl.data.filter (· ≤ t0)).length = i + 1 := by
    rw [← filter_le_of_sorted hv.2 h0, List.length_take]; omega
  have hln2 : (tl.data.filter (t0 ≤ ·)).length = tl.data.length - i := by
    rw [← filter_ge_of_sorted hv.2 h0, List.length_drop]
  -- backward part
  obtain ⟨a, esB, osB, hstep, haL, hax, hcond⟩ : ∃ (a : PAcc O (σ × List (Event T W O))) (esB : List (Event T W O)) (osB : List O),
      (if i0 ≠ 0 then do
              let b ← generatePaths (logged g) fuel (grid.filter (· ≤ t0)).reverse
                (tl.data.filter (· ≤ t0)).reverse true
                ⟨List.replicate (i + 1) none, (s, []), 0, 0⟩
              pure { b with xx := b.xx.reverse ++ List.replicate (tl.data.length - (i + 1)) none }
            else pure ⟨List.replicate tl.data.length none, (s, []), 0, 0⟩ : Py (PAcc O (σ × List (Event T W O)))) = .ok a ∧
      a.s.2 = esB ∧
      a.xx = osB.reverse.map some ++ List.replicate (tl.data.length - osB.length) none ∧
      (if i0 ≠ 0 then
          storedEvents esB = enumOut (tl.data.filter (· ≤ t0)).reverse osB ∧
          osB.length = i + 1 ∧
          TraceOk g true (grid.filter (· ≤ t0)).reverse
            (tl.data.filter (· ≤ t0)).reverse esB ∧
          ((visited esB).map Prod.fst).Pairwise (Before true) ∧
          ∀ t ∈ grid, t ≤ t0 → t ∈ (visited esB).map Prod.fst
         else esB = [] ∧ osB = []) := by
    by_cases hz : i0 = 0
    · simp only [hz, ne_eq, not_true, if_false]
      exact ⟨_, [], [], rfl, rfl, by simp, rfl, rfl⟩
    · simp only [hz, ne_eq, not_false_iff, if_true] at h ⊢
      cases hb : generatePaths (logged g) fuel (grid.filter (· ≤ t0)).reverse
                (tl.data.filter (· ≤ t0)).reverse true
                ⟨List.replicate (i + 1) none, (s, []), 0, 0⟩ with
      | error e => simp [hb, bind, Except.bind] at h
      | ok b =>
        obtain ⟨es, os, k1, k2, k3, k4, k5, k6, k7⟩ := generatePaths_trace g fuel _ _ true _ s [] 0 0 hK
          (by simp [hln1]) (pairwise_before_true.2 (hgr.1.filter _)) hb
        rw [List.length_reverse, hln1] at k2
        refine ⟨_, es, os, rfl, by simpa using k1, by simp [k3, k2], k4, k2, k5, k6, ?_⟩
        intro t ht ht'
        apply k7
        · rw [List.getLast?_reverse, List.getLast?_reverse, filter_le_head hgr.1 hmem,
            filter_le_head hv.2 hmt, isGrid_head hv.2 hgr]
        · simp [ht, ht']
  rw [hstep] at h
  simp only [bind, Except.bind] at h
  -- forward part
  by_cases hF : Forw tl.data.length i0
  · simp only [hF, if_true] at h ⊢
    cases hb : generatePaths (logged g) fuel (grid.filter (t0 ≤ ·)) (tl.data.filter (t0 ≤ ·)) false
        { a with xx := a.xx.drop i } with
    | error e => simp [hb] at h
    | ok b =>
      have hxl : a.xx.length = tl.data.length := by
        rw [hax]; simp
        by_cases hz : i0 = 0
        · simp only [hz, ne_eq, not_true, if_false] at hcond
          simp [hcond.2]
        · simp only [hz, ne_eq, not_false_iff, if_true] at hcond
          rw [hcond.2.1]; omega
      obtain ⟨es, os, k1, k2, k3, k4, k5, k6, k7⟩ := generatePaths_trace g fuel _ _ false _ a.s.1 a.s.2
          _ _ hK (by rw [List.length_drop, hln2, hxl]) (pairwise_before_false.2 (hgr.1.filter _)) hb
      simp only [hb, pure, Except.pure, Except.ok.injEq] at h
      subst h
      refine ⟨rfl, esB, es, osB, os, by simp only; rw [k1, haL], hcond, ⟨k4, by rw [k2, hln2], k5, k6, ?_⟩, ?_⟩
      · intro t ht ht'
        apply k7
        · rw [filter_ge_getLast hgr.1 hmem, filter_ge_getLast hv.2 hmt, isGrid_getLast hv.2 hgr]
        · simp [ht, ht']
      · simp only [k3, List.map_append]
        congr 1
        by_cases hz : i0 = 0
        · simp only [hz, ne_eq, not_true, if_false] at hcond
          have hi0 : i = 0 := by have := hi.2; omega
          simp [hcond.2, hi0]
        · simp only [hz, ne_eq, not_false_iff, if_true] at hcond
          rw [hax, List.take_append_of_le_length (by simp [hcond.2.1]), ← List.map_take,
            List.dropLast_eq_take]
          simp [hcond.2.1]
  · simp only [hF, if_false, pure, Except.pure, Except.ok.injEq] at h ⊢
    subst h
    refine ⟨rfl, esB, [], osB, [], by simp [haL], hcond, ⟨rfl, rfl⟩, ?_⟩
    simp only [hax, List.append_nil, List.map_append]
    have hz : i0 ≠ 0 := fun h => hF (.inl h)
    rw [if_pos hz] at hcond
    have : tl.data.length - (i + 1) = 0 := by
      have h2 := hi.2
      unfold Forw at hF
      omega
    simp [hcond.2.1, this]

end Sdepy
