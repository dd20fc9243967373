import Verif.Lemmas.PathsSim

set_option linter.unusedSectionVars false
set_option linter.unusedSimpArgs false

namespace Sdepy

open Spec

variable {T W O σ : Type} [Zero T] [One T] [Neg T] [Sub T] [Mul T]
  [LinearOrder T] [Linspace T] [SignOk T]

/-- Possible outcomes of a call, if the callbacks never raise; `r'` is the same call on the subclass
that checks its own moves. -/
def Outcome (g : PGen T W O σ) {α : Type} (r r' : Py α) : Prop :=
  (r = .error .noFuel ∧ r' = .error .noFuel) ∨ (∃ b, r = .ok b ∧ r' = .ok b) ∨
    (r = .error .runtimeError ∧ r' = .error .assertionError ∧ CanOverstep g)

theorem guarded_next {g : PGen T W O σ} {rev : Bool} {win : List (T × W)} {target : T} {s s' : σ}
    {p last : T × W} (hn : g.next rev win target s = .ok (p, s')) (hl : win.getLast? = some last) :
    (guarded g).next rev win target s =
      if orderOk rev last.1 p.1 target then .ok (p, s') else .error .assertionError := by
  simp only [guarded, hn, hl, orderOk]

theorem storeIfReached_guarded (g : PGen T W O σ) (rev : Bool) (tt : List T) (i : ℕ) (p : T × W)
    (xx : List (Option O)) (s : σ) :
    storeIfReached (guarded g) rev tt i p xx s = storeIfReached g rev tt i p xx s := rfl

theorem storeWindow_guarded (g : PGen T W O σ) (rev : Bool) (tt : List T) :
    ∀ (ps : List (T × W)) (i : ℕ) (xx : List (Option O)) (s : σ),
    storeWindow (guarded g) rev tt ps i xx s = storeWindow g rev tt ps i xx s := by
  intro ps
  induction ps with
  | nil => intros; rfl
  | cons p ps ih =>
    intro i xx s
    simp only [storeWindow, storeIfReached_guarded, ih]

theorem mainLoop_safe (g : PGen T W O σ) (hg : NeverRaises g) (rev : Bool) (tt : List T) :
    ∀ (fuel : ℕ) (win : List (T × W)) (last : T × W) (st : List T) (target : T) (i : ℕ)
      (a : PAcc O σ),
    win.getLast? = some last →
    (last.1 = target ∨ Before rev last.1 target) →
    (if last.1 = target then st else target :: st).Pairwise (Before rev) →
    (∀ t ∈ (if last.1 = target then st else target :: st), Before rev last.1 t) →
    (tt.drop i).Sublist (if last.1 = target then st else target :: st) →
    Outcome g (mainLoop g rev tt fuel win st target last.1 i a)
      (mainLoop (guarded g) rev tt fuel win st target last.1 i a) := by
  intro fuel
  induction fuel with
  | zero =>
    intro win last st target i a _ _ _ _ _
    rw [mainLoop, mainLoop]
    split
    · exact .inl ⟨rfl, rfl⟩
    · exact .inr (.inl ⟨_, rfl, rfl⟩)
  | succ fuel ih =>
    intro win last st target i a hwin hlt hpw hall hsub
    rw [mainLoop, mainLoop]
    by_cases hi : i < tt.length
    swap
    · rw [if_neg hi, if_neg hi]; exact .inr (.inl ⟨_, rfl, rfl⟩)
    rw [if_pos hi, if_pos hi]
    -- what is pending is a target followed by the rest of the iterator
    obtain ⟨u, todo, htt⟩ : ∃ u todo, tt.drop i = u :: todo := by
      rw [List.drop_eq_getElem_cons hi]; exact ⟨_, _, rfl⟩
    have hti : tt[i]? = some u := by
      have := congrArg (fun l => l[0]?) htt
      simpa using this
    have htd : tt.drop (i + 1) = todo := by
      have := congrArg List.tail htt
      simpa using this
    rw [htt] at hsub
    obtain ⟨tg, st', hpend, hsel⟩ : ∃ tg st', (if last.1 = target then st else target :: st) =
        tg :: st' ∧ selectTarget last.1 target st = .ok (tg, st') := by
      unfold selectTarget
      by_cases hc : last.1 = target
      · rw [if_pos hc] at hsub ⊢
        rw [if_pos hc]
        cases st with
        | nil => simp at hsub
        | cons t st => exact ⟨t, st, rfl, rfl⟩
      · rw [if_neg hc, if_neg hc]; exact ⟨target, st, rfl, rfl⟩
    rw [hpend] at hpw hall hsub
    rw [hsel]
    simp only
    obtain ⟨⟨p, s'⟩, hn⟩ := hg.next rev win tg a.s
    rw [guarded_next hn hwin, hn]
    simp only [hwin]
    by_cases hok : orderOk rev last.1 p.1 tg
    swap
    · rw [if_pos hok, if_neg hok]
      exact .inr (.inr ⟨rfl, rfl, rev, win, last, tg, a.s, p, s', hwin, hall tg (by simp), hn, hok⟩)
    rw [if_neg (not_not.2 hok), if_pos hok]
    simp only [hok, not_true, if_false, storeIfReached_guarded]
    have hpw' := List.pairwise_cons.1 hpw
    have hwin' : (win.tail ++ [p]).getLast? = some p := by simp
    have hpt : p.1 = tg ∨ Before rev p.1 tg := by
      have := orderOk_target hok
      by_cases h : p.1 = tg
      · exact .inl h
      · right
        cases rev
        · exact lt_of_le_of_ne (by simpa using this) h
        · exact lt_of_le_of_ne (by simpa using this) (Ne.symm h)
    have hafter : ∀ t ∈ st', Before rev p.1 t := by
      intro t ht
      rcases hpt with h | h
      · rw [h]; exact hpw'.1 t ht
      · exact h.trans (hpw'.1 t ht)
    have hpw2 : (if p.1 = tg then st' else tg :: st').Pairwise (Before rev) := by
      split
      · exact hpw'.2
      · exact hpw
    have hall2 : ∀ t ∈ (if p.1 = tg then st' else tg :: st'), Before rev p.1 t := by
      intro t ht
      split at ht
      · exact hafter t ht
      · rename_i hne
        rcases List.mem_cons.1 ht with ht | ht
        · rw [ht]; rcases hpt with h | h
          · exact absurd h hne
          · exact h
        · exact hafter t ht
    -- relation with the next requested time
    have hu : u = p.1 ∨ Before rev p.1 u := by
      rcases List.mem_cons.1 (hsub.subset (List.mem_cons_self)) with h | h
      · rw [h]
        rcases hpt with h' | h'
        · exact .inl h'.symm
        · exact .inr h'
      · exact .inr (hafter u h)
    have hnb : ¬ (u - p.1) * (if rev then -1 else 1) < 0 := by
      rw [beyond_iff]
      intro h
      rcases hu with h' | h'
      · rw [h'] at h; exact h.irrefl
      · exact h.asymm h'
    by_cases hup : u = p.1
    · obtain ⟨⟨o, s2⟩, ho⟩ := hg.store i p.1 p.2 s'
      have hs : storeIfReached g rev tt i p a.xx s' = .ok (a.xx.set i (some o), 1, s2) := by
        unfold storeIfReached
        rw [hti]; simp only
        rw [if_neg hnb, if_pos hup, ho]
      rw [hs]
      simp only
      have hutg : u = tg := by
        rcases List.mem_cons.1 (hsub.subset (List.mem_cons_self)) with h | h
        · exact h
        · have := hafter u h; rw [hup] at this; exact this.irrefl.elim
      apply ih _ p _ _ _ _ hwin' hpt hpw2 hall2
      rw [htd, if_pos (by rw [← hup, hutg])]
      rw [hutg] at hsub
      simpa using hsub
    · have hs : storeIfReached g rev tt i p a.xx s' = .ok (a.xx, 0, s') := by
        unfold storeIfReached
        rw [hti]; simp only
        rw [if_neg hnb, if_neg hup]
      rw [hs]
      simp only [Nat.add_zero]
      apply ih _ p _ _ _ _ hwin' hpt hpw2 hall2
      rw [htt]
      by_cases hpt' : p.1 = tg
      · rw [if_pos hpt']
        cases hsub with
        | cons _ h => exact h
        | cons_cons _ h => exact absurd hpt'.symm hup
      · rw [if_neg hpt']; exact hsub

theorem storeWindow_safe (g : PGen T W O σ) (hg : NeverRaises g) (rev : Bool) (tt : List T) :
    ∀ (ps : List (T × W)) (st : List T) (i : ℕ) (xx : List (Option O)) (s : σ),
      (ps.map Prod.fst ++ st).Pairwise (Before rev) →
      (tt.drop i).Sublist (ps.map Prod.fst ++ st) →
      (ps.map Prod.fst ++ st).getLast? = (tt.drop i).getLast? →
      ∃ xx' i' s', storeWindow g rev tt ps i xx s = .ok (xx', i', s') ∧
        (tt.drop i').Sublist st := by
  intro ps
  induction ps with
  | nil =>
    intro st i xx s _ hsub _
    exact ⟨xx, i, s, rfl, by simpa using hsub⟩
  | cons p ps ih =>
    intro st i xx s hpw hsub hgl
    simp only [List.map_cons, List.cons_append] at hpw hsub hgl
    have hpw' := List.pairwise_cons.1 hpw
    have hi : i < tt.length := by
      by_contra hc
      rw [List.drop_eq_nil_of_le (by omega)] at hgl
      simp at hgl
    obtain ⟨u, todo, htt⟩ : ∃ u todo, tt.drop i = u :: todo := by
      rw [List.drop_eq_getElem_cons hi]; exact ⟨_, _, rfl⟩
    have hti : tt[i]? = some u := by
      have := congrArg (fun l => l[0]?) htt
      simpa using this
    have htd : tt.drop (i + 1) = todo := by
      have := congrArg List.tail htt
      simpa using this
    rw [htt] at hsub hgl
    simp only [storeWindow]
    by_cases hup : u = p.1
    · obtain ⟨⟨o, s2⟩, ho⟩ := hg.store i p.1 p.2 s
      have hs : storeIfReached g rev tt i p xx s = .ok (xx.set i (some o), 1, s2) := by
        unfold storeIfReached
        rw [hti]; simp only
        rw [if_neg (by rw [hup, beyond_iff]; exact fun h => h.irrefl), if_pos hup, ho]
      rw [hs]
      simp only
      rw [hup] at hsub
      have hsub' : todo.Sublist (ps.map Prod.fst ++ st) := by simpa using hsub
      apply ih _ _ _ _ hpw'.2 (by rw [htd]; exact hsub')
      rw [htd]
      generalize ps.map Prod.fst ++ st = l at *
      cases l with
      | nil => simp at hsub'; simp [hsub']
      | cons a l =>
        cases todo with
        | nil =>
          exfalso
          have : (a :: l).getLast? = some p.1 := by simpa [hup] using hgl
          exact (hpw'.1 p.1 (List.mem_of_getLast? this)).irrefl
        | cons b todo2 => simpa using hgl
    · have hsub' : (u :: todo).Sublist (ps.map Prod.fst ++ st) := by
        cases hsub with
        | cons _ h => exact h
        | cons_cons _ h => exact absurd rfl hup
      have hb : Before rev p.1 u := hpw'.1 u (hsub'.subset List.mem_cons_self)
      have hs : storeIfReached g rev tt i p xx s = .ok (xx, 0, s) := by
        unfold storeIfReached
        rw [hti]; simp only
        rw [if_neg (by rw [beyond_iff]; exact fun h => h.asymm hb), if_neg hup]
      rw [hs]
      simp only [Nat.add_zero]
      apply ih _ _ _ _ hpw'.2 (by rw [htt]; exact hsub')
      rw [htt]
      generalize ps.map Prod.fst ++ st = l at *
      cases l with
      | nil => simp at hsub'
      | cons a st2 => simpa using hgl

theorem generatePaths_safe (g : PGen T W O σ) (hg : NeverRaises g) (rev : Bool) (fuel : ℕ)
    (steps tt : List T) (a : PAcc O σ) (hK : 2 ≤ g.depth) (hlen : g.depth - 1 ≤ steps.length)
    (hpw : steps.Pairwise (Before rev)) (hsub : tt.Sublist steps)
    (hgl : steps.getLast? = tt.getLast?) :
    Outcome g (generatePaths g fuel steps tt rev a)
      (generatePaths (guarded g) fuel steps tt rev a) := by
  have hd : (guarded g).depth = g.depth := rfl
  have hbg : (guarded g).begin = g.begin := rfl
  have hfn : (guarded g).fin = g.fin := rfl
  rw [generatePaths, generatePaths, if_neg (by omega), if_neg (by omega)]
  simp only [hd, hbg, hfn, storeWindow_guarded]
  generalize hn : g.depth - 1 = n at *
  obtain ⟨⟨xw, s1⟩, hb⟩ := hg.begin rev (steps.take n) a.s
  rw [hb]
  simp only
  set win := (steps.take n).mapIdx fun k t => (t, xw k) with hwin
  have hfst : win.map Prod.fst = steps.take n := map_fst_mapIdx _ _
  have hall : win.map Prod.fst ++ steps.drop n = steps := by rw [hfst]; simp
  obtain ⟨xx', i', s', hsw, hsub'⟩ := storeWindow_safe g hg rev tt win (steps.drop n) 0 a.xx s1
    (by rw [hall]; exact hpw) (by rw [hall]; simpa using hsub) (by rw [hall]; simpa using hgl)
  rw [hsw]
  simp only
  have hlw : win.length = n := by
    have := congrArg List.length hfst
    rw [List.length_map, List.length_take] at this; omega
  have hne : win ≠ [] := by
    intro h; rw [h] at hlw; simp at hlw; omega
  obtain ⟨last, hlast⟩ : ∃ l, win.getLast? = some l := ⟨_, List.getLast?_eq_some_getLast hne⟩
  rw [hlast]
  simp only
  have hl1 : last.1 ∈ steps.take n := by
    rw [← hfst]; exact List.mem_map_of_mem (List.mem_of_getLast? hlast)
  have hpw' : (steps.take n ++ steps.drop n).Pairwise (Before rev) := by simpa using hpw
  have hpw'' := List.pairwise_append.1 hpw'
  rcases mainLoop_safe g hg rev tt fuel win last (steps.drop n) last.1 i'
    { a with xx := xx', s := s' } hlast (.inl rfl) (by simpa using hpw''.2.1)
    (by rw [if_pos rfl]; exact fun t ht => hpw''.2.2 _ hl1 t ht) (by simpa using hsub') with
    ⟨h, k⟩ | ⟨b, h, k⟩ | ⟨h, k, h'⟩
  · rw [h, k]; exact .inl ⟨rfl, rfl⟩
  · rw [h, k]
    simp only
    obtain ⟨s3, h3⟩ := hg.fin b.s
    rw [h3]
    exact .inr (.inl ⟨_, rfl, rfl⟩)
  · rw [h, k]; exact .inr (.inr ⟨rfl, rfl, h'⟩)

/-- A call never raises other than `RuntimeError`, if the callbacks do not raise. -/
theorem callPG_safe (g : PGen T W O σ) (hw : NeverRaises g) (fuel : ℕ)
    (steps : Steps T) (i0 : ℤ) (tl : TArr T) (s : σ)
    (hK : 2 ≤ g.depth) (hv : ValidTimeline tl) {i : ℕ} (hi : Designates tl.data.length i0 i)
    {grid : List T} (hg : stepsTT steps tl.data = .ok grid) {t0 : T} (h0 : tl.data[i]? = some t0)
    (hb : i0 ≠ 0 → g.depth - 1 ≤ (grid.filter (· ≤ t0)).length)
    (hf : Forw tl.data.length i0 → g.depth - 1 ≤ (grid.filter (t0 ≤ ·)).length) :
    Outcome g (callPG g fuel steps i0 tl s) (callPG (guarded g) fuel steps i0 tl s) := by
  have hgr := stepsTT_isGrid steps tl.data hv.2 hg
  have hmt : t0 ∈ tl.data := List.mem_of_getElem? h0
  have hmem : t0 ∈ grid := (hgr.2 t0).2 (.inl hmt)
  have hsub : tl.data.Sublist grid := sublist_of_sorted hv.2 hgr.1 fun t ht => (hgr.2 t).2 (.inl ht)
  have hbf : i0 ≠ 0 ∨ Forw tl.data.length i0 := by
    by_cases h : i0 = 0
    · exact .inr (.inl h)
    · exact .inl h
  have hlen : g.depth - 1 ≤ grid.length := by
    rcases hbf with h | h
    · exact (hb h).trans (List.length_filter_le _ _)
    · exact (hf h).trans (List.length_filter_le _ _)
  have hne : tl.data ≠ [] := by rintro h; rw [h] at hmt; simp at hmt
  obtain ⟨tmax, hmax⟩ : ∃ l, tl.data.getLast? = some l := ⟨_, List.getLast?_eq_some_getLast hne⟩
  obtain ⟨tmin, hmin⟩ : ∃ a, tl.data.head? = some a := by
    cases hd : tl.data with
    | nil => exact absurd hd hne
    | cons c l => exact ⟨c, rfl⟩
  rw [callPG_valid g fuel steps i0 tl s hK hv hi hg hlen h0 hmin hmax,
    callPG_valid (guarded g) fuel steps i0 tl s hK hv hi hg hlen h0 hmin hmax]
  have hforw : ∀ a : PAcc O σ, Outcome g (do
      let a : PAcc O σ ← (if Forw tl.data.length i0 then do
              let b ← generatePaths g fuel (grid.filter (t0 ≤ ·)) (tl.data.filter (t0 ≤ ·)) false
                { a with xx := a.xx.drop i }
              pure { b with xx := a.xx.take i ++ b.xx }
            else pure a : Py (PAcc O σ))
      pure ⟨a.xx, a.s, t0, tmin, tmax, a.computed, a.stored⟩ : Py (CallResult T O σ)) (do
      let a : PAcc O σ ← (if Forw tl.data.length i0 then do
              let b ← generatePaths (guarded g) fuel (grid.filter (t0 ≤ ·))
                (tl.data.filter (t0 ≤ ·)) false { a with xx := a.xx.drop i }
              pure { b with xx := a.xx.take i ++ b.xx }
            else pure a : Py (PAcc O σ))
      pure ⟨a.xx, a.s, t0, tmin, tmax, a.computed, a.stored⟩ : Py (CallResult T O σ)) := by
    intro a
    by_cases hF : Forw tl.data.length i0
    · simp only [hF, if_true]
      rcases generatePaths_safe g hw false fuel (grid.filter (t0 ≤ ·)) (tl.data.filter (t0 ≤ ·))
        { a with xx := a.xx.drop i } hK (hf hF) (pairwise_before_false.2 (hgr.1.filter _))
        (hsub.filter _)
        (by rw [filter_ge_getLast hgr.1 hmem, filter_ge_getLast hv.2 hmt, isGrid_getLast hv.2 hgr])
        with ⟨h, k⟩ | ⟨b, h, k⟩ | ⟨h, k, h'⟩
      · rw [h, k]; exact .inl ⟨rfl, rfl⟩
      · rw [h, k]; exact .inr (.inl ⟨_, rfl, rfl⟩)
      · rw [h, k]; exact .inr (.inr ⟨rfl, rfl, h'⟩)
    · simp only [hF, if_false]; exact .inr (.inl ⟨_, rfl, rfl⟩)
  by_cases hz : i0 = 0
  · simp only [hz, ne_eq, not_true, if_false]
    rw [hz] at hforw
    exact hforw _
  · simp only [hz, ne_eq, not_false_iff, if_true]
    rcases generatePaths_safe g hw true fuel (grid.filter (· ≤ t0)).reverse
      (tl.data.filter (· ≤ t0)).reverse ⟨List.replicate (i + 1) none, s, 0, 0⟩ hK
      (by rw [List.length_reverse]; exact hb hz)
      (pairwise_before_true.2 (hgr.1.filter _)) (List.reverse_sublist.2 (hsub.filter _))
      (by rw [List.getLast?_reverse, List.getLast?_reverse, filter_le_head hgr.1 hmem,
        filter_le_head hv.2 hmt, isGrid_head hv.2 hgr]) with ⟨h, k⟩ | ⟨b, h, k⟩ | ⟨h, k, h'⟩
    · rw [h, k]; exact .inl ⟨rfl, rfl⟩
    · rw [h, k]; exact hforw _
    · rw [h, k]; exact .inr (.inr ⟨rfl, rfl, h'⟩)

end Sdepy
