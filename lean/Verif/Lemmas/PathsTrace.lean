import Verif.Lemmas.PathsGenerator

set_option linter.unusedSectionVars false
set_option linter.unusedSimpArgs false

namespace Sdepy

open Spec

variable {T W O σ : Type} [Zero T] [One T] [Neg T] [Sub T] [Mul T]
  [LinearOrder T] [Linspace T] [SignOk T]

theorem visited_append (l m : List (Event T W O)) : visited (l ++ m) = visited l ++ visited m := by
  induction l with
  | nil => rfl
  | cons e l ih => cases e <;> simp [visited, ih]

theorem storedEvents_append (l m : List (Event T W O)) :
    storedEvents (l ++ m) = storedEvents l ++ storedEvents m := by
  induction l with
  | nil => rfl
  | cons e l ih => cases e <;> simp [storedEvents, ih]

theorem Spec.TraceOk.nil {g : PGen T W O σ} {rev} {steps tt : List T} :
    TraceOk g rev steps tt ([] : List (Event T W O)) := by
  intro pre e post h; simp at h

theorem Spec.TraceOk.snoc {g : PGen T W O σ} {rev} {steps tt : List T} {es : List (Event T W O)} {e}
    (h : TraceOk g rev steps tt es) (he : EventOk g rev steps tt es e) :
    TraceOk g rev steps tt (es ++ [e]) := by
  intro pre e' post heq
  rcases List.eq_nil_or_concat post with rfl | ⟨post', x, rfl⟩
  · have := List.append_inj' heq (by simp)
    obtain ⟨h1, h2⟩ := this
    simp at h2
    rw [← h1, ← h2]; exact he
  · have heq' : es ++ [e] = (pre ++ e' :: post') ++ [x] := by
      rw [heq]; simp
    have := List.append_inj' heq' (by simp)
    exact h _ _ _ this.1

theorem lastN_snoc {α : Type} (n : ℕ) (l : List α) (x : α) (hn : 1 ≤ n) (h : n ≤ l.length) :
    lastN n (l ++ [x]) = (lastN n l).tail ++ [x] := by
  simp only [lastN, List.length_append, List.length_cons, List.length_nil, zero_add]
  rw [List.drop_append_of_le_length (by omega), List.tail_drop]
  congr 2; omega

theorem lastN_getLast? {α : Type} (n : ℕ) (l : List α) (hn : 1 ≤ n) :
    (lastN n l).getLast? = l.getLast? := by
  simp only [lastN]
  rw [List.getLast?_drop]
  split
  · rename_i h
    have : l.length = 0 := by omega
    simp [List.length_eq_zero_iff.1 this]
  · rfl

theorem enumOut_snoc (ts : List T) (os : List O) (t : T) (o : O) (h : ts.length = os.length) :
    enumOut (ts ++ [t]) (os ++ [o]) = enumOut ts os ++ [(ts.length, t, o)] := by
  simp [enumOut, List.zip_append h, List.mapIdx_append, h]

/-- Part of the invariant that concerns outputs. -/
structure OutInv (g : PGen T W O σ) (rev : Bool) (steps tt : List T) (L0 : List (Event T W O))
    (i : ℕ) (xx : List (Option O)) (log : List (Event T W O)) (es : List (Event T W O))
    (os : List O) : Prop where
  hlog : log = L0 ++ es
  trace : TraceOk g rev steps tt es
  hi : i = os.length
  hle : os.length ≤ tt.length
  hst : storedEvents es = enumOut (tt.take os.length) os
  hxx : xx.take os.length = os.map some
  hxlen : xx.length = tt.length
  hpw : ((visited es).map Prod.fst).Pairwise (Before rev)

theorem length_enumOut (ts : List T) (os : List O) :
    (enumOut ts os).length = min ts.length os.length := by simp [enumOut]

theorem storeIfReached_inv (g : PGen T W O σ) {rev} {steps tt : List T} {L0 i xx}
    {s : σ × List (Event T W O)} {es} {os : List O} (p : T × W)
    (hp : p ∈ visited es)
    (h : OutInv g rev steps tt L0 i xx s.2 es os) {xx' di s'}
    (hr : storeIfReached (logged g) rev tt i p xx s = .ok (xx', di, s')) :
    ∃ es' os', OutInv g rev steps tt L0 (i + di) xx' s'.2 es' os' ∧
      visited es' = visited es ∧ (os' = os ∨ (tt[i]? = some p.1 ∧ os'.length = os.length + 1)) := by
  simp only [storeIfReached] at hr
  cases ht : tt[i]? with
  | none => simp [ht] at hr
  | some ti =>
    simp only [ht] at hr
    by_cases hc : (ti - p.1) * (if rev then -1 else 1) < 0
    · rw [if_pos hc] at hr; simp at hr
    rw [if_neg hc] at hr
    by_cases h1 : ti = p.1
    · rw [if_pos h1] at hr
      subst h1
      simp only [logged] at hr
      cases hg : g.store i p.1 p.2 s.1 with
      | error e => simp [hg, bind, Except.bind] at hr
      | ok r =>
        obtain ⟨o, s1⟩ := r
        simp [hg, bind, Except.bind, pure, Except.pure] at hr
        obtain ⟨rfl, rfl, rfl⟩ := hr
        have hi := h.hi
        subst hi
        have hlt : os.length < tt.length := by
          rw [List.getElem?_eq_some_iff] at ht; exact ht.1
        refine ⟨es ++ [.stored os.length p.1 p.2 o], os ++ [o], ?_, ?_, .inr ⟨rfl, by simp⟩⟩
        · constructor
          · simp [h.hlog]
          · apply Spec.TraceOk.snoc h.trace
            refine ⟨?_, ht, hp, _, _, hg⟩
            rw [h.hst, length_enumOut]; simp; exact hlt.le
          · simp
          · simp; exact hlt
          · rw [storedEvents_append, h.hst]
            have : tt.take (os ++ [o]).length = tt.take os.length ++ [p.1] := by
              simp only [List.length_append, List.length_cons, List.length_nil, zero_add]
              rw [List.take_add_one, ht]; rfl
            rw [this, enumOut_snoc _ _ _ _ (by simp; exact hlt.le)]
            simp [storedEvents]; exact hlt.le
          · have hxl : os.length < xx.length := by rw [h.hxlen]; exact hlt
            simp only [List.length_append, List.length_cons, List.length_nil, zero_add,
              List.map_append, List.map_cons, List.map_nil]
            rw [List.take_add_one, List.take_set_of_le (le_refl _), h.hxx,
              List.getElem?_set_self hxl]
            rfl
          · simp [h.hxlen]
          · rw [visited_append]; simpa [visited] using h.hpw
        · simp [visited_append, visited]
    · rw [if_neg h1] at hr
      simp at hr
      obtain ⟨rfl, rfl, rfl⟩ := hr
      exact ⟨es, os, by simpa using h, rfl, .inl rfl⟩

theorem storeWindow_inv (g : PGen T W O σ) {rev} {steps tt : List T} {L0} :
    ∀ (ps : List (T × W)) {i xx} {s : σ × List (Event T W O)} {es} {os : List O},
    (∀ p ∈ ps, p ∈ visited es) →
    OutInv g rev steps tt L0 i xx s.2 es os → ∀ {xx' i' s'},
    storeWindow (logged g) rev tt ps i xx s = .ok (xx', i', s') →
    ∃ es' os', OutInv g rev steps tt L0 i' xx' s'.2 es' os' ∧ visited es' = visited es := by
  intro ps
  induction ps with
  | nil =>
    intro i xx s es os _ h xx' i' s' hr
    simp [storeWindow] at hr
    obtain ⟨rfl, rfl, rfl⟩ := hr
    exact ⟨es, os, h, rfl⟩
  | cons p ps ih =>
    intro i xx s es os hp h xx' i' s' hr
    simp only [storeWindow] at hr
    cases h1 : storeIfReached (logged g) rev tt i p xx s with
    | error e => simp [h1] at hr
    | ok r =>
      obtain ⟨xx1, di, s1⟩ := r
      simp only [h1] at hr
      obtain ⟨es1, os1, h2, h3, -⟩ := storeIfReached_inv g p (hp p (by simp)) h h1
      obtain ⟨es2, os2, h4, h5⟩ := ih (by
        intro q hq; rw [h3]; exact hp q (by simp [hq])) h2 hr
      exact ⟨es2, os2, h4, by rw [h5, h3]⟩

theorem orderOk_before {rev : Bool} {a b c : T} (h : orderOk rev a b c) : Before rev a b := by
  cases rev
  · exact h.1
  · exact h.2

theorem orderOk_target {rev : Bool} {a b c : T} (h : orderOk rev a b c) :
    if rev then c ≤ b else b ≤ c := by
  cases rev
  · exact h.2
  · exact h.1

theorem mainLoop_inv (g : PGen T W O σ) {rev} {steps tt : List T} {L0} {n : ℕ} (hgn : g.depth - 1 = n) (hn : 1 ≤ n) :
    ∀ (fuel : ℕ) {win st target current i} {a : PAcc O (σ × List (Event T W O))} {es}
      {os : List O} {passed : List T},
    OutInv g rev steps tt L0 i a.xx a.s.2 es os →
    win = lastN n (visited es) → n ≤ (visited es).length →
    steps = passed ++ st → target ∈ passed →
    (∀ t ∈ passed, t ∈ (visited es).map Prod.fst ∨ t = target) →
    (∃ last, (visited es).getLast? = some last ∧ last.1 = current) →
    (current = target ∨ Before rev current target) →
    ∀ {b}, mainLoop (logged g) rev tt fuel win st target current i a = .ok b →
    ∃ es' os' passed' st' target' current', OutInv g rev steps tt L0 tt.length b.xx b.s.2 es' os' ∧
      os'.length = tt.length ∧
      steps = passed' ++ st' ∧ target' ∈ passed' ∧
      (∀ t ∈ passed', t ∈ (visited es').map Prod.fst ∨ t = target') ∧
      (∃ last, (visited es').getLast? = some last ∧ last.1 = current') ∧
      (current' = target' ∨ Before rev current' target') := by
  intro fuel
  have hstop : ∀ {win : List (T × W)} {st : List T} {target current : T} {i}
      {a : PAcc O (σ × List (Event T W O))} {es}
      {os : List O} {passed : List T},
    OutInv g rev steps tt L0 i a.xx a.s.2 es os →
    steps = passed ++ st → target ∈ passed →
    (∀ t ∈ passed, t ∈ (visited es).map Prod.fst ∨ t = target) →
    (∃ last, (visited es).getLast? = some last ∧ last.1 = current) →
    (current = target ∨ Before rev current target) → ¬ i < tt.length →
    ∃ es' os' passed' st' target' current', OutInv g rev steps tt L0 tt.length a.xx a.s.2 es' os' ∧
      os'.length = tt.length ∧
      steps = passed' ++ st' ∧ target' ∈ passed' ∧
      (∀ t ∈ passed', t ∈ (visited es').map Prod.fst ∨ t = target') ∧
      (∃ last, (visited es').getLast? = some last ∧ last.1 = current') ∧
      (current' = target' ∨ Before rev current' target') := by
    intro win st target current i a es os passed h h1 h2 h3 h4 h5 hi
    have e1 := h.hi
    have e2 := h.hle
    have e3 : i = tt.length := by omega
    refine ⟨es, os, passed, st, target, current, ?_, by omega, h1, h2, h3, h4, h5⟩
    rw [← e3]; exact h
  induction fuel with
  | zero =>
    intro win st target current i a es os passed h hwin hlen h1 h2 h3 h4 h5 b hr
    rw [mainLoop] at hr
    split at hr
    · simp at hr
    · rename_i hi
      simp at hr; subst hr
      exact hstop (win := win) h h1 h2 h3 h4 h5 hi
  | succ fuel ih =>
    intro win st target current i a es os passed h hwin hlen h1 h2 h3 h4 h5 b hr
    rw [mainLoop] at hr
    by_cases hi : i < tt.length
    swap
    · rw [if_neg hi] at hr
      simp at hr; subst hr
      exact hstop (win := win) h h1 h2 h3 h4 h5 hi
    rw [if_pos hi] at hr
    -- the new target
    obtain ⟨target', st', passed', hsel, h1', h2', h3'⟩ : ∃ target' st' passed',
        selectTarget current target st = .ok (target', st') ∧
        steps = passed' ++ st' ∧ target' ∈ passed' ∧
        (∀ t ∈ passed', t ∈ (visited es).map Prod.fst ∨ t = target') := by
      unfold selectTarget at hr ⊢
      by_cases hc : current = target
      · rw [if_pos hc] at hr ⊢
        cases st with
        | nil => simp at hr
        | cons t st =>
          refine ⟨t, st, passed ++ [t], rfl, by simp [h1], by simp, ?_⟩
          intro u hu
          rcases List.mem_append.1 hu with hu | hu
          · left
            rcases h3 u hu with h | h
            · exact h
            · obtain ⟨last, hl, hl2⟩ := h4
              rw [h, ← hc, ← hl2]
              exact List.mem_map_of_mem (List.mem_of_getLast? hl)
          · right; simpa using hu
      · rw [if_neg hc]
        exact ⟨target, st, passed, rfl, h1, h2, h3⟩
    rw [hsel] at hr
    simp only [logged] at hr
    cases hg : g.next rev win target' a.s.1 with
    | error e => simp [hg, bind, Except.bind] at hr
    | ok r =>
      obtain ⟨p, s1⟩ := r
      simp only [hg, bind, Except.bind, pure, Except.pure] at hr
      obtain ⟨last, hl, hl2⟩ := h4
      have hwl : win.getLast? = some last := by rw [hwin, lastN_getLast? _ _ hn, hl]
      rw [hwl] at hr
      simp only at hr
      by_cases hok : orderOk rev last.1 p.1 target'
      swap
      · rw [if_pos hok] at hr; simp at hr
      rw [if_neg (not_not.2 hok)] at hr
      have hb : Before rev last.1 p.1 := orderOk_before hok
      have hb2 : if rev then target' ≤ p.1 else p.1 ≤ target' := orderOk_target hok
      have hv : visited (es ++ [Event.stepped win target' p]) = visited es ++ [p] := by
        simp [visited_append, visited]
      have hinv : OutInv g rev steps tt L0 i a.xx (a.s.2 ++ [Event.stepped win target' p])
          (es ++ [Event.stepped win target' p]) os := by
        refine ⟨by simp [h.hlog], ?_, h.hi, h.hle, ?_, h.hxx, h.hxlen, ?_⟩
        · apply Spec.TraceOk.snoc h.trace
          exact ⟨by rw [hgn]; exact hwin, by rw [h1']; exact List.mem_append_left _ h2', ⟨_, _, hg⟩,
            ⟨last, hl, hb⟩, hb2⟩
        · simp [storedEvents_append, storedEvents, h.hst]
        · rw [hv, List.map_append, List.pairwise_append]
          refine ⟨h.hpw, by simp, ?_⟩
          intro u hu v hv'
          simp at hv'; subst hv'
          obtain ⟨init, hinit⟩ : ∃ init, visited es = init ++ [last] := by
            obtain ⟨_, h⟩ := List.getLast?_eq_some_iff.1 hl; exact ⟨_, h⟩
          have hpw := h.hpw
          rw [hinit, List.map_append, List.pairwise_append] at hpw
          rw [hinit, List.map_append] at hu
          rcases List.mem_append.1 hu with hu | hu
          · exact (hpw.2.2 u hu last.1 (by simp)).trans hb
          · simp at hu; subst hu; exact hb
      cases hs : storeIfReached (logged g) rev tt i p a.xx
          (s1, a.s.2 ++ [Event.stepped win target' p]) with
      | error e =>
        simp only [logged, bind, Except.bind, pure, Except.pure] at hs
        rw [hs] at hr; simp at hr
      | ok r =>
        obtain ⟨xx1, di, s2⟩ := r
        obtain ⟨es2, os2, g1, g2, -⟩ := storeIfReached_inv g (steps := steps) p
          (by rw [hv]; simp) hinv hs
        simp only [logged, bind, Except.bind, pure, Except.pure] at hs
        rw [hs] at hr
        simp only at hr
        rw [hv] at g2
        refine ih (b := b) (a := ⟨xx1, s2, a.computed + 1, a.stored + di⟩) g1 ?_ ?_ h1' h2' ?_
          ⟨p, by rw [g2]; simp, rfl⟩ ?_ hr
        · rw [g2, lastN_snoc _ _ _ hn hlen, hwin]
        · rw [g2]; simp; omega
        · intro t ht
          rw [g2]
          rcases h3' t ht with h | h
          · left; simp at h ⊢; left; exact h
          · right; exact h
        · by_cases hpt : p.1 = target'
          · left; exact hpt
          · right
            cases rev
            · simp [Before] at hb2 ⊢; exact lt_of_le_of_ne hb2 hpt
            · simp [Before] at hb2 ⊢; exact lt_of_le_of_ne hb2 (Ne.symm hpt)

theorem length_enumOut' (ts : List T) (os : List O) (h : os.length = ts.length) :
    (enumOut ts os).length = ts.length := by simp [length_enumOut, h]

/-- Whole pass, any callbacks. -/
theorem generatePaths_trace (g : PGen T W O σ) (fuel : ℕ) (steps tt : List T) (rev : Bool)
    (xx0 : List (Option O)) (s : σ) (L0 : List (Event T W O)) (c d : ℕ)
    (hK : 2 ≤ g.depth) (hxx : xx0.length = tt.length) (hpw : steps.Pairwise (Before rev))
    {b : PAcc O (σ × List (Event T W O))}
    (hr : generatePaths (logged g) fuel steps tt rev ⟨xx0, (s, L0), c, d⟩ = .ok b) :
    ∃ es os, b.s.2 = L0 ++ es ∧ os.length = tt.length ∧ b.xx = os.map some ∧
      storedEvents es = enumOut tt os ∧ TraceOk g rev steps tt es ∧
      ((visited es).map Prod.fst).Pairwise (Before rev) ∧
      (steps.getLast? = tt.getLast? → ∀ t ∈ steps, t ∈ (visited es).map Prod.fst) := by
  rw [generatePaths] at hr
  have hd : (logged g).depth = g.depth := rfl
  rw [hd] at hr
  generalize hn : g.depth - 1 = n at hr ⊢
  have hn1 : 1 ≤ n := by omega
  by_cases hl : steps.length < n
  · rw [if_pos hl] at hr; simp at hr
  rw [if_neg hl] at hr
  simp only at hr
  cases hb : g.begin rev (steps.take n) s with
  | error e => simp [logged, hb, bind, Except.bind] at hr
  | ok r =>
    obtain ⟨xw, s1⟩ := r
    set win := (steps.take n).mapIdx fun k t => (t, xw k) with hwin
    have hbeg : (logged g).begin rev (steps.take n) (s, L0) =
        .ok (xw, s1, L0 ++ [Event.begun win]) := by
      simp [logged, hb, bind, Except.bind, pure, Except.pure, hwin]
    rw [hbeg] at hr
    simp only [← hwin] at hr
    have hfst : win.map Prod.fst = steps.take n := map_fst_mapIdx _ _
    have hlen : win.length = n := by
      have := congrArg List.length hfst
      rw [List.length_map, List.length_take] at this; omega
    have hv : visited [(Event.begun win : Event T W O)] = win := by simp [visited]
    have hinv : OutInv g rev steps tt L0 0 xx0 (L0 ++ [Event.begun win])
        ([Event.begun win] : List (Event T W O)) [] := by
      refine ⟨rfl, ?_, rfl, by simp, by simp [storedEvents, enumOut], by simp, hxx, ?_⟩
      · have := Spec.TraceOk.snoc (T := T) (W := W) (O := O) (g := g) (rev := rev)
          (steps := steps) (tt := tt) (e := Event.begun win) Spec.TraceOk.nil
          ⟨rfl, by rw [hn]; exact hfst, s, s1, xw, by rw [hn]; exact hb, by rw [hn]⟩
        simpa using this
      · rw [hv, hfst]; exact hpw.sublist (List.take_sublist _ _)
    cases hsw : storeWindow (logged g) rev tt win 0 xx0 (s1, L0 ++ [Event.begun win]) with
    | error e => simp [hsw] at hr
    | ok r =>
      obtain ⟨xx1, i, s2⟩ := r
      obtain ⟨es1, os1, h1, h2⟩ := storeWindow_inv g win (by simp [visited]) hinv hsw
      rw [hsw] at hr
      simp only at hr
      rw [hv] at h2
      have hne : win ≠ [] := by
        intro h; rw [h] at hlen; simp at hlen; omega
      obtain ⟨last, hlast⟩ : ∃ l, win.getLast? = some l := ⟨_, List.getLast?_eq_some_getLast hne⟩
      rw [hlast] at hr
      simp only at hr
      have hl1 : last.1 ∈ steps.take n := by
        rw [← hfst]; exact List.mem_map_of_mem (List.mem_of_getLast? hlast)
      cases hm : mainLoop (logged g) rev tt fuel win (steps.drop n) last.1 last.1 i
          ⟨xx1, s2, c, d⟩ with
      | error e => simp [hm] at hr
      | ok a2 =>
        rw [hm] at hr
        simp only at hr
        obtain ⟨es, os, passed, st, target, current, k1, k2, k3, k4, k5, k6, k7⟩ :=
          mainLoop_inv g hn hn1 fuel (passed := steps.take n) h1
          (by rw [h2]; simp [lastN, hlen]) (by rw [h2, hlen]) (by simp) hl1
          (by rw [h2, hfst]; tauto) ⟨last, by rw [h2, hlast], rfl⟩ (.inl rfl) hm
        cases hf : g.fin a2.s.1 with
        | error e => simp [logged, hf, bind, Except.bind] at hr
        | ok s3 =>
          simp only [logged, hf, bind, Except.bind, pure, Except.pure] at hr
          simp only [Except.ok.injEq] at hr
          subst hr
          refine ⟨es, os, k1.hlog, k2, ?_, ?_, k1.trace, k1.hpw, ?_⟩
          · have := k1.hxx
            rw [k2, ← k1.hxlen, List.take_length] at this
            exact this
          · rw [k1.hst, k2, List.take_length]
          · intro hgl t ht
            -- the last step was stored, hence visited
            rcases List.eq_nil_or_concat steps with h0 | ⟨init, e, h0⟩
            · rw [h0] at ht; simp at ht
            have hge : steps.getLast? = some e := by rw [h0]; simp
            have hvis : ∀ o ∈ enumOut tt os, o.2.1 ∈ (visited es).map Prod.fst := by
              rw [show enumOut tt os = storedEvents es by rw [k1.hst, k2, List.take_length]]
              intro o ho
              have key : ∀ (L : List (Event T W O)) (o : ℕ × T × O), o ∈ storedEvents L →
                  ∃ x, Event.stored o.1 o.2.1 x o.2.2 ∈ L := by
                intro L
                induction L with
                | nil => simp [storedEvents]
                | cons ev L ihL =>
                  intro o ho
                  cases ev with
                  | begun w =>
                    obtain ⟨x, hx⟩ := ihL o (by simpa [storedEvents] using ho)
                    exact ⟨x, by simp [hx]⟩
                  | stepped w tg p =>
                    obtain ⟨x, hx⟩ := ihL o (by simpa [storedEvents] using ho)
                    exact ⟨x, by simp [hx]⟩
                  | stored i t x o' =>
                    simp only [storedEvents, List.mem_cons] at ho
                    rcases ho with ho | ho
                    · exact ⟨x, by simp [ho]⟩
                    · obtain ⟨x, hx⟩ := ihL o ho
                      exact ⟨x, by simp [hx]⟩
              obtain ⟨x, hx⟩ := key es o ho
              obtain ⟨pre, post, hpp⟩ := List.append_of_mem hx
              have := (k1.trace pre _ post hpp).2.2.1
              rw [hpp, visited_append, List.map_append]
              exact List.mem_append_left _ (List.mem_map_of_mem (f := Prod.fst) this)
            have hev : e ∈ (visited es).map Prod.fst := by
              have hte : tt.getLast? = some e := by rw [← hgl, hge]
              have hmem := List.mem_of_getLast? hte
              obtain ⟨j, hj, rfl⟩ := List.getElem_of_mem hmem
              have : (j, tt[j], os[j]'(by omega)) ∈ enumOut tt os := by
                rw [List.mem_iff_getElem?]
                refine ⟨j, ?_⟩
                simp [enumOut, hj, k2]
              exact hvis _ this
            obtain ⟨lastv, hlv, hlv2⟩ := k6
            have hcur : e = current ∨ Before rev e current := by
              obtain ⟨ini, hini⟩ := List.getLast?_eq_some_iff.1 hlv
              have hpwv := k1.hpw
              rw [hini, List.map_append] at hev
              rw [hini, List.map_append, List.pairwise_append] at hpwv
              rcases List.mem_append.1 hev with hev | hev
              · right; rw [← hlv2]; exact hpwv.2.2 e hev lastv.1 (by simp)
              · left; simp at hev; rw [hev, hlv2]
            have htgt : target = e ∨ Before rev target e := by
              have : target ∈ steps := by rw [k3]; exact List.mem_append_left _ k4
              rw [h0] at this hpw
              simp only [List.concat_eq_append] at this hpw
              rcases List.mem_append.1 this with h | h
              · right; exact (List.pairwise_append.1 hpw).2.2 target h e (by simp)
              · left; simpa using h
            have hte : target = e ∧ current = e := by
              rcases htgt with ht1 | ht1 <;> rcases hcur with hc1 | hc1 <;> rcases k7 with h7 | h7
              · exact ⟨ht1, hc1.symm⟩
              · exact ⟨ht1, hc1.symm⟩
              · rw [h7, ht1] at hc1; exact (hc1.irrefl).elim
              · rw [ht1] at h7; exact (hc1.asymm h7).elim
              · rw [← h7, ← hc1] at ht1; exact ht1.irrefl.elim
              · rw [← hc1] at h7; exact (ht1.asymm h7).elim
              · rw [h7] at hc1; exact (ht1.asymm hc1).elim
              · exact ((hc1.trans h7).asymm ht1).elim
            -- nothing is left in the iterator
            have hst : st = [] := by
              by_contra hne
              obtain ⟨q, hq⟩ : ∃ q, st.getLast? = some q := ⟨_, List.getLast?_eq_some_getLast hne⟩
              have hq2 : steps.getLast? = some q := by
                rw [k3, List.getLast?_append, hq]; rfl
              rw [hge] at hq2
              simp at hq2
              rw [k3, List.pairwise_append] at hpw
              have := hpw.2.2 target k4 q (List.mem_of_getLast? hq)
              rw [← hq2, hte.1] at this
              exact this.irrefl
            rw [k3, hst, List.append_nil] at ht
            rcases k5 t ht with h | h
            · exact h
            · rw [h, hte.1]; exact hev

end Sdepy
