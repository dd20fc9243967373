import Verif.Model.UnsignedTime
import Verif.Props.Paths
import Mathlib.Algebra.Order.Floor.Ring

/-!
# Integration along timelines of unsigned integers
-/

set_option linter.unusedSectionVars false
set_option linter.unusedSimpArgs false

namespace Sdepy

open Spec

variable {W O σ : Type} {n : ℕ}

/-- The number that an unsigned time stands for. -/
def UTime.num (t : UTime n) : ℚ := t.val

theorem UTime.num_lt {a b : UTime n} : a.num < b.num ↔ a < b := by
  unfold UTime.num
  rw [Int.cast_lt]
  exact Iff.rfl

theorem UTime.num_le {a b : UTime n} : a.num ≤ b.num ↔ a ≤ b := by
  rw [← not_lt, num_lt, not_lt]

theorem UTime.num_inj {a b : UTime n} : a.num = b.num ↔ a = b := by
  rw [le_antisymm_iff, le_antisymm_iff, num_le, num_le]

theorem UTime.trunc_num (t : UTime n) : UTime.trunc t.num = t := by
  unfold UTime.trunc UTime.num
  rw [Int.floor_intCast]

/-- In a forward pass the check that the output time has not been overstepped does not raise. -/
theorem UTime.check (a b : UTime n) : ¬ (a - b) * (if false = true then -1 else 1) < 0 := by
  intro h
  have h' : (a.val - b.val) % 2 ^ n * 1 < 0 := h
  have := Int.emod_nonneg (a.val - b.val) (b := 2 ^ n) (by positivity)
  omega

/-- Pairs of times and values, as numbers. -/
def numWin (win : List (UTime n × W)) : List (ℚ × W) := win.map fun p => (p.1.num, p.2)

theorem storeIfReached_num {g : PGen ℚ W O σ} {tt : List (UTime n)} {i : ℕ} {p : UTime n × W}
    {xx : List (Option O)} {s : σ} {r : List (Option O) × ℕ × σ}
    (h : storeIfReached g false (tt.map UTime.num) i (p.1.num, p.2) xx s = .ok r) :
    storeIfReached (g.unsigned n) false tt i p xx s = .ok r := by
  unfold storeIfReached at h ⊢
  rw [List.getElem?_map] at h
  cases ht : tt[i]? with
  | none => rw [ht] at h; cases h
  | some ti =>
    rw [ht] at h
    simp only [Option.map_some] at h ⊢
    rw [if_neg (UTime.check ti p.1)]
    by_cases hc : (ti.num - p.1.num) * (if false = true then -1 else 1) < 0
    · rw [if_pos hc] at h; cases h
    · rw [if_neg hc] at h
      by_cases he : ti = p.1
      · rw [if_pos (UTime.num_inj.2 he)] at h
        rw [if_pos he]
        exact h
      · rw [if_neg (fun hc => he (UTime.num_inj.1 hc))] at h
        rw [if_neg he]
        exact h

theorem storeWindow_num {g : PGen ℚ W O σ} {tt : List (UTime n)} {win : List (UTime n × W)} {i : ℕ}
    {xx : List (Option O)} {s : σ} {r : List (Option O) × ℕ × σ}
    (h : storeWindow g false (tt.map UTime.num) (numWin win) i xx s = .ok r) :
    storeWindow (g.unsigned n) false tt win i xx s = .ok r := by
  induction win generalizing i xx s with
  | nil => exact h
  | cons p win ih =>
    simp only [numWin, List.map_cons, storeWindow] at h ⊢
    split at h
    · cases h
    · next hs =>
      rw [storeIfReached_num hs]
      exact ih h

theorem selectTarget_num (current target : UTime n) (st : List (UTime n)) :
    selectTarget current.num target.num (st.map UTime.num) =
      match selectTarget current target st with
      | .error e => .error e
      | .ok (t, st) => .ok (t.num, st.map UTime.num) := by
  unfold selectTarget
  by_cases h : current = target
  · rw [if_pos h, if_pos (UTime.num_inj.2 h)]
    cases st <;> rfl
  · rw [if_neg h, if_neg (fun hc => h (UTime.num_inj.1 hc))]

theorem orderOk_num (a b c : UTime n) : orderOk false a.num b.num c.num ↔ orderOk false a b c := by
  simp only [orderOk, Bool.false_eq_true, if_false, UTime.num_lt, UTime.num_le]

theorem numWin_last (win : List (UTime n × W)) :
    (numWin win).getLast? = win.getLast?.map fun p => (p.1.num, p.2) := by
  simp [numWin]

theorem mainLoop_num {g : PGen ℚ W O σ} {step} (hna : NonAdaptive g step) {tt : List (UTime n)} {fuel : ℕ}
    {win : List (UTime n × W)} {st : List (UTime n)} {target current : UTime n} {i : ℕ} {a r : PAcc O σ}
    (h : mainLoop g false (tt.map UTime.num) fuel (numWin win) (st.map UTime.num) target.num current.num i a =
      .ok r) :
    mainLoop (g.unsigned n) false tt fuel win st target current i a = .ok r := by
  induction fuel generalizing win st target current i a with
  | zero => simpa only [mainLoop, List.length_map] using h
  | succ fuel ih =>
    simp only [mainLoop, List.length_map] at h ⊢
    by_cases hi : i < tt.length
    · rw [if_pos hi] at h ⊢
      rw [selectTarget_num] at h
      cases hsel : selectTarget current target st with
      | error e => rw [hsel] at h; cases h
      | ok q =>
        obtain ⟨t, st'⟩ := q
        rw [hsel] at h
        simp only at h ⊢
        have hnx := hna false (numWin win) t.num a.s
        cases hs : step false (numWin win) t.num a.s with
        | error e =>
          rw [hs] at hnx
          have hnx : g.next false (numWin win) t.num a.s = .error e := hnx
          rw [hnx] at h
          cases h
        | ok y =>
          obtain ⟨x, s'⟩ := y
          rw [hs] at hnx
          have hnx : g.next false (numWin win) t.num a.s = .ok ((t.num, x), s') := hnx
          have hnu : (g.unsigned n).next false win t a.s = .ok ((t, x), s') := by
            show (match g.next false (numWin win) t.num a.s with
              | .error e => (Except.error e : Py ((UTime n × W) × σ))
              | .ok (p, s) => .ok ((UTime.trunc p.1, p.2), s)) = _
            rw [hnx]
            simp only [UTime.trunc_num]
          rw [hnx] at h
          rw [hnu]
          simp only [numWin_last] at h ⊢
          cases hl : win.getLast? with
          | none => rw [hl] at h; cases h
          | some last =>
            rw [hl] at h
            simp only [Option.map_some] at h ⊢
            by_cases ho : orderOk false last.1 t t
            · rw [if_neg (not_not.2 ((orderOk_num _ _ _).2 ho))] at h
              rw [if_neg (not_not.2 ho)]
              split at h
              · cases h
              · next hst =>
                rw [storeIfReached_num (p := (t, x)) hst]
                refine ih ?_
                rw [← h]
                simp [numWin]
            · rw [if_pos (fun hc => ho ((orderOk_num _ _ _).1 hc))] at h
              cases h
    · rw [if_neg hi] at h ⊢
      exact h

theorem generatePaths_num {g : PGen ℚ W O σ} {step} (hna : NonAdaptive g step) {steps tt : List (UTime n)}
    {fuel : ℕ} {a r : PAcc O σ}
    (h : generatePaths g fuel (steps.map UTime.num) (tt.map UTime.num) false a = .ok r) :
    generatePaths (g.unsigned n) fuel steps tt false a = .ok r := by
  unfold generatePaths at h ⊢
  have hd : (g.unsigned n).depth = g.depth := rfl
  rw [List.length_map] at h
  rw [hd]
  split at h
  · cases h
  · next hlen =>
    rw [if_neg hlen]
    simp only [← List.map_take, ← List.map_drop] at h
    have hb : (g.unsigned n).begin false (steps.take (g.depth - 1)) a.s =
        g.begin false ((steps.take (g.depth - 1)).map UTime.num) a.s := rfl
    simp only [hb]
    cases hbg : g.begin false ((steps.take (g.depth - 1)).map UTime.num) a.s with
    | error e => rw [hbg] at h; cases h
    | ok y =>
      obtain ⟨xw, s⟩ := y
      rw [hbg] at h
      simp only at h ⊢
      have hw : List.mapIdx (fun k t => (t, xw k)) ((steps.take (g.depth - 1)).map UTime.num) =
          numWin (List.mapIdx (fun k t => (t, xw k)) (steps.take (g.depth - 1))) := by
        unfold numWin
        apply List.ext_getElem?
        intro k
        simp only [List.getElem?_mapIdx, List.getElem?_map]
        cases (steps.take (g.depth - 1))[k]? <;> rfl
      rw [hw] at h
      split at h
      · cases h
      · next hsw =>
        rw [storeWindow_num hsw]
        simp only [numWin_last] at h ⊢
        cases hl : (List.mapIdx (fun k t => (t, xw k)) (steps.take (g.depth - 1))).getLast? with
        | none => rw [hl] at h; cases h
        | some last =>
          rw [hl] at h
          simp only [Option.map_some] at h ⊢
          split at h
          · cases h
          · next hm =>
            rw [mainLoop_num hna hm]
            exact h

theorem npUnique_num (l : List (UTime n)) : npUnique (l.map UTime.num) = (npUnique l).map UTime.num := by
  unfold npUnique
  rw [← List.map_insertionSort (r := (· ≤ ·)) (s := (· ≤ ·)) UTime.num l
    (fun a _ b _ => UTime.num_le.symm), List.dedup_map_of_injective (fun a b h => UTime.num_inj.1 h)]

/-- The points requested, rounded down to whole numbers; for a number of points, those between `a` and `b`. -/
def Spec.wholeSteps (a b : ℚ) : Steps ℚ → Steps ℚ
  | .none => .none
  | .int k => .iter ((Linspace.linspace a b k.toNat).map fun q => (⌊q⌋ : ℚ))
  | .iter l => .iter (l.map fun q => (⌊q⌋ : ℚ))

theorem map_trunc (l : List ℚ) :
    (l.map (UTime.trunc (n := n))).map UTime.num = l.map fun q => (⌊q⌋ : ℚ) := by
  rw [List.map_map]
  rfl

theorem stepsTT_num {steps : Steps ℚ} (hst : ∀ k : ℤ, steps = .int k → 0 ≤ k) {tt : List (UTime n)}
    {a b : UTime n} (ha : tt.head? = some a) (hb : tt.getLast? = some b) :
    stepsTT (wholeSteps a.num b.num steps) (tt.map UTime.num) =
      match stepsTT (steps.unsigned n) tt with
      | .error e => .error e
      | .ok g => .ok (g.map UTime.num) := by
  unfold stepsTT
  have hha : (tt.map UTime.num).head? = some a.num := by simp [ha]
  have hhb : (tt.map UTime.num).getLast? = some b.num := by simp [hb]
  rw [hha, hhb, ha, hb]
  simp only
  have key : ∀ l : List (UTime n),
      npUnique (((l.map UTime.num).filter fun t => a.num ≤ t ∧ t ≤ b.num) ++ tt.map UTime.num) =
        (npUnique ((l.filter fun t => a ≤ t ∧ t ≤ b) ++ tt)).map UTime.num := by
    intro l
    rw [← npUnique_num, List.map_append, List.filter_map]
    congr 3
    refine List.filter_congr fun t _ => ?_
    simp only [Function.comp_apply, UTime.num_le]
  unfold pace
  rw [List.length_map]
  by_cases h1 : tt.length = 1
  · rw [if_pos h1, if_pos h1]
    simp only [key]
  · rw [if_neg h1, if_neg h1]
    cases steps with
    | none =>
      simp only [wholeSteps, Steps.unsigned]
      have := key []
      simp only [List.map_nil] at this
      rw [this]
    | int k =>
      have hk := hst k rfl
      simp only [wholeSteps, Steps.unsigned, ha, hb, npLinspace, if_neg (not_lt.2 hk)]
      rw [← map_trunc (n := n)]
      exact congrArg Except.ok (key _)
    | iter l =>
      simp only [wholeSteps, Steps.unsigned]
      rw [← map_trunc (n := n), key]

/-- **C99** (partial). What a forward integration along a timeline of unsigned integers computes: the result is that
of the same timeline as numbers, with the points that have been requested rounded down to whole numbers. Missing:
that it is the result with the points requested, which is false in general, see `C99_false`; and backward
integrations, see `C99_backward_false`. -/
theorem C99_forward_partial (g : PGen ℚ W O σ) (step) (hna : NonAdaptive g step) (fuel : ℕ) (steps : Steps ℚ)
    (hst : ∀ k : ℤ, steps = .int k → 0 ≤ k) {tl : List ℕ} {a b : ℕ} (ha : tl.head? = some a)
    (hb : tl.getLast? = some b) (s : σ) {r : CallResult ℚ O σ}
    (h : callSigned g fuel (wholeSteps a b steps) 0 (tl.map fun t : ℕ => (t : ℤ)) s = .ok r) :
    ∃ r', callUnsigned n g fuel steps 0 tl s = .ok r' ∧ r'.xx = r.xx ∧ r'.s = r.s ∧
      r'.computed = r.computed ∧ r'.stored = r.stored := by
  set tt : List (UTime n) := tl.map fun t : ℕ => ⟨t⟩ with htt
  have hnum : ((tl.map fun t : ℕ => (t : ℤ)).map fun t : ℤ => (t : ℚ)) = tt.map UTime.num := by
    simp [htt, UTime.num]
  have hha : tt.head? = some ⟨a⟩ := by simp [htt, ha]
  have hhb : tt.getLast? = some ⟨b⟩ := by simp [htt, hb]
  have hna' : (a : ℚ) = UTime.num (⟨a⟩ : UTime n) := by simp [UTime.num]
  have hnb' : (b : ℚ) = UTime.num (⟨b⟩ : UTime n) := by simp [UTime.num]
  have hlen : tt.length = tl.length := by simp [htt]
  unfold callSigned callPG at h
  unfold callUnsigned callPG
  rw [hnum, List.length_map, hna', hnb'] at h
  simp only [List.length_map, ← hlen] at h
  simp only [← htt, ← hlen]
  have hd : (g.unsigned n).depth = g.depth := rfl
  rw [hd]
  split at h
  · cases h
  · next hK =>
    rw [if_neg hK]
    simp only [ne_eq, not_true_eq_false, if_false] at h ⊢
    by_cases hu : tt = npUnique tt
    · rw [if_neg (not_not.2 (by rw [npUnique_num, ← hu]))] at h
      rw [if_neg (not_not.2 hu)]
      split at h
      · cases h
      · next i hi =>
        simp only [stepsTT_num hst hha hhb] at h
        cases hS : stepsTT (steps.unsigned n) tt with
        | error e => rw [hS] at h; cases h
        | ok st =>
          rw [hS] at h
          simp only [List.length_map] at h ⊢
          split at h
          · cases h
          · next hl =>
            rw [if_neg hl]
            simp only [List.getElem?_map, List.head?_map, List.getLast?_map, hha, hhb, Option.map_some] at h ⊢
            cases h0 : tt[i]? with
            | none => rw [h0] at h; cases h
            | some t0 =>
              rw [h0] at h
              simp only [Option.map_some, backPass, ne_eq, not_true_eq_false, if_false] at h ⊢
              have hj : (st.map UTime.num).idxOf t0.num = st.idxOf t0 := by
                clear h hS hl
                induction st with
                | nil => rfl
                | cons c st ih =>
                  simp only [List.map_cons, List.idxOf_cons, ih]
                  by_cases hc : c = t0
                  · subst hc; simp
                  · have : c.num ≠ t0.num := fun hh => hc (UTime.num_inj.1 hh)
                    rw [beq_false_of_ne hc, beq_false_of_ne this]
              rw [hj] at h
              simp only [forwPass, true_or, if_true, ← List.map_drop] at h ⊢
              split at h
              · cases h
              · next hf =>
                split at hf
                · cases hf
                · next hg =>
                  rw [generatePaths_num hna hg]
                  simp only [Except.ok.injEq] at hf h ⊢
                  subst hf
                  subst h
                  exact ⟨_, rfl, rfl, rfl, rfl, rfl⟩
    · rw [if_pos (fun hc => hu (by
        rw [npUnique_num] at hc
        exact (List.map_injective_iff.2 fun a b h => UTime.num_inj.1 h) hc))] at h
      cases h

/-- **C99** (no truncation). If the points requested, if any, are whole numbers, a forward integration along a timeline
of unsigned integers has the same result as along the timeline of the same numbers. -/
theorem C99_whole (g : PGen ℚ W O σ) (step) (hna : NonAdaptive g step) (fuel : ℕ) (l : Option (List ℤ))
    {tl : List ℕ} (hne : tl ≠ []) (s : σ) {r : CallResult ℚ O σ} {steps : Steps ℚ}
    (hl : steps = match l with | none => .none | some l => .iter (l.map fun k : ℤ => (k : ℚ)))
    (h : callSigned g fuel steps 0 (tl.map fun t : ℕ => (t : ℤ)) s = .ok r) :
    ∃ r', callUnsigned n g fuel steps 0 tl s = .ok r' ∧ r'.xx = r.xx ∧ r'.s = r.s ∧
      r'.computed = r.computed ∧ r'.stored = r.stored := by
  obtain ⟨b, hb⟩ : ∃ b, tl.getLast? = some b := ⟨_, List.getLast?_eq_some_getLast hne⟩
  obtain ⟨a, ha⟩ : ∃ a, tl.head? = some a := by
    cases tl with
    | nil => exact absurd rfl hne
    | cons c l => exact ⟨c, rfl⟩
  refine C99_forward_partial g step hna fuel steps ?_ ha hb s ?_
  · intro k hk
    cases l <;> simp_all
  · have : wholeSteps a b steps = steps := by
      subst hl
      cases l with
      | none => rfl
      | some l =>
        simp only [wholeSteps, List.map_map]
        exact congrArg Steps.iter (List.map_congr_left fun k _ => by
          show ((⌊(k : ℚ)⌋ : ℤ) : ℚ) = k
          rw [Int.floor_intCast])
    rw [this]
    exact h

/-- **C99**, the negation. Along the timeline `0, 1` of unsigned integers, with `steps=5`, a single step is taken,
instead of four along the same timeline of signed integers, and the result is another one. -/
theorem C99_false : ∃ (g : PGen ℚ ℚ ℚ ℕ) (r : CallResult ℚ ℚ ℕ) (r' : CallResult (UTime 8) ℚ ℕ),
    callSigned g 20 (.int 5) 0 [0, 1] 0 = .ok r ∧ callUnsigned 8 g 20 (.int 5) 0 [0, 1] 0 = .ok r' ∧
    r.computed = 4 ∧ r'.computed = 1 ∧ r.xx ≠ r'.xx := by
  have h1 : ((callSigned exGen 20 (.int 5) 0 [0, 1] 0).toOption.map fun r => (r.xx, r.computed)) =
      some ([some 10, some (25 / 2)], 4) := by decide +kernel
  have h2 : ((callUnsigned 8 exGen 20 (.int 5) 0 [0, 1] 0).toOption.map fun r => (r.xx, r.computed)) =
      some ([some 10, some 11], 1) := by decide +kernel
  cases e1 : callSigned exGen 20 (.int 5) 0 [0, 1] 0 with
  | error e => rw [e1] at h1; cases h1
  | ok r =>
    cases e2 : callUnsigned 8 exGen 20 (.int 5) 0 [0, 1] 0 with
    | error e => rw [e2] at h2; cases h2
    | ok r' =>
      rw [e1] at h1
      rw [e2] at h2
      simp only [Except.toOption, Option.map_some, Option.some.injEq, Prod.mk.injEq] at h1 h2
      refine ⟨exGen, r, r', e1, e2, h1.2, h2.2, ?_⟩
      rw [h1.1, h2.1]
      decide +kernel

/-- **C99**, the negation, backwards. From the last point of the timeline `0, 4` of unsigned integers, through
`2`, the integration raises `RuntimeError`, as the check at line 380 is on a difference that has wrapped around. -/
theorem C99_backward_false : ∃ (g : PGen ℚ ℚ ℚ ℕ),
    ((callSigned g 20 (.iter [2]) (-1) [0, 4] 0).map fun r => r.xx) = .ok [some 12, some 10] ∧
    ((callUnsigned 8 g 20 (.iter [2]) (-1) [0, 4] 0).map fun r => r.xx) = .error .runtimeError :=
  ⟨exGen, by decide +kernel, by decide +kernel⟩

theorem exists_ok {α : Type} {x : Py α} (h : x.toOption.isSome) : ∃ r, x = .ok r := by
  cases x with
  | error e => cases h
  | ok r => exact ⟨r, rfl⟩

example := C99_forward_partial (n := 16) exGen exStep exGen_nonAdaptive 20 (.int 4) (by simp) (tl := [0, 2])
  (a := 0) (b := 2) rfl rfl 0 (exists_ok (x := callSigned exGen 20 (Spec.wholeSteps (0 : ℕ) (2 : ℕ) (.int 4)) 0
    ([0, 2].map fun t : ℕ => (t : ℤ)) 0) (by decide +kernel)).choose_spec
example : ((callSigned exGen 20 (Spec.wholeSteps 0 2 (.int 4)) 0 [0, 2] 0).map fun r => r.xx) =
    .ok [some 10, some 13] := by decide +kernel
example := C99_whole (n := 16) exGen exStep exGen_nonAdaptive 20 (some [1, 3, 7]) (tl := [0, 2, 5]) (by simp) 0 rfl
  (exists_ok (x := callSigned exGen 20 (.iter ([1, 3, 7].map fun k : ℤ => (k : ℚ))) 0
    ([0, 2, 5].map fun t : ℕ => (t : ℤ)) 0) (by decide +kernel)).choose_spec
example : ((callSigned exGen 20 (.iter [1, 3, 7]) 0 [0, 2, 5] 0).map fun r => r.xx) =
    .ok [some 10, some 13, some 21] := by decide +kernel

end Sdepy
