import Verif.Model.Calls
import Verif.Props.PathsCall

/-!
# Property C90: repeated calls of an instance
-/

set_option linter.unusedSectionVars false

namespace Sdepy
open Spec

variable {T W O σ : Type} [Zero T] [One T] [Neg T] [Sub T] [Mul T]
  [LinearOrder T] [Linspace T] [SignOk T]

/-- A call that gets to set the points to be touched between those of the timeline: valid, with at least two
points. -/
def Spec.SetsSteps (depth : ℕ) (i0 : ℤ) (tl : TArr T) : Prop :=
  2 ≤ depth ∧ ValidTimeline tl ∧ (∃ i, Designates tl.data.length i0 i) ∧ 2 ≤ tl.data.length

theorem after_plain (st : Steps T) (depth : ℕ) (i0 : ℤ) (tl : TArr T) :
    (StepsArg.plain st).after depth i0 tl = .plain st := by
  have h : ∀ tt : List T, (StepsArg.plain st).paced tt = .plain st := fun tt => by
    unfold StepsArg.paced
    split <;> rfl
  unfold StepsArg.after
  simp only [h]
  repeat' split
  all_goals rfl

theorem after_once (l : List T) (depth : ℕ) (i0 : ℤ) (tl : TArr T) :
    (SetsSteps depth i0 tl ∧ (StepsArg.once l).after depth i0 tl = .once []) ∨
    (¬ SetsSteps depth i0 tl ∧ (StepsArg.once l).after depth i0 tl = .once l) := by
  unfold StepsArg.after
  by_cases hd : depth < 2
  · rw [if_pos hd]
    exact .inr ⟨fun h => absurd h.1 (by omega), rfl⟩
  rw [if_neg hd]
  by_cases hs : tl.shape = [tl.data.length]
  · rw [if_neg (not_not.2 hs)]
    by_cases hu : tl.data = npUnique tl.data
    · rw [if_neg (not_not.2 hu)]
      cases hi : pyIndex tl.data.length i0 with
      | none => exact .inr ⟨fun h => (pyIndex_eq_none _ _).1 hi h.2.2.1, rfl⟩
      | some i =>
        have hi' := (pyIndex_eq_some _ _ _).1 hi
        simp only [StepsArg.paced]
        by_cases h1 : tl.data.length = 1
        · rw [if_pos h1]
          exact .inr ⟨fun h => absurd h.2.2.2 (by omega), rfl⟩
        · rw [if_neg h1]
          refine .inl ⟨⟨by omega, ⟨hs, (eq_npUnique_iff _).1 hu⟩, ⟨i, hi'⟩, ?_⟩, rfl⟩
          have := hi'.1
          omega
    · rw [if_pos hu]
      exact .inr ⟨fun h => hu ((eq_npUnique_iff _).2 h.2.1.2), rfl⟩
  · rw [if_pos hs]
    exact .inr ⟨fun h => hs h.2.1.1, rfl⟩

theorem stepsTT_nil (tt : List T) : stepsTT (.iter []) tt = stepsTT .none tt := by
  unfold stepsTT pace
  rfl

theorem callPG_nil (g : PGen T W O σ) (fuel : ℕ) (i0 : ℤ) (tl : TArr T) (s : σ) :
    callPG g fuel (.iter []) i0 tl s = callPG g fuel .none i0 tl s := by
  unfold callPG
  simp only [stepsTT_nil]

/-- **C90** (one point). With a timeline of one point, `steps` is of no effect. -/
theorem C90_one_point (g : PGen T W O σ) (fuel : ℕ) (st st' : Steps T) (i0 : ℤ) (tl : TArr T) (s : σ)
    (h1 : tl.data.length = 1) : callPG g fuel st i0 tl s = callPG g fuel st' i0 tl s := by
  have : stepsTT st tl.data = stepsTT st' tl.data := by
    unfold stepsTT pace
    simp only [h1, if_true]
  unfold callPG
  simp only [this]

/-- **C90** (partial: not for iterators). If `steps` is `None`, an integer or an iterable that is not consumed,
results of calls of the same instance are, each of them, those of a new instance called once. -/
theorem C90_repeated_partial (g : PGen T W O σ) (fuel : ℕ) (i0 : ℤ) (st : Steps T) (cs : List (TArr T × σ)) :
    (callsObj g fuel i0 (.plain st) cs).1 = cs.map fun c => callPG g fuel st i0 c.1 c.2 := by
  induction cs with
  | nil => rfl
  | cons c cs ih =>
    obtain ⟨tl, s⟩ := c
    simp only [callsObj, after_plain, ih, StepsArg.now, List.map_cons]

/-- **C90** (iterators). If `steps` is an iterator, its points are touched by calls up to the first one that is valid
and has at least two points on its timeline, included; after that one, calls are as with `steps` set to
`None`. -/
theorem C90_iterator (g : PGen T W O σ) (fuel : ℕ) (i0 : ℤ) (l : List T) (cs : List (TArr T × σ)) (k : ℕ)
    (tl : TArr T) (s : σ) (hk : cs[k]? = some (tl, s)) :
    ((∀ j c, j < k → cs[j]? = some c → ¬ SetsSteps g.depth i0 c.1) →
      (callsObj g fuel i0 (.once l) cs).1[k]? = some (callPG g fuel (.iter l) i0 tl s)) ∧
    ((∃ j c, j < k ∧ cs[j]? = some c ∧ SetsSteps g.depth i0 c.1) →
      (callsObj g fuel i0 (.once l) cs).1[k]? = some (callPG g fuel .none i0 tl s)) := by
  induction cs generalizing l k with
  | nil => simp at hk
  | cons c cs ih =>
    obtain ⟨tl', s'⟩ := c
    cases k with
    | zero =>
      obtain ⟨rfl, rfl⟩ : tl' = tl ∧ s' = s := by simpa using hk
      exact ⟨fun _ => rfl, fun ⟨j, _, hj, _⟩ => absurd hj (by omega)⟩
    | succ k =>
      rw [List.getElem?_cons_succ] at hk
      simp only [callsObj, List.getElem?_cons_succ]
      rcases after_once l g.depth i0 tl' with ⟨h1, h2⟩ | ⟨h1, h2⟩
      · rw [h2]
        refine ⟨fun h => absurd h1 (h 0 _ (by omega) rfl), fun _ => ?_⟩
        by_cases hc : ∃ j c, j < k ∧ cs[j]? = some c ∧ SetsSteps g.depth i0 c.1
        · exact (ih [] k hk).2 hc
        · push Not at hc
          rw [(ih [] k hk).1 hc, callPG_nil]
      · rw [h2]
        refine ⟨fun h => (ih l k hk).1 fun j c hj hc => h (j + 1) c (by omega) hc, ?_⟩
        rintro ⟨j, c, hj, hc, hs⟩
        cases j with
        | zero =>
          obtain rfl : (tl', s') = c := by simpa using hc
          exact absurd hs h1
        | succ j => exact (ih l k hk).2 ⟨j, c, by omega, hc, hs⟩

/-- **C90**, the negation for iterators: an instance with `steps` an iterator yielding 2 and 3 is called twice along
the timeline 1, 4; the first time it takes three steps, the second time one step, with a different
result. -/
theorem C90_false :
    let r := (callsObj exGen 10 0 (.once [2, 3]) [(⟨[2], [1, 4]⟩, 0), (⟨[2], [1, 4]⟩, 0)]).1
    r.map outs = [some [some 10, some 19], some [some 10, some 14]] ∧
    r.map (fun c => c.toOption.map (·.computed)) = [some 3, some 1] := by
  decide +kernel

/-- Calls that raise, or along one point, do not consume the iterator. -/
example : SetsSteps exGen.depth 0 (⟨[2], [1, 4]⟩ : TArr ℚ) ∧ ¬ SetsSteps exGen.depth 0 (⟨[1], [1]⟩ : TArr ℚ) ∧
    ¬ SetsSteps exGen.depth 0 (⟨[2], [1, 1]⟩ : TArr ℚ) :=
  ⟨⟨by decide, ⟨rfl, by decide +kernel⟩, ⟨0, by unfold Designates; simp⟩, by decide⟩, fun h => absurd h.2.2.2 (by decide),
    fun h => absurd h.2.1.2 (by decide +kernel)⟩

example := C90_iterator exGen 10 0 [2, 3] [(⟨[1], [1]⟩, 0), (⟨[2], [1, 4]⟩, 0), (⟨[3], [0, 2, 5]⟩, 0)] 2 _ _ rfl
example := C90_one_point exGen 10 (.iter [2]) (.int 5) 0 ⟨[1], [3]⟩ 0 rfl

end Sdepy
