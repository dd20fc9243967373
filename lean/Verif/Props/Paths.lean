import Verif.Lemmas.PathsPure

/-!
# Properties C01, C03-C08: step by step generation of paths

`callPG g fuel steps i0 tl s` is the model of `p(timeline)` for a subclass `g` of
`paths_generator`; `fuel` bounds the iterations of the main loop (theorems state how much
is enough, or hold whenever the call returns).
-/

set_option linter.unusedSectionVars false

namespace Sdepy

open Spec

variable {T W O σ : Type} [Zero T] [One T] [Neg T] [Sub T] [Mul T]
  [LinearOrder T] [Linspace T] [SignOk T]

/-! ### Sample subclasses, for the examples -/

/-- Not adaptive: adds the step to the value, counts the calls of `next` in the state. -/
def exGen : PGen ℚ ℚ ℚ ℕ where
  depth := 2
  begin _ _ s := .ok (fun _ => 10, s)
  next _ win t s := .ok ((t, (win.getLast?.elim 0 Prod.snd) + t), s + 1)
  store _ _ x s := .ok (x, s)
  fin s := .ok s

/-- The `step` function of `exGen`. -/
def exStep : Bool → List (ℚ × ℚ) → ℚ → ℕ → Py (ℚ × ℕ) :=
  fun _ win t s => .ok ((win.getLast?.elim 0 Prod.snd) + t, s + 1)

/-- Adaptive: first goes half way to the target if it is further than 1 away. -/
def exAdapt : PGen ℚ ℚ ℚ ℕ where
  depth := 2
  begin _ _ s := .ok (fun _ => 0, s)
  next _ win t s :=
    let p := win.getLast?.getD (0, 0)
    let t' := if t - p.1 > 1 ∨ p.1 - t > 1 then (p.1 + t) / 2 else t
    .ok ((t', p.2 + (t' - p.1) * (t' - p.1)), s + 1)
  store _ _ x s := .ok (x, s)
  fin s := .ok s

/-- Outputs of a call, if it returns. -/
def outs (r : Py (CallResult T O σ)) : Option (List (Option O)) :=
  match r with
  | .ok r => some r.xx
  | .error _ => none

/-- Exception raised by a call, if any. -/
def exc {α : Type} (r : Py α) : Option PyErr :=
  match r with
  | .ok _ => none
  | .error e => some e

theorem exGen_nonAdaptive : NonAdaptive exGen exStep := fun _ _ _ _ => rfl

theorem exGen_pure : PureStore exGen (fun _ x => x) := fun _ _ _ _ => rfl

/-! ### C01 -/

/-- The record of events kept by `logged` does not alter results. -/
theorem logged_same (g : PGen T W O σ) (fuel : ℕ) (steps : Steps T) (i0 : ℤ) (tl : TArr T) (s : σ)
    {r : CallResult T O σ} (h : callPG g fuel steps i0 tl s = .ok r) :
    ∃ L, callPG (logged g) fuel steps i0 tl (s, []) =
      .ok ⟨r.xx, (r.s, L), r.t0, r.tmin, r.tmax, r.computed, r.stored⟩ := by
  have hs : Sim (RW := fun a b : W => a = b) (RO := fun a b : O => a = b)
      (Rs := fun (a : σ) (b : σ × List (Event T W O)) => a = b.1) g (logged g) := by
    refine ⟨rfl, ?_, ?_, ?_, ?_⟩
    · rintro rev sw s1 s2 rfl
      simp only [logged]
      cases g.begin rev sw s2.1 with
      | error e => rfl
      | ok r => exact ⟨fun _ => rfl, rfl⟩
    · rintro rev w1 w2 t s1 s2 hw rfl
      have : w1 = w2 := by
        have : List.Forall₂ (fun p q : T × W => p = q) w1 w2 :=
          List.Forall₂.imp (fun a b h => Prod.ext h.1 h.2) hw
        simpa using this
      subst this
      simp only [logged]
      cases g.next rev w1 t s2.1 with
      | error e => rfl
      | ok r => exact ⟨⟨rfl, rfl⟩, rfl⟩
    · rintro i t x1 x2 s1 s2 rfl rfl
      simp only [logged]
      cases g.store i t x1 s2.1 with
      | error e => rfl
      | ok r => exact ⟨rfl, rfl⟩
    · rintro s1 s2 rfl
      simp only [logged]
      cases g.fin s2.1 with
      | error e => rfl
      | ok r => rfl
  have := callPG_sim hs fuel steps i0 tl (s₁ := s) (s₂ := (s, [])) rfl
  rw [h] at this
  rcases PyRel.elim this with ⟨e, e1, e2⟩ | ⟨a, b, e1, e2, h1, h2, h3, h4, h5, h6, h7⟩
  · simp at e1
  · simp only [Except.ok.injEq] at e1
    subst e1
    refine ⟨b.s.2, ?_⟩
    rw [e2]
    have hxx : r.xx = b.xx := by
      have : List.Forall₂ (fun p q : Option O => p = q) r.xx b.xx := by
        apply List.Forall₂.imp _ h1
        intro a b h
        cases h <;> simp_all
      simpa using this
    cases b
    simp_all

/-- **C01.** Whatever the subclass does, when `p(timeline)` returns, every slot of the output
holds what a `store` call wrote for it when the working time was exactly the requested one.
`LB`, `LF` are the events of the backward and of the forward pass: in each, slots are filled
in order, once each, and every event satisfies `EventOk` (`next` is served the last visited
points, moves ahead without passing its target, ...). -/
theorem C01_outputs_at_requested_times (g : PGen T W O σ) (fuel : ℕ) (steps : Steps T) (i0 : ℤ)
    (tl : TArr T) (s : σ) {r : CallResult T O σ} (h : callPG g fuel steps i0 tl s = .ok r) :
    ∃ (i : ℕ) (t0 : T) (grid : List T) (LB LF : List (Event T W O)),
      Designates tl.data.length i0 i ∧ tl.data[i]? = some t0 ∧ IsGrid steps tl.data grid ∧
      -- these are the events of this very call
      callPG (logged g) fuel steps i0 tl (s, []) =
        .ok ⟨r.xx, (r.s, LB ++ LF), r.t0, r.tmin, r.tmax, r.computed, r.stored⟩ ∧
      -- one output for each point of the timeline, stored at exactly that time
      r.xx.length = tl.data.length ∧
      (∀ (j : ℕ) (t : T), tl.data[j]? = some t → ∃ o k x, r.xx[j]? = some (some o) ∧
        Event.stored k t x o ∈ LB ++ LF ∧ (t, x) ∈ visited (LB ++ LF)) ∧
      -- times are stored once in each direction, in order, going away from timeline[i0]
      (storedEvents LB).map (fun e => e.2.1) =
        (if i0 ≠ 0 then (tl.data.filter (· ≤ t0)).reverse else []) ∧
      (storedEvents LF).map (fun e => e.2.1) =
        (if Forw tl.data.length i0 then tl.data.filter (t0 ≤ ·) else []) ∧
      -- events follow the protocol
      TraceOk g true (grid.filter (· ≤ t0)).reverse (tl.data.filter (· ≤ t0)).reverse LB ∧
      TraceOk g false (grid.filter (t0 ≤ ·)) (tl.data.filter (t0 ≤ ·)) LF ∧
      -- and every point of the grid is touched
      (∀ t ∈ grid, t ∈ (visited (LB ++ LF)).map Prod.fst) := by
  obtain ⟨L, hL⟩ := logged_same g fuel steps i0 tl s h
  obtain ⟨hK, hv, i, grid, t0, hi, hgr, h0, ht0, LB, LF, osB, osF, hLL, hB, hF, hxx⟩ :=
    callPG_trace g fuel steps i0 tl s hL
  simp only at hLL hxx
  subst hLL
  have hil := hi.1
  have hln1 : (tl.data.filter (· ≤ t0)).length = i + 1 := by
    rw [← filter_le_of_sorted hv.2 h0, List.length_take]; omega
  have hln2 : (tl.data.filter (t0 ≤ ·)).length = tl.data.length - i := by
    rw [← filter_ge_of_sorted hv.2 h0, List.length_drop]
  have henum : ∀ (ts : List T) (os : List O), os.length = ts.length →
      (enumOut ts os).map (fun e => e.2.1) = ts := by
    intro ts os hlen
    apply List.ext_getElem
    · simp [enumOut, hlen]
    · intro k h1 h2; simp [enumOut]
  have hstored : ∀ (L : List (Event T W O)) (e : ℕ × T × O), e ∈ storedEvents L →
      ∃ x, Event.stored e.1 e.2.1 x e.2.2 ∈ L := by
    intro L
    induction L with
    | nil => simp [storedEvents]
    | cons ev L ihL =>
      intro o ho
      cases ev with
      | begun w =>
        obtain ⟨x, hx⟩ := ihL o (by simpa [storedEvents] using ho)
        exact ⟨x, by simp [hx]⟩
      | stepped w tg p =>
        obtain ⟨x, hx⟩ := ihL o (by simpa [storedEvents] using ho)
        exact ⟨x, by simp [hx]⟩
      | stored i t x o' =>
        simp only [storedEvents, List.mem_cons] at ho
        rcases ho with ho | ho
        · exact ⟨x, by simp [ho]⟩
        · obtain ⟨x, hx⟩ := ihL o ho
          exact ⟨x, by simp [hx]⟩
  have hvis : ∀ {rev : Bool} {st tt : List T} {L : List (Event T W O)} {k t x o},
      TraceOk g rev st tt L → Event.stored k t x o ∈ L → (t, x) ∈ visited L := by
    intro rev st tt L k t x o hT hm
    obtain ⟨pre, post, hpp⟩ := List.append_of_mem hm
    have := (hT pre _ post hpp).2.2.1
    rw [hpp, visited_append]
    exact List.mem_append_left _ this
  have hTB : TraceOk g true (grid.filter (· ≤ t0)).reverse (tl.data.filter (· ≤ t0)).reverse LB := by
    split at hB
    · exact hB.2.2.1
    · rw [hB.1]; exact TraceOk.nil
  have hTF : TraceOk g false (grid.filter (t0 ≤ ·)) (tl.data.filter (t0 ≤ ·)) LF := by
    split at hF
    · exact hF.2.2.1
    · rw [hF.1]; exact TraceOk.nil
  have hnF : ¬ Forw tl.data.length i0 → i0 ≠ 0 ∧ tl.data.length = i + 1 := by
    intro hc
    have h2 := hi.2
    unfold Forw at hc
    omega
  have hn0 : ¬ i0 ≠ 0 → i = 0 := by have h2 := hi.2; omega
  -- backward outputs, by position
  have hposB : i0 ≠ 0 → ∀ j (hj : j < i + 1) o, osB[i - j]? = some o → ∀ t, tl.data[j]? = some t →
      ∃ k x, Event.stored k t x o ∈ LB := by
    intro hz j hj o ho t ht
    rw [if_pos hz] at hB
    have hm : (i - j, t, o) ∈ storedEvents LB := by
      rw [hB.1, List.mem_iff_getElem?]
      refine ⟨i - j, ?_⟩
      have h1 : ((tl.data.filter (· ≤ t0)).reverse)[i - j]? = some t := by
        rw [← filter_le_of_sorted hv.2 h0, List.getElem?_reverse (by simp; omega)]
        rw [List.length_take, List.getElem?_take, if_pos (by omega)]
        rw [← ht]; congr 1; omega
      simp [enumOut, List.getElem?_mapIdx, List.getElem?_zip_eq_some, h1, ho]
    obtain ⟨x, hx⟩ := hstored LB _ hm
    exact ⟨_, x, hx⟩
  have hposF : Forw tl.data.length i0 → ∀ j (hj : i ≤ j) o, osF[j - i]? = some o →
      ∀ t, tl.data[j]? = some t → ∃ k x, Event.stored k t x o ∈ LF := by
    intro hz j hj o ho t ht
    rw [if_pos hz] at hF
    have hm : (j - i, t, o) ∈ storedEvents LF := by
      rw [hF.1, List.mem_iff_getElem?]
      refine ⟨j - i, ?_⟩
      have h1 : (tl.data.filter (t0 ≤ ·))[j - i]? = some t := by
        rw [← filter_ge_of_sorted hv.2 h0, List.getElem?_drop, ← ht]; congr 1; omega
      simp [enumOut, List.getElem?_mapIdx, List.getElem?_zip_eq_some, h1, ho]
    obtain ⟨x, hx⟩ := hstored LF _ hm
    exact ⟨_, x, hx⟩
  refine ⟨i, t0, grid, LB, LF, hi, h0, hgr, hL, ?_, ?_, ?_, ?_, hTB, hTF, ?_⟩
  · rw [hxx]
    by_cases hF0 : Forw tl.data.length i0
    · rw [if_pos hF0] at hF ⊢
      by_cases hz : i0 ≠ 0
      · rw [if_pos hz] at hB
        simp [hF.2.1, hB.2.1]; omega
      · rw [if_neg hz] at hB
        simp [hF.2.1, hB.2, hn0 hz]
    · rw [if_neg hF0] at hF ⊢
      have := hnF hF0
      rw [if_pos this.1] at hB
      simp [hF.2, hB.2.1, this.2]
  · intro j t ht
    have hj : j < tl.data.length := by
      rw [List.getElem?_eq_some_iff] at ht; exact ht.1
    by_cases hF0 : Forw tl.data.length i0
    · rw [if_pos hF0] at hxx
      have hF' := hF
      rw [if_pos hF0] at hF'
      by_cases hji : i ≤ j
      · have hlt : j - i < osF.length := by rw [hF'.2.1]; omega
        have ho : osF[j - i]? = some osF[j - i] := List.getElem?_eq_getElem hlt
        obtain ⟨k, x, hx⟩ := hposF hF0 j hji _ ho t ht
        refine ⟨osF[j - i], k, x, ?_, List.mem_append_right _ hx, ?_⟩
        · have hlen : osB.reverse.dropLast.length = i := by
            by_cases hz : i0 ≠ 0
            · rw [if_pos hz] at hB; simp [hB.2.1]
            · rw [if_neg hz] at hB; simp [hB.2, hn0 hz]
          rw [hxx, List.map_append, List.getElem?_append_right (by simp only [List.length_map, hlen]; exact hji),
            List.length_map, hlen, List.getElem?_map, ho]
          rfl
        · rw [visited_append]
          exact List.mem_append_right _ (hvis hTF hx)
      · have hz : i0 ≠ 0 := by intro hc; have := hn0 (not_not.2 hc); omega
        have hB' := hB
        rw [if_pos hz] at hB'
        have hlt : i - j < osB.length := by rw [hB'.2.1]; omega
        have ho : osB[i - j]? = some osB[i - j] := List.getElem?_eq_getElem hlt
        obtain ⟨k, x, hx⟩ := hposB hz j (by omega) _ ho t ht
        refine ⟨osB[i - j], k, x, ?_, List.mem_append_left _ hx, ?_⟩
        · rw [hxx, List.map_append, List.getElem?_append_left (by
            simp only [List.length_map, List.length_dropLast, List.length_reverse, hB'.2.1]; omega),
            List.getElem?_map, List.getElem?_dropLast, if_pos (by simp [hB'.2.1]; omega),
            List.getElem?_reverse (by rw [hB'.2.1]; omega)]
          rw [show osB.length - 1 - j = i - j by rw [hB'.2.1]; omega, ho]
          rfl
        · rw [visited_append]
          exact List.mem_append_left _ (hvis hTB hx)
    · rw [if_neg hF0] at hxx
      have hz := hnF hF0
      rw [if_neg hF0] at hF
      have hB' := hB
      rw [if_pos hz.1] at hB'
      have hlt : i - j < osB.length := by rw [hB'.2.1]; omega
      have ho : osB[i - j]? = some osB[i - j] := List.getElem?_eq_getElem hlt
      obtain ⟨k, x, hx⟩ := hposB hz.1 j (by omega) _ ho t ht
      refine ⟨osB[i - j], k, x, ?_, List.mem_append_left _ hx, ?_⟩
      · rw [hxx, hF.2, List.append_nil,
          List.getElem?_map, List.getElem?_reverse (by rw [hB'.2.1]; omega)]
        rw [show osB.length - 1 - j = i - j by rw [hB'.2.1]; omega, ho]
        rfl
      · rw [visited_append]
        exact List.mem_append_left _ (hvis hTB hx)
  · by_cases hz : i0 ≠ 0
    · rw [if_pos hz] at hB ⊢
      rw [hB.1, henum _ _ (by rw [hB.2.1, List.length_reverse, hln1])]
    · rw [if_neg hz] at hB ⊢
      rw [hB.1]; rfl
  · by_cases hz : Forw tl.data.length i0
    · rw [if_pos hz] at hF ⊢
      rw [hF.1, henum _ _ (by rw [hF.2.1, hln2])]
    · rw [if_neg hz] at hF ⊢
      rw [hF.1]; rfl
  · intro t ht
    rw [visited_append, List.map_append]
    by_cases hF0 : Forw tl.data.length i0
    · rw [if_pos hF0] at hF
      rcases le_total t0 t with hle | hle
      · exact List.mem_append_right _ (hF.2.2.2.2 t ht hle)
      · by_cases hz : i0 ≠ 0
        · rw [if_pos hz] at hB
          exact List.mem_append_left _ (hB.2.2.2.2 t ht hle)
        · have hi0 := hn0 hz
          subst hi0
          have : t0 ≤ t := by
            have hh : grid.head? = some t0 := by
              rw [isGrid_head hv.2 hgr]
              rw [← h0]; cases tl.data <;> simp
            exact sorted_head_le hgr.1 hh ht
          exact List.mem_append_right _ (hF.2.2.2.2 t ht this)
    · have hz := hnF hF0
      rw [if_pos hz.1] at hB
      have : t ≤ t0 := by
        have hh : grid.getLast? = some t0 := by
          rw [isGrid_getLast hv.2 hgr, ← h0, List.getLast?_eq_getElem?]
          congr 1; omega
        exact sorted_getLast_ge hgr.1 hh ht
      exact List.mem_append_left _ (hB.2.2.2.2 t ht this)

/-- An adaptive subclass, started in the middle of the timeline. -/
example : outs (callPG exAdapt 100 (.iter [1, 5]) 1 ⟨[3], [0, 2, 7]⟩ 0) =
    some [some 2, some 0, some (43/8)] := by decide +kernel

end Sdepy
