import Verif.Spec.PathsGenerator
import Mathlib.Tactic.Linarith

set_option linter.unusedSectionVars false
set_option linter.unusedSimpArgs false

namespace Sdepy

open Spec

/-- In exact arithmetic signs are right. -/
instance {T : Type} [Field T] [LinearOrder T] [IsStrictOrderedRing T] : SignOk T where
  fwd a b := by simp
  bwd a b := by simp

variable {T W O σ : Type} [Zero T] [One T] [Neg T] [Sub T] [Mul T]
  [LinearOrder T] [Linspace T] [SignOk T]

theorem beyond_iff (rev : Bool) (u t : T) :
    (u - t) * (if rev then -1 else 1) < 0 ↔ Before rev u t := by
  cases rev
  · simpa [Before] using SignOk.fwd u t
  · simpa [Before] using SignOk.bwd u t

theorem Spec.Before.irrefl {rev : Bool} {a : T} (h : Before rev a a) : False := by
  cases rev <;> simp [Before] at h

theorem Spec.Before.asymm {rev : Bool} {a b : T} (h : Before rev a b) (h' : Before rev b a) :
    False := by
  cases rev <;> simp [Before] at h h' <;> exact absurd h (not_lt.mpr h'.le)

theorem Spec.Before.trans {rev : Bool} {a b c : T} (h : Before rev a b) (h' : Before rev b c) :
    Before rev a c := by
  cases rev <;> simp [Before] at h h' ⊢
  · exact h.trans h'
  · exact h'.trans h

theorem Spec.Before.ne {rev : Bool} {a b : T} (h : Before rev a b) : a ≠ b := by
  rintro rfl; exact h.irrefl

theorem Spec.Before.total (rev : Bool) {a b : T} (h : a ≠ b) : Before rev a b ∨ Before rev b a := by
  cases rev
  · exact lt_or_gt_of_ne h
  · exact (lt_or_gt_of_ne h).symm

theorem orderOk_target_iff (rev : Bool) (a b : T) : orderOk rev a b b ↔ Before rev a b := by
  cases rev <;> simp [Before, orderOk]

/-- `storeIfReached` when the point has not gone past the next requested time. -/
theorem storeIfReached_of_mem (g : PGen T W O σ) (rev : Bool) (done todo : List T) (u : T)
    (x : W) (xx : List (Option O)) (s : σ) :
    storeIfReached g rev (done ++ u :: todo) done.length (u, x) xx s =
      (do let (o, s) ← g.store done.length u x s
          pure (xx.set done.length (some o), 1, s)) := by
  have h0 : ¬ (u - u) * (if rev then -1 else 1) < 0 := by
    rw [beyond_iff]; exact fun h => h.irrefl
  simp only [storeIfReached, List.getElem?_append_right (le_refl _), Nat.sub_self,
    List.getElem?_cons_zero, h0, if_false, if_true]
  cases h : g.store done.length u x s with
  | error e => rfl
  | ok r => rfl

theorem storeIfReached_of_before (g : PGen T W O σ) (rev : Bool) (done todo : List T) (u t : T)
    (x : W) (xx : List (Option O)) (s : σ) (h : Before rev t u) :
    storeIfReached g rev (done ++ u :: todo) done.length (t, x) xx s = .ok (xx, 0, s) := by
  have h1 : ¬ (u - t) * (if rev then -1 else 1) < 0 := by
    rw [beyond_iff]; exact fun h' => h.asymm h'
  simp only [storeIfReached, List.getElem?_append_right (le_refl _), Nat.sub_self,
    List.getElem?_cons_zero, h1, if_false, if_neg h.ne.symm]

theorem set_middle (os : List O) (r : Option O) (rest : List (Option O)) (o : O) :
    (os.map some ++ r :: rest).set os.length (some o) =
      (os ++ [o]).map some ++ rest := by
  rw [List.set_append_right _ _ (by simp)]
  simp

/-- The main loop, for a non adaptive `next`, is the scheme of the specification. -/
theorem mainLoop_eq (g : PGen T W O σ) (step) (hna : NonAdaptive g step) (rev : Bool) :
    ∀ (st : List T) (fuel : ℕ) (done todo : List T) (win : List (T × W)) (last : T × W)
      (cur : T) (os : List O) (rest : List (Option O)) (s : σ) (c d : ℕ),
      rest.length = todo.length → st.length ≤ fuel → win.getLast? = some last →
      st.Pairwise (Before rev) → (∀ t ∈ st, Before rev last.1 t) →
      (∀ x ∈ done, ∀ t ∈ st, Before rev x t) →
      todo.Sublist st → st.getLast? = todo.getLast? → os.length = done.length →
      mainLoop g rev (done ++ todo) fuel win st cur cur done.length
        ⟨os.map some ++ rest, s, c, d⟩ =
      (do let (os', s) ← scheme (step rev) g.store (done ++ todo) win done.length st s
          pure ⟨(os ++ os').map some, s, c + st.length, d + todo.length⟩) := by
  intro st
  induction st with
  | nil =>
    intro fuel done todo win last cur os rest s c d hrest _ _ _ _ _ hsub _ hlen
    obtain rfl : todo = [] := by simpa using hsub
    obtain rfl : rest = [] := by simpa using hrest
    cases fuel <;> simp [mainLoop, scheme]
  | cons t st ih =>
    intro fuel done todo win last cur os rest s c d hrest hf hwin hst hlast hdone hsub hgl hlen
    obtain ⟨fuel, rfl⟩ : ∃ f, fuel = f + 1 := ⟨fuel - 1, by simp at hf; omega⟩
    cases todo with
    | nil => simp at hgl
    | cons u todo =>
      have hlt : done.length < (done ++ u :: todo).length := by simp
      rw [mainLoop, if_pos hlt]
      simp only [selectTarget, if_true]
      rw [hna rev win t s]
      simp only [scheme]
      cases hs : step rev win t s with
      | error e => rfl
      | ok r =>
        obtain ⟨x, s'⟩ := r
        simp only [bind, Except.bind, pure, Except.pure, hwin]
        have hok : orderOk rev last.1 t t :=
          (orderOk_target_iff rev _ _).2 (hlast t (by simp))
        simp only [hok, not_true, if_false]
        have hst' := List.pairwise_cons.1 hst
        have hwin' : (win.tail ++ [(t, x)]).getLast? = some (t, x) := by simp
        by_cases htu : t = u
        · subst htu
          rw [storeIfReached_of_mem]
          have hmem : t ∈ done ++ t :: todo := by simp
          simp only [hmem, if_true, bind, Except.bind, pure, Except.pure]
          cases ho : g.store done.length t x s' with
          | error e => rfl
          | ok r =>
            obtain ⟨o, s''⟩ := r
            have hsub' : todo.Sublist st := by simpa using hsub
            have hgl' : st.getLast? = todo.getLast? := by
              cases st with
              | nil => simp at hsub'; simp [hsub']
              | cons a st2 =>
                cases todo with
                | nil =>
                  exfalso
                  have : (a :: st2).getLast? = some t := by simpa using hgl
                  have := List.mem_of_getLast? this
                  exact (hst'.1 t this).irrefl
                | cons b todo2 => simpa using hgl
            obtain ⟨r0, rest, rfl⟩ : ∃ r0 rest', rest = r0 :: rest' := by
              cases rest with
              | nil => simp at hrest
              | cons r0 rest => exact ⟨r0, rest, rfl⟩
            have := ih fuel (done ++ [t]) todo (win.tail ++ [(t, x)]) (t, x) t (os ++ [o]) rest s''
              (c + 1) (d + 1) (by simpa using hrest) (by simp at hf; omega) hwin' hst'.2
              (fun z hz => hst'.1 z hz)
              (by
                intro y hy z hz
                rcases List.mem_append.1 hy with hy | hy
                · exact hdone y hy z (List.mem_cons_of_mem _ hz)
                · simp at hy; subst hy; exact hst'.1 z hz)
              hsub' hgl' (by simp [hlen])
            simp only [List.length_append, List.length_cons, List.length_nil, zero_add,
              List.append_assoc, List.cons_append, List.nil_append] at this
            have e1 : (os.map some ++ r0 :: rest).set done.length
                (some o) = (os ++ [o]).map some ++ rest := by
              rw [← hlen]; exact set_middle os r0 rest o
            simp only [e1, this]
            simp only [List.length_cons, List.length_nil, zero_add, bind, Except.bind, pure,
              Except.pure]
            cases scheme (step rev) g.store (done ++ t :: todo) (win.tail ++ [(t, x)])
              (done.length + 1) st s'' with
            | error e => rfl
            | ok r =>
              simp only [List.append_assoc, List.cons_append, List.nil_append]
              congr 2 <;> omega
        · have hsub' : (u :: todo).Sublist st := by
            cases hsub with
            | cons _ h => exact h
            | cons_cons _ h => exact absurd rfl htu
          have hu : u ∈ st := hsub'.subset (by simp)
          have htu' : Before rev t u := hst'.1 u hu
          rw [storeIfReached_of_before _ _ _ _ _ _ _ _ _ htu']
          have hmem : ¬ t ∈ done ++ u :: todo := by
            intro hm
            rcases List.mem_append.1 hm with hm | hm
            · exact (hdone t hm t (by simp)).irrefl
            · exact (hst'.1 t (hsub'.subset hm)).irrefl
          simp only [hmem, if_false, bind, Except.bind, pure, Except.pure]
          have hgl' : st.getLast? = (u :: todo).getLast? := by
            cases st with
            | nil => simp at hsub'
            | cons a st2 => simpa using hgl
          have := ih fuel done (u :: todo) (win.tail ++ [(t, x)]) (t, x) t os rest s'
            (c + 1) d hrest (by simp at hf; omega) hwin' hst'.2
            (fun z hz => hst'.1 z hz)
            (fun y hy z hz => hdone y hy z (List.mem_cons_of_mem _ hz))
            hsub' hgl' hlen
          simp only [Nat.add_zero, this, List.length_nil]
          simp only [bind, Except.bind, pure, Except.pure]
          cases scheme (step rev) g.store (done ++ u :: todo) (win.tail ++ [(t, x)])
            (done.length) st s' with
          | error e => rfl
          | ok r =>
            simp only [List.length_cons, List.nil_append]
            congr 2; omega

/-- Storing of the initial window is `outputs` of the specification. -/
theorem storeWindow_eq (g : PGen T W O σ) (rev : Bool) :
    ∀ (ps : List (T × W)) (st done todo : List T),
      (ps.map Prod.fst ++ st).Pairwise (Before rev) →
      (∀ x ∈ done, ∀ t ∈ ps.map Prod.fst ++ st, Before rev x t) →
      todo.Sublist (ps.map Prod.fst ++ st) →
      (ps.map Prod.fst ++ st).getLast? = todo.getLast? →
      ∃ todo1 todo2, todo = todo1 ++ todo2 ∧ todo2.Sublist st ∧
        st.getLast? = todo2.getLast? ∧ (∀ x ∈ todo1, ∀ t ∈ st, Before rev x t) ∧
        todo1 = todo.filter (fun t => t ∈ ps.map Prod.fst) ∧
        ∀ (os : List O) (rest : List (Option O)) (s : σ), os.length = done.length →
          rest.length = todo.length →
          (storeWindow g rev (done ++ todo) ps done.length
            (os.map some ++ rest) s =
            (do let (os', s) ← outputs g.store (done ++ todo) done.length ps s
                pure ((os ++ os').map some ++ rest.drop todo1.length,
                  done.length + os'.length, s))) ∧
          ∀ os' s', outputs g.store (done ++ todo) done.length ps s = .ok (os', s') →
            os'.length = todo1.length := by
  intro ps
  induction ps with
  | nil =>
    intro st done todo _ _ hsub hgl
    refine ⟨[], todo, rfl, by simpa using hsub, by simpa using hgl, by simp, by simp, ?_⟩
    intro os rest s hlen hrest
    refine ⟨by simp [storeWindow, outputs, bind, Except.bind, pure, Except.pure], ?_⟩
    intro os' s' h
    simp [outputs] at h
    simp [h.1]
  | cons p ps ih =>
    obtain ⟨t, x⟩ := p
    intro st done todo hpw hdone hsub hgl
    simp only [List.map_cons, List.cons_append] at hpw hdone hsub hgl
    have hpw' := List.pairwise_cons.1 hpw
    cases todo with
    | nil => simp at hgl
    | cons u todo =>
      by_cases htu : t = u
      · subst htu
        have hsub' : todo.Sublist (ps.map Prod.fst ++ st) := by simpa using hsub
        have hgl' : (ps.map Prod.fst ++ st).getLast? = todo.getLast? := by
          generalize ps.map Prod.fst ++ st = l at *
          cases l with
          | nil => simp at hsub'; simp [hsub']
          | cons a l =>
            cases todo with
            | nil =>
              exfalso
              have : (a :: l).getLast? = some t := by simpa using hgl
              exact (hpw'.1 t (List.mem_of_getLast? this)).irrefl
            | cons b todo2 => simpa using hgl
        obtain ⟨todo1, todo2, h1, h2, h3, h4, hf, h5⟩ := ih st (done ++ [t]) todo hpw'.2
          (by
            intro y hy z hz
            rcases List.mem_append.1 hy with hy | hy
            · exact hdone y hy z (List.mem_cons_of_mem _ hz)
            · simp at hy; subst hy; exact hpw'.1 z hz) hsub' hgl'
        refine ⟨t :: todo1, todo2, by simp [h1], h2, h3, ?_, ?_, ?_⟩
        · intro y hy z hz
          rcases List.mem_cons.1 hy with hy | hy
          · subst hy; exact hpw'.1 z (List.mem_append_right _ hz)
          · exact h4 y hy z hz
        · simp only [List.map_cons, List.mem_cons, List.filter_cons, true_or, decide_true,
            if_true]
          rw [hf]
          congr 1
          apply List.filter_congr
          intro y hy
          have : y ≠ t := (hpw'.1 y (hsub'.subset hy)).ne.symm
          simp [this]
        · intro os rest s hlen hrest
          obtain ⟨r0, rest, rfl⟩ : ∃ r0 rest', rest = r0 :: rest' := by
            cases rest with
            | nil => simp at hrest
            | cons r0 rest => exact ⟨r0, rest, rfl⟩
          simp only [storeWindow, outputs]
          rw [storeIfReached_of_mem]
          have hmem : t ∈ done ++ t :: todo := by simp
          simp only [hmem, if_true, bind, Except.bind, pure, Except.pure]
          cases ho : g.store done.length t x s with
          | error e => simp
          | ok r =>
            obtain ⟨o, s''⟩ := r
            have h6 := h5 (os ++ [o]) rest s'' (by simp [hlen]) (by simpa using hrest)
            simp only [List.length_append, List.length_cons, List.length_nil, zero_add,
              List.append_assoc, List.cons_append, List.nil_append] at h6
            have e1 : (os.map some ++ r0 :: rest).set done.length
                (some o) = (os ++ [o]).map some ++ rest := by
              rw [← hlen]; exact set_middle os r0 rest o
            simp only [e1, h6.1]
            simp only [List.length_cons, List.length_nil, zero_add, bind, Except.bind, pure,
              Except.pure]
            have h7 := h6.2
            revert h7
            cases outputs g.store (done ++ t :: todo) (done.length + 1) ps s'' with
            | error e => simp
            | ok r =>
              intro h7
              simp only [List.append_assoc, List.cons_append, List.nil_append]
              refine ⟨?_, ?_⟩
              · simp only [List.length_cons, Except.ok.injEq, Prod.mk.injEq, true_and, and_true,
                  List.drop_succ_cons]
                omega
              · intro os' s' h
                simp at h
                have := h7 _ _ rfl
                rw [← h.1]; simp [this]
      · have hsub' : (u :: todo).Sublist (ps.map Prod.fst ++ st) := by
          cases hsub with
          | cons _ h => exact h
          | cons_cons _ h => exact absurd rfl htu
        have hu : u ∈ ps.map Prod.fst ++ st := hsub'.subset (by simp)
        have htu' : Before rev t u := hpw'.1 u hu
        have hgl' : (ps.map Prod.fst ++ st).getLast? = (u :: todo).getLast? := by
          generalize ps.map Prod.fst ++ st = l at *
          cases l with
          | nil => simp at hsub'
          | cons a st2 => simpa using hgl
        obtain ⟨todo1, todo2, h1, h2, h3, h4, hf, h5⟩ := ih st done (u :: todo) hpw'.2
          (fun y hy z hz => hdone y hy z (List.mem_cons_of_mem _ hz)) hsub' hgl'
        refine ⟨todo1, todo2, h1, h2, h3, h4, ?_, ?_⟩
        · rw [hf]
          apply List.filter_congr
          intro y hy
          have : y ≠ t := (hpw'.1 y (hsub'.subset hy)).ne.symm
          simp [this]
        · intro os rest s hlen hrest
          have h6 := h5 os rest s hlen hrest
          simp only [storeWindow, outputs]
          rw [storeIfReached_of_before _ _ _ _ _ _ _ _ _ htu']
          have hmem : ¬ t ∈ done ++ u :: todo := by
            intro hm
            rcases List.mem_append.1 hm with hm | hm
            · exact (hdone t hm t (by simp)).irrefl
            · exact (hpw'.1 t (hsub'.subset hm)).irrefl
          simp only [hmem, if_false, Nat.add_zero, h6.1, bind, Except.bind, pure, Except.pure,
            List.length_nil]
          have h7 := h6.2
          revert h7
          cases outputs g.store (done ++ u :: todo) done.length ps s with
          | error e => simp
          | ok r => simp

theorem map_fst_mapIdx (l : List T) (f : ℕ → W) :
    (l.mapIdx fun k t => (t, f k)).map Prod.fst = l := by
  apply List.ext_getElem <;> simp

/-- A whole pass, for a non adaptive `next`. -/
theorem generatePaths_eq (g : PGen T W O σ) (step) (hna : NonAdaptive g step) (rev : Bool)
    (fuel : ℕ) (steps tt : List T) (xx0 : List (Option O)) (s : σ) (c d : ℕ)
    (hxx : xx0.length = tt.length)
    (hK : 2 ≤ g.depth) (hlen : g.depth - 1 ≤ steps.length)
    (hpw : steps.Pairwise (Before rev)) (hsub : tt.Sublist steps)
    (hgl : steps.getLast? = tt.getLast?) (hfuel : steps.length ≤ fuel) :
    generatePaths g fuel steps tt rev ⟨xx0, s, c, d⟩ =
      (do let (os, s) ← pass g.depth (g.begin rev) (step rev) g.store g.fin steps tt s
          pure ⟨os.map some, s, c + (steps.length - (g.depth - 1)),
            d + (tt.filter (fun t => t ∉ steps.take (g.depth - 1))).length⟩) := by
  rw [generatePaths, if_neg (by omega)]
  simp only [pass]
  generalize hn : g.depth - 1 = n
  cases hb : g.begin rev (steps.take n) s with
  | error e => rfl
  | ok r =>
    obtain ⟨xw, s1⟩ := r
    simp only [bind, Except.bind, pure, Except.pure]
    set win := (steps.take n).mapIdx fun k t => (t, xw k) with hwin
    have hfst : win.map Prod.fst = steps.take n := map_fst_mapIdx _ _
    have hall : win.map Prod.fst ++ steps.drop n = steps := by rw [hfst]; simp
    obtain ⟨todo1, todo2, h1, h2, h3, h4, hf, h5⟩ := storeWindow_eq g rev win (steps.drop n) [] tt
      (by rw [hall]; exact hpw) (by simp) (by rw [hall]; exact hsub) (by rw [hall]; exact hgl)
    have h6 := h5 [] xx0 s1 rfl hxx
    simp only [List.length_nil, List.map_nil, List.nil_append, zero_add] at h6
    rw [h6.1]
    have h7 := h6.2
    revert h7
    cases ho : outputs g.store tt 0 win s1 with
    | error e => simp [bind, Except.bind]
    | ok r =>
      obtain ⟨os, s2⟩ := r
      intro h7
      have hos := h7 os s2 rfl
      simp only [bind, Except.bind, pure, Except.pure]
      have hne : steps.take n ≠ [] := by
        intro h
        have := congrArg List.length h
        rw [List.length_take, List.length_nil] at this; omega
      have hne' : win ≠ [] := by
        intro h
        apply hne
        rw [← hfst, h]; rfl
      obtain ⟨last, hlast⟩ : ∃ l, win.getLast? = some l := ⟨_, List.getLast?_eq_some_getLast hne'⟩
      rw [hlast]
      have hl1 : last.1 ∈ steps.take n := by
        rw [← hfst]; exact List.mem_map_of_mem (List.mem_of_getLast? hlast)
      have hpw' : (steps.take n ++ steps.drop n).Pairwise (Before rev) := by simpa using hpw
      have hpw'' := List.pairwise_append.1 hpw'
      have := mainLoop_eq g step hna rev (steps.drop n) fuel todo1 todo2 win last last.1 os
        (xx0.drop todo1.length) s2 c d (by rw [List.length_drop, hxx, h1]; simp) (by simp; omega) hlast hpw''.2.1 (fun t ht => hpw''.2.2 _ hl1 t ht)
        h4 h2 h3 hos
      rw [← h1, ← hos] at this
      simp only [← hos, this, bind, Except.bind, pure, Except.pure]
      cases scheme (step rev) g.store tt win os.length (steps.drop n) s2 with
      | error e => rfl
      | ok r =>
        simp only
        cases g.fin r.2 with
        | error e => rfl
        | ok s3 =>
          simp only [List.length_drop]
          have : todo2.length = (tt.filter (fun t => t ∉ steps.take n)).length := by
            have e := congrArg List.length h1
            have e2 := List.length_eq_length_filter_add (l := tt) (fun t => decide (t ∈ steps.take n))
            have e3 : (tt.filter (fun t => t ∉ steps.take n)) =
              tt.filter (fun t => !decide (t ∈ steps.take n)) := by
              apply List.filter_congr; simp
            rw [e3]
            rw [hfst] at hf
            have e4 : todo1.length = (tt.filter (fun t => decide (t ∈ steps.take n))).length := by
              rw [← hf]
            simp at e
            omega
          rw [this]

end Sdepy
