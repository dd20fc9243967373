import Verif.Spec.Info
import Verif.Props.Heston

/-!
# Integration with diagnostics
-/

set_option linter.unusedSectionVars false
set_option linter.unusedSimpArgs false

namespace Sdepy

open Spec

variable {T X O Id σ I : Type} [Field T] [LinearOrder T] [IsStrictOrderedRing T] [CommRing X]
  [LinearOrder Id]

/-- one step, with diagnostics -/
def SDE.stepInfo (S : SDE T X O Id σ) (H : InfoHooks X σ I) :
    Bool → List (T × X) → T → InfoState σ I → Py (X × InfoState σ I) :=
  fun _ win t st =>
    match win with
    | [(s0, x)] =>
      match S.eulerNext s0 x t st.s with
      | .error e => .error e
      | .ok (x', s) => .ok (x', ⟨s, st.rev, st.i, H.inext st.rev st.i x s st.info⟩)
    | _ => .error .indexError

theorem toPGenInfo_nonAdaptive (S : SDE T X O Id σ) (H : InfoHooks X σ I) :
    NonAdaptive (S.toPGenInfo H) (S.stepInfo H) := by
  intro rev win t s
  simp only [SDE.toPGenInfo, SDE.stepInfo, bind, Except.bind, pure, Except.pure]
  match win with
  | [] => rfl
  | [(s0, x)] =>
    simp only
    cases S.eulerNext s0 x t s.s <;> rfl
  | _ :: _ :: _ => rfl

/-- `info` after given steps of a pass. -/
def foldInfo (H : InfoHooks X σ I) (rev : Bool) (tt : List T) (j : I)
    (rs : List (StepRec T X σ)) : I :=
  rs.foldl (fun j r => H.inext rev (reached rev tt r.t) r.x r.s j) j

/-- Direction of time in a pass. -/
def Dir (rev : Bool) (a b : T) : Prop := if rev then b < a else a < b

theorem reached_step (rev : Bool) (tt : List T) {t t' : T} (hd : Dir rev t t')
    (htt : tt.Nodup) (hb : ∀ u ∈ tt, ¬ (Dir rev t u ∧ Dir rev u t')) :
    reached rev tt t' = reached rev tt t + if t' ∈ tt then 1 else 0 := by
  classical
  unfold reached
  cases rev with
  | false =>
    simp only [Dir, Bool.false_eq_true, if_false] at hd hb ⊢
    induction tt with
    | nil => simp
    | cons u tt ih =>
      have hnd := List.nodup_cons.1 htt
      have ih' := ih hnd.2 (fun u hu => hb u (by simp [hu]))
      have hbu := hb u (by simp)
      simp only [List.filter_cons, List.mem_cons]
      by_cases h1 : u ≤ t
      · have h2 : u ≤ t' := h1.trans hd.le
        have h3 : ¬ t' = u := fun h => absurd (h ▸ h1) (not_le.2 hd)
        simp only [h1, h2, decide_true, if_true, List.length_cons, ih', h3, false_or]
        omega
      · have h4 : ¬ u < t' := fun h => hbu ⟨not_le.1 h1, h⟩
        by_cases h2 : u ≤ t'
        · have h3 : t' = u := le_antisymm (not_lt.1 h4) h2
          have h5 : t' ∉ tt := h3 ▸ hnd.1
          simp only [h1, h2, decide_true, decide_false, if_true, List.length_cons, ih', h3]
          rw [← h3]
          simp only [h5, or_false, if_true]
          rw [if_neg h5] at ih'
          simpa using ih'
        · have h3 : ¬ t' = u := fun h => h2 h.ge
          simp only [h1, h2, decide_false, h3, false_or]
          simpa using ih'
  | true =>
    simp only [Dir, if_true] at hd hb ⊢
    induction tt with
    | nil => simp
    | cons u tt ih =>
      have hnd := List.nodup_cons.1 htt
      have ih' := ih hnd.2 (fun u hu => hb u (by simp [hu]))
      have hbu := hb u (by simp)
      simp only [List.filter_cons, List.mem_cons]
      by_cases h1 : t ≤ u
      · have h2 : t' ≤ u := hd.le.trans h1
        have h3 : ¬ t' = u := fun h => absurd (h ▸ h1) (not_le.2 hd)
        simp only [h1, h2, decide_true, if_true, List.length_cons, ih', h3, false_or]
        omega
      · have h4 : ¬ t' < u := fun h => hbu ⟨not_le.1 h1, h⟩
        by_cases h2 : t' ≤ u
        · have h3 : t' = u := le_antisymm h2 (not_lt.1 h4)
          have h5 : t' ∉ tt := h3 ▸ hnd.1
          simp only [h1, h2, decide_true, decide_false, if_true, List.length_cons, ih', h3]
          rw [← h3]
          simp only [h5, or_false, if_true]
          rw [if_neg h5] at ih'
          simpa using ih'
        · have h3 : ¬ t' = u := fun h => h2 h.le
          simp only [h1, h2, decide_false, h3, false_or]
          simpa using ih'

theorem scheme_info (S : SDE T X O Id σ) (hS : SDEOk S) (H : InfoHooks X σ I) (rev : Bool)
    (tt : List T) (htt : tt.Nodup) : ∀ (ts : List T) (t : T) (x : X) (n : ℕ) (s : σ) (j : I),
    (t :: ts).Pairwise (Dir rev) → (∀ u ∈ tt, Dir rev t u → u ∈ ts) →
    scheme (S.stepInfo H rev) (S.toPGenInfo H).store tt [(t, x)] n ts
        ⟨s, rev, reached rev tt t, j⟩ =
      (do let (ps, _) ← (equation S).path t x ts s
          let (rs, s) ← (equation S).steps t x ts s
          pure ((ps.filter (fun p => p.1 ∈ tt)).map (fun p => S.letX p.1 p.2),
            ⟨s, rev, reached rev tt ((t :: ts).getLastD t), foldInfo H rev tt j rs⟩)) := by
  intro ts
  induction ts with
  | nil => intro t x n s j _ _; simp [scheme, Equation.path, Equation.steps, foldInfo, bind,
      Except.bind, pure, Except.pure]
  | cons t' ts ih =>
    intro t x n s j hp hsub
    have hd : Dir rev t t' := by
      rw [List.pairwise_cons] at hp; exact hp.1 t' (by simp)
    have hp' := (List.pairwise_cons.1 hp).2
    have htr : ∀ a b c : T, Dir rev a b → Dir rev b c → Dir rev a c := by
      intro a b c h1 h2
      cases rev with
      | false => simp only [Dir, Bool.false_eq_true, if_false] at *; exact h1.trans h2
      | true => simp only [Dir, if_true] at *; exact h2.trans h1
    have hirr : ∀ a b : T, Dir rev a b → ¬ Dir rev b a := by
      intro a b h1 h2
      cases rev with
      | false => simp only [Dir, Bool.false_eq_true, if_false] at *; exact absurd (h1.trans h2) (lt_irrefl _)
      | true => simp only [Dir, if_true] at *; exact absurd (h2.trans h1) (lt_irrefl _)
    have hb : ∀ u ∈ tt, ¬ (Dir rev t u ∧ Dir rev u t') := by
      rintro u hu ⟨h1, h2⟩
      rcases List.mem_cons.1 (hsub u hu h1) with rfl | h3
      · exact hirr _ _ h2 h2
      · exact hirr _ _ h2 ((List.pairwise_cons.1 hp').1 u h3)
    have hr := reached_step rev tt hd htt hb
    have hsub' : ∀ u ∈ tt, Dir rev t' u → u ∈ ts := by
      intro u hu h1
      rcases List.mem_cons.1 (hsub u hu (htr _ _ _ hd h1)) with rfl | h3
      · exact absurd h1 (hirr _ _ h1)
      · exact h3
    simp only [scheme, SDE.stepInfo, bind, Except.bind, pure, Except.pure, eulerNext_eq S hS,
      Equation.path, Equation.steps]
    cases hst : (equation S).step t x t' s with
    | error e => rfl
    | ok r =>
      obtain ⟨x', s'⟩ := r
      simp only [List.tail_cons, List.nil_append]
      have hl : (t :: t' :: ts).getLastD t = (t' :: ts).getLastD t' := by
        simp [List.getLastD_eq_getLast?, List.getLast?_cons]
      have hfold : ∀ rs, foldInfo H rev tt j (⟨t, x, s'⟩ :: rs) =
          foldInfo H rev tt (H.inext rev (reached rev tt t) x s' j) rs := fun _ => rfl
      by_cases hm : t' ∈ tt
      · rw [if_pos hm] at hr ⊢
        simp only [SDE.toPGenInfo]
        have hi := ih t' x' (n + 1) s' (H.inext rev (reached rev tt t) x s' j) hp' hsub'
        rw [hr] at hi
        simp only [SDE.toPGenInfo, bind, Except.bind, pure, Except.pure] at hi
        simp only [List.length_cons, List.length_nil, Nat.zero_add, hi]
        cases hpth : (equation S).path t' x' ts s' with
        | error e => rfl
        | ok r1 =>
          simp only
          cases (equation S).steps t' x' ts s' with
          | error e => rfl
          | ok r2 =>
            simp only [hfold, hl, List.filter_cons, hm, decide_true, if_true, List.map_cons,
              List.singleton_append]
      · rw [if_neg hm] at hr ⊢
        have hi := ih t' x' n s' (H.inext rev (reached rev tt t) x s' j) hp' hsub'
        rw [hr] at hi
        simp only [bind, Except.bind, pure, Except.pure, Nat.add_zero] at hi
        simp only [List.length_nil, Nat.add_zero, hi]
        cases hpth : (equation S).path t' x' ts s' with
        | error e => rfl
        | ok r1 =>
          simp only
          cases (equation S).steps t' x' ts s' with
          | error e => rfl
          | ok r2 =>
            simp only [hfold, hl, List.filter_cons, hm, decide_false, List.nil_append]
            rfl

/-- `steps` reaches the same state as `path`, and fails in the same cases. -/
theorem steps_path (E : Equation T X Id σ) : ∀ (ts : List T) (t : T) (x : X) (s : σ),
    (E.steps t x ts s).map Prod.snd = (E.path t x ts s).map Prod.snd := by
  intro ts
  induction ts with
  | nil => intro t x s; rfl
  | cons t' ts ih =>
    intro t x s
    simp only [Equation.path, Equation.steps, bind, Except.bind, pure, Except.pure]
    cases E.step t x t' s with
    | error e => rfl
    | ok r =>
      have := ih t' r.1 r.2
      simp only
      cases h1 : E.steps t' r.1 ts r.2 with
      | error e =>
        rw [h1] at this
        cases h2 : E.path t' r.1 ts r.2 with
        | error e' => rw [h2] at this; simpa [Except.map] using this
        | ok r' => rw [h2] at this; simp [Except.map] at this
      | ok r1 =>
        rw [h1] at this
        cases h2 : E.path t' r.1 ts r.2 with
        | error e' => rw [h2] at this; simp [Except.map] at this
        | ok r' => rw [h2] at this; simpa [Except.map] using this

/-- The points a path goes through are where its steps start from, and its end. -/
theorem steps_points (E : Equation T X Id σ) : ∀ (ts : List T) (t : T) (x : X) (s : σ) {ps rs s1 s2},
    E.path t x ts s = .ok (ps, s1) → E.steps t x ts s = .ok (rs, s2) →
    rs.map (fun r => (r.t, r.x)) = ((t, x) :: ps).dropLast := by
  intro ts
  induction ts with
  | nil =>
    intro t x s ps rs s1 s2 h1 h2
    simp only [Equation.path, Except.ok.injEq, Prod.mk.injEq, Equation.steps] at h1 h2
    rw [← h1.1, ← h2.1]; rfl
  | cons t' ts ih =>
    intro t x s ps rs s1 s2 h1 h2
    simp only [Equation.path, Equation.steps, bind, Except.bind, pure, Except.pure] at h1 h2
    cases hst : E.step t x t' s with
    | error e => rw [hst] at h1; simp at h1
    | ok r =>
      rw [hst] at h1 h2
      simp only at h1 h2
      cases hp : E.path t' r.1 ts r.2 with
      | error e => rw [hp] at h1; simp at h1
      | ok r1 =>
        cases hs : E.steps t' r.1 ts r.2 with
        | error e => rw [hs] at h2; simp at h2
        | ok r2 =>
          rw [hp] at h1; rw [hs] at h2
          simp only [Except.ok.injEq, Prod.mk.injEq] at h1 h2
          rw [← h1.1, ← h2.1]
          simp only [List.map_cons, ih t' r.1 r.2 hp hs]
          rfl

/-- A pass with diagnostics. -/
theorem pass_info (S : SDE T X O Id σ) (hS : SDEOk S) (H : InfoHooks X σ I) (rev : Bool)
    (tt : List T) (htt : tt.Nodup) (t0 : T) (ts : List T) (s : InfoState σ I)
    (h0 : t0 ∈ tt) (hp : (t0 :: ts).Pairwise (Dir rev))
    (hsub : ∀ u ∈ tt, u = t0 ∨ u ∈ ts) {os st}
    (h : pass 2 ((S.toPGenInfo H).begin rev) (S.stepInfo H rev) (S.toPGenInfo H).store
      (S.toPGenInfo H).fin (t0 :: ts) tt s = .ok (os, st)) :
    ∃ x rs, S.beginX t0 = .ok x ∧ (equation S).steps t0 x ts s.s = .ok (rs, st.s) ∧
      st.info = H.iend rev (foldInfo H rev tt (H.ibegin rev s.info) rs) ∧ st.rev = rev := by
  have hirr : ∀ a b : T, Dir rev a b → ¬ Dir rev b a := by
    intro a b h1 h2
    cases rev with
    | false => simp only [Dir, Bool.false_eq_true, if_false] at *; exact absurd (h1.trans h2) (lt_irrefl _)
    | true => simp only [Dir, if_true] at *; exact absurd (h2.trans h1) (lt_irrefl _)
  have hr0 : reached rev tt t0 = 1 := by
    have : ∀ u ∈ tt, u = t0 ∨ Dir rev t0 u := by
      intro u hu
      rcases hsub u hu with h | h
      · exact .inl h
      · exact .inr ((List.pairwise_cons.1 hp).1 u h)
    unfold reached
    have he : (tt.filter fun u => if rev then decide (t0 ≤ u) else decide (u ≤ t0)) =
        tt.filter (fun u => u == t0) := by
      apply List.filter_congr
      intro u hu
      rcases this u hu with rfl | h'
      · cases rev <;> simp
      · have hne : ¬ u = t0 := by rintro rfl; exact hirr _ _ h' h'
        cases rev with
        | false => simp only [Dir, Bool.false_eq_true, if_false] at h'; simp [hne, not_le.2 h']
        | true => simp only [Dir, if_true] at h'; simp [hne, not_le.2 h']
    rw [he, ← List.countP_eq_length_filter]
    exact List.count_eq_one_of_mem htt h0
  simp only [pass, bind, Except.bind, pure, Except.pure, SDE.toPGenInfo, Nat.reduceSub,
    List.take_succ_cons, List.take_zero, List.drop_succ_cons, List.drop_zero] at h
  cases hb : S.beginX t0 with
  | error e => rw [hb] at h; simp at h
  | ok x =>
    rw [hb] at h
    simp only [List.mapIdx_cons, List.mapIdx_nil, outputs, h0, if_true, bind, Except.bind, pure,
      Except.pure, List.length_cons, List.length_nil, Nat.zero_add, List.append_nil] at h
    have hsc := scheme_info S hS H rev tt htt ts t0 x 1 s.s (H.ibegin rev s.info) hp
      (by
        intro u hu hd
        rcases hsub u hu with rfl | h'
        · exact absurd hd (hirr _ _ hd)
        · exact h')
    rw [hr0] at hsc
    simp only [SDE.toPGenInfo] at hsc
    rw [hsc] at h
    simp only [bind, Except.bind, pure, Except.pure] at h
    cases hp1 : (equation S).path t0 x ts s.s with
    | error e => rw [hp1] at h; simp at h
    | ok r1 =>
      rw [hp1] at h
      simp only at h
      cases hs1 : (equation S).steps t0 x ts s.s with
      | error e => rw [hs1] at h; simp at h
      | ok r2 =>
        rw [hs1] at h
        simp only [Except.ok.injEq, Prod.mk.injEq] at h
        refine ⟨x, r2.1, rfl, ?_, ?_, ?_⟩
        · rw [← h.2]; exact hs1
        · rw [← h.2]
        · rw [← h.2]

end Sdepy
