import Verif.Model.ProcMem

/-!
# Lemmas on processes as objects in memory
-/

namespace Sdepy
namespace Spec

/-- The arrays mentioned by a statement. -/
def stmtArrs {K : Type} : Stmt K → List ℕ
  | .setItem a _ _ => [a]
  | .process t x => [t, x]
  | .bindT _ a => [a]
  | _ => []

/-- The processes mentioned by a statement. -/
def stmtProcs {K : Type} : Stmt K → List ℕ
  | .array _ _ | .setItem _ _ _ | .process _ _ => []
  | .setValue p _ _ | .bindT p _ | .t p | .x p | .tx p | .dt p | .dtx p | .pcopy p | .xcopy p | .tcopy p
  | .times p _ _ | .select p _ _ | .template p _ _ | .templateCopy p _ _ | .ufunc p _ => [p]

/-- The process of which a statement asks the increments of the timeline. -/
def stmtDts {K : Type} : Stmt K → List ℕ
  | .dt p | .dtx p => [p]
  | _ => []

/-- The process the attribute `t` of which a statement assigns. -/
def stmtBinds {K : Type} : Stmt K → List ℕ
  | .bindT p _ => [p]
  | _ => []

end Spec

open Spec

variable {K : Type}

/-- Buffers in `P` are reached only from arrays in `A`, from values and timelines of processes in `X`, and from
cached increments of processes in `D`; and their contents are `m`. -/
structure Owned (P A X D : ℕ → Prop) (m : ℕ → ℕ → K) (w : World K) : Prop where
  arr : ∀ a v, w.arrs[a]? = some v → P v.buf → A a
  x : ∀ p o, w.procs[p]? = some o → P o.x.buf → X p
  t : ∀ p o t, w.procs[p]? = some o → o.t = some t → P t.buf → X p
  dt : ∀ p o d, w.procs[p]? = some o → o.dt = some d → P d.buf → D p
  lt : ∀ b, P b → b < w.next
  mem : ∀ b, P b → w.mem b = m b

variable {P A X D : ℕ → Prop} {m : ℕ → ℕ → K} {w : World K}

theorem getElem?_concat {α : Type} {l : List α} {a x : α} {n : ℕ} (h : (l ++ [a])[n]? = some x) :
    l[n]? = some x ∨ (n = l.length ∧ x = a) := by
  rw [List.getElem?_append] at h
  split at h
  · exact .inl h
  · rename_i hn
    right
    have : n - l.length = 0 := by
      by_contra hc
      obtain ⟨k, hk⟩ := Nat.exists_eq_succ_of_ne_zero hc
      rw [hk] at h; simp at h
    rw [this] at h
    simp at h
    exact ⟨by omega, h.symm⟩

theorem Owned.alloc (h : Owned P A X D m w) (a : Arr K) : Owned P A X D m (w.alloc a) where
  arr := h.arr
  x := h.x
  t := h.t
  dt := h.dt
  lt b hb := Nat.lt_succ_of_lt (h.lt b hb)
  mem b hb := by
    rw [← h.mem b hb]
    exact Function.update_of_ne (Nat.ne_of_lt (h.lt b hb)) _ _

theorem Owned.fresh (h : Owned P A X D m w) (s : List ℕ) : ¬ P (w.freshView s).buf :=
  fun hp => Nat.lt_irrefl _ (h.lt _ hp)

theorem Owned.pushArr (h : Owned P A X D m w) {v : View} (hv : ¬ P v.buf) : Owned P A X D m (w.pushArr v) where
  arr a v' ha hp := by
    rcases getElem?_concat ha with ha | ⟨_, rfl⟩
    · exact h.arr a v' ha hp
    · exact absurd hp hv
  x := h.x
  t := h.t
  dt := h.dt
  lt := h.lt
  mem := h.mem

theorem Owned.pushProc (h : Owned P A X D m w) {o : PObj} (hx : ¬ P o.x.buf) (ht : ∀ t, o.t = some t → ¬ P t.buf)
    (hd : o.dt = none) : Owned P A X D m (w.pushProc o) where
  arr := h.arr
  x p o' ho hp := by
    rcases getElem?_concat ho with ho | ⟨_, rfl⟩
    · exact h.x p o' ho hp
    · exact absurd hp hx
  t p o' t ho ht' hp := by
    rcases getElem?_concat ho with ho | ⟨_, rfl⟩
    · exact h.t p o' t ho ht' hp
    · exact absurd hp (ht t ht')
  dt p o' d ho hd' hp := by
    rcases getElem?_concat ho with ho | ⟨_, rfl⟩
    · exact h.dt p o' d ho hd' hp
    · rw [hd] at hd'; cases hd'
  lt := h.lt
  mem := h.mem

theorem Owned.setProc (h : Owned P A X D m w) {q : ℕ} {o : PObj} (hx : P o.x.buf → X q)
    (ht : ∀ t, o.t = some t → P t.buf → X q) (hd : ∀ d, o.dt = some d → P d.buf → D q) :
    Owned P A X D m (w.setProc q o) where
  arr := h.arr
  x p o' ho hp := by
    simp only [World.setProc, List.getElem?_set] at ho
    split at ho
    · split at ho
      · cases ho; subst_vars; exact hx hp
      · cases ho
    · exact h.x p o' ho hp
  t p o' t ho ht' hp := by
    simp only [World.setProc, List.getElem?_set] at ho
    split at ho
    · split at ho
      · cases ho; subst_vars; exact ht t ht' hp
      · cases ho
    · exact h.t p o' t ho ht' hp
  dt p o' d ho hd' hp := by
    simp only [World.setProc, List.getElem?_set] at ho
    split at ho
    · split at ho
      · cases ho; subst_vars; exact hd d hd' hp
      · cases ho
    · exact h.dt p o' d ho hd' hp
  lt := h.lt
  mem := h.mem

theorem Owned.write (h : Owned P A X D m w) {v : View} (hv : ¬ P v.buf) (i : List ℕ) (k : K) :
    Owned P A X D m (w.write v i k) where
  arr := h.arr
  x := h.x
  t := h.t
  dt := h.dt
  lt := h.lt
  mem b hb := by
    rw [← h.mem b hb]
    refine Function.update_of_ne (fun e => hv ?_) _ _
    rw [← e]; exact hb

theorem vector_buf (t : View) : t.vector.buf = t.buf := by unfold View.vector; split <;> rfl

theorem newProc_ok {t x : View} {o : PObj} (h : newProc t x = .ok o) :
    o = ⟨some t.vector, x, none⟩ ∧ t.shape.length ≤ 1 ∧ t.shape.prod ≠ 0 ∧ t.vector.shape = x.shape.take 1 := by
  unfold newProc at h
  split at h
  · cases h
  · rename_i h1
    push Not at h1
    split at h
    · cases h
    · rename_i h2
      push Not at h2
      cases h
      exact ⟨rfl, h1.1, h1.2, h2⟩

theorem pushNew_ok {t : Option View} {x : View} {w' : World K} (h : w.pushNew t x = .ok w') :
    ∃ t', t = some t' ∧ newProc t' x = .ok ⟨some t'.vector, x, none⟩ ∧ w' = w.pushProc ⟨some t'.vector, x, none⟩ := by
  unfold World.pushNew at h
  split at h
  · cases h
  · rename_i t'
    split at h
    · cases h
    · rename_i o ho
      obtain ⟨rfl, -⟩ := newProc_ok ho
      cases h
      exact ⟨t', rfl, ho, rfl⟩

theorem arr_ok {a : ℕ} {v : View} (h : w.arr a = .ok v) : w.arrs[a]? = some v := by
  unfold World.arr at h
  split at h
  · cases h
  · cases h; assumption

theorem proc_ok {p : ℕ} {o : PObj} (h : w.proc p = .ok o) : w.procs[p]? = some o := by
  unfold World.proc at h
  split at h
  · cases h
  · cases h; assumption

theorem Owned.pushNew (h : Owned P A X D m w) {t : Option View} {x : View} {w' : World K} (hx : ¬ P x.buf)
    (ht : ∀ t', t = some t' → ¬ P t'.buf) (e : w.pushNew t x = .ok w') : Owned P A X D m w' := by
  obtain ⟨t', rfl, -, rfl⟩ := pushNew_ok e
  exact h.pushProc hx (fun s hs => by cases hs; rw [vector_buf]; exact ht t' rfl) rfl

theorem finalize_ok {t t' : Option View} {s : List ℕ} (h : finalize t s = .ok t') :
    ∃ v, t = some v ∧ ((v.shape = s.take 1 ∧ t' = some v) ∨ (v.shape ≠ s.take 1 ∧ t' = none)) := by
  unfold finalize at h
  split at h
  · cases h
  · rename_i v
    refine ⟨v, rfl, ?_⟩
    split at h
    · rename_i hs; cases h; exact .inr ⟨hs, rfl⟩
    · rename_i hs; push Not at hs; cases h; exact .inl ⟨hs, rfl⟩

variable [Sub K]

theorem dtOf_ok {p : ℕ} {o : PObj} {r : World K × View} (h : w.dtOf p o = .ok r) :
    (o.dt = some r.2 ∧ r.1 = w) ∨ ∃ t, o.dt = none ∧ o.t = some t ∧ r.2 = w.freshView (diffArr (w.read t)).shape ∧
      r.1 = (w.alloc (diffArr (w.read t))).setProc p { o with dt := some r.2 } := by
  unfold World.dtOf at h
  split at h
  · rename_i d hd
    cases h; exact .inl ⟨hd, rfl⟩
  · rename_i hd
    split at h
    · cases h
    · rename_i t ht
      cases h
      exact .inr ⟨t, hd, ht, rfl, rfl⟩

theorem Owned.dtOf (h : Owned P A X D m w) {p : ℕ} {o : PObj} {r : World K × View} (ho : w.procs[p]? = some o)
    (hD : ¬ D p) (e : w.dtOf p o = .ok r) : Owned P A X D m r.1 ∧ ¬ P r.2.buf := by
  rcases dtOf_ok e with ⟨h1, h2⟩ | ⟨t, h1, h2, h3, h4⟩
  · rw [h2]
    exact ⟨h, fun hp => hD (h.dt p o _ ho h1 hp)⟩
  · have hf : ¬ P r.2.buf := by rw [h3]; exact h.fresh _
    rw [h4]
    refine ⟨(h.alloc _).setProc (h.x p o ho) (fun t ht => h.t p o t ho ht) ?_, hf⟩
    intro d hd hp
    simp only [Option.some.injEq] at hd
    exact absurd (hd ▸ hp) hf

/-- A statement that does not mention their owners leaves buffers as they are. -/
theorem Owned.step (h : Owned P A X D m w) {s : Stmt K} {w' : World K} (hA : ∀ a ∈ stmtArrs s, ¬ A a)
    (hX : ∀ p ∈ stmtProcs s, ¬ X p) (hD : ∀ p ∈ stmtDts s, ¬ D p) (e : w.step s = .ok w') : Owned P A X D m w' := by
  have arr : ∀ {a v}, ¬ A a → w.arr a = .ok v → ¬ P v.buf := fun ha hv hp => ha (h.arr _ _ (arr_ok hv) hp)
  have px : ∀ {p o}, ¬ X p → w.proc p = .ok o → ¬ P o.x.buf := fun hp ho hb => hp (h.x _ _ (proc_ok ho) hb)
  have pt : ∀ {p o t}, ¬ X p → w.proc p = .ok o → o.t = some t → ¬ P t.buf :=
    fun hp ho ht hb => hp (h.t _ _ _ (proc_ok ho) ht hb)
  cases s <;> simp only [stmtArrs, stmtProcs, stmtDts, List.mem_cons, List.not_mem_nil, or_false, forall_eq,
    forall_eq_or_imp, false_imp_iff, implies_true] at hA hX hD <;> simp only [World.step] at e
  case array s v =>
    cases e; exact (h.alloc _).pushArr (h.fresh _)
  case setItem a i k =>
    split at e
    · cases e
    · rename_i v hv
      split at e
      · cases e; exact h.write (arr hA hv) _ _
      · cases e
  case process t x =>
    split at e
    · cases e
    · rename_i t ht
      split at e
      · cases e
      · rename_i x hx
        exact h.pushNew (arr hA.2 hx) (fun t' e' => by cases e'; exact arr hA.1 ht) e
  case setValue p i k =>
    split at e
    · cases e
    · rename_i o ho
      split at e
      · cases e; exact h.write (px hX ho) _ _
      · cases e
  case bindT p a =>
    split at e
    · cases e
    · rename_i o ho
      split at e
      · cases e
      · rename_i v hv
        split at e
        · cases e
          refine h.setProc (h.x p o (proc_ok ho)) ?_ (fun d hd => h.dt p o d (proc_ok ho) hd)
          intro t ht hp
          cases ht
          exact absurd hp (arr hA hv)
        · cases e
  case t p =>
    split at e
    · cases e
    · rename_i o ho
      split at e
      · cases e
      · rename_i t ht
        cases e; exact h.pushArr (pt hX ho ht)
  case x p =>
    split at e
    · cases e
    · rename_i o ho
      cases e; exact h.pushArr (px hX ho)
  case tx p =>
    split at e
    · cases e
    · rename_i o ho
      split at e
      · cases e
      · rename_i t ht
        cases e
        have := pt hX ho ht
        exact h.pushArr (v := t.column _) this
  case dt p =>
    split at e
    · cases e
    · rename_i o ho
      split at e
      · cases e
      · rename_i w' d hd
        cases e
        have := h.dtOf (proc_ok ho) hD hd
        exact this.1.pushArr this.2
  case dtx p =>
    split at e
    · cases e
    · rename_i o ho
      split at e
      · cases e
      · rename_i w' d hd
        cases e
        have := h.dtOf (proc_ok ho) hD hd
        exact this.1.pushArr (v := d.column _) this.2
  case pcopy p =>
    split at e
    · cases e
    · rename_i o ho
      split at e
      · cases e
      · rename_i t ht
        refine ((h.alloc _).alloc _).pushNew ((h.alloc _).fresh _) ?_ e
        intro t' e'
        cases e'
        exact h.fresh _
  case xcopy p =>
    split at e
    · cases e
    · rename_i o ho
      exact (h.alloc _).pushNew (h.fresh _) (fun t' ht => pt hX ho ht) e
  case tcopy p =>
    split at e
    · cases e
    · rename_i o ho
      split at e
      · cases e
      · rename_i t ht
        refine (h.alloc _).pushNew (px hX ho) ?_ e
        intro t' e'
        cases e'
        exact h.fresh _
  case times p n f =>
    split at e
    · cases e
    · rename_i o ho
      split at e
      · cases e
      · rename_i t ht
        split at e
        · have hx := px hX ho
          have ht := pt hX ho ht
          refine h.pushNew ?_ ?_ e
          · exact hx
          · intro t' e'
            cases e'
            exact ht
        · cases e
  case select p n f =>
    split at e
    · cases e
    · rename_i o ho
      have hx := px hX ho
      refine h.pushNew ?_ (fun t' ht => pt hX ho ht) e
      exact hx
  case template p s f =>
    split at e
    · cases e
    · rename_i o ho
      split at e
      · cases e
      · rename_i t ht
        cases e
        have hx := px hX ho
        refine h.pushProc (o := ⟨t, o.x.sel s f, none⟩) hx ?_ rfl
        intro t' e'
        obtain ⟨v, hv, ⟨-, h2⟩ | ⟨-, h2⟩⟩ := finalize_ok ht
        · simp only at e'
          rw [h2] at e'
          cases e'
          exact pt hX ho hv
        · simp only at e'
          rw [h2] at e'
          cases e'
  case templateCopy p s f =>
    split at e
    · cases e
    · rename_i o ho
      split at e
      · cases e
      · rename_i t ht
        cases e
        refine (h.alloc _).pushProc (h.fresh _) ?_ rfl
        intro t' e'
        obtain ⟨v, hv, ⟨-, h2⟩ | ⟨-, h2⟩⟩ := finalize_ok ht
        · simp only at e'
          rw [h2] at e'
          cases e'
          exact pt hX ho hv
        · simp only at e'
          rw [h2] at e'
          cases e'
  case ufunc p g =>
    split at e
    · cases e
    · rename_i o ho
      exact (h.alloc _).pushNew (h.fresh _) (fun t' ht => pt hX ho ht) e

theorem Owned.run (h : Owned P A X D m w) {prog : List (Stmt K)} (hA : ∀ s ∈ prog, ∀ a ∈ stmtArrs s, ¬ A a)
    (hX : ∀ s ∈ prog, ∀ p ∈ stmtProcs s, ¬ X p) (hD : ∀ s ∈ prog, ∀ p ∈ stmtDts s, ¬ D p) :
    Owned P A X D m (w.run prog) := by
  induction prog generalizing w with
  | nil => exact h
  | cons s l ih =>
    simp only [List.mem_cons, forall_eq_or_imp] at hA hX hD
    refine ih (w := w.exec s) ?_ hA.2 hX.2 hD.2
    unfold World.exec
    split
    · rename_i w' hw; exact h.step hA.1 hX.1 hD.1 hw
    · exact h

/-! ### Objects persist -/

/-- What becomes of existing objects when a statement is executed. -/
structure Later (s : Stmt K) (w w' : World K) : Prop where
  arr : ∀ (a : ℕ) v, w.arrs[a]? = some v → w'.arrs[a]? = some v
  proc : ∀ (p : ℕ) o, w.procs[p]? = some o → ∃ o', w'.procs[p]? = some o' ∧ o'.x = o.x ∧
    (p ∉ stmtBinds s → o'.t = o.t) ∧ (∀ d, o.dt = some d → o'.dt = some d) ∧ (p ∉ stmtDts s → o'.dt = o.dt)
  new : ∀ (p : ℕ) o, w.procs[p]? = none → w'.procs[p]? = some o → o.dt = none

theorem Later.of_eq {s : Stmt K} {w w' : World K} (h1 : ∃ l, w'.arrs = w.arrs ++ l) 
    (h2 : ∃ l, w'.procs = w.procs ++ l ∧ ∀ o ∈ l, o.dt = none) :
    Later s w w' := by
  obtain ⟨l1, h1⟩ := h1
  obtain ⟨l2, h2, h3⟩ := h2
  constructor
  · intro a v ha
    rw [h1, List.getElem?_append_left]
    · exact ha
    · exact (List.getElem?_eq_some_iff.1 ha).1
  · intro p o ho
    refine ⟨o, ?_, rfl, fun _ => rfl, fun _ h => h, fun _ => rfl⟩
    rw [h2, List.getElem?_append_left]
    · exact ho
    · exact (List.getElem?_eq_some_iff.1 ho).1
  · intro p o ho ho'
    rw [h2, List.getElem?_append_right (List.getElem?_eq_none_iff.1 ho)] at ho'
    exact h3 o (List.mem_of_getElem? ho')

omit [Sub K] in
theorem setProc_some {p q : ℕ} {o o' : PObj} (h : (w.setProc p o).procs[q]? = some o') : w.procs[q]? ≠ none := by
  intro hn
  have h1 := (List.getElem?_eq_some_iff.1 h).1
  have h2 := List.getElem?_eq_none_iff.1 hn
  simp only [World.setProc, List.length_set] at h1
  omega

theorem Later.pushNew {s : Stmt K} {w0 w w' : World K} {t : Option View} {x : View} (e : w.pushNew t x = .ok w')
    (h1 : w.arrs = w0.arrs) (h2 : w.procs = w0.procs) : Later s w0 w' := by
  obtain ⟨t', -, -, rfl⟩ := pushNew_ok e
  exact .of_eq ⟨[], by simp [World.pushProc, h1]⟩ ⟨[_], by simp only [World.pushProc, h2]; rfl, by simp⟩

theorem later_step {s : Stmt K} {w' : World K} (e : w.step s = .ok w') : Later s w w' := by
  cases s <;> simp only [World.step] at e
  case array s v =>
    cases e; exact .of_eq ⟨[_], rfl⟩ ⟨[], by simp [World.pushArr, World.alloc], by simp⟩
  case setItem a i k =>
    split at e
    · cases e
    · split at e
      · cases e; exact .of_eq ⟨[], by simp [World.write]⟩ ⟨[], by simp [World.write], by simp⟩
      · cases e
  case process t x =>
    split at e
    · cases e
    · split at e
      · cases e
      · exact .pushNew e rfl rfl
  case setValue p i k =>
    split at e
    · cases e
    · split at e
      · cases e; exact .of_eq ⟨[], by simp [World.write]⟩ ⟨[], by simp [World.write], by simp⟩
      · cases e
  case bindT p a =>
    split at e
    · cases e
    · rename_i o ho
      split at e
      · cases e
      · rename_i v hv
        split at e
        · cases e
          refine ⟨fun a v h => h, ?_, fun q o' hq ho' => absurd (setProc_some ho') (by simp [hq])⟩
          intro q o' ho'
          by_cases hq : p = q
          · subst hq
            have := (proc_ok ho).symm.trans ho'
            cases this
            refine ⟨_, List.getElem?_set_self ?_, rfl, ?_, fun _ h => h, fun _ => rfl⟩
            · exact (List.getElem?_eq_some_iff.1 ho').1
            · intro h; exact absurd (List.mem_singleton.2 rfl) h
          · refine ⟨o', ?_, rfl, fun _ => rfl, fun _ h => h, fun _ => rfl⟩
            simp only [World.setProc]
            rw [List.getElem?_set_ne hq]; exact ho'
        · cases e
  case t p =>
    split at e
    · cases e
    · split at e
      · cases e
      · cases e; exact .of_eq ⟨[_], rfl⟩ ⟨[], by simp [World.pushArr], by simp⟩
  case x p =>
    split at e
    · cases e
    · cases e; exact .of_eq ⟨[_], rfl⟩ ⟨[], by simp [World.pushArr], by simp⟩
  case tx p =>
    split at e
    · cases e
    · split at e
      · cases e
      · cases e; exact .of_eq ⟨[_], rfl⟩ ⟨[], by simp [World.pushArr], by simp⟩
  case' dt p => have hdt : p ∈ stmtDts (Stmt.dt p : Stmt K) := List.mem_singleton.2 rfl
  case' dtx p => have hdt : p ∈ stmtDts (Stmt.dtx p : Stmt K) := List.mem_singleton.2 rfl
  case' dt | dtx p =>
    split at e
    · cases e
    · rename_i o ho
      split at e
      · cases e
      · rename_i w' d hd
        cases e
        rcases dtOf_ok hd with ⟨h1, h2⟩ | ⟨t, h1, h2, h3, h4⟩
        · simp only at h2
          rw [h2]
          exact .of_eq ⟨[_], rfl⟩ ⟨[], by simp [World.pushArr], by simp⟩
        · simp only at h4
          rw [h4]
          constructor
          · intro a v ha
            simp only [World.pushArr, World.setProc, World.alloc]
            rw [List.getElem?_append_left]
            · exact ha
            · exact (List.getElem?_eq_some_iff.1 ha).1
          · intro q o' ho'
            by_cases hq : p = q
            · subst hq
              have := (proc_ok ho).symm.trans ho'
              cases this
              refine ⟨_, List.getElem?_set_self ?_, rfl, fun _ => rfl, ?_, ?_⟩
              · exact (List.getElem?_eq_some_iff.1 ho').1
              · intro d' hd'; rw [h1] at hd'; cases hd'
              · intro h; exact absurd hdt h
            · refine ⟨o', ?_, rfl, fun _ => rfl, fun _ h => h, fun _ => rfl⟩
              simp only [World.setProc, World.pushArr]
              rw [List.getElem?_set_ne hq]; exact ho'
          · intro q o' hq ho'
            exact absurd (setProc_some (w := w.alloc _) ho') (by simp [World.alloc, hq])
  case pcopy p =>
    split at e
    · cases e
    · split at e
      · cases e
      · exact .pushNew e rfl rfl
  case xcopy p =>
    split at e
    · cases e
    · exact .pushNew e rfl rfl
  case tcopy p =>
    split at e
    · cases e
    · split at e
      · cases e
      · exact .pushNew e rfl rfl
  case times p n f =>
    split at e
    · cases e
    · split at e
      · cases e
      · split at e
        · exact .pushNew e rfl rfl
        · cases e
  case select p n f =>
    split at e
    · cases e
    · exact .pushNew e rfl rfl
  case template p s f =>
    split at e
    · cases e
    · split at e
      · cases e
      · cases e; exact .of_eq ⟨[], by simp [World.pushProc]⟩ ⟨[_], rfl, by simp⟩
  case templateCopy p s f =>
    split at e
    · cases e
    · split at e
      · cases e
      · cases e; exact .of_eq ⟨[], by simp [World.pushProc, World.alloc]⟩ ⟨[_], rfl, by simp⟩
  case ufunc p g =>
    split at e
    · cases e
    · exact .pushNew e rfl rfl

theorem later_exec (s : Stmt K) : Later s w (w.exec s) := by
  unfold World.exec
  split
  · exact later_step (by assumption)
  · exact .of_eq ⟨[], by simp⟩ ⟨[], by simp, by simp⟩

theorem run_arr {prog : List (Stmt K)} {a : ℕ} {v : View} (h : w.arrs[a]? = some v) :
    (w.run prog).arrs[a]? = some v := by
  induction prog generalizing w with
  | nil => exact h
  | cons s l ih => exact ih ((later_exec s).arr a v h)

theorem run_proc {prog : List (Stmt K)} {p : ℕ} {o : PObj} (h : w.procs[p]? = some o) :
    ∃ o', (w.run prog).procs[p]? = some o' ∧ o'.x = o.x ∧ ((∀ s ∈ prog, p ∉ stmtBinds s) → o'.t = o.t) ∧
      (∀ d, o.dt = some d → o'.dt = some d) ∧ ((∀ s ∈ prog, p ∉ stmtDts s) → o'.dt = o.dt) := by
  induction prog generalizing w o with
  | nil => exact ⟨o, h, rfl, fun _ => rfl, fun _ h => h, fun _ => rfl⟩
  | cons s l ih =>
    obtain ⟨o1, h1, h2, h3, h4, h5⟩ := (later_exec s).proc p o h
    obtain ⟨o2, g1, g2, g3, g4, g5⟩ := ih h1
    simp only [List.mem_cons, forall_eq_or_imp]
    exact ⟨o2, g1, g2.trans h2, fun hh => (g3 hh.2).trans (h3 hh.1), fun d hd => g4 d (h4 d hd),
      fun hh => (g5 hh.2).trans (h5 hh.1)⟩

/-! ### Reachable states -/

/-- All references are to allocated buffers. -/
structure Alive (w : World K) : Prop where
  arr : ∀ (a : ℕ) v, w.arrs[a]? = some v → v.buf < w.next
  x : ∀ (p : ℕ) o, w.procs[p]? = some o → o.x.buf < w.next
  t : ∀ (p : ℕ) o t, w.procs[p]? = some o → o.t = some t → t.buf < w.next
  dt : ∀ (p : ℕ) o d, w.procs[p]? = some o → o.dt = some d → d.buf < w.next

omit [Sub K] in
theorem Alive.alloc (h : Alive w) (a : Arr K) : Alive (w.alloc a) where
  arr a v ha := Nat.lt_succ_of_lt (h.arr a v ha)
  x p o ho := Nat.lt_succ_of_lt (h.x p o ho)
  t p o t ho ht := Nat.lt_succ_of_lt (h.t p o t ho ht)
  dt p o d ho hd := Nat.lt_succ_of_lt (h.dt p o d ho hd)

omit [Sub K] in
theorem Alive.pushArr (h : Alive w) {v : View} (hv : v.buf < w.next) : Alive (w.pushArr v) where
  arr a v' ha := by
    rcases getElem?_concat ha with ha | ⟨_, rfl⟩
    · exact h.arr a v' ha
    · exact hv
  x := h.x
  t := h.t
  dt := h.dt

omit [Sub K] in
theorem Alive.pushProc (h : Alive w) {o : PObj} (hx : o.x.buf < w.next) (ht : ∀ t, o.t = some t → t.buf < w.next)
    (hd : o.dt = none) : Alive (w.pushProc o) where
  arr := h.arr
  x p o' ho := by
    rcases getElem?_concat ho with ho | ⟨_, rfl⟩
    · exact h.x p o' ho
    · exact hx
  t p o' t ho ht' := by
    rcases getElem?_concat ho with ho | ⟨_, rfl⟩
    · exact h.t p o' t ho ht'
    · exact ht t ht'
  dt p o' d ho hd' := by
    rcases getElem?_concat ho with ho | ⟨_, rfl⟩
    · exact h.dt p o' d ho hd'
    · rw [hd] at hd'; cases hd'

omit [Sub K] in
theorem Alive.setProc (h : Alive w) {q : ℕ} {o : PObj} (hx : o.x.buf < w.next)
    (ht : ∀ t, o.t = some t → t.buf < w.next) (hd : ∀ d, o.dt = some d → d.buf < w.next) :
    Alive (w.setProc q o) where
  arr := h.arr
  x p o' ho := by
    simp only [World.setProc, List.getElem?_set] at ho
    split at ho
    · split at ho
      · cases ho; exact hx
      · cases ho
    · exact h.x p o' ho
  t p o' t ho ht' := by
    simp only [World.setProc, List.getElem?_set] at ho
    split at ho
    · split at ho
      · cases ho; exact ht t ht'
      · cases ho
    · exact h.t p o' t ho ht'
  dt p o' d ho hd' := by
    simp only [World.setProc, List.getElem?_set] at ho
    split at ho
    · split at ho
      · cases ho; exact hd d hd'
      · cases ho
    · exact h.dt p o' d ho hd'

omit [Sub K] in
theorem Alive.pushNew (h : Alive w) {t : Option View} {x : View} {w' : World K} (hx : x.buf < w.next)
    (ht : ∀ t', t = some t' → t'.buf < w.next) (e : w.pushNew t x = .ok w') : Alive w' := by
  obtain ⟨t', rfl, -, rfl⟩ := pushNew_ok e
  exact h.pushProc hx (fun s hs => by cases hs; rw [vector_buf]; exact ht t' rfl) rfl

omit [Sub K] in
theorem fresh_lt (s : List ℕ) (a : Arr K) : (w.freshView s).buf < (w.alloc a).next := Nat.lt_succ_self _

theorem Alive.dtOf (h : Alive w) {p : ℕ} {o : PObj} {r : World K × View} (ho : w.procs[p]? = some o)
    (e : w.dtOf p o = .ok r) : Alive r.1 ∧ r.2.buf < r.1.next := by
  rcases dtOf_ok e with ⟨h1, h2⟩ | ⟨t, h1, h2, h3, h4⟩
  · rw [h2]
    exact ⟨h, h.dt p o _ ho h1⟩
  · rw [h4]
    have hf : r.2.buf < (w.alloc (diffArr (w.read t))).next := by rw [h3]; exact fresh_lt _ _
    refine ⟨(h.alloc _).setProc (Nat.lt_succ_of_lt (h.x p o ho)) (fun t ht => Nat.lt_succ_of_lt (h.t p o t ho ht)) ?_, hf⟩
    intro d hd
    simp only [Option.some.injEq] at hd
    rw [← hd]; exact hf

theorem Alive.step (h : Alive w) {s : Stmt K} {w' : World K} (e : w.step s = .ok w') : Alive w' := by
  have px : ∀ {p o}, w.proc p = .ok o → o.x.buf < w.next := fun ho => h.x _ _ (proc_ok ho)
  have pt : ∀ {p o t}, w.proc p = .ok o → o.t = some t → t.buf < w.next := fun ho ht => h.t _ _ _ (proc_ok ho) ht
  have pf : ∀ {p o s t t'}, w.proc p = .ok o → finalize o.t s = .ok t → t = some t' → t'.buf < w.next := by
    intro p o s t t' ho ht e
    obtain ⟨v, hv, ⟨-, h2⟩ | ⟨-, h2⟩⟩ := finalize_ok ht
    · rw [h2] at e
      cases e
      exact pt ho hv
    · rw [h2] at e
      cases e
  cases s <;> simp only [World.step] at e
  case array s v =>
    cases e; exact (h.alloc _).pushArr (fresh_lt _ _)
  case setItem a i k =>
    split at e
    · cases e
    · split at e
      · cases e; exact ⟨h.arr, h.x, h.t, h.dt⟩
      · cases e
  case process t x =>
    split at e
    · cases e
    · rename_i t ht
      split at e
      · cases e
      · rename_i x hx
        exact h.pushNew (h.arr _ _ (arr_ok hx)) (fun t' e' => by cases e'; exact h.arr _ _ (arr_ok ht)) e
  case setValue p i k =>
    split at e
    · cases e
    · split at e
      · cases e; exact ⟨h.arr, h.x, h.t, h.dt⟩
      · cases e
  case bindT p a =>
    split at e
    · cases e
    · rename_i o ho
      split at e
      · cases e
      · rename_i v hv
        split at e
        · cases e
          refine h.setProc (h.x p o (proc_ok ho)) ?_ (fun d hd => h.dt p o d (proc_ok ho) hd)
          intro t ht
          cases ht
          exact h.arr _ _ (arr_ok hv)
        · cases e
  case t p =>
    split at e
    · cases e
    · rename_i o ho
      split at e
      · cases e
      · rename_i t ht
        cases e; exact h.pushArr (pt ho ht)
  case x p =>
    split at e
    · cases e
    · rename_i o ho
      cases e; exact h.pushArr (px ho)
  case tx p =>
    split at e
    · cases e
    · rename_i o ho
      split at e
      · cases e
      · rename_i t ht
        cases e
        have := pt ho ht
        exact h.pushArr (v := t.column _) this
  case dt p =>
    split at e
    · cases e
    · rename_i o ho
      split at e
      · cases e
      · rename_i w' d hd
        cases e
        have := h.dtOf (proc_ok ho) hd
        exact this.1.pushArr this.2
  case dtx p =>
    split at e
    · cases e
    · rename_i o ho
      split at e
      · cases e
      · rename_i w' d hd
        cases e
        have := h.dtOf (proc_ok ho) hd
        exact this.1.pushArr (v := d.column _) this.2
  case pcopy p =>
    split at e
    · cases e
    · rename_i o ho
      split at e
      · cases e
      · rename_i t ht
        refine ((h.alloc _).alloc _).pushNew (fresh_lt _ _) ?_ e
        intro t' e'
        cases e'
        exact Nat.lt_succ_of_lt (fresh_lt (w := w) _ (w.read t))
  case xcopy p =>
    split at e
    · cases e
    · rename_i o ho
      exact (h.alloc _).pushNew (fresh_lt _ _) (fun t' ht => Nat.lt_succ_of_lt (pt ho ht)) e
  case tcopy p =>
    split at e
    · cases e
    · rename_i o ho
      split at e
      · cases e
      · rename_i t ht
        refine (h.alloc _).pushNew (Nat.lt_succ_of_lt (px ho)) ?_ e
        intro t' e'
        cases e'
        exact fresh_lt _ _
  case times p n f =>
    split at e
    · cases e
    · rename_i o ho
      split at e
      · cases e
      · rename_i t ht
        split at e
        · have hx := px ho
          have ht := pt ho ht
          refine h.pushNew ?_ ?_ e
          · exact hx
          · intro t' e'
            cases e'
            exact ht
        · cases e
  case select p n f =>
    split at e
    · cases e
    · rename_i o ho
      have hx := px ho
      refine h.pushNew ?_ (fun t' ht => pt ho ht) e
      exact hx
  case template p s f =>
    split at e
    · cases e
    · rename_i o ho
      split at e
      · cases e
      · rename_i t ht
        cases e
        have hx := px ho
        exact h.pushProc (o := ⟨t, o.x.sel s f, none⟩) hx (fun t' e' => pf ho ht e') rfl
  case templateCopy p s f =>
    split at e
    · cases e
    · rename_i o ho
      split at e
      · cases e
      · rename_i t ht
        cases e
        exact (h.alloc _).pushProc (fresh_lt _ _) (fun t' e' => Nat.lt_succ_of_lt (pf ho ht e')) rfl
  case ufunc p g =>
    split at e
    · cases e
    · rename_i o ho
      exact (h.alloc _).pushNew (fresh_lt _ _) (fun t' ht => Nat.lt_succ_of_lt (pt ho ht)) e

theorem Alive.run (h : Alive w) (prog : List (Stmt K)) : Alive (w.run prog) := by
  induction prog generalizing w with
  | nil => exact h
  | cons s l ih =>
    refine ih (w := w.exec s) ?_
    unfold World.exec
    split
    · rename_i w' hw; exact h.step hw
    · exact h

omit [Sub K] in
theorem alive_empty [Zero K] : Alive (World.empty : World K) := by
  constructor <;> intro a <;> simp [World.empty]

end Sdepy
