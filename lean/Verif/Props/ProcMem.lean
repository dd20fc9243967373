import Verif.Lemmas.ProcMem
import Mathlib.Data.Rat.Defs
import Mathlib.Tactic.NormNum

/-!
# C72, C73: copies, shared memory, cached increments; methods inherited from `numpy.ndarray`

Properties are stated for the states `World.empty.run before` that are reached by any program `before`, and for any
program `after` that is executed next. What can be observed of a process are the times and the values it refers to,
at present.
-/

namespace Sdepy
namespace Spec
variable {K : Type}

/-- The timeline of a process, at present; `none` if there is none (or no such process). -/
def timelineOf (w : World K) (p : ℕ) : Option (Arr K) := (w.procs[p]?).bind fun o => o.t.map w.read

/-- The values of a process, at present. -/
def valuesOf (w : World K) (p : ℕ) : Option (Arr K) := (w.procs[p]?).map fun o => w.read o.x

/-- The items of an array, at present. -/
def arrayOf (w : World K) (a : ℕ) : Option (Arr K) := (w.arrs[a]?).map w.read

/-- A process with as many time points as values along its first axis: any process, as long as no array of another
shape has been assigned to its attribute `t`, and it is not the result of a method of `numpy.ndarray`. -/
def Regular (w : World K) (p : ℕ) : Prop :=
  ∃ t x n s, timelineOf w p = some t ∧ valuesOf w p = some x ∧ 0 < n ∧ t.shape = [n] ∧ x.shape = n :: s

end Spec

open Spec

section lemmas
variable {K : Type} {w w' w1 : World K}

theorem binds_procs {s : Stmt K} {p : ℕ} (h : p ∈ stmtBinds s) : p ∈ stmtProcs s := by
  cases s <;> simp_all [stmtBinds, stmtProcs]

theorem dts_procs {s : Stmt K} {p : ℕ} (h : p ∈ stmtDts s) : p ∈ stmtProcs s := by
  cases s <;> simp_all [stmtDts, stmtProcs]

theorem read_eq {v : View} (h : w'.mem v.buf = w.mem v.buf) : w'.read v = w.read v := by
  simp [World.read, h]

theorem timelineOf_some {p : ℕ} {o : PObj} (h : w.procs[p]? = some o) : timelineOf w p = o.t.map w.read := by
  simp [timelineOf, h]

theorem valuesOf_some {p : ℕ} {o : PObj} (h : w.procs[p]? = some o) : valuesOf w p = some (w.read o.x) := by
  simp [valuesOf, h]

/-- New buffers belong to the new process. -/
theorem owned_new (h : Alive w) {o : PObj} (ha : w1.arrs = w.arrs) (hp : w1.procs = w.procs ++ [o])
    (hd : o.dt = none) : Owned (fun b => w.next ≤ b ∧ b < w1.next) (fun _ => False) (fun p => p = w.procs.length)
      (fun _ => False) w1.mem w1 where
  arr a v hv hb := by
    rw [ha] at hv
    exact absurd (h.arr a v hv) (by omega)
  x p o' ho hb := by
    rw [hp] at ho
    rcases getElem?_concat ho with ho | ⟨e, _⟩
    · exact absurd (h.x p o' ho) (by omega)
    · exact e
  t p o' t ho ht hb := by
    rw [hp] at ho
    rcases getElem?_concat ho with ho | ⟨e, _⟩
    · exact absurd (h.t p o' t ho ht) (by omega)
    · exact e
  dt p o' d ho hd' hb := by
    rw [hp] at ho
    rcases getElem?_concat ho with ho | ⟨e, rfl⟩
    · exact absurd (h.dt p o' d ho hd') (by omega)
    · rw [hd] at hd'; cases hd'
  lt b hb := hb.2
  mem b _ := rfl

theorem read_alloc_fresh (a : Arr K) : ((w.alloc a).read (w.freshView a.shape)).Same a := by
  refine ⟨rfl, fun i hi => ?_⟩
  simp only [World.read, World.alloc, World.freshView] at hi ⊢
  rw [Function.update_self, unravel_ravel hi]

theorem alloc_mem (a : Arr K) {b : ℕ} (h : b < w.next) : (w.alloc a).mem b = w.mem b :=
  Function.update_of_ne (Nat.ne_of_lt h) _ _

theorem vector_eq {t : View} (h : t.shape ≠ []) : t.vector = t := by simp [View.vector, h]

theorem concat_self {α : Type} (l : List α) (a : α) : (l ++ [a])[l.length]? = some a := by simp

variable [Sub K]

theorem pcopy_ok {p : ℕ} (e : w.step (.pcopy p) = .ok w') : ∃ o t, w.procs[p]? = some o ∧ o.t = some t ∧
    w' = ((w.alloc (w.read t)).alloc (w.read o.x)).pushProc
      ⟨some (w.freshView t.shape).vector, (w.alloc (w.read t)).freshView o.x.shape, none⟩ := by
  simp only [World.step] at e
  split at e
  · cases e
  · rename_i o ho
    split at e
    · cases e
    · rename_i t ht
      obtain ⟨t', h1, -, h3⟩ := pushNew_ok e
      cases h1
      exact ⟨o, t, proc_ok ho, ht, h3⟩

theorem xcopy_ok {p : ℕ} (e : w.step (.xcopy p) = .ok w') : ∃ o t, w.procs[p]? = some o ∧ o.t = some t ∧
    w' = (w.alloc (w.read o.x)).pushProc ⟨some t.vector, w.freshView o.x.shape, none⟩ := by
  simp only [World.step] at e
  split at e
  · cases e
  · rename_i o ho
    obtain ⟨t', h1, -, h3⟩ := pushNew_ok e
    exact ⟨o, t', proc_ok ho, h1, h3⟩

theorem tcopy_ok {p : ℕ} (e : w.step (.tcopy p) = .ok w') : ∃ o t, w.procs[p]? = some o ∧ o.t = some t ∧
    w' = (w.alloc (w.read t)).pushProc ⟨some (w.freshView t.shape).vector, o.x, none⟩ := by
  simp only [World.step] at e
  split at e
  · cases e
  · rename_i o ho
    split at e
    · cases e
    · rename_i t ht
      obtain ⟨t', h1, -, h3⟩ := pushNew_ok e
      cases h1
      exact ⟨o, t, proc_ok ho, ht, h3⟩

theorem ufunc_ok {p : ℕ} {g : K → K} (e : w.step (.ufunc p g) = .ok w') : ∃ o t, w.procs[p]? = some o ∧ o.t = some t ∧
    w' = (w.alloc ⟨o.x.shape, fun i => g ((w.read o.x).get i)⟩).pushProc
      ⟨some t.vector, w.freshView o.x.shape, none⟩ := by
  simp only [World.step] at e
  split at e
  · cases e
  · rename_i o ho
    obtain ⟨t', h1, -, h3⟩ := pushNew_ok e
    exact ⟨o, t', proc_ok ho, h1, h3⟩

/-- The contents of the buffers of a new process are not changed by programs that do not mention it. -/
theorem new_mem (h : Alive w) {o : PObj} (ha : w1.arrs = w.arrs) (hp : w1.procs = w.procs ++ [o]) (hd : o.dt = none)
    {after : List (Stmt K)} (hq : ∀ s ∈ after, w.procs.length ∉ stmtProcs s) {b : ℕ} (h1 : w.next ≤ b)
    (h2 : b < w1.next) : (w1.run after).mem b = w1.mem b := by
  refine ((owned_new h ha hp hd).run (prog := after) ?_ ?_ ?_).mem b ⟨h1, h2⟩
  · exact fun _ _ _ _ h => h
  · intro s hs p hp' e
    subst e
    exact hq s hs hp'
  · exact fun _ _ _ _ h => h

/-- Two processes that refer to the same timeline, at all times. -/
theorem same_timeline {p q : ℕ} {o o' : PObj} (hp : w.procs[p]? = some o) (hq : w.procs[q]? = some o') (ht : o'.t = o.t)
    (after : List (Stmt K)) (hb : ∀ s ∈ after, p ∉ stmtBinds s ∧ q ∉ stmtBinds s) :
    timelineOf (w.run after) q = timelineOf (w.run after) p := by
  obtain ⟨o1, h1, -, h3, -⟩ := run_proc (prog := after) hp
  obtain ⟨o2, g1, -, g3, -⟩ := run_proc (prog := after) hq
  rw [timelineOf_some h1, timelineOf_some g1, h3 fun s hs => (hb s hs).1, g3 fun s hs => (hb s hs).2, ht]

/-- Two processes that refer to the same values, at all times. -/
theorem same_values {p q : ℕ} {o o' : PObj} (hp : w.procs[p]? = some o) (hq : w.procs[q]? = some o') (hx : o'.x = o.x)
    (after : List (Stmt K)) : valuesOf (w.run after) q = valuesOf (w.run after) p := by
  obtain ⟨o1, h1, h2, -⟩ := run_proc (prog := after) hp
  obtain ⟨o2, g1, g2, -⟩ := run_proc (prog := after) hq
  rw [valuesOf_some h1, valuesOf_some g1, h2, g2, hx]

theorem regular_views {p : ℕ} (h : Regular w p) : ∃ o t n s, w.procs[p]? = some o ∧ o.t = some t ∧ 0 < n ∧
    t.shape = [n] ∧ o.x.shape = n :: s := by
  obtain ⟨t, x, n, s, h1, h2, h3, h4, h5⟩ := h
  simp only [timelineOf, valuesOf, Option.bind_eq_some_iff, Option.map_eq_some_iff] at h1 h2
  obtain ⟨o, ho, t', ht, rfl⟩ := h1
  obtain ⟨o', ho', rfl⟩ := h2
  rw [ho] at ho'
  cases ho'
  exact ⟨o, t', n, s, ho, ht, h3, h4, h5⟩

theorem proc_some {p : ℕ} {o : PObj} (h : w.procs[p]? = some o) : w.proc p = .ok o := by simp [World.proc, h]

theorem newProc_regular {t x : View} {n : ℕ} {s : List ℕ} (hn : 0 < n) (ht : t.shape = [n]) (hx : x.shape = n :: s) :
    newProc t x = .ok ⟨some t, x, none⟩ := by
  unfold newProc
  rw [if_neg, if_neg]
  · rw [vector_eq (by simp [ht])]
  · rw [vector_eq (by simp [ht]), ht, hx]; simp
  · rw [ht]; simp; omega

end lemmas

/-- Increments that have never been asked for are not cached. -/
theorem never_dt {K : Type} [Zero K] [Sub K] {before : List (Stmt K)} {p : ℕ} (hn : ∀ s ∈ before, p ∉ stmtDts s) :
    ∀ o, (World.empty.run before : World K).procs[p]? = some o → o.dt = none := by
  have key : ∀ (l : List (Stmt K)) (w : World K), (∀ s ∈ l, p ∉ stmtDts s) →
      (∀ o, w.procs[p]? = some o → o.dt = none) → ∀ o, (w.run l).procs[p]? = some o → o.dt = none := by
    intro l
    induction l with
    | nil => exact fun w _ h => h
    | cons s l ih =>
      intro w hl hw
      simp only [List.mem_cons, forall_eq_or_imp] at hl
      refine ih (w.exec s) hl.2 ?_
      intro o ho
      cases hp : w.procs[p]? with
      | some o' =>
        obtain ⟨o1, h1, -, -, -, h5⟩ := (later_exec s).proc p o' hp
        rw [ho] at h1
        cases h1
        rw [h5 hl.1, hw o' hp]
      | none =>
        -- a process that did not exist
        exact (later_exec s).new p o hp ho
  exact key before _ hn (by intro o h; simp [World.empty] at h)

section copies
theorem regular_push {K : Type} {w : World K} {t x : View} {n : ℕ} {s : List ℕ} (hn : 0 < n) (ht : t.shape = [n])
    (hx : x.shape = n :: s) : Regular (w.pushProc ⟨some t, x, none⟩) w.procs.length := by
  refine ⟨(w.pushProc ⟨some t, x, none⟩).read t, (w.pushProc ⟨some t, x, none⟩).read x, n, s, ?_, ?_, hn, ht, hx⟩
  · rw [timelineOf_some (concat_self _ _)]; rfl
  · rw [valuesOf_some (concat_self _ _)]

variable {K : Type} [Zero K] [Sub K]


/-- **C72** (copies are defined). Any regular process can be copied, in all three ways, and the copy is regular. -/
theorem C72_defined (before : List (Stmt K)) (p : ℕ) (h : Regular (World.empty.run before) p) :
    ∀ s ∈ [Stmt.pcopy p, .xcopy p, .tcopy p], ∃ w', (World.empty.run before).step s = .ok w' ∧
      Regular w' (World.empty.run before).procs.length := by
  obtain ⟨o, t, n, sh, h1, h2, h3, h4, h5⟩ := regular_views h
  generalize World.empty.run before = w at *
  intro s hs
  simp only [List.mem_cons, List.not_mem_nil, or_false] at hs
  rcases hs with rfl | rfl | rfl
  · simp only [World.step, proc_some h1, h2, World.pushNew]
    rw [newProc_regular h3 (t := w.freshView t.shape) h4 (x := World.freshView _ o.x.shape) h5]
    exact ⟨_, rfl, regular_push h3 h4 h5⟩
  · simp only [World.step, proc_some h1, h2, World.pushNew]
    rw [newProc_regular h3 h4 (x := w.freshView o.x.shape) h5]
    exact ⟨_, rfl, regular_push h3 h4 h5⟩
  · simp only [World.step, proc_some h1, h2, World.pushNew]
    rw [newProc_regular h3 (t := w.freshView t.shape) h4 h5]
    exact ⟨_, rfl, regular_push h3 h4 h5⟩

/-- **C72** (`pcopy`). After `q = p.pcopy()`, `q` has the times and the values of `p`; whatever is executed next, as
long as it does not mention `q`, leaves `q` as it is; and whatever is executed next, as long as it mentions only `q`
and what is created later, leaves all previous processes and arrays as they are. -/
theorem C72_pcopy (before : List (Stmt K)) (p : ℕ) (w' : World K) (hr : Regular (World.empty.run before) p)
    (e : (World.empty.run before).step (.pcopy p) = .ok w') :
    (∃ t x t' x', timelineOf (World.empty.run before) p = some t ∧ valuesOf (World.empty.run before) p = some x ∧
      timelineOf w' (World.empty.run before).procs.length = some t' ∧
      valuesOf w' (World.empty.run before).procs.length = some x' ∧ t'.Same t ∧ x'.Same x) ∧
    (∀ after, (∀ s ∈ after, (World.empty.run before).procs.length ∉ stmtProcs s) →
      timelineOf (w'.run after) (World.empty.run before).procs.length =
        timelineOf w' (World.empty.run before).procs.length ∧
      valuesOf (w'.run after) (World.empty.run before).procs.length =
        valuesOf w' (World.empty.run before).procs.length) ∧
    (∀ after, (∀ s ∈ after, (∀ a ∈ stmtArrs s, (World.empty.run before).arrs.length ≤ a) ∧
        ∀ p ∈ stmtProcs s, (World.empty.run before).procs.length ≤ p) →
      (∀ p < (World.empty.run before).procs.length,
        timelineOf (w'.run after) p = timelineOf (World.empty.run before) p ∧
        valuesOf (w'.run after) p = valuesOf (World.empty.run before) p) ∧
      ∀ a < (World.empty.run before).arrs.length, arrayOf (w'.run after) a = arrayOf (World.empty.run before) a) := by
  have al : Alive (World.empty.run before : World K) := alive_empty.run before
  obtain ⟨o0, t0, n, sh, r1, r2, r3, r4, r5⟩ := regular_views hr
  generalize World.empty.run before = w at *
  obtain ⟨o, t, ho, ht, rfl⟩ := pcopy_ok e
  have : o0 = o := Option.some.inj (r1.symm.trans ho)
  subst this
  have : t0 = t := Option.some.inj (r2.symm.trans ht)
  subst this
  have hv : (w.freshView t0.shape).vector = w.freshView t0.shape := vector_eq (by simp [World.freshView, r4])
  rw [hv]
  set w1 := (w.alloc (w.read t0)).alloc (w.read o0.x) with hw1
  have hx0 := al.x _ _ ho
  have ht0 := al.t _ _ _ ho ht
  refine ⟨?_, ?_, ?_⟩
  · refine ⟨w.read t0, _, w1.read (w.freshView t0.shape), _, ?_, valuesOf_some ho, ?_,
      valuesOf_some (concat_self _ _), ?_, ?_⟩
    · rw [timelineOf_some ho, ht]; rfl
    · rw [timelineOf_some (concat_self _ _)]; rfl
    · have h1 := read_alloc_fresh (w := w) (w.read t0)
      refine ⟨rfl, fun i hi => ?_⟩
      rw [← h1.2 i hi, hw1, read_eq (w := w.alloc (w.read t0)) (alloc_mem _ (Nat.lt_succ_self _))]
      rfl
    · have h1 := read_alloc_fresh (w := w.alloc (w.read t0)) (w.read o0.x)
      exact h1
  · intro after hq
    set w' := w1.pushProc ⟨some (w.freshView t0.shape), (w.alloc (w.read t0)).freshView o0.x.shape, none⟩ with hw'
    have hself : w'.procs[w.procs.length]? = some ⟨some (w.freshView t0.shape),
        (w.alloc (w.read t0)).freshView o0.x.shape, none⟩ := concat_self _ _
    obtain ⟨o1, h1, h2, h3, -⟩ := run_proc (prog := after) hself
    have h3 := h3 fun s hs hb => hq s hs (binds_procs hb)
    have hm : ∀ b, w.next ≤ b → b < w.next + 2 → (w'.run after).mem b = w'.mem b :=
      fun b hb1 hb2 => new_mem (w1 := w') al rfl rfl rfl hq hb1 hb2
    rw [timelineOf_some h1, valuesOf_some h1, timelineOf_some hself, valuesOf_some hself, h2, h3]
    refine ⟨?_, ?_⟩
    · simp only [Option.map_some]
      rw [read_eq (hm _ (Nat.le_refl _) (by simp [World.freshView]))]
    · rw [read_eq (hm _ (Nat.le_succ _) (by simp [World.freshView, World.alloc]))]
  · intro after hq
    set w' := w1.pushProc ⟨some (w.freshView t0.shape), (w.alloc (w.read t0)).freshView o0.x.shape, none⟩ with hw'
    have own : Owned (fun b => b < w.next) (fun a => a < w.arrs.length) (fun p => p < w.procs.length)
        (fun p => p < w.procs.length) w.mem w' := by
      constructor
      · intro a v hv _
        exact (List.getElem?_eq_some_iff.1 hv).1
      · intro p o hp hb
        rcases getElem?_concat hp with hp | ⟨_, rfl⟩
        · exact (List.getElem?_eq_some_iff.1 hp).1
        · exact absurd hb (by simp [World.freshView, World.alloc])
      · intro p o t hp ht hb
        rcases getElem?_concat hp with hp | ⟨_, rfl⟩
        · exact (List.getElem?_eq_some_iff.1 hp).1
        · cases ht
          exact absurd hb (by simp [World.freshView])
      · intro p o d hp hd hb
        rcases getElem?_concat hp with hp | ⟨_, rfl⟩
        · exact (List.getElem?_eq_some_iff.1 hp).1
        · cases hd
      · intro b hb
        exact Nat.lt_succ_of_lt (Nat.lt_succ_of_lt hb)
      · intro b hb
        change ((w.alloc (w.read t0)).alloc (w.read o0.x)).mem b = _
        rw [alloc_mem _ (Nat.lt_succ_of_lt hb), alloc_mem _ hb]
    have own := own.run (prog := after) (fun s hs a ha => Nat.not_lt.2 ((hq s hs).1 a ha))
      (fun s hs p hp => Nat.not_lt.2 ((hq s hs).2 p hp))
      (fun s hs p hp => Nat.not_lt.2 ((hq s hs).2 p (dts_procs hp)))
    refine ⟨?_, ?_⟩
    · intro p hp
      have hp0 : w.procs[p]? = some w.procs[p] := List.getElem?_eq_getElem hp
      have hp1 : w'.procs[p]? = some w.procs[p] := by
        change (w.procs ++ [_])[p]? = _
        rw [List.getElem?_append_left hp]; exact hp0
      obtain ⟨o1, h1, h2, h3, -⟩ := run_proc (prog := after) hp1
      have h3 := h3 fun s hs hb => absurd ((hq s hs).2 p (binds_procs hb)) (by omega)
      rw [timelineOf_some h1, valuesOf_some h1, timelineOf_some hp0, valuesOf_some hp0, h2, h3]
      refine ⟨?_, ?_⟩
      · cases hh : (w.procs[p]).t with
        | none => rfl
        | some v =>
          simp only [Option.map_some]
          rw [read_eq (own.mem _ (al.t _ _ _ hp0 hh))]
      · rw [read_eq (own.mem _ (al.x _ _ hp0))]
    · intro a ha
      have ha0 : w.arrs[a]? = some w.arrs[a] := List.getElem?_eq_getElem ha
      have ha1 : (w'.run after).arrs[a]? = some w.arrs[a] := run_arr (w := w') ha0
      simp only [arrayOf, ha0, ha1, Option.map_some]
      rw [read_eq (own.mem _ (al.arr _ _ ha0))]

/-- **C72** (`xcopy`). After `q = p.xcopy()`, `q` has the values of `p`, which programs that do not mention `q` leave as
they are; and `p` and `q` have the same timeline for ever, as long as none is assigned a new one. -/
theorem C72_xcopy (before : List (Stmt K)) (p : ℕ) (w' : World K) (hr : Regular (World.empty.run before) p)
    (e : (World.empty.run before).step (.xcopy p) = .ok w') :
    (∃ x x', valuesOf (World.empty.run before) p = some x ∧
      valuesOf w' (World.empty.run before).procs.length = some x' ∧ x'.Same x) ∧
    (∀ after, (∀ s ∈ after, (World.empty.run before).procs.length ∉ stmtProcs s) →
      valuesOf (w'.run after) (World.empty.run before).procs.length =
        valuesOf w' (World.empty.run before).procs.length) ∧
    (∀ after, (∀ s ∈ after, p ∉ stmtBinds s ∧ (World.empty.run before).procs.length ∉ stmtBinds s) →
      timelineOf (w'.run after) (World.empty.run before).procs.length = timelineOf (w'.run after) p) := by
  have al : Alive (World.empty.run before : World K) := alive_empty.run before
  obtain ⟨o0, t0, n, sh, r1, r2, r3, r4, r5⟩ := regular_views hr
  generalize World.empty.run before = w at *
  obtain ⟨o, t, ho, ht, rfl⟩ := xcopy_ok e
  have : o0 = o := Option.some.inj (r1.symm.trans ho)
  subst this
  have : t0 = t := Option.some.inj (r2.symm.trans ht)
  subst this
  rw [vector_eq (by simp [r4])]
  refine ⟨?_, ?_, ?_⟩
  · exact ⟨_, _, valuesOf_some ho, valuesOf_some (concat_self _ _), read_alloc_fresh (w := w) (w.read o0.x)⟩
  · intro after hq
    set w' := (w.alloc (w.read o0.x)).pushProc ⟨some t0, w.freshView o0.x.shape, none⟩ with hw'
    have hself : w'.procs[w.procs.length]? = some ⟨some t0, w.freshView o0.x.shape, none⟩ := concat_self _ _
    obtain ⟨o1, h1, h2, -⟩ := run_proc (prog := after) hself
    rw [valuesOf_some h1, valuesOf_some hself, h2]
    rw [read_eq (new_mem (w1 := w') al rfl rfl rfl hq (Nat.le_refl _) (Nat.lt_succ_self _))]
  · intro after hb
    refine same_timeline (o := o0) ?_ (concat_self _ _) ht.symm after hb
    change (w.procs ++ [_])[p]? = _
    rw [List.getElem?_append_left (List.getElem?_eq_some_iff.1 ho).1]; exact ho

/-- **C72** (`tcopy`). After `q = p.tcopy()`, `q` has the times of `p`, which programs that do not mention `q` leave as
they are; and `p` and `q` have the same values for ever. -/
theorem C72_tcopy (before : List (Stmt K)) (p : ℕ) (w' : World K) (hr : Regular (World.empty.run before) p)
    (e : (World.empty.run before).step (.tcopy p) = .ok w') :
    (∃ t t', timelineOf (World.empty.run before) p = some t ∧
      timelineOf w' (World.empty.run before).procs.length = some t' ∧ t'.Same t) ∧
    (∀ after, (∀ s ∈ after, (World.empty.run before).procs.length ∉ stmtProcs s) →
      timelineOf (w'.run after) (World.empty.run before).procs.length =
        timelineOf w' (World.empty.run before).procs.length) ∧
    (∀ after, valuesOf (w'.run after) (World.empty.run before).procs.length = valuesOf (w'.run after) p) := by
  have al : Alive (World.empty.run before : World K) := alive_empty.run before
  obtain ⟨o0, t0, n, sh, r1, r2, r3, r4, r5⟩ := regular_views hr
  generalize World.empty.run before = w at *
  obtain ⟨o, t, ho, ht, rfl⟩ := tcopy_ok e
  have : o0 = o := Option.some.inj (r1.symm.trans ho)
  subst this
  have : t0 = t := Option.some.inj (r2.symm.trans ht)
  subst this
  rw [vector_eq (t := w.freshView t0.shape) (by simp [World.freshView, r4])]
  refine ⟨?_, ?_, ?_⟩
  · refine ⟨w.read t0, _, ?_, ?_, read_alloc_fresh (w := w) (w.read t0)⟩
    · rw [timelineOf_some ho, ht]; rfl
    · rw [timelineOf_some (concat_self _ _)]; rfl
  · intro after hq
    set w' := (w.alloc (w.read t0)).pushProc ⟨some (w.freshView t0.shape), o0.x, none⟩ with hw'
    have hself : w'.procs[w.procs.length]? = some ⟨some (w.freshView t0.shape), o0.x, none⟩ := concat_self _ _
    obtain ⟨o1, h1, -, h3, -⟩ := run_proc (prog := after) hself
    have h3 := h3 fun s hs hb => hq s hs (binds_procs hb)
    rw [timelineOf_some h1, timelineOf_some hself, h3]
    simp only [Option.map_some]
    rw [read_eq (new_mem (w1 := w') al rfl rfl rfl hq (Nat.le_refl _) (Nat.lt_succ_self _))]
  · intro after
    refine same_values (o := o0) (o' := ⟨some (w.freshView t0.shape), o0.x, none⟩) ?_ (concat_self _ _) rfl after
    change (w.procs ++ [_])[p]? = _
    rw [List.getElem?_append_left (List.getElem?_eq_some_iff.1 ho).1]; exact ho

/-- **C72** (results of ufuncs). The result `q` of a ufunc applied to `p` has its own values, `g` of those of `p`,
which programs that do not mention `q` leave as they are, and refers to the timeline of `p`. -/
theorem C72_ufunc (before : List (Stmt K)) (p : ℕ) (g : K → K) (w' : World K)
    (hr : Regular (World.empty.run before) p) (e : (World.empty.run before).step (.ufunc p g) = .ok w') :
    (∃ x x', valuesOf (World.empty.run before) p = some x ∧
      valuesOf w' (World.empty.run before).procs.length = some x' ∧ x'.Same ⟨x.shape, fun i => g (x.get i)⟩) ∧
    (∀ after, (∀ s ∈ after, (World.empty.run before).procs.length ∉ stmtProcs s) →
      valuesOf (w'.run after) (World.empty.run before).procs.length =
        valuesOf w' (World.empty.run before).procs.length) ∧
    (∀ after, (∀ s ∈ after, p ∉ stmtBinds s ∧ (World.empty.run before).procs.length ∉ stmtBinds s) →
      timelineOf (w'.run after) (World.empty.run before).procs.length = timelineOf (w'.run after) p) := by
  have al : Alive (World.empty.run before : World K) := alive_empty.run before
  obtain ⟨o0, t0, n, sh, r1, r2, r3, r4, r5⟩ := regular_views hr
  generalize World.empty.run before = w at *
  obtain ⟨o, t, ho, ht, rfl⟩ := ufunc_ok e
  have : o0 = o := Option.some.inj (r1.symm.trans ho)
  subst this
  have : t0 = t := Option.some.inj (r2.symm.trans ht)
  subst this
  rw [vector_eq (by simp [r4])]
  refine ⟨?_, ?_, ?_⟩
  · exact ⟨_, _, valuesOf_some ho, valuesOf_some (concat_self _ _), read_alloc_fresh (w := w) ⟨o0.x.shape, _⟩⟩
  · intro after hq
    set w' := (w.alloc ⟨o0.x.shape, fun i => g ((w.read o0.x).get i)⟩).pushProc
      ⟨some t0, w.freshView o0.x.shape, none⟩ with hw'
    have hself : w'.procs[w.procs.length]? = some ⟨some t0, w.freshView o0.x.shape, none⟩ := concat_self _ _
    obtain ⟨o1, h1, h2, -⟩ := run_proc (prog := after) hself
    rw [valuesOf_some h1, valuesOf_some hself, h2]
    rw [read_eq (new_mem (w1 := w') al rfl rfl rfl hq (Nat.le_refl _) (Nat.lt_succ_self _))]
  · intro after hb
    refine same_timeline (o := o0) ?_ (concat_self _ _) ht.symm after hb
    change (w.procs ++ [_])[p]? = _
    rw [List.getElem?_append_left (List.getElem?_eq_some_iff.1 ho).1]; exact ho

/-- **C72** (no copy upon creation). A process created from an array `t` of times and an array `x` of values has, for
ever, the times that `t` has at present (as long as it is not assigned a new timeline) and the values that `x` has. -/
theorem C72_reference (before : List (Stmt K)) (t x : ℕ) (w' : World K)
    (hv : ∀ a, arrayOf (World.empty.run before) t = some a → a.shape ≠ [])
    (e : (World.empty.run before).step (.process t x) = .ok w') (after : List (Stmt K)) :
    valuesOf (w'.run after) (World.empty.run before).procs.length = arrayOf (w'.run after) x ∧
    ((∀ s ∈ after, (World.empty.run before).procs.length ∉ stmtBinds s) →
      timelineOf (w'.run after) (World.empty.run before).procs.length = arrayOf (w'.run after) t) := by
  generalize World.empty.run before = w at *
  simp only [World.step] at e
  split at e
  · cases e
  · rename_i tv ht
    split at e
    · cases e
    · rename_i xv hx
      obtain ⟨t', h1, -, rfl⟩ := pushNew_ok e
      cases h1
      have ht := arr_ok ht
      have hx := arr_ok hx
      have hs : tv.shape ≠ [] := hv (w.read tv) (by simp [arrayOf, ht])
      rw [vector_eq hs]
      obtain ⟨o1, h1, h2, h3, -⟩ := run_proc (prog := after)
        (show (w.pushProc ⟨some tv, xv, none⟩).procs[w.procs.length]? = some _ from concat_self _ _)
      have a1 : ((w.pushProc ⟨some tv, xv, none⟩).run after).arrs[t]? = some tv := run_arr ht
      have a2 : ((w.pushProc ⟨some tv, xv, none⟩).run after).arrs[x]? = some xv := run_arr hx
      rw [valuesOf_some h1, timelineOf_some h1, h2]
      refine ⟨?_, fun hb => ?_⟩
      · simp [arrayOf, a2]
      · rw [h3 hb]; simp [arrayOf, a1]

/-- **C72** (a single time). A process created with a number as its timeline has this number, which is not copied either,
as its only time. -/
theorem C72_scalar_time (before : List (Stmt K)) (t x : ℕ) (w' : World K)
    (hv : ∀ a, arrayOf (World.empty.run before) t = some a → a.shape = [])
    (e : (World.empty.run before).step (.process t x) = .ok w') (after : List (Stmt K))
    (hb : ∀ s ∈ after, (World.empty.run before).procs.length ∉ stmtBinds s) :
    ∃ τ a, timelineOf (w'.run after) (World.empty.run before).procs.length = some τ ∧ τ.shape = [1] ∧
      arrayOf (w'.run after) t = some a ∧ τ.get [0] = a.get [] := by
  generalize World.empty.run before = w at *
  simp only [World.step] at e
  split at e
  · cases e
  · rename_i tv ht
    split at e
    · cases e
    · rename_i xv hx
      obtain ⟨t', h1, -, rfl⟩ := pushNew_ok e
      cases h1
      have ht := arr_ok ht
      have hs : tv.shape = [] := hv (w.read tv) (by simp [arrayOf, ht])
      obtain ⟨o1, h1, -, h3, -⟩ := run_proc (prog := after)
        (show (w.pushProc ⟨some tv.vector, xv, none⟩).procs[w.procs.length]? = some _ from concat_self _ _)
      have a1 : ((w.pushProc ⟨some tv.vector, xv, none⟩).run after).arrs[t]? = some tv := run_arr ht
      rw [timelineOf_some h1, h3 hb]
      refine ⟨_, _, rfl, ?_, by simp only [arrayOf, a1]; rfl, ?_⟩ <;> simp [World.read, View.vector, hs]

/-- **C72** (cached increments). If the increments of the timeline of `p` have never been asked for, `p.dt` is an array
of the increments of its present timeline. Whatever is executed next, a further `p.dt` yields the same array; and,
unless the next statements mention this array or ask for it again, the increments `p.dt` yields are those computed
upon the first call, even if times have been modified or `p.t` has been assigned. -/
theorem C72_dt (before : List (Stmt K)) (p : ℕ) (w' : World K)
    (hn : ∀ s ∈ before, p ∉ stmtDts s) (e : (World.empty.run before).step (.dt p) = .ok w') :
    ∃ t d, timelineOf (World.empty.run before) p = some t ∧
      arrayOf w' (World.empty.run before).arrs.length = some d ∧ d.shape = [t.shape.headD 0 - 1] ∧
      (∀ k < t.shape.headD 0 - 1, d.get [k] = t.get [k + 1] - t.get [k]) ∧
      ∀ after, ∃ w'', (w'.run after).step (.dt p) = .ok w'' ∧
        w''.arrs[(w'.run after).arrs.length]? = w'.arrs[(World.empty.run before).arrs.length]? ∧
        ((∀ s ∈ after, (World.empty.run before).arrs.length ∉ stmtArrs s ∧ p ∉ stmtDts s) →
          arrayOf w'' (w'.run after).arrs.length = some d) := by
  have al : Alive (World.empty.run before : World K) := alive_empty.run before
  have hnone := never_dt hn
  generalize World.empty.run before = w at *
  simp only [World.step] at e
  split at e
  · cases e
  · rename_i o ho
    have ho := proc_ok ho
    split at e
    · cases e
    · rename_i w1 d hd
      cases e
      rcases dtOf_ok hd with ⟨h1, -⟩ | ⟨t, h1, h2, h3, h4⟩
      · rw [hnone o ho] at h1; cases h1
      · simp only at h3 h4
        subst h3
        have hlen : w1.arrs = w.arrs := by rw [h4]; rfl
        have hself : (w1.pushArr (w.freshView (diffArr (w.read t)).shape)).arrs[w.arrs.length]? =
            some (w.freshView (diffArr (w.read t)).shape) := by
          simp only [World.pushArr, hlen]; exact concat_self _ _
        have hproc : (w1.pushArr (w.freshView (diffArr (w.read t)).shape)).procs[p]? =
            some { o with dt := some (w.freshView (diffArr (w.read t)).shape) } := by
          simp only [World.pushArr, h4, World.setProc, World.alloc]
          exact List.getElem?_set_self (List.getElem?_eq_some_iff.1 ho).1
        have hmem : w1.mem = (w.alloc (diffArr (w.read t))).mem := by rw [h4]; rfl
        have hsame := read_alloc_fresh (w := w) (diffArr (w.read t))
        refine ⟨w.read t, w1.read (w.freshView (diffArr (w.read t)).shape), ?_, ?_, rfl, ?_, ?_⟩
        · rw [timelineOf_some ho, h2]; rfl
        · simp only [arrayOf, hself, Option.map_some]; rfl
        · intro k hk
          have := hsame.2 [k] (by
            change InRange [_ - 1] [k]
            exact List.Forall₂.cons hk .nil)
          rw [read_eq (w := w.alloc (diffArr (w.read t))) (by rw [hmem])]
          exact this
        · intro after
          obtain ⟨o1, g1, -, -, g4, -⟩ := run_proc (prog := after) hproc
          have g4 := g4 _ rfl
          refine ⟨((w1.pushArr (w.freshView (diffArr (w.read t)).shape)).run after).pushArr
            (w.freshView (diffArr (w.read t)).shape), ?_, ?_, ?_⟩
          · simp only [World.step, proc_some g1, World.dtOf, g4]
          · rw [hself]; exact concat_self _ _
          · intro hq
            have hc : (((w1.pushArr (w.freshView (diffArr (w.read t)).shape)).run after).pushArr
                (w.freshView (diffArr (w.read t)).shape)).arrs[((w1.pushArr
                (w.freshView (diffArr (w.read t)).shape)).run after).arrs.length]? =
                some (w.freshView (diffArr (w.read t)).shape) := concat_self _ _
            simp only [arrayOf, hc, Option.map_some]
            have own : Owned (fun b => b = w.next) (fun a => a = w.arrs.length) (fun _ => False) (fun q => q = p)
                w1.mem (w1.pushArr (w.freshView (diffArr (w.read t)).shape)) := by
              have hp1 : w1.procs = w.procs.set p { o with dt := some (w.freshView (diffArr (w.read t)).shape) } := by
                rw [h4]; rfl
              have hset : ∀ (q : ℕ) o', w1.procs[q]? = some o' →
                  (q = p ∧ o' = { o with dt := some (w.freshView (diffArr (w.read t)).shape) }) ∨
                  w.procs[q]? = some o' := by
                intro q o' hq
                rw [hp1, List.getElem?_set] at hq
                split at hq
                · split at hq
                  · cases hq; rename_i h _; exact .inl ⟨h.symm, rfl⟩
                  · cases hq
                · exact .inr hq
              constructor
              · intro a v ha hb
                rcases getElem?_concat ha with ha | ⟨ea, -⟩
                · rw [hlen] at ha
                  have := al.arr a v ha
                  omega
                · rw [ea, hlen]
              · intro q o' ho' hb
                rcases hset q o' ho' with ⟨-, rfl⟩ | hq
                · have := al.x p o ho
                  simp only at hb
                  omega
                · have := al.x q o' hq
                  omega
              · intro q o' t' ho' ht' hb
                rcases hset q o' ho' with ⟨-, rfl⟩ | hq
                · have := al.t p o t' ho ht'
                  omega
                · have := al.t q o' t' hq ht'
                  omega
              · intro q o' d' ho' hd' hb
                rcases hset q o' ho' with ⟨e, -⟩ | hq
                · exact e
                · have := al.dt q o' d' hq hd'
                  omega
              · intro b hb
                subst hb
                rw [h4]
                exact Nat.lt_succ_self _
              · intro b _; rfl
            have own := own.run (prog := after) (fun s hs a ha e => (hq s hs).1 (e ▸ ha)) (fun _ _ _ _ h => h)
              (fun s hs q hq' e => (hq s hs).2 (e ▸ hq'))
            congr 1
            exact read_eq (own.mem _ rfl)

/-- **C72** (indexing shares memory, times). After `q = p['t', key]`, where `key` is a slice that selects `n` positions
`f`, the times and the values of `q` are for ever those of `p` at the selected positions. -/
theorem C72_times (before : List (Stmt K)) (p n : ℕ) (f : ℕ → ℕ) (w' : World K)
    (e : (World.empty.run before).step (.times p n f) = .ok w') (after : List (Stmt K)) :
    (∃ x y, valuesOf (w'.run after) p = some x ∧ valuesOf (w'.run after) (World.empty.run before).procs.length = some y ∧
      y.shape = n :: x.shape.tail ∧ ∀ k i, y.get (k :: i) = x.get (f k :: i)) ∧
    ((∀ s ∈ after, p ∉ stmtBinds s ∧ (World.empty.run before).procs.length ∉ stmtBinds s) →
      ∃ t u, timelineOf (w'.run after) p = some t ∧
        timelineOf (w'.run after) (World.empty.run before).procs.length = some u ∧
        u.shape = [n] ∧ ∀ k, u.get [k] = t.get [f k]) := by
  generalize World.empty.run before = w at *
  simp only [World.step] at e
  split at e
  · cases e
  · rename_i o ho
    split at e
    · cases e
    · rename_i t ht
      split at e
      · obtain ⟨t', h1, -, rfl⟩ := pushNew_ok e
        cases h1
        rw [vector_eq (by simp [View.sel])]
        have ho := proc_ok ho
        have hp : (w.pushProc ⟨some (t.sel [n] fun i => [f (i.headD 0)]), o.x.sel (n :: o.x.shape.tail)
            fun i => f (i.headD 0) :: i.tail, none⟩).procs[p]? = some o := by
          change (w.procs ++ [_])[p]? = _
          rw [List.getElem?_append_left (List.getElem?_eq_some_iff.1 ho).1]; exact ho
        obtain ⟨o1, h1, h2, h3, -⟩ := run_proc (prog := after) hp
        obtain ⟨o2, g1, g2, g3, -⟩ := run_proc (prog := after)
          (show (w.pushProc ⟨some (t.sel [n] fun i => [f (i.headD 0)]), o.x.sel (n :: o.x.shape.tail)
            fun i => f (i.headD 0) :: i.tail, none⟩).procs[w.procs.length]? = some _ from concat_self _ _)
        refine ⟨⟨_, _, valuesOf_some h1, valuesOf_some g1, ?_, ?_⟩, fun hb => ?_⟩
        · rw [g2, h2]; rfl
        · intro k i; rw [g2, h2]; rfl
        · have h3 := h3 fun s hs => (hb s hs).1
          have g3 := g3 fun s hs => (hb s hs).2
          rw [timelineOf_some h1, timelineOf_some g1, h3, g3, ht]
          exact ⟨_, _, rfl, rfl, rfl, fun k => rfl⟩
      · cases e

/-- **C72** (indexing shares memory, values and paths). After `q = p['v', key]` or `q = p['p', key]`, where `key` is
made of integers and slices, or `q = p.shapeas(shape)`, the values of `q` at each time are for ever those of `p` that
the index selects (`f`), and its timeline is that of `p`. -/
theorem C72_select (before : List (Stmt K)) (p : ℕ) (sh : List ℕ) (f : List ℕ → List ℕ) (w' : World K)
    (hr : Regular (World.empty.run before) p) (e : (World.empty.run before).step (.select p sh f) = .ok w')
    (after : List (Stmt K)) :
    (∃ x y, valuesOf (w'.run after) p = some x ∧ valuesOf (w'.run after) (World.empty.run before).procs.length = some y ∧
      y.shape = x.shape.take 1 ++ sh ∧ ∀ k i, y.get (k :: i) = x.get (k :: f i)) ∧
    ((∀ s ∈ after, p ∉ stmtBinds s ∧ (World.empty.run before).procs.length ∉ stmtBinds s) →
      timelineOf (w'.run after) (World.empty.run before).procs.length = timelineOf (w'.run after) p) := by
  obtain ⟨o0, t0, n, s0, r1, r2, r3, r4, r5⟩ := regular_views hr
  generalize World.empty.run before = w at *
  simp only [World.step] at e
  split at e
  · cases e
  · rename_i o ho
    have ho := proc_ok ho
    have : o0 = o := Option.some.inj (r1.symm.trans ho)
    subst this
    obtain ⟨t', h1, -, rfl⟩ := pushNew_ok e
    rw [r2] at h1
    cases h1
    rw [vector_eq (by simp [r4])]
    have hp : (w.pushProc ⟨some t0, o0.x.sel (o0.x.shape.take 1 ++ sh) fun i => i.take 1 ++ f i.tail,
        none⟩).procs[p]? = some o0 := by
      change (w.procs ++ [_])[p]? = _
      rw [List.getElem?_append_left (List.getElem?_eq_some_iff.1 ho).1]; exact ho
    have hq : (w.pushProc ⟨some t0, o0.x.sel (o0.x.shape.take 1 ++ sh) fun i => i.take 1 ++ f i.tail,
        none⟩).procs[w.procs.length]? = some _ := concat_self _ _
    obtain ⟨o1, h1, h2, -⟩ := run_proc (prog := after) hp
    obtain ⟨o2, g1, g2, -⟩ := run_proc (prog := after) hq
    refine ⟨⟨_, _, valuesOf_some h1, valuesOf_some g1, ?_, ?_⟩, fun hb => ?_⟩
    · rw [g2, h2]; rfl
    · intro k i; rw [g2, h2]; rfl
    · exact same_timeline hp hq r2.symm after hb

/-- **C72** (`x`). The array `p.x` has for ever the values of `p`. -/
theorem C72_x (before : List (Stmt K)) (p : ℕ) (w' : World K) (e : (World.empty.run before).step (.x p) = .ok w')
    (after : List (Stmt K)) :
    ∃ x, valuesOf (w'.run after) p = some x ∧ arrayOf (w'.run after) (World.empty.run before).arrs.length = some x := by
  generalize World.empty.run before = w at *
  simp only [World.step] at e
  split at e
  · cases e
  · rename_i o ho
    cases e
    obtain ⟨o1, h1, h2, -⟩ := run_proc (prog := after) (show (w.pushArr o.x).procs[p]? = some o from proc_ok ho)
    have ha : ((w.pushArr o.x).run after).arrs[w.arrs.length]? = some o.x := run_arr (concat_self _ _)
    refine ⟨_, valuesOf_some h1, ?_⟩
    rw [h2]
    simp [arrayOf, ha]

end copies

/-! ### C73 -/

section arrays
variable {K : Type} [Zero K] [Sub K]

omit [Zero K] [Sub K] in
theorem bcIdxRev_ones (js : List ℕ) (n i : ℕ) :
    bcIdxRev (List.replicate js.length 1 ++ [n]) (js ++ [i]) =
      List.replicate js.length 0 ++ [if n = 1 then 0 else i] := by
  induction js with
  | nil => rfl
  | cons j js ih =>
    simp only [List.length_cons, List.replicate_succ, List.cons_append, bcIdxRev, if_true, List.tail_cons, ih]

omit [Zero K] [Sub K] in
theorem bget_column {w : World K} {t : View} {n k : ℕ} {s i : List ℕ} {m : ℕ} (ht : t.shape = [n]) (hk : k < n)
    (hi : i.length = s.length) :
    (w.read (t.column (m :: s))).bget (k :: i) = (w.read t).get [k] := by
  have h1 : (w.read (t.column (m :: s))).shape = n :: List.replicate i.length 1 := by
    simp [World.read, View.column, ht, List.map_const', hi]
  unfold Arr.bget
  rw [h1]
  have := bcIdxRev_ones i.reverse n k
  rw [List.length_reverse] at this
  rw [List.reverse_cons, List.reverse_replicate, List.reverse_cons, this]
  simp only [List.reverse_append, List.reverse_replicate, List.reverse_cons, List.reverse_nil, List.nil_append,
    List.singleton_append, World.read, View.column, ht, List.length_singleton, List.take_succ_cons, List.take_zero]
  congr 3
  split
  · omega
  · rfl

omit [Zero K] [Sub K] in
theorem column_bcOk {w : World K} {t : View} {n : ℕ} {s : List ℕ} (ht : t.shape = [n]) :
    BcOk (w.read (t.column (n :: s))).shape (n :: s) := by
  have h1 : (w.read (t.column (n :: s))).shape = n :: List.replicate s.length 1 := by
    simp [World.read, View.column, ht, List.map_const']
  rw [h1]
  unfold BcOk
  rw [List.reverse_cons, List.reverse_cons, List.reverse_replicate]
  have key : ∀ l : List ℕ, bcOkRev (List.replicate l.length 1 ++ [n]) (l ++ [n]) := by
    intro l
    induction l with
    | nil => simp [bcOkRev]
    | cons a l ih =>
      simp only [List.length_cons, List.replicate_succ, List.cons_append, bcOkRev]
      exact ⟨.inl trivial, ih⟩
  have := key s.reverse
  rwa [List.length_reverse] at this

/-- **C73** (`tx`). The array `p.tx` can be broadcast to the shape of `p`, and then has at each item, for ever, the time
of that item, whatever is executed next, as long as `p` is not assigned a new timeline. -/
theorem C73_tx (before : List (Stmt K)) (p : ℕ) (w' : World K) (hr : Regular (World.empty.run before) p)
    (e : (World.empty.run before).step (.tx p) = .ok w') (after : List (Stmt K)) (hb : ∀ s ∈ after, p ∉ stmtBinds s) :
    ∃ t x a, timelineOf (w'.run after) p = some t ∧ valuesOf (w'.run after) p = some x ∧
      arrayOf (w'.run after) (World.empty.run before).arrs.length = some a ∧ BcOk a.shape x.shape ∧
      ∀ k i, InRange x.shape (k :: i) → a.bget (k :: i) = t.get [k] := by
  obtain ⟨o, t, n, s, r1, r2, r3, r4, r5⟩ := regular_views hr
  generalize World.empty.run before = w at *
  simp only [World.step, proc_some r1, r2] at e
  cases e
  obtain ⟨o1, h1, h2, h3, -⟩ := run_proc (prog := after)
    (show (w.pushArr (t.column o.x.shape)).procs[p]? = some o from r1)
  have ha : ((w.pushArr (t.column o.x.shape)).run after).arrs[w.arrs.length]? = some (t.column o.x.shape) :=
    run_arr (concat_self _ _)
  generalize (w.pushArr (t.column o.x.shape)).run after = w2 at *
  refine ⟨w2.read t, w2.read o.x, w2.read (t.column o.x.shape), ?_, ?_, ?_, ?_, ?_⟩
  · rw [timelineOf_some h1, h3 hb, r2]; rfl
  · rw [valuesOf_some h1, h2]
  · simp [arrayOf, ha]
  · have hs : (w2.read o.x).shape = n :: s := r5
    rw [hs, r5]
    exact column_bcOk r4
  · intro k i hi
    have hs : (w2.read o.x).shape = n :: s := r5
    rw [hs] at hi
    rw [r5]
    rcases List.forall₂_cons.1 hi with ⟨hk, hi⟩
    exact bget_column r4 hk hi.length_eq

/-- **C73** (`dtx`). If the increments of the timeline of `p` have never been asked for, `p.dtx` is an array with as
many axes as `p`, one increment for each pair of consecutive time points, and a single item along all other axes,
so that each increment applies to all values and paths at that time. -/
theorem C73_dtx (before : List (Stmt K)) (p : ℕ) (w' : World K) (hr : Regular (World.empty.run before) p)
    (hn : ∀ s ∈ before, p ∉ stmtDts s)
    (e : (World.empty.run before).step (.dtx p) = .ok w') :
    ∃ t x a, timelineOf (World.empty.run before) p = some t ∧ valuesOf (World.empty.run before) p = some x ∧
      arrayOf w' (World.empty.run before).arrs.length = some a ∧
      a.shape = (t.shape.headD 0 - 1) :: List.replicate (x.shape.length - 1) 1 ∧
      ∀ k i, k + 1 < t.shape.headD 0 → InRange x.shape.tail i → a.bget (k :: i) = t.get [k + 1] - t.get [k] := by
  have hn := never_dt hn
  obtain ⟨o, t, n, s, r1, r2, r3, r4, r5⟩ := regular_views hr
  generalize World.empty.run before = w at *
  simp only [World.step, proc_some r1] at e
  split at e
  · cases e
  · rename_i w1 d hd
    cases e
    rcases dtOf_ok hd with ⟨h1, -⟩ | ⟨t', h1, h2, h3, h4⟩
    · rw [hn o r1] at h1; cases h1
    · simp only at h3 h4
      rw [r2] at h2
      cases h2
      have hlen : w1.arrs = w.arrs := by rw [h4]; rfl
      have hmem : w1.mem = (w.alloc (diffArr (w.read t))).mem := by rw [h4]; rfl
      have ha : (w1.pushArr (d.column o.x.shape)).arrs[w.arrs.length]? = some (d.column o.x.shape) := by
        simp only [World.pushArr, hlen]; exact concat_self _ _
      have hds : d.shape = [n - 1] := by rw [h3]; simp [World.freshView, diffArr, World.read, r4]
      refine ⟨w.read t, w.read o.x, w1.read (d.column o.x.shape), ?_, valuesOf_some r1, ?_, ?_, ?_⟩
      · rw [timelineOf_some r1, r2]; rfl
      · simp only [arrayOf, ha, Option.map_some]; rfl
      · simp [World.read, View.column, hds, r5, r4, List.map_const']
      · intro k i hk hi
        have hk' : k < n - 1 := by
          simp only [World.read, r4, List.headD_cons] at hk; omega
        have hi' : InRange s i := by
          simp only [World.read, r5, List.tail_cons] at hi; exact hi
        rw [r5, bget_column hds hk' hi'.length_eq, read_eq (w := w.alloc (diffArr (w.read t))) (by rw [hmem]), h3]
        refine (read_alloc_fresh (w := w) (diffArr (w.read t))).2 [k] ?_
        change InRange [(w.read t).shape.headD 0 - 1] [k]
        exact List.Forall₂.cons (by omega) .nil

/-- **C73** (methods of `numpy.ndarray` that return views). Such a method, called on a process that has a timeline,
returns the values that it would return for the array of values, and refers to them for ever. The result has the
timeline of the process, by reference, if its first axis has the same length, and none otherwise. -/
theorem C73_view_partial (before : List (Stmt K)) (p : ℕ) (sh : List ℕ) (f : List ℕ → List ℕ)
    (t : Arr K) (ht : timelineOf (World.empty.run before) p = some t) :
    ∃ w', (World.empty.run before).step (.template p sh f) = .ok w' ∧
      (∀ after, ∃ x y, valuesOf (w'.run after) p = some x ∧
        valuesOf (w'.run after) (World.empty.run before).procs.length = some y ∧ y.shape = sh ∧
        ∀ i, y.get i = x.get (f i)) ∧
      (t.shape = sh.take 1 → ∀ after,
        (∀ s ∈ after, p ∉ stmtBinds s ∧ (World.empty.run before).procs.length ∉ stmtBinds s) →
        timelineOf (w'.run after) (World.empty.run before).procs.length = timelineOf (w'.run after) p) ∧
      (t.shape ≠ sh.take 1 → timelineOf w' (World.empty.run before).procs.length = none) := by
  generalize World.empty.run before = w at *
  simp only [timelineOf, Option.bind_eq_some_iff, Option.map_eq_some_iff] at ht
  obtain ⟨o, ho, tv, htv, rfl⟩ := ht
  simp only [World.step, proc_some ho, htv, finalize]
  have hp : ∀ t', (w.pushProc ⟨t', o.x.sel sh f, none⟩).procs[p]? = some o := by
    intro t'
    change (w.procs ++ [_])[p]? = _
    rw [List.getElem?_append_left (List.getElem?_eq_some_iff.1 ho).1]; exact ho
  have hq : ∀ t', (w.pushProc ⟨t', o.x.sel sh f, none⟩).procs[w.procs.length]? = some ⟨t', o.x.sel sh f, none⟩ :=
    fun t' => concat_self _ _
  have hval : ∀ t' after, ∃ x y, valuesOf ((w.pushProc ⟨t', o.x.sel sh f, none⟩).run after) p = some x ∧
      valuesOf ((w.pushProc ⟨t', o.x.sel sh f, none⟩).run after) w.procs.length = some y ∧ y.shape = sh ∧
        ∀ i, y.get i = x.get (f i) := by
    intro t' after
    obtain ⟨o1, h1, h2, -⟩ := run_proc (prog := after) (hp t')
    obtain ⟨o2, g1, g2, -⟩ := run_proc (prog := after) (hq t')
    refine ⟨_, _, valuesOf_some h1, valuesOf_some g1, ?_, ?_⟩
    · rw [g2]; rfl
    · intro i; rw [g2, h2]; rfl
  by_cases h : tv.shape = sh.take 1
  · rw [if_neg (by simpa using h)]
    refine ⟨_, rfl, hval _, ?_, fun h' => absurd h h'⟩
    intro _ after hb
    exact same_timeline (hp _) (hq _) htv.symm after hb
  · rw [if_pos h]
    refine ⟨_, rfl, hval _, fun h' => absurd h' h, fun _ => ?_⟩
    rw [timelineOf_some (hq _)]; rfl

/-- **C73** (methods of `numpy.ndarray` that return new values). Such a method, called on a process that has a timeline,
returns the values that it would return for the array of values; programs that do not mention the result leave its
values as they are. The result has the timeline of the process, by reference, if its first axis has the same length,
and none otherwise. -/
theorem C73_new_partial (before : List (Stmt K)) (p : ℕ) (sh : List ℕ) (f : List ℕ → List ℕ)
    (t : Arr K) (ht : timelineOf (World.empty.run before) p = some t) :
    ∃ w' x, (World.empty.run before).step (.templateCopy p sh f) = .ok w' ∧
      valuesOf (World.empty.run before) p = some x ∧
      (∀ after, (∀ s ∈ after, (World.empty.run before).procs.length ∉ stmtProcs s) →
        ∃ y, valuesOf (w'.run after) (World.empty.run before).procs.length = some y ∧
          y.Same ⟨sh, fun i => x.get (f i)⟩) ∧
      (t.shape = sh.take 1 → ∀ after,
        (∀ s ∈ after, p ∉ stmtBinds s ∧ (World.empty.run before).procs.length ∉ stmtBinds s) →
        timelineOf (w'.run after) (World.empty.run before).procs.length = timelineOf (w'.run after) p) ∧
      (t.shape ≠ sh.take 1 → timelineOf w' (World.empty.run before).procs.length = none) := by
  have al : Alive (World.empty.run before : World K) := alive_empty.run before
  generalize World.empty.run before = w at *
  simp only [timelineOf, Option.bind_eq_some_iff, Option.map_eq_some_iff] at ht
  obtain ⟨o, ho, tv, htv, rfl⟩ := ht
  simp only [World.step, proc_some ho, htv, finalize]
  have hp : ∀ t', ((w.alloc (w.read (o.x.sel sh f))).pushProc ⟨t', w.freshView sh, none⟩).procs[p]? = some o := by
    intro t'
    change (w.procs ++ [_])[p]? = _
    rw [List.getElem?_append_left (List.getElem?_eq_some_iff.1 ho).1]; exact ho
  have hq : ∀ t', ((w.alloc (w.read (o.x.sel sh f))).pushProc ⟨t', w.freshView sh, none⟩).procs[w.procs.length]? =
      some ⟨t', w.freshView sh, none⟩ := fun t' => concat_self _ _
  have hval : ∀ t' after, (∀ s ∈ after, w.procs.length ∉ stmtProcs s) →
      ∃ y, valuesOf (((w.alloc (w.read (o.x.sel sh f))).pushProc ⟨t', w.freshView sh, none⟩).run after)
        w.procs.length = some y ∧ y.Same ⟨sh, fun i => (w.read o.x).get (f i)⟩ := by
    intro t' after hs
    obtain ⟨o2, g1, g2, -⟩ := run_proc (prog := after) (hq t')
    refine ⟨_, valuesOf_some g1, ?_⟩
    rw [g2, read_eq (new_mem (w1 := (w.alloc (w.read (o.x.sel sh f))).pushProc ⟨t', w.freshView sh, none⟩) al rfl rfl rfl
      hs (Nat.le_refl _) (Nat.lt_succ_self _))]
    exact read_alloc_fresh (w := w) (w.read (o.x.sel sh f))
  by_cases h : tv.shape = sh.take 1
  · rw [if_neg (by simpa using h)]
    refine ⟨_, _, rfl, valuesOf_some ho, hval _, ?_, fun h' => absurd h h'⟩
    intro _ after hb
    exact same_timeline (hp _) (hq _) htv.symm after hb
  · rw [if_pos h]
    refine ⟨_, _, rfl, valuesOf_some ho, hval _, fun h' => absurd h' h, fun _ => ?_⟩
    rw [timelineOf_some (hq _)]; rfl

/-- **C73** (processes without a timeline). On a process that is left without a timeline, as the result of a method of
`numpy.ndarray` that has changed its first axis, all further methods that return a process raise `AttributeError`;
copies, indexing and ufuncs raise as well. Only its values can be accessed. -/
theorem C73_no_timeline (before : List (Stmt K)) (p : ℕ) (x : Arr K)
    (hx : valuesOf (World.empty.run before) p = some x) (ht : timelineOf (World.empty.run before) p = none) :
    (∀ sh f, (World.empty.run before).step (.template p sh f) = .error .attributeError) ∧
    (∀ sh f, (World.empty.run before).step (.templateCopy p sh f) = .error .attributeError) ∧
    (World.empty.run before).step (.pcopy p) = .error .attributeError ∧
    (∀ g, (World.empty.run before).step (.ufunc p g) = .error .valueError) ∧
    (∃ w', (World.empty.run before).step (.x p) = .ok w' ∧
      arrayOf w' (World.empty.run before).arrs.length = some x) := by
  generalize World.empty.run before = w at *
  simp only [valuesOf, Option.map_eq_some_iff] at hx
  obtain ⟨o, ho, rfl⟩ := hx
  have hn : o.t = none := by
    rw [timelineOf_some ho] at ht
    simpa using ht
  refine ⟨?_, ?_, ?_, ?_, ?_⟩
  · intro sh f; simp only [World.step, proc_some ho, hn, finalize]
  · intro sh f; simp only [World.step, proc_some ho, hn, finalize]
  · simp only [World.step, proc_some ho, hn]
  · intro g; simp only [World.step, proc_some ho, hn, World.pushNew]
  · refine ⟨w.pushArr o.x, by simp only [World.step, proc_some ho], ?_⟩
    have : (w.pushArr o.x).arrs[w.arrs.length]? = some o.x := concat_self _ _
    simp only [arrayOf, this, Option.map_some]; rfl

end arrays

/-! ### Cases -/

/-- `t = array((0, 1))`, `x = array(((1, 2, 3), (4, 5, 6)))`, `p = process(t=t, x=x)`. -/
def demoMem : List (Stmt ℤ) :=
  [.array [2] fun i => i.headD 0, .array [2, 3] fun i => 1 + 3 * i.headD 0 + i.getLastD 0, .process 0 1]

theorem demoMem_regular : Regular (World.empty.run demoMem : World ℤ) 0 :=
  ⟨_, _, 2, [3], rfl, rfl, by decide, rfl, rfl⟩

/-- **C73**, negation of the claim that methods inherited from `numpy.ndarray` act on any process as they do on its
values: `p.reshape(6).copy()` raises `AttributeError`. -/
theorem C73_methods_false : ¬ ∀ (before : List (Stmt ℤ)) (p : ℕ) (x : Arr ℤ),
    valuesOf (World.empty.run before) p = some x → ∀ sh f,
      ∃ w', (World.empty.run before).step (.templateCopy p sh f) = .ok w' := by
  intro h
  obtain ⟨w', hw⟩ := h (demoMem ++ [.template 0 [6] fun i => [i.headD 0 / 3, i.headD 0 % 3]]) 1 _ rfl [6] id
  cases hw

-- the hypotheses of `C72_defined` and what follows, for concrete processes
example : ∃ w', (World.empty.run demoMem : World ℤ).step (.pcopy 0) = .ok w' ∧ Regular w' 1 :=
  C72_defined demoMem 0 demoMem_regular _ (by simp)

/-- Modify the first time and the first value of the process 0. -/
def demoWrite : List (Stmt ℤ) := [.setValue 0 [0, 0] 100, .t 0, .setItem 2 [0] (-7), .setItem 1 [1, 2] 50]

-- a full copy is not affected, while the process is
example : ∃ x y t u, valuesOf ((World.empty.run (demoMem ++ [.pcopy 0])).run demoWrite) 0 = some x ∧
    valuesOf ((World.empty.run (demoMem ++ [.pcopy 0])).run demoWrite) 1 = some y ∧
    timelineOf ((World.empty.run (demoMem ++ [.pcopy 0])).run demoWrite) 0 = some t ∧
    timelineOf ((World.empty.run (demoMem ++ [.pcopy 0])).run demoWrite) 1 = some u ∧
    x.get [0, 0] = 100 ∧ y.get [0, 0] = 1 ∧ x.get [1, 2] = 50 ∧ y.get [1, 2] = 6 ∧ t.get [0] = -7 ∧ u.get [0] = 0 :=
  ⟨_, _, _, _, rfl, rfl, rfl, rfl, by decide, by decide, by decide, by decide, by decide, by decide⟩

example : ∀ s ∈ demoWrite, (World.empty.run demoMem : World ℤ).procs.length ∉ stmtProcs s := by
  simp [demoWrite, demoMem, World.run, World.exec, World.step, stmtProcs, World.arr, World.alloc, World.pushArr,
    World.freshView, World.pushNew, newProc, View.vector, World.empty, World.pushProc]

example : ∃ w', (World.empty.run demoMem : World ℤ).step (.pcopy 0) = .ok w' ∧
    (valuesOf (w'.run demoWrite) 1 = valuesOf w' 1) := by
  obtain ⟨w', hw, -⟩ := C72_defined demoMem 0 demoMem_regular (.pcopy 0) (by simp)
  refine ⟨w', hw, ((C72_pcopy demoMem 0 w' demoMem_regular hw).2.1 demoWrite ?_).2⟩
  simp [demoWrite, demoMem, World.run, World.exec, World.step, stmtProcs, World.arr, World.alloc, World.pushArr,
    World.freshView, World.pushNew, newProc, View.vector, World.empty, World.pushProc]

-- values copied, timeline shared; timeline copied, values shared
example : ∃ y u, valuesOf ((World.empty.run (demoMem ++ [.xcopy 0])).run demoWrite) 1 = some y ∧
    timelineOf ((World.empty.run (demoMem ++ [.xcopy 0])).run demoWrite) 1 = some u ∧
    y.get [0, 0] = 1 ∧ u.get [0] = -7 := ⟨_, _, rfl, rfl, by decide, by decide⟩

example : ∃ y u, valuesOf ((World.empty.run (demoMem ++ [.tcopy 0])).run demoWrite) 1 = some y ∧
    timelineOf ((World.empty.run (demoMem ++ [.tcopy 0])).run demoWrite) 1 = some u ∧
    y.get [0, 0] = 100 ∧ u.get [0] = 0 := ⟨_, _, rfl, rfl, by decide, by decide⟩

example : ∃ w', (World.empty.run demoMem : World ℤ).step (.xcopy 0) = .ok w' ∧
    timelineOf (w'.run demoWrite) 1 = timelineOf (w'.run demoWrite) 0 := by
  obtain ⟨w', hw, -⟩ := C72_defined demoMem 0 demoMem_regular (.xcopy 0) (by simp)
  refine ⟨w', hw, (C72_xcopy demoMem 0 w' demoMem_regular hw).2.2 demoWrite ?_⟩
  simp [demoWrite, stmtBinds]

example : ∃ w', (World.empty.run demoMem : World ℤ).step (.tcopy 0) = .ok w' ∧
    valuesOf (w'.run demoWrite) 1 = valuesOf (w'.run demoWrite) 0 := by
  obtain ⟨w', hw, -⟩ := C72_defined demoMem 0 demoMem_regular (.tcopy 0) (by simp)
  exact ⟨w', hw, (C72_tcopy demoMem 0 w' demoMem_regular hw).2.2 demoWrite⟩

-- a ufunc
example : ∃ y u, valuesOf ((World.empty.run (demoMem ++ [.ufunc 0 (2 * ·)])).run demoWrite) 1 = some y ∧
    timelineOf ((World.empty.run (demoMem ++ [.ufunc 0 (2 * ·)])).run demoWrite) 1 = some u ∧
    y.get [1, 2] = 12 ∧ u.get [0] = -7 := ⟨_, _, rfl, rfl, by decide, by decide⟩

example : ∃ w', (World.empty.run demoMem : World ℤ).step (.ufunc 0 (2 * ·)) = .ok w' := ⟨_, rfl⟩

-- creation, hypotheses of `C72_reference`
example : ∃ w', (World.empty.run (demoMem.take 2) : World ℤ).step (.process 0 1) = .ok w' ∧
    ∀ a, arrayOf (World.empty.run (demoMem.take 2) : World ℤ) 0 = some a → a.shape ≠ [] := by
  refine ⟨_, rfl, ?_⟩
  intro a ha
  cases ha
  simp [World.read, World.freshView]

-- a number as timeline, hypotheses of `C72_scalar_time`
example : ∃ w', (World.empty.run [.array [] fun _ => 7, .array [1, 3] fun _ => 0] : World ℤ).step (.process 0 1) = .ok w' ∧
    ∀ a, arrayOf (World.empty.run [.array [] fun _ => 7, .array [1, 3] fun _ => 0] : World ℤ) 0 = some a → a.shape = [] := by
  refine ⟨_, rfl, ?_⟩
  intro a ha
  cases ha
  rfl

-- cached increments: `p.dt` is still `[1]` after times have become `[-7, 1]`, hypotheses of `C72_dt`
example : ∃ d, arrayOf (((World.empty.run (demoMem ++ [.dt 0])).run [.t 0, .setItem 3 [0] (-7)]).run [.dt 0]) 4 = some d ∧
    d.shape = [1] ∧ d.get [0] = 1 := ⟨_, rfl, rfl, by decide⟩

example : (∃ w', (World.empty.run demoMem : World ℤ).step (.dt 0) = .ok w') ∧ (∀ s ∈ demoMem, 0 ∉ stmtDts s) :=
  ⟨⟨_, rfl⟩, by simp [demoMem, stmtDts]⟩

-- indexing
example : ∃ w', (World.empty.run demoMem : World ℤ).step (.times 0 1 fun _ => 1) = .ok w' ∧
    ∃ y u, valuesOf (w'.run [.setValue 0 [1, 0] 9]) 1 = some y ∧ timelineOf w' 1 = some u ∧ y.shape = [1, 3] ∧
      y.get [0, 0] = 9 ∧ u.get [0] = 1 := ⟨_, rfl, _, _, rfl, rfl, rfl, by decide, by decide⟩

example : ∃ w', (World.empty.run demoMem : World ℤ).step (.select 0 [1] fun _ => [2]) = .ok w' ∧
    ∃ y, valuesOf (w'.run [.setValue 1 [1, 0] 9]) 0 = some y ∧ y.get [1, 2] = 9 := ⟨_, rfl, _, rfl, by decide⟩

example : ∃ w', (World.empty.run demoMem : World ℤ).step (.x 0) = .ok w' := ⟨_, rfl⟩

-- attributes
example : ∃ w' a, (World.empty.run demoMem : World ℤ).step (.tx 0) = .ok w' ∧ arrayOf w' 2 = some a ∧ a.shape = [2, 1] ∧
    a.bget [1, 2] = 1 := ⟨_, _, rfl, rfl, rfl, by decide⟩

example : ∃ w' a, (World.empty.run demoMem : World ℤ).step (.dtx 0) = .ok w' ∧ arrayOf w' 2 = some a ∧ a.shape = [1, 1] ∧
    a.bget [0, 2] = 1 := ⟨_, _, rfl, rfl, rfl, by decide⟩

-- methods of `numpy.ndarray`: `p.reshape(2, 3, 1)` keeps the timeline, `p.reshape(6)` does not
example : ∃ t, timelineOf (World.empty.run demoMem : World ℤ) 0 = some t ∧ t.shape = [2] := ⟨_, rfl, rfl⟩

example : ∃ u, timelineOf (World.empty.run (demoMem ++ [.template 0 [2, 3, 1] List.dropLast]) : World ℤ) 1 = some u ∧
    u.shape = [2] := ⟨_, rfl, rfl⟩

example : timelineOf (World.empty.run (demoMem ++ [.template 0 [6] fun i => [i.headD 0 / 3, i.headD 0 % 3]]) : World ℤ) 1 =
    none ∧ ∃ x, valuesOf (World.empty.run (demoMem ++ [.template 0 [6] fun i => [i.headD 0 / 3, i.headD 0 % 3]]) :
      World ℤ) 1 = some x ∧ x.get [4] = 5 := ⟨rfl, _, rfl, by decide⟩

end Sdepy
