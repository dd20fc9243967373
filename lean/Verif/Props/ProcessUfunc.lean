import Verif.Props.Process

/-!
# Ufuncs on processes
-/

namespace Sdepy

variable {T K : Type}

/-! ### Broadcasting of shapes with the same number of axes -/

/-- Two sizes may be matched. -/
def axOk (a b : ℕ) : Prop := a = b ∨ a = 1 ∨ b = 1

def ax2 (a b : ℕ) : ℕ := if a = b ∨ b = 1 then a else b

theorem bc2Rev_same {s t : List ℕ} (h : List.Forall₂ axOk s t) : bc2Rev s t = some (List.zipWith ax2 s t) := by
  induction h with
  | nil => rfl
  | @cons a b s t hab _ ih =>
    simp only [bc2Rev, ih, List.zipWith_cons_cons, Option.map_some, ax2]
    by_cases h1 : a = b ∨ b = 1
    · rw [if_pos h1, if_pos h1]
    · rw [if_neg h1, if_neg h1, if_pos]
      unfold axOk at hab
      tauto

theorem bcShape_same {s t : List ℕ} (h : List.Forall₂ axOk s t) : bcShape s t = some (List.zipWith ax2 s t) := by
  unfold bcShape
  rw [bc2Rev_same (List.rel_reverse h), Option.map_some, List.reverse_zipWith (by
    simpa using h.length_eq)]
  simp

theorem bc2Rev_length' {s t u : List ℕ} (h : bc2Rev s t = some u) : u.length = max s.length t.length := by
  induction s generalizing t u with
  | nil => simp [bc2Rev] at h; simp [h]
  | cons a s ih =>
    cases t with
    | nil => simp [bc2Rev] at h; simp [← h]
    | cons b t =>
      simp only [bc2Rev] at h
      have key : ∀ c, (bc2Rev s t).map (c :: ·) = some u → u.length = max (a :: s).length (b :: t).length := by
        intro c hc
        obtain ⟨v, hv, rfl⟩ := Option.map_eq_some_iff.1 hc
        have := ih hv
        simp [this]
      split at h
      · exact key _ h
      · split at h
        · exact key _ h
        · cases h

theorem bcShape_length' {s t u : List ℕ} (h : bcShape s t = some u) : u.length = max s.length t.length := by
  obtain ⟨v, hv, rfl⟩ := Option.map_eq_some_iff.1 h
  simpa using bc2Rev_length' hv

theorem bcOkRev_iff {s t : List ℕ} (h : s.length = t.length) :
    bcOkRev s t ↔ List.Forall₂ (fun a b => a = 1 ∨ a = b) s t := by
  induction s generalizing t with
  | nil => cases t <;> simp_all [bcOkRev]
  | cons a s ih =>
    cases t with
    | nil => simp at h
    | cons b t => simp [bcOkRev, ih (by simpa using h)]

theorem bcOk_iff {s t : List ℕ} (h : s.length = t.length) :
    BcOk s t ↔ List.Forall₂ (fun a b => a = 1 ∨ a = b) s t := by
  unfold BcOk
  rw [bcOkRev_iff (by simpa using h), List.forall₂_reverse_iff]

theorem bcOkRev_trans' {s t u : List ℕ} (h : bcOkRev s t) (h' : bcOkRev t u) : bcOkRev s u := by
  induction s generalizing t u with
  | nil => trivial
  | cons a s ih =>
    cases t with
    | nil => cases h
    | cons b t =>
      cases u with
      | nil => cases h'
      | cons c u =>
        obtain ⟨h1, h2⟩ := h
        obtain ⟨h3, h4⟩ := h'
        refine ⟨?_, ih h2 h4⟩
        rcases h1 with rfl | rfl
        · exact .inl rfl
        · exact h3

theorem bcShapes_ok {l : List (List ℕ)} {u : List ℕ} (h : bcShapes l = some u) : ∀ s ∈ l, BcOk s u := by
  induction l generalizing u with
  | nil => simp
  | cons a l ih =>
    simp only [bcShapes] at h
    split at h
    · cases h
    · rename_i t ht
      obtain ⟨h1, h2⟩ := bcShape_ok h
      intro s hs
      rcases List.mem_cons.1 hs with rfl | hs
      · exact h1
      · exact bcOkRev_trans' (ih ht s hs) h2

theorem bcShapes_length {l : List (List ℕ)} {u : List ℕ} {n : ℕ} (h : bcShapes l = some u)
    (hn : ∀ s ∈ l, s.length = n) (hl : l ≠ []) : u.length = n := by
  induction l generalizing u with
  | nil => exact absurd rfl hl
  | cons a l ih =>
    simp only [bcShapes] at h
    split at h
    · cases h
    · rename_i t ht
      rw [bcShape_length' h, hn a (by simp)]
      by_cases h0 : l = []
      · subst h0
        simp [bcShapes] at ht
        simp [ht]
      · rw [ih ht (fun s hs => hn s (by simp [hs])) h0]
        simp

theorem bcShape_nil (a : List ℕ) : bcShape a [] = some a := by
  unfold bcShape
  cases hs : a.reverse with
  | nil => rw [List.reverse_eq_nil_iff] at hs; simp [hs, bc2Rev]
  | cons b s =>
    have : a = (b :: s).reverse := by rw [← hs, List.reverse_reverse]
    simp [bc2Rev, this]

/-- Shapes with the same number of axes, any two of which match, can be broadcast together. -/
theorem bcShapes_some {l : List (List ℕ)} {n : ℕ} (hn : ∀ s ∈ l, s.length = n)
    (hp : ∀ s ∈ l, ∀ t ∈ l, List.Forall₂ axOk s t) :
    ∃ u, bcShapes l = some u ∧ (l ≠ [] → u.length = n) ∧
      ∀ k (h : k < u.length), ∃ s ∈ l, s[k]? = some u[k] := by
  induction l with
  | nil => exact ⟨[], rfl, by simp, by simp⟩
  | cons a l ih =>
    obtain ⟨t, ht, h1, h2⟩ := ih (fun s hs => hn s (by simp [hs]))
      (fun s hs t ht => hp s (by simp [hs]) t (by simp [ht]))
    by_cases h0 : l = []
    · subst h0
      simp [bcShapes] at ht
      subst ht
      refine ⟨a, by simp [bcShapes, bcShape_nil], fun _ => hn a (by simp), fun k hk => ⟨a, by simp, by simp [hk]⟩⟩
    · have hal : a.length = t.length := by rw [hn a (by simp), h1 h0]
      have hf : List.Forall₂ axOk a t := by
        rw [List.forall₂_iff_get]
        refine ⟨hal, fun k hk hk' => ?_⟩
        obtain ⟨s, hs, hsk⟩ := h2 k hk'
        have := hp a (by simp) s (by simp [hs])
        rw [List.forall₂_iff_get] at this
        obtain ⟨hk2, hsk⟩ := List.getElem?_eq_some_iff.1 hsk
        have := this.2 k hk hk2
        simp only [List.get_eq_getElem] at this ⊢
        rw [hsk] at this
        exact this
      refine ⟨List.zipWith ax2 a t, by simp only [bcShapes, ht]; exact bcShape_same hf,
        fun _ => by simp [hal]; rw [h1 h0], fun k hk => ?_⟩
      have hk1 : k < a.length := by simp at hk; omega
      have hk2 : k < t.length := by omega
      rw [List.getElem_zipWith]
      unfold ax2
      split
      · exact ⟨a, by simp, by simp [hk1]⟩
      · obtain ⟨s, hs, hsk⟩ := h2 k hk2
        exact ⟨s, by simp [hs], hsk⟩

/-- Value used for index `i`: axes of size one are repeated. -/
def Spec.axisIdx (shape i : List ℕ) : List ℕ := List.zipWith (fun n k => if n = 1 then 0 else k) shape i

theorem bcIdxRev_eq {s i : List ℕ} (h : i.length = s.length) : bcIdxRev s i = Spec.axisIdx s i := by
  induction s generalizing i with
  | nil => simp [bcIdxRev, Spec.axisIdx]
  | cons a s ih =>
    cases i with
    | nil => simp at h
    | cons b i =>
      have := ih (i := i) (by simpa using h)
      simp only [bcIdxRev, List.headD_cons, List.tail_cons, this]
      rfl

theorem bget_axis {a : Arr K} {i : List ℕ} (h : i.length = a.shape.length) :
    a.bget i = a.get (Spec.axisIdx a.shape i) := by
  unfold Arr.bget
  rw [bcIdxRev_eq (by simpa using h)]
  unfold Spec.axisIdx
  rw [← List.reverse_zipWith (by simp [h]), List.reverse_reverse]

/-! ### Ufuncs -/

/-- A process as created: the first axis has the size of the timeline. -/
def Spec.IsProc (p : Proc T K) : Prop := p.t ≠ [] ∧ p.x.shape.head? = some p.t.length

/-- Two processes may be operated on: same timeline, or one of them is constant in time; same number of
axes; along each of the other axes, same size or one of the sizes is one. -/
def Spec.Compatible (p q : Proc T K) : Prop :=
  (p.t = q.t ∨ p.t.length = 1 ∨ q.t.length = 1) ∧ p.x.shape.length = q.x.shape.length ∧
    ∀ (k : ℕ) m n, 0 < k → p.x.shape[k]? = some m → q.x.shape[k]? = some n → m = n ∨ m = 1 ∨ n = 1

open Spec

theorem IsProc.shape {p : Proc T K} (h : IsProc p) : p.x.shape = p.t.length :: p.x.shape.tail := by
  obtain ⟨-, h⟩ := h
  cases hs : p.x.shape with
  | nil => rw [hs] at h; cases h
  | cons a s => rw [hs] at h; simp at h; simp [h]

variable [DecidableEq T]

theorem isCompatible_iff {p q : Proc T K} (hp : IsProc p) (hq : IsProc q) :
    p.isCompatible q ↔ Compatible p q := by
  unfold Proc.isCompatible Compatible
  have h1 := IsProc.shape hp
  have h2 := IsProc.shape hq
  generalize p.x.shape.tail = s at *
  generalize q.x.shape.tail = t at *
  rw [h1, h2]
  refine and_congr Iff.rfl (and_congr (by simp) ?_)
  constructor
  · intro h k m n hk hm hn
    obtain ⟨k, rfl⟩ : ∃ j, k = j + 1 := ⟨k - 1, by omega⟩
    simp only [List.getElem?_cons_succ] at hm hn
    refine h (m, n) ?_
    rw [List.mem_iff_getElem?]
    exact ⟨k, by rw [List.getElem?_zip_eq_some]; exact ⟨hm, hn⟩⟩
  · rintro h ⟨m, n⟩ hz
    rw [List.mem_iff_getElem?] at hz
    obtain ⟨k, hk⟩ := hz
    rw [List.getElem?_zip_eq_some] at hk
    exact h (k + 1) m n (by omega) (by simpa using hk.1) (by simpa using hk.2)

theorem compatible_axes {p q : Proc T K} (hp : IsProc p) (hq : IsProc q) (h : Compatible p q) :
    List.Forall₂ axOk p.x.shape q.x.shape := by
  rw [List.forall₂_iff_get]
  refine ⟨h.2.1, fun k hk hk' => ?_⟩
  simp only [List.get_eq_getElem]
  cases k with
  | zero =>
    have h1 := IsProc.shape hp
    have h2 := IsProc.shape hq
    have e1 : p.x.shape[0] = p.t.length := by
      have := congrArg (fun l => l[0]?) h1
      simp only [List.getElem?_cons_zero] at this
      exact (List.getElem?_eq_some_iff.1 this).2
    have e2 : q.x.shape[0] = q.t.length := by
      have := congrArg (fun l => l[0]?) h2
      simp only [List.getElem?_cons_zero] at this
      exact (List.getElem?_eq_some_iff.1 this).2
    rw [e1, e2]
    unfold axOk
    rcases h.1 with h | h | h
    · rw [h]; exact .inl rfl
    · exact .inr (.inl h)
    · exact .inr (.inr h)
  | succ k =>
    exact h.2.2 (k + 1) _ _ (by omega) (List.getElem?_eq_getElem hk) (List.getElem?_eq_getElem hk')

theorem procs_map (l : List (Proc T K)) : Opd.procs (l.map .proc) = l := by
  induction l with
  | nil => rfl
  | cons p l ih => simp [Opd.procs, ih]

/-- What a ufunc on processes should return. -/
structure Spec.UfuncResult (f : List K → K) (ps : List (Proc T K)) (z : Proc T K) : Prop where
  isProc : IsProc z
  /-- the timeline of any operand that is not constant -/
  timeline : ∀ p ∈ ps, p.t.length ≠ 1 → z.t = p.t
  /-- or otherwise that of the first -/
  constant : (∀ p ∈ ps, p.t.length = 1) → ∀ p ∈ ps.head?, z.t = p.t
  axes : ∀ p ∈ ps, p.x.shape.length = z.x.shape.length
  sizes : ∀ p ∈ ps, ∀ (k : ℕ) m n, p.x.shape[k]? = some m → z.x.shape[k]? = some n → m = 1 ∨ m = n
  sizes' : ∀ (k : ℕ) n, z.x.shape[k]? = some n → ∃ p ∈ ps, p.x.shape[k]? = some n
  values : ∀ i, InRange z.x.shape i → z.x.get i = f (ps.map fun p => p.x.get (axisIdx p.x.shape i))

theorem IsProc.pos {p : Proc T K} (h : IsProc p) : 0 < p.t.length := List.length_pos_iff.2 h.1

theorem wrapTimeline_eq {p : Proc T K} {ps : List (Proc T K)} (hw : ∀ q ∈ p :: ps, IsProc q)
    (hc : ∀ q ∈ p :: ps, ∀ r ∈ p :: ps, Compatible q r) :
    (∀ q ∈ p :: ps, q.t.length ≠ 1 → wrapTimeline (p :: ps) = q.t) ∧
    ((∀ q ∈ p :: ps, q.t.length = 1) → wrapTimeline (p :: ps) = p.t) := by
  have hsame : ∀ q ∈ p :: ps, ∀ r ∈ p :: ps, q.t.length ≠ 1 → r.t.length ≠ 1 → q.t = r.t := by
    intro q hq r hr h1 h2
    have := (hc q hq r hr).1
    tauto
  simp only [wrapTimeline]
  cases hf : ps.find? fun a => decide (1 < a.t.length) with
  | some a =>
    have ha := List.mem_of_find?_eq_some hf
    have h1 : 1 < a.t.length := by simpa using List.find?_some hf
    refine ⟨fun q hq hq1 => hsame a (by simp [ha]) q hq (by omega) hq1, fun h => ?_⟩
    have := h a (by simp [ha])
    omega
  | none =>
    refine ⟨fun q hq hq1 => ?_, fun _ => rfl⟩
    rcases List.mem_cons.1 hq with rfl | hq'
    · rfl
    · have := List.find?_eq_none.1 hf q hq'
      have := IsProc.pos (hw q hq)
      simp at *
      omega

/-- **C43** (partial). A ufunc on processes, at most two or the first of which is not constant, raises
`ValueError` exactly if two of them are not compatible, and otherwise returns a process: its timeline is that
of the processes that are not constant, axes are never mixed, and each value is computed from the values of
the operands at the same time, component and path, repeating them along axes of size one. What is missing,
for three operands the first of which is constant, is false: see `C43_false`. -/
theorem C43_ufunc_partial (f : List K → K) (p : Proc T K) (ps : List (Proc T K))
    (hw : ∀ q ∈ p :: ps, IsProc q) (hpart : ps.length ≤ 1 ∨ p.t.length ≠ 1) :
    (¬ (∀ q ∈ p :: ps, ∀ r ∈ p :: ps, Compatible q r) →
      ufunc f ((p :: ps).map .proc) = .error .valueError) ∧
    ((∀ q ∈ p :: ps, ∀ r ∈ p :: ps, Compatible q r) →
      ∃ z, ufunc f ((p :: ps).map .proc) = .ok z ∧ UfuncResult f (p :: ps) z) := by
  have hu : ufunc f ((p :: ps).map .proc) =
      match bcShapes ((p :: ps).map fun q => q.x.shape) with
      | none => .error .valueError
      | some sh =>
        if ∀ a ∈ p :: ps, a.isCompatible p then
          Proc.make (wrapTimeline (p :: ps)) ⟨sh, fun i => f ((p :: ps).map fun q => q.x.bget i)⟩
        else .error .valueError := by
    unfold ufunc
    rw [procs_map]
    simp only [List.map_map, Function.comp_def, Opd.x]
    cases bcShapes ((p :: ps).map fun q => q.x.shape) <;> rfl
  constructor
  · intro hn
    rw [hu]
    split
    · rfl
    · rename_i sh hsh
      by_cases hcomp : ∀ a ∈ p :: ps, a.isCompatible p
      swap
      · rw [if_neg hcomp]
      exfalso
      apply hn
      have hcp : ∀ a ∈ p :: ps, Compatible a p := fun a ha =>
        (isCompatible_iff (hw a ha) (hw p (by simp))).1 (hcomp a ha)
      have hlen : ∀ s ∈ (p :: ps).map (fun q => q.x.shape), s.length = p.x.shape.length := by
        intro s hs
        obtain ⟨a, ha, rfl⟩ := List.mem_map.1 hs
        exact (hcp a ha).2.1
      have hbl := bcShapes_length hsh hlen (by simp)
      have hb := bcShapes_ok hsh
      intro q hq r hr
      have fq := (bcOk_iff (by rw [(hcp q hq).2.1, hbl])).1 (hb q.x.shape (List.mem_map.2 ⟨q, hq, rfl⟩))
      have fr := (bcOk_iff (by rw [(hcp r hr).2.1, hbl])).1 (hb r.x.shape (List.mem_map.2 ⟨r, hr, rfl⟩))
      refine ⟨?_, by rw [(hcp q hq).2.1, (hcp r hr).2.1], ?_⟩
      · rcases hpart with hpart | hpart
        · have : q = p ∨ r = p ∨ q = r := by
            match hps : ps, hpart with
            | [], _ => subst hps; simp at hq; exact .inl hq
            | [a], _ =>
              subst hps
              simp at hq hr
              rcases hq with rfl | rfl <;> rcases hr with rfl | rfl <;> simp
          rcases this with rfl | rfl | rfl
          · have := (hcp r hr).1
            rcases this with h | h | h
            · exact .inl h.symm
            · exact .inr (.inr h)
            · exact .inr (.inl h)
          · exact (hcp q hq).1
          · exact .inl rfl
        · have h1 := (hcp q hq).1
          have h2 := (hcp r hr).1
          rcases h1 with h1 | h1 | h1
          · rcases h2 with h2 | h2 | h2
            · exact .inl (h1.trans h2.symm)
            · exact .inr (.inr h2)
            · exact absurd h2 hpart
          · exact .inr (.inl h1)
          · exact absurd h1 hpart
      · intro k m n _ hm hn
        rw [List.forall₂_iff_get] at fq fr
        obtain ⟨hkq, rfl⟩ := List.getElem?_eq_some_iff.1 hm
        obtain ⟨hkr, rfl⟩ := List.getElem?_eq_some_iff.1 hn
        have e1 := fq.2 k hkq (fq.1 ▸ hkq)
        have e2 := fr.2 k hkr (fr.1 ▸ hkr)
        simp only [List.get_eq_getElem] at e1 e2
        rcases e1 with e1 | e1
        · exact .inr (.inl e1)
        · rcases e2 with e2 | e2
          · exact .inr (.inr e2)
          · exact .inl (e1.trans e2.symm)
  · intro hc
    have hlen : ∀ s ∈ (p :: ps).map (fun q => q.x.shape), s.length = p.x.shape.length := by
      intro s hs
      obtain ⟨a, ha, rfl⟩ := List.mem_map.1 hs
      exact (hc a ha p (by simp)).2.1
    obtain ⟨sh, hsh, h1, h2⟩ := bcShapes_some hlen (by
      intro s hs t ht
      obtain ⟨a, ha, rfl⟩ := List.mem_map.1 hs
      obtain ⟨b, hb, rfl⟩ := List.mem_map.1 ht
      exact compatible_axes (hw a ha) (hw b hb) (hc a ha b hb))
    have hl : sh.length = p.x.shape.length := h1 (by simp)
    have hb := bcShapes_ok hsh
    have hsz : ∀ q ∈ p :: ps, List.Forall₂ (fun a b => a = 1 ∨ a = b) q.x.shape sh := fun q hq =>
      (bcOk_iff (by rw [(hc q hq p (by simp)).2.1, hl])).1 (hb _ (List.mem_map.2 ⟨q, hq, rfl⟩))
    obtain ⟨w1, w2⟩ := wrapTimeline_eq hw hc
    have hhead : ∀ q ∈ p :: ps, q.x.shape[0]? = some q.t.length := by
      intro q hq
      rw [IsProc.shape (hw q hq)]; rfl
    have hsh0 : sh.head? = some (wrapTimeline (p :: ps)).length := by
      have hpl : 0 < sh.length := by
        rw [hl, IsProc.shape (hw p (by simp))]; simp
      obtain ⟨s, hs, hs0⟩ := h2 0 hpl
      obtain ⟨q, hq, rfl⟩ := List.mem_map.1 hs
      rw [hhead q hq, Option.some.injEq] at hs0
      rw [List.head?_eq_getElem?, List.getElem?_eq_getElem hpl, ← hs0]
      by_cases hq1 : q.t.length = 1
      · -- all operands are constant
        have hall : ∀ r ∈ p :: ps, r.t.length = 1 := by
          intro r hr
          have := hsz r hr
          rw [List.forall₂_iff_get] at this
          obtain ⟨hr0, hr1⟩ := List.getElem?_eq_some_iff.1 (hhead r hr)
          have := this.2 0 hr0 hpl
          simp only [List.get_eq_getElem] at this
          rw [hr1, ← hs0, hq1] at this
          tauto
        rw [w2 hall, hall p (by simp), hq1]
      · rw [w1 q hq hq1]
    have hne : wrapTimeline (p :: ps) ≠ [] := by
      by_cases hall : ∀ q ∈ p :: ps, q.t.length = 1
      · rw [w2 hall]; exact (hw p (by simp)).1
      · push Not at hall
        obtain ⟨q, hq, hq1⟩ := hall
        rw [w1 q hq hq1]; exact (hw q hq).1
    refine ⟨⟨wrapTimeline (p :: ps), ⟨sh, fun i => f ((p :: ps).map fun q => q.x.bget i)⟩⟩, ?_, ?_⟩
    · rw [hu, hsh]
      simp only
      rw [if_pos (fun a ha => (isCompatible_iff (hw a ha) (hw p (by simp))).2 (hc a ha p (by simp)))]
      exact make_ok hne hsh0
    · refine ⟨⟨hne, hsh0⟩, fun q hq h => w1 q hq h, ?_, ?_, ?_, ?_, ?_⟩
      · intro h q hq
        simp only [List.head?_cons, Option.mem_def, Option.some.injEq] at hq
        subst hq
        exact w2 h
      · intro q hq
        rw [(hc q hq p (by simp)).2.1]; exact hl.symm
      · intro q hq k m n hm hn
        have := hsz q hq
        rw [List.forall₂_iff_get] at this
        obtain ⟨hkq, rfl⟩ := List.getElem?_eq_some_iff.1 hm
        obtain ⟨hkr, rfl⟩ := List.getElem?_eq_some_iff.1 hn
        exact this.2 k hkq hkr
      · intro k n hn
        obtain ⟨hk, rfl⟩ := List.getElem?_eq_some_iff.1 hn
        obtain ⟨s, hs, hs'⟩ := h2 k hk
        obtain ⟨q, hq, rfl⟩ := List.mem_map.1 hs
        exact ⟨q, hq, hs'⟩
      · intro i hi
        show f _ = f _
        congr 1
        refine List.map_congr_left fun q hq => ?_
        apply bget_axis
        rw [hi.length, (hc q hq p (by simp)).2.1]
        exact hl

/-- **C43** (arrays; partial). A ufunc on a process and an array with no more axes, so that these are aligned
to the last axes of the process, either raises `ValueError` or returns a process with the same timeline, whose
values are computed from those of the process at the same time, component and path. What is missing, for
arrays with more axes, is false: see `C43_array_false`. -/
theorem C43_array_partial (f : List K → K) (p : Proc T K) (a : Arr K) (hp : IsProc p)
    (ha : a.shape.length ≤ p.x.shape.length) (first : Bool) {r : Py (Proc T K)}
    (hr : ufunc f (if first then [.proc p, .arr a] else [.arr a, .proc p]) = r) :
    r = .error .valueError ∨ ∃ z, r = .ok z ∧ z.t = p.t ∧ z.x.shape.length = p.x.shape.length ∧
      (∀ (k : ℕ) m n, p.x.shape[k]? = some m → z.x.shape[k]? = some n → m = 1 ∨ m = n) ∧
      ∀ i, InRange z.x.shape i → z.x.get i =
        f (if first then [p.x.get (axisIdx p.x.shape i), a.bget i]
          else [a.bget i, p.x.get (axisIdx p.x.shape i)]) := by
  subst hr
  unfold ufunc
  have hprocs : Opd.procs (if first = true then [Opd.proc p, Opd.arr a] else [.arr a, .proc p]) = [p] := by
    cases first <;> rfl
  rw [hprocs]
  cases hsh : bcShapes ((if first = true then [Opd.proc p, Opd.arr a] else [.arr a, .proc p]).map
      fun o => o.x.shape) with
  | none => exact .inl rfl
  | some sh =>
    simp only
    split
    swap
    · exact .inl rfl
    have hb := bcShapes_ok hsh
    have hbp : BcOk p.x.shape sh := hb _ (by cases first <;> simp [Opd.x])
    have hl : sh.length = p.x.shape.length := by
      cases first
      · simp only [Bool.false_eq_true, if_false, List.map_cons, List.map_nil, Opd.x, bcShapes, bcShape_nil] at hsh
        rw [bcShape_length' hsh]; omega
      · simp only [if_true, List.map_cons, List.map_nil, Opd.x, bcShapes, bcShape_nil] at hsh
        rw [bcShape_length' hsh]; omega
    by_cases hh : sh.head? = some p.t.length
    swap
    · exact .inl (make_error (.inr hh))
    refine .inr ⟨_, make_ok hp.1 hh, rfl, hl, ?_, ?_⟩
    · intro k m n hm hn
      have := (bcOk_iff hl.symm).1 hbp
      rw [List.forall₂_iff_get] at this
      obtain ⟨hkq, rfl⟩ := List.getElem?_eq_some_iff.1 hm
      obtain ⟨hkr, rfl⟩ := List.getElem?_eq_some_iff.1 hn
      exact this.2 k hkq hkr
    · intro i hi
      have hil : i.length = p.x.shape.length := by rw [hi.length]; exact hl
      cases first
      · simp only [Bool.false_eq_true, if_false, List.map_cons, List.map_nil, Opd.x, bget_axis hil]
      · simp only [if_true, List.map_cons, List.map_nil, Opd.x, bget_axis hil]

/-- **C43**, the negation, for three operands. A constant process, and two processes with different timelines:
each of the latter is compatible with the first. No error is raised, the timeline of the result is that of the
second operand, values of the third at other times are used (here for a sum; `numpy.clip` is such a
ufunc). -/
theorem C43_false : ∃ (p q r z : Proc ℚ ℚ), IsProc p ∧ IsProc q ∧ IsProc r ∧ ¬ Compatible q r ∧
    ufunc (fun l => l.sum) [.proc p, .proc q, .proc r] = .ok z ∧ z.t = [0, 1] ∧ r.t = [5, 6] ∧
    z.x.get [1, 0] = p.x.get [0, 0] + q.x.get [1, 0] + r.x.get [1, 0] ∧ r.x.get [1, 0] ≠ 0 :=
  ⟨⟨[0], ⟨[1, 1], fun _ => 0⟩⟩, ⟨[0, 1], ⟨[2, 1], fun i => (i.headD 0 : ℕ)⟩⟩,
    ⟨[5, 6], ⟨[2, 1], fun i => (i.headD 0 : ℕ)⟩⟩,
    ⟨[0, 1], ⟨[2, 1], fun i => ([(⟨[1, 1], fun _ => 0⟩ : Arr ℚ).bget i,
      (⟨[2, 1], fun i => (i.headD 0 : ℕ)⟩ : Arr ℚ).bget i,
      (⟨[2, 1], fun i => (i.headD 0 : ℕ)⟩ : Arr ℚ).bget i] : List ℚ).sum⟩⟩,
    ⟨by simp, rfl⟩, ⟨by simp, rfl⟩, ⟨by simp, rfl⟩, fun h => by
      have := h.1; revert this; decide,
    by
      unfold ufunc
      have h1 : bcShapes [[1, 1], [2, 1], [2, 1]] = some [2, 1] := by decide
      simp only [List.map_cons, List.map_nil, Opd.x, Opd.procs, h1]
      rw [if_pos (by decide)]
      rfl,
    rfl, rfl, by norm_num [Arr.bget, bcIdxRev], by simp⟩

/-- **C43**, the negation, for arrays. An array with one more axis is operated on together with a process: no
error is raised, and values of the result at one time are those of the process at other times. -/
theorem C43_array_false : ∃ (p z : Proc ℚ ℚ) (a : Arr ℚ), IsProc p ∧ (∀ i, a.get i = 0) ∧
    ufunc (fun l => l.sum) [.proc p, .arr a] = .ok z ∧ z.t = p.t ∧
    (∀ i < 2, ∀ j < 2, ∀ k < 2, z.x.get [i, j, k] = p.x.get [j, k]) ∧
    p.x.get [0, 0] ≠ p.x.get [1, 0] :=
  ⟨⟨[0, 1], ⟨[2, 2], fun i => (i.headD 0 : ℕ)⟩⟩,
    ⟨[0, 1], ⟨[2, 2, 2], fun i => ([(⟨[2, 2], fun i => (i.headD 0 : ℕ)⟩ : Arr ℚ).bget i,
      (⟨[2, 2, 2], fun _ => 0⟩ : Arr ℚ).bget i] : List ℚ).sum⟩⟩,
    ⟨[2, 2, 2], fun _ => 0⟩, ⟨by simp, rfl⟩, fun _ => rfl,
    by
      unfold ufunc
      have h1 : bcShapes [[2, 2], [2, 2, 2]] = some [2, 2, 2] := by decide
      simp only [List.map_cons, List.map_nil, Opd.x, Opd.procs, h1]
      rw [if_pos (by decide)]
      rfl,
    rfl, by intros; simp [Arr.bget, bcIdxRev], by simp⟩

theorem exProc_isProc : IsProc exProc := ⟨by simp [exProc], rfl⟩

/-- A constant process with one path. -/
def exConst : Proc ℚ ℚ := ⟨[7], ⟨[1, 3, 1], fun i => (i.getD 1 0 : ℕ)⟩⟩

theorem exConst_isProc : IsProc exConst := ⟨by simp [exConst], rfl⟩

example : ∃ z, ufunc (fun l => l.sum) ([exConst, exProc].map .proc) = .ok z ∧
    z.t = [0, 1/2] ∧ z.x.shape.length = 3 := by
  have hw : ∀ q ∈ [exConst, exProc], IsProc q := by
    intro q hq
    simp only [List.mem_cons, List.not_mem_nil, or_false] at hq
    rcases hq with rfl | rfl
    exacts [exConst_isProc, exProc_isProc]
  obtain ⟨z, h1, h2⟩ := (C43_ufunc_partial (fun l : List ℚ => l.sum) exConst [exProc] hw (by simp)).2 (by
    have : ∀ q ∈ [exConst, exProc], ∀ r ∈ [exConst, exProc], q.isCompatible r := by decide +kernel
    exact fun q hq r hr => (isCompatible_iff (hw q hq) (hw r hr)).1 (this q hq r hr))
  exact ⟨z, h1, h2.timeline exProc (by simp) (by simp [exProc]), (h2.axes exProc (by simp)).symm⟩

example := C43_array_partial (fun l : List ℚ => l.sum) exProc ⟨[4], fun i => (i.sum : ℕ)⟩ exProc_isProc
  (by simp [exProc]) true rfl

end Sdepy
