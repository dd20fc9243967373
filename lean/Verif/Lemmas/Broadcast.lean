import Verif.Spec.ArrSDE

/-!
Facts on broadcasting.
-/

namespace Sdepy

open Spec

/-- `Fits`, for reversed shapes. -/
def FitsRev (s S : List ℕ) : Prop := ∀ j, s.getD j 1 = 1 ∨ s.getD j 1 = S.getD j 1

theorem fits_iff {s S : List ℕ} : Fits s S ↔ FitsRev s.reverse S.reverse := Iff.rfl

theorem fitsRev_nil (S : List ℕ) : FitsRev [] S := fun _ => .inl (by simp)

theorem fitsRev_refl (S : List ℕ) : FitsRev S S := fun _ => .inr rfl

theorem fitsRev_cons {a : ℕ} {s S : List ℕ} :
    FitsRev (a :: s) S ↔ (a = 1 ∨ a = S.getD 0 1) ∧ FitsRev s S.tail := by
  constructor
  · intro h
    refine ⟨by simpa using h 0, fun j => ?_⟩
    have := h (j + 1)
    cases S <;> simpa using this
  · rintro ⟨h0, h⟩ j
    cases j with
    | zero => simpa using h0
    | succ j =>
      have := h j
      cases S <;> simpa using this

theorem fitsRev_trans {s t u : List ℕ} (h : FitsRev s t) (h' : FitsRev t u) : FitsRev s u := by
  intro j
  rcases h j with h1 | h1
  · exact .inl h1
  · rcases h' j with h2 | h2
    · exact .inl (h1.trans h2)
    · exact .inr (h1.trans h2)

theorem fitsRev_of_bcOk {s S : List ℕ} (h : bcOkRev s S) : FitsRev s S := by
  induction s generalizing S with
  | nil => exact fitsRev_nil S
  | cons a s ih =>
    cases S with
    | nil => cases h
    | cons b S => exact fitsRev_cons.2 ⟨by simpa using h.1, ih h.2⟩

/-- Shapes that fit can be broadcast together, and the result fits. -/
theorem bc2Rev_fits {s t S : List ℕ} (hs : FitsRev s S) (ht : FitsRev t S) :
    ∃ u, bc2Rev s t = some u ∧ FitsRev u S := by
  induction s generalizing t S with
  | nil => exact ⟨t, rfl, ht⟩
  | cons a s ih =>
    cases t with
    | nil => exact ⟨_, rfl, hs⟩
    | cons b t =>
      rw [fitsRev_cons] at hs ht
      obtain ⟨u, hu, hf⟩ := ih hs.2 ht.2
      simp only [bc2Rev, hu, Option.map_some]
      by_cases hab : a = b ∨ b = 1
      · rw [if_pos hab]
        exact ⟨_, rfl, fitsRev_cons.2 ⟨hs.1, hf⟩⟩
      · rw [if_neg hab]
        have ha : a = 1 := by
          rcases hs.1 with h | h
          · exact h
          · rcases ht.1 with h' | h'
            · exact absurd (.inr h') hab
            · exact absurd (.inl (h.trans h'.symm)) hab
        rw [if_pos ha]
        exact ⟨_, rfl, fitsRev_cons.2 ⟨ht.1, hf⟩⟩

theorem bc2Rev_fits_of {s t u S : List ℕ} (h : bc2Rev s t = some u) (hu : FitsRev u S) :
    FitsRev s S ∧ FitsRev t S :=
  ⟨fitsRev_trans (fitsRev_of_bcOk (bc2Rev_ok h).1) hu, fitsRev_trans (fitsRev_of_bcOk (bc2Rev_ok h).2) hu⟩

theorem bcIdxRev_comp {s u : List ℕ} (h : bcOkRev s u) (c : List ℕ) :
    bcIdxRev s (bcIdxRev u c) = bcIdxRev s c := by
  induction s generalizing u c with
  | nil => rfl
  | cons a s ih =>
    cases u with
    | nil => cases h
    | cons b u =>
      simp only [bcIdxRev, List.headD_cons, List.tail_cons, ih h.2]
      congr 1
      rcases h.1 with h1 | h1
      · rw [if_pos h1, if_pos h1]
      · subst h1; split <;> rfl

/-- Broadcasting does not change the value given to a cell. -/
theorem bget_bcast {α : Type} (a : Arr α) {u : List ℕ} (h : BcOk a.shape u) (c : List ℕ) :
    (Arr.mk u a.bget).bget c = a.bget c := by
  simp only [Arr.bget, List.reverse_reverse]
  rw [bcIdxRev_comp h]

theorem fitsRev_assign {r R : List ℕ} :
    FitsRev r R ↔ bcOkRev (r.take R.length) R ∧ ∀ n ∈ r.drop R.length, n = 1 := by
  induction r generalizing R with
  | nil => simp [fitsRev_nil, bcOkRev]
  | cons a r ih =>
    rw [fitsRev_cons]
    cases R with
    | nil =>
      rw [ih]
      simp [bcOkRev]
    | cons b R =>
      rw [ih]
      simp [bcOkRev, and_assoc]

/-- Assignment succeeds exactly if shapes fit. -/
theorem assignInto_ok {α : Type} (v : Arr α) {S : List ℕ} (h : Fits v.shape S) :
    v.assignInto S = .ok ⟨S, v.bget⟩ := by
  rw [fits_iff, fitsRev_assign] at h
  unfold Arr.assignInto
  rw [if_pos]
  constructor
  · intro n hn
    apply h.2
    rw [List.drop_reverse]
    simpa using hn
  · have := h.1
    rw [List.take_reverse] at this
    unfold BcOk
    simpa using this

theorem assignInto_error {α : Type} (v : Arr α) {S : List ℕ} (h : ¬ Fits v.shape S) :
    v.assignInto S = .error .valueError := by
  unfold Arr.assignInto
  rw [if_neg]
  rintro ⟨h1, h2⟩
  apply h
  rw [fits_iff, fitsRev_assign, List.drop_reverse, List.take_reverse]
  refine ⟨?_, ?_⟩
  · unfold BcOk at h2; simpa using h2
  · intro n hn
    apply h1
    simpa using hn

theorem bcIdxRev_getD (r d : List ℕ) :
    bcIdxRev r d = (List.range r.length).map fun j => if r.getD j 1 = 1 then 0 else d.getD j 0 := by
  induction r generalizing d with
  | nil => rfl
  | cons a r ih =>
    rw [bcIdxRev, ih, List.length_cons, List.range_succ_eq_map, List.map_cons, List.map_map]
    congr 1
    · cases d <;> simp
    · apply List.map_congr_left
      intro j _
      cases d <;> simp

theorem cellIndex_eq {s S c : List ℕ} (h : Fits s S) (hc : InRange S c) :
    cellIndex s c = (bcIdxRev s.reverse c.reverse).reverse := by
  have hl := hc.length
  rw [bcIdxRev_getD]
  apply List.ext_getElem
  · simp [cellIndex]
  · intro p h1 h2
    have hp : p < s.length := by simpa [cellIndex] using h1
    simp only [cellIndex, List.getElem_map, List.getElem_range, List.getElem_reverse,
      List.length_map, List.length_range, List.length_reverse]
    have e1 : s.reverse.getD (s.length - 1 - p) 1 = s.getD p 1 := by
      rw [List.getD_eq_getElem?_getD, List.getD_eq_getElem?_getD, List.getElem?_reverse (by omega)]
      congr 2; omega
    rw [e1]
    by_cases h0 : s.getD p 1 = 1
    · rw [if_pos h0, if_pos h0]
    · rw [if_neg h0, if_neg h0]
      have hlt : s.length - 1 - p < c.length := by
        by_contra hge
        have := h (s.length - 1 - p)
        simp only [sizeFromLast, e1] at this
        rcases this with this | this
        · exact h0 this
        · apply h0
          rw [this, List.getD_eq_getElem?_getD, List.getElem?_eq_none (by simp; omega)]
          rfl
      rw [List.getD_eq_getElem?_getD, List.getD_eq_getElem?_getD, List.getElem?_reverse hlt]
      congr 2; omega

theorem cellValue_eq {α : Type} (a : Arr α) {S c : List ℕ} (h : Fits a.shape S) (hc : InRange S c) :
    cellValue a c = a.bget c := by
  unfold cellValue Arr.bget
  rw [cellIndex_eq h hc]

theorem cellValue_self {α : Type} (a : Arr α) {c : List ℕ} (hc : InRange a.shape c) :
    cellValue a c = a.get c := by
  rw [cellValue_eq a (fitsRev_refl _) hc, bget_self a hc]

/-- Binary operations: on arrays that fit they succeed, the result fits, cells are given the result of
the operation on their values. -/
theorem zip_fits {α β γ : Type} (f : α → β → γ) {a : Arr α} {b : Arr β} {S : List ℕ}
    (ha : Fits a.shape S) (hb : Fits b.shape S) :
    ∃ r, a.zip f b = .ok r ∧ Fits r.shape S ∧
      ∀ c, InRange S c → cellValue r c = f (cellValue a c) (cellValue b c) := by
  obtain ⟨u, hu, hf⟩ := bc2Rev_fits ha hb
  have hbc : bcShape a.shape b.shape = some u.reverse := by simp [bcShape, hu]
  have hf' : Fits u.reverse S := by rw [fits_iff]; simpa using hf
  refine ⟨⟨u.reverse, fun i => f (a.bget i) (b.bget i)⟩, ?_, hf', ?_⟩
  · simp [Arr.zip, broadcast2_eq, hbc]
  · intro c hc
    obtain ⟨h1, h2⟩ := bcShape_ok hbc
    rw [cellValue_eq a ha hc, cellValue_eq b hb hc, ← bget_bcast a h1, ← bget_bcast b h2,
      cellValue_eq _ hf' hc]
    rfl

/-- Conversely, if the result fits, operands do. -/
theorem zip_fits_of {α β γ : Type} {f : α → β → γ} {a : Arr α} {b : Arr β} {r : Arr γ} {S : List ℕ}
    (h : a.zip f b = .ok r) (hr : Fits r.shape S) : Fits a.shape S ∧ Fits b.shape S := by
  unfold Arr.zip at h
  rw [broadcast2_eq] at h
  cases hu : bcShape a.shape b.shape with
  | none => simp [hu] at h
  | some u =>
    simp only [hu, Except.ok.injEq] at h
    subst h
    obtain ⟨h1, h2⟩ := bcShape_ok hu
    exact ⟨fitsRev_trans (fitsRev_of_bcOk h1) hr, fitsRev_trans (fitsRev_of_bcOk h2) hr⟩

theorem app_cell {α β : Type} (f : α → β) (a : Arr α) (c : List ℕ) :
    cellValue (a.app f) c = f (cellValue a c) := rfl

theorem scalar_fits {α : Type} (x : α) (S : List ℕ) : Fits (Arr.scalar x).shape S := fitsRev_nil _

end Sdepy
