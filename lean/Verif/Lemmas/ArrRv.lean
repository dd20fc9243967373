import Verif.Model.ArrRv
import Verif.Lemmas.Elementwise
import Mathlib.Data.List.GetD

/-!
# Shapes of variates
-/

set_option linter.unusedSectionVars false

namespace Sdepy

open Spec

theorem sizeFromLast_cons (a : ℕ) (s : List ℕ) (j : ℕ) :
    sizeFromLast (a :: s) j = if j = s.length then a else sizeFromLast s j := by
  unfold sizeFromLast
  rw [List.reverse_cons]
  simp only [List.getD_eq_getElem?_getD]
  rcases lt_trichotomy j s.length with h | h | h
  · rw [if_neg h.ne, List.getElem?_append_left (by simpa using h)]
  · subst h; simp
  · rw [if_neg h.ne', List.getElem?_eq_none (by simp; omega), List.getElem?_eq_none (by simp; omega)]

theorem fits_one_cons {s S : List ℕ} : Fits (1 :: s) S ↔ Fits s S := by
  refine forall_congr' fun j => ?_
  rw [sizeFromLast_cons]
  split_ifs with h
  · subst h
    simp [sizeFromLast]
  · rfl

theorem fits_dropOnes {s S : List ℕ} : Fits (s.dropWhile (· = 1)) S ↔ Fits s S := by
  induction s with
  | nil => rfl
  | cons a s ih =>
    by_cases h : a = 1
    · subst h
      rw [fits_one_cons, ← ih]
      simp
    · simp [h]

/-- Variates can be drawn for the shapes that parameters fit. -/
theorem scipySizeOk_iff {p size : List ℕ} : scipySizeOk p size ↔ Fits p size := by
  unfold scipySizeOk
  rw [← fits_dropOnes]
  constructor
  · exact fun h => fits_iff.2 (fitsRev_of_bcOk h)
  · intro h
    refine bcOkRev_of_fits (fits_iff.1 h) ?_
    simp only [List.length_reverse]
    cases hd : p.dropWhile (· = 1) with
    | nil => simp
    | cons a s =>
      have ha : a ≠ 1 := by
        have := List.head_dropWhile_not (l := p) (fun x : ℕ => decide (x = 1)) (by rw [hd]; simp)
        simpa [hd] using this
      have := h s.length
      rw [hd, sizeFromLast_cons, if_pos rfl] at this
      rcases this with h1 | h1
      · exact absurd h1 ha
      · by_contra hlt
        apply ha
        rw [h1]
        unfold sizeFromLast
        rw [List.getD_eq_default]
        simp only [List.length_cons, List.length_reverse] at hlt ⊢
        omega

theorem scipyRvs_ok {Ω : Type} {p size : List ℕ} {z : List ℕ → Ω} {f : List ℕ → Ω → ℝ} (h : Fits p size) :
    scipyRvs p size z f = .ok ⟨size, fun i => f i (z i)⟩ := by
  rw [scipyRvs, if_pos (scipySizeOk_iff.2 h)]

theorem scipyRvs_error {Ω : Type} {p size : List ℕ} {z : List ℕ → Ω} {f : List ℕ → Ω → ℝ}
    (h : ¬ Fits p size) : scipyRvs p size z f = .error .valueError := by
  rw [scipyRvs, if_neg fun hc => h (scipySizeOk_iff.1 hc)]

theorem sizeFromLast_ones (k : ℕ) (s : List ℕ) (j : ℕ) :
    sizeFromLast (List.replicate k 1 ++ s) j = sizeFromLast s j := by
  induction k with
  | zero => simp
  | succ k ih =>
    rw [List.replicate_succ, List.cons_append, sizeFromLast_cons, ih]
    split_ifs with h
    · subst h
      unfold sizeFromLast
      rw [List.getD_eq_default]
      simp
    · rfl

/-- Parameters that fit cells may add leading axes of size one. -/
theorem joint_ones {s size : List ℕ} (h : Fits s size) :
    Joint [s, size] (List.replicate (s.length - size.length) 1 ++ size) := by
  refine ⟨?_, ?_, ?_, ?_⟩
  · intro t ht j
    rw [sizeFromLast_ones]
    simp only [List.mem_cons, List.not_mem_nil, or_false] at ht
    rcases ht with rfl | rfl
    · exact h j
    · exact .inr rfl
  · intro t ht
    simp only [List.mem_cons, List.not_mem_nil, or_false] at ht
    simp only [List.length_append, List.length_replicate]
    rcases ht with rfl | rfl <;> omega
  · intro j _
    exact ⟨size, by simp, (sizeFromLast_ones _ _ _).symm⟩
  · intro _
    by_cases hl : s.length ≤ size.length
    · exact ⟨size, by simp, by simp; omega⟩
    · exact ⟨s, by simp, by simp; omega⟩

/-- Operations between an array of parameters and an array of variates. -/
theorem zip_ones {α β γ : Type} (f : α → β → γ) {a : Arr α} {b : Arr β} (h : Fits a.shape b.shape) :
    ∃ r, a.zip f b = .ok r ∧ r.shape = List.replicate (a.shape.length - b.shape.length) 1 ++ b.shape ∧
      ∀ c, InRange b.shape c → cellValue r c = f (cellValue a c) (b.get c) := by
  obtain ⟨r, h1, -, h2⟩ := zip_fits f h (fits_iff.2 (fitsRev_refl _) : Fits b.shape b.shape)
  refine ⟨r, h1, ?_, fun c hc => by rw [h2 c hc, cellValue_self b hc]⟩
  obtain ⟨r', h3, h4, -⟩ := ((ew_arr a).zip (ew_arr b) f).1 _ (joint_ones h)
  have h5 : zipPy f (.ok a) (.ok b) = a.zip f b := rfl
  rw [h5, h1, Except.ok.injEq] at h3
  rw [h3, h4]

theorem zip_ones' {α β γ : Type} (f : α → β → γ) {a : Arr α} {b : Arr β} (h : Fits b.shape a.shape) :
    ∃ r, a.zip f b = .ok r ∧ r.shape = List.replicate (b.shape.length - a.shape.length) 1 ++ a.shape ∧
      ∀ c, InRange a.shape c → cellValue r c = f (a.get c) (cellValue b c) := by
  obtain ⟨r, h1, -, h2⟩ := zip_fits f (fits_iff.2 (fitsRev_refl _) : Fits a.shape a.shape) h
  refine ⟨r, h1, ?_, fun c hc => by rw [h2 c hc, cellValue_self a hc]⟩
  obtain ⟨r', h3, h4, -⟩ := ((ew_arr a).zip (ew_arr b) f).1 _
    ((Joint.congr (fun s => by simp [or_comm])).1 (joint_ones h))
  have h5 : zipPy f (.ok a) (.ok b) = a.zip f b := rfl
  rw [h5, h1, Except.ok.injEq] at h3
  rw [h3, h4]

/-- The item for a cell is an item. -/
theorem cellIndex_inRange {s S c : List ℕ} (h : Fits s S) (hc : InRange S c) : InRange s (cellIndex s c) := by
  have hl := hc.length
  unfold InRange
  rw [List.forall₂_iff_get]
  refine ⟨by simp [cellIndex], fun p h1 h2 => ?_⟩
  simp only [cellIndex, List.get_eq_getElem, List.getElem_map, List.getElem_range]
  rw [List.getD_eq_getElem _ _ h2]
  split_ifs with h3
  · rw [h3]; exact one_pos
  · have hj := h (s.length - 1 - p)
    have e1 : sizeFromLast s (s.length - 1 - p) = s[p] := by
      unfold sizeFromLast
      rw [List.getD_eq_getElem _ _ (by simp; omega), List.getElem_reverse]
      congr 1
      omega
    rw [e1] at hj
    rcases hj with hj | hj
    · exact absurd hj h3
    · have hlt : s.length - 1 - p < S.length := by
        by_contra hge
        apply h3
        rw [hj]
        unfold sizeFromLast
        rw [List.getD_eq_default]
        simp; omega
      have e2 : sizeFromLast S (s.length - 1 - p) = S[p + S.length - s.length]'(by omega) := by
        unfold sizeFromLast
        rw [List.getD_eq_getElem _ _ (by simp; omega), List.getElem_reverse]
        congr 1
        omega
      rw [hj, e2, List.getD_eq_getElem _ _ (by omega)]
      have := (List.forall₂_iff_get.1 hc).2 (p + S.length - s.length) (by omega) (by omega)
      simp only [List.get_eq_getElem] at this
      simp only [hl]
      exact this

/-- The item of an array, for a cell. -/
theorem bget_item {α : Type} (a : Arr α) {S c : List ℕ} (h : Fits a.shape S) (hc : InRange S c) :
    a.bget c = a.get (cellIndex a.shape c) := (cellValue_eq a h hc).symm

theorem anyItem_iff {α : Type} (a : Arr α) (P : α → Prop) :
    a.anyItem P ↔ ∃ c, InRange a.shape c ∧ P (a.get c) := by
  unfold Arr.anyItem
  simp only [mem_ndindex]

/-- Items of arrays broadcast together. -/
theorem bcAll_items {n : ℕ} {α : Type} {a : Fin n → Arr α} {S : List ℕ}
    (hS : Joint (List.ofFn fun j => (a j).shape) S) :
    ∃ w, bcAll a = .ok w ∧ (∀ j, (w j).shape = S) ∧
      ∀ j c, InRange S c → (w j).get c = cellValue (a j) c := by
  refine ⟨fun j => ⟨S, (a j).bget⟩, ?_, fun _ => rfl, fun j c hc => ?_⟩
  · unfold bcAll
    rw [bcShapes_iff.2 hS]
  · exact (cellValue_eq _ (hS.fits _ (List.mem_ofFn.2 ⟨j, rfl⟩)) hc).symm

theorem bcAll_error {n : ℕ} {α : Type} {a : Fin n → Arr α}
    (hS : ¬ ∃ S, Joint (List.ofFn fun j => (a j).shape) S) : bcAll a = .error .valueError := by
  unfold bcAll
  rw [bcShapes_none hS]

end Sdepy
