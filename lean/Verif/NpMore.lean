import Verif.Np
import Mathlib.Data.List.Lex
import Mathlib.Algebra.BigOperators.Group.List.Basic

/-!
# NumPy arrays: broadcasting of several arrays, iteration over indices

As `Verif.Np`, this file models NumPy, not sdepy.
-/

namespace Sdepy

/-- Shape resulting from broadcasting two shapes together (reversed lists). -/
def bc2Rev : List ℕ → List ℕ → Option (List ℕ)
  | [], t => some t
  | a :: s, [] => some (a :: s)
  | a :: s, b :: t =>
    if a = b ∨ b = 1 then (bc2Rev s t).map (a :: ·)
    else if a = 1 then (bc2Rev s t).map (b :: ·)
    else none

/-- `numpy.broadcast_shapes(s, t)`. -/
def bcShape (s t : List ℕ) : Option (List ℕ) := (bc2Rev s.reverse t.reverse).map List.reverse

/-- `numpy.broadcast_arrays(a, b)`. -/
def broadcast2 {α β : Type} (a : Arr α) (b : Arr β) : Py (Arr α × Arr β) :=
  match bcShape a.shape b.shape with
  | none => .error .valueError
  | some sh =>
    match a.broadcastTo sh, b.broadcastTo sh with
    | .ok a, .ok b => .ok (a, b)
    | _, _ => .error .valueError

/-- `numpy.ndindex(shape)`: the last index varies fastest. -/
def ndindex : List ℕ → List (List ℕ)
  | [] => [[]]
  | n :: s => (List.range n).flatMap fun i => (ndindex s).map (i :: ·)

/-- A loop over indices, the body of which may raise and acts on a state; it yields a value for each
index. -/
def loopIdx {ι β σ : Type} (body : ι → σ → Py (β × σ)) : List ι → σ → Py (List (ι × β) × σ)
  | [], s => .ok ([], s)
  | i :: is, s =>
    match body i s with
    | .error e => .error e
    | .ok (b, s) =>
      match loopIdx body is s with
      | .error e => .error e
      | .ok (bs, s) => .ok ((i, b) :: bs, s)

/-! ### Facts -/

theorem mem_ndindex {s i : List ℕ} : i ∈ ndindex s ↔ InRange s i := by
  induction s generalizing i with
  | nil => simp [ndindex, InRange]
  | cons n s ih =>
    simp only [ndindex, List.mem_flatMap, List.mem_range, List.mem_map]
    constructor
    · rintro ⟨k, hk, j, hj, rfl⟩
      exact .cons hk (ih.1 hj)
    · intro h
      cases h with
      | cons h h' => exact ⟨_, h, _, ih.2 h', rfl⟩

theorem ndindex_sorted (s : List ℕ) : (ndindex s).Pairwise (List.Lex (· < ·)) := by
  induction s with
  | nil => simp [ndindex]
  | cons n s ih =>
    simp only [ndindex]
    rw [List.pairwise_flatMap]
    refine ⟨?_, ?_⟩
    · intro k hk
      rw [List.pairwise_map]
      exact ih.imp fun h => List.Lex.cons h
    · refine List.pairwise_lt_range.imp ?_
      intro a b hab x hx y hy
      obtain ⟨x', _, rfl⟩ := List.mem_map.1 hx
      obtain ⟨y', _, rfl⟩ := List.mem_map.1 hy
      exact List.Lex.rel hab

theorem ndindex_nodup (s : List ℕ) : (ndindex s).Nodup := by
  refine (ndindex_sorted s).imp ?_
  intro a b h
  rintro rfl
  exact List.lex_irrefl (fun x => lt_irrefl x) a h

theorem ndindex_length (s : List ℕ) : (ndindex s).length = s.prod := by
  induction s with
  | nil => simp [ndindex]
  | cons n s ih => simp [ndindex, List.length_flatMap, ih]

theorem bcOkRev_refl (s : List ℕ) : bcOkRev s s := by
  induction s with
  | nil => trivial
  | cons a s ih => exact ⟨.inr rfl, ih⟩

theorem bc2Rev_ok {s t u : List ℕ} (h : bc2Rev s t = some u) : bcOkRev s u ∧ bcOkRev t u := by
  induction s generalizing t u with
  | nil => simp [bc2Rev] at h; subst h; exact ⟨trivial, bcOkRev_refl t⟩
  | cons a s ih =>
    cases t with
    | nil => simp [bc2Rev] at h; subst h; exact ⟨bcOkRev_refl _, trivial⟩
    | cons b t =>
      simp only [bc2Rev] at h
      split at h
      · rename_i hab
        simp only [Option.map_eq_some_iff] at h
        obtain ⟨v, hv, rfl⟩ := h
        exact ⟨⟨.inr rfl, (ih hv).1⟩, ⟨hab.elim (fun h => .inr h.symm) .inl, (ih hv).2⟩⟩
      · split at h
        · rename_i hab ha
          simp only [Option.map_eq_some_iff] at h
          obtain ⟨v, hv, rfl⟩ := h
          exact ⟨⟨.inl ha, (ih hv).1⟩, ⟨.inr rfl, (ih hv).2⟩⟩
        · cases h

theorem bcShape_ok {s t u : List ℕ} (h : bcShape s t = some u) : BcOk s u ∧ BcOk t u := by
  unfold bcShape at h
  simp only [Option.map_eq_some_iff] at h
  obtain ⟨v, hv, rfl⟩ := h
  unfold BcOk
  rw [List.reverse_reverse]
  exact bc2Rev_ok hv

theorem bcShape_self (s : List ℕ) : bcShape s s = some s := by
  have : ∀ l : List ℕ, bc2Rev l l = some l := by
    intro l
    induction l with
    | nil => rfl
    | cons a l ih => simp [bc2Rev, ih]
  simp [bcShape, this]

/-- Item of an array broadcast to a shape with index `i`. -/
def Arr.bget {α : Type} (a : Arr α) (i : List ℕ) : α :=
  a.get (bcIdxRev a.shape.reverse i.reverse).reverse

theorem broadcast2_eq {α β : Type} (a : Arr α) (b : Arr β) :
    broadcast2 a b = match bcShape a.shape b.shape with
      | none => .error .valueError
      | some sh => .ok (⟨sh, a.bget⟩, ⟨sh, b.bget⟩) := by
  unfold broadcast2
  cases h : bcShape a.shape b.shape with
  | none => rfl
  | some sh =>
    simp only [Arr.broadcastTo, if_pos (bcShape_ok h).1, if_pos (bcShape_ok h).2]
    rfl

/-- An index of an array is not changed by broadcasting it to its own shape. -/
theorem bget_self {α : Type} (a : Arr α) {i : List ℕ} (h : InRange a.shape i) : a.bget i = a.get i := by
  have key : ∀ s j : List ℕ, InRange s j → bcIdxRev s j = j := by
    intro s j h
    induction h with
    | nil => rfl
    | @cons j n js s h1 _ ih =>
      simp only [bcIdxRev, List.headD_cons, List.tail_cons]
      rw [ih]
      split
      · subst_vars; congr 1; omega
      · rfl
  unfold Arr.bget
  rw [key _ _ (by unfold InRange at *; exact List.rel_reverse h), List.reverse_reverse]

theorem loopIdx_fst {ι β σ : Type} {body : ι → σ → Py (β × σ)} {l : List ι} {s s' : σ}
    {r : List (ι × β)} (h : loopIdx body l s = .ok (r, s')) : r.map Prod.fst = l := by
  induction l generalizing s r with
  | nil => simp [loopIdx] at h; simp [← h.1]
  | cons i is ih =>
    simp only [loopIdx] at h
    split at h
    · cases h
    · split at h
      · cases h
      · rename_i h2
        cases h
        simp [ih h2]

theorem lookup_of_mem_nodup {ι β : Type} [BEq ι] [LawfulBEq ι] {r : List (ι × β)} {i : ι} {b : β}
    (hn : (r.map Prod.fst).Nodup) (h : (i, b) ∈ r) : r.lookup i = some b := by
  induction r with
  | nil => cases h
  | cons p r ih =>
    obtain ⟨k, c⟩ := p
    simp only [List.map_cons, List.nodup_cons] at hn
    simp only [List.lookup_cons]
    cases h with
    | head => simp
    | tail _ h =>
      have : (i == k) = false := by
        rw [beq_eq_false_iff_ne]
        rintro rfl
        exact hn.1 (List.mem_map.2 ⟨_, h, rfl⟩)
      rw [this]
      exact ih hn.2 h

end Sdepy
