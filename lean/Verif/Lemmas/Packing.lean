import Verif.Model.Packing
import Mathlib.Tactic.Ring
import Mathlib.Algebra.BigOperators.Group.List.Basic
import Mathlib.Tactic.Linarith

/-! # Lemmas on packing and unpacking -/

set_option linter.unusedSimpArgs false

namespace Sdepy

theorem mapPy_ok_iff {α β : Type} (f : α → Py β) (l : List α) (r : List β) :
    mapPy f l = .ok r ↔ List.Forall₂ (fun a b => f a = .ok b) l r := by
  induction l generalizing r with
  | nil =>
    simp only [mapPy, Except.ok.injEq]
    constructor
    · rintro rfl; exact .nil
    · intro h; cases h; rfl
  | cons a l ih =>
    simp only [mapPy]
    cases ha : f a with
    | error e =>
      simp only [reduceCtorEq, false_iff]
      intro h
      cases h with
      | cons h1 h2 => rw [ha] at h1; simp at h1
    | ok b =>
      simp only
      cases hl : mapPy f l with
      | error e =>
        simp only [reduceCtorEq, false_iff]
        intro h
        cases h with
        | cons h1 h2 => rw [(ih _).2 h2] at hl; simp at hl
      | ok bs =>
        simp only [Except.ok.injEq]
        constructor
        · rintro rfl
          exact .cons ha ((ih _).1 hl)
        · intro h
          cases h with
          | cons h1 h2 =>
            rw [ha] at h1
            have := (ih _).2 h2
            rw [hl] at this
            simp at h1 this
            rw [h1, this]

theorem mapPy_ok {α β : Type} (f : α → Py β) (g : α → β) (l : List α) (h : ∀ a ∈ l, f a = .ok (g a)) :
    mapPy f l = .ok (l.map g) := by
  rw [mapPy_ok_iff]
  induction l with
  | nil => exact .nil
  | cons a l ih =>
    exact .cons (h a (by simp)) (ih fun a ha => h a (by simp [ha]))

theorem mapPy_error {α β : Type} (f : α → Py β) (e : PyErr) (l : List α)
    (h : ∀ a ∈ l, f a = .error e ∨ ∃ b, f a = .ok b) (hne : ∃ a ∈ l, f a = .error e) :
    mapPy f l = .error e := by
  induction l with
  | nil => simp at hne
  | cons a l ih =>
    simp only [mapPy]
    rcases h a (by simp) with ha | ⟨b, ha⟩
    · rw [ha]
    · rw [ha]
      simp only
      rw [ih (fun a ha => h a (by simp [ha]))]
      obtain ⟨c, hc, hce⟩ := hne
      rcases List.mem_cons.1 hc with h' | h'
      · rw [h', ha] at hce; simp at hce
      · exact ⟨c, h', hce⟩

theorem bcOkRev_self (s : List ℕ) : bcOkRev s s := by
  induction s with
  | nil => trivial
  | cons a s ih => exact ⟨.inr rfl, ih⟩

theorem bcIdxRev_self {s i : List ℕ} (h : InRange s i) : bcIdxRev s i = i := by
  induction h with
  | nil => rfl
  | @cons a b i s hab h ih =>
    simp only [bcIdxRev, List.headD_cons, List.tail_cons, ih]
    by_cases hb : b = 1
    · rw [if_pos hb]; subst hb; simp at hab; rw [hab]
    · rw [if_neg hb]

theorem InRange.reverse {s i : List ℕ} (h : InRange s i) : InRange s.reverse i.reverse := by
  unfold InRange at *
  rw [List.forall₂_reverse_iff]; exact h

/-- Broadcasting an array to its own shape does nothing. -/
theorem broadcastTo_self {α : Type} (a : Arr α) :
    ∃ b, a.broadcastTo a.shape = .ok b ∧ b.Same a := by
  unfold Arr.broadcastTo
  rw [if_pos (show BcOk a.shape a.shape from bcOkRev_self _)]
  refine ⟨_, rfl, rfl, ?_⟩
  intro i hi
  simp only
  rw [bcIdxRev_self hi.reverse, List.reverse_reverse]

theorem broadcastTo_shape {α : Type} {a b : Arr α} {s : List ℕ} (h : a.broadcastTo s = .ok b) :
    b.shape = s := by
  unfold Arr.broadcastTo at h
  by_cases hc : BcOk a.shape s
  · rw [if_pos hc] at h; simp at h; rw [← h]
  · rw [if_neg hc] at h; simp at h

/-! ### blocks -/

theorem blockOf_replicate (N : ℕ) : ∀ (q i h : ℕ), i < q → h < N →
    blockOf (List.replicate q N) (i * N + h) = (i, h) := by
  intro q
  induction q with
  | zero => intro i h hi; omega
  | succ q ih =>
    intro i h hi hh
    rw [List.replicate_succ, blockOf]
    cases i with
    | zero => simp [hh]
    | succ i =>
      have h1 : ¬ (i + 1) * N + h < N := by
        have : (i + 1) * N = i * N + N := by ring
        omega
      rw [if_neg h1]
      have h2 : (i + 1) * N + h - N = i * N + h := by
        have : (i + 1) * N = i * N + N := by ring
        omega
      rw [h2, ih i h (by omega) hh]

theorem axis2_append (pre : List ℕ) (n p : ℕ) : axis2 (pre ++ [n, p]) = n := by
  simp [axis2]

theorem idx2_append (kk : List ℕ) (j p : ℕ) : idx2 (kk ++ [j, p]) = j := by
  simp [idx2]

theorem mapIdx2Rev_append (f : ℕ → ℕ) (kk : List ℕ) (j p : ℕ) :
    (mapIdx2Rev f (kk ++ [j, p]).reverse).reverse = kk ++ [f j, p] := by
  simp [mapIdx2Rev]

/-- Concatenation of arrays of the same shape along the second last axis. -/
theorem concat2_uniform {α : Type} (ys : List (Arr α)) (pre : List ℕ) (N p : ℕ)
    (hs : ∀ y ∈ ys, y.shape = pre ++ [N, p]) (hne : ys ≠ []) :
    ∃ X, concat2 ys = .ok X ∧ X.shape = pre ++ [ys.length * N, p] ∧
      ∀ (kk : List ℕ) (i h pp : ℕ) (y : Arr α), ys[i]? = some y → h < N →
        X.get (kk ++ [i * N + h, pp]) = y.get (kk ++ [h, pp]) := by
  cases ys with
  | nil => exact absurd rfl hne
  | cons x xs =>
    have hx : x.shape = pre ++ [N, p] := hs x (by simp)
    have hsame : ∀ y ∈ xs, SameBut2 x.shape y.shape := by
      intro y hy
      rw [hx, hs y (by simp [hy])]
      refine ⟨by simp, by simp, rfl, rfl⟩
    have hsizes : ((x :: xs).map fun y => axis2 y.shape) = List.replicate (xs.length + 1) N := by
      rw [List.eq_replicate_iff]
      refine ⟨by simp, ?_⟩
      intro b hb
      obtain ⟨y, hy, rfl⟩ := List.mem_map.1 hb
      rw [hs y hy, axis2_append]
    simp only [concat2]
    rw [if_pos hsame]
    refine ⟨_, rfl, ?_, ?_⟩
    · simp only [hsizes, hx]
      simp [List.dropLast_append_of_ne_nil, List.sum_replicate]
    · intro kk i h pp y hy hh
      have hi : i < xs.length + 1 := by
        have := (List.getElem?_eq_some_iff.1 hy).1
        simpa using this
      simp only [hsizes, idx2_append]
      rw [blockOf_replicate N _ i h hi hh, hy]
      simp only [Option.getD_some]
      rw [mapIdx2Rev_append]

theorem newaxis2_shape {α : Type} {a : Arr α} {v : List ℕ} {p : ℕ} (h : a.shape = v ++ [p]) :
    a.newaxis2.shape = v ++ [1, p] := by
  simp [Arr.newaxis2, h]

theorem newaxis2_get {α : Type} (a : Arr α) (kk : List ℕ) (j p : ℕ) :
    a.newaxis2.get (kk ++ [j, p]) = a.get (kk ++ [p]) := by
  have h1 : kk ++ [j, p] = kk ++ [j] ++ [p] := by simp
  simp only [Arr.newaxis2]
  rw [h1, List.dropLast_concat, List.dropLast_concat, List.getLast?_concat]
  rfl

theorem index2_eq {α : Type} (a : Arr α) (v : List ℕ) (q p k : ℕ) (h : a.shape = v ++ [q, p])
    (hk : k < q) : ∃ b, a.index2 k = .ok b ∧ b.shape = v ++ [p] ∧
      ∀ kk pp, b.get (kk ++ [pp]) = a.get (kk ++ [k, pp]) := by
  unfold Arr.index2
  have : a.shape.reverse = p :: q :: v.reverse := by simp [h]
  rw [this]
  simp only
  rw [if_pos hk]
  refine ⟨_, rfl, by simp, ?_⟩
  intro kk pp
  simp

theorem slice2_eq {α : Type} (a : Arr α) (v : List ℕ) (q N p k : ℕ) (h : a.shape = v ++ [q * N, p])
    (hk : k < q) : ∃ b, a.slice2 (k * N) ((k + 1) * N) = .ok b ∧ b.shape = v ++ [N, p] ∧
      ∀ kk hh pp, b.get (kk ++ [hh, pp]) = a.get (kk ++ [k * N + hh, pp]) := by
  unfold Arr.slice2
  have : a.shape.reverse = p :: (q * N) :: v.reverse := by simp [h]
  rw [this]
  simp only
  have h1 : (k + 1) * N ≤ q * N := Nat.mul_le_mul_right _ hk
  have h2 : k * N ≤ q * N := Nat.mul_le_mul_right _ hk.le
  rw [min_eq_left h1, min_eq_left h2]
  have h3 : (k + 1) * N - k * N = N := by
    have : (k + 1) * N = k * N + N := by ring
    omega
  refine ⟨_, rfl, by simp [h3], ?_⟩
  intro kk hh pp
  simp only
  rw [mapIdx2Rev_append]

end Sdepy
