import Verif.Props.ProcessInterp

/-!
# Process specific indexing
-/

namespace Sdepy

open Spec

variable {T K : Type}

/-! ### Facts on indexing of arrays -/

/-- All positions of all axes. -/
def allSel (s : List ℕ) : List Sel := s.map fun n => .many (List.range n)

theorem sel_all (n : ℕ) : NpIx.all.sel n = .ok (.many (List.range n)) := by
  have : sliceSel n none none none = some (List.range n) := by
    simp only [sliceSel, Option.getD_none, Option.map_none]
    rw [if_neg (by omega), if_pos (by omega)]
    congr 1
    rw [List.filter_eq_self]
    intro k hk
    have := List.mem_range.1 hk
    simp
    omega
  simp [NpIx.all, NpIx.sel, this]

theorem resolveIx_nil (s : List ℕ) : resolveIx s [] = .ok (allSel s) := by
  induction s with
  | nil => rfl
  | cons n s ih => simp [resolveIx, ih, allSel]

theorem resolveIx_alls (s t : List ℕ) (ix : List NpIx) :
    resolveIx (s ++ t) (List.replicate s.length NpIx.all ++ ix) =
      match resolveIx t ix with
      | .error e => .error e
      | .ok r => .ok (allSel s ++ r) := by
  induction s with
  | nil =>
    simp only [List.nil_append, List.length_nil, List.replicate_zero, allSel, List.map_nil]
    cases resolveIx t ix <;> rfl
  | cons n s ih =>
    simp only [List.cons_append, List.length_cons, List.replicate_succ, resolveIx, sel_all, ih]
    cases resolveIx t ix <;> rfl

theorem range_getD {n k : ℕ} (h : k < n) : (List.range n).getD k 0 = k := by
  simp [List.getD_eq_getElem?_getD, h]

theorem pick_alls {s i : List ℕ} (h : InRange s i) (S : List Sel) (a : ℕ) (j : List ℕ) :
    pick (allSel s ++ S) a (i ++ j) = i ++ pick S a j := by
  induction h with
  | nil => rfl
  | @cons k n i s hk _ ih =>
    simp only [allSel] at ih
    simp only [allSel, List.map_cons, List.cons_append, pick, List.headD_cons, List.tail_cons, ih,
      range_getD hk]

theorem pick_alls' {s i : List ℕ} (h : InRange s i) (a : ℕ) : pick (allSel s) a i = i := by
  have := pick_alls h [] a []
  simpa [pick] using this

theorem manyDims_append (s t : List Sel) : manyDims (s ++ t) = manyDims s ++ manyDims t := by
  induction s with
  | nil => rfl
  | cons a s ih => cases a <;> simp [manyDims, ih]

theorem manyDims_alls (s : List ℕ) : manyDims (allSel s) = s := by
  induction s with
  | nil => rfl
  | cons n s ih => simp only [allSel] at ih; simp [allSel, manyDims, ih]

theorem alls_isMany (s : List ℕ) : ∀ a ∈ allSel s, a.isMany = true := by
  intro a ha
  obtain ⟨n, -, rfl⟩ := List.mem_map.1 ha
  rfl

theorem not_isAdv {a : Sel} (h : a.isMany = true) : a.isAdv = false := by
  cases a <;> simp_all [Sel.isMany, Sel.isAdv]

theorem promote_isMany {a : Sel} : a.promote.isMany = a.isMany := by cases a <;> rfl

theorem promote_many {s : List Sel} (h : ∀ a ∈ s, a.isMany = true) : s.map Sel.promote = s := by
  conv_rhs => rw [← List.map_id s]
  refine List.map_congr_left fun a ha => ?_
  have := h a ha
  cases a <;> simp_all [Sel.isMany, Sel.promote]

theorem advSize_many {s : List Sel} (h : ∀ a ∈ s, a.isMany = true) (t : List Sel) :
    advSize (s ++ t) = advSize t := by
  induction s with
  | nil => rfl
  | cons a s ih =>
    have ha := h a (by simp)
    cases a with
    | many l => simpa [advSize] using ih fun b hb => h b (by simp [hb])
    | _ => simp [Sel.isMany] at ha

theorem advSize_append_many {s : List Sel} (t : List Sel) (h : ∀ a ∈ t, a.isMany = true) :
    advSize (s ++ t) = advSize s := by
  induction s with
  | nil => simpa [advSize] using advSize_many h []
  | cons a s ih => cases a <;> simp [advSize, ih]

theorem takeWhile_many {s t : List Sel} (h : ∀ a ∈ s, a.isMany = true) :
    (s ++ t).takeWhile Sel.isMany = s ++ t.takeWhile Sel.isMany := by
  rw [List.takeWhile_append_of_pos h]

theorem dropWhile_many {s t : List Sel} (h : ∀ a ∈ s, a.isMany = true) :
    (s ++ t).dropWhile Sel.isMany = t.dropWhile Sel.isMany := by
  rw [List.dropWhile_append_of_pos h]

/-- Selection along one axis, all others being selected in full. -/
theorem index_axis {α : Type} (a : Arr α) {s t : List ℕ} {n : ℕ} (ha : a.shape = s ++ n :: t) {ix : NpIx}
    {l : List ℕ} (hl : ix.sel n = .ok (.many l) ∨ ix.sel n = .ok (.adv l)) :
    ∃ b, a.npIndex (List.replicate s.length NpIx.all ++ [ix]) = .ok b ∧ b.shape = s ++ l.length :: t ∧
      ∀ i k j, InRange s i → k < l.length → InRange t j →
        b.get (i ++ k :: j) = a.get (i ++ l.getD k 0 :: j) := by
  have hany : ∀ u, (allSel u).any Sel.isAdv = false := by
    intro u
    rw [List.any_eq_false]
    intro b hb
    rw [not_isAdv (alls_isMany u b hb)]
    simp
  rcases hl with hl | hl
  · have hr : resolveIx a.shape (List.replicate s.length NpIx.all ++ [ix]) =
        .ok (allSel s ++ .many l :: allSel t) := by
      rw [ha, resolveIx_alls]
      simp [resolveIx, hl, resolveIx_nil]
    unfold Arr.npIndex
    rw [hr]
    simp only
    rw [if_neg (by simp [List.any_append, hany, Sel.isAdv])]
    refine ⟨_, rfl, by simp [manyDims_append, manyDims, manyDims_alls], fun i k j hi hk hj => ?_⟩
    simp only [pick_alls hi, pick, List.headD_cons, List.tail_cons, pick_alls' hj]
  · have hr : resolveIx a.shape (List.replicate s.length NpIx.all ++ [ix]) =
        .ok (allSel s ++ .adv l :: allSel t) := by
      rw [ha, resolveIx_alls]
      simp [resolveIx, hl, resolveIx_nil]
    unfold Arr.npIndex
    rw [hr]
    simp only
    rw [if_pos (by simp [List.any_append, Sel.isAdv])]
    have hp : (allSel s ++ Sel.adv l :: allSel t).map Sel.promote = allSel s ++ .adv l :: allSel t := by
      rw [List.map_append, List.map_cons, promote_many (alls_isMany s), promote_many (alls_isMany t)]
      rfl
    have hs : advSize (allSel s ++ .adv l :: allSel t) = some l.length := by
      rw [advSize_many (alls_isMany s)]
      have := advSize_append_many (s := []) (allSel t) (alls_isMany t)
      simp only [List.nil_append] at this
      simp [advSize, this]
    have hd : (allSel t).dropWhile Sel.isAdv = allSel t := by
      cases t with
      | nil => rfl
      | cons m t => rfl
    have ht : advTogether (allSel s ++ .adv l :: allSel t) = true := by
      unfold advTogether
      rw [dropWhile_many (alls_isMany s)]
      simp only [List.dropWhile_cons, Sel.isMany, Sel.isAdv, Bool.false_eq_true, if_false, if_true]
      rw [hd, List.all_eq_true]
      exact alls_isMany t
    have hq : ((allSel s ++ .adv l :: allSel t).takeWhile Sel.isMany).length = s.length := by
      rw [takeWhile_many (alls_isMany s)]
      simp [List.takeWhile_cons, Sel.isMany, allSel]
    rw [hp, hs, ht]
    simp only [if_true, hq]
    refine ⟨_, rfl, ?_, fun i k j hi hk hj => ?_⟩
    · simp only [manyDims_append, manyDims, manyDims_alls]
      clear ha hr hp hs ht hq
      induction s with
      | nil => rfl
      | cons m s ih => simpa using ih
    · have hil := hi.length
      have e1 : (i ++ k :: j).getD s.length 0 = k := by
        rw [← hil]; simp [List.getD_eq_getElem?_getD]
      have e2 : (i ++ k :: j).eraseIdx s.length = i ++ j := by
        rw [← hil, List.eraseIdx_append_of_length_le (le_refl _)]; simp
      simp only [e1, e2, pick_alls hi, pick, pick_alls' hj]
      congr 4
      split
      · rename_i h1
        rw [h1] at hk
        omega
      · rfl

/-! ### Positions selected -/

/-- Positions that an index selects along an axis of size `n`: an integer selects one, negative ones counting
from the end; a slice selects what python slices do; a list selects its items, one by one. Nothing is selected
by invalid indices. -/
def Spec.positions (n : ℕ) : NpIx → Option (List ℕ)
  | .int i => if 0 ≤ i ∧ i < n then some [i.toNat] else if -n ≤ i ∧ i < 0 then some [(i + n).toNat] else none
  | .slice a b d => sliceSel n a b d
  | .list l => if ∀ i ∈ l, -(n : ℤ) ≤ i ∧ i < n then some (l.map fun i : ℤ => (if i < 0 then i + n else i).toNat) else none

theorem filter_range_eq {n k : ℕ} (h : k < n) (f : ℕ → Bool) (hf : ∀ j < n, f j = true ↔ j = k) :
    (List.range n).filter f = [k] := by
  have : (List.range n).filter f = (List.range n).filter (· == k) := by
    refine List.filter_congr fun j hj => ?_
    have := hf j (List.mem_range.1 hj)
    by_cases hjk : j = k
    · rw [this.2 hjk, hjk]; simp
    · have h2 : f j = false := by
        rw [Bool.eq_false_iff]; intro hc; exact hjk (this.1 hc)
      rw [h2]; simp [hjk]
  rw [this, List.filter_beq, List.count_eq_one_of_mem List.nodup_range (List.mem_range.2 h)]
  rfl

theorem sel_int {n : ℕ} {i : ℤ} {l : List ℕ} (h : positions n (.int i) = some l) :
    (intToSlice (.int i)).sel n = .ok (.many l) := by
  have key : ∃ k : ℕ, k < n ∧ l = [k] ∧ ((k : ℤ) = i ∨ ((k : ℤ) = i + n ∧ i < 0)) ∧ (0 ≤ i → (k : ℤ) = i) := by
    unfold positions at h
    simp only at h
    split at h
    · rename_i h1
      simp only [Option.some.injEq] at h
      exact ⟨i.toNat, by omega, h.symm, .inl (by omega), by omega⟩
    · split at h
      · rename_i h1
        simp only [Option.some.injEq] at h
        exact ⟨(i + n).toNat, by omega, h.symm, .inr ⟨by omega, by omega⟩, by omega⟩
      · cases h
  obtain ⟨k, hk, rfl, h1, h2⟩ := key
  by_cases hi : i = -1
  · simp only [intToSlice, if_pos hi, NpIx.sel, sliceSel, Option.getD_none, Option.map_none, Option.map_some,
      Option.getD_some]
    rw [if_neg (by omega), if_pos (by omega)]
    simp only
    rw [filter_range_eq hk]
    intro j hj
    rw [decide_eq_true_iff]
    simp only [clipBound]
    constructor
    · rintro ⟨h3, h4, -⟩; split at h3 <;> omega
    · rintro rfl; refine ⟨?_, by omega, by omega⟩; split <;> omega
  · simp only [intToSlice, if_neg hi, NpIx.sel, sliceSel, Option.getD_none, Option.map_some,
      Option.getD_some]
    rw [if_neg (by omega), if_pos (by omega)]
    simp only
    rw [filter_range_eq hk]
    intro j hj
    rw [decide_eq_true_iff]
    simp only [clipBound]
    constructor
    · rintro ⟨h3, h4, -⟩; split at h3 <;> split at h4 <;> omega
    · rintro rfl; refine ⟨?_, ?_, by omega⟩ <;> split <;> omega

theorem sel_int_none {n : ℕ} {i : ℤ} (h : positions n (.int i) = none) :
    (intToSlice (.int i)).sel n = .ok (.many []) := by
  have key : n ≤ i ∨ i < -n := by
    unfold positions at h
    simp only at h
    split at h
    · cases h
    · split at h
      · cases h
      · omega
  by_cases hi : i = -1
  · have hn : n = 0 := by omega
    subst hn
    simp only [intToSlice, if_pos hi, NpIx.sel, sliceSel, Option.getD_none, Option.map_none, Option.map_some,
      Option.getD_some]
    rw [if_neg (by omega), if_pos (by omega)]
    rfl
  · simp only [intToSlice, if_neg hi, NpIx.sel, sliceSel, Option.getD_none, Option.map_some,
      Option.getD_some]
    rw [if_neg (by omega), if_pos (by omega)]
    simp only
    rw [List.filter_eq_nil_iff.2]
    intro j hj
    have := List.mem_range.1 hj
    rw [decide_eq_true_iff]
    simp only [clipBound]
    rintro ⟨h3, h4, -⟩; split at h3 <;> split at h4 <;> omega

theorem mapM_npPos {n : ℕ} (l : List ℤ) : l.mapM (npPos n) = positions n (.list l) := by
  induction l with
  | nil => simp [positions]
  | cons i l ih =>
    rw [List.mapM_cons, ih]
    simp only [positions, List.mem_cons, forall_eq_or_imp, List.map_cons]
    by_cases h1 : -(n : ℤ) ≤ i ∧ i < n
    · have : npPos n i = some (if i < 0 then i + n else i).toNat := by
        unfold npPos
        by_cases h0 : i < 0
        · rw [if_neg (by omega), if_pos (by omega), if_pos h0]
        · rw [if_pos (by omega), if_neg h0]
      rw [this]
      by_cases h2 : ∀ i ∈ l, -(n : ℤ) ≤ i ∧ i < n
      · rw [if_pos (c := ∀ i ∈ l, -(n : ℤ) ≤ i ∧ i < n) h2, if_pos (c := (-(n : ℤ) ≤ i ∧ i < n) ∧ _) ⟨h1, h2⟩]; rfl
      · rw [if_neg (c := ∀ i ∈ l, -(n : ℤ) ≤ i ∧ i < n) h2, if_neg (c := (-(n : ℤ) ≤ i ∧ i < n) ∧ _) (fun h => h2 h.2)]; rfl
    · have : npPos n i = none := by
        unfold npPos
        rw [if_neg (by omega), if_neg (by omega)]
      rw [this, if_neg (c := (-(n : ℤ) ≤ i ∧ i < n) ∧ _) (fun h => h1 h.1)]
      rfl

/-- What is selected along an axis. -/
theorem sel_positions {n : ℕ} {ix : NpIx} {l : List ℕ} (h : positions n ix = some l) :
    (intToSlice ix).sel n = .ok (.many l) ∨ (intToSlice ix).sel n = .ok (.adv l) := by
  cases ix with
  | int i => exact .inl (sel_int h)
  | slice a b d =>
    left
    simp only [positions] at h
    simp [intToSlice, NpIx.sel, h]
  | list l' =>
    right
    simp [intToSlice, NpIx.sel, mapM_npPos, h]

theorem listIndex_eq {t : List T} (ht : t ≠ []) {ix : NpIx} {l : List ℕ} {n : ℕ} (hn : n = t.length)
    (hl : ix.sel n = .ok (.many l) ∨ ix.sel n = .ok (.adv l)) :
    ∃ u, listIndex t ix = .ok u ∧ u.length = l.length ∧
      ∀ k, k < l.length → ∀ a, t[l.getD k 0]? = some a → u[k]? = some a := by
  subst hn
  cases t with
  | nil => exact absurd rfl ht
  | cons d t =>
    obtain ⟨b, hb, hs, hg⟩ := index_axis (⟨[(d :: t).length], fun i => (d :: t).getD (i.headD 0) d⟩ : Arr T)
      (s := []) (t := []) (n := (d :: t).length) rfl hl
    simp only [List.length_nil, List.replicate_zero, List.nil_append] at hb hs
    refine ⟨b.toList1, ?_, by simp [Arr.toList1, hs], fun k hk a ha => ?_⟩
    · simp only [listIndex]
      rw [hb]
    · have := hg [] k [] .nil hk .nil
      simp only [List.nil_append] at this
      simp only [Arr.toList1, hs, List.headD_cons, List.getElem?_map, List.getElem?_range hk,
        Option.map_some]
      rw [this]
      simp only [List.headD_cons]
      rw [List.getD_eq_getElem?_getD (i := l.getD k 0), ha]
      rfl

theorem positions_lt {n : ℕ} {ix : NpIx} {l : List ℕ} (h : positions n ix = some l) : ∀ k ∈ l, k < n := by
  cases ix with
  | int i =>
    simp only [positions] at h
    split at h
    · simp only [Option.some.injEq] at h
      subst h
      simp; omega
    · split at h
      · simp only [Option.some.injEq] at h
        subst h
        simp; omega
      · cases h
  | slice a b d =>
    simp only [positions, sliceSel] at h
    split at h
    · cases h
    · split at h
      · simp only [Option.some.injEq] at h
        subst h
        intro k hk
        exact List.mem_range.1 (List.mem_filter.1 hk).1
      · simp only [Option.some.injEq] at h
        subst h
        intro k hk
        exact List.mem_range.1 (List.mem_filter.1 (List.mem_reverse.1 hk)).1
  | list l' =>
    simp only [positions] at h
    split at h
    · rename_i hl
      simp only [Option.some.injEq] at h
      subst h
      intro k hk
      obtain ⟨i, hi, rfl⟩ := List.mem_map.1 hk
      have := hl i hi
      split <;> omega
    · cases h

/-- **C45** (time). `p['t', i]` has the times at the selected positions, and the values of the process at those
times; if no time is selected, or positions are not valid, an error is raised. -/
theorem C45_time (p : Proc T K) (hp : IsProc p) (ix : NpIx) :
    (∀ l, positions p.t.length ix = some l → l ≠ [] → ∃ z, p.getT ix = .ok z ∧
      z.t.length = l.length ∧ z.x.shape = l.length :: p.x.shape.tail ∧
      ∀ (k j : ℕ), l[k]? = some j → z.t[k]? = p.t[j]? ∧
        ∀ r, InRange p.x.shape.tail r → z.x.get (k :: r) = p.x.get (j :: r)) ∧
    (positions p.t.length ix = none ∨ positions p.t.length ix = some [] → ∃ e, p.getT ix = .error e) := by
  have hsel : ∀ l, (intToSlice ix).sel p.t.length = .ok (.many l) ∨ (intToSlice ix).sel p.t.length = .ok (.adv l) →
      (∀ k ∈ l, k < p.t.length) → ∃ u y, listIndex p.t (intToSlice ix) = .ok u ∧
        p.x.npIndex [intToSlice ix] = .ok y ∧ u.length = l.length ∧ y.shape = l.length :: p.x.shape.tail ∧
        ∀ (k j : ℕ), l[k]? = some j → u[k]? = p.t[j]? ∧
          ∀ r, InRange p.x.shape.tail r → y.get (k :: r) = p.x.get (j :: r) := by
    intro l hl hlt
    obtain ⟨u, hu, hul, hug⟩ := listIndex_eq hp.1 rfl hl
    obtain ⟨y, hy, hys, hyg⟩ := index_axis p.x (s := []) (t := p.x.shape.tail) (IsProc.shape hp) hl
    simp only [List.length_nil, List.replicate_zero, List.nil_append] at hy hys
    refine ⟨u, y, hu, hy, hul, hys, fun k j hkj => ?_⟩
    obtain ⟨hk, hkj'⟩ := List.getElem?_eq_some_iff.1 hkj
    have hg : l.getD k 0 = j := by rw [List.getD_eq_getElem?_getD, hkj]; rfl
    have hj : j < p.t.length := hlt j (by rw [← hkj']; exact List.getElem_mem hk)
    refine ⟨?_, fun r hr => ?_⟩
    · rw [List.getElem?_eq_getElem hj]
      exact hug k hk _ (by rw [hg]; exact List.getElem?_eq_getElem hj)
    · have := hyg [] k r .nil hk hr
      rw [hg] at this
      simpa using this
  constructor
  · intro l hl hne
    obtain ⟨u, y, hu, hy, hul, hys, hg⟩ := hsel l (sel_positions hl) (positions_lt hl)
    refine ⟨⟨u, y⟩, ?_, hul, hys, hg⟩
    unfold Proc.getT
    rw [hu, hy]
    exact make_ok (by rintro rfl; exact hne (List.length_eq_zero_iff.1 hul.symm)) (by simp [hys, hul])
  · have hempty : (intToSlice ix).sel p.t.length = .ok (.many []) ∨
        (intToSlice ix).sel p.t.length = .ok (.adv []) → ∃ e, p.getT ix = .error e := by
      intro h
      obtain ⟨u, y, hu, hy, hul, hys, hg⟩ := hsel [] h (by simp)
      unfold Proc.getT
      rw [hu, hy]
      exact ⟨_, make_error (.inl (List.length_eq_zero_iff.1 hul))⟩
    rintro (h | h)
    · cases ix with
      | int i => exact hempty (.inl (sel_int_none h))
      | slice a b d =>
        simp only [positions] at h
        have h1 : listIndex p.t (.slice a b d) = .error .valueError := by
          cases ht : p.t with
          | nil => exact absurd ht hp.1
          | cons c t =>
            rw [ht] at h
            simp only [listIndex, Arr.npIndex, resolveIx, NpIx.sel, h]
        exact ⟨_, by unfold Proc.getT; simp only [intToSlice]; rw [h1]⟩
      | list l =>
        have h1 : listIndex p.t (.list l) = .error .indexError := by
          cases ht : p.t with
          | nil => exact absurd ht hp.1
          | cons c t =>
            rw [ht] at h
            simp only [listIndex, Arr.npIndex, resolveIx, NpIx.sel, mapM_npPos, h]
        exact ⟨_, by unfold Proc.getT; simp only [intToSlice]; rw [h1]⟩
    · exact hempty (sel_positions h)

/-- **C45** (paths; partial). `p['p', i]` has the timeline of the process, and the values of the paths at the
selected positions. What is missing, an error if an integer is not a valid position, is false: see
`C45_false`. -/
theorem C45_paths_partial (p : Proc T K) (hp : IsProc p) (h2 : 2 ≤ p.x.shape.length) (ix : NpIx) :
    (∀ l, positions p.paths ix = some l → ∃ z, p.getP ix = .ok z ∧ z.t = p.t ∧
      z.x.shape = p.x.shape.dropLast ++ [l.length] ∧
      ∀ (k j : ℕ), l[k]? = some j → ∀ i, InRange p.x.shape.dropLast i →
        z.x.get (i ++ [k]) = p.x.get (i ++ [j])) ∧
    (positions p.paths ix = none → (∀ i, ix ≠ .int i) → ∃ e, p.getP ix = .error e) := by
  have hne : p.x.shape ≠ [] := by intro h; simp [h] at h2
  have hsh : p.x.shape = p.x.shape.dropLast ++ [p.paths] := by
    unfold Proc.paths
    rw [List.getLastD_eq_getLast?, List.getLast?_eq_some_getLast hne]
    simp [List.dropLast_append_getLast]
  have hlen : p.x.shape.length - 1 = p.x.shape.dropLast.length := by simp
  have hhead : ∀ m : ℕ, (p.x.shape.dropLast ++ [m]).head? = some p.t.length := by
    intro m
    have h := hp.2
    match hs : p.x.shape with
    | [] => exact absurd hs hne
    | [a] => rw [hs] at h2; simp at h2
    | a :: b :: s => rw [hs] at h; simpa using h
  constructor
  · intro l hl
    obtain ⟨y, hy, hys, hyg⟩ := index_axis p.x (s := p.x.shape.dropLast) (t := []) (n := p.paths)
      (ix := intToSlice ix) hsh (sel_positions hl)
    refine ⟨⟨p.t, y⟩, ?_, rfl, hys, fun k j hkj i hi => ?_⟩
    · unfold Proc.getP Arr.indexLast
      rw [hlen, hy]
      exact make_ok hp.1 (by rw [hys]; exact hhead _)
    · obtain ⟨hk, hkj'⟩ := List.getElem?_eq_some_iff.1 hkj
      have hg : l.getD k 0 = j := by rw [List.getD_eq_getElem?_getD, hkj]; rfl
      have := hyg i k [] hi hk .nil
      rw [hg] at this
      exact this
  · intro h hi
    have hres : ∀ (ix' : NpIx) (e : PyErr), ix'.sel p.paths = .error e → p.x.indexLast ix' = .error e := by
      intro ix' e he
      unfold Arr.indexLast Arr.npIndex
      rw [hlen]
      conv_lhs => rw [hsh]
      rw [List.dropLast_concat, resolveIx_alls]
      simp [resolveIx, he]
    cases ix with
    | int i => exact absurd rfl (hi i)
    | slice a b d =>
      simp only [positions] at h
      refine ⟨.valueError, ?_⟩
      unfold Proc.getP
      simp only [intToSlice]
      rw [hres (.slice a b d) .valueError (by simp [NpIx.sel, h])]
    | list l =>
      refine ⟨.indexError, ?_⟩
      unfold Proc.getP
      simp only [intToSlice]
      rw [hres (.list l) .indexError (by simp [NpIx.sel, mapM_npPos, h])]

/-! ### Values -/

def NpIx.isSlice : NpIx → Prop
  | .slice _ _ _ => True
  | _ => False

def NpIx.isList : NpIx → Prop
  | .list _ => True
  | _ => False

/-- There are no lists in an index, or lists and integers are not separated by slices. -/
def Spec.ListsTogether (ix : List NpIx) : Prop :=
  (∀ i ∈ ix, ¬ i.isList) ∨ ∃ a b c, ix = a ++ b ++ c ∧ (∀ i ∈ a, i.isSlice) ∧ (∀ i ∈ b, ¬ i.isSlice) ∧
    ∀ i ∈ c, i.isSlice

/-- Values at one time, for one path. -/
def Spec.pathAt (p : Proc T K) (k m : ℕ) : Arr K := ⟨p.vshape, fun j => p.x.get (k :: j ++ [m])⟩

theorem resolveIx_last {vs : List ℕ} {P : ℕ} : ∀ {ix : List NpIx}, ix.length ≤ vs.length →
    resolveIx (vs ++ [P]) (ix ++ [NpIx.all]) =
      match resolveIx vs ix with
      | .error e => .error e
      | .ok s => .ok (s ++ [.many (List.range P)]) := by
  induction vs with
  | nil =>
    intro ix h
    have : ix = [] := List.length_eq_zero_iff.1 (by simpa using h)
    subst this
    simp [resolveIx, sel_all]
  | cons n vs ih =>
    intro ix h
    cases ix with
    | nil =>
      simp only [List.cons_append, List.nil_append, resolveIx, sel_all, resolveIx_nil]
      simp [allSel]
    | cons i ix =>
      simp only [List.cons_append, resolveIx]
      cases i.sel n with
      | error e => rfl
      | ok a =>
        simp only
        rw [ih (by simpa using h)]
        cases resolveIx vs ix <;> rfl

theorem resolveIx_long {vs : List ℕ} : ∀ {ix : List NpIx}, vs.length < ix.length →
    ∃ e, resolveIx vs ix = .error e := by
  induction vs with
  | nil =>
    intro ix h
    cases ix with
    | nil => simp at h
    | cons i ix => exact ⟨_, rfl⟩
  | cons n vs ih =>
    intro ix h
    cases ix with
    | nil => simp at h
    | cons i ix =>
      simp only [resolveIx]
      cases i.sel n with
      | error e => exact ⟨e, rfl⟩
      | ok a =>
        obtain ⟨e, he⟩ := ih (ix := ix) (by simpa using h)
        rw [he]
        exact ⟨e, rfl⟩

theorem resolveIx_kinds {vs : List ℕ} : ∀ {ix : List NpIx} {S : List Sel}, resolveIx vs ix = .ok S →
    ∃ S1 u, S = S1 ++ allSel u ∧
      List.Forall₂ (fun (s : Sel) i => (s.isMany = true ↔ i.isSlice) ∧ (s.isAdv = true ↔ i.isList)) S1 ix := by
  induction vs with
  | nil =>
    intro ix S h
    cases ix with
    | nil => cases h; exact ⟨[], [], rfl, .nil⟩
    | cons i ix => cases h
  | cons n vs ih =>
    intro ix S h
    cases ix with
    | nil =>
      rw [resolveIx_nil] at h
      cases h
      exact ⟨[], n :: vs, rfl, .nil⟩
    | cons i ix =>
      simp only [resolveIx] at h
      cases hi : i.sel n with
      | error e => rw [hi] at h; cases h
      | ok a =>
        rw [hi] at h
        simp only at h
        cases hr : resolveIx vs ix with
        | error e => rw [hr] at h; cases h
        | ok r =>
          rw [hr] at h
          cases h
          obtain ⟨S1, u, rfl, hf⟩ := ih hr
          refine ⟨a :: S1, u, rfl, .cons ?_ hf⟩
          cases i with
          | int i =>
            simp only [NpIx.sel] at hi
            split at hi
            · cases hi
            · cases hi; simp [Sel.isMany, Sel.isAdv, NpIx.isSlice, NpIx.isList]
          | slice a b d =>
            simp only [NpIx.sel] at hi
            split at hi
            · cases hi
            · cases hi; simp [Sel.isMany, Sel.isAdv, NpIx.isSlice, NpIx.isList]
          | list l =>
            simp only [NpIx.sel] at hi
            split at hi
            · cases hi
            · cases hi; simp [Sel.isMany, Sel.isAdv, NpIx.isSlice, NpIx.isList]

theorem pick_last {P m : ℕ} (hm : m < P) (a : ℕ) : ∀ {S : List Sel} {j : List ℕ}, j.length = (manyDims S).length →
    pick (S ++ [.many (List.range P)]) a (j ++ [m]) = pick S a j ++ [m] := by
  intro S
  induction S with
  | nil =>
    intro j hj
    have : j = [] := List.length_eq_zero_iff.1 hj
    subst this
    simp only [List.nil_append, pick, List.headD_cons, range_getD hm]
  | cons s S ih =>
    intro j hj
    cases s with
    | fix k => simp only [List.cons_append, pick, ih (by simpa [manyDims] using hj)]
    | adv l => simp only [List.cons_append, pick, ih (by simpa [manyDims] using hj)]
    | many l =>
      cases j with
      | nil => simp [manyDims] at hj
      | cons b j =>
        simp only [List.cons_append, pick, List.headD_cons, List.tail_cons, ih (by simpa [manyDims] using hj)]

theorem insertIdx_last {α : Type} : ∀ (l : List α) (q : ℕ) (a b : α), q ≤ l.length →
    (l ++ [b]).insertIdx q a = l.insertIdx q a ++ [b]
  | _, 0, _, _, _ => rfl
  | [], _ + 1, _, _, h => by simp at h
  | c :: l, q + 1, a, b, h => by
    simp only [List.cons_append, List.insertIdx_succ_cons, insertIdx_last l q a b (by simpa using h)]

theorem manyDims_takeWhile (S : List Sel) : (S.takeWhile Sel.isMany).length ≤ (manyDims S).length := by
  induction S with
  | nil => simp
  | cons s S ih =>
    cases s with
    | many l =>
      rw [List.takeWhile_cons]
      simp only [Sel.isMany, if_true, manyDims, List.length_cons]
      exact Nat.succ_le_succ ih
    | _ => simp [Sel.isMany]

theorem together_abc {A B C : List Sel} (hA : ∀ s ∈ A, s.isMany = true) (hB : ∀ s ∈ B, s.isAdv = true)
    (hC : ∀ s ∈ C, s.isMany = true) : advTogether (A ++ B ++ C) = true := by
  unfold advTogether
  rw [List.append_assoc, dropWhile_many hA, List.all_eq_true]
  have hdC : C.dropWhile Sel.isAdv = C := by
    cases C with
    | nil => rfl
    | cons c C => rw [List.dropWhile_cons, not_isAdv (hC c (by simp))]; rfl
  cases B with
  | nil =>
    have := dropWhile_many (t := []) hC
    simp only [List.append_nil] at this
    simp [this]
  | cons b B =>
    have hb := hB b (by simp)
    have hb' : b.isMany = false := by cases b <;> simp_all [Sel.isAdv, Sel.isMany]
    rw [List.cons_append, List.dropWhile_cons, hb']
    simp only [Bool.false_eq_true, if_false]
    rw [← List.cons_append, List.dropWhile_append_of_pos hB, hdC]
    exact hC

theorem take_abc {A B C : List Sel} (hA : ∀ s ∈ A, s.isMany = true) (hB : ∀ s ∈ B, s.isAdv = true)
    (hne : B ≠ []) : ((A ++ B ++ C).takeWhile Sel.isMany).length = A.length := by
  rw [List.append_assoc, takeWhile_many hA]
  cases B with
  | nil => exact absurd rfl hne
  | cons b B =>
    have hb := hB b (by simp)
    have hb' : b.isMany = false := by cases b <;> simp_all [Sel.isAdv, Sel.isMany]
    simp [List.takeWhile_cons, hb']

/-- With lists next to each other, what is selected is made of slices, lists and integers, slices. -/
theorem resolve_abc {vs : List ℕ} {ix : List NpIx} {S : List Sel} (h : resolveIx vs ix = .ok S)
    (ht : ListsTogether ix) (hadv : S.any Sel.isAdv = true) :
    ∃ A B C, S.map Sel.promote = A ++ B ++ C ∧ (∀ s ∈ A, s.isMany = true) ∧ (∀ s ∈ B, s.isAdv = true) ∧
      (∀ s ∈ C, s.isMany = true) ∧ B ≠ [] := by
  obtain ⟨S1, u, rfl, hf⟩ := resolveIx_kinds h
  have hu := alls_isMany u
  rcases ht with ht | ⟨a, b, c, rfl, ha, hb, hc⟩
  · exfalso
    rw [List.any_eq_true] at hadv
    obtain ⟨s, hs, hs'⟩ := hadv
    rcases List.mem_append.1 hs with hs | hs
    · obtain ⟨i, hi, hsi⟩ := List.mem_iff_getElem.1 hs
      have hl := hf.length_eq
      rw [List.forall₂_iff_get] at hf
      have := (hf.2 i hi (hl ▸ hi)).2
      simp only [List.get_eq_getElem] at this
      exact ht _ (List.getElem_mem _) (this.1 (by rw [hsi]; exact hs'))
    · rw [not_isAdv (hu s hs)] at hs'; cases hs'
  · have f1 := List.forall₂_take_append _ _ _ hf
    have f2 := List.forall₂_drop_append _ _ _ hf
    have f3 := List.forall₂_take_append _ _ _ f1
    have f4 := List.forall₂_drop_append _ _ _ f1
    generalize hX : S1.take (a ++ b).length = X at *
    have hS1 : S1 = X.take a.length ++ X.drop a.length ++ S1.drop (a ++ b).length := by
      rw [List.take_append_drop, ← hX, List.take_append_drop]
    have mem_of {P : NpIx → Prop} {l : List Sel} {l' : List NpIx} (hf : List.Forall₂ (fun (s : Sel) i =>
        (s.isMany = true ↔ i.isSlice) ∧ (s.isAdv = true ↔ i.isList)) l l') (hP : ∀ i ∈ l', P i) :
        ∀ s ∈ l, ∃ i, P i ∧ (s.isMany = true ↔ i.isSlice) := by
      intro s hs
      obtain ⟨i, hi, rfl⟩ := List.mem_iff_getElem.1 hs
      have hl := hf.length_eq
      rw [List.forall₂_iff_get] at hf
      exact ⟨_, hP _ (List.getElem_mem (hl ▸ hi)), (hf.2 i hi (hl ▸ hi)).1⟩
    have hA : ∀ s ∈ X.take a.length, s.isMany = true := by
      intro s hs
      obtain ⟨i, h1, h2⟩ := mem_of f3 ha s hs
      exact h2.2 h1
    have hC : ∀ s ∈ S1.drop (a ++ b).length, s.isMany = true := by
      intro s hs
      obtain ⟨i, h1, h2⟩ := mem_of f2 hc s hs
      exact h2.2 h1
    have hB : ∀ s ∈ X.drop a.length, s.isMany = false := by
      intro s hs
      obtain ⟨i, h1, h2⟩ := mem_of f4 hb s hs
      rw [Bool.eq_false_iff]
      intro hc
      exact h1 (h2.1 hc)
    refine ⟨X.take a.length, (X.drop a.length).map Sel.promote, S1.drop (a ++ b).length ++ allSel u, ?_, hA,
      ?_, ?_, ?_⟩
    · conv_lhs => rw [hS1]
      simp only [List.map_append, promote_many hA, promote_many hC, promote_many hu, List.append_assoc]
    · intro s hs
      obtain ⟨s', hs', rfl⟩ := List.mem_map.1 hs
      have := hB s' hs'
      cases s' with
      | many l => cases this
      | _ => rfl
    · intro s hs
      rcases List.mem_append.1 hs with hs | hs
      · exact hC s hs
      · exact hu s hs
    · intro h0
      rw [List.map_eq_nil_iff] at h0
      rw [List.any_eq_true] at hadv
      obtain ⟨s, hs, hs'⟩ := hadv
      have hm : s.isMany = true := by
        rcases List.mem_append.1 hs with hs | hs
        · rw [hS1, h0, List.append_nil] at hs
          rcases List.mem_append.1 hs with hs | hs
          · exact hA s hs
          · exact hC s hs
        · exact hu s hs
      rw [not_isAdv hm] at hs'
      cases hs'

theorem getV_of {p z : Proc T K} {ix : List NpIx} {y : Arr K} (h : p.x.npIndex (NpIx.all :: ix ++ [NpIx.all]) = .ok y)
    (hz : Proc.make p.t y = .ok z) : p.getV ix = .ok z := by
  unfold Proc.getV
  rw [h]
  exact hz

/-- **C45** (values; partial). `p['v', i1, ..., ik]` has the timeline and paths of the process; its values at
each time and for each path are those of the process, as an array, indexed by `i1, ..., ik`. An error is
raised if these can not be indexed so. What is missing, for lists separated by slices, is false: see
`C45_lists_false`. -/
theorem C45_values_partial (p : Proc T K) (hp : IsProc p) (h2 : 2 ≤ p.x.shape.length) (ix : List NpIx)
    (ht : ListsTogether ix) :
    (∀ y0, (pathAt p 0 0).npIndex ix = .ok y0 → ∃ z, p.getV ix = .ok z ∧ z.t = p.t ∧
      z.x.shape = p.t.length :: y0.shape ++ [p.paths] ∧
      ∀ k m, k < p.t.length → m < p.paths → ∃ y, (pathAt p k m).npIndex ix = .ok y ∧ y.shape = y0.shape ∧
        ∀ j, InRange y.shape j → z.x.get (k :: j ++ [m]) = y.get j) ∧
    (∀ e, (pathAt p 0 0).npIndex ix = .error e → ∃ e, p.getV ix = .error e) := by
  have hsh : p.x.shape = p.t.length :: p.vshape ++ [p.paths] := by
    have h := hp.2
    unfold Proc.vshape Proc.paths
    match hs : p.x.shape with
    | [] => rw [hs] at h2; simp at h2
    | [a] => rw [hs] at h2; simp at h2
    | a :: b :: s =>
      rw [hs] at h
      simp only [List.head?_cons, Option.some.injEq] at h
      subst h
      simp only [List.dropLast_cons_cons, List.tail_cons, List.cons_append]
      rw [List.getLastD_cons, List.getLastD_eq_getLast?, List.getLast?_eq_some_getLast (by simp)]
      simp [List.dropLast_append_getLast]
  by_cases hlen : ix.length ≤ p.vshape.length
  swap
  · obtain ⟨e, he⟩ := resolveIx_long (vs := p.vshape) (ix := ix) (by omega)
    have hc : (pathAt p 0 0).npIndex ix = .error e := by
      unfold Arr.npIndex
      simp only [pathAt, he]
    rw [hc]
    refine ⟨(by intro y hy; cases hy), fun _ _ => ?_⟩
    obtain ⟨e', he'⟩ := resolveIx_long (vs := p.x.shape) (ix := NpIx.all :: ix ++ [NpIx.all]) (by
      rw [hsh]; simp; omega)
    refine ⟨e', ?_⟩
    unfold Proc.getV Arr.npIndex
    rw [he']
  have hres : resolveIx p.x.shape (NpIx.all :: ix ++ [NpIx.all]) =
      match resolveIx p.vshape ix with
      | .error e => .error e
      | .ok s => .ok (.many (List.range p.t.length) :: s ++ [.many (List.range p.paths)]) := by
    rw [hsh]
    simp only [List.cons_append, resolveIx, sel_all, resolveIx_last hlen]
    cases resolveIx p.vshape ix <;> rfl
  cases hS : resolveIx p.vshape ix with
  | error e =>
    have hc : (pathAt p 0 0).npIndex ix = .error e := by
      unfold Arr.npIndex
      simp only [pathAt, hS]
    rw [hc]
    refine ⟨(by intro y hy; cases hy), fun _ _ => ⟨e, ?_⟩⟩
    unfold Proc.getV Arr.npIndex
    rw [hres, hS]
  | ok S =>
    rw [hS] at hres
    simp only at hres
    have hmk : ∀ (sh : List ℕ) (g : List ℕ → K), Proc.make p.t ⟨p.t.length :: sh ++ [p.paths], g⟩ =
        .ok ⟨p.t, ⟨p.t.length :: sh ++ [p.paths], g⟩⟩ := fun sh g => make_ok hp.1 (by simp)
    by_cases hany : S.any Sel.isAdv = true
    swap
    · -- only integers and slices
      have hc : ∀ k m, (pathAt p k m).npIndex ix =
          .ok ⟨manyDims S, fun o => (pathAt p k m).get (pick S 0 o)⟩ := by
        intro k m
        unfold Arr.npIndex
        have : resolveIx (pathAt p k m).shape ix = .ok S := hS
        rw [this]
        simp only
        rw [if_neg hany]
      have hv : p.x.npIndex (NpIx.all :: ix ++ [NpIx.all]) = .ok ⟨p.t.length :: manyDims S ++ [p.paths],
          fun o => p.x.get (pick (.many (List.range p.t.length) :: S ++ [.many (List.range p.paths)]) 0 o)⟩ := by
        unfold Arr.npIndex
        rw [hres]
        simp only
        rw [if_neg (by
          simp only [List.cons_append, List.any_cons, List.any_append, List.any_nil]
          simp [Sel.isAdv] at hany ⊢
          exact hany)]
        congr 2
        simp [manyDims, manyDims_append]
      refine ⟨fun y0 hy0 => ?_, fun e he => by rw [hc] at he; cases he⟩
      rw [hc] at hy0
      cases hy0
      have hz := getV_of hv (hmk _ _)
      refine ⟨_, hz, rfl, rfl, fun k m hk hm => ⟨_, hc k m, rfl, ?_⟩⟩
      intro j hj
      show p.x.get _ = p.x.get _
      congr 1
      simp only [List.cons_append, pick, List.headD_cons, List.tail_cons, range_getD hk]
      rw [pick_last hm 0 hj.length]
    · -- lists
      obtain ⟨A, B, C, hABC, hA, hB, hC, hBne⟩ := resolve_abc hS ht hany
      have htog := together_abc hA hB hC
      have htk := take_abc (C := C) hA hB hBne
      have hM : ∀ s ∈ [Sel.many (List.range p.paths)], s.isMany = true := by simp [Sel.isMany]
      have hABC' : (Sel.many (List.range p.t.length) :: S ++ [Sel.many (List.range p.paths)]).map Sel.promote =
          (.many (List.range p.t.length) :: A) ++ B ++ (C ++ [.many (List.range p.paths)]) := by
        rw [List.map_append, List.map_cons, hABC]
        simp [Sel.promote]
      have hA' : ∀ s ∈ (Sel.many (List.range p.t.length) :: A), s.isMany = true := by
        intro s hs
        rcases List.mem_cons.1 hs with rfl | hs
        · rfl
        · exact hA s hs
      have hC' : ∀ s ∈ C ++ [Sel.many (List.range p.paths)], s.isMany = true := by
        intro s hs
        rcases List.mem_append.1 hs with hs | hs
        · exact hC s hs
        · exact hM s hs
      have htog' := together_abc hA' hB hC'
      have htk' := take_abc (C := C ++ [Sel.many (List.range p.paths)]) hA' hB hBne
      have hsize : advSize ((Sel.many (List.range p.t.length) :: A) ++ B ++ (C ++ [.many (List.range p.paths)])) =
          advSize (A ++ B ++ C) := by
        rw [advSize_append_many _ hC', advSize_append_many _ hC, advSize_many hA', advSize_many hA]
      have hany' : (Sel.many (List.range p.t.length) :: S ++ [Sel.many (List.range p.paths)]).any Sel.isAdv = true := by
        simp only [List.cons_append, List.any_cons, List.any_append, hany]; simp
      have hqle : A.length ≤ (manyDims (A ++ B ++ C)).length := by
        rw [← htk]; exact manyDims_takeWhile _
      have hdims : manyDims ((Sel.many (List.range p.t.length) :: A) ++ B ++ (C ++ [.many (List.range p.paths)])) =
          p.t.length :: manyDims (A ++ B ++ C) ++ [p.paths] := by
        simp [manyDims, manyDims_append]
      cases hn : advSize (A ++ B ++ C) with
      | none =>
        have hc : (pathAt p 0 0).npIndex ix = .error .indexError := by
          unfold Arr.npIndex
          have : resolveIx (pathAt p 0 0).shape ix = .ok S := hS
          rw [this]
          simp only
          rw [if_pos hany, hABC, hn]
        rw [hc]
        refine ⟨(by intro y hy; cases hy), fun _ _ => ⟨.indexError, ?_⟩⟩
        unfold Proc.getV Arr.npIndex
        rw [hres]
        simp only
        rw [if_pos hany', hABC', hsize, hn]
      | some n =>
        have hc : ∀ k m, (pathAt p k m).npIndex ix =
            .ok ⟨(manyDims (A ++ B ++ C)).insertIdx A.length n,
              fun o => (pathAt p k m).get (pick (A ++ B ++ C) (o.getD A.length 0) (o.eraseIdx A.length))⟩ := by
          intro k m
          unfold Arr.npIndex
          have : resolveIx (pathAt p k m).shape ix = .ok S := hS
          rw [this]
          simp only
          rw [if_pos hany, hABC, hn, htog, htk]
          simp
        have hv : p.x.npIndex (NpIx.all :: ix ++ [NpIx.all]) =
            .ok ⟨p.t.length :: (manyDims (A ++ B ++ C)).insertIdx A.length n ++ [p.paths],
              fun o => p.x.get (pick ((Sel.many (List.range p.t.length) :: A) ++ B ++
                (C ++ [.many (List.range p.paths)])) (o.getD (A.length + 1) 0) (o.eraseIdx (A.length + 1)))⟩ := by
          unfold Arr.npIndex
          rw [hres]
          simp only
          rw [if_pos hany', hABC', hsize, hn, htog', htk', hdims]
          simp only [if_true, List.length_cons, List.cons_append, List.insertIdx_succ_cons]
          rw [insertIdx_last _ _ _ _ hqle]
        refine ⟨fun y0 hy0 => ?_, fun e he => by rw [hc] at he; cases he⟩
        rw [hc] at hy0
        cases hy0
        have hz := getV_of hv (hmk _ _)
        refine ⟨_, hz, rfl, rfl, fun k m hk hm => ⟨_, hc k m, rfl, ?_⟩⟩
        intro j hj
        have hjl : j.length = (manyDims (A ++ B ++ C)).length + 1 := by
          rw [hj.length]
          exact List.length_insertIdx_of_le_length hqle _
        show p.x.get _ = p.x.get _
        congr 1
        have e1 : (k :: j ++ [m]).getD (A.length + 1) 0 = j.getD A.length 0 := by
          simp only [List.getD_eq_getElem?_getD, List.cons_append, List.getElem?_cons_succ]
          rw [List.getElem?_append_left (by omega)]
        have e2 : (k :: j ++ [m]).eraseIdx (A.length + 1) = k :: (j.eraseIdx A.length ++ [m]) := by
          simp only [List.cons_append, List.eraseIdx_cons_succ]
          rw [List.eraseIdx_append_of_lt_length (by omega)]
        rw [e1, e2]
        have e3 : (Sel.many (List.range p.t.length) :: A) ++ B ++ (C ++ [.many (List.range p.paths)]) =
            .many (List.range p.t.length) :: ((A ++ B ++ C) ++ [.many (List.range p.paths)]) := by simp
        rw [e3]
        simp only [List.cons_append, pick, List.headD_cons, List.tail_cons, range_getD hk]
        rw [pick_last hm]
        rw [List.length_eraseIdx_of_lt (by omega)]
        omega

/-- **C45**, the negation, for paths. An integer out of range gives a process without paths. -/
theorem C45_false : ∃ (p z : Proc ℚ ℚ), IsProc p ∧ p.x.shape = [2, 3] ∧ positions p.paths (.int 5) = none ∧
    p.getP (.int 5) = .ok z ∧ z.paths = 0 :=
  ⟨⟨[0, 1], ⟨[2, 3], fun i => (i.sum : ℕ)⟩⟩, ⟨[0, 1], ⟨[2, 0],
      fun o => ((pick [.many [0, 1], .many []] 0 o).sum : ℕ)⟩⟩, ⟨by simp, rfl⟩, rfl, rfl, rfl, rfl⟩

/-- **C45**, the negation, for lists separated by slices: `p['v', [0, 1], :, [0, 1]]` for values of shape
`(2, 1, 2)`, and two time points. The first axis of the result is not that of time: its values at time 0 are
those of the process at both times. -/
theorem C45_lists_false : ∃ (p z : Proc ℚ ℚ), IsProc p ∧ p.vshape = [2, 1, 2] ∧
    p.getV [.list [0, 1], NpIx.all, .list [0, 1]] = .ok z ∧ z.t = p.t ∧ z.x.shape = [2, 2, 1, 1] ∧
    z.x.get [0, 1, 0, 0] = p.x.get [1, 0, 0, 0, 0] ∧ p.x.get [1, 0, 0, 0, 0] ≠ p.x.get [0, 0, 0, 0, 0] ∧
    ∃ y, (pathAt p 0 0).npIndex [.list [0, 1], NpIx.all, .list [0, 1]] = .ok y ∧ y.shape = [2, 1] ∧
      y.get [1, 0] ≠ z.x.get [0, 1, 0, 0] :=
  ⟨⟨[0, 1], ⟨[2, 2, 1, 2, 1], fun i => (i.headD 0 : ℕ)⟩⟩,
    ⟨[0, 1], ⟨[2, 2, 1, 1], fun o => ((pick [.many [0, 1], .adv [0, 1], .many [0], .adv [0, 1], .many [0]]
      (o.getD 0 0) (o.eraseIdx 0)).headD 0 : ℕ)⟩⟩, ⟨by simp, rfl⟩, rfl, rfl, rfl, rfl, rfl, by simp,
    ⟨[2, 1], fun _ => ((0 : ℕ) : ℚ)⟩, rfl, rfl, by simp [pick]⟩

example := (C45_time exProc exProc_isProc (.int (-1))).1 [1] rfl (by simp)
example := (C45_time exProc exProc_isProc (.slice none none (some (-1)))).1 [1, 0] (by decide) (by simp)
example := (C45_time exProc exProc_isProc (.int 2)).2 (.inl rfl)
example := (C45_paths_partial exProc exProc_isProc (by simp [exProc]) (.list [3, -4, 0])).1 [3, 0, 0]
  (by decide)
example := (C45_paths_partial exProc exProc_isProc (by simp [exProc]) (.list [3, 4])).2 (by decide) (by simp)
example : ∃ z, exProc.getV [.list [2, 0]] = .ok z ∧ z.x.shape = [2, 2, 4] := by
  obtain ⟨z, h1, -, h3, -⟩ := (C45_values_partial exProc exProc_isProc (by simp [exProc]) [.list [2, 0]]
    (.inr ⟨[], [.list [2, 0]], [], by simp, by simp, by simp [NpIx.isSlice], by simp⟩)).1 _ rfl
  exact ⟨z, h1, h3⟩

end Sdepy
