import Verif.Spec.TrueSource
import Mathlib.Tactic.Linarith
import Mathlib.Tactic.Ring
import Mathlib.Data.List.Sort

/-!
# Evaluation of sources with memory
-/

set_option linter.unusedSectionVars false
set_option linter.unusedSimpArgs false

namespace Sdepy

open Spec

variable {T Z V σ : Type} [Field T] [LinearOrder T] [IsStrictOrderedRing T]

theorem bisectGo_spec (t : List T) (s : T) (h : t.Pairwise (· < ·)) :
    ∀ (n lo hi : ℕ), hi - lo ≤ n → lo ≤ hi → hi ≤ t.length →
      (∀ i u, i < lo → t[i]? = some u → u ≤ s) → (∀ i u, hi ≤ i → t[i]? = some u → s < u) →
      (∀ i u, i < bisectGo t s n lo hi → t[i]? = some u → u ≤ s) ∧
      (∀ i u, bisectGo t s n lo hi ≤ i → t[i]? = some u → s < u) ∧
      bisectGo t s n lo hi ≤ t.length := by
  intro n
  induction n with
  | zero =>
    intro lo hi h1 h2 h3 h4 h5
    have : lo = hi := by omega
    subst this
    exact ⟨h4, h5, h3⟩
  | succ n ih =>
    intro lo hi h1 h2 h3 h4 h5
    unfold bisectGo
    by_cases hlt : lo < hi
    · rw [if_pos hlt]
      have hm : (lo + hi) / 2 < t.length := by omega
      rw [List.getElem?_eq_getElem hm]
      simp only
      by_cases hs : s < t[(lo + hi) / 2]
      · rw [if_pos hs]
        refine ih lo _ (by omega) (by omega) hm.le h4 ?_
        intro i u hi' hu
        obtain ⟨hil, rfl⟩ := List.getElem?_eq_some_iff.1 hu
        rcases hi'.eq_or_lt with rfl | hlt'
        · exact hs
        · exact hs.trans (List.pairwise_iff_getElem.1 h _ _ hm hil hlt')
      · rw [if_neg hs]
        refine ih _ hi (by omega) (by omega) h3 ?_ h5
        intro i u hi' hu
        obtain ⟨hil, rfl⟩ := List.getElem?_eq_some_iff.1 hu
        rcases (Nat.lt_succ_iff.1 hi').eq_or_lt with rfl | hlt'
        · exact not_lt.1 hs
        · exact ((List.pairwise_iff_getElem.1 h _ _ hil hm hlt').le).trans (not_lt.1 hs)
    · rw [if_neg hlt]
      have : lo = hi := by omega
      subst this
      exact ⟨h4, h5, h3⟩

theorem bisectRight_spec (t : List T) (s : T) (h : t.Pairwise (· < ·)) :
    (∀ i u, i < bisectRight t s → t[i]? = some u → u ≤ s) ∧
    (∀ i u, bisectRight t s ≤ i → t[i]? = some u → s < u) ∧
    bisectRight t s ≤ t.length :=
  bisectGo_spec t s h t.length 0 t.length (by omega) (by omega) le_rfl (by intro i u h; omega)
    (by
      intro i u h1 h2
      have := (List.getElem?_eq_some_iff.1 h2).1
      omega)

/-- `bisect_right` finds where to insert. -/
theorem bisectRight_unique {t : List T} {s : T} (h : t.Pairwise (· < ·)) {k : ℕ}
    (h1 : ∀ i u, i < k → t[i]? = some u → u ≤ s) (h2 : ∀ i u, k ≤ i → t[i]? = some u → s < u)
    (h3 : k ≤ t.length) : bisectRight t s = k := by
  obtain ⟨g1, g2, g3⟩ := bisectRight_spec t s h
  by_contra hne
  rcases Nat.lt_or_gt_of_ne hne with hlt | hgt
  · have hk : bisectRight t s < t.length := by omega
    have e := List.getElem?_eq_getElem hk
    exact absurd (h1 _ _ hlt e) (not_le.2 (g2 _ _ le_rfl e))
  · have hk : k < t.length := by omega
    have e := List.getElem?_eq_getElem hk
    exact absurd (g1 _ _ hgt e) (not_le.2 (h2 _ _ le_rfl e))

theorem insertIdx_eq {α : Type} {l : List α} {k : ℕ} (h : k ≤ l.length) (a : α) :
    l.insertIdx k a = l.take k ++ a :: l.drop k := by
  induction l generalizing k with
  | nil =>
    have : k = 0 := by simpa using h
    subst this; rfl
  | cons b l ih =>
    cases k with
    | zero => rfl
    | succ k => simp [List.insertIdx_succ_cons, ih (by simpa using h)]

theorem insertIdx_sorted {t : List T} {s : T} (h : t.Pairwise (· < ·)) (hs : s ∉ t) :
    (t.insertIdx (bisectRight t s) s).Pairwise (· < ·) := by
  obtain ⟨g1, g2, g3⟩ := bisectRight_spec t s h
  generalize bisectRight t s = k at *
  have e : t = t.take k ++ t.drop k := by simp
  rw [insertIdx_eq g3, List.pairwise_append]
  have hp := h
  rw [e, List.pairwise_append] at hp
  have hlt : ∀ a ∈ t.take k, a < s := by
    intro a ha
    obtain ⟨i, hi, rfl⟩ := List.mem_iff_getElem.1 ha
    rw [List.length_take] at hi
    have h1 : t[i]? = some t[i] := List.getElem?_eq_getElem (by omega)
    rw [List.getElem_take]
    rcases (g1 i _ (by omega) h1).eq_or_lt with h' | h'
    · exact absurd (h' ▸ List.getElem_mem _) hs
    · exact h'
  have hgt : ∀ b ∈ t.drop k, s < b := by
    intro a ha
    obtain ⟨i, hi, rfl⟩ := List.mem_iff_getElem.1 ha
    rw [List.length_drop] at hi
    rw [List.getElem_drop]
    exact g2 (k + i) _ (by omega) (List.getElem?_eq_getElem (by omega))
  refine ⟨hp.1, List.pairwise_cons.2 ⟨hgt, hp.2.1⟩, ?_⟩
  intro a ha b hb
  rcases List.mem_cons.1 hb with rfl | hb
  · exact hlt a ha
  · exact (hlt a ha).trans (hgt b hb)

/-- Stored values, as seen by the user. -/
def TrueSrc.vals (S : TrueSrc T Z V σ) (m : Mem T Z σ) : List V := m.z.map S.getvalue

/-- What an evaluation does. -/
theorem get1_cases {S : TrueSrc T Z V σ} {flat : V → V → Prop} (hL : Lawful S flat)
    {m m' : Mem T Z σ} (hk : WellKept m) {s : T} {v : V} (h : S.get1 s m = .ok (v, m'))
    (hw : bisectRight m.t s = 0 → ∀ u, m.t.getLast? = some u → ¬ isClose S.rtol s u) :
    (0 < bisectRight m.t s ∧ ∃ u, m.t[bisectRight m.t s - 1]? = some u ∧
      (S.vals m)[bisectRight m.t s - 1]? = some v ∧ isClose S.rtol s u ∧ m' = m) ∨
    (0 < bisectRight m.t s ∧ ∃ u v1, m.t[bisectRight m.t s - 1]? = some u ∧
      ¬ isClose S.rtol s u ∧ (S.vals m)[bisectRight m.t s - 1]? = some v1 ∧
      (S.vals m)[bisectRight m.t s]? = some v ∧ flat v1 v ∧ m'.t = m.t ∧ S.vals m' = S.vals m) ∨
    (m'.t = m.t.insertIdx (bisectRight m.t s) s ∧
      S.vals m' = (S.vals m).insertIdx (bisectRight m.t s) v ∧
      (0 < bisectRight m.t s → ∃ u, m.t[bisectRight m.t s - 1]? = some u ∧ ¬ isClose S.rtol s u) ∧
      (0 < bisectRight m.t s → ∀ v1 v2, (S.vals m)[bisectRight m.t s - 1]? = some v1 →
        (S.vals m)[bisectRight m.t s]? = some v2 → ¬ flat v1 v2)) := by
  obtain ⟨hs, hlen, hne⟩ := hk
  obtain ⟨g1, g2, g3⟩ := bisectRight_spec m.t s hs
  unfold TrueSrc.get1 at h
  generalize bisectRight m.t s = k at *
  have hpos : 0 < m.t.length := List.length_pos_iff.2 hne
  simp only at h
  by_cases hk0 : k = 0
  · -- below
    subst hk0
    rw [if_pos rfl, List.getElem?_eq_getElem (by omega), List.getElem?_eq_getElem (by omega)] at h
    simp only at h
    have hlast : m.t.getLast? = some m.t[m.t.length - 1] := by
      rw [List.getLast?_eq_getElem?, List.getElem?_eq_getElem (by omega)]
    rw [if_neg (hw rfl _ hlast), if_neg (by omega), if_pos trivial] at h
    match hz : m.z, ht : m.t with
    | [], _ => rw [hz] at hlen; simp at hlen; omega
    | _ :: _, [] => exact absurd ht hne
    | z :: zs, t :: ts =>
      rw [hz, ht] at h
      simp only at h
      cases ho : S.outside z t s m.s with
      | error e => rw [ho] at h; simp at h
      | ok r =>
        obtain ⟨⟨z', znew⟩, st⟩ := r
        rw [ho] at h
        simp only [Except.ok.injEq, Prod.mk.injEq] at h
        refine .inr (.inr ⟨?_, ?_, fun h => absurd h (lt_irrefl _), fun h => absurd h (lt_irrefl _)⟩)
        · rw [← h.2]; simp
        · rw [← h.2, ← h.1]
          simp [TrueSrc.vals, hz, hL.outside ho]
  · rw [if_neg hk0] at h
    have hk1 : k - 1 < m.t.length := by omega
    have hk1z : k - 1 < m.z.length := by omega
    have et := List.getElem?_eq_getElem hk1
    have ez := List.getElem?_eq_getElem hk1z
    rw [et, ez] at h
    simp only at h
    by_cases hc : isClose S.rtol s m.t[k - 1]
    · rw [if_pos hc] at h
      simp only [Except.ok.injEq, Prod.mk.injEq] at h
      refine .inl ⟨by omega, _, et, ?_, hc, h.2.symm⟩
      simp only [TrueSrc.vals, List.getElem?_map, ez, Option.map_some, h.1]
    · rw [if_neg hc] at h
      by_cases hkl : k = m.t.length
      · -- above
        rw [if_pos hkl] at h
        have hl1 : m.z.getLast? = some m.z[k - 1] := by
          rw [List.getLast?_eq_getElem?, ← ez, hlen, hkl]
        have hl2 : m.t.getLast? = some m.t[k - 1] := by
          rw [List.getLast?_eq_getElem?, ← et, hkl]
        rw [hl1, hl2] at h
        simp only at h
        cases ho : S.outside m.z[k - 1] m.t[k - 1] s m.s with
        | error e => rw [ho] at h; simp at h
        | ok r =>
          obtain ⟨⟨z', znew⟩, st⟩ := r
          rw [ho] at h
          simp only [Except.ok.injEq, Prod.mk.injEq] at h
          have hzl : m.z = m.z.dropLast ++ [m.z[k - 1]] := by
            have := List.dropLast_append_getLast? _ hl1
            exact this.symm
          refine .inr (.inr ⟨?_, ?_, fun _ => ⟨_, et, hc⟩, ?_⟩)
          · rw [← h.2, hkl]; simp
          · rw [← h.2, ← h.1]
            have hvl : k = (S.vals m).length := by simp [TrueSrc.vals, hlen, hkl]
            rw [hvl, List.insertIdx_length_self]
            simp only [TrueSrc.vals]
            conv_rhs => rw [hzl]
            simp [hL.outside ho]
          · intro _ v1 v2 _ h2
            have : k < (S.vals m).length := (List.getElem?_eq_some_iff.1 h2).1
            simp [TrueSrc.vals] at this
            omega
      · rw [if_neg hkl, if_neg hk0] at h
        have hk2 : k < m.t.length := by omega
        have hk2z : k < m.z.length := by omega
        have et2 := List.getElem?_eq_getElem hk2
        have ez2 := List.getElem?_eq_getElem hk2z
        rw [et2, ez2] at h
        simp only at h
        cases ho : S.inside m.z[k - 1] m.z[k] m.t[k - 1] m.t[k] s m.s with
        | error e => rw [ho] at h; simp at h
        | ok r =>
          obtain ⟨⟨z', r⟩, st⟩ := r
          obtain ⟨hv', hflat⟩ := hL.inside ho
          have hset : (m.z.set (k - 1) z').map S.getvalue = m.z.map S.getvalue := by
            rw [List.map_set, hv']
            apply List.ext_getElem?
            intro i
            rw [List.getElem?_set]
            split
            · next he =>
              subst he
              simp [hk1z]
            · rfl
          cases r with
          | none =>
            rw [ho] at h
            simp only [Except.ok.injEq, Prod.mk.injEq] at h
            refine .inr (.inl ⟨by omega, _, S.getvalue m.z[k - 1], et, hc, ?_, ?_, ?_, ?_, ?_⟩)
            · simp [TrueSrc.vals, ez]
            · simp [TrueSrc.vals, ez2, ← h.1]
            · rw [← h.1]; exact hflat.1 rfl
            · rw [← h.2]
            · rw [← h.2]; exact hset
          | some znew =>
            rw [ho] at h
            simp only [Except.ok.injEq, Prod.mk.injEq] at h
            refine .inr (.inr ⟨?_, ?_, fun _ => ⟨_, et, hc⟩, ?_⟩)
            · rw [← h.2]
            · rw [← h.2, ← h.1]
              simp only [TrueSrc.vals, List.map_insertIdx, hset]
            · intro _ v1 v2 h1 h2
              simp only [TrueSrc.vals, List.getElem?_map, ez, ez2, Option.map_some,
                Option.some.injEq] at h1 h2
              rw [← h1, ← h2]
              intro hf
              exact absurd (hflat.2 hf) (by simp)

/-- An evaluation fails only if a method of the subclass does, called as it expects to be. -/
theorem get1_error {S : TrueSrc T Z V σ} (hr : 0 ≤ S.rtol)
    {m : Mem T Z σ} (hk : WellKept m) {s : T} {e : PyErr} (h : S.get1 s m = .error e) :
    (∃ z t, m.z.getLast? = some z ∧ m.t.getLast? = some t ∧ t < s ∧
      S.outside z t s m.s = .error e) ∨
    (∃ z t, m.z.head? = some z ∧ m.t.head? = some t ∧ s < t ∧ S.outside z t s m.s = .error e) ∨
    (∃ k z1 z2 t1 t2, m.t[k]? = some t1 ∧ m.t[k + 1]? = some t2 ∧ m.z[k]? = some z1 ∧
      m.z[k + 1]? = some z2 ∧ t1 < s ∧ s < t2 ∧ S.inside z1 z2 t1 t2 s m.s = .error e) := by
  obtain ⟨hs, hlen, hne⟩ := hk
  obtain ⟨g1, g2, g3⟩ := bisectRight_spec m.t s hs
  unfold TrueSrc.get1 at h
  generalize bisectRight m.t s = k at *
  have hpos : 0 < m.t.length := List.length_pos_iff.2 hne
  have hnear : ∀ u, ¬ isClose S.rtol s u → s ≠ u := by
    rintro u hu rfl
    exact hu (by simp only [isClose, sub_self, abs_zero]; positivity)
  simp only at h
  by_cases hk0 : k = 0
  · subst hk0
    rw [if_pos rfl, List.getElem?_eq_getElem (by omega), List.getElem?_eq_getElem (by omega)] at h
    simp only at h
    split at h
    · simp at h
    rw [if_neg (by omega), if_pos trivial] at h
    match hz : m.z, ht : m.t with
    | [], _ => rw [hz] at hlen; simp at hlen; omega
    | _ :: _, [] => exact absurd ht hne
    | z :: zs, t :: ts =>
      rw [hz, ht] at h
      simp only at h
      cases ho : S.outside z t s m.s with
      | error e' =>
        rw [ho] at h
        simp only [Except.error.injEq] at h
        refine .inr (.inl ⟨z, t, rfl, rfl, g2 0 t le_rfl (by rw [ht]; rfl), by rw [ho, h]⟩)
      | ok r => rw [ho] at h; simp at h
  · rw [if_neg hk0] at h
    have hk1 : k - 1 < m.t.length := by omega
    have hk1z : k - 1 < m.z.length := by omega
    have et := List.getElem?_eq_getElem hk1
    have ez := List.getElem?_eq_getElem hk1z
    rw [et, ez] at h
    simp only at h
    by_cases hc : isClose S.rtol s m.t[k - 1]
    · rw [if_pos hc] at h; simp at h
    · rw [if_neg hc] at h
      have hlt : m.t[k - 1] < s := lt_of_le_of_ne (g1 _ _ (by omega) et) (hnear _ hc).symm
      by_cases hkl : k = m.t.length
      · rw [if_pos hkl] at h
        have hl1 : m.z.getLast? = some m.z[k - 1] := by
          rw [List.getLast?_eq_getElem?, ← ez, hlen, hkl]
        have hl2 : m.t.getLast? = some m.t[k - 1] := by
          rw [List.getLast?_eq_getElem?, ← et, hkl]
        rw [hl1, hl2] at h
        simp only at h
        cases ho : S.outside m.z[k - 1] m.t[k - 1] s m.s with
        | error e' =>
          rw [ho] at h
          simp only [Except.error.injEq] at h
          exact .inl ⟨_, _, hl1, hl2, hlt, by rw [ho, h]⟩
        | ok r => rw [ho] at h; simp at h
      · rw [if_neg hkl, if_neg hk0] at h
        have hk2 : k < m.t.length := by omega
        have hk2z : k < m.z.length := by omega
        have et2 := List.getElem?_eq_getElem hk2
        have ez2 := List.getElem?_eq_getElem hk2z
        rw [et2, ez2] at h
        simp only at h
        cases ho : S.inside m.z[k - 1] m.z[k] m.t[k - 1] m.t[k] s m.s with
        | error e' =>
          rw [ho] at h
          simp only [Except.error.injEq] at h
          have hkk : k - 1 + 1 = k := by omega
          exact .inr (.inr ⟨k - 1, _, _, _, _, et, by rw [hkk]; exact et2, ez, by rw [hkk]; exact ez2,
            hlt, g2 _ _ le_rfl et2, by rw [ho, h]⟩)
        | ok r =>
          obtain ⟨⟨z', r⟩, st⟩ := r
          rw [ho] at h
          cases r <;> simp at h

/-! ### what is known stays known -/

/-- The value at time `s` is determined by the memory. -/
def Knows (S : TrueSrc T Z V σ) (flat : V → V → Prop) (m : Mem T Z σ) (s : T) (v : V) : Prop :=
  0 < bisectRight m.t s ∧ ∃ u, m.t[bisectRight m.t s - 1]? = some u ∧
    ((isClose S.rtol s u ∧ (S.vals m)[bisectRight m.t s - 1]? = some v) ∨
     (¬ isClose S.rtol s u ∧ ∃ v1, (S.vals m)[bisectRight m.t s - 1]? = some v1 ∧
      (S.vals m)[bisectRight m.t s]? = some v ∧ flat v1 v))

theorem Knows.unique {S : TrueSrc T Z V σ} {flat : V → V → Prop} {m : Mem T Z σ} {s : T} {v v' : V}
    (h : Knows S flat m s v) (h' : Knows S flat m s v') : v = v' := by
  obtain ⟨_, u, hu, h⟩ := h
  obtain ⟨_, u', hu', h'⟩ := h'
  rw [hu] at hu'
  simp only [Option.some.injEq] at hu'
  subst hu'
  rcases h with ⟨hc, h⟩ | ⟨hc, _, _, h, _⟩ <;> rcases h' with ⟨hc', h'⟩ | ⟨hc', _, _, h', _⟩
  · rw [h] at h'; simpa using h'
  · exact absurd hc hc'
  · exact absurd hc' hc
  · rw [h] at h'; simpa using h'

/-- Same times, same values: same knowledge. -/
theorem Knows.congr {S : TrueSrc T Z V σ} {flat : V → V → Prop} {m m' : Mem T Z σ} {s : T} {v : V}
    (ht : m'.t = m.t) (hv : S.vals m' = S.vals m) (h : Knows S flat m s v) :
    Knows S flat m' s v := by
  unfold Knows at *
  rw [ht, hv]; exact h

theorem vals_length {S : TrueSrc T Z V σ} {m : Mem T Z σ} (hk : WellKept m) :
    (S.vals m).length = m.t.length := by simp [TrueSrc.vals, hk.2.1]

/-- A new time is not among those stored. -/
theorem new_notMem {S : TrueSrc T Z V σ} (hr : 0 ≤ S.rtol) {m : Mem T Z σ} (hk : WellKept m) {s : T}
    (h : 0 < bisectRight m.t s →
      ∃ u, m.t[bisectRight m.t s - 1]? = some u ∧ ¬ isClose S.rtol s u) : s ∉ m.t := by
  intro hm
  obtain ⟨g1, g2, g3⟩ := bisectRight_spec m.t s hk.1
  obtain ⟨i, hi, he⟩ := List.mem_iff_getElem.1 hm
  have hit : m.t[i]? = some s := by rw [List.getElem?_eq_getElem hi, he]
  have hlt : i < bisectRight m.t s := by
    by_contra hn
    exact absurd (g2 i s (not_lt.1 hn) hit) (lt_irrefl s)
  obtain ⟨u, hu, hc⟩ := h (by omega)
  have : u = s := by
    obtain ⟨hj, rfl⟩ := List.getElem?_eq_some_iff.1 hu
    have h1 := g1 _ _ (by omega) hu
    rcases (show i ≤ bisectRight m.t s - 1 by omega).eq_or_lt with h2 | h2
    · subst h2; exact he
    · have := List.pairwise_iff_getElem.1 hk.1 i _ hi hj h2
      rw [he] at this
      exact absurd h1 (not_le.2 this)
  subst this
  exact hc (by simp only [isClose, sub_self, abs_zero]; positivity)

/-- Position of `s` once `s'` has been inserted. -/
theorem bisectRight_insert {t : List T} (h : t.Pairwise (· < ·)) {s s' : T} (hs : s' ∉ t) :
    bisectRight (t.insertIdx (bisectRight t s') s') s =
      bisectRight t s + if s' ≤ s then 1 else 0 := by
  obtain ⟨g1, g2, g3⟩ := bisectRight_spec t s h
  obtain ⟨f1, f2, f3⟩ := bisectRight_spec t s' h
  have hsort := insertIdx_sorted h hs
  apply bisectRight_unique hsort
  · intro i u hi hu
    rw [List.getElem?_insertIdx] at hu
    split at hu
    · next hlt =>
      by_cases hss : s' ≤ s
      · exact (f1 i u hlt hu).trans hss
      · rw [if_neg hss] at hi; exact g1 i u hi hu
    · next hge =>
      split at hu
      · next heq =>
        have : u = s' := by
          split at hu <;> simp at hu
          exact hu.symm
        subst this
        by_contra hss
        rw [if_neg hss] at hi
        -- then i = position of s', which is below that of s
        have hlt : bisectRight t u < t.length := by omega
        have e := List.getElem?_eq_getElem hlt
        exact hss ((f2 _ _ le_rfl e).le.trans (g1 _ _ (by omega) e))
      · next hne =>
        have hgt : bisectRight t s' < i := by omega
        have : s' ≤ s := by
          by_contra hss
          rw [if_neg hss] at hi
          have hlt : bisectRight t s' < t.length := by omega
          have e := List.getElem?_eq_getElem hlt
          exact hss ((f2 _ _ le_rfl e).le.trans (g1 _ _ (by omega) e))
        rw [if_pos this] at hi
        exact g1 (i - 1) u (by omega) hu
  · intro i u hi hu
    rw [List.getElem?_insertIdx] at hu
    split at hu
    · next hlt =>
      exact g2 i u (by split at hi <;> omega) hu
    · next hge =>
      split at hu
      · next heq =>
        have : u = s' := by
          split at hu <;> simp at hu
          exact hu.symm
        subst this
        by_contra hss
        rw [if_pos (not_lt.1 hss)] at hi
        have hlt : bisectRight t s < t.length := by omega
        have e := List.getElem?_eq_getElem hlt
        exact absurd (f1 _ _ (by omega) e) (not_le.2 ((not_lt.1 hss).trans_lt (g2 _ _ le_rfl e)))
      · next hne =>
        by_cases hss : s' ≤ s
        · rw [if_pos hss] at hi
          exact g2 (i - 1) u (by omega) hu
        · exact (not_le.1 hss).trans (f2 (i - 1) u (by omega) hu)
  · rw [List.length_insertIdx, if_pos f3]
    split <;> omega

theorem knows_insert {S : TrueSrc T Z V σ} (hr : 0 ≤ S.rtol) {flat : V → V → Prop}
    {m m' : Mem T Z σ} (hk : WellKept m)
    {s : T} {v : V} (h : Knows S flat m s v) {s' : T} {v' : V}
    (ht : m'.t = m.t.insertIdx (bisectRight m.t s') s')
    (hv : S.vals m' = (S.vals m).insertIdx (bisectRight m.t s') v')
    (hc : 0 < bisectRight m.t s' →
      ∃ u, m.t[bisectRight m.t s' - 1]? = some u ∧ ¬ isClose S.rtol s' u)
    (hf : 0 < bisectRight m.t s' → ∀ v1 v2, (S.vals m)[bisectRight m.t s' - 1]? = some v1 →
        (S.vals m)[bisectRight m.t s']? = some v2 → ¬ flat v1 v2) :
    Knows S flat m' s v := by
  have hnm := new_notMem hr hk hc
  have hb := bisectRight_insert hk.1 (s := s) hnm
  obtain ⟨g1, g2, g3⟩ := bisectRight_spec m.t s hk.1
  obtain ⟨f1, f2, f3⟩ := bisectRight_spec m.t s' hk.1
  rw [← ht] at hb
  unfold Knows at h ⊢
  rw [hb, ht, hv]
  have hvl := vals_length (S := S) hk
  obtain ⟨hpos, u, hu, h⟩ := h
  by_cases hss : s' ≤ s
  · simp only [hss, if_true, Nat.add_sub_cancel]
    have hle : bisectRight m.t s' ≤ bisectRight m.t s := by
      by_contra hn
      have hlt : bisectRight m.t s < m.t.length := by omega
      have e := List.getElem?_eq_getElem hlt
      exact absurd (f1 _ _ (by omega) e) (not_le.2 (hss.trans_lt (g2 _ _ le_rfl e)))
    rcases hle.eq_or_lt with heq | hlt
    · -- s' falls between the last stored time and s
      exfalso
      obtain ⟨u', hu', hc'⟩ := hc (by omega)
      rw [heq, hu] at hu'
      simp only [Option.some.injEq] at hu'
      subst hu'
      rcases h with ⟨hcl, _⟩ | ⟨_, v1, h1, h2, h3⟩
      · apply hc'
        have hus' : u ≤ s' := f1 _ _ (by omega) hu
        unfold isClose at hcl ⊢
        rw [abs_of_nonneg (by linarith)] at hcl ⊢
        linarith
      · rw [heq] at hf
        exact hf hpos v1 v h1 h2 h3
    · refine ⟨by omega, u, ?_, ?_⟩
      · rw [List.getElem?_insertIdx, if_neg (by omega), if_neg (by omega)]; exact hu
      · rcases h with ⟨hcl, hv1⟩ | ⟨hcl, v1, h1, h2, h3⟩
        · refine .inl ⟨hcl, ?_⟩
          rw [List.getElem?_insertIdx, if_neg (by omega), if_neg (by omega)]; exact hv1
        · refine .inr ⟨hcl, v1, ?_, ?_, h3⟩
          · rw [List.getElem?_insertIdx, if_neg (by omega), if_neg (by omega)]; exact h1
          · rw [List.getElem?_insertIdx, if_neg (by omega), if_neg (by omega)]; exact h2
  · simp only [hss, if_false, Nat.add_zero]
    have hle : bisectRight m.t s ≤ bisectRight m.t s' := by
      by_contra hn
      have hlt : bisectRight m.t s' < m.t.length := by omega
      have e := List.getElem?_eq_getElem hlt
      exact hss ((f2 _ _ le_rfl e).le.trans (g1 _ _ (by omega) e))
    refine ⟨hpos, u, ?_, ?_⟩
    · rw [List.getElem?_insertIdx, if_pos (by omega)]; exact hu
    · rcases h with ⟨hcl, hv1⟩ | ⟨hcl, v1, h1, h2, h3⟩
      · refine .inl ⟨hcl, ?_⟩
        rw [List.getElem?_insertIdx, if_pos (by omega)]; exact hv1
      · refine .inr ⟨hcl, v1, ?_, ?_, h3⟩
        · rw [List.getElem?_insertIdx, if_pos (by omega)]; exact h1
        · rcases hle.eq_or_lt with heq | hlt
          · exfalso
            rw [← heq] at hf
            exact hf hpos v1 v h1 h2 h3
          · rw [List.getElem?_insertIdx, if_pos (by omega)]; exact h2

/-- Invariant of the memory. -/
def MemOk (t0 : T) (m : Mem T Z σ) : Prop := WellKept m ∧ t0 ∈ m.t

theorem mem_le_last {t : List T} (h : t.Pairwise (· < ·)) {u l : T} (hu : u ∈ t)
    (hl : t.getLast? = some l) : u ≤ l := by
  obtain ⟨i, hi, rfl⟩ := List.mem_iff_getElem.1 hu
  rw [List.getLast?_eq_getElem?] at hl
  obtain ⟨hj, rfl⟩ := List.getElem?_eq_some_iff.1 hl
  rcases (show i ≤ t.length - 1 by omega).eq_or_lt with h' | h'
  · simp [h']
  · exact (List.pairwise_iff_getElem.1 h _ _ hi hj h').le

theorem no_wrap {rtol : T} (hr : 0 ≤ rtol) (hr1 : rtol < 1) {t0 : T} {m : Mem T Z σ}
    (hk : MemOk t0 m) {s : T} (hc : Clear rtol t0 s) (hz : bisectRight m.t s = 0) (u : T)
    (hu : m.t.getLast? = some u) : ¬ isClose rtol s u := by
  obtain ⟨g1, g2, g3⟩ := bisectRight_spec m.t s hk.1.1
  obtain ⟨i, hi, he⟩ := List.mem_iff_getElem.1 hk.2
  have hst : s < t0 := g2 i t0 (by omega) (by rw [List.getElem?_eq_getElem hi, he])
  have htu := mem_le_last hk.1.1 hk.2 hu
  intro hcl
  apply hc hst
  unfold isClose at hcl
  rw [abs_of_neg (by linarith)] at hcl ⊢
  rcases le_or_gt u 0 with hu0 | hu0
  · rw [abs_of_nonpos hu0] at hcl
    rw [abs_of_nonpos (htu.trans hu0)]
    nlinarith
  · rw [abs_of_pos hu0] at hcl
    have hs : 0 < s := by nlinarith
    rw [abs_of_pos (hs.trans hst)]
    nlinarith

/-- An evaluation: the memory remains in order, what is known remains known, and now the value
returned is known as well. -/
theorem get1_step {S : TrueSrc T Z V σ} {flat : V → V → Prop} (hL : Lawful S flat)
    (hr : 0 ≤ S.rtol) (hr1 : S.rtol < 1) {t0 : T} {m m' : Mem T Z σ} (hk : MemOk t0 m) {s : T}
    {v : V} (h : S.get1 s m = .ok (v, m')) (hc : Clear S.rtol t0 s) :
    MemOk t0 m' ∧ Knows S flat m' s v ∧ (∀ u w, Knows S flat m u w → Knows S flat m' u w) ∧
      (m'.t = m.t ∨ m'.t.length = m.t.length + 1 ∧ ∀ u, u ∈ m'.t ↔ u = s ∨ u ∈ m.t) := by
  rcases get1_cases hL hk.1 h (fun hz u hu => no_wrap hr hr1 hk hc hz u hu) with
    ⟨hpos, u, hu, hv, hcl, rfl⟩ | ⟨hpos, u, v1, hu, hcl, h1, h2, hf, ht, hvs⟩ | ⟨ht, hvs, hcl, hf⟩
  · exact ⟨hk, ⟨hpos, u, hu, .inl ⟨hcl, hv⟩⟩, fun _ _ h => h, .inl rfl⟩
  · have hK : Knows S flat m s v := ⟨hpos, u, hu, .inr ⟨hcl, v1, h1, h2, hf⟩⟩
    refine ⟨⟨⟨?_, ?_, ?_⟩, ?_⟩, hK.congr ht hvs, fun _ _ h => h.congr ht hvs, .inl ht⟩
    · rw [ht]; exact hk.1.1
    · have := congrArg List.length hvs
      simp only [TrueSrc.vals, List.length_map] at this
      rw [this, ht]; exact hk.1.2.1
    · rw [ht]; exact hk.1.2.2
    · rw [ht]; exact hk.2
  · have hnm := new_notMem hr hk.1 hcl
    obtain ⟨g1, g2, g3⟩ := bisectRight_spec m.t s hk.1.1
    have hvl := vals_length (S := S) hk.1
    have hmem : ∀ u, u ∈ m'.t ↔ u = s ∨ u ∈ m.t := by
      intro u; rw [ht, List.mem_insertIdx g3]
    have hlen : m'.t.length = m.t.length + 1 := by rw [ht, List.length_insertIdx, if_pos g3]
    have hsort : m'.t.Pairwise (· < ·) := by rw [ht]; exact insertIdx_sorted hk.1.1 hnm
    refine ⟨⟨⟨hsort, ?_, ?_⟩, (hmem t0).2 (.inr hk.2)⟩, ?_,
      fun u w hu => knows_insert hr hk.1 hu ht hvs hcl hf, .inr ⟨hlen, hmem⟩⟩
    · have := congrArg List.length hvs
      rw [List.length_insertIdx, hvl, if_pos g3] at this
      simp only [TrueSrc.vals, List.length_map] at this
      rw [this, hlen]
    · intro h0; rw [h0] at hlen; simp at hlen
    · have hb := bisectRight_insert hk.1.1 (s := s) hnm
      rw [← ht, if_pos le_rfl] at hb
      refine ⟨by omega, s, ?_, .inl ⟨by
        simp only [isClose, sub_self, abs_zero]; positivity, ?_⟩⟩
      · rw [hb, ht, Nat.add_sub_cancel, List.getElem?_insertIdx, if_neg (by omega), if_pos rfl,
          if_pos g3]
      · rw [hb, hvs, Nat.add_sub_cancel, List.getElem?_insertIdx, if_neg (by omega), if_pos rfl,
          if_pos (by omega)]

/-- What is known is returned, without drawing random numbers, and nothing changes. -/
theorem get1_known {S : TrueSrc T Z V σ} {m : Mem T Z σ} (hk : WellKept m) {flat : V → V → Prop}
    {s : T} {v : V} (h : Knows S flat m s v)
    (hq : ∀ z1 z2 t1 t2 s st, flat (S.getvalue z1) (S.getvalue z2) →
      S.inside z1 z2 t1 t2 s st = .ok ((z1, none), st)) :
    S.get1 s m = .ok (v, m) := by
  obtain ⟨hpos, u, hu, h⟩ := h
  obtain ⟨g1, g2, g3⟩ := bisectRight_spec m.t s hk.1
  unfold TrueSrc.get1
  generalize bisectRight m.t s = k at *
  have hk1 : k - 1 < m.z.length := by rw [hk.2.1]; omega
  have ez := List.getElem?_eq_getElem hk1
  simp only
  rw [if_neg (by omega), hu, ez]
  simp only
  rcases h with ⟨hcl, hv⟩ | ⟨hcl, v1, h1, h2, hf⟩
  · rw [if_pos hcl]
    simp only [TrueSrc.vals, List.getElem?_map, ez, Option.map_some, Option.some.injEq] at hv
    rw [hv]
  · rw [if_neg hcl]
    have hk2 : k < m.z.length := by
      have := (List.getElem?_eq_some_iff.1 h2).1
      simpa [TrueSrc.vals] using this
    have ez2 := List.getElem?_eq_getElem hk2
    have hk2t : k < m.t.length := by rw [← hk.2.1]; exact hk2
    rw [if_neg (by omega), if_neg (by omega), List.getElem?_eq_getElem hk2t, ez2]
    simp only
    simp only [TrueSrc.vals, List.getElem?_map, ez, ez2, Option.map_some, Option.some.injEq]
      at h1 h2
    rw [hq _ _ _ _ _ _ (by rw [h1, h2]; exact hf)]
    simp only [h2, Except.ok.injEq, Prod.mk.injEq, true_and]
    congr 1
    simp

theorem getList_step {S : TrueSrc T Z V σ} {flat : V → V → Prop} (hL : Lawful S flat)
    (hr : 0 ≤ S.rtol) (hr1 : S.rtol < 1) {t0 : T} : ∀ (ss : List T) {m m' : Mem T Z σ} {vs : List V},
    MemOk t0 m → S.getList ss m = .ok (vs, m') → (∀ s ∈ ss, Clear S.rtol t0 s) →
    MemOk t0 m' ∧ List.Forall₂ (Knows S flat m') ss vs ∧
      (∀ u w, Knows S flat m u w → Knows S flat m' u w) ∧
      m'.t.length ≤ m.t.length + ss.length ∧ ∀ u ∈ m'.t, u ∈ m.t ∨ u ∈ ss := by
  intro ss
  induction ss with
  | nil =>
    intro m m' vs hk h _
    simp only [TrueSrc.getList, Except.ok.injEq, Prod.mk.injEq] at h
    rw [← h.1, ← h.2]
    exact ⟨hk, .nil, fun _ _ h => h, by simp, fun u hu => .inl hu⟩
  | cons s ss ih =>
    intro m m' vs hk h hc
    simp only [TrueSrc.getList] at h
    cases h1 : S.get1 s m with
    | error e => rw [h1] at h; simp at h
    | ok r =>
      obtain ⟨v, m1⟩ := r
      rw [h1] at h
      simp only at h
      cases h2 : S.getList ss m1 with
      | error e => rw [h2] at h; simp at h
      | ok r =>
        obtain ⟨vs', m2⟩ := r
        rw [h2] at h
        simp only [Except.ok.injEq, Prod.mk.injEq] at h
        obtain ⟨k1, k2, k3, k4⟩ := get1_step hL hr hr1 hk h1 (hc s (by simp))
        obtain ⟨l1, l2, l3, l4, l5⟩ := ih k1 h2 (fun s hs => hc s (by simp [hs]))
        rw [← h.1, ← h.2]
        refine ⟨l1, .cons (l3 _ _ k2) l2, fun u w hu => l3 _ _ (k3 _ _ hu), ?_, ?_⟩
        · rw [List.length_cons]
          rcases k4 with h | ⟨h, _⟩
          · rw [h] at l4; omega
          · omega
        · intro u hu
          rcases l5 u hu with h | h
          · rcases k4 with h' | ⟨_, h'⟩
            · rw [h'] at h; exact .inl h
            · rcases (h' u).1 h with rfl | h
              · exact .inr (by simp)
              · exact .inl h
          · exact .inr (by simp [h])

/-- The value of an event is known. -/
def KnowsEvent [Sub V] (S : TrueSrc T Z V σ) (flat : V → V → Prop) (m : Mem T Z σ) : SrcEvent T V → Prop
  | .value t v => List.Forall₂ (Knows S flat m) t v
  | .incr t dt v => t.length = dt.length ∧
      ∃ v1 v0, List.Forall₂ (Knows S flat m) (List.zipWith (· + ·) t dt) v1 ∧
      List.Forall₂ (Knows S flat m) t v0 ∧ v = List.zipWith (· - ·) v1 v0

theorem KnowsEvent.mono [Sub V] {S : TrueSrc T Z V σ} {flat : V → V → Prop} {m m' : Mem T Z σ}
    (h : ∀ u w, Knows S flat m u w → Knows S flat m' u w) {e : SrcEvent T V}
    (he : KnowsEvent S flat m e) : KnowsEvent S flat m' e := by
  cases e with
  | value t v => exact List.Forall₂.imp h he
  | incr t dt v =>
    obtain ⟨hl, v1, v0, h1, h0, hv⟩ := he
    exact ⟨hl, v1, v0, h1.imp h, h0.imp h, hv⟩

theorem history_known [Sub V] {S : TrueSrc T Z V σ} {flat : V → V → Prop} (hL : Lawful S flat)
    (hr : 0 ≤ S.rtol) (hr1 : S.rtol < 1) {t0 : T} {D : T → Prop} (hD : ∀ s, D s → Clear S.rtol t0 s)
    {m0 m : Mem T Z σ} {l : List (SrcEvent T V)} (h : SrcHistory S D m0 l m) (h0 : MemOk t0 m0) :
    MemOk t0 m ∧ (∀ e ∈ l, KnowsEvent S flat m e) ∧
      ∀ u w, Knows S flat m0 u w → Knows S flat m u w := by
  induction h with
  | start => exact ⟨h0, by simp, fun _ _ h => h⟩
  | @value l m t v m' _ hd hc ih =>
    obtain ⟨i1, i2, i3⟩ := ih
    simp only [TrueSrc.call] at hc
    obtain ⟨l1, l2, l3, _, _⟩ := getList_step hL hr hr1 t i1 hc (fun s hs => hD s (hd s hs))
    refine ⟨l1, ?_, fun u w hu => l3 _ _ (i3 _ _ hu)⟩
    intro e he
    rcases List.mem_append.1 he with he | he
    · exact (i2 e he).mono l3
    · rw [List.mem_singleton] at he; subst he; exact l2
  | @incr l m t dt v m' _ hd hd' hlen hc ih =>
    obtain ⟨i1, i2, i3⟩ := ih
    simp only [TrueSrc.call] at hc
    cases hc1 : S.getList (List.zipWith (· + ·) t dt) m with
    | error e => rw [hc1] at hc; simp at hc
    | ok r1 =>
      obtain ⟨v1, m1⟩ := r1
      rw [hc1] at hc
      simp only at hc
      cases hc2 : S.getList t m1 with
      | error e => rw [hc2] at hc; simp at hc
      | ok r2 =>
        obtain ⟨v0, m2⟩ := r2
        rw [hc2] at hc
        simp only [Except.ok.injEq, Prod.mk.injEq] at hc
        obtain ⟨l1, l2, l3, _, _⟩ := getList_step hL hr hr1 _ i1 hc1 (fun s hs => hD s (hd' s hs))
        obtain ⟨k1, k2, k3, _, _⟩ := getList_step hL hr hr1 _ l1 hc2 (fun s hs => hD s (hd s hs))
        rw [← hc.2]
        refine ⟨k1, ?_, fun u w hu => k3 _ _ (l3 _ _ (i3 _ _ hu))⟩
        intro e he
        rcases List.mem_append.1 he with he | he
        · exact ((i2 e he).mono l3).mono k3
        · rw [List.mem_singleton] at he; subst he
          exact ⟨hlen, v1, v0, l2.imp k3, k2, hc.1.symm⟩
  | @partly l m t v m' _ hd hc ih =>
    obtain ⟨i1, i2, i3⟩ := ih
    obtain ⟨l1, l2, l3, _, _⟩ := getList_step hL hr hr1 t i1 hc (fun s hs => hD s (hd s hs))
    exact ⟨l1, fun e he => (i2 e he).mono l3, fun u w hu => l3 _ _ (i3 _ _ hu)⟩
  | other s _ ih =>
    obtain ⟨i1, i2, i3⟩ := ih
    exact ⟨i1, fun e he => (i2 e he).mono (fun _ _ h => h.congr rfl rfl),
      fun u w hu => (i3 _ _ hu).congr rfl rfl⟩

end Sdepy
