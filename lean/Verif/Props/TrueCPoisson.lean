import Verif.Lemmas.TrueCPoisson

/-!
# Compound Poisson source with memory
-/

set_option linter.unusedSectionVars false
set_option linter.unusedSimpArgs false

namespace Sdepy

open Spec

section stores
variable {Y : Type} [CommRing Y] [DecidableEq Y] {shape : List ℕ}

theorem ofPos_get {α : Type} {d0 : α} (d : Pos shape → α) (c : Pos shape) :
    (ofPos d0 d).get c.1 = d c := by
  simp [ofPos, c.2]

theorem lex_antisymm {a b : List ℕ} (h1 : List.Lex (· < ·) a b) (h2 : List.Lex (· < ·) b a) :
    a = b :=
  absurd h2 (List.lex_asymm (fun h h' => absurd h (not_lt.2 h'.le)) h1)

theorem StoresA.toStores {d : Pos shape → ℤ} {R : List ℕ → List Y} {ys : List (YSample Y)}
    (h : StoresA (ofPos 0 d) R ys) : Stores d (fun c => R c.1) ys where
  len c := by rw [h.len c.1 c.2, ofPos_get]
  sorted := h.sorted
  mem i := by
    rw [h.mem]
    refine and_congr_right fun _ => ⟨?_, ?_⟩
    · rintro ⟨c, hc, he⟩
      exact ⟨⟨c, hc⟩, by rw [← he]; exact (ofPos_get d ⟨c, hc⟩).symm⟩
    · rintro ⟨c, he⟩
      exact ⟨c.1, c.2, by rw [ofPos_get, he]⟩
  rows y hy := by
    obtain ⟨h1, h2⟩ := h.rows y hy
    have hmem : ∀ c ∈ cellsAt (ofPos 0 d) y.j, InRange shape c := fun c hc => (mem_cellsAt.1 hc).1
    have hmap : ((cellsAt (ofPos 0 d) y.j).pmap Subtype.mk hmem).map (·.1) =
        cellsAt (ofPos 0 d) y.j := by
      rw [List.map_pmap]; simp
    refine ⟨(cellsAt (ofPos 0 d) y.j).pmap Subtype.mk hmem, ?_, ?_, ?_, ?_⟩
    · rw [hmap]; exact cellsAt_sorted _ _
    · intro c
      rw [List.mem_pmap]
      constructor
      · rintro ⟨a, ha, rfl⟩
        rw [← (mem_cellsAt.1 ha).2]
        exact (ofPos_get d ⟨a, _⟩).symm
      · intro he
        exact ⟨c.1, mem_cellsAt.2 ⟨c.2, by rw [ofPos_get, he]⟩, rfl⟩
    · rw [List.length_pmap, h1]
    · intro r c hr
      have hr' : (cellsAt (ofPos 0 d) y.j)[r]? = some c.1 := by
        rw [← hmap, List.getElem?_map, hr]; rfl
      have hcm := mem_cellsAt.1 (List.mem_of_getElem? hr')
      have hl := h.len c.1 c.2
      refine List.ext_getElem ?_ ?_
      · rw [List.length_map, List.length_range]; omega
      · intro k k1 k2
        rw [List.length_map, List.length_range] at k1
        rw [List.getElem_map, List.getElem_range, h2 r c.1 hr' k k1, List.getD_eq_getElem?_getD,
          List.getElem?_eq_getElem k2]
        rfl

theorem Spec.Stores.toStoresA {d : Pos shape → ℤ} {R : Pos shape → List Y} {ys : List (YSample Y)}
    (h : Stores d R ys) :
    StoresA (ofPos 0 d) (fun c => if hc : InRange shape c then R ⟨c, hc⟩ else []) ys where
  len c hc := by
    have hc : InRange shape c := hc
    rw [dif_pos hc, h.len]
    exact (ofPos_get d ⟨c, hc⟩).symm
  sorted := h.sorted
  mem i := by
    rw [h.mem]
    refine and_congr_right fun _ => ⟨?_, ?_⟩
    · rintro ⟨c, he⟩
      exact ⟨c.1, c.2, by rw [ofPos_get, he]⟩
    · rintro ⟨c, hc, he⟩
      exact ⟨⟨c, hc⟩, by rw [← he]; exact (ofPos_get d ⟨c, hc⟩).symm⟩
  rows y hy := by
    obtain ⟨cells, a1, a2, a3, a4⟩ := h.rows y hy
    have hmap : cells.map (·.1) = cellsAt (ofPos 0 d) y.j := by
      refine List.Perm.eq_of_pairwise (le := List.Lex (· < ·))
        (fun _ _ _ _ h1 h2 => lex_antisymm h1 h2) a1 (cellsAt_sorted _ _) ?_
      refine (List.perm_ext_iff_of_nodup (a1.imp ?_) (cellsAt_nodup _ _)).2 ?_
      · rintro a b h rfl
        exact List.lex_irrefl (fun x => lt_irrefl x) a h
      · intro c
        rw [mem_cellsAt, List.mem_map]
        constructor
        · rintro ⟨c, hc, rfl⟩
          exact ⟨c.2, by rw [ofPos_get, (a2 c).1 hc]⟩
        · rintro ⟨hc, he⟩
          refine ⟨⟨c, hc⟩, (a2 _).2 ?_, rfl⟩
          rw [← he]; exact (ofPos_get d ⟨c, hc⟩).symm
    rw [← hmap]
    refine ⟨by rw [List.length_map, a3], ?_⟩
    intro r c hr k hk
    rw [List.getElem?_map] at hr
    obtain ⟨c', hc', rfl⟩ := Option.map_eq_some_iff.1 hr
    simp only [c'.2, dite_true]
    rw [← a4 r c' hc', List.getD_eq_getElem?_getD, List.getElem?_map, List.getElem?_range hk]
    rfl

end stores

/-! ### how the memory changes -/

section shape
variable {T Z V σ : Type} [Field T] [LinearOrder T] [IsStrictOrderedRing T]

/-- Times, with their values. -/
def Mem.zip (m : Mem T Z σ) : List (T × Z) := m.t.zip m.z

theorem zip_getElem {m : Mem T Z σ} (hk : WellKept m) {i : ℕ} (hi : i < m.t.length) :
    m.zip[i]? = some (m.t[i], m.z[i]'(by rw [hk.2.1]; exact hi)) := by
  unfold Mem.zip
  rw [List.getElem?_eq_getElem (by rw [List.length_zip, hk.2.1]; omega), List.getElem_zip]

theorem split_at {α : Type} {l : List α} {k : ℕ} {a b : α} (h1 : l[k]? = some a)
    (h2 : l[k + 1]? = some b) : l = l.take k ++ a :: b :: l.drop (k + 2) := by
  obtain ⟨i1, rfl⟩ := List.getElem?_eq_some_iff.1 h1
  obtain ⟨i2, rfl⟩ := List.getElem?_eq_some_iff.1 h2
  rw [List.getElem_cons_drop, List.getElem_cons_drop, List.take_append_drop]

theorem set_mid {α : Type} (A : List α) (a a' : α) (B : List α) {k : ℕ} (hk : A.length = k) :
    (A ++ a :: B).set k a' = A ++ a' :: B := by
  subst hk; simp

theorem insert_mid {α : Type} (A : List α) (a x : α) (B : List α) {k : ℕ} (hk : A.length = k) :
    (A ++ a :: B).insertIdx (k + 1) x = A ++ a :: x :: B := by
  subst hk
  rw [insertIdx_eq (by simp)]
  simp [List.take_append, List.drop_append, List.take_of_length_le, List.drop_eq_nil_of_le]

/-- What an evaluation does to the memory. -/
theorem get1_shape {S : TrueSrc T Z V σ} (hr : 0 ≤ S.rtol) {m m' : Mem T Z σ} (hk : WellKept m)
    {s : T} {v : V} (h : S.get1 s m = .ok (v, m')) :
    m' = m ∨
    (∃ A t z z' znew st, m.zip = A ++ [(t, z)] ∧ t < s ∧
      S.outside z t s m.s = .ok ((z', znew), st) ∧
      m'.zip = A ++ [(t, z'), (s, znew)] ∧ m'.s = st ∧ v = S.getvalue znew) ∨
    (∃ B t z z' znew st, m.zip = (t, z) :: B ∧ s < t ∧
      S.outside z t s m.s = .ok ((z', znew), st) ∧
      m'.zip = (s, znew) :: (t, z') :: B ∧ m'.s = st ∧ v = S.getvalue znew) ∨
    (∃ A B t1 z1 t2 z2 z1' r st, m.zip = A ++ (t1, z1) :: (t2, z2) :: B ∧ t1 < s ∧ s < t2 ∧
      S.inside z1 z2 t1 t2 s m.s = .ok ((z1', r), st) ∧ m'.s = st ∧
      ((r = none ∧ m'.zip = A ++ (t1, z1') :: (t2, z2) :: B ∧ v = S.getvalue z2) ∨
       (∃ znew, r = some znew ∧ m'.zip = A ++ (t1, z1') :: (s, znew) :: (t2, z2) :: B ∧
        v = S.getvalue znew))) := by
  have hkk := hk
  obtain ⟨hs, hlen, hne⟩ := hk
  obtain ⟨g1, g2, g3⟩ := bisectRight_spec m.t s hs
  unfold TrueSrc.get1 at h
  generalize bisectRight m.t s = k at *
  have hpos : 0 < m.t.length := List.length_pos_iff.2 hne
  have hnear : ∀ u, ¬ isClose S.rtol s u → s ≠ u := by
    rintro u hu rfl
    exact hu (by simp only [isClose, sub_self, abs_zero]; positivity)
  simp only at h
  by_cases hk0 : k = 0
  · subst hk0
    rw [if_pos rfl, List.getElem?_eq_getElem (by omega), List.getElem?_eq_getElem (by omega)] at h
    simp only at h
    split at h
    · simp only [Except.ok.injEq, Prod.mk.injEq] at h
      exact .inl h.2.symm
    rw [if_neg (by omega), if_pos trivial] at h
    match hz : m.z, ht : m.t with
    | [], _ => rw [hz] at hlen; simp at hlen; omega
    | _ :: _, [] => exact absurd ht hne
    | z :: zs, t :: ts =>
      rw [hz, ht] at h
      simp only at h
      cases ho : S.outside z t s m.s with
      | error e' => rw [ho] at h; simp at h
      | ok r =>
        obtain ⟨⟨z', znew⟩, st⟩ := r
        rw [ho] at h
        simp only [Except.ok.injEq, Prod.mk.injEq] at h
        obtain ⟨rfl, rfl⟩ := h
        exact .inr (.inr (.inl ⟨ts.zip zs, t, z, z', znew, st, by simp [Mem.zip, hz, ht],
          g2 0 t le_rfl (by rw [ht]; rfl), ho, by simp [Mem.zip], rfl, rfl⟩))
  · rw [if_neg hk0] at h
    have hk1 : k - 1 < m.t.length := by omega
    have hk1z : k - 1 < m.z.length := by omega
    have et := List.getElem?_eq_getElem hk1
    have ez := List.getElem?_eq_getElem hk1z
    rw [et, ez] at h
    simp only at h
    by_cases hc : isClose S.rtol s m.t[k - 1]
    · rw [if_pos hc] at h
      simp only [Except.ok.injEq, Prod.mk.injEq] at h
      exact .inl h.2.symm
    · rw [if_neg hc] at h
      have hlt : m.t[k - 1] < s := lt_of_le_of_ne (g1 _ _ (by omega) et) (hnear _ hc).symm
      by_cases hkl : k = m.t.length
      · rw [if_pos hkl] at h
        have hl1 : m.z.getLast? = some m.z[k - 1] := by
          rw [List.getLast?_eq_getElem?, ← ez, hlen, hkl]
        have hl2 : m.t.getLast? = some m.t[k - 1] := by
          rw [List.getLast?_eq_getElem?, ← et, hkl]
        have hzl : m.z = m.z.dropLast ++ [m.z[k - 1]] := (List.dropLast_append_getLast? _ hl1).symm
        have htl : m.t = m.t.dropLast ++ [m.t[k - 1]] := (List.dropLast_append_getLast? _ hl2).symm
        rw [hl1, hl2] at h
        simp only at h
        generalize m.z[k - 1] = z at *
        generalize m.t[k - 1] = t at *
        cases ho : S.outside z t s m.s with
        | error e' => rw [ho] at h; simp at h
        | ok r =>
          obtain ⟨⟨z', znew⟩, st⟩ := r
          rw [ho] at h
          simp only [Except.ok.injEq, Prod.mk.injEq] at h
          obtain ⟨rfl, rfl⟩ := h
          have hll : m.t.dropLast.length = m.z.dropLast.length := by
            rw [List.length_dropLast, List.length_dropLast, hlen]
          refine .inr (.inl ⟨m.t.dropLast.zip m.z.dropLast, t, z, z', znew, st, ?_, hlt, ho, ?_, rfl,
            rfl⟩)
          · unfold Mem.zip
            conv_lhs => rw [hzl, htl]
            rw [List.zip_append hll]; rfl
          · simp only [Mem.zip]
            conv_lhs => rw [htl]
            rw [List.append_assoc, List.zip_append hll]
            rfl
      · rw [if_neg hkl, if_neg hk0] at h
        have hk2 : k < m.t.length := by omega
        have hk2z : k < m.z.length := by omega
        have et2 := List.getElem?_eq_getElem hk2
        have ez2 := List.getElem?_eq_getElem hk2z
        rw [et2, ez2] at h
        simp only at h
        have hst : s < m.t[k] := g2 _ _ le_rfl et2
        obtain ⟨k, rfl⟩ : ∃ k', k = k' + 1 := ⟨k - 1, by omega⟩
        simp only [Nat.add_sub_cancel] at *
        have st : m.t = m.t.take k ++ m.t[k] :: m.t[k + 1] :: m.t.drop (k + 2) := split_at et et2
        have sz : m.z = m.z.take k ++ m.z[k] :: m.z[k + 1] :: m.z.drop (k + 2) := split_at ez ez2
        have hll : (m.t.take k).length = (m.z.take k).length := by
          rw [List.length_take, List.length_take, hlen]
        have hzk : (m.z.take k).length = k := by rw [List.length_take]; omega
        have htk : (m.t.take k).length = k := by rw [List.length_take]; omega
        cases ho : S.inside m.z[k] m.z[k + 1] m.t[k] m.t[k + 1] s m.s with
        | error e' => rw [ho] at h; simp at h
        | ok r =>
          obtain ⟨⟨z', r⟩, st'⟩ := r
          have hset : m.z.set k z' = m.z.take k ++ z' :: m.z[k + 1] :: m.z.drop (k + 2) := by
            conv_lhs => rw [sz]
            exact set_mid _ _ _ _ hzk
          refine .inr (.inr (.inr ⟨(m.t.take k).zip (m.z.take k), (m.t.drop (k + 2)).zip
            (m.z.drop (k + 2)), m.t[k], m.z[k], m.t[k + 1], m.z[k + 1], z', r, st', ?_, hlt, hst, ho,
            ?_⟩))
          · unfold Mem.zip
            conv_lhs => rw [st, sz]
            rw [List.zip_append hll]; rfl
          · cases r with
            | none =>
              rw [ho] at h
              simp only [Except.ok.injEq, Prod.mk.injEq] at h
              obtain ⟨rfl, rfl⟩ := h
              refine ⟨rfl, .inl ⟨rfl, ?_, rfl⟩⟩
              simp only [Mem.zip, hset]
              conv_lhs => rw [st]
              rw [List.zip_append hll]; rfl
            | some znew =>
              rw [ho] at h
              simp only [Except.ok.injEq, Prod.mk.injEq] at h
              obtain ⟨rfl, rfl⟩ := h
              refine ⟨rfl, .inr ⟨znew, rfl, ?_, rfl⟩⟩
              simp only [Mem.zip, hset]
              have i1 : m.t.insertIdx (k + 1) s =
                  m.t.take k ++ m.t[k] :: s :: m.t[k + 1] :: m.t.drop (k + 2) := by
                conv_lhs => rw [st]
                exact insert_mid _ _ _ _ htk
              have i2 : (m.z.take k ++ z' :: m.z[k + 1] :: m.z.drop (k + 2)).insertIdx (k + 1) znew =
                  m.z.take k ++ z' :: znew :: m.z[k + 1] :: m.z.drop (k + 2) :=
                insert_mid _ _ _ _ hzk
              rw [i1, i2, List.zip_append hll]; rfl

end shape

section cpoisson
variable {T Y σ : Type} [Field T] [LinearOrder T] [IsStrictOrderedRing T] [CommRing Y]
  [DecidableEq Y] {paths : ℕ} {vshape : List ℕ}

theorem djCall_ok {Zn : Type} {N : TrueSrc T Zn (Pos (vshape ++ [paths]) → ℤ) σ}
    {y : T → Py (Rvs Y σ)} {t dt : T} {m m' : Mem T Zn σ} {dj : Arr Y} {d : Arr ℤ}
    {ys : List (YSample Y)}
    (h : cpoissonCall (djSrc paths vshape N y) (.scalar t) (.scalar dt) m = .ok ((dj, d, ys), m')) :
    ∃ v1 v0 m1 m2 rvs nmax dz, N.get1 (t + dt) m = .ok (v1, m1) ∧ N.get1 t m1 = .ok (v0, m2) ∧
      y (t + dt / 2) = .ok rvs ∧
      arrMax ⟨vshape ++ [paths], fun c => sgn dt * (ofPos 0 (v1 - v0)).get c⟩ = .ok nmax ∧
      jumpLoop (rvsMem rvs) (sgn dt)
        ⟨vshape ++ [paths], fun c => sgn dt * (ofPos 0 (v1 - v0)).get c⟩ nmax.toNat 1
        ⟨vshape ++ [paths], fun _ => 0⟩ [] m2 = .ok ((dz, ys), m') ∧
      ∀ c, dj.get c = dz.get c := by
  unfold cpoissonCall at h
  rw [broadcast2_eq] at h
  have hsh : bcShape (Arr.scalar t).shape (Arr.scalar dt).shape = some [] := rfl
  rw [hsh] at h
  simp only [djSrc, dnCall, ndindex, List.map_cons, List.map_nil, TrueSrc.call,
    List.zipWith_cons_cons, List.zipWith_nil_left, TrueSrc.getList] at h
  have e1 : (Arr.scalar t).bget [] = t := rfl
  have e2 : (Arr.scalar dt).bget [] = dt := rfl
  rw [e1, e2] at h
  cases h1 : N.get1 (t + dt) m with
  | error e => rw [h1] at h; simp at h
  | ok r1 =>
    obtain ⟨v1, m1⟩ := r1
    rw [h1] at h
    simp only at h
    cases h0 : N.get1 t m1 with
    | error e => rw [h0] at h; simp at h
    | ok r0 =>
      obtain ⟨v0, m2⟩ := r0
      rw [h0] at h
      simp only [List.zipWith_cons_cons, List.zipWith_nil_left, List.map_cons, List.map_nil,
        List.zip_cons_cons, List.zip_nil_left, List.length_nil, List.take_zero, ne_eq,
        not_true_eq_false, if_false, List.drop_zero, loopIdx, cpoissonBody] at h
      have ha : assemble [] (vshape ++ [paths]) 0 [([], ofPos 0 (v1 - v0))] = ofPos 0 (v1 - v0) := by
        simp [assemble, List.lookup, ofPos]
      rw [ha] at h
      simp only [e1, e2, List.nil_append] at h
      have hs : (ofPos 0 (v1 - v0) : Arr ℤ).shape = vshape ++ [paths] := rfl
      rw [hs] at h
      cases hmx : arrMax ⟨vshape ++ [paths], fun c => sgn dt * (ofPos 0 (v1 - v0)).get c⟩ with
      | error e => rw [hmx] at h; simp at h
      | ok nmax =>
        rw [hmx] at h
        simp only at h
        cases hy : y (t + dt / 2) with
        | error e => rw [hy] at h; simp [Except.map] at h
        | ok rvs =>
          rw [hy] at h
          simp only [Except.map] at h
          cases hj : jumpLoop (rvsMem rvs) (sgn dt)
            ⟨vshape ++ [paths], fun c => sgn dt * (ofPos 0 (v1 - v0)).get c⟩ nmax.toNat 1
            ⟨vshape ++ [paths], fun _ => 0⟩ [] m2 with
          | error e => rw [hj] at h; simp at h
          | ok r =>
            obtain ⟨⟨dz, ys'⟩, m3⟩ := r
            rw [hj] at h
            simp only [Except.ok.injEq, Prod.mk.injEq] at h
            obtain ⟨⟨rfl, rfl, rfl⟩, rfl⟩ := h
            refine ⟨v1, v0, m1, m2, rvs, nmax, dz, rfl, h0, rfl, hmx, ?_, ?_⟩
            · simpa using hj
            · intro c
              simp [assemble, List.lookup]

variable {rN : T} {dn0 : T → T → σ → Py ((Pos (vshape ++ [paths]) → ℤ) × σ)}
  {bin : (Pos (vshape ++ [paths]) → ℤ) → T → σ → (Pos (vshape ++ [paths]) → ℤ) × σ}

/-- The underlying Poisson source knows its value at a time. -/
abbrev KN (rN : T) (dn0 : T → T → σ → Py ((Pos (vshape ++ [paths]) → ℤ) × σ))
    (bin : (Pos (vshape ++ [paths]) → ℤ) → T → σ → (Pos (vshape ++ [paths]) → ℤ) × σ)
    (n : Mem T (Pos (vshape ++ [paths]) → ℤ) σ) (t : T) (v : Pos (vshape ++ [paths]) → ℤ) : Prop :=
  Knows (truePoisson rN dn0 bin) (fun a b => ∀ i, a i = b i) n t v

/-- Invariant of the memory of the underlying source. -/
structure DnOk (t0 : T) (n : Mem T (Pos (vshape ++ [paths]) → ℤ) σ) : Prop where
  ok : MemOk t0 n
  sorted : n.z.Pairwise (· ≤ ·)

theorem dn_step (hP : PoissonRng dn0 bin) (hr : 0 ≤ rN) (hr1 : rN < 1) {t0 : T}
    {n n' : Mem T (Pos (vshape ++ [paths]) → ℤ) σ} (hk : DnOk t0 n) {s : T}
    {v : Pos (vshape ++ [paths]) → ℤ} (h : (truePoisson rN dn0 bin).get1 s n = .ok (v, n'))
    (hc : Clear rN t0 s) :
    DnOk t0 n' ∧ KN rN dn0 bin n' s v ∧ ∀ u w, KN rN dn0 bin n u w → KN rN dn0 bin n' u w := by
  obtain ⟨h1, h2, h3, -⟩ := get1_step (lawful_poisson rN dn0 bin) hr hr1 hk.ok h hc
  exact ⟨⟨h1, get1_sorted hP hr hk.ok.1 hk.sorted h⟩, h2, h3⟩

theorem dn_rng {t0 : T} {n n' : Mem T (Pos (vshape ++ [paths]) → ℤ) σ} (hk : DnOk t0 n)
    (ht : n'.t = n.t) (hz : n'.z = n.z) :
    DnOk t0 n' ∧ ∀ u w, KN rN dn0 bin n u w → KN rN dn0 bin n' u w := by
  refine ⟨⟨⟨⟨?_, ?_, ?_⟩, ?_⟩, ?_⟩, fun u w h => h.congr ht (by simp [TrueSrc.vals, hz])⟩
  · rw [ht]; exact hk.ok.1.1
  · rw [ht, hz]; exact hk.ok.1.2.1
  · rw [ht]; exact hk.ok.1.2.2
  · rw [ht]; exact hk.ok.2
  · rw [hz]; exact hk.sorted

theorem KN.mono {t0 : T} {n : Mem T (Pos (vshape ++ [paths]) → ℤ) σ} (hk : DnOk t0 n) {a b : T}
    {va vb : Pos (vshape ++ [paths]) → ℤ} (ha : KN rN dn0 bin n a va) (hb : KN rN dn0 bin n b vb)
    (hab : a ≤ b) : va ≤ vb := by
  rw [ha.pathOf (lawful_poisson rN dn0 bin) 0, hb.pathOf (lawful_poisson rN dn0 bin) 0]
  exact pathOf_mono hk.ok.1 hk.sorted 0 hab

/-- Jumps are never zero. -/
def NonzeroRvs (y : T → Py (Rvs Y σ)) : Prop :=
  ∀ t rvs, y t = .ok rvs → ∀ n j s v s', rvs n j s = .ok (v, s') → ∀ r < n, ∀ k < j, v r k ≠ 0

/-- From a stored time to the next. -/
def LinkR (K : T → (Pos (vshape ++ [paths]) → ℤ) → Prop)
    (p q : T × JumpZ Y (vshape ++ [paths])) : Prop :=
  ∃ n1 n2 R, K p.1 n1 ∧ K q.1 n2 ∧ JumpLink n1 n2 R p.2 q.2 ∧ ∀ c, ∀ x ∈ R c, x ≠ 0

theorem outside_ok (hP : PoissonRng dn0 bin) (hr : 0 ≤ rN) (hr1 : rN < 1) {t0 : T}
    {y : T → Py (Rvs Y σ)} (hy : NonzeroRvs y) {z z' znew : JumpZ Y (vshape ++ [paths])} {t s : T}
    {m m' : Mem T (Pos (vshape ++ [paths]) → ℤ) σ} (hk : DnOk t0 m) (ht : Clear rN t0 t)
    (hs : Clear rN t0 s)
    (h : jumpOutside paths vshape (truePoisson rN dn0 bin) y z t s m = .ok ((z', znew), m')) :
    DnOk t0 m' ∧ (∀ u w, KN rN dn0 bin m u w → KN rN dn0 bin m' u w) ∧ z'.1 = z.1 ∧
      (t < s → LinkR (KN rN dn0 bin m') (t, z') (s, znew)) ∧
      (s < t → z' = z ∧ LinkR (KN rN dn0 bin m') (s, znew) (t, z')) := by
  unfold jumpOutside at h
  split at h
  · cases h
  · next dj d ynew m3 hcall =>
    obtain ⟨v1, v0, m1, m2, rvs, nmax, dz, h1, h0, hrv, hmx, hj, hdz⟩ := djCall_ok hcall
    rw [add_sub_cancel] at h1
    obtain ⟨k1, a1, b1⟩ := dn_step hP hr hr1 hk h1 hs
    obtain ⟨k2, a2, b2⟩ := dn_step hP hr hr1 k1 h0 ht
    have hkeep : m3.t = m2.t ∧ m3.z = m2.z := by
      refine jumpLoop_keep (P := fun m => m.t = m2.t ∧ m.z = m2.z) ?_ hj ⟨rfl, rfl⟩
      intro n j s v s' hv hm
      unfold rvsMem at hv
      split at hv
      · cases hv
      · simp only [Except.ok.injEq, Prod.mk.injEq] at hv
        rw [← hv.2]; exact hm
    obtain ⟨k3, b3⟩ := dn_rng (rN := rN) (dn0 := dn0) (bin := bin) k2 hkeep.1 hkeep.2
    have hnz : ∀ n j s v s', rvsMem (T := T) (Zn := Pos (vshape ++ [paths]) → ℤ) rvs n j s =
        .ok (v, s') → ∀ r < n, ∀ k < j, v r k ≠ 0 := by
      intro n j s v s' hv
      unfold rvsMem at hv
      split at hv
      · cases hv
      · next yv s1 h' =>
        simp only [Except.ok.injEq, Prod.mk.injEq] at hv
        rw [← hv.1]
        exact hy _ _ hrv _ _ _ _ _ h'
    have ks := b3 _ _ (b2 _ _ a1)
    have kt := b3 _ _ a2
    have hmono : ∀ u w, KN rN dn0 bin m u w → KN rN dn0 bin m3 u w :=
      fun u w h => b3 _ _ (b2 _ _ (b1 _ _ h))
    by_cases hts : t < s
    · rw [if_pos hts] at h
      simp only [Except.ok.injEq, Prod.mk.injEq] at h
      obtain ⟨⟨rfl, rfl⟩, rfl⟩ := h
      refine ⟨k3, hmono, rfl, fun _ => ?_, fun h => absurd h hts.not_gt⟩
      have hsg : sgn (s - t) = 1 := by unfold sgn; rw [if_pos (sub_pos.2 hts)]
      have hd : (⟨vshape ++ [paths], fun c => sgn (s - t) * (ofPos 0 (v1 - v0)).get c⟩ : Arr ℤ) =
          ofPos 0 (v1 - v0) := by
        simp only [hsg, one_mul]; rfl
      rw [hd] at hmx hj
      have hle := kt.mono k3 ks hts.le
      obtain ⟨R, r1, r2, r3⟩ := jumps_stores hmx (by
        intro c hc
        have := hle ⟨c, hc⟩
        have e := ofPos_get (d0 := 0) (v1 - v0) ⟨c, hc⟩
        rw [e, Pi.sub_apply]
        exact sub_nonneg.2 this) hj
      refine ⟨v0, v1, fun c => R c.1, kt, ks, ⟨⟨ynew, rfl, r1.toStores⟩, ?_⟩, ?_⟩
      · intro c
        simp only
        rw [hdz, r2 c.1 c.2, hsg]
        simp
      · intro c x hx
        obtain ⟨n, j, s1, v, s2, r, k, e1, e2, e3, rfl⟩ := r3 c.1 c.2 x hx
        exact hnz _ _ _ _ _ e1 r e2 k e3
    · rw [if_neg hts] at h
      simp only [Except.ok.injEq, Prod.mk.injEq] at h
      obtain ⟨⟨rfl, rfl⟩, rfl⟩ := h
      refine ⟨k3, hmono, rfl, fun h => absurd h hts, fun hst => ⟨rfl, ?_⟩⟩
      have hsg : sgn (s - t) = -1 := by
        unfold sgn
        rw [if_neg (by linarith), if_pos (sub_neg.2 hst)]
      have hd : (⟨vshape ++ [paths], fun c => sgn (s - t) * (ofPos 0 (v1 - v0)).get c⟩ : Arr ℤ) =
          ofPos 0 (v0 - v1) := by
        simp only [hsg, ofPos]
        congr 1
        funext c
        split
        · simp
        · simp
      rw [hd] at hmx hj
      have hle := ks.mono k3 kt hst.le
      obtain ⟨R, r1, r2, r3⟩ := jumps_stores hmx (by
        intro c hc
        have := hle ⟨c, hc⟩
        have e := ofPos_get (d0 := 0) (v0 - v1) ⟨c, hc⟩
        rw [e, Pi.sub_apply]
        exact sub_nonneg.2 this) hj
      refine ⟨v1, v0, fun c => R c.1, ks, kt, ⟨⟨ynew, rfl, r1.toStores⟩, ?_⟩, ?_⟩
      · intro c
        simp only
        rw [hdz, r2 c.1 c.2, hsg]
        simp
      · intro c x hx
        obtain ⟨n, j, s1, v, s2, r, k, e1, e2, e3, rfl⟩ := r3 c.1 c.2 x hx
        exact hnz _ _ _ _ _ e1 r e2 k e3

/-- Evaluating between two stored times: the variates between them are split. -/
theorem inside_eq (hP : PoissonRng dn0 bin) (hr : 0 ≤ rN) (hr1 : rN < 1) {t0 : T}
    {z1 z2 : JumpZ Y (vshape ++ [paths])} {t1 t2 s : T}
    {m : Mem T (Pos (vshape ++ [paths]) → ℤ) σ} (hk : DnOk t0 m) (hs : Clear rN t0 s)
    (h1 : t1 < s) (h2 : s < t2) {n1 n2 : Pos (vshape ++ [paths]) → ℤ}
    {R : Pos (vshape ++ [paths]) → List Y} (k1 : KN rN dn0 bin m t1 n1)
    (k2 : KN rN dn0 bin m t2 n2) (hl : JumpLink n1 n2 R z1 z2) (hnz : ∀ c, ∀ x ∈ R c, x ≠ 0)
    (hne : ¬ ∀ c, z1.1 c = z2.1 c) :
    (∃ e, (truePoisson rN dn0 bin).get1 s m = .error e ∧
      jumpInside (truePoisson rN dn0 bin) z1 z2 t1 t2 s m = .error e) ∨
    ∃ ns m' ys1 znew, (truePoisson rN dn0 bin).get1 s m = .ok (ns, m') ∧
      jumpInside (truePoisson rN dn0 bin) z1 z2 t1 t2 s m =
        .ok (((z1.1, some ys1), some znew), m') ∧
      DnOk t0 m' ∧ KN rN dn0 bin m' s ns ∧
      (∀ u w, KN rN dn0 bin m u w → KN rN dn0 bin m' u w) ∧ n1 ≤ ns ∧ ns ≤ n2 ∧
      JumpLink n1 ns (fun c => (R c).take (ns c - n1 c).toNat) (z1.1, some ys1) znew ∧
      JumpLink ns n2 (fun c => (R c).drop (ns c - n1 c).toNat) znew z2 := by
  unfold jumpInside
  rw [if_neg hne, get1_known hk.ok.1 k1 (quiet_poisson rN dn0 bin)]
  simp only
  cases hn : (truePoisson rN dn0 bin).get1 s m with
  | error e => exact .inl ⟨e, rfl, rfl⟩
  | ok r =>
    obtain ⟨ns, m'⟩ := r
    obtain ⟨g1, g2, g3⟩ := dn_step hP hr hr1 hk hn hs
    simp only
    rw [get1_known g1.ok.1 (g3 _ _ k2) (quiet_poisson rN dn0 bin)]
    obtain ⟨⟨ys, hys, hst⟩, hsum⟩ := hl
    have le1 := (g3 _ _ k1).mono g1 g2 h1.le
    have le2 := g2.mono g1 (g3 _ _ k2) h2.le
    push Not at hne
    obtain ⟨c0, _⟩ := hne
    have hg : ∀ (f : Pos (vshape ++ [paths]) → ℤ) (c : List ℕ) (hc : InRange (vshape ++ [paths]) c),
        (ofPos 0 f).get c = f ⟨c, hc⟩ := fun f c hc => ofPos_get f ⟨c, hc⟩
    obtain ⟨ys1, ys2, dj, e1, e2, e3, e4⟩ := splitY_ok (d := ofPos 0 (n2 - n1))
      (d1 := ofPos 0 (ns - n1)) (d2 := ofPos 0 (n2 - ns)) hst.toStoresA rfl rfl
      (by
        intro c hc
        rw [hg _ c hc]
        exact sub_nonneg.2 (le1 ⟨c, hc⟩))
      (by
        intro c hc
        rw [hg _ c hc]
        exact sub_nonneg.2 (le2 ⟨c, hc⟩))
      (by
        intro c hc
        rw [hg _ c hc, hg _ c hc, hg _ c hc]
        simp only [Pi.sub_apply]; omega)
      (by
        intro c hc x hx
        rw [dif_pos (show InRange (vshape ++ [paths]) c from hc)] at hx
        exact hnz _ x hx) c0.2
    refine .inr ⟨ns, m', ys1, (fun c => z1.1 c + dj c.1, some ys2), rfl, ?_, g1, g2, g3, le1, le2, ?_,
      ?_⟩
    · simp only [hys, e1]
    · refine ⟨⟨ys1, rfl, ?_⟩, ?_⟩
      · have := e2.toStores
        convert this using 2 with c
        rw [dif_pos c.2, ofPos_get]
        rfl
      · intro c
        simp only
        rw [e4 c.1 c.2, dif_pos c.2, ofPos_get]
        simp
    · refine ⟨⟨ys2, rfl, ?_⟩, ?_⟩
      · have := e3.toStores
        convert this using 2 with c
        rw [dif_pos c.2, ofPos_get]
        rfl
      · intro c
        have := hsum c
        simp only
        rw [e4 c.1 c.2, dif_pos c.2, ofPos_get]
        simp only [Pi.sub_apply, Subtype.coe_eta]
        rw [← sub_sub, this]
        have key : (R c).sum = ((R c).take (ns c - n1 c).toNat).sum +
            ((R c).drop (ns c - n1 c).toNat).sum := by
          rw [← List.sum_append, List.take_append_drop]
        rw [key]
        ring

theorem lawful_cpoisson {Zn : Type} (rtol : T) (N : TrueSrc T Zn (Pos (vshape ++ [paths]) → ℤ) σ)
    (y : T → Py (Rvs Y σ)) :
    Lawful (trueCPoisson rtol paths vshape N y) (fun a b => ∀ c, a c = b c) where
  outside := by
    intro z t s st z' znew st' h
    simp only [trueCPoisson, jumpOutside] at h ⊢
    split at h
    · cases h
    · split at h
      · simp only [Except.ok.injEq, Prod.mk.injEq] at h
        rw [← h.1.1]
      · simp only [Except.ok.injEq, Prod.mk.injEq] at h
        rw [← h.1.1]
  inside := by
    intro z1 z2 t1 t2 s st z' r st' h
    simp only [trueCPoisson, jumpInside] at h ⊢
    split at h
    · next hall =>
      simp only [Except.ok.injEq, Prod.mk.injEq] at h
      exact ⟨by rw [← h.1.1], by rw [← h.1.2]; simpa using hall⟩
    · next hall =>
      split at h
      · cases h
      split at h
      · cases h
      split at h
      · cases h
      split at h
      · cases h
      split at h
      · cases h
      simp only [Except.ok.injEq, Prod.mk.injEq] at h
      exact ⟨by rw [← h.1.1], by rw [← h.1.2]; simpa using hall⟩
  flat := fun _ _ h => funext h

/-- Invariant of a compound Poisson source. -/
structure JumpInv (rN : T) (dn0 : T → T → σ → Py ((Pos (vshape ++ [paths]) → ℤ) × σ))
    (bin : (Pos (vshape ++ [paths]) → ℤ) → T → σ → (Pos (vshape ++ [paths]) → ℤ) × σ)
    (t0 : T) (D : T → Prop) (m : Mem T (JumpZ Y (vshape ++ [paths]))
      (Mem T (Pos (vshape ++ [paths]) → ℤ) σ)) : Prop where
  dn : DnOk t0 m.s
  kept : WellKept m
  dom : ∀ t ∈ m.t, D t
  chain : m.zip.IsChain (LinkR (KN rN dn0 bin m.s))

theorem LinkR.mono {K K' : T → (Pos (vshape ++ [paths]) → ℤ) → Prop} (hK : ∀ u w, K u w → K' u w)
    {p q : T × JumpZ Y (vshape ++ [paths])} (h : LinkR K p q) : LinkR K' p q := by
  obtain ⟨n1, n2, R, a, b, c⟩ := h
  exact ⟨n1, n2, R, hK _ _ a, hK _ _ b, c⟩

/-- The variates looking forward do not matter to the link with the previous time. -/
theorem LinkR.right {K : T → (Pos (vshape ++ [paths]) → ℤ) → Prop}
    {p : T × JumpZ Y (vshape ++ [paths])} {t : T} {z z' : JumpZ Y (vshape ++ [paths])}
    (hz : z'.1 = z.1) (h : LinkR K p (t, z)) : LinkR K p (t, z') := by
  obtain ⟨n1, n2, R, a, b, ⟨c1, c2⟩, d⟩ := h
  exact ⟨n1, n2, R, a, b, ⟨c1, by simpa [hz] using c2⟩, d⟩

theorem chain_right {K : T → (Pos (vshape ++ [paths]) → ℤ) → Prop}
    {A : List (T × JumpZ Y (vshape ++ [paths]))} {t : T} {z z' : JumpZ Y (vshape ++ [paths])}
    (hz : z'.1 = z.1) (h : (A ++ [(t, z)]).IsChain (LinkR K)) :
    (A ++ [(t, z')]).IsChain (LinkR K) := by
  rw [List.isChain_append] at h ⊢
  refine ⟨h.1, by simp, ?_⟩
  intro x hx w hw
  simp only [List.head?_cons, Option.mem_def, Option.some.injEq] at hw
  subst hw
  exact (h.2.2 x hx (t, z) (by simp)).right hz

theorem mem_zip_fst {Z σ' : Type} {m : Mem T Z σ'} (hk : WellKept m) {p : T × Z}
    (h : p ∈ m.zip) : p.1 ∈ m.t := by
  unfold Mem.zip at h
  exact (List.of_mem_zip (show (p.1, p.2) ∈ m.t.zip m.z from h)).1

theorem jump_step (hP : PoissonRng dn0 bin) (hr : 0 ≤ rN) (hr1 : rN < 1) {rtol t0 : T}
    (hrt : 0 ≤ rtol) {y : T → Py (Rvs Y σ)} (hy : NonzeroRvs y) {D : T → Prop}
    (hD : ∀ s, D s → Clear rN t0 s)
    {m m' : Mem T (JumpZ Y (vshape ++ [paths])) (Mem T (Pos (vshape ++ [paths]) → ℤ) σ)}
    (hm : JumpInv rN dn0 bin t0 D m) {s : T} (hs : D s) {v : Pos (vshape ++ [paths]) → Y}
    (h : (trueCPoisson rtol paths vshape (truePoisson rN dn0 bin) y).get1 s m = .ok (v, m')) :
    JumpInv rN dn0 bin t0 D m' := by
  obtain ⟨hk', ht'⟩ := get1_book (lawful_cpoisson rtol (truePoisson rN dn0 bin) y) hrt hm.kept h
  have hdom : ∀ t ∈ m'.t, D t := by
    intro t ht
    rcases ht' with e | ⟨-, e⟩
    · rw [e] at ht; exact hm.dom t ht
    · rcases (e t).1 ht with rfl | ht
      · exact hs
      · exact hm.dom t ht
  rcases get1_shape hrt hm.kept h with rfl | ⟨A, t, z, z', znew, st, hz, hts, ho, hz', hst, -⟩ |
    ⟨B, t, z, z', znew, st, hz, hts, ho, hz', hst, -⟩ |
    ⟨A, B, t1, z1, t2, z2, z1', r, st, hz, h1, h2, ho, hst, hcase⟩
  · exact hm
  · have htD : D t := hm.dom t (mem_zip_fst hm.kept (p := (t, z)) (by rw [hz]; simp))
    obtain ⟨a1, a2, a3, a4, -⟩ := outside_ok hP hr hr1 hy hm.dn (hD t htD) (hD s hs) ho
    rw [← hst] at a1 a2 a4
    refine ⟨a1, hk', hdom, ?_⟩
    have hc := hm.chain.imp fun p q (h : LinkR _ p q) => h.mono a2
    rw [hz] at hc
    rw [hz', List.isChain_append_cons_cons]
    exact ⟨chain_right a3 hc, a4 hts, by simp⟩
  · have htD : D t := hm.dom t (mem_zip_fst hm.kept (p := (t, z)) (by rw [hz]; simp))
    obtain ⟨a1, a2, a3, -, a4⟩ := outside_ok hP hr hr1 hy hm.dn (hD t htD) (hD s hs) ho
    rw [← hst] at a1 a2 a4
    obtain ⟨rfl, a5⟩ := a4 hts
    refine ⟨a1, hk', hdom, ?_⟩
    have hc := hm.chain.imp fun p q (h : LinkR _ p q) => h.mono a2
    rw [hz] at hc
    rw [hz', List.isChain_cons_cons]
    exact ⟨a5, hc⟩
  · have hc := hm.chain
    rw [hz, List.isChain_append_cons_cons] at hc
    obtain ⟨c1, ⟨n1, n2, R, k1, k2, hl, hnz⟩, c3⟩ := hc
    by_cases hne : ∀ c, z1.1 c = z2.1 c
    · simp only [trueCPoisson, jumpInside, if_pos hne, Except.ok.injEq, Prod.mk.injEq] at ho
      obtain ⟨⟨rfl, rfl⟩, rfl⟩ := ho
      rcases hcase with ⟨-, hz', -⟩ | ⟨znew, hno, -⟩
      · refine ⟨by rw [hst]; exact hm.dn, hk', hdom, ?_⟩
        rw [hst, hz', ← hz]
        exact hm.chain
      · cases hno
    · rcases inside_eq hP hr hr1 hm.dn (hD s hs) h1 h2 k1 k2 hl hnz hne with ⟨e, -, he⟩ |
        ⟨ns, mm, ys1, znew, -, he, g1, g2, g3, -, -, l1, l2⟩
      · have : jumpInside (truePoisson rN dn0 bin) z1 z2 t1 t2 s m.s = _ := ho
        rw [he] at this
        cases this
      · have : jumpInside (truePoisson rN dn0 bin) z1 z2 t1 t2 s m.s = _ := ho
        rw [he] at this
        simp only [Except.ok.injEq, Prod.mk.injEq] at this
        obtain ⟨⟨rfl, rfl⟩, rfl⟩ := this
        rcases hcase with ⟨hno, -⟩ | ⟨znew', hno, hz', -⟩
        · cases hno
        simp only [Option.some.injEq] at hno
        subst hno
        rw [← hst] at g1 g2 g3
        refine ⟨g1, hk', hdom, ?_⟩
        rw [hz', List.isChain_append_cons_cons, List.isChain_cons_cons]
        have up : ∀ p q, LinkR (KN rN dn0 bin m.s) p q → LinkR (Y := Y) (KN rN dn0 bin m'.s) p q :=
          fun p q h => h.mono g3
        refine ⟨chain_right (z := z1) rfl (c1.imp up), ⟨n1, ns, _, g3 _ _ k1, g2, l1, ?_⟩,
          ⟨ns, n2, _, g2, g3 _ _ k2, l2, ?_⟩, c3.imp up⟩
        · intro c x hx
          exact hnz c x (List.mem_of_mem_take hx)
        · intro c x hx
          exact hnz c x (List.mem_of_mem_drop hx)

theorem jump_history (hP : PoissonRng dn0 bin) (hr : 0 ≤ rN) (hr1 : rN < 1) {rtol t0 tn : T}
    (hrt : 0 ≤ rtol) {y : T → Py (Rvs Y σ)} (hy : NonzeroRvs y) {D : T → Prop}
    (hD : ∀ s, D s → Clear rN tn s) (ht0 : D t0) {z0 : Pos (vshape ++ [paths]) → Y}
    {n0 : Pos (vshape ++ [paths]) → ℤ} {s0 : σ}
    {m : Mem T (JumpZ Y (vshape ++ [paths])) (Mem T (Pos (vshape ++ [paths]) → ℤ) σ)}
    (h : JumpHistory paths vshape rtol (truePoisson rN dn0 bin) y D
      (Mem.new t0 (z0, none) (Mem.new tn n0 s0)) m) :
    JumpInv rN dn0 bin tn D m := by
  induction h with
  | start =>
    refine ⟨⟨memOk_new tn n0 s0, by simp [Mem.new]⟩, (memOk_new t0 _ _).1, ?_, ?_⟩
    · intro t ht
      simp only [Mem.new, List.mem_singleton] at ht
      rw [ht]; exact ht0
    · simp [Mem.zip, Mem.new]
  | eval _ hs he ih => exact jump_step hP hr hr1 hrt hy hD ih hs he
  | evalDn _ hs he ih =>
    obtain ⟨g1, -, g3⟩ := dn_step hP hr hr1 ih.dn he (hD _ hs)
    exact ⟨g1, ih.kept, ih.dom, ih.chain.imp fun p q (h : LinkR _ p q) => h.mono g3⟩
  | other s _ ih =>
    obtain ⟨g1, g3⟩ := dn_rng (n' := ⟨_, _, s⟩) (rN := rN) (dn0 := dn0) (bin := bin) ih.dn rfl rfl
    exact ⟨g1, ih.kept, ih.dom, ih.chain.imp fun p q (h : LinkR _ p q) => h.mono g3⟩

/-- **C29** (conservation). After any history of evaluations of a compound Poisson source with memory
and of its underlying Poisson source, between any two consecutive stored times the memory holds, for
each cell, as many variates as the increment of the underlying source (as it evaluates at these
times), and the stored values differ by their sum. Variates should not be zero: see `C29_false`. -/
theorem C29_jumps_conserved_partial (hP : PoissonRng dn0 bin) (hr : 0 ≤ rN) (hr1 : rN < 1)
    {rtol t0 tn : T} (hrt : 0 ≤ rtol) {y : T → Py (Rvs Y σ)} (hy : NonzeroRvs y) {D : T → Prop}
    (hD : ∀ s, D s → Clear rN tn s) (ht0 : D t0) {z0 : Pos (vshape ++ [paths]) → Y}
    {n0 : Pos (vshape ++ [paths]) → ℤ} {s0 : σ}
    {m : Mem T (JumpZ Y (vshape ++ [paths])) (Mem T (Pos (vshape ++ [paths]) → ℤ) σ)}
    (h : JumpHistory paths vshape rtol (truePoisson rN dn0 bin) y D
      (Mem.new t0 (z0, none) (Mem.new tn n0 s0)) m)
    {A B : List (T × JumpZ Y (vshape ++ [paths]))} {t1 t2 : T}
    {z1 z2 : JumpZ Y (vshape ++ [paths])} (hm : m.t.zip m.z = A ++ (t1, z1) :: (t2, z2) :: B) :
    ∃ n1 n2 R, (truePoisson rN dn0 bin).get1 t1 m.s = .ok (n1, m.s) ∧
      (truePoisson rN dn0 bin).get1 t2 m.s = .ok (n2, m.s) ∧ JumpLink n1 n2 R z1 z2 := by
  have hi := jump_history hP hr hr1 hrt hy hD ht0 h
  have hc := hi.chain
  rw [show m.zip = _ from hm, List.isChain_append_cons_cons] at hc
  obtain ⟨-, ⟨n1, n2, R, k1, k2, hl, -⟩, -⟩ := hc
  exact ⟨n1, n2, R, get1_known hi.dn.ok.1 k1 (quiet_poisson rN dn0 bin),
    get1_known hi.dn.ok.1 k2 (quiet_poisson rN dn0 bin), hl⟩

theorem split_unique {Z : Type} {A B A' B' : List (T × Z)} {p q p' q' : T × Z} {s : T}
    (hs : ((A ++ p :: q :: B).map Prod.fst).Pairwise (· < ·))
    (h : A ++ p :: q :: B = A' ++ p' :: q' :: B') (h1 : p.1 < s) (h2 : s < q.1) (h1' : p'.1 < s)
    (h2' : s < q'.1) : A = A' ∧ p = p' ∧ q = q' ∧ B = B' := by
  have key : ∀ {A B A' B' : List (T × Z)} {p q p' q' : T × Z},
      ((A ++ p :: q :: B).map Prod.fst).Pairwise (· < ·) →
      A ++ p :: q :: B = A' ++ p' :: q' :: B' → s < q.1 → p'.1 < s → ¬ A.length < A'.length := by
    intro A B A' B' p q p' q' hs h h2 h1' hlt
    have e1 : ((A ++ p :: q :: B).map Prod.fst)[A.length + 1]? = some q.1 := by simp
    have e2 : ((A ++ p :: q :: B).map Prod.fst)[A'.length]? = some p'.1 := by rw [h]; simp
    obtain ⟨i1, f1⟩ := List.getElem?_eq_some_iff.1 e1
    obtain ⟨i2, f2⟩ := List.getElem?_eq_some_iff.1 e2
    have : q.1 ≤ p'.1 := by
      rcases Nat.eq_or_lt_of_le (show A.length + 1 ≤ A'.length by omega) with e | e
      · rw [← f1, ← f2]; simp only [e]; exact le_rfl
      · rw [← f1, ← f2]
        exact (List.pairwise_iff_getElem.1 hs _ _ i1 i2 e).le
    exact absurd (h2.trans_le this) (not_lt.2 h1'.le)
  have hl : A.length = A'.length := by
    have a := key hs h h2 h1'
    have b := key (h ▸ hs) h.symm h2' h1
    omega
  obtain ⟨rfl, e⟩ := List.append_inj h hl
  simp only [List.cons.injEq] at e
  exact ⟨rfl, e.1, e.2.1, e.2.2⟩

theorem fst_zip {Z σ' : Type} {m : Mem T Z σ'} (hk : WellKept m) : m.zip.map Prod.fst = m.t := by
  unfold Mem.zip
  rw [List.map_fst_zip (by rw [hk.2.1])]

/-- **C29** (splitting). After any history, evaluating at a time between two consecutive stored times
either leaves the memory as it is, or stores the new time between them; the variates between the two
times are then split between the two intervals, in order: none is altered, lost or duplicated. -/
theorem C29_split_partial (hP : PoissonRng dn0 bin) (hr : 0 ≤ rN) (hr1 : rN < 1)
    {rtol t0 tn : T} (hrt : 0 ≤ rtol) {y : T → Py (Rvs Y σ)} (hy : NonzeroRvs y) {D : T → Prop}
    (hD : ∀ s, D s → Clear rN tn s) (ht0 : D t0) {z0 : Pos (vshape ++ [paths]) → Y}
    {n0 : Pos (vshape ++ [paths]) → ℤ} {s0 : σ}
    {m m' : Mem T (JumpZ Y (vshape ++ [paths])) (Mem T (Pos (vshape ++ [paths]) → ℤ) σ)}
    (h : JumpHistory paths vshape rtol (truePoisson rN dn0 bin) y D
      (Mem.new t0 (z0, none) (Mem.new tn n0 s0)) m)
    {A B : List (T × JumpZ Y (vshape ++ [paths]))} {t1 t2 s : T}
    {z1 z2 : JumpZ Y (vshape ++ [paths])} (hm : m.t.zip m.z = A ++ (t1, z1) :: (t2, z2) :: B)
    (h1 : t1 < s) (h2 : s < t2) (hs : D s) {v : Pos (vshape ++ [paths]) → Y}
    (he : (trueCPoisson rtol paths vshape (truePoisson rN dn0 bin) y).get1 s m = .ok (v, m')) :
    (m'.t = m.t ∧ m'.z = m.z) ∨
    ∃ n1 ns n2 R1 R2 z1' znew, m'.t.zip m'.z = A ++ (t1, z1') :: (s, znew) :: (t2, z2) :: B ∧
      z1'.1 = z1.1 ∧ v = znew.1 ∧ JumpLink n1 n2 (fun c => R1 c ++ R2 c) z1 z2 ∧
      JumpLink n1 ns R1 z1' znew ∧ JumpLink ns n2 R2 znew z2 := by
  have hi := jump_history hP hr hr1 hrt hy hD ht0 h
  have hmz : m.zip = A ++ (t1, z1) :: (t2, z2) :: B := hm
  have hsort : ((A ++ (t1, z1) :: (t2, z2) :: B).map Prod.fst).Pairwise (· < ·) := by
    rw [← hmz, fst_zip hi.kept]; exact hi.kept.1
  rcases get1_shape hrt hi.kept he with rfl | ⟨A', t, z, z', znew, st, hz, hts, ho, hz', hst, -⟩ |
    ⟨B', t, z, z', znew, st, hz, hts, ho, hz', hst, -⟩ |
    ⟨A', B', t1', z1', t2', z2', z1'', r, st, hz, h1', h2', ho, hst, hcase⟩
  · exact .inl ⟨rfl, rfl⟩
  · exfalso
    have hlast : m.t.getLast? = some t := by rw [← fst_zip hi.kept, hz]; simp
    have := mem_le_last hi.kept.1 (mem_zip_fst hi.kept (p := (t2, z2)) (by rw [hmz]; simp)) hlast
    exact absurd (h2.trans_le this) hts.not_gt
  · exfalso
    have hfst : m.t = t :: B'.map Prod.fst := by rw [← fst_zip hi.kept, hz]; simp
    have hmem := mem_zip_fst hi.kept (p := (t1, z1)) (by rw [hmz]; simp)
    have hp := hi.kept.1
    rw [hfst] at hmem hp
    rcases List.mem_cons.1 hmem with e | e
    · exact absurd (by rw [show t1 = t from e]; exact hts) h1.not_gt
    · exact absurd (hts.trans ((List.pairwise_cons.1 hp).1 _ e)) h1.not_gt
  · rw [hmz] at hz
    obtain ⟨rfl, e1, e2, rfl⟩ := split_unique hsort hz h1 h2 h1' h2'
    simp only [Prod.mk.injEq] at e1 e2
    obtain ⟨rfl, rfl⟩ := e1
    obtain ⟨rfl, rfl⟩ := e2
    have hc := hi.chain
    rw [hmz, List.isChain_append_cons_cons] at hc
    obtain ⟨-, ⟨n1, n2, R, k1, k2, hl, hnz⟩, -⟩ := hc
    have ho' : jumpInside (truePoisson rN dn0 bin) z1 z2 t1 t2 s m.s = .ok ((z1'', r), st) := ho
    have hunzip : ∀ {mm : Mem T (JumpZ Y (vshape ++ [paths]))
        (Mem T (Pos (vshape ++ [paths]) → ℤ) σ)}, WellKept mm → mm.zip.map Prod.snd = mm.z := by
      intro mm hk
      unfold Mem.zip
      rw [List.map_snd_zip (by rw [hk.2.1])]
    have hk' := (get1_book (lawful_cpoisson rtol (truePoisson rN dn0 bin) y) hrt hi.kept he).1
    by_cases hne : ∀ c, z1.1 c = z2.1 c
    · simp only [jumpInside, if_pos hne, Except.ok.injEq, Prod.mk.injEq] at ho'
      obtain ⟨⟨rfl, rfl⟩, rfl⟩ := ho'
      rcases hcase with ⟨-, hz', -⟩ | ⟨znew, hno, -⟩
      · refine .inl ⟨?_, ?_⟩
        · rw [← fst_zip hk', hz', ← hmz, fst_zip hi.kept]
        · rw [← hunzip hk', hz', ← hmz, hunzip hi.kept]
      · cases hno
    · rcases inside_eq hP hr hr1 hi.dn (hD s hs) h1 h2 k1 k2 hl hnz hne with ⟨e, -, he⟩ |
        ⟨ns, mm, ys1, znew, -, he, g1, g2, g3, -, -, l1, l2⟩
      · rw [he] at ho'; cases ho'
      · rw [he] at ho'
        simp only [Except.ok.injEq, Prod.mk.injEq] at ho'
        obtain ⟨⟨rfl, rfl⟩, rfl⟩ := ho'
        rcases hcase with ⟨hno, -⟩ | ⟨znew', hno, hz', hv⟩
        · cases hno
        simp only [Option.some.injEq] at hno
        subst hno
        refine .inr ⟨n1, ns, n2, _, _, _, znew, hz', rfl, hv, ?_, l1, l2⟩
        simpa only [List.take_append_drop] using hl

/-- **C29** (no assertion fails). After any history, evaluating between two stored times raises an
exception only if the underlying Poisson source does, at that time: in particular, the assertions that
check the variates stored never fail. -/
theorem C29_no_assertion_partial (hP : PoissonRng dn0 bin) (hr : 0 ≤ rN) (hr1 : rN < 1)
    {rtol t0 tn : T} (hrt : 0 ≤ rtol) {y : T → Py (Rvs Y σ)} (hy : NonzeroRvs y) {D : T → Prop}
    (hD : ∀ s, D s → Clear rN tn s) (ht0 : D t0) {z0 : Pos (vshape ++ [paths]) → Y}
    {n0 : Pos (vshape ++ [paths]) → ℤ} {s0 : σ}
    {m : Mem T (JumpZ Y (vshape ++ [paths])) (Mem T (Pos (vshape ++ [paths]) → ℤ) σ)}
    (h : JumpHistory paths vshape rtol (truePoisson rN dn0 bin) y D
      (Mem.new t0 (z0, none) (Mem.new tn n0 s0)) m) {t1 t2 s : T} (ht1 : t1 ∈ m.t) (ht2 : t2 ∈ m.t)
    (h1 : t1 < s) (h2 : s < t2) (hs : D s) {e : PyErr}
    (he : (trueCPoisson rtol paths vshape (truePoisson rN dn0 bin) y).get1 s m = .error e) :
    (truePoisson rN dn0 bin).get1 s m.s = .error e := by
  have hi := jump_history hP hr hr1 hrt hy hD ht0 h
  rcases get1_error hrt hi.kept he with ⟨z, t, hz, ht, hts, ho⟩ | ⟨z, t, hz, ht, hts, ho⟩ |
    ⟨k, z1, z2, t1', t2', hk1, hk2, hz1, hz2, h1', h2', ho⟩
  · exact absurd (h2.trans_le (mem_le_last hi.kept.1 ht2 ht)) hts.not_gt
  · exfalso
    have hp := hi.kept.1
    match hmt : m.t with
    | [] => rw [hmt] at ht; cases ht
    | u :: us =>
      rw [hmt] at ht hp ht1
      simp only [List.head?_cons, Option.some.injEq] at ht
      subst ht
      rcases List.mem_cons.1 ht1 with e | e
      · exact absurd (e ▸ hts) h1.not_gt
      · exact absurd (hts.trans ((List.pairwise_cons.1 hp).1 _ e)) h1.not_gt
  · have hzip : m.zip = m.zip.take k ++ (t1', z1) :: (t2', z2) :: m.zip.drop (k + 2) := by
      apply split_at
      · simp [Mem.zip, List.getElem?_zip_eq_some, hk1, hz1]
      · simp [Mem.zip, List.getElem?_zip_eq_some, hk2, hz2]
    have hc := hi.chain
    rw [hzip, List.isChain_append_cons_cons] at hc
    obtain ⟨-, ⟨n1, n2, R, k1, k2, hl, hnz⟩, -⟩ := hc
    have ho' : jumpInside (truePoisson rN dn0 bin) z1 z2 t1' t2' s m.s = .error e := ho
    by_cases hne : ∀ c, z1.1 c = z2.1 c
    · simp only [jumpInside, if_pos hne] at ho'
      cases ho'
    · rcases inside_eq hP hr hr1 hi.dn (hD s hs) h1' h2' k1 k2 hl hnz hne with ⟨e', h3, h4⟩ |
        ⟨ns, mm, ys1, znew, -, h4, -⟩
      · rw [h4] at ho'
        simp only [Except.error.injEq] at ho'
        rw [h3, ho']
      · rw [h4] at ho'; cases ho'

theorem clear_zero (r s : T) : Clear r 0 s := fun hs hc => by
  rw [abs_zero, mul_zero, sub_zero] at hc
  exact hs.ne (abs_nonpos_iff.1 hc)

/-- **C29**, for sources that make their own Poisson source (line 2608: it starts at time `0`): after
any history, the variates stored between consecutive stored times are as many as the jumps of the
Poisson source, none is zero, and they add up to the increment of the values. -/
theorem C29_jumps_conserved (hP : PoissonRng dn0 bin) (hr : 0 ≤ rN) (hr1 : rN < 1)
    {rtol t0 : T} (hrt : 0 ≤ rtol) {y : T → Py (Rvs Y σ)} (hy : NonzeroRvs y)
    {z0 : Pos (vshape ++ [paths]) → Y} {n0 : Pos (vshape ++ [paths]) → ℤ} {s0 : σ}
    {m : Mem T (JumpZ Y (vshape ++ [paths])) (Mem T (Pos (vshape ++ [paths]) → ℤ) σ)}
    (h : JumpHistory paths vshape rtol (truePoisson rN dn0 bin) y (fun _ => True)
      (Mem.new t0 (z0, none) (Mem.new 0 n0 s0)) m)
    {A B : List (T × JumpZ Y (vshape ++ [paths]))} {t1 t2 : T}
    {z1 z2 : JumpZ Y (vshape ++ [paths])} (hm : m.t.zip m.z = A ++ (t1, z1) :: (t2, z2) :: B) :
    ∃ n1 n2 R, (truePoisson rN dn0 bin).get1 t1 m.s = .ok (n1, m.s) ∧
      (truePoisson rN dn0 bin).get1 t2 m.s = .ok (n2, m.s) ∧ JumpLink n1 n2 R z1 z2 :=
  C29_jumps_conserved_partial hP hr hr1 hrt hy (fun s _ => clear_zero rN s) trivial h hm

/-- **C29** (splitting), for sources that make their own Poisson source. -/
theorem C29_split (hP : PoissonRng dn0 bin) (hr : 0 ≤ rN) (hr1 : rN < 1)
    {rtol t0 : T} (hrt : 0 ≤ rtol) {y : T → Py (Rvs Y σ)} (hy : NonzeroRvs y)
    {z0 : Pos (vshape ++ [paths]) → Y} {n0 : Pos (vshape ++ [paths]) → ℤ} {s0 : σ}
    {m m' : Mem T (JumpZ Y (vshape ++ [paths])) (Mem T (Pos (vshape ++ [paths]) → ℤ) σ)}
    (h : JumpHistory paths vshape rtol (truePoisson rN dn0 bin) y (fun _ => True)
      (Mem.new t0 (z0, none) (Mem.new 0 n0 s0)) m)
    {A B : List (T × JumpZ Y (vshape ++ [paths]))} {t1 t2 s : T}
    {z1 z2 : JumpZ Y (vshape ++ [paths])} (hm : m.t.zip m.z = A ++ (t1, z1) :: (t2, z2) :: B)
    (h1 : t1 < s) (h2 : s < t2) {v : Pos (vshape ++ [paths]) → Y}
    (he : (trueCPoisson rtol paths vshape (truePoisson rN dn0 bin) y).get1 s m = .ok (v, m')) :
    (m'.t = m.t ∧ m'.z = m.z) ∨
    ∃ n1 ns n2 R1 R2 z1' znew, m'.t.zip m'.z = A ++ (t1, z1') :: (s, znew) :: (t2, z2) :: B ∧
      z1'.1 = z1.1 ∧ v = znew.1 ∧ JumpLink n1 n2 (fun c => R1 c ++ R2 c) z1 z2 ∧
      JumpLink n1 ns R1 z1' znew ∧ JumpLink ns n2 R2 znew z2 :=
  C29_split_partial hP hr hr1 hrt hy (fun s _ => clear_zero rN s) trivial h hm h1 h2 trivial he

/-- **C29** (no assertion fails), for sources that make their own Poisson source. -/
theorem C29_no_assertion (hP : PoissonRng dn0 bin) (hr : 0 ≤ rN) (hr1 : rN < 1)
    {rtol t0 : T} (hrt : 0 ≤ rtol) {y : T → Py (Rvs Y σ)} (hy : NonzeroRvs y)
    {z0 : Pos (vshape ++ [paths]) → Y} {n0 : Pos (vshape ++ [paths]) → ℤ} {s0 : σ}
    {m : Mem T (JumpZ Y (vshape ++ [paths])) (Mem T (Pos (vshape ++ [paths]) → ℤ) σ)}
    (h : JumpHistory paths vshape rtol (truePoisson rN dn0 bin) y (fun _ => True)
      (Mem.new t0 (z0, none) (Mem.new 0 n0 s0)) m) {t1 t2 s : T} (ht1 : t1 ∈ m.t) (ht2 : t2 ∈ m.t)
    (h1 : t1 < s) (h2 : s < t2) {e : PyErr}
    (he : (trueCPoisson rtol paths vshape (truePoisson rN dn0 bin) y).get1 s m = .error e) :
    (truePoisson rN dn0 bin).get1 s m.s = .error e :=
  C29_no_assertion_partial hP hr hr1 hrt hy (fun s _ => clear_zero rN s) trivial h ht1 ht2 h1 h2
    trivial he

end cpoisson

section examples

/-- Two jumps for any time interval. -/
def exDn2 (t dt : ℚ) (s : ℕ) : Py ((Pos ([] ++ [1]) → ℤ) × ℕ) :=
  .ok (fun _ => 2 * sgn dt, s + 1)

/-- A single jump, out of any number of them. -/
def exBin2 (n : Pos ([] ++ [1]) → ℤ) (p : ℚ) (s : ℕ) : (Pos ([] ++ [1]) → ℤ) × ℕ :=
  (fun i => min 1 (n i), s + 1)

theorem exRng2 : PoissonRng exDn2 exBin2 where
  fwd h hdt i := by
    simp only [exDn2, Except.ok.injEq, Prod.mk.injEq] at h
    rw [← h.1]; simp [sgn, hdt]
  bwd h hdt i := by
    simp only [exDn2, Except.ok.injEq, Prod.mk.injEq] at h
    rw [← h.1]; simp [sgn, hdt, hdt.not_gt]
  bin h _ _ i := by
    have := h i
    simp only [exBin2]
    omega

/-- Jumps of sizes `a` and `b`. -/
def exY (a b : ℚ) (_ : ℚ) : Py (Rvs ℚ ℕ) := .ok fun _ _ s => .ok (fun _ k => if k = 0 then a else b, s + 1)

theorem exY_nonzero {a b : ℚ} (ha : a ≠ 0) (hb : b ≠ 0) : NonzeroRvs (exY a b) := by
  intro t rvs h n j s v s' hv r _ k _
  simp only [exY, Except.ok.injEq] at h
  subst h
  simp only [Except.ok.injEq, Prod.mk.injEq] at hv
  rw [← hv.1]
  simp only
  split <;> assumption

/-- A compound Poisson source with jumps of sizes `a` and `b` between any two times. -/
def exJump (a b : ℚ) : TrueSrc ℚ (JumpZ ℚ ([] ++ [1])) (Pos ([] ++ [1]) → ℚ)
    (Mem ℚ (Pos ([] ++ [1]) → ℤ) ℕ) :=
  trueCPoisson 0 1 [] (truePoisson 0 exDn2 exBin2) (exY a b)

def exJump0 : Mem ℚ (JumpZ ℚ ([] ++ [1])) (Mem ℚ (Pos ([] ++ [1]) → ℤ) ℕ) :=
  Mem.new 0 (fun _ => 0, none) (Mem.new 0 (fun _ => 0) 0)

/-- Times, values, and variates stored. -/
def showJump (m : Mem ℚ (JumpZ ℚ ([] ++ [1])) (Mem ℚ (Pos ([] ++ [1]) → ℤ) ℕ)) :
    List (ℚ × ℚ × List (List (List ℚ))) :=
  m.zip.map fun p => (p.1, p.2.1 ⟨[0], by decide⟩, (p.2.2.getD []).map fun y =>
    (List.range y.n).map fun r => (List.range y.j).map (y.val r))

/-- Jumps `3, -1` from time `0` to time `2` are split at time `1`. -/
example : ((exJump 3 (-1)).getList [2, 1, -1] exJump0).toOption.map (fun r => showJump r.2) =
    some [(-1, -2, [[[3, -1]]]), (0, 0, [[[3]]]), (1, 3, [[[-1]]]), (2, 2, [])] := by
  decide +kernel

/-- The theorems apply to this source. -/
example {m m' : Mem ℚ (JumpZ ℚ ([] ++ [1])) (Mem ℚ (Pos ([] ++ [1]) → ℤ) ℕ)}
    {s : ℚ} {v : Pos ([] ++ [1]) → ℚ} {A B : List (ℚ × JumpZ ℚ ([] ++ [1]))} {t1 t2 : ℚ}
    {z1 z2 : JumpZ ℚ ([] ++ [1])} (hm : m.t.zip m.z = A ++ (t1, z1) :: (t2, z2) :: B)
    (h : JumpHistory 1 [] 0 (truePoisson 0 exDn2 exBin2) (exY 3 (-1)) (fun _ => True) exJump0 m)
    (h1 : t1 < s) (h2 : s < t2) (he : (exJump 3 (-1)).get1 s m = .ok (v, m')) :=
  C29_split exRng2 le_rfl one_pos le_rfl (exY_nonzero (by norm_num) (by norm_num)) h hm h1 h2 he

/-- **C29** does not hold if a jump may be zero, as it happens with discrete distributions: with jumps
`0, 5` between times `0` and `2`, evaluation at time `1` raises `AssertionError`. -/
theorem C29_false :
    ∃ v m, (exJump 0 5).get1 2 exJump0 = .ok (v, m) ∧
      (exJump 0 5).get1 1 m = .error .assertionError := by
  have h : ((exJump 0 5).get1 2 exJump0).bind (fun r => (exJump 0 5).get1 1 r.2 |>.map fun _ => ()) =
      .error .assertionError := by decide +kernel
  cases h1 : (exJump 0 5).get1 2 exJump0 with
  | error e =>
    have : ((exJump 0 5).get1 2 exJump0).isOk = true := by decide +kernel
    rw [h1] at this
    cases this
  | ok r =>
    refine ⟨r.1, r.2, rfl, ?_⟩
    rw [h1] at h
    simp only [Except.bind] at h
    cases h2 : (exJump 0 5).get1 1 r.2 with
    | error e => rw [h2] at h; simpa [Except.map] using h
    | ok r' => rw [h2] at h; simp [Except.map] at h

end examples

end Sdepy
