import Verif.Lemmas.Packing
import Verif.Spec.SDEs

/-!
# Property C12: packing and unpacking of systems of equations
-/

set_option linter.unusedSimpArgs false

namespace Sdepy

open Spec

variable {α : Type}

/-- Layouts that are constructed by the package (`mkLayout`): at least one equation, and an axis
is added when values are scalar. -/
def Spec.GoodLayout (L : Layout) : Prop := 1 ≤ L.q ∧ (L.vshape = [] → L.addaxis = true)

theorem mkLayout_good {q : ℤ} {a : Bool} {v : List ℕ} {p : ℕ} {L : Layout}
    (h : mkLayout q a v p = .ok L) : GoodLayout L ∧ L.vshape = v ∧ L.paths = p ∧ (L.q : ℤ) = q := by
  unfold mkLayout at h
  by_cases hq : q < 1
  · rw [if_pos hq] at h; simp at h
  · rw [if_neg hq] at h
    simp at h
    subst h
    refine ⟨⟨by simp; omega, ?_⟩, rfl, rfl, by simp; omega⟩
    intro hv; simp at hv; simp [hv]

theorem vshape_split {L : Layout} (hL : GoodLayout L) (ha : L.addaxis = false) :
    ∃ v N, L.vshape = v ++ [N] := by
  have : L.vshape ≠ [] := by
    intro h; have := hL.2 h; rw [ha] at this; simp at this
  exact ⟨_, _, (List.dropLast_append_getLast this).symm⟩

theorem component_addaxis {L : Layout} (ha : L.addaxis = true) (X : Arr α) (i : ℕ) (c : List ℕ) (p : ℕ) :
    component L X i c p = X.get (c ++ [i, p]) := by
  unfold component; rw [if_pos ha]

theorem component_stack {L : Layout} (ha : L.addaxis = false) {v : List ℕ} {N : ℕ}
    (hv : L.vshape = v ++ [N]) (X : Arr α) (i : ℕ) (kk : List ℕ) (h p : ℕ) :
    component L X i (kk ++ [h]) p = X.get (kk ++ [i * N + h, p]) := by
  unfold component
  rw [if_neg (by rw [ha]; simp), hv, List.dropLast_concat]
  simp

/-- **C12**, dispatch of components: packing `q` arrays that can be broadcast to
`vshape + (paths,)` gives an array of shape `wshape + (paths,)`, which holds the values of array
`i` as the values of equation `i`. -/
theorem C12_pack (L : Layout) (hL : GoodLayout L) (xs ys : List (Arr α)) (hq : xs.length = L.q)
    (hb : List.Forall₂ (fun x y => x.broadcastTo (L.vshape ++ [L.paths]) = .ok y) xs ys) :
    ∃ X, L.pack xs = .ok X ∧ X.shape = L.wshape ++ [L.paths] ∧
      ∀ (i : ℕ) (y : Arr α), ys[i]? = some y → ∀ (c : List ℕ) (p : ℕ), InRange L.vshape c →
        component L X i c p = y.get (c ++ [p]) := by
  have hys : ∀ y ∈ ys, y.shape = L.vshape ++ [L.paths] := by
    intro y hy
    obtain ⟨j, hj, rfl⟩ := List.getElem_of_mem hy
    have hl := hb.length_eq
    have hx := (List.forall₂_iff_get.1 hb).2 j (by omega) hj
    exact broadcastTo_shape hx
  have hlen : ys.length = L.q := by rw [← hb.length_eq, hq]
  have hne : ys ≠ [] := by
    intro h; rw [h] at hlen; have := hL.1; simp at hlen; omega
  unfold Layout.pack
  rw [(mapPy_ok_iff _ _ _).2 hb]
  simp only
  by_cases ha : L.addaxis = true
  · rw [if_pos ha]
    obtain ⟨X, h1, h2, h3⟩ := concat2_uniform (ys.map Arr.newaxis2) L.vshape 1 L.paths (by
      intro y hy
      obtain ⟨z, hz, rfl⟩ := List.mem_map.1 hy
      exact newaxis2_shape (hys z hz)) (by simpa using hne)
    refine ⟨X, h1, ?_, ?_⟩
    · rw [h2, List.length_map, hlen, Nat.mul_one, Layout.wshape, if_pos ha]; simp
    · intro i y hy c p hc
      rw [component_addaxis ha]
      have := h3 c i 0 p y.newaxis2 (by simp [hy]) (by omega)
      simp only [Nat.mul_one, Nat.add_zero] at this
      rw [this, newaxis2_get]
  · have ha' : L.addaxis = false := by simpa using ha
    rw [if_neg ha]
    obtain ⟨v, N, hv⟩ := vshape_split hL ha'
    obtain ⟨X, h1, h2, h3⟩ := concat2_uniform ys v N L.paths (by
      intro y hy; rw [hys y hy, hv]; simp) hne
    refine ⟨X, h1, ?_, ?_⟩
    · rw [h2, hlen, Layout.wshape, if_neg ha, hv, List.dropLast_concat]
      simp [Nat.mul_comm]
    · intro i y hy c p hc
      rw [hv] at hc
      obtain ⟨kk, h', rfl, hkk, hh⟩ := hc.of_append
      obtain ⟨h, rfl, hN⟩ := inRange_singleton.1 hh
      rw [component_stack ha' hv]
      rw [h3 kk i h p y hy hN]
      simp

/-- Packing fails (`ValueError`) if some array cannot be broadcast. -/
theorem C12_pack_rejects (L : Layout) (xs : List (Arr α))
    (h : ∃ x ∈ xs, ¬ BcOk x.shape (L.vshape ++ [L.paths])) : L.pack xs = .error .valueError := by
  unfold Layout.pack
  rw [mapPy_error _ .valueError]
  · intro x _
    unfold Arr.broadcastTo
    by_cases hb : BcOk x.shape (L.vshape ++ [L.paths])
    · rw [if_pos hb]; exact .inr ⟨_, rfl⟩
    · rw [if_neg hb]; exact .inl rfl
  · obtain ⟨x, hx, hb⟩ := h
    refine ⟨x, hx, ?_⟩
    unfold Arr.broadcastTo
    rw [if_neg hb]

/-- **C12**, unpacking: an array of shape `wshape + (paths,)` unpacks to `q` arrays of shape
`vshape + (paths,)`, the `i`-th of which holds the values of equation `i`. -/
theorem C12_unpack (L : Layout) (hL : GoodLayout L) (X : Arr α) (hX : X.shape = L.wshape ++ [L.paths]) :
    ∃ ys, L.unpack X = .ok ys ∧ ys.length = L.q ∧
      ∀ (i : ℕ) (y : Arr α), ys[i]? = some y → y.shape = L.vshape ++ [L.paths] ∧
        ∀ (c : List ℕ) (p : ℕ), InRange L.vshape c → y.get (c ++ [p]) = component L X i c p := by
  unfold Layout.unpack
  by_cases ha : L.addaxis = true
  · rw [if_pos ha]
    rw [Layout.wshape, if_pos ha, List.append_assoc, List.singleton_append] at hX
    have hk : ∀ k ∈ List.range L.q, ∃ b, X.index2 k = .ok b ∧ b.shape = L.vshape ++ [L.paths] ∧
        ∀ kk pp, b.get (kk ++ [pp]) = X.get (kk ++ [k, pp]) :=
      fun k hk => index2_eq X _ _ _ k hX (List.mem_range.1 hk)
    classical
    let g : ℕ → Arr α := fun k => if h : k < L.q then (hk k (List.mem_range.2 h)).choose else X
    have hg : ∀ k (h : k < L.q), X.index2 k = .ok (g k) ∧ (g k).shape = L.vshape ++ [L.paths] ∧
        ∀ kk pp, (g k).get (kk ++ [pp]) = X.get (kk ++ [k, pp]) := by
      intro k h
      simp only [g, dif_pos h]
      exact (hk k (List.mem_range.2 h)).choose_spec
    refine ⟨(List.range L.q).map g, mapPy_ok _ g _ (fun k h => (hg k (List.mem_range.1 h)).1),
      by simp, ?_⟩
    intro i y hy
    have hi : i < L.q := by
      have := (List.getElem?_eq_some_iff.1 hy).1; simpa using this
    have : g i = y := by simpa [hi] using hy
    rw [← this]
    refine ⟨(hg i hi).2.1, ?_⟩
    intro c p _
    rw [component_addaxis ha]
    exact (hg i hi).2.2 c p
  · have ha' : L.addaxis = false := by simpa using ha
    rw [if_neg ha]
    obtain ⟨v, N, hv⟩ := vshape_split hL ha'
    have hv' : L.vshape.getLast? = some N := by rw [hv]; simp
    rw [hv']
    simp only
    have hX' : X.shape = v ++ [L.q * N, L.paths] := by
      rw [hX, Layout.wshape, if_neg ha, hv, List.dropLast_concat]
      simp [Nat.mul_comm]
    have hk : ∀ k ∈ List.range L.q, ∃ b, X.slice2 (k * N) ((k + 1) * N) = .ok b ∧
        b.shape = v ++ [N, L.paths] ∧
        ∀ kk hh pp, b.get (kk ++ [hh, pp]) = X.get (kk ++ [k * N + hh, pp]) :=
      fun k hk => slice2_eq X _ _ _ _ k hX' (List.mem_range.1 hk)
    classical
    let g : ℕ → Arr α := fun k => if h : k < L.q then (hk k (List.mem_range.2 h)).choose else X
    have hg : ∀ k (h : k < L.q), X.slice2 (k * N) ((k + 1) * N) = .ok (g k) ∧
        (g k).shape = v ++ [N, L.paths] ∧
        ∀ kk hh pp, (g k).get (kk ++ [hh, pp]) = X.get (kk ++ [k * N + hh, pp]) := by
      intro k h
      simp only [g, dif_pos h]
      exact (hk k (List.mem_range.2 h)).choose_spec
    refine ⟨(List.range L.q).map g, mapPy_ok _ g _ (fun k h => (hg k (List.mem_range.1 h)).1),
      by simp, ?_⟩
    intro i y hy
    have hi : i < L.q := by
      have := (List.getElem?_eq_some_iff.1 hy).1; simpa using this
    have : g i = y := by simpa [hi] using hy
    rw [← this]
    refine ⟨by rw [(hg i hi).2.1, hv]; simp, ?_⟩
    intro c p hc
    rw [hv] at hc
    obtain ⟨kk, h', rfl, hkk, hh⟩ := hc.of_append
    obtain ⟨h, rfl, hN⟩ := inRange_singleton.1 hh
    rw [component_stack ha' hv, List.append_assoc, List.singleton_append]
    exact (hg i hi).2.2 kk h p

/-- **C12**, first round trip: unpacking what was packed gives the arrays back, broadcast to
`vshape + (paths,)`. -/
theorem C12_unpack_pack (L : Layout) (hL : GoodLayout L) (xs ys : List (Arr α))
    (hq : xs.length = L.q)
    (hb : List.Forall₂ (fun x y => x.broadcastTo (L.vshape ++ [L.paths]) = .ok y) xs ys) :
    ∃ X zs, L.pack xs = .ok X ∧ L.unpack X = .ok zs ∧ List.Forall₂ Arr.Same ys zs := by
  obtain ⟨X, h1, h2, h3⟩ := C12_pack L hL xs ys hq hb
  obtain ⟨zs, h4, h5, h6⟩ := C12_unpack L hL X h2
  refine ⟨X, zs, h1, h4, ?_⟩
  have hlen : ys.length = L.q := by rw [← hb.length_eq, hq]
  rw [List.forall₂_iff_get]
  refine ⟨by omega, ?_⟩
  intro j hj hj'
  have hy : ys[j]? = some ys[j] := List.getElem?_eq_getElem hj
  have hz : zs[j]? = some zs[j] := List.getElem?_eq_getElem hj'
  have hshape : ys[j].shape = L.vshape ++ [L.paths] := by
    have := (List.forall₂_iff_get.1 hb).2 j (by omega) hj
    exact broadcastTo_shape this
  obtain ⟨h7, h8⟩ := h6 j zs[j] hz
  refine ⟨by simp only [List.get_eq_getElem]; rw [hshape, h7], ?_⟩
  intro i hi
  simp only [List.get_eq_getElem] at hi ⊢
  rw [hshape] at hi
  obtain ⟨c, p', rfl, hc, hp⟩ := hi.of_append
  obtain ⟨p, rfl, _⟩ := inRange_singleton.1 hp
  rw [h8 c p hc, h3 j ys[j] hy c p hc]

/-- **C12**, second round trip: packing what was unpacked gives the array back. -/
theorem C12_pack_unpack (L : Layout) (hL : GoodLayout L) (X : Arr α)
    (hX : X.shape = L.wshape ++ [L.paths]) :
    ∃ ys X', L.unpack X = .ok ys ∧ L.pack ys = .ok X' ∧ X'.Same X := by
  obtain ⟨ys, h1, h2, h3⟩ := C12_unpack L hL X hX
  -- unpacked arrays have the target shape already
  have hbc : ∀ y ∈ ys, ∃ z, y.broadcastTo (L.vshape ++ [L.paths]) = .ok z ∧ z.Same y := by
    intro y hy
    obtain ⟨j, hj, rfl⟩ := List.getElem_of_mem hy
    have := (h3 j _ (List.getElem?_eq_getElem hj)).1
    obtain ⟨b, hb1, hb2⟩ := broadcastTo_self ys[j]
    rw [this] at hb1
    exact ⟨b, hb1, hb2⟩
  obtain ⟨zs, hzs⟩ : ∃ zs, List.Forall₂ (fun x y => x.broadcastTo (L.vshape ++ [L.paths]) = .ok y) ys zs := by
    classical
    refine ⟨ys.map fun y => if h : y ∈ ys then (hbc y h).choose else y, ?_⟩
    rw [← mapPy_ok_iff]
    apply mapPy_ok
    intro y hy
    rw [dif_pos hy]
    exact (hbc y hy).choose_spec.1
  obtain ⟨X', h4, h5, h6⟩ := C12_pack L hL ys zs h2 hzs
  refine ⟨ys, X', h1, h4, by rw [h5, hX], ?_⟩
  -- every cell of the packed array is a component of some equation
  have hcomp : ∀ (i : ℕ) (c : List ℕ) (p : ℕ), i < L.q → InRange L.vshape c → p < L.paths →
      component L X' i c p = component L X i c p := by
    intro i c p hi hc hp
    have hzi : i < zs.length := by rw [← hzs.length_eq, h2]; exact hi
    rw [h6 i zs[i] (List.getElem?_eq_getElem hzi) c p hc]
    have hyi : i < ys.length := by omega
    have hy := h3 i ys[i] (List.getElem?_eq_getElem hyi)
    rw [← hy.2 c p hc]
    obtain ⟨b, hb1, hb2⟩ := hbc ys[i] (by simp)
    have hz := (List.forall₂_iff_get.1 hzs).2 i hyi hzi
    simp only [List.get_eq_getElem] at hz
    rw [hb1] at hz
    simp only [Except.ok.injEq] at hz
    rw [← hz]
    apply hb2.2
    rw [hb2.1, hy.1, inRange_append hc.length]
    exact ⟨hc, inRange_singleton.2 ⟨p, rfl, hp⟩⟩
  intro idx hidx
  rw [h5] at hidx
  by_cases ha : L.addaxis = true
  · rw [Layout.wshape, if_pos ha, List.append_assoc, List.singleton_append] at hidx
    obtain ⟨c, r, rfl, hc, hr⟩ := hidx.of_append
    obtain ⟨i, p, rfl, hi, hp⟩ := inRange_pair.1 hr
    have := hcomp i c p hi hc hp
    rwa [component_addaxis ha, component_addaxis ha] at this
  · have ha' : L.addaxis = false := by simpa using ha
    obtain ⟨v, N, hv⟩ := vshape_split hL ha'
    have hw : L.wshape ++ [L.paths] = v ++ [L.q * N, L.paths] := by
      rw [Layout.wshape, if_neg ha, hv, List.dropLast_concat]
      simp [Nat.mul_comm]
    rw [hw] at hidx
    obtain ⟨kk, r, rfl, hkk, hr⟩ := hidx.of_append
    obtain ⟨j, p, rfl, hj, hp⟩ := inRange_pair.1 hr
    have hN : 0 < N := by
      rcases Nat.eq_zero_or_pos N with h | h
      · rw [h] at hj; simp at hj
      · exact h
    have hi : j / N < L.q := Nat.div_lt_of_lt_mul (by rw [Nat.mul_comm]; exact hj)
    have hh : j % N < N := Nat.mod_lt _ hN
    have := hcomp (j / N) (kk ++ [j % N]) p hi (by
      rw [hv, inRange_append hkk.length]
      exact ⟨hkk, inRange_singleton.2 ⟨_, rfl, hh⟩⟩) hp
    rw [component_stack ha' hv, component_stack ha' hv] at this
    have hj' : j / N * N + j % N = j := Nat.div_add_mod' j N
    rwa [hj'] at this

/-! Two equations with values of shape (3,), stacked, and with an added axis; 2 paths. The first
packed array is a scalar. -/

/-- test array of shape (3, 2) -/
def exArr : Arr ℕ := ⟨[3, 2], fun i => 10 * i.headD 0 + i.getLastD 0⟩

/-- Values of an array at given indices, if it was computed. -/
def getAt {α : Type} (r : Py (Arr α)) (idx : List (List ℕ)) : Option (List ℕ × List α) :=
  match r with
  | .ok a => some (a.shape, idx.map a.get)
  | .error _ => none

example : getAt (Layout.pack ⟨2, false, [3], 2⟩ [.scalar 7, exArr]) [[0, 1], [3, 1], [5, 0]] =
    some ([6, 2], [7, 1, 20]) := by decide

example : getAt (Layout.pack ⟨2, true, [3], 2⟩ [.scalar 7, exArr]) [[0, 0, 1], [0, 1, 1], [2, 1, 0]] =
    some ([3, 2, 2], [7, 1, 20]) := by decide

example : GoodLayout ⟨2, false, [3], 2⟩ ∧ GoodLayout ⟨2, true, [], 2⟩ ∧
    BcOk (Arr.scalar 7 : Arr ℕ).shape ([3] ++ [2]) ∧ BcOk exArr.shape ([3] ++ [2]) := by
  refine ⟨⟨by decide, by decide⟩, ⟨by decide, by decide⟩, by decide, by decide⟩

end Sdepy
