import Verif.Model.Indexed
import Verif.Props.TrueCPoisson

/-!
# Indexed sources with memory
-/

set_option linter.unusedSectionVars false
set_option linter.unusedSimpArgs false

namespace Sdepy

open Spec

namespace Spec
variable {T Y Z σ : Type} [Field T] [LinearOrder T] [AddCommGroup Y] {shape : List ℕ}

/-- What the user sees of a source `s`, possibly through indexed sources `s[ix]`: evaluations of `s`,
evaluations `s[ix](t)` and `s[ix](t, dt)` at single times. -/
inductive IxEvent (T Y : Type) (shape : List ℕ) where
  | whole (e : SrcEvent T (Pos shape → Y))
  | part (ix : List Ix) (t : T) (a : Arr Y)
  | partIncr (ix : List Ix) (t dt : T) (a : Arr Y)

/-- A bound of a slice, as explained in the Python reference: if negative, it is relative to the end of
the axis, of size `d`; it is then confined between `lo` and `hi`; `dflt` stands for it if omitted. -/
def sliceEnd (d : ℕ) (lo hi dflt : ℤ) : Option ℤ → ℤ
  | none => dflt
  | some i => max lo (min hi (if i < 0 then d + i else i))

/-- Meaning of a slice `start:stop:step` along an axis of size `d`: the `q`-th item selected is the item
`p`, if `p = start + q * step` does not reach `stop`. -/
def SlicePicks (d : ℕ) (start stop : Option ℤ) (step : ℤ) (q p : ℕ) : Prop :=
  (0 < step ∧ (p : ℤ) = sliceEnd d 0 d 0 start + q * step ∧ (p : ℤ) < sliceEnd d 0 d d stop) ∨
  (step < 0 ∧ (p : ℤ) = sliceEnd d (-1) (d - 1) (d - 1) start + q * step ∧
    sliceEnd d (-1) (d - 1) (-1) stop < p)

/-- NumPy's meaning of an index, on an array of given shape: the item `j` of the result is the item `k`
of the array. -/
inductive Picks : List Ix → List ℕ → List ℕ → List ℕ → Prop
  | nil {s j} : Picks [] s j j
  | int {i : ℤ} {is} {d p : ℕ} {s j k} : p < d → ((p : ℤ) = i ∨ (p : ℤ) = i + d) → Picks is s j k →
      Picks (.int i :: is) (d :: s) j (p :: k)
  | slice {a b c is} {d q p : ℕ} {s j k} : SlicePicks d a b c q p → Picks is s j k →
      Picks (.slice a b c :: is) (d :: s) (q :: j) (p :: k)

/-- The array `a` consists exactly of the items of `v` that the index `ix` selects, the last axis being
left alone. -/
def IsPart (ix : List Ix) (v : Pos shape → Y) (a : Arr Y) : Prop :=
  ix.length < shape.length ∧
  (∀ j, InRange a.shape j ↔ ∃ k, InRange shape k ∧ Picks ix shape j k) ∧
  ∀ j (k : Pos shape), Picks ix shape j k.1 → a.get j = v k

/-- The value of the event is the one of the path `W`, indexed. -/
def IxEvent.On (W : T → Pos shape → Y) : IxEvent T Y shape → Prop
  | .whole e => SrcEvent.On W e
  | .part ix t a => IsPart ix (W t) a
  | .partIncr ix t dt a => IsPart ix (W (t + dt) - W t) a

/-- Histories of a source and of indexed sources taken from it. -/
inductive IxHistory (S : TrueSrc T Z (Pos shape → Y) σ) (D : T → Prop) (t0 : T) (m0 : Mem T Z σ) :
    List (IxEvent T Y shape) → Mem T Z σ → Prop
  | start : IxHistory S D t0 m0 [] m0
  | whole {l m t v m'} : IxHistory S D t0 m0 l m → (∀ u ∈ t, D u) → S.call t none m = .ok (v, m') →
      IxHistory S D t0 m0 (l ++ [.whole (.value t v)]) m'
  | wholeIncr {l m t dt v m'} : IxHistory S D t0 m0 l m → (∀ u ∈ t, D u) →
      (∀ u ∈ List.zipWith (· + ·) t dt, D u) → t.length = dt.length →
      S.call t (some dt) m = .ok (v, m') → IxHistory S D t0 m0 (l ++ [.whole (.incr t dt v)]) m'
  | new {l m ix s m'} : IxHistory S D t0 m0 l m → S.indexedNew t0 ix m = .ok (s, m') →
      IxHistory S D t0 m0 l m'
  | part {l m ix t a m'} : IxHistory S D t0 m0 l m → D t →
      S.indexedCall ix (.scalar t) none m = .ok (a, m') →
      IxHistory S D t0 m0 (l ++ [.part ix t a]) m'
  | partIncr {l m ix t dt a m'} : IxHistory S D t0 m0 l m → D t → D (t + dt) →
      S.indexedCall ix (.scalar t) (some (.scalar dt)) m = .ok (a, m') →
      IxHistory S D t0 m0 (l ++ [.partIncr ix t dt a]) m'
  | partly {l m t v m'} : IxHistory S D t0 m0 l m → (∀ u ∈ t, D u) → S.getList t m = .ok (v, m') →
      IxHistory S D t0 m0 l m'
  | other {l m} (s : σ) : IxHistory S D t0 m0 l m → IxHistory S D t0 m0 l { m with s := s }

end Spec

variable {T Y Z σ : Type} [Field T] [LinearOrder T] [IsStrictOrderedRing T] [AddCommGroup Y]
  {shape : List ℕ}

theorem callArr_scalar {S : TrueSrc T Z (Pos shape → Y) σ} {t : T} {m m' : Mem T Z σ} {a : Arr Y}
    (h : S.callArr (.scalar t) none m = .ok (a, m')) :
    ∃ v, S.call [t] none m = .ok ([v], m') ∧ a = ofPos 0 v := by
  simp only [TrueSrc.callArr, Arr.scalar, ndindex, List.map_cons, List.map_nil] at h
  split at h
  · cases h
  · next vs m1 hc =>
    simp only [Except.ok.injEq, Prod.mk.injEq] at h
    obtain ⟨rfl, rfl⟩ := h
    have hc' := hc
    simp only [TrueSrc.call, TrueSrc.getList] at hc
    split at hc
    · cases hc
    · next v m2 h2 =>
      simp only [Except.ok.injEq, Prod.mk.injEq] at hc
      rw [← hc.1] at hc'
      refine ⟨v, hc', ?_⟩
      rw [← hc.1]
      simp [assemble, List.lookup, ofPos]

theorem callArr_scalar_incr {S : TrueSrc T Z (Pos shape → Y) σ} {t dt : T} {m m' : Mem T Z σ}
    {a : Arr Y} (h : S.callArr (.scalar t) (some (.scalar dt)) m = .ok (a, m')) :
    ∃ v, S.call [t] (some [dt]) m = .ok ([v], m') ∧ a = ofPos 0 v := by
  simp only [TrueSrc.callArr, broadcast2_eq] at h
  have hsh : bcShape (Arr.scalar t).shape (Arr.scalar dt).shape = some [] := rfl
  rw [hsh] at h
  have e1 : (Arr.scalar t).bget [] = t := rfl
  have e2 : (Arr.scalar dt).bget [] = dt := rfl
  simp only [ndindex, List.map_cons, List.map_nil, e1, e2] at h
  split at h
  · cases h
  · next vs m1 hc =>
    simp only [Except.ok.injEq, Prod.mk.injEq] at h
    obtain ⟨rfl, rfl⟩ := h
    have hc' := hc
    simp only [TrueSrc.call, TrueSrc.getList, List.zipWith_cons_cons, List.zipWith_nil_left] at hc
    split at hc
    · cases hc
    · next vs1 m2 h2 =>
      split at h2
      · cases h2
      · next v1 m3 h3 =>
        simp only [Except.ok.injEq, Prod.mk.injEq] at h2
        split at hc
        · cases hc
        · next vs0 m4 h4 =>
          split at h4
          · cases h4
          · next v0 m5 h5 =>
            simp only [Except.ok.injEq, Prod.mk.injEq] at h4 hc
            rw [← hc.1, ← h2.1, ← h4.1] at hc'
            refine ⟨v1 - v0, by simpa using hc', ?_⟩
            rw [← hc.1, ← h2.1, ← h4.1]
            simp [assemble, List.lookup, ofPos]

theorem mem_slicePos {d : ℕ} {a b : Option ℤ} {c : ℤ} (hc : c ≠ 0) {p : ℕ}
    (h : p ∈ slicePos d a b c) : p < d := by
  unfold slicePos at h
  simp only [List.mem_map, List.mem_range] at h
  obtain ⟨k, hk, rfl⟩ := h
  have hk' : ∀ n : ℤ, k < n.toNat → (k : ℤ) + 1 ≤ n := fun n h => by omega
  by_cases h0 : 0 < c
  · simp only [if_pos h0] at hk ⊢
    generalize hi : sliceBound d 0 0 d a = i at hk ⊢
    generalize hj : sliceBound d d 0 d b = j at hk
    have hi0 : 0 ≤ i := by
      rw [← hi]; unfold sliceBound; split
      · exact le_refl _
      · split <;> omega
    have hjd : j ≤ d := by
      rw [← hj]; unfold sliceBound; split
      · exact le_refl _
      · split <;> omega
    have h1 := hk' _ hk
    rw [Int.le_ediv_iff_mul_le h0] at h1
    have h2 : 0 ≤ (k : ℤ) * c := mul_nonneg (Int.natCast_nonneg _) h0.le
    have h3 : i + k * c < d := by linarith
    omega
  · have h0' : c < 0 := by omega
    simp only [if_neg h0] at hk ⊢
    generalize hi : sliceBound d (d - 1) (-1) (d - 1) a = i at hk ⊢
    generalize hj : sliceBound d (-1) (-1) (d - 1) b = j at hk
    have hi0 : i ≤ d - 1 := by
      rw [← hi]; unfold sliceBound; split
      · exact le_refl _
      · split <;> omega
    have hjd : -1 ≤ j := by
      rw [← hj]; unfold sliceBound; split
      · exact le_refl _
      · split <;> omega
    have h1 := hk' _ hk
    rw [Int.le_ediv_iff_mul_le (by omega)] at h1
    have h2 : 0 ≤ (k : ℤ) * (-c) := mul_nonneg (Int.natCast_nonneg _) (by omega)
    have h3 : 0 ≤ i + k * c := by linarith
    have h4 : i + k * c < d := by linarith
    omega

theorem sliceBound_eq (d : ℕ) (dflt : ℤ) (b : Option ℤ) :
    sliceBound d dflt 0 d b = sliceEnd d 0 d dflt b ∧
    sliceBound d dflt (-1) (d - 1) b = sliceEnd d (-1) (d - 1) dflt b := by
  cases b with
  | none => exact ⟨rfl, rfl⟩
  | some i =>
    simp only [sliceBound, sliceEnd]
    constructor <;> split <;> omega

theorem slicePos_picks {d : ℕ} {a b : Option ℤ} {c : ℤ} (hc : c ≠ 0) {q p : ℕ} :
    (slicePos d a b c)[q]? = some p ↔ SlicePicks d a b c q p := by
  have hlow : ∀ (lo hi dflt : ℤ) (o : Option ℤ), lo ≤ dflt → lo ≤ sliceEnd d lo hi dflt o := by
    intro lo hi dflt o h
    cases o with
    | none => exact h
    | some i => exact le_max_left _ _
  unfold slicePos SlicePicks
  simp only [List.getElem?_map, Option.map_eq_some_iff, List.getElem?_eq_some_iff, List.length_range,
    List.getElem_range]
  by_cases h0 : 0 < c
  · simp only [if_pos h0]
    simp only [(sliceBound_eq d _ _).1]
    simp only [h0, true_and, h0.not_gt, false_and, or_false]
    have hi := hlow 0 d 0 a le_rfl
    generalize sliceEnd d 0 d 0 a = i at *
    generalize sliceEnd d 0 d d b = j
    have hq : q < ((j - i + c - 1) / c).toNat ↔ i + q * c < j := by
      rw [Int.lt_toNat, ← Int.add_one_le_iff, Int.le_ediv_iff_mul_le h0]
      constructor <;> intro h <;> linarith
    have h2 : 0 ≤ (q : ℤ) * c := mul_nonneg (Int.natCast_nonneg _) h0.le
    constructor
    · rintro ⟨k, ⟨h, rfl⟩, rfl⟩
      have := hq.1 h
      omega
    · rintro ⟨h, h'⟩
      exact ⟨q, ⟨hq.2 (by omega), rfl⟩, by omega⟩
  · have h0' : c < 0 := by omega
    simp only [if_neg h0]
    simp only [(sliceBound_eq d _ _).2]
    simp only [h0, h0', false_and, true_and, false_or]
    have hj := hlow (-1) (d - 1) (-1) b le_rfl
    generalize sliceEnd d (-1) (d - 1) (d - 1) a = i at *
    generalize sliceEnd d (-1) (d - 1) (-1) b = j at *
    have hq : q < ((i - j - c - 1) / (-c)).toNat ↔ j < i + q * c := by
      rw [Int.lt_toNat, ← Int.add_one_le_iff, Int.le_ediv_iff_mul_le (by omega)]
      constructor <;> intro h <;> linarith
    constructor
    · rintro ⟨k, ⟨h, rfl⟩, rfl⟩
      have := hq.1 h
      omega
    · rintro ⟨h, h'⟩
      exact ⟨q, ⟨hq.2 (by omega), rfl⟩, by omega⟩

theorem ixApply_picks : ∀ {ix : List Ix} {s s' : List ℕ} {g : List ℕ → List ℕ},
    ixApply ix s = .ok (s', g) →
    (∀ j, InRange s' j → InRange s (g j) ∧ Picks ix s j (g j)) ∧
    ∀ j k, InRange s k → Picks ix s j k → InRange s' j ∧ k = g j
  | [], s, s', g, h => by
    simp only [ixApply, Except.ok.injEq, Prod.mk.injEq] at h
    obtain ⟨rfl, rfl⟩ := h
    refine ⟨fun j hj => ⟨hj, .nil⟩, fun j k hk hp => ?_⟩
    cases hp
    exact ⟨hk, rfl⟩
  | _ :: _, [], s', g, h => by simp [ixApply] at h
  | .int i :: is, d :: s, s', g, h => by
    simp only [ixApply] at h
    split at h
    · next hb =>
      split at h
      · cases h
      · next s1 g1 h1 =>
        simp only [Except.ok.injEq, Prod.mk.injEq] at h
        obtain ⟨rfl, rfl⟩ := h
        obtain ⟨i1, i2⟩ := ixApply_picks h1
        constructor
        · intro j hj
          obtain ⟨a1, a2⟩ := i1 j hj
          have hp : (if 0 ≤ i then i.toNat else (i + d).toNat) < d := by split <;> omega
          refine ⟨.cons hp a1, .int hp ?_ a2⟩
          split <;> omega
        · intro j k hk hp
          cases hp with
          | int h2 h3 h4 =>
            obtain ⟨b1, b2⟩ := i2 _ _ (List.forall₂_cons.1 hk).2 h4
            refine ⟨b1, ?_⟩
            rw [b2]
            congr 1
            split <;> omega
    · cases h
  | .slice a b c :: is, d :: s, s', g, h => by
    simp only [ixApply] at h
    split at h
    · cases h
    · next hc =>
      split at h
      · cases h
      · next s1 g1 h1 =>
        simp only [Except.ok.injEq, Prod.mk.injEq] at h
        obtain ⟨rfl, rfl⟩ := h
        obtain ⟨i1, i2⟩ := ixApply_picks h1
        constructor
        · intro j hj
          match j, hj with
          | q :: j, .cons hq hj =>
            obtain ⟨a1, a2⟩ := i1 j hj
            simp only [List.headD_cons, List.tail_cons, List.getD_eq_getElem?_getD,
              List.getElem?_eq_getElem hq, Option.getD_some]
            exact ⟨.cons (mem_slicePos hc (List.getElem_mem hq)) a1,
              .slice ((slicePos_picks hc).1 (List.getElem?_eq_getElem hq)) a2⟩
        · intro j k hk hp
          cases hp with
          | slice h2 h4 =>
            rw [← slicePos_picks hc] at h2
            obtain ⟨b1, b2⟩ := i2 _ _ (List.forall₂_cons.1 hk).2 h4
            refine ⟨.cons (List.getElem?_eq_some_iff.1 h2).1 b1, ?_⟩
            simp [List.getD_eq_getElem?_getD, h2, b2]

theorem index_part {v : Pos shape → Y} {ix : List Ix} {b : Arr Y}
    (h : (ofPos 0 v).index ix = .ok b) : IsPart ix v b := by
  unfold Arr.index at h
  split at h
  · cases h
  · next hl =>
    have hs : (ofPos 0 v).shape = shape := rfl
    rw [hs] at h hl
    split at h
    · cases h
    · next s g hg =>
      simp only [Except.ok.injEq] at h
      subst h
      obtain ⟨h1, h2⟩ := ixApply_picks hg
      refine ⟨by omega, ?_, ?_⟩
      · intro j
        exact ⟨fun hj => ⟨g j, h1 j hj⟩, fun ⟨k, hk, hp⟩ => (h2 j k hk hp).1⟩
      · intro j k hp
        obtain ⟨-, e⟩ := h2 j k.1 k.2 hp
        simp only [← e]
        exact ofPos_get v k

theorem index_shape {v v' : Pos shape → Y} {ix : List Ix} {b b' : Arr Y}
    (h : (ofPos 0 v).index ix = .ok b) (h' : (ofPos 0 v').index ix = .ok b') : b.shape = b'.shape := by
  unfold Arr.index at h h'
  have hs : (ofPos 0 v).shape = shape := rfl
  have hs' : (ofPos 0 v').shape = shape := rfl
  rw [hs] at h
  rw [hs'] at h'
  split at h
  · cases h
  · next hl =>
    rw [if_neg hl] at h'
    cases hg : ixApply ix shape with
    | error e => rw [hg] at h; cases h
    | ok sg =>
      obtain ⟨s, g⟩ := sg
      rw [hg] at h h'
      simp only [Except.ok.injEq] at h h'
      rw [← h, ← h']

theorem known_getList [Sub V] {S : TrueSrc T Z V σ} {flat : V → V → Prop} {m : Mem T Z σ}
    (hk : WellKept m) {t : T} {v : V} (hK : Knows S flat m t v)
    (hq : ∀ z1 z2 t1 t2 s st, flat (S.getvalue z1) (S.getvalue z2) →
      S.inside z1 z2 t1 t2 s st = .ok ((z1, none), st)) : S.call [t] none m = .ok ([v], m) := by
  simp only [TrueSrc.call, TrueSrc.getList, get1_known hk hK hq]

/-- Events of indexed sources, as events of the source they are taken from. -/
theorem ix_history {S : TrueSrc T Z (Pos shape → Y) σ} {D : T → Prop} {t0 : T} (ht0 : D t0)
    {m0 m : Mem T Z σ} {l : List (IxEvent T Y shape)} (h : IxHistory S D t0 m0 l m) :
    ∃ l', SrcHistory S D m0 l' m ∧
      ∀ W : T → Pos shape → Y, (∀ e ∈ l', e.On W) → ∀ e ∈ l, IxEvent.On W e := by
  induction h with
  | start => exact ⟨[], .start, by simp⟩
  | whole _ hD hc ih =>
    obtain ⟨l', h1, h2⟩ := ih
    refine ⟨_, .value h1 hD hc, fun W hW e he => ?_⟩
    rcases List.mem_append.1 he with he | he
    · exact h2 W (fun e he => hW e (List.mem_append_left _ he)) e he
    · simp only [List.mem_singleton] at he
      subst he
      exact hW _ (List.mem_append_right _ (List.mem_singleton.2 rfl))
  | wholeIncr _ hD hD' hl hc ih =>
    obtain ⟨l', h1, h2⟩ := ih
    refine ⟨_, .incr h1 hD hD' hl hc, fun W hW e he => ?_⟩
    rcases List.mem_append.1 he with he | he
    · exact h2 W (fun e he => hW e (List.mem_append_left _ he)) e he
    · simp only [List.mem_singleton] at he
      subst he
      exact hW _ (List.mem_append_right _ (List.mem_singleton.2 rfl))
  | new _ hc ih =>
    obtain ⟨l', h1, h2⟩ := ih
    unfold TrueSrc.indexedNew at hc
    split at hc
    · cases hc
    · next a m1 ha =>
      split at hc
      · cases hc
      · split at hc
        · cases hc
        · simp only [Except.ok.injEq, Prod.mk.injEq] at hc
          obtain ⟨v, hv, -⟩ := callArr_scalar ha
          rw [← hc.2]
          exact ⟨l', .partly h1 (by simpa using ht0) hv, h2⟩
  | part _ hD hc ih =>
    obtain ⟨l', h1, h2⟩ := ih
    unfold TrueSrc.indexedCall at hc
    split at hc
    · cases hc
    · next a m1 ha =>
      split at hc
      · cases hc
      · next b hb =>
        simp only [Except.ok.injEq, Prod.mk.injEq] at hc
        obtain ⟨rfl, rfl⟩ := hc
        obtain ⟨v, hv, rfl⟩ := callArr_scalar ha
        refine ⟨_, .value h1 (by simpa using hD) hv, fun W hW e he => ?_⟩
        rcases List.mem_append.1 he with he | he
        · exact h2 W (fun e he => hW e (List.mem_append_left _ he)) e he
        · simp only [List.mem_singleton] at he
          subst he
          have := hW _ (List.mem_append_right _ (List.mem_singleton.2 rfl))
          simp only [SrcEvent.On, List.map_cons, List.map_nil, List.cons.injEq, and_true] at this
          simp only [IxEvent.On]
          rw [← this]
          exact index_part hb
  | @partIncr _ _ _ t dt _ _ _ hD hD' hc ih =>
    obtain ⟨l', h1, h2⟩ := ih
    unfold TrueSrc.indexedCall at hc
    split at hc
    · cases hc
    · next a m1 ha =>
      split at hc
      · cases hc
      · next b hb =>
        simp only [Except.ok.injEq, Prod.mk.injEq] at hc
        obtain ⟨rfl, rfl⟩ := hc
        obtain ⟨v, hv, rfl⟩ := callArr_scalar_incr ha
        refine ⟨_, .incr (t := [t]) (dt := [dt]) h1 (by simpa using hD) (by simpa using hD') rfl hv, fun W hW e he => ?_⟩
        rcases List.mem_append.1 he with he | he
        · exact h2 W (fun e he => hW e (List.mem_append_left _ he)) e he
        · simp only [List.mem_singleton] at he
          subst he
          have := hW _ (List.mem_append_right _ (List.mem_singleton.2 rfl))
          simp only [SrcEvent.On, List.zipWith_cons_cons, List.zipWith_nil_left, List.cons.injEq,
            and_true] at this
          simp only [IxEvent.On]
          rw [← this]
          exact index_part hb
  | partly _ hD hc ih =>
    obtain ⟨l', h1, h2⟩ := ih
    exact ⟨l', .partly h1 hD hc, h2⟩
  | other s _ ih =>
    obtain ⟨l', h1, h2⟩ := ih
    exact ⟨l', .other s h1, h2⟩

/-- **C31**, at single times (see `C31_false` for arrays of times). In any history mixing evaluations of
a source `s` and of sources `s[ix]`, in any order, all the values returned are those of a single path
`W`: `s(t)` is `W t`, and `s[ix](t)` is `W t` indexed by `ix`. -/
theorem C31_one_path_partial {S : TrueSrc T Z (Pos shape → Y) σ}
    {flat : (Pos shape → Y) → (Pos shape → Y) → Prop} (hL : Lawful S flat)
    (hr : 0 ≤ S.rtol) (hr1 : S.rtol < 1) {t0 : T} {z0 : Z} {s0 : σ} {D : T → Prop}
    (hD : ∀ s, D s → Clear S.rtol t0 s) (ht0 : D t0) {m : Mem T Z σ} {l : List (IxEvent T Y shape)}
    (h : IxHistory S D t0 (Mem.new t0 z0 s0) l m) :
    ∃ W : T → Pos shape → Y, W t0 = S.getvalue z0 ∧ ∀ e ∈ l, IxEvent.On W e := by
  obtain ⟨l', h1, h2⟩ := ix_history ht0 h
  obtain ⟨W, hW0, hW⟩ := C25_one_path_partial hL hr hr1 hD h1
  exact ⟨W, hW0, h2 W hW⟩

/-- **C31**: making an indexed source changes neither the memory nor the state of the generator; its
`vshape` is the one of the values it will return, but for paths. -/
theorem C31_new {S : TrueSrc T Z (Pos shape → Y) σ}
    {flat : (Pos shape → Y) → (Pos shape → Y) → Prop} (hL : Lawful S flat)
    (hq : ∀ z1 z2 t1 t2 s st, flat (S.getvalue z1) (S.getvalue z2) →
      S.inside z1 z2 t1 t2 s st = .ok ((z1, none), st))
    (hr : 0 ≤ S.rtol) (hr1 : S.rtol < 1) {t0 : T} {z0 : Z} {s0 : σ} {D : T → Prop}
    (hD : ∀ s, D s → Clear S.rtol t0 s) (ht0 : D t0) {m m' : Mem T Z σ}
    {l : List (IxEvent T Y shape)} (h : IxHistory S D t0 (Mem.new t0 z0 s0) l m) {ix : List Ix}
    {vs : List ℕ} (he : S.indexedNew t0 ix m = .ok (vs, m')) :
    m' = m ∧ ∀ {t : T} {a : Arr Y} {m1 m2 : Mem T Z σ},
      S.indexedCall ix (.scalar t) none m1 = .ok (a, m2) → vs = a.shape.dropLast := by
  obtain ⟨l', h1, -⟩ := ix_history ht0 h
  obtain ⟨k1, -, k3⟩ := history_known hL hr hr1 hD h1 (memOk_new t0 z0 s0)
  have hK := k3 _ _ (knows_new flat hr t0 z0 s0)
  unfold TrueSrc.indexedNew at he
  split at he
  · cases he
  · next a m1 ha =>
    split at he
    · cases he
    · next b hb =>
      split at he
      · cases he
      · simp only [Except.ok.injEq, Prod.mk.injEq] at he
        obtain ⟨rfl, rfl⟩ := he
        obtain ⟨v, hv, rfl⟩ := callArr_scalar ha
        rw [known_getList k1.1 hK hq] at hv
        simp only [Except.ok.injEq, Prod.mk.injEq] at hv
        refine ⟨hv.2.symm, ?_⟩
        intro t a m1 m2 hc
        unfold TrueSrc.indexedCall at hc
        split at hc
        · cases hc
        · next a' m3 ha' =>
          split at hc
          · cases hc
          · next b' hb' =>
            simp only [Except.ok.injEq, Prod.mk.injEq] at hc
            obtain ⟨v', -, rfl⟩ := callArr_scalar ha'
            rw [← hc.1]
            exact congrArg _ (index_shape hb hb')

section examples

/-- A jump of component `0`, three of component `1`, for any time interval. -/
def exDn3 (t dt : ℚ) (s : ℕ) : Py ((Pos [2, 1] → ℤ) × ℕ) :=
  .ok (fun c => (1 + 2 * c.1.headD 0) * sgn dt, s + 1)

def exBin3 (n : Pos [2, 1] → ℤ) (p : ℚ) (s : ℕ) : (Pos [2, 1] → ℤ) × ℕ :=
  (fun i => min 1 (n i), s + 1)

theorem exRng3 : PoissonRng exDn3 exBin3 where
  fwd h hdt i := by
    simp only [exDn3, Except.ok.injEq, Prod.mk.injEq] at h
    rw [← h.1]; simp [sgn, hdt]
    positivity
  bwd h hdt i := by
    simp only [exDn3, Except.ok.injEq, Prod.mk.injEq] at h
    rw [← h.1]; simp [sgn, hdt, hdt.not_gt]
    omega
  bin h _ _ i := by
    have := h i
    simp only [exBin3]
    omega

def exVec : TrueSrc ℚ (Pos [2, 1] → ℤ) (Pos [2, 1] → ℤ) ℕ := truePoisson 0 exDn3 exBin3

def exVec0 : Mem ℚ (Pos [2, 1] → ℤ) ℕ := Mem.new 0 (fun _ => 0) 0

def showArr (r : Py (Arr ℤ × Mem ℚ (Pos [2, 1] → ℤ) ℕ)) : Option (List ℕ × List ℤ) :=
  r.toOption.map fun r => (r.1.shape, (ndindex r.1.shape).map r.1.get)

/-- `s[1](1)`, `s[-1:](1)`, `s[::-1](1)`. -/
example : showArr (exVec.indexedCall [.int 1] (.scalar 1) none exVec0) = some ([1], [3]) ∧
    showArr (exVec.indexedCall [.slice (some (-1)) none 1] (.scalar 1) none exVec0) =
      some ([1, 1], [3]) ∧
    showArr (exVec.indexedCall [.slice none none (-1)] (.scalar 1) none exVec0) =
      some ([2, 1], [3, 1]) := by decide +kernel

/-- The theorem applies to this source. -/
example {m : Mem ℚ (Pos [2, 1] → ℤ) ℕ} {l : List (IxEvent ℚ ℤ [2, 1])}
    (h : IxHistory exVec (fun _ => True) 0 exVec0 l m) :=
  C31_one_path_partial (lawful_poisson 0 exDn3 exBin3) le_rfl one_pos (fun s _ => clear_zero 0 s) trivial h

/-- The times `[1, 2]`. -/
def ex12 : Arr ℚ := ⟨[2], fun c => c.headD 0 + 1⟩

/-- **C31** does not hold at arrays of times: the index picks a time, not a component of the source.
With `vshape = (2,)` and `t = [1, 2]`, `s[0](t)` has the expected shape `t.shape + (1,)`, but it
consists of the two components of `s(1)`; the first components of `s(1)`, `s(2)` are other
values. -/
theorem C31_false :
    ∃ (a b : Arr ℤ) (m m' : Mem ℚ (Pos [2, 1] → ℤ) ℕ),
      exVec.callArr ex12 none exVec0 = .ok (a, m) ∧ a.shape = [2, 2, 1] ∧
      exVec.indexedCall [.int 0] ex12 none m = .ok (b, m') ∧ b.shape = [2, 1] ∧
      (a.get [0, 0, 0], a.get [1, 0, 0]) = (1, 2) ∧ (b.get [0, 0], b.get [1, 0]) = (1, 3) := by
  have h : ((exVec.callArr ex12 none exVec0).toOption.bind fun r =>
      (exVec.indexedCall [.int 0] ex12 none r.2).toOption.map fun q =>
      (r.1.shape, q.1.shape, [r.1.get [0, 0, 0], r.1.get [1, 0, 0], q.1.get [0, 0], q.1.get [1, 0]])) =
      some ([2, 2, 1], [2, 1], [1, 2, 1, 3]) := by decide +kernel
  cases h1 : exVec.callArr ex12 none exVec0 with
  | error e => rw [h1] at h; simp [Except.toOption] at h
  | ok r =>
    cases h2 : exVec.indexedCall [.int 0] ex12 none r.2 with
    | error e => rw [h1] at h; simp [Except.toOption, h2] at h
    | ok q =>
      rw [h1] at h
      simp only [Except.toOption, h2, Option.bind_some, Option.map_some, Option.some.injEq,
        Prod.mk.injEq, List.cons.injEq, and_true] at h
      obtain ⟨h3, h4, h5, h6, h7, h8⟩ := h
      refine ⟨r.1, q.1, r.2, q.2, rfl, h3, h2, h4, ?_, ?_⟩ <;> simp [h5, h6, h7, h8]

end examples

end Sdepy
