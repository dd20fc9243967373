import Verif.Model.McIndex
import Verif.Props.MonteCarlo

/-!
# Indexing of `montecarlo` instances
-/

set_option linter.unusedSectionVars false
set_option linter.unusedSimpArgs false

namespace Sdepy

open Spec

section
variable {K : Type} [Field K] [LinearOrder K] [IsStrictOrderedRing K]
  {auto : String → Option (K × K) → List K → Py (List K)}

/-- The non negative integers `k` select the same items as the integers `i`, along the first axes of an
array of the given shape. -/
def Spec.IndexOf (vs : List ℕ) (i : List ℤ) (k : List ℕ) : Prop :=
  k.length ≤ vs.length ∧ InRange (vs.take k.length) k ∧ i.length = k.length ∧
    ∀ (j : ℕ) (a : ℤ) (n : ℕ), i[j]? = some a → vs[j]? = some n →
      ∃ m : ℕ, k[j]? = some m ∧ (m : ℤ) = if 0 ≤ a then a else a + n

theorem normInt_iff {n k : ℕ} {i : ℤ} :
    normInt n i = .ok k ↔ k < n ∧ ((k : ℤ) = i ∨ (k : ℤ) = i + n) := by
  unfold normInt
  split
  · simp only [Except.ok.injEq]; omega
  · split
    · simp only [Except.ok.injEq]; omega
    · simp only [reduceCtorEq, false_iff]; omega

theorem normIdx_ok {vs : List ℕ} {i : List ℤ} {k : List ℕ} (h : normIdx vs i = .ok k) :
    IndexOf vs i k := by
  induction i generalizing vs k with
  | nil =>
    have : k = [] := by cases vs <;> simpa [normIdx] using h.symm
    subst this
    refine ⟨by simp, by simp [InRange], rfl, by simp⟩
  | cons a i ih =>
    cases vs with
    | nil => simp [normIdx] at h
    | cons n vs =>
      unfold normIdx at h
      split at h
      · cases h
      · next k0 h0 =>
        split at h
        · cases h
        · next ks hs =>
          simp only [Except.ok.injEq] at h
          subst h
          obtain ⟨h1, h2, h3, h4⟩ := ih hs
          obtain ⟨g1, g2⟩ := normInt_iff.1 h0
          refine ⟨by simpa using h1, ?_, by simpa using h3, ?_⟩
          · simp only [List.length_cons, List.take_succ_cons, InRange]
            exact .cons g1 h2
          · intro j b m hb hm
            cases j with
            | zero =>
              simp only [List.getElem?_cons_zero, Option.some.injEq] at hb hm ⊢
              subst hb hm
              exact ⟨k0, rfl, by split <;> omega⟩
            | succ j =>
              simp only [List.getElem?_cons_succ] at hb hm ⊢
              exact h4 j b m hb hm

theorem normIdx_error {vs : List ℕ} {i : List ℤ} {e : PyErr} (h : normIdx vs i = .error e) :
    e = .indexError ∧ ¬ ∃ k, IndexOf vs i k := by
  induction i generalizing vs with
  | nil => cases vs <;> simp [normIdx] at h
  | cons a i ih =>
    cases vs with
    | nil =>
      simp only [normIdx, Except.error.injEq] at h
      refine ⟨h.symm, ?_⟩
      rintro ⟨k, h1, -, h3, -⟩
      simp at h1 h3
      subst h1
      simp at h3
    | cons n vs =>
      unfold normIdx at h
      split at h
      · next e' h0 =>
        simp only [Except.error.injEq] at h
        subst h
        unfold normInt at h0
        split at h0
        · cases h0
        · split at h0
          · cases h0
          · next c1 c2 =>
            simp only [Except.error.injEq] at h0
            refine ⟨h0.symm, ?_⟩
            rintro ⟨k, h1, h2, h3, h4⟩
            cases k with
            | nil => simp at h3
            | cons k0 k =>
              obtain ⟨m, hm, hm'⟩ := h4 0 a n rfl rfl
              simp only [List.getElem?_cons_zero, Option.some.injEq] at hm
              simp only [List.length_cons, List.take_succ_cons, InRange, List.forall₂_cons] at h2
              have := h2.1
              split at hm' <;> omega
      · next k0 h0 =>
        split at h
        · next e' hs =>
          simp only [Except.error.injEq] at h
          subst h
          obtain ⟨g1, g2⟩ := ih hs
          refine ⟨g1, ?_⟩
          rintro ⟨k, h1, h2, h3, h4⟩
          cases k with
          | nil => simp at h3
          | cons k0 k =>
            refine g2 ⟨k, by simpa using h1, ?_, by simpa using h3, fun j b m hb hm => ?_⟩
            · simp only [List.length_cons, List.take_succ_cons, InRange, List.forall₂_cons] at h2
              exact h2.2
            · simpa using h4 (j + 1) b m (by simpa using hb) (by simpa using hm)
        · cases h

/-- **C40** (which indices). For an instance with bins that has received data, `a[i]` succeeds exactly if
`i` is a valid index for data points; otherwise `IndexError` is raised. -/
theorem C40_index (ha : AutoOk auto) {bins : Bins K} (hb : bins ≠ .none) {range : Option (K × K)}
    {use : String} {vs : List ℕ} {b0 : Batch K} {l : List (Batch K)} {mc : MC K}
    (h : McHistory auto bins range use (b0 :: l) mc) (hu : Uniform vs (b0 :: l))
    (hpos : mc.paths ≠ 0) (i : List ℤ) :
    (∃ k, IndexOf vs i k ∧ mc.getItem i = .ok ⟨k, mc⟩) ∨
    ((¬ ∃ k, IndexOf vs i k) ∧ mc.getItem i = .error .indexError) := by
  obtain ⟨-, -, ⟨st, hst, -, hm⟩, -, hh⟩ := mc_inv ha h hu
  obtain ⟨E, g, hg, -⟩ := hh hb
  cases hk : normIdx vs i with
  | ok k =>
    refine .inl ⟨k, normIdx_ok hk, ?_⟩
    simp only [MC.getItem, if_neg hpos, hst, hm.vshape, hk, hg]
  | error e =>
    obtain ⟨rfl, hn⟩ := normIdx_error hk
    refine .inr ⟨hn, ?_⟩
    simp only [MC.getItem, if_neg hpos, hst, hm.vshape, hk]

theorem getItem_ok {mc : MC K} {i : List ℤ} {v : McView K} {st : Moments K} (hst : mc.stats = some st)
    (hpos : mc.paths ≠ 0) (h : mc.getItem i = .ok v) :
    v.snap = mc ∧ IndexOf st.vshape i v.idx := by
  simp only [MC.getItem, if_neg hpos, hst] at h
  split at h
  · cases h
  · next k hk =>
    split at h
    · cases h
    · simp only [Except.ok.injEq] at h
      subst h
      exact ⟨rfl, normIdx_ok hk⟩

theorem Spec.IndexOf.inRange {vs : List ℕ} {i : List ℤ} {k c : List ℕ} (h : IndexOf vs i k)
    (hc : InRange (vs.drop k.length) c) : InRange vs (k ++ c) := by
  have := (inRange_append (s := vs.take k.length) (t := vs.drop k.length) (i := k) (j := c)
    (by simp [List.length_take, h.1])).2 ⟨h.2.1, hc⟩
  rwa [List.take_append_drop] at this

/-- **C40** (statistics). Statistics of what is found by applying an index to all attributes are those of
the components selected. -/
theorem comp_stats {vs : List ℕ} {n : ℕ} {P : List ℕ → List K} {mc : MC K} {st : Moments K}
    (hst : mc.stats = some st) (hm : MomOk vs n P st) (k : List ℕ) :
    (∀ a, mc.mean = some a → ∃ a', (mc.comp k).mean = some a' ∧ a'.shape = vs.drop k.length ∧
      ∀ c, a'.get c = a.get (k ++ c)) ∧
    (∀ a, mc.var = .ok a → ∃ a', (mc.comp k).var = .ok a' ∧ a'.shape = vs.drop k.length ∧
      ∀ c, a'.get c = a.get (k ++ c)) ∧
    (∀ a, mc.kurtosis = .ok a → ∃ a', (mc.comp k).kurtosis = .ok a' ∧ a'.shape = vs.drop k.length ∧
      ∀ c, a'.get c = a.get (k ++ c)) := by
  have hs := hm.vshape
  have hat : ∀ j c, (st.at' k).at j c = st.at j (k ++ c) := by
    intro j c
    simp only [Moments.at, Moments.at', List.getElem?_map]
    cases st.mom[j]? <;> rfl
  refine ⟨fun a ha => ?_, fun a ha => ?_, fun a ha => ?_⟩
  · simp only [MC.mean, hst, Option.map_some, Option.some.injEq] at ha
    subst ha
    exact ⟨_, by simp only [MC.mean, MC.comp, hst, Option.map_some]; rfl, by simp [Moments.at', hs],
      fun c => rfl⟩
  · simp only [MC.var, hst, Except.ok.injEq] at ha
    subst ha
    refine ⟨_, by simp only [MC.var, MC.comp, hst, Option.map_some]; rfl, by simp [Moments.at', hs],
      fun c => ?_⟩
    simp only [hat]
    rfl
  · simp only [MC.kurtosis, hst, Except.ok.injEq] at ha
    subst ha
    refine ⟨_, by simp only [MC.kurtosis, MC.comp, hst, Option.map_some]; rfl,
      by simp [Moments.at', hs], fun c => ?_⟩
    simp only [hat]
    rfl

/-- A component index is complete. -/
theorem full_iff {v : McView K} {st : Moments K} (hst : v.snap.stats = some st) :
    v.full = true ↔ st.vshape.length = v.idx.length := by
  simp [McView.full, hst]

theorem resolve_self {v : McView K} {mc : MC K} (hs : v.snap = mc) (hpos : mc.paths ≠ 0) :
    v.resolve mc = mc.comp v.idx := by
  unfold McView.resolve
  rw [hs, if_neg hpos]
  split <;> rfl

theorem resolve_view {v : McView K} {cur : MC K} (hpos : v.snap.paths ≠ 0) (hf : v.full = false) :
    (v.resolve cur).paths = cur.paths ∧ (v.resolve cur).stats = (cur.comp v.idx).stats := by
  unfold McView.resolve
  rw [if_neg hpos, hf]
  exact ⟨rfl, rfl⟩

theorem history_pos {bins : Bins K} {range : Option (K × K)} {use : String} {vs : List ℕ}
    {b0 : Batch K} {l : List (Batch K)} {mc : MC K} (ha : AutoOk auto)
    (h : McHistory auto bins range use (b0 :: l) mc) (hu : Uniform vs (b0 :: l))
    (hne : NonEmpty use (b0 :: l)) : mc.paths ≠ 0 := by
  have hp := (mc_inv ha h hu).paths
  have := hne.pos
  omega

/-- **C40** (values). The statistics of `a[i]` are those of the components selected by `i`, of all data
received by `a`. -/
theorem C40_values (ha : AutoOk auto) {bins : Bins K} {range : Option (K × K)}
    {use : String} {vs : List ℕ} {b0 : Batch K} {l : List (Batch K)} {mc : MC K}
    (h : McHistory auto bins range use (b0 :: l) mc) (hu : Uniform vs (b0 :: l))
    (hne : NonEmpty use (b0 :: l)) {i : List ℤ} {v : McView K} (hv : mc.getItem i = .ok v) :
    IndexOf vs i v.idx ∧ (v.resolve mc).paths = mc.paths ∧
    (∃ a, (v.resolve mc).mean = some a ∧ a.shape = vs.drop v.idx.length ∧
      ∀ c, InRange (vs.drop v.idx.length) c →
        a.get c = some (avg (pooled use (b0 :: l) (v.idx ++ c)))) ∧
    (∃ a, (v.resolve mc).var = .ok a ∧ a.shape = vs.drop v.idx.length ∧
      ∀ c, InRange (vs.drop v.idx.length) c →
        a.get c = some (cmom 2 (pooled use (b0 :: l) (v.idx ++ c)))) ∧
    (∃ a, (v.resolve mc).kurtosis = .ok a ∧ a.shape = vs.drop v.idx.length ∧
      ∀ c, InRange (vs.drop v.idx.length) c →
        let P := pooled use (b0 :: l) (v.idx ++ c)
        a.get c = if P.length < 2 then some (-3) else if cmom 2 P = 0 then none
          else some (cmom 4 P / cmom 2 P ^ 2)) := by
  have hpos := history_pos ha h hu hne
  obtain ⟨-, -, ⟨st, hst, -, hm⟩, -⟩ := mc_inv ha h hu
  obtain ⟨hs, hi⟩ := getItem_ok hst hpos hv
  rw [hm.vshape] at hi
  rw [resolve_self hs hpos]
  obtain ⟨m1, m2, m3⟩ := comp_stats hst hm v.idx
  obtain ⟨-, -, a1, e1, -, g1⟩ := C35_mean ha h hu hne
  obtain ⟨a2, e2, -, g2⟩ := C35_var ha h hu hne
  obtain ⟨a3, e3, -, g3⟩ := C35_kurtosis ha h hu hne
  obtain ⟨a1', f1, s1, q1⟩ := m1 a1 e1
  obtain ⟨a2', f2, s2, q2⟩ := m2 a2 e2
  obtain ⟨a3', f3, s3, q3⟩ := m3 a3 e3
  refine ⟨hi, rfl, ⟨a1', f1, s1, fun c hc => ?_⟩, ⟨a2', f2, s2, fun c hc => ?_⟩,
    ⟨a3', f3, s3, fun c hc => ?_⟩⟩
  · rw [q1, g1 _ (hi.inRange hc)]
  · rw [q2, g2 _ (hi.inRange hc)]
  · rw [q3, g3 _ (hi.inRange hc)]

/-- The edges prescribed for a component are unique. -/
theorem firstEdges_unique {bins : Bins K} {range : Option (K × K)} {x : List K} {c : List ℕ}
    {e e' : List K} (h : FirstEdges auto bins range x c e) (h' : FirstEdges auto bins range x c e') :
    e = e' := by
  cases bins with
  | none => exact h.elim
  | int n => exact EvenEdges.unique h h'
  | str s => simp only [FirstEdges] at h h'; rw [h] at h'; simpa using h'
  | array a => simp only [FirstEdges] at h h'; rw [h, h']
  | objs a => simp only [FirstEdges] at h h'; rw [h] at h'; simpa using h'

/-- **C40** (paths and histograms follow). If `k` selects a single component, the number of paths and the
histogram of `a[k]` are those of all data received by `a`, also if `a` is updated after indexing. -/
theorem C40_histogram (ha : AutoOk auto) {bins : Bins K} (hb : bins ≠ .none) {range : Option (K × K)}
    {use : String} {vs : List ℕ} {b0 : Batch K} {l l' : List (Batch K)} {mc cur : MC K}
    (h : McHistory auto bins range use (b0 :: l) mc) (hu : Uniform vs (b0 :: l))
    (hne : NonEmpty use (b0 :: l))
    (h' : McHistory auto bins range use (b0 :: (l ++ l')) cur) (hu' : Uniform vs (b0 :: (l ++ l')))
    {i : List ℤ} {v : McView K} (hv : mc.getItem i = .ok v) (hf : v.idx.length = vs.length) :
    (v.resolve cur).paths = cur.paths ∧
    ∃ e, FirstEdges auto bins range (b0.data use v.idx) v.idx e ∧
      v.histogram cur = .ok (hist e (pooled use (b0 :: (l ++ l')) v.idx), e) := by
  have hpos := history_pos ha h hu hne
  have hinv := mc_inv ha h hu
  obtain ⟨-, -, ⟨st, hst, -, hm⟩, -⟩ := mc_inv ha h hu
  obtain ⟨hs, hi⟩ := getItem_ok hst hpos hv
  rw [hm.vshape] at hi
  have hfull : v.full = true := (full_iff (st := st) (by rw [hs, hst])).2 (by rw [hm.vshape, hf])
  have hk : InRange vs v.idx := by
    have := hi.inRange (c := []) (by rw [hf, List.drop_length]; simp [InRange])
    simpa using this
  obtain ⟨E, g, e1, g1⟩ := C36_histogram ha hb h hu
  obtain ⟨E', g', e1', g1'⟩ := C36_histogram ha hb h' hu'
  obtain ⟨q1, q2, q3, -⟩ := g1 _ hk
  obtain ⟨q1', q2', q3', -⟩ := g1' _ hk
  have hcp : cur.paths ≠ 0 := by
    rw [(mc_inv ha h' hu').paths, List.map_cons, List.sum_cons]
    have := hne b0 (by simp)
    omega
  have hr : v.resolve cur = { v.snap.comp v.idx with
      paths := cur.paths
      counts := fun c => cur.counts (v.idx ++ c) } := by
    unfold McView.resolve
    rw [if_neg (by rw [hs]; exact hpos), hfull]
    rfl
  refine ⟨by rw [hr], E v.idx, q2, ?_⟩
  rw [McView.histogram, if_neg (by rw [hs]; exact hpos), hr, hs]
  have hn : ndindex [] = [[]] := by decide
  simp only [MC.histogram, MC.comp, e1, if_neg hcp, hf, List.drop_length, hn, List.append_nil, q1,
    Option.getD_some]
  rw [q3', firstEdges_unique q2' q2]

/-- **C40** (partial: views follow). If fewer integers are given than there are axes, the statistics of
`a[i]` are those of all data received by `a`, also if `a` is updated after indexing. Missing: the case of
a single component, see `C40_stale` and `C40_false`. -/
theorem C40_follows_partial (ha : AutoOk auto) {bins : Bins K} {range : Option (K × K)}
    {use : String} {vs : List ℕ} {b0 : Batch K} {l l' : List (Batch K)} {mc cur : MC K}
    (h : McHistory auto bins range use (b0 :: l) mc) (hu : Uniform vs (b0 :: l))
    (h' : McHistory auto bins range use (b0 :: (l ++ l')) cur) (hu' : Uniform vs (b0 :: (l ++ l')))
    (hne : NonEmpty use (b0 :: (l ++ l')))
    {i : List ℤ} {v : McView K} (hv : mc.getItem i = .ok v) (hf : v.idx.length < vs.length) :
    (v.resolve cur).paths = cur.paths ∧
    (∃ a, (v.resolve cur).mean = some a ∧ a.shape = vs.drop v.idx.length ∧
      ∀ c, InRange (vs.drop v.idx.length) c →
        a.get c = some (avg (pooled use (b0 :: (l ++ l')) (v.idx ++ c)))) ∧
    (∃ a, (v.resolve cur).var = .ok a ∧ a.shape = vs.drop v.idx.length ∧
      ∀ c, InRange (vs.drop v.idx.length) c →
        a.get c = some (cmom 2 (pooled use (b0 :: (l ++ l')) (v.idx ++ c)))) ∧
    (∃ a, (v.resolve cur).kurtosis = .ok a ∧ a.shape = vs.drop v.idx.length ∧
      ∀ c, InRange (vs.drop v.idx.length) c →
        let P := pooled use (b0 :: (l ++ l')) (v.idx ++ c)
        a.get c = if P.length < 2 then some (-3) else if cmom 2 P = 0 then none
          else some (cmom 4 P / cmom 2 P ^ 2)) := by
  have hne1 : NonEmpty use (b0 :: l) := fun b hb => hne b (by
    rcases List.mem_cons.1 hb with rfl | hb
    · simp
    · simp [hb])
  have hpos := history_pos ha h hu hne1
  obtain ⟨-, -, ⟨st, hst, -, hm⟩, -⟩ := mc_inv ha h hu
  obtain ⟨hs, hi⟩ := getItem_ok hst hpos hv
  rw [hm.vshape] at hi
  have hfull : v.full = false := by
    rw [← Bool.not_eq_true, full_iff (st := st) (by rw [hs, hst]), hm.vshape]
    omega
  obtain ⟨r1, r2⟩ := resolve_view (cur := cur) (by rw [hs]; exact hpos) hfull
  obtain ⟨-, -, ⟨st', hst', -, hm'⟩, -⟩ := mc_inv ha h' hu'
  obtain ⟨m1, m2, m3⟩ := comp_stats hst' hm' v.idx
  obtain ⟨-, -, a1, e1, -, g1⟩ := C35_mean ha h' hu' hne
  obtain ⟨a2, e2, -, g2⟩ := C35_var ha h' hu' hne
  obtain ⟨a3, e3, -, g3⟩ := C35_kurtosis ha h' hu' hne
  obtain ⟨a1', f1, s1, q1⟩ := m1 a1 e1
  obtain ⟨a2', f2, s2, q2⟩ := m2 a2 e2
  obtain ⟨a3', f3, s3, q3⟩ := m3 a3 e3
  refine ⟨r1, ⟨a1', ?_, s1, fun c hc => ?_⟩, ⟨a2', ?_, s2, fun c hc => ?_⟩,
    ⟨a3', ?_, s3, fun c hc => ?_⟩⟩
  · rw [← f1]; simp only [MC.mean, r2]
  · rw [q1, g1 _ (hi.inRange hc)]
  · rw [← f2]; simp only [MC.var, r2, r1]; rfl
  · rw [q2, g2 _ (hi.inRange hc)]
  · rw [← f3]; simp only [MC.kurtosis, r2, r1]; rfl
  · rw [q3, g3 _ (hi.inRange hc)]

/-- **C40** (what happens for a single component). The mean, the variance and the number of data outside
of bins are those of the data received by `a` before indexing, whatever updates follow; the variance is
however zero until there are at least two paths, counting those of later updates. -/
theorem C40_stale (ha : AutoOk auto) {bins : Bins K} {range : Option (K × K)}
    {use : String} {vs : List ℕ} {b0 : Batch K} {l : List (Batch K)} {mc : MC K} (cur : MC K)
    (h : McHistory auto bins range use (b0 :: l) mc) (hu : Uniform vs (b0 :: l))
    (hne : NonEmpty use (b0 :: l))
    {i : List ℤ} {v : McView K} (hv : mc.getItem i = .ok v) (hf : v.idx.length = vs.length) :
    (∃ a, (v.resolve cur).mean = some a ∧ a.shape = [] ∧
      a.get [] = some (avg (pooled use (b0 :: l) v.idx))) ∧
    (∃ a, (v.resolve cur).var = .ok a ∧ a.shape = [] ∧
      a.get [] = some (if cur.paths < 2 then 0 else cmom 2 (pooled use (b0 :: l) v.idx))) ∧
    (v.resolve cur).outside [] = mc.outside v.idx := by
  have hpos := history_pos ha h hu hne
  obtain ⟨-, -, ⟨st, hst, hn, hm⟩, -⟩ := mc_inv ha h hu
  replace hn : st.nan = false := hn.trans hne.nan
  obtain ⟨hs, hi⟩ := getItem_ok hst hpos hv
  rw [hm.vshape] at hi
  have hfull : v.full = true := (full_iff (st := st) (by rw [hs, hst])).2 (by rw [hm.vshape, hf])
  have hr : v.resolve cur = { v.snap.comp v.idx with
      paths := cur.paths
      counts := fun c => cur.counts (v.idx ++ c) } := by
    unfold McView.resolve
    rw [if_neg (by rw [hs]; exact hpos), hfull]
    rfl
  obtain ⟨-, -, ⟨a, e, s, q⟩, -⟩ := C40_values ha h hu hne hv
  rw [hf, List.drop_length] at s q
  refine ⟨⟨a, ?_, s, ?_⟩, ?_, ?_⟩
  · rw [← e, resolve_self hs hpos, hr, hs]; rfl
  · have := q [] (by simp [InRange])
    simpa using this
  · have hk : InRange vs v.idx := by
      have := hi.inRange (c := []) (by rw [hf, List.drop_length]; simp [InRange])
      simpa using this
    refine ⟨_, by rw [hr]; simp only [MC.var, MC.comp, hs, hst, Option.map_some]; rfl,
      by simp [Moments.at', hm.vshape, hf], ?_⟩
    simp only [Moments.at', hn, Bool.false_eq_true, if_false, Option.some.injEq]
    have hat : ∀ j, (st.at' v.idx).at j [] = st.at j v.idx := by
      intro j
      simp only [Moments.at, Moments.at', List.getElem?_map]
      cases st.mom[j]? <;> simp [Arr.at]
    have h2 := (hm.central (Nat.pos_of_ne_zero hpos) hk).1
    rw [← hat, ← hat] at h2
    rw [← h2]
    rfl
  · rw [hr, hs]; simp [MC.comp]

/-- **C40 fails** (without bins). An instance with `bins=None` that has received data cannot be
indexed. -/
theorem C40_no_bins_false (ha : AutoOk auto) {range : Option (K × K)}
    {use : String} {vs : List ℕ} {b0 : Batch K} {l : List (Batch K)} {mc : MC K}
    (h : McHistory auto .none range use (b0 :: l) mc) (hu : Uniform vs (b0 :: l))
    (hpos : mc.paths ≠ 0) (i : List ℤ) : ∃ e, mc.getItem i = .error e := by
  obtain ⟨-, -, ⟨st, hst, -, hm⟩, hb, -⟩ := mc_inv ha h hu
  simp only [MC.getItem, if_neg hpos, hst, hb rfl]
  split
  · exact ⟨_, rfl⟩
  · exact ⟨_, rfl⟩

end

section real
variable {auto : String → Option (ℝ × ℝ) → List ℝ → Py (List ℝ)}

/-- **C40** (values: standard deviation, skewness, standard error). -/
theorem C40_values_real (ha : AutoOk auto) {bins : Bins ℝ} {range : Option (ℝ × ℝ)}
    {use : String} {vs : List ℕ} {b0 : Batch ℝ} {l : List (Batch ℝ)} {mc : MC ℝ}
    (h : McHistory auto bins range use (b0 :: l) mc) (hu : Uniform vs (b0 :: l))
    (hne : NonEmpty use (b0 :: l)) {i : List ℤ} {v : McView ℝ} (hv : mc.getItem i = .ok v) :
    (∃ a, (v.resolve mc).std = .ok a ∧ a.shape = vs.drop v.idx.length ∧
      ∀ c, InRange (vs.drop v.idx.length) c →
        a.get c = some √(cmom 2 (pooled use (b0 :: l) (v.idx ++ c)))) ∧
    (∃ a, (v.resolve mc).skew = .ok a ∧ a.shape = vs.drop v.idx.length ∧
      ∀ c, InRange (vs.drop v.idx.length) c →
        let P := pooled use (b0 :: l) (v.idx ++ c)
        a.get c = if P.length < 2 then some 0 else if cmom 2 P = 0 then none
          else some (cmom 3 P / √(cmom 2 P) ^ 3)) ∧
    (2 ≤ mc.paths → ∃ a, (v.resolve mc).stderr = .ok a ∧ a.shape = vs.drop v.idx.length ∧
      ∀ c, InRange (vs.drop v.idx.length) c →
        a.get c = some (√(cmom 2 (pooled use (b0 :: l) (v.idx ++ c))) / √((mc.paths : ℝ) - 1))) := by
  have hpos := history_pos ha h hu hne
  obtain ⟨-, -, ⟨st, hst, -, hm⟩, -⟩ := mc_inv ha h hu
  obtain ⟨hs, hi⟩ := getItem_ok hst hpos hv
  rw [hm.vshape] at hi
  obtain ⟨-, -, -, ⟨a, e, s, q⟩, -⟩ := C40_values ha h hu hne hv
  refine ⟨⟨⟨a.shape, fun c => (a.get c).map Real.sqrt⟩, by simp only [MC.std, e], s,
    fun c hc => by simp [q c hc]⟩, ?_, fun h2 => ?_⟩
  · obtain ⟨a3, e3, -, g3⟩ := C35_skew ha h hu hne
    have hat : ∀ j c, (st.at' v.idx).at j c = st.at j (v.idx ++ c) := by
      intro j c
      simp only [Moments.at, Moments.at', List.getElem?_map]
      cases st.mom[j]? <;> rfl
    rw [resolve_self hs hpos]
    simp only [MC.skew, hst, Except.ok.injEq] at e3
    subst e3
    refine ⟨_, by simp only [MC.skew, MC.comp, hst, Option.map_some]; rfl,
      by simp [Moments.at', hm.vshape], fun c hc => ?_⟩
    simp only [hat]
    have := g3 _ (hi.inRange hc)
    exact this
  · have hp : (v.resolve mc).paths = mc.paths := by rw [resolve_self hs hpos]; rfl
    refine ⟨⟨a.shape, fun c => (a.get c).map fun x => √(x / ((mc.paths : ℝ) - 1))⟩,
      by simp only [MC.stderr, hp, if_neg (not_lt.2 h2), e], s, fun c hc => ?_⟩
    have : (0 : ℝ) ≤ (mc.paths : ℝ) - 1 := by
      have : (2 : ℝ) ≤ mc.paths := by exact_mod_cast h2
      linarith
    simp only [q c hc, Option.map_some, Option.some.injEq]
    rw [Real.sqrt_div' _ this]

/-- **C40** (partial: views follow; standard deviation, skewness, standard error). As in
`C40_follows_partial`, if fewer integers are given than there are axes. -/
theorem C40_follows_real_partial (ha : AutoOk auto) {bins : Bins ℝ} {range : Option (ℝ × ℝ)}
    {use : String} {vs : List ℕ} {b0 : Batch ℝ} {l l' : List (Batch ℝ)} {mc cur : MC ℝ}
    (h : McHistory auto bins range use (b0 :: l) mc) (hu : Uniform vs (b0 :: l))
    (h' : McHistory auto bins range use (b0 :: (l ++ l')) cur) (hu' : Uniform vs (b0 :: (l ++ l')))
    (hne : NonEmpty use (b0 :: (l ++ l')))
    {i : List ℤ} {v : McView ℝ} (hv : mc.getItem i = .ok v) (hf : v.idx.length < vs.length) :
    (∃ a, (v.resolve cur).std = .ok a ∧ a.shape = vs.drop v.idx.length ∧
      ∀ c, InRange (vs.drop v.idx.length) c →
        a.get c = some √(cmom 2 (pooled use (b0 :: (l ++ l')) (v.idx ++ c)))) ∧
    (∃ a, (v.resolve cur).skew = .ok a ∧ a.shape = vs.drop v.idx.length ∧
      ∀ c, InRange (vs.drop v.idx.length) c →
        let P := pooled use (b0 :: (l ++ l')) (v.idx ++ c)
        a.get c = if P.length < 2 then some 0 else if cmom 2 P = 0 then none
          else some (cmom 3 P / √(cmom 2 P) ^ 3)) ∧
    (2 ≤ cur.paths → ∃ a, (v.resolve cur).stderr = .ok a ∧ a.shape = vs.drop v.idx.length ∧
      ∀ c, InRange (vs.drop v.idx.length) c →
        a.get c = some (√(cmom 2 (pooled use (b0 :: (l ++ l')) (v.idx ++ c))) /
          √((cur.paths : ℝ) - 1))) := by
  have hb : bins ≠ .none := by
    rintro rfl
    have hne1 : NonEmpty use (b0 :: l) := fun b hb => hne b (by
      rcases List.mem_cons.1 hb with rfl | hb
      · simp
      · simp [hb])
    obtain ⟨e, he⟩ := C40_no_bins_false ha h hu (history_pos ha h hu hne1) i
    rw [he] at hv
    cases hv
  have hne1 : NonEmpty use (b0 :: l) := fun b hb => hne b (by
    rcases List.mem_cons.1 hb with rfl | hb
    · simp
    · simp [hb])
  have hpos := history_pos ha h hu hne1
  have hpos' := history_pos ha h' hu' hne
  obtain ⟨-, -, ⟨st, hst, -, hm⟩, -⟩ := mc_inv ha h hu
  obtain ⟨-, -, ⟨st', hst', -, hm'⟩, -, hh⟩ := mc_inv ha h' hu'
  obtain ⟨E, g, hg, -⟩ := hh hb
  obtain ⟨hs, hi⟩ := getItem_ok hst hpos hv
  have hfull : v.full = false := by
    rw [← Bool.not_eq_true, full_iff (st := st) (by rw [hs, hst]), hm.vshape]
    omega
  obtain ⟨r1, r2⟩ := resolve_view (cur := cur) (by rw [hs]; exact hpos) hfull
  have hv' : cur.getItem i = .ok ⟨v.idx, cur⟩ := by
    simp only [MC.getItem, if_neg hpos, hst, hm.vshape] at hv
    simp only [MC.getItem, if_neg hpos', hst', hm'.vshape, hg]
    split at hv
    · cases hv
    · next k hk =>

      split at hv
      · cases hv
      · simp only [Except.ok.injEq] at hv
        rw [← hv]
  obtain ⟨d1, d2, d3⟩ := C40_values_real ha h' hu' hne hv'
  rw [resolve_self rfl hpos'] at d1 d2 d3
  have hvar : (v.resolve cur).var = (cur.comp v.idx).var := by
    simp only [MC.var, r2, r1]; rfl
  refine ⟨?_, ?_, ?_⟩
  · rw [show (v.resolve cur).std = (cur.comp v.idx).std by simp only [MC.std, hvar]]
    exact d1
  · rw [show (v.resolve cur).skew = (cur.comp v.idx).skew by simp only [MC.skew, r2, r1]; rfl]
    exact d2
  · intro h2
    rw [show (v.resolve cur).stderr = (cur.comp v.idx).stderr by
      simp only [MC.stderr, hvar, r1]; rfl]
    exact d3 h2

end real

/-! ### Examples -/

theorem exMC1_history : McHistory noAuto (.int 4) none "all" [exB0] exMC1 :=
  .update (l := []) .new (update_eta (mc := exMC0) (by decide +kernel))

theorem exMC1_uniform : Uniform [2] [exB0] := fun b hb => exMC_uniform b (by simp_all)

theorem exMC1_nonEmpty : NonEmpty "all" [exB0] := fun b hb => exMC_nonEmpty b (by simp_all)

/-- `a[-1]`, before the second sample of `a` is processed. -/
theorem exView : exMC1.getItem [-1] = .ok ⟨[1], exMC1⟩ := by
  rcases C40_index noAuto_ok (by simp) exMC1_history exMC1_uniform (by decide +kernel) [-1] with
    ⟨k, hk, he⟩ | ⟨hn, -⟩
  · obtain ⟨m, hm, hm'⟩ := hk.2.2.2 0 (-1) 2 rfl rfl
    have h1 := hk.2.2.1
    rcases k with _ | ⟨k0, _ | _⟩
    · simp at h1
    · simp only [List.getElem?_cons_zero, Option.some.injEq] at hm
      have : k0 = 1 := by rw [hm]; have : ¬ (0 : ℤ) ≤ -1 := by decide
                          rw [if_neg this] at hm'; omega
      subst this
      exact he
    · simp at h1
  · refine absurd ⟨[1], by decide, by decide, rfl, ?_⟩ hn
    intro j a n h1 h2
    rcases j with _ | j
    · simp only [List.getElem?_cons_zero, Option.some.injEq] at h1 h2
      subst h1 h2
      exact ⟨1, rfl, by decide⟩
    · simp at h1

example := C40_values noAuto_ok exMC1_history exMC1_uniform exMC1_nonEmpty exView
example := C40_histogram noAuto_ok (by simp) exMC1_history exMC1_uniform exMC1_nonEmpty
  (l' := [exB1]) exMC_history exMC_uniform exView rfl
example := C40_stale noAuto_ok exMC2 exMC1_history exMC1_uniform exMC1_nonEmpty exView rfl
example := C40_follows_partial noAuto_ok exMC1_history exMC1_uniform (l' := [exB1]) exMC_history
  exMC_uniform exMC_nonEmpty (i := []) (v := ⟨[], exMC1⟩) (by
    rcases C40_index noAuto_ok (by simp) exMC1_history exMC1_uniform (by decide +kernel) [] with
      ⟨k, hk, he⟩ | ⟨hn, -⟩
    · have h1 := hk.2.2.1
      have : k = [] := by simpa using h1.symm
      subst this
      exact he
    · exact absurd ⟨[], by decide, by decide, rfl, by simp⟩ hn) (by decide)
theorem exR_view : ∃ v, exR_history.choose.getItem [] = .ok v := by
  rcases C40_index (fun _ _ _ _ h => by cases h) (by simp) exR_history.choose_spec.1
    exR_history.choose_spec.2.1 (history_pos (fun _ _ _ _ h => by cases h) exR_history.choose_spec.1
    exR_history.choose_spec.2.1 exR_history.choose_spec.2.2) [] with ⟨k, hk, he⟩ | ⟨hn, -⟩
  · exact ⟨_, he⟩
  · exact absurd ⟨[], by decide, by decide, rfl, by simp⟩ hn

example := C40_values_real (fun _ _ _ _ h => by cases h) exR_history.choose_spec.1
  exR_history.choose_spec.2.1 exR_history.choose_spec.2.2 exR_view.choose_spec

/-- Samples of three data points of shape `(2,)`. -/
noncomputable def exR2 : Batch ℝ := ⟨⟨[3, 2], fun i => i.headD 0 + i.getLastD 0⟩, 0⟩

theorem exR2_history : ∃ mc cur, McHistory (fun _ _ _ => .error .valueError) (.int 2) none "all" [exR2] mc ∧
    McHistory (fun _ _ _ => .error .valueError) (.int 2) none "all" [exR2, exR2] cur ∧
    Uniform [2] [exR2, exR2] ∧ NonEmpty "all" [exR2, exR2] := by
  obtain ⟨mc, h⟩ := C36_accepts_first (auto := fun _ _ _ => .error .valueError)
    (fun _ _ _ _ h => by cases h) (bins := .int 2) (range := none) (use := "all")
    (.inr ⟨2, by decide, rfl⟩) (by simp) (b := exR2)
    ⟨by simp [exR2], by simp [exR2], .inl rfl⟩
  have h1 : McHistory (fun _ _ _ => .error .valueError) (.int 2) none "all" [exR2] mc :=
    .update (l := []) .new h
  have hu : Uniform [2] [exR2] := by
    intro b hb
    simp only [List.mem_cons, List.not_mem_nil, or_false] at hb
    subst hb
    simp [exR2, Batch.ax, Batch.vshape]
  obtain ⟨cur, h'⟩ := C36_accepts (fun _ _ _ _ h => by cases h) h1 hu (b := exR2)
    (hu exR2 (by simp)) ⟨by simp [exR2], by simp [exR2], .inl rfl⟩
  refine ⟨mc, cur, h1, .update (l := [exR2]) h1 h', ?_, ?_⟩ <;>
  · intro b hb
    simp only [List.mem_cons, List.not_mem_nil, or_false, or_self] at hb
    subst hb
    simp [Batch.size, Batch.rawSize, exR2, Batch.ax, Batch.vshape]

example : True := by
  obtain ⟨mc, cur, h, h', hu, hne⟩ := exR2_history
  have hu1 : Uniform [2] [exR2] := fun b hb => hu b (by simp_all)
  have hne1 : NonEmpty "all" [exR2] := fun b hb => hne b (by simp_all)
  rcases C40_index (fun _ _ _ _ h => by cases h) (by simp) h hu1
    (history_pos (fun _ _ _ _ h => by cases h) h hu1 hne1) [] with ⟨k, hk, he⟩ | ⟨hn, -⟩
  · have : k = [] := by simpa using hk.2.2.1.symm
    subst this
    have := C40_follows_real_partial (fun _ _ _ _ h => by cases h) h hu1 (l' := [exR2]) h' hu hne he
      (by simp)
    trivial
  · exact absurd ⟨[], by decide, by decide, rfl, by simp⟩ hn

example := C40_no_bins_false noAuto_ok exMC_history' exMC_uniform' (by decide +kernel)

/-- `a[1]` does not follow the second sample of `a`: the histogram and the number of paths do, the mean
and `outpaths` do not. -/
example : ((McView.mk [1] exMC1).resolve exMC2).paths = 5 ∧
    ((McView.mk [1] exMC1).histogram exMC2).toOption = some ([0, 0, 4, 0], [1 / 2, 3 / 4, 1, 5 / 4, 3 / 2]) ∧
    (((McView.mk [1] exMC1).resolve exMC2).mean.map fun a => a.get []) = some (some 1) ∧
    (exMC2.mean.map fun a => a.get [1]) = some (some (11 / 5)) ∧
    ((McView.mk [1] exMC1).resolve exMC2).outside [] = 0 ∧ exMC2.outside [1] = 1 := by
  decide +kernel

/-- **C40 fails** (updates are not followed). The mean of `a[i]`, for a single component, is not the mean
of data received by `a`, if `a` has been updated after indexing; paths are, and so is the histogram, so
that the parts of `a[i]` are not even consistent with each other. -/
theorem C40_false :
    ∃ (b0 b1 : Batch ℚ) (mc cur : MC ℚ) (v : McView ℚ) (vs : List ℕ),
      McHistory noAuto (.int 4) none "all" [b0] mc ∧ McHistory noAuto (.int 4) none "all" [b0, b1] cur ∧
      Uniform vs [b0, b1] ∧ NonEmpty "all" [b0, b1] ∧ mc.getItem [-1] = .ok v ∧
      (v.resolve cur).paths = (pooled "all" [b0, b1] v.idx).length ∧
      ((v.resolve cur).mean.map fun a => a.get []) ≠ some (some (avg (pooled "all" [b0, b1] v.idx))) ∧
      ∃ counts edges, v.histogram cur = .ok (counts, edges) ∧
        counts.sum + (v.resolve cur).outside [] ≠ (v.resolve cur).paths := by
  refine ⟨exB0, exB1, exMC1, exMC2, ⟨[1], exMC1⟩, [2], exMC1_history, exMC_history, exMC_uniform,
    exMC_nonEmpty, exView, by decide +kernel, by decide +kernel, ?_⟩
  obtain ⟨-, e, -, h⟩ := C40_histogram noAuto_ok (by simp) exMC1_history exMC1_uniform exMC1_nonEmpty
    (l' := [exB1]) exMC_history exMC_uniform exView rfl
  refine ⟨_, e, h, ?_⟩
  have h0 : ((McView.mk [1] exMC1).histogram exMC2).toOption =
      some ([0, 0, 4, 0], [1 / 2, 3 / 4, 1, 5 / 4, 3 / 2]) := by decide +kernel
  rw [h] at h0
  simp only [Except.toOption, Option.some.injEq, Prod.mk.injEq] at h0
  rw [h0.1]
  decide +kernel

/-- **C40 fails** (empty instance). An instance obtained by indexing an empty one shares the number of
paths, and nothing else, with the latter once this is updated: there are paths, but the mean is `None` and
`histogram` raises `AttributeError`. -/
theorem C40_empty_false :
    ∃ (mc cur : MC ℚ) (v : McView ℚ), mc = MC.new (.int 4) none "all" ∧
      McHistory noAuto (.int 4) none "all" [exB0] cur ∧ mc.getItem [1] = .ok v ∧
      (v.resolve cur).paths = 2 ∧ (v.resolve cur).mean.isNone ∧
      v.histogram cur = .error .attributeError :=
  ⟨exMC0, exMC1, ⟨[], exMC0⟩, rfl, exMC1_history, rfl, by decide +kernel, rfl, by
    have : exMC1.paths ≠ 0 := by decide +kernel
    have h0 : exMC0.paths = 0 := rfl
    simp only [McView.histogram, h0, if_true, if_neg this]
    rfl⟩

end Sdepy
