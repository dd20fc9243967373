import Verif.Model.McSlice
import Verif.Props.McIndex
import Verif.Props.ProcessIndex

/-!
# Indexing of `montecarlo` instances by slices and lists
-/

set_option linter.unusedSectionVars false
set_option linter.unusedSimpArgs false

namespace Sdepy

open Spec

/-! ### Positions selected are valid -/

/-- What is selected along an axis of the given size is along that axis. -/
def SelOk (n : ℕ) : Sel → Prop
  | .fix k => k < n
  | .many l => ∀ k ∈ l, k < n
  | .adv l => ∀ k ∈ l, k < n

theorem sel_ok {n : ℕ} {i : NpIx} {a : Sel} (h : i.sel n = .ok a) : SelOk n a := by
  cases i with
  | int i =>
    simp only [NpIx.sel, npPos] at h
    split at h
    · cases h
    · next k hk =>
      simp only [Except.ok.injEq] at h
      subst h
      show k < n
      split at hk
      · simp only [Option.some.injEq] at hk; omega
      · split at hk
        · simp only [Option.some.injEq] at hk; omega
        · cases hk
  | slice b c d =>
    simp only [NpIx.sel] at h
    split at h
    · cases h
    · next l hl =>
      simp only [Except.ok.injEq] at h
      subst h
      exact positions_lt (ix := .slice b c d) hl
  | list l' =>
    simp only [NpIx.sel] at h
    split at h
    · cases h
    · next l hl =>
      simp only [Except.ok.injEq] at h
      subst h
      rw [mapM_npPos] at hl
      exact positions_lt hl

theorem resolveIx_ok {vs : List ℕ} {ix : List NpIx} {S : List Sel} (h : resolveIx vs ix = .ok S) :
    List.Forall₂ SelOk vs S := by
  induction vs generalizing ix S with
  | nil =>
    cases ix with
    | nil => simp only [resolveIx, Except.ok.injEq] at h; subst h; exact .nil
    | cons _ _ => cases h
  | cons n vs ih =>
    cases ix with
    | nil =>
      simp only [resolveIx] at h
      split at h
      · cases h
      · next r hr =>
        simp only [Except.ok.injEq] at h
        subst h
        exact .cons (fun k hk => List.mem_range.1 hk) (ih hr)
    | cons i ix =>
      simp only [resolveIx] at h
      split at h
      · cases h
      · next a ha =>
        split at h
        · cases h
        · next r hr =>
          simp only [Except.ok.injEq] at h
          subst h
          exact .cons (sel_ok ha) (ih hr)

theorem promote_ok {vs : List ℕ} {S : List Sel} (h : List.Forall₂ SelOk vs S) :
    List.Forall₂ SelOk vs (S.map Sel.promote) := by
  induction h with
  | nil => exact .nil
  | @cons n a vs S h1 _ ih =>
    refine .cons ?_ ih
    cases a with
    | fix k => intro j hj; simp at hj; subst hj; exact h1
    | many l => exact h1
    | adv l => exact h1

theorem advSize_mem {S : List Sel} {N : ℕ} (h : advSize S = some N) {l : List ℕ} (hl : Sel.adv l ∈ S) :
    l.length = 1 ∨ l.length = N := by
  induction S generalizing N with
  | nil => cases hl
  | cons a S ih =>
    cases a with
    | fix k => exact ih h (by simpa using hl)
    | many k => exact ih h (by simpa using hl)
    | adv k =>
      simp only [advSize] at h
      split at h
      · cases h
      · next n hn =>
        rcases List.mem_cons.1 hl with h0 | hm
        · cases h0
          split at h
          · exact .inr (by simpa using h)
          · split at h
            · next h1 => exact .inl h1
            · cases h
        · have := ih hn hm
          split at h
          · next h1 =>
            simp only [Option.some.injEq] at h
            omega
          · split at h
            · simp only [Option.some.injEq] at h; omega
            · cases h

/-- There are lists of positions in an index, along with their common size. -/
theorem pick_inRange {vs : List ℕ} {S : List Sel} (h : List.Forall₂ SelOk vs S) {a : ℕ} {i : List ℕ}
    (ha : ∀ l, Sel.adv l ∈ S → l.length = 1 ∨ a < l.length) (hi : InRange (manyDims S) i) :
    InRange vs (pick S a i) := by
  have get {l : List ℕ} {n k : ℕ} (hl : ∀ k ∈ l, k < n) (hk : k < l.length) : l.getD k 0 < n := by
    rw [List.getD_eq_getElem?_getD, List.getElem?_eq_getElem hk]
    exact hl _ (List.getElem_mem hk)
  induction h generalizing i with
  | nil => exact .nil
  | @cons n s vs S h1 _ ih =>
    have ha' : ∀ l, Sel.adv l ∈ S → l.length = 1 ∨ a < l.length := fun l hl => ha l (List.mem_cons_of_mem _ hl)
    cases s with
    | fix k => exact .cons h1 (ih ha' hi)
    | many l =>
      cases i with
      | nil => cases hi
      | cons b i =>
        simp only [manyDims, InRange, List.forall₂_cons] at hi
        exact .cons (get h1 hi.1) (ih ha' hi.2)
    | adv l =>
      refine .cons (get h1 ?_) (ih ha' hi)
      have := ha l (by simp)
      split <;> omega

theorem inRange_insertIdx {n : ℕ} : ∀ {s : List ℕ} {q : ℕ} {o : List ℕ}, q ≤ s.length →
    InRange (s.insertIdx q n) o → o.getD q 0 < n ∧ InRange s (o.eraseIdx q)
  | s, 0, o, _, h => by
    cases o with
    | nil => cases h
    | cons b o =>
      simp only [List.insertIdx_zero, InRange, List.forall₂_cons] at h
      exact ⟨h.1, h.2⟩
  | [], _ + 1, _, hq, _ => by simp at hq
  | c :: s, q + 1, o, hq, h => by
    cases o with
    | nil => cases h
    | cons b o =>
      simp only [List.insertIdx_succ_cons, InRange, List.forall₂_cons] at h
      obtain ⟨h1, h2⟩ := inRange_insertIdx (by simpa using hq) h.2
      exact ⟨by simpa using h1, .cons h.1 h2⟩

/-- Positions found by indexing the array of all positions are valid. -/
theorem selected_inRange {vs : List ℕ} {ix : List NpIx} {s : Arr (List ℕ)}
    (h : (Arr.mk vs id).npIndex ix = .ok s) {o : List ℕ} (ho : InRange s.shape o) :
    InRange vs (s.get o) := by
  simp only [Arr.npIndex] at h
  split at h
  · cases h
  · next S hS =>
    have hok := resolveIx_ok hS
    split at h
    · split at h
      · cases h
      · next n hn =>
        simp only [Except.ok.injEq] at h
        subst h
        have hq : (if advTogether (S.map Sel.promote) then
            ((S.map Sel.promote).takeWhile Sel.isMany).length else 0) ≤ (manyDims (S.map Sel.promote)).length := by
          split
          · exact manyDims_takeWhile _
          · omega
        obtain ⟨h1, h2⟩ := inRange_insertIdx hq ho
        refine pick_inRange (promote_ok hok) (fun l hl => ?_) h2
        rcases advSize_mem hn hl with h | h
        · exact .inl h
        · exact .inr (by rw [h]; exact h1)
    · next hany =>
      simp only [Except.ok.injEq] at h
      subst h
      refine pick_inRange hok (fun l hl => ?_) ho
      exact absurd (List.any_eq_true.2 ⟨_, hl, rfl⟩) hany

/-- Indexing an array is indexing the array of all positions. -/
theorem npIndex_eq {α : Type} (a : Arr α) (ix : List NpIx) :
    a.npIndex ix = match selected a.shape ix with
      | .error e => .error e
      | .ok s => .ok (a.atAll s) := by
  unfold selected Arr.npIndex
  cases resolveIx a.shape ix with
  | error e => rfl
  | ok S =>
    simp only
    split
    · cases advSize (S.map Sel.promote) <;> rfl
    · rfl

section
variable {K : Type} [Field K] [LinearOrder K] [IsStrictOrderedRing K]
  {auto : String → Option (K × K) → List K → Py (List K)}

theorem getIx_ok {mc : MC K} {ix : List NpIx} {v : McSlice K} {st : Moments K} (hst : mc.stats = some st)
    (h : mc.getIx ix = .ok v) :
    v.snap = mc ∧ (Arr.mk st.vshape id).npIndex ix = .ok v.sel ∧
      v.view = (!hasList ix && !v.sel.shape.isEmpty) := by
  simp only [MC.getIx, hst] at h
  split at h
  · cases h
  · next s hs =>
    split at h
    · cases h
    · simp only [Except.ok.injEq] at h
      subst h
      exact ⟨rfl, hs, rfl⟩

/-- **C98** (which indices). For an instance with bins that has received data, `a[i]` succeeds exactly if
`i` can be used as an index of arrays of the shape of data points; otherwise it raises the same error. -/
theorem C98_index (ha : AutoOk auto) {bins : Bins K} (hb : bins ≠ .none) {range : Option (K × K)}
    {use : String} {vs : List ℕ} {b0 : Batch K} {l : List (Batch K)} {mc : MC K}
    (h : McHistory auto bins range use (b0 :: l) mc) (hu : Uniform vs (b0 :: l))
    {α : Type} (f : List ℕ → α) (ix : List NpIx) :
    (∀ A, (Arr.mk vs f).npIndex ix = .ok A → ∃ v, mc.getIx ix = .ok v) ∧
    (∀ e, (Arr.mk vs f).npIndex ix = .error e → mc.getIx ix = .error e) := by
  obtain ⟨-, -, ⟨st, hst, -, hm⟩, -, hh⟩ := mc_inv ha h hu
  obtain ⟨E, g, hg, -⟩ := hh hb
  rw [npIndex_eq]
  simp only [MC.getIx, hst, hm.vshape]
  cases selected vs ix with
  | error e => exact ⟨fun A hA => by simp at hA, fun e' he => by simpa using he⟩
  | ok s => exact ⟨fun A _ => by simp only [hg]; exact ⟨_, rfl⟩, fun e he => by simp at he⟩

/-- Statistics of what is found by applying an index to all attributes are those of the components
selected. -/
theorem atAll_stats {mc : MC K} {st : Moments K} (hst : mc.stats = some st) (s : Arr (List ℕ)) :
    (∀ a, mc.mean = some a → ∃ a', (mc.atAll s).mean = some a' ∧ a'.shape = s.shape ∧
      ∀ c, a'.get c = a.get (s.get c)) ∧
    (∀ a, mc.var = .ok a → ∃ a', (mc.atAll s).var = .ok a' ∧ a'.shape = s.shape ∧
      ∀ c, a'.get c = a.get (s.get c)) ∧
    (∀ a, mc.kurtosis = .ok a → ∃ a', (mc.atAll s).kurtosis = .ok a' ∧ a'.shape = s.shape ∧
      ∀ c, a'.get c = a.get (s.get c)) := by
  have hat : ∀ j c, (st.atAll s).at j c = st.at j (s.get c) := by
    intro j c
    simp only [Moments.at, Moments.atAll, List.getElem?_map]
    cases st.mom[j]? <;> rfl
  refine ⟨fun a ha => ?_, fun a ha => ?_, fun a ha => ?_⟩
  · simp only [MC.mean, hst, Option.map_some, Option.some.injEq] at ha
    subst ha
    exact ⟨_, by simp only [MC.mean, MC.atAll, hst, Option.map_some]; rfl, rfl, fun c => rfl⟩
  · simp only [MC.var, hst, Except.ok.injEq] at ha
    subst ha
    refine ⟨_, by simp only [MC.var, MC.atAll, hst, Option.map_some]; rfl, rfl, fun c => ?_⟩
    simp only [hat]
    rfl
  · simp only [MC.kurtosis, hst, Except.ok.injEq] at ha
    subst ha
    refine ⟨_, by simp only [MC.kurtosis, MC.atAll, hst, Option.map_some]; rfl, rfl, fun c => ?_⟩
    simp only [hat]
    rfl

theorem resolve_now {v : McSlice K} {mc : MC K} (hs : v.snap = mc) : v.resolve mc = mc.atAll v.sel := by
  unfold McSlice.resolve
  rw [hs]
  split <;> rfl

theorem resolve_live {v : McSlice K} {cur : MC K} (hf : v.view = true) :
    (v.resolve cur).paths = cur.paths ∧ (v.resolve cur).stats = (cur.atAll v.sel).stats ∧
      (v.resolve cur).outside = fun c => cur.outside (v.sel.get c) := by
  unfold McSlice.resolve
  rw [hf]
  exact ⟨rfl, rfl, rfl⟩

/-- **C98** (values). The statistics of `a[i]` are those of `a`, of all data received, as arrays indexed by
`i`: `s` are the components selected. -/
theorem C98_values (ha : AutoOk auto) {bins : Bins K} {range : Option (K × K)}
    {use : String} {vs : List ℕ} {b0 : Batch K} {l : List (Batch K)} {mc : MC K}
    (h : McHistory auto bins range use (b0 :: l) mc) (hu : Uniform vs (b0 :: l))
    (hne : NonEmpty use (b0 :: l)) {ix : List NpIx} {v : McSlice K} (hv : mc.getIx ix = .ok v)
    {s : Arr (List ℕ)} (hs : (Arr.mk vs id).npIndex ix = .ok s) :
    (v.resolve mc).paths = mc.paths ∧
    (∃ a, (v.resolve mc).mean = some a ∧ a.shape = s.shape ∧
      ∀ c, InRange s.shape c → a.get c = some (avg (pooled use (b0 :: l) (s.get c)))) ∧
    (∃ a, (v.resolve mc).var = .ok a ∧ a.shape = s.shape ∧
      ∀ c, InRange s.shape c → a.get c = some (cmom 2 (pooled use (b0 :: l) (s.get c)))) ∧
    (∃ a, (v.resolve mc).kurtosis = .ok a ∧ a.shape = s.shape ∧
      ∀ c, InRange s.shape c →
        let P := pooled use (b0 :: l) (s.get c)
        a.get c = if P.length < 2 then some (-3) else if cmom 2 P = 0 then none
          else some (cmom 4 P / cmom 2 P ^ 2)) := by
  obtain ⟨-, -, ⟨st, hst, -, hm⟩, -⟩ := mc_inv ha h hu
  obtain ⟨hsn, hsel, -⟩ := getIx_ok hst hv
  rw [hm.vshape, hs, Except.ok.injEq] at hsel
  rw [resolve_now hsn, ← hsel]
  obtain ⟨m1, m2, m3⟩ := atAll_stats hst s
  obtain ⟨-, -, a1, e1, -, g1⟩ := C35_mean ha h hu hne
  obtain ⟨a2, e2, -, g2⟩ := C35_var ha h hu hne
  obtain ⟨a3, e3, -, g3⟩ := C35_kurtosis ha h hu hne
  obtain ⟨a1', f1, s1, q1⟩ := m1 a1 e1
  obtain ⟨a2', f2, s2, q2⟩ := m2 a2 e2
  obtain ⟨a3', f3, s3, q3⟩ := m3 a3 e3
  refine ⟨rfl, ⟨a1', f1, s1, fun c hc => ?_⟩, ⟨a2', f2, s2, fun c hc => ?_⟩,
    ⟨a3', f3, s3, fun c hc => ?_⟩⟩
  · rw [q1, g1 _ (selected_inRange hs hc)]
  · rw [q2, g2 _ (selected_inRange hs hc)]
  · rw [q3, g3 _ (selected_inRange hs hc)]

theorem view_iff {ix : List NpIx} : hasList ix = false ↔ ∀ i ∈ ix, ¬ i.isList := by
  unfold hasList
  rw [List.any_eq_false]
  constructor
  · intro h i hi
    have := h i hi
    cases i <;> simp_all [NpIx.isList]
  · intro h i hi
    have := h i hi
    cases i <;> simp_all [NpIx.isList]

/-- **C98** (partial: views follow). If `i` is made of integers and slices, and does not select a single
number, the statistics of `a[i]` are those of all data received by `a`, also if `a` is updated after
indexing. Missing: indices with lists, see `C98_stale` and `C98_false`. -/
theorem C98_follows_partial (ha : AutoOk auto) {bins : Bins K} {range : Option (K × K)}
    {use : String} {vs : List ℕ} {b0 : Batch K} {l l' : List (Batch K)} {mc cur : MC K}
    (h : McHistory auto bins range use (b0 :: l) mc) (hu : Uniform vs (b0 :: l))
    (h' : McHistory auto bins range use (b0 :: (l ++ l')) cur) (hu' : Uniform vs (b0 :: (l ++ l')))
    (hne : NonEmpty use (b0 :: (l ++ l')))
    {ix : List NpIx} {v : McSlice K} (hv : mc.getIx ix = .ok v)
    {s : Arr (List ℕ)} (hs : (Arr.mk vs id).npIndex ix = .ok s)
    (hl : ∀ i ∈ ix, ¬ i.isList) (hf : s.shape ≠ []) :
    (v.resolve cur).paths = cur.paths ∧
    (∃ a, (v.resolve cur).mean = some a ∧ a.shape = s.shape ∧
      ∀ c, InRange s.shape c → a.get c = some (avg (pooled use (b0 :: (l ++ l')) (s.get c)))) ∧
    (∃ a, (v.resolve cur).var = .ok a ∧ a.shape = s.shape ∧
      ∀ c, InRange s.shape c → a.get c = some (cmom 2 (pooled use (b0 :: (l ++ l')) (s.get c)))) ∧
    (∀ c, (v.resolve cur).outside c = cur.outside (s.get c)) := by
  obtain ⟨-, -, ⟨st, hst, -, hm⟩, -⟩ := mc_inv ha h hu
  obtain ⟨hsn, hsel, hvw⟩ := getIx_ok hst hv
  rw [hm.vshape, hs, Except.ok.injEq] at hsel
  subst hsel
  have hview : v.view = true := by
    rw [hvw, view_iff.2 hl]
    cases hsh : v.sel.shape with
    | nil => exact absurd hsh hf
    | cons _ _ => rfl
  obtain ⟨r1, r2, r3⟩ := resolve_live (cur := cur) hview
  obtain ⟨-, -, ⟨st', hst', -, hm'⟩, -⟩ := mc_inv ha h' hu'
  obtain ⟨m1, m2, -⟩ := atAll_stats hst' v.sel
  obtain ⟨-, -, a1, e1, -, g1⟩ := C35_mean ha h' hu' hne
  obtain ⟨a2, e2, -, g2⟩ := C35_var ha h' hu' hne
  obtain ⟨a1', f1, s1, q1⟩ := m1 a1 e1
  obtain ⟨a2', f2, s2, q2⟩ := m2 a2 e2
  refine ⟨r1, ⟨a1', ?_, s1, fun c hc => ?_⟩, ⟨a2', ?_, s2, fun c hc => ?_⟩, fun c => by rw [r3]⟩
  · rw [← f1]; simp only [MC.mean, r2]
  · rw [q1, g1 _ (selected_inRange hs hc)]
  · rw [← f2]; simp only [MC.var, r2, r1]; rfl
  · rw [q2, g2 _ (selected_inRange hs hc)]

/-- **C98** (what happens with lists). If there is a list in the index, or if a single number is selected, the
mean and the numbers of data outside of bins are those of the data received by `a` before indexing,
whatever updates follow; the number of paths is the current one. -/
theorem C98_stale (ha : AutoOk auto) {bins : Bins K} {range : Option (K × K)}
    {use : String} {vs : List ℕ} {b0 : Batch K} {l : List (Batch K)} {mc : MC K} (cur : MC K)
    (h : McHistory auto bins range use (b0 :: l) mc) (hu : Uniform vs (b0 :: l))
    (hne : NonEmpty use (b0 :: l))
    {ix : List NpIx} {v : McSlice K} (hv : mc.getIx ix = .ok v)
    {s : Arr (List ℕ)} (hs : (Arr.mk vs id).npIndex ix = .ok s)
    (hl : (∃ i ∈ ix, i.isList) ∨ s.shape = []) :
    (v.resolve cur).paths = cur.paths ∧
    (∃ a, (v.resolve cur).mean = some a ∧ a.shape = s.shape ∧
      ∀ c, InRange s.shape c → a.get c = some (avg (pooled use (b0 :: l) (s.get c)))) ∧
    (∀ c, (v.resolve cur).outside c = mc.outside (s.get c)) := by
  obtain ⟨-, -, ⟨st, hst, -, hm⟩, -⟩ := mc_inv ha h hu
  obtain ⟨hsn, hsel, hvw⟩ := getIx_ok hst hv
  rw [hm.vshape, hs, Except.ok.injEq] at hsel
  obtain ⟨-, ⟨a, e, sh, q⟩, -⟩ := C98_values ha h hu hne hv hs
  subst hsel
  have hview : v.view = false := by
    rw [hvw]
    rcases hl with ⟨i, hi, hil⟩ | h0
    · have : hasList ix = true := by
        rw [← Bool.not_eq_false, view_iff]
        intro hn
        exact hn i hi hil
      rw [this]; rfl
    · rw [h0]; simp
  have hr : v.resolve cur = { v.snap.atAll v.sel with
      paths := cur.paths
      counts := fun c => cur.counts (v.sel.get c) } := by
    unfold McSlice.resolve
    rw [hview]
    rfl
  refine ⟨by rw [hr], ⟨a, ?_, sh, q⟩, fun c => by rw [hr, hsn]; rfl⟩
  rw [← e, resolve_now hsn, hr, hsn]
  rfl

/-- **C98** (histograms). If the index selects a single component `s.get o`, the number of paths and the
histogram of `a[i]` are those of all data received by `a`, also if `a` is updated after indexing, and
whatever the kind of the index. If more components are selected, an `IndexError` is raised. -/
theorem C98_histogram (ha : AutoOk auto) {bins : Bins K} (hb : bins ≠ .none) {range : Option (K × K)}
    {use : String} {vs : List ℕ} {b0 : Batch K} {l l' : List (Batch K)} {mc cur : MC K}
    (h : McHistory auto bins range use (b0 :: l) mc) (hu : Uniform vs (b0 :: l))
    (hne : NonEmpty use (b0 :: l))
    (h' : McHistory auto bins range use (b0 :: (l ++ l')) cur) (hu' : Uniform vs (b0 :: (l ++ l')))
    {ix : List NpIx} {v : McSlice K} (hv : mc.getIx ix = .ok v)
    {s : Arr (List ℕ)} (hs : (Arr.mk vs id).npIndex ix = .ok s) :
    (v.resolve cur).paths = cur.paths ∧
    (∀ o, ndindex s.shape = [o] → ∃ e, FirstEdges auto bins range (b0.data use (s.get o)) (s.get o) e ∧
      (v.resolve cur).histogram = .ok (hist e (pooled use (b0 :: (l ++ l')) (s.get o)), e)) ∧
    (1 < s.shape.prod → (v.resolve cur).histogram = .error .indexError) := by
  obtain ⟨-, -, ⟨st, hst, -, hm⟩, -⟩ := mc_inv ha h hu
  obtain ⟨hsn, hsel, -⟩ := getIx_ok hst hv
  rw [hm.vshape, hs, Except.ok.injEq] at hsel
  subst hsel
  obtain ⟨E, g, e1, g1⟩ := C36_histogram ha hb h hu
  obtain ⟨E', g', e1', g1'⟩ := C36_histogram ha hb h' hu'
  have hcp : cur.paths ≠ 0 := by
    rw [(mc_inv ha h' hu').paths, List.map_cons, List.sum_cons]
    have := hne b0 (by simp)
    omega
  have hp : (v.resolve cur).paths = cur.paths := by unfold McSlice.resolve; split <;> rfl
  have hc : (v.resolve cur).counts = fun c => cur.counts (v.sel.get c) := by
    unfold McSlice.resolve; split <;> rfl
  have hbn : (v.resolve cur).bins = .objs ⟨v.sel.shape, fun c => g (v.sel.get c)⟩ := by
    have : (mc.atAll v.sel).bins = .objs ⟨v.sel.shape, fun c => g (v.sel.get c)⟩ := by
      simp only [MC.atAll, e1]; rfl
    unfold McSlice.resolve
    rw [hsn]
    split
    · exact this
    · exact this
  refine ⟨hp, fun o ho => ?_, fun h1 => ?_⟩
  · have hr : InRange v.sel.shape o := mem_ndindex.1 (by rw [ho]; simp)
    have hk := selected_inRange hs hr
    obtain ⟨q1, q2, q3, -⟩ := g1 _ hk
    obtain ⟨q1', q2', q3', -⟩ := g1' _ hk
    refine ⟨_, q2, ?_⟩
    simp only [MC.histogram, hbn, hp, hc, if_neg hcp, ho, q1, Option.getD_some]
    rw [q3', firstEdges_unique q2' q2]
  · have hlen := ndindex_length v.sel.shape
    simp only [MC.histogram, hbn, hp, if_neg hcp]
    match hn : ndindex v.sel.shape with
    | [] => rw [hn] at hlen; simp at hlen; omega
    | [_] => rw [hn] at hlen; simp at hlen; omega
    | _ :: _ :: _ => rfl

/-! ### Examples -/

/-- `a[1:]`, `a[[1]]` and `a[::-1]`, before the second sample of `a` is processed. -/
theorem exSel (ix : List NpIx) {s : Arr (List ℕ)} (hs : (Arr.mk [2] id).npIndex ix = .ok s) :
    ∃ v, exMC1.getIx ix = .ok v :=
  (C98_index noAuto_ok (by simp) exMC1_history exMC1_uniform id ix).1 _ hs

example : ∃ v, exMC1.getIx [.list [1]] = .ok v := exSel _ rfl
example := (C98_index noAuto_ok (by simp) exMC1_history exMC1_uniform id [.list [0, 2]]).2 .indexError rfl
example := C98_values noAuto_ok exMC1_history exMC1_uniform exMC1_nonEmpty
  (exSel [.slice none none (some (-1))] rfl).choose_spec rfl
example := C98_follows_partial noAuto_ok exMC1_history exMC1_uniform (l' := [exB1]) exMC_history
  exMC_uniform exMC_nonEmpty (exSel [.slice (some 1) none none] rfl).choose_spec rfl (by simp [NpIx.isList])
  (by decide)
example := C98_stale noAuto_ok exMC2 exMC1_history exMC1_uniform exMC1_nonEmpty
  (exSel [.list [1]] rfl).choose_spec rfl (.inl ⟨_, List.mem_singleton.2 rfl, trivial⟩)
example := (C98_histogram noAuto_ok (by simp) exMC1_history exMC1_uniform exMC1_nonEmpty
  (l' := [exB1]) exMC_history exMC_uniform (exSel [.list [1]] rfl).choose_spec rfl).2.1 [0] (by decide)
example := (C98_histogram noAuto_ok (by simp) exMC1_history exMC1_uniform exMC1_nonEmpty
  (l' := [exB1]) exMC_history exMC_uniform (exSel [.slice none none none] rfl).choose_spec rfl).2.2 (by decide)

/-- **C98 fails**: updates are not followed by indices with lists. After an update of `a`, the mean of
`a[[1]]` is not the one of the data received by `a`, while that of `a[1:]`, the same component, is; the paths
of both are. -/
theorem C98_false :
    ∃ (b0 b1 : Batch ℚ) (mc cur : MC ℚ) (v w : McSlice ℚ),
      McHistory noAuto (.int 4) none "all" [b0] mc ∧ McHistory noAuto (.int 4) none "all" [b0, b1] cur ∧
      Uniform [2] [b0, b1] ∧ NonEmpty "all" [b0, b1] ∧
      mc.getIx [.list [1]] = .ok v ∧ mc.getIx [.slice (some 1) none none] = .ok w ∧
      (v.resolve cur).paths = (pooled "all" [b0, b1] [1]).length ∧
      ((v.resolve cur).mean.map fun a => a.get [0]) ≠ some (some (avg (pooled "all" [b0, b1] [1]))) ∧
      ((w.resolve cur).mean.map fun a => a.get [0]) = some (some (avg (pooled "all" [b0, b1] [1]))) := by
  obtain ⟨v, hv⟩ := exSel [.list [1]] rfl
  obtain ⟨w, hw⟩ := exSel [.slice (some 1) none none] rfl
  obtain ⟨h1, ⟨a, e, -, q⟩, -⟩ := C98_stale noAuto_ok exMC2 exMC1_history exMC1_uniform exMC1_nonEmpty
    hv rfl (.inl ⟨_, List.mem_singleton.2 rfl, trivial⟩)
  obtain ⟨-, ⟨b, f, -, r⟩, -⟩ := C98_follows_partial noAuto_ok exMC1_history exMC1_uniform (l' := [exB1])
    exMC_history exMC_uniform exMC_nonEmpty hw rfl (by simp [NpIx.isList]) (by decide)
  refine ⟨exB0, exB1, exMC1, exMC2, v, w, exMC1_history, exMC_history, exMC_uniform, exMC_nonEmpty, hv, hw,
    ?_, ?_, ?_⟩
  · rw [h1]; decide +kernel
  · rw [e, Option.map_some, q [0] (by decide)]
    decide +kernel
  · rw [f, Option.map_some, r [0] (by decide)]
    decide +kernel

end

end Sdepy
