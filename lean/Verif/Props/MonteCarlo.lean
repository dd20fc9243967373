import Verif.Lemmas.MonteCarlo

/-!
# Monte Carlo statistics and histograms
-/

set_option linter.unusedSectionVars false
set_option linter.unusedSimpArgs false

namespace Sdepy

open Spec

section
variable {K : Type} [Field K] [LinearOrder K] [IsStrictOrderedRing K]
  {auto : String → Option (K × K) → List K → Py (List K)}

/-- What holds after a sequence of updates. -/
structure McInv (auto : String → Option (K × K) → List K → Py (List K)) (bins : Bins K)
    (range : Option (K × K)) (use : String) (vs : List ℕ) (b0 : Batch K) (l : List (Batch K))
    (mc : MC K) : Prop where
  paths : mc.paths = (l.map (Batch.size use)).sum
  use_eq : mc.use = use
  stats : ∃ st, mc.stats = some st ∧ st.nan = hasNaN use l ∧ MomOk vs mc.paths (pooled use l) st
  no_bins : bins = .none → mc.bins = .none
  hist : bins ≠ .none → ∃ (E : List ℕ → List K) (g : List ℕ → Option (List K)), mc.bins = .objs ⟨vs, g⟩ ∧ ∀ c, InRange vs c → g c = some (E c) ∧
    FirstEdges auto bins range (b0.data use c) c (E c) ∧ IsEdges (E c) ∧
    mc.counts c = Spec.hist (E c) (pooled use l c) ∧
    mc.outside c = mc.paths - (Spec.hist (E c) (pooled use l c)).sum

theorem pooled_append (use : String) (l : List (Batch K)) (b : Batch K) (c : List ℕ) :
    pooled use (l ++ [b]) c = pooled use l c ++ b.data use c := by
  simp [pooled]

theorem sum_hist_append (e l l' : List K) :
    (hist e (l ++ l')).sum = (hist e l).sum + (hist e l').sum := by
  simp only [Spec.hist, List.countP_append, Nat.cast_add]
  rw [List.sum_map_add]

theorem histStart_ok (ha : AutoOk auto) {bins : Bins K} (hb : bins ≠ .none) {range : Option (K × K)}
    {vs : List ℕ} {x : Arr K} {n : ℕ} {X : List ℕ → List K}
    (hX : ∀ i ∈ ndindex vs, x.sub i = .ok (X i)) {h' : Hist K}
    (he : histStart auto bins range vs x n = (h', .ok ())) :
    ∀ i ∈ ndindex vs, ∃ e, h'.bins i = some e ∧ IsEdges e ∧ h'.counts i = hist e (X i) ∧
      h'.outside i = n - (hist e (X i)).sum ∧ FirstEdges auto bins range (X i) i e := by
  unfold histStart at he
  cases bins with
  | none => exact absurd rfl hb
  | int k =>
    intro i hi
    obtain ⟨e, h1, h2, h3, h4, h5⟩ := (histFirst_ok ha (ndindex_nodup vs) hX he).1 i hi
    exact ⟨e, h1, h2, h3, h4, uniformEdges_iff.1 h5⟩
  | str s => exact (histFirst_ok ha (ndindex_nodup vs) hX he).1
  | array a =>
    simp only at he
    split at he
    · split at he
      · cases he
      · exact (histFirst_ok ha (ndindex_nodup vs) hX he).1
    · cases he
  | objs a =>
    simp only at he
    split at he
    · intro i hi
      obtain ⟨e, h1, h2, h3, h4, h5⟩ := (histFirst_ok ha (ndindex_nodup vs) hX he).1 i hi
      refine ⟨e, h1, h2, h3, h4, ?_⟩
      simp only [FirstEdges]
      cases hg : a.get i with
      | none => rw [hg] at h5; exact h5.elim
      | some l => rw [hg] at h5; simp only [ArgEdges] at h5; rw [h5]
    · split at he
      · intro i hi
        obtain ⟨e, h1, h2, h3, h4, h5⟩ := (histFirst_ok ha (ndindex_nodup vs) hX he).1 i hi
        exact h5.elim
      · cases he

theorem updateHistogram_ok {mc mc' : MC K} {st : Moments K} {x : Arr K} (hb : mc.bins ≠ .none)
    (he : (match updateHistogram auto mc st x with
      | (mc', .error e) => (mc', .error e)
      | (mc', .ok ()) => ({ mc' with paths := mc'.paths + x.shape.getLastD 0 }, .ok ())) =
      (mc', (.ok () : Py Unit))) :
    ∃ h', histStep auto mc st x = (h', .ok ()) ∧
      ({ mc with
        paths := mc.paths + x.shape.getLastD 0
        bins := .objs ⟨st.vshape, h'.bins⟩
        counts := h'.counts
        outside := h'.outside } : MC K) = mc' := by
  have e : updateHistogram auto mc st x =
      let r := histStep auto mc st x
      ({ mc with bins := .objs ⟨st.vshape, r.1.bins⟩, counts := r.1.counts, outside := r.1.outside },
        match r.2 with
        | .error e => .error e
        | .ok () => histCheck st.vshape (mc.paths + x.shape.getLastD 0) r.1) := by
    unfold updateHistogram
    cases h : mc.bins with
    | none => exact absurd h hb
    | _ => rfl
  rw [e] at he
  generalize histStep auto mc st x = r at he ⊢
  obtain ⟨h', r2⟩ := r
  cases r2 with
  | error e => cases he
  | ok u =>
    simp only at he
    cases hc : histCheck st.vshape (mc.paths + x.shape.getLastD 0) h' with
    | error e => rw [hc] at he; cases he
    | ok u' =>
      rw [hc] at he
      simp only [Prod.mk.injEq, and_true] at he
      exact ⟨h', rfl, he⟩

theorem histCheck_ok {vs : List ℕ} {n : ℕ} {h : Hist K}
    (hc : ∀ i ∈ ndindex vs, (h.counts i).sum + h.outside i = n) : histCheck vs n h = .ok () := by
  rw [histCheck, if_pos hc]

/-- `update` succeeds, if the loops over components do. -/
theorem update_of_step {mc : MC K} {b : Batch K} {x : Arr K} {st : Moments K} {h' : Hist K}
    (hp : mcPrepare mc.use b.x b.axis = .ok x) (hst : updateMoments mc.paths mc.stats x = .ok st)
    (hb : mc.bins ≠ .none) (hs : histStep auto { mc with stats := some st } st x = (h', .ok ()))
    (hc : ∀ i ∈ ndindex st.vshape, (h'.counts i).sum + h'.outside i =
      ((mc.paths + x.shape.getLastD 0 : ℕ) : ℤ)) :
    mc.update auto b.x b.axis = ({ mc with
      paths := mc.paths + x.shape.getLastD 0
      stats := some st
      bins := .objs ⟨st.vshape, h'.bins⟩
      counts := h'.counts
      outside := h'.outside }, .ok ()) := by
  simp only [MC.update, hp, hst]
  have e : updateHistogram auto { mc with stats := some st } st x =
      ({ mc with
        stats := some st
        bins := .objs ⟨st.vshape, h'.bins⟩
        counts := h'.counts
        outside := h'.outside }, .ok ()) := by
    have hb' : ({ mc with stats := some st } : MC K).bins ≠ .none := hb
    have hck := histCheck_ok hc
    unfold updateHistogram
    rw [hs]
    cases hbn : mc.bins with
    | none => exact absurd hbn hb
    | _ => simp only [hck]
  rw [e]

theorem hasNaN_append (use : String) (l : List (Batch K)) (b : Batch K) :
    hasNaN use (l ++ [b]) =
      (((l.map (Batch.size use)).sum != 0 && hasNaN use l) || decide (b.size use = 0)) := by
  induction l with
  | nil =>
    by_cases h : b.size use = 0 <;> simp [hasNaN, List.dropWhile_cons, h]
  | cons a l ih =>
    by_cases h : a.size use = 0
    · have e : ∀ l', hasNaN use (a :: l') = hasNaN use l' := fun l' => by
        simp [hasNaN, List.dropWhile_cons, h]
      rw [List.cons_append, e, e, ih]
      simp [h]
    · have : a.size use + (l.map (Batch.size use)).sum ≠ 0 := by omega
      have h' : (a.size use + (l.map (Batch.size use)).sum != 0) = true := bne_iff_ne.2 this
      simp [hasNaN, List.dropWhile_cons, h, h']

theorem Spec.NonEmpty.nan {use : String} {b : Batch K} {l : List (Batch K)} (h : NonEmpty use (b :: l)) :
    hasNaN use (b :: l) = false := by
  have h0 : b.size use ≠ 0 := (h b (by simp)).ne'
  simp only [hasNaN, List.dropWhile_cons, h0, decide_false, Bool.false_eq_true, if_false,
    List.any_eq_false, decide_eq_true_eq]
  exact fun b' hb' => (h b' (by simp [hb'])).ne'

theorem Spec.NonEmpty.pos {use : String} {b : Batch K} {l : List (Batch K)} (h : NonEmpty use (b :: l)) :
    0 < ((b :: l).map (Batch.size use)).sum := by
  have h0 := h b (by simp)
  simp only [List.map_cons, List.sum_cons]
  omega

theorem data_length {use : String} {b : Batch K} {x : Arr K} (hp : mcPrepare use b.x b.axis = .ok x)
    (c : List ℕ) : (b.data use c).length = b.size use := by
  obtain ⟨-, -, hdata, -⟩ := prepare_ok hp
  rw [← hdata c]
  simp

/-- The loop over components of `_update_histogram`, after a sequence of updates. -/
theorem histStep_inv (ha : AutoOk auto) {bins : Bins K} {range : Option (K × K)} {use : String}
    {vs : List ℕ} {b0 b : Batch K} {l : List (Batch K)} {mc : MC K}
    (hl : McInv auto bins range use vs b0 l mc) (hb : bins ≠ .none) {st : Moments K}
    (hvs : st.vshape = vs) {x : Arr K} (hx : x.shape = vs ++ [b.size use])
    (hX : ∀ i ∈ ndindex vs, x.sub i = .ok (b.data use i)) :
    ∃ h', histStep auto { mc with stats := some st } st x = (h', .ok ()) ∧
      ∀ c ∈ ndindex vs, ∃ e, FirstEdges auto bins range (b0.data use c) c e ∧ IsEdges e ∧
        h'.bins c = some e ∧ h'.counts c = hist e (pooled use (l ++ [b]) c) ∧
        h'.outside c = (mc.paths + b.size use : ℕ) - (hist e (pooled use (l ++ [b]) c)).sum := by
  have hlast : x.shape.getLastD 0 = b.size use := by rw [hx]; simp
  obtain ⟨E, g, hg, hE⟩ := hl.hist hb
  obtain ⟨_, -, -, hm⟩ := hl.stats
  by_cases h0 : mc.paths = 0
  · have hP : ∀ c, InRange vs c → pooled use (l ++ [b]) c = b.data use c := by
      intro c hc
      have := hm.size c hc
      rw [h0] at this
      rw [pooled_append, List.eq_nil_of_length_eq_zero this, List.nil_append]
    have key : ∀ (L : List (List ℕ)) (h : Hist K), (∀ i ∈ L, i ∈ ndindex vs) →
        ∃ h', histFirst auto x (fun i => match g i with | none => .bad | some l => .edges l) none
          (b.size use) L h = (h', .ok ()) := by
      intro L
      induction L with
      | nil => exact fun h _ => ⟨h, rfl⟩
      | cons i L ih =>
        intro h hL
        obtain ⟨q1, -, q3, -⟩ := hE i (mem_ndindex.1 (hL i (by simp)))
        simp only [histFirst, hX i (hL i (by simp)), q1, npHist_edges auto q3]
        exact ih _ fun j hj => hL j (List.mem_cons_of_mem _ hj)
    obtain ⟨h', hr⟩ := key (ndindex vs) ⟨g, fun _ => [], fun _ => 0⟩ fun _ h => h
    refine ⟨h', ?_, ?_⟩
    · simp only [histStep, h0, if_true, histStart, hg, hvs, hlast, Nat.zero_add]
      exact hr
    · intro c hc
      obtain ⟨r1, -⟩ := histFirst_ok ha (ndindex_nodup vs) hX hr
      obtain ⟨e, k1, k2, k3, k4, k5⟩ := r1 c hc
      obtain ⟨q1, q2, q3, -⟩ := hE c (mem_ndindex.1 hc)
      simp only [q1, ArgEdges] at k5
      subst k5
      rw [hP c (mem_ndindex.1 hc), h0, Nat.zero_add]
      exact ⟨E c, q2, q3, k1, k3, k4⟩
  · obtain ⟨h', hr⟩ := histNext_total (auto := auto) (m := b.size use)
      (h := ⟨g, mc.counts, mc.outside⟩) hX (fun i hi => by
        obtain ⟨q1, -, q3, -⟩ := hE i (mem_ndindex.1 hi)
        exact ⟨E i, q1, q3⟩)
    obtain ⟨r0, r1, -⟩ := histNext_ok ha (ndindex_nodup vs) hX hr
    refine ⟨h', ?_, ?_⟩
    · rw [← hr, ← hlast]
      simp only [histStep, if_neg h0, hg, hvs]
    · intro i hi
      obtain ⟨q1, q2, q3, q4, q5⟩ := hE i (mem_ndindex.1 hi)
      obtain ⟨e, k1, k2, k3⟩ := r1 i hi
      simp only [q1, Option.some.injEq] at k1
      subst k1
      simp only at k2 k3
      refine ⟨E i, q2, q3, by rw [r0]; exact q1, ?_, ?_⟩
      · rw [k2, pooled_append, hist_append, ← q4]
      · rw [k3, pooled_append, sum_hist_append, q5]
        push_cast
        ring

/-- What `update` does, after a sequence of updates, given a sample of the same shape. -/
theorem mc_next (ha : AutoOk auto) {bins : Bins K} {range : Option (K × K)} {use : String}
    {vs : List ℕ} {b0 b : Batch K} {l : List (Batch K)} {mc : MC K}
    (hl : McInv auto bins range use vs b0 l mc) (hv : b.vshape = vs) {x : Arr K}
    (hp : mcPrepare use b.x b.axis = .ok x) :
    ∃ mc', mc.update auto b.x b.axis = (mc', .ok ()) ∧
      McInv auto bins range use vs b0 (l ++ [b]) mc' := by
  have hp' : mcPrepare mc.use b.x b.axis = .ok x := by rw [hl.use_eq]; exact hp
  obtain ⟨-, hx, hdata, -⟩ := prepare_ok hp
  rw [hv] at hx
  have hlast : x.shape.getLastD 0 = b.size use := by rw [hx]; simp
  have hX : ∀ i ∈ ndindex vs, x.sub i = .ok (b.data use i) := by
    intro i hi
    rw [sub_cell x hx (mem_ndindex.1 hi), hdata]
  obtain ⟨st0, hst0, hn0, hm0⟩ := hl.stats
  obtain ⟨st, hst, hn, hm⟩ := updateMoments_ok (stats := mc.stats) (fun _ => ⟨st0, hst0, hm0⟩)
    (fun h0 c hc => List.eq_nil_of_length_eq_zero ((hm0.size c hc).trans h0)) hx
  have hP : (fun c => pooled use l c ++ (List.range (b.size use)).map fun k => x.get (c ++ [k])) =
      pooled use (l ++ [b]) := by
    funext c
    rw [pooled_append, hdata]
  rw [hP] at hm
  have hn' : st.nan = hasNaN use (l ++ [b]) := by
    rw [hn, hasNaN_append, hst0, ← hl.paths, Option.any_some, hn0]
  have hpaths : mc.paths + b.size use = ((l ++ [b]).map (Batch.size use)).sum := by simp [hl.paths]
  by_cases hb : bins = .none
  · have hmb := hl.no_bins hb
    refine ⟨{ mc with stats := some st, paths := mc.paths + b.size use }, ?_, hpaths, hl.use_eq,
      ⟨st, rfl, hn', hm⟩, fun _ => hmb, fun h => absurd hb h⟩
    simp only [MC.update, hp', hst, updateHistogram, hmb, hlast]
  · obtain ⟨h', hs, hv'⟩ := histStep_inv ha hl hb hm.vshape hx hX
    have hmb : mc.bins ≠ .none := by
      obtain ⟨E, g, hg, -⟩ := hl.hist hb
      rw [hg]; simp
    refine ⟨_, update_of_step hp' hst hmb hs ?_, ?_⟩
    · rw [hm.vshape]
      intro i hi
      obtain ⟨e, -, -, -, k1, k2⟩ := hv' i hi
      rw [k1, k2, hlast]
      ring
    · refine ⟨?_, hl.use_eq, ⟨st, rfl, hn', ?_⟩, fun h => absurd h hb, fun _ =>
        ⟨fun c => (h'.bins c).getD [], h'.bins, by rw [← hm.vshape], fun c hc => ?_⟩⟩
      · simp only [hlast]; exact hpaths
      · simp only [hlast]; exact hm
      · obtain ⟨e, e1, e2, e3, e4, e5⟩ := hv' c (mem_ndindex.2 hc)
        simp only [e3, Option.getD_some, hlast]
        exact ⟨trivial, e1, e2, e4, e5⟩

/-- The first sample. -/
theorem mc_first (ha : AutoOk auto) {bins : Bins K} {range : Option (K × K)} {use : String}
    {b : Batch K} {mc' : MC K}
    (he : (MC.new bins range use).update auto b.x b.axis = (mc', .ok ())) :
    McInv auto bins range use b.vshape b [b] mc' := by
  unfold MC.update at he
  cases hp : mcPrepare (MC.new bins range use).use b.x b.axis with
  | error e => simp only [hp] at he; cases he
  | ok x =>
    simp only [hp] at he
    replace hp : mcPrepare use b.x b.axis = .ok x := hp
    obtain ⟨-, hx, hdata, -⟩ := prepare_ok hp
    obtain ⟨st, hst, hn, hmom⟩ := updateMoments_ok (N := (MC.new bins range use).paths)
      (stats := (MC.new bins range use).stats) (P := fun _ => []) (fun h => absurd rfl h)
      (fun _ _ _ => rfl) hx
    simp only [hst] at he
    have hlast : x.shape.getLastD 0 = b.size use := by rw [hx]; simp
    have hlast' : x.shape.getLast?.getD 0 = b.size use := by rw [hx]; simp
    have hX : ∀ i ∈ ndindex b.vshape, x.sub i = .ok (b.data use i) := by
      intro i hi
      rw [sub_cell x hx (mem_ndindex.1 hi), hdata]
    have hmom' : MomOk b.vshape (0 + b.size use) (pooled use [b]) st := by
      have : (fun c => ([] : List K) ++ (List.range (b.size use)).map fun k => x.get (c ++ [k])) =
          pooled use [b] := by
        funext c
        rw [hdata]
        simp [pooled]
      rw [← this]
      exact hmom
    have hn' : st.nan = hasNaN use [b] := by
      have := hasNaN_append use [] b
      rw [List.nil_append] at this
      rw [hn, this]
      rfl
    have hvs : st.vshape = b.vshape := hmom.vshape
    by_cases hb : bins = .none
    · subst hb
      simp only [updateHistogram, MC.new, hlast, Prod.mk.injEq, and_true] at he
      subst he
      exact ⟨by simp, rfl, ⟨st, rfl, hn', hmom'⟩, fun _ => rfl, fun h => absurd rfl h⟩
    · obtain ⟨h', hr, rfl⟩ := updateHistogram_ok (mc := { MC.new bins range use with stats := some st })
        hb he
      have hr' : histStart auto bins range b.vshape x (0 + b.size use) = (h', .ok ()) := by
        rw [← hr, ← hvs, ← hlast]; rfl
      have hh := histStart_ok ha hb hX hr'
      refine ⟨by simp [MC.new, hlast'], rfl, ⟨st, rfl, hn', ?_⟩, fun h => absurd h hb, fun _ => ?_⟩
      · simp only [hlast]; exact hmom'
      refine ⟨fun c => (h'.bins c).getD [], h'.bins, by simp [hvs], fun c hc => ?_⟩
      obtain ⟨e, h1, h2, h3, h4, h5⟩ := hh c (mem_ndindex.2 hc)
      simp only [h1, Option.getD_some, List.nil_append]
      have hp0 : pooled use [b] c = b.data use c := by simp [pooled]
      rw [hp0]
      refine ⟨trivial, h5, h2, h3, ?_⟩
      rw [h4]
      simp [MC.new, hlast']

theorem mc_history (ha : AutoOk auto) {bins : Bins K} {range : Option (K × K)} {use : String}
    {vs : List ℕ} {l : List (Batch K)} {mc : MC K} (h : McHistory auto bins range use l mc)
    (hu : Uniform vs l) :
    (l = [] ∧ mc = MC.new bins range use) ∨
      ∃ b0 l', l = b0 :: l' ∧ McInv auto bins range use vs b0 l mc := by
  induction h with
  | new => exact .inl ⟨rfl, rfl⟩
  | @update l mc b mc' h he ih =>
    have hv := hu b (by simp)
    right
    rcases ih (fun b' hb' => hu b' (by simp [hb'])) with ⟨rfl, rfl⟩ | ⟨b0, l', rfl, hi⟩
    · subst hv
      exact ⟨b, [], rfl, mc_first ha he⟩
    · refine ⟨b0, l' ++ [b], rfl, ?_⟩
      cases hp : mcPrepare use b.x b.axis with
      | error e =>
        simp only [MC.update, hi.use_eq, hp] at he
        cases he
      | ok x =>
        obtain ⟨mc'', h1, h2⟩ := mc_next ha hi hv hp
        rw [he] at h1
        simp only [Prod.mk.injEq, and_true] at h1
        subst h1
        exact h2

theorem mc_inv (ha : AutoOk auto) {bins : Bins K} {range : Option (K × K)} {use : String}
    {vs : List ℕ} {b0 : Batch K} {l : List (Batch K)} {mc : MC K}
    (h : McHistory auto bins range use (b0 :: l) mc) (hu : Uniform vs (b0 :: l)) :
    McInv auto bins range use vs b0 (b0 :: l) mc := by
  rcases mc_history ha h hu with ⟨h0, -⟩ | ⟨b1, l', h1, h2⟩
  · cases h0
  · simp only [List.cons.injEq] at h1
    obtain ⟨rfl, rfl⟩ := h1
    exact h2

/-- Central moments, as computed from the stored ones. -/
theorem MomOk.central {vs : List ℕ} {n : ℕ} {P : List ℕ → List K} {st : Moments K}
    (h : MomOk vs n P st) (hn : 0 < n) {c : List ℕ} (hc : InRange vs c) :
    st.at 1 c - st.at 0 c * st.at 0 c = cmom 2 (P c) ∧
    st.at 2 c - 3 * st.at 0 c * st.at 1 c + 2 * st.at 0 c ^ 3 = cmom 3 (P c) ∧
    st.at 3 c - 4 * st.at 0 c * st.at 2 c + 6 * st.at 0 c * st.at 0 c * st.at 1 c - 3 * st.at 0 c ^ 4 =
      cmom 4 (P c) := by
  have hl : P c ≠ [] := by
    intro h0
    have := h.size c hc
    rw [h0] at this
    simp at this
    omega
  obtain ⟨-, h2, h3, h4⟩ := cmom_of_moments (P c) (st.center.get c) hl
  rw [h.mom 0 (by omega) c hc, h.mom 1 (by omega) c hc, h.mom 2 (by omega) c hc,
    h.mom 3 (by omega) c hc]
  exact ⟨h2.symm, h3.symm, h4.symm⟩

theorem cmom_two_single (l : List K) (h : l.length < 2) : cmom 2 l = 0 := by
  rcases l with _ | ⟨a, _ | ⟨b, l⟩⟩
  · simp [cmom, avg]
  · simp [cmom, avg]
  · simp at h

/-- **C35** (number of paths, mean). After any sequence of updates with non empty samples, `paths` is
the number of all data points, and `mean` is their mean, for each component. -/
theorem C35_mean (ha : AutoOk auto) {bins : Bins K} {range : Option (K × K)} {use : String}
    {vs : List ℕ} {b0 : Batch K} {l : List (Batch K)} {mc : MC K}
    (h : McHistory auto bins range use (b0 :: l) mc) (hu : Uniform vs (b0 :: l))
    (hne : NonEmpty use (b0 :: l)) :
    mc.paths = ((b0 :: l).map (Batch.size use)).sum ∧
    (∀ c, InRange vs c → mc.paths = (pooled use (b0 :: l) c).length) ∧
    ∃ a, mc.mean = some a ∧ a.shape = vs ∧
      ∀ c, InRange vs c → a.get c = some (avg (pooled use (b0 :: l) c)) := by
  obtain ⟨hp, -, ⟨st, hst, hn, hm⟩, -⟩ := mc_inv ha h hu
  have hpos : 0 < mc.paths := hp ▸ hne.pos
  replace hn : st.nan = false := hn.trans hne.nan
  refine ⟨hp, fun c hc => (hm.size c hc).symm, _, by rw [MC.mean, hst]; rfl, hm.vshape, fun c hc => ?_⟩
  simp [hn, hm.mean c hc]

/-- **C35** (empty samples). If some samples are empty, `paths` is still the number of all data points, and
`mean` is their mean or not-a-number; it is not-a-number exactly if there is no data, or an empty
sample has been added after one that is not empty. -/
theorem C35_nan (ha : AutoOk auto) {bins : Bins K} {range : Option (K × K)} {use : String}
    {vs : List ℕ} {b0 : Batch K} {l : List (Batch K)} {mc : MC K}
    (h : McHistory auto bins range use (b0 :: l) mc) (hu : Uniform vs (b0 :: l)) :
    mc.paths = ((b0 :: l).map (Batch.size use)).sum ∧
    (∀ c, InRange vs c → mc.paths = (pooled use (b0 :: l) c).length) ∧
    ∃ a, mc.mean = some a ∧ a.shape = vs ∧ ∀ c, InRange vs c →
      a.get c = if hasNaN use (b0 :: l) then none else some (avg (pooled use (b0 :: l) c)) := by
  obtain ⟨hp, -, ⟨st, hst, hn, hm⟩, -⟩ := mc_inv ha h hu
  refine ⟨hp, fun c hc => (hm.size c hc).symm, _, by rw [MC.mean, hst]; rfl, hm.vshape, fun c hc => ?_⟩
  simp only [hn, hm.mean c hc]

/-- **C35** (variance). -/
theorem C35_var (ha : AutoOk auto) {bins : Bins K} {range : Option (K × K)} {use : String}
    {vs : List ℕ} {b0 : Batch K} {l : List (Batch K)} {mc : MC K}
    (h : McHistory auto bins range use (b0 :: l) mc) (hu : Uniform vs (b0 :: l))
    (hne : NonEmpty use (b0 :: l)) :
    ∃ a, mc.var = .ok a ∧ a.shape = vs ∧
      ∀ c, InRange vs c → a.get c = some (cmom 2 (pooled use (b0 :: l) c)) := by
  obtain ⟨hp, -, ⟨st, hst, hn, hm⟩, -⟩ := mc_inv ha h hu
  have hpos : 0 < mc.paths := hp ▸ hne.pos
  replace hn : st.nan = false := hn.trans hne.nan
  refine ⟨_, by rw [MC.var, hst], hm.vshape, fun c hc => ?_⟩
  simp only [hn, Bool.false_eq_true, if_false, (hm.central hpos hc).1, Option.some.injEq]
  split
  · next h2 => rw [cmom_two_single _ (by rw [hm.size c hc]; exact h2)]
  · rfl

/-- **C35** (kurtosis). With at least two data points, `kurtosis` is the ratio of the fourth central
moment to the square of the variance (not-a-number if this is zero). With a single one, it is `-3`. -/
theorem C35_kurtosis (ha : AutoOk auto) {bins : Bins K} {range : Option (K × K)} {use : String}
    {vs : List ℕ} {b0 : Batch K} {l : List (Batch K)} {mc : MC K}
    (h : McHistory auto bins range use (b0 :: l) mc) (hu : Uniform vs (b0 :: l))
    (hne : NonEmpty use (b0 :: l)) :
    ∃ a, mc.kurtosis = .ok a ∧ a.shape = vs ∧ ∀ c, InRange vs c →
      let P := pooled use (b0 :: l) c
      a.get c = if P.length < 2 then some (-3) else if cmom 2 P = 0 then none
        else some (cmom 4 P / cmom 2 P ^ 2) := by
  obtain ⟨hp, -, ⟨st, hst, hn, hm⟩, -⟩ := mc_inv ha h hu
  have hpos : 0 < mc.paths := hp ▸ hne.pos
  replace hn : st.nan = false := hn.trans hne.nan
  refine ⟨_, by rw [MC.kurtosis, hst], hm.vshape, fun c hc => ?_⟩
  simp only [hn, Bool.false_eq_true, if_false, (hm.central hpos hc).1,
    (hm.central hpos hc).2.2, hm.size c hc, zero_mul, add_zero]

/-- **C36**. After any sequence of updates, for each component: the bins are those prescribed by the parameter `bins` for the first sample, the counts are those of all data on such
bins, and counts plus `outpaths` sum to `paths`. -/
theorem C36_histogram (ha : AutoOk auto) {bins : Bins K} (hb : bins ≠ .none) {range : Option (K × K)}
    {use : String} {vs : List ℕ} {b0 : Batch K} {l : List (Batch K)} {mc : MC K}
    (h : McHistory auto bins range use (b0 :: l) mc) (hu : Uniform vs (b0 :: l)) :
    ∃ (E : List ℕ → List K) (g : List ℕ → Option (List K)), mc.bins = .objs ⟨vs, g⟩ ∧
      ∀ c, InRange vs c → g c = some (E c) ∧
        FirstEdges auto bins range (b0.data use c) c (E c) ∧
        mc.counts c = hist (E c) (pooled use (b0 :: l) c) ∧
        (mc.counts c).sum + mc.outside c = mc.paths := by
  obtain ⟨E, g, h1, h2⟩ := (mc_inv ha h hu).hist hb
  refine ⟨E, g, h1, fun c hc => ?_⟩
  obtain ⟨q1, q2, -, q4, q5⟩ := h2 c hc
  exact ⟨q1, q2, q4, by rw [q4, q5]; ring⟩

/-- **C36** (no spurious error). Once a sample has been cumulated, `update` accepts all valid
samples of data points of the same shape: in particular its final consistency check does not
raise. -/
theorem C36_accepts (ha : AutoOk auto) {bins : Bins K} {range : Option (K × K)}
    {use : String} {vs : List ℕ} {b0 b : Batch K} {l : List (Batch K)} {mc : MC K}
    (h : McHistory auto bins range use (b0 :: l) mc) (hu : Uniform vs (b0 :: l))
    (hv : b.vshape = vs) (hok : b.Valid use) :
    ∃ mc', mc.update auto b.x b.axis = (mc', .ok ()) := by
  obtain ⟨x, hp⟩ := prepare_total hok
  obtain ⟨mc', h1, -⟩ := mc_next ha (mc_inv ha h hu) hv hp
  exact ⟨mc', h1⟩

theorem accepts_prepared (ha : AutoOk auto) {bins : Bins K} {range : Option (K × K)} {use : String}
    (hb : bins = .none ∨ ∃ n : ℤ, 1 ≤ n ∧ bins = .int n) (hr : ∀ r, range = some r → r.1 ≤ r.2)
    {b : Batch K} {x : Arr K} (hp' : mcPrepare (MC.new bins range use).use b.x b.axis = .ok x) :
    ∃ mc', (MC.new bins range use).update auto b.x b.axis = (mc', .ok ()) := by
  have hp : mcPrepare use b.x b.axis = .ok x := hp'
  obtain ⟨-, hx, hdata, -⟩ := prepare_ok hp
  obtain ⟨st, hst, -, hmom⟩ := updateMoments_ok (N := (MC.new bins range use).paths)
    (stats := (MC.new bins range use).stats) (P := fun _ => []) (fun h => absurd rfl h)
    (fun _ _ _ => rfl) hx
  have hlast : x.shape.getLastD 0 = b.size use := by rw [hx]; simp
  have hX : ∀ i ∈ ndindex b.vshape, x.sub i = .ok (b.data use i) := by
    intro i hi
    rw [sub_cell x hx (mem_ndindex.1 hi), hdata]
  rcases hb with rfl | ⟨n, hn, rfl⟩
  · simp only [MC.update, hp', hst, updateHistogram]
    exact ⟨_, rfl⟩
  · obtain ⟨h', hr⟩ := histFirst_total (auto := auto) (n := 0 + b.size use) (arg := fun _ => .int n)
      (range := range) (h := ⟨fun _ => none, fun _ => [], fun _ => 0⟩) (fun i _ y => by
        obtain ⟨e, he⟩ := uniformEdges_total hn hr y
        exact ⟨(countsOf e y, e), by simp only [npHist, he]⟩) hX
    obtain ⟨r1, -⟩ := histFirst_ok ha (ndindex_nodup _) hX hr
    refine ⟨_, update_of_step hp' hst (by simp [MC.new]) (h' := h') ?_ ?_⟩
    · rw [← hr, ← hlast]
      simp only [histStep, MC.new, if_true, histStart, hmom.vshape]
    · rw [hmom.vshape]
      intro i hi
      obtain ⟨e, -, -, k2, k3, -⟩ := r1 i hi
      rw [k2, k3, hlast]
      simp only [MC.new]
      ring

/-- **C36** (no spurious error, first sample). With `bins` a positive number, and `range` absent or in
order, or with `bins=None`, `update` accepts any valid sample. -/
theorem C36_accepts_first (ha : AutoOk auto) {bins : Bins K} {range : Option (K × K)} {use : String}
    (hb : bins = .none ∨ ∃ n : ℤ, 1 ≤ n ∧ bins = .int n) (hr : ∀ r, range = some r → r.1 ≤ r.2)
    {b : Batch K} (hok : b.Valid use) :
    ∃ mc', (MC.new bins range use).update auto b.x b.axis = (mc', .ok ()) := by
  obtain ⟨x, hp⟩ := prepare_total hok
  exact accepts_prepared ha hb hr hp

/-- **C36** (no spurious error, first sample, given edges). With `bins` an array of edges in ascending
order for each component, `update` accepts any valid sample. -/
theorem C36_accepts_edges (ha : AutoOk auto) {a : Arr K} {range : Option (K × K)} {use : String}
    {b : Batch K} {n : ℕ} (hs : a.shape = b.vshape ++ [n]) (hn : 0 < n)
    (he : ∀ c, InRange b.vshape c → ((List.range n).map fun k => a.get (c ++ [k])).Pairwise (· ≤ ·))
    (hok : b.Valid use) :
    ∃ mc', (MC.new (.array a) range use).update auto b.x b.axis = (mc', .ok ()) := by
  obtain ⟨x, hp⟩ := prepare_total hok
  have hp' : mcPrepare (MC.new (.array a) range use).use b.x b.axis = .ok x := hp
  obtain ⟨-, hx, hdata, -⟩ := prepare_ok hp
  obtain ⟨st, hst, -, hmom⟩ := updateMoments_ok (N := (MC.new (.array a) range use).paths)
    (stats := (MC.new (.array a) range use).stats) (P := fun _ => []) (fun h => absurd rfl h)
    (fun _ _ _ => rfl) hx
  have hlast : x.shape.getLastD 0 = b.size use := by rw [hx]; simp
  have hX : ∀ i ∈ ndindex b.vshape, x.sub i = .ok (b.data use i) := by
    intro i hi
    rw [sub_cell x hx (mem_ndindex.1 hi), hdata]
  have hne : a.shape ≠ [] := by rw [hs]; simp
  have hd : a.shape.dropLast = b.vshape := by rw [hs]; simp
  have hl : a.shape.getLastD 0 = n := by rw [hs]; simp
  obtain ⟨h', hr⟩ := histFirst_total (auto := auto) (n := 0 + b.size use)
    (arg := fun i => .edges ((List.range (a.shape.getLastD 0)).map fun k => a.get (i ++ [k])))
    (range := none) (h := ⟨fun i => some ((List.range (a.shape.getLastD 0)).map fun k => a.get (i ++ [k])),
      fun _ => [], fun _ => 0⟩) (fun i hi y => by
      rw [hl]
      refine ⟨(countsOf ((List.range n).map fun k => a.get (i ++ [k])) y,
        (List.range n).map fun k => a.get (i ++ [k])), ?_⟩
      simp only [npHist, if_pos (he i (mem_ndindex.1 hi))]
      rw [if_neg (by simp; omega)]) hX
  obtain ⟨r1, -⟩ := histFirst_ok ha (ndindex_nodup _) hX hr
  refine ⟨_, update_of_step hp' hst (by simp [MC.new]) (h' := h') ?_ ?_⟩
  · rw [← hr, ← hlast]
    simp only [histStep, MC.new, if_true, histStart, hmom.vshape, if_pos hd, if_neg hne]
  · rw [hmom.vshape]
    intro i hi
    obtain ⟨e, -, -, k2, k3, -⟩ := r1 i hi
    rw [k2, k3, hlast]
    simp only [MC.new]
    ring

/-- **C36**, as seen by the user of a single valued instance: what `histogram()` and `outpaths`
return. -/
theorem C36_single (ha : AutoOk auto) {bins : Bins K} (hb : bins ≠ .none) {range : Option (K × K)}
    {use : String} {vs : List ℕ} (hvs : ndindex vs = [c]) {b0 : Batch K} {l : List (Batch K)}
    {mc : MC K} (h : McHistory auto bins range use (b0 :: l) mc) (hu : Uniform vs (b0 :: l))
    (hpos : mc.paths ≠ 0) :
    ∃ e, FirstEdges auto bins range (b0.data use c) c e ∧
      mc.histogram = .ok (hist e (pooled use (b0 :: l) c), e) ∧
      ∃ o, mc.outpaths = .ok o ∧ o.shape = vs ∧
        (hist e (pooled use (b0 :: l) c)).sum + o.get c = mc.paths := by
  obtain ⟨E, g, h1, h2⟩ := C36_histogram ha hb h hu
  obtain ⟨q1, q2, q3, q4⟩ := h2 c (mem_ndindex.1 (by rw [hvs]; simp))
  have hh : mc.histogram = .ok (hist (E c) (pooled use (b0 :: l) c), E c) := by
    simp only [MC.histogram, h1, if_neg hpos, hvs, q1, q3, Option.getD_some]
  refine ⟨E c, q2, hh, ⟨vs, mc.outside⟩, ?_, rfl, ?_⟩
  · simp only [MC.outpaths, hh, h1]
  · rw [← q3]; exact q4

theorem sum_diffs : ∀ (a : ℤ) (l : List ℤ),
    (List.zipWith (fun a b => b - a) (a :: l) l).sum = (a :: l).getLastD 0 - a
  | a, [] => by simp
  | a, b :: l => by
    rw [List.zipWith_cons_cons, List.sum_cons, sum_diffs b l]
    simp

/-- **C36**: `outpaths` is the number of data below the first edge, or above the last one. -/
theorem C36_outpaths (ha : AutoOk auto) {bins : Bins K} (hb : bins ≠ .none) {range : Option (K × K)}
    {use : String} {vs : List ℕ} {b0 : Batch K} {l : List (Batch K)} {mc : MC K}
    (h : McHistory auto bins range use (b0 :: l) mc) (hu : Uniform vs (b0 :: l)) {c : List ℕ}
    (hc : InRange vs c) {a b : K} {e : List K} {g : List ℕ → Option (List K)}
    (hg : mc.bins = .objs ⟨vs, g⟩) (he : g c = some (a :: e ++ [b])) :
    mc.outside c = (pooled use (b0 :: l) c).countP fun v => v < a ∨ b < v := by
  obtain ⟨E, g', h1, h2⟩ := (mc_inv ha h hu).hist hb
  obtain ⟨q1, -, ⟨-, q3⟩, q4, q5⟩ := h2 c hc
  have p1 : ∀ c, InRange vs c → mc.paths = (pooled use (b0 :: l) c).length := fun c hc => by
    obtain ⟨_, -, -, hm⟩ := (mc_inv ha h hu).stats
    exact (hm.size c hc).symm
  rw [hg] at h1
  simp only [Bins.objs.injEq, Arr.mk.injEq, true_and] at h1
  subst h1
  rw [he] at q1
  simp only [Option.some.injEq] at q1
  rw [q5, ← q1, ← countsOf_eq (by rw [q1]; exact q3), p1 c hc]
  rw [← q1] at q3
  have hab : a ≤ b := by
    rw [List.cons_append, List.pairwise_cons] at q3
    exact q3.1 b (by simp)
  have d1 : (a :: (e ++ [b])).dropLast = a :: e := by rw [← List.cons_append, List.dropLast_concat]
  have d2 : (a :: (e ++ [b])).getLast? = some b := by rw [← List.cons_append, List.getLast?_concat]
  simp only [countsOf, d1, d2, Option.toList_some, List.map_cons, List.map_nil, List.cons_append,
    List.tail_cons]
  rw [sum_diffs]
  generalize pooled use (b0 :: l) c = P
  have key : ∀ P : List K, (P.length : ℤ) - ((P.countP (fun v => decide (v ≤ b)) : ℕ) -
      (P.countP (fun v => decide (v < a)) : ℕ)) = (P.countP fun v => v < a ∨ b < v : ℕ) := by
    intro P
    induction P with
    | nil => simp
    | cons v P ih =>
      simp only [List.countP_cons, List.length_cons]
      push_cast
      rw [← ih]
      by_cases c1 : v < a
      · have : v ≤ b := (c1.trans_le hab).le
        simp [c1, this]
        ring
      · by_cases c2 : b < v
        · simp [c1, c2, c2.not_ge]
          ring
        · simp [c1, c2, not_lt.1 c2]
          ring
  rw [← key P, List.getLastD_eq_getLast?, ← List.cons_append, List.getLast?_concat, Option.getD_some]

/-- **C36**: data are in at most one bin, so that none is counted twice. -/
theorem C36_bins {e : List K} (hs : e.Pairwise (· ≤ ·)) {i j : ℕ} {v : K} (hi : inBin e i v)
    (hj : inBin e j v) : i = j := by
  have key : ∀ i j, i < j → inBin e i v = true → inBin e j v = true → False := by
    intro i j hij hi hj
    unfold inBin at hi hj
    split at hi
    · next a b h1 h2 =>
      split at hj
      · next a' b' h1' h2' =>
        simp only [decide_eq_true_eq] at hi hj
        obtain ⟨k2, e2⟩ := List.getElem?_eq_some_iff.1 h2
        obtain ⟨k3, e3⟩ := List.getElem?_eq_some_iff.1 h1'
        obtain ⟨k4, e4⟩ := List.getElem?_eq_some_iff.1 h2'
        have hba : b ≤ a' := by
          rw [← e2, ← e3]
          rcases Nat.lt_or_ge (i + 1) j with hlt | hge
          · exact List.pairwise_iff_getElem.1 hs _ _ k2 k3 hlt
          · have : i + 1 = j := by omega
            simp [this]
        rcases hi.2 with hlt | ⟨-, hl⟩
        · exact absurd (hlt.trans_le (hba.trans hj.1)) (lt_irrefl _)
        · omega
      · cases hj
    · cases hi
  rcases lt_trichotomy i j with h | h | h
  · exact (key i j h hi hj).elim
  · exact h
  · exact (key j i h hj hi).elim

theorem avg_perm {l l' : List K} (h : l.Perm l') : avg l = avg l' := by
  unfold avg; rw [h.sum_eq, h.length_eq]

theorem cmom_perm {l l' : List K} (h : l.Perm l') (k : ℕ) : cmom k l = cmom k l' := by
  unfold cmom; rw [avg_perm h]; exact avg_perm (h.map _)

theorem hist_perm {l l' : List K} (h : l.Perm l') (e : List K) : hist e l = hist e l' := by
  unfold hist
  refine List.map_congr_left fun j _ => ?_
  rw [h.countP_eq]

/-- **C37** (statistics). If the same data are processed by any two sequences of updates, split and
ordered in different ways, the number of paths and the statistics are the same (also with different
bins). -/
theorem C37_statistics (ha : AutoOk auto) {bins bins' : Bins K} {range range' : Option (K × K)}
    {use : String} {vs : List ℕ} {b0 b0' : Batch K} {l l' : List (Batch K)} {mc mc' : MC K}
    (h : McHistory auto bins range use (b0 :: l) mc) (hu : Uniform vs (b0 :: l))
    (h' : McHistory auto bins' range' use (b0' :: l') mc') (hu' : Uniform vs (b0' :: l'))
    (hne : NonEmpty use (b0 :: l)) (hne' : NonEmpty use (b0' :: l'))
    {c : List ℕ} (hc : InRange vs c)
    (hp : (pooled use (b0 :: l) c).Perm (pooled use (b0' :: l') c)) :
    mc.paths = mc'.paths ∧
    (∃ a a', mc.mean = some a ∧ mc'.mean = some a' ∧ a.shape = a'.shape ∧ a.get c = a'.get c) ∧
    (∃ a a', mc.var = .ok a ∧ mc'.var = .ok a' ∧ a.shape = a'.shape ∧ a.get c = a'.get c) ∧
    (∃ a a', mc.kurtosis = .ok a ∧ mc'.kurtosis = .ok a' ∧ a.shape = a'.shape ∧
      a.get c = a'.get c) := by
  obtain ⟨-, h1, a, h2, h3, h4⟩ := C35_mean ha h hu hne
  obtain ⟨-, h1', a', h2', h3', h4'⟩ := C35_mean ha h' hu' hne'
  obtain ⟨v, g1, g2, g3⟩ := C35_var ha h hu hne
  obtain ⟨v', g1', g2', g3'⟩ := C35_var ha h' hu' hne'
  obtain ⟨k, f1, f2, f3⟩ := C35_kurtosis ha h hu hne
  obtain ⟨k', f1', f2', f3'⟩ := C35_kurtosis ha h' hu' hne'
  refine ⟨?_, ⟨a, a', h2, h2', h3.trans h3'.symm, ?_⟩, ⟨v, v', g1, g1', g2.trans g2'.symm, ?_⟩,
    ⟨k, k', f1, f1', f2.trans f2'.symm, ?_⟩⟩
  · rw [h1 c hc, h1' c hc, hp.length_eq]
  · rw [h4 c hc, h4' c hc, avg_perm hp]
  · rw [g3 c hc, g3' c hc, cmom_perm hp]
  · rw [f3 c hc, f3' c hc]
    simp only [hp.length_eq, cmom_perm hp]

/-- **C37** (histograms). If the same data are processed by two sequences of updates that begin with the
same sample, the rest being split and ordered in different ways, the histograms are the same. -/
theorem C37_histogram (ha : AutoOk auto) {bins : Bins K} (hb : bins ≠ .none)
    {range : Option (K × K)} {use : String} {vs : List ℕ} {b0 : Batch K} {l l' : List (Batch K)}
    {mc mc' : MC K} (h : McHistory auto bins range use (b0 :: l) mc)
    (hu : Uniform vs (b0 :: l)) (h' : McHistory auto bins range use (b0 :: l') mc')
    (hu' : Uniform vs (b0 :: l')) {c : List ℕ} (hc : InRange vs c)
    (hp : (pooled use l c).Perm (pooled use l' c)) :
    ∃ g g', mc.bins = .objs ⟨vs, g⟩ ∧ mc'.bins = .objs ⟨vs, g'⟩ ∧ g c = g' c ∧
      mc.counts c = mc'.counts c ∧ mc.outside c = mc'.outside c := by
  obtain ⟨E, g, h1, h2⟩ := C36_histogram ha hb h hu
  obtain ⟨E', g', h1', h2'⟩ := C36_histogram ha hb h' hu'
  obtain ⟨q1, q2, q3, q4⟩ := h2 c hc
  obtain ⟨q1', q2', q3', q4'⟩ := h2' c hc
  have hE : E c = E' c := by
    cases bins with
    | none => exact absurd rfl hb
    | int n => exact EvenEdges.unique q2 q2'
    | str s => simp only [FirstEdges] at q2 q2'; rw [q2] at q2'; simpa using q2'
    | array a => simp only [FirstEdges] at q2 q2'; rw [q2, q2']
    | objs a => simp only [FirstEdges] at q2 q2'; rw [q2] at q2'; simpa using q2'
  have hp' : (pooled use (b0 :: l) c).Perm (pooled use (b0 :: l') c) := by
    simp only [pooled, List.flatMap_cons] at hp ⊢
    exact hp.append_left _
  have hcnt : mc.counts c = mc'.counts c := by rw [q3, q3', hE, hist_perm hp']
  have p1 : ∀ c, InRange vs c → mc.paths = (pooled use (b0 :: l) c).length := fun c hc => by
    obtain ⟨_, -, -, hm⟩ := (mc_inv ha h hu).stats
    exact (hm.size c hc).symm
  have p1' : ∀ c, InRange vs c → mc'.paths = (pooled use (b0 :: l') c).length := fun c hc => by
    obtain ⟨_, -, -, hm⟩ := (mc_inv ha h' hu').stats
    exact (hm.size c hc).symm
  refine ⟨g, g', h1, h1', by rw [q1, q1', hE], hcnt, ?_⟩
  rw [hcnt, p1 c hc] at q4
  rw [p1' c hc] at q4'
  have := hp'.length_eq
  omega

/-- **C38** (values). With `use='even'` (`'odd'`), a sample of `2*N` values enters in statistics as the
`N` half sums (half differences) of the values `x[i]`, `x[N+i]`. -/
theorem C38_values (b : Batch K) (c : List ℕ) {N : ℕ} {x : ℕ → K}
    (hx : b.raw c = (List.range (2 * N)).map x) :
    b.data "even" c = (List.range N).map (fun i => (x i + x (N + i)) / 2) ∧
    b.data "odd" c = (List.range N).map (fun i => (x i - x (N + i)) / 2) := by
  have e1 : b.data "even" c = halves (· + ·) (b.raw c) := rfl
  have e2 : b.data "odd" c = halves (· - ·) (b.raw c) := rfl
  rw [e1, e2, hx, map_range_halves _ _ (by omega), map_range_halves _ _ (by omega)]
  have : 2 * N / 2 = N := by omega
  rw [this]
  exact ⟨rfl, rfl⟩

/-- **C38** (mean). With `use='even'`, the mean is that of all values. -/
theorem C38_even_mean {l : List K} (h : l.length % 2 = 0) : avg (halves (· + ·) l) = avg l := by
  have hl : l = (List.range l.length).map fun k => l.getD k 0 := by
    apply List.ext_getElem
    · simp
    · intro i h1 h2; simp [h1]
  obtain ⟨N, hN⟩ : ∃ N, l.length = N + N := ⟨l.length / 2, by omega⟩
  rw [hN] at hl
  rw [hl, map_range_halves _ _ (by omega)]
  have : (N + N) / 2 = N := by omega
  rw [this, List.range_add]
  simp only [avg, List.map_append, List.map_map, List.sum_append, List.length_append,
    List.length_map, List.length_range]
  have h1 : ((List.range N).map fun k => (l.getD k 0 + l.getD (N + k) 0) / 2).sum =
      (((List.range N).map fun k => l.getD k 0).sum +
        ((List.range N).map fun k => l.getD (N + k) 0).sum) / 2 := by
    rw [← List.sum_map_add, div_eq_mul_inv, ← List.sum_map_mul_right]
    simp only [div_eq_mul_inv]
  rw [h1]
  have e : ((fun k => l.getD k 0) ∘ fun x => N + x) = fun k => l.getD (N + k) 0 := rfl
  rw [e, div_div]
  push_cast
  congr 1
  ring

theorem moveLast_error {x : Arr K} {axis : ℤ} {e : PyErr} (h : x.moveLast axis = .error e) :
    e = .valueError := by
  unfold Arr.moveLast at h
  split at h
  · cases h
  · simpa using h.symm

/-- **C38** (rejection). A sample of odd size, if `use` is not `'all'`, or an unknown value of `use`, are
rejected with `ValueError`, and nothing changes. -/
theorem C38_rejected (mc : MC K) (b : Batch K)
    (h : (mc.use ≠ "all" ∧ mc.use ≠ "even" ∧ mc.use ≠ "odd") ∨
      (mc.use ≠ "all" ∧ b.rawSize % 2 = 1)) :
    mc.update auto b.x b.axis = (mc, .error .valueError) := by
  cases hp : mcPrepare mc.use b.x b.axis with
  | ok y =>
    exfalso
    obtain ⟨h1, -, -, h4⟩ := prepare_ok hp
    rcases h with ⟨a1, a2, a3⟩ | ⟨a1, a2⟩
    · rcases h1 with e | e | e
      · exact a1 e
      · exact a2 e
      · exact a3 e
    · have := h4 a1
      omega
  | error e =>
    have : e = .valueError := by
      unfold mcPrepare at hp
      simp only at hp
      split at hp
      · next e' he' =>
        simp only [Except.error.injEq] at hp
        subst hp
        exact moveLast_error he'
      · split at hp
        · simpa using hp.symm
        · split at hp
          · cases hp
          · split at hp
            · simpa using hp.symm
            · cases hp
    simp only [MC.update, hp, this]

end

section real
variable {auto : String → Option (ℝ × ℝ) → List ℝ → Py (List ℝ)}

/-- **C35** (standard deviation, standard error). -/
theorem C35_std_stderr (ha : AutoOk auto) {bins : Bins ℝ} {range : Option (ℝ × ℝ)} {use : String}
    {vs : List ℕ} {b0 : Batch ℝ} {l : List (Batch ℝ)} {mc : MC ℝ}
    (h : McHistory auto bins range use (b0 :: l) mc) (hu : Uniform vs (b0 :: l))
    (hne : NonEmpty use (b0 :: l)) :
    (∃ a, mc.std = .ok a ∧ a.shape = vs ∧
      ∀ c, InRange vs c → a.get c = some √(cmom 2 (pooled use (b0 :: l) c))) ∧
    (mc.paths < 2 → mc.stderr = .ok (.scalar none)) ∧
    (2 ≤ mc.paths → ∃ a, mc.stderr = .ok a ∧ a.shape = vs ∧ ∀ c, InRange vs c →
      a.get c = some (√(cmom 2 (pooled use (b0 :: l) c)) / √((mc.paths : ℝ) - 1))) := by
  obtain ⟨a, h1, h2, h3⟩ := C35_var ha h hu hne
  refine ⟨⟨⟨a.shape, fun c => (a.get c).map Real.sqrt⟩, by rw [MC.std, h1], h2, fun c hc => by
    simp [h3 c hc]⟩, fun h => ?_, fun h => ?_⟩
  · rw [MC.stderr, if_pos h]
  · refine ⟨⟨a.shape, fun c => (a.get c).map fun v => √(v / ((mc.paths : ℝ) - 1))⟩,
      by rw [MC.stderr, if_neg (by omega), h1], h2, fun c hc => ?_⟩
    have : (0 : ℝ) ≤ (mc.paths : ℝ) - 1 := by
      have : (2 : ℝ) ≤ mc.paths := by exact_mod_cast h
      linarith
    simp only [h3 c hc, Option.map_some, Option.some.injEq]
    rw [Real.sqrt_div' _ this]

/-- **C35** (skewness). With at least two data points, `skew` is the ratio of the third central moment
to the cube of the standard deviation (not-a-number if this is zero). -/
theorem C35_skew (ha : AutoOk auto) {bins : Bins ℝ} {range : Option (ℝ × ℝ)} {use : String}
    {vs : List ℕ} {b0 : Batch ℝ} {l : List (Batch ℝ)} {mc : MC ℝ}
    (h : McHistory auto bins range use (b0 :: l) mc) (hu : Uniform vs (b0 :: l))
    (hne : NonEmpty use (b0 :: l)) :
    ∃ a, mc.skew = .ok a ∧ a.shape = vs ∧ ∀ c, InRange vs c →
      let P := pooled use (b0 :: l) c
      a.get c = if P.length < 2 then some 0 else if cmom 2 P = 0 then none
        else some (cmom 3 P / √(cmom 2 P) ^ 3) := by
  obtain ⟨hp, -, ⟨st, hst, hn, hm⟩, -⟩ := mc_inv ha h hu
  have hpos : 0 < mc.paths := hp ▸ hne.pos
  replace hn : st.nan = false := hn.trans hne.nan
  refine ⟨_, by rw [MC.skew, hst], hm.vshape, fun c hc => ?_⟩
  simp only [hn, Bool.false_eq_true, if_false, (hm.central hpos hc).1,
    (hm.central hpos hc).2.1, hm.size c hc]
  have hnn : 0 ≤ cmom 2 (pooled use (b0 :: l) c) := by
    unfold cmom avg
    refine div_nonneg (List.sum_nonneg ?_) (Nat.cast_nonneg _)
    intro y hy
    obtain ⟨x, -, rfl⟩ := List.mem_map.1 hy
    positivity
  have : cmom 2 (pooled use (b0 :: l) c) ^ (1.5 : ℝ) = √(cmom 2 (pooled use (b0 :: l) c)) ^ 3 := by
    rw [Real.sqrt_eq_rpow, ← Real.rpow_natCast, ← Real.rpow_mul hnn]
    norm_num
  rw [this]

/-- **C37** (standard deviation, standard error, skewness). -/
theorem C37_statistics_real (ha : AutoOk auto) {bins bins' : Bins ℝ} {range range' : Option (ℝ × ℝ)}
    {use : String} {vs : List ℕ} {b0 b0' : Batch ℝ} {l l' : List (Batch ℝ)} {mc mc' : MC ℝ}
    (h : McHistory auto bins range use (b0 :: l) mc) (hu : Uniform vs (b0 :: l))
    (h' : McHistory auto bins' range' use (b0' :: l') mc') (hu' : Uniform vs (b0' :: l'))
    (hne : NonEmpty use (b0 :: l)) (hne' : NonEmpty use (b0' :: l'))
    {c : List ℕ} (hc : InRange vs c)
    (hp : (pooled use (b0 :: l) c).Perm (pooled use (b0' :: l') c)) :
    (∃ a a', mc.std = .ok a ∧ mc'.std = .ok a' ∧ a.shape = a'.shape ∧ a.get c = a'.get c) ∧
    (∃ a a', mc.stderr = .ok a ∧ mc'.stderr = .ok a' ∧ a.shape = a'.shape ∧ a.get c = a'.get c) ∧
    (∃ a a', mc.skew = .ok a ∧ mc'.skew = .ok a' ∧ a.shape = a'.shape ∧ a.get c = a'.get c) := by
  have hpaths := (C37_statistics ha h hu h' hu' hne hne' hc hp).1
  have hm := fun k => cmom_perm hp k
  obtain ⟨⟨a, h1, h2, h3⟩, h4, h5⟩ := C35_std_stderr ha h hu hne
  obtain ⟨⟨a', h1', h2', h3'⟩, h4', h5'⟩ := C35_std_stderr ha h' hu' hne'
  obtain ⟨k, g1, g2, g3⟩ := C35_skew ha h hu hne
  obtain ⟨k', g1', g2', g3'⟩ := C35_skew ha h' hu' hne'
  refine ⟨⟨a, a', h1, h1', by rw [h2, h2'], by rw [h3 c hc, h3' c hc, hm]⟩, ?_,
    ⟨k, k', g1, g1', by rw [g2, g2'], ?_⟩⟩
  · by_cases h2 : mc.paths < 2
    · exact ⟨_, _, h4 h2, h4' (hpaths ▸ h2), rfl, rfl⟩
    · obtain ⟨e, e1, e2, e3⟩ := h5 (by omega)
      obtain ⟨e', e1', e2', e3'⟩ := h5' (by omega)
      exact ⟨e, e', e1, e1', by rw [e2, e2'], by rw [e3 c hc, e3' c hc, hm, hpaths]⟩
  · simp only [g3 c hc, g3' c hc, hm, hp.length_eq]

end real

section examples

/-- Automatic bins are not available in the examples. -/
def noAuto : String → Option (ℚ × ℚ) → List ℚ → Py (List ℚ) := fun _ _ _ => .error .valueError

theorem noAuto_ok : AutoOk noAuto := fun _ _ _ _ h => by cases h

/-- An array of rational numbers. -/
def arrOf (s : List ℕ) (l : List ℚ) : Arr ℚ := ⟨s, fun i => l.getD ((ndindex s).idxOf i) 0⟩

theorem update_eta {mc : MC ℚ} {x : Arr ℚ} {axis : ℤ} (h : (mc.update noAuto x axis).2.isOk = true) :
    mc.update noAuto x axis = ((mc.update noAuto x axis).1, .ok ()) := by
  generalize mc.update noAuto x axis = r at h ⊢
  obtain ⟨m, e | u⟩ := r
  · cases h
  · rfl

/-- Two samples of data points of shape `(2,)`: of size 2, along the last axis, and of size 3, along
the first one. -/
def exB0 : Batch ℚ := ⟨arrOf [2, 2] [0, 4, 1, 1], -1⟩
def exB1 : Batch ℚ := ⟨arrOf [3, 2] [2, 1, 5, 1, 4, 7], 0⟩

/-- An instance with 4 bins, and after each update. -/
def exMC0 : MC ℚ := MC.new (.int 4) none "all"
def exMC1 : MC ℚ := (exMC0.update noAuto exB0.x exB0.axis).1
def exMC2 : MC ℚ := (exMC1.update noAuto exB1.x exB1.axis).1

theorem exMC_history : McHistory noAuto (.int 4) none "all" [exB0, exB1] exMC2 :=
  .update (l := [exB0]) (.update (l := []) .new (update_eta (mc := exMC0) (by decide +kernel)))
    (update_eta (mc := exMC1) (by decide +kernel))

theorem exMC_uniform : Uniform [2] [exB0, exB1] := by
  intro b hb
  simp only [List.mem_cons, List.not_mem_nil, or_false] at hb
  rcases hb with rfl | rfl <;> decide +kernel

theorem exMC_nonEmpty : NonEmpty "all" [exB0, exB1] := by
  intro b hb
  simp only [List.mem_cons, List.not_mem_nil, or_false] at hb
  rcases hb with rfl | rfl <;> decide +kernel

/-- The pooled data of the two components. -/
example : pooled "all" [exB0, exB1] [0] = [0, 4, 2, 5, 4] ∧
    pooled "all" [exB0, exB1] [1] = [1, 1, 1, 1, 7] := by decide +kernel

/-- What the model computes for these samples: mean, variance, kurtosis, bins, counts, and number of
paths outside. -/
example : exMC2.paths = 5 ∧ (exMC2.mean.map fun a => (a.get [0], a.get [1])) = some (some 3, some (11 / 5)) ∧
    (exMC2.var.toOption.map fun a => (a.get [0], a.get [1])) = some (some (16 / 5), some (144 / 25)) ∧
    (exMC2.kurtosis.toOption.map fun a => a.get [0]) = some (some (125 / 64)) := by
  decide +kernel

example : (match exMC2.bins with | .objs a => (a.get [0], a.get [1]) | _ => (none, none)) =
    (some [0, 1, 2, 3, 4], some [1 / 2, 3 / 4, 1, 5 / 4, 3 / 2]) ∧
    (exMC2.counts [0], exMC2.counts [1]) = ([1, 0, 1, 2], [0, 0, 4, 0]) ∧
    (exMC2.outside [0], exMC2.outside [1]) = (1, 1) := by decide +kernel

/-- The theorems apply to these samples. -/
example := C35_mean noAuto_ok exMC_history exMC_uniform exMC_nonEmpty
example := C35_nan noAuto_ok exMC_history exMC_uniform
example := C35_var noAuto_ok exMC_history exMC_uniform exMC_nonEmpty
example := C35_kurtosis noAuto_ok exMC_history exMC_uniform exMC_nonEmpty
example := C36_histogram noAuto_ok (by simp) exMC_history exMC_uniform
example := C36_outpaths noAuto_ok (by simp) exMC_history exMC_uniform (c := [1]) (by decide)
  (a := 1 / 2) (b := 3 / 2) (e := [3 / 4, 1, 5 / 4])
  (g := match exMC2.bins with | .objs a => a.get | _ => fun _ => none)
  (by obtain ⟨E, g, h, -⟩ := C36_histogram noAuto_ok (by simp) exMC_history exMC_uniform
      simp only [h]) (by decide +kernel)
example : C36_bins (e := [0, 1, 2, (3 : ℚ)]) (i := 2) (j := 2) (v := 3) (by decide +kernel)
    (by decide +kernel) (by decide +kernel) = rfl := rfl

/-- A third sample is accepted: a valid one, with a negative first axis. -/
def exB2 : Batch ℚ := ⟨arrOf [1, 2] [9, -3], -2⟩

example := C36_accepts noAuto_ok exMC_history exMC_uniform (b := exB2) (by decide)
  ⟨by decide, by decide, .inl rfl⟩
example := C36_accepts_first noAuto_ok (bins := .int 4) (range := some (0, 1)) (use := "odd")
  (.inr ⟨4, by decide, rfl⟩) (by simp) (b := exB0) ⟨by decide, by decide, .inr ⟨.inr rfl, by decide⟩⟩

example := C36_accepts_edges noAuto_ok (a := arrOf [2, 3] [0, 1, 2, 4, 5, 7]) (range := none)
  (use := "all") (b := exB0) (n := 3) (by decide) (by decide) (by
    intro c hc
    have : c = [0] ∨ c = [1] := by
      have := mem_ndindex.2 hc
      have e : ndindex exB0.vshape = [[0], [1]] := by decide
      rw [e] at this
      simpa using this
    rcases this with rfl | rfl <;> decide +kernel) ⟨by decide, by decide, .inl rfl⟩

/-- A single valued instance. -/
def exS : Batch ℚ := ⟨arrOf [4] [1, 2, 3, 7], 0⟩
def exS0 : MC ℚ := MC.new (.array (arrOf [3] [1, 2, 3])) none "all"
def exS1 : MC ℚ := (exS0.update noAuto exS.x exS.axis).1

theorem exS_history : McHistory noAuto (.array (arrOf [3] [1, 2, 3])) none "all" [exS] exS1 :=
  .update (l := []) .new (update_eta (mc := exS0) (by decide +kernel))

theorem exS_uniform : Uniform [] [exS] := by
  intro b hb
  simp only [List.mem_cons, List.not_mem_nil, or_false] at hb
  subst hb
  decide +kernel

theorem exS_nonEmpty : NonEmpty "all" [exS] := by
  intro b hb
  simp only [List.mem_cons, List.not_mem_nil, or_false] at hb
  subst hb
  decide +kernel

example : exS1.histogram.toOption = some ([1, 2], [1, 2, 3]) ∧
    exS1.outpaths.toOption.map (fun a => a.get []) = some 1 := by decide +kernel

example := C36_single noAuto_ok (by simp) (by rfl) exS_history exS_uniform (by decide +kernel)

/-- The same data in another order, and differently split. -/
def exB0' : Batch ℚ := ⟨arrOf [2, 4] [5, 4, 2, 0, 7, 1, 1, 1], 1⟩
def exB1' : Batch ℚ := ⟨arrOf [2, 1] [4, 1], 1⟩
def exMC1' : MC ℚ := ((MC.new .none none "all").update noAuto exB0'.x exB0'.axis).1
def exMC2' : MC ℚ := (exMC1'.update noAuto exB1'.x exB1'.axis).1

theorem exMC_history' : McHistory noAuto .none none "all" [exB0', exB1'] exMC2' :=
  .update (l := [exB0']) (.update (l := []) .new (update_eta (by decide +kernel)))
    (update_eta (mc := exMC1') (by decide +kernel))

theorem exMC_uniform' : Uniform [2] [exB0', exB1'] := by
  intro b hb
  simp only [List.mem_cons, List.not_mem_nil, or_false] at hb
  rcases hb with rfl | rfl <;> decide +kernel

theorem exMC_nonEmpty' : NonEmpty "all" [exB0', exB1'] := by
  intro b hb
  simp only [List.mem_cons, List.not_mem_nil, or_false] at hb
  rcases hb with rfl | rfl <;> decide +kernel

example := C37_statistics noAuto_ok exMC_history exMC_uniform exMC_history' exMC_uniform' exMC_nonEmpty
  exMC_nonEmpty' (c := [0])
  (by decide) (by decide +kernel)

example := C37_histogram noAuto_ok (by simp) exMC_history exMC_uniform exMC_history exMC_uniform
  (c := [0]) (by decide) (List.Perm.refl _)

/-- Antithetic values: half sums and half differences of `1, 2` and `5, 3`. -/
example : Batch.data "even" ⟨arrOf [4] [1, 2, 5, 3], -1⟩ [] = [3, 5 / 2] ∧
    Batch.data "odd" ⟨arrOf [4] [1, 2, 5, 3], -1⟩ [] = [-2, -1 / 2] := by decide +kernel

example := C38_values (K := ℚ) ⟨arrOf [4] [1, 2, 5, 3], -1⟩ [] (N := 2)
  (x := fun k => [1, 2, 5, 3].getD k 0) (by decide +kernel)

example := C38_even_mean (l := [1, 2, 5, (3 : ℚ)]) (by decide)

example := C38_rejected (auto := noAuto) (MC.new .none none "even") ⟨arrOf [3] [1, 2, 3], -1⟩
  (.inr ⟨by decide, by decide +kernel⟩)

/-- A sample of real numbers: `0, 1, 2`. -/
noncomputable def exR : Batch ℝ := ⟨⟨[3], fun i => i.headD 0⟩, 0⟩

theorem exR_history : ∃ mc, McHistory (fun _ _ _ => .error .valueError) (.int 2) none "all" [exR] mc ∧
    Uniform [] [exR] ∧ NonEmpty "all" [exR] := by
  obtain ⟨mc, h⟩ := C36_accepts_first (auto := fun _ _ _ => .error .valueError)
    (fun _ _ _ _ h => by cases h) (bins := .int 2) (range := none) (use := "all")
    (.inr ⟨2, by decide, rfl⟩) (by simp) (b := exR)
    ⟨by simp [exR], by simp [exR], .inl rfl⟩
  refine ⟨mc, .update (l := []) .new h, ?_, ?_⟩ <;>
  · intro b hb
    simp only [List.mem_cons, List.not_mem_nil, or_false] at hb
    subst hb
    simp [Batch.size, Batch.rawSize, exR, Batch.ax, Batch.vshape]

example := C35_std_stderr (fun _ _ _ _ h => by cases h) exR_history.choose_spec.1
  exR_history.choose_spec.2.1 exR_history.choose_spec.2.2
example := C35_skew (fun _ _ _ _ h => by cases h) exR_history.choose_spec.1
  exR_history.choose_spec.2.1 exR_history.choose_spec.2.2
example := C37_statistics_real (fun _ _ _ _ h => by cases h) exR_history.choose_spec.1
  exR_history.choose_spec.2.1 exR_history.choose_spec.1 exR_history.choose_spec.2.1
  exR_history.choose_spec.2.2 exR_history.choose_spec.2.2 (c := []) .nil (.refl _)

/-- **C35** does not hold for `kurtosis`, whichever the convention: the ratio of moments for samples of
two or more values (`1` for the sample `0, 1`), but `-3` added to it for a sample of one value, i.e.
the excess of kurtosis. -/
theorem C35_kurtosis_false :
    (((MC.new .none none "all").update noAuto (arrOf [1] [0]) (-1)).1.kurtosis.toOption.map
      fun a => a.get []) = some (some (-3)) ∧
    (((MC.new .none none "all").update noAuto (arrOf [2] [0, 1]) (-1)).1.kurtosis.toOption.map
      fun a => a.get []) = some (some 1) := by decide +kernel

/-- **C35** does not hold if an empty sample is added to a non empty one: it is accepted, and all
statistics become not-a-number, and stay so after further samples. -/
theorem C35_empty_false :
    let a := (MC.new .none none "all").update noAuto (arrOf [2] [0, 1]) (-1)
    let b := a.1.update noAuto (arrOf [0] []) (-1)
    let c := b.1.update noAuto (arrOf [2] [0, 1]) (-1)
    (a.2.isOk, b.2.isOk, c.2.isOk) = (true, true, true) ∧
    a.1.mean.map (fun a => a.get []) = some (some (1 / 2)) ∧
    b.1.mean.map (fun a => a.get []) = some none ∧
    c.1.mean.map (fun a => a.get []) = some none := by decide +kernel

/-- An empty first sample fixes the bins on the interval from 0 to 1, as **C36** says, though no data has
been seen and `paths` is still zero; those of the following sample, the first that has any, are all
out of the bins. Statistics are not affected. -/
theorem C36_empty_first :
    let a := (MC.new (.int 2) none "all").update noAuto (arrOf [0] []) (-1)
    let b := a.1.update noAuto (arrOf [2] [3, 5]) (-1)
    (a.2.isOk, b.2.isOk) = (true, true) ∧ b.1.mean.map (fun a => a.get []) = some (some 4) ∧
    b.1.histogram.toOption = some ([0, 0], [0, 1 / 2, 1]) ∧
    b.1.outpaths.toOption.map (fun a => a.get []) = some 2 := by decide +kernel

/-- **C36** does not hold for samples of a different, though broadcastable, shape: after a sample of
points of shape `(1, 3)`, a sample of three points of shape `(3,)` is accepted, and cumulated in
statistics as if of shape `(1, 3)`, but each histogram gets a single value, and not even one of its
component. Here component `(0, 1)` has values `0` and `10, 10, 10`: its histogram on `[-1/2, 1/2]`
reports 2 values inside. -/
theorem C36_false :
    let a := (MC.new (.int 1) none "all").update noAuto (arrOf [1, 3, 1] [0, 0, 0]) (-1)
    let b := a.1.update noAuto (arrOf [3, 3] [0, 0, 0, 10, 10, 10, 20, 20, 20]) (-1)
    a.2.isOk = true ∧ b.2.isOk = true ∧
    b.1.mean.map (fun a => a.get [0, 1]) = some (some (15 / 2)) ∧
    (match b.1.bins with | .objs a => a.get [0, 1] | _ => none) = some [-1 / 2, 1 / 2] ∧
    (b.1.counts [0, 1], b.1.outside [0, 1]) = ([2], 2) := by decide +kernel

end examples

end Sdepy
