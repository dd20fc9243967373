import Verif.Props.MonteCarloFail

/-!
# Statistics of samples whose shapes differ by leading axes of size one
-/

set_option linter.unusedSectionVars false
set_option linter.unusedSimpArgs false

namespace Sdepy

open Spec

namespace Spec

/-- The index, among `n` axes, of the item that is seen at index `c` after leading axes of size one are
added or removed. -/
def fit (n : ℕ) (c : List ℕ) : List ℕ := List.replicate (n - c.length) 0 ++ c.drop (c.length - n)

/-- All values of a component, from several samples, each read as if its data points had as many axes
as those of the first one. -/
def pooledFit {K : Type} [Field K] (use : String) (l : List (Batch K)) (c : List ℕ) : List K :=
  l.flatMap fun b => b.data use (fit b.vshape.length c)

/-- Shapes that are equal, but for the number of leading axes of size one. -/
def SameButOnes (s t : List ℕ) : Prop := s = t ∨ ExcessOnes s t

end Spec

/-! ### Broadcasting with axes of size one -/

theorem inRange_flip {s i : List ℕ} (h : InRange s i) : InRange s.reverse i.reverse := by
  unfold InRange at *
  rw [List.forall₂_reverse_iff]; exact h

theorem inRange_zeros (n : ℕ) : InRange (List.replicate n 1) (List.replicate n 0) := by
  induction n with
  | zero => exact .nil
  | succ n ih => rw [List.replicate_succ, List.replicate_succ]; exact .cons (by omega) ih

theorem bcIdxRev_fit {s i z : List ℕ} {n : ℕ} (h : InRange s i) :
    bcIdxRev (s ++ List.replicate n 1) (i ++ z) = i ++ List.replicate n 0 := by
  induction h with
  | nil =>
    simp only [List.nil_append]
    induction n generalizing z with
    | zero => rfl
    | succ n ih => simp [List.replicate_succ, bcIdxRev, ih]
  | @cons j m js s h1 _ ih =>
    simp only [List.cons_append, bcIdxRev, List.headD_cons, List.tail_cons, ih]
    split
    · subst_vars; congr 1; omega
    · rfl

theorem bget_fit {α : Type} {a : Arr α} {s i : List ℕ} {n : ℕ} (ha : a.shape = List.replicate n 1 ++ s)
    (h : InRange s i) (z : List ℕ) : a.bget (z ++ i) = a.get (List.replicate n 0 ++ i) := by
  unfold Arr.bget
  rw [ha, List.reverse_append, List.reverse_append, List.reverse_replicate, bcIdxRev_fit (inRange_flip h)]
  simp

theorem bc2Rev_ones (s : List ℕ) (n : ℕ) : bc2Rev (s ++ List.replicate n 1) s = some (s ++ List.replicate n 1) ∧
    bc2Rev s (s ++ List.replicate n 1) = some (s ++ List.replicate n 1) := by
  induction s with
  | nil => cases n <;> simp [bc2Rev, List.replicate_succ]
  | cons a s ih => simp [bc2Rev, ih]

theorem bcShape_ones (s : List ℕ) (n : ℕ) :
    bcShape (List.replicate n 1 ++ s) s = some (List.replicate n 1 ++ s) ∧
    bcShape s (List.replicate n 1 ++ s) = some (List.replicate n 1 ++ s) := by
  have := bc2Rev_ones s.reverse n
  simp [bcShape, this]

theorem bcShape_ones_last (s : List ℕ) (n M : ℕ) :
    bcShape (List.replicate n 1 ++ s ++ [M]) (s ++ [1]) = some (List.replicate n 1 ++ s ++ [M]) ∧
    bcShape (s ++ [M]) (List.replicate n 1 ++ s ++ [1]) = some (List.replicate n 1 ++ s ++ [M]) := by
  have := bc2Rev_ones s.reverse n
  simp [bcShape, bc2Rev, this]

theorem stripOnes_ones (s : List ℕ) (n : ℕ) : stripOnes s.length (List.replicate n 1 ++ s) = s := by
  induction n with
  | zero => simp [stripOnes_short]
  | succ n ih =>
    rw [List.replicate_succ, List.cons_append, stripOnes, if_pos ⟨rfl, by simp⟩, ih]

theorem assignTo_ones {K : Type} {a : Arr K} {s : List ℕ} {n : ℕ} (ha : a.shape = List.replicate n 1 ++ s) :
    ∃ b, a.assignTo s = .ok b ∧ b.shape = s ∧ ∀ i, InRange s i → b.get i = a.get (List.replicate n 0 ++ i) := by
  refine ⟨⟨s, (⟨s, fun i => a.get (List.replicate n 0 ++ i)⟩ : Arr K).bget⟩, ?_, rfl, ?_⟩
  · simp only [Arr.assignTo, ha, stripOnes_ones, List.length_append, List.length_replicate,
      Nat.add_sub_cancel, Arr.broadcastTo]
    rw [if_pos (show BcOk s s from bcOkRev_refl _)]
    rfl
  · intro i hi
    exact bget_self (⟨s, fun i => a.get (List.replicate n 0 ++ i)⟩ : Arr K) hi

theorem fit_more {s c : List ℕ} {n : ℕ} (hc : InRange s c) :
    fit (List.replicate n 1 ++ s).length c = List.replicate n 0 ++ c := by
  have := hc.length
  simp only [fit, List.length_append, List.length_replicate]
  rw [show n + s.length - c.length = n by omega, show c.length - (n + s.length) = 0 by omega]
  simp

theorem fit_less {s c : List ℕ} {n : ℕ} (hc : InRange (List.replicate n 1 ++ s) c) :
    InRange s (fit s.length c) ∧ c = List.replicate n 0 ++ fit s.length c := by
  have hl := hc.length
  simp only [List.length_append, List.length_replicate] at hl
  have e : c = c.take n ++ c.drop n := (List.take_append_drop n c).symm
  have hc' : InRange (List.replicate n 1 ++ s) (c.take n ++ c.drop n) := by rw [← e]; exact hc
  have h2 := (inRange_append (by simp; omega)).1 hc'
  have e1 : fit s.length c = c.drop n := by
    simp only [fit]
    rw [show s.length - c.length = 0 by omega, show c.length - s.length = n by omega]
    simp
  rw [e1]
  refine ⟨h2.2, ?_⟩
  have h3 : c.take n = List.replicate n 0 := by
    have hr := h2.1
    clear hc' h2 e hc hl e1
    generalize c.take n = d at hr
    induction n generalizing d with
    | zero => cases hr; rfl
    | succ n ih =>
      rw [List.replicate_succ] at hr ⊢
      cases hr with
      | cons h h' => rw [ih _ h']; congr 1; omega
  rw [← h3, ← e]

section
variable {K : Type} [Field K]

/-- Cumulating a statistic of data points that have more axes, or fewer. -/
theorem cumulate_fit {N M : ℕ} {old new : Arr K} {vs vs' : List ℕ} (hs : SameButOnes vs' vs)
    (h1 : old.shape = vs) (h2 : new.shape = vs') :
    ∃ r, cumulate N M old new = .ok r ∧ r.shape = vs ∧ ∀ c, InRange vs c →
      r.get c = (N * old.get c + M * new.get (fit vs'.length c)) / ((N + M : ℕ) : K) := by
  have key : ∃ n, vs' = List.replicate n 1 ++ vs ∨ vs = List.replicate n 1 ++ vs' := by
    rcases hs with rfl | ⟨n, -, h⟩
    · exact ⟨0, .inl rfl⟩
    · exact ⟨n, h⟩
  obtain ⟨n, h | h⟩ := key
  · obtain ⟨r, hr, hrs, hrv⟩ := assignTo_ones (n := n) (s := vs) (a := (⟨List.replicate n 1 ++ vs, fun i =>
      (N * old.bget i + M * new.bget i) / ((N + M : ℕ) : K)⟩ : Arr K)) rfl
    refine ⟨r, ?_, hrs, fun c hc => ?_⟩
    · simp only [cumulate, broadcast2_eq, h1, h2, h, (bcShape_ones vs n).2]
      exact hr
    · rw [hrv c hc]
      simp only
      rw [bget_fit (n := 0) (s := vs) (by simpa using h1) hc, bget_fit (h2.trans h) hc, h, fit_more hc]
      simp
  · obtain ⟨r, hr, hrs⟩ := assignTo_self (⟨vs, fun i =>
      (N * old.bget i + M * new.bget i) / ((N + M : ℕ) : K)⟩ : Arr K)
    refine ⟨r, ?_, hrs.1, fun c hc => ?_⟩
    · have := (bcShape_ones vs' n).1
      rw [← h] at this
      simp only [cumulate, broadcast2_eq, h1, h2, this]
      exact hr
    · rw [hrs.2 c (by rw [hrs.1]; exact hc)]
      simp only
      obtain ⟨f1, f2⟩ := fit_less (by rw [← h]; exact hc)
      rw [bget_self old (by rw [h1]; exact hc)]
      conv_lhs => rw [f2]
      rw [bget_fit (n := 0) (s := vs') (by simpa using h2) f1, ← f2]
      simp

theorem cumulateAll_fit {N M : ℕ} {vs vs' : List ℕ} (hs : SameButOnes vs' vs) : ∀ {l : List (Arr K × Arr K)},
    (∀ p ∈ l, p.1.shape = vs ∧ p.2.shape = vs') →
    ∃ L, cumulateAll N M l = .ok L ∧ L.length = l.length ∧ (∀ a ∈ L, a.shape = vs) ∧
      ∀ (k : ℕ) (a : Arr K) (p : Arr K × Arr K), L[k]? = some a → l[k]? = some p → ∀ c, InRange vs c →
        a.get c = (N * p.1.get c + M * p.2.get (fit vs'.length c)) / ((N + M : ℕ) : K)
  | [], _ => ⟨[], rfl, rfl, by simp, by simp⟩
  | (old, new) :: l, h => by
    obtain ⟨r, hr, hrs, hv⟩ := cumulate_fit (N := N) (M := M) hs (h (old, new) (by simp)).1
      (h (old, new) (by simp)).2
    obtain ⟨L, hL, h1, h2, h3⟩ := cumulateAll_fit (N := N) (M := M) hs (l := l)
      fun p hp => h p (List.mem_cons_of_mem _ hp)
    refine ⟨r :: L, by simp only [cumulateAll, hr, hL], by simp [h1], ?_, ?_⟩
    · intro a ha
      rcases List.mem_cons.1 ha with rfl | ha
      · exact hrs
      · exact h2 a ha
    · intro k a p ha hp
      cases k with
      | zero =>
        simp only [List.getElem?_cons_zero, Option.some.injEq] at ha hp
        subst ha hp
        exact hv
      | succ k =>
        simp only [List.getElem?_cons_succ] at ha hp
        exact h3 k a p ha hp

/-- The sample less its center, assigned to the sample. -/
theorem centered_fit {M : ℕ} {x z : Arr K} {vs vs' : List ℕ} (hs : SameButOnes vs' vs)
    (hx : x.shape = vs' ++ [M]) (hz : z.shape = vs) :
    ∃ a b s0, broadcast2 x z.newaxisLast = .ok (a, b) ∧
      Arr.assignTo ⟨a.shape, fun i => a.get i - b.get i⟩ x.shape = .ok s0 ∧
      ∀ c k, InRange vs c → k < M →
        s0.get (fit vs'.length c ++ [k]) = x.get (fit vs'.length c ++ [k]) - z.get c := by
  have key : ∃ n, vs' = List.replicate n 1 ++ vs ∨ vs = List.replicate n 1 ++ vs' := by
    rcases hs with rfl | ⟨n, -, h⟩
    · exact ⟨0, .inl rfl⟩
    · exact ⟨n, h⟩
  have hzs : z.newaxisLast.shape = vs ++ [1] := by simp [Arr.newaxisLast, hz]
  have hzb : ∀ c k w, InRange vs c → z.newaxisLast.bget (w ++ (c ++ [k])) = z.get c := by
    intro c k w hc
    have e : bcIdxRev (1 :: vs.reverse) (k :: (c.reverse ++ w.reverse)) =
        0 :: bcIdxRev vs.reverse (c.reverse ++ w.reverse) := by simp [bcIdxRev]
    have e2 : bcIdxRev vs.reverse (c.reverse ++ w.reverse) = c.reverse := by
      have := bcIdxRev_fit (n := 0) (z := w.reverse) (inRange_flip hc)
      simpa using this
    simp only [Arr.bget, hzs, List.reverse_append, List.reverse_singleton, List.singleton_append,
      List.cons_append, e, e2]
    simp only [Arr.newaxisLast, List.nil_append]
    rw [e, e2]
    simp
  obtain ⟨n, h | h⟩ := key
  · obtain ⟨s0, hs0, hss⟩ := assignTo_self (⟨x.shape, fun i => x.bget i - z.newaxisLast.bget i⟩ : Arr K)
    refine ⟨⟨x.shape, x.bget⟩, ⟨x.shape, z.newaxisLast.bget⟩, s0, ?_, hs0, ?_⟩
    · rw [broadcast2_eq, hzs, hx, h, (bcShape_ones_last vs n M).1]
    · intro c k hc hk
      rw [h, fit_more hc]
      have hin : InRange x.shape (List.replicate n 0 ++ c ++ [k]) := by
        rw [hx, h]
        exact inRange_snoc ((inRange_append (by simp)).2 ⟨inRange_zeros n, hc⟩) hk
      rw [hss.2 _ (by rw [hss.1]; exact hin)]
      simp only
      rw [bget_self x hin, List.append_assoc, hzb c k _ hc]
  · obtain ⟨s0, hs0, hss, hsv⟩ := assignTo_ones (n := n) (s := vs' ++ [M])
      (a := (⟨vs ++ [M], fun i => x.bget i - z.newaxisLast.bget i⟩ : Arr K)) (by simp [h])
    refine ⟨⟨vs ++ [M], x.bget⟩, ⟨vs ++ [M], z.newaxisLast.bget⟩, s0, ?_, by rw [hx]; exact hs0, ?_⟩
    · rw [broadcast2_eq, hzs, hx, h, (bcShape_ones_last vs' n M).2]
    · intro c k hc hk
      obtain ⟨f1, f2⟩ := fit_less (by rw [← h]; exact hc)
      have hin := inRange_snoc f1 hk
      rw [hsv _ hin]
      simp only
      rw [bget_fit (n := 0) (s := vs' ++ [M]) (by simpa using hx) hin,
        ← List.append_assoc (List.replicate n 0), ← f2]
      have := hzb c k [] hc
      rw [List.nil_append] at this
      rw [this]
      simp

/-- `_update_moments`, once some data are stored. -/
theorem updateMoments_fit [CharZero K] {N M : ℕ} (hN : N ≠ 0) {vs vs' : List ℕ} (hs : SameButOnes vs' vs)
    {P : List ℕ → List K} {st : Moments K} (hst : MomOk vs N P st) {x : Arr K} (hx : x.shape = vs' ++ [M]) :
    ∃ st', updateMoments N (some st) x = .ok st' ∧ st'.nan = (st.nan || decide (M = 0)) ∧
      MomOk vs (N + M) (fun c => P c ++ (List.range M).map fun k => x.get (fit vs'.length c ++ [k])) st' := by
  obtain ⟨a, b, s0, hab, hs0, hget⟩ := centered_fit hs hx hst.center_shape
  unfold updateMoments
  simp only [if_neg hN, hab, hs0]
  have hlast : x.shape.getLastD 0 = M := by rw [hx]; simp
  rw [hlast]
  have hzip : ∀ p ∈ st.mom.zip ((List.range 4).map fun k =>
      Arr.meanLast (⟨x.shape, fun i => s0.get i ^ (k + 1)⟩ : Arr K)), p.1.shape = vs ∧ p.2.shape = vs' := by
    intro p hp
    obtain ⟨h1, h2⟩ := List.of_mem_zip hp
    refine ⟨hst.shapes _ h1, ?_⟩
    obtain ⟨k, -, hk⟩ := List.mem_map.1 h2
    rw [← hk]
    simp [Arr.meanLast, hx]
  obtain ⟨L, hL, hLl, hLs, hLv⟩ := cumulateAll_fit (N := N) (M := M) hs hzip
  obtain ⟨r, hr, hrs, hrv⟩ := cumulate_fit (N := N) (M := M) (new := x.meanLast) hs hst.mean_shape
    (by simp [Arr.meanLast, hx])
  simp only [hL, hr]
  refine ⟨_, rfl, rfl, ?_⟩
  constructor
  · exact hst.vshape
  · simp [hLl, hst.len]
  · exact hLs
  · exact hrs
  · exact hst.center_shape
  · intro c hc
    simp [hst.size c hc]
  · intro c hc
    rw [avg_append, hst.size c hc]
    simp only [List.length_map, List.length_range]
    rw [← hst.mean c hc, ← meanLast_get hx]
    exact hrv c hc
  · intro k hk c hc
    have h1 : k < L.length := by rw [hLl]; simp [hst.len, hk]
    have h2 : k < (st.mom.zip ((List.range 4).map fun k =>
      Arr.meanLast (⟨x.shape, fun i => s0.get i ^ (k + 1)⟩ : Arr K))).length := by
      rw [← hLl]; exact h1
    have := hLv k L[k] _ (List.getElem?_eq_getElem h1) (List.getElem?_eq_getElem h2) c hc
    simp only [Moments.at, List.getElem?_eq_getElem h1]
    rw [this]
    simp only [List.getElem_zip, List.getElem_map, List.getElem_range]
    rw [List.map_append, avg_append]
    simp only [List.length_map, List.length_range, hst.size c hc]
    congr 3
    · rw [← hst.mom k hk c hc]
      have h3 : k < st.mom.length := by rw [hst.len]; exact hk
      simp only [Moments.at, List.getElem?_eq_getElem h3]
    · rw [meanLast_get (a := ⟨x.shape, fun i => s0.get i ^ (k + 1)⟩) (vs := vs') (M := M) hx]
      congr 1
      rw [List.map_map]
      refine List.map_congr_left fun j hj => ?_
      simp only [Function.comp]
      rw [hget c j hc (List.mem_range.1 hj)]

end

section
variable {K : Type} [Field K] [LinearOrder K] [IsStrictOrderedRing K]
  {auto : String → Option (K × K) → List K → Py (List K)}

theorem fit_self {s c : List ℕ} (hc : InRange s c) : fit s.length c = c := by
  have := hc.length
  simp [fit, this]

/-- What holds after a sequence of updates without bins. -/
structure FitInv (use : String) (vs : List ℕ) (l : List (Batch K)) (mc : MC K) : Prop where
  paths : mc.paths = (l.map (Batch.size use)).sum
  use_eq : mc.use = use
  bins : mc.bins = .none
  stats : ∃ st, mc.stats = some st ∧ st.nan = false ∧ MomOk vs mc.paths (pooledFit use l) st

theorem fit_next {use : String} {vs : List ℕ} {b : Batch K} {l : List (Batch K)} {mc : MC K}
    (hl : FitInv use vs l mc) (hpos : mc.paths ≠ 0) (hv : SameButOnes b.vshape vs) (hsz : 0 < b.size use)
    {x : Arr K} (hp : mcPrepare use b.x b.axis = .ok x) :
    ∃ mc', mc.update auto b.x b.axis = (mc', .ok ()) ∧ FitInv use vs (l ++ [b]) mc' := by
  have hp' : mcPrepare mc.use b.x b.axis = .ok x := by rw [hl.use_eq]; exact hp
  obtain ⟨-, hx, hdata, -⟩ := prepare_ok hp
  have hlast : x.shape.getLastD 0 = b.size use := by rw [hx]; simp
  obtain ⟨st0, hst0, hn0, hm0⟩ := hl.stats
  obtain ⟨st, hst, hn, hm⟩ := updateMoments_fit hpos hv hm0 hx
  have hP : (fun c => pooledFit use l c ++ (List.range (b.size use)).map fun k =>
      x.get (fit b.vshape.length c ++ [k])) = pooledFit use (l ++ [b]) := by
    funext c
    rw [hdata]
    simp [pooledFit]
  rw [hP] at hm
  refine ⟨{ mc with stats := some st, paths := mc.paths + b.size use }, ?_, ?_, hl.use_eq, hl.bins,
    st, rfl, ?_, hm⟩
  · simp only [MC.update, hp', hst0, hst, updateHistogram, hl.bins, hlast]
  · simp [hl.paths]
  · rw [hn, hn0]
    simp; omega

theorem fit_history (ha : AutoOk auto) {range : Option (K × K)} {use : String} {l : List (Batch K)}
    {mc : MC K} (h : McHistory auto .none range use l mc) (hne : NonEmpty use l) :
    (l = [] ∧ mc = MC.new .none range use) ∨ ∃ b0 l', l = b0 :: l' ∧
      (((∀ b ∈ l', SameButOnes b.vshape b0.vshape)) ∧ FitInv use b0.vshape l mc) := by
  induction h with
  | new => exact .inl ⟨rfl, rfl⟩
  | @update l mc b mc' _ he ih =>
    right
    have hsz : 0 < b.size use := hne b (by simp)
    rcases ih fun b' hb' => hne b' (List.mem_append_left _ hb') with ⟨rfl, rfl⟩ | ⟨b0, l', rfl, hs, hi⟩
    · refine ⟨b, [], rfl, by simp, ?_⟩
      have hf := mc_first ha he
      obtain ⟨st, hst, hn, hm⟩ := hf.stats
      refine ⟨hf.paths, hf.use_eq, hf.no_bins rfl, st, hst, ?_, ?_⟩
      · rw [hn]
        simp [hasNaN, List.dropWhile, show b.size use ≠ 0 by omega]
      · have e : ∀ c, InRange b.vshape c → pooledFit use [b] c = pooled use [b] c := by
          intro c hc
          simp [pooledFit, pooled, fit_self hc]
        constructor
        · exact hm.vshape
        · exact hm.len
        · exact hm.shapes
        · exact hm.mean_shape
        · exact hm.center_shape
        · intro c hc; simp only [List.nil_append]; rw [e c hc]; exact hm.size c hc
        · intro c hc; simp only [List.nil_append]; rw [e c hc]; exact hm.mean c hc
        · intro k hk c hc; simp only [List.nil_append]; rw [e c hc]; exact hm.mom k hk c hc
    · refine ⟨b0, l' ++ [b], rfl, ?_⟩
      have hpos : mc.paths ≠ 0 := by
        have := hne b0 (by simp)
        rw [hi.paths]; simp; omega
      cases hpr : mcPrepare use b.x b.axis with
      | error e => simp only [MC.update, hi.use_eq, hpr] at he; cases he
      | ok x =>
        obtain ⟨-, hx, -⟩ := prepare_ok hpr
        obtain ⟨st, hst, -, hm⟩ := hi.stats
        have hv : SameButOnes b.vshape b0.vshape := by
          cases hup : updateMoments mc.paths (some st) x with
          | error e => simp only [MC.update, hi.use_eq, hpr, hst, hup] at he; cases he
          | ok st' => exact updateMoments_shape hpos hm hx hup
        obtain ⟨mc'', h1, h2⟩ := fit_next (auto := auto) hi hpos hv hsz hpr
        rw [he] at h1
        simp only [Prod.mk.injEq, and_true] at h1
        subst h1
        refine ⟨fun b' hb' => ?_, h2⟩
        rcases List.mem_append.1 hb' with hb' | hb'
        · exact hs b' hb'
        · rw [List.mem_singleton.1 hb']; exact hv

/-- **C58** (no bins). If no histogram is cumulated (`bins=None`), then after any sequence of updates with
non empty samples the shapes of data points of all samples agree with that of the first one, but
for the number of leading axes of size one, the statistics have the shape of the first sample, and are those of
all data, each sample being read as if such axes were added to it, or removed from it. (With bins,
this fails: `C36_false`, `C41_false`.) -/
theorem C58_no_bins_partial (ha : AutoOk auto) {range : Option (K × K)} {use : String} {b0 : Batch K}
    {l : List (Batch K)} {mc : MC K} (h : McHistory auto .none range use (b0 :: l) mc)
    (hne : NonEmpty use (b0 :: l)) :
    (∀ b ∈ l, SameButOnes b.vshape b0.vshape) ∧
    mc.paths = ((b0 :: l).map (Batch.size use)).sum ∧
    (∀ c, InRange b0.vshape c → mc.paths = (pooledFit use (b0 :: l) c).length) ∧
    (∃ a, mc.mean = some a ∧ a.shape = b0.vshape ∧ ∀ c, InRange b0.vshape c →
      a.get c = some (avg (pooledFit use (b0 :: l) c))) ∧
    (∃ a, mc.var = .ok a ∧ a.shape = b0.vshape ∧ ∀ c, InRange b0.vshape c →
      a.get c = some (cmom 2 (pooledFit use (b0 :: l) c))) ∧
    ∃ a, mc.kurtosis = .ok a ∧ a.shape = b0.vshape ∧ ∀ c, InRange b0.vshape c →
      let P := pooledFit use (b0 :: l) c
      a.get c = if P.length < 2 then some (-3) else if cmom 2 P = 0 then none
        else some (cmom 4 P / cmom 2 P ^ 2) := by
  rcases fit_history ha h hne with ⟨h0, -⟩ | ⟨b1, l', h1, hs, hi⟩
  · cases h0
  · simp only [List.cons.injEq] at h1
    obtain ⟨rfl, rfl⟩ := h1
    obtain ⟨st, hst, hn, hm⟩ := hi.stats
    have hpos : 0 < mc.paths := by
      have := hne b0 (by simp)
      rw [hi.paths]; simp; omega
    refine ⟨hs, hi.paths, fun c hc => (hm.size c hc).symm,
      ⟨_, by rw [MC.mean, hst]; rfl, hm.vshape, fun c hc => ?_⟩,
      ⟨_, by rw [MC.var, hst], hm.vshape, fun c hc => ?_⟩,
      ⟨_, by rw [MC.kurtosis, hst], hm.vshape, fun c hc => ?_⟩⟩
    · simp [hn, hm.mean c hc]
    · simp only [hn, Bool.false_eq_true, if_false, (hm.central hpos hc).1, Option.some.injEq]
      split
      · next h2 => rw [cmom_two_single _ (by rw [hm.size c hc]; exact h2)]
      · rfl
    · simp only [hn, Bool.false_eq_true, if_false, (hm.central hpos hc).1,
        (hm.central hpos hc).2.2, hm.size c hc, zero_mul, add_zero]

/-- **C58** (which samples are accepted, if there are no bins). Once a non empty sample has been cumulated, a valid
non empty sample is accepted if and only if the shape of its data points is that of the first ones, but for the
number of leading axes of size one. Otherwise nothing changes. -/
theorem C58_accepts_partial (ha : AutoOk auto) {range : Option (K × K)} {use : String} {b0 b : Batch K}
    {l : List (Batch K)} {mc : MC K} (h : McHistory auto .none range use (b0 :: l) mc)
    (hne : NonEmpty use (b0 :: l)) (hok : b.Valid use) (hsz : 0 < b.size use) :
    (SameButOnes b.vshape b0.vshape → ∃ mc', mc.update auto b.x b.axis = (mc', .ok ())) ∧
    (¬ SameButOnes b.vshape b0.vshape → ∃ e, mc.update auto b.x b.axis = (mc, .error e)) := by
  rcases fit_history ha h hne with ⟨h0, -⟩ | ⟨b1, l', h1, hs, hi⟩
  · cases h0
  · simp only [List.cons.injEq] at h1
    obtain ⟨rfl, rfl⟩ := h1
    obtain ⟨st, hst, hn, hm⟩ := hi.stats
    have hpos : mc.paths ≠ 0 := by
      have := hne b0 (by simp)
      rw [hi.paths]; simp; omega
    obtain ⟨x, hpr⟩ := prepare_total hok
    refine ⟨fun hv => ?_, fun hv => ?_⟩
    · obtain ⟨mc', h1, -⟩ := fit_next (auto := auto) hi hpos hv hsz hpr
      exact ⟨mc', h1⟩
    · obtain ⟨-, hx, -⟩ := prepare_ok hpr
      cases hup : updateMoments mc.paths (some st) x with
      | error e => exact ⟨e, by simp only [MC.update, hi.use_eq, hpr, hst, hup]⟩
      | ok st' => exact absurd (updateMoments_shape hpos hm hx hup) hv

end

/-! ### Examples -/

/-- Data points of shape `(2,)`, then one of shape `(1, 2)`, without bins. -/
def fitMC1 : MC ℚ := ((MC.new .none none "all").update noAuto (arrOf [2, 2] [1, 3, 10, 20]) (-1)).1
def fitMC2 : MC ℚ := (fitMC1.update noAuto (arrOf [1, 2, 1] [8, 60]) (-1)).1

theorem update_done {mc : MC ℚ} {x : Arr ℚ} {axis : ℤ} (h : (mc.update noAuto x axis).2.isOk = true) :
    mc.update noAuto x axis = ((mc.update noAuto x axis).1, .ok ()) := by
  cases h' : mc.update noAuto x axis with
  | mk m r =>
    rw [h'] at h
    cases r with
    | error e => cases h
    | ok u => rfl

theorem fitMC_history : McHistory noAuto .none none "all"
    [⟨arrOf [2, 2] [1, 3, 10, 20], -1⟩, ⟨arrOf [1, 2, 1] [8, 60], -1⟩] fitMC2 :=
  .update (l := [⟨arrOf [2, 2] [1, 3, 10, 20], -1⟩]) (b := ⟨arrOf [1, 2, 1] [8, 60], -1⟩)
    (.update (l := []) (b := ⟨arrOf [2, 2] [1, 3, 10, 20], -1⟩) .new
      (update_done (by decide +kernel))) (update_done (mc := fitMC1) (by decide +kernel))

/-- The mean is that of `1`, `3`, `8` and of `10`, `20`, `60`. -/
example : ∃ a, fitMC2.mean = some a ∧ a.shape = [2] ∧ a.get [0] = some 4 ∧ a.get [1] = some 30 := by
  obtain ⟨-, -, -, ⟨a, h1, h2, h3⟩, -⟩ := C58_no_bins_partial noAuto_ok fitMC_history
    (by intro b hb; fin_cases hb <;> decide)
  refine ⟨a, h1, h2, ?_, ?_⟩
  · rw [h3 [0] (by decide)]; decide +kernel
  · rw [h3 [1] (by decide)]; decide +kernel

/-- A sample of shape `(1,)`, that could be broadcast to `(2,)`, is rejected. -/
example : ∃ e, fitMC2.update noAuto (arrOf [1, 3] [5, 6, 7]) (-1) = (fitMC2, .error e) := by
  refine (C58_accepts_partial noAuto_ok fitMC_history (by intro b hb; fin_cases hb <;> decide)
    (b := ⟨arrOf [1, 3] [5, 6, 7], -1⟩) ⟨by decide, by decide, .inl rfl⟩ (by decide)).2 ?_
  rintro (h | h)
  · exact absurd h (by decide)
  · exact noExcess3 (by decide) h

/-- **C58** does not hold: after data points of shape `(2,)`, a sample of data points of shape `(1,)` raises
`ValueError`, although it can be broadcast; if broadcast beforehand, it is accepted. -/
theorem C58_false :
    (fitMC2.update noAuto (arrOf [1, 3] [5, 6, 7]) (-1)).2 = .error .valueError ∧
    (fitMC2.update noAuto (arrOf [2, 3] [5, 6, 7, 5, 6, 7]) (-1)).2 = .ok () := by
  constructor <;> decide +kernel

end Sdepy
