import Verif.Props.ProcessUfunc
import Mathlib.Algebra.Order.BigOperators.Group.Finset

/-!
# Reshaping processes, and summaries across paths, values and time
-/

namespace Sdepy
open Spec

variable {T K : Type}

/-- A process has an axis for time, those of values, one for paths. -/
theorem proc_shape {p : Proc T K} (hp : IsProc p) (h2 : 2 ≤ p.x.shape.length) :
    p.x.shape = p.t.length :: p.vshape ++ [p.paths] := by
  have h := hp.2
  unfold Proc.vshape Proc.paths
  match hs : p.x.shape with
  | [] => rw [hs] at h2; simp at h2
  | [a] => rw [hs] at h2; simp at h2
  | a :: b :: s =>
    rw [hs] at h
    simp only [List.head?_cons, Option.some.injEq] at h
    subst h
    simp only [List.dropLast_cons_cons, List.tail_cons, List.cons_append]
    rw [List.getLastD_cons, List.getLastD_eq_getLast?, List.getLast?_eq_some_getLast (by simp)]
    simp [List.dropLast_append_getLast]

/-! ### `shapeas` -/

/-- **C46**. Enlarging: axes of size one are added on the left of those of values. -/
theorem C46_add (p : Proc T K) (hp : IsProc p) (h2 : 2 ≤ p.x.shape.length) (vs : List ℕ)
    (h : p.vshape.length ≤ vs.length) :
    ∃ z d, p.shapeas vs = .ok z ∧ z.t = p.t ∧ vs.length = d + p.vshape.length ∧
      z.x.shape = p.t.length :: List.replicate d 1 ++ p.vshape ++ [p.paths] ∧
      ∀ k j m, k < p.t.length → InRange p.vshape j → m < p.paths →
        z.x.get (k :: List.replicate d 0 ++ j ++ [m]) = p.x.get (k :: j ++ [m]) := by
  have hsh := proc_shape hp h2
  have hl : p.x.shape.length = p.vshape.length + 2 := by rw [hsh]; simp
  obtain ⟨b, hb1, hb2, hb3⟩ := reshape_add p.x [p.t.length] (p.vshape ++ [p.paths]) (vs.length - p.vshape.length)
    (by rw [hsh]; rfl)
  have hmk : Proc.make p.t b = .ok ⟨p.t, b⟩ := make_ok hp.1 (by rw [hb2]; rfl)
  refine ⟨⟨p.t, b⟩, vs.length - p.vshape.length, ?_, rfl, by omega, by rw [hb2]; simp, ?_⟩
  · unfold Proc.shapeas
    simp only
    by_cases hc : p.x.shape.length < vs.length + 2
    · rw [if_pos hc]
      have e : p.x.shape.take 1 ++ List.replicate (vs.length + 2 - p.x.shape.length) 1 ++ p.x.shape.drop 1 =
          [p.t.length] ++ List.replicate (vs.length - p.vshape.length) 1 ++ (p.vshape ++ [p.paths]) := by
        rw [hl, show vs.length + 2 - (p.vshape.length + 2) = vs.length - p.vshape.length by omega, hsh]
        rfl
      rw [e, hb1]
      exact hmk
    · rw [if_neg hc]
      have h0 : vs.length - p.vshape.length = 0 := by omega
      have h0' : p.x.shape.length - 2 - vs.length = 0 := by omega
      rw [if_neg (by omega), h0']
      have e : p.x.shape.take 1 ++ p.x.shape.drop (0 + 1) =
          [p.t.length] ++ List.replicate (vs.length - p.vshape.length) 1 ++ (p.vshape ++ [p.paths]) := by
        rw [h0, List.take_append_drop, hsh]; rfl
      rw [e, hb1]
      exact hmk
  · intro k j m hk hj hm
    have := hb3 [k] (j ++ [m]) (.cons hk .nil) ((inRange_append hj.length).2 ⟨hj, .cons hm .nil⟩)
    simpa using this

/-- **C46**. Shrinking: axes of size one are removed from the left of those of values; `ValueError` is raised
if one of them is not of size one. -/
theorem C46_remove (p : Proc T K) (hp : IsProc p) (h2 : 2 ≤ p.x.shape.length) (vs : List ℕ) (d : ℕ) (hd : 0 < d)
    (h : p.vshape.length = d + vs.length) :
    (∀ n ∈ p.vshape.take d, n = 1) ∧
      (∃ z, p.shapeas vs = .ok z ∧ z.t = p.t ∧ z.x.shape = p.t.length :: p.vshape.drop d ++ [p.paths] ∧
      ∀ k j m, k < p.t.length → InRange (p.vshape.drop d) j → m < p.paths →
        z.x.get (k :: j ++ [m]) = p.x.get (k :: List.replicate d 0 ++ j ++ [m])) ∨
    (¬ ∀ n ∈ p.vshape.take d, n = 1) ∧ p.shapeas vs = .error .valueError := by
  have hsh := proc_shape hp h2
  have hl : p.x.shape.length = p.vshape.length + 2 := by rw [hsh]; simp
  have e1 : p.x.shape.length - 2 - vs.length = d := by omega
  have e2 : (p.x.shape.drop 1).take d = p.vshape.take d := by
    rw [hsh]
    simp only [List.cons_append, List.drop_succ_cons, List.drop_zero]
    rw [List.take_append_of_le_length (by omega)]
  have e3 : p.x.shape.take 1 ++ p.x.shape.drop (d + 1) = [p.t.length] ++ (p.vshape.drop d ++ [p.paths]) := by
    rw [hsh]
    simp only [List.cons_append, List.drop_succ_cons]
    rw [List.drop_append_of_le_length (by omega)]
    rfl
  unfold Proc.shapeas
  simp only
  rw [if_neg (by omega), e1, e2, e3]
  by_cases hone : ∀ n ∈ p.vshape.take d, n = 1
  · refine .inl ⟨hone, ?_⟩
    rw [if_neg (by simpa using fun _ => hone)]
    have hrep : p.vshape.take d = List.replicate d 1 := by
      rw [List.eq_replicate_iff]
      exact ⟨by rw [List.length_take]; omega, hone⟩
    obtain ⟨b, hb1, hb2, hb3⟩ := reshape_drop p.x [p.t.length] (p.vshape.drop d ++ [p.paths]) d (by
      rw [hsh, ← hrep]
      simp only [List.append_assoc]
      rw [← List.append_assoc (p.vshape.take d), List.take_append_drop]
      rfl)
    rw [hb1]
    have hmk : Proc.make p.t b = .ok ⟨p.t, b⟩ := make_ok hp.1 (by rw [hb2]; rfl)
    refine ⟨⟨p.t, b⟩, hmk, rfl, by rw [hb2]; rfl, ?_⟩
    intro k j m hk hj hm
    have := hb3 [k] (j ++ [m]) (.cons hk .nil) ((inRange_append hj.length).2 ⟨hj, .cons hm .nil⟩)
    simpa using this
  · refine .inr ⟨hone, ?_⟩
    rw [if_pos ⟨hd, hone⟩]

example := C46_add exProc exProc_isProc (by simp [exProc]) [7, 7] (by simp [exProc, Proc.vshape])
example := C46_remove (⟨[0, 1], ⟨[2, 1, 3, 4], fun i => (i.sum : ℕ)⟩⟩ : Proc ℚ ℚ) ⟨by simp, rfl⟩ (by simp) [5] 1
  (by simp) rfl
example : exProc.shapeas [] = .error .valueError := rfl

/-! ### Reductions along adjacent axes -/

theorem selAxes_append (b : Bool) {m : List Bool} {s : List ℕ} (h : m.length = s.length) (m' : List Bool)
    (s' : List ℕ) : selAxes b (m ++ m') (s ++ s') = selAxes b m s ++ selAxes b m' s' := by
  induction m generalizing s with
  | nil =>
    cases s with
    | nil => rfl
    | cons _ _ => simp at h
  | cons a m ih =>
    cases s with
    | nil => simp at h
    | cons n s =>
      have := ih (s := s) (by simpa using h)
      simp only [List.cons_append, selAxes, this]
      split <;> rfl

theorem selAxes_same (b : Bool) (s : List ℕ) : selAxes b (List.replicate s.length b) s = s := by
  induction s with
  | nil => rfl
  | cons n s ih => simp [List.replicate_succ, selAxes, ih]

theorem selAxes_other {b c : Bool} (h : c ≠ b) (s : List ℕ) : selAxes b (List.replicate s.length c) s = [] := by
  induction s with
  | nil => rfl
  | cons n s ih => simp [List.replicate_succ, selAxes, ih, h]

theorem keptShape_append {m : List Bool} {s : List ℕ} (h : m.length = s.length) (m' : List Bool)
    (s' : List ℕ) : keptShape (m ++ m') (s ++ s') = keptShape m s ++ keptShape m' s' := by
  induction m generalizing s with
  | nil =>
    cases s with
    | nil => rfl
    | cons _ _ => simp at h
  | cons a m ih =>
    cases s with
    | nil => simp at h
    | cons n s =>
      have := ih (s := s) (by simpa using h)
      simp only [List.cons_append, keptShape, this]

theorem keptShape_false (s : List ℕ) : keptShape (List.replicate s.length false) s = s := by
  induction s with
  | nil => rfl
  | cons n s ih => simp [List.replicate_succ, keptShape, ih]

theorem keptShape_true (s : List ℕ) : keptShape (List.replicate s.length true) s = List.replicate s.length 1 := by
  induction s with
  | nil => rfl
  | cons n s ih => simp [List.replicate_succ, keptShape, ih]

theorem mergeAxes_false (k : List ℕ) (m : List Bool) (k' r : List ℕ) :
    mergeAxes (List.replicate k.length false ++ m) (k ++ k') r = k ++ mergeAxes m k' r := by
  induction k with
  | nil => rfl
  | cons n s ih => simpa [List.replicate_succ, mergeAxes] using ih

theorem mergeAxes_true (r : List ℕ) (m : List Bool) (k r' : List ℕ) :
    mergeAxes (List.replicate r.length true ++ m) k (r ++ r') = r ++ mergeAxes m k r' := by
  induction r with
  | nil => rfl
  | cons n s ih => simpa [List.replicate_succ, mergeAxes] using ih

theorem axesMask_block {a b c : ℕ} {axes : List ℕ} (h : ∀ k < a + b + c, k ∈ axes ↔ a ≤ k ∧ k < a + b) :
    axesMask (a + b + c) axes = List.replicate a false ++ List.replicate b true ++ List.replicate c false := by
  apply List.ext_getElem
  · simp [axesMask]; omega
  · intro k h1 h2
    have hk : k < a + b + c := by simpa [axesMask] using h1
    simp only [axesMask, List.getElem_map, List.getElem_range]
    by_cases hka : k < a
    · rw [List.getElem_append_left (by simp; omega), List.getElem_append_left (by simpa using hka)]
      simp only [List.getElem_replicate, decide_eq_false_iff_not, h k hk]
      omega
    · by_cases hkb : k < a + b
      · rw [List.getElem_append_left (by simp; omega), List.getElem_append_right (by simpa using hka)]
        simp only [List.getElem_replicate, decide_eq_true_iff, h k hk]
        omega
      · rw [List.getElem_append_right (by simp; omega)]
        simp only [List.getElem_replicate, decide_eq_false_iff_not, h k hk]
        omega

theorem reduce_block {α β : Type} (x : Arr α) (f : List α → β) {s1 s2 s3 axes : List ℕ} (hx : x.shape = s1 ++ s2 ++ s3)
    (h : ∀ k < s1.length + s2.length + s3.length, k ∈ axes ↔ s1.length ≤ k ∧ k < s1.length + s2.length) :
    ((x.reduce f axes true).shape = s1 ++ List.replicate s2.length 1 ++ s3 ∧
      ∀ i j, InRange s1 i → InRange s3 j → (x.reduce f axes true).get (i ++ List.replicate s2.length 0 ++ j) =
        f ((ndindex s2).map fun r => x.get (i ++ r ++ j))) ∧
    ((x.reduce f axes false).shape = s1 ++ s3 ∧
      ∀ i j, InRange s1 i → InRange s3 j → (x.reduce f axes false).get (i ++ j) =
        f ((ndindex s2).map fun r => x.get (i ++ r ++ j))) := by
  have hm : axesMask x.shape.length axes = List.replicate s1.length false ++ List.replicate s2.length true ++
      List.replicate s3.length false := by
    rw [← axesMask_block h, hx]
    simp [Nat.add_assoc]
  have e1 : selAxes true (axesMask x.shape.length axes) x.shape = s2 := by
    rw [hm, hx, selAxes_append _ (by simp), selAxes_append _ (by simp), selAxes_other (by simp), selAxes_same,
      selAxes_other (by simp)]
    simp
  have e2 : selAxes false (axesMask x.shape.length axes) x.shape = s1 ++ s3 := by
    rw [hm, hx, selAxes_append _ (by simp), selAxes_append _ (by simp), selAxes_same, selAxes_same,
      selAxes_other (by simp)]
    simp
  have e3 : keptShape (axesMask x.shape.length axes) x.shape = s1 ++ List.replicate s2.length 1 ++ s3 := by
    rw [hm, hx, keptShape_append (by simp), keptShape_append (by simp), keptShape_false, keptShape_true,
      keptShape_false]
  have e4 : ∀ i j r, InRange s1 i → InRange s3 j → InRange s2 r →
      mergeAxes (axesMask x.shape.length axes) (i ++ j) r = i ++ r ++ j := by
    intro i j r hi hj hr
    rw [hm, ← hi.length, ← hr.length, ← hj.length, List.append_assoc, mergeAxes_false]
    have := mergeAxes_true r (List.replicate j.length false) j []
    rw [List.append_nil] at this
    rw [this]
    have := mergeAxes_false j [] [] []
    simp only [List.append_nil] at this
    rw [this]
    simp [mergeAxes]
  have e5 : ∀ i j, InRange s1 i → InRange s3 j →
      selAxes false (axesMask x.shape.length axes) (i ++ List.replicate s2.length 0 ++ j) = i ++ j := by
    intro i j hi hj
    rw [hm, ← hi.length, ← hj.length, selAxes_append _ (by simp), selAxes_append _ (by simp)]
    rw [selAxes_same, selAxes_same]
    have := selAxes_other (b := false) (c := true) (by simp) (List.replicate s2.length 0)
    rw [List.length_replicate] at this
    rw [this]
    simp
  have e6 : ∀ i j, InRange s1 i → InRange s3 j →
      (ndindex s2).map (fun r => x.get (mergeAxes (axesMask x.shape.length axes) (i ++ j) r)) =
        (ndindex s2).map fun r => x.get (i ++ r ++ j) := by
    intro i j hi hj
    apply List.map_congr_left
    intro r hr
    rw [e4 i j r hi hj (mem_ndindex.1 hr)]
  refine ⟨⟨e3, fun i j hi hj => ?_⟩, ⟨e2, fun i j hi hj => ?_⟩⟩
  · simp only [Arr.reduce, if_true, e5 i j hi hj, e1, e6 i j hi hj]
  · simp only [Arr.reduce, Bool.false_eq_true, if_false, e1, e6 i j hi hj]

/-! ### Summaries -/

/-- Statistics of a list of values. -/
def Spec.IsSum [AddCommMonoid K] (l : List K) (y : K) : Prop := y = l.sum
def Spec.IsMean [Semiring K] (l : List K) (y : K) : Prop := y * l.length = l.sum
def Spec.IsVar [Ring K] (ddof : ℕ) (l : List K) (y : K) : Prop :=
  ∃ m, IsMean l m ∧ y * (l.length - ddof) = (l.map fun a => (a - m) ^ 2).sum
def Spec.IsMin [LE K] (l : List K) (y : K) : Prop := y ∈ l ∧ ∀ a ∈ l, y ≤ a
def Spec.IsMax [LE K] (l : List K) (y : K) : Prop := y ∈ l ∧ ∀ a ∈ l, a ≤ y
def Spec.IsStd (ddof : ℕ) (l : List ℝ) (y : ℝ) : Prop := 0 ≤ y ∧ IsVar ddof l (y ^ 2)

theorem npSum_eq [AddCommMonoid K] (l : List K) : npSum l = l.sum := List.sum_eq_foldl.symm

theorem npMean_isMean [Field K] [CharZero K] {l : List K} (hl : l ≠ []) : IsMean l (npMean l) := by
  have : (l.length : K) ≠ 0 := by simpa using hl
  rw [IsMean, npMean, npSum_eq, div_mul_cancel₀ _ this]

theorem npVar_isVar [Field K] [CharZero K] {l : List K} {ddof : ℕ} (hd : ddof < l.length) :
    IsVar ddof l (npVar ddof l) := by
  refine ⟨npMean l, npMean_isMean (by rintro rfl; simp at hd), ?_⟩
  rw [npVar, npSum_eq, Nat.cast_sub hd.le]
  have : ((l.length : K) - ddof) ≠ 0 := by
    rw [← Nat.cast_sub hd.le]
    exact Nat.cast_ne_zero.2 (by omega)
  rw [div_mul_cancel₀ _ this]

theorem npStd_isStd {l : List ℝ} {ddof : ℕ} (hd : ddof < l.length) : IsStd ddof l (npStd ddof l) := by
  refine ⟨Real.sqrt_nonneg _, ?_⟩
  rw [npStd, Real.sq_sqrt]
  · exact npVar_isVar hd
  · unfold npVar
    rw [npSum_eq]
    apply div_nonneg
    · apply List.sum_nonneg
      intro a ha
      obtain ⟨b, _, rfl⟩ := List.mem_map.1 ha
      positivity
    · positivity

theorem npMin_isMin [LinearOrder K] [Zero K] {l : List K} (hl : l ≠ []) : IsMin l (npMin l) := by
  match l, hl with
  | a :: l, _ =>
    simp only [npMin]
    induction l generalizing a with
    | nil => exact ⟨by simp, by simp⟩
    | cons b l ih =>
      obtain ⟨h1, h2⟩ := ih (min a b) (by simp)
      simp only [List.foldl_cons]
      refine ⟨?_, ?_⟩
      · rcases List.mem_cons.1 h1 with h | h
        · rcases min_choice a b with h' | h' <;> rw [h, h'] <;> simp
        · simp [h]
      · intro c hc
        have hm := h2 (min a b) (by simp)
        rcases List.mem_cons.1 hc with rfl | hc
        · exact hm.trans (min_le_left _ _)
        · rcases List.mem_cons.1 hc with rfl | hc
          · exact hm.trans (min_le_right _ _)
          · exact h2 c (by simp [hc])

theorem npMax_isMax [LinearOrder K] [Zero K] {l : List K} (hl : l ≠ []) : IsMax l (npMax l) := by
  match l, hl with
  | a :: l, _ =>
    simp only [npMax]
    induction l generalizing a with
    | nil => exact ⟨by simp, by simp⟩
    | cons b l ih =>
      obtain ⟨h1, h2⟩ := ih (max a b) (by simp)
      simp only [List.foldl_cons]
      refine ⟨?_, ?_⟩
      · rcases List.mem_cons.1 h1 with h | h
        · rcases max_choice a b with h' | h' <;> rw [h, h'] <;> simp
        · simp [h]
      · intro c hc
        have hm := h2 (max a b) (by simp)
        rcases List.mem_cons.1 hc with rfl | hc
        · exact (le_max_left _ _).trans hm
        · rcases List.mem_cons.1 hc with rfl | hc
          · exact (le_max_right _ _).trans hm
          · exact h2 c (by simp [hc])

/-- Values of one component at one time, across paths. -/
def Spec.acrossPaths (p : Proc T K) (k : ℕ) (j : List ℕ) : List K :=
  (List.range p.paths).map fun m : ℕ => p.x.get (k :: j ++ [m])

/-- Values of one path at one time, across components. -/
def Spec.acrossValues (p : Proc T K) (k m : ℕ) : List K :=
  (ndindex p.vshape).map fun j => p.x.get (k :: j ++ [m])

/-- Values of one component and path, along time. -/
def Spec.alongTime (p : Proc T K) (r : List ℕ) : List K :=
  (List.range p.t.length).map fun k : ℕ => p.x.get (k :: r)

/-- A summary across paths: same timeline, one path, values being a statistic across paths. -/
def Spec.PathSummary {L : Type} (stat : List K → L → Prop) (p : Proc T K) (r : Py (Proc T L)) : Prop :=
  ∃ z, r = .ok z ∧ z.t = p.t ∧ z.x.shape = p.t.length :: p.vshape ++ [1] ∧
    ∀ k j, k < p.t.length → InRange p.vshape j → stat (acrossPaths p k j) (z.x.get (k :: j ++ [0]))

/-- A summary across values: same timeline and paths, scalar values. -/
def Spec.ValueSummary {L : Type} (stat : List K → L → Prop) (p : Proc T K) (r : Py (Proc T L)) : Prop :=
  ∃ z, r = .ok z ∧ z.t = p.t ∧ z.x.shape = [p.t.length, p.paths] ∧
    ∀ k m, k < p.t.length → m < p.paths → stat (acrossValues p k m) (z.x.get [k, m])

/-- A summary along time: a constant process, at the first time, same values shape and paths. -/
def Spec.TimeSummary {L : Type} (stat : List K → L → Prop) (p : Proc T K) (r : Py (Proc T L)) : Prop :=
  ∃ z t0, r = .ok z ∧ p.t.head? = some t0 ∧ z.t = [t0] ∧ z.x.shape = 1 :: p.x.shape.tail ∧
    ∀ i, InRange p.x.shape.tail i → stat (alongTime p i) (z.x.get (0 :: i))

section general
variable {L : Type} {stat : List K → L → Prop} {f : List K → L}

theorem ndindex_axis (n : ℕ) : ndindex [n] = (List.range n).map fun k => [k] := by
  simp only [ndindex, List.map_singleton]
  generalize List.range n = l
  induction l with
  | nil => rfl
  | cons a l ih => simp [ih]

theorem vshape_length (p : Proc T K) (hp : IsProc p) (h2 : 2 ≤ p.x.shape.length) :
    p.x.shape.length = p.vshape.length + 2 := by
  conv_lhs => rw [proc_shape hp h2]
  simp

theorem pathBlock (p : Proc T K) (hp : IsProc p) (h2 : 2 ≤ p.x.shape.length) :
    (p.x.reduce f [p.x.shape.length - 1] true).shape = p.t.length :: p.vshape ++ [1] ∧
      ∀ k j, k < p.t.length → InRange p.vshape j →
        (p.x.reduce f [p.x.shape.length - 1] true).get (k :: j ++ [0]) = f (acrossPaths p k j) := by
  have hl := vshape_length p hp h2
  obtain ⟨⟨h1, h3⟩, -⟩ := reduce_block p.x f (s1 := p.t.length :: p.vshape) (s2 := [p.paths]) (s3 := [])
    (axes := [p.x.shape.length - 1]) (by rw [proc_shape hp h2]; simp) (by
      intro k hk
      rw [hl]
      simp at hk ⊢
      omega)
  refine ⟨by rw [h1]; simp, fun k j hk hj => ?_⟩
  have := h3 (k :: j) [] (.cons hk hj) .nil
  simp only [List.length_singleton, List.replicate_one, List.append_nil] at this
  rw [this]
  congr 1
  rw [ndindex_axis]
  simp [acrossPaths]

theorem valueBlock (p : Proc T K) (hp : IsProc p) (h2 : 2 ≤ p.x.shape.length) :
    (p.x.reduce f p.vaxes false).shape = [p.t.length, p.paths] ∧
      ∀ k m, k < p.t.length → m < p.paths → (p.x.reduce f p.vaxes false).get [k, m] = f (acrossValues p k m) := by
  obtain ⟨-, h1, h3⟩ := reduce_block p.x f (s1 := [p.t.length]) (s2 := p.vshape) (s3 := [p.paths])
    (axes := p.vaxes) (by rw [proc_shape hp h2]; simp) (by
      intro k hk
      simp only [Proc.vaxes, List.mem_map, List.mem_range, List.length_singleton]
      constructor
      · rintro ⟨a, ha, rfl⟩; omega
      · intro h; exact ⟨k - 1, by omega, by omega⟩)
  refine ⟨h1, fun k m hk hm => ?_⟩
  exact h3 [k] [m] (.cons hk .nil) (.cons hm .nil)

theorem timeBlock (p : Proc T K) (hp : IsProc p) :
    (p.x.reduce f [0] true).shape = 1 :: p.x.shape.tail ∧
      ∀ i, InRange p.x.shape.tail i → (p.x.reduce f [0] true).get (0 :: i) = f (alongTime p i) := by
  obtain ⟨⟨h1, h3⟩, -⟩ := reduce_block p.x f (s1 := []) (s2 := [p.t.length]) (s3 := p.x.shape.tail)
    (axes := [0]) (by rw [IsProc.shape hp]; simp) (by
      intro k hk
      simp)
  refine ⟨by rw [h1]; simp, fun i hi => ?_⟩
  have := h3 [] i .nil hi
  simp only [List.length_singleton, List.replicate_one, List.nil_append, List.singleton_append] at this
  rw [this]
  congr 1
  rw [ndindex_axis]
  simp [alongTime]

theorem pred_summary (p : Proc T K) (hp : IsProc p) (h2 : 2 ≤ p.x.shape.length)
    (hf : ∀ l, l.length = p.paths → stat l (f l)) : PathSummary stat p (p.pred f) := by
  obtain ⟨h1, h3⟩ := pathBlock (f := f) p hp h2
  exact ⟨_, make_ok hp.1 (by rw [h1]; simp), rfl, h1, fun k j hk hj => by
    rw [h3 k j hk hj]; exact hf _ (by simp [acrossPaths])⟩

theorem vred_summary (p : Proc T K) (hp : IsProc p) (h2 : 2 ≤ p.x.shape.length)
    (hf : ∀ l, l.length = p.vshape.prod → stat l (f l)) : ValueSummary stat p (p.vred f) := by
  obtain ⟨h1, h3⟩ := valueBlock (f := f) p hp h2
  exact ⟨_, make_ok hp.1 (by rw [h1]; simp), rfl, h1, fun k m hk hm => by
    rw [h3 k m hk hm]; exact hf _ (by simp [acrossValues, ndindex_length])⟩

theorem tred_summary (p : Proc T K) (hp : IsProc p)
    (hf : ∀ l, l.length = p.t.length → stat l (f l)) : TimeSummary stat p (p.tred f) := by
  obtain ⟨h1, h3⟩ := timeBlock (f := f) p hp
  match ht : p.t, hp.1 with
  | t0 :: t, _ =>
    refine ⟨⟨[t0], p.x.reduce f [0] true⟩, t0, ?_, by rw [ht]; rfl, rfl, h1, fun i hi => ?_⟩
    · unfold Proc.tred
      rw [ht]
      exact make_ok (by simp) (by rw [h1]; simp)
    · simp only [h3 i hi]
      exact hf _ (by simp [alongTime])

theorem reduce1_ok (x : Arr K) {axes : List ℕ} {kd : Bool}
    (h : x.shape.prod = 0 → (x.reduce f axes kd).shape.prod = 0) :
    x.reduce1 f axes kd = .ok (x.reduce f axes kd) := by
  unfold Arr.reduce1
  rw [if_neg]
  rintro ⟨h1, h2⟩
  exact h2 (h h1)

theorem pred1_eq (p : Proc T K) (hp : IsProc p) (h2 : 2 ≤ p.x.shape.length) (h0 : 0 < p.paths) :
    p.pred1 f = p.pred f := by
  unfold Proc.pred1 Proc.pred
  rw [reduce1_ok]
  intro h
  rw [(pathBlock p hp h2).1]
  rw [proc_shape hp h2, List.prod_append, List.prod_cons, Nat.mul_eq_zero, Nat.mul_eq_zero] at h
  rw [List.prod_append, List.prod_cons, Nat.mul_eq_zero, Nat.mul_eq_zero]
  simp only [List.prod_cons, List.prod_nil, Nat.mul_one] at h ⊢
  omega

theorem vred1_eq (p : Proc T K) (hp : IsProc p) (h2 : 2 ≤ p.x.shape.length) (h0 : 0 < p.vshape.prod) :
    p.vred1 f = p.vred f := by
  unfold Proc.vred1 Proc.vred
  rw [reduce1_ok]
  intro h
  rw [(valueBlock p hp h2).1]
  rw [proc_shape hp h2, List.prod_append, List.prod_cons, Nat.mul_eq_zero, Nat.mul_eq_zero] at h
  simp only [List.prod_cons, List.prod_nil, Nat.mul_one, Nat.mul_eq_zero] at h ⊢
  omega

theorem tred1_eq (p : Proc T K) (hp : IsProc p) : p.tred1 f = p.tred f := by
  unfold Proc.tred1 Proc.tred
  rw [reduce1_ok]
  intro h
  rw [(timeBlock p hp).1]
  rw [IsProc.shape hp] at h
  have := List.length_pos_of_ne_nil hp.1
  simp only [List.prod_cons, Nat.mul_eq_zero, Nat.one_mul] at h ⊢
  omega

end general

section field
variable [Field K] [LinearOrder K] [IsStrictOrderedRing K]

theorem ne_nil_of {l : List K} {n : ℕ} (h : l.length = n) (hn : 0 < n) : l ≠ [] := by
  rintro rfl; simp at h; omega

/-- **C47** (paths; partial). `psum`, `pmean`, `pvar`, `pmin`, `pmax` have the timeline of the process and
one path; their values are the sum, mean, variance, minimum, maximum across paths. What is missing, for
integer values, is false: see `C47_int_false`. -/
theorem C47_paths_partial (p : Proc T K) (hp : IsProc p) (h2 : 2 ≤ p.x.shape.length) :
    PathSummary IsSum p (p.pred npSum) ∧
    (0 < p.paths → PathSummary IsMean p (p.pred npMean) ∧ PathSummary IsMin p (p.pred1 npMin) ∧
      PathSummary IsMax p (p.pred1 npMax)) ∧
    ∀ ddof < p.paths, PathSummary (IsVar ddof) p (p.pred (npVar ddof)) := by
  refine ⟨pred_summary p hp h2 fun l _ => npSum_eq l, fun h0 => ⟨?_, ?_, ?_⟩, fun ddof hd => ?_⟩
  · exact pred_summary p hp h2 fun l hl => npMean_isMean (ne_nil_of hl h0)
  · rw [pred1_eq p hp h2 h0]
    exact pred_summary p hp h2 fun l hl => npMin_isMin (ne_nil_of hl h0)
  · rw [pred1_eq p hp h2 h0]
    exact pred_summary p hp h2 fun l hl => npMax_isMax (ne_nil_of hl h0)
  · exact pred_summary p hp h2 fun l hl => npVar_isVar (by omega)

/-- **C47** (values). `vsum`, `vmean`, `vvar`, `vmin`, `vmax` have the timeline and paths of the process, and
scalar values: the sum, mean, variance, minimum, maximum of all components. -/
theorem C47_values (p : Proc T K) (hp : IsProc p) (h2 : 2 ≤ p.x.shape.length) :
    ValueSummary IsSum p (p.vred npSum) ∧
    (0 < p.vshape.prod → ValueSummary IsMean p (p.vred npMean) ∧ ValueSummary IsMin p (p.vred1 npMin) ∧
      ValueSummary IsMax p (p.vred1 npMax)) ∧
    ∀ ddof < p.vshape.prod, ValueSummary (IsVar ddof) p (p.vred (npVar ddof)) := by
  refine ⟨vred_summary p hp h2 fun l _ => npSum_eq l, fun h0 => ⟨?_, ?_, ?_⟩, fun ddof hd => ?_⟩
  · exact vred_summary p hp h2 fun l hl => npMean_isMean (ne_nil_of hl h0)
  · rw [vred1_eq p hp h2 h0]
    exact vred_summary p hp h2 fun l hl => npMin_isMin (ne_nil_of hl h0)
  · rw [vred1_eq p hp h2 h0]
    exact vred_summary p hp h2 fun l hl => npMax_isMax (ne_nil_of hl h0)
  · exact vred_summary p hp h2 fun l hl => npVar_isVar (by omega)

/-- **C47** (time; partial). `tsum`, `tmean`, `tvar`, `tmin`, `tmax` are constant processes at the first time;
their values are the sum, mean, variance, minimum, maximum along time. What is missing, for integer values,
is false: see `C47_int_false`. -/
theorem C47_time_partial (p : Proc T K) (hp : IsProc p) :
    TimeSummary IsSum p (p.tred npSum) ∧ TimeSummary IsMean p (p.tred npMean) ∧
    TimeSummary IsMin p (p.tred1 npMin) ∧ TimeSummary IsMax p (p.tred1 npMax) ∧
    ∀ ddof < p.t.length, TimeSummary (IsVar ddof) p (p.tred (npVar ddof)) := by
  have h0 := List.length_pos_of_ne_nil hp.1
  refine ⟨tred_summary p hp fun l _ => npSum_eq l, ?_, ?_, ?_, fun ddof hd => ?_⟩
  · exact tred_summary p hp fun l hl => npMean_isMean (ne_nil_of hl h0)
  · rw [tred1_eq p hp]
    exact tred_summary p hp fun l hl => npMin_isMin (ne_nil_of hl h0)
  · rw [tred1_eq p hp]
    exact tred_summary p hp fun l hl => npMax_isMax (ne_nil_of hl h0)
  · exact tred_summary p hp fun l hl => npVar_isVar (by omega)

/-- **C47**. `tcumsum` has the timeline and shape of the process; its value at each time is the sum of values
up to that time. -/
theorem C47_cumsum (p : Proc T K) (hp : IsProc p) :
    ∃ z, p.tcumsum = .ok z ∧ z.t = p.t ∧ z.x.shape = p.x.shape ∧
      ∀ k i, k < p.t.length → InRange p.x.shape.tail i →
        z.x.get (k :: i) = ∑ h ∈ Finset.range (k + 1), p.x.get (h :: i) := by
  refine ⟨_, make_ok hp.1 hp.2, rfl, rfl, fun k i _ _ => ?_⟩
  show List.foldl _ _ _ = _
  rw [← List.sum_eq_foldl]
  rfl

end field

/-- **C47** (standard deviation, paths, values and time; partial, as above for integers). -/
theorem C47_std_partial (p : Proc T ℝ) (hp : IsProc p) :
    (2 ≤ p.x.shape.length → ∀ ddof < p.paths, PathSummary (IsStd ddof) p (p.pred (npStd ddof))) ∧
    (2 ≤ p.x.shape.length → ∀ ddof < p.vshape.prod, ValueSummary (IsStd ddof) p (p.vred (npStd ddof))) ∧
    ∀ ddof < p.t.length, TimeSummary (IsStd ddof) p (p.tred (npStd ddof)) :=
  ⟨fun h2 ddof hd => pred_summary p hp h2 fun l hl => npStd_isStd (by omega),
    fun h2 ddof hd => vred_summary p hp h2 fun l hl => npStd_isStd (by omega),
    fun ddof hd => tred_summary p hp fun l hl => npStd_isStd (by omega)⟩

/-- A number with its fractional part removed, toward zero. -/
def Spec.IsTrunc (q : ℚ) (m : ℤ) : Prop := (0 ≤ q → m ≤ q ∧ q < m + 1) ∧ (q ≤ 0 → q ≤ m ∧ m - 1 < q)

theorem npMeanInt_trunc {l : List ℤ} (hl : l ≠ []) : IsTrunc ((l.sum : ℚ) / l.length) (npMeanInt l) := by
  have h0 : 0 < l.length := List.length_pos_of_ne_nil hl
  have hs : npSum l = l.sum := by rw [npSum, ← List.sum_eq_foldl]
  have hm := Int.tdiv_mul_add_tmod l.sum l.length
  unfold npMeanInt
  rw [hs]
  set m := l.sum.tdiv l.length with hmd
  have hr1 : |l.sum.tmod l.length| < l.length := by
    rcases le_total 0 l.sum with h | h
    · rw [abs_of_nonneg (Int.tmod_nonneg _ h)]
      exact Int.tmod_lt_of_pos _ (by omega)
    · have h1 : 0 ≤ (-l.sum).tmod l.length := Int.tmod_nonneg _ (by omega)
      have h2 := Int.tmod_lt_of_pos (-l.sum) (b := l.length) (by omega)
      rw [Int.neg_tmod] at h1 h2
      rw [abs_of_nonpos (by omega)]
      exact h2
  have hn : (0 : ℚ) < l.length := by exact_mod_cast h0
  have hmq : (m : ℚ) * l.length + (l.sum.tmod l.length : ℤ) = l.sum := by exact_mod_cast hm
  rw [abs_lt] at hr1
  have a1 : -(l.length : ℚ) < (l.sum.tmod l.length : ℤ) := by exact_mod_cast hr1.1
  have a2 : ((l.sum.tmod l.length : ℤ) : ℚ) < l.length := by exact_mod_cast hr1.2
  constructor
  · intro h
    have hs0 : 0 ≤ l.sum := by
      have := (div_nonneg_iff.1 h)
      rcases this with h | h
      · exact_mod_cast h.1
      · exact absurd h.2 (not_le.2 hn)
    have hr : (0 : ℚ) ≤ (l.sum.tmod l.length : ℤ) := by exact_mod_cast Int.tmod_nonneg _ hs0
    rw [le_div_iff₀ hn, div_lt_iff₀ hn]
    constructor <;> nlinarith
  · intro h
    have hs0 : l.sum ≤ 0 := by
      rw [div_nonpos_iff] at h
      rcases h with h | h
      · exact absurd h.2 (not_le.2 hn)
      · exact_mod_cast h.1
    have hr : ((l.sum.tmod l.length : ℤ) : ℚ) ≤ 0 := by
      have : 0 ≤ (-l.sum).tmod l.length := Int.tmod_nonneg _ (by omega)
      rw [Int.neg_tmod] at this
      exact_mod_cast (by omega : l.sum.tmod l.length ≤ 0)
    rw [div_le_iff₀ hn, lt_div_iff₀ hn]
    constructor <;> nlinarith

/-- **C47** (integers). For processes of integers, `pmean` and `tmean` give the mean truncated to an integer,
toward zero. -/
theorem C47_int (p : Proc T ℤ) (hp : IsProc p) :
    (2 ≤ p.x.shape.length → 0 < p.paths →
      PathSummary (fun (l : List ℤ) (m : ℤ) => IsTrunc ((l.sum : ℚ) / l.length) m) p (p.pred npMeanInt)) ∧
    TimeSummary (fun (l : List ℤ) (m : ℤ) => IsTrunc ((l.sum : ℚ) / l.length) m) p (p.tred npMeanInt) := by
  have h0 := List.length_pos_of_ne_nil hp.1
  exact ⟨fun h2 hpa => pred_summary p hp h2 fun l hl => npMeanInt_trunc (List.ne_nil_of_length_pos (hl ▸ hpa)),
    tred_summary p hp fun l hl => npMeanInt_trunc (List.ne_nil_of_length_pos (hl ▸ h0))⟩

/-- **C47**, the negation for integers: `pmean` of a process with two paths, of values 1 and 2, is 1; `tmean`
of a process of values 1 and 2 in time is 1. -/
theorem C47_int_false : ∃ p q zp zq : Proc ℚ ℤ, IsProc p ∧ IsProc q ∧
    p.pred npMeanInt = .ok zp ∧ acrossPaths p 0 [] = [1, 2] ∧ zp.x.get [0, 0] = 1 ∧
    ¬ IsMean (acrossPaths p 0 []) (zp.x.get [0, 0]) ∧
    q.tred npMeanInt = .ok zq ∧ alongTime q [0] = [1, 2] ∧ zq.x.get [0, 0] = 1 ∧
    ¬ IsMean (alongTime q [0]) (zq.x.get [0, 0]) :=
  ⟨⟨[0], ⟨[1, 2], fun i => (i.getD 1 0 + 1 : ℕ)⟩⟩, ⟨[0, 1], ⟨[2, 1], fun i => (i.headD 0 + 1 : ℕ)⟩⟩, _, _,
    ⟨by simp, rfl⟩, ⟨by simp, rfl⟩, rfl, rfl, rfl, by unfold IsMean; decide,
    rfl, rfl, rfl, by unfold IsMean; decide⟩

example := C47_paths_partial exProc exProc_isProc (by simp [exProc])
example := C47_values exProc exProc_isProc (by simp [exProc])
example := C47_time_partial exProc exProc_isProc
example := C47_cumsum exProc exProc_isProc
example := C47_int (⟨[0, 1], ⟨[2, 2], fun i => -(i.getD 1 0 + 1 : ℕ)⟩⟩ : Proc ℚ ℤ) ⟨by simp, rfl⟩
example : npMeanInt [-1, -2] = -1 := by decide
example := C47_std_partial (⟨[0, 1], ⟨[2, 1], fun _ => 1⟩⟩ : Proc ℝ ℝ) ⟨by simp, rfl⟩

end Sdepy
