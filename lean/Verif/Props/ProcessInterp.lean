import Verif.Props.ProcessUfunc
import Verif.Props.McPdf

/-!
# Interpolation of processes
-/

namespace Sdepy

open Spec

/-- The timeline is in increasing order. -/
def Spec.Increasing {T L : Type} [LT T] (p : Proc T L) : Prop := p.t.Pairwise (· < ·)

variable {K : Type} [Field K] [LinearOrder K] [IsStrictOrderedRing K]

theorem column_length {T L : Type} (p : Proc T L) (r : List ℕ) : (p.column r).length = p.t.length := by
  simp [Proc.column]

theorem column_get {T L : Type} (p : Proc T L) (r : List ℕ) {k : ℕ} (h : k < p.t.length) :
    (p.column r)[k]? = some (p.x.get (k :: r)) := by
  simp [Proc.column, h]

theorem at_two {p : Proc K K} (h : 2 ≤ p.t.length) (s : K) (r : List ℕ) :
    p.at id .linear s r =
      interp1d p.t (p.column r) (p.x.get (0 :: r)) (p.x.get ((p.t.length - 1) :: r)) s := by
  unfold Proc.at
  rw [if_neg (by omega)]
  rfl

/-- **C44** (values; partial). For a process of floating point numbers with increasing timeline, values at
the times of the timeline are those of the process, values in between are on the line joining them, values
are constant outside of the timeline. What is missing is false for processes of integers: see
`C44_int_false`. -/
theorem C44_values_partial (p : Proc K K) (hp : IsProc p) (hs : Increasing p) (r : List ℕ) :
    (∀ k s, p.t[k]? = some s → p.at id .linear s r = p.x.get (k :: r)) ∧
    (∀ k a b c, p.t[k]? = some a → p.t[k + 1]? = some b → 0 ≤ c → c ≤ 1 →
      p.at id .linear (a + c * (b - a)) r =
        p.x.get (k :: r) + c * (p.x.get ((k + 1) :: r) - p.x.get (k :: r))) ∧
    (∀ a s, p.t.head? = some a → s ≤ a → p.at id .linear s r = p.x.get (0 :: r)) ∧
    ∀ b s, p.t.getLast? = some b → b ≤ s → p.at id .linear s r = p.x.get ((p.t.length - 1) :: r) := by
  have hpos := List.length_pos_iff.2 hp.1
  by_cases h1 : p.t.length = 1
  · have hat : ∀ s, p.at id .linear s r = p.x.get (0 :: r) := by
      intro s
      unfold Proc.at
      rw [if_pos h1]
    refine ⟨fun k s hk => ?_, fun k a b c ha hb => ?_, fun a s _ _ => hat s, fun b s _ _ => ?_⟩
    · obtain ⟨hk, -⟩ := List.getElem?_eq_some_iff.1 hk
      have : k = 0 := by omega
      rw [hat, this]
    · obtain ⟨hk, -⟩ := List.getElem?_eq_some_iff.1 hb
      omega
    · rw [hat, h1]
  · have h2 : 2 ≤ p.t.length := by omega
    have hn : ∀ k s, p.t[k]? = some s → p.at id .linear s r = p.x.get (k :: r) := by
      intro k s hk
      rw [at_two h2]
      obtain ⟨hk', -⟩ := List.getElem?_eq_some_iff.1 hk
      exact interp1d_node hs (column_length p r).symm h2 hk (column_get p r hk')
    refine ⟨hn, fun k a b c ha hb h0 hc => ?_, fun a s ha hle => ?_, fun b s hb hle => ?_⟩
    · rw [← hn k a ha, ← hn (k + 1) b hb]
      simp only [at_two h2]
      exact interp1d_affine hs (column_length p r).symm ha hb h0 hc
    · rcases hle.eq_or_lt with rfl | hlt
      · exact hn 0 _ (by rw [← List.head?_eq_getElem?]; exact ha)
      · rw [at_two h2, interp1d, if_pos]
        rw [List.headD_eq_head?_getD, ha]
        exact hlt
    · rcases hle.eq_or_lt with rfl | hlt
      · exact hn _ _ (by rw [← List.getLast?_eq_getElem?]; exact hb)
      · have hh : p.t.headD 0 ≤ p.t.getLastD 0 := by
          have h := headD_le_of_sorted hs (List.getElem?_eq_getElem (l := p.t) (i := 0) (by omega))
          exact h.1.trans h.2
        have hl : p.t.getLastD 0 = b := by rw [List.getLastD_eq_getLast?, hb]; rfl
        rw [at_two h2, interp1d, if_neg (not_lt.2 (by rw [hl] at hh; exact hh.trans hle)), if_pos (by rw [hl]; exact hlt)]

omit [IsStrictOrderedRing K] in
/-- **C44** (constant processes). A process with a single time point is constant, whatever its data type and
the interpolation kind. -/
theorem C44_constant (cast : K → K) (kind : Kind) (p : Proc K K) (h1 : p.t.length = 1) (s : K) (r : List ℕ) :
    p.at cast kind s r = p.x.get (0 :: r) := by
  unfold Proc.at
  rw [if_pos h1]

omit [IsStrictOrderedRing K] in
/-- **C44** (shape). Values at an array of times have the shape of the array followed by that of values and
paths; each is the value at one time. -/
theorem C44_call (cast : K → K) (kind : Kind) (p : Proc K K) (s : Arr K)
    (h2 : 2 ≤ p.x.shape.length) :
    (p.call cast kind s).shape = s.shape ++ p.vshape ++ [p.paths] ∧
    ∀ i r, InRange s.shape i → (p.call cast kind s).get (i ++ r) = p.at cast kind (s.get i) r := by
  refine ⟨?_, fun i r hi => ?_⟩
  · simp only [Proc.call, Proc.vshape, Proc.paths, List.append_assoc]
    congr 1
    match hs : p.x.shape with
    | [] => rw [hs] at h2; simp at h2
    | [a] => rw [hs] at h2; simp at h2
    | a :: b :: s =>
      simp only [List.dropLast_cons_cons, List.tail_cons]
      rw [List.getLastD_cons, List.getLastD_eq_getLast?, List.getLast?_eq_some_getLast (by simp)]
      simp [List.dropLast_append_getLast]
  · simp only [Proc.call]
    rw [← hi.length, List.take_left, List.drop_left]

theorem bc2Rev_absorb {s t : List ℕ} (h : bcOkRev t s) : bc2Rev s t = some s := by
  induction s generalizing t with
  | nil => cases t with
    | nil => rfl
    | cons a t => cases h
  | cons a s ih => cases t with
    | nil => rfl
    | cons b t =>
      obtain ⟨h1, h2⟩ := h
      simp only [bc2Rev]
      rw [if_pos (by rcases h1 with h | h <;> simp [h]), ih h2]
      rfl

theorem bcOkRev_append {s t : List ℕ} (r : List ℕ) (h : bcOkRev s t) : bcOkRev (r ++ s) (r ++ t) := by
  induction r with
  | nil => exact h
  | cons a r ih => exact ⟨.inr rfl, ih⟩

theorem bcIdxRev_append {r j s i : List ℕ} (h : j.length = r.length) :
    bcIdxRev (r ++ s) (j ++ i) = bcIdxRev r j ++ bcIdxRev s i := by
  induction r generalizing j with
  | nil => cases j with
    | nil => rfl
    | cons _ _ => simp at h
  | cons a r ih => cases j with
    | nil => simp at h
    | cons b j => simp [bcIdxRev, ih (by simpa using h)]

theorem bcIdxRev_self' {s j : List ℕ} (h : InRange s j) : bcIdxRev s j = j := by
  induction h with
  | nil => rfl
  | @cons j n js s h1 _ ih =>
    simp only [bcIdxRev, List.headD_cons, List.tail_cons]
    rw [ih]
    split
    · subst_vars; congr 1; omega
    · rfl

theorem bcIdxRev_length (s i : List ℕ) : (bcIdxRev s i).length = s.length := by
  induction s generalizing i with
  | nil => rfl
  | cons a s ih => simp [bcIdxRev, ih]

omit [IsStrictOrderedRing K] in
/-- **C44** (increments). `p(s, ds)` is the difference between values at `s + ds` and at `s`, which are
broadcast together; it raises `ValueError` exactly if they cannot. -/
theorem C44_increment (cast : K → K) (kind : Kind) (p : Proc K K) (s ds : Arr K) :
    (∀ sh, bcShape s.shape ds.shape = some sh → ∃ z, p.callDs cast kind s ds = .ok z ∧
      z.shape = sh ++ p.x.shape.tail ∧
      ∀ i r, InRange sh i → InRange p.x.shape.tail r →
        z.get (i ++ r) = p.at cast kind (s.bget i + ds.bget i) r - p.at cast kind (s.bget i) r) ∧
    (bcShape s.shape ds.shape = none → p.callDs cast kind s ds = .error .valueError) := by
  constructor
  · intro sh hsh
    have hadd : Arr.binop (· + ·) s ds = .ok ⟨sh, fun i => s.bget i + ds.bget i⟩ := by
      unfold Arr.binop
      rw [broadcast2_eq, hsh]
    have hbc : bcShape (sh ++ p.x.shape.tail) (s.shape ++ p.x.shape.tail) = some (sh ++ p.x.shape.tail) := by
      unfold bcShape
      rw [bc2Rev_absorb]
      · simp
      · simp only [List.reverse_append]
        exact bcOkRev_append _ (bcShape_ok hsh).1
    unfold Proc.callDs
    rw [hadd]
    simp only
    unfold Arr.binop
    rw [broadcast2_eq]
    have e1 : (p.call cast kind ⟨sh, fun i => s.bget i + ds.bget i⟩).shape = sh ++ p.x.shape.tail := rfl
    have e2 : (p.call cast kind s).shape = s.shape ++ p.x.shape.tail := rfl
    rw [e1, e2, hbc]
    refine ⟨_, rfl, rfl, fun i r hi hr => ?_⟩
    have hir : InRange (sh ++ p.x.shape.tail) (i ++ r) := (inRange_append hi.length).2 ⟨hi, hr⟩
    dsimp only
    congr 1
    · rw [bget_self _ (by exact hir)]
      simp only [Proc.call]
      rw [← hi.length, List.take_left, List.drop_left]
    · unfold Arr.bget
      rw [e2, List.reverse_append, List.reverse_append, bcIdxRev_append (by simp [hr.length]),
        List.reverse_append, bcIdxRev_self' (s := p.x.shape.tail.reverse) (j := r.reverse)
          (by unfold InRange at *; exact List.rel_reverse hr), List.reverse_reverse r]
      simp only [Proc.call]
      have hl : (bcIdxRev s.shape.reverse i.reverse).reverse.length = s.shape.length := by
        simp [bcIdxRev_length]
      rw [← hl, List.take_left, List.drop_left]
  · intro hsh
    unfold Proc.callDs Arr.binop
    rw [broadcast2_eq, hsh]

omit [IsStrictOrderedRing K] in
/-- **C44** (`rebase`). The process returned has the given timeline, and the values of the process at its
times. -/
theorem C44_rebase (cast : K → K) (kind : Kind) (p : Proc K K) (t : Arr K) (ht : IsTimeline t) :
    ∃ z, p.rebase cast kind t = .ok z ∧ IsProc z ∧ TimesOf t z.t ∧
      z.x.shape = tsize t :: p.x.shape.tail ∧
      ∀ k s r, z.t[k]? = some s → z.x.get (k :: r) = p.at cast kind s r := by
  unfold Proc.rebase
  rcases ht with h | ⟨n, h, hn⟩
  · simp only [if_pos h]
    have ha : asTimeline (⟨[1], fun _ => t.get []⟩ : Arr K) = .ok [t.get []] := by
      simp [asTimeline, Arr.toList1]
    rw [ha]
    refine ⟨_, make_ok (by simp) (by simp [Proc.call]), ⟨by simp, by simp [Proc.call]⟩,
      ⟨by simp [tsize, h], ?_⟩, by simp [tsize, h, Proc.call], ?_⟩
    · intro k hk
      have : k = 0 := by simpa using hk
      subst this
      simp [h]
    · intro k s r hk
      obtain ⟨hk', hk⟩ := List.getElem?_eq_some_iff.1 hk
      have : k = 0 := by simpa using hk'
      subst this
      simp at hk
      simp [Proc.call, hk]
  · have hne : t.shape ≠ [] := by rw [h]; simp
    simp only [if_neg hne]
    obtain ⟨l, hl, hlt⟩ := asTimeline_ok (.inr ⟨n, h, hn⟩ : IsTimeline t)
    have hts : tsize t = n := by simp [tsize, h]
    have hln : l.length = n := by rw [hlt.1, hts]
    have hne' : l ≠ [] := by
      rintro rfl
      simp at hln
      omega
    have hhd : (p.call cast kind t).shape.head? = some l.length := by simp [Proc.call, h, hln]
    rw [hl]
    refine ⟨_, make_ok hne' hhd, ⟨hne', hhd⟩, hlt, by simp [Proc.call, h, hts], ?_⟩
    intro k s r hk
    obtain ⟨hk', hk⟩ := List.getElem?_eq_some_iff.1 hk
    have hk2 := hlt.2 k hk'
    rw [if_neg hne] at hk2
    change l[k] = s at hk
    simp only [Proc.call, h, List.length_singleton, List.take_succ_cons, List.take_zero, List.drop_succ_cons,
      List.drop_zero]
    rw [← hk2, hk]

/-- **C44** (`rebase` to the same timeline). Values are not changed. -/
theorem C44_rebase_self (p : Proc K K) (hp : IsProc p) (hs : Increasing p) (t : Arr K) (ht : IsTimeline t)
    (hpt : TimesOf t p.t) :
    ∃ z, p.rebase id .linear t = .ok z ∧ z.t = p.t ∧ z.x.Same p.x := by
  obtain ⟨z, h1, -, h2, h3, h4⟩ := C44_rebase id .linear p t ht
  have htt : z.t = p.t := by
    apply List.ext_getElem
    · rw [h2.1, hpt.1]
    · intro k hk hk'
      rw [h2.2 k hk, hpt.2 k hk']
  have hsh : z.x.shape = p.x.shape := by rw [h3, ← hpt.1, ← IsProc.shape hp]
  refine ⟨z, h1, htt, hsh, fun i hi => ?_⟩
  rw [hsh, IsProc.shape hp] at hi
  cases hi with
  | @cons k _ r _ hk hr =>
    have hk' : p.t[k]? = some p.t[k] := List.getElem?_eq_getElem hk
    rw [h4 k p.t[k] r (by rw [htt]; exact hk')]
    exact (C44_values_partial p hp hs r).1 k _ hk'

/-- **C44**, the negation, for processes of integers. Interpolated values are converted to integers by
truncation: half way between 0 and 1, the value is 0. -/
theorem C44_int_false : ∃ (cast : ℚ → ℚ) (p : Proc ℚ ℚ), (∀ n : ℤ, cast n = n) ∧ IsProc p ∧ Increasing p ∧
    p.t = [0, 1] ∧ p.x.get [0, 0] = 0 ∧ p.x.get [1, 0] = 1 ∧ p.at cast .linear (1/2) [0] = 0 := by
  refine ⟨fun q => (q.num.tdiv q.den : ℤ), ⟨[0, 1], ⟨[2, 1], fun i => (i.headD 0 : ℕ)⟩⟩, ?_,
    ⟨by simp, rfl⟩, by simp [Increasing], rfl, by simp, by simp, ?_⟩
  · intro n; simp
  · decide +kernel

theorem exProc_increasing : Increasing exProc := by
  show exProc.t.Pairwise (· < ·)
  norm_num [exProc]

example := C44_values_partial exProc exProc_isProc exProc_increasing [1, 2]
example : exProc.at id .linear (1/4) [1, 2] = 62 ∧ exProc.at id .linear 3 [1, 2] = 112 := by
  constructor <;> decide +kernel
example := C44_constant (id : ℚ → ℚ) .nearest exConst rfl 3 [1, 0]
example := (C44_call (id : ℚ → ℚ) .linear exProc exTimes (by simp [exProc])).2 [1] [1, 1] (by decide)
example := (C44_increment (id : ℚ → ℚ) .linear exProc exTimes (Arr.scalar (1/10))).1 [2] (by decide)
example := (C44_increment (id : ℚ → ℚ) .linear exProc exTimes ⟨[3], fun _ => 1⟩).2 (by decide)
example := C44_rebase (id : ℚ → ℚ) .linear exProc (Arr.scalar (1/10)) (.inl rfl)
example := C44_rebase_self exProc exProc_isProc exProc_increasing exTimes (.inr ⟨2, rfl, by omega⟩)
  ⟨rfl, fun k hk => by
    have : k < 2 := hk
    interval_cases k <;> simp [exProc, exTimes]⟩

end Sdepy
