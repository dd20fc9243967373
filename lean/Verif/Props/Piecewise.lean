import Verif.Props.ProcessTime

/-!
# Piecewise constant processes
-/

namespace Sdepy
open Spec

variable {K : Type} [Field K] [LinearOrder K] [IsStrictOrderedRing K]

omit [Field K] [IsStrictOrderedRing K] in
theorem takeWhile_count {l : List K} {s : K} {k : ℕ} (h1 : ∀ (j : ℕ) b, j < k → l[j]? = some b → b < s)
    (h2 : ∀ b, l[k]? = some b → s ≤ b) (hk : k ≤ l.length) : (l.takeWhile fun b => b < s).length = k := by
  induction l generalizing k with
  | nil => simp at hk; subst hk; rfl
  | cons a l ih =>
    rw [List.takeWhile_cons]
    cases k with
    | zero =>
      have : ¬ a < s := not_lt.2 (h2 a rfl)
      simp [this]
    | succ k =>
      have : a < s := h1 0 a (by omega) rfl
      simp only [this, decide_true, if_true, List.length_cons, Nat.succ.injEq]
      exact ih (fun j b hj hb => h1 (j + 1) b (by omega) hb) (fun b hb => h2 b hb) (by simpa using hk)

omit [LinearOrder K] [IsStrictOrderedRing K] in
theorem midpoints_get {l : List K} {k : ℕ} {b : K} (h : (midpoints l)[k]? = some b) :
    ∃ c d, l[k]? = some c ∧ l[k + 1]? = some d ∧ b = (c + d) / 2 := by
  unfold midpoints at h
  rw [List.getElem?_zipWith_eq_some] at h
  obtain ⟨c, d, hc, hd, rfl⟩ := h
  rw [List.getElem?_tail] at hd
  exact ⟨c, d, hc, hd, rfl⟩

omit [LinearOrder K] [IsStrictOrderedRing K] in
theorem midpoints_len (l : List K) : (midpoints l).length = l.length - 1 := by
  simp [midpoints]

/-- Value at `s` by 'nearest' interpolation on times (weakly) in order: that of index `k`, if `s` is beyond the
midpoints before `k`, and not beyond that after `k`. -/
theorem nearest_at (q : Proc K K) (hN : 2 ≤ q.t.length) (hq : q.t.Pairwise (· ≤ ·)) {s : K} {k : ℕ} (r : List ℕ)
    (hk : k < q.t.length) (h1 : ∀ (j : ℕ) b, j < k → (midpoints q.t)[j]? = some b → b < s)
    (h2 : ∀ b, (midpoints q.t)[k]? = some b → s ≤ b) :
    q.at id .nearest s r = q.x.get (k :: r) ∨ (∃ a, q.t.head? = some a ∧ s < a ∧
      q.at id .nearest s r = q.x.get (0 :: r)) ∨ ∃ b, q.t.getLast? = some b ∧ b < s ∧
        q.at id .nearest s r = q.x.get ((q.t.length - 1) :: r) := by
  unfold Proc.at
  rw [if_neg (by omega)]
  simp only [interpNearest, id]
  by_cases ha : s < q.t.headD 0
  · rw [if_pos ha]
    refine .inr (.inl ⟨q.t.headD 0, ?_, ha, rfl⟩)
    cases ht : q.t with
    | nil => rw [ht] at hN; simp at hN
    | cons a t => rfl
  · rw [if_neg ha]
    by_cases hb : q.t.getLastD 0 < s
    · rw [if_pos hb]
      refine .inr (.inr ⟨q.t.getLastD 0, ?_, hb, rfl⟩)
      cases ht : q.t with
      | nil => rw [ht] at hN; simp at hN
      | cons a t => rw [List.getLastD_eq_getLast?, List.getLast?_eq_some_getLast (by simp)]; rfl
    · rw [if_neg hb, takeWhile_count h1 h2 (by rw [midpoints_len]; omega), min_eq_left (by omega)]
      left
      rw [List.getD_eq_getElem?_getD]
      unfold Proc.column
      rw [List.getElem?_map, List.getElem?_range hk]
      rfl

theorem head_le {t : List K} (ht : t.Pairwise (· ≤ ·)) {a b : K} {k : ℕ} (ha : t.head? = some a)
    (hb : t[k]? = some b) : a ≤ b := by
  cases t with
  | nil => simp at ha
  | cons c t =>
    simp at ha
    subst ha
    cases k with
    | zero => simp at hb; exact hb.le
    | succ k =>
      simp at hb
      exact List.rel_of_pairwise_cons ht (List.mem_of_getElem? hb)

omit [Field K] [IsStrictOrderedRing K] in
theorem get_le {t : List K} (ht : t.Pairwise (· ≤ ·)) {a b : K} {j k : ℕ} (ha : t[j]? = some a)
    (hb : t[k]? = some b) (h : j ≤ k) : a ≤ b := by
  obtain ⟨h1, rfl⟩ := List.getElem?_eq_some_iff.1 ha
  obtain ⟨h2, rfl⟩ := List.getElem?_eq_some_iff.1 hb
  rcases h.lt_or_eq with h | rfl
  · exact (List.pairwise_iff_getElem.1 ht) j k h1 h2 h
  · exact le_rfl

omit [Field K] [IsStrictOrderedRing K] in
theorem increasing_le {p : Proc K K} (h : Increasing p) : p.t.Pairwise (· ≤ ·) := List.Pairwise.imp le_of_lt h

section double
variable {α : Type}

theorem double_even (t : List α) (k : ℕ) : (t.flatMap fun a => [a, a])[2 * k]? = t[k]? := by
  induction t generalizing k with
  | nil => simp
  | cons a t ih =>
    cases k with
    | zero => rfl
    | succ k =>
      have := ih k
      simp only [List.flatMap_cons, Nat.mul_add]
      simpa using this

theorem double_odd (t : List α) (k : ℕ) : (t.flatMap fun a => [a, a])[2 * k + 1]? = t[k]? := by
  induction t generalizing k with
  | nil => simp
  | cons a t ih =>
    cases k with
    | zero => rfl
    | succ k =>
      have := ih k
      simp only [List.flatMap_cons, Nat.mul_add]
      simpa using this

theorem double_length (t : List α) : (t.flatMap fun a => [a, a]).length = 2 * t.length := by
  induction t with
  | nil => rfl
  | cons a t ih => simp [ih]; omega

end double

omit [Field K] [IsStrictOrderedRing K] in
theorem double_sorted {t : List K} (h : t.Pairwise (· ≤ ·)) : (t.flatMap fun a => [a, a]).Pairwise (· ≤ ·) := by
  induction h with
  | nil => simp
  | @cons a t h1 h2 ih =>
    simp only [List.flatMap_cons, List.cons_append, List.nil_append, List.pairwise_cons, List.mem_cons,
      List.mem_flatMap, List.not_mem_nil, or_false, or_self]
    refine ⟨?_, ?_, ih⟩
    · rintro b (rfl | ⟨c, hc, rfl⟩)
      · exact le_rfl
      · exact h1 _ hc
    · rintro b ⟨c, hc, rfl⟩
      exact h1 _ hc

theorem double_mid {t : List K} {j : ℕ} {b : K} (h : (midpoints (t.flatMap fun a => [a, a]))[j]? = some b) :
    (∃ i, j = 2 * i ∧ t[i]? = some b) ∨
      ∃ i c d, j = 2 * i + 1 ∧ t[i]? = some c ∧ t[i + 1]? = some d ∧ b = (c + d) / 2 := by
  obtain ⟨c, d, hc, hd, rfl⟩ := midpoints_get h
  rcases Nat.even_or_odd' j with ⟨i, rfl | rfl⟩
  · left
    rw [double_even] at hc
    rw [double_odd, hc] at hd
    cases hd
    refine ⟨i, rfl, ?_⟩
    rw [hc]
    congr 1
    ring
  · right
    rw [double_odd] at hc
    rw [show 2 * i + 1 + 1 = 2 * (i + 1) by ring, double_even] at hd
    exact ⟨i, c, d, rfl, hc, hd, rfl⟩

/-- Value at `s` on a doubled timeline. -/
theorem double_at (q : Proc K K) (t : List K) (hqt : q.t = t.flatMap fun a => [a, a])
    (ht : t.Pairwise (· ≤ ·)) (hN : t ≠ []) (r : List ℕ) {s : K} :
    (∀ a, t.head? = some a → s ≤ a → q.at id .nearest s r = q.x.get (0 :: r)) ∧
    (∀ b, t.getLast? = some b → b < s → q.at id .nearest s r = q.x.get ((2 * t.length - 1) :: r)) ∧
    ∀ (k : ℕ) a b, t[k]? = some a → t[k + 1]? = some b → a < s → s ≤ b →
      q.at id .nearest s r = q.x.get ((2 * k + 1) :: r) ∨ q.at id .nearest s r = q.x.get ((2 * k + 2) :: r) := by
  have hpos := List.length_pos_of_ne_nil hN
  have hlen : q.t.length = 2 * t.length := by rw [hqt, double_length]
  have hsort : q.t.Pairwise (· ≤ ·) := by rw [hqt]; exact double_sorted ht
  have hhead : q.t.head? = t.head? := by
    rw [hqt]; cases t <;> simp
  have hlast : q.t.getLast? = t.getLast? := by
    rw [List.getLast?_eq_getElem?, List.getLast?_eq_getElem?, hlen, hqt,
      show 2 * t.length - 1 = 2 * (t.length - 1) + 1 by omega, double_odd]
  have key := fun {k : ℕ} (hk : k < q.t.length) h1 h2 => nearest_at q (by omega) hsort (s := s) r hk h1 h2
  rw [hhead, hlast] at key
  have half : (2 : K) ≠ 0 := two_ne_zero
  refine ⟨fun a ha hs => ?_, fun b hb hs => ?_, fun k a b ha hb h1 h2 => ?_⟩
  · have h0 : t[0]? = some a := by rw [← List.head?_eq_getElem?]; exact ha
    rcases key (k := 0) (by omega) (by simp) (by
        intro b hb
        rw [hqt] at hb
        rcases double_mid hb with ⟨i, hi, hb⟩ | ⟨i, c, d, hi, -⟩
        · have : i = 0 := by omega
          subst this
          rw [h0] at hb
          cases hb
          exact hs
        · omega) with h | ⟨a', _, _, h⟩ | ⟨b, hb, hbs, h⟩
    · exact h
    · exact h
    · exfalso
      rw [List.getLast?_eq_getElem?] at hb
      exact absurd ((get_le ht h0 hb (by omega)).trans_lt hbs) (not_lt.2 hs)
  · rcases key (k := 2 * t.length - 1) (by omega) (by
        intro j c hj hc
        rw [List.getLast?_eq_getElem?] at hb
        rw [hqt] at hc
        rcases double_mid hc with ⟨i, hi, hc⟩ | ⟨i, c', d, hi, hc', hd, rfl⟩
        · exact (get_le ht hc hb (by omega)).trans_lt hs
        · have h1 := (get_le ht hc' hb (by omega)).trans_lt hs
          have h2 := (get_le ht hd hb (by omega)).trans_lt hs
          linarith) (by
        intro c hc
        have := (List.getElem?_eq_some_iff.1 hc).1
        rw [midpoints_len, hlen] at this
        omega) with h | ⟨a', ha', has, h⟩ | ⟨b', hb', hbs, h⟩
    · exact h
    · exfalso
      have h0 : t[0]? = some a' := by rw [← List.head?_eq_getElem?]; exact ha'
      rw [List.getLast?_eq_getElem?] at hb
      exact absurd ((get_le ht h0 hb (by omega)).trans_lt hs) (not_lt.2 has.le)
    · rw [hlen] at h; exact h
  · have hk1 := (List.getElem?_eq_some_iff.1 hb).1
    have hno : ∀ {P : Prop}, (∃ a', t.head? = some a' ∧ s < a' ∧ P) → False := by
      rintro P ⟨a', ha', has, -⟩
      have h0 : t[0]? = some a' := by rw [← List.head?_eq_getElem?]; exact ha'
      exact absurd ((get_le ht h0 ha (by omega)).trans_lt h1) (not_lt.2 has.le)
    have hno' : ∀ {P : Prop}, (∃ b', t.getLast? = some b' ∧ b' < s ∧ P) → False := by
      rintro P ⟨b', hb', hbs, -⟩
      rw [List.getLast?_eq_getElem?] at hb'
      exact absurd ((get_le ht hb hb' (by omega)).trans_lt hbs) (not_lt.2 h2)
    have hbelow : ∀ (j : ℕ) c, j < 2 * k + 1 → (midpoints q.t)[j]? = some c → c < s := by
      intro j c hj hc
      rw [hqt] at hc
      rcases double_mid hc with ⟨i, hi, hc⟩ | ⟨i, c', d, hi, hc', hd, rfl⟩
      · exact (get_le ht hc ha (by omega)).trans_lt h1
      · have h3 := (get_le ht hc' ha (by omega)).trans_lt h1
        have h4 := (get_le ht hd ha (by omega)).trans_lt h1
        linarith
    by_cases hm : s ≤ (a + b) / 2
    · left
      rcases key (k := 2 * k + 1) (by omega) hbelow (by
        intro c hc
        rw [hqt] at hc
        rcases double_mid hc with ⟨i, hi, hc⟩ | ⟨i, c', d, hi, hc', hd, rfl⟩
        · omega
        · have : i = k := by omega
          subst this
          rw [ha] at hc'
          rw [hb] at hd
          cases hc'; cases hd
          exact hm) with h | h | h
      · exact h
      · exact (hno h).elim
      · exact (hno' h).elim
    · right
      rcases key (k := 2 * k + 2) (by omega) (by
        intro j c hj hc
        by_cases hj' : j < 2 * k + 1
        · exact hbelow j c hj' hc
        · have : j = 2 * k + 1 := by omega
          subst this
          rw [hqt] at hc
          rcases double_mid hc with ⟨i, hi, hc⟩ | ⟨i, c', d, hi, hc', hd, rfl⟩
          · omega
          · have : i = k := by omega
            subst this
            rw [ha] at hc'
            rw [hb] at hd
            cases hc'; cases hd
            exact not_le.1 hm) (by
        intro c hc
        rw [hqt] at hc
        rcases double_mid hc with ⟨i, hi, hc⟩ | ⟨i, c', d, hi, hc', hd, rfl⟩
        · have : i = k + 1 := by omega
          subst this
          rw [hb] at hc
          cases hc
          exact h2
        · omega) with h | h | h
      · exact h
      · exact (hno h).elim
      · exact (hno' h).elim

/-- **C50**, forward mode: the value is `x[k]` from `t[k]`, excluded, to `t[k + 1]`; it is `x[0]` before, `x[-1]`
after. -/
theorem C50_forward (p : Proc K K) (hp : IsProc p) (hs : Increasing p) :
    ∃ q, piecewise p "forward" = .ok q ∧ q.x.shape.tail = p.x.shape.tail ∧ ∀ s r,
      (∀ a, p.t.head? = some a → s ≤ a → q.at id .nearest s r = p.x.get (0 :: r)) ∧
      (∀ b, p.t.getLast? = some b → b < s → q.at id .nearest s r = p.x.get ((p.t.length - 1) :: r)) ∧
      ∀ (k : ℕ) a b, p.t[k]? = some a → p.t[k + 1]? = some b → a < s → s ≤ b →
        q.at id .nearest s r = p.x.get (k :: r) := by
  have hpos := List.length_pos_of_ne_nil hp.1
  refine ⟨_, make_ok (t := p.t.flatMap fun a => [a, a]) ?_ ?_, rfl, fun s r => ?_⟩
  · intro h
    have := double_length p.t
    rw [h] at this
    simp at this
    exact hp.1 this
  · rw [double_length]; rfl
  · obtain ⟨h1, h2, h3⟩ := double_at (s := s) ⟨p.t.flatMap fun a => [a, a], ⟨(2 * p.t.length) :: p.x.shape.tail, fun i =>
      let k := i.headD 0
      if k = 0 then p.x.get (0 :: i.tail)
      else if k % 2 = 1 then p.x.get (k / 2 :: i.tail) else p.x.get ((k / 2 - 1) :: i.tail)⟩⟩
      p.t rfl (increasing_le hs) hp.1 r
    refine ⟨fun a ha hsa => (h1 a ha hsa).trans rfl, fun b hb hbs => (h2 b hb hbs).trans ?_,
      fun k a b ha hb hsa hsb => ?_⟩
    · dsimp only [List.headD_cons, List.tail_cons]
      have e1 : ¬ 2 * p.t.length - 1 = 0 := by omega
      have e2 : (2 * p.t.length - 1) % 2 = 1 := by omega
      have e3 : (2 * p.t.length - 1) / 2 = p.t.length - 1 := by omega
      refine (if_neg e1).trans ?_
      refine (if_pos e2).trans ?_
      rw [e3]
    · rcases h3 k a b ha hb hsa hsb with h | h
      · refine h.trans ?_
        dsimp only [List.headD_cons, List.tail_cons]
        exact (if_neg (by omega)).trans ((if_pos (by omega)).trans (by rw [show (2 * k + 1) / 2 = k by omega]))
      · refine h.trans ?_
        dsimp only [List.headD_cons, List.tail_cons]
        exact (if_neg (by omega)).trans ((if_neg (by omega)).trans (by rw [show (2 * k + 2) / 2 - 1 = k by omega]))

/-- **C50**, backward mode: the value is `x[k + 1]` from `t[k]`, excluded, to `t[k + 1]`; it is `x[0]` before,
`x[-1]` after. -/
theorem C50_backward (p : Proc K K) (hp : IsProc p) (hs : Increasing p) :
    ∃ q, piecewise p "backward" = .ok q ∧ q.x.shape.tail = p.x.shape.tail ∧ ∀ s r,
      (∀ a, p.t.head? = some a → s ≤ a → q.at id .nearest s r = p.x.get (0 :: r)) ∧
      (∀ b, p.t.getLast? = some b → b < s → q.at id .nearest s r = p.x.get ((p.t.length - 1) :: r)) ∧
      ∀ (k : ℕ) a b, p.t[k]? = some a → p.t[k + 1]? = some b → a < s → s ≤ b →
        q.at id .nearest s r = p.x.get ((k + 1) :: r) := by
  have hpos := List.length_pos_of_ne_nil hp.1
  refine ⟨_, make_ok (t := p.t.flatMap fun a => [a, a]) ?_ ?_, rfl, fun s r => ?_⟩
  · intro h
    have := double_length p.t
    rw [h] at this
    simp at this
    exact hp.1 this
  · rw [double_length]; rfl
  · obtain ⟨h1, h2, h3⟩ := double_at (s := s) ⟨p.t.flatMap fun a => [a, a], ⟨(2 * p.t.length) :: p.x.shape.tail, fun i =>
      let k := i.headD 0
      if k = 2 * p.t.length - 1 then p.x.get ((p.t.length - 1) :: i.tail)
      else if k % 2 = 0 then p.x.get (k / 2 :: i.tail) else p.x.get ((k / 2 + 1) :: i.tail)⟩⟩
      p.t rfl (increasing_le hs) hp.1 r
    refine ⟨fun a ha hsa => (h1 a ha hsa).trans ?_, fun b hb hbs => (h2 b hb hbs).trans ?_,
      fun k a b ha hb hsa hsb => ?_⟩
    · dsimp only [List.headD_cons, List.tail_cons]
      exact (if_neg (by omega)).trans (if_pos rfl)
    · dsimp only [List.headD_cons, List.tail_cons]
      exact if_pos rfl
    · have hk := (List.getElem?_eq_some_iff.1 hb).1
      rcases h3 k a b ha hb hsa hsb with h | h
      · refine h.trans ?_
        dsimp only [List.headD_cons, List.tail_cons]
        exact (if_neg (by omega)).trans ((if_neg (by omega)).trans (by rw [show (2 * k + 1) / 2 + 1 = k + 1 by omega]))
      · refine h.trans ?_
        dsimp only [List.headD_cons, List.tail_cons]
        exact (if_neg (by omega)).trans ((if_pos (by omega)).trans (by rw [show (2 * k + 2) / 2 = k + 1 by omega]))

/-- **C50**, mid mode (partial): the value is `x[k]` on the times nearer to `t[k]` than to the others, and half
way between `t[k]` and `t[k + 1]`. What is missing, that `t[k]` is the midpoint of these times, is false: see
`C50_mid_false`. -/
theorem C50_mid_partial (p : Proc K K) (hp : IsProc p) (hs : Increasing p) :
    ∃ q, piecewise p "mid" = .ok q ∧ q.x.shape = p.x.shape ∧ ∀ (k : ℕ) s r, k < p.t.length →
      (∀ a b, 0 < k → p.t[k - 1]? = some a → p.t[k]? = some b → (a + b) / 2 < s) →
      (∀ a b, p.t[k]? = some a → p.t[k + 1]? = some b → s ≤ (a + b) / 2) →
        q.at id .nearest s r = p.x.get (k :: r) := by
  refine ⟨_, make_ok hp.1 hp.2, rfl, fun k s r hk h1 h2 => ?_⟩
  show p.at id .nearest s r = _
  by_cases hN : p.t.length = 1
  · have : k = 0 := by omega
    subst this
    unfold Proc.at
    rw [if_pos hN]
  have hkk : p.t[k]? = some p.t[k] := List.getElem?_eq_getElem hk
  rcases nearest_at p (by omega) (increasing_le hs) (s := s) r hk (by
      intro j b hj hb
      obtain ⟨c, d, hc, hd, rfl⟩ := midpoints_get hb
      have e1 : p.t[k - 1]? = some p.t[k - 1] := List.getElem?_eq_getElem (by omega)
      have h3 := h1 _ _ (by omega) e1 hkk
      have h4 := get_le (increasing_le hs) hc e1 (by omega)
      have h5 := get_le (increasing_le hs) hd hkk (by omega)
      linarith) (by
      intro b hb
      obtain ⟨c, d, hc, hd, rfl⟩ := midpoints_get hb
      exact h2 c d hc hd) with h | ⟨a, ha, hsa, h⟩ | ⟨b, hb, hbs, h⟩
  · exact h
  · rw [List.head?_eq_getElem?] at ha
    rw [h]
    by_cases hk0 : k = 0
    · rw [hk0]
    · exfalso
      have e1 : p.t[k - 1]? = some p.t[k - 1] := List.getElem?_eq_getElem (by omega)
      have h3 := h1 _ _ (by omega) e1 hkk
      have h4 := get_le (increasing_le hs) ha e1 (by omega)
      have h5 := get_le (increasing_le hs) ha hkk (by omega)
      linarith
  · rw [List.getLast?_eq_getElem?] at hb
    rw [h]
    by_cases hk0 : k = p.t.length - 1
    · rw [hk0]
    · exfalso
      have e1 : p.t[k + 1]? = some p.t[k + 1] := List.getElem?_eq_getElem (by omega)
      have h3 := h2 _ _ hkk e1
      have h4 := get_le (increasing_le hs) e1 hb (by omega)
      have h5 := get_le (increasing_le hs) hkk hb (by omega)
      linarith

omit [IsStrictOrderedRing K] in
/-- **C50**. Other modes raise `ValueError`. -/
theorem C50_modes (p : Proc K K) (mode : String) (h : mode ≠ "mid" ∧ mode ≠ "forward" ∧ mode ≠ "backward") :
    piecewise p mode = .error .valueError := by
  unfold piecewise
  simp only
  rw [if_neg h.1, if_neg h.2.1, if_neg h.2.2]

/-- **C50**, mid mode, the negation: times are not the midpoints of segments, if not evenly spaced. With times 0,
1, 3 the value at 1 is taken from 1/2 to 2. -/
theorem C50_mid_false : ∃ p q : Proc ℚ ℚ, IsProc p ∧ Increasing p ∧ p.t[1]? = some 1 ∧
    piecewise p "mid" = .ok q ∧ (∀ s, q.at id .nearest s [0] = p.x.get [1, 0] ↔ 1/2 < s ∧ s ≤ 2) ∧
    (1 : ℚ) ≠ (1/2 + 2) / 2 := by
  let p : Proc ℚ ℚ := ⟨[0, 1, 3], ⟨[3, 1], fun i => ((i.headD 0 : ℕ) : ℚ)⟩⟩
  have hp : IsProc p := ⟨by simp [p], rfl⟩
  have hs : Increasing p := by norm_num [Increasing, p]
  obtain ⟨q, hq, -, h⟩ := C50_mid_partial p hp hs
  refine ⟨p, q, hp, hs, rfl, hq, fun s => ?_, by norm_num⟩
  have h0 := h 0 s [0] (by simp [p]) (by simp) 
  have h1 := h 1 s [0] (by simp [p])
  have h2 := h 2 s [0] (by simp [p])
  simp only [p, List.headD_cons] at h0 h1 h2 ⊢
  simp at h0 h1 h2 ⊢
  norm_num at h0 h1 h2 ⊢
  constructor
  · intro he
    by_contra hc
    rw [not_and_or, not_lt, not_le] at hc
    rcases hc with hc | hc
    · rw [h0 hc] at he; norm_num at he
    · rw [h2 hc] at he; norm_num at he
  · rintro ⟨ha, hb⟩
    exact h1 ha hb

example := C50_forward exProc exProc_isProc exProc_increasing
example := C50_backward exProc exProc_isProc exProc_increasing
example := C50_mid_partial exProc exProc_isProc exProc_increasing
example := C50_modes exProc "center" (by simp)
example : ∃ q, piecewise exProc "forward" = .ok q ∧ q.at id .nearest (1/2) [1, 2] = exProc.x.get [0, 1, 2] ∧
    q.at id .nearest 1 [1, 2] = exProc.x.get [1, 1, 2] := by
  refine ⟨_, rfl, ?_, ?_⟩ <;> decide +kernel

end Sdepy
