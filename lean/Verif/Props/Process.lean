import Verif.Model.Process

/-!
# Creation of processes, ufuncs on processes
-/

namespace Sdepy

variable {T K : Type}

/-! ### Creation -/

/-- A timeline may be a scalar, or a vector with at least one item. -/
def Spec.IsTimeline (t : Arr T) : Prop := t.shape = [] ∨ ∃ n, t.shape = [n] ∧ 0 < n

/-- Number of time points. -/
def Spec.tsize (t : Arr T) : ℕ := t.shape.headD 1

/-- The times, in order. -/
def Spec.TimesOf (t : Arr T) (l : List T) : Prop :=
  l.length = Spec.tsize t ∧ ∀ k (h : k < l.length), l[k] = t.get (if t.shape = [] then [] else [k])

/-- How many arguments are given. -/
def Spec.given (l : List (Option (Arr K))) : ℕ := (l.filter Option.isSome).length

open Spec

theorem asTimeline_ok {t : Arr T} (h : IsTimeline t) : ∃ l, asTimeline t = .ok l ∧ TimesOf t l := by
  rcases h with h | ⟨n, h, hn⟩
  · refine ⟨[t.get []], ?_, by simp [tsize, h], ?_⟩
    · simp [asTimeline, h]
    · intro k hk
      have : k = 0 := by simpa using hk
      subst this
      simp [h]
  · refine ⟨t.toList1, ?_, by simp [tsize, h, Arr.toList1], ?_⟩
    · simp only [asTimeline, h]
      rw [if_neg (by simp; omega), if_neg (by simp)]
    · intro k hk
      simp [Arr.toList1, h]

theorem asTimeline_error {t : Arr T} (h : ¬ IsTimeline t) : asTimeline t = .error .valueError := by
  unfold asTimeline
  refine if_pos ?_
  by_contra hc
  push Not at hc
  obtain ⟨h1, h2⟩ := hc
  apply h
  match hs : t.shape, h1 with
  | [], _ => exact .inl hs
  | [n], _ => exact .inr ⟨n, hs, by rw [hs] at h2; simpa [Nat.pos_iff_ne_zero] using h2⟩

theorem make_ok {t : List T} {x : Arr K} (ht : t ≠ []) (hx : x.shape.head? = some t.length) :
    Proc.make t x = .ok ⟨t, x⟩ := by
  unfold Proc.make
  rw [if_neg (by simpa using ht), if_neg]
  cases h : x.shape with
  | nil => simp [h] at hx
  | cons a s => rw [h] at hx; simpa using hx

theorem make_error {t : List T} {x : Arr K} (h : t = [] ∨ x.shape.head? ≠ some t.length) :
    Proc.make t x = .error .valueError := by
  unfold Proc.make
  by_cases ht : t.length = 0
  · rw [if_pos ht]
  · rw [if_neg ht, if_pos]
    rcases h with rfl | h
    · simp at ht
    · cases hs : x.shape with
      | nil => simp
      | cons a s => rw [hs] at h; simpa using h

theorem make_iff {t : List T} {x : Arr K} {p : Proc T K} (h : Proc.make t x = .ok p) :
    t ≠ [] ∧ x.shape.head? = some t.length ∧ p = ⟨t, x⟩ := by
  by_cases hc : t ≠ [] ∧ x.shape.head? = some t.length
  · rw [make_ok hc.1 hc.2] at h
    cases h
    exact ⟨hc.1, hc.2, rfl⟩
  · rw [make_error (by tauto)] at h
    cases h

/-- **C42** (acceptance). Creation succeeds exactly if the timeline is a scalar or a non-empty vector, one and
only one of `x`, `v`, `c` is given, and the size of the first axis of values, if `x` or `v` are given, is the
number of time points; `ValueError` is raised otherwise. A scalar `v` counts as a vector with one item. -/
theorem C42_accept (toFloat : K → K) (t : Arr T) (x v c : Option (Arr K)) :
    (IsTimeline t ∧ given [x, v, c] = 1 ∧ (∀ y ∈ x, y.shape.head? = some (tsize t)) ∧
      (∀ y ∈ v, y.shape.headD 1 = tsize t) → ∃ p, Proc.new toFloat t x v c = .ok p) ∧
    (¬ (IsTimeline t ∧ given [x, v, c] = 1 ∧ (∀ y ∈ x, y.shape.head? = some (tsize t)) ∧
      (∀ y ∈ v, y.shape.headD 1 = tsize t)) → Proc.new toFloat t x v c = .error .valueError) := by
  by_cases ht : IsTimeline t
  swap
  · simp only [ht, false_and, not_false_iff, forall_const, IsEmpty.forall_iff, true_and]
    unfold Proc.new
    rw [asTimeline_error ht]
  obtain ⟨l, hl, h1, h2⟩ := asTimeline_ok ht
  have hne : l ≠ [] := by
    intro h0
    rw [h0] at h1
    rcases ht with h | ⟨n, h, hn⟩ <;> simp [tsize, h] at h1
    omega
  unfold Proc.new
  rw [hl]
  cases x with
  | some x =>
    cases v with
    | some v => cases c <;> simp [given]
    | none =>
      cases c with
      | some c => simp [given]
      | none =>
        simp only [ht, true_and]
        constructor
        · rintro ⟨-, hx, -⟩
          exact ⟨_, make_ok hne (by rw [hx x rfl, h1])⟩
        · intro hn
          refine make_error (.inr fun hx => hn ⟨by simp [given], ?_, by simp⟩)
          intro y hy
          cases hy
          rw [hx, h1]
  | none =>
    cases v with
    | some v =>
      cases c with
      | some c => simp [given]
      | none =>
        have key : (v.shape ++ [1]).head? = some (v.shape.headD 1) := by
          cases v.shape <;> simp
        simp only [ht, true_and]
        constructor
        · rintro ⟨-, -, hv⟩
          exact ⟨_, make_ok hne (by show (v.shape ++ [1]).head? = _; rw [key, hv v rfl, h1])⟩
        · intro hn
          refine make_error (.inr fun hx => hn ⟨by simp [given], by simp, ?_⟩)
          intro y hy
          cases hy
          change (v.shape ++ [1]).head? = _ at hx
          rw [key, Option.some.injEq] at hx
          rw [hx, h1]
    | none =>
      cases c with
      | none => simp [given]
      | some c =>
        simp only [ht, true_and]
        constructor
        · rintro -
          by_cases hl1 : l.length = 1
          · rw [if_pos hl1]
            exact ⟨_, make_ok hne (by simp [hl1])⟩
          · rw [if_neg hl1]
            exact ⟨_, make_ok hne (by simp)⟩
        · intro hn
          exact absurd ⟨by simp [given], by simp, by simp⟩ hn

theorem new_timeline {toFloat : K → K} {t : Arr T} {x v c : Option (Arr K)} {p : Proc T K}
    (h : Proc.new toFloat t x v c = .ok p) : IsTimeline t ∧ asTimeline t = .ok p.t ∧ TimesOf t p.t := by
  by_cases ht : IsTimeline t
  swap
  · unfold Proc.new at h
    rw [asTimeline_error ht] at h
    cases h
  obtain ⟨l, hl, h2⟩ := asTimeline_ok ht
  unfold Proc.new at h
  rw [hl] at h
  suffices p.t = l by rw [this]; exact ⟨ht, hl, h2⟩
  split at h
  case h_1 a ha => cases ha
  case h_2 a ha =>
    cases ha
    split at h
    · obtain ⟨-, -, rfl⟩ := make_iff h; rfl
    · obtain ⟨-, -, rfl⟩ := make_iff h; rfl
    · split at h <;> (obtain ⟨-, -, rfl⟩ := make_iff h; rfl)
    · cases h

/-- **C42** (values, first part). The timeline is the one given; values given as `x` are those of the
process. -/
theorem C42_x {toFloat : K → K} {t : Arr T} {x : Arr K} {p : Proc T K}
    (h : Proc.new toFloat t (some x) none none = .ok p) : TimesOf t p.t ∧ p.x = x := by
  obtain ⟨-, hl, h2⟩ := new_timeline h
  refine ⟨h2, ?_⟩
  unfold Proc.new at h
  rw [hl] at h
  obtain ⟨-, -, h3⟩ := make_iff h
  rw [h3]

/-- **C42** (values, second part). Values given as `v` are those of a process with one path. -/
theorem C42_v {toFloat : K → K} {t : Arr T} {v : Arr K} {p : Proc T K}
    (h : Proc.new toFloat t none (some v) none = .ok p) :
    TimesOf t p.t ∧ p.x.shape = v.shape ++ [1] ∧ p.paths = 1 ∧
      (v.shape ≠ [] → p.vshape = v.shape.tail) ∧ ∀ i, p.x.get (i ++ [0]) = v.get i := by
  obtain ⟨-, hl, h2⟩ := new_timeline h
  refine ⟨h2, ?_⟩
  unfold Proc.new at h
  rw [hl] at h
  obtain ⟨-, -, h3⟩ := make_iff h
  rw [h3]
  refine ⟨rfl, by simp [Proc.paths], fun hv => by simp [Proc.vshape], fun i => by simp⟩

theorem paths_cons (n : ℕ) (s : List ℕ) (m : ℕ) : (n :: (s ++ [m])).getLast?.getD 0 = m := by
  rw [← List.cons_append, List.getLast?_concat]; rfl

theorem vshape_cons (n : ℕ) (s : List ℕ) (m : ℕ) : (n :: (s ++ [m])).dropLast.tail = s := by
  rw [← List.cons_append, List.dropLast_concat]; rfl

/-- **C42** (values, third part; partial). A value given as `c` is repeated at all time points, in a process
with one path, provided that it is not changed by conversion to floating point, which is done if there is
more than one time point. What is missing is false otherwise: see `C42_complex_false`. -/
theorem C42_c_partial {toFloat : K → K} {t : Arr T} {c : Arr K} {p : Proc T K}
    (h : Proc.new toFloat t none none (some c) = .ok p)
    (hc : 1 < tsize t → ∀ i, InRange c.shape i → toFloat (c.get i) = c.get i) :
    TimesOf t p.t ∧ p.x.shape = tsize t :: c.shape ++ [1] ∧ p.paths = 1 ∧ p.vshape = c.shape ∧
      ∀ k i, InRange c.shape i → p.x.get (k :: i ++ [0]) = c.get i := by
  obtain ⟨ht, hl, h2⟩ := new_timeline h
  refine ⟨h2, ?_⟩
  unfold Proc.new at h
  rw [hl] at h
  simp only at h
  split at h
  · rename_i h1
    obtain ⟨-, -, h3⟩ := make_iff h
    rw [h3]
    exact ⟨by simp [← h2.1, h1], by simp [Proc.paths, paths_cons], by simp [Proc.vshape, vshape_cons], fun k i hi => by simp⟩
  · rename_i h1
    obtain ⟨h4, -, h3⟩ := make_iff h
    rw [h3]
    refine ⟨by simp [← h2.1], by simp [Proc.paths, paths_cons], by simp [Proc.vshape, vshape_cons], fun k i hi => ?_⟩
    have : 1 < tsize t := by
      rw [← h2.1]
      have := List.length_pos_iff.2 h4
      omega
    simpa using hc this i hi

/-- **C42** (shape; partial). If values are given with at least two axes, the shape of the process is made of
the number of time points, the shape of values, and the number of paths. What is missing is false otherwise:
see `C42_false`. -/
theorem C42_shape_partial {toFloat : K → K} {t : Arr T} {x v c : Option (Arr K)} {p : Proc T K}
    (h : Proc.new toFloat t x v c = .ok p) (hx : ∀ y ∈ x, 2 ≤ y.shape.length)
    (hv : ∀ y ∈ v, 1 ≤ y.shape.length) : p.x.shape = tsize t :: p.vshape ++ [p.paths] := by
  obtain ⟨ht, hl, h2⟩ := new_timeline h
  have key : 2 ≤ p.x.shape.length ∧ p.x.shape.head? = some (tsize t) := by
    unfold Proc.new at h
    rw [hl] at h
    simp only at h
    split at h
    · obtain ⟨-, h3, h4⟩ := make_iff h
      rw [h4]
      exact ⟨hx _ rfl, by rw [h3, h2.1]⟩
    · obtain ⟨-, h3, h4⟩ := make_iff h
      rw [h4]
      refine ⟨?_, by rw [h3, h2.1]⟩
      have := hv _ rfl
      simp; omega
    · split at h
      all_goals
        obtain ⟨-, h3, h4⟩ := make_iff h
        rw [h4]
        exact ⟨by simp, by rw [h3, h2.1]⟩
    · cases h
  obtain ⟨h3, h4⟩ := key
  unfold Proc.vshape Proc.paths
  match hs : p.x.shape with
  | [] => rw [hs] at h4; cases h4
  | [a] => rw [hs] at h3; simp at h3
  | a :: b :: s =>
    rw [hs] at h4
    simp only [List.head?_cons, Option.some.injEq] at h4
    subst h4
    simp only [List.dropLast_cons_cons, List.tail_cons, List.cons_append]
    rw [List.getLastD_cons, List.getLastD_eq_getLast?, List.getLast?_eq_some_getLast (by simp)]
    simp [List.dropLast_append_getLast]

/-- **C42**, the negation. Three values given as a vector `x` are accepted for three time points: the number
of paths is then three, and there is no axis for paths. -/
theorem C42_false : ∃ p : Proc ℚ ℚ,
    Proc.new id ⟨[3], fun i => ((i.headD 0 : ℕ) : ℚ)⟩ (some ⟨[3], fun i => ((i.headD 0 : ℕ) : ℚ)⟩) none none = .ok p ∧
    p.paths = 3 ∧ p.vshape = [] ∧ p.x.shape = [3] ∧ p.x.shape ≠ 3 :: p.vshape ++ [p.paths] :=
  ⟨⟨[0, 1, 2], ⟨[3], fun i => ((i.headD 0 : ℕ) : ℚ)⟩⟩, by
    simp [Proc.new, asTimeline, Arr.toList1, Proc.make, List.range_succ], rfl, rfl, rfl, by decide⟩

/-- **C42**, the negation, for values. Numbers are pairs of a real and an imaginary part, the conversion to
floating point discards the latter. A constant complex value is kept by a process with one time point, but
not by a process with two. -/
theorem C42_complex_false :
    ∃ (toFloat : ℚ × ℚ → ℚ × ℚ) (p q : Proc ℚ (ℚ × ℚ)), (∀ a, toFloat (a, 0) = (a, 0)) ∧
      Proc.new toFloat ⟨[1], fun i => ((i.headD 0 : ℕ) : ℚ)⟩ none none (some (Arr.scalar (1, 2))) = .ok p ∧
      Proc.new toFloat ⟨[2], fun i => ((i.headD 0 : ℕ) : ℚ)⟩ none none (some (Arr.scalar (1, 2))) = .ok q ∧
      p.x.get [0, 0] = (1, 2) ∧ q.x.get [0, 0] ≠ (1, 2) :=
  ⟨fun z => (z.1, 0), ⟨[0], ⟨[1, 1], fun _ => (1, 2)⟩⟩, ⟨[0, 1], ⟨[2, 1], fun _ => (1, 0)⟩⟩,
    fun _ => rfl,
    by simp [Proc.new, asTimeline, Arr.toList1, Proc.make, List.range_succ, Arr.scalar],
    by simp [Proc.new, asTimeline, Arr.toList1, Proc.make, List.range_succ, Arr.scalar], rfl, by simp⟩

example := (C42_accept (id : ℚ → ℚ) (⟨[2], fun i => ((i.headD 0 : ℕ) : ℚ)⟩ : Arr ℚ) none
  (some ⟨[2, 3], fun i => (i.sum : ℕ)⟩) none).1
  ⟨.inr ⟨2, rfl, by omega⟩, by decide, by simp, by simp [tsize]⟩
example := (C42_accept (id : ℚ → ℚ) (⟨[2], fun i => ((i.headD 0 : ℕ) : ℚ)⟩ : Arr ℚ) none
  (some ⟨[3, 3], fun i => (i.sum : ℕ)⟩) none).2 (by simp [tsize])

/-- A process with two time points, values of shape `(3,)`, four paths. -/
def exProc : Proc ℚ ℚ := ⟨[0, 1/2], ⟨[2, 3, 4], fun i => (i.getD 0 0 * 100 + i.getD 1 0 * 10 + i.getD 2 0 : ℕ)⟩⟩
def exTimes : Arr ℚ := ⟨[2], fun i => (i.headD 0 : ℕ) / 2⟩

theorem exProc_new : Proc.new id exTimes (some exProc.x) none none = .ok exProc := by
  simp [exProc, exTimes, Proc.new, asTimeline, Arr.toList1, Proc.make, List.range_succ]

example := C42_x exProc_new
example := C42_shape_partial exProc_new (by simp [exProc]) (by simp)
example : ∃ p, Proc.new id exTimes none (some ⟨[2], fun i => ((i.headD 0 : ℕ) : ℚ)⟩) none = .ok p ∧
    p.paths = 1 := by
  obtain ⟨p, hp⟩ := (C42_accept (id : ℚ → ℚ) exTimes none (some ⟨[2], fun i => ((i.headD 0 : ℕ) : ℚ)⟩) none).1
    ⟨.inr ⟨2, rfl, by omega⟩, by decide, by simp, by simp [tsize, exTimes]⟩
  exact ⟨p, hp, (C42_v hp).2.2.1⟩
example : ∃ p, Proc.new id exTimes none none (some ⟨[5], fun i => ((i.headD 0 : ℕ) : ℚ)⟩) = .ok p ∧
    p.x.shape = [2, 5, 1] := by
  obtain ⟨p, hp⟩ := (C42_accept (id : ℚ → ℚ) exTimes none none (some ⟨[5], fun i => ((i.headD 0 : ℕ) : ℚ)⟩)).1
    ⟨.inr ⟨2, rfl, by omega⟩, by decide, by simp, by simp⟩
  exact ⟨p, hp, (C42_c_partial hp (by simp)).2.1⟩

end Sdepy
