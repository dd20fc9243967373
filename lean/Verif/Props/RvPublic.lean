import Verif.Props.ArrRv

/-!
# Preset distributions of jumps, as given to users (C33, C71)
-/

namespace Sdepy

open Spec Real MeasureTheory Set ProbabilityTheory

/-- A distribution, or a function of time whose value at `t` is a distribution. -/
inductive Spec.GivesAt {T R : Type} (t : T) : Py (MaybeTimed T R) → R → Prop
  | plain (r : R) : GivesAt t (.ok (.plain r)) r
  | timed {d : T → Py R} {r : R} : d t = .ok r → GivesAt t (.ok (.timed d)) r

/-- The value at `t` of a parameter of a distribution, a number or a function of time. -/
inductive Spec.ScalarAt {T : Type} (t : T) : RvParam T → ℝ → Prop
  | const (x : ℝ) : ScalarAt t (.const x) x
  | func (f : T → ℝ) : ScalarAt t (.func f) (f t)

theorem givesAt_variable {T R : Type} (rv : List ℝ → Py R) {ps : List (RvParam T)} {t : T} {xs : List ℝ}
    (h : List.Forall₂ (fun p x => ScalarAt t p x) ps xs) {r : R} (hr : rv xs = .ok r) :
    GivesAt t (makeVariable rv ps) r := by
  have hx : ps.map (fun p => p.value t) = xs := by
    clear hr
    induction h with
    | nil => rfl
    | cons h1 _ ih =>
      rw [List.map_cons, ih]
      cases h1 <;> rfl
  obtain ⟨h1, h2⟩ := C33_variable rv ps
  by_cases hf : ∃ f, .func f ∈ ps
  · obtain ⟨d, e1, e2⟩ := h1 hf
    rw [e1]
    exact .timed (by rw [e2, hx, hr])
  · rw [h2 hf t, hx, hr]
    exact .plain r

theorem givesAt_variableA {T R : Type} (rv : List (Arr ℝ) → Py R) {ps : List (MaybeTimed T (Arr ℝ))} {t : T}
    {vs : List (Arr ℝ)} (h : List.Forall₂ (ArrayAt t) ps vs) {r : R} (hr : rv vs = .ok r) :
    GivesAt t (makeVariableA rv ps) r := by
  obtain ⟨h1, h2⟩ := C71_variable (T := T) rv
  by_cases hf : ∃ f, .timed f ∈ ps
  · obtain ⟨d, e1, e2⟩ := h1 ps hf
    rw [e1]
    exact .timed (by rw [e2 t vs h, hr])
  · obtain ⟨us, rfl⟩ := plain_of_not hf
    have : us = vs := by
      clear hf hr h1 h2
      induction us generalizing vs with
      | nil => cases h; rfl
      | cons u us ih =>
        cases h with
        | cons h1 h => cases h1; rw [ih h]
    subst this
    rw [h2, hr]
    exact .plain r

section
variable {T : Type} {t : T}

/-- **C33** (`norm_rv`). At time `t`, variates are normal, with the values of parameters at that time as mean and standard
deviation, and statistics are reported accordingly. -/
theorem C33_norm_rv {a b : RvParam T} {x y : ℝ} (ha : ScalarAt t a x) (hb : ScalarAt t b y) (hy : 0 < y) :
    ∃ rv, GivesAt t (norm_rv a b) rv ∧ Describes stdNormal rv ∧ ∀ z, rv.rvs z = .ok (x + y * z) := by
  obtain ⟨rv, h1, h2⟩ := C33_norm (a := x) hy
  refine ⟨rv, givesAt_variable _ (.cons ha (.cons hb .nil)) h1, h2, fun z => ?_⟩
  cases h1
  simp [frozen, not_lt.2 hy.le]

/-- **C33** (`uniform_rv`). Variates are uniform between the values of parameters. -/
theorem C33_uniform_rv {a b : RvParam T} {x y : ℝ} (ha : ScalarAt t a x) (hb : ScalarAt t b y) (hxy : x < y) :
    ∃ rv, GivesAt t (uniform_rv a b) rv ∧ Describes stdUniform rv ∧
      ∀ z, rv.rvs z = .ok ((1 - z) * x + z * y) := by
  obtain ⟨rv, h1, h2⟩ := C33_uniform hxy
  refine ⟨rv, givesAt_variable _ (.cons ha (.cons hb .nil)) h1, h2, fun z => ?_⟩
  cases h1
  have : ¬ y - x < 0 := by linarith
  simp only [frozen, if_neg this, Except.ok.injEq]
  ring

/-- **C33** (`exp_rv`). Variates are exponential, with the value of the parameter, negative values allowed, as scale. -/
theorem C33_exp_rv {a : RvParam T} {x : ℝ} (ha : ScalarAt t a x) (hx : x ≠ 0) :
    ∃ rv, GivesAt t (exp_rv a) rv ∧ Describes stdExpon rv ∧ ∀ z, rv.rvs z = .ok (x * z) := by
  obtain ⟨rv, h1, h2⟩ := C33_exp hx
  refine ⟨rv, givesAt_variable _ (.cons ha .nil) h1, h2, fun z => ?_⟩
  rw [expRv, if_neg hx] at h1
  cases h1
  simp only [Except.ok.injEq]
  rcases lt_or_gt_of_ne hx with h | h
  · rw [if_neg (by linarith), if_pos h, abs_of_neg h]; ring
  · rw [if_pos h, abs_of_pos h]; ring

/-- **C33** (`double_exp_rv`). Variates are positive, of scale `a`, with probability `pa`, negative, of scale `b`,
otherwise. What is missing is the case `pa = 0` and `1 ≤ a` (`C33_double_exp_false`). -/
theorem C33_double_exp_rv_partial {a b pa : RvParam T} {x y p : ℝ} (ha : ScalarAt t a x) (hb : ScalarAt t b y)
    (hp : ScalarAt t pa p) (hx : 0 < x) (hy : 0 < y) (h0 : 0 ≤ p) (h1 : p ≤ 1) (hne : p ≠ 0 ∨ x < 1) :
    ∃ rv, GivesAt t (double_exp_rv a b pa) rv ∧ Describes doubleExpDraws rv ∧
      ∀ z, rv.rvs z = .ok (if z.2.2 ≤ p then x * z.1 else -(y * z.2.1)) := by
  obtain ⟨rv, h1, h2⟩ := C33_double_exp_partial hx hy h0 h1 hne
  refine ⟨rv, givesAt_variable _ (.cons ha (.cons hb (.cons hp .nil))) h1, h2, fun z => ?_⟩
  rw [doubleExpRv, if_neg (by push Not; exact ⟨hx, hy, by assumption, h0⟩)] at h1
  cases h1
  rfl

/-- **C71** (`norm_rv`). The same, for arrays of parameters: each item of the array of variates has the law given by
the items of parameters. -/
theorem C71_norm_rv {a b : MaybeTimed T (Arr ℝ)} {x y : Arr ℝ} (ha : ArrayAt t a x) (hb : ArrayAt t b y)
    {S : List ℕ} (hS : Joint [x.shape, y.shape] S) (hy : ∀ i, InRange S i → 0 < cellValue y i) :
    ∃ d, GivesAt t (norm_rvA a b) d ∧
      DescribesItems stdNormal S (fun i z => cellValue x i + cellValue y i * z) d ∧
      ReportsExpMean stdNormal S (fun i z => cellValue x i + cellValue y i * z) d.expMean := by
  obtain ⟨d, h1, h2⟩ := C71_norm hS hy
  exact ⟨d, givesAt_variableA _ (.cons ha (.cons hb .nil)) h1, h2⟩

/-- **C71** (`uniform_rv`). -/
theorem C71_uniform_rv {a b : MaybeTimed T (Arr ℝ)} {x y : Arr ℝ} (ha : ArrayAt t a x) (hb : ArrayAt t b y)
    {S : List ℕ} (hS : Joint [x.shape, y.shape] S) (hxy : ∀ i, InRange S i → cellValue x i < cellValue y i) :
    ∃ d, GivesAt t (uniform_rvA a b) d ∧
      DescribesItems stdUniform S (fun i z => cellValue x i + (cellValue y i - cellValue x i) * z) d ∧
      ReportsExpMean stdUniform S (fun i z => cellValue x i + (cellValue y i - cellValue x i) * z) d.expMean := by
  obtain ⟨d, h1, h2⟩ := C71_uniform hS hxy
  exact ⟨d, givesAt_variableA _ (.cons ha (.cons hb .nil)) h1, h2⟩

/-- **C71** (`exp_rv`). -/
theorem C71_exp_rv {a : MaybeTimed T (Arr ℝ)} {x : Arr ℝ} (ha : ArrayAt t a x)
    (hx : ∀ i, InRange x.shape i → x.get i ≠ 0) :
    ∃ d, GivesAt t (exp_rvA a) d ∧ DescribesItems stdExpon x.shape (fun i z => x.get i * z) d ∧
      ReportsExpMean stdExpon x.shape (fun i z => x.get i * z) d.expMean := by
  obtain ⟨d, h1, h2⟩ := C71_exp hx
  exact ⟨d, givesAt_variableA _ (.cons ha .nil) h1, h2⟩

/-- **C71** (`double_exp_rv`). What is missing is the mean of the exponential of arrays with more than one item, that is
not reported by the code (`C71_exp_mean_false`). -/
theorem C71_double_exp_rv_partial {a b pa : MaybeTimed T (Arr ℝ)} {x y p : Arr ℝ} (ha : ArrayAt t a x)
    (hb : ArrayAt t b y) (hp : ArrayAt t pa p) {S : List ℕ} (hS : Joint [x.shape, y.shape, p.shape] S)
    (hx : ∀ i, InRange S i → 0 < cellValue x i) (hy : ∀ i, InRange S i → 0 < cellValue y i)
    (h0 : ∀ i, InRange S i → 0 ≤ cellValue p i) (h1 : ∀ i, InRange S i → cellValue p i ≤ 1) :
    ∃ d, GivesAt t (double_exp_rvA a b pa) d ∧
      DescribesItems doubleExpDraws S (fun i z => if z.2.2 ≤ cellValue p i then cellValue x i * z.1
        else -(cellValue y i * z.2.1)) d ∧
      (S.prod = 1 → (∀ i, InRange S i → cellValue p i ≠ 0 ∨ cellValue x i < 1) →
        ReportsExpMean doubleExpDraws S (fun i z => if z.2.2 ≤ cellValue p i then cellValue x i * z.1
          else -(cellValue y i * z.2.1)) d.expMean) := by
  obtain ⟨d, h1, h2⟩ := C71_double_exp_partial hS hx hy h0 h1
  exact ⟨d, givesAt_variableA _ (.cons ha (.cons hb (.cons hp .nil))) h1, h2⟩

end

example := C33_norm_rv (a := .func fun t : ℝ => t) (b := .const 2) (t := 3) (.func _) (.const _) (by norm_num)
example := C33_uniform_rv (a := .func fun t : ℝ => t) (b := .const 5) (t := 3) (.func _) (.const _) (by norm_num)
example := C33_exp_rv (a := .func fun t : ℝ => -t) (t := 3) (.func _) (by norm_num)
example := C33_double_exp_rv_partial (a := .func fun t : ℝ => t) (b := .const 5) (pa := .const (1 / 2)) (t := 3)
  (.func _) (.const _) (.const _) (by norm_num) (by norm_num) (by norm_num) (by norm_num) (.inl (by norm_num))
example := C71_uniform_rv (a := .timed fun t : ℝ => .ok (vec2 t (t + 1))) (b := .plain (vec2 4 5)) (t := 3)
  (.timed rfl) (.plain _) (joint_vec2 _ _ rfl rfl)
  (inRange_two (by simp [cellValue, cellIndex, vec2, List.range_succ]; norm_num)
    (by simp [cellValue, cellIndex, vec2, List.range_succ]; norm_num))
example := C71_norm_rv (a := .timed fun t : ℝ => .ok (vec2 t (t + 1))) (b := .plain (vec2 4 5)) (t := 3)
  (.timed rfl) (.plain _) (joint_vec2 _ _ rfl rfl)
  (inRange_two (by simp [cellValue, cellIndex, vec2, List.range_succ])
    (by simp [cellValue, cellIndex, vec2, List.range_succ]))
example := C71_double_exp_rv_partial (a := .timed fun t : ℝ => .ok (.scalar t)) (b := .plain (.scalar 2))
  (pa := .plain (.scalar (1 / 2))) (t := 1 / 3) (S := []) (.timed rfl) (.plain _) (.plain _)
  (by rw [← bcShapes_iff]; simp only [Arr.scalar]; decide)
  (fun i _ => by simp [cellValue, Arr.scalar]) (fun i _ => by simp [cellValue, Arr.scalar])
  (fun i _ => by simp [cellValue, Arr.scalar]) (fun i _ => by norm_num [cellValue, Arr.scalar])
example := C71_exp_rv (a := .timed fun t : ℝ => .ok (vec2 t (t + 1))) (t := 3) (.timed rfl)
  (inRange_two (by simp [vec2]) (by norm_num [vec2]))

end Sdepy
