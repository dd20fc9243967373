import Verif.Props.ProcessInterp
import Mathlib.Algebra.BigOperators.Intervals
import Mathlib.Analysis.SpecialFunctions.Pow.Real

/-!
# Differences, derivative and integral of processes along time
-/

namespace Sdepy
open Spec

variable {K : Type} [Field K] [LinearOrder K] [IsStrictOrderedRing K]

omit [LinearOrder K] [IsStrictOrderedRing K] in
theorem diffs_getD {l : List K} {k : ℕ} {a b : K} (ha : l[k]? = some a) (hb : l[k + 1]? = some b) :
    (diffs l).getD k 0 = b - a := by
  unfold diffs
  rw [List.getD_eq_getElem?_getD, List.getElem?_zipWith, ha, List.getElem?_tail, hb]
  rfl

omit [IsStrictOrderedRing K] in
theorem increasing_lt {p : Proc K K} (h : Increasing p) {k : ℕ} {a b : K} (ha : p.t[k]? = some a)
    (hb : p.t[k + 1]? = some b) : a < b := by
  obtain ⟨h1, rfl⟩ := List.getElem?_eq_some_iff.1 ha
  obtain ⟨h2, rfl⟩ := List.getElem?_eq_some_iff.1 hb
  exact (List.pairwise_iff_getElem.1 h) k (k + 1) h1 h2 (by omega)

omit [LinearOrder K] [IsStrictOrderedRing K] in
/-- **C48**. Values of `p.tdiff(dt_exp, fwd)` are differences of subsequent values over the power of time
increments; the difference between times `k` and `k + 1` is at time `k`, or `k + 1` if `fwd` is not set. Powers
`d ** e` are arbitrary, except that they are 1 if `e` is 0. -/
theorem C48_tdiff {E : Type} [Zero E] [DecidableEq E] (pw : K → E → K) (h1 : ∀ d, pw d 0 = 1) (e : E)
    (fwd : Bool) (p : Proc K K) (hp : IsProc p) (hN : 2 ≤ p.t.length) :
    ∃ z, p.tdiff pw e fwd = .ok z ∧ z.t.length = p.t.length - 1 ∧ z.x.shape = (p.t.length - 1) :: p.x.shape.tail ∧
      ∀ (k : ℕ) a b, p.t[k]? = some a → p.t[k + 1]? = some b → z.t[k]? = some (if fwd then a else b) ∧
        ∀ r, z.x.get (k :: r) = (p.x.get ((k + 1) :: r) - p.x.get (k :: r)) / pw (b - a) e := by
  have hsh := IsProc.shape hp
  have hhd : p.x.shape.headD 0 = p.t.length := by rw [hsh]; rfl
  have htl : (if fwd then p.t.dropLast else p.t.tail).length = p.t.length - 1 := by split <;> simp
  refine ⟨_, make_ok ?_ ?_, htl, by simp only [hhd], fun k a b ha hb => ⟨?_, fun r => ?_⟩⟩
  · intro h
    rw [h] at htl
    simp at htl
    omega
  · rw [htl, hhd]; rfl
  · have hk := (List.getElem?_eq_some_iff.1 hb).1
    dsimp only
    cases fwd with
    | true =>
      simp only [if_true]
      rw [List.getElem?_dropLast, if_pos (by omega), ha]
    | false =>
      simp only [Bool.false_eq_true, if_false]
      rw [List.getElem?_tail, hb]
  · simp only [List.headD_cons, List.tail_cons]
    rw [diffs_getD ha hb]
    by_cases he : e = 0
    · rw [if_pos he, he, h1, div_one]
    · rw [if_neg he]

omit [LinearOrder K] [IsStrictOrderedRing K] in
/-- **C48**. Differences of a process at a single time raise `ValueError`. -/
theorem C48_single {E : Type} [Zero E] [DecidableEq E] (pw : K → E → K) (e : E) (fwd : Bool) (p : Proc K K)
    (hN : p.t.length = 1) : p.tdiff pw e fwd = .error .valueError := by
  obtain ⟨a, ha⟩ := List.length_eq_one_iff.1 hN
  apply make_error
  left
  cases fwd <;> simp [ha]

omit [LinearOrder K] [IsStrictOrderedRing K] in
/-- **C48** (partial). The integral has the timeline and shape of the process; its value at time `k` is the sum
of previous values times time increments. What is missing, for processes of integers, is false: see
`C48_int_false`. -/
theorem C48_tint_partial (p : Proc K K) (hp : IsProc p) :
    ∃ z, p.tint id = .ok z ∧ z.t = p.t ∧ z.x.shape = p.x.shape ∧
      ∀ k r, k < p.t.length → z.x.get (k :: r) =
        ∑ h ∈ Finset.range k, p.x.get (h :: r) * (p.t.getD (h + 1) 0 - p.t.getD h 0) := by
  refine ⟨_, make_ok hp.1 hp.2, rfl, rfl, fun k r hk => ?_⟩
  show List.foldl _ _ _ = _
  rw [← List.sum_eq_foldl]
  show ∑ h ∈ Finset.range (k + 1), _ = _
  rw [Finset.sum_range_succ']
  refine (add_zero _).trans ?_
  apply Finset.sum_congr rfl
  intro h hh
  have hh' := Finset.mem_range.1 hh
  have e1 : p.t[h]? = some p.t[h] := List.getElem?_eq_getElem (by omega)
  have e2 : p.t[h + 1]? = some p.t[h + 1] := List.getElem?_eq_getElem (by omega)
  simp only [List.headD_cons, List.tail_cons, id]
  rw [diffs_getD e1 e2, List.getD_eq_getElem?_getD, List.getD_eq_getElem?_getD, e1, e2]
  rfl

/-- **C48**. `p.tder().tint()` is `p['t', :-1] - p['t', 0]`. -/
theorem C48_tder_tint (p : Proc K K) (hp : IsProc p) (hs : Increasing p) (hN : 2 ≤ p.t.length) :
    ∃ d z, p.tder = .ok d ∧ d.tint id = .ok z ∧ z.t = p.t.dropLast ∧
      z.x.shape = (p.t.length - 1) :: p.x.shape.tail ∧
      ∀ k r, k < p.t.length - 1 → z.x.get (k :: r) = p.x.get (k :: r) - p.x.get (0 :: r) := by
  obtain ⟨d, hd1, hd2, hd3, hd4⟩ := C48_tdiff (fun d (k : ℕ) => d ^ k) (fun d => pow_zero d) 1 true p hp hN
  have hdt : d.t = p.t.dropLast := by
    apply List.ext_getElem?
    intro k
    by_cases hk : k + 1 < p.t.length
    · have := (hd4 k _ _ (List.getElem?_eq_getElem (by omega)) (List.getElem?_eq_getElem hk)).1
      rw [if_pos rfl] at this
      rw [this, List.getElem?_dropLast, if_pos (by omega), List.getElem?_eq_getElem]
    · rw [List.getElem?_eq_none (by omega), List.getElem?_eq_none (by simp; omega)]
  have hdp : IsProc d := by
    refine ⟨?_, by rw [hd3, hd2]; rfl⟩
    intro h
    rw [h] at hd2
    simp at hd2
    omega
  obtain ⟨z, hz1, hz2, hz3, hz4⟩ := C48_tint_partial d hdp
  refine ⟨d, z, hd1, hz1, by rw [hz2, hdt], by rw [hz3, hd3], fun k r hk => ?_⟩
  rw [hz4 k r (by omega)]
  rw [← Finset.sum_range_sub (fun h => p.x.get (h :: r)) k]
  apply Finset.sum_congr rfl
  intro h hh
  have hh' := Finset.mem_range.1 hh
  have e1 : p.t[h]? = some p.t[h] := List.getElem?_eq_getElem (by omega)
  have e2 : p.t[h + 1]? = some p.t[h + 1] := List.getElem?_eq_getElem (by omega)
  have e3 : d.t.getD h 0 = p.t[h] := by
    rw [hdt, List.getD_eq_getElem?_getD, List.getElem?_dropLast, if_pos (by omega), e1]; rfl
  have e4 : d.t.getD (h + 1) 0 = p.t[h + 1] := by
    rw [hdt, List.getD_eq_getElem?_getD, List.getElem?_dropLast, if_pos (by omega), e2]; rfl
  rw [(hd4 h _ _ e1 e2).2, e3, e4, pow_one]
  have := increasing_lt hs e1 e2
  exact div_mul_cancel₀ _ (sub_ne_zero.2 this.ne')

/-- **C48**. `p.tint().tder()` is `p['t', :-1]`. -/
theorem C48_tint_tder (p : Proc K K) (hp : IsProc p) (hs : Increasing p) (hN : 2 ≤ p.t.length) :
    ∃ i z, p.tint id = .ok i ∧ i.tder = .ok z ∧ z.t = p.t.dropLast ∧
      z.x.shape = (p.t.length - 1) :: p.x.shape.tail ∧
      ∀ k r, k < p.t.length - 1 → z.x.get (k :: r) = p.x.get (k :: r) := by
  obtain ⟨i, hi1, hi2, hi3, hi4⟩ := C48_tint_partial p hp
  have hip : IsProc i := by
    refine ⟨by rw [hi2]; exact hp.1, by rw [hi3, hi2]; exact hp.2⟩
  obtain ⟨z, hz1, hz2, hz3, hz4⟩ := C48_tdiff (fun d (k : ℕ) => d ^ k) (fun d => pow_zero d) 1 true i hip
    (by rw [hi2]; exact hN)
  rw [hi2] at hz2 hz4
  have hzt : z.t = p.t.dropLast := by
    apply List.ext_getElem?
    intro k
    by_cases hk : k + 1 < p.t.length
    · have := (hz4 k _ _ (List.getElem?_eq_getElem (by omega)) (List.getElem?_eq_getElem hk)).1
      rw [if_pos rfl] at this
      rw [this, List.getElem?_dropLast, if_pos (by omega), List.getElem?_eq_getElem]
    · rw [List.getElem?_eq_none (by omega), List.getElem?_eq_none (by simp; omega)]
  refine ⟨i, z, hi1, hz1, hzt, by rw [hz3, hi2, hi3], fun k r hk => ?_⟩
  have e1 : p.t[k]? = some p.t[k] := List.getElem?_eq_getElem (by omega)
  have e2 : p.t[k + 1]? = some p.t[k + 1] := List.getElem?_eq_getElem (by omega)
  rw [(hz4 k _ _ e1 e2).2, hi4 (k + 1) r (by omega), hi4 k r (by omega), Finset.sum_range_succ, add_sub_cancel_left,
    pow_one, List.getD_eq_getElem?_getD, List.getD_eq_getElem?_getD, e1, e2]
  have := increasing_lt hs e1 e2
  exact mul_div_cancel_right₀ _ (sub_ne_zero.2 this.ne')

/-- **C48**, the negation for processes of integers: products of values and time increments are truncated, so
that the integral of 1 on a timeline with increments of 1/2 is 0. -/
theorem C48_int_false : ∃ (cast : ℚ → ℚ) (p z : Proc ℚ ℚ), (∀ n : ℤ, cast n = n) ∧ IsProc p ∧ Increasing p ∧
    p.t = [0, 1/2, 1] ∧ (∀ i, p.x.get i = 1) ∧ p.tint cast = .ok z ∧ z.x.get [2, 0] = 0 := by
  refine ⟨fun q => (q.num.tdiv q.den : ℤ), ⟨[0, 1/2, 1], ⟨[3, 1], fun _ => 1⟩⟩, _, ?_,
    ⟨by simp, rfl⟩, by norm_num [Increasing], rfl, fun _ => rfl, rfl, ?_⟩
  · intro n; simp
  · decide +kernel

example := C48_tdiff (fun (d : ℚ) (k : ℕ) => d ^ k) (fun d => pow_zero d) 2 false exProc exProc_isProc
  (by simp [exProc])
example := C48_tdiff (fun d e : ℝ => d ^ e) Real.rpow_zero (1/2) true
  ⟨[0, 1], ⟨[2, 1], fun i => ((i.headD 0 : ℕ) : ℝ)⟩⟩ ⟨by simp, rfl⟩ (by simp)
example := C48_single (fun (d : ℚ) (k : ℕ) => d ^ k) 1 true exConst rfl
example := C48_tint_partial exProc exProc_isProc
example := C48_tder_tint exProc exProc_isProc exProc_increasing (by simp [exProc])
example := C48_tint_tder exProc exProc_isProc exProc_increasing (by simp [exProc])

end Sdepy
