import Verif.Props.MonteCarlo
import Mathlib.Tactic.LinearCombination
import Mathlib.Tactic.NormNum

/-!
# Property C114: what `use='even'` and `use='odd'` take of the variance of samples
-/

namespace Sdepy

open Spec

section
variable {K : Type} [Field K] [LinearOrder K] [IsStrictOrderedRing K]

omit [LinearOrder K] [IsStrictOrderedRing K] in
theorem sum_add_zip : ∀ {a b : List K}, a.length = b.length → [NeZero (2 : K)] →
    2 * (List.zipWith (fun x y => (x + y) / 2) a b).sum = a.sum + b.sum ∧
    2 * ((List.zipWith (fun x y => (x + y) / 2) a b).map (· ^ 2)).sum +
      2 * ((List.zipWith (fun x y => (x - y) / 2) a b).map (· ^ 2)).sum = (a.map (· ^ 2)).sum + (b.map (· ^ 2)).sum
  | [], [], _, _ => by simp
  | x :: a, y :: b, h, _ => by
    obtain ⟨h1, h2⟩ := sum_add_zip (a := a) (b := b) (by simpa using h)
    simp only [List.zipWith_cons_cons, List.sum_cons, List.map_cons]
    have h0 : (2 : K) ≠ 0 := NeZero.ne 2
    refine ⟨?_, ?_⟩
    · rw [mul_add, h1]; field_simp; ring
    · have : 2 * ((x + y) / 2) ^ 2 + 2 * ((x - y) / 2) ^ 2 = x ^ 2 + y ^ 2 := by field_simp; ring
      linear_combination this + h2

/-- Values, and their squares, of half sums and half differences. -/
theorem halves_sums {l : List K} (h : l.length % 2 = 0) :
    2 * (halves (· + ·) l).length = l.length ∧ 2 * (halves (· - ·) l).length = l.length ∧
    2 * (halves (· + ·) l).sum = l.sum ∧
    2 * ((halves (· + ·) l).map (· ^ 2)).sum + 2 * ((halves (· - ·) l).map (· ^ 2)).sum = (l.map (· ^ 2)).sum := by
  have hl : (l.take (l.length / 2)).length = (l.drop (l.length / 2)).length := by simp; omega
  obtain ⟨h1, h2⟩ := sum_add_zip hl
  refine ⟨by simp [halves]; omega, by simp [halves]; omega, ?_, ?_⟩
  · rw [halves, h1, ← List.sum_append, List.take_append_drop]
  · rw [halves, halves, h2, ← List.sum_append, ← List.map_append, List.take_append_drop]

/-- The same, for values in many samples. -/
theorem pooled_sums {l : List (Batch K)} {c : List ℕ} (h : ∀ b ∈ l, (b.raw c).length % 2 = 0) :
    2 * (pooled "even" l c).length = (pooled "all" l c).length ∧
    2 * (pooled "odd" l c).length = (pooled "all" l c).length ∧
    2 * (pooled "even" l c).sum = (pooled "all" l c).sum ∧
    2 * ((pooled "even" l c).map (· ^ 2)).sum + 2 * ((pooled "odd" l c).map (· ^ 2)).sum =
      ((pooled "all" l c).map (· ^ 2)).sum := by
  induction l with
  | nil => simp [pooled]
  | cons b l ih =>
    obtain ⟨i1, i2, i3, i4⟩ := ih fun b hb => h b (by simp [hb])
    obtain ⟨j1, j2, j3, j4⟩ := halves_sums (h b (by simp))
    have e : ∀ use, pooled use (b :: l) c = b.data use c ++ pooled use l c := fun _ => rfl
    have e1 : b.data "even" c = halves (· + ·) (b.raw c) := rfl
    have e2 : b.data "odd" c = halves (· - ·) (b.raw c) := rfl
    have e3 : b.data "all" c = b.raw c := rfl
    rw [e, e, e, e1, e2, e3]
    simp only [List.length_append, List.sum_append, List.map_append]
    exact ⟨by omega, by omega, by linear_combination i3 + j3, by linear_combination i4 + j4⟩

/-- The variance is the mean of squares, less the square of the mean. -/
theorem cmom_two_eq {l : List K} (hl : l ≠ []) : cmom 2 l = (l.map (· ^ 2)).sum / l.length - avg l ^ 2 := by
  have h0 : (l.length : K) ≠ 0 := by rw [Nat.cast_ne_zero]; simpa using hl
  have key : ∀ (l : List K) (m : K), (l.map fun x => (x - m) ^ 2).sum =
      (l.map (· ^ 2)).sum - 2 * m * l.sum + l.length * m ^ 2 := by
    intro l m
    induction l with
    | nil => simp
    | cons x l ih => simp only [List.map_cons, List.sum_cons, ih, List.length_cons]; push_cast; ring
  have hs : l.sum = l.length * avg l := by rw [avg]; field_simp
  rw [cmom, avg, key, List.length_map]
  field_simp
  rw [hs]; ring

variable {auto autoE autoO : String → Option (K × K) → List K → Py (List K)} {bins binsE binsO : Bins K}
  {range rangeE rangeO : Option (K × K)} {vs c : List ℕ} {b0 : Batch K} {l : List (Batch K)} {mc mcE mcO : MC K}

/-- **C114.** Three `montecarlo` instances, with `use='all'`, `use='even'` and `use='odd'`, are updated with the
same samples, with an even number of values each. The first two report the same mean; the variance reported by the first is
the sum of those reported by the others, plus the square of the mean reported by the third. So the variance
reported with `use='even'` never exceeds the one reported with `use='all'`, and it is obtained from half as many values. -/
theorem C114_variances (ha : AutoOk auto) (haE : AutoOk autoE) (haO : AutoOk autoO) (hc : InRange vs c)
    (h : McHistory auto bins range "all" (b0 :: l) mc) (hE : McHistory autoE binsE rangeE "even" (b0 :: l) mcE)
    (hO : McHistory autoO binsO rangeO "odd" (b0 :: l) mcO)
    (hb : ∀ b ∈ b0 :: l, b.vshape = vs ∧ 0 < b.rawSize ∧ b.rawSize % 2 = 0) :
    mc.paths = 2 * mcE.paths ∧ mc.paths = 2 * mcO.paths ∧
    ∃ m mO v vE vO : K, (∃ a, mc.mean = some a ∧ a.get c = some m) ∧ (∃ a, mcE.mean = some a ∧ a.get c = some m) ∧
      (∃ a, mcO.mean = some a ∧ a.get c = some mO) ∧ (∃ a, mc.var = .ok a ∧ a.get c = some v) ∧
      (∃ a, mcE.var = .ok a ∧ a.get c = some vE) ∧ (∃ a, mcO.var = .ok a ∧ a.get c = some vO) ∧
      v = vE + vO + mO ^ 2 ∧ vE ≤ v ∧ 0 ≤ vO := by
  have hu : Uniform vs (b0 :: l) := fun b h => (hb b h).1
  have hne : ∀ use, NonEmpty use (b0 :: l) := fun use b h => by
    obtain ⟨-, h1, h2⟩ := hb b h
    unfold Batch.size
    split <;> omega
  have hev : ∀ b ∈ b0 :: l, (b.raw c).length % 2 = 0 := fun b h => by
    obtain ⟨-, -, h2⟩ := hb b h
    have : (b.raw c).length = b.rawSize := by
      unfold Batch.raw Batch.rawSize
      split <;> simp
    rw [this, h2]
  obtain ⟨s1, s2, s3, s4⟩ := pooled_sums hev
  obtain ⟨p1, p2, a1, m1, -, m1'⟩ := C35_mean ha h hu (hne _)
  obtain ⟨-, q2, a2, m2, -, m2'⟩ := C35_mean haE hE hu (hne _)
  obtain ⟨-, r2, a3, m3, -, m3'⟩ := C35_mean haO hO hu (hne _)
  obtain ⟨w1, v1, -, v1'⟩ := C35_var ha h hu (hne _)
  obtain ⟨w2, v2, -, v2'⟩ := C35_var haE hE hu (hne _)
  obtain ⟨w3, v3, -, v3'⟩ := C35_var haO hO hu (hne _)
  have hpos : 0 < mc.paths := p1 ▸ (hne _).pos
  have p2c := p2 c hc
  have q2c := q2 c hc
  have r2c := r2 c hc
  replace m1' := m1' c hc
  replace m2' := m2' c hc
  replace m3' := m3' c hc
  replace v1' := v1' c hc
  replace v2' := v2' c hc
  replace v3' := v3' c hc
  clear p2 q2 r2
  generalize pooled "all" (b0 :: l) c = A at *
  generalize pooled "even" (b0 :: l) c = E at *
  generalize pooled "odd" (b0 :: l) c = O at *
  have hA : A ≠ [] := by
    rintro rfl
    simp at p2c
    omega
  have hE0 : E ≠ [] := by
    rintro rfl
    simp at q2c s1
    exact hA (List.length_eq_zero_iff.1 s1.symm)
  have hO0 : O ≠ [] := by
    rintro rfl
    simp at r2c s2
    exact hA (List.length_eq_zero_iff.1 s2.symm)
  have nE : (E.length : K) ≠ 0 := by rw [Nat.cast_ne_zero]; simpa using hE0
  have eO : (O.length : K) = E.length := by
    rw [Nat.cast_inj]; omega
  have eA : (A.length : K) = 2 * E.length := by
    rw [← s1]; push_cast; ring
  have em : avg E = avg A := by
    rw [avg, avg, eA, ← s3]; field_simp
  have ev : cmom 2 A = cmom 2 E + cmom 2 O + avg O ^ 2 := by
    rw [cmom_two_eq hA, cmom_two_eq hE0, cmom_two_eq hO0, em, eA, eO, ← s4]
    field_simp
    ring
  have hO2 : 0 ≤ cmom 2 O := by
    rw [cmom, avg]
    refine div_nonneg (List.sum_nonneg fun x hx => ?_) (Nat.cast_nonneg _)
    obtain ⟨y, -, rfl⟩ := List.mem_map.1 hx
    exact sq_nonneg _
  refine ⟨by omega, by omega, avg A, avg O, cmom 2 A, cmom 2 E, cmom 2 O, ⟨a1, m1, m1'⟩,
    ⟨a2, m2, by rw [m2', em]⟩, ⟨a3, m3, m3'⟩, ⟨w1, v1, v1'⟩, ⟨w2, v2, v2'⟩,
    ⟨w3, v3, v3'⟩, ev, ?_, hO2⟩
  rw [ev]
  linarith [sq_nonneg (avg O)]

end

/-! ### Example -/

/-- Two samples, of four and two values. -/
def exEO0 : Batch ℚ := ⟨arrOf [4] [7, 2, -5, 4], -1⟩
def exEO1 : Batch ℚ := ⟨arrOf [2] [3, 1], -1⟩
def exEO (use : String) : MC ℚ := ((MC.new .none none use).update noAuto exEO0.x exEO0.axis).1
def exEO' (use : String) : MC ℚ := ((exEO use).update noAuto exEO1.x exEO1.axis).1

-- hypotheses of `C114_variances`, and what is reported: half sums are 1, 3, 2 and half differences are 6, -1, 1
example : (∀ use ∈ ["all", "even", "odd"], McHistory noAuto .none none use [exEO0, exEO1] (exEO' use)) ∧
    (∀ b ∈ [exEO0, exEO1], b.vshape = [] ∧ 0 < b.rawSize ∧ b.rawSize % 2 = 0) ∧
    (["all", "even", "odd"].map fun use => (exEO' use).mean.map fun a => a.get []) =
      [some (some 2), some (some 2), some (some 2)] ∧
    (["all", "even", "odd"].map fun use => (exEO' use).var.toOption.map fun a => a.get []) =
      [some (some (40 / 3)), some (some (2 / 3)), some (some (26 / 3))] ∧
    (40 / 3 : ℚ) = 2 / 3 + 26 / 3 + 2 ^ 2 := by
  refine ⟨fun use hu => ?_, by decide +kernel, by decide +kernel, by decide +kernel, by norm_num⟩
  simp only [List.mem_cons, List.not_mem_nil, or_false] at hu
  rcases hu with rfl | rfl | rfl <;>
  exact .update (l := [exEO0]) (.update (l := []) .new (update_eta (by decide +kernel))) (update_eta (by decide +kernel))

end Sdepy
