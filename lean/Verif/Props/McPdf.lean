import Verif.Model.McPdf
import Verif.Props.MonteCarlo

/-!
# Estimates of densities by `montecarlo` instances
-/

set_option linter.unusedSectionVars false
set_option linter.unusedSimpArgs false

namespace Sdepy

open Spec

section field
variable {K : Type} [Field K] [LinearOrder K] [IsStrictOrderedRing K]

/-- A histogram with strictly increasing edges, at least one value being counted. -/
structure Spec.GoodHist (counts : List ℤ) (edges : List K) : Prop where
  sorted : edges.Pairwise (· < ·)
  len : edges.length = counts.length + 1
  nonneg : ∀ c ∈ counts, 0 ≤ c
  pos : 0 < counts.sum

/-- Widths of bins. -/
def Spec.binWidths (edges : List K) : List K := List.zipWith (fun a b => b - a) edges edges.tail

/-- Points where the 'interp' pdf may bend: the first edge, the middle of each bin, the last edge. -/
def Spec.pdfNodes (edges : List K) : List K :=
  edges.headD 0 :: List.zipWith (fun a b => (a + b) / 2) edges edges.tail ++ [edges.getLastD 0]

/-- Fraction of the counted values that are in one of the first `k` bins. -/
def Spec.cumFreq (counts : List ℤ) (k : ℕ) : K := ((counts.take k).sum : ℤ) / (counts.sum : ℤ)

theorem diffs_length (l : List K) : (diffs l).length = l.length - 1 := by
  simp [diffs]

theorem midpoints_length (l : List K) : (midpoints l).length = l.length - 1 := by
  simp [midpoints]

theorem diffs_pos {l : List K} (h : l.Pairwise (· < ·)) : ∀ d ∈ diffs l, 0 < d := by
  induction l with
  | nil => simp [diffs]
  | cons a l ih =>
    cases l with
    | nil => simp [diffs]
    | cons b l =>
      intro d hd
      have h' := List.pairwise_cons.1 h
      simp only [diffs, List.tail_cons, List.zipWith_cons_cons, List.mem_cons] at hd
      rcases hd with rfl | hd
      · exact sub_pos.2 (h'.1 b (by simp))
      · exact ih h'.2 d (by simpa [diffs] using hd)

theorem densities_good {counts : List ℤ} {edges : List K} (h : GoodHist counts edges) :
    densities counts edges =
      some (List.zipWith (fun (c : ℤ) d => (c : K) / (counts.sum : ℤ) / d) counts (diffs edges)) := by
  unfold densities
  rw [if_neg]
  rintro (h0 | h0)
  · have := h.pos
    have h0' : counts.sum = 0 := by exact_mod_cast h0
    omega
  · exact lt_irrefl _ (diffs_pos h.sorted 0 h0)

/-- Frequencies, obtained from densities and widths of bins. -/
theorem widths_densities (S : K) : ∀ {counts : List ℤ} {ds : List K}, (∀ d ∈ ds, 0 < d) →
    ds.length = counts.length →
    List.zipWith (· * ·) ds (List.zipWith (fun (c : ℤ) d => (c : K) / S / d) counts ds) =
      counts.map fun c : ℤ => (c : K) / S
  | [], [], _, _ => rfl
  | c :: cs, d :: ds, hd, hl => by
    have h0 : d ≠ 0 := (hd d (by simp)).ne'
    simp only [List.zipWith_cons_cons, List.map_cons, List.cons.injEq]
    refine ⟨by field_simp, widths_densities S (fun x hx => hd x (by simp [hx])) (by simpa using hl)⟩

theorem sum_freq (counts : List ℤ) (S : K) :
    (counts.map fun c : ℤ => (c : K) / S).sum = (counts.sum : ℤ) / S := by
  induction counts with
  | nil => simp
  | cons c cs ih => simp [ih, add_div]

/-- **C39** (density histogram). Densities are not negative, and the sum of densities times the widths of
bins is one. -/
theorem C39_density {mc : MC K} {counts : List ℤ} {edges : List K}
    (hh : mc.histogram = .ok (counts, edges)) (h : GoodHist counts edges) :
    ∃ n, mc.densityHistogram = .ok (some n, edges) ∧ n.length = counts.length ∧ (∀ p ∈ n, 0 ≤ p) ∧
      (List.zipWith (· * ·) (binWidths edges) n).sum = 1 := by
  change ∃ n, mc.densityHistogram = .ok (some n, edges) ∧ n.length = counts.length ∧ (∀ p ∈ n, 0 ≤ p) ∧
      (List.zipWith (· * ·) (diffs edges) n).sum = 1
  have hl : (diffs edges).length = counts.length := by rw [diffs_length, h.len]; rfl
  have hS : (0 : K) < (counts.sum : ℤ) := by exact_mod_cast h.pos
  refine ⟨_, by rw [MC.densityHistogram, hh]; simp only [densities_good h]; rfl, by simp [hl], ?_, ?_⟩
  · intro p hp
    obtain ⟨i, hi, rfl⟩ := List.getElem_of_mem hp
    simp only [List.getElem_zipWith]
    have h1 := diffs_pos h.sorted _ (List.getElem_mem (l := diffs edges) (n := i) (by simp at hi; omega))
    have h2 := h.nonneg _ (List.getElem_mem (l := counts) (n := i) (by simp at hi; omega))
    have h3 : (0 : K) ≤ (counts[i]'(by simp at hi; omega) : ℤ) := by exact_mod_cast h2
    exact div_nonneg (div_nonneg h3 hS.le) h1.le
  · rw [widths_densities _ (diffs_pos h.sorted) hl, sum_freq, div_self hS.ne']

/-! ### Linear interpolation -/

/-- Value on a segment. -/
theorem interpSeg_on : ∀ (k : ℕ) {xx pp : List K}, xx.Pairwise (· < ·) → xx.length = pp.length →
    ∀ {x0 x1 p0 p1 x : K}, xx[k]? = some x0 → xx[k + 1]? = some x1 → pp[k]? = some p0 →
    pp[k + 1]? = some p1 → x0 ≤ x → x ≤ x1 →
    interpSeg xx pp x = p0 + (p1 - p0) / (x1 - x0) * (x - x0)
  | 0, xx, pp, hs, hl, x0, x1, p0, p1, x, h1, h2, h3, h4, h5, h6 => by
    rcases xx with _ | ⟨a, _ | ⟨b, xx⟩⟩
    · simp at h1
    · simp at h2
    rcases pp with _ | ⟨c, _ | ⟨d, pp⟩⟩
    · simp at h3
    · simp at h4
    simp only [List.getElem?_cons_zero, List.getElem?_cons_succ, Option.some.injEq, zero_add] at h1 h2 h3 h4
    subst h1 h2 h3 h4
    simp only [interpSeg, if_pos (Or.inl h6)]
  | k + 1, xx, pp, hs, hl, x0, x1, p0, p1, x, h1, h2, h3, h4, h5, h6 => by
    rcases xx with _ | ⟨a, _ | ⟨b, xx⟩⟩
    · simp at h1
    · simp at h2
    rcases pp with _ | ⟨c, _ | ⟨d, pp⟩⟩
    · simp at h3
    · simp at h4
    have hs' := (List.pairwise_cons.1 hs).2
    have hab : a < b := (List.pairwise_cons.1 hs).1 b (by simp)
    simp only [List.getElem?_cons_succ] at h1 h2 h3 h4
    by_cases hx : x ≤ b
    · -- only at the lower end of the following segment
      have hk : k = 0 := by
        by_contra hk
        obtain ⟨j, rfl⟩ := Nat.exists_eq_succ_of_ne_zero hk
        simp only [List.getElem?_cons_succ] at h1
        have hb := (List.pairwise_cons.1 hs').1 x0 (List.mem_of_getElem? h1)
        exact absurd (h5.trans hx) (not_le.2 hb)
      subst hk
      simp only [List.getElem?_cons_zero, Option.some.injEq] at h1 h3
      subst h1 h3
      have : x = b := le_antisymm hx h5
      subst this
      simp only [interpSeg, if_pos (Or.inl hx)]
      have : x - a ≠ 0 := (sub_pos.2 hab).ne'
      field_simp
      ring
    · have hne : xx ≠ [] := by
        rintro rfl
        simp at h2
      simp only [interpSeg, if_neg (not_or.2 ⟨hx, hne⟩)]
      exact interpSeg_on k hs' (by simpa using hl) h1 h2 h3 h4 h5 h6

/-- Interpolation of sorted values is monotone. -/
theorem interpSeg_mono : ∀ {xx pp : List K}, xx.Pairwise (· < ·) → xx.length = pp.length →
    pp.Pairwise (· ≤ ·) → 2 ≤ xx.length → ∀ {x y : K}, xx.headD 0 ≤ x → x ≤ y →
    pp.headD 0 ≤ interpSeg xx pp x ∧ interpSeg xx pp x ≤ interpSeg xx pp y ∧
      (x ≤ xx.getLastD 0 → interpSeg xx pp x ≤ pp.getLastD 0)
  | [], _, _, _, _, h, _, _, _, _ => by simp at h
  | [_], _, _, _, _, h, _, _, _, _ => by simp at h
  | _ :: _ :: _, [], _, h, _, _, _, _, _, _ => by simp at h
  | _ :: _ :: _, [_], _, h, _, _, _, _, _, _ => by simp at h
  | a :: b :: xx, c :: d :: pp, hs, hl, hp, h2, x, y, hx, hxy => by
    have hs' := (List.pairwise_cons.1 hs).2
    have hp' := (List.pairwise_cons.1 hp).2
    have hab : a < b := (List.pairwise_cons.1 hs).1 b (by simp)
    have hcd : c ≤ d := (List.pairwise_cons.1 hp).1 d (by simp)
    have hax : a ≤ x := hx
    have hw : 0 < b - a := sub_pos.2 hab
    have hsl : 0 ≤ (d - c) / (b - a) := div_nonneg (sub_nonneg.2 hcd) hw.le
    have hdl : d ≤ (d :: pp).getLastD 0 := by
      rcases pp with _ | ⟨e, pp⟩
      · simp
      · have := (List.pairwise_cons.1 hp').1 ((e :: pp).getLast (by simp)) (List.getLast_mem _)
        simpa [List.getLastD_eq_getLast?, List.getLast?_eq_getLast_of_ne_nil] using this
    have e1 : (a :: b :: xx).getLastD 0 = (b :: xx).getLastD 0 := by simp
    have e2 : (c :: d :: pp).getLastD 0 = (d :: pp).getLastD 0 := by simp
    rw [e1, e2]
    have lin : ∀ z, a ≤ z → z ≤ b → c + (d - c) / (b - a) * (z - a) ≤ d := by
      intro z h1 h2
      have : (d - c) / (b - a) * (z - a) ≤ (d - c) / (b - a) * (b - a) :=
        mul_le_mul_of_nonneg_left (by linarith) hsl
      rw [div_mul_cancel₀ _ hw.ne'] at this
      linarith
    by_cases hxx : xx = []
    · subst hxx
      have hl' : pp = [] := by simpa using hl
      subst hl'
      simp only [interpSeg, or_true, if_true, List.headD_cons]
      refine ⟨?_, ?_, ?_⟩
      · have := mul_nonneg hsl (sub_nonneg.2 hax)
        linarith
      · have := mul_le_mul_of_nonneg_left (sub_le_sub_right hxy a) hsl
        linarith
      · intro h
        have h' : x ≤ b := by simpa using h
        have := lin x hax h'
        simpa using this
    · have h2' : 2 ≤ (b :: xx).length := by
        rcases xx with _ | ⟨_, _⟩
        · exact absurd rfl hxx
        · simp
      have ih := @interpSeg_mono (b :: xx) (d :: pp) hs' (by simpa using hl) hp' h2'
      by_cases hxb : x ≤ b
      · have hlx : interpSeg (a :: b :: xx) (c :: d :: pp) x = c + (d - c) / (b - a) * (x - a) := by
          simp only [interpSeg, if_pos (Or.inl hxb)]
        rw [hlx]
        refine ⟨?_, ?_, fun _ => (lin x hax hxb).trans hdl⟩
        · have := mul_nonneg hsl (sub_nonneg.2 hax)
          simp only [List.headD_cons]
          linarith
        · by_cases hyb : y ≤ b
          · simp only [interpSeg, if_pos (Or.inl hyb)]
            have := mul_le_mul_of_nonneg_left (sub_le_sub_right hxy a) hsl
            linarith
          · simp only [interpSeg, if_neg (not_or.2 ⟨hyb, hxx⟩)]
            exact (lin x hax hxb).trans (ih (x := y) (y := y) (not_le.1 hyb).le le_rfl).1
      · have hyb : ¬ y ≤ b := fun h => hxb (hxy.trans h)
        simp only [interpSeg, if_neg (not_or.2 ⟨hxb, hxx⟩), if_neg (not_or.2 ⟨hyb, hxx⟩)]
        obtain ⟨i1, i2, i3⟩ := ih (x := x) (y := y) (not_le.1 hxb).le hxy
        exact ⟨hcd.trans i1, i2, i3⟩


theorem headD_le_of_sorted {xx : List K} (hs : xx.Pairwise (· < ·)) {k : ℕ} {x : K}
    (hx : xx[k]? = some x) : xx.headD 0 ≤ x ∧ x ≤ xx.getLastD 0 := by
  have hm := List.mem_of_getElem? hx
  constructor
  · rcases xx with _ | ⟨a, xx⟩
    · simp at hx
    · rcases List.mem_cons.1 hm with rfl | hm
      · simp
      · exact ((List.pairwise_cons.1 hs).1 x hm).le
  · rw [List.getLastD_eq_getLast?]
    rcases List.eq_nil_or_concat xx with rfl | ⟨l, b, rfl⟩
    · simp at hx
    · rw [List.concat_eq_append] at *
      rw [List.getLast?_concat, Option.getD_some]
      rw [List.pairwise_append] at hs
      rcases List.mem_append.1 hm with hm | hm
      · exact (hs.2.2 x hm b (by simp)).le
      · simp only [List.mem_singleton] at hm
        exact hm.le

/-- At nodes, given values are found. -/
theorem interp1d_node {xx pp : List K} {lo hi : K} (hs : xx.Pairwise (· < ·))
    (hl : xx.length = pp.length) (h2 : 2 ≤ xx.length) {k : ℕ} {x p : K} (hx : xx[k]? = some x)
    (hp : pp[k]? = some p) : interp1d xx pp lo hi x = p := by
  obtain ⟨b1, b2⟩ := headD_le_of_sorted hs hx
  rw [interp1d, if_neg (not_lt.2 b1), if_neg (not_lt.2 b2)]
  obtain ⟨k1, e1⟩ := List.getElem?_eq_some_iff.1 hx
  obtain ⟨k2, e2⟩ := List.getElem?_eq_some_iff.1 hp
  by_cases hk : k + 1 < xx.length
  · have hlt : x < xx[k + 1] := by
      rw [← e1]
      exact List.pairwise_iff_getElem.1 hs _ _ k1 hk (by omega)
    rw [interpSeg_on k hs hl hx (List.getElem?_eq_getElem hk) hp
      (List.getElem?_eq_getElem (l := pp) (by omega)) le_rfl hlt.le]
    simp
  · obtain ⟨j, rfl⟩ : ∃ j, k = j + 1 := ⟨k - 1, by omega⟩
    have hj : j < xx.length := by omega
    have hlt : xx[j] < x := by
      rw [← e1]
      exact List.pairwise_iff_getElem.1 hs _ _ hj k1 (by omega)
    rw [interpSeg_on j hs hl (List.getElem?_eq_getElem hj) hx
      (List.getElem?_eq_getElem (l := pp) (by omega)) hp hlt.le le_rfl,
      div_mul_cancel₀ _ (sub_pos.2 hlt).ne']
    ring

/-- Between nodes, the interpolating function is affine. -/
theorem interp1d_affine {xx pp : List K} {lo hi : K} (hs : xx.Pairwise (· < ·))
    (hl : xx.length = pp.length) {k : ℕ} {a b : K} (ha : xx[k]? = some a)
    (hb : xx[k + 1]? = some b) {s : K} (h0 : 0 ≤ s) (h1 : s ≤ 1) :
    interp1d xx pp lo hi (a + s * (b - a)) =
      interp1d xx pp lo hi a + s * (interp1d xx pp lo hi b - interp1d xx pp lo hi a) := by
  obtain ⟨k1, e1⟩ := List.getElem?_eq_some_iff.1 ha
  obtain ⟨k2, e2⟩ := List.getElem?_eq_some_iff.1 hb
  have hlt : a < b := by
    rw [← e1, ← e2]
    exact List.pairwise_iff_getElem.1 hs _ _ k1 k2 (by omega)
  have hp1 := List.getElem?_eq_getElem (l := pp) (i := k) (by omega)
  have hp2 := List.getElem?_eq_getElem (l := pp) (i := k + 1) (by omega)
  have hsb := mul_nonneg h0 (sub_pos.2 hlt).le
  have hsb' : s * (b - a) ≤ b - a := mul_le_of_le_one_left (sub_pos.2 hlt).le h1
  have l1 : a ≤ a + s * (b - a) := by linarith
  have l2 : a + s * (b - a) ≤ b := by linarith
  have c1 := headD_le_of_sorted hs ha
  have c2 := headD_le_of_sorted hs hb
  rw [interp1d_node hs hl (by omega) ha hp1, interp1d_node hs hl (by omega) hb hp2, interp1d,
    if_neg (not_lt.2 (c1.1.trans l1)), if_neg (not_lt.2 (l2.trans c2.2)),
    interpSeg_on k hs hl ha hb hp1 hp2 l1 l2, add_sub_cancel_left]
  have := (sub_pos.2 hlt).ne'
  field_simp

/-- Interpolation of sorted values, filled with the extreme ones, is monotone. -/
theorem interp1d_mono {xx pp : List K} {lo hi : K} (hs : xx.Pairwise (· < ·))
    (hl : xx.length = pp.length) (h2 : 2 ≤ xx.length) (hp : pp.Pairwise (· ≤ ·))
    (hlo : lo ≤ pp.headD 0) (hhi : pp.getLastD 0 ≤ hi) : Monotone (interp1d xx pp lo hi) := by
  intro x y hxy
  unfold interp1d
  have hlast : xx.headD 0 ≤ xx.getLastD 0 := by
    have h := headD_le_of_sorted hs (List.getElem?_eq_getElem (l := xx) (i := 0) (by omega))
    exact h.1.trans h.2
  by_cases h1 : x < xx.headD 0
  · rw [if_pos h1]
    by_cases h3 : y < xx.headD 0
    · rw [if_pos h3]
    · rw [if_neg h3]
      have m := interpSeg_mono hs hl hp h2 (x := y) (y := y) (not_lt.1 h3) le_rfl
      by_cases h4 : xx.getLastD 0 < y
      · rw [if_pos h4]
        have m' := interpSeg_mono hs hl hp h2 (x := xx.getLastD 0) (y := xx.getLastD 0)
          hlast le_rfl
        exact hlo.trans (m'.1.trans ((m'.2.2 le_rfl).trans hhi))
      · rw [if_neg h4]
        exact hlo.trans m.1
  · have h3 : ¬ y < xx.headD 0 := fun h => h1 (hxy.trans_lt h)
    rw [if_neg h1, if_neg h3]
    have m := interpSeg_mono hs hl hp h2 (x := x) (y := y) (not_lt.1 h1) hxy
    by_cases h4 : xx.getLastD 0 < x
    · rw [if_pos h4, if_pos (h4.trans_le hxy)]
    · rw [if_neg h4]
      by_cases h5 : xx.getLastD 0 < y
      · rw [if_pos h5]
        exact (m.2.2 (not_lt.1 h4)).trans hhi
      · rw [if_neg h5]
        exact m.2.1

/-- Interpolation of values that are not negative is not negative. -/
theorem interp1d_nonneg {xx pp : List K} {lo hi : K} (hs : xx.Pairwise (· < ·))
    (hl : xx.length = pp.length) (h2 : 2 ≤ xx.length) (hp : ∀ p ∈ pp, 0 ≤ p) (hlo : 0 ≤ lo)
    (hhi : 0 ≤ hi) (x : K) : 0 ≤ interp1d xx pp lo hi x := by
  by_cases h1 : x < xx.headD 0
  · rw [interp1d, if_pos h1]; exact hlo
  by_cases h3 : xx.getLastD 0 < x
  · rw [interp1d, if_neg h1, if_pos h3]; exact hhi
  have key : ∃ k a b, xx[k]? = some a ∧ xx[k + 1]? = some b ∧ a ≤ x ∧ x ≤ b := by
    clear hl hp
    rw [not_lt] at h1 h3
    induction xx with
    | nil => simp at h2
    | cons a xx ih =>
      rcases xx with _ | ⟨b, xx⟩
      · simp at h2
      · by_cases hb : x ≤ b
        · exact ⟨0, a, b, rfl, rfl, h1, hb⟩
        · rcases xx with _ | ⟨c, xx⟩
          · simp only [List.getLastD_cons, List.getLastD_nil] at h3
            exact absurd h3 hb
          · obtain ⟨k, a', b', q1, q2, q3, q4⟩ := ih (List.pairwise_cons.1 hs).2 (by simp)
              (not_le.1 hb).le (by simpa using h3)
            exact ⟨k + 1, a', b', q1, q2, q3, q4⟩
  obtain ⟨k, a, b, ha, hb, hax, hxb⟩ := key
  obtain ⟨k1, e1⟩ := List.getElem?_eq_some_iff.1 ha
  obtain ⟨k2, e2⟩ := List.getElem?_eq_some_iff.1 hb
  have hlt : a < b := by
    rw [← e1, ← e2]
    exact List.pairwise_iff_getElem.1 hs _ _ k1 k2 (by omega)
  have hp1 := List.getElem?_eq_getElem (l := pp) (i := k) (by omega)
  have hp2 := List.getElem?_eq_getElem (l := pp) (i := k + 1) (by omega)
  have hw := sub_pos.2 hlt
  have hx : x = a + (x - a) / (b - a) * (b - a) := by rw [div_mul_cancel₀ _ hw.ne']; ring
  have s0 : 0 ≤ (x - a) / (b - a) := div_nonneg (by linarith) hw.le
  have s1 : (x - a) / (b - a) ≤ 1 := by rw [div_le_one hw]; linarith
  rw [hx, interp1d_affine hs hl ha hb s0 s1, interp1d_node hs hl h2 ha hp1,
    interp1d_node hs hl h2 hb hp2]
  have n1 := hp _ (List.getElem_mem (l := pp) (n := k) (by omega))
  have n2 := hp _ (List.getElem_mem (l := pp) (n := k + 1) (by omega))
  have := mul_nonneg s0 n2
  have := mul_nonneg (sub_nonneg.2 s1) n1
  linarith

/-! ### Method 'interp' -/

theorem cumsumFrom_getElem? (S : K) : ∀ (counts : List ℤ) (a : K) (k : ℕ), k ≤ counts.length →
    (a :: cumsumFrom a (counts.map fun c : ℤ => (c : K) / S))[k]? =
      some (a + ((counts.take k).sum : ℤ) / S)
  | counts, a, 0, _ => by simp
  | [], a, k + 1, h => by simp at h
  | c :: cs, a, k + 1, h => by
    rw [List.getElem?_cons_succ, List.map_cons, cumsumFrom,
      cumsumFrom_getElem? S cs _ k (by simpa using h)]
    simp only [List.take_succ_cons, List.sum_cons, Int.cast_add, Option.some.injEq]
    ring

theorem cumsumFrom_length (l : List K) (a : K) : (cumsumFrom a l).length = l.length := by
  induction l generalizing a with
  | nil => rfl
  | cons b l ih => simp [cumsumFrom, ih]

theorem cumsumFrom_sorted {l : List K} (h : ∀ b ∈ l, 0 ≤ b) (a : K) :
    (a :: cumsumFrom a l).Pairwise (· ≤ ·) := by
  induction l generalizing a with
  | nil => simp [cumsumFrom]
  | cons b l ih =>
    have ih' := ih (fun x hx => h x (by simp [hx])) (a + b)
    have hb := h b (by simp)
    rw [cumsumFrom, List.pairwise_cons]
    refine ⟨fun y hy => ?_, ih'⟩
    rcases List.mem_cons.1 hy with rfl | hy
    · linarith
    · have := (List.pairwise_cons.1 ih').1 y hy
      linarith

/-- The cdf by method 'interp'. The function is non decreasing, zero up to the first edge, one from
the last edge on; at edges it is the cumulated frequency of the bins below, and it is affine between
edges. -/
theorem interp_cdf {counts : List ℤ} {edges n : List K} (h : GoodHist counts edges)
    (hn : densities counts edges = some n) :
    Monotone (interpCdf n edges) ∧ (∀ x ≤ edges.headD 0, interpCdf n edges x = 0) ∧
    (∀ x, edges.getLastD 0 ≤ x → interpCdf n edges x = 1) ∧
    (∀ k e, edges[k]? = some e → interpCdf n edges e = cumFreq counts k) ∧
    ∀ k a b s, edges[k]? = some a → edges[k + 1]? = some b → 0 ≤ s → s ≤ 1 →
      interpCdf n edges (a + s * (b - a)) =
        interpCdf n edges a + s * (interpCdf n edges b - interpCdf n edges a) := by
  rw [densities_good h, Option.some.injEq] at hn
  have hdl : (diffs edges).length = counts.length := by rw [diffs_length, h.len]; rfl
  have hS : (0 : K) < (counts.sum : ℤ) := by exact_mod_cast h.pos
  have e1 : ∀ x, interpCdf n edges x = interp1d edges
      (0 :: cumsumFrom 0 (counts.map fun c : ℤ => (c : K) / (counts.sum : ℤ))) 0 1 x := fun x => by
    rw [interpCdf, ← hn, widths_densities _ (diffs_pos h.sorted) hdl]
  have e2 : interpCdf n edges = interp1d edges
      (0 :: cumsumFrom 0 (counts.map fun c : ℤ => (c : K) / (counts.sum : ℤ))) 0 1 := funext e1
  have hcne : counts ≠ [] := by rintro rfl; exact absurd h.pos (by simp)
  have hcl : 0 < counts.length := List.length_pos_of_ne_nil hcne
  have hl : edges.length =
      (0 :: cumsumFrom 0 (counts.map fun c : ℤ => (c : K) / (counts.sum : ℤ))).length := by
    simp [cumsumFrom_length, h.len]
  have h2 : 2 ≤ edges.length := by rw [h.len]; omega
  have hnode : ∀ k e, edges[k]? = some e → interpCdf n edges e = cumFreq counts k := by
    intro k e he
    obtain ⟨hk, -⟩ := List.getElem?_eq_some_iff.1 he
    rw [e1, interp1d_node h.sorted hl h2 he
      (cumsumFrom_getElem? _ counts 0 k (by rw [h.len] at hk; omega)), cumFreq, zero_add]
  have hsort : (0 :: cumsumFrom 0 (counts.map fun c : ℤ => (c : K) / (counts.sum : ℤ))).Pairwise
      (· ≤ ·) := by
    refine cumsumFrom_sorted (fun b hb => ?_) 0
    obtain ⟨c, hc, rfl⟩ := List.mem_map.1 hb
    have : (0 : K) ≤ (c : ℤ) := by exact_mod_cast h.nonneg c hc
    exact div_nonneg this hS.le
  have hlastv : (0 :: cumsumFrom 0 (counts.map fun c : ℤ => (c : K) / (counts.sum : ℤ))).getLastD 0
      = 1 := by
    have := cumsumFrom_getElem? ((counts.sum : ℤ) : K) counts 0 counts.length le_rfl
    rw [List.take_length, zero_add, div_self hS.ne'] at this
    rw [List.getLastD_eq_getLast?, List.getLast?_eq_getElem?, ← hl, h.len, Nat.add_sub_cancel, this,
      Option.getD_some]
  refine ⟨?_, ?_, ?_, hnode, ?_⟩
  · rw [e2]
    exact interp1d_mono h.sorted hl h2 hsort (by simp) (by rw [hlastv])
  · intro x hx
    rcases lt_or_eq_of_le hx with hx | rfl
    · rw [e1, interp1d, if_pos hx]
    · rw [hnode 0 _ (by rw [List.headD_eq_head?_getD, ← List.head?_eq_getElem?,
        List.head?_eq_getElem?, List.getElem?_eq_getElem (l := edges) (by omega)]; rfl)]
      simp [cumFreq]
  · intro x hx
    rcases lt_or_eq_of_le hx with hx | rfl
    · have hf := (headD_le_of_sorted h.sorted (List.getElem?_eq_getElem (l := edges) (i := 0) (by omega)))
      rw [e1, interp1d, if_neg (not_lt.2 ((hf.1.trans hf.2).trans hx.le)), if_pos hx]
    · rw [hnode counts.length _ (by rw [List.getLastD_eq_getLast?, List.getLast?_eq_getElem?, h.len,
        Nat.add_sub_cancel, List.getElem?_eq_getElem (l := edges) (by rw [h.len]; omega)]; rfl),
        cumFreq, List.take_length, div_self hS.ne']
  · intro k a b s ha hb h0 h1
    simp only [e1]
    exact interp1d_affine h.sorted hl ha hb h0 h1

theorem midpoints_getElem {edges : List K} {i : ℕ} (hi : i < (midpoints edges).length) :
    (midpoints edges)[i] = (edges[i]'(by rw [midpoints_length] at hi; omega) +
      edges[i + 1]'(by rw [midpoints_length] at hi; omega)) / 2 := by
  simp [midpoints]

/-- Nodes of the 'interp' pdf are in order. -/
theorem nodes_sorted {edges : List K} (hs : edges.Pairwise (· < ·)) (h2 : 2 ≤ edges.length) :
    (edges.headD 0 :: midpoints edges ++ [edges.getLastD 0]).Pairwise (· < ·) := by
  have lt' : ∀ i j (hi : i < edges.length) (hj : j < edges.length), i < j → edges[i] < edges[j] :=
    fun i j hi hj hij => List.pairwise_iff_getElem.1 hs i j hi hj hij
  have hm1 : ∀ m ∈ midpoints edges, edges.headD 0 < m ∧ m < edges.getLastD 0 := by
    intro m hm
    obtain ⟨i, hi, rfl⟩ := List.getElem_of_mem hm
    rw [midpoints_getElem hi]
    rw [midpoints_length] at hi
    have a1 := headD_le_of_sorted hs (List.getElem?_eq_getElem (l := edges) (i := i) (by omega))
    have a2 := headD_le_of_sorted hs (List.getElem?_eq_getElem (l := edges) (i := i + 1) (by omega))
    have a3 := lt' i (i + 1) (by omega) (by omega) (by omega)
    constructor <;> linarith
  have hhl : edges.headD 0 < edges.getLastD 0 := by
    have a1 := headD_le_of_sorted hs (List.getElem?_eq_getElem (l := edges) (i := 0) (by omega))
    have a2 := headD_le_of_sorted hs (List.getElem?_eq_getElem (l := edges) (i := 1) (by omega))
    have a3 := lt' 0 1 (by omega) (by omega) (by omega)
    linarith
  rw [List.cons_append, List.pairwise_cons, List.pairwise_append]
  refine ⟨?_, ?_, List.pairwise_singleton _ _, ?_⟩
  · intro y hy
    rcases List.mem_append.1 hy with hy | hy
    · exact (hm1 y hy).1
    · simp only [List.mem_singleton] at hy
      rw [hy]; exact hhl
  · rw [List.pairwise_iff_getElem]
    intro i j hi hj hij
    rw [midpoints_getElem hi, midpoints_getElem hj]
    rw [midpoints_length] at hi hj
    have a1 := lt' i j (by omega) (by omega) hij
    have a2 := lt' (i + 1) (j + 1) (by omega) (by omega) (by omega)
    linarith
  · intro m hm b hb
    simp only [List.mem_singleton] at hb
    rw [hb]; exact (hm1 m hm).2

/-- The pdf by method 'interp'. The function is not negative, zero at the first and last edge and
outside of them; at the midpoint of each bin it is the fraction of counted values found in the bin,
divided by the width of the bin; and it is affine between consecutive points of the list given by the
first edge, midpoints, the last edge. -/
theorem interp_pdf {counts : List ℤ} {edges n : List K} (h : GoodHist counts edges)
    (hn : densities counts edges = some n) :
    (∀ x, 0 ≤ interpPdf n edges x) ∧ (∀ x ≤ edges.headD 0, interpPdf n edges x = 0) ∧
    (∀ x, edges.getLastD 0 ≤ x → interpPdf n edges x = 0) ∧
    (∀ (k : ℕ) a b (c : ℤ), edges[k]? = some a → edges[k + 1]? = some b → counts[k]? = some c →
      interpPdf n edges ((a + b) / 2) = (c : K) / (counts.sum : ℤ) / (b - a)) ∧
    ∀ (k : ℕ) a b s, (edges.headD 0 :: midpoints edges ++ [edges.getLastD 0])[k]? = some a →
      (edges.headD 0 :: midpoints edges ++ [edges.getLastD 0])[k + 1]? = some b → 0 ≤ s → s ≤ 1 →
      interpPdf n edges (a + s * (b - a)) =
        interpPdf n edges a + s * (interpPdf n edges b - interpPdf n edges a) := by
  rw [densities_good h, Option.some.injEq] at hn
  have hdl : (diffs edges).length = counts.length := by rw [diffs_length, h.len]; rfl
  have hS : (0 : K) < (counts.sum : ℤ) := by exact_mod_cast h.pos
  have hcne : counts ≠ [] := by rintro rfl; exact absurd h.pos (by simp)
  have hcl : 0 < counts.length := List.length_pos_of_ne_nil hcne
  have h2 : 2 ≤ edges.length := by rw [h.len]; omega
  have hnl : n.length = counts.length := by rw [← hn]; simp [hdl]
  have hml : (midpoints edges).length = counts.length := by rw [midpoints_length, h.len]; rfl
  have hsort := nodes_sorted h.sorted h2
  have hl : (edges.headD 0 :: midpoints edges ++ [edges.getLastD 0]).length =
      (0 :: n ++ [(0 : K)]).length := by simp [hml, hnl]
  have h2' : 2 ≤ (edges.headD 0 :: midpoints edges ++ [edges.getLastD 0]).length := by simp
  have hn0 : ∀ p ∈ n, 0 ≤ p := by
    intro p hp
    rw [← hn] at hp
    obtain ⟨i, hi, rfl⟩ := List.getElem_of_mem hp
    simp only [List.getElem_zipWith]
    have h1 := diffs_pos h.sorted _ (List.getElem_mem (l := diffs edges) (n := i) (by simp at hi; omega))
    have h2 := h.nonneg _ (List.getElem_mem (l := counts) (n := i) (by simp at hi; omega))
    have h3 : (0 : K) ≤ (counts[i]'(by simp at hi; omega) : ℤ) := by exact_mod_cast h2
    exact div_nonneg (div_nonneg h3 hS.le) h1.le
  have hlast : (edges.headD 0 :: midpoints edges ++ [edges.getLastD 0]).getLastD 0 =
      edges.getLastD 0 := by
    rw [List.getLastD_eq_getLast?, List.getLast?_concat, Option.getD_some]
  refine ⟨?_, ?_, ?_, ?_, ?_⟩
  · refine interp1d_nonneg hsort hl h2' ?_ le_rfl le_rfl
    intro p hp
    simp only [List.cons_append, List.mem_cons, List.mem_append, List.not_mem_nil, or_false] at hp
    rcases hp with rfl | hp | rfl
    · exact le_rfl
    · exact hn0 p hp
    · exact le_rfl
  · intro x hx
    rcases lt_or_eq_of_le hx with hx | rfl
    · rw [interpPdf, interp1d, if_pos (by simpa using hx)]
    · exact interp1d_node (k := 0) hsort hl h2' rfl rfl
  · intro x hx
    rcases lt_or_eq_of_le hx with hx | rfl
    · have hf := (headD_le_of_sorted h.sorted (List.getElem?_eq_getElem (l := edges) (i := 0) (by omega)))
      rw [interpPdf, interp1d, if_neg, if_pos (by rw [hlast]; exact hx)]
      rw [List.cons_append, List.headD_cons]
      exact not_lt.2 ((hf.1.trans hf.2).trans hx.le)
    · refine interp1d_node (k := counts.length + 1) hsort hl h2' ?_ ?_
      · rw [List.cons_append, List.getElem?_cons_succ, ← hml, List.getElem?_concat_length]
      · rw [List.cons_append, List.getElem?_cons_succ, ← hnl, List.getElem?_concat_length]
  · intro k a b c ha hb hc
    obtain ⟨k1, e1⟩ := List.getElem?_eq_some_iff.1 ha
    obtain ⟨k2, e2⟩ := List.getElem?_eq_some_iff.1 hb
    obtain ⟨k3, e3⟩ := List.getElem?_eq_some_iff.1 hc
    refine interp1d_node (k := k + 1) hsort hl h2' ?_ ?_
    · rw [List.cons_append, List.getElem?_cons_succ, List.getElem?_append_left (by omega),
        List.getElem?_eq_getElem (by omega), midpoints_getElem (by omega), e1, e2]
    · rw [List.cons_append, List.getElem?_cons_succ, List.getElem?_append_left (by omega),
        List.getElem?_eq_getElem (by omega)]
      subst hn
      simp only [List.getElem_zipWith, e3, Option.some.injEq]
      simp [diffs, e1, e2]
  · intro k a b s ha hb h0 h1
    exact interp1d_affine hsort hl ha hb h0 h1


/-! ### Histograms of cumulated data -/

theorem uniformEdges_strict {n : ℤ} {range : Option (K × K)} {x e : List K}
    (h : uniformEdges n range x = .ok e) :
    ∃ a b, a < b ∧ (∃ m, e = a :: m ++ [b]) ∧ e.Pairwise (· < ·) ∧
      a ≤ (range.getD (sampleRange x)).1 ∧ (range.getD (sampleRange x)).2 ≤ b := by
  unfold uniformEdges at h
  split at h
  · cases h
  · next hn =>
    simp only at h
    split at h
    · cases h
    · next hr =>
      obtain ⟨m, rfl⟩ : ∃ m : ℕ, n = ((m + 1 : ℕ) : ℤ) := ⟨(n - 1).toNat, by omega⟩
      have key : ∃ a b, a < b ∧ a ≤ (range.getD (sampleRange x)).1 ∧
          (range.getD (sampleRange x)).2 ≤ b ∧
          e = (List.range (m + 1 + 1)).map fun k : ℕ => a + (k : K) * (b - a) / ((m + 1 : ℕ) : K) := by
        simp only [Except.ok.injEq] at h
        by_cases he : (range.getD (sampleRange x)).1 = (range.getD (sampleRange x)).2
        · rw [if_pos he] at h
          refine ⟨(range.getD (sampleRange x)).1 - 1 / 2, (range.getD (sampleRange x)).2 + 1 / 2,
            ?_, ?_, ?_, ?_⟩
          · rw [he]; linarith
          · linarith
          · linarith
          · rw [← h]
            simp only [Int.toNat_natCast, Int.cast_natCast]
        · rw [if_neg he] at h
          refine ⟨_, _, lt_of_le_of_ne (not_lt.1 hr) he, le_rfl, le_rfl, ?_⟩
          rw [← h]
          simp only [Int.toNat_natCast, Int.cast_natCast]
      obtain ⟨a, b, hab, h1, h2, rfl⟩ := key
      have hm : (0 : K) < ((m + 1 : ℕ) : K) := by exact_mod_cast Nat.succ_pos m
      refine ⟨a, b, hab, ⟨(List.range m).map fun k : ℕ =>
        a + ((k + 1 : ℕ) : K) * (b - a) / ((m + 1 : ℕ) : K), ?_⟩, ?_, h1, h2⟩
      · rw [List.range_succ, List.map_append, List.range_succ_eq_map]
        simp only [List.map_cons, List.map_map, List.map_nil, Nat.cast_zero, zero_mul, zero_div,
          add_zero, Function.comp_def, Nat.succ_eq_add_one, List.cons_append, List.cons.injEq,
          true_and, List.append_cancel_left_eq, and_true]
        field_simp
        ring
      · rw [List.pairwise_map]
        refine List.pairwise_lt_range.imp fun {i j} hij => ?_
        have hij' : (i : K) < j := by exact_mod_cast hij
        have := div_lt_div_of_pos_right (mul_lt_mul_of_pos_right hij' (sub_pos.2 hab)) hm
        linarith

theorem hist_length (e l : List K) : (hist e l).length = e.length - 1 := by simp [hist]

theorem hist_nonneg (e l : List K) : ∀ c ∈ hist e l, 0 ≤ c := by
  intro c hc
  obtain ⟨j, -, rfl⟩ := List.mem_map.1 hc
  exact Int.natCast_nonneg _

theorem foldl_min_le (xs : List K) : ∀ a, xs.foldl min a ≤ a := by
  induction xs with
  | nil => intro a; exact le_rfl
  | cons b xs ih => intro a; exact (ih _).trans (min_le_left _ _)

theorem le_foldl_max (xs : List K) : ∀ a, a ≤ xs.foldl max a := by
  induction xs with
  | nil => intro a; exact le_rfl
  | cons b xs ih => intro a; exact (le_max_left _ _).trans (ih _)

/-- **C39** (applicability). A single valued instance with a given number of bins and no range, once it
has received data, has a histogram with strictly increasing edges that counts at least one value, so
that what follows applies to it. -/
theorem C39_default {auto : String → Option (K × K) → List K → Py (List K)} (ha : AutoOk auto) {n : ℤ}
    {use : String} {vs : List ℕ} (hvs : ndindex vs = [c]) {b0 : Batch K} {l : List (Batch K)}
    {mc : MC K} (h : McHistory auto (.int n) none use (b0 :: l) mc) (hu : Uniform vs (b0 :: l))
    (hne : b0.data use c ≠ []) :
    ∃ counts edges, mc.histogram = .ok (counts, edges) ∧ GoodHist counts edges := by
  have hc : InRange vs c := mem_ndindex.1 (by rw [hvs]; simp)
  have p1 : mc.paths = (pooled use (b0 :: l) c).length := by
    obtain ⟨_, -, -, hm⟩ := (mc_inv ha h hu).stats
    exact (hm.size c hc).symm
  obtain ⟨x, xs, hx⟩ := List.exists_cons_of_ne_nil hne
  have hpool : pooled use (b0 :: l) c = x :: (xs ++ pooled use l c) := by
    simp [pooled, hx]
  have hpos : mc.paths ≠ 0 := by rw [p1, hpool]; simp
  obtain ⟨e, he, hh, -⟩ := C36_single ha (by simp) hvs h hu hpos
  obtain ⟨a, b, hab, ⟨m, hm⟩, hs, r1, r2⟩ := uniformEdges_strict (uniformEdges_iff.2 he)
  refine ⟨_, e, hh, hs, by rw [hist_length, hm]; simp, hist_nonneg _ _, ?_⟩
  obtain ⟨E, g, g1, g2⟩ := C36_histogram ha (by simp) h hu
  obtain ⟨q1, q2, q3, q4⟩ := g2 c hc
  have hE : E c = e := EvenEdges.unique q2 he
  rw [hE] at q1 q3
  have ho := C36_outpaths ha (by simp) h hu hc g1 (by rw [q1, hm])
  rw [q3, ho, p1] at q4
  have hlt : (pooled use (b0 :: l) c).countP (fun v => decide (v < a ∨ b < v)) <
      (pooled use (b0 :: l) c).length := by
    rw [hpool, List.countP_cons_of_neg, List.length_cons]
    · exact Nat.lt_succ_of_le List.countP_le_length
    · simp only [Option.getD_none, hx, sampleRange] at r1 r2
      have := foldl_min_le xs x
      have := le_foldl_max xs x
      simp only [decide_eq_true_eq, not_or, not_lt]
      constructor <;> linarith
  omega

/-- **C36**: `outerr()` is the fraction of data that are below the first edge, or above the last
one. -/
theorem C36_outerr {auto : String → Option (K × K) → List K → Py (List K)} (ha : AutoOk auto)
    {bins : Bins K} (hb : bins ≠ .none) {range : Option (K × K)} {use : String} {vs : List ℕ}
    (hvs : ndindex vs = [c]) {b0 : Batch K} {l : List (Batch K)}
    {mc : MC K} (h : McHistory auto bins range use (b0 :: l) mc) (hu : Uniform vs (b0 :: l))
    {counts : List ℤ} {a b : K} {m : List K} (hh : mc.histogram = .ok (counts, a :: m ++ [b])) :
    ∃ o, mc.outerr = .ok o ∧ o.shape = vs ∧
      o.get c = ((pooled use (b0 :: l) c).countP fun v => v < a ∨ b < v : ℕ) /
        ((pooled use (b0 :: l) c).length : K) := by
  have hc : InRange vs c := mem_ndindex.1 (by rw [hvs]; simp)
  have p1 : mc.paths = (pooled use (b0 :: l) c).length := by
    obtain ⟨_, -, -, hm⟩ := (mc_inv ha h hu).stats
    exact (hm.size c hc).symm
  obtain ⟨E, g, g1, g2⟩ := C36_histogram ha hb h hu
  obtain ⟨q1, -, -, -⟩ := g2 c hc
  have hE : g c = some (a :: m ++ [b]) := by
    rw [MC.histogram, g1] at hh
    simp only [hvs] at hh
    split at hh
    · cases hh
    · simp only [Except.ok.injEq, Prod.mk.injEq, q1, Option.getD_some] at hh
      rw [q1, hh.2]
  have ho := C36_outpaths ha hb h hu hc g1 hE
  refine ⟨⟨vs, fun i => (mc.outside i : K) / mc.paths⟩, ?_, rfl, ?_⟩
  · simp only [MC.outerr, MC.outpaths, hh, g1]
  · simp only [ho, p1]
    push_cast
    rfl

end field


section real

open Real MeasureTheory Set

/-- Normal density with mean `m` and standard deviation `w`. -/
noncomputable def Spec.gauss (m w x : ℝ) : ℝ := exp (-((x - m) / w) ^ 2 / 2) / (w * √(2 * π))

theorem gauss_eq (m w x : ℝ) : gauss m w x = normPdf ((x - m) / w) / w := by
  unfold gauss normPdf
  rw [div_div, mul_comm w, sq]

theorem sum_map_range (f : ℕ → ℝ) (n : ℕ) : ((List.range n).map f).sum = ∑ k ∈ Finset.range n, f k := by
  induction n with
  | zero => simp
  | succ n ih => rw [List.range_succ, Finset.sum_range_succ]; simp [ih]

/-- Frequency, midpoint and width of bin `k`. -/
noncomputable def Spec.binFreq (counts : List ℤ) (k : ℕ) : ℝ := (counts.getD k 0 : ℤ) / (counts.sum : ℤ)
noncomputable def Spec.binMid (edges : List ℝ) (k : ℕ) : ℝ := (edges.getD k 0 + edges.getD (k + 1) 0) / 2
noncomputable def Spec.binWidth (edges : List ℝ) (k : ℕ) : ℝ := edges.getD (k + 1) 0 - edges.getD k 0

theorem kde_sum {counts : List ℤ} {edges n : List ℝ} (h : GoodHist counts edges)
    (hn : densities counts edges = some n) (f : ℝ → ℝ → ℝ) :
    (List.zipWith (· * ·) (List.zipWith f (diffs edges) (midpoints edges)) n).sum =
      ∑ k ∈ Finset.range counts.length,
        f (binWidth edges k) (binMid edges k) * (binFreq counts k / binWidth edges k) := by
  rw [densities_good h, Option.some.injEq] at hn
  have hdl : (diffs edges).length = counts.length := by rw [diffs_length, h.len]; rfl
  have hml : (midpoints edges).length = counts.length := by rw [midpoints_length, h.len]; rfl
  rw [← sum_map_range]
  congr 1
  subst hn
  apply List.ext_getElem
  · simp [hdl, hml]
  · intro i h1 h2
    have hi : i < counts.length := by simpa using h2
    have hi1 : i + 1 < edges.length := by rw [h.len]; omega
    have hi0 : i < edges.length := by omega
    simp [diffs, midpoints, binWidth, binMid, binFreq, hi, hi1, hi0]

theorem binWidth_pos {counts : List ℤ} {edges : List ℝ} (h : GoodHist counts edges) {k : ℕ}
    (hk : k < counts.length) : 0 < binWidth edges k := by
  have hi1 : k + 1 < edges.length := by rw [h.len]; omega
  have hi0 : k < edges.length := by omega
  simp only [binWidth, List.getD_eq_getElem?_getD, List.getElem?_eq_getElem hi1,
    List.getElem?_eq_getElem hi0, Option.getD_some, sub_pos]
  exact List.pairwise_iff_getElem.1 h.sorted _ _ _ _ (by omega)

theorem binFreq_nonneg {counts : List ℤ} {edges : List ℝ} (h : GoodHist counts edges) (k : ℕ) :
    0 ≤ binFreq counts k := by
  have hS : (0 : ℝ) < (counts.sum : ℤ) := by exact_mod_cast h.pos
  refine div_nonneg ?_ hS.le
  rw [List.getD_eq_getElem?_getD]
  by_cases hk : k < counts.length
  · rw [List.getElem?_eq_getElem hk, Option.getD_some]
    exact_mod_cast h.nonneg _ (List.getElem_mem hk)
  · rw [List.getElem?_eq_none (by omega)]; simp

theorem sum_binFreq {counts : List ℤ} {edges : List ℝ} (h : GoodHist counts edges) :
    ∑ k ∈ Finset.range counts.length, binFreq counts k = 1 := by
  have hS : (0 : ℝ) < (counts.sum : ℤ) := by exact_mod_cast h.pos
  have e : (List.range counts.length).map (fun k => binFreq counts k) =
      counts.map fun c : ℤ => (c : ℝ) / (counts.sum : ℤ) := by
    apply List.ext_getElem
    · simp
    · intro i h1 h2
      have hi : i < counts.length := by simpa using h2
      simp [binFreq, hi]
  rw [← sum_map_range, e, sum_freq, div_self hS.ne']

theorem kdePdf_eq {counts : List ℤ} {edges n : List ℝ} (h : GoodHist counts edges)
    (hn : densities counts edges = some n) {bw : ℝ} (hb : 0 < bw) (x : ℝ) :
    kdePdf bw n edges x = ∑ k ∈ Finset.range counts.length,
      binFreq counts k * gauss (binMid edges k) (bw * binWidth edges k) x := by
  rw [kdePdf, kde_sum h hn]
  refine Finset.sum_congr rfl fun k hk => ?_
  have hw := binWidth_pos h (Finset.mem_range.1 hk)
  rw [gauss_eq, normPdf]
  have e : -((x - binMid edges k) / (binWidth edges k * bw)) *
      ((x - binMid edges k) / (binWidth edges k * bw)) / 2 =
      -((x - binMid edges k) / (bw * binWidth edges k) * ((x - binMid edges k) /
        (bw * binWidth edges k))) / 2 := by
    rw [mul_comm bw]; ring
  simp only [e]
  have : 0 < √(2 * π) := by positivity
  field_simp

theorem kdeCdf_eq {counts : List ℤ} {edges n : List ℝ} (h : GoodHist counts edges)
    (hn : densities counts edges = some n) {bw : ℝ} (hb : 0 < bw) (x : ℝ) :
    kdeCdf bw n edges x = ∑ k ∈ Finset.range counts.length,
      binFreq counts k * normCdf ((x - binMid edges k) / (bw * binWidth edges k)) := by
  rw [kdeCdf, kde_sum h hn]
  refine Finset.sum_congr rfl fun k hk => ?_
  have hw := binWidth_pos h (Finset.mem_range.1 hk)
  simp only [erf_normCdf]
  rw [mul_comm (binWidth edges k) bw]
  field_simp

theorem integrable_gauss (m : ℝ) {w : ℝ} (hw : 0 < w) : Integrable (gauss m w) := by
  have : gauss m w = fun t => normPdf ((t - m) / w) / w := funext fun x => gauss_eq m w x
  rw [this]
  exact (integrable_normPdf_affine m hw.ne').div_const w

/-- **C39** (method 'gaussian_kde'). The pdf is the mixture of normal densities centered at the
midpoints of bins, with a standard deviation equal to `bandwidth` times the width of the bin, each
weighted by the fraction of counted values found in the bin. It is not negative, its integral is one,
and the cdf is its integral up to the given point. -/
theorem C39_gaussian_kde {mc : MC ℝ} {counts : List ℤ} {edges : List ℝ}
    (hh : mc.histogram = .ok (counts, edges)) (h : GoodHist counts edges) {bw : ℝ} (hb : 0 < bw) :
    ∃ f F : ℝ → ℝ,
      (∀ x, mc.pdfOrCdf x "gaussian_kde" bw false = .ok ⟨x.shape, fun i => some (f (x.get i))⟩) ∧
      (∀ x, mc.pdfOrCdf x "gaussian_kde" bw true = .ok ⟨x.shape, fun i => some (F (x.get i))⟩) ∧
      (∀ x, f x = ∑ k ∈ Finset.range counts.length,
        binFreq counts k * gauss (binMid edges k) (bw * binWidth edges k) x) ∧
      (∀ x, 0 ≤ f x) ∧ Integrable f ∧ ∫ x, f x = 1 ∧ ∀ x, F x = ∫ t in Iic x, f t := by
  have hn := densities_good h
  have hd : mc.densityHistogram = .ok (some (List.zipWith
      (fun (c : ℤ) d => (c : ℝ) / (counts.sum : ℤ) / d) counts (diffs edges)), edges) := by
    rw [MC.densityHistogram, hh]; simp only [hn]
  generalize hnn : List.zipWith (fun (c : ℤ) d => (c : ℝ) / (counts.sum : ℤ) / d) counts (diffs edges) = n
    at hn hd
  have hf : kdePdf bw n edges = fun x => ∑ k ∈ Finset.range counts.length,
      binFreq counts k * gauss (binMid edges k) (bw * binWidth edges k) x :=
    funext (kdePdf_eq h hn hb)
  have hint : ∀ k ∈ Finset.range counts.length, Integrable fun x =>
      binFreq counts k * gauss (binMid edges k) (bw * binWidth edges k) x := fun k hk =>
    (integrable_gauss _ (mul_pos hb (binWidth_pos h (Finset.mem_range.1 hk)))).const_mul _
  refine ⟨kdePdf bw n edges, kdeCdf bw n edges, fun x => ?_, fun x => ?_, kdePdf_eq h hn hb, ?_, ?_, ?_,
    ?_⟩
  · rw [MC.pdfOrCdf, hd]; simp
  · rw [MC.pdfOrCdf, hd]; simp
  · intro x
    rw [kdePdf_eq h hn hb]
    refine Finset.sum_nonneg fun k hk => mul_nonneg (binFreq_nonneg h k) ?_
    rw [gauss_eq]
    exact div_nonneg (normPdf_pos _).le (mul_pos hb (binWidth_pos h (Finset.mem_range.1 hk))).le
  · rw [hf]
    exact integrable_finset_sum _ hint
  · rw [hf, integral_finset_sum _ hint, ← sum_binFreq h]
    refine Finset.sum_congr rfl fun k hk => ?_
    rw [integral_const_mul]
    simp only [gauss_eq]
    rw [integral_normPdf_affine _ (mul_pos hb (binWidth_pos h (Finset.mem_range.1 hk))), mul_one]
  · intro x
    rw [hf, kdeCdf_eq h hn hb, integral_finset_sum _ fun k hk => (hint k hk).integrableOn]
    refine Finset.sum_congr rfl fun k hk => ?_
    rw [integral_const_mul]
    simp only [gauss_eq]
    rw [integral_Iic_normPdf_affine _ (mul_pos hb (binWidth_pos h (Finset.mem_range.1 hk)))]

/-- **C39** (method 'interp', cdf). The function is non decreasing, zero up to the first edge, one from
the last edge on; at edges it is the cumulated frequency of the bins below, and it is affine between
edges. -/
theorem C39_interp_cdf {mc : MC ℝ} {counts : List ℤ} {edges : List ℝ}
    (hh : mc.histogram = .ok (counts, edges)) (h : GoodHist counts edges) (bw : ℝ) :
    ∃ F : ℝ → ℝ,
      (∀ x, mc.pdfOrCdf x "interp" bw true = .ok ⟨x.shape, fun i => some (F (x.get i))⟩) ∧
      Monotone F ∧ (∀ x ≤ edges.headD 0, F x = 0) ∧ (∀ x, edges.getLastD 0 ≤ x → F x = 1) ∧
      (∀ k e, edges[k]? = some e → F e = cumFreq counts k) ∧
      ∀ k a b s, edges[k]? = some a → edges[k + 1]? = some b → 0 ≤ s → s ≤ 1 →
        F (a + s * (b - a)) = F a + s * (F b - F a) := by
  have hn := densities_good h
  refine ⟨interpCdf _ edges, fun x => ?_, interp_cdf h hn⟩
  rw [MC.pdfOrCdf, MC.densityHistogram, hh]
  simp only [hn]
  simp

/-- **C39** (method 'interp', pdf). The function is not negative, zero at the first and last edge and
outside of them; at the midpoint of each bin it is the fraction of counted values found in the bin,
divided by the width of the bin; and it is affine between consecutive points of the list given by the
first edge, midpoints, the last edge. -/
theorem C39_interp_pdf {mc : MC ℝ} {counts : List ℤ} {edges : List ℝ}
    (hh : mc.histogram = .ok (counts, edges)) (h : GoodHist counts edges) (bw : ℝ) :
    ∃ f : ℝ → ℝ,
      (∀ x, mc.pdfOrCdf x "interp" bw false = .ok ⟨x.shape, fun i => some (f (x.get i))⟩) ∧
      (∀ x, 0 ≤ f x) ∧ (∀ x ≤ edges.headD 0, f x = 0) ∧ (∀ x, edges.getLastD 0 ≤ x → f x = 0) ∧
      (∀ (k : ℕ) a b (c : ℤ), edges[k]? = some a → edges[k + 1]? = some b → counts[k]? = some c →
        f ((a + b) / 2) = (c : ℝ) / (counts.sum : ℤ) / (b - a)) ∧
      ∀ (k : ℕ) a b s, (pdfNodes edges)[k]? = some a →
        (pdfNodes edges)[k + 1]? = some b → 0 ≤ s → s ≤ 1 →
        f (a + s * (b - a)) = f a + s * (f b - f a) := by
  have hn := densities_good h
  refine ⟨interpPdf _ edges, fun x => ?_, interp_pdf h hn⟩
  rw [MC.pdfOrCdf, MC.densityHistogram, hh]
  simp only [hn]
  simp

/-- **C39** (errors). Any other method is rejected, also if it is close to a valid one; and there is no
estimate without data, without bins, or for an instance with more than one component. -/
theorem C39_errors (mc : MC ℝ) (x : Arr ℝ) (method : String) (bw : ℝ) (cdfFlag : Bool) :
    (∀ counts edges, mc.histogram = .ok (counts, edges) → method ≠ "gaussian_kde" → method ≠ "interp" →
      mc.pdfOrCdf x method bw cdfFlag = .error .valueError) ∧
    (∀ e, mc.histogram = .error e → mc.pdfOrCdf x method bw cdfFlag = .error e) ∧
    (mc.paths = 0 ∨ mc.bins = .none → mc.histogram = .error .valueError) ∧
    (∀ a i j, mc.paths ≠ 0 → mc.bins = .objs a → InRange a.shape i → InRange a.shape j → i ≠ j →
      mc.histogram = .error .indexError) := by
  refine ⟨?_, ?_, ?_, ?_⟩
  · intro counts edges hh h1 h2
    rw [MC.pdfOrCdf, MC.densityHistogram, hh]
    simp only [if_neg h1, if_neg h2]
  · intro e he
    rw [MC.pdfOrCdf, MC.densityHistogram, he]
  · rintro (h | h)
    · unfold MC.histogram
      split
      · rw [if_pos h]
      · rfl
    · rw [MC.histogram, h]
  · intro a i j hp hb hi hj hij
    rw [MC.histogram, hb]
    simp only [if_neg hp]
    rw [← mem_ndindex] at hi hj
    split
    · next h0 => rw [h0] at hi; cases hi
    · next c h0 =>
      rw [h0, List.mem_singleton] at hi hj
      exact absurd (hi.trans hj.symm) hij
    · rfl

/-! ### Examples -/

theorem exGood : GoodHist [1, 0, 3] [0, 1, 3, (4 : ℝ)] where
  sorted := by simp; norm_num
  len := rfl
  nonneg := by decide
  pos := by decide

/-- An instance with bins `[0, 1, 3, 4]`, five values of which one is outside of bins. -/
noncomputable def exPdf : MC ℝ :=
  { paths := 5, bins := .objs ⟨[], fun _ => some [0, 1, 3, 4]⟩, range := none, use := "all",
    stats := none, counts := fun _ => [1, 0, 3], outside := fun _ => 1 }

theorem exPdf_hist : exPdf.histogram = .ok ([1, 0, 3], [0, 1, 3, (4 : ℝ)]) := by
  have : ndindex [] = [[]] := by decide
  simp [MC.histogram, exPdf, this]

example := C39_density exPdf_hist exGood
example := C39_gaussian_kde exPdf_hist exGood (bw := 2) (by norm_num)
example := C39_interp_cdf exPdf_hist exGood 1
example := C39_interp_pdf exPdf_hist exGood 1
example := C39_default noAuto_ok (c := []) (vs := []) (by decide) (n := 4) (use := "all")
  (b0 := exS) (l := []) (mc := ((MC.new (.int 4) none "all").update noAuto exS.x exS.axis).1)
  (.update (l := []) .new (update_eta (by decide +kernel))) exS_uniform (by decide +kernel)
example := C36_outerr noAuto_ok (by simp) (by rfl) exS_history exS_uniform (counts := [1, 2]) (a := 1)
  (m := [2]) (b := 3) (by
    have h : exS1.histogram.toOption = some ([1, 2], [1, 2, 3]) := by decide +kernel
    cases hh : exS1.histogram with
    | error e => rw [hh] at h; cases h
    | ok p => rw [hh] at h; simp only [Except.toOption, Option.some.injEq] at h; rw [h]; rfl)
example : (exS1.outerr.toOption.map fun a => a.get []) = some (1 / 4) := by decide +kernel
example : exPdf.pdfOrCdf (.scalar 0) "gaussian-kde" 1 true = .error .valueError :=
  (C39_errors exPdf _ _ 1 true).1 _ _ exPdf_hist (by decide) (by decide)
example : interpCdf [1 / 4, 0, 3 / 4] [0, 1, 3, 4] (7 / 2 : ℚ) = 5 / 8 ∧
    interpPdf [1 / 4, 0, 3 / 4] [0, 1, 3, 4] (7 / 2 : ℚ) = 3 / 4 ∧
    interpPdf [1 / 4, 0, 3 / 4] [0, 1, 3, 4] (1 / 4 : ℚ) = 1 / 8 := by decide +kernel

/-! ### Integer bins -/

theorem zipWith_tdiv {l l' : List ℤ} (h : ∀ p ∈ l.zip l', 2 ∣ p.1 + p.2) :
    (List.zipWith (fun a b => (a + b).tdiv 2) l l').map (fun z : ℤ => (z : ℚ)) =
      List.zipWith (fun a b => (a + b) / 2) (l.map fun z : ℤ => (z : ℚ)) (l'.map fun z : ℤ => (z : ℚ)) := by
  induction l generalizing l' with
  | nil => simp
  | cons a l ih =>
    cases l' with
    | nil => simp
    | cons b l' =>
      simp only [List.zipWith_cons_cons, List.map_cons, List.cons.injEq]
      refine ⟨?_, ih fun p hp => h p (by simp [hp])⟩
      obtain ⟨k, hk⟩ := h (a, b) (by simp)
      simp only at hk
      rw [hk, Int.mul_tdiv_cancel_left _ (by norm_num), eq_div_iff (by norm_num)]
      have : ((a + b : ℤ) : ℚ) = ((2 * k : ℤ) : ℚ) := by rw [hk]
      push_cast at this
      linarith

/-- **C39** (partial: integer bins). With bins given as integers, the 'interp' pdf is as stated by
`interp_pdf` if midpoints are integers. Missing: the other cases, see `C39_int_bins_false`. -/
theorem C39_int_bins_partial {counts : List ℤ} {edges : List ℤ} {n : List ℚ}
    (h : GoodHist counts (edges.map fun z : ℤ => (z : ℚ)))
    (hn : densities counts (edges.map fun z : ℤ => (z : ℚ)) = some n)
    (he : ∀ p ∈ edges.zip edges.tail, 2 ∣ p.1 + p.2) {k : ℕ} {a b c : ℤ} (ha : edges[k]? = some a)
    (hb : edges[k + 1]? = some b) (hc : counts[k]? = some c) :
    interpPdfInt n edges ((a + b) / 2) = (c : ℚ) / (counts.sum : ℤ) / (b - a) := by
  rw [← (interp_pdf h hn).2.2.2.1 k a b c (by simp [ha]) (by simp [hb]) hc, interpPdfInt, interpPdf]
  congr 1
  rw [List.cons_append, List.map_cons, List.map_append, zipWith_tdiv he, midpoints]
  cases edges with
  | nil => simp at ha
  | cons x edges =>
    have e : ((x :: edges).map fun z : ℤ => (z : ℚ)).getLastD 0 = ((x :: edges).getLastD 0 : ℤ) := by
      rw [List.getLastD_eq_getLast?, List.getLastD_eq_getLast?, List.getLast?_map,
        List.getLast?_eq_some_getLast (by simp)]
      rfl
    rw [e]
    simp [List.map_tail]

example : interpPdfInt [1 / 8, 3 / 8] [0, 2, 4] 3 = 3 / 8 := by decide +kernel

/-- **C39 fails**: with integer bins `[0, 3, 6]`, the first one containing one value and the second one
three values, the 'interp' pdf at the midpoint `3/2` of the first bin should be `1/12`, and is `1/9`. -/
theorem C39_int_bins_false :
    ∃ (counts edges : List ℤ) (n : List ℚ), GoodHist counts (edges.map fun z : ℤ => (z : ℚ)) ∧
      densities counts (edges.map fun z : ℤ => (z : ℚ)) = some n ∧
      ∃ (k : ℕ) (a b c : ℤ), edges[k]? = some a ∧ edges[k + 1]? = some b ∧ counts[k]? = some c ∧
        interpPdfInt n edges (((a : ℚ) + b) / 2) ≠ (c : ℚ) / (counts.sum : ℤ) / ((b : ℚ) - a) := by
  refine ⟨[1, 3], [0, 3, 6], [1 / 12, 1 / 4], ⟨by decide +kernel, rfl, by decide, by decide⟩,
    by decide +kernel, 0, 0, 3, 1, rfl, rfl, rfl, by decide +kernel⟩

end real

end Sdepy
