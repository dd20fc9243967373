import Verif.Spec.PoissonLaw
import Verif.Lemmas.TrueSource
import Verif.Model.TrueWiener
import Mathlib.Tactic.FieldSimp
import Mathlib.Tactic.Positivity
import Mathlib.Data.Nat.Choose.Basic

/-!
# Probabilities of the paths of a Poisson process, and evaluations of a Poisson source with memory
-/

set_option linter.unusedSectionVars false
set_option linter.unusedSimpArgs false

open MeasureTheory

namespace Sdepy

open Spec

theorem poissonProb_nonneg {m : ℝ} (hm : 0 ≤ m) (k : ℤ) : 0 ≤ poissonProb m k := by
  unfold poissonProb
  split_ifs
  · positivity
  · exact le_rfl

theorem poissonProb_neg {m : ℝ} {k : ℤ} (hk : k < 0) : poissonProb m k = 0 := by
  unfold poissonProb
  rw [if_neg (by omega)]

theorem poissonProb_zero (m : ℝ) : poissonProb m 0 = Real.exp (-m) := by
  simp [poissonProb]

theorem binomialProb_nonneg {n : ℤ} {p : ℝ} (h0 : 0 ≤ p) (h1 : p ≤ 1) (k : ℤ) :
    0 ≤ binomialProb n p k := by
  unfold binomialProb
  split_ifs
  · have := sub_nonneg.2 h1
    positivity
  · exact le_rfl

/-- Splitting a Poisson variate. -/
theorem poisson_split {lam a b : ℝ} (ha : 0 < a) (hb : 0 < b) (n k : ℤ) :
    poissonProb (lam * (a + b)) n * binomialProb n (a / (a + b)) k =
      poissonProb (lam * a) k * poissonProb (lam * b) (n - k) := by
  by_cases hk : 0 ≤ k
  · by_cases hkn : k ≤ n
    · obtain ⟨k, rfl⟩ := Int.eq_ofNat_of_zero_le hk
      obtain ⟨j, hj⟩ := Int.eq_ofNat_of_zero_le (sub_nonneg.2 hkn)
      have hn : n = ((k + j : ℕ) : ℤ) := by push_cast; omega
      subst hn
      unfold poissonProb binomialProb
      rw [if_pos (by omega), if_pos ⟨hk, hkn⟩, if_pos hk, if_pos (by omega), hj]
      simp only [Int.toNat_natCast]
      have hc : ((k + j).choose k : ℝ) * (k.factorial : ℝ) * (j.factorial : ℝ) =
          ((k + j).factorial : ℝ) := by
        have := Nat.add_choose_mul_factorial_mul_factorial k j
        rw [← Nat.choose_symm_add] at this
        exact_mod_cast this
      have h1 : 1 - a / (a + b) = b / (a + b) := by field_simp; ring
      have hab : a + b ≠ 0 := by positivity
      have hk0 : (k.factorial : ℝ) ≠ 0 := by positivity
      have hj0 : (j.factorial : ℝ) ≠ 0 := by positivity
      have hkj0 : ((k + j).factorial : ℝ) ≠ 0 := by positivity
      rw [h1, div_pow, div_pow, mul_pow, mul_pow, mul_pow, pow_add lam, pow_add (a + b)]
      have he : Real.exp (-(lam * (a + b))) = Real.exp (-(lam * a)) * Real.exp (-(lam * b)) := by
        rw [← Real.exp_add]; congr 1; ring
      rw [he, ← hc]
      have hch : ((k + j).choose k : ℝ) ≠ 0 := by
        intro h; rw [h, zero_mul, zero_mul] at hc; exact hkj0 hc.symm
      have hp : (a + b) ^ k ≠ 0 := pow_ne_zero _ hab
      have hp' : (a + b) ^ j ≠ 0 := pow_ne_zero _ hab
      generalize (a + b) ^ k = p1 at *
      generalize (a + b) ^ j = p2 at *
      generalize ((k + j).choose k : ℝ) = c at *
      field_simp
    · rw [binomialProb, if_neg (by omega), poissonProb_neg (k := n - k) (by omega)]
      ring
  · rw [binomialProb, if_neg (by omega), poissonProb_neg (k := k) (by omega)]
    ring

section
variable {ι : Type} [Fintype ι] {lam : ℝ} {x : ℝ → ι → ℤ}

theorem pathProb_nonneg (hl : 0 ≤ lam) : ∀ {L : List ℝ}, L.Pairwise (· < ·) →
    0 ≤ poissonPathProb lam x L
  | [], _ => by simp [poissonPathProb]
  | [_], _ => by simp [poissonPathProb]
  | a :: b :: l, h => by
    rw [poissonPathProb]
    have hab : a < b := (List.pairwise_cons.1 h).1 b (by simp)
    refine mul_nonneg (Finset.prod_nonneg fun i _ => poissonProb_nonneg ?_ _)
      (pathProb_nonneg hl (List.pairwise_cons.1 h).2)
    exact mul_nonneg hl (sub_nonneg.2 hab.le)

/-- One more time, after all others or between two of them. -/
theorem pathProb_append (l1 : List ℝ) (a : ℝ) (l2 : List ℝ) :
    poissonPathProb lam x (l1 ++ a :: l2) =
      poissonPathProb lam x (l1 ++ [a]) * poissonPathProb lam x (a :: l2) := by
  induction l1 with
  | nil => simp [poissonPathProb]
  | cons b l1 ih =>
    cases l1 with
    | nil => simp [poissonPathProb]
    | cons c l1 =>
      simp only [List.cons_append, poissonPathProb] at ih ⊢
      rw [ih, mul_assoc]

theorem pathProb_mono : ∀ {L : List ℝ}, poissonPathProb lam x L ≠ 0 →
    L.Pairwise (fun a b => x a ≤ x b)
  | [], _ => .nil
  | [_], _ => List.pairwise_singleton _ _
  | a :: b :: l, h => by
    rw [poissonPathProb] at h
    have ih := pathProb_mono (right_ne_zero_of_mul h)
    have hab : x a ≤ x b := by
      intro i
      by_contra hi
      exact Finset.prod_ne_zero_iff.1 (left_ne_zero_of_mul h) i (Finset.mem_univ i)
        (poissonProb_neg (by rw [not_le] at hi; linarith))
    refine List.pairwise_cons.2 ⟨fun c hc => ?_, ih⟩
    rcases List.mem_cons.1 hc with rfl | hc
    · exact hab
    · exact hab.trans ((List.pairwise_cons.1 ih).1 c hc)

theorem pathProb_le {L : List ℝ} (hL : L.Pairwise (· < ·)) (h : poissonPathProb lam x L ≠ 0) {a b : ℝ}
    (ha : a ∈ L) (hb : b ∈ L) (hab : a ≤ b) : x a ≤ x b := by
  have h2 := pathProb_mono h
  obtain ⟨i, hi, rfl⟩ := List.mem_iff_getElem.1 ha
  obtain ⟨j, hj, rfl⟩ := List.mem_iff_getElem.1 hb
  rcases lt_trichotomy i j with hij | rfl | hij
  · exact List.pairwise_iff_getElem.1 h2 i j hi hj hij
  · exact le_rfl
  · exact absurd (List.pairwise_iff_getElem.1 hL j i hj hi hij) (not_lt.2 hab)

/-- A time between two others, at which the path does not move. -/
theorem pathProb_flat {l1 l2 : List ℝ} {a s b : ℝ} (h1 : x a = x s) (h2 : x s = x b) :
    poissonPathProb lam x (l1 ++ a :: s :: b :: l2) = poissonPathProb lam x (l1 ++ a :: b :: l2) := by
  rw [pathProb_append l1 a, pathProb_append l1 a (b :: l2)]
  congr 1
  simp only [poissonPathProb]
  rw [← mul_assoc, ← Finset.prod_mul_distrib]
  congr 1
  refine Finset.prod_congr rfl fun i _ => ?_
  rw [h1, h2, sub_self, poissonProb_zero, poissonProb_zero, poissonProb_zero, ← Real.exp_add]
  congr 1
  ring

theorem sorted_split {L : List ℝ} (hL : L.Pairwise (· < ·)) {s : ℝ} (hs : s ∈ L) :
    ∃ l1 l2, L = l1 ++ s :: l2 ∧ (∀ u ∈ l1, u < s) ∧ ∀ u ∈ l2, s < u := by
  obtain ⟨l1, l2, rfl⟩ := List.append_of_mem hs
  rw [List.pairwise_append] at hL
  exact ⟨l1, l2, rfl, fun u hu => hL.2.2 u hu s (by simp), (List.pairwise_cons.1 hL.2.1).1⟩

theorem sorted_unique {L L' : List ℝ} (h : L.Pairwise (· < ·)) (h' : L'.Pairwise (· < ·))
    (hm : ∀ u, u ∈ L ↔ u ∈ L') : L = L' := by
  have hn : L.Nodup := h.imp fun hab => ne_of_lt hab
  have hn' : L'.Nodup := h'.imp fun hab => ne_of_lt hab
  have hp : L.Perm L' := (List.perm_ext_iff_of_nodup hn hn').2 hm
  exact hp.eq_of_pairwise (fun a b _ _ h1 h2 => absurd h1 (not_lt.2 h2.le)) h h'

/-- A flat time, given by any times around it. -/
theorem pathProb_flat_insert {L L' : List ℝ} (hL : L.Pairwise (· < ·)) (hL' : L'.Pairwise (· < ·))
    {s a b : ℝ} (hm : ∀ u, u ∈ L' ↔ u = s ∨ u ∈ L) (ha : a ∈ L) (hb : b ∈ L) (has : a < s)
    (hsb : s < b) (h1 : x a = x s) (h2 : x s = x b) :
    poissonPathProb lam x L' = poissonPathProb lam x L := by
  by_cases hs : s ∈ L
  · rw [sorted_unique hL' hL]
    intro u
    rw [hm]
    constructor
    · rintro (rfl | h)
      · exact hs
      · exact h
    · exact .inr
  obtain ⟨l1, l2, rfl, g1, g2⟩ := sorted_split hL' ((hm s).2 (.inl rfl))
  have hLe : L = l1 ++ l2 := by
    refine sorted_unique hL ?_ fun u => ?_
    · rw [List.pairwise_append] at hL' ⊢
      exact ⟨hL'.1, (List.pairwise_cons.1 hL'.2.1).2, fun u hu v hv => (g1 u hu).trans (g2 v hv)⟩
    · have := hm u
      constructor
      · intro hu
        have := this.2 (.inr hu)
        simp only [List.mem_append, List.mem_cons] at this ⊢
        rcases this with h | rfl | h
        · exact .inl h
        · exact absurd hu hs
        · exact .inr h
      · intro hu
        have h' : u ∈ l1 ++ s :: l2 := by
          simp only [List.mem_append, List.mem_cons] at hu ⊢
          tauto
        rcases this.1 h' with rfl | h
        · rcases List.mem_append.1 hu with h | h
          · exact absurd (g1 _ h) (lt_irrefl _)
          · exact absurd (g2 _ h) (lt_irrefl _)
        · exact h
  subst hLe
  have ha1 : a ∈ l1 := by
    rcases List.mem_append.1 ha with h | h
    · exact h
    · exact absurd (g2 a h) (not_lt.2 has.le)
  have hb2 : b ∈ l2 := by
    rcases List.mem_append.1 hb with h | h
    · exact absurd (g1 b h) (not_lt.2 hsb.le)
    · exact h
  obtain ⟨l1, a', rfl⟩ : ∃ l a', l1 = l ++ [a'] :=
    ⟨l1.dropLast, l1.getLast (List.ne_nil_of_mem ha1), (List.dropLast_append_getLast _).symm⟩
  cases l2 with
  | nil => simp at hb2
  | cons b' l2 =>
    have haa : a ≤ a' := by
      rcases List.mem_append.1 ha1 with h | h
      · rw [List.pairwise_append, List.pairwise_append] at hL
        exact (hL.1.2.2 a h a' (by simp)).le
      · rw [List.mem_singleton.1 h]
    have hbb : b' ≤ b := by
      rcases List.mem_cons.1 hb2 with rfl | h
      · exact le_rfl
      · rw [List.pairwise_append] at hL
        exact ((List.pairwise_cons.1 hL.2.1).1 b h).le
    have e1 : l1 ++ [a'] ++ s :: b' :: l2 = l1 ++ a' :: s :: b' :: l2 := by simp
    have e2 : l1 ++ [a'] ++ b' :: l2 = l1 ++ a' :: b' :: l2 := by simp
    by_cases hflat : x a' = x s ∧ x s = x b'
    · rw [e1, e2, pathProb_flat hflat.1 hflat.2]
    · have hz : poissonPathProb lam x (l1 ++ [a'] ++ b' :: l2) = 0 := by
        by_contra hne
        have k1 := pathProb_le hL hne ha (b := a') (by simp) haa
        have k2 := pathProb_le hL hne (a := a') (b := b') (by simp) (by simp)
          ((g1 a' (by simp)).trans (g2 b' (by simp))).le
        have k3 := pathProb_le hL hne (a := b') (by simp) hb hbb
        have k4 : x a = x b := h1.trans h2
        refine hflat ⟨?_, ?_⟩
        · exact le_antisymm ((k2.trans k3).trans h2.symm.le) (h1.symm.le.trans k1)
        · exact le_antisymm ((h1.symm.le.trans k1).trans k2) (k3.trans h2.symm.le)
      have hz' : poissonPathProb lam x (l1 ++ [a'] ++ s :: b' :: l2) = 0 := by
        by_contra hne
        have m1 : a ∈ l1 ++ [a'] ++ s :: b' :: l2 := by
          simp only [List.mem_append] at ha1 ⊢; exact .inl ha1
        have m2 : b ∈ l1 ++ [a'] ++ s :: b' :: l2 := by
          simp only [List.mem_append, List.mem_cons] at hb2 ⊢; exact .inr (.inr hb2)
        have k1 := pathProb_le hL' hne m1 (b := a') (by simp) haa
        have k2 := pathProb_le hL' hne (a := a') (b := s) (by simp) (by simp) (g1 a' (by simp)).le
        have k3 := pathProb_le hL' hne (a := s) (b := b') (by simp) (by simp) (g2 b' (by simp)).le
        have k4 := pathProb_le hL' hne (a := b') (by simp) m2 hbb
        exact hflat ⟨le_antisymm k2 (h1.symm.le.trans k1), le_antisymm k3 (k4.trans h2.symm.le)⟩
      rw [hz, hz']

end

section
variable {ι σ : Type} [Fintype ι] {rtol : ℝ} {dn : ℝ → ℝ → σ → Py ((ι → ℤ) × σ)}
  {binomial : (ι → ℤ) → ℝ → σ → (ι → ℤ) × σ}

theorem bisect_split {l1 l2 : List ℝ} {s : ℝ} (h : (l1 ++ l2).Pairwise (· < ·))
    (h1 : ∀ u ∈ l1, u ≤ s) (h2 : ∀ u ∈ l2, s < u) : bisectRight (l1 ++ l2) s = l1.length := by
  refine bisectRight_unique h ?_ ?_ (by simp)
  · intro i u hi hu
    rw [List.getElem?_append_left hi] at hu
    exact h1 u (List.mem_of_getElem? hu)
  · intro i u hi hu
    rw [List.getElem?_append_right hi] at hu
    exact h2 u (List.mem_of_getElem? hu)

theorem insertIdx_mid {α : Type} (l1 l2 : List α) (s : α) {n : ℕ} (h : n = l1.length) :
    (l1 ++ l2).insertIdx n s = l1 ++ s :: l2 := by
  subst h
  rw [insertIdx_eq (by simp)]
  simp

/-- Memory that holds the values of `x` at the times `ts`. -/
def pathMem (x : ℝ → ι → ℤ) (ts : List ℝ) (st : σ) : Mem ℝ (ι → ℤ) σ := ⟨ts, ts.map x, st⟩

variable {x : ℝ → ι → ℤ}

theorem poisson_get1_known {l1 l2 : List ℝ} {s : ℝ} (hr : 0 ≤ rtol)
    (h : (l1 ++ [s] ++ l2).Pairwise (· < ·)) (st : σ) :
    (truePoisson rtol dn binomial).get1 s (pathMem x (l1 ++ [s] ++ l2) st) =
      .ok (x s, pathMem x (l1 ++ [s] ++ l2) st) := by
  have h' := h
  rw [List.pairwise_append, List.pairwise_append] at h'
  have hk : bisectRight (l1 ++ [s] ++ l2) s = l1.length + 1 := by
    rw [bisect_split h]
    · simp
    · intro u hu
      rcases List.mem_append.1 hu with hu | hu
      · exact (h'.1.2.2 u hu s (by simp)).le
      · exact (List.mem_singleton.1 hu).le
    · exact fun u hu => h'.2.2 s (by simp) u hu
  have hc : isClose (truePoisson rtol dn binomial).rtol s s := by
    show |s - s| ≤ rtol * |s|
    rw [sub_self, abs_zero]; positivity
  simp only [TrueSrc.get1, pathMem, hk]
  rw [if_neg (by omega)]
  have e1 : (l1 ++ [s] ++ l2)[l1.length + 1 - 1]? = some s := by simp
  have e2 : ((l1 ++ [s] ++ l2).map x)[l1.length + 1 - 1]? = some (x s) := by simp
  rw [e1, e2]
  simp only
  rw [if_pos hc]
  rfl

theorem poisson_get1_after {l1 : List ℝ} {a s : ℝ} (h : (l1 ++ [a]).Pairwise (· < ·)) (has : a < s)
    (hc : ¬ |s - a| ≤ rtol * |a|) (st : σ) :
    (truePoisson rtol dn binomial).get1 s (pathMem x (l1 ++ [a]) st) =
      match dn a (s - a) st with
      | .error e => .error e
      | .ok (d, st) => .ok (x a + d, ⟨l1 ++ [a, s], (l1 ++ [a]).map x ++ [x a + d], st⟩) := by
  have h' := h
  rw [List.pairwise_append] at h'
  have hk : bisectRight (l1 ++ [a]) s = l1.length + 1 := by
    have := bisect_split (l1 := l1 ++ [a]) (l2 := []) (s := s) (by simpa using h) ?_ (by simp)
    · simpa using this
    · intro u hu
      rcases List.mem_append.1 hu with hu | hu
      · exact ((h'.2.2 u hu a (by simp)).trans has).le
      · rw [List.mem_singleton.1 hu]; exact has.le
  simp only [TrueSrc.get1, pathMem, hk]
  rw [if_neg (by omega)]
  have e1 : (l1 ++ [a])[l1.length + 1 - 1]? = some a := by simp
  have e2 : ((l1 ++ [a]).map x)[l1.length + 1 - 1]? = some (x a) := by simp
  have hc' : ¬ isClose (truePoisson rtol dn binomial).rtol s a := hc
  rw [e1, e2]
  simp only
  rw [if_neg hc', if_pos (by simp)]
  have e3 : ((l1 ++ [a]).map x).getLast? = some (x a) := by simp
  have e4 : (l1 ++ [a]).getLast? = some a := by simp
  rw [e3, e4]
  simp only [truePoisson]
  cases dn a (s - a) st with
  | error e => rfl
  | ok r =>
    obtain ⟨d, st'⟩ := r
    simp

theorem poisson_get1_before {l2 : List ℝ} {b s : ℝ} (h : (b :: l2).Pairwise (· < ·)) (hsb : s < b)
    (hc : ∀ u ∈ b :: l2, ¬ |s - u| ≤ rtol * |u|) (st : σ) :
    (truePoisson rtol dn binomial).get1 s (pathMem x (b :: l2) st) =
      match dn b (s - b) st with
      | .error e => .error e
      | .ok (d, st) => .ok (x b + d, ⟨s :: b :: l2, (x b + d) :: (b :: l2).map x, st⟩) := by
  have hk : bisectRight (b :: l2) s = 0 := by
    have := bisect_split (l1 := []) (l2 := b :: l2) (s := s) (by simpa using h) (by simp) ?_
    · simpa using this
    · intro u hu
      rcases List.mem_cons.1 hu with rfl | hu
      · exact hsb
      · exact hsb.trans ((List.pairwise_cons.1 h).1 u hu)
  simp only [TrueSrc.get1, pathMem, hk, if_true]
  have hlt : (b :: l2).length - 1 < (b :: l2).length := by simp
  have e1 : (b :: l2)[(b :: l2).length - 1]? = some ((b :: l2)[(b :: l2).length - 1]) :=
    List.getElem?_eq_getElem hlt
  have e2 : ((b :: l2).map x)[(b :: l2).length - 1]? =
      some (x ((b :: l2)[(b :: l2).length - 1])) := by
    rw [List.getElem?_map, e1]; rfl
  rw [e1, e2]
  have hc' : ¬ isClose (truePoisson rtol dn binomial).rtol s ((b :: l2)[(b :: l2).length - 1]) :=
    hc _ (List.getElem_mem _)
  simp only
  rw [if_neg hc', if_neg (by simp)]
  simp only [List.map_cons, truePoisson]
  cases dn b (s - b) st with
  | error e => rfl
  | ok r => rfl

theorem poisson_get1_between {l1 l2 : List ℝ} {a b s : ℝ} (h : (l1 ++ a :: b :: l2).Pairwise (· < ·))
    (has : a < s) (hsb : s < b) (hc : ¬ |s - a| ≤ rtol * |a|) (st : σ) :
    (truePoisson rtol dn binomial).get1 s (pathMem x (l1 ++ a :: b :: l2) st) =
      if ∀ i, x a i = x b i then .ok (x b, pathMem x (l1 ++ a :: b :: l2) st)
      else if ∃ i, x b i - x a i < 0 then .error .valueError
      else .ok (x a + (binomial (x b - x a) ((s - a) / (b - a)) st).1,
        ⟨l1 ++ a :: s :: b :: l2,
          (l1 ++ [a]).map x ++ (x a + (binomial (x b - x a) ((s - a) / (b - a)) st).1) ::
            (b :: l2).map x, (binomial (x b - x a) ((s - a) / (b - a)) st).2⟩) := by
  have e0 : l1 ++ a :: b :: l2 = (l1 ++ [a]) ++ b :: l2 := by simp
  have h' := h
  rw [List.pairwise_append] at h'
  have hk : bisectRight (l1 ++ a :: b :: l2) s = l1.length + 1 := by
    rw [e0] at h ⊢
    rw [bisect_split h]
    · simp
    · intro u hu
      rcases List.mem_append.1 hu with hu | hu
      · exact ((h'.2.2 u hu a (by simp)).trans has).le
      · rw [List.mem_singleton.1 hu]; exact has.le
    · intro u hu
      rcases List.mem_cons.1 hu with rfl | hu
      · exact hsb
      · exact hsb.trans ((List.pairwise_cons.1 (List.pairwise_cons.1 h'.2.1).2).1 u hu)
  simp only [TrueSrc.get1, pathMem, hk]
  rw [if_neg (by omega)]
  have e1 : (l1 ++ a :: b :: l2)[l1.length + 1 - 1]? = some a := by simp
  have e2 : ((l1 ++ a :: b :: l2).map x)[l1.length + 1 - 1]? = some (x a) := by simp
  have e3 : (l1 ++ a :: b :: l2)[l1.length + 1]? = some b := by
    rw [e0, List.getElem?_append_right (by simp)]; simp
  have e4 : ((l1 ++ a :: b :: l2).map x)[l1.length + 1]? = some (x b) := by
    rw [List.getElem?_map, e3]; rfl
  have hc' : ¬ isClose (truePoisson rtol dn binomial).rtol s a := hc
  rw [e1, e2]
  simp only
  rw [if_neg hc', if_neg (by simp), if_neg (by omega), e3, e4]
  simp only [truePoisson]
  by_cases hf : ∀ i, x a i = x b i
  · rw [if_pos hf, if_pos hf]
    simp only [Nat.add_sub_cancel]
    congr 3
    rw [List.map_append, List.map_cons, List.set_append_right _ _ (by simp)]
    simp
  · rw [if_neg hf, if_neg hf]
    have hba : 0 < b - a := by linarith
    have hp0 : ¬ (s - a) / (b - a) < 0 := not_lt.2 (by
      have : 0 < s - a := by linarith
      positivity)
    have hp1 : ¬ 1 < (s - a) / (b - a) := not_lt.2 ((div_le_one hba).2 (by linarith))
    simp only [hp0, hp1, or_false, Pi.sub_apply]
    by_cases hn : ∃ i, x b i - x a i < 0
    · rw [if_pos hn, if_pos hn]
    · rw [if_neg hn, if_neg hn]
      have i1 : (l1 ++ a :: b :: l2).insertIdx (l1.length + 1) s = l1 ++ a :: s :: b :: l2 := by
        rw [e0, insertIdx_mid _ _ _ (by simp)]
        simp
      have i2 : (((l1 ++ a :: b :: l2).map x).set (l1.length + 1 - 1) (x a)) =
          (l1 ++ [a]).map x ++ (b :: l2).map x := by
        rw [Nat.add_sub_cancel, List.map_append, List.map_cons, List.set_append_right _ _ (by simp)]
        simp
      simp only [i1, i2]
      congr 3
      rw [insertIdx_mid _ _ _ (by simp)]

end

end Sdepy
