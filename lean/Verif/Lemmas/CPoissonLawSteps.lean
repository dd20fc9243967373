import Verif.Lemmas.CPoissonLawDn
import Verif.Lemmas.CPoissonLawJumps

/-!
# Evaluations of a compound Poisson source with memory, along given paths

Jumps are numbered, in each cell, by the value of the underlying Poisson source they follow: `Y (c, k)`
is the size of the jump by which the source goes from `k` to `k + 1`.
-/

set_option linter.unusedSectionVars false
set_option linter.unusedSimpArgs false

open MeasureTheory ProbabilityTheory

namespace Sdepy

open Spec

/-! ### Sums of numbered jumps -/

/-- Sum of the items from `0` to `n`, with a sign. -/
def psum (f : ℤ → ℝ) (n : ℤ) : ℝ :=
  if 0 ≤ n then ∑ i ∈ Finset.range n.toNat, f i
  else -∑ i ∈ Finset.range (-n).toNat, f (-((i : ℤ) + 1))

theorem psum_succ (f : ℤ → ℝ) (n : ℤ) : psum f (n + 1) = psum f n + f n := by
  unfold psum
  by_cases h : 0 ≤ n
  · rw [if_pos (by omega), if_pos h, show (n + 1).toNat = n.toNat + 1 by omega, Finset.sum_range_succ,
      show ((n.toNat : ℕ) : ℤ) = n by omega]
  · by_cases h1 : n = -1
    · subst h1
      simp
    · rw [if_neg (by omega), if_neg h, show (-n).toNat = (-(n + 1)).toNat + 1 by omega,
        Finset.sum_range_succ, show (-(((-(n + 1)).toNat : ℤ) + 1)) = n by omega]
      ring

theorem psum_add (f : ℤ → ℝ) (n : ℤ) (m : ℕ) :
    psum f (n + m) = psum f n + ∑ i ∈ Finset.range m, f (n + i) := by
  induction m with
  | zero => simp
  | succ m ih =>
    rw [Finset.sum_range_succ, ← add_assoc, ← ih]
    push_cast
    rw [← add_assoc, psum_succ]

section paths
variable {shape : List ℕ} {x : ℝ → Pos shape → ℤ} {Y Y' : Pos shape × ℤ → ℝ} {z0 : Pos shape → ℝ}
  {t0 : ℝ}

/-- Sizes of the jumps between two times. -/
def blk (x : ℝ → Pos shape → ℤ) (Y : Pos shape × ℤ → ℝ) (a b : ℝ) (c : Pos shape) : List ℝ :=
  (List.range (x b c - x a c).toNat).map fun k : ℕ => Y (c, x a c + k)

/-- Value of the process at a time. -/
def jv (z0 : Pos shape → ℝ) (t0 : ℝ) (x : ℝ → Pos shape → ℤ) (Y : Pos shape × ℤ → ℝ) (t : ℝ) :
    Pos shape → ℝ := fun c =>
  z0 c + (psum (fun k => Y (c, k)) (x t c) - psum (fun k => Y (c, k)) (x t0 c))

theorem blk_sum (a b : ℝ) (c : Pos shape) :
    (blk x Y a b c).sum = ∑ k ∈ Finset.range (x b c - x a c).toNat, Y (c, x a c + k) := by
  unfold blk
  rw [Finset.sum_range, ← List.sum_ofFn]
  congr 1
  refine List.ext_getElem (by simp) ?_
  intro i h1 h2
  simp

theorem jv_sub {a b : ℝ} (h : x a ≤ x b) (c : Pos shape) :
    jv z0 t0 x Y b c = jv z0 t0 x Y a c + (blk x Y a b c).sum := by
  unfold jv
  have := psum_add (fun k => Y (c, k)) (x a c) (x b c - x a c).toNat
  rw [show x a c + ((x b c - x a c).toNat : ℤ) = x b c by have : x a c ≤ x b c := h c; omega] at this
  rw [this, blk_sum]
  ring

theorem jv_start : jv z0 t0 x Y t0 = z0 := by
  funext c; simp [jv]

theorem jv_same {a b : ℝ} (h : x a = x b) : jv z0 t0 x Y a = jv z0 t0 x Y b := by
  funext c; simp [jv, h]

/-- Jumps are the same, between given values of the Poisson source. -/
def AgreeOn (lo hi : Pos shape → ℤ) (Y Y' : Pos shape × ℤ → ℝ) : Prop :=
  ∀ c k, lo c ≤ k → k < hi c → Y (c, k) = Y' (c, k)

theorem AgreeOn.trans {lo hi : Pos shape → ℤ} {Y1 Y2 Y3 : Pos shape × ℤ → ℝ} (h : AgreeOn lo hi Y1 Y2)
    (h' : AgreeOn lo hi Y2 Y3) : AgreeOn lo hi Y1 Y3 := fun c k h1 h2 =>
  (h c k h1 h2).trans (h' c k h1 h2)

theorem AgreeOn.symm {lo hi : Pos shape → ℤ} (h : AgreeOn lo hi Y Y') : AgreeOn lo hi Y' Y :=
  fun c k h1 h2 => (h c k h1 h2).symm

theorem blk_congr {a b : ℝ} (h : AgreeOn (x a) (x b) Y Y') : blk x Y a b = blk x Y' a b := by
  funext c
  unfold blk
  refine List.map_congr_left fun k hk => h c _ (by omega) ?_
  have := List.mem_range.1 hk
  omega

theorem jv_congr (hx : Monotone x) {t : ℝ} (h : AgreeOn (x t0) (x t) Y Y')
    (h' : AgreeOn (x t) (x t0) Y Y') : jv z0 t0 x Y t = jv z0 t0 x Y' t := by
  funext c
  rcases le_total t0 t with ht | ht
  · rw [jv_sub (hx ht), jv_sub (Y := Y') (hx ht), jv_start, jv_start, blk_congr h]
  · have e1 := jv_sub (z0 := z0) (t0 := t0) (Y := Y) (hx ht) c
    have e2 := jv_sub (z0 := z0) (t0 := t0) (Y := Y') (hx ht) c
    rw [jv_start] at e1 e2
    rw [blk_congr h'] at e1
    linarith

/-- No sum of jumps that follow each other vanishes. -/
def GoodOn (lo hi : Pos shape → ℤ) (Y : Pos shape × ℤ → ℝ) : Prop :=
  ∀ c i (m : ℕ), 0 < m → lo c ≤ i → i + m ≤ hi c → ∑ k ∈ Finset.range m, Y (c, i + k) ≠ 0

theorem GoodOn.congr {lo hi lo' hi' : Pos shape → ℤ} (h : GoodOn lo hi Y) (h1 : lo ≤ lo') (h2 : hi' ≤ hi)
    (ha : AgreeOn lo' hi' Y' Y) : GoodOn lo' hi' Y' := by
  intro c i m hm hi hj
  rw [Finset.sum_congr rfl (g := fun (k : ℕ) => Y (c, i + k))]
  · exact h c i m hm ((h1 c).trans hi) (hj.trans (h2 c))
  · intro k hk
    have := Finset.mem_range.1 hk
    exact ha c _ (by omega) (by omega)

theorem GoodOn.blk {a b : ℝ} (h : GoodOn (x a) (x b) Y) (c : Pos shape) :
    ∀ y ∈ blk x Y a b c, y ≠ 0 := by
  intro y hy
  obtain ⟨k, hk, rfl⟩ := List.mem_map.1 hy
  have hk := List.mem_range.1 hk
  have := h c (x a c + k) 1 one_pos (by omega) (by push_cast; omega)
  simpa using this

theorem GoodOn.ne {a b : ℝ} (hle : x a ≤ x b) (h : GoodOn (x a) (x b) Y) (hne : x a ≠ x b) :
    ¬ ∀ c, jv z0 t0 x Y a c = jv z0 t0 x Y b c := by
  intro heq
  obtain ⟨c, hc⟩ : ∃ c, x a c ≠ x b c := by
    by_contra hcon
    push Not at hcon
    exact hne (funext hcon)
  have hlt : x a c < x b c := lt_of_le_of_ne (hle c) hc
  have h1 := jv_sub (z0 := z0) (t0 := t0) (Y := Y) hle c
  rw [← heq c, blk_sum] at h1
  refine h c (x a c) (x b c - x a c).toNat (by omega) le_rfl (by omega) ?_
  linarith

theorem blk_length {a b : ℝ} (hle : x a ≤ x b) (c : Pos shape) :
    ((blk x Y a b c).length : ℤ) = x b c - x a c := by
  have : x a c ≤ x b c := hle c
  simp [blk]
  omega

theorem blk_take {a s b : ℝ} (h1 : x a ≤ x s) (h2 : x s ≤ x b) (c : Pos shape) :
    (blk x Y a b c).take (x s c - x a c).toNat = blk x Y a s c := by
  have : x a c ≤ x s c := h1 c
  have : x s c ≤ x b c := h2 c
  refine List.ext_getElem (by simp [blk]; omega) ?_
  intro i i1 i2
  simp [blk]

theorem blk_drop {a s b : ℝ} (h1 : x a ≤ x s) (h2 : x s ≤ x b) (c : Pos shape) :
    (blk x Y a b c).drop (x s c - x a c).toNat = blk x Y s b c := by
  have : x a c ≤ x s c := h1 c
  have : x s c ≤ x b c := h2 c
  refine List.ext_getElem (by simp [blk]; omega) ?_
  intro i i1 i2
  simp only [blk, List.getElem_drop, List.getElem_map, List.getElem_range]
  congr 2
  push_cast
  omega

end paths

/-! ### Evaluations of a source with memory, given as a list of times and values -/

section mem
variable {Z V σ : Type} {S : TrueSrc ℝ Z V σ}

/-- Memory that holds given times and values. -/
def pairMem (ps : List (ℝ × Z)) (st : σ) : Mem ℝ Z σ := ⟨ps.map (·.1), ps.map (·.2), st⟩

theorem pair_known (hr : 0 ≤ S.rtol) {A B : List (ℝ × Z)} {s : ℝ} {z : Z} (st : σ)
    (h : ((A ++ (s, z) :: B).map (·.1)).Pairwise (· < ·)) :
    S.get1 s (pairMem (A ++ (s, z) :: B) st) = .ok (S.getvalue z, pairMem (A ++ (s, z) :: B) st) := by
  have h' := h
  simp only [List.map_append, List.map_cons] at h'
  have hk : bisectRight ((A ++ (s, z) :: B).map (·.1)) s = A.length + 1 := by
    have e : (A ++ (s, z) :: B).map (·.1) = (A.map (·.1) ++ [s]) ++ B.map (·.1) := by simp
    rw [e] at h ⊢
    rw [bisect_split h]
    · simp
    · rw [List.pairwise_append, List.pairwise_append] at h
      intro u hu
      rcases List.mem_append.1 hu with hu | hu
      · exact (h.1.2.2 u hu s (by simp)).le
      · exact (List.mem_singleton.1 hu).le
    · rw [List.pairwise_append] at h
      exact fun u hu => h.2.2 s (by simp) u hu
  have hc : isClose S.rtol s s := by
    show |s - s| ≤ S.rtol * |s|
    rw [sub_self, abs_zero]; positivity
  simp only [TrueSrc.get1, pairMem, hk]
  rw [if_neg (by omega)]
  have e1 : ((A ++ (s, z) :: B).map (·.1))[A.length + 1 - 1]? = some s := by simp
  have e2 : ((A ++ (s, z) :: B).map (·.2))[A.length + 1 - 1]? = some z := by simp
  rw [e1, e2]
  simp only
  rw [if_pos hc]

theorem pair_after {A : List (ℝ × Z)} {a s : ℝ} {z : Z} (st : σ)
    (h : ((A ++ [(a, z)]).map (·.1)).Pairwise (· < ·)) (has : a < s)
    (hc : ¬ |s - a| ≤ S.rtol * |a|) {z' znew : Z} {st' : σ}
    (ho : S.outside z a s st = .ok ((z', znew), st')) :
    S.get1 s (pairMem (A ++ [(a, z)]) st) =
      .ok (S.getvalue znew, pairMem (A ++ [(a, z'), (s, znew)]) st') := by
  have hk : bisectRight ((A ++ [(a, z)]).map (·.1)) s = A.length + 1 := by
    have := bisect_split (l1 := (A ++ [(a, z)]).map (·.1)) (l2 := []) (s := s) (by simpa using h) ?_
      (by simp)
    · rw [List.append_nil] at this; rw [this]; simp
    · simp only [List.map_append, List.map_cons, List.map_nil] at h ⊢
      rw [List.pairwise_append] at h
      intro u hu
      rcases List.mem_append.1 hu with hu | hu
      · exact ((h.2.2 u hu a (by simp)).trans has).le
      · rw [List.mem_singleton.1 hu]; exact has.le
  simp only [TrueSrc.get1, pairMem, hk]
  rw [if_neg (by omega)]
  have e1 : ((A ++ [(a, z)]).map (·.1))[A.length + 1 - 1]? = some a := by simp
  have e2 : ((A ++ [(a, z)]).map (·.2))[A.length + 1 - 1]? = some z := by simp
  have hc' : ¬ isClose S.rtol s a := hc
  rw [e1, e2]
  simp only
  rw [if_neg hc', if_pos (by simp)]
  have e3 : ((A ++ [(a, z)]).map (·.2)).getLast? = some z := by simp
  have e4 : ((A ++ [(a, z)]).map (·.1)).getLast? = some a := by simp
  rw [e3, e4]
  simp only [ho]
  simp

theorem pair_before {B : List (ℝ × Z)} {b s : ℝ} {z : Z} (st : σ)
    (h : (((b, z) :: B).map (·.1)).Pairwise (· < ·)) (hsb : s < b)
    (hc : ∀ u ∈ ((b, z) :: B).map (·.1), ¬ |s - u| ≤ S.rtol * |u|) {z' znew : Z} {st' : σ}
    (ho : S.outside z b s st = .ok ((z', znew), st')) :
    S.get1 s (pairMem ((b, z) :: B) st) =
      .ok (S.getvalue znew, pairMem ((s, znew) :: (b, z') :: B) st') := by
  have hk : bisectRight (((b, z) :: B).map (·.1)) s = 0 := by
    have := bisect_split (l1 := []) (l2 := ((b, z) :: B).map (·.1)) (s := s) (by simpa using h) (by simp) ?_
    · simpa using this
    · intro u hu
      rcases List.mem_cons.1 hu with rfl | hu
      · exact hsb
      · exact hsb.trans ((List.pairwise_cons.1 h).1 u hu)
  simp only [TrueSrc.get1, pairMem, hk]
  rw [if_pos trivial]
  have hl : ((b, z) :: B).length - 1 < ((b, z) :: B).length := by simp
  have e1 : (((b, z) :: B).map (·.1))[(((b, z) :: B).map (·.1)).length - 1]? =
      some ((((b, z) :: B)[((b, z) :: B).length - 1]'hl).1) := by
    rw [List.length_map, List.getElem?_map, List.getElem?_eq_getElem hl]; rfl
  have e2 : (((b, z) :: B).map (·.2))[(((b, z) :: B).map (·.1)).length - 1]? =
      some ((((b, z) :: B)[((b, z) :: B).length - 1]'hl).2) := by
    rw [List.length_map, List.getElem?_map, List.getElem?_eq_getElem hl]; rfl
  have hc' : ¬ isClose S.rtol s ((((b, z) :: B)[((b, z) :: B).length - 1]'hl).1) :=
    hc _ (List.mem_map.2 ⟨_, List.getElem_mem hl, rfl⟩)
  rw [e1, e2]
  simp only
  rw [if_neg hc', if_neg (by simp), if_pos trivial]
  simp [ho]

theorem pair_between_aux {A B : List (ℝ × Z)} {a b s : ℝ} {z1 z2 : Z} (st : σ)
    (h : ((A ++ (a, z1) :: (b, z2) :: B).map (·.1)).Pairwise (· < ·)) (has : a < s) (hsb : s < b)
    (hc : ¬ |s - a| ≤ S.rtol * |a|) :
    S.get1 s (pairMem (A ++ (a, z1) :: (b, z2) :: B) st) =
      match S.inside z1 z2 a b s st with
      | .error e => .error e
      | .ok ((z', none), st') =>
        .ok (S.getvalue z2, pairMem (A ++ (a, z') :: (b, z2) :: B) st')
      | .ok ((z', some znew), st') =>
        .ok (S.getvalue znew, pairMem (A ++ (a, z') :: (s, znew) :: (b, z2) :: B) st') := by
  have hk : bisectRight ((A ++ (a, z1) :: (b, z2) :: B).map (·.1)) s = A.length + 1 := by
    have e : (A ++ (a, z1) :: (b, z2) :: B).map (·.1) = (A.map (·.1) ++ [a]) ++ (b :: B.map (·.1)) := by
      simp
    rw [e] at h ⊢
    rw [bisect_split h]
    · simp
    · rw [List.pairwise_append, List.pairwise_append] at h
      intro u hu
      rcases List.mem_append.1 hu with hu | hu
      · exact ((h.1.2.2 u hu a (by simp)).trans has).le
      · rw [List.mem_singleton.1 hu]; exact has.le
    · rw [List.pairwise_append] at h
      intro u hu
      rcases List.mem_cons.1 hu with rfl | hu
      · exact hsb
      · exact hsb.trans ((List.pairwise_cons.1 h.2.1).1 u hu)
  simp only [TrueSrc.get1, pairMem, hk]
  rw [if_neg (by omega)]
  have e1 : ((A ++ (a, z1) :: (b, z2) :: B).map (·.1))[A.length + 1 - 1]? = some a := by simp
  have e2 : ((A ++ (a, z1) :: (b, z2) :: B).map (·.2))[A.length + 1 - 1]? = some z1 := by simp
  have e3 : ((A ++ (a, z1) :: (b, z2) :: B).map (·.1))[A.length + 1]? = some b := by simp
  have e4 : ((A ++ (a, z1) :: (b, z2) :: B).map (·.2))[A.length + 1]? = some z2 := by simp
  have hc' : ¬ isClose S.rtol s a := hc
  rw [e1, e2]
  simp only
  rw [if_neg hc', if_neg (by simp), if_neg (by omega), e3, e4]
  simp only
  have hset : ∀ z', ((A ++ (a, z1) :: (b, z2) :: B).map (·.2)).set (A.length + 1 - 1) z' =
      A.map (·.2) ++ z' :: z2 :: B.map (·.2) := by
    intro z'
    simp
  cases S.inside z1 z2 a b s st with
  | error e => rfl
  | ok r =>
    obtain ⟨⟨z', o⟩, st'⟩ := r
    cases o with
    | none => simp [hset]
    | some znew =>
      simp only [hset]
      have i1 : ((A ++ (a, z1) :: (b, z2) :: B).map (·.1)).insertIdx (A.length + 1) s =
          A.map (·.1) ++ a :: s :: b :: B.map (·.1) := by
        rw [List.map_append]
        exact insert_mid _ _ _ _ (by simp)
      have i2 : (A.map (·.2) ++ z' :: z2 :: B.map (·.2)).insertIdx (A.length + 1) znew =
          A.map (·.2) ++ z' :: znew :: z2 :: B.map (·.2) :=
        insert_mid _ _ _ _ (by simp)
      rw [i1, i2]
      simp

end mem

end Sdepy
