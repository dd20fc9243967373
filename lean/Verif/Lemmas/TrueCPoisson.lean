import Verif.Spec.TrueCPoisson
import Verif.Props.CPoisson
import Verif.Props.TrueSource
import Verif.Lemmas.Packing

/-!
# Variates of a compound Poisson source with memory: storing and splitting
-/

set_option linter.unusedSectionVars false
set_option linter.unusedSimpArgs false

namespace Sdepy

open Spec

variable {Y : Type} [CommRing Y] [DecidableEq Y]

/-- `Stores`, on arrays. -/
structure StoresA (d : Arr ℤ) (R : List ℕ → List Y) (ys : List (YSample Y)) : Prop where
  len : ∀ c, InRange d.shape c → ((R c).length : ℤ) = d.get c
  sorted : (ys.map (·.j)).Pairwise (· < ·)
  mem : ∀ i : ℕ, i ∈ ys.map (·.j) ↔ 0 < i ∧ ∃ c, InRange d.shape c ∧ d.get c = i
  rows : ∀ y ∈ ys, y.n = (cellsAt d y.j).length ∧
    ∀ r c, (cellsAt d y.j)[r]? = some c → ∀ k < y.j, y.val r k = (R c).getD k 0

theorem mem_cellsAt {d : Arr ℤ} {i : ℕ} {c : List ℕ} :
    c ∈ cellsAt d i ↔ InRange d.shape c ∧ d.get c = i := by
  rw [cellsAt, mem_trueCells]; simp

theorem cellsAt_nodup (d : Arr ℤ) (i : ℕ) : (cellsAt d i).Nodup := (ndindex_nodup _).filter _

theorem cellsAt_sorted (d : Arr ℤ) (i : ℕ) : (cellsAt d i).Pairwise (List.Lex (· < ·)) :=
  (ndindex_sorted _).filter _

theorem bget_full {y : YSample Y} {b : Arr Y} {n : ℕ}
    (h : (Arr.mk [y.n, y.j] fun i => y.val (i.headD 0) (i.getLastD 0)).broadcastTo [n, y.j] = .ok b)
    (hn : y.n = n) {r k : ℕ} (hr : r < n) (hk : k < y.j) : b.get [r, k] = y.val r k := by
  subst hn
  obtain ⟨b', e1, e2⟩ := broadcastTo_self (Arr.mk [y.n, y.j] fun i => y.val (i.headD 0) (i.getLastD 0))
  simp only at e1
  rw [h] at e1
  simp only [Except.ok.injEq] at e1
  subst e1
  have := e2.2 [r, k] (by rw [e2.1]; exact .cons hr (.cons hk .nil))
  rw [this]; rfl

theorem decodeLoop_ok {d : Arr ℤ} {R : List ℕ → List Y} {w : ℕ} {ys : List (YSample Y)}
    (hw : ∀ y ∈ ys, y.j ≤ w)
    (hrows : ∀ y ∈ ys, y.n = (cellsAt d y.j).length ∧
      ∀ r c, (cellsAt d y.j)[r]? = some c → ∀ k < y.j, y.val r k = (R c).getD k 0)
    (yy : List ℕ → ℕ → Y) :
    ∃ yy', decodeLoop d w ys yy = .ok yy' ∧ ∀ c k, yy' c k =
      if ∃ y ∈ ys, c ∈ cellsAt d y.j ∧ k < y.j then (R c).getD k 0 else yy c k := by
  induction ys generalizing yy with
  | nil => exact ⟨yy, rfl, by simp⟩
  | cons y ys ih =>
    obtain ⟨hn, hv⟩ := hrows y (by simp)
    have hmin : min y.j w = y.j := min_eq_left (hw y (by simp))
    obtain ⟨b, hb, -⟩ := broadcastTo_self (Arr.mk [y.n, y.j] fun i => y.val (i.headD 0) (i.getLastD 0))
    simp only at hb
    obtain ⟨yy', h1, h2⟩ := ih (fun y hy => hw y (by simp [hy])) (fun y hy => hrows y (by simp [hy]))
      (fun c k => if c ∈ cellsAt d y.j ∧ k < y.j then b.get [(cellsAt d y.j).idxOf c, k] else yy c k)
    refine ⟨yy', ?_, ?_⟩
    · simp only [decodeLoop, hmin, ← hn, hb]
      exact h1
    · intro c k
      rw [h2]
      by_cases hex : ∃ y ∈ ys, c ∈ cellsAt d y.j ∧ k < y.j
      · obtain ⟨y', hy', h'⟩ := hex
        rw [if_pos ⟨y', hy', h'⟩, if_pos ⟨y', by simp [hy'], h'⟩]
      · rw [if_neg hex]
        by_cases hc : c ∈ cellsAt d y.j ∧ k < y.j
        · rw [if_pos hc, if_pos ⟨y, by simp, hc⟩]
          have hlt := List.idxOf_lt_length_iff.2 hc.1
          rw [hn] at hb
          rw [bget_full (n := (cellsAt d y.j).length) (by simpa [hn] using hb) hn hlt hc.2]
          exact hv _ _ (by rw [List.getElem?_eq_getElem hlt, List.getElem_idxOf]) _ hc.2
        · rw [if_neg hc, if_neg]
          rintro ⟨y', hy', h'⟩
          rcases List.mem_cons.1 hy' with rfl | hy'
          · exact hc h'
          · exact hex ⟨y', hy', h'⟩

theorem arrMax_le {d : Arr ℤ} {m : ℤ} (h : arrMax d = .ok m) :
    ∃ c, InRange d.shape c ∧ d.get c = m := by
  unfold arrMax at h
  split at h
  · cases h
  · next x xs hx =>
    simp only [Except.ok.injEq] at h
    have : ∀ (l : List ℤ) (x : ℤ), l.foldl max x ∈ x :: l := by
      intro l
      induction l with
      | nil => simp
      | cons a l ih =>
        intro x
        have := ih (max x a)
        simp only [List.foldl_cons]
        rcases List.mem_cons.1 this with h | h
        · rw [h]
          rcases max_choice x a with h | h <;> rw [h] <;> simp
        · simp [h]
    have h2 := this xs x
    rw [h, ← hx] at h2
    obtain ⟨c, hc, rfl⟩ := List.mem_map.1 h2
    exact ⟨c, mem_ndindex.1 hc, rfl⟩

theorem arrMax_congr {a b : Arr ℤ} (h : a.Same b) : arrMax a = arrMax b := by
  unfold arrMax
  have : (ndindex a.shape).map a.get = (ndindex b.shape).map b.get := by
    rw [← h.1]
    exact List.map_congr_left fun c hc => h.2 c (mem_ndindex.1 hc)
  rw [this]

theorem arrMax_ok {d : Arr ℤ} {c : List ℕ} (hc : InRange d.shape c) : ∃ m, arrMax d = .ok m := by
  unfold arrMax
  split
  · next h =>
    have : c ∈ ndindex d.shape := mem_ndindex.2 hc
    simp only [List.map_eq_nil_iff] at h
    rw [h] at this
    cases this
  · exact ⟨_, rfl⟩

theorem StoresA.js {d : Arr ℤ} {R : List ℕ → List Y} {ys : List (YSample Y)} (h : StoresA d R ys)
    {m : ℤ} (hm : arrMax d = .ok m) :
    ys.map (·.j) = (List.range' 1 m.toNat).filter fun i => cellsAt d i ≠ [] := by
  have h1 := arrMax_spec hm
  refine List.Perm.eq_of_pairwise (le := (· < ·)) (fun a b _ _ h1 h2 => by omega) h.sorted
    ((@List.pairwise_lt_range' 1 m.toNat 1 (by omega)).filter _) ?_
  refine (List.perm_ext_iff_of_nodup (h.sorted.imp fun h => h.ne)
    ((@List.nodup_range' 1 m.toNat 1 (by omega)).filter _)).2 ?_
  intro i
  rw [h.mem, List.mem_filter, List.mem_range'_1]
  simp only [decide_eq_true_eq]
  constructor
  · rintro ⟨h0, c, hc, he⟩
    refine ⟨⟨h0, ?_⟩, ?_⟩
    · have := h1 c hc; omega
    · exact List.ne_nil_of_mem (mem_cellsAt.2 ⟨hc, he⟩)
  · rintro ⟨⟨h0, _⟩, hne⟩
    obtain ⟨c, hc⟩ := List.exists_mem_of_ne_nil _ hne
    exact ⟨h0, c, mem_cellsAt.1 hc⟩

/-- What is stored is read back. -/
theorem decodeY_ok {d : Arr ℤ} {R : List ℕ → List Y} {ys : List (YSample Y)} (h : StoresA d R ys)
    {m : ℤ} (hm : arrMax d = .ok m) :
    ∃ yy, decodeY d ys = .ok (m.toNat, yy) ∧
      ∀ c, InRange d.shape c → ∀ k, yy c k = (R c).getD k 0 := by
  have h1 := arrMax_spec hm
  obtain ⟨c0, hc0, he0⟩ := arrMax_le hm
  have hm0 : 0 ≤ m := by rw [← he0, ← h.len c0 hc0]; positivity
  obtain ⟨yy, e1, e2⟩ := decodeLoop_ok (R := R) (w := m.toNat) (ys := ys) (by
    intro y hy
    obtain ⟨_, c, hc, he⟩ := (h.mem y.j).1 (List.mem_map.2 ⟨y, hy, rfl⟩)
    have := h1 c hc
    omega) h.rows (fun _ _ => 0)
  refine ⟨yy, ?_, ?_⟩
  · unfold decodeY
    rw [hm]
    simp only
    rw [if_neg (by omega), e1]
    simp only
    rw [if_pos (h.js hm)]
  · intro c hc k
    rw [e2]
    split
    · rfl
    · next hn =>
      rw [List.getD_eq_getElem?_getD, List.getElem?_eq_none]
      · rfl
      · by_contra hlt
        push Not at hlt
        have hl := h.len c hc
        have hj : (R c).length ∈ ys.map (·.j) := (h.mem _).2 ⟨by omega, c, hc, hl.symm⟩
        obtain ⟨y, hy, hyj⟩ := List.mem_map.1 hj
        exact hn ⟨y, hy, mem_cellsAt.2 ⟨hc, by rw [hyj, hl]⟩, by omega⟩

theorem countP_nonzero {l : List Y} (hl : ∀ x ∈ l, x ≠ 0) {w : ℕ} (hw : l.length ≤ w) :
    (List.range w).countP (fun k => decide (l.getD k 0 ≠ 0)) = l.length := by
  have : w = l.length + (w - l.length) := by omega
  rw [this, List.range_add, List.countP_append]
  have e1 : (List.range l.length).countP (fun k => decide (l.getD k 0 ≠ 0)) = l.length := by
    conv_rhs => rw [← List.length_range (n := l.length)]
    rw [List.countP_eq_length]
    intro k hk
    have hk := List.mem_range.1 hk
    rw [List.getD_eq_getElem?_getD, List.getElem?_eq_getElem hk]
    simpa using hl _ (List.getElem_mem hk)
  have e2 : ((List.range (w - l.length)).map (l.length + ·)).countP
      (fun k => decide (l.getD k 0 ≠ 0)) = 0 := by
    rw [List.countP_eq_zero]
    intro k hk
    obtain ⟨i, _, rfl⟩ := List.mem_map.1 hk
    simp [List.getD_eq_getElem?_getD, List.getElem?_eq_none]
  rw [e1, e2]; simp

theorem encodeLoop_ok {d : Arr ℤ} {R : List ℕ → List Y} {w : ℕ} {yy : List ℕ → ℕ → Y}
    (hlen : ∀ c, InRange d.shape c → ((R c).length : ℤ) = d.get c)
    (hw : ∀ c, InRange d.shape c → (R c).length ≤ w)
    (hyy : ∀ c, InRange d.shape c → ∀ k, yy c k = (R c).getD k 0) (n i : ℕ) :
    ∃ ys, encodeLoop d w yy n i = .ok ys ∧ (ys.map (·.j)).Pairwise (· < ·) ∧
      (∀ a, a ∈ ys.map (·.j) ↔ i ≤ a ∧ a < i + n ∧ ∃ c, InRange d.shape c ∧ d.get c = a) ∧
      ∀ y ∈ ys, y.n = (cellsAt d y.j).length ∧
        ∀ r c, (cellsAt d y.j)[r]? = some c → ∀ k < y.j, y.val r k = (R c).getD k 0 := by
  induction n generalizing i with
  | zero =>
    refine ⟨[], rfl, by simp, ?_, by simp⟩
    intro a
    simp only [List.map_nil, List.not_mem_nil, false_iff]
    rintro ⟨h1, h2, -⟩
    omega
  | succ n ih =>
    obtain ⟨ys, e1, e2, e3, e4⟩ := ih (i + 1)
    unfold encodeLoop
    simp only
    by_cases hc : cellsAt d i = []
    · rw [if_pos hc]
      refine ⟨ys, e1, e2, ?_, e4⟩
      intro a
      rw [e3]
      constructor
      · rintro ⟨a1, a2, a3⟩; exact ⟨by omega, by omega, a3⟩
      · rintro ⟨a1, a2, c, hc1, hc2⟩
        refine ⟨?_, by omega, c, hc1, hc2⟩
        by_contra hlt
        have : a = i := by omega
        subst this
        have := mem_cellsAt.2 ⟨hc1, hc2⟩
        rw [hc] at this
        cases this
    · rw [if_neg hc, if_neg, e1]
      · obtain ⟨c0, hc0⟩ := List.exists_mem_of_ne_nil _ hc
        have hc0' := mem_cellsAt.1 hc0
        have hmin : min i w = i := by
          apply min_eq_left
          have := hlen c0 hc0'.1
          have := hw c0 hc0'.1
          omega
        refine ⟨_, rfl, ?_, ?_, ?_⟩
        · simp only [List.map_cons, List.pairwise_cons]
          refine ⟨?_, e2⟩
          intro a ha
          have := ((e3 a).1 ha).1
          omega
        · intro a
          simp only [List.map_cons, List.mem_cons, hmin]
          rw [e3]
          constructor
          · rintro (rfl | ⟨a1, a2, a3⟩)
            · exact ⟨le_rfl, by omega, c0, hc0'⟩
            · exact ⟨by omega, by omega, a3⟩
          · rintro ⟨a1, a2, a3⟩
            by_cases h : a = i
            · exact .inl h
            · exact .inr ⟨by omega, by omega, a3⟩
        · intro y hy
          rcases List.mem_cons.1 hy with rfl | hy
          · simp only [hmin]
            refine ⟨trivial, ?_⟩
            intro r c hr k hk
            have hcm := mem_cellsAt.1 (List.mem_of_getElem? hr)
            rw [List.getD_eq_getElem?_getD, hr, Option.getD_some]
            exact hyy c hcm.1 k
          · exact e4 y hy
      · rintro ⟨c, hcm, k, _, hk, hne⟩
        have hcm := mem_cellsAt.1 hcm
        apply hne
        rw [hyy c hcm.1, List.getD_eq_getElem?_getD, List.getElem?_eq_none]
        · rfl
        · have := hlen c hcm.1; omega

/-- Variates that are not zero can be stored. -/
theorem encodeY_ok {d : Arr ℤ} {R : List ℕ → List Y} {w : ℕ} {yy : List ℕ → ℕ → Y}
    (hlen : ∀ c, InRange d.shape c → ((R c).length : ℤ) = d.get c)
    (hw : ∀ c, InRange d.shape c → (R c).length ≤ w)
    (hyy : ∀ c, InRange d.shape c → ∀ k, yy c k = (R c).getD k 0)
    (hnz : ∀ c, InRange d.shape c → ∀ x ∈ R c, x ≠ 0) {c0 : List ℕ} (hc0 : InRange d.shape c0) :
    ∃ ys, encodeY d w yy = .ok ys ∧ StoresA d R ys := by
  obtain ⟨m, hm⟩ := arrMax_ok hc0
  have hcount : arrMax ⟨d.shape, fun c => (((List.range w).countP fun k => yy c k ≠ 0 : ℕ) : ℤ)⟩
      = .ok m := by
    rw [← hm]
    refine arrMax_congr ⟨rfl, fun c hc => ?_⟩
    simp only at hc ⊢
    rw [← hlen c hc, ← countP_nonzero (hnz c hc) (hw c hc)]
    congr 2
    funext k
    rw [hyy c hc]
  obtain ⟨ys, e1, e2, e3, e4⟩ := encodeLoop_ok hlen hw hyy m.toNat 1
  refine ⟨ys, ?_, hlen, e2, ?_, e4⟩
  · unfold encodeY
    rw [hm]
    simp only
    rw [hcount]
    simp only
    rw [if_neg (by simp), e1]
  · intro i
    rw [e3]
    constructor
    · rintro ⟨h1, _, h3⟩; exact ⟨h1, h3⟩
    · rintro ⟨h1, c, hc, he⟩
      refine ⟨h1, ?_, c, hc, he⟩
      have := arrMax_spec hm c hc
      omega

theorem splitLoop_ok {e : Arr ℤ} {w : ℕ} {yy1 : List ℕ → ℕ → Y} (is : List ℕ)
    (his : ∀ i ∈ is, i ≤ w) (upd new : List ℕ → ℕ → Y) :
    ∃ u v, splitLoop e w yy1 is upd new = .ok (u, v) ∧
      ∀ c, InRange e.shape c → ∀ k,
        u c k = (if (∃ i ∈ is, e.get c = i ∧ i ≤ k) then 0 else upd c k) ∧
        v c k = (if (∃ i ∈ is, e.get c = i ∧ k < w - i) then yy1 c ((e.get c).toNat + k) else new c k) := by
  induction is generalizing upd new with
  | nil => exact ⟨upd, new, rfl, by simp⟩
  | cons i is ih =>
    obtain ⟨u, v, e1, e2⟩ := ih (fun i hi => his i (by simp [hi]))
      (fun c k => if c ∈ cellsAt e i ∧ i ≤ k then 0 else upd c k)
      (fun c k => if c ∈ cellsAt e i ∧ k < w - i then yy1 c (i + k) else new c k)
    refine ⟨u, v, ?_, ?_⟩
    · unfold splitLoop
      rw [if_neg (by have := his i (by simp); omega)]
      exact e1
    · intro c hc k
      obtain ⟨h1, h2⟩ := e2 c hc k
      have hmem : c ∈ cellsAt e i ↔ e.get c = i := by rw [mem_cellsAt]; simp [hc]
      rw [h1, h2]
      simp only [hmem, List.exists_mem_cons_iff]
      constructor
      · by_cases ha : ∃ i ∈ is, e.get c = i ∧ i ≤ k
        · rw [if_pos ha, if_pos (.inr ha)]
        · rw [if_neg ha]
          by_cases hb : e.get c = i ∧ i ≤ k
          · rw [if_pos hb, if_pos (.inl hb)]
          · rw [if_neg hb, if_neg (not_or.2 ⟨hb, ha⟩)]
      · by_cases ha : ∃ i ∈ is, e.get c = i ∧ k < w - i
        · rw [if_pos ha, if_pos (.inr ha)]
        · rw [if_neg ha]
          by_cases hb : e.get c = i ∧ k < w - i
          · rw [if_pos hb, if_pos (.inl hb), hb.1]
            simp
          · rw [if_neg hb, if_neg (not_or.2 ⟨hb, ha⟩)]

theorem sum_range_getD (l : List Y) {w : ℕ} (hw : l.length ≤ w) :
    ((List.range w).map fun k => l.getD k 0).sum = l.sum := by
  induction l generalizing w with
  | nil => simp
  | cons a l ih =>
    cases w with
    | zero => simp at hw
    | succ w =>
      rw [List.range_succ_eq_map]
      simp only [List.map_cons, List.map_map, List.sum_cons, List.getD_cons_zero]
      congr 1
      rw [← ih (w := w) (by simpa using hw)]
      congr 1

/-- The variates between two times are split at a time between them. -/
theorem splitY_ok {d d1 d2 : Arr ℤ} {R : List ℕ → List Y} {ys : List (YSample Y)}
    (h : StoresA d R ys) (hs1 : d1.shape = d.shape) (hs2 : d2.shape = d.shape)
    (hd1 : ∀ c, InRange d.shape c → 0 ≤ d1.get c) (hd2 : ∀ c, InRange d.shape c → 0 ≤ d2.get c)
    (hsum : ∀ c, InRange d.shape c → d.get c = d1.get c + d2.get c)
    (hnz : ∀ c, InRange d.shape c → ∀ x ∈ R c, x ≠ 0) {c0 : List ℕ} (hc0 : InRange d.shape c0) :
    ∃ ys1 ys2 dj, splitY d d1 d2 ys = .ok (ys1, ys2, dj) ∧
      StoresA d1 (fun c => (R c).take (d1.get c).toNat) ys1 ∧
      StoresA d2 (fun c => (R c).drop (d1.get c).toNat) ys2 ∧
      ∀ c, InRange d.shape c → dj c = ((R c).take (d1.get c).toNat).sum := by
  obtain ⟨m, hm⟩ := arrMax_ok hc0
  obtain ⟨yy, e1, e2⟩ := decodeY_ok h hm
  obtain ⟨i1, hi1⟩ := arrMax_ok (d := d1) (c := c0) (by rw [hs1]; exact hc0)
  have hmax := arrMax_spec hm
  have hmax1 := arrMax_spec hi1
  obtain ⟨c1, hc1, hce⟩ := arrMax_le hi1
  rw [hs1] at hc1
  obtain ⟨u, v, s1, s2⟩ := splitLoop_ok (e := d1) (w := m.toNat) (yy1 := yy)
    (List.range (i1 + 1).toNat) (by
      intro i hi
      have := List.mem_range.1 hi
      have a1 := hmax c1 hc1
      have a2 := hsum c1 hc1
      have a3 := hd2 c1 hc1
      omega) yy (fun _ _ => 0)
  have hR : ∀ c, InRange d.shape c → (R c).length = (d.get c).toNat := by
    intro c hc; have := h.len c hc; omega
  have hu : ∀ c, InRange d1.shape c → ∀ k, u c k = ((R c).take (d1.get c).toNat).getD k 0 := by
    intro c hc k
    rw [(s2 c hc k).1]
    have hc' : InRange d.shape c := by rw [← hs1]; exact hc
    have a1 := hd1 c hc'
    have a2 := hmax1 c hc
    rw [List.getD_eq_getElem?_getD, List.getElem?_take]
    split
    · next hex =>
      obtain ⟨i, _, h1, h2⟩ := hex
      rw [if_neg (by omega)]; rfl
    · next hex =>
      rw [if_pos, e2 c hc', List.getD_eq_getElem?_getD]
      by_contra hlt
      exact hex ⟨(d1.get c).toNat, List.mem_range.2 (by omega), by omega, by omega⟩
  have hv : ∀ c, InRange d2.shape c → ∀ k, v c k = ((R c).drop (d1.get c).toNat).getD k 0 := by
    intro c hc k
    have hc' : InRange d.shape c := by rw [← hs2]; exact hc
    have hc1' : InRange d1.shape c := by rw [hs1]; exact hc'
    rw [(s2 c hc1' k).2]
    have a1 := hd1 c hc'
    have a2 := hmax1 c hc1'
    have a3 := hmax c hc'
    have a4 := hsum c hc'
    have a5 := hd2 c hc'
    rw [List.getD_eq_getElem?_getD, List.getElem?_drop]
    split
    · rw [e2 c hc', List.getD_eq_getElem?_getD]
    · next hex =>
      rw [List.getElem?_eq_none]
      · rfl
      · rw [hR c hc']
        by_contra hlt
        exact hex ⟨(d1.get c).toNat, List.mem_range.2 (by omega), by omega, by omega⟩
  obtain ⟨ys1, f1, f2⟩ := encodeY_ok (d := d1) (R := fun c => (R c).take (d1.get c).toNat)
    (w := m.toNat) (yy := u) (by
      intro c hc
      rw [hs1] at hc
      have a1 := hd1 c hc
      have a4 := hsum c hc
      have a5 := hd2 c hc
      rw [List.length_take, hR c hc]
      omega) (by
      intro c hc
      rw [hs1] at hc
      have a3 := hmax c hc
      rw [List.length_take, hR c hc]
      omega) hu (by
      intro c hc x hx
      rw [hs1] at hc
      exact hnz c hc x (List.mem_of_mem_take hx)) (c0 := c0) (by rw [hs1]; exact hc0)
  obtain ⟨ys2, g1, g2⟩ := encodeY_ok (d := d2) (R := fun c => (R c).drop (d1.get c).toNat)
    (w := m.toNat) (yy := v) (by
      intro c hc
      rw [hs2] at hc
      have a1 := hd1 c hc
      have a4 := hsum c hc
      have a5 := hd2 c hc
      rw [List.length_drop, hR c hc]
      omega) (by
      intro c hc
      rw [hs2] at hc
      have a3 := hmax c hc
      rw [List.length_drop, hR c hc]
      omega) hv (by
      intro c hc x hx
      rw [hs2] at hc
      exact hnz c hc x (List.mem_of_mem_drop hx)) (c0 := c0) (by rw [hs2]; exact hc0)
  refine ⟨ys1, ys2, fun c => ((List.range m.toNat).map (u c)).sum, ?_, f2, g2, ?_⟩
  · unfold splitY
    rw [hm]
    simp only
    rw [e1]
    simp only
    rw [hi1]
    simp only
    rw [s1]
    simp only
    rw [f1]
    simp only
    rw [g1]
  · intro c hc
    simp only
    rw [← sum_range_getD ((R c).take (d1.get c).toNat) (w := m.toNat)]
    · congr 1
      refine List.map_congr_left fun k _ => hu c (by rw [hs1]; exact hc) k
    · have a3 := hmax c hc
      rw [List.length_take, hR c hc]
      omega

/-! ### variates drawn -/

section
variable {σ : Type}

theorem jumpLoop_stores {rvs : Rvs Y σ} {sg : ℤ} {dn : Arr ℤ} {n j : ℕ} {dz : Arr Y}
    {ys : List (YSample Y)} {s : σ} {dz' : Arr Y} {ys' : List (YSample Y)} {s' : σ}
    (hs : dz.shape = dn.shape)
    (h : jumpLoop rvs sg dn n j dz ys s = .ok ((dz', ys'), s')) :
    ∃ new, ys' = ys ++ new ∧ (new.map (·.j)).Pairwise (· < ·) ∧
      (∀ a : ℕ, a ∈ new.map (·.j) ↔ j ≤ a ∧ a < j + n ∧ ∃ c, InRange dn.shape c ∧ dn.get c = a) ∧
      ∀ y ∈ new, y.n = (cellsAt dn y.j).length ∧ (∃ s1 s2, rvs y.n y.j s1 = .ok (y.val, s2)) ∧
        ∀ r c, (cellsAt dn y.j)[r]? = some c →
          dz'.get c = sg * ((List.range y.j).map (y.val r)).sum := by
  induction n generalizing j dz ys s with
  | zero =>
    simp only [jumpLoop, Except.ok.injEq, Prod.mk.injEq] at h
    obtain ⟨⟨rfl, rfl⟩, rfl⟩ := h
    refine ⟨[], by simp, by simp, ?_, by simp⟩
    intro a
    simp only [List.map_nil, List.not_mem_nil, false_iff]
    rintro ⟨h1, h2, -⟩
    omega
  | succ n ih =>
    simp only [jumpLoop] at h
    split at h
    · next hc =>
      obtain ⟨new, h1, h2, h3, h4⟩ := ih hs h
      refine ⟨new, h1, h2, ?_, h4⟩
      intro a
      rw [h3]
      constructor
      · rintro ⟨a1, a2, a3⟩; exact ⟨by omega, by omega, a3⟩
      · rintro ⟨a1, a2, c, hc1, hc2⟩
        refine ⟨?_, by omega, c, hc1, hc2⟩
        by_contra hlt
        have : a = j := by omega
        subst this
        have : c ∈ cellsAt dn a := mem_cellsAt.2 ⟨hc1, hc2⟩
        rw [cellsAt, hc] at this
        cases this
    · next hc =>
      split at h
      · cases h
      · next y s1 hy =>
        obtain ⟨dz1, e1, e2, e3⟩ := maskAssign_full (dz := dz) (cells := cellsAt dn j)
          (v := fun r => (sg : Y) * ((List.range j).map (y r)).sum)
          (fun i hi => by rw [hs]; exact (mem_cellsAt.1 hi).1)
        rw [← hs] at h
        rw [hs] at e1
        have e1' : maskAssign dz dz.shape (trueCells dz.shape fun i => decide (dn.get i = j))
          (fun r => (sg : Y) * ((List.range j).map (y r)).sum) = .ok dz1 := by
          rw [hs]; exact e1
        rw [e1'] at h
        simp only at h
        rw [hs] at h
        obtain ⟨new, h1, h2, h3, h4⟩ := ih (e2.trans hs) h
        obtain ⟨-, hkeep, -⟩ := jumpLoop_spec (e2.trans hs) h
        obtain ⟨c0, hc0⟩ := List.exists_mem_of_ne_nil _ hc
        have hc0' : InRange dn.shape c0 ∧ dn.get c0 = j := mem_cellsAt.1 hc0
        refine ⟨⟨(cellsAt dn j).length, j, y⟩ :: new, by rw [h1]; simp [cellsAt], ?_, ?_, ?_⟩
        · simp only [List.map_cons, List.pairwise_cons]
          refine ⟨?_, h2⟩
          intro a ha
          have := ((h3 a).1 ha).1
          omega
        · intro a
          simp only [List.map_cons, List.mem_cons]
          rw [h3]
          constructor
          · rintro (rfl | ⟨a1, a2, a3⟩)
            · exact ⟨le_rfl, by omega, c0, hc0'⟩
            · exact ⟨by omega, by omega, a3⟩
          · rintro ⟨a1, a2, a3⟩
            by_cases h : a = j
            · exact .inl h
            · exact .inr ⟨by omega, by omega, a3⟩
        · intro y' hy'
          rcases List.mem_cons.1 hy' with rfl | hy'
          · refine ⟨rfl, ⟨s, s1, hy⟩, ?_⟩
            intro r c hr
            have hcm := mem_cellsAt.1 (List.mem_of_getElem? hr)
            simp only at hr hcm ⊢
            rw [hkeep c hcm.1 (by rw [hcm.2]; push_cast; omega),
              e3 c (by rw [hs]; exact hcm.1.length), if_pos (mem_cellsAt.2 hcm)]
            obtain ⟨hlt, rfl⟩ := List.getElem?_eq_some_iff.1 hr
            rw [(cellsAt_nodup dn j).idxOf_getElem]
          · exact h4 y' hy'

theorem jumpLoop_keep {rvs : Rvs Y σ} {P : σ → Prop}
    (hP : ∀ n j s y s', rvs n j s = .ok (y, s') → P s → P s') {sg : ℤ} {dn : Arr ℤ} {n j : ℕ}
    {dz : Arr Y} {ys : List (YSample Y)} {s : σ} {dz' : Arr Y} {ys' : List (YSample Y)} {s' : σ}
    (h : jumpLoop rvs sg dn n j dz ys s = .ok ((dz', ys'), s')) (hs : P s) : P s' := by
  induction n generalizing j dz ys s with
  | zero =>
    simp only [jumpLoop, Except.ok.injEq, Prod.mk.injEq] at h
    rw [← h.2]; exact hs
  | succ n ih =>
    simp only [jumpLoop] at h
    split at h
    · exact ih h hs
    · split at h
      · cases h
      · next y s1 hy =>
        split at h
        · cases h
        · exact ih h (hP _ _ _ _ _ hy hs)

/-- Jumps, as counted by `dn`, and summed: they can be stored. -/
theorem jumps_stores {rvs : Rvs Y σ} {sg : ℤ} {dn : Arr ℤ} {m : ℤ} (hm : arrMax dn = .ok m)
    (hdn : ∀ c, InRange dn.shape c → 0 ≤ dn.get c) {s s' : σ} {dz : Arr Y}
    {ys : List (YSample Y)}
    (h : jumpLoop rvs sg dn m.toNat 1 ⟨dn.shape, fun _ => 0⟩ [] s = .ok ((dz, ys), s')) :
    ∃ R, StoresA dn R ys ∧ (∀ c, InRange dn.shape c → dz.get c = sg * (R c).sum) ∧
      ∀ c, InRange dn.shape c → ∀ x ∈ R c, ∃ n j s1 v s2 r k, rvs n j s1 = .ok (v, s2) ∧ r < n ∧
        k < j ∧ v r k = x := by
  obtain ⟨new, h1, h2, h3, h4⟩ := jumpLoop_stores (by rfl) h
  obtain ⟨-, hkeep, -⟩ := jumpLoop_spec (by rfl) h
  simp only [List.nil_append] at h1
  subst h1
  have hmax := arrMax_spec hm
  have hex : ∀ c, ∃ l : List Y, (InRange dn.shape c → dn.get c = 0 → l = []) ∧
      ∀ y ∈ ys, c ∈ cellsAt dn y.j → l = (List.range y.j).map (y.val ((cellsAt dn y.j).idxOf c)) := by
    intro c
    by_cases hc : ∃ y ∈ ys, c ∈ cellsAt dn y.j
    · obtain ⟨y, hy, hcy⟩ := hc
      refine ⟨(List.range y.j).map (y.val ((cellsAt dn y.j).idxOf c)), ?_, fun y' hy' hcy' => ?_⟩
      · intro _ h0
        have e1 := (mem_cellsAt.1 hcy).2
        have := ((h3 y.j).1 (List.mem_map.2 ⟨y, hy, rfl⟩)).1
        omega
      · have e1 := (mem_cellsAt.1 hcy).2
        have e2 := (mem_cellsAt.1 hcy').2
        have : y = y' := by
          have hj : y.j = y'.j := by omega
          obtain ⟨i, hi, rfl⟩ := List.mem_iff_getElem.1 hy
          obtain ⟨i', hi', rfl⟩ := List.mem_iff_getElem.1 hy'
          rcases lt_trichotomy i i' with hlt | rfl | hlt
          · have := List.pairwise_iff_getElem.1 h2 i i' (by simpa using hi) (by simpa using hi') hlt
            simp only [List.getElem_map] at this
            omega
          · rfl
          · have := List.pairwise_iff_getElem.1 h2 i' i (by simpa using hi') (by simpa using hi) hlt
            simp only [List.getElem_map] at this
            omega
        rw [this]
    · exact ⟨[], fun _ _ => rfl, fun y hy hcy => absurd ⟨y, hy, hcy⟩ hc⟩
  choose R hR0 hR using hex
  have hcell : ∀ c, InRange dn.shape c → dn.get c ≠ 0 → ∃ y ∈ ys, c ∈ cellsAt dn y.j := by
    intro c hc hne
    have a1 := hdn c hc
    have a2 := hmax c hc
    obtain ⟨y, hy, hyj⟩ := List.mem_map.1
      ((h3 (dn.get c).toNat).2 ⟨by omega, by omega, c, hc, by omega⟩)
    exact ⟨y, hy, mem_cellsAt.2 ⟨hc, by omega⟩⟩
  refine ⟨R, ⟨?_, h2, ?_, ?_⟩, ?_, ?_⟩
  · intro c hc
    by_cases h0 : dn.get c = 0
    · rw [hR0 c hc h0, h0]; rfl
    · obtain ⟨y, hy, hcy⟩ := hcell c hc h0
      rw [hR c y hy hcy, List.length_map, List.length_range, (mem_cellsAt.1 hcy).2]
  · intro i
    rw [h3]
    constructor
    · rintro ⟨a, _, b⟩; exact ⟨a, b⟩
    · rintro ⟨a, c, hc, hci⟩
      refine ⟨a, ?_, c, hc, hci⟩
      have := hmax c hc
      omega
  · intro y hy
    obtain ⟨hn, _, _⟩ := h4 y hy
    refine ⟨hn, ?_⟩
    intro r c hr k hk
    obtain ⟨hlt, rfl⟩ := List.getElem?_eq_some_iff.1 hr
    rw [hR _ y hy (List.getElem_mem hlt), (cellsAt_nodup dn y.j).idxOf_getElem,
      List.getD_eq_getElem?_getD, List.getElem?_map, List.getElem?_range hk]
    rfl
  · intro c hc
    by_cases h0 : dn.get c = 0
    · rw [hR0 c hc h0, hkeep c hc (by rw [h0]; simp)]; simp
    · obtain ⟨y, hy, hcy⟩ := hcell c hc h0
      have hlt := List.idxOf_lt_length_iff.2 hcy
      rw [hR c y hy hcy]
      exact (h4 y hy).2.2 _ _ (by rw [List.getElem?_eq_getElem hlt, List.getElem_idxOf])
  · intro c hc x hx
    by_cases h0 : dn.get c = 0
    · rw [hR0 c hc h0] at hx; cases hx
    · obtain ⟨y, hy, hcy⟩ := hcell c hc h0
      rw [hR c y hy hcy] at hx
      obtain ⟨k, hk, rfl⟩ := List.mem_map.1 hx
      obtain ⟨hn, ⟨s1, s2, hrv⟩, _⟩ := h4 y hy
      exact ⟨y.n, y.j, s1, y.val, s2, _, k, hrv, by rw [hn]; exact List.idxOf_lt_length_iff.2 hcy,
        List.mem_range.1 hk, rfl⟩

end

end Sdepy
