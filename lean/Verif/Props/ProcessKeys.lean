import Verif.Model.ProcessKeys
import Verif.Props.ProcessIndex

/-!
# Property C94: keys of process indexing
-/

namespace Sdepy

open Spec

variable {T K : Type}

/-- Positions that an item selects along an axis of size `n`: booleans, one per position, select in order the
positions where they are true. -/
def Spec.Selects (n : ℕ) (l : List ℕ) : GIx → Prop
  | .ix i => positions n i = some l
  | .npInt i => positions n (.int i) = some l
  | .mask m => m.length = n ∧ l.Pairwise (· < ·) ∧ ∀ k, k ∈ l ↔ m[k]? = some true

def GIx.isNpInt : GIx → Prop
  | .npInt _ => True
  | _ => False

theorem mem_truePos {m : List Bool} {k : ℕ} : k ∈ truePos m ↔ m[k]? = some true := by
  unfold truePos
  simp only [List.mem_filter, List.mem_range, List.getD_eq_getElem?_getD]
  constructor
  · rintro ⟨h1, h2⟩
    rw [List.getElem?_eq_getElem h1] at h2 ⊢
    simpa using h2
  · intro h
    obtain ⟨h1, h2⟩ := List.getElem?_eq_some_iff.1 h
    exact ⟨h1, by rw [h]; rfl⟩

theorem pairwise_truePos (m : List Bool) : (truePos m).Pairwise (· < ·) :=
  List.pairwise_lt_range.filter _

theorem selects_mask {n : ℕ} {l : List ℕ} {m : List Bool} (h : Selects n l (.mask m)) : l = truePos m := by
  obtain ⟨-, h2, h3⟩ := h
  refine List.Perm.eq_of_pairwise (le := (· < ·)) (fun a b _ _ hab hba => absurd (hab.trans hba) (lt_irrefl _)) h2
    (pairwise_truePos m) ?_
  refine (List.perm_ext_iff_of_nodup (h2.imp fun h => ne_of_lt h) ((pairwise_truePos m).imp fun h => ne_of_lt h)).2
    fun k => ?_
  rw [h3, mem_truePos]

theorem positions_truePos {n : ℕ} {m : List Bool} (h : m.length = n) :
    positions n (.list ((truePos m).map fun k : ℕ => (k : ℤ))) = some (truePos m) := by
  have hl : ∀ k ∈ truePos m, k < n := fun k hk => by
    obtain ⟨h1, -⟩ := List.getElem?_eq_some_iff.1 (mem_truePos.1 hk)
    omega
  unfold positions
  simp only
  rw [if_pos]
  · rw [List.map_map]
    congr 1
    conv_rhs => rw [← List.map_id (truePos m)]
    refine List.map_congr_left fun k hk => ?_
    simp only [Function.comp]
    rw [if_neg (by omega)]
    simp
  · intro i hi
    obtain ⟨k, hk, rfl⟩ := List.mem_map.1 hi
    have := hl k hk
    omega

/-- An index made of integers, slices and lists, equivalent to a Python integer, a slice, a list or booleans. -/
theorem toNp_slice {n : ℕ} {g : GIx} (hg : ¬ g.isNpInt) :
    (∃ i, (pyIntToSlice g).toNp n = .ok (intToSlice i) ∧ (∀ l, Selects n l g ↔ positions n i = some l) ∧
      ((∃ j, i = .int j) → g = .ix i)) ∨
    ((pyIntToSlice g).toNp n = .error .indexError ∧ ∀ l, ¬ Selects n l g) := by
  cases g with
  | ix i => exact .inl ⟨i, rfl, fun l => Iff.rfl, fun _ => rfl⟩
  | npInt i => exact absurd trivial hg
  | mask m =>
    by_cases h : m.length = n
    · refine .inl ⟨.list ((truePos m).map fun k : ℕ => (k : ℤ)), by simp [pyIntToSlice, GIx.toNp, h, intToSlice],
        fun l => ?_, by rintro ⟨j, hj⟩; cases hj⟩
      rw [positions_truePos h]
      constructor
      · intro hl
        rw [selects_mask hl]
      · intro hl
        simp only [Option.some.injEq] at hl
        subst hl
        exact ⟨h, pairwise_truePos m, fun k => mem_truePos⟩
    · exact .inr ⟨by simp [pyIntToSlice, GIx.toNp, h], fun l hl => h hl.1⟩

theorem npIndex_slice_shape {α : Type} {a r : Arr α} {n : ℕ} (ha : a.shape = [n]) {i : NpIx}
    (h : a.npIndex [intToSlice i] = .ok r) : r.shape ≠ [] := by
  have hs : ∀ i' : NpIx, (∀ j, i' ≠ .int j) → a.npIndex [i'] = .ok r → r.shape ≠ [] := by
    intro i' hi' h
    unfold Arr.npIndex at h
    rw [ha] at h
    cases i' with
    | int j => exact absurd rfl (hi' j)
    | slice b c d =>
      simp only [resolveIx, NpIx.sel] at h
      cases hs : sliceSel n b c d with
      | none => rw [hs] at h; cases h
      | some l =>
        rw [hs] at h
        simp only [List.any_cons, Sel.isAdv, List.any_nil, Bool.or_false, Bool.false_eq_true, if_false, manyDims,
          Except.ok.injEq] at h
        rw [← h]
        simp
    | list l' =>
      simp only [resolveIx, NpIx.sel] at h
      cases hs : l'.mapM (npPos n) with
      | none => rw [hs] at h; cases h
      | some l =>
        rw [hs] at h
        simp [Sel.isAdv, Sel.promote, advSize, manyDims, advTogether, Sel.isMany] at h
        rw [← h]
        simp
  refine hs _ (fun j hj => ?_) h
  cases i with
  | int k =>
    simp only [intToSlice] at hj
    split at hj <;> cases hj
  | slice b c d => cases hj
  | list l => cases hj

theorem timelineAt_eq {t : List T} {g : GIx} {i : NpIx} (h : g.toNp t.length = .ok (intToSlice i)) :
    timelineAt t [g] = listIndex t (intToSlice i) := by
  cases t with
  | nil => rfl
  | cons a t =>
    unfold timelineAt listIndex Arr.gIndex
    simp only [toNps, h]
    cases hr : (⟨[(a :: t).length], fun i => (a :: t).getD (i.headD 0) a⟩ : Arr T).npIndex [intToSlice i] with
    | error e => rfl
    | ok r =>
      simp only
      rw [if_neg (npIndex_slice_shape rfl hr)]

theorem shape_cons {p : Proc T K} (hp : IsProc p) : p.x.shape = p.t.length :: p.x.shape.tail := by
  have h := hp.2
  match hs : p.x.shape with
  | [] => rw [hs] at h; cases h
  | a :: s => rw [hs] at h; simpa using h

theorem getMode_t {p : Proc T K} (hp : IsProc p) {g : GIx} {i : NpIx}
    (h : (pyIntToSlice g).toNp p.t.length = .ok (intToSlice i)) : p.getMode "t" [g] = p.getT i := by
  unfold Proc.getMode Proc.getT
  rw [if_neg (by decide), if_neg (by decide), if_neg (by simp), if_pos rfl]
  simp only [List.map_cons, List.map_nil]
  rw [timelineAt_eq h]
  have : p.x.gIndex [pyIntToSlice g] = p.x.npIndex [intToSlice i] := by
    unfold Arr.gIndex
    rw [shape_cons hp]
    simp only [toNps, h]
  rw [this]
  rfl

theorem getMode_t_error {p : Proc T K} (hp : IsProc p) {g : GIx} {e : PyErr}
    (h : (pyIntToSlice g).toNp p.t.length = .error e) : p.getMode "t" [g] = .error e := by
  unfold Proc.getMode
  rw [if_neg (by decide), if_neg (by decide), if_neg (by simp), if_pos rfl]
  have : timelineAt p.t [pyIntToSlice g] = .error e := by
    cases ht : p.t with
    | nil => exact absurd ht hp.1
    | cons a t =>
      unfold timelineAt Arr.gIndex
      rw [ht] at h
      simp only [toNps, h]
  simp only [List.map_cons, List.map_nil, this]

theorem getMode_p {p : Proc T K} {g : GIx} {i : NpIx}
    (h : (pyIntToSlice g).toNp p.paths = .ok (intToSlice i)) : p.getMode "p" [g] = p.getP i := by
  unfold Proc.getMode Proc.getP
  rw [if_neg (by decide), if_neg (by decide), if_neg (by simp), if_neg (by decide)]
  simp only [List.map_cons, List.map_nil, Arr.gIndexLast]
  rw [show (pyIntToSlice g).toNp (p.x.shape.getLastD 0) = .ok (intToSlice i) from h]
  rfl

theorem getitem_mode {p : Proc T K} {a : String} {l : List GIx} :
    p.getitem (.mode a l) = match p.getMode a l with
      | .error e => .error e
      | .ok z => .ok (.proc z) := rfl

/-- **C94** (time; partial). `p['t', i]`, where `i` is a Python integer, a slice, a list of integers or of booleans, is
a process with times and values at the selected positions; an error is raised if there are none, or if `i` is
not a valid index. What is missing, for NumPy integers, is false: see `C94_false`, `C94_npint_time`. -/
theorem C94_time_partial (p : Proc T K) (hp : IsProc p) (g : GIx) (hg : ¬ g.isNpInt) :
    (∀ l, Selects p.t.length l g → l ≠ [] → ∃ z, p.getitem (.mode "t" [g]) = .ok (.proc z) ∧
      z.t.length = l.length ∧ z.x.shape = l.length :: p.x.shape.tail ∧
      ∀ (k j : ℕ), l[k]? = some j → z.t[k]? = p.t[j]? ∧
        ∀ r, InRange p.x.shape.tail r → z.x.get (k :: r) = p.x.get (j :: r)) ∧
    ((∀ l, Selects p.t.length l g → l = []) → ∃ e, p.getitem (.mode "t" [g]) = .error e) := by
  rcases toNp_slice (n := p.t.length) hg with ⟨i, h1, h2, -⟩ | ⟨h1, h2⟩
  · obtain ⟨c1, c2⟩ := C45_time p hp i
    have hm := getMode_t hp h1
    constructor
    · intro l hl hne
      obtain ⟨z, hz, rest⟩ := c1 l ((h2 l).1 hl) hne
      exact ⟨z, by rw [getitem_mode, hm, hz], rest⟩
    · intro h
      obtain ⟨e, he⟩ := c2 (by
        cases hpos : positions p.t.length i with
        | none => exact .inl rfl
        | some l => exact .inr (by rw [h l ((h2 l).2 hpos)]))
      exact ⟨e, by rw [getitem_mode, hm, he]⟩
  · refine ⟨fun l hl => absurd hl (h2 l), fun _ => ⟨.indexError, ?_⟩⟩
    rw [getitem_mode, getMode_t_error hp h1]

/-- **C94** (paths; partial). `p['p', i]`, where `i` is a Python integer, a slice, a list of integers or of booleans, has the
timeline of the process, and the values of the paths at the selected positions; an error is raised if `i` is not
a valid index, unless it is an integer. What is missing is false: see `C45_false` for Python integers that are out of
range, and `C94_false`, `C94_npint_paths` for NumPy integers. -/
theorem C94_paths_partial (p : Proc T K) (hp : IsProc p) (h2 : 2 ≤ p.x.shape.length) (g : GIx) (hg : ¬ g.isNpInt) :
    (∀ l, Selects p.paths l g → ∃ z, p.getitem (.mode "p" [g]) = .ok (.proc z) ∧ z.t = p.t ∧
      z.x.shape = p.x.shape.dropLast ++ [l.length] ∧
      ∀ (k j : ℕ), l[k]? = some j → ∀ i, InRange p.x.shape.dropLast i →
        z.x.get (i ++ [k]) = p.x.get (i ++ [j])) ∧
    ((∀ l, ¬ Selects p.paths l g) → (∀ i, g ≠ .ix (.int i)) → ∃ e, p.getitem (.mode "p" [g]) = .error e) := by
  rcases toNp_slice (n := p.paths) hg with ⟨i, e1, e2, e3⟩ | ⟨e1, e2⟩
  · obtain ⟨c1, c2⟩ := C45_paths_partial p hp h2 i
    have hm := getMode_p (p := p) e1
    constructor
    · intro l hl
      obtain ⟨z, hz, rest⟩ := c1 l ((e2 l).1 hl)
      exact ⟨z, by rw [getitem_mode, hm, hz], rest⟩
    · intro h hi
      obtain ⟨e, he⟩ := c2 (by
        cases hpos : positions p.paths i with
        | none => rfl
        | some l => exact absurd ((e2 l).2 hpos) (h l)) (fun j hj => hi j (by rw [e3 ⟨j, hj⟩, hj]))
      exact ⟨e, by rw [getitem_mode, hm, he]⟩
  · refine ⟨fun l hl => absurd hl (e2 l), fun _ _ => ⟨.indexError, ?_⟩⟩
    rw [getitem_mode]
    unfold Proc.getMode
    rw [if_neg (by decide), if_neg (by decide), if_neg (by simp), if_neg (by decide)]
    simp only [List.map_cons, List.map_nil, Arr.gIndexLast]
    rw [show (pyIntToSlice g).toNp (p.x.shape.getLastD 0) = .error .indexError from e1]

theorem toNps_all {s : List ℕ} {l : List GIx} (m : ℕ) :
    (∀ e, toNps s l = .ok e → toNps (s ++ [m]) (l ++ [.ix NpIx.all]) = .ok (e ++ [NpIx.all])) ∧
    (∀ e, toNps s l = .error e → ∃ e', toNps (s ++ [m]) (l ++ [.ix NpIx.all]) = .error e') := by
  induction l generalizing s with
  | nil =>
    cases s with
    | nil => exact ⟨fun e h => by cases h; rfl, fun e h => by cases h⟩
    | cons n s => exact ⟨fun e h => by cases h; simp [toNps, GIx.toNp], fun e h => by cases h⟩
  | cons g l ih =>
    cases s with
    | nil =>
      refine ⟨fun e h => (by cases h), fun e _ => ?_⟩
      simp only [List.nil_append, List.cons_append, toNps]
      cases g.toNp m with
      | error e' => exact ⟨_, rfl⟩
      | ok i =>
        have : toNps [] (l ++ [.ix NpIx.all]) = .error .indexError := by cases l <;> rfl
        rw [this]
        exact ⟨_, rfl⟩
    | cons n s =>
      simp only [List.cons_append, toNps]
      cases hg : g.toNp n with
      | error e' => exact ⟨fun e h => (by cases h), fun e _ => ⟨_, rfl⟩⟩
      | ok i =>
        simp only
        cases hl : toNps s l with
        | error e' =>
          obtain ⟨e2, he2⟩ := ih.2 e' hl
          rw [he2]
          exact ⟨fun e h => (by cases h), fun e _ => ⟨_, rfl⟩⟩
        | ok is =>
          rw [ih.1 is hl]
          exact ⟨fun e h => by cases h; rfl, fun e h => by cases h⟩

def GIx.isSlice : GIx → Prop
  | .ix (.slice _ _ _) => True
  | _ => False

def GIx.isList : GIx → Prop
  | .ix (.list _) => True
  | .mask _ => True
  | _ => False

/-- There are no lists (of integers, or of booleans), or lists and integers are not separated by slices. -/
def Spec.Together (l : List GIx) : Prop :=
  (∀ g ∈ l, ¬ g.isList) ∨ ∃ a b c, l = a ++ b ++ c ∧ (∀ g ∈ a, g.isSlice) ∧ (∀ g ∈ b, ¬ g.isSlice) ∧ ∀ g ∈ c, g.isSlice

theorem toNp_kind {g : GIx} {n : ℕ} {i : NpIx} (h : g.toNp n = .ok i) :
    (i.isSlice ↔ g.isSlice) ∧ (i.isList ↔ g.isList) := by
  cases g with
  | ix j =>
    cases h
    cases i <;> simp [GIx.isSlice, GIx.isList, NpIx.isSlice, NpIx.isList]
  | npInt j =>
    cases h
    simp [GIx.isSlice, GIx.isList, NpIx.isSlice, NpIx.isList]
  | mask m =>
    simp only [GIx.toNp] at h
    split at h
    · cases h
      simp [GIx.isSlice, GIx.isList, NpIx.isSlice, NpIx.isList]
    · cases h

theorem toNps_forall {s : List ℕ} {l : List GIx} {e : List NpIx} (h : toNps s l = .ok e) {Q : GIx → Prop}
    {R : NpIx → Prop} (hQR : ∀ g n i, GIx.toNp n g = .ok i → Q g → R i) (hl : ∀ g ∈ l, Q g) : ∀ i ∈ e, R i := by
  induction l generalizing s e with
  | nil => cases s <;> cases h <;> simp
  | cons g l ih =>
    cases s with
    | nil => cases h
    | cons n s =>
      simp only [toNps] at h
      cases hg : g.toNp n with
      | error e' => rw [hg] at h; cases h
      | ok i =>
        rw [hg] at h
        simp only at h
        cases hs : toNps s l with
        | error e' => rw [hs] at h; cases h
        | ok is =>
          rw [hs] at h
          cases h
          intro j hj
          rcases List.mem_cons.1 hj with rfl | hj
          · exact hQR g n j hg (hl g (by simp))
          · exact ih hs (fun g hg => hl g (by simp [hg])) j hj

theorem toNps_append {s : List ℕ} {l1 l2 : List GIx} {e : List NpIx} (h : toNps s (l1 ++ l2) = .ok e) :
    ∃ s' e1 e2, e = e1 ++ e2 ∧ toNps s l1 = .ok e1 ∧ toNps s' l2 = .ok e2 := by
  induction l1 generalizing s e with
  | nil => exact ⟨s, [], e, rfl, by cases s <;> rfl, h⟩
  | cons g l ih =>
    cases s with
    | nil => cases h
    | cons n s =>
      simp only [List.cons_append, toNps] at h
      cases hg : g.toNp n with
      | error e' => rw [hg] at h; cases h
      | ok i =>
        rw [hg] at h
        simp only at h
        cases hs : toNps s (l ++ l2) with
        | error e' => rw [hs] at h; cases h
        | ok is =>
          rw [hs] at h
          cases h
          obtain ⟨s', e1, e2, rfl, h1, h2⟩ := ih hs
          exact ⟨s', i :: e1, e2, rfl, by simp [toNps, hg, h1], h2⟩

theorem together_toNps {s : List ℕ} {l : List GIx} {e : List NpIx} (h : toNps s l = .ok e) (ht : Together l) :
    ListsTogether e := by
  rcases ht with ht | ⟨a, b, c, rfl, ha, hb, hc⟩
  · exact .inl (toNps_forall h (fun g n i hi hg => fun h' => hg ((toNp_kind hi).2.1 h')) ht)
  · obtain ⟨s', e1, e2, rfl, h1, h2⟩ := toNps_append h
    obtain ⟨s'', e3, e4, rfl, h3, h4⟩ := toNps_append h1
    exact .inr ⟨e3, e4, e2, rfl, toNps_forall h3 (fun g n i hi hg => (toNp_kind hi).1.2 hg) ha,
      toNps_forall h4 (fun g n i hi hg => fun h' => hg ((toNp_kind hi).1.1 h')) hb,
      toNps_forall h2 (fun g n i hi hg => (toNp_kind hi).1.2 hg) hc⟩

theorem shape_parts {p : Proc T K} (hp : IsProc p) (h2 : 2 ≤ p.x.shape.length) :
    p.x.shape = p.t.length :: p.vshape ++ [p.paths] := by
  have h := hp.2
  unfold Proc.vshape Proc.paths
  match hs : p.x.shape with
  | [] => rw [hs] at h2; simp at h2
  | [a] => rw [hs] at h2; simp at h2
  | a :: b :: s =>
    rw [hs] at h
    simp only [List.head?_cons, Option.some.injEq] at h
    subst h
    simp only [List.tail_cons, List.cons_append, List.cons.injEq, true_and]
    rw [List.getLastD_eq_getLast?, List.getLast?_eq_some_getLast (by simp)]
    simp only [Option.getD_some, List.getLast_cons_cons]
    exact (List.dropLast_append_getLast (by simp)).symm

/-- **C94** (values; partial). `p['v', i1, ..., ik]`, for items of any kind, has the timeline and paths of the process;
its values at each time and for each path are those of the process, as an array, indexed by `i1, ..., ik`. An error
is raised if these can not be indexed so. What is missing, for lists separated by slices, is false: see
`C45_lists_false`. -/
theorem C94_values_partial (p : Proc T K) (hp : IsProc p) (h2 : 2 ≤ p.x.shape.length) (l : List GIx)
    (ht : Together l) :
    (∀ y0, (pathAt p 0 0).gIndex l = .ok y0 → ∃ z, p.getitem (.mode "v" l) = .ok (.proc z) ∧ z.t = p.t ∧
      z.x.shape = p.t.length :: y0.shape ++ [p.paths] ∧
      ∀ k m, k < p.t.length → m < p.paths → ∃ y, (pathAt p k m).gIndex l = .ok y ∧ y.shape = y0.shape ∧
        ∀ j, InRange y.shape j → z.x.get (k :: j ++ [m]) = y.get j) ∧
    (∀ e, (pathAt p 0 0).gIndex l = .error e → ∃ e, p.getitem (.mode "v" l) = .error e) := by
  have hsh := shape_parts hp h2
  have hm : p.getMode "v" l = match p.x.gIndex (.ix NpIx.all :: l ++ [.ix NpIx.all]) with
      | .error e => .error e
      | .ok x => Proc.make p.t x := by
    unfold Proc.getMode
    rw [if_neg (by decide), if_pos rfl]
    rfl
  have hv : ∀ k m, (pathAt p k m).shape = p.vshape := fun _ _ => rfl
  cases he : toNps p.vshape l with
  | error e =>
    obtain ⟨e', he'⟩ := (toNps_all p.paths).2 e he
    have hx : p.x.gIndex (.ix NpIx.all :: l ++ [.ix NpIx.all]) = .error e' := by
      unfold Arr.gIndex
      rw [hsh]
      simp only [List.cons_append, toNps, GIx.toNp, he']
    have hp0 : (pathAt p 0 0).gIndex l = .error e := by
      unfold Arr.gIndex
      rw [hv, he]
    refine ⟨fun y0 h => (by rw [hp0] at h; cases h), fun e _ => ⟨e', ?_⟩⟩
    rw [getitem_mode, hm, hx]
  | ok is =>
    have he' := (toNps_all p.paths).1 is he
    have hx : p.x.gIndex (.ix NpIx.all :: l ++ [.ix NpIx.all]) = p.x.npIndex (NpIx.all :: is ++ [NpIx.all]) := by
      unfold Arr.gIndex
      rw [hsh]
      simp only [List.cons_append, toNps, GIx.toNp, he']
    have hg : ∀ k m, (pathAt p k m).gIndex l = (pathAt p k m).npIndex is := by
      intro k m
      unfold Arr.gIndex
      rw [hv, he]
    have hV : p.getitem (.mode "v" l) = match p.getV is with
        | .error e => .error e
        | .ok z => .ok (.proc z) := by
      rw [getitem_mode, hm, hx]
      rfl
    obtain ⟨c1, c2⟩ := C45_values_partial p hp h2 is (together_toNps he ht)
    simp only [hg]
    constructor
    · intro y0 hy0
      obtain ⟨z, hz, rest⟩ := c1 y0 hy0
      exact ⟨z, by rw [hV, hz], rest⟩
    · intro e h
      obtain ⟨e', h'⟩ := c2 e h
      exact ⟨e', by rw [hV, h']⟩

/-- **C94** (modes). Only keys that are, or start with, one of the strings `'v'`, `'t'`, `'p'` give a process, and these do
not give an array. Any other string raises `IndexError`, and more than one item after `'t'` or `'p'` raises
`AssertionError`. Items after the string may as well be given as one tuple. -/
theorem C94_modes (p : Proc T K) (a : String) (l : List GIx) :
    (∀ g z, p.getitem (.one g) ≠ .ok (.proc z)) ∧ (∀ z, p.getitem (.tuple l) ≠ .ok (.proc z)) ∧
    (∀ y, p.getitem (.mode a l) ≠ .ok (.arr y)) ∧ (∀ y, p.getitem (.str a) ≠ .ok (.arr y)) ∧
    (a ∉ ["v", "t", "p"] → p.getitem (.mode a l) = .error .indexError ∧ p.getitem (.str a) = .error .indexError) ∧
    (a = "t" ∨ a = "p" → 2 ≤ l.length → p.getitem (.mode a l) = .error .assertionError) ∧
    p.getitem (.modeTuple a l) = p.getitem (.mode a l) := by
  have hA : ∀ l z, (match p.x.gIndex l with
      | .error e => .error e
      | .ok a => .ok (.arr a) : Py (GOut T K)) ≠ .ok (.proc z) := by
    intro l z
    cases p.x.gIndex l <;> simp
  have hP : ∀ a l y, (match p.getMode a l with
      | .error e => .error e
      | .ok z => .ok (.proc z) : Py (GOut T K)) ≠ .ok (.arr y) := by
    intro a l y
    cases p.getMode a l <;> simp
  refine ⟨fun g z => hA _ z, fun z => hA _ z, fun y => hP _ _ y, fun y => hP _ _ y, fun ha => ?_, fun ha hl => ?_, rfl⟩
  · simp only [List.mem_cons, List.not_mem_nil, or_false, not_or] at ha
    have : ∀ l, p.getMode a l = .error .indexError := fun l => by
      unfold Proc.getMode
      rw [if_pos ha]
    exact ⟨by rw [getitem_mode, this], show (match p.getMode a [] with
      | .error e => .error e
      | .ok z => .ok (.proc z) : Py (GOut T K)) = _ by rw [this]⟩
  · rw [getitem_mode]
    have : p.getMode a l = .error .assertionError := by
      unfold Proc.getMode
      rcases ha with rfl | rfl
      · rw [if_neg (by decide), if_neg (by decide), if_pos (by omega)]
      · rw [if_neg (by decide), if_neg (by decide), if_pos (by omega)]
    rw [this]

theorem gIndex_nil {α : Type} (a : Arr α) : ∃ y, a.gIndex [] = .ok y ∧ y.shape = a.shape ∧
    ∀ i, InRange a.shape i → y.get i = a.get i := by
  have hany : (allSel a.shape).any Sel.isAdv = false := by
    rw [List.any_eq_false]
    intro b hb
    rw [not_isAdv (alls_isMany a.shape b hb)]
    simp
  have h0 : toNps a.shape [] = .ok [] := by cases a.shape <;> rfl
  unfold Arr.gIndex
  rw [h0]
  simp only
  unfold Arr.npIndex
  rw [resolveIx_nil]
  simp only
  rw [if_neg (by simp [hany])]
  exact ⟨_, rfl, manyDims_alls _, fun i hi => by simp only [pick_alls' hi]⟩

/-- **C94** (whole). `p['v']`, `p['t']` and `p['p']` are the process itself. -/
theorem C94_whole (p : Proc T K) (hp : IsProc p) (h2 : 2 ≤ p.x.shape.length) (a : String) (ha : a ∈ ["v", "t", "p"]) :
    ∃ z, p.getitem (.str a) = .ok (.proc z) ∧ z.t = p.t ∧ z.x.shape = p.x.shape ∧
      ∀ i, InRange p.x.shape i → z.x.get i = p.x.get i := by
  simp only [List.mem_cons, List.not_mem_nil, or_false] at ha
  have hstr : p.getitem (.str a) = p.getitem (.mode a []) := rfl
  rw [hstr]
  rcases ha with rfl | rfl | rfl
  · obtain ⟨y0, hy0, hs0, -⟩ := gIndex_nil (pathAt p 0 0)
    obtain ⟨z, hz, hzt, hzs, hzg⟩ := (C94_values_partial p hp h2 [] (.inl (by simp))).1 y0 hy0
    have hsh := shape_parts hp h2
    refine ⟨z, hz, hzt, by rw [hzs, hs0, hsh]; rfl, fun i hi => ?_⟩
    rw [hsh] at hi
    obtain ⟨i1, i2, rfl, h1, h3⟩ : ∃ i1 i2, i = i1 ++ i2 ∧ InRange (p.t.length :: p.vshape) i1 ∧ InRange [p.paths] i2 := by
      have := List.forall₂_take_append i _ _ (show List.Forall₂ (· < ·) i (p.t.length :: p.vshape ++ [p.paths]) from hi)
      have h' := List.forall₂_drop_append i _ _ (show List.Forall₂ (· < ·) i (p.t.length :: p.vshape ++ [p.paths]) from hi)
      exact ⟨_, _, (List.take_append_drop _ _).symm, this, h'⟩
    cases h1 with
    | cons hk hj =>
      rename_i k j
      cases h3 with
      | cons hm h0 =>
        rename_i m r
        cases h0
        obtain ⟨y, hy, hys, hyg⟩ := hzg k m hk hm
        obtain ⟨y', hy', hs', hg'⟩ := gIndex_nil (pathAt p k m)
        rw [hy'] at hy
        cases hy
        have := hyg j (by rw [hs']; exact hj)
        rw [this, hg' j hj]
        rfl
  · obtain ⟨y, hy, hys, hyg⟩ := gIndex_nil p.x
    have ht : timelineAt p.t [] = .ok p.t := by
      cases ht : p.t with
      | nil => exact absurd ht hp.1
      | cons a t =>
        obtain ⟨u, hu, hus, hug⟩ := gIndex_nil (⟨[(a :: t).length], fun i => (a :: t).getD (i.headD 0) a⟩ : Arr T)
        unfold timelineAt
        simp only [hu]
        rw [if_neg (by rw [hus]; simp)]
        congr 1
        apply List.ext_getElem
        · simp [Arr.toList1, hus]
        · intro k h1 h2
          simp only [Arr.toList1, List.getElem_map, List.getElem_range]
          rw [hug [k] (.cons h2 .nil)]
          simp only [List.headD_cons]
          rw [List.getD_eq_getElem?_getD, List.getElem?_eq_getElem h2]
          rfl
    refine ⟨⟨p.t, y⟩, ?_, rfl, hys, hyg⟩
    rw [getitem_mode]
    have : p.getMode "t" [] = .ok ⟨p.t, y⟩ := by
      unfold Proc.getMode
      rw [if_neg (by decide), if_neg (by decide), if_neg (by simp), if_pos rfl]
      simp only [List.map_nil, ht, hy]
      exact make_ok hp.1 (by rw [hys]; exact hp.2)
    rw [this]
  · refine ⟨p, ?_, rfl, rfl, fun _ _ => rfl⟩
    rw [getitem_mode]
    have : p.getMode "p" [] = .ok p := by
      unfold Proc.getMode
      rw [if_neg (by decide), if_neg (by decide), if_neg (by simp), if_neg (by decide)]
      simp only [List.map_nil, Arr.gIndexLast]
      exact make_ok hp.1 hp.2
    rw [this]

theorem sel_fix {n k : ℕ} {i : ℤ} (h : positions n (.int i) = some [k]) : (NpIx.int i).sel n = .ok (.fix k) := by
  have : npPos n i = some k := by
    unfold positions at h
    simp only at h
    unfold npPos
    split at h
    · rename_i h1
      rw [if_pos h1]
      simpa using h
    · rename_i h1
      rw [if_neg h1]
      split at h
      · rename_i h2
        rw [if_pos (by omega)]
        simpa using h
      · cases h
  simp [NpIx.sel, this]

theorem index_fix {α : Type} (a : Arr α) {s t : List ℕ} {n k : ℕ} (ha : a.shape = s ++ n :: t) {i : ℤ}
    (h : positions n (.int i) = some [k]) :
    ∃ b, a.npIndex (List.replicate s.length NpIx.all ++ [.int i]) = .ok b ∧ b.shape = s ++ t ∧
      ∀ u j, InRange s u → InRange t j → b.get (u ++ j) = a.get (u ++ k :: j) := by
  have hany : ∀ u, (allSel u).any Sel.isAdv = false := by
    intro u
    rw [List.any_eq_false]
    intro b hb
    rw [not_isAdv (alls_isMany u b hb)]
    simp
  have hr : resolveIx a.shape (List.replicate s.length NpIx.all ++ [.int i]) =
      .ok (allSel s ++ .fix k :: allSel t) := by
    rw [ha, resolveIx_alls]
    simp [resolveIx, sel_fix h, resolveIx_nil]
  unfold Arr.npIndex
  rw [hr]
  simp only
  rw [if_neg (by simp [List.any_append, hany, Sel.isAdv])]
  refine ⟨_, rfl, by simp [manyDims_append, manyDims, manyDims_alls], fun u j hu hj => ?_⟩
  simp only [pick_alls hu, pick, pick_alls' hj]

/-- **C94** (NumPy integers, paths). What is returned in fact by `p['p', i]`, if `i` is a NumPy integer that is a valid
position: the values of one path, without the axis of paths, so that the last axis of values counts as
that of paths. -/
theorem C94_npint_paths (p : Proc T K) (hp : IsProc p) (h2 : 2 ≤ p.x.shape.length) {i : ℤ} {k : ℕ}
    (hk : positions p.paths (.int i) = some [k]) :
    ∃ z, p.getitem (.mode "p" [.npInt i]) = .ok (.proc z) ∧ z.t = p.t ∧ z.x.shape = p.t.length :: p.vshape ∧
      ∀ j, InRange (p.t.length :: p.vshape) j → z.x.get j = p.x.get (j ++ [k]) := by
  have hsh := shape_parts hp h2
  obtain ⟨y, hy, hys, hyg⟩ := index_fix p.x (s := p.t.length :: p.vshape) (t := []) (by rw [hsh]) hk
  have hl : p.x.shape.length - 1 = (p.t.length :: p.vshape).length := by rw [hsh]; simp
  have hm : p.getMode "p" [.npInt i] = .ok ⟨p.t, y⟩ := by
    unfold Proc.getMode
    rw [if_neg (by decide), if_neg (by decide), if_neg (by simp), if_neg (by decide)]
    simp only [List.map_cons, List.map_nil, pyIntToSlice, Arr.gIndexLast, GIx.toNp, Arr.indexLast]
    rw [hl, hy]
    exact make_ok hp.1 (by rw [hys]; simp)
  refine ⟨⟨p.t, y⟩, by rw [getitem_mode, hm], rfl, by simpa using hys, fun j hj => ?_⟩
  have := hyg j [] hj .nil
  rwa [List.append_nil] at this

/-- **C94** (NumPy integers, time). What is returned in fact by `p['t', i]`, if `i` is a NumPy integer that is a valid
position: the axis of time is lost, and `ValueError` is raised, unless the first of the remaining axes has size
one, so that it counts as that of time. -/
theorem C94_npint_time (p : Proc T K) (hp : IsProc p) {i : ℤ} {k : ℕ}
    (hk : positions p.t.length (.int i) = some [k]) :
    (p.x.shape.tail.head? ≠ some 1 → p.getitem (.mode "t" [.npInt i]) = .error .valueError) ∧
    (p.x.shape.tail.head? = some 1 → ∃ z, p.getitem (.mode "t" [.npInt i]) = .ok (.proc z) ∧
      some z.t = (p.t[k]?).map (fun a => [a]) ∧ z.x.shape = p.x.shape.tail ∧
      ∀ j, InRange p.x.shape.tail j → z.x.get j = p.x.get (k :: j)) := by
  have hkn : k < p.t.length := positions_lt hk k (by simp)
  obtain ⟨y, hy, hys, hyg⟩ := index_fix p.x (s := []) (by rw [List.nil_append]; exact shape_cons hp) hk
  simp only [List.length_nil, List.replicate_zero, List.nil_append] at hy hys hyg
  have hgen : ∀ (t : List T) (hkn : k < t.length), positions t.length (.int i) = some [k] →
      timelineAt t [.npInt i] = .ok [t[k]] := by
    intro t hkn hk
    cases t with
    | nil => simp at hkn
    | cons a t =>
      obtain ⟨u, hu, hus, hug⟩ := index_fix (⟨[(a :: t).length], fun i => (a :: t).getD (i.headD 0) a⟩ : Arr T)
        (s := []) (t := []) rfl hk
      simp only [List.length_nil, List.replicate_zero, List.nil_append] at hu hus hug
      unfold timelineAt Arr.gIndex
      simp only [toNps, GIx.toNp]
      rw [hu]
      simp only
      rw [if_pos hus, show u.get [] = _ from hug [] [] .nil .nil]
      simp only [List.nil_append, List.headD_cons]
      rw [List.getD_eq_getElem?_getD, List.getElem?_eq_getElem hkn]
      rfl
  have ht := hgen p.t hkn hk
  have hx : p.x.gIndex [.npInt i] = .ok y := by
    unfold Arr.gIndex
    rw [shape_cons hp]
    simp only [toNps, GIx.toNp]
    exact hy
  have hm : p.getMode "t" [.npInt i] = Proc.make [p.t[k]] y := by
    unfold Proc.getMode
    rw [if_neg (by decide), if_neg (by decide), if_neg (by simp), if_pos rfl]
    simp only [List.map_cons, List.map_nil, pyIntToSlice, ht, hx]
  constructor
  · intro h
    have : Proc.make [p.t[k]] y = .error .valueError := by
      unfold Proc.make
      rw [if_neg (by simp), if_pos]
      rw [hys]
      intro hc
      apply h
      cases hs : p.x.shape.tail with
      | nil => rw [hs] at hc; simp at hc
      | cons b s => rw [hs] at hc; simpa using hc
    rw [getitem_mode, hm, this]
  · intro h
    have : Proc.make [p.t[k]] y = .ok ⟨[p.t[k]], y⟩ := make_ok (by simp) (by rw [hys, h]; rfl)
    refine ⟨⟨[p.t[k]], y⟩, by rw [getitem_mode, hm, this], ?_, hys, fun j hj => ?_⟩
    · rw [List.getElem?_eq_getElem hkn]
      rfl
    · have := hyg [] j .nil hj
      simpa using this

theorem resolve_fixes {s r : List ℕ} {is : List ℤ} {ks : List ℕ}
    (h : List.Forall₂ (fun (q : ℕ × ℤ) k => positions q.1 (.int q.2) = some [k]) (s.zip is) ks)
    (hl : s.length = is.length) : resolveIx (s ++ r) (is.map NpIx.int) = .ok (ks.map Sel.fix ++ allSel r) := by
  induction s generalizing is ks with
  | nil =>
    cases is with
    | nil => cases h; exact resolveIx_nil r
    | cons i is => simp at hl
  | cons n s ih =>
    cases is with
    | nil => simp at hl
    | cons i is =>
      cases h with
      | cons h1 h2 =>
        simp only [List.cons_append, List.map_cons, resolveIx, sel_fix h1, ih h2 (by simpa using hl)]

theorem pick_fixes (ks : List ℕ) (S : List Sel) (a : ℕ) (j : List ℕ) :
    pick (ks.map Sel.fix ++ S) a j = ks ++ pick S a j := by
  induction ks with
  | nil => rfl
  | cons k ks ih => simp [pick, ih]

theorem manyDims_fixes (ks : List ℕ) (S : List Sel) : manyDims (ks.map Sel.fix ++ S) = manyDims S := by
  induction ks with
  | nil => rfl
  | cons k ks ih => simp [manyDims, ih]

/-- An integer, of either kind. -/
def Spec.IsInt (g : GIx) (i : ℤ) : Prop := g = .ix (.int i) ∨ g = .npInt i

theorem toNps_ints {s r : List ℕ} {l : List GIx} {is : List ℤ} (h : List.Forall₂ IsInt l is)
    (hl : s.length = is.length) : toNps (s ++ r) l = .ok (is.map NpIx.int) := by
  induction h generalizing s with
  | nil => cases s <;> cases r <;> simp_all [toNps]
  | @cons g i l is hg _ ih =>
    cases s with
    | nil => simp at hl
    | cons n s =>
      have : g.toNp n = .ok (.int i) := by rcases hg with rfl | rfl <;> rfl
      simp [toNps, this, ih (by simpa using hl)]

/-- **C94** (arrays). Keys that do not start with a string are those of the array of values. A tuple of integers,
Python or NumPy ones, gives the array of values at the given positions along the first axes; a single integer, that at
one time. A slice, a list of integers or of booleans, gives the array of values at the selected times. -/
theorem C94_array (p : Proc T K) (hp : IsProc p) :
    (∀ (s r : List ℕ) (l : List GIx) (is : List ℤ) (ks : List ℕ), p.x.shape = s ++ r → List.Forall₂ IsInt l is →
      s.length = is.length →
      List.Forall₂ (fun (q : ℕ × ℤ) k => positions q.1 (.int q.2) = some [k]) (s.zip is) ks →
      ∃ y, p.getitem (.tuple l) = .ok (.arr y) ∧ y.shape = r ∧ ∀ j, InRange r j → y.get j = p.x.get (ks ++ j)) ∧
    (∀ g i k, IsInt g i → positions p.t.length (.int i) = some [k] →
      ∃ y, p.getitem (.one g) = .ok (.arr y) ∧ y.shape = p.x.shape.tail ∧
        ∀ j, InRange p.x.shape.tail j → y.get j = p.x.get (k :: j)) ∧
    (∀ g l, (∀ i, ¬ IsInt g i) → Selects p.t.length l g →
      ∃ y, p.getitem (.one g) = .ok (.arr y) ∧ y.shape = l.length :: p.x.shape.tail ∧
        ∀ (k j : ℕ), l[k]? = some j → ∀ r, InRange p.x.shape.tail r → y.get (k :: r) = p.x.get (j :: r)) := by
  have hT : ∀ l, p.getitem (.tuple l) = match p.x.gIndex l with
      | .error e => .error e
      | .ok a => .ok (.arr a) := fun l => rfl
  have hO : ∀ g, p.getitem (.one g) = p.getitem (.tuple [g]) := fun g => rfl
  have hmain : ∀ (s r : List ℕ) (l : List GIx) (is : List ℤ) (ks : List ℕ), p.x.shape = s ++ r →
      List.Forall₂ IsInt l is → s.length = is.length →
      List.Forall₂ (fun (q : ℕ × ℤ) k => positions q.1 (.int q.2) = some [k]) (s.zip is) ks →
      ∃ y, p.getitem (.tuple l) = .ok (.arr y) ∧ y.shape = r ∧ ∀ j, InRange r j → y.get j = p.x.get (ks ++ j) := by
    intro s r l is ks hs hl hlen hk
    have hany : ((ks.map Sel.fix ++ allSel r).any Sel.isAdv) = false := by
      rw [List.any_eq_false]
      intro b hb
      rcases List.mem_append.1 hb with hb | hb
      · obtain ⟨k, -, rfl⟩ := List.mem_map.1 hb
        simp [Sel.isAdv]
      · rw [not_isAdv (alls_isMany r b hb)]
        simp
    rw [hT]
    unfold Arr.gIndex
    rw [hs, toNps_ints hl hlen]
    simp only
    unfold Arr.npIndex
    rw [hs, resolve_fixes hk hlen]
    simp only
    rw [if_neg (by simp [hany])]
    refine ⟨_, rfl, by simp only [manyDims_fixes, manyDims_alls], fun j hj => ?_⟩
    simp only [pick_fixes, pick_alls' hj]
  refine ⟨hmain, fun g i k hg hk => ?_, fun g l hg hl => ?_⟩
  · rw [hO]
    obtain ⟨y, h1, h2, h3⟩ := hmain [p.t.length] p.x.shape.tail [g] [i] [k] (shape_cons hp) (.cons hg .nil) rfl
      (.cons hk .nil)
    exact ⟨y, h1, h2, fun j hj => h3 j hj⟩
  · have hn : ¬ g.isNpInt := fun h => by
      cases g with
      | npInt i => exact hg i (.inr rfl)
      | _ => exact h
    rcases toNp_slice (n := p.t.length) hn with ⟨i, h1, h2, h3⟩ | ⟨-, h2⟩
    · have hps : pyIntToSlice g = g := by
        cases g with
        | ix j =>
          cases j with
          | int j => exact absurd (.inl rfl) (hg j)
          | _ => rfl
        | _ => rfl
      rw [hps] at h1
      obtain ⟨y, hy, hys, hyg⟩ := index_axis p.x (s := []) (by rw [List.nil_append]; exact shape_cons hp)
        (sel_positions ((h2 l).1 hl))
      simp only [List.length_nil, List.replicate_zero, List.nil_append] at hy hys hyg
      have hx : p.x.gIndex [g] = .ok y := by
        unfold Arr.gIndex
        rw [shape_cons hp]
        simp only [toNps, h1]
        exact hy
      refine ⟨y, by rw [hO, hT, hx], hys, fun k j hkj r hr => ?_⟩
      obtain ⟨hk, -⟩ := List.getElem?_eq_some_iff.1 hkj
      have hg' : l.getD k 0 = j := by rw [List.getD_eq_getElem?_getD, hkj]; rfl
      have := hyg [] k r .nil hk hr
      rw [hg'] at this
      simpa using this
    · exact absurd hl (h2 l)

/-- **C94**, the negation, for NumPy integers. With values of shape `(3,)` and four paths, `p['p', 1]` has values of
shape `(3,)` and one path, while `p['p', np.int64(1)]` has values of shape `()` and three paths, that are the components of
the second path; `p['t', np.int64(1)]` raises `ValueError`, while `p['t', 1]` is the process at the second time. -/
theorem C94_false : ∃ (p z1 z2 z3 : Proc ℚ ℚ), IsProc p ∧ p.x.shape = [2, 3, 4] ∧
    p.getitem (.mode "p" [.ix (.int 1)]) = .ok (.proc z1) ∧ z1.vshape = [3] ∧ z1.paths = 1 ∧
    p.getitem (.mode "p" [.npInt 1]) = .ok (.proc z2) ∧ z2.vshape = [] ∧ z2.paths = 3 ∧
    (∀ k m, k < 2 → m < 3 → z2.x.get [k, m] = p.x.get [k, m, 1]) ∧
    p.getitem (.mode "t" [.ix (.int 1)]) = .ok (.proc z3) ∧ z3.x.shape = [1, 3, 4] ∧
    p.getitem (.mode "t" [.npInt 1]) = .error .valueError := by
  have hs : exProc.x.shape = [2, 3, 4] := rfl
  obtain ⟨z1, a1, -, a2, -⟩ := (C94_paths_partial exProc exProc_isProc (by simp [exProc]) (.ix (.int 1)) id).1 [1] rfl
  obtain ⟨z2, b1, -, b2, b3⟩ := C94_npint_paths exProc exProc_isProc (by simp [exProc]) (i := 1) (k := 1) rfl
  obtain ⟨z3, c1, -, c2, -⟩ := (C94_time_partial exProc exProc_isProc (.ix (.int 1)) id).1 [1] rfl (by simp)
  refine ⟨exProc, z1, z2, z3, exProc_isProc, hs, a1, ?_, ?_, b1, ?_, ?_, fun k m hk hm => ?_, c1, c2,
    (C94_npint_time exProc exProc_isProc (i := 1) (k := 1) rfl).1 (by simp [exProc])⟩
  · unfold Proc.vshape
    rw [a2]
    rfl
  · unfold Proc.paths
    rw [a2]
    rfl
  · unfold Proc.vshape
    rw [b2]
    rfl
  · unfold Proc.paths
    rw [b2]
    rfl
  · exact b3 [k, m] (.cons hk (.cons hm .nil))

/-! ### Examples -/

example := (C94_time_partial exProc exProc_isProc (.mask [false, true]) id).1 [1]
  ⟨rfl, by simp, fun k => by match k with | 0 => simp | 1 => simp | k + 2 => simp⟩ (by simp)
example := (C94_time_partial exProc exProc_isProc (.mask [true]) id).2 fun l h => absurd h.1 (by simp [exProc])
example : ∃ z, exProc.getitem (.mode "p" [.mask [true, false, false, true]]) = .ok (.proc z) ∧ z.x.shape = [2, 3, 2] ∧
    z.x.get [1, 2, 1] = 123 := by
  obtain ⟨z, h1, -, h2, h3⟩ := (C94_paths_partial exProc exProc_isProc (by simp [exProc])
    (.mask [true, false, false, true]) id).1 [0, 3]
    ⟨rfl, by simp, fun k => by match k with | 0 => simp | 1 => simp | 2 => simp | 3 => simp | k + 4 => simp⟩
  refine ⟨z, h1, h2, ?_⟩
  refine (h3 1 3 rfl [1, 2] (.cons (by decide) (.cons (by decide) .nil))).trans ?_
  norm_num [exProc]
example : ∃ z, exProc.getitem (.mode "v" [.npInt (-1)]) = .ok (.proc z) ∧ z.x.shape = [2, 4] := by
  obtain ⟨z, h1, -, h3, -⟩ := (C94_values_partial exProc exProc_isProc (by simp [exProc]) [.npInt (-1)]
    (.inl (by simp [GIx.isList]))).1 _ rfl
  exact ⟨z, h1, h3⟩
example : ∃ z, exProc.getitem (.mode "v" [.mask [true, false, true]]) = .ok (.proc z) ∧ z.x.shape = [2, 2, 4] := by
  obtain ⟨z, h1, -, h3, -⟩ := (C94_values_partial exProc exProc_isProc (by simp [exProc]) [.mask [true, false, true]]
    (.inr ⟨[], [.mask [true, false, true]], [], by simp, by simp, by simp [GIx.isSlice], by simp⟩)).1 _ rfl
  exact ⟨z, h1, h3⟩
example : ∃ y, exProc.getitem (.tuple [.ix (.int 1), .npInt (-1)]) = .ok (.arr y) ∧ y.shape = [4] ∧ y.get [3] = 123 := by
  obtain ⟨y, h1, h2, h3⟩ := (C94_array exProc exProc_isProc).1 [2, 3] [4] [.ix (.int 1), .npInt (-1)] [1, -1] [1, 2] rfl
    (.cons (.inl rfl) (.cons (.inr rfl) .nil)) rfl (.cons rfl (.cons rfl .nil))
  refine ⟨y, h1, h2, (h3 [3] (.cons (by decide) .nil)).trans ?_⟩
  norm_num [exProc]
example := (C94_array exProc exProc_isProc).2.1 (.npInt (-1)) (-1) 1 (.inr rfl) rfl
example := (C94_array exProc exProc_isProc).2.2 (.ix (.list [1, 1, -2])) [1, 1, 0] (by simp [IsInt])
  (show positions 2 (.list [1, 1, -2]) = some [1, 1, 0] by decide)
example := C94_whole exProc exProc_isProc (by simp [exProc]) "v" (by simp)
example := (C94_modes exProc "x" [.npInt 0]).2.2.2.2.1 (by simp)
example := (C94_modes exProc "t" [.npInt 0, .npInt 1]).2.2.2.2.2.1 (.inl rfl) (by simp)
example := C94_npint_paths exProc exProc_isProc (by simp [exProc]) (i := -1) (k := 3) rfl
example : ∃ z, (⟨[0, 1], ⟨[2, 1, 4], fun i => (i.sum : ℕ)⟩⟩ : Proc ℚ ℚ).getitem (.mode "t" [.npInt 1]) = .ok (.proc z) ∧
    z.t = [1] ∧ z.x.shape = [1, 4] := by
  obtain ⟨z, h1, h2, h3, -⟩ := (C94_npint_time (⟨[0, 1], ⟨[2, 1, 4], fun i => (i.sum : ℕ)⟩⟩ : Proc ℚ ℚ) ⟨by simp, rfl⟩
    (i := 1) (k := 1) rfl).2 rfl
  exact ⟨z, h1, by simpa using h2, h3⟩

end Sdepy
