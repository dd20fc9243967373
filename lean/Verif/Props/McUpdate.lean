import Verif.Model.McUpdate
import Verif.Props.McIndex

/-!
# Updates of `montecarlo` instances obtained by indexing (C97)
-/

namespace Sdepy

open Spec

/-- A sequence of updates of an instance, with their outcomes. -/
inductive Spec.SoloRun {K : Type} [Field K] [LinearOrder K]
    (auto : String → Option (K × K) → List K → Py (List K)) : MC K → List (Batch K × Py Unit) → MC K → Prop
  | nil (mc) : SoloRun auto mc [] mc
  | cons {mc b mc' out l mc''} : mc.update auto b.x b.axis = (mc', out) → SoloRun auto mc' l mc'' →
      SoloRun auto mc ((b, out) :: l) mc''

/-- A sequence of updates of instances that share the number of paths, with their outcomes. -/
inductive Spec.ShareRun {K ι : Type} [Field K] [LinearOrder K] [DecidableEq ι]
    (auto : String → Option (K × K) → List K → Py (List K)) :
    (ι → MC K) → List (ι × Batch K × Py Unit) → (ι → MC K) → Prop
  | nil (objs) : ShareRun auto objs [] objs
  | cons {objs w b objs' out l objs''} : shareUpdate auto objs w b.x b.axis = (objs', out) →
      ShareRun auto objs' l objs'' → ShareRun auto objs ((w, b, out) :: l) objs''

section
variable {K : Type} [Field K]

theorem mcPrepare_error {use : String} {x : Arr K} {axis : ℤ} {e : PyErr} (h : mcPrepare use x axis = .error e) :
    e = .valueError := by
  have hm : ∀ (a : Arr K) e', a.moveLast axis = .error e' → e' = .valueError := by
    intro a e' h0
    unfold Arr.moveLast at h0
    split at h0
    · cases h0
    · cases h0; rfl
  unfold mcPrepare at h
  simp only at h
  split at h
  · next e' h0 =>
    obtain rfl : e' = e := by simpa using h
    exact hm _ _ h0
  · split at h
    · cases h; rfl
    · split at h
      · cases h
      · split at h
        · cases h; rfl
        · cases h

theorem mcPrepare_invalid {b : Batch K} (h : ¬ b.Valid "all") : mcPrepare "all" b.x b.axis = .error .valueError := by
  have hm : ∀ a : Arr K, a.shape.length = max 1 b.x.shape.length → a.moveLast b.axis = .error .valueError := by
    intro a ha
    unfold Arr.moveLast
    rw [if_neg]
    rw [ha]
    intro hc
    exact h ⟨by push_cast at hc ⊢; exact hc.1, by push_cast at hc ⊢; exact hc.2, .inl rfl⟩
  unfold mcPrepare
  simp only
  by_cases hx : b.x.shape = []
  · rw [if_pos hx, hm _ (by simp [hx])]
  · rw [if_neg hx, hm]
    have := List.length_pos_iff.2 hx
    omega

variable [LinearOrder K] {auto : String → Option (K × K) → List K → Py (List K)}

theorem updateHistogram_paths (mc : MC K) (st : Moments K) (x : Arr K) :
    (updateHistogram auto mc st x).1.paths = mc.paths := by
  unfold updateHistogram
  split <;> rfl

theorem update_paths_le (mc : MC K) (x : Arr K) (axis : ℤ) : mc.paths ≤ (mc.update auto x axis).1.paths := by
  unfold MC.update
  split
  · exact le_rfl
  · split
    · exact le_rfl
    · next st _ =>
      have := updateHistogram_paths (auto := auto) { mc with stats := some st } st
      split
      · next h => rw [← this, h]
      · next h =>
        have h2 := this (by assumption)
        rw [h] at h2
        simp only at h2 ⊢
        omega

/-- An instance without statistics cannot be updated, if the number of paths is not zero. -/
theorem update_stuck {mc : MC K} (hs : mc.stats = none) (hp : mc.paths ≠ 0) (x : Arr K) (axis : ℤ) :
    ∃ e, mc.update auto x axis = (mc, .error e) ∧ (e = .attributeError ∨ e = .valueError) := by
  unfold MC.update
  split
  · next e he => exact ⟨e, rfl, .inr (mcPrepare_error he)⟩
  · have : ∀ y, updateMoments mc.paths mc.stats y = .error .attributeError := by
      intro y
      unfold updateMoments
      simp only [if_neg hp, hs]
    simp only [this]
    exact ⟨_, rfl, .inl rfl⟩

variable {ι : Type} [DecidableEq ι]

/-- Once an instance has data and the others have no statistics, this stays so. -/
theorem shareRun_stuck {o o' : ι → MC K} {w : ι} {l : List (ι × Batch K × Py Unit)} (hp : ∀ v, (o v).paths = (o w).paths)
    (h0 : (o w).paths ≠ 0) (hs : ∀ v, v ≠ w → (o v).stats = none) (h : ShareRun auto o l o') :
    SoloRun auto (o w) ((l.filter fun p => p.1 = w).map fun p => p.2) (o' w) ∧
    (∀ v, v ≠ w → (o' v).stats = none ∧ (o' v).paths = (o' w).paths) ∧ (o' w).paths ≠ 0 ∧
    (∀ v b out, (v, b, out) ∈ l → v ≠ w → out = .error .attributeError ∨ out = .error .valueError) := by
  induction h with
  | nil objs => exact ⟨.nil _, fun v hv => ⟨hs v hv, hp v⟩, h0, by simp⟩
  | @cons objs u b objs' out l objs'' hu hr ih =>
    unfold shareUpdate at hu
    by_cases huw : u = w
    · subst huw
      generalize hup : (objs u).update auto b.x b.axis = r at hu
      obtain ⟨mc, out'⟩ := r
      simp only [Prod.mk.injEq] at hu
      obtain ⟨rfl, rfl⟩ := hu
      have hle := update_paths_le (auto := auto) (objs u) b.x b.axis
      rw [hup] at hle
      simp only at hle
      obtain ⟨i1, i2, i3, i4⟩ := ih (by
          intro v
          by_cases hv : v = u
          · simp [hv]
          · simp [hv]) (by simp only [if_true]; omega) (by
          intro v hv
          simp only [if_neg hv]
          exact hs v hv)
      refine ⟨?_, i2, i3, ?_⟩
      · simp only [if_true] at i1
        simp only [decide_true, List.filter_cons_of_pos, List.map_cons]
        exact .cons hup i1
      · intro v b' out'' hm hv
        rcases List.mem_cons.1 hm with hm | hm
        · simp only [Prod.mk.injEq] at hm
          exact absurd hm.1 hv
        · exact i4 v b' out'' hm hv
    · obtain ⟨e, he, hc⟩ := update_stuck (auto := auto) (hs u huw) (by rw [hp]; exact h0) b.x b.axis
      rw [he] at hu
      simp only [Prod.mk.injEq] at hu
      obtain ⟨ho, rfl⟩ := hu
      have hobj : objs' = objs := by
        rw [← ho]
        funext v
        by_cases hv : v = u
        · simp [hv]
        · simp only [if_neg hv, hp u, ← hp v]
      subst hobj
      obtain ⟨i1, i2, i3, i4⟩ := ih hp h0 hs
      refine ⟨?_, i2, i3, ?_⟩
      · rw [List.filter_cons_of_neg (by simpa using huw)]
        exact i1
      · intro v b' out'' hm hv
        rcases List.mem_cons.1 hm with hm | hm
        · simp only [Prod.mk.injEq] at hm
          obtain ⟨-, -, rfl⟩ := hm
          rcases hc with rfl | rfl
          · exact .inl rfl
          · exact .inr rfl
        · exact i4 v b' out'' hm hv

/-- **C97** (what holds). An instance that is empty, and any number of instances obtained from it by indexing: the first of them to
receive data, `w`, goes on as if it had no relation with the others, through all further updates; but the others
report the number of paths of `w`, hold no statistics, and none of their updates ever succeeds. -/
theorem C97_empty_partial {o o1 o2 : ι → MC K} {w : ι} {b : Batch K} {l : List (ι × Batch K × Py Unit)}
    (h0 : ∀ v, (o v).paths = 0) (hs : ∀ v, v ≠ w → (o v).stats = none)
    (hfirst : shareUpdate auto o w b.x b.axis = (o1, .ok ())) (hpos : (o1 w).paths ≠ 0)
    (hrun : ShareRun auto o1 l o2) :
    SoloRun auto (o w) ((b, .ok ()) :: (l.filter fun p => p.1 = w).map fun p => p.2) (o2 w) ∧
    (∀ v, v ≠ w → (o2 v).stats = none ∧ (o2 v).paths = (o2 w).paths ∧ (o2 v).paths ≠ 0) ∧
    (∀ v b out, (v, b, out) ∈ l → v ≠ w → out = .error .attributeError ∨ out = .error .valueError) := by
  unfold shareUpdate at hfirst
  generalize hup : (o w).update auto b.x b.axis = r at hfirst
  obtain ⟨mc, out⟩ := r
  simp only [Prod.mk.injEq] at hfirst
  obtain ⟨rfl, rfl⟩ := hfirst
  obtain ⟨i1, i2, i3, i4⟩ := shareRun_stuck (w := w) (by
      intro v
      by_cases hv : v = w
      · simp [hv]
      · simp [hv]) hpos (by
      intro v hv
      simp only [if_neg hv]
      exact hs v hv) hrun
  simp only [if_true] at i1
  exact ⟨.cons hup i1, fun v hv => ⟨(i2 v hv).1, (i2 v hv).2, (i2 v hv).2 ▸ i3⟩, i4⟩

/-- **C97** (indexing an empty instance). The result is a new instance, that processes samples as they are, whatever the
parameter `use` of the indexed instance. Its bins are those prescribed for the components it refers to: the
index has to be one of components, if bins are given explicitly for each component of shape `vs`, or as an array of
objects. -/
theorem C97_child (bins : Bins K) (range : Option (K × K)) (use : String) (i : List ℤ) :
    (∀ a, (MC.new bins range use).child i = .ok a → a.use = "all" ∧ a.paths = 0 ∧ a.stats = none) ∧
    (bins = .none ∨ (∃ n, bins = .int n) ∨ (∃ s, bins = .str s) → ∃ a, (MC.new bins range use).child i = .ok a ∧
      ∀ x c c' e, FirstEdges auto a.bins a.range x c e ↔ FirstEdges auto bins range x c' e) ∧
    (∀ vs n g, bins = .array ⟨vs ++ [n], g⟩ → ∀ k, IndexOf vs i k →
      ∃ a, (MC.new bins range use).child i = .ok a ∧
        ∀ x c e, FirstEdges auto a.bins a.range x c e ↔ FirstEdges auto bins range x (k ++ c) e) ∧
    (∀ b, bins = .objs b → ∀ k, IndexOf b.shape i k → ∃ a, (MC.new bins range use).child i = .ok a ∧
      ∀ x c e, k.length + c.length = b.shape.length →
        (FirstEdges auto a.bins a.range x c e ↔ FirstEdges auto bins range x (k ++ c) e)) := by
  have hnorm : ∀ {sh : List ℕ} {k : List ℕ}, IndexOf sh i k → normIdx sh i = .ok k := by
    intro sh k hk
    cases hn : normIdx sh i with
    | error e => exact absurd ⟨k, hk⟩ (normIdx_error hn).2
    | ok k' =>
      obtain ⟨h1, h2, h3, h4⟩ := hk
      obtain ⟨g1, g2, g3, g4⟩ := normIdx_ok hn
      congr 1
      apply List.ext_getElem (by omega)
      intro j hj hj'
      have hji : j < i.length := by omega
      have hjv : j < sh.length := by omega
      obtain ⟨m, e1, e2⟩ := h4 j i[j] sh[j] (List.getElem?_eq_getElem hji) (List.getElem?_eq_getElem hjv)
      obtain ⟨m', e1', e2'⟩ := g4 j i[j] sh[j] (List.getElem?_eq_getElem hji) (List.getElem?_eq_getElem hjv)
      rw [List.getElem?_eq_getElem hj', Option.some.injEq] at e1
      rw [List.getElem?_eq_getElem hj, Option.some.injEq] at e1'
      omega
  refine ⟨?_, ?_, ?_, ?_⟩
  · intro a h
    unfold MC.child at h
    simp only [MC.new] at h
    split at h
    · cases h; exact ⟨rfl, rfl, rfl⟩
    · cases h; exact ⟨rfl, rfl, rfl⟩
    · cases h; exact ⟨rfl, rfl, rfl⟩
    · split at h
      · cases h
      · cases h; exact ⟨rfl, rfl, rfl⟩
    · split at h
      · cases h
      · split at h
        · split at h <;> cases h <;> exact ⟨rfl, rfl, rfl⟩
        · cases h; exact ⟨rfl, rfl, rfl⟩
  · rintro (rfl | ⟨n, rfl⟩ | ⟨s, rfl⟩)
    · exact ⟨_, rfl, fun _ _ _ _ => Iff.rfl⟩
    · exact ⟨_, rfl, fun _ _ _ _ => Iff.rfl⟩
    · exact ⟨_, rfl, fun _ _ _ _ => Iff.rfl⟩
  · rintro vs n g rfl k hk
    have hk' : normIdx (vs ++ [n]) i = .ok k := by
      refine hnorm ?_
      obtain ⟨h1, h2, h3, h4⟩ := hk
      refine ⟨by simp; omega, by rw [List.take_append_of_le_length h1]; exact h2, h3, ?_⟩
      intro j a m hj hm
      have hjk : j < k.length := by rw [← h3]; exact (List.getElem?_eq_some_iff.1 hj).1
      rw [List.getElem?_append_left (by omega)] at hm
      exact h4 j a m hj hm
    have hlast : ((vs ++ [n]).drop k.length).getLastD 0 = n := by
      rw [List.drop_append_of_le_length hk.1]
      simp
    refine ⟨MC.new (.array (Arr.at ⟨vs ++ [n], g⟩ k)) none "all", ?_, ?_⟩
    · simp only [MC.child, MC.new, hk']
    · intro x c e
      simp only [MC.new, FirstEdges, Arr.at, hlast, List.append_assoc]
      simp
  · rintro b rfl k hk
    by_cases hl : b.shape.length = k.length
    · cases hb : b.get k with
      | none =>
        refine ⟨MC.new .none none "all", ?_, ?_⟩
        · simp only [MC.child, MC.new, hnorm hk, if_pos hl, hb]
        · intro x c e hc
          obtain rfl : c = [] := List.length_eq_zero_iff.1 (by omega)
          simp only [MC.new, FirstEdges, List.append_nil, hb, reduceCtorEq]
      | some l =>
        refine ⟨MC.new (.array ⟨[l.length], fun c => l.getD (c.headD 0) 0⟩) none "all", ?_, ?_⟩
        · simp only [MC.child, MC.new, hnorm hk, if_pos hl, hb]
        · intro x c e hc
          obtain rfl : c = [] := List.length_eq_zero_iff.1 (by omega)
          have hr : (List.range l.length).map (fun k => l.getD k 0) = l := by
            apply List.ext_getElem (by simp)
            intro j h1 h2
            simp [List.getD_eq_getElem?_getD, List.getElem?_eq_getElem h2]
          simp only [MC.new, FirstEdges, List.append_nil, hb, List.nil_append, List.headD_cons,
            List.getLastD_cons, List.getLastD_nil, Option.some.injEq]
          rw [hr]
          exact eq_comm
    · refine ⟨MC.new (.objs (b.at k)) none "all", ?_, ?_⟩
      · simp only [MC.child, MC.new, hnorm hk, if_neg hl]
      · intro x c e _
        simp only [MC.new, FirstEdges, Arr.at]

/-- **C97** (an instance that has data): no update of `a[i]` ever succeeds, in whatever state `cur` further updates have left
`a`; nothing is changed. It is an `AttributeError`, unless the sample has no such axis, and that is a `ValueError`. -/
theorem C97_view {mc : MC K} (_hpos : mc.paths ≠ 0) {i : List ℤ} {v : McView K} (_hv : mc.getItem i = .ok v)
    (cur : MC K) (b : Batch K) :
    (b.Valid "all" → v.update cur b.x b.axis = (cur, .error .attributeError)) ∧
    (¬ b.Valid "all" → v.update cur b.x b.axis = (cur, .error .valueError)) := by
  have hu : (v.resolve cur).use = "all" := by
    unfold McView.resolve
    split
    · rfl
    · split <;> rfl
  unfold McView.update
  rw [hu]
  constructor
  · intro hb
    obtain ⟨x, hx⟩ := prepare_total hb
    rw [hx]
  · intro hb
    rw [mcPrepare_invalid hb]

end

/-! ### Examples -/

/-- An empty instance, that should average antithetic values, and its component. -/
def exEven : MC ℚ := MC.new (.int 1) none "even"

/-- **C97** fails. `a = montecarlo(bins=1, use='even')`; `c = a[0]`; then `c.update([0, 2])` succeeds, but it cumulates the two values as
they are, rather than their half-sum. `a` then has two paths, but no mean and no components; it can
not be updated, `a.update([[0, 2]])` raising `AttributeError`. -/
theorem C97_false :
    ∃ c, exEven.child [0] = .ok c ∧
      let o : Bool → MC ℚ := fun v => if v then exEven else c
      let r := shareUpdate noAuto o false (arrOf [2] [0, 2]) (-1)
      let q := shareUpdate noAuto r.1 true (arrOf [1, 2] [0, 2]) (-1)
      r.2.isOk = true ∧
      (r.1 false).paths = 2 ∧ (exEven.update noAuto (arrOf [2] [0, 2]) (-1)).1.paths = 1 ∧
      (r.1 true).paths = 2 ∧ (r.1 true).mean.isNone = true ∧
      ((r.1 true).getItem [0]).toOption.isNone = true ∧ q.2 = .error .attributeError := by
  refine ⟨_, rfl, ?_⟩
  decide +kernel

/-- **C97** fails. `a = montecarlo([[0, 1], [1, 3]])`; then `a[1].update([2])` raises `AttributeError`. -/
theorem C97_view_false :
    ∃ v, exMC1.getItem [-1] = .ok v ∧ exMC1.paths ≠ 0 ∧ (Batch.mk (arrOf [1] [2]) (-1)).Valid "all" ∧
      v.update exMC1 (arrOf [1] [2]) (-1) = (exMC1, .error .attributeError) := by
  have hv : (Batch.mk (arrOf [1] [2]) (-1)).Valid "all" := ⟨by decide, by decide, .inl rfl⟩
  have hp : exMC1.paths ≠ 0 := by decide +kernel
  exact ⟨_, exView, hp, hv, (C97_view hp exView exMC1 ⟨arrOf [1] [2], -1⟩).1 hv⟩

/-- The hypotheses of `C97_empty_partial` hold together: the indexed instance is updated, then its component is, and then the
former again. -/
example :
    let o : Bool → MC ℚ := fun v => if v then exEven else MC.new (.int 1) none "all"
    let r1 := shareUpdate noAuto o true (arrOf [1, 2] [0, 2]) (-1)
    let r2 := shareUpdate noAuto r1.1 false (arrOf [2] [0, 2]) (-1)
    let r3 := shareUpdate noAuto r2.1 true (arrOf [1, 4] [0, 2, 1, 1]) (-1)
    (∀ v, (o v).paths = 0) ∧ (∀ v, v ≠ true → (o v).stats = none) ∧ r1.2 = .ok () ∧ (r1.1 true).paths ≠ 0 ∧
    ShareRun noAuto r1.1 [(false, ⟨arrOf [2] [0, 2], -1⟩, r2.2), (true, ⟨arrOf [1, 4] [0, 2, 1, 1], -1⟩, r3.2)] r3.1 ∧
    r2.2 = .error .attributeError ∧ r3.2 = .ok () ∧ (r3.1 false).paths = 3 := by
  intro o r1 r2 r3
  refine ⟨by decide, fun v _ => by cases v <;> rfl, by decide +kernel, by decide +kernel, ?_, by decide +kernel,
    by decide +kernel, by decide +kernel⟩
  exact .cons (by rfl) (.cons (by rfl) (.nil _))

/-- The hypotheses of `C97_child`: bins given for two components, one of which has no histogram. -/
example : IndexOf [2] [-1] [1] ∧
    ∃ a, (MC.new (.objs ⟨[2], fun c => if c = [1] then some [3, 4, (5 : ℚ)] else none⟩) none "odd").child [-1] = .ok a ∧
      FirstEdges noAuto a.bins a.range [] [] [3, 4, 5] := by
  refine ⟨normIdx_ok (by rfl), _, rfl, ?_⟩
  simp only [MC.new, FirstEdges]
  decide +kernel

/-- The hypotheses of `C97_child`: bins given for two components. -/
example : IndexOf [2] [-1] [1] ∧
    ∃ a, (MC.new (.array (arrOf [2, 3] [0, 1, 2, 3, 4, 5])) none "odd").child [-1] = .ok a ∧
      FirstEdges noAuto a.bins a.range [] [] [3, 4, 5] := by
  refine ⟨normIdx_ok (by rfl), _, rfl, ?_⟩
  simp only [MC.new, FirstEdges]
  decide +kernel

end Sdepy
