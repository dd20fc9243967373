import Verif.Spec.SDE
import Verif.Props.PathsMore
import Mathlib.Algebra.BigOperators.Ring.Finset

/-! # Lemmas on the integration of SDEs -/

set_option linter.unusedSectionVars false
set_option linter.unusedSimpArgs false

namespace Sdepy

open Spec BigOperators

section
variable {Id : Type} [DecidableEq Id]

/-! ### dictionaries -/

theorem lookup_eq_none_iff' {V : Type} (A : List (Id × V)) (id : Id) :
    A.lookup id = none ↔ id ∉ A.map Prod.fst := by
  induction A with
  | nil => simp
  | cons p A ih =>
    obtain ⟨k, v⟩ := p
    rw [List.lookup_cons]
    by_cases h : id = k
    · simp [h]
    · have : (id == k) = false := by simp [h]
      rw [this]; simp [ih, h]

theorem lookup_of_mem {V : Type} {A : List (Id × V)} (hA : DictOk A) {p : Id × V} (hp : p ∈ A) :
    A.lookup p.1 = some p.2 := by
  induction A with
  | nil => simp at hp
  | cons q A ih =>
    obtain ⟨k, v⟩ := q
    have hnd : k ∉ A.map Prod.fst ∧ (A.map Prod.fst).Nodup := List.nodup_cons.1 hA
    rw [List.lookup_cons]
    rcases List.mem_cons.1 hp with h | h
    · subst h; simp
    · have : p.1 ≠ k := by
        intro hc; apply hnd.1; rw [← hc]; exact List.mem_map_of_mem h
      have h2 : (p.1 == k) = false := by simp [this]
      rw [h2]; exact ih hnd.2 h

end

section
variable {T X O Id σ : Type} [Zero T] [One T] [Neg T] [Sub T] [Mul T] [LinearOrder T] [Linspace T] [SignOk T]
  [Zero X] [Add X] [Mul X] [LinearOrder Id]

theorem entry_cons (k : Id) (v : X) (A : List (Id × X)) :
    entry ((k, v) :: A) = Function.update (entry A) k v := by
  funext id
  unfold entry
  rw [List.lookup_cons]
  by_cases h : id = k
  · subst h; simp
  · have h2 : (id == k) = false := by simp [h]
    rw [h2, Function.update_of_ne h]

theorem entry_of_not_mem {A : List (Id × X)} {id : Id} (h : id ∉ A.map Prod.fst) :
    entry A id = 0 := by
  unfold entry; rw [(lookup_eq_none_iff' A id).2 h]; rfl

/-! ### one step -/

theorem evalSources_realise (z : Id → T → T → σ → Py (X × σ)) (t dt : T) :
    ∀ (L : List (Id × (T → T → σ → Py (X × σ)))) (s : σ), (∀ p ∈ L, z p.1 = p.2) →
      realise z t dt (L.map Prod.fst) s =
        (do let (vs, s) ← evalSources t dt L s
            pure (entry vs, s)) := by
  intro L
  induction L with
  | nil => intro s _; rfl
  | cons p L ih =>
    obtain ⟨id, v⟩ := p
    intro s h
    have h1 : z id = v := h (id, v) (by simp)
    simp only [List.map_cons, realise, evalSources, h1, bind, Except.bind, pure, Except.pure]
    cases v t dt s with
    | error e => rfl
    | ok r =>
      have := ih r.2 (fun p hp => h p (by simp [hp]))
      simp only [bind, Except.bind, pure, Except.pure] at this
      simp only [this]
      cases evalSources t dt L r.2 with
      | error e => rfl
      | ok q => simp only [entry_cons]

theorem evalSources_keys (t dt : T) :
    ∀ (L : List (Id × (T → T → σ → Py (X × σ)))) (s : σ) {vs s'},
      evalSources t dt L s = .ok (vs, s') → vs.map Prod.fst = L.map Prod.fst := by
  intro L
  induction L with
  | nil => intro s vs s' h; simp [evalSources] at h; simp [← h.1]
  | cons p L ih =>
    obtain ⟨id, z⟩ := p
    intro s vs s' h
    simp only [evalSources] at h
    cases h1 : z t dt s with
    | error e => simp [h1] at h
    | ok r =>
      simp only [h1] at h
      cases h2 : evalSources t dt L r.2 with
      | error e => simp [h2] at h
      | ok q =>
        simp only [h2, Except.ok.injEq, Prod.mk.injEq] at h
        rw [← h.1]
        simp [ih _ h2]

theorem addAdZ_eq (dZ : List (Id × X)) :
    ∀ (A : List (Id × X)) (acc : X), (∀ k ∈ A.map Prod.fst, k ∈ dZ.map Prod.fst) →
      addAdZ dZ A acc = .ok (A.foldl (fun acc p => acc + p.2 * entry dZ p.1) acc) := by
  intro A
  induction A with
  | nil => intro _ _; rfl
  | cons p A ih =>
    obtain ⟨k, a⟩ := p
    intro acc h
    have hk : k ∈ dZ.map Prod.fst := h k (by simp)
    cases hl : dZ.lookup k with
    | none => exact absurd hk ((lookup_eq_none_iff' _ _).1 hl)
    | some z =>
      simp only [addAdZ, hl, ih _ (fun k hk => h k (by simp at hk ⊢; tauto)), List.foldl_cons]
      simp [entry, hl]

theorem sortedSources_keys (L : List (Id × (T → T → σ → Py (X × σ)))) (h : DictOk L) :
    (L.insertionSort (fun a b => a.1 ≤ b.1)).map Prod.fst =
      (L.map Prod.fst).toFinset.sort (· ≤ ·) := by
  have hp : ((L.insertionSort (fun a b => a.1 ≤ b.1)).map Prod.fst).Perm
      ((L.map Prod.fst).toFinset.sort (· ≤ ·)) := by
    have h1 := (List.perm_insertionSort (fun a b : Id × (T → T → σ → Py (X × σ)) => a.1 ≤ b.1) L).map
      Prod.fst
    refine h1.trans ?_
    refine List.Perm.trans ?_ (Finset.sort_perm_toList _ _).symm
    have := List.toFinset_toList h
    exact this.symm
  have hs : ((L.insertionSort (fun a b => a.1 ≤ b.1)).map Prod.fst).Pairwise (· ≤ ·) := by
    rw [List.pairwise_map]
    have : Std.Total (fun a b : Id × (T → T → σ → Py (X × σ)) => a.1 ≤ b.1) :=
      ⟨fun a b => le_total a.1 b.1⟩
    have : IsTrans (Id × (T → T → σ → Py (X × σ))) (fun a b => a.1 ≤ b.1) :=
      ⟨fun a b c h1 h2 => le_trans h1 h2⟩
    exact List.pairwise_insertionSort _ L
  exact hp.eq_of_pairwise' hs (Finset.pairwise_sort _ _)

/-- `euler_next` performs a step of the stated equation, adding its terms in the order of the dictionary. -/
theorem eulerNext_rounded (S : SDE T X O Id σ) (hS : DictOk S.sources) (t : T) (x : X) (t' : T) (s : σ) :
    S.eulerNext t x t' s = roundedStep S t x t' s := by
  unfold SDE.eulerNext roundedStep SDE.A
  cases hsde : S.sde t x with
  | error e => simp [bind, Except.bind]
  | ok A? =>
    cases A? with
    | none => simp [SDE.checkValues, bind, Except.bind]
    | some A =>
      by_cases hk : ∀ k ∈ A.map Prod.fst, k ∈ S.sources.map Prod.fst
      swap
      · have hk' : ∃ k ∈ A.map Prod.fst, k ∉ S.sources.map Prod.fst := by
          push Not at hk; exact hk
        simp only [SDE.checkValues, bind, Except.bind]
        rw [if_neg hk, if_pos hk']
      have hk' : ¬ ∃ k ∈ A.map Prod.fst, k ∉ S.sources.map Prod.fst := by
        push Not; exact hk
      simp only [SDE.checkValues]
      simp only [bind, Except.bind]
      rw [if_pos hk, if_neg hk']
      simp only
      have hr := evalSources_realise (equation S).noise t (t' - t)
        (S.sources.insertionSort (fun a b => a.1 ≤ b.1)) s (by
          intro p hp
          have hp' : p ∈ S.sources := (List.perm_insertionSort _ _).mem_iff.1 hp
          funext t dt s
          simp [equation, lookup_of_mem hS hp'])
      rw [sortedSources_keys _ hS] at hr
      simp only [bind, Except.bind, pure, Except.pure] at hr ⊢
      rw [hr, SDE.dZ]
      cases he : evalSources t (t' - t) (S.sources.insertionSort (fun a b => a.1 ≤ b.1)) s with
      | error e => rfl
      | ok q =>
        have hkeys := evalSources_keys t (t' - t) _ s he
        have hsub : ∀ k ∈ A.map Prod.fst, k ∈ q.1.map Prod.fst := by
          intro k hk1
          rw [hkeys, sortedSources_keys _ hS, Finset.mem_sort, List.mem_toFinset]
          exact hk k hk1
        simp only
        rw [sumAdZ, addAdZ_eq _ _ _ hsub]

/-! ### whole calls -/

/-- The step of an integrated SDE, in the form used by `NonAdaptive`. -/
def SDE.stepFun (S : SDE T X O Id σ) : Bool → List (T × X) → T → σ → Py (X × σ) :=
  fun _ win t st =>
    match win with
    | [(s0, x)] => S.eulerNext s0 x t st
    | _ => .error .indexError

theorem toPGen_nonAdaptive (S : SDE T X O Id σ) : NonAdaptive S.toPGen S.stepFun := by
  intro rev win t s
  simp only [SDE.toPGen, SDE.stepFun, bind, Except.bind, pure, Except.pure]
  match win with
  | [] => rfl
  | [(s0, x)] => simp only; cases S.eulerNext s0 x t s <;> rfl
  | _ :: _ :: _ => rfl

theorem toPGen_pure (S : SDE T X O Id σ) : PureStore S.toPGen S.letX := fun _ _ _ _ => rfl

theorem traj_eq_pathOf (S : SDE T X O Id σ) (hS : DictOk S.sources) (rev : Bool) :
    ∀ (ts : List T) (t : T) (x : X) (s : σ),
      traj (S.stepFun rev) [(t, x)] ts s = pathOf (roundedStep S) t x ts s := by
  intro ts
  induction ts with
  | nil => intro t x s; rfl
  | cons t' ts ih =>
    intro t x s
    simp only [traj, pathOf, SDE.stepFun, eulerNext_rounded S hS, bind, Except.bind, pure,
      Except.pure, List.tail_cons, List.nil_append]
    cases roundedStep S t x t' s with
    | error e => rfl
    | ok r =>
      have := ih t' r.1 r.2
      simp only [SDE.stepFun] at this ⊢
      rw [this]

theorem trajectory_eq_pathOf (S : SDE T X O Id σ) (hS : DictOk S.sources) (rev : Bool) (t0 : T) (ts : List T)
    (s : σ) :
    trajectory 2 (S.toPGen.begin rev) (S.stepFun rev) S.toPGen.fin (t0 :: ts) s =
      (do let x ← S.beginX t0
          let (ps, s) ← pathOf (roundedStep S) t0 x ts s
          pure ((t0, x) :: ps, s)) := by
  simp only [trajectory, Nat.add_one_sub_one, List.take_succ_cons, List.take_zero, List.drop_succ_cons,
    List.drop_zero, SDE.toPGen]
  cases S.beginX t0 with
  | error e => rfl
  | ok x =>
    simp only [bind, Except.bind, pure, Except.pure, List.mapIdx_cons, List.mapIdx_nil]
    rw [traj_eq_pathOf S hS]
    cases pathOf (roundedStep S) t0 x ts s with
    | error e => rfl
    | ok r => rfl

theorem filter_le_eq {l : List T} (h : l.Pairwise (· < ·)) {t : T} (ht : t ∈ l) :
    (l.filter (· ≤ t)) = l.filter (· < t) ++ [t] ∧ l.filter (t ≤ ·) = t :: l.filter (t < ·) := by
  have h1 : (l.filter (· < t) ++ [t]).Pairwise (· < ·) := by
    rw [List.pairwise_append]
    refine ⟨h.filter _, by simp, ?_⟩
    intro a ha b hb
    simp at ha hb
    rw [hb]; exact ha.2
  have h2 : (t :: l.filter (t < ·)).Pairwise (· < ·) := by
    rw [List.pairwise_cons]
    refine ⟨?_, h.filter _⟩
    intro a ha
    simp at ha; exact ha.2
  constructor
  · apply sorted_ext (h.filter _) h1
    intro u
    simp only [List.mem_filter, decide_eq_true_eq, List.mem_append, List.mem_singleton]
    constructor
    · rintro ⟨hu, hle⟩
      rcases lt_or_eq_of_le hle with h' | h'
      · exact .inl ⟨hu, h'⟩
      · exact .inr h'
    · rintro (⟨hu, h'⟩ | h')
      · exact ⟨hu, h'.le⟩
      · rw [h']; exact ⟨ht, le_rfl⟩
  · apply sorted_ext (h.filter _) h2
    intro u
    simp only [List.mem_filter, decide_eq_true_eq, List.mem_cons]
    constructor
    · rintro ⟨hu, hle⟩
      rcases lt_or_eq_of_le hle with h' | h'
      · exact .inr ⟨hu, h'⟩
      · exact .inl h'.symm
    · rintro (h' | ⟨hu, h'⟩)
      · rw [h']; exact ⟨ht, le_rfl⟩
      · exact ⟨hu, h'.le⟩

theorem pathOf_nil (step : T → X → T → σ → Py (X × σ)) (t : T) (x : X) (s : σ) :
    pathOf step t x [] s = .ok ([], s) := rfl

theorem twoWay_solutionOf (S : SDE T X O Id σ) (hS : DictOk S.sources) (steps : Steps T) (i0 : ℤ)
    {tt grid : List T} {t0 : T} {i : ℕ} (hv : tt.Pairwise (· < ·)) (hi : Designates tt.length i0 i)
    (h0 : tt[i]? = some t0) (hgr : IsGrid steps tt grid) (s : σ) :
    twoWayTrajectory S.toPGen S.stepFun (i0 ≠ 0) (Forw tt.length i0) grid t0 s =
      (do let x ← S.beginX t0
          solutionOf (roundedStep S) t0 x grid s) := by
  have hmt : t0 ∈ tt := List.mem_of_getElem? h0
  have hmem : t0 ∈ grid := (hgr.2 t0).2 (.inl hmt)
  obtain ⟨eL, eR⟩ := filter_le_eq hgr.1 hmem
  have h1 := hi.1
  have h2 := hi.2
  simp only [twoWayTrajectory]
  rw [eL, eR, List.reverse_append, List.reverse_singleton, List.singleton_append]
  have hdep : S.toPGen.depth = 2 := rfl
  rw [hdep, trajectory_eq_pathOf S hS]
  have hF : ∀ s, trajectory 2 (S.toPGen.begin false) (S.stepFun false) S.toPGen.fin
      (t0 :: grid.filter (t0 < ·)) s = _ := fun s => trajectory_eq_pathOf S hS false t0 _ s
  simp only [hF, solutionOf]
  by_cases hz : i0 = 0
  · have hFo : Forw tt.length i0 := .inl hz
    have hnil : grid.filter (· < t0) = [] := by
      rw [List.filter_eq_nil_iff]
      intro u hu
      have hhd : grid.head? = some t0 := by
        rw [isGrid_head hv hgr]
        have : i = 0 := by omega
        subst this
        rw [← h0]; cases tt <;> simp
      have := sorted_head_le hgr.1 hhd hu
      simpa using this
    simp only [hFo, hz, ne_eq, not_true, decide_false, Bool.false_eq_true, if_false, decide_true,
      if_true, hnil, List.reverse_nil, pathOf_nil, bind, Except.bind, pure, Except.pure]
    have hFo' : Forw tt.length 0 := .inl rfl
    simp only [hFo', decide_true, if_true]
    cases S.beginX t0 with
    | error e => rfl
    | ok x =>
      simp only
      cases pathOf (roundedStep S) t0 x (grid.filter (t0 < ·)) s with
      | error e => rfl
      | ok r => rfl
  · simp only [hz, ne_eq, not_false_iff, decide_true, if_true, bind, Except.bind, pure, Except.pure]
    cases S.beginX t0 with
    | error e => rfl
    | ok x =>
      simp only
      cases pathOf (roundedStep S) t0 x (grid.filter (· < t0)).reverse s with
      | error e => rfl
      | ok r =>
        simp only
        by_cases hFo : Forw tt.length i0
        · simp only [hFo, decide_true, if_true]
          cases pathOf (roundedStep S) t0 x (grid.filter (t0 < ·)) r.2 with
          | error e => rfl
          | ok r2 => simp
        · have hnil : grid.filter (t0 < ·) = [] := by
            rw [List.filter_eq_nil_iff]
            intro u hu
            have hhd : grid.getLast? = some t0 := by
              rw [isGrid_getLast hv hgr, ← h0, List.getLast?_eq_getElem?]
              congr 1; unfold Forw at hFo; omega
            have := sorted_getLast_ge hgr.1 hhd hu
            simpa using this
          simp only [hFo, decide_false, Bool.false_eq_true, if_false, hnil, pathOf_nil]
          simp

theorem pathOf_times (step : T → X → T → σ → Py (X × σ)) :
    ∀ (ts : List T) (t : T) (x : X) (s : σ) {ps s'}, pathOf step t x ts s = .ok (ps, s') →
      ps.map Prod.fst = ts := by
  intro ts
  induction ts with
  | nil => intro t x s ps s' h; simp [pathOf] at h; simp [← h.1]
  | cons t' ts ih =>
    intro t x s ps s' h
    simp only [pathOf, bind, Except.bind, pure, Except.pure] at h
    cases h1 : step t x t' s with
    | error e => simp [h1] at h
    | ok r =>
      simp only [h1] at h
      cases h2 : pathOf step t' r.1 ts r.2 with
      | error e => simp [h2] at h
      | ok q =>
        simp only [h2, Except.ok.injEq, Prod.mk.injEq] at h
        rw [← h.1]
        simp [ih _ _ _ h2]

/-- The solution has one value for each point of the grid. -/
theorem solutionOf_times (step : T → X → T → σ → Py (X × σ)) {t0 : T} {x0 : X} {grid : List T} {s : σ}
    (hg : grid.Pairwise (· < ·)) (h0 : t0 ∈ grid) {ps s'}
    (h : solutionOf step t0 x0 grid s = .ok (ps, s')) : ps.map Prod.fst = grid := by
  simp only [solutionOf, bind, Except.bind, pure, Except.pure] at h
  cases h1 : pathOf step t0 x0 (grid.filter (· < t0)).reverse s with
  | error e => simp [h1] at h
  | ok r =>
    simp only [h1] at h
    cases h2 : pathOf step t0 x0 (grid.filter (t0 < ·)) r.2 with
    | error e => simp [h2] at h
    | ok q =>
      simp only [h2, Except.ok.injEq, Prod.mk.injEq] at h
      rw [← h.1]
      have e1 := pathOf_times step _ _ _ _ h1
      have e2 := pathOf_times step _ _ _ _ h2
      rw [List.map_append, List.map_cons, List.map_reverse, e1, e2, List.reverse_reverse]
      obtain ⟨eL, eR⟩ := filter_le_eq hg h0
      have hj := getElem?_idxOf h0
      have hlt := List.idxOf_lt_length_of_mem h0
      rw [← eR, ← filter_ge_of_sorted hg hj]
      have : grid.filter (· < t0) = grid.take (grid.idxOf t0) := by
        have e3 := filter_le_of_sorted hg hj
        rw [eL] at e3
        have := congrArg List.dropLast e3
        rw [List.dropLast_concat, List.dropLast_eq_take, List.length_take, List.take_take] at this
        rw [← this]; congr 1; omega
      rw [this, List.take_append_drop]

theorem filter_eq_lookup {β : Type} {ps : List (T × X)} {tt grid : List T}
    (hps : ps.map Prod.fst = grid) (hg : grid.Pairwise (· < ·)) (htt : tt.Pairwise (· < ·))
    (hsub : ∀ t ∈ tt, t ∈ grid) (f : T → X → β) :
    (ps.filter (fun p => p.1 ∈ tt)).map (fun p => some (f p.1 p.2)) =
      tt.map (fun t => (ps.lookup t).map (f t)) := by
  have hfst : (ps.filter (fun p => p.1 ∈ tt)).map Prod.fst = tt := by
    have e1 : (ps.filter (fun p => p.1 ∈ tt)).map Prod.fst =
        (ps.map Prod.fst).filter (fun u => u ∈ tt) := by
      rw [List.filter_map]; rfl
    rw [e1, hps]
    apply sorted_ext (hg.filter _) htt
    intro u
    simp only [List.mem_filter, decide_eq_true_eq]
    exact ⟨fun h => h.2, fun h => ⟨hsub u h, h⟩⟩
  have hnd : DictOk ps := by
    unfold DictOk; rw [hps]; exact hg.imp fun h => ne_of_lt h
  conv_rhs => rw [← hfst]
  rw [List.map_map]
  apply List.map_congr_left
  intro p hp
  have := lookup_of_mem hnd (List.mem_of_mem_filter hp)
  simp [this]

end

/-! ### exact arithmetic -/

variable {T X O Id σ : Type} [Field T] [LinearOrder T] [IsStrictOrderedRing T] [CommRing X]
  [LinearOrder Id]

theorem foldl_add_eq {A : List (Id × X)} (f : Id × X → X) (acc : X) :
    A.foldl (fun acc p => acc + f p) acc = acc + (A.map f).sum := by
  induction A generalizing acc with
  | nil => simp
  | cons p A ih => rw [List.foldl_cons, ih, List.map_cons, List.sum_cons, add_assoc]

theorem addAdZ_acc (dZ : List (Id × X)) (A : List (Id × X)) (acc : X) :
    addAdZ dZ A acc = (addAdZ dZ A 0).map (acc + ·) := by
  induction A generalizing acc with
  | nil => simp [addAdZ, Except.map]
  | cons p A ih =>
    simp only [addAdZ]
    cases dZ.lookup p.1 with
    | none => rfl
    | some z =>
      simp only
      rw [ih (acc + _), ih (0 + _)]
      cases addAdZ dZ A 0 <;> simp [Except.map, add_assoc]

theorem sumAdZ_nil (dZ : List (Id × X)) : sumAdZ dZ [] = .ok 0 := rfl

theorem sumAdZ_cons (dZ : List (Id × X)) (id : Id) (a : X) (A : List (Id × X)) :
    sumAdZ dZ ((id, a) :: A) =
      match dZ.lookup id with
      | none => .error .keyError
      | some z =>
        match sumAdZ dZ A with
        | .error e => .error e
        | .ok s => .ok (a * z + s) := by
  simp only [sumAdZ, addAdZ]
  cases dZ.lookup id with
  | none => rfl
  | some z =>
    simp only
    rw [addAdZ_acc]
    cases addAdZ dZ A 0 <;> simp [Except.map]

theorem sum_entry {A : List (Id × X)} (hA : DictOk A) (f : Id → X) (ids : Finset Id)
    (h : ∀ k ∈ A.map Prod.fst, k ∈ ids) :
    (A.map fun p => p.2 * f p.1).sum = ∑ id ∈ ids, entry A id * f id := by
  induction A with
  | nil => simp [entry]
  | cons p A ih =>
    obtain ⟨k, a⟩ := p
    have hnd : k ∉ A.map Prod.fst ∧ (A.map Prod.fst).Nodup := List.nodup_cons.1 hA
    have hk : k ∈ ids := h k (by simp)
    rw [List.map_cons, List.sum_cons, ih hnd.2 (fun k hk => h k (by simp at hk ⊢; tauto))]
    rw [← Finset.add_sum_erase _ _ hk, ← Finset.add_sum_erase _ _ hk, entry_of_not_mem hnd.1,
      zero_mul, zero_add, entry_cons, Function.update_self]
    congr 1
    apply Finset.sum_congr rfl
    intro i hi
    rw [Function.update_of_ne (Finset.ne_of_mem_erase hi)]

/-- In exact arithmetic, the order of the terms does not matter. -/
theorem roundedStep_eq (S : SDE T X O Id σ) (hS : SDEOk S) (t : T) (x : X) (t' : T) (s : σ) :
    roundedStep S t x t' s = (equation S).step t x t' s := by
  unfold roundedStep Equation.step
  simp only [equation, bind, Except.bind, pure, Except.pure]
  cases hsde : S.sde t x with
  | error e => rfl
  | ok A? =>
    cases A? with
    | none => rfl
    | some A =>
      simp only
      by_cases hk : ∃ k ∈ A.map Prod.fst, k ∉ S.sources.map Prod.fst
      · rw [if_pos hk, if_pos hk]
      rw [if_neg hk, if_neg hk]
      push Not at hk
      simp only
      generalize realise (fun id t dt s => match List.lookup id S.sources with
        | none => (Except.ok (0, s) : Py (X × σ))
        | some z => z t dt s) t (t' - t) ((List.map Prod.fst S.sources).toFinset.sort fun x1 x2 => x1 ≤ x2) s = R
      cases R with
      | error e => rfl
      | ok q =>
        simp only
        rw [foldl_add_eq (fun p : Id × X => p.2 * q.1 p.1) 0, zero_add, sum_entry (hS.sde t x A hsde) q.1
          ((S.sources.map Prod.fst).toFinset) (fun k hk1 => List.mem_toFinset.2 (hk k hk1))]

/-- `euler_next` performs a step of the stated equation. -/
theorem eulerNext_eq (S : SDE T X O Id σ) (hS : SDEOk S) (t : T) (x : X) (t' : T) (s : σ) :
    S.eulerNext t x t' s = (equation S).step t x t' s := by
  rw [eulerNext_rounded S hS.sources, roundedStep_eq S hS]

theorem path_eq_pathOf (E : Equation T X Id σ) (t : T) (x : X) (ts : List T) (s : σ) :
    E.path t x ts s = pathOf E.step t x ts s := by
  induction ts generalizing t x s with
  | nil => rfl
  | cons t' ts ih => simp only [Equation.path, pathOf, ih]

theorem solution_eq_solutionOf (E : Equation T X Id σ) (t0 : T) (x0 : X) (grid : List T) (s : σ) :
    E.solution t0 x0 grid s = solutionOf E.step t0 x0 grid s := by
  simp only [Equation.solution, solutionOf, path_eq_pathOf]

theorem roundedStep_funext (S : SDE T X O Id σ) (hS : SDEOk S) : roundedStep S = (equation S).step := by
  funext t x t' s
  exact roundedStep_eq S hS t x t' s

theorem traj_eq_path (S : SDE T X O Id σ) (hS : SDEOk S) (rev : Bool) (ts : List T) (t : T) (x : X) (s : σ) :
    traj (S.stepFun rev) [(t, x)] ts s = (equation S).path t x ts s := by
  rw [traj_eq_pathOf S hS.sources, roundedStep_funext S hS, path_eq_pathOf]

theorem trajectory_eq_path (S : SDE T X O Id σ) (hS : SDEOk S) (rev : Bool) (t0 : T) (ts : List T)
    (s : σ) :
    trajectory 2 (S.toPGen.begin rev) (S.stepFun rev) S.toPGen.fin (t0 :: ts) s =
      (do let x ← S.beginX t0
          let (ps, s) ← (equation S).path t0 x ts s
          pure ((t0, x) :: ps, s)) := by
  rw [trajectory_eq_pathOf S hS.sources, roundedStep_funext S hS]
  simp only [path_eq_pathOf]

theorem path_nil (E : Equation T X Id σ) (t : T) (x : X) (s : σ) : E.path t x [] s = .ok ([], s) := rfl

theorem twoWay_solution (S : SDE T X O Id σ) (hS : SDEOk S) (steps : Steps T) (i0 : ℤ)
    {tt grid : List T} {t0 : T} {i : ℕ} (hv : tt.Pairwise (· < ·)) (hi : Designates tt.length i0 i)
    (h0 : tt[i]? = some t0) (hgr : IsGrid steps tt grid) (s : σ) :
    twoWayTrajectory S.toPGen S.stepFun (i0 ≠ 0) (Forw tt.length i0) grid t0 s =
      (do let x ← S.beginX t0
          (equation S).solution t0 x grid s) := by
  rw [twoWay_solutionOf S hS.sources steps i0 hv hi h0 hgr, roundedStep_funext S hS]
  simp only [solution_eq_solutionOf]

theorem path_times (E : Equation T X Id σ) (ts : List T) (t : T) (x : X) (s : σ) {ps s'}
    (h : E.path t x ts s = .ok (ps, s')) : ps.map Prod.fst = ts :=
  pathOf_times E.step ts t x s (by rw [← path_eq_pathOf]; exact h)

/-- The solution has one value for each point of the grid. -/
theorem solution_times (E : Equation T X Id σ) {t0 : T} {x0 : X} {grid : List T} {s : σ}
    (hg : grid.Pairwise (· < ·)) (h0 : t0 ∈ grid) {ps s'}
    (h : E.solution t0 x0 grid s = .ok (ps, s')) : ps.map Prod.fst = grid :=
  solutionOf_times E.step hg h0 (by rw [← solution_eq_solutionOf]; exact h)

end Sdepy
