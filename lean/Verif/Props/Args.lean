import Verif.Model.Args
import Verif.Lemmas.SDE

/-!
# Properties C10, C20: parameters of SDEs, and the `integrate` decorator
-/

set_option linter.unusedSectionVars false
set_option linter.unusedSimpArgs false

namespace Sdepy

open Spec

variable {N V : Type} [DecidableEq N] [DecidableEq V]

/-! ### dictionaries -/

theorem lookup_isSome_iff {W : Type} (D : List (N × W)) (k : N) :
    (∃ w, D.lookup k = some w) ↔ k ∈ D.map Prod.fst := by
  constructor
  · rintro ⟨w, h⟩
    by_contra hc
    rw [(lookup_eq_none_iff' D k).2 hc] at h
    simp at h
  · intro h
    cases hl : D.lookup k with
    | none => exact absurd h ((lookup_eq_none_iff' D k).1 hl)
    | some w => exact ⟨w, rfl⟩

theorem mem_of_lookup {W : Type} {D : List (N × W)} {k : N} {w : W} (h : D.lookup k = some w) :
    (k, w) ∈ D := by
  induction D with
  | nil => simp at h
  | cons p D ih =>
    obtain ⟨j, v⟩ := p
    rw [List.lookup_cons] at h
    by_cases hk : k = j
    · subst hk; simp at h; simp [h]
    · have : (k == j) = false := by simpa using hk
      rw [this] at h
      exact List.mem_cons_of_mem _ (ih h)

theorem lookup_append' {W : Type} (D E : List (N × W)) (k : N) :
    (D ++ E).lookup k = (D.lookup k).or (E.lookup k) := by
  induction D with
  | nil => rfl
  | cons p D ih =>
    obtain ⟨j, v⟩ := p
    rw [List.cons_append, List.lookup_cons, List.lookup_cons]
    cases (k == j) <;> simp [ih]

theorem dictSet_keys {W : Type} (D : List (N × W)) (k : N) (w : W) :
    (dictSet D k w).map Prod.fst =
      if k ∈ D.map Prod.fst then D.map Prod.fst else D.map Prod.fst ++ [k] := by
  unfold dictSet
  by_cases h : k ∈ D.map Prod.fst
  · rw [if_pos h, if_pos h, List.map_map]
    apply List.map_congr_left
    intro p _
    simp only [Function.comp]
    by_cases hp : p.1 = k
    · rw [if_pos hp]; exact hp.symm
    · rw [if_neg hp]
  · rw [if_neg h, if_neg h]; simp

theorem dictSet_ok {W : Type} {D : List (N × W)} (h : DictOk D) (k : N) (w : W) :
    DictOk (dictSet D k w) := by
  unfold DictOk
  rw [dictSet_keys]
  by_cases hk : k ∈ D.map Prod.fst
  · rw [if_pos hk]; exact h
  · rw [if_neg hk]; exact List.Nodup.append h (by simp) (by simpa using hk)

theorem dictSet_lookup {W : Type} (D : List (N × W)) (k : N) (w : W) (j : N) :
    (dictSet D k w).lookup j = if j = k then some w else D.lookup j := by
  unfold dictSet
  by_cases h : k ∈ D.map Prod.fst
  · rw [if_pos h]
    induction D with
    | nil => simp at h
    | cons p D ih =>
      obtain ⟨a, v⟩ := p
      rw [List.map_cons, List.lookup_cons]
      by_cases hak : a = k
      · subst hak
        simp only [if_true]
        by_cases hj : j = a
        · subst hj; simp [List.lookup_cons]
        · have hb : (j == a) = false := by simpa using hj
          rw [if_neg hj, List.lookup_cons, hb]
          simp only
          by_cases h' : a ∈ D.map Prod.fst
          · rw [ih h', if_neg hj]
          · have : D.map (fun p => if p.1 = a then (a, w) else p) = D := by
              conv_rhs => rw [← List.map_id D]
              apply List.map_congr_left
              intro p hp
              rw [if_neg]; rfl
              intro hpa; exact h' (hpa ▸ List.mem_map_of_mem hp)
            rw [this]
      · have hk' : k ∈ D.map Prod.fst := by
          simp only [List.map_cons, List.mem_cons] at h
          rcases h with h | h
          · exact absurd h.symm hak
          · exact h
        simp only [if_neg hak, List.lookup_cons]
        by_cases hj : j = a
        · subst hj; simp [hak]
        · have hb : (j == a) = false := by simpa using hj
          simp only [hb]
          exact ih hk'
  · rw [if_neg h, lookup_append']
    by_cases hj : j = k
    · subst hj
      rw [(lookup_eq_none_iff' D j).2 h]
      simp [List.lookup_cons]
    · have hb : (j == k) = false := by simpa using hj
      rw [if_neg hj]
      simp [List.lookup_cons, hb]

theorem dictUpdate_ok {W : Type} : ∀ (E : List (N × W)) {D : List (N × W)}, DictOk D →
    DictOk (dictUpdate D E) := by
  intro E
  induction E with
  | nil => intro D h; exact h
  | cons p E ih => intro D h; exact ih (dictSet_ok h _ _)

/-- Later values override. -/
theorem dictUpdate_lookup {W : Type} : ∀ (E D : List (N × W)), DictOk E → ∀ k : N,
    (dictUpdate D E).lookup k = (E.lookup k).or (D.lookup k) := by
  intro E
  induction E with
  | nil => intro D _ k; rfl
  | cons p E ih =>
    intro D hE k
    obtain ⟨j, v⟩ := p
    have hnd : j ∉ E.map Prod.fst ∧ (E.map Prod.fst).Nodup := List.nodup_cons.1 hE
    have : dictUpdate D ((j, v) :: E) = dictUpdate (dictSet D j v) E := rfl
    rw [this, ih _ hnd.2, dictSet_lookup, List.lookup_cons]
    by_cases hk : k = j
    · subst hk
      rw [(lookup_eq_none_iff' E k).2 hnd.1]
      simp
    · have hb : (k == j) = false := by simpa using hk
      rw [hb, if_neg hk]

/-! ### C10 -/

/-- Some method has a parameter `k` with this default. -/
def Spec.Param (sigs : List (Sig N V)) (k : N) (d : Option V) : Prop := ∃ D ∈ sigs, (k, d) ∈ D

/-- No parameter has two different defaults (having none counts as one). -/
def Spec.NoConflict (sigs : List (Sig N V)) : Prop :=
  ∀ k d d', Param sigs k d → Param sigs k d' → d = d'

theorem mem_defaultsOf (sigs : List (Sig N V)) (k : N) (d : Option V) :
    d ∈ defaultsOf sigs k ↔ Param sigs k d := by
  unfold defaultsOf Param
  simp only [List.mem_flatMap, List.mem_map, List.mem_filter, decide_eq_true_eq]
  constructor
  · rintro ⟨D, hD, ⟨a, b⟩, ⟨h1, h2⟩, h3⟩
    simp only at h2 h3
    exact ⟨D, hD, by rw [← h2, ← h3]; exact h1⟩
  · rintro ⟨D, hD, h⟩; exact ⟨D, hD, (k, d), ⟨h, rfl⟩, rfl⟩

theorem expected_lookup : ∀ (sigs : List (Sig N V)) (D : Sig N V), (∀ S ∈ sigs, DictOk S) → ∀ k d,
    (sigs.foldl dictUpdate D).lookup k = some d → D.lookup k = some d ∨ Param sigs k d := by
  intro sigs
  induction sigs with
  | nil => intro D _ k d h; exact .inl h
  | cons S sigs ih =>
    intro D hS k d h
    rcases ih (dictUpdate D S) (fun x hx => hS x (List.mem_cons_of_mem _ hx)) k d h with h' | ⟨S', h1, h2⟩
    · rw [dictUpdate_lookup S D (hS S (by simp))] at h'
      cases hl : S.lookup k with
      | none => rw [hl] at h'; exact .inl (by simpa using h')
      | some e =>
        rw [hl] at h'
        simp at h'
        subst h'
        exact .inr ⟨S, by simp, mem_of_lookup hl⟩
    · exact .inr ⟨S', List.mem_cons_of_mem _ h1, h2⟩

theorem expected_keys : ∀ (sigs : List (Sig N V)) (D : Sig N V), (∀ S ∈ sigs, DictOk S) → ∀ k,
    (k ∈ (sigs.foldl dictUpdate D).map Prod.fst ↔ k ∈ D.map Prod.fst ∨ ∃ d, Param sigs k d) := by
  intro sigs
  induction sigs with
  | nil => intro D _ k; simp [Param]
  | cons S sigs ih =>
    intro D hS k
    rw [List.foldl_cons, ih _ (fun x hx => hS x (List.mem_cons_of_mem _ hx)),
      ← lookup_isSome_iff, dictUpdate_lookup S D (hS S (by simp))]
    constructor
    · rintro (⟨w, h⟩ | ⟨d, S', h1, h2⟩)
      · cases hl : S.lookup k with
        | none =>
          rw [hl] at h
          exact .inl ((lookup_isSome_iff D k).1 ⟨w, by simpa using h⟩)
        | some e => exact .inr ⟨e, S, by simp, mem_of_lookup hl⟩
      · exact .inr ⟨d, S', List.mem_cons_of_mem _ h1, h2⟩
    · rintro (h | ⟨d, S', h1, h2⟩)
      · obtain ⟨w, hw⟩ := (lookup_isSome_iff D k).2 h
        refine .inl ?_
        rw [hw]
        cases S.lookup k <;> simp
      · rcases List.mem_cons.1 h1 with rfl | h1
        · refine .inl ?_
          obtain ⟨e, he⟩ := (lookup_isSome_iff S' k).2 (List.mem_map.2 ⟨_, h2, rfl⟩)
          exact ⟨e, by rw [he]; simp⟩
        · exact .inr ⟨d, S', h1, h2⟩

theorem expected_ok : ∀ (sigs : List (Sig N V)) (D : Sig N V), DictOk D →
    DictOk (sigs.foldl dictUpdate D) := by
  intro sigs
  induction sigs with
  | nil => intro D h; exact h
  | cons S sigs ih => intro D h; exact ih _ (dictUpdate_ok S h)

theorem conflict_iff (sigs : List (Sig N V)) (hs : ∀ S ∈ sigs, DictOk S) :
    (∃ k ∈ (sigs.foldl dictUpdate []).map Prod.fst, 1 < (defaultsOf sigs k).dedup.length) ↔
      ¬ NoConflict sigs := by
  unfold NoConflict
  push Not
  constructor
  · rintro ⟨k, -, h⟩
    have h2 := List.nodup_dedup (defaultsOf sigs k)
    match hl : (defaultsOf sigs k).dedup with
    | [] => rw [hl] at h; simp at h
    | [_] => rw [hl] at h; simp at h
    | a :: b :: r =>
      rw [hl] at h2
      have hne : a ≠ b := by
        intro hab; subst hab; simp at h2
      refine ⟨k, a, b, ?_, ?_, hne⟩
      · rw [← mem_defaultsOf, ← List.mem_dedup, hl]; simp
      · rw [← mem_defaultsOf, ← List.mem_dedup, hl]; simp
  · rintro ⟨k, d, d', h1, h2, hne⟩
    refine ⟨k, (expected_keys sigs [] hs k).2 (.inr ⟨d, h1⟩), ?_⟩
    rw [← mem_defaultsOf, ← List.mem_dedup] at h1 h2
    match hl : (defaultsOf sigs k).dedup with
    | [] => rw [hl] at h1; simp at h1
    | [a] =>
      rw [hl] at h1 h2
      simp at h1 h2
      exact absurd (h1.trans h2.symm) hne
    | a :: b :: r => simp

theorem filterMap_lookup (D : Sig N V) (hD : DictOk D) (k : N) :
    (D.filterMap fun p => p.2.map fun v => (p.1, v)).lookup k = (D.lookup k).bind id := by
  induction D with
  | nil => rfl
  | cons p D ih =>
    obtain ⟨j, d⟩ := p
    have hnd : j ∉ D.map Prod.fst ∧ (D.map Prod.fst).Nodup := List.nodup_cons.1 hD
    have ih' := ih hnd.2
    rw [List.lookup_cons]
    cases d with
    | none =>
      simp only [List.filterMap_cons, Option.map_none]
      by_cases hk : k = j
      · subst hk
        rw [ih', (lookup_eq_none_iff' D k).2 hnd.1]; simp
      · have hb : (k == j) = false := by simpa using hk
        rw [hb, ih']
    | some v =>
      simp only [List.filterMap_cons, Option.map_some, List.lookup_cons]
      by_cases hk : k = j
      · subst hk; simp
      · have hb : (k == j) = false := by simpa using hk
        simp only [hb, ih']

theorem map_some_lookup (args : List (N × V)) (k : N) :
    (args.map fun p => (p.1, some p.2)).lookup k = (args.lookup k).map some := by
  induction args with
  | nil => rfl
  | cons p args ih =>
    obtain ⟨j, v⟩ := p
    simp only [List.map_cons, List.lookup_cons, ih]
    cases (k == j) <;> rfl

/-- **C10.** Resolution of the keyword parameters given to an SDE: `sources` are the signatures of
the source methods of the declared differentials, `sigs` lists all the parameters that can be given
(those of `init` after `t, out_x`, those of `sde` after `t` and the equation variables, those of
`more` and of the source methods).

* A declared differential with no source method is rejected with `ValueError`.
* Otherwise the outcome is a success if and only if no parameter has two different defaults, every
  given keyword is one of the parameters, and every parameter is given or has a default; in all other
  cases a `TypeError` is raised.
* If successful, there is a value for the expected parameters and for nothing else: the one
  given, or else the default. -/
theorem C10_args (sources : List (Option (Sig N V))) (init sde more : Sig N V) (nvars : ℕ)
    (args : List (N × V)) (sigs : List (Sig N V))
    (hsigs : sigs = sources.filterMap id ++ [init.drop 2, sde.drop (1 + nvars), more])
    (hs : ∀ S ∈ sigs, DictOk S) (ha : DictOk args) :
    (none ∈ sources → resolveArgs sources init sde more nvars args = .error .valueError) ∧
    (none ∉ sources →
      ((∃ m, resolveArgs sources init sde more nvars args = .ok m) ↔
        NoConflict sigs ∧ (∀ k ∈ args.map Prod.fst, ∃ d, Param sigs k d) ∧
          ∀ k d, Param sigs k d → k ∈ args.map Prod.fst ∨ d ≠ none) ∧
      ((¬ ∃ m, resolveArgs sources init sde more nvars args = .ok m) →
        resolveArgs sources init sde more nvars args = .error .typeError)) ∧
    ∀ m, resolveArgs sources init sde more nvars args = .ok m →
      (∀ k, k ∈ m.map Prod.fst ↔ ∃ d, Param sigs k d) ∧
      (∀ k v, args.lookup k = some v → m.lookup k = some v) ∧
      (∀ k v, args.lookup k = none → Param sigs k (some v) → m.lookup k = some v) := by
  classical
  set ex := sigs.foldl dictUpdate [] with hex
  set all := dictUpdate ex (args.map fun p => (p.1, some p.2)) with hall
  have hexok : DictOk ex := expected_ok sigs [] (by simp [DictOk])
  have hak : (args.map fun p => (p.1, some p.2)).map Prod.fst = args.map Prod.fst := by
    rw [List.map_map]; rfl
  have haok : DictOk (args.map fun p => (p.1, some p.2)) := by unfold DictOk; rw [hak]; exact ha
  have hallok : DictOk all := dictUpdate_ok _ hexok
  have hlk : ∀ k, all.lookup k = ((args.lookup k).map some).or (ex.lookup k) := by
    intro k; rw [hall, dictUpdate_lookup _ _ haok, map_some_lookup]
  have hkeys : ∀ k, k ∈ all.map Prod.fst ↔ k ∈ args.map Prod.fst ∨ ∃ d, Param sigs k d := by
    intro k
    rw [← lookup_isSome_iff, hlk]
    constructor
    · rintro ⟨w, h⟩
      cases hl : args.lookup k with
      | none =>
        rw [hl] at h
        have := (lookup_isSome_iff ex k).1 ⟨w, by simpa using h⟩
        rw [hex, expected_keys sigs [] hs] at this
        rcases this with h | h
        · simp at h
        · exact .inr h
      | some v => exact .inl ((lookup_isSome_iff args k).1 ⟨v, hl⟩)
    · rintro (h | h)
      · obtain ⟨v, hv⟩ := (lookup_isSome_iff args k).2 h
        exact ⟨some v, by rw [hv]; simp⟩
      · have : k ∈ ex.map Prod.fst := by
          rw [hex, expected_keys sigs [] hs]; exact .inr h
        obtain ⟨d, hd⟩ := (lookup_isSome_iff ex k).2 this
        rw [hd]
        cases args.lookup k <;> simp
  have hexk : ∀ k, k ∈ ex.map Prod.fst ↔ ∃ d, Param sigs k d := by
    intro k; rw [hex, expected_keys sigs [] hs]; simp
  have hform : none ∉ sources → resolveArgs sources init sde more nvars args =
      if ¬ NoConflict sigs then .error .typeError
      else if ∃ k ∈ all.map Prod.fst, k ∉ ex.map Prod.fst then .error .typeError
      else if ∃ p ∈ all, p.2 = none then .error .typeError
      else .ok (all.filterMap fun p => p.2.map fun v => (p.1, v)) := by
    intro hn
    unfold resolveArgs inspectArgs
    rw [if_neg hn, ← hsigs]
    by_cases hc : NoConflict sigs
    · rw [if_neg (by rw [conflict_iff sigs hs]; simpa using hc)]
      rw [if_neg (by simpa using hc)]
      rfl
    · rw [if_pos (by rw [conflict_iff sigs hs]; exact hc), if_pos hc]
  have hunexp : (∃ k ∈ all.map Prod.fst, k ∉ ex.map Prod.fst) ↔
      ¬ ∀ k ∈ args.map Prod.fst, ∃ d, Param sigs k d := by
    constructor
    · rintro ⟨k, h1, h2⟩ hc
      rw [hkeys] at h1
      rw [hexk] at h2
      rcases h1 with h1 | h1
      · exact h2 (hc k h1)
      · exact h2 h1
    · intro h
      push Not at h
      obtain ⟨k, h1, h2⟩ := h
      exact ⟨k, (hkeys k).2 (.inl h1), by rw [hexk]; push Not; exact h2⟩
  have hexd : NoConflict sigs → ∀ k d, Param sigs k d → ex.lookup k = some d := by
    intro hc k d h
    obtain ⟨d', hd'⟩ := (lookup_isSome_iff ex k).2 ((hexk k).2 ⟨d, h⟩)
    rcases expected_lookup sigs [] hs k d' hd' with h' | h'
    · simp at h'
    · rw [hd', hc k d d' h h']
  have hmiss : NoConflict sigs → ((∃ p ∈ all, p.2 = none) ↔
      ¬ ∀ k d, Param sigs k d → k ∈ args.map Prod.fst ∨ d ≠ none) := by
    intro hc
    constructor
    · rintro ⟨⟨k, d⟩, hp, hd⟩ h
      simp only at hd
      subst hd
      have hl := lookup_of_mem hallok hp
      simp only at hl
      rw [hlk] at hl
      cases ha' : args.lookup k with
      | some v => rw [ha'] at hl; simp at hl
      | none =>
        rw [ha'] at hl
        have hl' : ex.lookup k = some none := by simpa using hl
        rcases expected_lookup sigs [] hs k none hl' with h' | h'
        · simp at h'
        · rcases h k none h' with h'' | h''
          · exact (lookup_eq_none_iff' args k).1 ha' h''
          · exact h'' rfl
    · intro h
      push Not at h
      obtain ⟨k, d, h1, h2, h3⟩ := h
      subst h3
      refine ⟨(k, none), mem_of_lookup ?_, rfl⟩
      rw [hlk, (lookup_eq_none_iff' args k).2 h2, hexd hc k none h1]
      rfl
  refine ⟨?_, ?_, ?_⟩
  · intro h; unfold resolveArgs; rw [if_pos h]
  · intro hn
    have hf := hform hn
    constructor
    · constructor
      · rintro ⟨m, hm⟩
        rw [hm] at hf
        by_cases hc : NoConflict sigs
        · rw [if_neg (by simpa using hc)] at hf
          by_cases hu : ∃ k ∈ all.map Prod.fst, k ∉ ex.map Prod.fst
          · rw [if_pos hu] at hf; simp at hf
          · rw [if_neg hu] at hf
            by_cases hmi : ∃ p ∈ all, p.2 = none
            · rw [if_pos hmi] at hf; simp at hf
            · rw [hunexp, not_not] at hu
              rw [hmiss hc, not_not] at hmi
              exact ⟨hc, hu, hmi⟩
        · rw [if_pos hc] at hf; simp at hf
      · rintro ⟨hc, hu, hmi⟩
        rw [if_neg (by simpa using hc), if_neg (by rw [hunexp, not_not]; exact hu),
          if_neg (by rw [hmiss hc, not_not]; exact hmi)] at hf
        exact ⟨_, hf⟩
    · intro hno
      rw [hf] at hno ⊢
      split
      · rfl
      · split
        · rfl
        · split
          · rfl
          · rename_i h1 h2 h3
            exfalso
            apply hno
            rw [if_neg h1, if_neg h2, if_neg h3]
            exact ⟨_, rfl⟩
  · intro m hm
    have hn : none ∉ sources := by
      intro h; unfold resolveArgs at hm; rw [if_pos h] at hm; simp at hm
    have hf := hform hn
    rw [hm] at hf
    by_cases hc : NoConflict sigs
    swap
    · rw [if_pos hc] at hf; simp at hf
    rw [if_neg (by simpa using hc)] at hf
    by_cases hu : ∃ k ∈ all.map Prod.fst, k ∉ ex.map Prod.fst
    · rw [if_pos hu] at hf; simp at hf
    rw [if_neg hu] at hf
    by_cases hmi : ∃ p ∈ all, p.2 = none
    · rw [if_pos hmi] at hf; simp at hf
    rw [if_neg hmi] at hf
    simp only [Except.ok.injEq] at hf
    have hml : ∀ k, m.lookup k = (all.lookup k).bind id := by
      intro k; rw [hf, filterMap_lookup all hallok]
    refine ⟨?_, ?_, ?_⟩
    · intro k
      rw [← lookup_isSome_iff, hml]
      constructor
      · rintro ⟨v, hv⟩
        have : k ∈ all.map Prod.fst := by
          rw [← lookup_isSome_iff]
          cases hl : all.lookup k with
          | none => rw [hl] at hv; simp at hv
          | some d => exact ⟨d, rfl⟩
        rw [hunexp, not_not] at hu
        rcases (hkeys k).1 this with h | h
        · exact hu k h
        · exact h
      · intro h
        obtain ⟨d, hd⟩ := (lookup_isSome_iff all k).2 ((hkeys k).2 (.inr h))
        cases d with
        | none => exact absurd ⟨_, mem_of_lookup hd, rfl⟩ hmi
        | some v => exact ⟨v, by rw [hd]; rfl⟩
    · intro k v h
      rw [hml, hlk, h]; rfl
    · intro k v h1 h2
      rw [hml, hlk, h1, hexd hc k (some v) h2]; rfl

/-- **C10**, what each method is served: the values of exactly its own parameters. -/
theorem C10_served (all : List (N × V)) (sig : Sig N V) (k : N) :
    (getArgs all sig).lookup k = if k ∈ sig.map Prod.fst then all.lookup k else none := by
  unfold getArgs
  induction all with
  | nil => simp
  | cons p all ih =>
    obtain ⟨j, v⟩ := p
    rw [List.filter_cons, List.lookup_cons]
    by_cases hj : j ∈ sig.map Prod.fst
    · rw [if_pos (by simpa using hj), List.lookup_cons, ih]
      by_cases hk : k = j
      · subst hk; simp only [beq_self_eq_true]; rw [if_pos hj]
      · have hb : (k == j) = false := by simpa using hk
        simp only [hb]
    · rw [if_neg (by simpa using hj), ih]
      by_cases hk : k = j
      · subst hk; rw [if_neg hj, if_neg hj]
      · have hb : (k == j) = false := by simpa using hk
        simp only [hb]

/-! `sde(t, x, mu=1, sigma)`, `init(t, out_x, x0=10)`, `source_dw(corr=0)`; names: 0 `t`, 1 `x`,
2 `mu`, 3 `sigma`, 4 `x0`, 5 `corr`. -/

/-- Value of the outcome, for tests. -/
def okArgs (r : Py (List (ℕ × ℤ))) : Option (List (ℕ × ℤ)) :=
  match r with
  | .ok m => some m
  | .error _ => none

example : okArgs (resolveArgs [some [(5, some 0)]] [(0, none), (1, none), (4, some 10)]
      [(0, none), (1, none), (2, some 1), (3, none)] [] 1 [(3, 7), (4, 20)]) =
    some [(5, 0), (4, 20), (2, 1), (3, 7)] := by decide

/-- Missing parameter 3, and unexpected parameter 9. -/
example : resolveArgs [some [(5, some 0)]] [(0, none), (1, none), (4, some 10)]
      [(0, none), (1, none), (2, some 1), (3, none)] [] 1 [(4, 20)] = .error .typeError ∧
    resolveArgs [some [(5, some 0)]] [(0, none), (1, none), (4, some 10)]
      [(0, none), (1, none), (2, some 1), (3, none)] [] 1 [(3, 7), (9, 20)] = .error .typeError ∧
    resolveArgs [some [(5, some 0)]] [(0, none), (1, none), (5, some 10)]
      [(0, none), (1, none), (2, some 1), (3, none)] [] 1 [(3, 7)] = .error .typeError :=
  ⟨rfl, rfl, rfl⟩

/-! ### C20 -/

variable {Id : Type} [DecidableEq Id]

theorem collectIds_ok (items : List (Option (List Id))) (h : none ∉ items) :
    ∃ ids, collectIds items = .ok ids ∧ ∀ i, i ∈ ids ↔ ∃ ks, some ks ∈ items ∧ i ∈ ks := by
  induction items with
  | nil => exact ⟨[], rfl, by simp⟩
  | cons z zs ih =>
    cases z with
    | none => simp at h
    | some ks =>
      obtain ⟨ids, h1, h2⟩ := ih (by simpa using h)
      refine ⟨ks ++ ids, by simp only [collectIds, h1], ?_⟩
      intro i
      rw [List.mem_append, h2]
      constructor
      · rintro (h | ⟨k', h3, h4⟩)
        · exact ⟨ks, by simp, h⟩
        · exact ⟨k', by simp [h3], h4⟩
      · rintro ⟨k', h3, h4⟩
        simp only [List.mem_cons, Option.some.injEq] at h3
        rcases h3 with rfl | h3
        · exact .inl h4
        · exact .inr ⟨k', h3, h4⟩

theorem collectIds_bad (items : List (Option (List Id))) (h : none ∈ items) :
    collectIds items = .error .attributeError := by
  induction items with
  | nil => simp at h
  | cons z zs ih =>
    cases z with
    | none => rfl
    | some ks => simp only [collectIds, ih (by simpa using h)]

/-- Items found by the test evaluation: the dictionary, or the listed ones. -/
def Spec.itemsOf : TestVal Id → List (Option (List Id))
  | .seq items => items
  | .obj o => [o]

/-- Number of equations found: 0 means a single equation. -/
def Spec.countOf : TestVal Id → ℤ
  | .seq items => items.length
  | .obj _ => 0

/-- **C20.** `integrate(f, q=q, sources=sources)`:

* if both `q` and `sources` are given, `f` is not evaluated (the outcome does not depend on it) and
  they are taken as they are;
* otherwise `f()` is evaluated, and `f(1., 1.)` if it fails; if both fail a `TypeError` is raised;
* an empty list is rejected with `ValueError`, items that are not dictionaries with
  `AttributeError`; a disagreement with the given `q` or `sources` with `TypeError`;
* in all other cases the result is a system of `n` equations if `f` returned `n` dictionaries
  in a list or tuple, a single equation if it returned a dictionary, and its sources are the keys
  found in any of the dictionaries. -/
theorem C20_integrate (test0 test2 : Option (TestVal Id)) (q : Option ℤ) (sources : Option (List Id)) :
    (∀ n ids, q = some n → sources = some ids →
      sdeFromFunction test0 test2 q sources = .ok ⟨n ≠ 0, n, ids⟩) ∧
    ((q = none ∨ sources = none) →
      (test0 = none → test2 = none → sdeFromFunction test0 test2 q sources = .error .typeError) ∧
      ∀ v, (test0 = some v ∨ (test0 = none ∧ test2 = some v)) →
        (v = .seq [] → sdeFromFunction test0 test2 q sources = .error .valueError) ∧
        (none ∈ itemsOf v → sdeFromFunction test0 test2 q sources = .error .attributeError) ∧
        (v ≠ .seq [] → none ∉ itemsOf v →
          (((∃ n, q = some n ∧ n ≠ countOf v) ∨
            ∃ ss, sources = some ss ∧ ¬ ∀ i, i ∈ ss ↔ ∃ ks, some ks ∈ itemsOf v ∧ i ∈ ks) →
            sdeFromFunction test0 test2 q sources = .error .typeError) ∧
          (¬ ((∃ n, q = some n ∧ n ≠ countOf v) ∨
            ∃ ss, sources = some ss ∧ ¬ ∀ i, i ∈ ss ↔ ∃ ks, some ks ∈ itemsOf v ∧ i ∈ ks) →
            ∃ b, sdeFromFunction test0 test2 q sources = .ok b ∧
              (b.system = true ↔ ∃ items, v = .seq items) ∧ b.q = countOf v ∧
              ∀ i, i ∈ b.sources ↔ ∃ ks, some ks ∈ itemsOf v ∧ i ∈ ks))) := by
  constructor
  · rintro n ids rfl rfl; rfl
  intro hqs
  constructor
  · rintro rfl rfl
    unfold sdeFromFunction
    split
    · simp at hqs
    · rfl
  intro v hv
  have hform : sdeFromFunction test0 test2 q sources = buildFrom v q sources := by
    unfold sdeFromFunction
    split
    · simp at hqs
    · rcases hv with rfl | ⟨rfl, rfl⟩ <;> rfl
  have hform2 : v ≠ .seq [] → buildFrom v q sources = buildItems (countOf v) (itemsOf v) q sources := by
    intro hne
    cases v with
    | obj o => rfl
    | seq items =>
      simp only [buildFrom]
      rw [if_neg]
      · rfl
      · intro h0
        exact hne (by rw [List.eq_nil_of_length_eq_zero h0])
  rw [hform]
  refine ⟨by rintro rfl; rfl, ?_, ?_⟩
  · intro hn
    have hne : v ≠ .seq [] := by rintro rfl; simp [itemsOf] at hn
    rw [hform2 hne]
    unfold buildItems
    rw [collectIds_bad _ hn]
  · intro hne hn
    obtain ⟨ids, h1, h2⟩ := collectIds_ok (itemsOf v) hn
    rw [hform2 hne]
    unfold buildItems
    rw [h1]
    simp only
    have hinc : inconsistent q (countOf v) sources ids = true ↔
        ((∃ n, q = some n ∧ n ≠ countOf v) ∨
          ∃ ss, sources = some ss ∧ ¬ ∀ i, i ∈ ss ↔ ∃ ks, some ks ∈ itemsOf v ∧ i ∈ ks) := by
      have hset : ∀ ss : List Id, ((∀ i ∈ ss, i ∈ ids) ∧ ∀ i ∈ ids, i ∈ ss) ↔
          ∀ i, i ∈ ss ↔ ∃ ks, some ks ∈ itemsOf v ∧ i ∈ ks := by
        intro ss
        constructor
        · rintro ⟨ha, hb⟩ i
          rw [← h2]; exact ⟨ha i, hb i⟩
        · intro h
          exact ⟨fun i hi => (h2 i).2 ((h i).1 hi), fun i hi => (h i).2 ((h2 i).1 hi)⟩
      unfold inconsistent
      rw [Bool.or_eq_true]
      apply or_congr
      · cases q with
        | none => simp
        | some n =>
          simp only [decide_eq_true_eq, Option.some.injEq, exists_eq_left']
          exact ne_comm
      · cases sources with
        | none => simp
        | some ss =>
          simp only [decide_eq_true_eq, Option.some.injEq, exists_eq_left']
          rw [hset]
    constructor
    · intro h; rw [if_pos (hinc.2 h)]
    · intro h
      rw [if_neg (by rw [hinc]; exact h)]
      refine ⟨_, rfl, ?_, rfl, h2⟩
      simp only [decide_eq_true_eq]
      cases v with
      | obj o => simp [countOf]
      | seq items =>
        simp only [countOf, TestVal.seq.injEq, exists_eq', iff_true]
        intro h0
        apply hne
        have : items = [] := List.eq_nil_of_length_eq_zero (by omega)
        rw [this]

/-- `f()` fails, `f(1., 1.)` returns a dictionary with keys 0 and 1; two dictionaries are found
by `f()`; and `q = 3` disagrees. -/
example : sdeFromFunction none (some (.obj (some [0, 1]))) none none = .ok ⟨false, 0, [0, 1]⟩ ∧
    sdeFromFunction (some (.seq [some [0], some [0, 1]])) none none none =
      .ok ⟨true, 2, [0, 0, 1]⟩ ∧
    sdeFromFunction (some (.seq [some [0], some [0, 1]])) none (some 3) none =
      .error .typeError := ⟨rfl, rfl, rfl⟩

end Sdepy
