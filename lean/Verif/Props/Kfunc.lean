import Verif.Model.Kfunc
import Verif.Props.Args

/-!
# kfunc: management of parameters (C51) and validation (C52)
-/

namespace Sdepy
open Spec

variable {N V S R : Type} [DecidableEq N]

/-! ### dictionaries -/

theorem dictOk_filter {W : Type} {D : List (N × W)} (h : DictOk D) (q : N × W → Bool) :
    DictOk (D.filter q) :=
  List.Nodup.sublist (List.Sublist.map _ List.filter_sublist) h

theorem lookup_filter' {W : Type} (q : N → Prop) [DecidablePred q] (D : List (N × W)) (k : N) :
    (D.filter fun p => q p.1).lookup k = if q k then D.lookup k else none := by
  induction D with
  | nil => simp
  | cons p D ih =>
    obtain ⟨j, v⟩ := p
    by_cases hj : q j
    · rw [List.filter_cons_of_pos (by simpa using hj), List.lookup_cons, List.lookup_cons, ih]
      by_cases hk : k = j
      · subst hk; simp [hj]
      · have hb : (k == j) = false := by simpa using hk
        simp [hb]
    · rw [List.filter_cons_of_neg (by simpa using hj), List.lookup_cons, ih]
      by_cases hk : k = j
      · subst hk; simp [hj]
      · have hb : (k == j) = false := by simpa using hk
        simp [hb]

theorem dictUpdate_keys' {W : Type} : ∀ (E D : List (N × W)) (k : N),
    k ∈ (dictUpdate D E).map Prod.fst ↔ k ∈ D.map Prod.fst ∨ k ∈ E.map Prod.fst := by
  intro E
  induction E with
  | nil => intro D k; simp [dictUpdate]
  | cons p E ih =>
    intro D k
    have : dictUpdate D (p :: E) = dictUpdate (dictSet D p.1 p.2) E := rfl
    rw [this, ih, dictSet_keys]
    by_cases hp : p.1 ∈ D.map Prod.fst
    · rw [if_pos hp, List.map_cons, List.mem_cons]
      constructor
      · rintro (h | h)
        · exact .inl h
        · exact .inr (.inr h)
      · rintro (h | h | h)
        · exact .inl h
        · exact .inl (h ▸ hp)
        · exact .inr h
    · rw [if_neg hp, List.mem_append, List.map_cons, List.mem_singleton, List.mem_cons, or_assoc]

theorem parArgs_self {c : KClass N V S R} {a : List (N × V)}
    (h : ∀ k ∈ a.map Prod.fst, k ∉ c.callNames) : c.parArgs a = a := by
  unfold KClass.parArgs
  rw [List.filter_eq_self]
  intro p hp
  simpa using h p.1 (List.mem_map_of_mem hp)

theorem callArgs_none {c : KClass N V S R} {a : List (N × V)}
    (h : ∀ k ∈ a.map Prod.fst, k ∉ c.callNames) : c.callArgs a = [] := by
  unfold KClass.callArgs
  rw [List.filter_eq_nil_iff]
  intro p hp
  simpa using h p.1 (List.mem_map_of_mem hp)

theorem parArgs_names (c : KClass N V S R) (a : List (N × V)) :
    ∀ k ∈ (c.parArgs a).map Prod.fst, k ∉ c.callNames := by
  intro k hk
  obtain ⟨p, hp, rfl⟩ := List.mem_map.1 hk
  have := (List.mem_filter.1 hp).2
  simpa using this

theorem parArgs_ok (c : KClass N V S R) {a : List (N × V)} (h : DictOk a) : DictOk (c.parArgs a) :=
  dictOk_filter h _

theorem parArgs_lookup (c : KClass N V S R) (a : List (N × V)) (k : N) :
    (c.parArgs a).lookup k = if k ∉ c.callNames then a.lookup k else none :=
  lookup_filter' (fun k => k ∉ c.callNames) a k

theorem callArgs_lookup (c : KClass N V S R) (a : List (N × V)) (k : N) :
    (c.callArgs a).lookup k = if k ∈ c.callNames then a.lookup k else none :=
  lookup_filter' (fun k => k ∈ c.callNames) a k

/-! ### C51: specification -/

/-- `m` is the dictionary of the values in `a`, overridden by those in `b`. -/
def Spec.Overrides (m a b : List (N × V)) : Prop :=
  DictOk m ∧ ∀ k, m.lookup k = (b.lookup k).or (a.lookup k)

/-- `p` is the part of the dictionary `a` with names satisfying `q`. -/
def Spec.PartOf (q : N → Prop) (p a : List (N × V)) : Prop :=
  DictOk p ∧ ∀ k v, p.lookup k = some v ↔ q k ∧ a.lookup k = some v

theorem parArgs_part (c : KClass N V S R) {a : List (N × V)} (h : DictOk a) :
    PartOf (· ∉ c.callNames) (c.parArgs a) a := by
  refine ⟨parArgs_ok c h, fun k v => ?_⟩
  rw [parArgs_lookup]
  by_cases hk : k ∈ c.callNames <;> simp [hk]

theorem callArgs_part (c : KClass N V S R) {a : List (N × V)} (h : DictOk a) :
    PartOf (· ∈ c.callNames) (c.callArgs a) a := by
  refine ⟨dictOk_filter h _, fun k v => ?_⟩
  rw [callArgs_lookup]
  by_cases hk : k ∈ c.callNames <;> simp [hk]

/-- Outcome of the evaluation of the wrapped object, initialized with parameters `m`. -/
def Spec.evalWith (c : KClass N V S R) (m : List (N × V)) (vars : List V) (args : List (N × V)) :
    Py (KRes R) :=
  match c.init m with
  | .error e => .error e
  | .ok s => (c.call s vars args).1.map KRes.val

/-! ### C51 -/

/-- Creating an instance with parameters `a` and calling it with some parameters `b` has the outcome
of calling the class with `a` overridden by `b`: the same exception or an instance with the same
parameters and attributes. -/
theorem C51_merge (c : KClass N V S R) (h h1 : List (KObj N V S)) (i : ℕ) (a b : List (N × V))
    (ha : DictOk a) (hb : DictOk b) (hac : ∀ k ∈ a.map Prod.fst, k ∉ c.callNames)
    (hbc : ∀ k ∈ b.map Prod.fst, k ∉ c.callNames) (hne : b ≠ [])
    (hnew : c.new h [] a = (.ok (.inst i), h1)) :
    ∃ m, Overrides m a b ∧
      ((∃ e, c.callInst h1 i [] b = (.error e, h1) ∧ c.new h [] m = (.error e, h)) ∨
       (∃ s, c.callInst h1 i [] b = (.ok (.inst h1.length), h1 ++ [⟨m, some i, s⟩]) ∧
          c.new h [] m = (.ok (.inst h.length), h ++ [⟨m, none, s⟩]))) := by
  refine ⟨dictUpdate a b, ⟨dictUpdate_ok b ha, dictUpdate_lookup b a hb⟩, ?_⟩
  have hmc : ∀ k ∈ (dictUpdate a b).map Prod.fst, k ∉ c.callNames := by
    intro k hk
    rcases (dictUpdate_keys' b a k).1 hk with hk | hk
    · exact hac k hk
    · exact hbc k hk
  unfold KClass.new at hnew ⊢
  rw [parArgs_self hac, callArgs_none hac] at hnew
  rw [parArgs_self hmc, callArgs_none hmc]
  have hn : ¬ (([] : List V) ≠ [] ∨ ([] : List (N × V)) ≠ []) := by simp
  cases hi : c.init a with
  | error e => rw [hi] at hnew; simp at hnew
  | ok s0 =>
    rw [hi] at hnew
    simp only [if_neg hn, Prod.mk.injEq, Except.ok.injEq, KRes.inst.injEq] at hnew
    obtain ⟨h1e, h2e⟩ := hnew
    subst h1e; subst h2e
    unfold KClass.callInst
    rw [List.getElem?_concat_length, parArgs_self hbc, callArgs_none hbc]
    simp only [if_neg hne]
    cases hm : c.init (dictUpdate a b) with
    | error e => exact .inl ⟨e, rfl, rfl⟩
    | ok s => refine .inr ⟨s, ?_, ?_⟩ <;> simp only [if_neg hn]

/-- An instance called with variables and parameters: the wrapped object is evaluated with the
stored parameters overridden by those given, and nothing changes. -/
theorem C51_eval (c : KClass N V S R) (h : List (KObj N V S)) (i : ℕ) (o : KObj N V S)
    (vars : List V) (args : List (N × V)) (hargs : DictOk args) (hpar : DictOk o.params)
    (ho : h[i]? = some o) (hp : ∃ k ∈ args.map Prod.fst, k ∉ c.callNames)
    (hv : vars ≠ [] ∨ ∃ k ∈ args.map Prod.fst, k ∈ c.callNames) :
    ∃ given m va, PartOf (· ∉ c.callNames) given args ∧ PartOf (· ∈ c.callNames) va args ∧
      Overrides m o.params given ∧ c.callInst h i vars args = (evalWith c m vars va, h) := by
  refine ⟨c.parArgs args, dictUpdate o.params (c.parArgs args), c.callArgs args,
    parArgs_part c hargs, callArgs_part c hargs,
    ⟨dictUpdate_ok _ hpar, dictUpdate_lookup _ _ (parArgs_ok c hargs)⟩, ?_⟩
  have hne : c.parArgs args ≠ [] := by
    obtain ⟨k, hk, hkc⟩ := hp
    obtain ⟨p, hp, rfl⟩ := List.mem_map.1 hk
    exact List.ne_nil_of_mem (List.mem_filter.2 ⟨hp, by simpa using hkc⟩)
  have hv' : vars ≠ [] ∨ c.callArgs args ≠ [] := by
    rcases hv with hv | ⟨k, hk, hkc⟩
    · exact .inl hv
    · obtain ⟨p, hp, rfl⟩ := List.mem_map.1 hk
      exact .inr (List.ne_nil_of_mem (List.mem_filter.2 ⟨hp, by simpa using hkc⟩))
  unfold KClass.callInst evalWith
  rw [ho]
  simp only [if_neg hne]
  cases hi : c.init (dictUpdate o.params (c.parArgs args)) with
  | error e => rfl
  | ok s =>
    simp only [if_pos hv']
    cases hc : (c.call s vars (c.callArgs args)).1 <;> rfl

/-- An instance called with no parameters, with or without variables: the wrapped object is called
on the attributes of the instance, which are then those left by the call. -/
theorem C51_plain (c : KClass N V S R) (h : List (KObj N V S)) (i : ℕ) (o : KObj N V S)
    (vars : List V) (args : List (N × V)) (ho : h[i]? = some o)
    (hp : ∀ k ∈ args.map Prod.fst, k ∈ c.callNames) :
    c.callInst h i vars args = ((c.call o.state vars args).1.map KRes.val,
      h.set i ⟨o.params, o.parent, (c.call o.state vars args).2⟩) := by
  have h1 : c.parArgs args = [] := by
    unfold KClass.parArgs
    rw [List.filter_eq_nil_iff]
    intro p hp'
    simpa using hp p.1 (List.mem_map_of_mem hp')
  have h2 : c.callArgs args = args := by
    unfold KClass.callArgs
    rw [List.filter_eq_self]
    intro p hp'
    simpa using hp p.1 (List.mem_map_of_mem hp')
  unfold KClass.callInst
  rw [ho, h1, h2]
  simp only [if_true]
  cases hc : (c.call o.state vars args).1 <;> rfl

/-- The class called with variables: the wrapped object is evaluated with the parameters given, and
nothing is stored. -/
theorem C51_new_eval (c : KClass N V S R) (h : List (KObj N V S)) (vars : List V)
    (args : List (N × V)) (hargs : DictOk args)
    (hv : vars ≠ [] ∨ ∃ k ∈ args.map Prod.fst, k ∈ c.callNames) :
    ∃ given va, PartOf (· ∉ c.callNames) given args ∧ PartOf (· ∈ c.callNames) va args ∧
      c.new h vars args = (evalWith c given vars va, h) := by
  refine ⟨c.parArgs args, c.callArgs args, parArgs_part c hargs, callArgs_part c hargs, ?_⟩
  have hv' : vars ≠ [] ∨ c.callArgs args ≠ [] := by
    rcases hv with hv | ⟨k, hk, hkc⟩
    · exact .inl hv
    · obtain ⟨p, hp, rfl⟩ := List.mem_map.1 hk
      exact .inr (List.ne_nil_of_mem (List.mem_filter.2 ⟨hp, by simpa using hkc⟩))
  unfold KClass.new evalWith
  cases hi : c.init (c.parArgs args) with
  | error e => rfl
  | ok s =>
    simp only [if_pos hv']
    cases hc : (c.call s vars (c.callArgs args)).1 <;> rfl

/-- The statement is a plain call of instance `i`: a call with no parameters. -/
def Spec.PlainCall (c : KClass N V S R) (i : ℕ) : KOp N V → Prop
  | .new _ _ => False
  | .call j _ args => j = i ∧ ∀ k ∈ args.map Prod.fst, k ∈ c.callNames

theorem step_stored (c : KClass N V S R) (h : List (KObj N V S)) (op : KOp N V) (i : ℕ)
    (o : KObj N V S) (ho : h[i]? = some o) :
    ∃ s, (c.step h op)[i]? = some ⟨o.params, o.parent, s⟩ ∧ (¬ PlainCall c i op → s = o.state) := by
  have hlt : i < h.length := (List.getElem?_eq_some_iff.1 ho).1
  have happ : ∀ x, (h ++ [x])[i]? = some o := by
    intro x; rw [List.getElem?_append_left hlt]; exact ho
  have hsame : ∃ s, h[i]? = some ⟨o.params, o.parent, s⟩ ∧ (¬ PlainCall c i op → s = o.state) :=
    ⟨o.state, ho, fun _ => rfl⟩
  have happ' : ∀ x, ∃ s, (h ++ [x])[i]? = some ⟨o.params, o.parent, s⟩ ∧
      (¬ PlainCall c i op → s = o.state) := fun x => ⟨o.state, happ x, fun _ => rfl⟩
  cases op with
  | new vars args =>
    show ∃ s, (c.new h vars args).2[i]? = _ ∧ _
    unfold KClass.new
    cases c.init (c.parArgs args) with
    | error e => exact hsame
    | ok s =>
      by_cases hv : vars ≠ [] ∨ c.callArgs args ≠ []
      · simp only [if_pos hv]
        cases (c.call s vars (c.callArgs args)).1 <;> exact hsame
      · simp only [if_neg hv]; exact happ' _
  | call j vars args =>
    show ∃ s, (c.callInst h j vars args).2[i]? = _ ∧ _
    unfold KClass.callInst
    cases hj : h[j]? with
    | none => exact hsame
    | some oj =>
      by_cases hp : c.parArgs args = []
      · simp only [if_pos hp]
        have hset : ∃ s, (h.set j { oj with state := (c.call oj.state vars (c.callArgs args)).2 })[i]?
            = some ⟨o.params, o.parent, s⟩ ∧ (¬ PlainCall c i (.call j vars args) → s = o.state) := by
          by_cases hji : j = i
          · subst hji
            rw [ho] at hj
            cases hj
            refine ⟨_, List.getElem?_set_self hlt, fun hn => absurd ⟨rfl, fun k hk => ?_⟩ hn⟩
            by_contra hkc
            obtain ⟨p, hp', rfl⟩ := List.mem_map.1 hk
            have : p ∈ c.parArgs args := List.mem_filter.2 ⟨hp', by simpa using hkc⟩
            rw [hp] at this; cases this
          · rw [List.getElem?_set_ne hji]; exact ⟨o.state, ho, fun _ => rfl⟩
        cases (c.call oj.state vars (c.callArgs args)).1 <;> exact hset
      · simp only [if_neg hp]
        cases c.init (dictUpdate oj.params (c.parArgs args)) with
        | error e => exact hsame
        | ok s =>
          by_cases hv : vars ≠ [] ∨ c.callArgs args ≠ []
          · simp only [if_pos hv]
            cases (c.call s vars (c.callArgs args)).1 <;> exact hsame
          · simp only [if_neg hv]; exact happ' _

/-- Whatever the sequence of calls, to the class and to instances, with any outcomes: the parameters
stored in an instance do not change, and its other attributes change only if the instance itself is
called with no parameters. -/
theorem C51_stored (c : KClass N V S R) (h : List (KObj N V S)) (ops : List (KOp N V)) (i : ℕ)
    (o : KObj N V S) (ho : h[i]? = some o) :
    ∃ s, (c.run h ops)[i]? = some ⟨o.params, o.parent, s⟩ ∧
      ((∀ op ∈ ops, ¬ PlainCall c i op) → s = o.state) := by
  induction ops generalizing h o with
  | nil => exact ⟨o.state, ho, fun _ => rfl⟩
  | cons op ops ih =>
    obtain ⟨s1, h1, hs1⟩ := step_stored c h op i o ho
    obtain ⟨s2, h2, hs2⟩ := ih (c.step h op) _ h1
    refine ⟨s2, h2, fun hn => ?_⟩
    rw [hs2 fun op' h' => hn op' (List.mem_cons_of_mem _ h'), hs1 (hn op (by simp))]

/-- Attributes that an instance may have after being initialized with parameters `m` and then
called any number of times. -/
inductive Spec.Reached (c : KClass N V S R) (m : List (N × V)) : S → Prop
  | init (s : S) : c.init m = .ok s → Reached c m s
  | call (s : S) (vars : List V) (args : List (N × V)) : Reached c m s →
      Reached c m (c.call s vars args).2

/-- What holds of every instance in the heap. -/
structure Spec.Instance (c : KClass N V S R) (h : List (KObj N V S)) (i : ℕ) (o : KObj N V S) :
    Prop where
  /-- parameters are a dictionary ... -/
  ok : DictOk o.params
  /-- ... of no variable ... -/
  names : ∀ k ∈ o.params.map Prod.fst, k ∉ c.callNames
  /-- ... and the object has been initialized with all of them and nothing else -/
  state : Reached c o.params o.state
  /-- an instance made by calling an instance was made before has its parameters, overridden by
  those given, at least one -/
  parent : ∀ j, o.parent = some j → j < i ∧ ∃ p b, h[j]? = some p ∧ b ≠ [] ∧ DictOk b ∧
    Overrides o.params p.params b

/-- The arguments in a statement are a dictionary: there are no repeated names. -/
def Spec.OpOk : KOp N V → Prop
  | .new _ args => DictOk args
  | .call _ _ args => DictOk args

theorem instance_append {c : KClass N V S R} {h : List (KObj N V S)} {i : ℕ} {o : KObj N V S}
    (hi : Instance c h i o) (x : KObj N V S) : Instance c (h ++ [x]) i o := by
  refine ⟨hi.ok, hi.names, hi.state, fun j hj => ?_⟩
  obtain ⟨h1, p, b, h2, h3⟩ := hi.parent j hj
  refine ⟨h1, p, b, ?_, h3⟩
  rw [List.getElem?_append_left (List.getElem?_eq_some_iff.1 h2).1]; exact h2

theorem append_invariant {c : KClass N V S R} {h : List (KObj N V S)}
    (hinv : ∀ (i : ℕ) o, h[i]? = some o → Instance c h i o) (x : KObj N V S)
    (hx : Instance c (h ++ [x]) h.length x) :
    ∀ (i : ℕ) o, (h ++ [x])[i]? = some o → Instance c (h ++ [x]) i o := by
  intro i o ho
  by_cases hlt : i < h.length
  · rw [List.getElem?_append_left hlt] at ho
    exact instance_append (hinv i o ho) x
  · have hlen := (List.getElem?_eq_some_iff.1 ho).1
    rw [List.length_append, List.length_singleton] at hlen
    have : i = h.length := by omega
    subst this
    rw [List.getElem?_concat_length] at ho
    cases ho; exact hx

theorem step_invariant (c : KClass N V S R) (h : List (KObj N V S)) (op : KOp N V) (hop : OpOk op)
    (hinv : ∀ (i : ℕ) o, h[i]? = some o → Instance c h i o) :
    ∀ (i : ℕ) o, (c.step h op)[i]? = some o → Instance c (c.step h op) i o := by
  cases op with
  | new vars args =>
    show ∀ (i : ℕ) o, (c.new h vars args).2[i]? = some o → Instance c (c.new h vars args).2 i o
    unfold KClass.new
    cases hi : c.init (c.parArgs args) with
    | error e => exact hinv
    | ok s =>
      by_cases hv : vars ≠ [] ∨ c.callArgs args ≠ []
      · simp only [if_pos hv]
        cases (c.call s vars (c.callArgs args)).1 <;> exact hinv
      · simp only [if_neg hv]
        refine append_invariant hinv _ ⟨parArgs_ok c hop, parArgs_names c args, .init s hi, ?_⟩
        intro j hj; cases hj
  | call j vars args =>
    show ∀ (i : ℕ) o, (c.callInst h j vars args).2[i]? = some o →
      Instance c (c.callInst h j vars args).2 i o
    unfold KClass.callInst
    cases hj : h[j]? with
    | none => exact hinv
    | some oj =>
      have hjlt := (List.getElem?_eq_some_iff.1 hj).1
      have hjn := hinv j oj hj
      by_cases hp : c.parArgs args = []
      · simp only [if_pos hp]
        have hset : ∀ (i : ℕ) o,
            (h.set j { oj with state := (c.call oj.state vars (c.callArgs args)).2 })[i]? = some o →
            Instance c (h.set j { oj with state := (c.call oj.state vars (c.callArgs args)).2 }) i o := by
          have hpar : ∀ (i : ℕ) p, h[i]? = some p → ∃ p', (h.set j
              { oj with state := (c.call oj.state vars (c.callArgs args)).2 })[i]? = some p' ∧
              p'.params = p.params := by
            intro i p hi
            by_cases hji : j = i
            · subst hji
              rw [hj] at hi; cases hi
              exact ⟨_, List.getElem?_set_self hjlt, rfl⟩
            · rw [List.getElem?_set_ne hji]; exact ⟨p, hi, rfl⟩
          have hmove : ∀ (i : ℕ) o, Instance c h i o → Instance c (h.set j
              { oj with state := (c.call oj.state vars (c.callArgs args)).2 }) i o := by
            intro i o hi
            refine ⟨hi.ok, hi.names, hi.state, fun l hl => ?_⟩
            obtain ⟨h1, p, b, h2, h3, h3', h4⟩ := hi.parent l hl
            obtain ⟨p', h5, h6⟩ := hpar l p h2
            exact ⟨h1, p', b, h5, h3, h3', h6 ▸ h4⟩
          intro i o ho
          by_cases hji : j = i
          · subst hji
            rw [List.getElem?_set_self hjlt] at ho
            cases ho
            have := hmove j oj hjn
            exact ⟨this.ok, this.names, .call _ _ _ this.state, this.parent⟩
          · rw [List.getElem?_set_ne hji] at ho
            exact hmove i o (hinv i o ho)
        cases (c.call oj.state vars (c.callArgs args)).1 <;> exact hset
      · simp only [if_neg hp]
        cases hi : c.init (dictUpdate oj.params (c.parArgs args)) with
        | error e => exact hinv
        | ok s =>
          by_cases hv : vars ≠ [] ∨ c.callArgs args ≠ []
          · simp only [if_pos hv]
            cases (c.call s vars (c.callArgs args)).1 <;> exact hinv
          · simp only [if_neg hv]
            refine append_invariant hinv _ ⟨dictUpdate_ok _ hjn.ok, ?_, .init s hi, ?_⟩
            · intro k hk
              rcases (dictUpdate_keys' _ _ k).1 hk with hk | hk
              · exact hjn.names k hk
              · exact parArgs_names c args k hk
            · intro l hl
              cases hl
              refine ⟨hjlt, oj, c.parArgs args, ?_, hp, parArgs_ok c hop,
                dictUpdate_ok _ hjn.ok, dictUpdate_lookup _ _ (parArgs_ok c hop)⟩
              rw [List.getElem?_append_left hjlt]; exact hj

theorem run_invariant (c : KClass N V S R) (ops : List (KOp N V)) : ∀ (h : List (KObj N V S)),
    (∀ op ∈ ops, OpOk op) → (∀ (i : ℕ) o, h[i]? = some o → Instance c h i o) →
    ∀ (i : ℕ) o, (c.run h ops)[i]? = some o → Instance c (c.run h ops) i o := by
  induction ops with
  | nil => intro h _ hinv; exact hinv
  | cons op ops ih =>
    intro h hops hinv
    exact ih (c.step h op) (fun op' h' => hops op' (List.mem_cons_of_mem _ h'))
      (step_invariant c h op (hops op (by simp)) hinv)

/-- After any program, every instance was initialized with the parameters it stores, none of which
is a variable; if made from another instance, it has the parameters of that one, overridden by those
given. -/
theorem C51_history (c : KClass N V S R) (ops : List (KOp N V)) (hops : ∀ op ∈ ops, OpOk op)
    (i : ℕ) (o : KObj N V S) (ho : (c.run [] ops)[i]? = some o) : Instance c (c.run [] ops) i o :=
  run_invariant c ops [] hops (by intro i o h; simp at h) i o ho

/-- A function wrapped as a kfunc, after any program: an instance called with variables, or with no
parameters, evaluates the function with the given variables, and for all other names with the values
given in the call or else stored in the instance. -/
theorem C51_function (m : KMeta N V) (f : List V → List (N × V) → Py R) (ops : List (KOp N V))
    (hops : ∀ op ∈ ops, OpOk op) (i : ℕ) (o : KObj N V (List (N × V)))
    (ho : ((functionClass m f).run [] ops)[i]? = some o) (vars : List V) (args : List (N × V))
    (hargs : DictOk args)
    (hv : vars ≠ [] ∨ (∃ k ∈ args.map Prod.fst, k ∈ m.callNames) ∨ args = []) :
    ∃ full, Overrides full o.params args ∧
      ((functionClass m f).callInst ((functionClass m f).run [] ops) i vars args).1 =
        (f vars full).map KRes.val := by
  set c := functionClass m f with hc
  have hinst := C51_history c ops hops i o ho
  have hreach : ∀ (m' s : List (N × V)), Reached c m' s → s = m' := by
    intro m' s hs
    induction hs with
    | init s h => cases h; rfl
    | call s v a _ ih => exact ih
  have hstate := hreach _ _ hinst.state
  -- names of variables and of parameters do not overlap
  have key : ∀ (s : List (N × V)), DictOk s → (∀ k ∈ s.map Prod.fst, k ∉ c.callNames) →
      (c.call s vars (c.callArgs args)).1 = f vars (c.callArgs args ++ s) ∧
      DictOk (c.callArgs args ++ s) := by
    intro s hs hsn
    have hdis : ∀ p ∈ c.callArgs args, p.1 ∉ s.map Prod.fst := by
      intro p hp hps
      have := (List.mem_filter.1 hp).2
      exact hsn p.1 hps (by simpa using this)
    constructor
    · show (if (c.callArgs args).any (fun p => p.1 ∈ s.map Prod.fst) = true
        then Except.error PyErr.typeError else f vars (c.callArgs args ++ s)) = _
      rw [if_neg]
      intro h
      obtain ⟨p, hp, h'⟩ := List.any_eq_true.1 h
      exact hdis p hp (by simpa using h')
    · unfold DictOk
      rw [List.map_append]
      refine List.Nodup.append (dictOk_filter hargs _) hs ?_
      intro k hk hks
      obtain ⟨p, hp, rfl⟩ := List.mem_map.1 hk
      exact hdis p hp hks
  by_cases hp : c.parArgs args = []
  · obtain ⟨k1, k2⟩ := key o.state (hstate ▸ hinst.ok) (hstate ▸ hinst.names)
    refine ⟨c.callArgs args ++ o.state, ⟨k2, fun k => ?_⟩, ?_⟩
    · rw [lookup_append', callArgs_lookup, hstate]
      by_cases hk : k ∈ c.callNames
      · rw [if_pos hk]
      · rw [if_neg hk]
        have : args.lookup k = none := by
          have := parArgs_lookup c args k
          rw [hp, if_pos hk] at this
          exact this.symm
        rw [this]
    · unfold KClass.callInst
      rw [ho]
      simp only [if_pos hp]
      rw [← k1]
      cases (c.call o.state vars (c.callArgs args)).1 <;> rfl
  · have hmok : DictOk (dictUpdate o.params (c.parArgs args)) := dictUpdate_ok _ hinst.ok
    have hmn : ∀ k ∈ (dictUpdate o.params (c.parArgs args)).map Prod.fst, k ∉ c.callNames := by
      intro k hk
      rcases (dictUpdate_keys' _ _ k).1 hk with hk | hk
      · exact hinst.names k hk
      · exact parArgs_names c args k hk
    obtain ⟨k1, k2⟩ := key _ hmok hmn
    have hv' : vars ≠ [] ∨ c.callArgs args ≠ [] := by
      rcases hv with hv | ⟨k, hk, hkc⟩ | hv
      · exact .inl hv
      · obtain ⟨p, hp, rfl⟩ := List.mem_map.1 hk
        exact .inr (List.ne_nil_of_mem (List.mem_filter.2 ⟨hp, decide_eq_true hkc⟩))
      · exact absurd (by rw [hv]; rfl) hp
    refine ⟨c.callArgs args ++ dictUpdate o.params (c.parArgs args), ⟨k2, fun k => ?_⟩, ?_⟩
    · rw [lookup_append', callArgs_lookup, dictUpdate_lookup _ _ (parArgs_ok c hargs),
        parArgs_lookup]
      by_cases hk : k ∈ c.callNames
      · have : o.params.lookup k = none := by
          rw [lookup_eq_none_iff']
          exact fun h => hinst.names k h hk
        simp [hk, this]
      · simp [hk]
    · unfold KClass.callInst
      rw [ho]
      simp only [if_neg hp]
      have hi : c.init (dictUpdate o.params (c.parArgs args)) =
        .ok (dictUpdate o.params (c.parArgs args)) := rfl
      rw [hi]
      simp only [if_pos hv']
      rw [← k1]
      cases (c.call (dictUpdate o.params (c.parArgs args)) vars (c.callArgs args)).1 <;> rfl

theorem lookup_map_some (D : List (N × V)) (k : N) :
    (D.map fun p => (p.1, some p.2)).lookup k = (D.lookup k).map some := by
  induction D with
  | nil => rfl
  | cons p D ih =>
    rw [List.map_cons, List.lookup_cons, List.lookup_cons, ih]
    cases (k == p.1) <;> rfl

theorem dictOk_map_some {D : List (N × V)} (h : DictOk D) :
    DictOk (D.map fun p => (p.1, some p.2)) := by
  unfold DictOk at h ⊢
  rw [List.map_map]; exact h

/-- `params` reports the stored values, or else the defaults in the signature of `__init__`; for SDE
classes, the values in `args` come first. -/
theorem C51_params (c : KClass N V S R) (o : KObj N V S) (ho : DictOk o.params)
    (hs : ∀ a, c.sdeArgs = some a → DictOk (a o.state)) (k : N) :
    (c.paramsOf o).lookup k =
      (((match c.sdeArgs with
        | none => none
        | some a => (a o.state).lookup k).or (o.params.lookup k)).map some).or
      (c.initArgs.lookup k) := by
  unfold KClass.paramsOf
  cases h : c.sdeArgs with
  | none =>
    simp only
    rw [dictUpdate_lookup _ _ (dictOk_map_some ho), lookup_map_some]
    rfl
  | some a =>
    simp only
    rw [dictUpdate_lookup _ _ (dictOk_map_some (hs a h)),
      dictUpdate_lookup _ _ (dictOk_map_some ho), lookup_map_some, lookup_map_some]
    cases (a o.state).lookup k <;> rfl

section Examples

/-- `f(x, y=.., *, a=1, b)`, `nvar=2`; it returns all of its arguments. -/
private def exMeta : KMeta String ℤ := ⟨[("a", some 1), ("b", none)], ["x", "y"]⟩

private def exK : KClass String ℤ (List (String × ℤ)) (List ℤ × List (String × ℤ)) :=
  functionClass exMeta fun v d => .ok (v, d)

/-- `i = f(a=2); j = i(b=3, a=4); j(7, b=9); i()` -/
private def exOps : List (KOp String ℤ) :=
  [.new [] [("a", 2)], .call 0 [] [("b", 3), ("a", 4)], .call 1 [7] [("b", 9)], .call 0 [] []]

example : exK.new [] [] [("a", 2)] = (.ok (.inst 0), [⟨[("a", 2)], none, [("a", 2)]⟩]) ∧
    DictOk [("a", (2 : ℤ))] ∧ DictOk [("b", (3 : ℤ)), ("a", 4)] := by
  refine ⟨by rfl, ?_, ?_⟩ <;> (unfold DictOk; decide)

example : (exK.run [] exOps).map (·.params) = [[("a", 2)], [("a", 4), ("b", 3)]] ∧
    (exK.callInst (exK.run [] exOps) 1 [7] [("b", 9), ("y", 5)]).1 =
      .ok (.val ([7], [("y", 5), ("a", 4), ("b", 9)])) ∧ ∀ op ∈ exOps, OpOk op := by
  refine ⟨by rfl, by rfl, ?_⟩
  intro op h
  simp only [exOps, List.mem_cons, List.not_mem_nil, or_false] at h
  rcases h with rfl | rfl | rfl | rfl <;>
    (simp only [OpOk]; unfold DictOk; decide)

example : exK.paramsOf ⟨[("a", 4), ("c", 3)], none, []⟩ =
    [("a", some 4), ("b", none), ("c", some 3)] := by rfl

end Examples

/-! ### C52 -/

/-- Signature of a method: the instance, and the other parameters. -/
def Spec.Method (sig : List (SigParam N V)) (self : SigParam N V) (rest : List (SigParam N V)) :
    Prop :=
  sig = self :: rest ∧ self.kind ≠ .varKw

/-- `z` is one of the parameters, other than `**kwargs`. -/
def Spec.Named (rest : List (SigParam N V)) (z : SigParam N V) : Prop :=
  z ∈ rest ∧ z.kind ≠ .varKw

/-- A class that can be wrapped. -/
structure Spec.CanWrapClass (f : ClassInfo N V) (ini cal : List (SigParam N V)) : Prop where
  /-- unless it is a kfunc already, it has no `__new__`, and has `__init__` and `__call__` -/
  methods : f.isKfunc = true ∨ (f.hasNew = false ∧ f.hasInit = true ∧ f.hasCall = true)
  /-- parameters are keyword-only ... -/
  kwOnly : ∀ z, Named ini z → z.kind = .kwOnly
  /-- ... and none has the name of a variable -/
  disjoint : ∀ z w, Named ini z → Named cal w → z.name ≠ w.name

theorem noVarKw_method {sig : List (SigParam N V)} {self : SigParam N V}
    {rest : List (SigParam N V)} (h : Method sig self rest) :
    (noVarKw sig).drop 1 = rest.filter fun z => z.kind ≠ .varKw := by
  obtain ⟨rfl, h⟩ := h
  unfold noVarKw
  rw [List.filter_cons_of_pos (by simpa using h)]
  rfl

theorem mem_named {rest : List (SigParam N V)} {z : SigParam N V} :
    z ∈ rest.filter (fun z => z.kind ≠ .varKw) ↔ Named rest z := by
  rw [List.mem_filter]; unfold Named; simp

/-- Wrapping a class: refused with a `TypeError` unless the class can be wrapped; then the wrapper
knows names and defaults of the parameters, and the names of the variables. -/
theorem C52_class (f : ClassInfo N V) {s1 s2 : SigParam N V} {ini cal : List (SigParam N V)}
    (h1 : Method f.initSig s1 ini) (h2 : Method f.callSig s2 cal) :
    (¬ CanWrapClass f ini cal → decorateClass f = .error .typeError) ∧
    (CanWrapClass f ini cal → ∃ m, decorateClass f = .ok m ∧
      (∀ k d, (k, d) ∈ m.initArgs ↔ ∃ z, Named ini z ∧ z.name = k ∧ z.default = d) ∧
      (∀ k, k ∈ m.callNames ↔ ∃ z, Named cal z ∧ z.name = k)) := by
  have e : decorateClass f =
      if f.isKfunc = false ∧ f.hasNew = true then .error .typeError
      else if f.isKfunc = false ∧ ¬ (f.hasInit = true ∧ f.hasCall = true) then .error .typeError
      else
        if ((noVarKw f.initSig).drop 1).any fun z => z.kind ≠ .kwOnly then .error .typeError
        else if (((noVarKw f.callSig).drop 1).map (·.name)).any
          fun k => k ∈ ((noVarKw f.initSig).drop 1).map (·.name) then .error .typeError
        else .ok ⟨((noVarKw f.initSig).drop 1).map fun z => (z.name, z.default),
          ((noVarKw f.callSig).drop 1).map (·.name)⟩ := rfl
  rw [noVarKw_method h1, noVarKw_method h2] at e
  by_cases c1 : f.isKfunc = false ∧ f.hasNew = true
  · rw [if_pos c1] at e
    refine ⟨fun _ => e, fun hc => ?_⟩
    rcases hc.methods with hm | hm
    · rw [c1.1] at hm; cases hm
    · rw [c1.2] at hm; cases hm.1
  rw [if_neg c1] at e
  by_cases c2 : f.isKfunc = false ∧ ¬ (f.hasInit = true ∧ f.hasCall = true)
  · rw [if_pos c2] at e
    refine ⟨fun _ => e, fun hc => ?_⟩
    rcases hc.methods with hm | hm
    · rw [c2.1] at hm; cases hm
    · exact absurd hm.2 c2.2
  rw [if_neg c2] at e
  by_cases c3 : ((ini.filter fun z => z.kind ≠ .varKw).any fun z => z.kind ≠ .kwOnly) = true
  · rw [if_pos c3] at e
    refine ⟨fun _ => e, fun hc => ?_⟩
    obtain ⟨z, hz, hk⟩ := List.any_eq_true.1 c3
    exact absurd (hc.kwOnly z (mem_named.1 hz)) (by simpa using hk)
  rw [if_neg c3] at e
  by_cases c4 : (((cal.filter fun z => z.kind ≠ .varKw).map (·.name)).any
      fun k => k ∈ (ini.filter fun z => z.kind ≠ .varKw).map (·.name)) = true
  · rw [if_pos c4] at e
    refine ⟨fun _ => e, fun hc => ?_⟩
    obtain ⟨k, hk, hk'⟩ := List.any_eq_true.1 c4
    obtain ⟨w, hw, rfl⟩ := List.mem_map.1 hk
    obtain ⟨z, hz, hzw⟩ := List.mem_map.1 (of_decide_eq_true hk')
    exact absurd hzw (hc.disjoint z w (mem_named.1 hz) (mem_named.1 hw))
  rw [if_neg c4] at e
  refine ⟨fun hn => absurd (CanWrapClass.mk ?_ ?_ ?_) hn, fun _ => ⟨_, e, ?_, ?_⟩⟩
  · cases hk : f.isKfunc with
    | true => exact .inl rfl
    | false =>
      refine .inr ⟨?_, ?_⟩
      · cases hn' : f.hasNew with
        | false => rfl
        | true => exact absurd ⟨hk, hn'⟩ c1
      · by_contra hx; exact c2 ⟨hk, hx⟩
  · intro z hz
    by_contra hx
    exact c3 (List.any_eq_true.2 ⟨z, mem_named.2 hz, by simpa using hx⟩)
  · intro z w hz hw hzw
    exact c4 (List.any_eq_true.2 ⟨w.name, List.mem_map_of_mem (mem_named.2 hw),
      decide_eq_true (hzw ▸ List.mem_map_of_mem (mem_named.2 hz))⟩)
  · intro k d
    rw [List.mem_map]
    constructor
    · rintro ⟨z, hz, hzk⟩
      simp only [Prod.mk.injEq] at hzk
      exact ⟨z, mem_named.1 hz, hzk⟩
    · rintro ⟨z, hz, rfl, rfl⟩
      exact ⟨z, mem_named.2 hz, rfl⟩
  · intro k
    rw [List.mem_map]
    constructor
    · rintro ⟨z, hz, hzk⟩; exact ⟨z, mem_named.1 hz, hzk⟩
    · rintro ⟨z, hz, hzk⟩; exact ⟨z, mem_named.2 hz, hzk⟩

/-- Wrapping a function of parameters `named`, in order, and possibly of `**kwargs`, with
`kfunc(nvar=n)`: a `ValueError` unless `n` is between 1 and the number of parameters; a `TypeError`
unless the parameters that follow the first `n` are keyword-only; else the first `n` are the
variables, and the others the parameters, of the kfunc. -/
theorem C52_function (named kw : List (SigParam N V)) (n : ℤ)
    (h1 : ∀ z ∈ named, z.kind ≠ .varKw) (h2 : ∀ z ∈ kw, z.kind = .varKw) :
    (¬ (1 ≤ n ∧ n ≤ named.length) → decorateFunction n (.fn (named ++ kw)) = .error .valueError) ∧
    ∀ vars pars : List (SigParam N V), named = vars ++ pars → (vars.length : ℤ) = n → 1 ≤ n →
      ((∃ z ∈ pars, z.kind ≠ .kwOnly) →
        decorateFunction n (.fn (named ++ kw)) = .error .typeError) ∧
      ((∀ z ∈ pars, z.kind = .kwOnly) →
        decorateFunction n (.fn (named ++ kw)) =
          .ok ⟨pars.map fun z => (z.name, z.default), vars.map fun z => z.name⟩) := by
  have hs : noVarKw (named ++ kw) = named := by
    unfold noVarKw
    rw [List.filter_append, List.filter_eq_self.2, List.filter_eq_nil_iff.2, List.append_nil]
    · intro z hz; simp [h2 z hz]
    · intro z hz; simpa using h1 z hz
  have e : decorateFunction n (.fn (named ++ kw)) =
      if ¬ (0 < n ∧ n ≤ (noVarKw (named ++ kw)).length) then .error .valueError
      else if ((noVarKw (named ++ kw)).drop n.toNat).any fun z => z.kind ≠ .kwOnly
      then .error .typeError
      else .ok ⟨((noVarKw (named ++ kw)).drop n.toNat).map fun z => (z.name, z.default),
        ((noVarKw (named ++ kw)).take n.toNat).map (·.name)⟩ := rfl
  rw [hs] at e
  refine ⟨fun hn => by rw [e, if_pos (by omega)], ?_⟩
  intro vars pars hvp hlen hn
  have hl : n.toNat = vars.length := by omega
  have hle : ¬ ¬ (0 < n ∧ n ≤ named.length) := by
    rw [not_not, hvp, List.length_append]
    push_cast
    omega
  rw [if_neg hle, hl, hvp, List.drop_left, List.take_left, ← hvp] at e
  refine ⟨fun ⟨z, hz, hk⟩ => ?_, fun ha => ?_⟩
  · rw [e, if_pos (List.any_eq_true.2 ⟨z, hz, by simpa using hk⟩)]
  · rw [e, if_neg]
    intro hx
    obtain ⟨z, hz, hk⟩ := List.any_eq_true.1 hx
    exact absurd (ha z hz) (by simpa using hk)

/-- Uses of the decorator: `kfunc(cls)` wraps a class and `kfunc(nvar=n)` gives a decorator, of
functions only; any other use is a `SyntaxError`. -/
theorem C52_misuse (f : Option (Decorated N V)) (nvar : Option ℤ) :
    (∀ c, f = some (.cls c) → nvar = none →
      kfuncDeco f nvar = (decorateClass c).map KfuncOut.wrapped) ∧
    (∀ n, f = none → nvar = some n →
      ∃ dec, kfuncDeco f nvar = .ok (.decorator dec) ∧ (∀ c, dec (.cls c) = .error .syntaxError) ∧
        ∀ sig, dec (.fn sig) = decorateFunction n (.fn sig)) ∧
    ((¬ ∃ c, f = some (.cls c) ∧ nvar = none) → (¬ ∃ n, f = none ∧ nvar = some n) →
      kfuncDeco f nvar = .error .syntaxError) := by
  refine ⟨?_, ?_, ?_⟩
  · rintro c rfl rfl
    unfold kfuncDeco
    simp only
    cases decorateClass c <;> rfl
  · rintro n rfl rfl
    exact ⟨_, rfl, fun c => rfl, fun sig => rfl⟩
  · intro h1 h2
    match f, nvar with
    | some (.cls c), none => exact absurd ⟨c, rfl, rfl⟩ h1
    | none, some n => exact absurd ⟨n, rfl, rfl⟩ h2
    | none, none => rfl
    | some (.cls c), some n => rfl
    | some (.fn s), none => rfl
    | some (.fn s), some n => rfl

section Examples

private def exSelf : SigParam String ℤ := ⟨"self", .posOrKw, none⟩

/-- `__init__(self, *, a=1, b, **args)` and `__call__(self, t, dt=1)` -/
private def exClass : ClassInfo String ℤ :=
  ⟨false, false, true, true,
    [exSelf, ⟨"a", .kwOnly, some 1⟩, ⟨"b", .kwOnly, none⟩, ⟨"args", .varKw, none⟩],
    [exSelf, ⟨"t", .posOrKw, none⟩, ⟨"dt", .posOrKw, some 1⟩]⟩

example : Method exClass.initSig exSelf exClass.initSig.tail ∧
    Method exClass.callSig exSelf exClass.callSig.tail ∧
    decorateClass exClass = .ok ⟨[("a", some 1), ("b", none)], ["t", "dt"]⟩ ∧
    CanWrapClass exClass exClass.initSig.tail exClass.callSig.tail := by
  have h : decorateClass exClass = .ok ⟨[("a", some 1), ("b", none)], ["t", "dt"]⟩ := by rfl
  refine ⟨⟨rfl, by decide⟩, ⟨rfl, by decide⟩, h, ?_⟩
  by_contra hn
  have := (C52_class exClass (s1 := exSelf) (s2 := exSelf) ⟨rfl, by decide⟩ ⟨rfl, by decide⟩).1 hn
  rw [h] at this; cases this

/-- A parameter with the name of a variable. -/
example : decorateClass { exClass with callSig := [exSelf, ⟨"b", .posOrKw, none⟩] } =
    .error .typeError := by rfl

example : decorateFunction 1 (.fn [(⟨"x", .posOrKw, none⟩ : SigParam String ℤ),
      ⟨"a", .kwOnly, some 3⟩, ⟨"kw", .varKw, none⟩]) = .ok ⟨[("a", some 3)], ["x"]⟩ ∧
    decorateFunction 3 (.fn [(⟨"x", .posOrKw, none⟩ : SigParam String ℤ),
      ⟨"a", .kwOnly, some 3⟩, ⟨"kw", .varKw, none⟩]) = .error .valueError ∧
    decorateFunction 1 (.fn [(⟨"x", .posOrKw, none⟩ : SigParam String ℤ),
      ⟨"a", .posOrKw, some 3⟩]) = .error .typeError := ⟨rfl, rfl, rfl⟩

end Examples

end Sdepy
