import Verif.Lemmas.SDE
import Verif.Lemmas.Packing
import Verif.Props.Packing
import Verif.Spec.SDEs
import Mathlib.Algebra.Ring.Hom.Defs
import Mathlib.Algebra.BigOperators.GroupWithZero.Finset
import Mathlib.Algebra.BigOperators.Ring.Finset
import Mathlib.Algebra.BigOperators.RingEquiv

/-!
# The packed equation is the system of equations
-/

set_option linter.unusedSectionVars false
set_option linter.unusedSimpArgs false

namespace Sdepy

open Spec BigOperators

/-! ### equations related by a ring homomorphism -/

section hom
variable {T X X' Id σ : Type} [Sub T] [CommRing X] [CommRing X'] [LinearOrder Id]

/-- `E'` is `E` seen through `f`. -/
structure EqHom (f : X →+* X') (E : Equation T X Id σ) (E' : Equation T X' Id σ) : Prop where
  ids : E'.ids = E.ids
  noise : ∀ id t dt s, E'.noise id t dt s = (E.noise id t dt s).map (fun r => (f r.1, r.2))
  coef : ∀ t x, E'.coef t (f x) = (E.coef t x).map (fun a id => f (a id))

theorem realise_map (f : X →+* X') (z : Id → T → T → σ → Py (X × σ))
    (z' : Id → T → T → σ → Py (X' × σ))
    (h : ∀ id t dt s, z' id t dt s = (z id t dt s).map (fun r => (f r.1, r.2))) (t dt : T) :
    ∀ (ids : List Id) (s : σ), realise z' t dt ids s =
      (realise z t dt ids s).map (fun r => (fun id => f (r.1 id), r.2)) := by
  intro ids
  induction ids with
  | nil => intro s; simp [realise, Except.map]
  | cons id ids ih =>
    intro s
    simp only [realise, bind, Except.bind, h]
    cases z id t dt s with
    | error e => rfl
    | ok r =>
      simp only [Except.map, ih]
      cases realise z t dt ids r.2 with
      | error e => rfl
      | ok r' =>
        simp only [Except.map, pure, Except.pure, Except.ok.injEq, Prod.mk.injEq, and_true]
        funext k
        by_cases hk : k = id
        · subst hk; simp
        · simp [Function.update_of_ne hk]

variable {f : X →+* X'} {E : Equation T X Id σ} {E' : Equation T X' Id σ}

theorem EqHom.step (h : EqHom f E E') (t : T) (x : X) (t' : T) (s : σ) :
    E'.step t (f x) t' s = (E.step t x t' s).map (fun r => (f r.1, r.2)) := by
  simp only [Equation.step, bind, Except.bind, h.coef, h.ids]
  cases E.coef t x with
  | error e => rfl
  | ok a =>
    simp only [Except.map]
    rw [realise_map f E.noise E'.noise h.noise]
    cases realise E.noise t (t' - t) (E.ids.sort (· ≤ ·)) s with
    | error e => rfl
    | ok r => simp [Except.map, pure, Except.pure, map_sum]

theorem EqHom.path (h : EqHom f E E') : ∀ (ts : List T) (t : T) (x : X) (s : σ),
    E'.path t (f x) ts s = (E.path t x ts s).map (fun r => (r.1.map (fun p => (p.1, f p.2)), r.2)) := by
  intro ts
  induction ts with
  | nil => intro t x s; rfl
  | cons t' ts ih =>
    intro t x s
    simp only [Equation.path, bind, Except.bind, h.step]
    cases E.step t x t' s with
    | error e => rfl
    | ok r =>
      simp only [Except.map, ih]
      cases E.path t' r.1 ts r.2 <;> rfl

theorem EqHom.solution [LinearOrder T] (h : EqHom f E E') (t0 : T) (x0 : X) (grid : List T) (s : σ) :
    E'.solution t0 (f x0) grid s =
      (E.solution t0 x0 grid s).map (fun r => (r.1.map (fun p => (p.1, f p.2)), r.2)) := by
  simp only [Equation.solution, bind, Except.bind, h.path]
  cases E.path t0 x0 (grid.filter (· < t0)).reverse s with
  | error e => rfl
  | ok r =>
    simp only [Except.map]
    cases E.path t0 x0 (grid.filter (t0 < ·)) r.2 with
    | error e => rfl
    | ok r' => simp [Except.map, pure, Except.pure]

end hom

/-! ### the restriction of packed values to the cells of the system -/

variable {T K Id σ : Type} [Field T] [LinearOrder T] [IsStrictOrderedRing T] [CommRing K]
  [LinearOrder Id]

/-- Position in the packed array. -/
def cellIdx (L : Layout) (i : ℕ) (c : List ℕ) (p : ℕ) : List ℕ :=
  if L.addaxis then c ++ [i, p]
  else c.dropLast ++ [i * L.vshape.getLastD 0 + c.getLastD 0, p]

theorem component_eq (L : Layout) (X : Arr K) (i : ℕ) (c : List ℕ) (p : ℕ) :
    component L X i c p = X.get (cellIdx L i c p) := by
  unfold component cellIdx; split <;> rfl

/-- Values of the scalar equations packed in an array. -/
def cells (S : SDEs T K Id σ) : (List ℕ → K) →+* (Cell S.L → K) where
  toFun x := fun y => x (cellIdx S.L y.1.1 y.1.2.1 y.1.2.2)
  map_zero' := rfl
  map_one' := rfl
  map_add' _ _ := rfl
  map_mul' _ _ := rfl

theorem cells_apply (S : SDEs T K Id σ) (x : List ℕ → K) (y : Cell S.L) :
    cells S x y = component S.L (S.packed x) y.1.1 y.1.2.1 y.1.2.2 := by
  rw [component_eq]; rfl

theorem unpack_canon (S : SDEs T K Id σ) (hL : GoodLayout S.L) (x : List ℕ → K) :
    ∃ ys, S.L.unpack (S.packed x) = .ok ys ∧
      ys.map Arr.canon = (List.range S.L.q).map (eqArr S.L (cells S x)) := by
  obtain ⟨ys, h1, h2, h3⟩ := C12_unpack S.L hL (S.packed x) rfl
  refine ⟨ys, h1, ?_⟩
  apply List.ext_getElem
  · simp [h2]
  · intro i hi1 hi2
    have hi : i < ys.length := by simpa using hi1
    have hq : i < S.L.q := by rw [← h2]; exact hi
    obtain ⟨h4, h5⟩ := h3 i ys[i] (List.getElem?_eq_getElem hi)
    simp only [List.getElem_map, List.getElem_range]
    unfold Arr.canon eqArr
    simp only [h4, Arr.mk.injEq, true_and]
    funext idx
    by_cases hr : InRange (S.L.vshape ++ [S.L.paths]) idx
    · rw [if_pos hr]
      obtain ⟨c, p', rfl, hc, hp⟩ := hr.of_append
      obtain ⟨p, rfl, hp'⟩ := inRange_singleton.1 hp
      rw [dif_pos (by simp [hq, hp', hc])]
      rw [h5 c p hc, cells_apply]
      simp
    · rw [if_neg hr, dif_neg]
      rintro ⟨⟨-, h6, h7⟩, h8⟩
      apply hr
      have e : idx = idx.dropLast ++ [idx.getLastD 0] := by
        have := List.dropLast_append_getLast h8
        rw [List.getLastD_eq_getLast?, List.getLast?_eq_some_getLast h8]
        simpa using this.symm
      rw [e, inRange_append h6.length]
      exact ⟨h6, inRange_singleton.2 ⟨_, rfl, h7⟩⟩

theorem eqDict_eq (S : SDEs T K Id σ) : S.checkOne = eqDict S := by
  funext A
  cases A with
  | none => rfl
  | some A =>
    simp only [SDEs.checkOne, eqDict]
    by_cases h : ∀ k ∈ A.map Prod.fst, k ∈ S.sources.map Prod.fst
    · rw [if_pos h, if_neg]; push Not; exact h
    · rw [if_neg h, if_pos]; push Not at h; exact h

theorem broadcastTo_eq (a : Arr K) (shape : List ℕ) (h : BcOk a.shape shape) :
    a.broadcastTo shape = .ok ⟨shape, bcAt a⟩ := by
  unfold Arr.broadcastTo; rw [if_pos h]; rfl

theorem bcOk_scalar (a : K) (s : List ℕ) : BcOk (Arr.scalar a).shape s := by
  simp [Arr.scalar, BcOk, bcOkRev]

/-- Packing arrays that fit. -/
theorem pack_cells (S : SDEs T K Id σ) (hL : GoodLayout S.L) (xs : List (Arr K))
    (hq : xs.length = S.L.q) (hb : ∀ x ∈ xs, BcOk x.shape (S.L.vshape ++ [S.L.paths])) :
    ∃ X, S.L.pack xs = .ok X ∧ X.shape = S.L.wshape ++ [S.L.paths] ∧
      ∀ y : Cell S.L, ∃ x, xs[y.1.1]? = some x ∧ cells S X.get y = bcAt x (y.1.2.1 ++ [y.1.2.2]) := by
  have hf : List.Forall₂ (fun x y => x.broadcastTo (S.L.vshape ++ [S.L.paths]) = .ok y) xs
      (xs.map fun x => ⟨S.L.vshape ++ [S.L.paths], bcAt x⟩) := by
    rw [← mapPy_ok_iff]
    apply mapPy_ok
    intro x hx
    exact broadcastTo_eq x _ (hb x hx)
  obtain ⟨X, h1, h2, h3⟩ := C12_pack S.L hL xs _ hq hf
  refine ⟨X, h1, h2, ?_⟩
  intro y
  have hy : y.1.1 < xs.length := by rw [hq]; exact y.2.1
  refine ⟨xs[y.1.1], List.getElem?_eq_getElem hy, ?_⟩
  have := h3 y.1.1 ⟨S.L.vshape ++ [S.L.paths], bcAt xs[y.1.1]⟩ (by
    rw [List.getElem?_map, List.getElem?_eq_getElem hy]; rfl) y.1.2.1 y.1.2.2 y.2.2.1
  rw [component_eq] at this
  exact this

theorem lookup_mem' {V : Type} {A : List (Id × V)} {id : Id} {v : V} (h : A.lookup id = some v) :
    (id, v) ∈ A := by
  induction A with
  | nil => simp at h
  | cons p A ih =>
    obtain ⟨k, w⟩ := p
    rw [List.lookup_cons] at h
    by_cases hk : id = k
    · subst hk; simp at h; simp [h]
    · have : (id == k) = false := by simpa using hk
      rw [this] at h
      exact List.mem_cons_of_mem _ (ih h)

theorem mapPy_length {α β : Type} {f : α → Py β} {as : List α} {bs : List β}
    (h : mapPy f as = .ok bs) : bs.length = as.length :=
  ((mapPy_ok_iff _ _ _).1 h).length_eq.symm

/-- What `SDEs.A` returns, seen on the cells. -/
theorem A_spec (S : SDEs T K Id σ) (hS : SDEsOk S) (t : T) (x : List ℕ → K) :
    (∃ e, S.A t x = .error e ∧ (system S).coef t (cells S x) = .error e) ∨
    (∃ A a, S.A t x = .ok A ∧ DictOk A ∧ (∀ k ∈ A.map Prod.fst, k ∈ S.sources.map Prod.fst) ∧
      (system S).coef t (cells S x) = .ok a ∧ ∀ id, cells S (entry A id) = a id) := by
  obtain ⟨ys, h1, h2⟩ := unpack_canon S hS.layout x
  simp only [SDEs.A, h1, h2, system, bind, Except.bind]
  cases hsde : S.sde t ((List.range S.L.q).map (eqArr S.L (cells S x))) with
  | error e => exact .inl ⟨e, rfl, rfl⟩
  | ok As? =>
    cases As? with
    | none => exact .inl ⟨_, rfl, rfl⟩
    | some As =>
      simp only [SDEs.checkValues]
      by_cases hlen : As.length ≠ S.L.q
      · rw [if_pos hlen, if_pos hlen]; exact .inl ⟨_, rfl, rfl⟩
      rw [if_neg hlen, if_neg hlen, eqDict_eq]
      have hlen' : As.length = S.L.q := by simpa using hlen
      cases hchk : mapPy (eqDict S) As with
      | error e => exact .inl ⟨e, rfl, rfl⟩
      | ok Bs =>
        have hBl : Bs.length = S.L.q := by rw [mapPy_length hchk, hlen']
        have hB : ∀ B ∈ Bs, DictOk B ∧ ∀ k ∈ B.map Prod.fst, k ∈ S.sources.map Prod.fst := by
          intro B hB
          obtain ⟨j, hj, rfl⟩ := List.getElem_of_mem hB
          have := (List.forall₂_iff_get.1 ((mapPy_ok_iff _ _ _).1 hchk)).2 j (by omega) hj
          simp only [List.get_eq_getElem] at this
          have hj' : j < As.length := by omega
          cases hA : As[j] with
          | none => rw [hA] at this; simp [eqDict] at this
          | some A =>
            rw [hA] at this
            simp only [eqDict] at this
            by_cases hk : ∃ k ∈ A.map Prod.fst, k ∉ S.sources.map Prod.fst
            · rw [if_pos hk] at this; simp at this
            · rw [if_neg hk] at this
              simp only [Except.ok.injEq] at this
              rw [← this]
              refine ⟨hS.sde t _ As hsde A (by rw [← hA]; simp), ?_⟩
              push Not at hk; exact hk
        simp only
        by_cases hbc : ∃ A ∈ Bs, ∃ p ∈ A, ¬ BcOk p.2.shape (S.L.vshape ++ [S.L.paths])
        · rw [if_pos hbc]
          refine .inl ⟨.valueError, ?_, rfl⟩
          apply mapPy_error
          · intro id _
            unfold SDEs.packEntry
            by_cases hall : ∃ y ∈ (Bs.map fun a => (a.lookup id).getD (.scalar 0)),
                ¬ BcOk y.shape (S.L.vshape ++ [S.L.paths])
            · rw [C12_pack_rejects S.L _ hall]; exact .inl rfl
            · push Not at hall
              obtain ⟨X, hX, -⟩ := pack_cells S hS.layout _ (by simp [hBl]) hall
              rw [hX]; exact .inr ⟨_, rfl⟩
          · obtain ⟨A, hA, p, hp, hb⟩ := hbc
            refine ⟨p.1, ?_, ?_⟩
            · rw [List.mem_dedup, List.mem_flatMap]
              exact ⟨A, hA, List.mem_map_of_mem hp⟩
            · unfold SDEs.packEntry
              rw [C12_pack_rejects]
              refine ⟨p.2, List.mem_map.2 ⟨A, hA, ?_⟩, hb⟩
              rw [lookup_of_mem (hB A hA).1 hp]; rfl
        · rw [if_neg hbc]
          right
          push Not at hbc
          have hpe : ∀ id, ∃ X, S.packEntry Bs id = .ok (id, X) ∧ ∀ y : Cell S.L,
              cells S X y = (match Bs[y.1.1]? with
                | none => 0
                | some A => match A.lookup id with
                  | none => 0
                  | some a => bcAt a (y.1.2.1 ++ [y.1.2.2])) := by
            intro id
            obtain ⟨X, hX, -, hX'⟩ := pack_cells S hS.layout
              (Bs.map fun a => (a.lookup id).getD (.scalar 0)) (by simp [hBl]) (by
                intro y hy
                obtain ⟨A, hA, rfl⟩ := List.mem_map.1 hy
                cases hl : A.lookup id with
                | none => exact bcOk_scalar _ _
                | some a => exact hbc A hA _ (lookup_mem' hl))
            refine ⟨X.get, by unfold SDEs.packEntry; rw [hX], ?_⟩
            intro y
            obtain ⟨z, hz1, hz2⟩ := hX' y
            rw [hz2]
            rw [List.getElem?_map] at hz1
            cases hBy : Bs[y.1.1]? with
            | none => rw [hBy] at hz1; simp at hz1
            | some A =>
              rw [hBy] at hz1
              simp only [Option.map_some, Option.some.injEq] at hz1
              simp only
              rw [← hz1]
              cases A.lookup id with
              | none => simp [bcAt, Arr.scalar]
              | some a => rfl
          choose F hF1 hF2 using hpe
          refine ⟨(Bs.flatMap fun a => a.map Prod.fst).dedup.map fun id => (id, F id), _,
            mapPy_ok _ (fun id => (id, F id)) _ (fun id _ => hF1 id), ?_, ?_, rfl, ?_⟩
          · unfold DictOk
            rw [List.map_map]
            have : (Prod.fst ∘ fun k => (k, F k)) = fun k => k := rfl
            rw [this, List.map_id']
            exact List.nodup_dedup _
          · intro k hk
            rw [List.map_map] at hk
            have : (Prod.fst ∘ fun k => (k, F k)) = fun k => k := rfl
            rw [this, List.map_id', List.mem_dedup, List.mem_flatMap] at hk
            obtain ⟨B, hB', hk⟩ := hk
            exact (hB B hB').2 k hk
          · intro id
            funext y
            by_cases hid : id ∈ (Bs.flatMap fun a => a.map Prod.fst).dedup
            · have : entry ((Bs.flatMap fun a => a.map Prod.fst).dedup.map fun id => (id, F id)) id =
                  F id := by
                unfold entry
                have hd : DictOk ((Bs.flatMap fun a => a.map Prod.fst).dedup.map
                    fun id => (id, F id)) := by
                  unfold DictOk
                  rw [List.map_map]
                  have : (Prod.fst ∘ fun k => (k, F k)) = fun k => k := rfl
                  rw [this, List.map_id']
                  exact List.nodup_dedup _
                have := lookup_of_mem hd (p := (id, F id)) (List.mem_map.2 ⟨id, hid, rfl⟩)
                simp only at this
                rw [this]; rfl
              rw [this]; exact hF2 id y
            · rw [entry_of_not_mem (by
                rw [List.map_map]
                have : (Prod.fst ∘ fun k => (k, F k)) = fun k => k := rfl
                rw [this, List.map_id']; exact hid)]
              rw [map_zero]
              simp only [Pi.zero_apply]
              rw [List.mem_dedup, List.mem_flatMap] at hid
              push Not at hid
              cases hBy : Bs[y.1.1]? with
              | none => rfl
              | some A =>
                have hAm : A ∈ Bs := List.mem_of_getElem? hBy
                have := (lookup_eq_none_iff' A id).2 (hid A hAm)
                simp only [this]

theorem toSDE_ok (S : SDEs T K Id σ) (hS : SDEsOk S) : SDEOk S.toSDE where
  sources := hS.sources
  sde := by
    intro t x A h
    rcases A_spec S hS t x with ⟨e, h1, -⟩ | ⟨A', a, h1, h2, -⟩
    · simp [SDEs.toSDE, h1] at h
    · simp only [SDEs.toSDE, h1, Except.ok.injEq, Option.some.injEq] at h
      rw [← h]; exact h2

theorem system_hom (S : SDEs T K Id σ) (hS : SDEsOk S) :
    EqHom (cells S) (equation S.toSDE) (system S) where
  ids := rfl
  noise id t dt s := by
    simp only [system, equation, SDEs.toSDE]
    cases S.sources.lookup id with
    | none => simp [Except.map]
    | some z =>
      simp only [bind, Except.bind]
      cases z t dt s with
      | error e => rfl
      | ok r =>
        simp only [pure, Except.pure, Except.map, Except.ok.injEq, Prod.mk.injEq, and_true]
        funext y
        rw [cells_apply]
  coef t x := by
    rcases A_spec S hS t x with ⟨e, h1, h2⟩ | ⟨A, a, h1, h2, h3, h4, h5⟩
    · rw [h2]
      simp only [equation, SDEs.toSDE, h1, bind, Except.bind]
      rfl
    · rw [h4]
      have hs : S.toSDE.sde t x = .ok (some A) := by simp only [SDEs.toSDE, h1]
      simp only [equation, hs, bind, Except.bind]
      rw [if_neg (show ¬ ∃ k ∈ A.map Prod.fst, k ∉ S.toSDE.sources.map Prod.fst by
        push Not; exact h3)]
      simp only [pure, Except.pure, Except.map, Except.ok.injEq]
      funext id
      exact (h5 id).symm

theorem resultAt_ok (S : SDEs T K Id σ) (hS : SDEsOk S) (x : List ℕ → K) :
    S.resultAt (some x) = .ok (some ((List.range S.L.q).map
      (eqArr S.L (fun y => if S.log then S.expK (cells S x y) else cells S x y)))) := by
  obtain ⟨ys, h1, h2⟩ := unpack_canon S hS.layout (if S.log then fun i => S.expK (x i) else x)
  simp only [SDEs.resultAt, h1, h2, Except.ok.injEq, Option.some.injEq]
  congr 2
  funext y
  by_cases hl : S.log = true
  · simp only [hl, if_true]; rfl
  · simp only [hl]; rfl

end Sdepy
