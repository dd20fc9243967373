import Verif.Lemmas.PathsSim
import Verif.Lemmas.SDE

/-!
Two SDEs whose values are related by a ring homomorphism have the same outputs.
-/

set_option linter.unusedSectionVars false

namespace Sdepy

open Spec

variable {T X Y O Id σ : Type} [Field T] [LinearOrder T] [IsStrictOrderedRing T] [CommRing X]
  [CommRing Y] [LinearOrder Id]

theorem evalSources_hom (φ : X →+* Y) (t dt : T) (zs : List (Id × (T → T → σ → Py (X × σ)))) (s : σ) :
    evalSources t dt (zs.map fun z => (z.1, fun t dt s => (z.2 t dt s).map fun q => (φ q.1, q.2))) s =
      (evalSources t dt zs s).map fun q => (q.1.map fun p => (p.1, φ p.2), q.2) := by
  induction zs generalizing s with
  | nil => rfl
  | cons z zs ih =>
    simp only [List.map_cons, evalSources]
    cases z.2 t dt s with
    | error e => rfl
    | ok q =>
      simp only [Except.map] at ih ⊢
      rw [ih]
      cases evalSources t dt zs q.2 <;> rfl

theorem lookup_map_val (φ : X → Y) (d : List (Id × X)) (k : Id) :
    (d.map fun p => (p.1, φ p.2)).lookup k = (d.lookup k).map φ := by
  induction d with
  | nil => rfl
  | cons p d ih =>
    obtain ⟨i, v⟩ := p
    simp only [List.map_cons, List.lookup_cons]
    cases h : (k == i) with
    | true => rfl
    | false => exact ih

theorem sumAdZ_hom (φ : X →+* Y) (dZ A : List (Id × X)) :
    sumAdZ (dZ.map fun p => (p.1, φ p.2)) (A.map fun p => (p.1, φ p.2)) = (sumAdZ dZ A).map φ := by
  induction A with
  | nil => simp [sumAdZ_nil, Except.map]
  | cons p A ih =>
    obtain ⟨k, a⟩ := p
    simp only [List.map_cons, sumAdZ_cons]
    rw [lookup_map_val, ih]
    cases dZ.lookup k with
    | none => rfl
    | some z =>
      cases sumAdZ dZ A with
      | error e => rfl
      | ok r => simp [Except.map]

/-- The same SDE, with values in another ring. -/
structure SDEHom (φ : X →+* Y) (S : SDE T X O Id σ) (S' : SDE T Y O Id σ) : Prop where
  sources : S'.sources = S.sources.map fun z => (z.1, fun t dt s => (z.2 t dt s).map fun q => (φ q.1, q.2))
  sde : ∀ t x, S'.sde t (φ x) = (S.sde t x).map (Option.map (List.map fun p => (p.1, φ p.2)))
  init : ∀ t, S'.init t = (S.init t).map φ
  letX : ∀ t x, S'.letX t (φ x) = S.letX t x
  log : S'.log = S.log
  logX : ∀ x, S'.logX (φ x) = φ (S.logX x)
  expO : S'.expO = S.expO

variable {φ : X →+* Y} {S : SDE T X O Id σ} {S' : SDE T Y O Id σ}

theorem SDEHom.A (h : SDEHom φ S S') (t : T) (x : X) :
    S'.A t (φ x) = (S.A t x).map (List.map fun p => (p.1, φ p.2)) := by
  unfold SDE.A
  rw [h.sde]
  cases S.sde t x with
  | error e => rfl
  | ok A =>
    cases A with
    | none => rfl
    | some A =>
      simp only [Except.map, Option.map_some, SDE.checkValues, h.sources, List.map_map]
      have e1 : (Prod.fst ∘ fun p : Id × X => (p.1, φ p.2)) = Prod.fst := rfl
      have e2 : (Prod.fst ∘ fun z : Id × (T → T → σ → Py (X × σ)) =>
        (z.1, fun t dt s => (z.2 t dt s).map fun q => (φ q.1, q.2))) = Prod.fst := rfl
      rw [e1]
      erw [e2]
      by_cases hc : ∀ k ∈ A.map Prod.fst, k ∈ S.sources.map Prod.fst
      · rw [if_pos hc, if_pos hc]
      · rw [if_neg hc, if_neg hc]

theorem SDEHom.dZ (h : SDEHom φ S S') (t dt : T) (s : σ) :
    S'.dZ t dt s = (S.dZ t dt s).map fun q => (q.1.map fun p => (p.1, φ p.2), q.2) := by
  unfold SDE.dZ
  rw [h.sources, ← evalSources_hom]
  congr 1
  exact (List.map_insertionSort
    (r := fun a b : Id × (T → T → σ → Py (X × σ)) => a.1 ≤ b.1)
    (s := fun a b : Id × (T → T → σ → Py (Y × σ)) => a.1 ≤ b.1) _ _
    (fun _ _ _ _ => Iff.rfl)).symm

theorem SDEHom.eulerNext (h : SDEHom φ S S') (t : T) (x : X) (t' : T) (s : σ) :
    S'.eulerNext t (φ x) t' s = (S.eulerNext t x t' s).map fun q => (φ q.1, q.2) := by
  unfold SDE.eulerNext
  rw [h.A, h.dZ]
  cases S.A t x with
  | error e => rfl
  | ok A =>
    cases S.dZ t (t' - t) s with
    | error e => rfl
    | ok q =>
      simp only [Except.map]
      rw [sumAdZ_hom]
      cases sumAdZ q.1 A with
      | error e => rfl
      | ok d => simp [Except.map]

theorem SDEHom.sim (h : SDEHom φ S S') :
    Sim (fun x y => φ x = y) Eq Eq S.toPGen S'.toPGen where
  depth := rfl
  begin := by
    rintro rev sw s₁ s₂ rfl
    simp only [SDE.toPGen]
    match sw with
    | [] => rfl
    | [t0] =>
      simp only [SDE.beginX]
      rw [h.init]
      cases S.init t0 with
      | error e => rfl
      | ok x =>
        simp only [Except.map]
        refine ⟨fun _ => ?_, rfl⟩
        simp only [h.log]
        by_cases hl : S.log
        · simp only [if_pos hl]; exact (h.logX x).symm
        · simp only [if_neg hl]
    | _ :: _ :: _ => rfl
  next := by
    rintro rev w₁ w₂ t s₁ s₂ hw rfl
    simp only [SDE.toPGen]
    match w₁, w₂, hw with
    | [], [], _ => rfl
    | [(a, x)], [(b, f)], hw =>
      obtain ⟨⟨hab, hx⟩, _⟩ := List.forall₂_cons.1 hw
      simp only at hab hx
      subst hab hx
      simp only
      rw [h.eulerNext]
      cases S.eulerNext a x t s₁ with
      | error e => rfl
      | ok q => exact ⟨⟨rfl, rfl⟩, rfl⟩
    | _ :: _ :: _, _ :: _ :: _, _ => rfl
  store := by
    rintro i t x₁ x₂ s₁ s₂ hx rfl
    subst hx
    exact ⟨(h.letX t x₁).symm, rfl⟩
  fin := by
    rintro s₁ s₂ rfl
    rfl

theorem slotRel_eq {l m : List (Option O)} (h : SlotRel Eq l m) : l = m := by
  induction h with
  | nil => rfl
  | cons hab _ ih =>
    cases hab with
    | none => rw [ih]
    | some hx => rw [ih, hx]

theorem SDEHom.call (h : SDEHom φ S S') (fuel : ℕ) (steps : Steps T) (i0 : ℤ) (tl : TArr T) (s : σ) :
    S.call fuel steps i0 tl s = S'.call fuel steps i0 tl s := by
  unfold SDE.call
  rcases (callPG_sim h.sim fuel steps i0 tl (s₁ := s) rfl).elim with ⟨e, e1, e2⟩ | ⟨a, b, e1, e2, hr⟩
  · rw [e1, e2]
  · rw [e1, e2]
    simp only [SDE.exitX, h.log, h.expO]
    rw [slotRel_eq hr.1, hr.2.1]

end Sdepy
