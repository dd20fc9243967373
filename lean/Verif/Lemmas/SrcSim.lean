import Verif.Model.TrueSource
import Mathlib.Data.List.Forall2

/-!
# Sources with memory that correspond to each other
-/

namespace Sdepy

/-- Results of two computations: both raise the same exception, or return related values. -/
def RelPy {α β : Type} (R : α → β → Prop) : Py α → Py β → Prop
  | .ok a, .ok b => R a b
  | .error e, .error e' => e = e'
  | _, _ => False

theorem RelPy.mono {α β : Type} {R R' : α → β → Prop} (h : ∀ a b, R a b → R' a b) {x : Py α} {y : Py β}
    (hxy : RelPy R x y) : RelPy R' x y := by
  cases x <;> cases y <;> simp only [RelPy] at hxy ⊢
  · exact hxy
  · exact h _ _ hxy

theorem RelPy.bind {α β γ δ : Type} {R : α → β → Prop} {R' : γ → δ → Prop} {x : Py α} {y : Py β}
    (hxy : RelPy R x y) {f : α → Py γ} {g : β → Py δ} (h : ∀ a b, R a b → RelPy R' (f a) (g b)) :
    RelPy R' (x >>= f) (y >>= g) := by
  cases x <;> cases y <;> simp only [RelPy, Bind.bind, Except.bind] at hxy ⊢
  · exact hxy
  · exact h _ _ hxy

section
variable {T Z V Z' V' σ : Type} [Field T] [LinearOrder T]

/-- Two sources with memory whose methods give results related by `R`. -/
structure SrcSim (R : Z → Z' → Prop) (RV : V → V' → Prop) (S : TrueSrc T Z V σ) (S' : TrueSrc T Z' V' σ) :
    Prop where
  rtol : S.rtol = S'.rtol
  value : ∀ z z', R z z' → RV (S.getvalue z) (S'.getvalue z')
  outside : ∀ z z' t s st, R z z' →
    RelPy (fun a b => R a.1.1 b.1.1 ∧ R a.1.2 b.1.2 ∧ a.2 = b.2) (S.outside z t s st) (S'.outside z' t s st)
  inside : ∀ z1 z1' z2 z2' t1 t2 s st, R z1 z1' → R z2 z2' →
    RelPy (fun a b => R a.1.1 b.1.1 ∧ Option.Rel R a.1.2 b.1.2 ∧ a.2 = b.2)
      (S.inside z1 z2 t1 t2 s st) (S'.inside z1' z2' t1 t2 s st)

/-- Memories with the same times and related values. -/
structure MemRel (R : Z → Z' → Prop) (m : Mem T Z σ) (m' : Mem T Z' σ) : Prop where
  t : m.t = m'.t
  z : List.Forall₂ R m.z m'.z
  s : m.s = m'.s

theorem relList_getElem? {α β : Type} {R : α → β → Prop} {l : List α} {l' : List β}
    (h : List.Forall₂ R l l') (j : ℕ) : Option.Rel R l[j]? l'[j]? := by
  induction h generalizing j with
  | nil => simp
  | cons h _ ih =>
    cases j with
    | zero => simpa using Option.Rel.some h
    | succ j => simpa using ih j

theorem relList_set {α β : Type} {R : α → β → Prop} {l : List α} {l' : List β}
    (h : List.Forall₂ R l l') (j : ℕ) {a : α} {b : β} (hab : R a b) :
    List.Forall₂ R (l.set j a) (l'.set j b) := by
  induction h generalizing j with
  | nil => simp
  | cons h h' ih =>
    cases j with
    | zero => exact .cons hab h'
    | succ j => exact .cons h (ih j)

theorem relList_insertIdx {α β : Type} {R : α → β → Prop} {l : List α} {l' : List β}
    (h : List.Forall₂ R l l') (j : ℕ) {a : α} {b : β} (hab : R a b) :
    List.Forall₂ R (l.insertIdx j a) (l'.insertIdx j b) := by
  induction h generalizing j with
  | nil =>
    cases j with
    | zero => exact .cons hab .nil
    | succ j => simp
  | cons h h' ih =>
    cases j with
    | zero => exact .cons hab (.cons h h')
    | succ j => exact .cons h (ih j)

theorem relList_dropLast {α β : Type} {R : α → β → Prop} {l : List α} {l' : List β}
    (h : List.Forall₂ R l l') : List.Forall₂ R l.dropLast l'.dropLast := by
  rw [List.dropLast_eq_take, List.dropLast_eq_take, h.length_eq]
  exact List.forall₂_take _ h

theorem relList_getLast? {α β : Type} {R : α → β → Prop} {l : List α} {l' : List β}
    (h : List.Forall₂ R l l') : Option.Rel R l.getLast? l'.getLast? := by
  rw [List.getLast?_eq_getElem?, List.getLast?_eq_getElem?, h.length_eq]
  exact relList_getElem? h _

theorem get1_sim {R : Z → Z' → Prop} {RV : V → V' → Prop} {S : TrueSrc T Z V σ} {S' : TrueSrc T Z' V' σ}
    (h : SrcSim R RV S S') {m : Mem T Z σ} {m' : Mem T Z' σ} (hm : MemRel R m m') (s : T) :
    RelPy (fun a b => RV a.1 b.1 ∧ MemRel R a.2 b.2) (S.get1 s m) (S'.get1 s m') := by
  obtain ⟨mt, mz, ms⟩ := m
  obtain ⟨mt', mz', ms'⟩ := m'
  obtain ⟨h1, h2, h3⟩ := hm
  simp only at h1 h2 h3
  subst h1 h3
  unfold TrueSrc.get1
  simp only
  generalize bisectRight mt s = k
  generalize (if k = 0 then mt.length - 1 else k - 1) = j
  have hj := relList_getElem? h2 j
  cases htj : mt[j]? with
  | none => simp only [RelPy]
  | some tj =>
    generalize mz[j]? = oz, mz'[j]? = oz' at hj
    cases hj with
    | none => simp only [RelPy]
    | some hz =>
      rename_i zj zj'
      simp only
      rw [h.rtol]
      by_cases hc : isClose S'.rtol s tj
      · rw [if_pos hc, if_pos hc]
        exact ⟨h.value _ _ hz, rfl, h2, rfl⟩
      · rw [if_neg hc, if_neg hc]
        by_cases hk : k = mt.length
        · rw [if_pos hk, if_pos hk]
          have hl := relList_getLast? h2
          generalize mz.getLast? = oz, mz'.getLast? = oz' at hl
          cases hl with
          | none => simp only [RelPy]
          | some hzl =>
            cases mt.getLast? with
            | none => simp only [RelPy]
            | some tl =>
              rename_i zl zl'
              simp only
              have ho := h.outside zl zl' tl s ms hzl
              generalize S.outside zl tl s ms = r, S'.outside zl' tl s ms = r' at ho
              cases r <;> cases r' <;> simp only [RelPy] at ho ⊢
              · exact ho
              · exact ⟨h.value _ _ ho.2.1, rfl,
                  List.rel_append (relList_dropLast h2) (.cons ho.1 (.cons ho.2.1 .nil)), ho.2.2⟩
        · rw [if_neg hk, if_neg hk]
          by_cases hk0 : k = 0
          · rw [if_pos hk0, if_pos hk0]
            cases h2 with
            | nil => simp only [RelPy]
            | cons hz0 hzs =>
              cases mt with
              | nil => simp only [RelPy]
              | cons t ts =>
                rename_i z0 z0' zs zs'
                simp only
                have ho := h.outside z0 z0' t s ms hz0
                generalize S.outside z0 t s ms = r, S'.outside z0' t s ms = r' at ho
                cases r <;> cases r' <;> simp only [RelPy] at ho ⊢
                · exact ho
                · exact ⟨h.value _ _ ho.2.1, rfl, .cons ho.2.1 (.cons ho.1 hzs), ho.2.2⟩
          · rw [if_neg hk0, if_neg hk0]
            have hkk := relList_getElem? h2 k
            cases htk : mt[k]? with
            | none => simp only [RelPy]
            | some tk =>
              generalize mz[k]? = oz, mz'[k]? = oz' at hkk
              cases hkk with
              | none => simp only [RelPy]
              | some hzk =>
                rename_i zk zk'
                simp only
                have hi := h.inside zj zj' zk zk' tj tk s ms hz hzk
                generalize S.inside zj zk tj tk s ms = r, S'.inside zj' zk' tj tk s ms = r' at hi
                cases r with
                | error e =>
                  cases r' with
                  | error e' => exact hi
                  | ok b => exact hi.elim
                | ok a =>
                  cases r' with
                  | error e' => exact hi.elim
                  | ok b =>
                    obtain ⟨⟨a1, a2⟩, as⟩ := a
                    obtain ⟨⟨b1, b2⟩, bs⟩ := b
                    simp only [RelPy] at hi
                    obtain ⟨hi1, hi2, hi3⟩ := hi
                    subst hi3
                    cases hi2 with
                    | none =>
                      simp only [RelPy]
                      exact ⟨h.value _ _ hzk, rfl, relList_set h2 _ hi1, rfl⟩
                    | some hn =>
                      simp only [RelPy]
                      exact ⟨h.value _ _ hn, rfl, relList_insertIdx (relList_set h2 _ hi1) _ hn, rfl⟩

theorem getList_sim {R : Z → Z' → Prop} {RV : V → V' → Prop} {S : TrueSrc T Z V σ} {S' : TrueSrc T Z' V' σ}
    (h : SrcSim R RV S S') (ss : List T) {m : Mem T Z σ} {m' : Mem T Z' σ} (hm : MemRel R m m') :
    RelPy (fun a b => List.Forall₂ RV a.1 b.1 ∧ MemRel R a.2 b.2) (S.getList ss m) (S'.getList ss m') := by
  induction ss generalizing m m' with
  | nil => exact ⟨.nil, hm⟩
  | cons s ss ih =>
    unfold TrueSrc.getList
    have h1 := get1_sim h hm s
    generalize S.get1 s m = r, S'.get1 s m' = r' at h1
    cases r <;> cases r' <;> simp only [RelPy] at h1 ⊢
    · exact h1
    · rename_i a b
      have h2 := ih h1.2
      generalize S.getList ss a.2 = q, S'.getList ss b.2 = q' at h2
      cases q <;> cases q' <;> simp only [RelPy] at h2 ⊢
      · exact h2
      · exact ⟨.cons h1.1 h2.1, h2.2⟩

end

end Sdepy
