import Verif.Lemmas.Info

/-!
# Property C19: diagnostic items
-/

set_option linter.unusedSectionVars false
set_option linter.unusedSimpArgs false

namespace Sdepy

open Spec BigOperators

section
variable {T X O σ I : Type} [Field T] [LinearOrder T] [IsStrictOrderedRing T] [CommRing X]

theorem slots_eq {l m : List (Option O)} (h : List.Forall₂ (Option.Rel (· = ·)) l m) : l = m := by
  induction h with
  | nil => rfl
  | cons h _ ih =>
    rw [ih]
    cases h with
    | none => rfl
    | some h => rw [h]

/-- Diagnostics have no influence on the values computed, on the use of the sources, and on
exceptions. -/
theorem C19_info_harmless (S : SDE T X O ℕ σ) (H : InfoHooks X σ I) (fuel : ℕ) (steps : Steps T)
    (i0 : ℤ) (tl : TArr T) (s : σ) (j : I) :
    (S.callInfo H fuel steps i0 tl s j).map (fun r => (r.1, r.2.1)) =
      S.call fuel steps i0 tl s := by
  have hsim : Sim (· = ·) (· = ·) (fun (a : InfoState σ I) (b : σ) => a.s = b) (S.toPGenInfo H)
      S.toPGen := {
    depth := rfl
    begin := by
      rintro rev sw s₁ s₂ rfl
      match sw with
      | [] => rfl
      | [t0] =>
        simp only [SDE.toPGenInfo, SDE.toPGen]
        cases S.beginX t0 with
        | error e => rfl
        | ok x => exact ⟨fun _ => rfl, rfl⟩
      | _ :: _ :: _ => rfl
    next := by
      rintro rev w₁ w₂ t s₁ s₂ hw rfl
      cases hw with
      | nil => rfl
      | @cons p q l m hp hw' =>
        obtain ⟨p1, p2⟩ := p
        obtain ⟨q1, q2⟩ := q
        obtain ⟨rfl, rfl⟩ := hp
        cases hw' with
        | nil =>
          simp only [SDE.toPGenInfo, SDE.toPGen]
          cases S.eulerNext p1 p2 t s₁.s with
          | error e => rfl
          | ok r => exact ⟨⟨rfl, rfl⟩, rfl⟩
        | cons _ _ => rfl
    store := by
      rintro i t x₁ x₂ s₁ s₂ rfl rfl
      exact ⟨rfl, rfl⟩
    fin := by
      rintro s₁ s₂ rfl
      rfl }
  have := callPG_sim hsim fuel steps i0 tl (s₁ := ⟨s, false, 0, j⟩) (s₂ := s) rfl
  unfold SDE.callInfo SDE.call
  rcases this.elim with ⟨e, h1, h2⟩ | ⟨a, b, h1, h2, h3⟩
  · rw [h1, h2]; rfl
  · rw [h1, h2]
    simp only [Except.map, Except.ok.injEq, Prod.mk.injEq]
    rw [slots_eq h3.1, h3.2.1]
    exact ⟨rfl, rfl⟩

theorem call_info (S : SDE T X O ℕ σ) (hS : SDEOk S) (H : InfoHooks X σ I) {fuel : ℕ}
    {steps : Steps T} {i0 : ℤ} {tl : TArr T} {grid : List T} {t0 : T}
    (h : Along fuel steps i0 tl grid t0) (s : σ) (j : I) {xx : List (Option O)} {s' : σ} {info : I}
    (hc : S.callInfo H fuel steps i0 tl s j = .ok (xx, s', info)) :
    let fw : Bool := Forw tl.data.length i0
    ∃ x0 j1 rs, S.beginX t0 = .ok x0 ∧ LastSteps (equation S) fw t0 x0 grid s rs s' ∧
      info = H.iend (!fw) (foldInfo H (!fw) (lastPass fw t0 tl.data) (H.ibegin (!fw) j1) rs) := by
  obtain ⟨i, hi, h0⟩ := h.start
  have hmem := along_mem h
  have he := depth2_enough h.isGrid hmem.1
  have htw := C05_two_way (S.toPGenInfo H) (S.stepInfo H) (toPGenInfo_nonAdaptive S H) fuel steps i0
    tl ⟨s, false, 0, j⟩ le_rfl h.valid hi h.nsteps h.isGrid h0 (fun _ => he.1) (fun _ => he.2) h.hfuel
  have hgs : grid.Pairwise (· < ·) := h.isGrid.1
  have hts : tl.data.Pairwise (· < ·) := h.valid.2
  have hfg := filter_le_eq hgs hmem.2.1
  unfold SDE.callInfo at hc
  cases hcp : callPG (S.toPGenInfo H) fuel steps i0 tl ⟨s, false, 0, j⟩ with
  | error e => rw [hcp] at hc; simp at hc
  | ok r =>
  rw [hcp] at hc htw
  simp only [Except.ok.injEq, Prod.mk.injEq] at hc
  simp only [Except.map, twoWay, bind, Except.bind, pure, Except.pure] at htw
  -- a backward pass
  have hback : ∀ st os st', pass 2 ((S.toPGenInfo H).begin true) (S.stepInfo H true)
      (S.toPGenInfo H).store (S.toPGenInfo H).fin (grid.filter (· ≤ t0)).reverse
      (tl.data.filter (· ≤ t0)).reverse st = .ok (os, st') →
      ∃ x rs, S.beginX t0 = .ok x ∧
        (equation S).steps t0 x (grid.filter (· < t0)).reverse st.s = .ok (rs, st'.s) ∧
        st'.info = H.iend true (foldInfo H true (tl.data.filter (· ≤ t0)).reverse
          (H.ibegin true st.info) rs) := by
    intro st os st' hp
    rw [hfg.1, List.reverse_append] at hp
    obtain ⟨x, rs, h1, h2, h3, _⟩ := pass_info S hS H true _
      (List.nodup_reverse.2 (hts.filter _).nodup) t0 _ st
      (by simp [hmem.1]) (by
        have := (hgs.filter (· ≤ t0))
        rw [hfg.1] at this
        simpa [Dir, List.pairwise_reverse] using (List.pairwise_append.1 this))
      (by
        intro u hu
        simp only [List.mem_reverse, List.mem_filter, decide_eq_true_eq] at hu ⊢
        rcases hu.2.eq_or_lt with h | h
        · exact .inl h
        · exact .inr (by simp [hmem.2.2 u hu.1, h])) hp
    exact ⟨x, rs, h1, h2, h3⟩
  have hforw : ∀ st os st', pass 2 ((S.toPGenInfo H).begin false) (S.stepInfo H false)
      (S.toPGenInfo H).store (S.toPGenInfo H).fin (grid.filter (t0 ≤ ·))
      (tl.data.filter (t0 ≤ ·)) st = .ok (os, st') →
      ∃ x rs, S.beginX t0 = .ok x ∧
        (equation S).steps t0 x (grid.filter (t0 < ·)) st.s = .ok (rs, st'.s) ∧
        st'.info = H.iend false (foldInfo H false (tl.data.filter (t0 ≤ ·))
          (H.ibegin false st.info) rs) := by
    intro st os st' hp
    rw [hfg.2] at hp
    obtain ⟨x, rs, h1, h2, h3, _⟩ := pass_info S hS H false _
      ((hts.filter _).nodup) t0 _ st
      (by simp [hmem.1]) (by
        have := (hgs.filter (t0 ≤ ·))
        rw [hfg.2] at this
        exact this.imp (fun h => by simpa [Dir] using h))
      (by
        intro u hu
        simp only [List.mem_filter, decide_eq_true_eq] at hu ⊢
        rcases hu.2.eq_or_lt with h | h
        · exact .inl h.symm
        · exact .inr ⟨hmem.2.2 u hu.1, h⟩) hp
    exact ⟨x, rs, h1, h2, h3⟩
  have hpath : ∀ {ts x s rs s1}, (equation S).steps t0 x ts s = .ok (rs, s1) →
      ∃ ps, (equation S).path t0 x ts s = .ok (ps, s1) := by
    intro ts x s rs s1 hs
    have := steps_path (equation S) ts t0 x s
    rw [hs] at this
    cases hq : (equation S).path t0 x ts s with
    | error e => rw [hq] at this; simp [Except.map] at this
    | ok q =>
      rw [hq] at this
      simp only [Except.map, Except.ok.injEq] at this
      exact ⟨q.1, by rw [this]⟩
  have hdep : (S.toPGenInfo H).depth = 2 := rfl
  rw [hdep] at htw
  by_cases hF : Forw tl.data.length i0
  · simp only [hF, decide_true, if_true, Bool.not_true] at htw ⊢
    by_cases hi0 : i0 = 0
    · -- only forwards
      have hb : grid.filter (· < t0) = [] := by
        rw [List.filter_eq_nil_iff]
        intro a ha
        have hlow : ∀ b ∈ tl.data, t0 ≤ b := by
          have hi' : i = 0 := by rcases hi.2 with h | h <;> have := hi.1 <;> omega
          subst hi'
          cases hd : tl.data with
          | nil => rw [hd] at h0; simp at h0
          | cons c l =>
            rw [hd] at h0 hts
            simp only [List.getElem?_cons_zero, Option.some.injEq] at h0
            intro b hb
            rcases List.mem_cons.1 hb with rfl | hb
            · exact h0.ge
            · exact h0 ▸ ((List.pairwise_cons.1 hts).1 b hb).le
        have : t0 ≤ a := by
          rcases (h.isGrid.2 a).1 ha with h | ⟨_, ⟨b, hb, hab⟩, _⟩
          · exact hlow a h
          · exact (hlow b hb).trans hab
        simpa using this
      simp only [hi0, ne_eq, not_true_eq_false, decide_false, Bool.false_eq_true, if_false] at htw
      cases hp : pass 2 ((S.toPGenInfo H).begin false) (S.stepInfo H false)
          (S.toPGenInfo H).store (S.toPGenInfo H).fin (grid.filter (t0 ≤ ·))
          (tl.data.filter (t0 ≤ ·)) ⟨s, false, 0, j⟩ with
      | error e => rw [hp] at htw; simp at htw
      | ok r1 =>
        rw [hp] at htw
        simp only [Except.ok.injEq, Prod.mk.injEq] at htw
        obtain ⟨x, rs, h1, h2, h3⟩ := hforw _ _ _ hp
        refine ⟨x, j, rs, h1, ⟨[], s, ?_, ?_⟩, ?_⟩
        · rw [if_pos rfl, hb]; rfl
        · rw [← hc.2.1, htw.2.1]; exact h2
        · rw [← hc.2.2, htw.2.1]; exact h3
    · simp only [hi0, ne_eq, not_false_eq_true, decide_true, if_true] at htw
      cases hp0 : pass 2 ((S.toPGenInfo H).begin true) (S.stepInfo H true)
          (S.toPGenInfo H).store (S.toPGenInfo H).fin (grid.filter (· ≤ t0)).reverse
          (tl.data.filter (· ≤ t0)).reverse ⟨s, false, 0, j⟩ with
      | error e => rw [hp0] at htw; simp at htw
      | ok r0 =>
        rw [hp0] at htw
        simp only at htw
        cases hp : pass 2 ((S.toPGenInfo H).begin false) (S.stepInfo H false)
            (S.toPGenInfo H).store (S.toPGenInfo H).fin (grid.filter (t0 ≤ ·))
            (tl.data.filter (t0 ≤ ·)) r0.2 with
        | error e => rw [hp] at htw; simp at htw
        | ok r1 =>
          rw [hp] at htw
          simp only [Except.ok.injEq, Prod.mk.injEq] at htw
          obtain ⟨x, rs, h1, h2, h3⟩ := hforw _ _ _ hp
          obtain ⟨x', rs', h1', h2', h3'⟩ := hback _ _ _ hp0
          rw [h1] at h1'
          simp only [Except.ok.injEq] at h1'
          subst h1'
          obtain ⟨ps, hps⟩ := hpath h2'
          refine ⟨x, r0.2.info, rs, h1, ⟨ps, r0.2.s, ?_, ?_⟩, ?_⟩
          · rw [if_pos rfl]; exact hps
          · rw [← hc.2.1, htw.2.1]; exact h2
          · rw [← hc.2.2, htw.2.1]; exact h3
  · have hi0 : i0 ≠ 0 := fun h => hF (.inl h)
    simp only [hF, decide_false, Bool.false_eq_true, if_false, Bool.not_false, ne_eq, hi0,
      not_false_eq_true, decide_true, if_true] at htw ⊢
    cases hp0 : pass 2 ((S.toPGenInfo H).begin true) (S.stepInfo H true)
        (S.toPGenInfo H).store (S.toPGenInfo H).fin (grid.filter (· ≤ t0)).reverse
        (tl.data.filter (· ≤ t0)).reverse ⟨s, false, 0, j⟩ with
    | error e => rw [hp0] at htw; simp at htw
    | ok r0 =>
      rw [hp0] at htw
      simp only [Except.ok.injEq, Prod.mk.injEq] at htw
      obtain ⟨x', rs', h1', h2', h3'⟩ := hback _ _ _ hp0
      refine ⟨x', j, rs', h1', ⟨[], s, rfl, ?_⟩, ?_⟩
      · rw [← hc.2.1, htw.2.1]; exact h2'
      · rw [← hc.2.2, htw.2.1]; exact h3'

end

/-! ### Heston -/

section
variable {T X X' Id σ : Type} [Field T] [LinearOrder T] [CommRing X] [CommRing X'] [LinearOrder Id]
  {f : X →+* X'} {E : Equation T X Id σ} {E' : Equation T X' Id σ}

theorem EqHom.steps (h : EqHom f E E') : ∀ (ts : List T) (t : T) (x : X) (s : σ),
    E'.steps t (f x) ts s =
      (E.steps t x ts s).map (fun r => (r.1.map (fun p => ⟨p.t, f p.x, p.s⟩), r.2)) := by
  intro ts
  induction ts with
  | nil => intro t x s; rfl
  | cons t' ts ih =>
    intro t x s
    simp only [Equation.steps, bind, Except.bind, h.step]
    cases E.step t x t' s with
    | error e => rfl
    | ok r =>
      simp only [Except.map, ih]
      cases E.steps t' r.1 ts r.2 <;> rfl

theorem EqHom.lastSteps (h : EqHom f E E') {fw : Bool} {t0 : T} {x0 : X} {grid : List T} {s s' : σ}
    {rs} (hl : LastSteps E fw t0 x0 grid s rs s') :
    LastSteps E' fw t0 (f x0) grid s (rs.map fun p => ⟨p.t, f p.x, p.s⟩) s' := by
  obtain ⟨pb, s1, h1, h2⟩ := hl
  refine ⟨pb.map (fun p => (p.1, f p.2)), s1, ?_, ?_⟩
  · rw [h.path, h1]; rfl
  · rw [h.steps, h2]; rfl
end

section
variable {σ : Type} (a : Bool) (v : List ℕ) (p : ℕ) (P : HestonParams) (dw : Src ℝ (List ℕ) σ)

theorem heston_count (hL : v = [] → a = true) (rev : Bool) (tt : List ℝ)
    (c : Cell (hestonSys a v p P dw).L) : ∀ (rs : List (StepRec ℝ (List ℕ → ℝ) σ)) (j : Arr ℕ),
    (foldInfo (hestonHooks ⟨2, a, v, p⟩) rev tt j rs).get (c.1.2.1 ++ [c.1.2.2]) =
      j.get (c.1.2.1 ++ [c.1.2.2]) +
        rs.countP (fun r => cells (hestonSys a v p P dw) r.x (volCell c) < 0) := by
  intro rs
  induction rs with
  | nil => intro j; rfl
  | cons r rs ih =>
    intro j
    have hf : foldInfo (hestonHooks ⟨2, a, v, p⟩) rev tt j (r :: rs) =
      foldInfo (hestonHooks ⟨2, a, v, p⟩) rev tt ((hestonHooks ⟨2, a, v, p⟩).inext rev
        (reached rev tt r.t) r.x r.s j) rs := rfl
    rw [hf, ih, List.countP_cons]
    obtain ⟨b₁, b₂, h1, _, h3⟩ := heston_unpack a v p P dw hL r.x
    simp only [hestonHooks, h1]
    have hg : b₂.get (c.1.2.1 ++ [c.1.2.2]) = cells (hestonSys a v p P dw) r.x (volCell c) := by
      have hs : b₂.shape = v ++ [p] := congrArg Arr.shape h3
      have hin : InRange (v ++ [p]) (c.1.2.1 ++ [c.1.2.2]) :=
        (inRange_append c.2.2.1.length).2 ⟨c.2.2.1, inRange_singleton.2 ⟨_, rfl, c.2.2.2⟩⟩
      have := congrFun (congrArg Arr.get h3) (c.1.2.1 ++ [c.1.2.2])
      rw [Arr.canon, eqArr] at this
      simp only [hs, hin, if_true] at this
      rw [this, dif_pos (by simpa using ⟨Nat.one_lt_two, c.2.2⟩)]
      simp [volCell]
      rfl
    rw [hg]
    simp only [decide_eq_true_eq]
    omega

/-- **C19** (Heston). `info['negative_y_count']` is, for each element of `vshape` and each path, the
number of steps, of the last pass, that start from a negative value of `y`. -/
theorem C19_negative_y_count (hL : v = [] → a = true) {x0 y0 : Arr ℝ} (h0 : HestonInitOk v p x0 y0)
    {fuel : ℕ} {steps : Steps ℝ} {i0 : ℤ} {tl : TArr ℝ} {grid : List ℝ} {t0 : ℝ}
    (h : Along fuel steps i0 tl grid t0) (s : σ) {j : Arr ℕ} {xx s' info}
    (hc : (fullHestonSDE a v p P x0 y0 dw).callInfo (hestonHooks ⟨2, a, v, p⟩) fuel steps i0 tl s j =
      .ok (xx, s', info)) :
    ∃ rs, LastSteps (system (hestonSys a v p P dw)) (Forw tl.data.length i0) t0
        (hestonStart x0 y0) grid s rs s' ∧
      ∀ c : Cell ⟨2, a, v, p⟩, info.get (c.1.2.1 ++ [c.1.2.2]) =
        rs.countP (fun r => r.x (volCell c) < 0) := by
  obtain ⟨x, j1, rs, h1, h2, h3⟩ := call_info _ (fullHestonSDE_ok a v p P dw hL x0 y0) _ h s j hc
  obtain ⟨X, hX1, hX2⟩ := hestonInit_eq a v p P dw hL h0
  have hx : (fullHestonSDE a v p P x0 y0 dw).beginX t0 = .ok X := by
    have hinit : (fullHestonSDE a v p P x0 y0 dw).init t0 = .ok X := hX1
    unfold SDE.beginX
    rw [hinit]; rfl
  rw [hx] at h1
  simp only [Except.ok.injEq] at h1
  subst h1
  have := (system_hom _ (heston_ok a v p P dw hL)).lastSteps h2
  rw [hX2] at this
  refine ⟨_, this, ?_⟩
  intro c
  rw [h3, List.countP_map]
  exact (heston_count a v p P dw hL _ _ c rs _).trans (by simp [hestonHooks]; rfl)

end

/-! ### jumps -/

section
variable {ι σ : Type} [Fintype ι]

theorem jump_count (paths : ℕ) (tt : Bool → List ℝ) (dn : σ → Option (ι → ℤ)) (rev : Bool)
    (T : List ℝ) (c : ι) : ∀ (rs : List (StepRec ℝ (ι → ℝ) σ)) (j : JumpInfo ι),
    (foldInfo (jumpHooks paths tt dn) rev T j rs).count c =
      j.count c + (rs.map fun r => ((dn r.s).getD 0) c).sum := by
  intro rs
  induction rs with
  | nil => intro j; simp [foldInfo]
  | cons r rs ih =>
    intro j
    have hf : foldInfo (jumpHooks paths tt dn) rev T j (r :: rs) =
      foldInfo (jumpHooks paths tt dn) rev T ((jumpHooks paths tt dn).inext rev
        (reached rev T r.t) r.x r.s j) rs := rfl
    rw [hf, ih]
    simp only [jumpHooks, List.map_cons, List.sum_cons]
    cases dn r.s with
    | none => simp
    | some w => simp [add_assoc]

theorem jump_rate (paths : ℕ) (tt : Bool → List ℝ) (dn : σ → Option (ι → ℤ)) (rev : Bool)
    (T : List ℝ) (n : ℕ) : ∀ (rs : List (StepRec ℝ (ι → ℝ) σ)) (j : JumpInfo ι),
    (∀ r ∈ rs, 1 ≤ reached rev T r.t) →
    (foldInfo (jumpHooks paths tt dn) rev T j rs).rate.length = j.rate.length ∧
    (n < j.rate.length → (foldInfo (jumpHooks paths tt dn) rev T j rs).rate.getD n 0 =
      j.rate.getD n 0 + ((rs.filter fun r => reached rev T r.t = n + 1).map fun r =>
        ((∑ c, ((dn r.s).getD 0) c : ℤ) : ℝ)).sum /
          ((tt rev).getD (n + 1) 0 - (tt rev).getD n 0) / paths) := by
  intro rs
  induction rs with
  | nil => intro j _; simp [foldInfo]
  | cons r rs ih =>
    intro j hr
    have hf : foldInfo (jumpHooks paths tt dn) rev T j (r :: rs) =
      foldInfo (jumpHooks paths tt dn) rev T ((jumpHooks paths tt dn).inext rev
        (reached rev T r.t) r.x r.s j) rs := rfl
    have hr1 := hr r (by simp)
    rw [hf]
    obtain ⟨ih1, ih2⟩ := ih ((jumpHooks paths tt dn).inext rev (reached rev T r.t) r.x r.s j)
      (fun r hr' => hr r (by simp [hr']))
    have hlen : ((jumpHooks paths tt dn).inext rev (reached rev T r.t) r.x r.s j).rate.length =
        j.rate.length := by
      simp only [jumpHooks]
      cases dn r.s <;> simp
    refine ⟨ih1.trans hlen, ?_⟩
    intro hn
    rw [ih2 (by rw [hlen]; exact hn), List.filter_cons]
    have hget : ((jumpHooks paths tt dn).inext rev (reached rev T r.t) r.x r.s j).rate.getD n 0 =
        j.rate.getD n 0 + if reached rev T r.t = n + 1 then
          ((∑ c, ((dn r.s).getD 0) c : ℤ) : ℝ) /
          ((tt rev).getD (n + 1) 0 - (tt rev).getD n 0) / paths else 0 := by
      simp only [jumpHooks]
      cases dn r.s with
      | none => simp
      | some w =>
        simp only [List.getD_eq_getElem?_getD, List.getElem?_modify, Option.getD_some]
        by_cases he : reached rev T r.t = n + 1
        · simp [he, hn]
        · have : ¬ reached rev T r.t - 1 = n := by omega
          simp [he, this]
    rw [hget]
    by_cases he : reached rev T r.t = n + 1
    · simp only [he, if_true, decide_true, List.map_cons, List.sum_cons, add_div]
      ring
    · simp only [he, if_false, decide_false]
      simp

/-- Steps start from the first point, or after it. -/
theorem steps_times {T X σ : Type} [Field T] [LinearOrder T] [CommRing X] (E : Equation T X ℕ σ) :
    ∀ (ts : List T) (t : T) (x : X) (s : σ) {rs s'},
    E.steps t x ts s = .ok (rs, s') → ∀ r ∈ rs, r.t = t ∨ r.t ∈ ts := by
  intro ts
  induction ts with
  | nil =>
    intro t x s rs s' h r hr
    simp only [Equation.steps, Except.ok.injEq, Prod.mk.injEq] at h
    rw [← h.1] at hr; simp at hr
  | cons t' ts ih =>
    intro t x s rs s' h r hr
    simp only [Equation.steps, bind, Except.bind, pure, Except.pure] at h
    cases hst : E.step t x t' s with
    | error e => rw [hst] at h; simp at h
    | ok q =>
      rw [hst] at h
      simp only at h
      cases hs : E.steps t' q.1 ts q.2 with
      | error e => rw [hs] at h; simp at h
      | ok q' =>
        rw [hs] at h
        simp only [Except.ok.injEq, Prod.mk.injEq] at h
        rw [← h.1] at hr
        rcases List.mem_cons.1 hr with rfl | hr
        · exact .inl rfl
        · rcases ih t' q.1 q.2 (show _ = Except.ok (q'.1, q'.2) from hs) r hr with h | h
          · exact .inr (by simp [h])
          · exact .inr (by simp [h])

/-- **C19** (jump-diffusion). `info['jump_count']` is, for each element of `vshape` and each path,
the number of jumps in the last pass. `info['jump_rate']` has one item for each output time of the
last pass: the total number of jumps in the steps from this time on, and before the next output
time, per unit of time and per path; the last item repeats the preceding one. Number of jumps means
the `dn_value` of the `dj` source after the step, zero if the source has no such attribute. -/
theorem C19_jumps (x0 : ι → ℝ) (mu sigma : ℝ → ι → ℝ) (dw dj : Src ℝ ι σ) (paths : ℕ)
    (dn : σ → Option (ι → ℤ))
    {fuel : ℕ} {steps : Steps ℝ} {i0 : ℤ} {tl : TArr ℝ} {grid : List ℝ} {t0 : ℝ}
    (h : Along fuel steps i0 tl grid t0) (s : σ) {j : JumpInfo ι} {xx s' info}
    (hc : (jumpdiffSDE x0 mu sigma dw dj).callInfo
      (jumpHooks paths (fun rev => lastPass (!rev) t0 tl.data) dn) fuel steps i0 tl s j =
        .ok (xx, s', info)) :
    let fw : Bool := Forw tl.data.length i0
    let tt := lastPass fw t0 tl.data
    ∃ rs, LastSteps (equation (jumpdiffSDE x0 mu sigma dw dj)) fw t0
        (fun c => Real.log (x0 c)) grid s rs s' ∧
      (∀ c, info.count c = (rs.map fun r => ((dn r.s).getD 0) c).sum) ∧
      info.rate.length = tt.length ∧
      (∀ n t t', tt[n]? = some t → tt[n + 1]? = some t' →
        info.rate[n]? = some (((rs.filter fun r => reached (!fw) tt r.t = n + 1).map fun r =>
          ((∑ c, ((dn r.s).getD 0) c : ℤ) : ℝ)).sum / (t' - t) / paths)) ∧
      (∀ n, n + 2 = tt.length → info.rate[n + 1]? = info.rate[n]?) := by
  intro fw tt
  obtain ⟨x, j1, rs, h1, h2, h3⟩ := call_info _
    (⟨by simp [jumpdiffSDE, DictOk, idT, idW, idJ], by
      intro t x A hA
      simp only [jumpdiffSDE, Except.ok.injEq, Option.some.injEq] at hA
      rw [← hA]; simp [DictOk, idT, idW, idJ]⟩) _ h s j hc
  have hx : (jumpdiffSDE x0 mu sigma dw dj).beginX t0 = .ok (fun c => Real.log (x0 c)) := rfl
  rw [hx] at h1
  simp only [Except.ok.injEq] at h1
  subst h1
  have hmem := along_mem h
  have htt : t0 ∈ tt := by
    show t0 ∈ lastPass fw t0 tl.data
    unfold lastPass; split <;> simp [hmem.1]
  have hr : ∀ r ∈ rs, 1 ≤ reached (!fw) tt r.t := by
    intro r hr
    obtain ⟨_, s1, _, hst⟩ := h2
    have := steps_times _ _ _ _ _ hst r hr
    apply List.length_pos_of_mem (a := t0)
    rw [List.mem_filter]
    refine ⟨htt, ?_⟩
    cases hfw : fw with
    | true =>
      have : t0 ≤ r.t := by
        rcases this with h | h
        · exact h.ge
        · change r.t ∈ lastPoints fw t0 grid at h
          simp only [lastPoints, hfw, if_true, List.mem_filter, decide_eq_true_eq] at h
          exact h.2.le
      simpa using this
    | false =>
      have : r.t ≤ t0 := by
        rcases this with h | h
        · exact h.le
        · change r.t ∈ lastPoints fw t0 grid at h
          simp only [lastPoints, hfw, Bool.false_eq_true, if_false, List.mem_reverse,
            List.mem_filter, decide_eq_true_eq] at h
          exact h.2.le
      simpa using this
  have hbeg : (jumpHooks paths (fun rev => lastPass (!rev) t0 tl.data) dn).ibegin (!fw) j1 =
      ⟨List.replicate tt.length 0, fun _ => 0⟩ := by simp [jumpHooks, tt]
  change info = (jumpHooks paths (fun rev => lastPass (!rev) t0 tl.data) dn).iend (!fw)
    (foldInfo (jumpHooks paths (fun rev => lastPass (!rev) t0 tl.data) dn) (!fw) tt
      ((jumpHooks paths (fun rev => lastPass (!rev) t0 tl.data) dn).ibegin (!fw) j1) rs) at h3
  rw [hbeg] at h3
  have hcnt := fun c => jump_count paths (fun rev => lastPass (!rev) t0 tl.data) dn (!fw) tt c rs
    ⟨List.replicate tt.length 0, fun _ => 0⟩
  have hrate := fun n => jump_rate paths (fun rev => lastPass (!rev) t0 tl.data) dn (!fw) tt n rs
    ⟨List.replicate tt.length 0, fun _ => 0⟩ hr
  generalize hfi : foldInfo (jumpHooks paths (fun rev => lastPass (!rev) t0 tl.data) dn) (!fw) tt
    ⟨List.replicate tt.length 0, fun _ => 0⟩ rs = fi at h3 hcnt hrate
  simp only [List.length_replicate, Bool.not_not] at hrate
  have hend : info.count = fi.count ∧ info.rate =
      if 1 < tt.length then fi.rate.set (fi.rate.length - 1) (fi.rate.getD (fi.rate.length - 2) 0)
      else fi.rate := by
    rw [h3]
    simp only [jumpHooks, Bool.not_not]
    change (if 1 < tt.length then _ else _ : JumpInfo ι).count = _ ∧
      (if 1 < tt.length then _ else _ : JumpInfo ι).rate = _
    by_cases hl : 1 < tt.length
    · simp [hl]
    · simp [hl]
  have hfl := (hrate 0).1
  refine ⟨rs, h2, ?_, ?_, ?_, ?_⟩
  · intro c
    rw [hend.1, hcnt]; simp
  · rw [hend.2]
    split <;> simp [hfl]
  · intro n t t' ht ht'
    have hn : n + 1 < tt.length := (List.getElem?_eq_some_iff.1 ht').1
    rw [hend.2, if_pos (by omega), List.getElem?_set_ne (by omega)]
    have := (hrate n).2 (by omega)
    rw [List.getD_eq_getElem?_getD] at this
    rw [List.getElem?_eq_getElem (by omega)] at this ⊢
    rw [Option.getD_some] at this
    rw [this]
    change some (_ + _ / (tt.getD (n + 1) 0 - tt.getD n 0) / _) = _
    simp only [List.getD_eq_getElem?_getD, ht, ht', Option.getD_some]
    have hz : (List.replicate tt.length (0 : ℝ))[n]?.getD 0 = 0 := by
      rw [List.getElem?_replicate]; split <;> rfl
    rw [hz, zero_add]
  · intro n hn
    rw [hend.2, if_pos (by omega), hfl]
    have e1 : tt.length - 1 = n + 1 := by omega
    have e2 : tt.length - 2 = n := by omega
    rw [e1, e2, List.getElem?_set_self (by omega), List.getElem?_set_ne (by omega),
      List.getD_eq_getElem?_getD, List.getElem?_eq_getElem (by omega)]
    rfl

end

/-! ### examples -/

/-- With diagnostics, a run succeeds when it does without. -/
theorem callInfo_ok {T X O σ I : Type} [Field T] [LinearOrder T] [IsStrictOrderedRing T] [CommRing X]
    (S : SDE T X O ℕ σ) (H : InfoHooks X σ I) (fuel : ℕ) (steps : Steps T)
    (i0 : ℤ) (tl : TArr T) (s : σ) (j : I) {r} (h : S.call fuel steps i0 tl s = .ok r) :
    ∃ info, S.callInfo H fuel steps i0 tl s j = .ok (r.1, r.2, info) := by
  rw [← C19_info_harmless S H fuel steps i0 tl s j] at h
  cases hc : S.callInfo H fuel steps i0 tl s j with
  | error e => rw [hc] at h; simp [Except.map] at h
  | ok q =>
    rw [hc] at h
    simp only [Except.map, Except.ok.injEq] at h
    exact ⟨q.2.2, by rw [← h]⟩

/-- A source of jumps that counts them, and has three jumps at each step. -/
noncomputable def exJDn : SDE ℝ (Unit → ℝ) (Unit → ℝ) ℕ ℤ :=
  jumpdiffSDE (fun _ => 10) (fun _ _ => 3) (fun _ _ => 2)
    (fun _ dt s => .ok (fun _ => -dt, s)) (fun _ _ _ => .ok (fun _ => -5, 3))

/-- The hypotheses of `C19_jumps` are met, and the counts are not trivial. -/
example : ∃ xx s' info, exJDn.callInfo (jumpHooks 2 (fun rev => lastPass (!rev) 1 [1, 2])
      (fun n => some fun _ => n)) 10 .none 0 ⟨[2], [1, 2]⟩ 0 ⟨[], fun _ => 0⟩ = .ok (xx, s', info) ∧
    info.count () = 3 ∧ info.rate = [3 / 2, 3 / 2] := by
  have hst : ∀ x, (equation exJDn).step 1 x 2 0 =
      .ok (fun i => x i + (3 - 2 * 2 / 2) * (2 - 1) + 2 * (-(2 - 1)) + 1 * (-5), 3) := by
    intro x
    rw [step_three (a := fun _ _ _ => 3 - 2 * 2 / 2) (b := fun _ _ _ => 2)
      (c := fun _ _ _ => 1)
      (dw := fun _ dt s => .ok (fun _ => -dt, s)) (dj := fun _ _ _ => .ok (fun _ => -5, 3))
      rfl (fun _ _ => rfl)]
    rfl
  have e1 : ([1, 2] : List ℝ).filter (· < 1) = [] := by simp
  have e2 : ([1, 2] : List ℝ).filter (1 < ·) = [2] := by simp
  have e3 : ([1, 2] : List ℝ).filter (1 ≤ ·) = [1, 2] := by simp
  have hs : ∃ r, exJDn.call 10 .none 0 ⟨[2], [1, 2]⟩ 0 = .ok r := by
    rw [call_along _ ?_ exAlongR]
    · have hi : exJDn.init 1 = .ok fun _ => 10 := rfl
      simp only [Equation.solution, e1, e2, List.reverse_nil, Equation.path, bind, Except.bind,
        pure, Except.pure, hst, hi]
      exact ⟨_, rfl⟩
    · refine ⟨by simp [DictOk, exJDn, jumpdiffSDE, idT, idW, idJ], ?_⟩
      intro t x A hA
      simp only [exJDn, jumpdiffSDE, Except.ok.injEq, Option.some.injEq] at hA
      rw [← hA]; simp [DictOk, idT, idW, idJ]
  obtain ⟨r, hr⟩ := hs
  obtain ⟨info, hi⟩ := callInfo_ok exJDn (jumpHooks 2 (fun rev => lastPass (!rev) 1 [1, 2])
      (fun n => some fun _ => n)) 10 .none 0 ⟨[2], [1, 2]⟩ 0 ⟨[], fun _ => 0⟩ hr
  refine ⟨_, _, info, hi, ?_⟩
  obtain ⟨rs, ⟨pb, s1, h1, h2⟩, h3, h4, h5, h6⟩ := C19_jumps _ _ _ _ _ _ _ exAlongR _ hi
  have hF : Forw 2 0 := .inl rfl
  simp only [List.length_cons, List.length_nil, Nat.zero_add, Nat.reduceAdd, hF, decide_true,
    if_true, e1, List.reverse_nil, Equation.path, Except.ok.injEq, Prod.mk.injEq, lastPoints, e2]
    at h1 h2
  rw [← h1.2] at h2
  change (equation exJDn).steps _ _ _ _ = _ at h2
  simp only [Equation.steps, bind, Except.bind, hst, pure, Except.pure, Except.ok.injEq,
    Prod.mk.injEq] at h2
  rw [← h2.1] at h3 h5
  simp only [List.length_cons, List.length_nil, Nat.zero_add, Nat.reduceAdd, hF, decide_true,
    lastPass, if_true, e3, Bool.not_true] at h4 h5 h6
  refine ⟨by simpa using h3 (), ?_⟩
  have h7 := h5 0 1 2 rfl rfl
  have h8 := h6 0 rfl
  rw [h7] at h8
  have hre : reached false [1, 2] (1 : ℝ) = 1 := by simp [reached]
  simp only [hre, Nat.zero_add, decide_true, List.filter_cons, if_true, List.filter_nil,
    List.map_cons, List.map_nil, List.sum_cons, List.sum_nil, Option.getD_some,
    Finset.univ_unique, Finset.sum_singleton] at h7 h8
  norm_num at h7 h8
  match hm : info.rate with
  | [] => rw [hm] at h4; simp at h4
  | [_] => rw [hm] at h4; simp at h4
  | [a, b] =>
    rw [hm] at h7 h8
    simp only [List.getElem?_cons_zero, List.getElem?_cons_succ, Option.some.injEq] at h7 h8
    rw [h7, h8]
  | _ :: _ :: _ :: _ => rw [hm] at h4; simp at h4

/-- The hypotheses of `C19_negative_y_count` are met. -/
example : ∃ xx s' info, (fullHestonSDE (σ := Unit) false [2] 2 exParams (.scalar 10) (.scalar (-1))
      (fun _ _ s => .ok (fun i => i.sum - 3, s))).callInfo (hestonHooks ⟨2, false, [2], 2⟩) 10 .none 0
      ⟨[2], [1, 2]⟩ () ⟨[], fun _ => 0⟩ = .ok (xx, s', info) ∧ info.get [0, 1] = 1 := by
  have e1 : ([1, 2] : List ℝ).filter (· < 1) = [] := by simp
  have e2 : ([1, 2] : List ℝ).filter (1 < ·) = [2] := by simp
  have hi0 : HestonInitOk [2] 2 (.scalar 10) (.scalar (-1)) := by unfold HestonInitOk; decide
  have hs : ∃ r, (fullHestonSDE (σ := Unit) false [2] 2 exParams (.scalar 10) (.scalar (-1))
      (fun _ _ s => .ok (fun i => i.sum - 3, s))).call 10 .none 0 ⟨[2], [1, 2]⟩ () = .ok r := by
    cases hc : (fullHestonSDE (σ := Unit) false [2] 2 exParams (.scalar 10) (.scalar (-1))
      (fun _ _ s => .ok (fun i => i.sum - 3, s))).call 10 .none 0 ⟨[2], [1, 2]⟩ () with
    | ok r => exact ⟨r, rfl⟩
    | error e =>
      have := C17_full_heston (σ := Unit) false [2] 2 exParams
        (fun _ _ s => .ok (fun i => i.sum - 3, s)) (by simp) hi0 exAlongR ()
      unfold fullHestonCall at this
      rw [hc] at this
      simp only [Equation.solution, e1, e2, List.reverse_nil, Equation.path, bind, Except.bind,
        pure, Except.pure, C18_heston_step] at this
      simp at this
  obtain ⟨r, hr⟩ := hs
  obtain ⟨info, hi⟩ := callInfo_ok _ (hestonHooks ⟨2, false, [2], 2⟩) 10 .none 0
      ⟨[2], [1, 2]⟩ () ⟨[], fun _ => 0⟩ hr
  refine ⟨_, _, info, hi, ?_⟩
  obtain ⟨rs, ⟨pb, s1, h1, h2⟩, h3⟩ := C19_negative_y_count _ _ _ _ _ (by simp) hi0 exAlongR _ hi
  have hF : Forw 2 0 := .inl rfl
  simp only [List.length_cons, List.length_nil, Nat.zero_add, Nat.reduceAdd, hF, decide_true,
    lastPoints, e2, if_true] at h2
  simp only [Equation.steps, bind, Except.bind, C18_heston_step, pure, Except.pure, Except.ok.injEq,
    Prod.mk.injEq] at h2
  have := h3 ⟨(0, [0], 1), by decide⟩
  rw [← h2.1] at this
  rw [show ([0, 1] : List ℕ) = [0] ++ [1] from rfl, this]
  simp [hestonStart, volCell, bcAt, Arr.scalar]

end Sdepy
