import Verif.Props.Sources

/-!
# Compound Poisson sources (C24)
-/

namespace Sdepy

open Spec

section
variable {Y : Type} [CommRing Y]

theorem sumsOf_nil (sg num : List ℕ → ℤ) (D : List ℕ → YSample Y → Prop) (val : List ℕ → Y) :
    SumsOf ∅ sg num D val [] :=
  ⟨fun _ => (0, 0), by simp, by simp, by simp⟩

theorem Spec.SumsOf.congr {A B : Set (List ℕ)} {sg num : List ℕ → ℤ} {D D' : List ℕ → YSample Y → Prop}
    {val val' : List ℕ → Y} {ys : List (YSample Y)} (h : SumsOf A sg num D val ys) (hAB : A = B)
    (hv : ∀ c ∈ A, val c = val' c) (hD : ∀ c ∈ A, ∀ y, D c y → D' c y) :
    SumsOf B sg num D' val' ys := by
  subst hAB
  obtain ⟨slot, h1, h2, h3⟩ := h
  refine ⟨slot, ?_, h2, h3⟩
  intro c hc
  obtain ⟨y, a1, a2, a3, a4, a5⟩ := h1 c hc
  exact ⟨y, a1, a2, a3, hD c hc y a4, by rw [← hv c hc, a5]⟩

theorem Spec.SumsOf.append {A B : Set (List ℕ)} {sg num : List ℕ → ℤ} {D : List ℕ → YSample Y → Prop}
    {val : List ℕ → Y} {ys zs : List (YSample Y)} (hA : SumsOf A sg num D val ys)
    (hB : SumsOf B sg num D val zs) (hd : Disjoint A B) : SumsOf (A ∪ B) sg num D val (ys ++ zs) := by
  classical
  obtain ⟨f, a1, a2, a3⟩ := hA
  obtain ⟨g, b1, b2, b3⟩ := hB
  have hAf : ∀ c ∈ A, (f c).1 < ys.length := by
    intro c hc
    obtain ⟨y, hy, -⟩ := a1 c hc
    exact (List.getElem?_eq_some_iff.1 hy).1
  have hnA : ∀ c ∈ B, c ∉ A := fun c hc hA => Set.disjoint_left.1 hd hA hc
  refine ⟨fun c => if c ∈ A then f c else (ys.length + (g c).1, (g c).2), ?_, ?_, ?_⟩
  · rintro c (hc | hc)
    · simp only [if_pos hc]
      obtain ⟨y, hy, h⟩ := a1 c hc
      exact ⟨y, by rw [List.getElem?_append_left (hAf c hc)]; exact hy, h⟩
    · simp only [if_neg (hnA c hc)]
      obtain ⟨y, hy, h⟩ := b1 c hc
      exact ⟨y, by rw [List.getElem?_append_right (by omega)]; simpa using hy, h⟩
  · rintro c (hc | hc) c' (hc' | hc') h
    · simp only [if_pos hc, if_pos hc'] at h
      exact a2 c hc c' hc' h
    · simp only [if_pos hc, if_neg (hnA c' hc')] at h
      have := hAf c hc
      rw [h] at this
      simp at this
    · simp only [if_pos hc', if_neg (hnA c hc)] at h
      have := hAf c' hc'
      rw [← h] at this
      simp at this
    · simp only [if_neg (hnA c hc), if_neg (hnA c' hc'), Prod.mk.injEq, Nat.add_left_cancel_iff] at h
      exact b2 c hc c' hc' (Prod.ext h.1 h.2)
  · intro m y r hm hr
    rcases Nat.lt_or_ge m ys.length with hlt | hge
    · rw [List.getElem?_append_left hlt] at hm
      obtain ⟨c, hc, h⟩ := a3 m y r hm hr
      exact ⟨c, .inl hc, by simp only [if_pos hc, h]⟩
    · rw [List.getElem?_append_right hge] at hm
      obtain ⟨c, hc, h⟩ := b3 _ y r hm hr
      exact ⟨c, .inr hc, by simp only [if_neg (hnA c hc), h]; simp; omega⟩

/-- A single sample, a row of it for each of the cells in a list. -/
theorem sumsOf_single {cells : List (List ℕ)} (hn : cells.Nodup) (y : YSample Y)
    (hy : y.n = cells.length) {sg num : List ℕ → ℤ} {D : List ℕ → YSample Y → Prop}
    {val : List ℕ → Y} (hj : ∀ c ∈ cells, (y.j : ℤ) = num c) (hD : ∀ c ∈ cells, D c y)
    (hv : ∀ c ∈ cells, val c = sg c * ∑ k ∈ Finset.range y.j, y.val (cells.idxOf c) k) :
    SumsOf {c | c ∈ cells} sg num D val [y] := by
  refine ⟨fun c => (0, cells.idxOf c), ?_, ?_, ?_⟩
  · intro c hc
    exact ⟨y, rfl, by rw [hy]; exact List.idxOf_lt_length_of_mem hc, hj c hc, hD c hc, hv c hc⟩
  · intro c hc c' hc' h
    simp only [Prod.mk.injEq, true_and] at h
    exact (List.idxOf_inj hc).1 h
  · intro m y' r hm hr
    match m, hm with
    | 0, hm =>
      simp only [List.getElem?_cons_zero, Option.some.injEq] at hm
      subst hm
      rw [hy] at hr
      exact ⟨cells[r], List.getElem_mem hr, by simp only [hn.idxOf_getElem]⟩
    | m + 1, hm => simp at hm

/-- Renaming of cells. -/
theorem Spec.SumsOf.image {A : Set (List ℕ)} {sg num sg' num' : List ℕ → ℤ}
    {D D' : List ℕ → YSample Y → Prop} {val val' : List ℕ → Y} {ys : List (YSample Y)}
    {f : List ℕ → List ℕ} (h : SumsOf A sg num D val ys) (hf : Function.Injective f)
    (hsg : ∀ c ∈ A, sg' (f c) = sg c) (hnum : ∀ c ∈ A, num' (f c) = num c)
    (hD : ∀ c ∈ A, ∀ y, D c y → D' (f c) y) (hval : ∀ c ∈ A, val' (f c) = val c) :
    SumsOf (f '' A) sg' num' D' val' ys := by
  obtain ⟨slot, h1, h2, h3⟩ := h
  obtain ⟨g, hg⟩ := hf.hasLeftInverse
  refine ⟨fun c => slot (g c), ?_, ?_, ?_⟩
  · rintro _ ⟨c, hc, rfl⟩
    simp only [hg c]
    obtain ⟨y, a1, a2, a3, a4, a5⟩ := h1 c hc
    exact ⟨y, a1, a2, by rw [hnum c hc, a3], hD c hc y a4, by rw [hval c hc, hsg c hc, a5]⟩
  · rintro _ ⟨c, hc, rfl⟩ _ ⟨c', hc', rfl⟩ h
    simp only [hg c, hg c'] at h
    rw [h2 c hc c' hc' h]
  · intro m y r hm hr
    obtain ⟨c, hc, h⟩ := h3 m y r hm hr
    exact ⟨f c, ⟨c, hc, rfl⟩, by simp only [hg c, h]⟩

end

section
variable {T Y σ : Type} [Field T] [LinearOrder T] [CommRing Y]

theorem mem_trueCells {shape : List ℕ} {p : List ℕ → Bool} {i : List ℕ} :
    i ∈ trueCells shape p ↔ InRange shape i ∧ p i = true := by
  simp [trueCells, mem_ndindex]

theorem bcOk_singleton (n : ℕ) : BcOk [n] [n] := by simp [BcOk, bcOkRev]

theorem maskAssign_full {dz : Arr Y} {cells : List (List ℕ)} {v : ℕ → Y}
    (hc : ∀ i ∈ cells, InRange dz.shape i) :
    ∃ dz', maskAssign dz dz.shape cells v = .ok dz' ∧ dz'.shape = dz.shape ∧
      ∀ i, i.length = dz.shape.length →
        dz'.get i = if i ∈ cells then v (cells.idxOf i) else dz.get i := by
  unfold maskAssign
  rw [if_neg (by simp)]
  simp only [List.drop_length, Arr.broadcastTo]
  rw [if_pos (bcOk_singleton _)]
  refine ⟨_, rfl, rfl, ?_⟩
  intro i hi
  have e1 : i.take dz.shape.length = i := by rw [← hi]; simp
  have e2 : i.drop dz.shape.length = [] := by rw [← hi]; simp
  simp only [e1, e2]
  split
  · next h =>
    have h1 := List.idxOf_lt_length_of_mem h
    simp only [List.reverse_cons, List.reverse_nil, List.nil_append, bcIdxRev]
    split
    · next h2 =>
      have : cells.idxOf i = 0 := by omega
      simp [this]
    · simp
  · rfl

theorem sum_range_map (f : ℕ → Y) (n : ℕ) : ((List.range n).map f).sum = ∑ k ∈ Finset.range n, f k := by
  induction n with
  | zero => rfl
  | succ n ih => rw [List.range_succ, List.map_append, List.sum_append, ih, Finset.sum_range_succ]; simp

/-- What the loop over the number of jumps does. -/
theorem jumpLoop_spec {rvs : Rvs Y σ} {sg : ℤ} {dn : Arr ℤ} {n j : ℕ} {dz : Arr Y}
    {ys : List (YSample Y)} {s : σ} {dz' : Arr Y} {ys' : List (YSample Y)} {s' : σ}
    (hs : dz.shape = dn.shape)
    (h : jumpLoop rvs sg dn n j dz ys s = .ok ((dz', ys'), s')) :
    dz'.shape = dn.shape ∧
      (∀ i, InRange dn.shape i → ¬ (j ≤ dn.get i ∧ dn.get i < j + n) → dz'.get i = dz.get i) ∧
      ∃ new, ys' = ys ++ new ∧
        SumsOf {i | InRange dn.shape i ∧ j ≤ dn.get i ∧ dn.get i < j + n} (fun _ => sg) dn.get
          (fun _ y => ∃ s1 s2, rvs y.n y.j s1 = .ok (y.val, s2)) dz'.get new := by
  induction n generalizing j dz ys s with
  | zero =>
    simp only [jumpLoop, Except.ok.injEq, Prod.mk.injEq] at h
    obtain ⟨⟨rfl, rfl⟩, rfl⟩ := h
    refine ⟨hs, fun _ _ _ => rfl, [], by simp, ?_⟩
    refine (sumsOf_nil _ _ (fun _ _ => True) dz.get).congr ?_ (by simp) (by simp)
    ext i
    simp only [Set.mem_empty_iff_false, Set.mem_setOf_eq, false_iff]
    rintro ⟨-, h1, h2⟩
    push_cast at h2
    omega
  | succ n ih =>
    simp only [jumpLoop] at h
    split at h
    · next hc =>
      obtain ⟨h1, h2, new, h3, h4⟩ := ih hs h
      have hno : ∀ i, InRange dn.shape i → dn.get i ≠ j := by
        intro i hi hij
        have : i ∈ trueCells dn.shape (fun i => decide (dn.get i = j)) :=
          mem_trueCells.2 ⟨hi, by simpa using hij⟩
        rw [hc] at this
        cases this
      refine ⟨h1, fun i hi hni => h2 i hi ?_, new, h3, h4.congr ?_ (fun _ _ => rfl) (fun _ _ _ h => h)⟩
      · intro h; apply hni; push_cast at h ⊢; omega
      · ext i
        simp only [Set.mem_setOf_eq]
        constructor
        · rintro ⟨a, b⟩; refine ⟨a, ?_⟩; push_cast at b ⊢; omega
        · rintro ⟨a, b⟩; refine ⟨a, ?_⟩; have := hno i a; push_cast at b ⊢; omega
    · next hc =>
      split at h
      · cases h
      · next y s1 hy =>
        set cells := trueCells dn.shape (fun i => decide (dn.get i = j)) with hcells
        have hmem : ∀ i, i ∈ cells ↔ InRange dn.shape i ∧ dn.get i = j := by
          intro i; rw [hcells, mem_trueCells]; simp
        obtain ⟨dz1, e1, e2, e3⟩ := maskAssign_full (dz := dz) (cells := cells)
          (v := fun r => (sg : Y) * ((List.range j).map (y r)).sum)
          (fun i hi => by rw [hs]; exact ((hmem i).1 hi).1)
        rw [← hs, e1] at h
        simp only at h
        obtain ⟨h1, h2, new, h3, h4⟩ := ih (e2.trans hs) h
        refine ⟨h1, ?_, [⟨cells.length, j, y⟩] ++ new, by rw [h3]; simp, ?_⟩
        · intro i hi hni
          rw [h2 i hi (by intro h; apply hni; push_cast at h ⊢; omega),
            e3 i (by rw [hs]; exact hi.length), if_neg]
          intro hic
          have := ((hmem i).1 hic).2
          apply hni
          push_cast
          omega
        · have hfirst : SumsOf {c | c ∈ cells} (fun _ => sg) dn.get
              (fun _ y => ∃ s1 s2, rvs y.n y.j s1 = .ok (y.val, s2)) dz'.get
              [⟨cells.length, j, y⟩] := by
            refine sumsOf_single ((ndindex_nodup _).filter _) _ rfl ?_ ?_ ?_
            · intro c hc; exact ((hmem c).1 hc).2.symm
            · intro c hc; exact ⟨s, s1, hy⟩
            · intro c hc
              obtain ⟨hr, hj⟩ := (hmem c).1 hc
              rw [h2 c hr (by rw [hj]; push_cast; omega), e3 c (by rw [hs]; exact hr.length),
                if_pos (show c ∈ cells from hc), sum_range_map]
              rfl
          refine (hfirst.append h4 ?_).congr ?_ (fun _ _ => rfl) (fun _ _ _ h => h)
          · rw [Set.disjoint_left]
            rintro c hc ⟨-, hc', -⟩
            have := ((hmem c).1 hc).2
            push_cast at hc'
            omega
          · ext c
            simp only [Set.mem_union, Set.mem_setOf_eq, hmem]
            constructor
            · rintro (⟨a, b⟩ | ⟨a, b⟩) <;> refine ⟨a, ?_⟩ <;> push_cast at b ⊢ <;> omega
            · rintro ⟨a, b⟩
              by_cases hb : dn.get c = j
              · exact .inl ⟨a, hb⟩
              · right; refine ⟨a, ?_⟩; push_cast at b ⊢; omega

theorem arrMax_spec {a : Arr ℤ} {m : ℤ} (h : arrMax a = .ok m) :
    ∀ i, InRange a.shape i → a.get i ≤ m := by
  intro i hi
  have hmem : a.get i ∈ (ndindex a.shape).map a.get := List.mem_map.2 ⟨i, mem_ndindex.2 hi, rfl⟩
  unfold arrMax at h
  split at h
  · cases h
  · next x xs hx =>
    cases h
    rw [hx] at hmem
    have key : ∀ (xs : List ℤ) (x : ℤ), x ≤ xs.foldl max x ∧ ∀ y ∈ xs, y ≤ xs.foldl max x := by
      intro xs
      induction xs with
      | nil => intro x; simp
      | cons z xs ih =>
        intro x
        obtain ⟨h1, h2⟩ := ih (max x z)
        simp only [List.foldl_cons, List.mem_cons]
        refine ⟨le_trans (le_max_left _ _) h1, ?_⟩
        rintro y (rfl | hy)
        · exact le_trans (le_max_right _ _) h1
        · exact h2 y hy
    rcases List.mem_cons.1 hmem with h | h
    · rw [h]; exact (key xs x).1
    · exact (key xs x).2 _ h

theorem loopIdx_mem {ι β σ : Type} {body : ι → σ → Py (β × σ)} {l : List ι} {s s' : σ}
    {r : List (ι × β)} (h : loopIdx body l s = .ok (r, s')) {p : ι × β} (hp : p ∈ r) :
    ∃ s1 s2, body p.1 s1 = .ok (p.2, s2) := by
  induction l generalizing s r with
  | nil => simp [loopIdx] at h; rw [h.1] at hp; cases hp
  | cons i is ih =>
    simp only [loopIdx] at h
    split at h
    · cases h
    · next b s1 hb =>
      split at h
      · cases h
      · next bs s2 hbs =>
        simp only [Except.ok.injEq, Prod.mk.injEq] at h
        obtain ⟨rfl, rfl⟩ := h
        cases hp with
        | head => exact ⟨_, _, hb⟩
        | tail _ hp => exact ih hbs hp

theorem sumsOf_flatMap {shape : List ℕ} {sg num : List ℕ → ℤ} {D : List ℕ → YSample Y → Prop}
    {val : List ℕ → Y} {k : ℕ} (r : List (List ℕ × (Arr Y × List (YSample Y))))
    (hn : (r.map Prod.fst).Nodup) (hk : ∀ p ∈ r, p.1.length = k)
    (h : ∀ p ∈ r, SumsOf {j | InRange shape j ∧ num (p.1 ++ j) ≠ 0} (fun j => sg (p.1 ++ j))
      (fun j => num (p.1 ++ j)) (fun j y => D (p.1 ++ j) y) (fun j => val (p.1 ++ j)) p.2.2) :
    SumsOf {c | ∃ i j, i ∈ r.map Prod.fst ∧ InRange shape j ∧ c = i ++ j ∧ num c ≠ 0} sg num D val
      (r.flatMap fun p => p.2.2) := by
  induction r with
  | nil => exact (sumsOf_nil _ _ D val).congr (by simp) (by simp) (by simp)
  | cons p r ih =>
    simp only [List.map_cons, List.nodup_cons] at hn
    have h1 := ih hn.2 (fun q hq => hk q (List.mem_cons_of_mem _ hq))
      (fun q hq => h q (List.mem_cons_of_mem _ hq))
    have h0 := (h p List.mem_cons_self).image (f := fun j => p.1 ++ j) (sg' := sg) (num' := num)
      (D' := D) (val' := val) (List.append_right_injective _) (fun _ _ => rfl) (fun _ _ => rfl)
      (fun _ _ _ h => h) (fun _ _ => rfl)
    rw [List.flatMap_cons]
    refine (h0.append h1 ?_).congr ?_ (fun _ _ => rfl) (fun _ _ _ h => h)
    · rw [Set.disjoint_left]
      rintro c ⟨j, -, rfl⟩ ⟨i, j', hi, -, he, -⟩
      obtain ⟨q, hq, rfl⟩ := List.mem_map.1 hi
      have := (List.append_inj he (by
        rw [hk p List.mem_cons_self, hk q (List.mem_cons_of_mem _ hq)])).1
      rw [this] at hn
      exact hn.1 hi
    · ext c
      simp only [Set.mem_union, Set.mem_image, Set.mem_setOf_eq, List.map_cons, List.mem_cons]
      constructor
      · rintro (⟨j, ⟨h2, h3⟩, rfl⟩ | ⟨i, j, h2, h3, h4, h5⟩)
        · exact ⟨p.1, j, .inl rfl, h2, rfl, h3⟩
        · exact ⟨i, j, .inr h2, h3, h4, h5⟩
      · rintro ⟨i, j, rfl | h2, h3, rfl, h5⟩
        · exact .inl ⟨j, ⟨h3, h5⟩, rfl⟩
        · exact .inr ⟨i, j, h2, h3, rfl, h5⟩

/-- **C24**: the increment in each cell is the sum of exactly as many variates as the absolute value of
the underlying Poisson increment, times the sign of the time step; it is zero where there is no
jump. The variates are sampled from the distribution at the middle of the time step, and each row of
variates in `y_value` is used for exactly one cell. The hypotheses are that the underlying source returns increments of the right shape
and sign. -/
theorem C24_jumps_partial {S : CPoissonSrc T Y σ} {t dt : Arr T} {s s' : σ} {dz : Arr Y} {dn : Arr ℤ}
    {ys : List (YSample Y)} (h : cpoissonCall S t dt s = .ok ((dz, dn, ys), s'))
    {sh : List ℕ} (hsh : bcShape t.shape dt.shape = some sh)
    (hdn : dn.shape = sh ++ S.vshape ++ [S.paths])
    (hsign : ∀ i j, InRange sh i → InRange (S.vshape ++ [S.paths]) j →
      |dn.get (i ++ j)| = (SignType.sign (dt.bget i) : ℤ) * dn.get (i ++ j)) :
    (∃ s1, S.dn ⟨sh, t.bget⟩ ⟨sh, dt.bget⟩ s = .ok (dn, s1)) ∧
    dz.shape = sh ++ S.vshape ++ [S.paths] ∧
    (∀ c, InRange dz.shape c → dn.get c = 0 → dz.get c = 0) ∧
    SumsOf {c | InRange dz.shape c ∧ dn.get c ≠ 0}
      (fun c => (SignType.sign (dt.bget (c.take sh.length)) : ℤ)) (fun c => |dn.get c|)
      (fun c y => ∃ rvs s1 s2,
        S.y (t.bget (c.take sh.length) + dt.bget (c.take sh.length) / 2) = .ok rvs ∧
        rvs y.n y.j s1 = .ok (y.val, s2)) dz.get ys := by
  unfold cpoissonCall at h
  rw [broadcast2_eq] at h
  simp only [hsh] at h
  split at h
  · cases h
  · next dn' s1 hdn' =>
    split at h
    · cases h
    · split at h
      · cases h
      · next r s2 hr =>
        simp only [Except.ok.injEq, Prod.mk.injEq] at h
        obtain ⟨⟨rfl, rfl, rfl⟩, rfl⟩ := h
        have hnd : (r.map Prod.fst).Nodup := by rw [loopIdx_fst hr]; exact ndindex_nodup sh
        have hidx : ∀ p ∈ r, InRange sh p.1 := by
          intro p hp
          rw [← mem_ndindex, ← loopIdx_fst hr]
          exact List.mem_map.2 ⟨p, hp, rfl⟩
        have hdrop : dn'.shape.drop sh.length = S.vshape ++ [S.paths] := by
          rw [hdn, List.append_assoc, List.drop_left]
        set shape := S.vshape ++ [S.paths] with hshape
        set dz := assemble sh shape 0 (r.map fun p => (p.1, p.2.1)) with hdz
        have hdzs : dz.shape = sh ++ S.vshape ++ [S.paths] := by simp [hdz, assemble, hshape]
        have hget : ∀ p ∈ r, ∀ j, dz.get (p.1 ++ j) = p.2.1.get j := by
          intro p hp j
          have hl := (hidx p hp).length
          have e1 : (p.1 ++ j).take sh.length = p.1 := by rw [← hl]; simp
          have e2 : (p.1 ++ j).drop sh.length = j := by rw [← hl]; simp
          have hm : (p.1, p.2.1) ∈ r.map fun p => (p.1, p.2.1) := List.mem_map.2 ⟨p, hp, rfl⟩
          have hlook := lookup_of_mem_nodup (by
            rw [List.map_map]; exact hnd) hm
          simp only [hdz, assemble, e1, e2, hlook]
        have hbody : ∀ p ∈ r, (∀ j, InRange shape j → dn'.get (p.1 ++ j) = 0 → p.2.1.get j = 0) ∧
            SumsOf {j | InRange shape j ∧ |dn'.get (p.1 ++ j)| ≠ 0}
              (fun _ => (SignType.sign (dt.bget p.1) : ℤ)) (fun j => |dn'.get (p.1 ++ j)|)
              (fun _ y => ∃ rvs s1 s2, S.y (t.bget p.1 + dt.bget p.1 / 2) = .ok rvs ∧
                rvs y.n y.j s1 = .ok (y.val, s2)) p.2.1.get p.2.2 := by
          intro p hp
          obtain ⟨i, dzi, ysi⟩ := p
          obtain ⟨s3, s4, hb⟩ := loopIdx_mem hr hp
          have hi := hidx _ hp
          simp only at hi hb ⊢
          unfold cpoissonBody at hb
          simp only [hdrop, sgn_eq] at hb
          split at hb
          · cases hb
          · next nmax hmax =>
            split at hb
            · cases hb
            · next rvs hrvs =>
              obtain ⟨-, h2, new, h3, h4⟩ := jumpLoop_spec (by rfl) hb
              have hmax' := arrMax_spec hmax
              simp only at hmax' h2 h4 h3
              simp only [List.nil_append] at h3
              subst h3
              refine ⟨fun j hj hz => h2 j hj ?_, ?_⟩
              · rw [hz]; simp
              · have : SumsOf {j | InRange shape j ∧ |dn'.get (i ++ j)| ≠ 0}
                    (fun _ => (SignType.sign (dt.bget i) : ℤ)) (fun j => |dn'.get (i ++ j)|)
                    (fun _ y => ∃ s1 s2, rvs y.n y.j s1 = .ok (y.val, s2)) dzi.get ysi := by
                  obtain ⟨slot, a1, a2, a3⟩ := h4
                  have hset : ∀ j, (InRange shape j ∧ |dn'.get (i ++ j)| ≠ 0) ↔
                      (InRange shape j ∧ ((1 : ℕ) : ℤ) ≤ (SignType.sign (dt.bget i) : ℤ) * dn'.get (i ++ j) ∧
                        (SignType.sign (dt.bget i) : ℤ) * dn'.get (i ++ j) <
                          ((1 : ℕ) : ℤ) + (nmax.toNat : ℤ)) := by
                    intro j
                    constructor
                    · rintro ⟨hj, hne⟩
                      have hs := hsign i j hi hj
                      have hm := hmax' j hj
                      have := abs_nonneg (dn'.get (i ++ j))
                      refine ⟨hj, ?_⟩
                      rw [← hs] at hm ⊢
                      push_cast
                      omega
                    · rintro ⟨hj, h5, h6⟩
                      refine ⟨hj, ?_⟩
                      rw [hsign i j hi hj]
                      push_cast at h5
                      omega
                  refine ⟨slot, ?_, ?_, ?_⟩
                  · intro c hc
                    obtain ⟨y, b1, b2, b3, b4⟩ := a1 c ((hset c).1 hc)
                    exact ⟨y, b1, b2, by rw [b3]; exact (hsign i c hi hc.1).symm, b4⟩
                  · intro c hc c' hc'
                    exact a2 c ((hset c).1 hc) c' ((hset c').1 hc')
                  · intro m y r' hm hr'
                    obtain ⟨c, hc, h⟩ := a3 m y r' hm hr'
                    exact ⟨c, (hset c).2 hc, h⟩
                exact this.congr rfl (fun _ _ => rfl) fun c _ y ⟨s1, s2, h⟩ => ⟨rvs, s1, s2, hrvs, h⟩
        refine ⟨⟨s1, hdn'⟩, hdzs, ?_, ?_⟩
        · intro c hc hz
          rw [hdzs, List.append_assoc] at hc
          obtain ⟨i, j, rfl, hi, hj⟩ := hc.of_append
          have : i ∈ r.map Prod.fst := by rw [loopIdx_fst hr]; exact mem_ndindex.2 hi
          obtain ⟨p, hp, rfl⟩ := List.mem_map.1 this
          rw [hget p hp]
          exact (hbody p hp).1 j hj hz
        · refine (sumsOf_flatMap (shape := shape) (k := sh.length)
            (sg := fun c => (SignType.sign (dt.bget (c.take sh.length)) : ℤ))
            (num := fun c => |dn'.get c|)
            (D := fun c y => ∃ rvs s1 s2,
              S.y (t.bget (c.take sh.length) + dt.bget (c.take sh.length) / 2) = .ok rvs ∧
              rvs y.n y.j s1 = .ok (y.val, s2)) (val := dz.get) r hnd
            (fun p hp => (hidx p hp).length) ?_).congr ?_ (fun _ _ => rfl) (fun _ _ _ h => h)
          · intro p hp
            have e1 : ∀ j, (p.1 ++ j).take sh.length = p.1 := by
              intro j; rw [← (hidx p hp).length]; simp
            simp only [e1, hget p hp]
            exact (hbody p hp).2
          · ext c
            simp only [Set.mem_setOf_eq]
            constructor
            · rintro ⟨i, j, hi, hj, rfl, hne⟩
              rw [loopIdx_fst hr, mem_ndindex] at hi
              refine ⟨?_, by simpa using hne⟩
              rw [hdzs, List.append_assoc, inRange_append hi.length]
              exact ⟨hi, hj⟩
            · rintro ⟨hc, hne⟩
              rw [hdzs, List.append_assoc] at hc
              obtain ⟨i, j, rfl, hi, hj⟩ := hc.of_append
              exact ⟨i, j, by rw [loopIdx_fst hr, mem_ndindex]; exact hi, hj, rfl, by simpa using hne⟩

/-- **C24**, with the default `poisson_source` as the underlying source: no hypotheses, other than Poisson
variates not being negative. -/
theorem C24_default [IsStrictOrderedRing T] {S : CPoissonSrc T Y σ} {lam : Param T}
    {draw : (List ℕ → T) → List ℕ → σ → (List ℕ → ℤ) × σ}
    (hd : ∀ l size s j, 0 ≤ (draw l size s).1 j)
    (hS : S.dn = poissonCall ⟨S.paths, S.vshape, lam⟩ draw)
    {t dt : Arr T} {s s' : σ} {dz : Arr Y} {dn : Arr ℤ}
    {ys : List (YSample Y)} (h : cpoissonCall S t dt s = .ok ((dz, dn, ys), s')) :
    ∃ sh, bcShape t.shape dt.shape = some sh ∧ dz.shape = sh ++ S.vshape ++ [S.paths] ∧
    (∀ c, InRange dz.shape c → dn.get c = 0 → dz.get c = 0) ∧
    SumsOf {c | InRange dz.shape c ∧ dn.get c ≠ 0}
      (fun c => (SignType.sign (dt.bget (c.take sh.length)) : ℤ)) (fun c => |dn.get c|)
      (fun c y => ∃ rvs s1 s2,
        S.y (t.bget (c.take sh.length) + dt.bget (c.take sh.length) / 2) = .ok rvs ∧
        rvs y.n y.j s1 = .ok (y.val, s2)) dz.get ys := by
  cases hsh : bcShape t.shape dt.shape with
  | none => simp [cpoissonCall, broadcast2_eq, hsh] at h
  | some sh =>
    have hdn : ∃ s1, S.dn ⟨sh, t.bget⟩ ⟨sh, dt.bget⟩ s = .ok (dn, s1) := by
      unfold cpoissonCall at h
      rw [broadcast2_eq] at h
      simp only [hsh] at h
      split at h
      · cases h
      · next dn' s1 hdn' =>
        split at h
        · cases h
        · split at h
          · cases h
          · simp only [Except.ok.injEq, Prod.mk.injEq] at h
            exact ⟨s1, by rw [hdn', h.1.2.1]⟩
    obtain ⟨s1, hdn⟩ := hdn
    rw [hS] at hdn
    have hself : bcShape (⟨sh, t.bget⟩ : Arr T).shape (⟨sh, dt.bget⟩ : Arr T).shape = some sh :=
      bcShape_self sh
    obtain ⟨sh', hsh', hshape, -⟩ := C23_draws hdn
    obtain rfl : sh = sh' := by rw [hself] at hsh'; exact Option.some.inj hsh'
    have hsign : ∀ i j, InRange sh i → InRange (S.vshape ++ [S.paths]) j →
        |dn.get (i ++ j)| = (SignType.sign (dt.bget i) : ℤ) * dn.get (i ++ j) := by
      intro i j hi hj
      have hb : (⟨sh, dt.bget⟩ : Arr T).bget i = dt.bget i := bget_self _ hi
      obtain ⟨h1, h2, h3⟩ := C23_sign hd hdn hself hi j
      rw [hb] at h1 h2 h3
      rcases lt_trichotomy (dt.bget i) 0 with hx | hx | hx
      · rw [sign_neg hx, abs_of_nonpos (h2 hx)]; simp
      · rw [hx, h3 hx]; simp
      · rw [sign_pos hx, abs_of_nonneg (h1 hx)]; simp
    obtain ⟨-, h2, h3, h4⟩ := C24_jumps_partial h hsh hshape hsign
    exact ⟨sh, rfl, h2, h3, h4⟩

theorem jumpLoop_ok {rvs : Rvs Y σ} (hr : ∀ n j s, ∃ r, rvs n j s = .ok r) {sg : ℤ} {dn : Arr ℤ}
    (n j : ℕ) (dz : Arr Y) (ys : List (YSample Y)) (s : σ) (hs : dz.shape = dn.shape) :
    ∃ r, jumpLoop rvs sg dn n j dz ys s = .ok r := by
  induction n generalizing j dz ys s with
  | zero => exact ⟨_, rfl⟩
  | succ n ih =>
    simp only [jumpLoop]
    split
    · exact ih _ _ _ _ hs
    · obtain ⟨⟨y, s1⟩, hy⟩ := hr (trueCells dn.shape fun i => decide (dn.get i = j)).length j s
      simp only [hy]
      obtain ⟨dz1, e1, e2, -⟩ := maskAssign_full (dz := dz)
        (cells := trueCells dn.shape fun i => decide (dn.get i = j))
        (v := fun r => (sg : Y) * ((List.range j).map (y r)).sum)
        (fun i hi => by rw [hs]; exact (mem_trueCells.1 hi).1)
      rw [hs] at e1
      rw [e1]
      exact ih _ _ _ _ (e2.trans hs)

/-- **C24**: the call succeeds, if there is at least a cell, if the underlying source succeeds, returning
increments of the right shape, and if variates can be sampled at the middle of each time step. -/
theorem C24_ok {S : CPoissonSrc T Y σ} {t dt : Arr T} {sh : List ℕ}
    (hsh : bcShape t.shape dt.shape = some sh) {s s1 : σ} {dn : Arr ℤ}
    (hdn : S.dn ⟨sh, t.bget⟩ ⟨sh, dt.bget⟩ s = .ok (dn, s1))
    (hshape : dn.shape = sh ++ S.vshape ++ [S.paths]) (hne : 0 ∉ S.vshape ++ [S.paths])
    (hy : ∀ i, InRange sh i → ∃ rvs, S.y (t.bget i + dt.bget i / 2) = .ok rvs ∧
      ∀ n j s, ∃ r, rvs n j s = .ok r) :
    ∃ dz ys s', cpoissonCall S t dt s = .ok ((dz, dn, ys), s') := by
  have hdrop : dn.shape.drop sh.length = S.vshape ++ [S.paths] := by
    rw [hshape, List.append_assoc, List.drop_left]
  have htake : dn.shape.take sh.length = sh := by
    rw [hshape, List.append_assoc, List.take_left]
  have hbody : ∀ i ∈ ndindex sh, ∀ s, ∃ r, cpoissonBody S.y (S.vshape ++ [S.paths]) t.bget dt.bget
      (fun i => ⟨dn.shape.drop sh.length, fun j => dn.get (i ++ j)⟩) i s = .ok r := by
    intro i hi s
    obtain ⟨rvs, h1, h2⟩ := hy i (mem_ndindex.1 hi)
    unfold cpoissonBody
    have hmax : ∃ m, arrMax ⟨S.vshape ++ [S.paths], fun j => sgn (dt.bget i) * dn.get (i ++ j)⟩ = .ok m := by
      unfold arrMax
      split
      · next h =>
        exfalso
        have h3 := congrArg List.length h
        rw [List.length_map, ndindex_length] at h3
        simp only [List.length_nil, List.prod_eq_zero_iff] at h3
        exact hne h3
      · exact ⟨_, rfl⟩
    obtain ⟨m, hm⟩ := hmax
    simp only [hdrop, hm, h1]
    exact jumpLoop_ok h2 _ _ _ _ _ rfl
  obtain ⟨⟨r, s2⟩, hr⟩ := loopIdx_ok hbody s1
  exact ⟨_, _, _, by
    simp only [cpoissonCall, broadcast2_eq, hsh, hdn, htake, ne_eq, not_true, if_false, hr]; rfl⟩

end

/-! ### Antithetics -/

section
variable {S T Y σ : Type}

/-- **C22**: an odd number of paths is rejected. For an even number `2 * K` the source has `2 * K` paths;
calls fail exactly when those to the underlying source with `K` paths fail; they return the realisations
of the latter, followed by the same with the transformation applied, path by path. -/
theorem C22_antithetics {make : ℕ → Py S} {pathsOf : S → ℕ}
    {call : S → Arr T → Arr T → σ → Py (Arr Y × σ)} {transform : Y → Y} :
    (∀ K, antithetics make pathsOf call transform (2 * K + 1) = .error .valueError) ∧
    (∀ K src, make K = .ok src → pathsOf src = K →
      ∃ anti, antithetics make pathsOf call transform (2 * K) = .ok (2 * K, anti) ∧
        ∀ t dt s,
          (∀ e, call src t dt s = .error e → anti t dt s = .error e) ∧
          (∀ z s' pre, call src t dt s = .ok (z, s') → z.shape = pre ++ [K] →
            ∃ x, anti t dt s = .ok (x, s') ∧ x.shape = pre ++ [2 * K] ∧
              ∀ v i, i < K → x.get (v ++ [i]) = z.get (v ++ [i]) ∧
                x.get (v ++ [K + i]) = transform (z.get (v ++ [i])))) := by
  constructor
  · intro K
    unfold antithetics
    rw [if_pos (by omega)]
  · intro K src hm hp
    have h2 : 2 * K / 2 = K := by omega
    unfold antithetics
    rw [if_neg (by omega), h2, hm]
    simp only [hp]
    refine ⟨_, rfl, ?_⟩
    intro t dt s
    constructor
    · intro e he
      simp only [he]
    · intro z s' pre hz hsh
      refine ⟨_, by simp only [hz]; rfl, ?_, ?_⟩
      · simp [concatLast, hsh]; omega
      · intro v i hi
        constructor
        · simp [concatLast, hsh, hi]
        · have : ¬ K + i < K := by omega
          simp [concatLast, hsh, this]

/-- Antithetic paths average to zero, if the transformation is a change of sign. -/
theorem antithetic_sum [AddCommGroup Y] {x : Arr Y} {K : ℕ} {v : List ℕ}
    (h : ∀ i, i < K → x.get (v ++ [K + i]) = -x.get (v ++ [i])) :
    ∑ i ∈ Finset.range (2 * K), x.get (v ++ [i]) = 0 := by
  rw [two_mul, Finset.sum_range_add, ← Finset.sum_add_distrib]
  refine Finset.sum_eq_zero ?_
  intro i hi
  rw [h i (Finset.mem_range.1 hi), add_neg_cancel]

/-- **C22**, `odd_wiener_source`: odd numbers of paths are rejected; otherwise the paths in the second half
are the opposite of those in the first half, that are a realisation of a `wiener_source`; across paths, increments sum
exactly to zero. -/
theorem C22_odd_wiener (vshape : List ℕ) (corr rho : RawParam ℝ) (rng : Rng σ) (K : ℕ) :
    antithetics (fun k => wienerNew k vshape corr rho) WienerSrc.paths (fun W => wienerCall W rng)
      (fun z => -z) (2 * K + 1) = .error .valueError ∧
    (∀ e, wienerNew K vshape corr rho = .error e →
      antithetics (fun k => wienerNew k vshape corr rho) WienerSrc.paths (fun W => wienerCall W rng)
        (fun z => -z) (2 * K) = .error e) ∧
    (∀ W, wienerNew K vshape corr rho = .ok W →
      ∃ anti, antithetics (fun k => wienerNew k vshape corr rho) WienerSrc.paths
          (fun W => wienerCall W rng) (fun z => -z) (2 * K) = .ok (2 * K, anti) ∧
        ∀ t dt s,
          (∀ e, wienerCall W rng t dt s = .error e → anti t dt s = .error e) ∧
          (∀ z s', wienerCall W rng t dt s = .ok (z, s') →
            ∃ x sh, anti t dt s = .ok (x, s') ∧ bcShape t.shape dt.shape = some sh ∧
              x.shape = sh ++ vshape ++ [2 * K] ∧ ∀ v,
                (∀ i, i < K → x.get (v ++ [i]) = z.get (v ++ [i]) ∧
                  x.get (v ++ [K + i]) = -x.get (v ++ [i])) ∧
                ∑ i ∈ Finset.range (2 * K), x.get (v ++ [i]) = 0)) := by
  refine ⟨C22_antithetics.1 K, ?_, ?_⟩
  · intro e he
    unfold antithetics
    have h2 : 2 * K / 2 = K := by omega
    rw [if_neg (by omega), h2]
    simp only [he]
  · intro W hW
    have hWp : W.paths = K ∧ W.vshape = vshape := by
      unfold wienerNew at hW
      split at hW
      · cases hW
      · cases hW; exact ⟨rfl, rfl⟩
      · split at hW
        · cases hW
        · split at hW
          · cases hW; exact ⟨rfl, rfl⟩
          · split at hW
            · cases hW
            · cases hW; exact ⟨rfl, rfl⟩
    obtain ⟨anti, h1, h2⟩ := (C22_antithetics (make := fun k => wienerNew k vshape corr rho)
      (pathsOf := WienerSrc.paths) (call := fun W => wienerCall W rng) (transform := fun z => -z)).2
      K W hW hWp.1
    refine ⟨anti, h1, fun t dt s => ⟨(h2 t dt s).1, ?_⟩⟩
    intro z s' hz
    obtain ⟨sh, hsh, hzs, -⟩ := (C21_shape W rng t dt s).1 z s' hz
    rw [hWp.1, hWp.2] at hzs
    obtain ⟨x, hx, hxs, hxv⟩ := (h2 t dt s).2 z s' _ hz hzs
    refine ⟨x, sh, hx, hsh, hxs, fun v => ?_⟩
    have hv : ∀ i, i < K → x.get (v ++ [i]) = z.get (v ++ [i]) ∧
        x.get (v ++ [K + i]) = -x.get (v ++ [i]) := by
      intro i hi
      obtain ⟨a, b⟩ := hxv v i hi
      exact ⟨a, by rw [b, a]⟩
    exact ⟨hv, antithetic_sum fun i hi => (hv i hi).2⟩

/-- **C22**, `even_poisson_source`: odd numbers of paths are rejected; otherwise the paths in the second half are equal to
those in the first half, that are a realisation of a `poisson_source`. -/
theorem C22_even_poisson [Field T] [LinearOrder T] [IsStrictOrderedRing T] (vshape : List ℕ)
    (lam : RawParam T) (draw : (List ℕ → T) → List ℕ → σ → (List ℕ → ℤ) × σ) (K : ℕ) :
    antithetics (fun k => poissonNew k vshape lam) PoissonSrc.paths (fun P => poissonCall P draw)
      (fun z => z) (2 * K + 1) = .error .valueError ∧
    (∀ P, poissonNew K vshape lam = .ok P →
      ∃ anti, antithetics (fun k => poissonNew k vshape lam) PoissonSrc.paths
          (fun P => poissonCall P draw) (fun z => z) (2 * K) = .ok (2 * K, anti) ∧
        ∀ t dt s,
          (∀ e, poissonCall P draw t dt s = .error e → anti t dt s = .error e) ∧
          (∀ z s', poissonCall P draw t dt s = .ok (z, s') →
            ∃ x sh, anti t dt s = .ok (x, s') ∧ bcShape t.shape dt.shape = some sh ∧
              x.shape = sh ++ vshape ++ [2 * K] ∧ ∀ v i, i < K →
                x.get (v ++ [i]) = z.get (v ++ [i]) ∧ x.get (v ++ [K + i]) = x.get (v ++ [i]))) := by
  refine ⟨C22_antithetics.1 K, ?_⟩
  intro P hP
  have hPp : P.paths = K ∧ P.vshape = vshape := by
    unfold poissonNew at hP
    split at hP
    · cases hP; exact ⟨rfl, rfl⟩
    · split at hP
      · cases hP; exact ⟨rfl, rfl⟩
      · cases hP
  obtain ⟨anti, h1, h2⟩ := (C22_antithetics (make := fun k => poissonNew k vshape lam)
    (pathsOf := PoissonSrc.paths) (call := fun P => poissonCall P draw) (transform := fun z => z)).2
    K P hP hPp.1
  refine ⟨anti, h1, fun t dt s => ⟨(h2 t dt s).1, ?_⟩⟩
  intro z s' hz
  obtain ⟨sh, hsh, hzs, -⟩ := C23_draws hz
  rw [hPp.1, hPp.2] at hzs
  obtain ⟨x, hx, hxs, hxv⟩ := (h2 t dt s).2 z s' _ hz hzs
  refine ⟨x, sh, hx, hsh, hxs, fun v i hi => ?_⟩
  obtain ⟨a, b⟩ := hxv v i hi
  exact ⟨a, by rw [b, a]⟩

theorem cpoissonCall_shape [Field T] [LinearOrder T] [CommRing Y] {S : CPoissonSrc T Y σ}
    {t dt : Arr T} {s s' : σ} {dz : Arr Y} {dn : Arr ℤ} {ys : List (YSample Y)}
    (h : cpoissonCall S t dt s = .ok ((dz, dn, ys), s')) :
    ∃ sh, bcShape t.shape dt.shape = some sh ∧ dz.shape = sh ++ S.vshape ++ [S.paths] := by
  unfold cpoissonCall at h
  rw [broadcast2_eq] at h
  cases hsh : bcShape t.shape dt.shape with
  | none => simp [hsh] at h
  | some sh =>
    simp only [hsh] at h
    split at h
    · cases h
    · split at h
      · cases h
      · split at h
        · cases h
        · simp only [Except.ok.injEq, Prod.mk.injEq] at h
          refine ⟨sh, rfl, ?_⟩
          rw [← h.1.1]
          simp [assemble]

/-- **C22**, `even_cpoisson_source`: odd numbers of paths are rejected; otherwise the paths in the second half are equal to
those in the first half, that are a realisation of a `cpoisson_source`. `make` is its constructor. -/
theorem C22_even_cpoisson [Field T] [LinearOrder T] [CommRing Y] (vshape : List ℕ)
    (make : ℕ → Py (CPoissonSrc T Y σ))
    (hmake : ∀ k S, make k = .ok S → S.paths = k ∧ S.vshape = vshape) (K : ℕ) :
    let call : CPoissonSrc T Y σ → Arr T → Arr T → σ → Py (Arr Y × σ) := fun S t dt s =>
      (cpoissonCall S t dt s).map fun r => (r.1.1, r.2)
    antithetics make CPoissonSrc.paths call (fun z => z) (2 * K + 1) = .error .valueError ∧
    (∀ S, make K = .ok S →
      ∃ anti, antithetics make CPoissonSrc.paths call (fun z => z) (2 * K) = .ok (2 * K, anti) ∧
        ∀ t dt s,
          (∀ e, cpoissonCall S t dt s = .error e → anti t dt s = .error e) ∧
          (∀ z dn ys s', cpoissonCall S t dt s = .ok ((z, dn, ys), s') →
            ∃ x sh, anti t dt s = .ok (x, s') ∧ bcShape t.shape dt.shape = some sh ∧
              x.shape = sh ++ vshape ++ [2 * K] ∧ ∀ v i, i < K →
                x.get (v ++ [i]) = z.get (v ++ [i]) ∧ x.get (v ++ [K + i]) = x.get (v ++ [i]))) := by
  intro call
  refine ⟨C22_antithetics.1 K, ?_⟩
  intro P hP
  have hPp := hmake K P hP
  obtain ⟨anti, h1, h2⟩ := (C22_antithetics (make := make)
    (pathsOf := CPoissonSrc.paths) (call := call) (transform := fun z => z)).2
    K P hP hPp.1
  refine ⟨anti, h1, fun t dt s => ⟨fun e he => (h2 t dt s).1 e (by simp only [call, he]; rfl), ?_⟩⟩
  intro z dn ys s' hz
  obtain ⟨sh, hsh, hzs⟩ := cpoissonCall_shape hz
  rw [hPp.1, hPp.2] at hzs
  obtain ⟨x, hx, hxs, hxv⟩ := (h2 t dt s).2 z s' _ (by simp only [call, hz]; rfl) hzs
  refine ⟨x, sh, hx, hsh, hxs, fun v i hi => ?_⟩
  obtain ⟨a, b⟩ := hxv v i hi
  exact ⟨a, by rw [b, a]⟩

end

/-- `C22_odd_wiener` and `C22_even_poisson` apply: two pairs of antithetic paths. -/
example : ∃ W, wienerNew 2 [3] .none .none = .ok W ∧ ∃ z s',
    wienerCall W (⟨fun _ s => (fun i => i.getLastD 0, s), fun _ _ _ s => (fun _ _ => 0, s)⟩ : Rng Unit)
      (.scalar 0) (.scalar 1) () = .ok (z, s') ∧ z.get [0, 1] = 1 := by
  refine ⟨_, rfl, _, _, rfl, ?_⟩
  simp [Arr.scalar]

example : ∃ P, poissonNew 2 [3] (.arr (.scalar (1 : ℚ))) = .ok P ∧
    (poissonCall P (fun _ _ s => (fun i => i.getLastD 0, s)) (.scalar 0) (.scalar (-1)) ()).map
      (fun r => r.1.get [0, 1]) = .ok (-1) := by
  refine ⟨_, rfl, ?_⟩
  decide +kernel

/-! ### An underlying source of a smaller shape -/

/-- **C24** fails for an underlying source of a shape that can be broadcast to the shape of values,
as accepted by `_check_source` (`C57_source_setup`): here `vshape = (2,)`, two paths, and `dn` has
no values shape. There is a single jump, in the first path: both components of the first path should
jump, instead the first component jumps in both paths, and the second in none. -/
theorem C24_false :
    let S : CPoissonSrc ℚ ℚ Unit := ⟨2, [2], fun _ _ s => .ok (⟨[2], fun i => if i = [0] then 1 else 0⟩, s),
      fun _ => .ok fun _ _ s => .ok (fun _ _ => 7, s)⟩
    BcOk ([] : List ℕ) S.vshape ∧
    ∃ dz dn ys, cpoissonCall S (.scalar 0) (.scalar 1) () = .ok ((dz, dn, ys), ()) ∧
      dn.shape = [2] ∧ dz.shape = [2, 2] ∧
      dn.get [1] = 0 ∧ dz.get [0, 1] = 7 ∧ dn.get [0] = 1 ∧ dz.get [1, 0] = 0 := by
  refine ⟨by decide, _, _, _, rfl, rfl, rfl, ?_, ?_, ?_, ?_⟩ <;> decide +kernel

/-- With three components instead of two, the mask does not fit, and an `IndexError` is raised. -/
theorem C24_false_error :
    let S : CPoissonSrc ℚ ℚ Unit := ⟨2, [3], fun _ _ s => .ok (⟨[2], fun i => if i = [0] then 1 else 0⟩, s),
      fun _ => .ok fun _ _ s => .ok (fun _ _ => 7, s)⟩
    BcOk ([] : List ℕ) S.vshape ∧
    cpoissonCall S (.scalar 0) (.scalar 1) () = .error .indexError := by
  refine ⟨by decide, ?_⟩
  rfl

/-- All the hypotheses of `C24_jumps_partial`, `C24_default` and `C24_ok` hold together: a step forwards and a
step backwards, three paths, variates that are numbered in the order they are drawn. -/
example :
    let draw : (List ℕ → ℚ) → List ℕ → ℕ → (List ℕ → ℤ) × ℕ :=
      fun _ _ s => (fun j => if j.headD 0 = 1 then 0 else 2, s)
    let S : CPoissonSrc ℚ ℚ ℕ := ⟨3, [], poissonCall ⟨3, [], .arr (.scalar 1)⟩ draw,
      fun _ => .ok fun n j s => .ok (fun r k => s + j * r + k, s + n * j)⟩
    (cpoissonCall S ⟨[2], fun i => i.headD 0⟩ ⟨[2], fun i => 1 - 2 * i.headD 0⟩ 1).map
      (fun r => ((ndindex [2, 3]).map r.1.1.get, (ndindex [2, 3]).map r.1.2.1.get, r.2)) =
    .ok ([1 + 2, 0, 3 + 4, -(5 + 6), 0, -(7 + 8)], [2, 0, 2, -2, 0, -2], 9) := by
  decide +kernel

end Sdepy
