import Verif.Props.MonteCarlo

/-!
# Failed updates of `montecarlo` instances
-/

set_option linter.unusedSectionVars false

namespace Sdepy

open Spec

theorem bcOkRev_length {s t : List ℕ} (h : bcOkRev s t) : s.length ≤ t.length := by
  induction s generalizing t with
  | nil => simp
  | cons a s ih =>
    cases t with
    | nil => exact h.elim
    | cons b t => simpa using ih h.2

theorem bcOkRev_trans {s t u : List ℕ} (h : bcOkRev s t) (h' : bcOkRev t u) : bcOkRev s u := by
  induction s generalizing t u with
  | nil => trivial
  | cons a s ih =>
    cases t with
    | nil => exact h.elim
    | cons b t =>
      cases u with
      | nil => exact h'.elim
      | cons c u =>
        refine ⟨?_, ih h.2 h'.2⟩
        rcases h.1 with h1 | h1
        · exact .inl h1
        · rcases h'.1 with h2 | h2
          · exact .inl (h1.trans h2)
          · exact .inr (h1.trans h2)

theorem bcOkRev_antisymm {s t : List ℕ} (h : bcOkRev s t) (h' : bcOkRev t s) : s = t := by
  induction s generalizing t with
  | nil =>
    cases t with
    | nil => rfl
    | cons b t => exact h'.elim
  | cons a s ih =>
    cases t with
    | nil => exact h.elim
    | cons b t =>
      rw [ih h.2 h'.2]
      rcases h.1 with h1 | h1
      · rcases h'.1 with h2 | h2
        · rw [h1, h2]
        · rw [h2]
      · rw [h1]

theorem bc2Rev_length {s t u : List ℕ} (h : bc2Rev s t = some u) : u.length = max s.length t.length := by
  induction s generalizing t u with
  | nil => simp [bc2Rev] at h; subst h; simp
  | cons a s ih =>
    cases t with
    | nil => simp [bc2Rev] at h; subst h; simp
    | cons b t =>
      simp only [bc2Rev] at h
      split at h
      · simp only [Option.map_eq_some_iff] at h
        obtain ⟨v, hv, rfl⟩ := h
        simp [ih hv]
      · split at h
        · simp only [Option.map_eq_some_iff] at h
          obtain ⟨v, hv, rfl⟩ := h
          simp [ih hv]
        · cases h

theorem bcShape_length {s t u : List ℕ} (h : bcShape s t = some u) :
    u.length = max s.length t.length := by
  simp only [bcShape, Option.map_eq_some_iff] at h
  obtain ⟨v, hv, rfl⟩ := h
  simpa using bc2Rev_length hv

section
variable {K : Type} [Field K] [LinearOrder K] [IsStrictOrderedRing K]
  {auto : String → Option (K × K) → List K → Py (List K)}

theorem assignTo_bc {a r : Arr K} {d : List ℕ} (hl : a.shape.length ≤ d.length)
    (h : a.assignTo d = .ok r) : BcOk a.shape d := by
  simp only [Arr.assignTo, stripOnes_short hl, Arr.broadcastTo] at h
  split at h
  · assumption
  · cases h

theorem stripOnes_spec (n : ℕ) (s : List ℕ) : ∃ k, s = List.replicate k 1 ++ stripOnes n s ∧
    min n s.length ≤ (stripOnes n s).length := by
  induction s with
  | nil => exact ⟨0, by simp [stripOnes]⟩
  | cons a s ih =>
    simp only [stripOnes]
    split_ifs with h
    · obtain ⟨k, h1, h2⟩ := ih
      refine ⟨k + 1, ?_, ?_⟩
      · rw [List.replicate_succ, List.cons_append, ← h1, h.1]
      · rw [List.length_cons]; omega
    · exact ⟨0, by simp, by simp⟩

/-- What can be assigned to an array of a given shape: arrays that can be broadcast to it, or that differ
from one of these by leading axes of size one. -/
theorem assignTo_strip {a r : Arr K} {d : List ℕ} (hl : d.length ≤ a.shape.length)
    (h : a.assignTo d = .ok r) : ∃ s, a.shape = List.replicate (a.shape.length - d.length) 1 ++ s ∧
      s.length = d.length ∧ BcOk s d := by
  obtain ⟨k, h1, h2⟩ := stripOnes_spec d.length a.shape
  simp only [Arr.assignTo, Arr.broadcastTo] at h
  split at h
  · next hb =>
    have hle := bcOkRev_length hb
    simp only [List.length_reverse] at hle
    rw [min_eq_left hl] at h2
    have hlen : (stripOnes d.length a.shape).length = d.length := le_antisymm hle h2
    refine ⟨_, ?_, hlen, hb⟩
    have h3 := congrArg List.length h1
    simp only [List.length_append, List.length_replicate, hlen] at h3
    have : a.shape.length - d.length = k := by omega
    rw [this]
    exact h1
  · cases h

theorem bcOkRev_split {s t a b : List ℕ} (h : bcOkRev (s ++ a) (t ++ b)) (hl : s.length = t.length) :
    bcOkRev s t ∧ bcOkRev a b := by
  induction s generalizing t with
  | nil =>
    cases t with
    | nil => exact ⟨trivial, h⟩
    | cons c t => cases hl
  | cons x s ih =>
    cases t with
    | nil => cases hl
    | cons c t =>
      obtain ⟨h1, h2⟩ := h
      obtain ⟨i1, i2⟩ := ih h2 (by simpa using hl)
      exact ⟨⟨h1, i1⟩, i2⟩

theorem bcOkRev_ones {s : List ℕ} {k : ℕ} (h : bcOkRev s (List.replicate k 1)) (hl : s.length = k) :
    s = List.replicate k 1 := by
  induction s generalizing k with
  | nil => subst hl; rfl
  | cons a s ih =>
    subst hl
    obtain ⟨h1, h2⟩ := h
    rw [List.length_cons, List.replicate_succ, ← ih h2 rfl]
    rcases h1 with h1 | h1 <;> rw [h1]

/-- Shapes that are broadcast to one with leading ones. -/
theorem bcOk_ones {s u t : List ℕ} {k : ℕ} (h : BcOk s u) (hu : u = List.replicate k 1 ++ t)
    (hl : s.length = u.length) : ∃ s', s = List.replicate k 1 ++ s' ∧ s'.length = t.length ∧ BcOk s' t := by
  have hk : k ≤ s.length := by rw [hl, hu]; simp
  have e : s.reverse = (s.drop k).reverse ++ (s.take k).reverse := by
    rw [← List.reverse_append, List.take_append_drop]
  have hlen : (s.drop k).length = t.length := by rw [List.length_drop, hl, hu]; simp
  unfold BcOk at h
  rw [hu, e, List.reverse_append, List.reverse_replicate] at h
  obtain ⟨h1, h2⟩ := bcOkRev_split h (by simpa using hlen)
  have h3 := bcOkRev_ones h2 (by simp [hk])
  refine ⟨s.drop k, ?_, hlen, h1⟩
  conv_lhs => rw [← List.take_append_drop k s]
  congr 1
  have := congrArg List.reverse h3
  simpa using this

/-- One shape has more leading axes of size one than the other, and they are otherwise equal. -/
def Spec.ExcessOnes (s t : List ℕ) : Prop :=
  ∃ n, 0 < n ∧ (s = List.replicate n 1 ++ t ∨ t = List.replicate n 1 ++ s)

/-- Moments can be cumulated only if shapes agree, but for leading axes of size one. -/
theorem updateMoments_shape {N M : ℕ} (hN : N ≠ 0) {vs vs' : List ℕ} {P : List ℕ → List K}
    {st st' : Moments K} (hst : MomOk vs N P st) {x : Arr K} (hx : x.shape = vs' ++ [M])
    (h : updateMoments N (some st) x = .ok st') : vs' = vs ∨ ExcessOnes vs' vs := by
  unfold updateMoments at h
  simp only [if_neg hN, broadcast2_eq] at h
  have hc : st.center.newaxisLast.shape = vs ++ [1] := by simp [Arr.newaxisLast, hst.center_shape]
  rw [hc, hx] at h
  cases hb : bcShape (vs' ++ [M]) (vs ++ [1]) with
  | none => simp only [hb] at h; cases h
  | some u =>
    simp only [hb] at h
    have hul := bcShape_length hb
    simp only [List.length_append, List.length_singleton] at hul
    split at h
    · cases h
    · next s0 hs0 =>
      have h2 : BcOk (vs ++ [1]) u := (bcShape_ok hb).2
      split at h
      · cases h
      · next mom hmom =>
        have hne := hst.len
        have hsh := hst.shapes
        cases hm : st.mom with
        | nil => rw [hm] at hne; cases hne
        | cons m ms =>
          have hm0 := hsh m (by rw [hm]; simp)
          rw [hm] at hmom
          simp only [List.range_succ_eq_map, List.map_cons, List.zip_cons_cons, cumulateAll] at hmom
          split at hmom
          · cases hmom
          · next a ha =>
            simp only [cumulate, broadcast2_eq] at ha
            have hms : (Arr.meanLast (⟨vs' ++ [M], fun i => s0.get i ^ (0 + 1)⟩ : Arr K)).shape = vs' := by
              simp [Arr.meanLast]
            rw [hms, hm0] at ha
            cases hb' : bcShape vs vs' with
            | none => rw [hb'] at ha; cases ha
            | some w =>
              rw [hb'] at ha
              simp only at ha
              have hwl := bcShape_length hb'
              have h4 : BcOk vs' w := (bcShape_ok hb').2
              rcases le_total vs.length vs'.length with hl | hl
              · have h1 : BcOk u (vs' ++ [M]) :=
                  assignTo_bc (a := ⟨u, _⟩) (by simp [hul]; omega) hs0
                have h12 : bcOkRev vs.reverse vs'.reverse := by
                  have := bcOkRev_trans h2 h1
                  simp only [List.reverse_append, List.reverse_singleton, List.singleton_append] at this
                  exact this.2
                rw [max_eq_right hl] at hwl
                obtain ⟨s, hs1, hs2, hs3⟩ := assignTo_strip (a := ⟨w, _⟩) (d := vs)
                  (by simp only; omega) ha
                simp only at hs1
                obtain ⟨v, hv1, hv2, hv3⟩ := bcOk_ones h4 hs1 hwl.symm
                have hv : v = vs := by
                  have e : vs'.reverse = v.reverse ++ List.replicate (w.length - vs.length) 1 := by
                    rw [hv1]; simp
                  rw [e] at h12
                  have h12' : bcOkRev (vs.reverse ++ []) (v.reverse ++
                    List.replicate (w.length - vs.length) 1) := by simpa using h12
                  obtain ⟨q, -⟩ := bcOkRev_split h12' (by simp [hv2, hs2])
                  exact List.reverse_injective (bcOkRev_antisymm (bcOkRev_trans hv3 hs3) q)
                rw [hv] at hv1
                rcases Nat.eq_zero_or_pos (w.length - vs.length) with h0 | h0
                · left
                  rw [hv1, h0]; simp
                · exact .inr ⟨_, h0, .inl hv1⟩
              · have h3 : BcOk w vs := assignTo_bc (a := ⟨w, _⟩) (by simp [hwl]; omega) ha
                have h14 : BcOk vs' vs := bcOkRev_trans h4 h3
                obtain ⟨s, hs1, hs2, hs3⟩ := assignTo_strip (a := ⟨u, _⟩) (d := vs' ++ [M])
                  (by simp [hul]) hs0
                simp only [List.length_append, List.length_singleton] at hs1 hs2
                obtain ⟨v, hv1, hv2, hv3⟩ := bcOk_ones h2 hs1 (by
                  simp only [List.length_append, List.length_singleton]; omega)
                have hv0 : v ≠ [] := by
                  rintro rfl
                  rw [hs2] at hv2
                  simp at hv2
                obtain ⟨v', x1, rfl⟩ : ∃ v' x1, v = v' ++ [x1] :=
                  ⟨_, _, (List.dropLast_append_getLast hv0).symm⟩
                rw [← List.append_assoc] at hv1
                obtain ⟨hv1, -⟩ := List.append_inj' hv1 rfl
                have hv : v' = vs' := by
                  have q1 := bcOkRev_trans hv3 hs3
                  simp only [List.reverse_append, List.reverse_singleton, List.singleton_append] at q1
                  have q2 := h14
                  unfold BcOk at q2
                  rw [hv1, List.reverse_append] at q2
                  have q2' : bcOkRev (vs'.reverse ++ []) (v'.reverse ++
                    (List.replicate (u.length - (vs'.length + 1)) 1).reverse) := by simpa using q2
                  have hvl : v'.length = vs'.length := by
                    rw [hs2] at hv2; simpa using hv2
                  obtain ⟨q, -⟩ := bcOkRev_split q2' (by simp [hvl])
                  exact List.reverse_injective (bcOkRev_antisymm q1.2 q)
                rw [hv] at hv1
                rcases Nat.eq_zero_or_pos (u.length - (vs'.length + 1)) with h0 | h0
                · left
                  rw [hv1, h0]; simp
                · exact .inr ⟨_, h0, .inr hv1⟩

/-- **C41**, for samples the data points of which do not differ, from those already cumulated, just for
leading axes of size one. If `update` raises, nothing has changed; and it raises, if the shape of data
points is not that of those already cumulated. -/
theorem C41_unchanged_partial (ha : AutoOk auto) {bins : Bins K} {range : Option (K × K)} {use : String}
    {vs : List ℕ} {b0 b : Batch K} {l : List (Batch K)} {mc : MC K}
    (h : McHistory auto bins range use (b0 :: l) mc) (hu : Uniform vs (b0 :: l)) (hp : mc.paths ≠ 0)
    (hl : ¬ ExcessOnes b.vshape vs) :
    (∀ {mc' e}, mc.update auto b.x b.axis = (mc', .error e) → mc' = mc) ∧
    (b.vshape ≠ vs → ∃ e, mc.update auto b.x b.axis = (mc, .error e)) := by
  have hi := mc_inv ha h hu
  cases hpr : mcPrepare mc.use b.x b.axis with
  | error e' =>
    simp only [MC.update, hpr, Prod.mk.injEq]
    exact ⟨fun he => he.1.symm, fun _ => ⟨_, trivial, rfl⟩⟩
  | ok x =>
    rw [hi.use_eq] at hpr
    obtain ⟨-, hx, -⟩ := prepare_ok hpr
    obtain ⟨st, hst, -, hm⟩ := hi.stats
    cases hup : updateMoments mc.paths mc.stats x with
    | error e' =>
      simp only [MC.update, hi.use_eq, hpr, hup, Prod.mk.injEq]
      exact ⟨fun he => he.1.symm, fun _ => ⟨_, trivial, rfl⟩⟩
    | ok st' =>
      rw [hst] at hup
      have hv := (updateMoments_shape hp hm hx hup).resolve_right hl
      obtain ⟨mc'', h1, -⟩ := mc_next ha hi hv hpr
      refine ⟨fun he => ?_, fun hne => absurd hv hne⟩
      rw [h1] at he
      cases he

/-- **C41**, for new instances with `bins` a positive number, or `None`, and `range` absent or in
order. If the first `update` raises, nothing has changed. -/
theorem C41_first_partial (ha : AutoOk auto) {bins : Bins K} {range : Option (K × K)} {use : String}
    (hb : bins = .none ∨ ∃ n : ℤ, 1 ≤ n ∧ bins = .int n) (hr : ∀ r, range = some r → r.1 ≤ r.2)
    {b : Batch K} {mc' : MC K} {e : PyErr}
    (he : (MC.new bins range use).update auto b.x b.axis = (mc', .error e)) :
    mc' = MC.new bins range use := by
  cases hpr : mcPrepare (MC.new bins range use).use b.x b.axis with
  | error e' =>
    simp only [MC.update, hpr, Prod.mk.injEq] at he
    exact he.1.symm
  | ok x =>
    obtain ⟨mc'', h1⟩ := accepts_prepared ha hb hr hpr
    rw [h1] at he
    cases he

end

section examples

/-- A sample of a shape that does not fit: `(3,)`, instead of `(2,)`. -/
example : (exMC2.update noAuto (arrOf [3, 1] [1, 2, 3]) (-1)).2.toOption = none ∧
    (exMC2.update noAuto (arrOf [3, 1] [1, 2, 3]) (-1)).1.paths = 5 := by decide +kernel

theorem noExcess3 {s t : List ℕ} (h : s.length = t.length) : ¬ ExcessOnes s t := by
  rintro ⟨n, hn, h' | h'⟩ <;> replace h' := congrArg List.length h' <;>
    simp only [List.length_append, List.length_replicate] at h' <;> omega

theorem noExcess {s t : List ℕ} (h : s.headD 2 ≠ 1) (h' : t.headD 2 ≠ 1) : ¬ ExcessOnes s t := by
  rintro ⟨n, hn, e | e⟩ <;> obtain ⟨n, rfl⟩ : ∃ k, n = k + 1 := ⟨n - 1, by omega⟩
  · rw [e] at h; simp [List.replicate_succ] at h
  · rw [e] at h'; simp [List.replicate_succ] at h'

theorem update_err {mc : MC ℚ} {x : Arr ℚ} {axis : ℤ} (h : (mc.update noAuto x axis).2.isOk = false) :
    ∃ e, mc.update noAuto x axis = ((mc.update noAuto x axis).1, .error e) := by
  generalize mc.update noAuto x axis = r at h ⊢
  obtain ⟨m, e | u⟩ := r
  · exact ⟨e, rfl⟩
  · cases h

example : (exMC2.update noAuto (arrOf [3, 1] [1, 2, 3]) (-1)).1 = exMC2 := by
  obtain ⟨e, he⟩ := update_err (mc := exMC2) (x := arrOf [3, 1] [1, 2, 3]) (axis := -1)
    (by decide +kernel)
  exact (C41_unchanged_partial noAuto_ok exMC_history exMC_uniform (by decide +kernel)
    (b := ⟨arrOf [3, 1] [1, 2, 3], -1⟩) (noExcess3 (by decide))).1 he

/-- A sample with more axes than those cumulated, or with less, does not fit either. -/
example : ∃ e, exMC2.update noAuto (arrOf [3, 2, 1] [1, 2, 3, 4, 5, 6]) (-1) = (exMC2, .error e) :=
  (C41_unchanged_partial noAuto_ok exMC_history exMC_uniform (by decide +kernel)
    (b := ⟨arrOf [3, 2, 1] [1, 2, 3, 4, 5, 6], -1⟩) (noExcess (by decide) (by decide))).2 (by decide)

example : ∃ e, exMC2.update noAuto (arrOf [4] [1, 2, 3, 4]) (-1) = (exMC2, .error e) :=
  (C41_unchanged_partial noAuto_ok exMC_history exMC_uniform (by decide +kernel)
    (b := ⟨arrOf [4] [1, 2, 3, 4], -1⟩) (noExcess (by decide) (by decide))).2 (by decide)

example : ((MC.new (.int 2) none "odd").update noAuto (arrOf [3] [1, 2, 3]) 0).1 =
    MC.new (.int 2) none "odd" := by
  obtain ⟨e, he⟩ := update_err (mc := MC.new (.int 2) none "odd") (x := arrOf [3] [1, 2, 3])
    (axis := 0) (by decide +kernel)
  exact C41_first_partial noAuto_ok (.inr ⟨2, by decide, rfl⟩) (by simp)
    (b := ⟨arrOf [3] [1, 2, 3], 0⟩) he

/-- **C41** does not hold if dimensions are in excess: after a data point of shape `(3,)`, a sample of
shape `(1, 3, 1)` raises `IndexError`, but statistics and part of the histograms have been changed; the
number of paths has not. The following update raises `RuntimeError`, although it repeats the first one. -/
theorem C41_false :
    let a := (MC.new (.int 1) none "all").update noAuto (arrOf [3, 1] [0, 1, 2]) (-1)
    let b := a.1.update noAuto (arrOf [1, 3, 1] [8, 8, 8]) (-1)
    let c := b.1.update noAuto (arrOf [3, 1] [0, 1, 2]) (-1)
    a.2.isOk = true ∧ b.2 = .error .indexError ∧ c.2 = .error .runtimeError ∧
    (a.1.paths, b.1.paths) = (1, 1) ∧
    a.1.mean.map (fun a => a.get [0]) = some (some 0) ∧
    b.1.mean.map (fun a => a.get [0]) = some (some 4) ∧
    (a.1.outside [0], b.1.outside [0]) = (0, 1) := by decide +kernel

/-- **C41** does not hold if dimensions are missing either: after a sample of shape `(1, 2)`, a sample of
shape `(4,)`, the values of which are within the bins, is accepted; the mean takes it into account, but only
one of its four values is counted in the histogram, and three of them as outside of the bins. -/
theorem C41_missing_false :
    let a := (MC.new (.int 1) none "all").update noAuto (arrOf [1, 2] [0, 1]) (-1)
    let b := a.1.update noAuto (arrOf [4] [1 / 2, 1 / 2, 1 / 2, 1]) (-1)
    let c := a.1.update noAuto (arrOf [1, 4] [1 / 2, 1 / 2, 1 / 2, 1]) (-1)
    a.2.isOk = true ∧ b.2.isOk = true ∧ c.2.isOk = true ∧
    (b.1.paths, c.1.paths) = (6, 6) ∧
    b.1.mean.map (fun a => a.get [0]) = c.1.mean.map (fun a => a.get [0]) ∧
    (b.1.counts [0], b.1.outside [0]) = ([3], 3) ∧
    (c.1.counts [0], c.1.outside [0]) = ([6], 0) := by decide +kernel

/-- **C41** does not hold for the first update, if the shape of bins is wrong: `ValueError` is raised, as
it should, but the given bins are lost. After that, samples that fit those bins raise `ValueError`, and
those of the shape of the former one `TypeError`. -/
theorem C41_first_false :
    let mc : MC ℚ := MC.new (.array (arrOf [2, 2] [0, 1, 0, 1])) none "all"
    let a := mc.update noAuto (arrOf [3, 1] [0, 1, 2]) (-1)
    let b := a.1.update noAuto (arrOf [2, 1] [0, 1]) (-1)
    (mc.update noAuto (arrOf [2, 1] [0, 1]) (-1)).2.isOk = true ∧
    a.2 = .error .valueError ∧ b.2 = .error .valueError ∧
    (a.1.update noAuto (arrOf [3, 1] [0, 1, 2]) (-1)).2 = .error .typeError := by decide +kernel

end examples

end Sdepy
