import Verif.Props.TrueCPoisson
import Verif.Model.SourceSize
import Mathlib.Algebra.BigOperators.Group.List.Basic

/-!
# Property C100: how much sources with memory store
-/

set_option linter.unusedSectionVars false
set_option linter.unusedSimpArgs false

namespace Sdepy

open Spec

section
variable {T Z V σ : Type} [Field T] [LinearOrder T] [IsStrictOrderedRing T]

theorem size_arr {shape : List ℕ} {m : Mem T Z σ} (hk : WellKept m) :
    m.size (arrSize shape) = shape.prod * m.t.length := by
  have : m.z.map (arrSize shape) = List.replicate m.z.length shape.prod :=
    List.map_const'
  rw [Mem.size, this, List.sum_replicate, hk.2.1, smul_eq_mul, Nat.mul_comm]

/-- **C100** (Wiener and Poisson sources). After any history, `size` is the number of cells times the
number of stored times, and an evaluation makes it larger by at most the number of cells for each time
evaluated, twice as much for `dz(t, dt)`; it never makes it smaller. -/
theorem C100_size [Sub V] {S : TrueSrc T Z V σ} {flat : V → V → Prop} (hL : Lawful S flat)
    (hr : 0 ≤ S.rtol) {shape : List ℕ} {t0 : T} {z0 : Z} {s0 : σ} {D : T → Prop}
    {m : Mem T Z σ} {l : List (SrcEvent T V)} (h : SrcHistory S D (Mem.new t0 z0 s0) l m) :
    m.size (arrSize shape) = shape.prod * m.times.length ∧ t0 ∈ m.times ∧
      m.times.Pairwise (· < ·) ∧
      ∀ {t dt vs m'}, S.call t dt m = .ok (vs, m') →
        m.size (arrSize shape) ≤ m'.size (arrSize shape) ∧
        m'.size (arrSize shape) ≤ m.size (arrSize shape) +
          shape.prod * (if dt = none then t.length else 2 * t.length) := by
  obtain ⟨hk, h0⟩ := C27_bookkeeping hL hr h
  refine ⟨size_arr hk, h0, hk.1, fun {t dt vs m'} hc => ?_⟩
  obtain ⟨hk', g1, -, g2⟩ := C27_call hL hr hk hc
  rw [size_arr hk, size_arr hk', ← Nat.mul_add]
  refine ⟨Nat.mul_le_mul_left _ ?_, Nat.mul_le_mul_left _ g2⟩
  have hnd : m.t.Nodup := hk.1.imp fun {a b} (hab : a < b) => hab.ne
  exact (hnd.subperm fun u hu => g1 u hu).length_le

/-- **C100** (values already known). After any history, evaluating again at times already evaluated
changes neither `size` nor `t`. -/
theorem C100_repeat [Sub V] {S : TrueSrc T Z V σ} {flat : V → V → Prop} (hL : Lawful S flat)
    (hq : ∀ z1 z2 t1 t2 s st, flat (S.getvalue z1) (S.getvalue z2) →
      S.inside z1 z2 t1 t2 s st = .ok ((z1, none), st))
    (hr : 0 ≤ S.rtol) (hr1 : S.rtol < 1) {t0 : T} {z0 : Z} {s0 : σ} {D : T → Prop}
    (hD : ∀ s, D s → Clear S.rtol t0 s) (getsize : Z → ℕ) {m : Mem T Z σ}
    {l : List (SrcEvent T V)}
    (h : SrcHistory S D (Mem.new t0 z0 s0) l m) {t : List T} {v : List V} (he : .value t v ∈ l)
    {v' : List V} {m' : Mem T Z σ} (hc : S.call t none m = .ok (v', m')) :
    m'.size getsize = m.size getsize ∧ m'.times = m.times := by
  rw [C25_repeat_partial hL hq hr hr1 hD h he] at hc
  cases hc
  exact ⟨rfl, rfl⟩

end

section stores
variable {Y : Type} [CommRing Y] [DecidableEq Y] {shape : List ℕ}

/-- The variates stored are as many as the jumps. -/
theorem stores_size {d : Pos shape → ℤ} {R : Pos shape → List Y} {ys : List (YSample Y)}
    (h : Stores d R ys) : (ysSize ys : ℤ) = ∑ c, d c := by
  have hpos : ∀ c, 0 ≤ d c := fun c => by rw [← h.len c]; positivity
  have hn : ∀ y ∈ ys, y.n = (Finset.univ.filter fun c => d c = y.j).card := by
    intro y hy
    obtain ⟨cells, h1, h2, h3, -⟩ := h.rows y hy
    rw [← h3]
    have hnd : cells.Nodup := by
      have : (cells.map fun c => c.1).Nodup := h1.imp fun {a b} hab e => by
        subst e
        exact List.lex_irrefl (fun x => lt_irrefl x) _ hab
      exact this.of_map
    rw [← List.toFinset_card_of_nodup hnd]
    congr 1
    ext c
    simp [h2]
  have hnd : (ys.map (·.j)).Nodup := h.sorted.imp fun h => h.ne
  have e1 : (ysSize ys : ℤ) =
      ((ys.map (·.j)).map fun i : ℕ => ((Finset.univ.filter fun c => d c = i).card : ℤ) * i).sum := by
    unfold ysSize
    rw [List.map_map, Nat.cast_list_sum, List.map_map]
    congr 1
    apply List.map_congr_left
    intro y hy
    simp [hn y hy]
  rw [e1, ← List.sum_toFinset _ hnd]
  have e2 : ∀ i : ℕ, ((Finset.univ.filter fun c => d c = i).card : ℤ) * i =
      ∑ c, if d c = i then d c else 0 := by
    intro i
    rw [← Finset.sum_filter, Finset.sum_congr rfl (g := fun _ => (i : ℤ))]
    · simp
    · intro c hc
      exact (Finset.mem_filter.1 hc).2
  rw [Finset.sum_congr rfl fun i _ => e2 i, Finset.sum_comm]
  refine Finset.sum_congr rfl fun c _ => ?_
  by_cases h0 : d c = 0
  · simp [h0]
  · have : (d c).toNat ∈ (ys.map (·.j)).toFinset := by
      rw [List.mem_toFinset, h.mem]
      have := hpos c
      exact ⟨by omega, c, by omega⟩
    rw [Finset.sum_eq_single (d c).toNat]
    · rw [if_pos (by have := hpos c; omega)]
    · intro i _ hi
      rw [if_neg (fun e => hi (by omega))]
    · exact fun hh => absurd this hh

end stores

section jumps
variable {T Y σ : Type} [Field T] [LinearOrder T] [IsStrictOrderedRing T] [CommRing Y] [DecidableEq Y]
  {paths : ℕ} {vshape : List ℕ}
variable {rN : T} {dn0 : T → T → σ → Py ((Pos (vshape ++ [paths]) → ℤ) × σ)}
  {bin : (Pos (vshape ++ [paths]) → ℤ) → T → σ → (Pos (vshape ++ [paths]) → ℤ) × σ}

/-- No variates are stored with the last time. -/
theorem jump_last {rtol : T} (hrt : 0 ≤ rtol) {y : T → Py (Rvs Y σ)} {D : T → Prop} {t0 tn : T}
    {z0 : Pos (vshape ++ [paths]) → Y} {n0 : Pos (vshape ++ [paths]) → ℤ} {s0 : σ}
    {m : Mem T (JumpZ Y (vshape ++ [paths])) (Mem T (Pos (vshape ++ [paths]) → ℤ) σ)}
    (h : JumpHistory paths vshape rtol (truePoisson rN dn0 bin) y D
      (Mem.new t0 (z0, none) (Mem.new tn n0 s0)) m) :
    WellKept m ∧ ∀ p ∈ m.zip.getLast?, p.2.2 = none := by
  induction h with
  | start => exact ⟨(memOk_new t0 _ _).1, by simp [Mem.zip, Mem.new]⟩
  | eval _ hs he ih =>
    obtain ⟨ihk, ih⟩ := ih
    refine ⟨(get1_book (lawful_cpoisson rtol (truePoisson rN dn0 bin) y) hrt ihk he).1, ?_⟩
    rcases get1_shape hrt ihk he with rfl | ⟨A, t, z, z', znew, st, hz, hts, ho, hz', hst, -⟩ |
      ⟨B, t, z, z', znew, st, hz, hts, ho, hz', hst, -⟩ |
      ⟨A, B, t1, z1, t2, z2, z1', r, st, hz, h1, h2, ho, hst, hcase⟩
    · exact ih
    · rw [hz']
      simp only [trueCPoisson, jumpOutside] at ho
      split at ho
      · cases ho
      · rw [if_pos hts] at ho
        cases ho
        simp
    · rw [hz] at ih
      rw [hz']
      simp only [trueCPoisson, jumpOutside] at ho
      split at ho
      · cases ho
      · rw [if_neg hts.not_gt] at ho
        cases ho
        rw [List.getLast?_cons_cons]
        exact ih
    · rw [hz] at ih
      rcases hcase with ⟨-, hz', -⟩ | ⟨znew, -, hz', -⟩ <;> rw [hz'] <;>
        simpa [List.getLast?_append, List.getLast?_cons_cons] using ih
  | evalDn _ _ _ ih => exact ih
  | other _ _ ih => exact ih

theorem zip_snd {Z σ' : Type} {m : Mem T Z σ'} (hk : WellKept m) : m.zip.map Prod.snd = m.z := by
  unfold Mem.zip
  exact List.map_snd_zip hk.2.1.le

/-- Sizes add up along a chain of stored times. -/
theorem chain_size {K : T → (Pos (vshape ++ [paths]) → ℤ) → Prop}
    (hK : ∀ t v v', K t v → K t v' → v = v') :
    ∀ (l : List (T × JumpZ Y (vshape ++ [paths]))) (p : T × JumpZ Y (vshape ++ [paths])),
      (p :: l).IsChain (LinkR K) → (∀ q ∈ (p :: l).getLast?, q.2.2 = none) →
      (l = [] ∧ (((p :: l).map fun q => jumpSize _ q.2).sum = (vshape ++ [paths]).prod)) ∨
      ∃ q n1 n2, (p :: l).getLast? = some q ∧ l ≠ [] ∧ K p.1 n1 ∧ K q.1 n2 ∧
        ((((p :: l).map fun q => jumpSize _ q.2).sum : ℕ) : ℤ) =
          (vshape ++ [paths]).prod * (l.length + 1) + ∑ c, (n2 c - n1 c)
  | [], p, _, hl => by
    left
    have := hl p rfl
    simp [jumpSize, this]
  | q :: l, p, hc, hl => by
    right
    rw [List.isChain_cons_cons] at hc
    obtain ⟨⟨n1, n2, R, k1, k2, ⟨⟨ys, hys, hst⟩, -⟩, -⟩, hc⟩ := hc
    have hl' : ∀ r ∈ (q :: l).getLast?, r.2.2 = none := by
      rwa [List.getLast?_cons_cons] at hl
    have hp : (jumpSize _ p.2 : ℤ) = (vshape ++ [paths]).prod + ∑ c, (n2 c - n1 c) := by
      have := stores_size hst
      simp only [jumpSize, hys, Pi.sub_apply] at this ⊢
      push_cast
      rw [this]
    rcases chain_size hK l q hc hl' with ⟨rfl, h⟩ | ⟨r, n3, n4, e1, e2, e3, e4, e5⟩
    · refine ⟨q, n1, n2, rfl, by simp, k1, k2, ?_⟩
      rw [List.map_cons, List.sum_cons, h]
      push_cast
      rw [hp]
      simp
      ring
    · refine ⟨r, n1, n4, by rw [List.getLast?_cons_cons]; exact e1, by simp, k1, e4, ?_⟩
      rw [List.map_cons, List.sum_cons]
      push_cast at e5 ⊢
      rw [e5, hp, hK _ _ _ e3 k2]
      simp only [Finset.sum_sub_distrib, List.length_cons]
      push_cast
      ring

/-- **C100** (compound Poisson sources). After any history of evaluations of a compound Poisson source
with memory and of its underlying Poisson source, `size` is the number of cells times the number of
times stored by either of them, plus the number of jumps, for all cells, from the first to the last
time stored, as counted by the underlying source. Variates should not be zero: see `C29_false`. -/
theorem C100_cpoisson_partial (hP : PoissonRng dn0 bin) (hr : 0 ≤ rN) (hr1 : rN < 1)
    {rtol t0 tn : T} (hrt : 0 ≤ rtol) {y : T → Py (Rvs Y σ)} (hy : NonzeroRvs y) {D : T → Prop}
    (hD : ∀ s, D s → Clear rN tn s) (ht0 : D t0) {z0 : Pos (vshape ++ [paths]) → Y}
    {n0 : Pos (vshape ++ [paths]) → ℤ} {s0 : σ}
    {m : Mem T (JumpZ Y (vshape ++ [paths])) (Mem T (Pos (vshape ++ [paths]) → ℤ) σ)}
    (h : JumpHistory paths vshape rtol (truePoisson rN dn0 bin) y D
      (Mem.new t0 (z0, none) (Mem.new tn n0 s0)) m) :
    (m.times.length = 1 ∧ cpoissonSize _ m =
      (vshape ++ [paths]).prod * (m.times.length + m.s.times.length)) ∨
    ∃ a b n1 n2, m.times.head? = some a ∧ m.times.getLast? = some b ∧ a < b ∧
      (truePoisson rN dn0 bin).get1 a m.s = .ok (n1, m.s) ∧
      (truePoisson rN dn0 bin).get1 b m.s = .ok (n2, m.s) ∧
      (cpoissonSize _ m : ℤ) =
        (vshape ++ [paths]).prod * (m.times.length + m.s.times.length) + ∑ c, (n2 c - n1 c) := by
  have hi := jump_history hP hr hr1 hrt hy hD ht0 h
  have hlast := (jump_last hrt h).2
  have hfst := fst_zip hi.kept
  have hsnd := zip_snd hi.kept
  have hlen : m.zip.length = m.t.length := by rw [← hfst, List.length_map]
  have hsz : m.size (jumpSize (vshape ++ [paths])) = (m.zip.map fun q => jumpSize _ q.2).sum := by
    rw [Mem.size, ← hsnd, List.map_map]
    rfl
  have hdn := size_arr (shape := vshape ++ [paths]) hi.dn.ok.1
  have hK : ∀ t v v', KN rN dn0 bin m.s t v → KN rN dn0 bin m.s t v' → v = v' := by
    intro t v v' h1 h2
    rw [h1.pathOf (lawful_poisson rN dn0 bin) 0, h2.pathOf (lawful_poisson rN dn0 bin) 0]
  have hc := hi.chain
  unfold cpoissonSize
  rw [hsz, hdn]
  unfold Mem.times
  rw [← hlen]
  cases hz : m.zip with
  | nil =>
    rw [hz] at hlen
    exact absurd (List.length_eq_zero_iff.1 hlen.symm) hi.kept.2.2
  | cons p l =>
    rw [hz] at hc hlast
    rcases chain_size hK l p hc hlast with ⟨rfl, e⟩ | ⟨q, n1, n2, e1, e2, e3, e4, e5⟩
    · left
      refine ⟨rfl, ?_⟩
      rw [e]
      simp
      ring
    · right
      have hh : m.t.head? = some p.1 := by rw [← hfst, hz]; rfl
      have hg : m.t.getLast? = some q.1 := by rw [← hfst, hz, List.getLast?_map, e1]; rfl
      refine ⟨p.1, q.1, n1, n2, hh, hg, ?_, get1_known hi.dn.ok.1 e3 (quiet_poisson rN dn0 bin),
        get1_known hi.dn.ok.1 e4 (quiet_poisson rN dn0 bin), ?_⟩
      · have hs := hi.kept.1
        rw [← hfst, hz, List.map_cons, List.pairwise_cons] at hs
        refine hs.1 _ (List.mem_map.2 ⟨q, ?_, rfl⟩)
        cases l with
        | nil => exact absurd rfl e2
        | cons r l =>
          rw [List.getLast?_cons_cons] at e1
          exact List.mem_of_getLast? e1
      · push_cast
        push_cast at e5
        rw [e5]
        simp only [List.length_cons]
        push_cast
        ring

/-- **C100**, for compound Poisson sources that make their own Poisson source (`infrastructure.py`
2608). -/
theorem C100_cpoisson (hP : PoissonRng dn0 bin) (hr : 0 ≤ rN) (hr1 : rN < 1)
    {rtol t0 : T} (hrt : 0 ≤ rtol) {y : T → Py (Rvs Y σ)} (hy : NonzeroRvs y)
    {z0 : Pos (vshape ++ [paths]) → Y} {n0 : Pos (vshape ++ [paths]) → ℤ} {s0 : σ}
    {m : Mem T (JumpZ Y (vshape ++ [paths])) (Mem T (Pos (vshape ++ [paths]) → ℤ) σ)}
    (h : JumpHistory paths vshape rtol (truePoisson rN dn0 bin) y (fun _ => True)
      (Mem.new t0 (z0, none) (Mem.new 0 n0 s0)) m) :
    (m.times.length = 1 ∧ cpoissonSize _ m =
      (vshape ++ [paths]).prod * (m.times.length + m.s.times.length)) ∨
    ∃ a b n1 n2, m.times.head? = some a ∧ m.times.getLast? = some b ∧ a < b ∧
      (truePoisson rN dn0 bin).get1 a m.s = .ok (n1, m.s) ∧
      (truePoisson rN dn0 bin).get1 b m.s = .ok (n2, m.s) ∧
      (cpoissonSize _ m : ℤ) =
        (vshape ++ [paths]).prod * (m.times.length + m.s.times.length) + ∑ c, (n2 c - n1 c) :=
  C100_cpoisson_partial hP hr hr1 hrt hy (fun s _ => clear_zero rN s) trivial h

/-- **C100** (splitting). After any history, evaluating between the first and the last time stored
draws no new jumps: `size` grows by at most twice the number of cells, for the new value of the source
and of its underlying Poisson source. -/
theorem C100_split (hP : PoissonRng dn0 bin) (hr : 0 ≤ rN) (hr1 : rN < 1)
    {rtol t0 : T} (hrt : 0 ≤ rtol) {y : T → Py (Rvs Y σ)} (hy : NonzeroRvs y)
    {z0 : Pos (vshape ++ [paths]) → Y} {n0 : Pos (vshape ++ [paths]) → ℤ} {s0 : σ}
    {m m' : Mem T (JumpZ Y (vshape ++ [paths])) (Mem T (Pos (vshape ++ [paths]) → ℤ) σ)}
    (h : JumpHistory paths vshape rtol (truePoisson rN dn0 bin) y (fun _ => True)
      (Mem.new t0 (z0, none) (Mem.new 0 n0 s0)) m) {a b s : T} (ha : a ∈ m.times)
    (hb : b ∈ m.times) (has : a ≤ s) (hsb : s ≤ b) {v : Pos (vshape ++ [paths]) → Y}
    (he : (trueCPoisson rtol paths vshape (truePoisson rN dn0 bin) y).get1 s m = .ok (v, m')) :
    cpoissonSize _ m ≤ cpoissonSize _ m' ∧
      cpoissonSize _ m' ≤ cpoissonSize _ m + 2 * (vshape ++ [paths]).prod := by
  have hi := jump_history (D := fun _ => True) hP hr hr1 hrt hy (fun s _ => clear_zero rN s) trivial h
  have hfst := fst_zip hi.kept
  have hs := hi.kept.1
  unfold Mem.times at ha hb
  rcases get1_shape hrt hi.kept he with rfl | ⟨A, t, z, z', znew, st, hz, hts, -⟩ |
    ⟨B, t, z, z', znew, st, hz, hts, -⟩ |
    ⟨A, B, t1, z1, t2, z2, z1', r, st, hz, h1, h2, ho, hst, hcase⟩
  · omega
  · rw [← hfst, hz, List.map_append, List.map_cons, List.map_nil] at hs hb
    rw [List.pairwise_append] at hs
    rw [List.mem_append] at hb
    exfalso
    rcases hb with hb | hb
    · exact absurd (hs.2.2 b hb t (by simp)) (hts.trans_le hsb).not_gt
    · simp only [List.mem_singleton] at hb
      exact absurd hsb (by rw [hb]; exact hts.not_ge)
  · rw [← hfst, hz, List.map_cons] at hs ha
    rw [List.pairwise_cons] at hs
    exfalso
    rcases List.mem_cons.1 ha with ha | ha
    · exact absurd has (by rw [ha]; exact hts.not_ge)
    · exact absurd (hs.1 a ha) (has.trans_lt hts).not_gt
  · have hc := hi.chain
    rw [hz, List.isChain_append_cons_cons] at hc
    obtain ⟨-, ⟨n1, n2, R, k1, k2, hl, hnz⟩, -⟩ := hc
    have hk' := (get1_book (lawful_cpoisson rtol (truePoisson rN dn0 bin) y) hrt hi.kept he).1
    have hsz : ∀ {m : Mem T (JumpZ Y (vshape ++ [paths])) (Mem T (Pos (vshape ++ [paths]) → ℤ) σ)},
        WellKept m → m.size (jumpSize (vshape ++ [paths])) =
          (m.zip.map fun q => jumpSize _ q.2).sum := by
      intro m hk
      rw [Mem.size, ← zip_snd hk, List.map_map]
      rfl
    by_cases hne : ∀ c, z1.1 c = z2.1 c
    · simp only [trueCPoisson, jumpInside, if_pos hne, Except.ok.injEq, Prod.mk.injEq] at ho
      obtain ⟨⟨rfl, rfl⟩, rfl⟩ := ho
      rcases hcase with ⟨-, hz', -⟩ | ⟨znew, hno, -⟩
      · have : cpoissonSize _ m' = cpoissonSize _ m := by
          unfold cpoissonSize
          rw [hsz hk', hsz hi.kept, hz', hz, hst]
        omega
      · cases hno
    · rcases inside_eq hP hr hr1 hi.dn (clear_zero rN s) h1 h2 k1 k2 hl hnz hne with ⟨e, -, hee⟩ |
        ⟨ns, mm, ys1, znew, hg, hee, g1, g2, g3, -, -, l1, l2⟩
      · have : jumpInside (truePoisson rN dn0 bin) z1 z2 t1 t2 s m.s = _ := ho
        rw [hee] at this
        cases this
      · have : jumpInside (truePoisson rN dn0 bin) z1 z2 t1 t2 s m.s = _ := ho
        rw [hee] at this
        simp only [Except.ok.injEq, Prod.mk.injEq] at this
        obtain ⟨⟨rfl, rfl⟩, rfl⟩ := this
        rcases hcase with ⟨hno, -⟩ | ⟨znew', hno, hz', -⟩
        · cases hno
        simp only [Option.some.injEq] at hno
        subst hno
        have hdn : m.s.t.length ≤ mm.t.length ∧ mm.t.length ≤ m.s.t.length + 1 := by
          rcases (get1_book (lawful_poisson rN dn0 bin) hr hi.dn.ok.1 hg).2 with e | ⟨e, -⟩ <;>
            rw [e] <;> omega
        obtain ⟨⟨ys, hys, hst0⟩, -⟩ := hl
        obtain ⟨⟨ysa, hysa, hsta⟩, -⟩ := l1
        obtain ⟨⟨ysb, hysb, hstb⟩, -⟩ := l2
        have f0 := stores_size hst0
        have fa := stores_size hsta
        have fb := stores_size hstb
        simp only [Pi.sub_apply, Finset.sum_sub_distrib] at f0 fa fb
        have fsum : ysSize ys = ysSize ysa + ysSize ysb := by
          have : (ysSize ys : ℤ) = ysSize ysa + ysSize ysb := by rw [f0, fa, fb]; ring
          exact_mod_cast this
        simp only [Option.some.injEq] at hysa
        subst hysa
        have q1 : jumpSize _ z1 = (vshape ++ [paths]).prod + ysSize ys := by
          have : z1.2 = some ys := hys
          simp only [jumpSize, this]
        have q2 : jumpSize (vshape ++ [paths]) (z1.1, some ys1) =
            (vshape ++ [paths]).prod + ysSize ys1 := rfl
        have q3 : jumpSize _ znew = (vshape ++ [paths]).prod + ysSize ysb := by
          simp only [jumpSize, hysb]
        unfold cpoissonSize
        rw [hsz hk', hsz hi.kept, hz', hz, hst, size_arr hi.dn.ok.1, size_arr g1.ok.1]
        simp only [List.map_append, List.map_cons, List.sum_append, List.sum_cons, q1, q2, q3]
        obtain ⟨d1, d2⟩ := hdn
        have d3 := Nat.mul_le_mul_left (vshape ++ [paths]).prod d1
        have d4 := Nat.mul_le_mul_left (vshape ++ [paths]).prod d2
        rw [Nat.mul_add, Nat.mul_one] at d4
        omega

end jumps

section examples

/-- Two jumps for each of the intervals drawn, up to time `2` and down to time `-1`; the former is then
split at time `1`: four values of the source, four jumps, and four values of the Poisson source. -/
example : ((exJump 3 (-1)).getList [2, 1, -1] exJump0).toOption.map
    (fun r => (r.2.times, r.2.s.times, cpoissonSize _ r.2)) =
    some ([-1, 0, 1, 2], [-1, 0, 1, 2], 12) := by
  decide +kernel

example {m : Mem ℚ (JumpZ ℚ ([] ++ [1])) (Mem ℚ (Pos ([] ++ [1]) → ℤ) ℕ)}
    (h : JumpHistory 1 [] 0 (truePoisson 0 exDn2 exBin2) (exY 3 (-1)) (fun _ => True) exJump0 m) :=
  C100_cpoisson exRng2 le_rfl one_pos le_rfl (exY_nonzero (by norm_num) (by norm_num)) h

/-- The source and its Poisson source hold nothing but their initial values before any evaluation. -/
example : (exJump0.times, exJump0.s.times, cpoissonSize _ exJump0) = ([0], [0], 2) := by
  decide +kernel

/-- Splitting the interval adds two values, and no jumps. -/
example : (((exJump 3 (-1)).getList [2] exJump0).toOption.map fun r => cpoissonSize _ r.2) = some 6 ∧
    (((exJump 3 (-1)).getList [2, 1] exJump0).toOption.map fun r => cpoissonSize _ r.2) = some 8 := by
  decide +kernel

example {m m' : Mem ℚ (JumpZ ℚ ([] ++ [1])) (Mem ℚ (Pos ([] ++ [1]) → ℤ) ℕ)}
    {v : Pos ([] ++ [1]) → ℚ}
    (h : JumpHistory 1 [] 0 (truePoisson 0 exDn2 exBin2) (exY 3 (-1)) (fun _ => True) exJump0 m)
    (h0 : 0 ∈ m.times) (h2 : 2 ∈ m.times) (he : (exJump 3 (-1)).get1 1 m = .ok (v, m')) :=
  C100_split exRng2 le_rfl one_pos le_rfl (exY_nonzero (by norm_num) (by norm_num)) h h0 h2
    (by norm_num) (by norm_num) he

/-- A Poisson source evaluated at three times, one of them twice. -/
example : ((truePoisson 0 exDn2 exBin2).getList [2, 1, 2, -1] (Mem.new 0 (fun _ => 0) 0)).toOption.map
    (fun r => (r.2.times, r.2.size (arrSize [1]))) = some ([-1, 0, 1, 2], 4) := by
  decide +kernel

example {m : Mem ℚ (Pos ([] ++ [1]) → ℤ) ℕ} {l : List (SrcEvent ℚ (Pos ([] ++ [1]) → ℤ))}
    (h : SrcHistory (truePoisson 0 exDn2 exBin2) (fun _ => True) (Mem.new 0 (fun _ => 0) 0) l m) :=
  C100_size (shape := [] ++ [1]) (lawful_poisson 0 exDn2 exBin2) le_rfl h

example {m m' : Mem ℚ (Pos ([] ++ [1]) → ℤ) ℕ} {l : List (SrcEvent ℚ (Pos ([] ++ [1]) → ℤ))}
    (h : SrcHistory (truePoisson 0 exDn2 exBin2) (fun _ => True) (Mem.new 0 (fun _ => 0) 0) l m)
    {v v' : List (Pos ([] ++ [1]) → ℤ)} (he : .value [2, 1] v ∈ l)
    (hc : (truePoisson 0 exDn2 exBin2).call [2, 1] none m = .ok (v', m')) :=
  C100_repeat (lawful_poisson 0 exDn2 exBin2) (quiet_poisson 0 exDn2 exBin2) le_rfl one_pos
    (fun s _ => clear_zero 0 s) (arrSize ([] ++ [1])) h he hc

end examples

end Sdepy
