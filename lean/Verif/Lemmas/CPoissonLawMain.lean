import Verif.Lemmas.CPoissonLawSteps

/-!
# Probability of the values of a compound Poisson source with memory, given the underlying Poisson source
-/

set_option linter.unusedSectionVars false
set_option linter.unusedSimpArgs false

open MeasureTheory ProbabilityTheory

namespace Sdepy

open Spec

/-! ### New jumps -/

section new
variable {σ Zn : Type} [MeasurableSpace σ] {μ : Measure σ} [IsProbabilityMeasure μ]
  {ν : Measure ℝ} [IsProbabilityMeasure ν] {paths : ℕ} {vshape : List ℕ}

theorem djCall_eq {Y : Type} [CommRing Y] [DecidableEq Y]
    {N : TrueSrc ℝ Zn (Pos (vshape ++ [paths]) → ℤ) σ} {y : ℝ → Py (Rvs Y σ)}
    {t dt : ℝ} {m m1 m2 m' : Mem ℝ Zn σ} {v1 v0 : Pos (vshape ++ [paths]) → ℤ} {rvs : Rvs Y σ} {nmax : ℤ}
    {dz : Arr Y} {ys : List (YSample Y)} (h1 : N.get1 (t + dt) m = .ok (v1, m1))
    (h0 : N.get1 t m1 = .ok (v0, m2)) (hy : y (t + dt / 2) = .ok rvs)
    (hmx : arrMax ⟨vshape ++ [paths], fun c => sgn dt * (ofPos 0 (v1 - v0)).get c⟩ = .ok nmax)
    (hj : jumpLoop (rvsMem rvs) (sgn dt)
        ⟨vshape ++ [paths], fun c => sgn dt * (ofPos 0 (v1 - v0)).get c⟩ nmax.toNat 1
        ⟨vshape ++ [paths], fun _ => 0⟩ [] m2 = .ok ((dz, ys), m')) :
    ∃ dj d, cpoissonCall (djSrc paths vshape N y) (.scalar t) (.scalar dt) m = .ok ((dj, d, ys), m') ∧
      ∀ c, dj.get c = dz.get c := by
  unfold cpoissonCall
  rw [broadcast2_eq]
  have hsh : bcShape (Arr.scalar t).shape (Arr.scalar dt).shape = some [] := rfl
  rw [hsh]
  simp only [djSrc, dnCall, ndindex, List.map_cons, List.map_nil, TrueSrc.call,
    List.zipWith_cons_cons, List.zipWith_nil_left, TrueSrc.getList]
  have e1 : (Arr.scalar t).bget [] = t := rfl
  have e2 : (Arr.scalar dt).bget [] = dt := rfl
  rw [e1, e2, h1]
  simp only
  rw [h0]
  simp only [List.zipWith_cons_cons, List.zipWith_nil_left, List.map_cons, List.map_nil,
    List.zip_cons_cons, List.zip_nil_left, List.length_nil, List.take_zero, ne_eq,
    not_true_eq_false, if_false, List.drop_zero, loopIdx, cpoissonBody]
  have ha : assemble [] (vshape ++ [paths]) 0 [([], ofPos 0 (v1 - v0))] = ofPos 0 (v1 - v0) := by
    simp [assemble, List.lookup, ofPos]
  rw [ha]
  simp only [e1, e2, List.nil_append]
  have hs : (ofPos 0 (v1 - v0) : Arr ℤ).shape = vshape ++ [paths] := rfl
  rw [hs, hmx]
  simp only
  rw [hy]
  simp only [Except.map]
  rw [hj]
  exact ⟨assemble [] (vshape ++ [paths]) 0 [([], dz)], ofPos 0 (v1 - v0), by simp,
    fun c => by simp [assemble, List.lookup]⟩

/-- The jumps between two times, when drawn. -/
theorem loop_redraw {shape : List ℕ} {x : ℝ → Pos shape → ℤ} {rvs : Rvs ℝ σ} (hv : VariatesLaw μ ν rvs)
    (sg : ℤ) {lo hi : ℝ} (hle : x lo ≤ x hi) (c0 : Pos shape) :
    ∃ Φ : (Pos shape × ℤ → ℝ) × σ → (Pos shape × ℤ → ℝ) × σ,
      MeasurePreserving Φ ((Measure.infinitePi fun _ : Pos shape × ℤ => ν).prod μ)
        ((Measure.infinitePi fun _ : Pos shape × ℤ => ν).prod μ) ∧
      ∃ nmax, arrMax (ofPos 0 (x hi - x lo)) = .ok nmax ∧
      ∀ (Y : Pos shape × ℤ → ℝ) (m : Mem ℝ Zn σ),
        (∀ c k, ¬ (x lo c ≤ k ∧ k < x hi c) → (Φ (Y, m.s)).1 (c, k) = Y (c, k)) ∧
        ∃ dz ys, jumpLoop (rvsMem rvs) sg (ofPos 0 (x hi - x lo)) nmax.toNat 1 ⟨shape, fun _ => 0⟩ [] m =
            .ok ((dz, ys), { m with s := (Φ (Y, m.s)).2 }) ∧
          Stores (x hi - x lo) (blk x (Φ (Y, m.s)).1 lo hi) ys ∧
          ∀ c : Pos shape, dz.get c.1 = sg * (blk x (Φ (Y, m.s)).1 lo hi c).sum := by
  obtain ⟨nmax, hmx⟩ := arrMax_ok (d := ofPos 0 (x hi - x lo)) c0.2
  obtain ⟨Φ, hΦ, hrun⟩ := redraw_loop (Zn := Zn) hv sg (x hi - x lo) (x lo) nmax.toNat 1
  refine ⟨Φ, hΦ, nmax, hmx, fun Y m => ?_⟩
  obtain ⟨dz, new, h1, h2, h3⟩ := hrun Y m ⟨shape, fun _ => 0⟩ [] rfl
  rw [List.nil_append] at h1
  refine ⟨fun c k hk => h3 c k fun h => hk ?_, dz, new, h1, ?_⟩
  · obtain ⟨-, h4, h5⟩ := h
    exact ⟨h4, by simp only [Pi.sub_apply] at h5; omega⟩
  obtain ⟨R, r1, r2, -⟩ := jumps_stores hmx (by
    intro c hc
    have : x lo ⟨c, hc⟩ ≤ x hi ⟨c, hc⟩ := hle ⟨c, hc⟩
    have e := ofPos_get (d0 := 0) (x hi - x lo) ⟨c, hc⟩
    rw [e, Pi.sub_apply]
    omega) h1
  have hR : ∀ c : Pos shape, R c.1 = blk x (Φ (Y, m.s)).1 lo hi c := by
    intro c
    have hlen := r1.len c.1 c.2
    rw [ofPos_get, Pi.sub_apply] at hlen
    refine List.ext_getElem ?_ ?_
    · have := blk_length (Y := (Φ (Y, m.s)).1) hle c
      omega
    · intro k k1 k2
      have hpos : 0 < (x hi c - x lo c).toNat := by omega
      obtain ⟨y, hy, hyj⟩ := List.mem_map.1 ((r1.mem (x hi c - x lo c).toNat).2
        ⟨hpos, c.1, c.2, by rw [ofPos_get, Pi.sub_apply]; omega⟩)
      have hcm : c.1 ∈ cellsAt (ofPos 0 (x hi - x lo)) y.j :=
        mem_cellsAt.2 ⟨c.2, by rw [ofPos_get, Pi.sub_apply]; omega⟩
      have hlt := List.idxOf_lt_length_iff.2 hcm
      have hget : (cellsAt (ofPos 0 (x hi - x lo)) y.j)[(cellsAt (ofPos 0 (x hi - x lo)) y.j).idxOf c.1]? =
          some c.1 := by rw [List.getElem?_eq_getElem hlt, List.getElem_idxOf]
      have e1 := (r1.rows y hy).2 _ _ hget k (by omega)
      have e2 := h2 y hy _ c hget k (by omega)
      rw [e1, List.getD_eq_getElem?_getD, List.getElem?_eq_getElem k1] at e2
      simp only [Option.getD_some] at e2
      rw [e2]
      simp [blk]
  have e := r1.toStores
  simp only [hR] at e
  exact ⟨e, fun c => by rw [r2 c.1 c.2, hR]⟩

variable {rN : ℝ} {dn0 : ℝ → ℝ → σ → Py ((Pos (vshape ++ [paths]) → ℤ) × σ)}
  {bin : (Pos (vshape ++ [paths]) → ℤ) → ℝ → σ → (Pos (vshape ++ [paths]) → ℤ) × σ}
  {x : ℝ → Pos (vshape ++ [paths]) → ℤ} {y : ℝ → Py (Rvs ℝ σ)}

theorem outside_after (hv : ∀ t, ∃ rvs, y t = .ok rvs ∧ VariatesLaw μ ν rvs) (hx : Monotone x)
    (c0 : Pos (vshape ++ [paths])) {a s : ℝ} (has : a < s) :
    ∃ Φ : (Pos (vshape ++ [paths]) × ℤ → ℝ) × σ → (Pos (vshape ++ [paths]) × ℤ → ℝ) × σ,
      MeasurePreserving Φ ((Measure.infinitePi fun _ : Pos (vshape ++ [paths]) × ℤ => ν).prod μ)
        ((Measure.infinitePi fun _ : Pos (vshape ++ [paths]) × ℤ => ν).prod μ) ∧
      ∀ Y z m m1 nts st, (truePoisson rN dn0 bin).get1 s m = .ok (x s, m1) →
        (truePoisson rN dn0 bin).get1 a m1 = .ok (x a, pathMem x nts st) →
        (∀ c k, ¬ (x a c ≤ k ∧ k < x s c) → (Φ (Y, st)).1 (c, k) = Y (c, k)) ∧
        ∃ ys, Stores (x s - x a) (blk x (Φ (Y, st)).1 a s) ys ∧
          jumpOutside paths vshape (truePoisson rN dn0 bin) y z a s m =
            .ok (((z.1, some ys), (fun c => z.1 c + (blk x (Φ (Y, st)).1 a s c).sum, none)),
              pathMem x nts (Φ (Y, st)).2) := by
  obtain ⟨rvs, hy, hvr⟩ := hv (a + (s - a) / 2)
  have hsg : sgn (s - a) = 1 := by unfold sgn; rw [if_pos (sub_pos.2 has)]
  obtain ⟨Φ, hΦ, nmax, hmx, hrun⟩ := loop_redraw (Zn := Pos (vshape ++ [paths]) → ℤ) hvr (sgn (s - a))
    (hx has.le) c0
  refine ⟨Φ, hΦ, fun Y z m m1 nts st hs ha => ?_⟩
  obtain ⟨hk, dz, ys, hj, hst, hdz⟩ := hrun Y (pathMem x nts st)
  have hd : (⟨vshape ++ [paths], fun c => sgn (s - a) * (ofPos 0 (x s - x a)).get c⟩ : Arr ℤ) =
      ofPos 0 (x s - x a) := by
    simp only [hsg, one_mul]; rfl
  obtain ⟨dj, d, hcall, hdj⟩ := djCall_eq (paths := paths) (vshape := vshape)
    (N := truePoisson rN dn0 bin) (t := a) (dt := s - a) (by rw [add_sub_cancel]; exact hs) ha hy
    (by rw [hd]; exact hmx) (by rw [hd]; exact hj)
  refine ⟨hk, ys, hst, ?_⟩
  unfold jumpOutside
  rw [hcall]
  simp only
  rw [if_pos has]
  simp only [hdj, hdz, hsg, Int.cast_one, one_mul]
  rfl

theorem outside_before (hv : ∀ t, ∃ rvs, y t = .ok rvs ∧ VariatesLaw μ ν rvs) (hx : Monotone x)
    (c0 : Pos (vshape ++ [paths])) {b s : ℝ} (hsb : s < b) :
    ∃ Φ : (Pos (vshape ++ [paths]) × ℤ → ℝ) × σ → (Pos (vshape ++ [paths]) × ℤ → ℝ) × σ,
      MeasurePreserving Φ ((Measure.infinitePi fun _ : Pos (vshape ++ [paths]) × ℤ => ν).prod μ)
        ((Measure.infinitePi fun _ : Pos (vshape ++ [paths]) × ℤ => ν).prod μ) ∧
      ∀ Y z m m1 nts st, (truePoisson rN dn0 bin).get1 s m = .ok (x s, m1) →
        (truePoisson rN dn0 bin).get1 b m1 = .ok (x b, pathMem x nts st) →
        (∀ c k, ¬ (x s c ≤ k ∧ k < x b c) → (Φ (Y, st)).1 (c, k) = Y (c, k)) ∧
        ∃ ys, Stores (x b - x s) (blk x (Φ (Y, st)).1 s b) ys ∧
          jumpOutside paths vshape (truePoisson rN dn0 bin) y z b s m =
            .ok ((z, (fun c => z.1 c - (blk x (Φ (Y, st)).1 s b c).sum, some ys)),
              pathMem x nts (Φ (Y, st)).2) := by
  obtain ⟨rvs, hy, hvr⟩ := hv (b + (s - b) / 2)
  have hsg : sgn (s - b) = -1 := by
    unfold sgn
    rw [if_neg (by linarith), if_pos (sub_neg.2 hsb)]
  obtain ⟨Φ, hΦ, nmax, hmx, hrun⟩ := loop_redraw (Zn := Pos (vshape ++ [paths]) → ℤ) hvr (sgn (s - b))
    (hx hsb.le) c0
  refine ⟨Φ, hΦ, fun Y z m m1 nts st hs hb => ?_⟩
  obtain ⟨hk, dz, ys, hj, hst, hdz⟩ := hrun Y (pathMem x nts st)
  have hd : (⟨vshape ++ [paths], fun c => sgn (s - b) * (ofPos 0 (x s - x b)).get c⟩ : Arr ℤ) =
      ofPos 0 (x b - x s) := by
    simp only [hsg, ofPos]
    congr 1
    funext c
    split
    · simp
    · simp
  obtain ⟨dj, d, hcall, hdj⟩ := djCall_eq (paths := paths) (vshape := vshape)
    (N := truePoisson rN dn0 bin) (t := b) (dt := s - b) (by rw [add_sub_cancel]; exact hs) hb hy
    (by rw [hd]; exact hmx) (by rw [hd]; exact hj)
  refine ⟨hk, ys, hst, ?_⟩
  unfold jumpOutside
  rw [hcall]
  simp only
  rw [if_neg hsb.not_gt]
  simp only [hdj, hdz, hsg, Int.cast_neg, Int.cast_one, neg_mul, one_mul, ← sub_eq_add_neg]
  rfl

/-- Splitting the jumps between two times. -/
theorem inside_split (c0 : Pos (vshape ++ [paths])) {Y : Pos (vshape ++ [paths]) × ℤ → ℝ} {a s b : ℝ}
    (h1 : x a ≤ x s) (h2 : x s ≤ x b) (hg : GoodOn (x a) (x b) Y)
    {z1 z2 : JumpZ ℝ (vshape ++ [paths])} {ys : List (YSample ℝ)} (hz : z1.2 = some ys)
    (hst : Stores (x b - x a) (blk x Y a b) ys) (hne : ¬ ∀ c, z1.1 c = z2.1 c)
    {m m' : Mem ℝ (Pos (vshape ++ [paths]) → ℤ) σ}
    (ha : (truePoisson rN dn0 bin).get1 a m = .ok (x a, m))
    (hs : (truePoisson rN dn0 bin).get1 s m = .ok (x s, m'))
    (hb : (truePoisson rN dn0 bin).get1 b m' = .ok (x b, m')) :
    ∃ ys1 ys2, Stores (x s - x a) (blk x Y a s) ys1 ∧ Stores (x b - x s) (blk x Y s b) ys2 ∧
      jumpInside (truePoisson rN dn0 bin) z1 z2 a b s m =
        .ok (((z1.1, some ys1), some (fun c => z1.1 c + (blk x Y a s c).sum, some ys2)), m') := by
  have g1 : ∀ c, x a c ≤ x s c := h1
  have g2 : ∀ c, x s c ≤ x b c := h2
  have hget : ∀ (d : Pos (vshape ++ [paths]) → ℤ) c (hc : InRange (vshape ++ [paths]) c),
      (ofPos 0 d : Arr ℤ).get c = d ⟨c, hc⟩ := fun d c hc => ofPos_get d ⟨c, hc⟩
  obtain ⟨ys1, ys2, dj, e1, e2, e3, e4⟩ := splitY_ok hst.toStoresA (d1 := ofPos 0 (x s - x a))
    (d2 := ofPos 0 (x b - x s)) rfl rfl
    (fun c hc => by rw [hget _ c hc, Pi.sub_apply]; have := g1 ⟨c, hc⟩; omega)
    (fun c hc => by rw [hget _ c hc, Pi.sub_apply]; have := g2 ⟨c, hc⟩; omega)
    (fun c hc => by rw [hget _ c hc, hget _ c hc, hget _ c hc, Pi.sub_apply, Pi.sub_apply, Pi.sub_apply]
                    omega)
    (fun c hc v hv => by
      have hc : InRange (vshape ++ [paths]) c := hc
      rw [dif_pos hc] at hv
      exact hg.blk ⟨c, hc⟩ v hv) (c0 := c0.1) c0.2
  refine ⟨ys1, ys2, ?_, ?_, ?_⟩
  · have := e2.toStores
    convert this using 2 with c
    rw [dif_pos c.2, ofPos_get, Pi.sub_apply, blk_take h1 h2]
  · have := e3.toStores
    convert this using 2 with c
    rw [dif_pos c.2, ofPos_get, Pi.sub_apply, blk_drop h1 h2]
  · unfold jumpInside
    rw [if_neg hne, ha]
    simp only [hs, hb, hz, e1]
    congr 5
    funext c
    rw [e4 c.1 c.2, dif_pos c.2, ofPos_get, Pi.sub_apply, blk_take h1 h2]

end new

/-! ### Paths known at the same times -/

section same
variable {ι : Type} [Fintype ι] {lam : ℝ} {x : ℝ → ι → ℤ}

theorem pathProb_knows_all (hx : Monotone x) (E : List ℝ) : ∀ {L M : List ℝ}, L.Pairwise (· < ·) →
    M.Pairwise (· < ·) → (∀ u ∈ E, NKnows x L u) → (∀ v, v ∈ M ↔ v ∈ E ∨ v ∈ L) →
    poissonPathProb lam x M = poissonPathProb lam x L := by
  induction E with
  | nil =>
    intro L M hL hM _ hm
    rw [sorted_unique hM hL (by simpa using hm)]
  | cons u E ih =>
    intro L M hL hM hk hm
    obtain ⟨L1, hL1, hm1⟩ := exists_sorts (u :: L)
    rw [ih hL1 hM (fun v hv => (hk v (by simp [hv])).mono fun a ha => (hm1 a).2 (by simp [ha])) ?_]
    · exact pathProb_knows hx hL hL1 (fun v => by rw [hm1, List.mem_cons]) (hk u (by simp))
    · intro v
      rw [hm, hm1, List.mem_cons, List.mem_cons]
      tauto

theorem pathProb_same (hx : Monotone x) {L M : List ℝ} (hL : L.Pairwise (· < ·))
    (hM : M.Pairwise (· < ·)) (h1 : ∀ u ∈ M, NKnows x L u) (h2 : ∀ u ∈ L, NKnows x M u) :
    poissonPathProb lam x M = poissonPathProb lam x L := by
  obtain ⟨U, hU, hm⟩ := exists_sorts (L ++ M)
  rw [← pathProb_knows_all hx M hL hU h1 (fun v => by rw [hm, List.mem_append]; tauto),
    pathProb_knows_all hx L hM hU h2 (fun v => by rw [hm, List.mem_append])]

end same

/-! ### Steps -/

section steps
variable {σ : Type} [MeasurableSpace σ] {μ : Measure σ} [IsProbabilityMeasure μ]
  {ν : Measure ℝ} [IsProbabilityMeasure ν] {paths : ℕ} {vshape : List ℕ}
  {rN rtol : ℝ} {dn0 : ℝ → ℝ → σ → Py ((Pos (vshape ++ [paths]) → ℤ) × σ)}
  {bin : (Pos (vshape ++ [paths]) → ℤ) → ℝ → σ → (Pos (vshape ++ [paths]) → ℤ) × σ}
  {x : ℝ → Pos (vshape ++ [paths]) → ℤ} {y : ℝ → Py (Rvs ℝ σ)} {z0 : Pos (vshape ++ [paths]) → ℝ}
  {t0 : ℝ}

/-- The jumps stored between two times. -/
def JLink {shape : List ℕ} (x : ℝ → Pos shape → ℤ) (Y : Pos shape × ℤ → ℝ)
    (p q : ℝ × JumpZ ℝ shape) : Prop :=
  ∃ ys, p.2.2 = some ys ∧ Stores (x q.1 - x p.1) (blk x Y p.1 q.1) ys

/-- The memory holds the process with jumps `Y`, at the times `ts`, and the underlying source its path at
the times `nts`. -/
def JM {shape : List ℕ} (z0 : Pos shape → ℝ) (t0 : ℝ) (x : ℝ → Pos shape → ℤ) (Y : Pos shape × ℤ → ℝ)
    (ts nts : List ℝ) (st : σ) (m : Mem ℝ (JumpZ ℝ shape) (Mem ℝ (Pos shape → ℤ) σ)) : Prop :=
  ∃ ps, ps.map (·.1) = ts ∧ m = pairMem ps (pathMem x nts st) ∧
    (∀ p ∈ ps, p.2.1 = jv z0 t0 x Y p.1) ∧ ps.IsChain (JLink x Y)

theorem JM.parts {Y Y' : Pos (vshape ++ [paths]) × ℤ → ℝ} {ps : List (ℝ × JumpZ ℝ (vshape ++ [paths]))}
    (hx : Monotone x)
    (hv : ∀ p ∈ ps, p.2.1 = jv z0 t0 x Y p.1) (hc : ps.IsChain (JLink x Y)) (h0 : t0 ∈ ps.map (·.1))
    (ha : ∀ u ∈ ps.map (·.1), ∀ v ∈ ps.map (·.1), AgreeOn (x u) (x v) Y Y') :
    (∀ p ∈ ps, p.2.1 = jv z0 t0 x Y' p.1) ∧ ps.IsChain (JLink x Y') := by
  refine ⟨fun p hp => ?_, hc.imp_of_mem_imp fun p q hp hq h => ?_⟩
  · have hm : p.1 ∈ ps.map (·.1) := List.mem_map.2 ⟨p, hp, rfl⟩
    rw [hv p hp]
    exact jv_congr hx (ha _ h0 _ hm) (ha _ hm _ h0)
  · obtain ⟨ys, h1, h2⟩ := h
    refine ⟨ys, h1, ?_⟩
    rwa [← blk_congr (ha _ (List.mem_map.2 ⟨p, hp, rfl⟩) _ (List.mem_map.2 ⟨q, hq, rfl⟩))]

theorem last_split {α : Type} {l : List ℝ} {a : ℝ} {ps : List (ℝ × α)} (h : ps.map (·.1) = l ++ [a]) :
    ∃ A z, ps = A ++ [(a, z)] ∧ A.map (·.1) = l := by
  obtain ⟨A, B, rfl, h1, h2⟩ := List.map_eq_append_iff.1 h
  match B, h2 with
  | [(b, z)], h2 =>
    simp at h2
    subst h2
    exact ⟨A, z, rfl, h1⟩

theorem step_after (hv : ∀ t, ∃ rvs, y t = .ok rvs ∧ VariatesLaw μ ν rvs) (hx : Monotone x)
    (c0 : Pos (vshape ++ [paths])) {l : List ℝ} {a s : ℝ} (hs : (l ++ [a]).Pairwise (· < ·))
    (has : a < s) (hc : ¬ |s - a| ≤ rtol * |a|) (h0 : t0 ∈ l ++ [a]) :
    ∃ Φ : (Pos (vshape ++ [paths]) × ℤ → ℝ) × σ → (Pos (vshape ++ [paths]) × ℤ → ℝ) × σ,
      MeasurePreserving Φ ((Measure.infinitePi fun _ : Pos (vshape ++ [paths]) × ℤ => ν).prod μ)
        ((Measure.infinitePi fun _ : Pos (vshape ++ [paths]) × ℤ => ν).prod μ) ∧
      ∀ Y st m1 nts nts' st', (truePoisson rN dn0 bin).get1 s (pathMem x nts st) = .ok (x s, m1) →
        (truePoisson rN dn0 bin).get1 a m1 = .ok (x a, pathMem x nts' st') →
        (∀ u ∈ l ++ [a], ∀ v ∈ l ++ [a], AgreeOn (x u) (x v) Y (Φ (Y, st')).1) ∧
        ∀ m, JM z0 t0 x Y (l ++ [a]) nts st m → ∃ m',
          (trueCPoisson rtol paths vshape (truePoisson rN dn0 bin) y).get1 s m =
            .ok (jv z0 t0 x (Φ (Y, st')).1 s, m') ∧
          JM z0 t0 x (Φ (Y, st')).1 (l ++ [a, s]) nts' (Φ (Y, st')).2 m' := by
  obtain ⟨Φ, hΦ, hrun⟩ := outside_after (rN := rN) (dn0 := dn0) (bin := bin) hv hx c0 has
  refine ⟨Φ, hΦ, fun Y st m1 nts nts' st' g1 g2 => ?_⟩
  have hle : ∀ v ∈ l ++ [a], v ≤ a := by
    intro v hv
    rw [List.pairwise_append] at hs
    rcases List.mem_append.1 hv with h | h
    · exact (hs.2.2 v h a (by simp)).le
    · exact (List.mem_singleton.1 h).le
  have hagree : ∀ u ∈ l ++ [a], ∀ v ∈ l ++ [a], AgreeOn (x u) (x v) Y (Φ (Y, st')).1 := by
    intro u _ v hv c k _ hk
    have : x v c ≤ x a c := hx (hle v hv) c
    exact ((hrun Y (0, none) _ m1 nts' st' g1 g2).1 c k (by omega)).symm
  refine ⟨hagree, ?_⟩
  rintro m ⟨ps, hps, rfl, hval, hch⟩
  obtain ⟨A, z, rfl, hA⟩ := last_split hps
  obtain ⟨-, ys, hst, hout⟩ := hrun Y z _ m1 nts' st' g1 g2
  rw [← hps] at hs hagree h0
  obtain ⟨hval', hch'⟩ := JM.parts hx hval hch h0 hagree
  have hza : z.1 = jv z0 t0 x (Φ (Y, st')).1 a := hval' (a, z) (by simp)
  have hnew : (fun c => z.1 c + (blk x (Φ (Y, st')).1 a s c).sum) = jv z0 t0 x (Φ (Y, st')).1 s := by
    funext c
    rw [jv_sub (hx has.le), hza]
  rw [hnew] at hout
  have hev := pair_after (S := trueCPoisson rtol paths vshape (truePoisson rN dn0 bin) y) _ hs has hc hout
  refine ⟨_, hev, ?_⟩
  · refine ⟨_, ?_, rfl, ?_, ?_⟩
    · simp [← hA]
    · intro p hp
      rcases List.mem_append.1 hp with hp | hp
      · exact hval' p (by simp [hp])
      · simp only [List.mem_cons, List.not_mem_nil, or_false] at hp
        rcases hp with rfl | rfl
        · exact hza
        · rfl
    · rw [List.isChain_append] at hch' ⊢
      refine ⟨hch'.1, ?_, ?_⟩
      · rw [List.isChain_cons_cons]
        exact ⟨⟨ys, rfl, hst⟩, by simp⟩
      · intro p hp q hq
        simp only [List.head?_cons, Option.mem_def, Option.some.injEq] at hq
        subst hq
        exact hch'.2.2 p hp (a, z) (by simp)

theorem step_before (hv : ∀ t, ∃ rvs, y t = .ok rvs ∧ VariatesLaw μ ν rvs) (hx : Monotone x)
    (c0 : Pos (vshape ++ [paths])) {l : List ℝ} {b s : ℝ} (hs : (b :: l).Pairwise (· < ·))
    (hsb : s < b) (hc : ∀ u ∈ b :: l, ¬ |s - u| ≤ rtol * |u|) (h0 : t0 ∈ b :: l) :
    ∃ Φ : (Pos (vshape ++ [paths]) × ℤ → ℝ) × σ → (Pos (vshape ++ [paths]) × ℤ → ℝ) × σ,
      MeasurePreserving Φ ((Measure.infinitePi fun _ : Pos (vshape ++ [paths]) × ℤ => ν).prod μ)
        ((Measure.infinitePi fun _ : Pos (vshape ++ [paths]) × ℤ => ν).prod μ) ∧
      ∀ Y st m1 nts nts' st', (truePoisson rN dn0 bin).get1 s (pathMem x nts st) = .ok (x s, m1) →
        (truePoisson rN dn0 bin).get1 b m1 = .ok (x b, pathMem x nts' st') →
        (∀ u ∈ b :: l, ∀ v ∈ b :: l, AgreeOn (x u) (x v) Y (Φ (Y, st')).1) ∧
        ∀ m, JM z0 t0 x Y (b :: l) nts st m → ∃ m',
          (trueCPoisson rtol paths vshape (truePoisson rN dn0 bin) y).get1 s m =
            .ok (jv z0 t0 x (Φ (Y, st')).1 s, m') ∧
          JM z0 t0 x (Φ (Y, st')).1 (s :: b :: l) nts' (Φ (Y, st')).2 m' := by
  obtain ⟨Φ, hΦ, hrun⟩ := outside_before (rN := rN) (dn0 := dn0) (bin := bin) hv hx c0 hsb
  refine ⟨Φ, hΦ, fun Y st m1 nts nts' st' g1 g2 => ?_⟩
  have hle : ∀ v ∈ b :: l, b ≤ v := by
    intro v hv
    rcases List.mem_cons.1 hv with rfl | h
    · exact le_rfl
    · exact ((List.pairwise_cons.1 hs).1 v h).le
  have hagree : ∀ u ∈ b :: l, ∀ v ∈ b :: l, AgreeOn (x u) (x v) Y (Φ (Y, st')).1 := by
    intro u hu v _ c k hk _
    have : x b c ≤ x u c := hx (hle u hu) c
    exact ((hrun Y (0, none) _ m1 nts' st' g1 g2).1 c k (by omega)).symm
  refine ⟨hagree, ?_⟩
  rintro m ⟨ps, hps, rfl, hval, hch⟩
  obtain ⟨⟨b', z⟩, B, rfl, hb', hB⟩ := List.map_eq_cons_iff.1 hps
  simp only at hb'
  subst hb'
  obtain ⟨-, ys, hst, hout⟩ := hrun Y z _ m1 nts' st' g1 g2
  rw [← hps] at hs hagree h0 hc
  obtain ⟨hval', hch'⟩ := JM.parts hx hval hch h0 hagree
  have hzb : z.1 = jv z0 t0 x (Φ (Y, st')).1 b' := hval' (b', z) (by simp)
  have hnew : (fun c => z.1 c - (blk x (Φ (Y, st')).1 s b' c).sum) = jv z0 t0 x (Φ (Y, st')).1 s := by
    funext c
    have := jv_sub (z0 := z0) (t0 := t0) (Y := (Φ (Y, st')).1) (hx hsb.le) c
    rw [hzb, this]
    ring
  rw [hnew] at hout
  have hev := pair_before (S := trueCPoisson rtol paths vshape (truePoisson rN dn0 bin) y) _ hs hsb hc hout
  refine ⟨_, hev, ?_⟩
  · refine ⟨_, ?_, rfl, ?_, ?_⟩
    · simp [← hB]
    · intro p hp
      rcases List.mem_cons.1 hp with rfl | hp
      · rfl
      · exact hval' p hp
    · rw [List.isChain_cons_cons]
      exact ⟨⟨ys, rfl, hst⟩, hch'⟩

theorem step_between (hx : Monotone x) (c0 : Pos (vshape ++ [paths])) {l1 l2 : List ℝ} {a b s : ℝ}
    (hs : (l1 ++ a :: b :: l2).Pairwise (· < ·)) (has : a < s) (hsb : s < b)
    (hc : ¬ |s - a| ≤ rtol * |a|) {Y : Pos (vshape ++ [paths]) × ℤ → ℝ} (hg : GoodOn (x a) (x b) Y)
    (hne : x a ≠ x b) {nts nts' : List ℝ} {st st' : σ}
    (ga : (truePoisson rN dn0 bin).get1 a (pathMem x nts st) = .ok (x a, pathMem x nts st))
    (gs : (truePoisson rN dn0 bin).get1 s (pathMem x nts st) = .ok (x s, pathMem x nts' st'))
    (gb : (truePoisson rN dn0 bin).get1 b (pathMem x nts' st') = .ok (x b, pathMem x nts' st'))
    {m : Mem ℝ (JumpZ ℝ (vshape ++ [paths])) (Mem ℝ (Pos (vshape ++ [paths]) → ℤ) σ)}
    (hm : JM z0 t0 x Y (l1 ++ a :: b :: l2) nts st m) : ∃ m',
      (trueCPoisson rtol paths vshape (truePoisson rN dn0 bin) y).get1 s m =
        .ok (jv z0 t0 x Y s, m') ∧ JM z0 t0 x Y (l1 ++ a :: s :: b :: l2) nts' st' m' := by
  obtain ⟨ps, hps, rfl, hval, hch⟩ := hm
  obtain ⟨A, B, rfl, hA, hB1⟩ := List.map_eq_append_iff.1 hps
  obtain ⟨⟨a', z1⟩, B, rfl, ha', hB2⟩ := List.map_eq_cons_iff.1 hB1
  obtain ⟨⟨b', z2⟩, B, rfl, hb', hB⟩ := List.map_eq_cons_iff.1 hB2
  simp only at ha' hb'
  subst ha' hb'
  have hz1 : z1.1 = jv z0 t0 x Y a' := hval (a', z1) (by simp)
  have hz2 : z2.1 = jv z0 t0 x Y b' := hval (b', z2) (by simp)
  rw [List.isChain_append] at hch
  obtain ⟨c1, c2, c3⟩ := hch
  rw [List.isChain_cons_cons] at c2
  obtain ⟨⟨ys, hys, hst⟩, c2⟩ := c2
  simp only at hys hst
  have h1 := hx has.le
  have h2 := hx hsb.le
  obtain ⟨ys1, ys2, s1, s2, hin⟩ := inside_split c0 h1 h2 hg hys hst
    (z2 := z2) (by rw [hz1, hz2]; exact hg.ne (h1.trans h2) hne) ga gs gb
  rw [← hps] at hs
  have hnew : (fun c => z1.1 c + (blk x Y a' s c).sum) = jv z0 t0 x Y s := by
    funext c
    rw [jv_sub h1, hz1]
  have hb := pair_between_aux (S := trueCPoisson rtol paths vshape (truePoisson rN dn0 bin) y)
    (pathMem x nts st) hs has hsb hc
  rw [show (trueCPoisson rtol paths vshape (truePoisson rN dn0 bin) y).inside =
    jumpInside (truePoisson rN dn0 bin) from rfl, hin] at hb
  simp only [hnew] at hb
  refine ⟨_, hb, _, ?_, rfl, ?_, ?_⟩
  · simp [← hA, ← hB]
  · intro p hp
    rcases List.mem_append.1 hp with hp | hp
    · exact hval p (by simp [hp])
    · rcases List.mem_cons.1 hp with rfl | hp
      · exact hz1
      · rcases List.mem_cons.1 hp with rfl | hp
        · rfl
        · exact hval p (by simp only [List.mem_append, List.mem_cons] at hp ⊢; tauto)
  · rw [List.isChain_append, List.isChain_cons_cons, List.isChain_cons_cons]
    refine ⟨c1, ⟨⟨ys1, rfl, s1⟩, ⟨ys2, rfl, s2⟩, c2⟩, ?_⟩
    intro p hp q hq
    simp only [List.head?_cons, Option.mem_def, Option.some.injEq] at hq
    subst hq
    exact c3 p hp (a', z1) (by simp)

theorem step_flat (hx : Monotone x) {l1 l2 : List ℝ} {a b s : ℝ}
    (hs : (l1 ++ a :: b :: l2).Pairwise (· < ·)) (has : a < s) (hsb : s < b)
    (hc : ¬ |s - a| ≤ rtol * |a|) {Y : Pos (vshape ++ [paths]) × ℤ → ℝ}
    (hf : x a = x b) {nts : List ℝ} {st : σ}
    {m : Mem ℝ (JumpZ ℝ (vshape ++ [paths])) (Mem ℝ (Pos (vshape ++ [paths]) → ℤ) σ)}
    (hm : JM z0 t0 x Y (l1 ++ a :: b :: l2) nts st m) :
      (trueCPoisson rtol paths vshape (truePoisson rN dn0 bin) y).get1 s m =
        .ok (jv z0 t0 x Y s, m) := by
  obtain ⟨ps, hps, rfl, hval, hch⟩ := hm
  obtain ⟨A, B, rfl, hA, hB1⟩ := List.map_eq_append_iff.1 hps
  obtain ⟨⟨a', z1⟩, B, rfl, ha', hB2⟩ := List.map_eq_cons_iff.1 hB1
  obtain ⟨⟨b', z2⟩, B, rfl, hb', hB⟩ := List.map_eq_cons_iff.1 hB2
  simp only at ha' hb'
  subst ha' hb'
  have hz1 : z1.1 = jv z0 t0 x Y a' := hval (a', z1) (by simp)
  have hz2 : z2.1 = jv z0 t0 x Y b' := hval (b', z2) (by simp)
  rw [← hps] at hs
  have hb := pair_between_aux (S := trueCPoisson rtol paths vshape (truePoisson rN dn0 bin) y)
    (pathMem x nts st) hs has hsb hc
  have hin : jumpInside (truePoisson rN dn0 bin) z1 z2 a' b' s (pathMem x nts st) =
      .ok ((z1, none), pathMem x nts st) := by
    unfold jumpInside
    rw [if_pos]
    rw [hz1, hz2, jv_same hf]
    exact fun _ => rfl
  rw [show (trueCPoisson rtol paths vshape (truePoisson rN dn0 bin) y).inside =
    jumpInside (truePoisson rN dn0 bin) from rfl, hin] at hb
  rw [hb]
  have hfs : x s = x b' := le_antisymm (hx hsb.le) (hf ▸ hx has.le)
  rw [jv_same hfs, ← hz2]
  rfl

end steps

end Sdepy
