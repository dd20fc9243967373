import Verif.Lemmas.JumpLaw
import Verif.Model.JumpSources

/-!
# Draws of a compound Poisson source
-/

set_option linter.unusedSectionVars false

open MeasureTheory ProbabilityTheory

namespace Sdepy

open Spec

variable {σ : Type} [MeasurableSpace σ] {μ : Measure σ} [IsProbabilityMeasure μ]

/-- An array with given values in its cells. -/
noncomputable def ofCells (shape : List ℕ) (d : Cells shape → ℤ) : Arr ℤ :=
  open Classical in ⟨shape, fun i => if h : InRange shape i then d ⟨i, h⟩ else 0⟩

theorem ofCells_get {shape : List ℕ} (d : Cells shape → ℤ) (c : Cells shape) :
    (ofCells shape d).get c = d c := by
  simp only [ofCells]
  rw [dif_pos c.2]

theorem trueCells_congr {shape : List ℕ} {p q : List ℕ → Bool} (h : ∀ i, InRange shape i → p i = q i) :
    trueCells shape p = trueCells shape q :=
  List.filter_congr fun i hi => h i (mem_ndindex.1 hi)

theorem jumpLoop_congr {Y : Type} [CommRing Y] {rvs : Rvs Y σ} {sg : ℤ} {a b : Arr ℤ}
    (hs : a.shape = b.shape)
    (h : ∀ i, InRange a.shape i → a.get i = b.get i) (n j : ℕ) (dz : Arr Y) (ys : List (YSample Y))
    (s : σ) : jumpLoop rvs sg a n j dz ys s = jumpLoop rvs sg b n j dz ys s := by
  obtain ⟨sa, ga⟩ := a
  obtain ⟨sb, gb⟩ := b
  simp only at hs h
  subst hs
  induction n generalizing j dz ys s with
  | zero => rfl
  | succ n ih =>
    simp only [jumpLoop]
    rw [trueCells_congr (p := fun i => decide (ga i = j)) (q := fun i => decide (gb i = j))
      (fun i hi => by rw [h i hi])]
    simp only [ih]

theorem arrMax_agree {a b : Arr ℤ} (hs : a.shape = b.shape)
    (h : ∀ i, InRange a.shape i → a.get i = b.get i) : arrMax a = arrMax b := by
  unfold arrMax
  rw [← hs, List.map_congr_left fun i hi => h i (mem_ndindex.1 hi)]

theorem arrMax_some {a : Arr ℤ} (h : Nonempty (Cells a.shape)) : ∃ m, arrMax a = .ok m := by
  obtain ⟨c⟩ := h
  unfold arrMax
  split
  · next h0 =>
    have : c.1 ∈ ndindex a.shape := mem_ndindex.2 c.2
    rw [List.map_eq_nil_iff] at h0
    rw [h0] at this
    cases this
  · exact ⟨_, rfl⟩

/-- Jumps in each cell, given their numbers. -/
noncomputable def jumpsFor (rvs : Rvs ℝ σ) (sg : ℤ) (shape : List ℕ) (a : Arr ℤ) (s : σ) :
    Py ((Cells shape → ℝ) × σ) :=
  match arrMax a with
  | .error e => .error e
  | .ok m =>
    match jumpLoop rvs sg a m.toNat 1 ⟨shape, fun _ => 0⟩ [] s with
    | .error e => .error e
    | .ok ((dz, _), s) => .ok (fun c => dz.get c, s)

theorem jumpsFor_law {rvs : Rvs ℝ σ} {ν : Measure ℝ} [IsProbabilityMeasure ν]
    (hr : VariatesLaw μ ν rvs) (sg : ℤ) {shape : List ℕ} (hne : Nonempty (Cells shape))
    (d : Cells shape → ℤ) :
    DrawsLaw μ (Measure.pi fun c => (sumLaw ν (d c).toNat).map fun x => (sg : ℝ) * x)
      (jumpsFor rvs sg shape (ofCells shape d)) := by
  obtain ⟨m, hm⟩ := arrMax_some (a := ofCells shape d) hne
  have hle : ∀ c, d c ≤ m := fun c => by
    have := arrMax_spec hm c c.2
    rwa [ofCells_get] at this
  obtain ⟨g, hg, hgm, hrun⟩ := jumpLoop_law hr sg (ofCells shape d) m.toNat 1
  have hD : DrawsLaw μ (Measure.pi fun c : Cells shape => loopLaw ν sg 1 m.toNat (d c))
      fun s => .ok (g s) := by
    have e : (fun c : Cells (ofCells shape d).shape => loopLaw ν sg 1 m.toNat ((ofCells shape d).get c)) =
        fun c : Cells shape => loopLaw ν sg 1 m.toNat (d c) := funext fun c => by
      rw [ofCells_get d c]
    rw [e] at hgm
    exact ⟨g, hg, fun _ => rfl, hgm⟩
  let q : Cells shape → ℝ → ℝ := fun c x => if ((1 : ℕ) : ℤ) ≤ d c ∧ d c < (1 : ℕ) + m.toNat then x else 0
  have hq : ∀ c, Measurable (q c) := by
    intro c
    simp only [q]
    split_ifs <;> fun_prop
  have h2 := hD.map (φ := fun x c => q c (x c))
    (measurable_pi_iff.2 fun c => (hq c).comp (measurable_pi_apply c))
  have e : (Measure.pi fun c : Cells shape => loopLaw ν sg 1 m.toNat (d c)).map (fun x c => q c (x c)) =
      Measure.pi fun c => (sumLaw ν (d c).toNat).map fun x => (sg : ℝ) * x := by
    have h3 := Measure.pi_map_pi (μ := fun c : Cells shape => loopLaw ν sg 1 m.toNat (d c)) (f := q)
      (fun c => (hq c).aemeasurable)
    rw [h3]
    congr 1
    funext c
    simp only [q, loopLaw]
    have := hle c
    by_cases h : ((1 : ℕ) : ℤ) ≤ d c ∧ d c < (1 : ℕ) + m.toNat
    · simp only [if_pos h]
      exact Measure.map_id
    · simp only [if_neg h]
      have h0 : (d c).toNat = 0 := by push_cast at h; omega
      rw [h0, sumLaw_zero, Measure.map_dirac' (by fun_prop), Measure.map_dirac' (by fun_prop), mul_zero]
  rw [e] at h2
  convert h2 using 1
  funext s
  obtain ⟨dz', ys', h4, -, h5⟩ := hrun ⟨shape, fun _ => 0⟩ [] s rfl
  simp only [jumpsFor, hm, h4, Except.map, Except.ok.injEq, Prod.mk.injEq, and_true]
  funext c
  rw [h5 c, ofCells_get]

/-- A single realisation, at scalar times. -/
theorem cpoissonCall_scalar {S : CPoissonSrc ℝ ℝ σ} {lam : Param ℝ}
    {draw : (List ℕ → ℝ) → List ℕ → σ → (List ℕ → ℤ) × σ}
    (hS : S.dn = poissonCall ⟨S.paths, S.vshape, lam⟩ draw) {t dt : ℝ} (hdt : dt ≠ 0) {L : Arr ℝ}
    (hL : LamIs lam (t + dt / 2) L) (hb : BcOk L.shape (S.vshape ++ [S.paths]))
    (h0 : ∀ c, InRange (S.vshape ++ [S.paths]) c → 0 ≤ L.bget c) {rvs : Rvs ℝ σ}
    (hy : S.y (t + dt / 2) = .ok rvs) (s : σ) :
    (match cpoissonCall S (.scalar t) (.scalar dt) s with
      | .error e => .error e
      | .ok ((dz, _, _), s) => .ok (fun c : Cells (S.vshape ++ [S.paths]) => dz.get c, s)) =
    jumpsFor rvs (sgn dt) (S.vshape ++ [S.paths])
      ⟨S.vshape ++ [S.paths], (draw (fun c => |dt| * L.bget c) (S.vshape ++ [S.paths]) s).1⟩
      (draw (fun c => |dt| * L.bget c) (S.vshape ++ [S.paths]) s).2 := by
  set size := S.vshape ++ [S.paths] with hsize
  have hp : poissonDraw draw ⟨L.shape, fun j => |dt| * L.get j⟩ size s =
      .ok (⟨size, (draw (fun c => |dt| * L.bget c) size s).1⟩,
        (draw (fun c => |dt| * L.bget c) size s).2) :=
    poissonDraw_ok.2 ⟨hb, fun i hi => mul_nonneg (abs_nonneg _) (h0 i hi), rfl, rfl⟩
  set n := (draw (fun c => |dt| * L.bget c) size s).1 with hn
  set s1 := (draw (fun c => |dt| * L.bget c) size s).2 with hs1
  have hsg : sgn dt * sgn dt = 1 := by
    unfold sgn
    rcases lt_or_gt_of_ne hdt with h | h
    · rw [if_neg h.not_gt, if_pos h]; rfl
    · rw [if_pos h]; rfl
  have hbr : broadcast2 (Arr.scalar t) (Arr.scalar dt) = .ok (⟨[], fun _ => t⟩, ⟨[], fun _ => dt⟩) := by
    rw [broadcast2_eq]; rfl
  have hbr' : broadcast2 (⟨[], fun _ => t⟩ : Arr ℝ) (⟨[], fun _ => dt⟩ : Arr ℝ) =
      .ok (⟨[], fun _ => t⟩, ⟨[], fun _ => dt⟩) := hbr
  have hpc : S.dn ⟨[], fun _ => t⟩ ⟨[], fun _ => dt⟩ s =
      .ok (⟨size, fun j => sgn dt * n j⟩, s1) := by
    rw [hS]
    simp only [poissonCall, hbr', ndindex, loopIdx, poissonBody, lamIs_at.1 hL, ← hsize, hp,
      assemble, bind, Except.bind, pure, Except.pure, List.nil_append, List.length_nil, List.take_zero,
      List.drop_zero, List.lookup]
    rfl
  unfold cpoissonCall
  simp only [hbr, hpc, List.length_nil, List.take_zero, List.drop_zero, ndindex, loopIdx, ne_eq,
    not_true_eq_false, if_false, cpoissonBody, List.nil_append, hy, ← hsize]
  have hc : ∀ i, InRange size i → sgn dt * (sgn dt * n i) = n i := by
    intro i _
    rw [← mul_assoc, hsg, one_mul]
  have e1 : arrMax ⟨size, fun j => sgn dt * (sgn dt * n j)⟩ = arrMax ⟨size, n⟩ :=
    arrMax_agree rfl hc
  have e2 : ∀ k, jumpLoop rvs (sgn dt) ⟨size, fun j => sgn dt * (sgn dt * n j)⟩ k 1 ⟨size, fun _ => 0⟩ []
      s1 = jumpLoop rvs (sgn dt) ⟨size, n⟩ k 1 ⟨size, fun _ => 0⟩ [] s1 :=
    fun k => jumpLoop_congr (a := ⟨size, fun j => sgn dt * (sgn dt * n j)⟩) (b := ⟨size, n⟩) rfl hc k 1
      _ _ _
  unfold jumpsFor
  rw [e1]
  cases hm : arrMax ⟨size, n⟩ with
  | error e => rfl
  | ok m =>
    simp only [e2]
    cases hj : jumpLoop rvs (sgn dt) ⟨size, n⟩ m.toNat 1 ⟨size, fun _ => 0⟩ [] s1 with
    | error e => rfl
    | ok r => rfl

/-- Draws of a compound Poisson source. -/
theorem cpoisson_draws {S : CPoissonSrc ℝ ℝ σ} {lam : Param ℝ}
    {draw : (List ℕ → ℝ) → List ℕ → σ → (List ℕ → ℤ) × σ} (hd : PoissonDraws μ draw)
    (hS : S.dn = poissonCall ⟨S.paths, S.vshape, lam⟩ draw)
    (hne : Nonempty (Cells (S.vshape ++ [S.paths]))) {t dt : ℝ} (hdt : dt ≠ 0) {L : Arr ℝ}
    (hL : LamIs lam (t + dt / 2) L) (hb : BcOk L.shape (S.vshape ++ [S.paths]))
    (h0 : ∀ c, InRange (S.vshape ++ [S.paths]) c → 0 ≤ L.bget c) {rvs : Rvs ℝ σ}
    (hy : S.y (t + dt / 2) = .ok rvs) {ν : Measure ℝ} [IsProbabilityMeasure ν]
    (hr : VariatesLaw μ ν rvs) :
    DrawsLaw μ (Measure.pi fun c : Cells (S.vshape ++ [S.paths]) =>
        (compoundPoisson (L.bget c * |dt|) ν).map fun x => (SignType.sign dt : ℝ) * x)
      fun s => match cpoissonCall S (.scalar t) (.scalar dt) s with
        | .error e => .error e
        | .ok ((dz, _, _), s) => .ok (fun c => dz.get c, s) := by
  set size := S.vshape ++ [S.paths] with hsize
  have hP := hd (fun c => |dt| * L.bget c) size (fun i hi => mul_nonneg (abs_nonneg _) (h0 i hi))
  have hB := hP.bind (fun d => jumpsFor_law hr (sgn dt) hne d)
  rw [bind_poisson] at hB
  have hsg : ((sgn dt : ℤ) : ℝ) = (SignType.sign dt : ℝ) := by
    rw [sgn_eq]; simp
  simp only [hsg] at hB
  convert hB using 1
  · congr 1
    funext c
    rw [mul_comm]
  · funext s
    rw [cpoissonCall_scalar hS hdt hL hb h0 hy s]
    simp only [bind, Except.bind]
    unfold jumpsFor
    have hc : ∀ i, InRange size i → (draw (fun c => |dt| * L.bget c) size s).1 i =
        (ofCells size fun c => (draw (fun c => |dt| * L.bget c) size s).1 c).get i :=
      fun i hi => (ofCells_get (fun c : Cells size => (draw (fun c => |dt| * L.bget c) size s).1 c)
        ⟨i, hi⟩).symm
    rw [arrMax_agree (a := ⟨size, (draw (fun c => |dt| * L.bget c) size s).1⟩)
      (b := ofCells size fun c => (draw (fun c => |dt| * L.bget c) size s).1 c) rfl hc]
    cases hm : arrMax (ofCells size fun c => (draw (fun c => |dt| * L.bget c) size s).1 c) with
    | error e => rfl
    | ok m =>
      simp only
      rw [jumpLoop_congr (a := ⟨size, (draw (fun c => |dt| * L.bget c) size s).1⟩)
        (b := ofCells size fun c => (draw (fun c => |dt| * L.bget c) size s).1 c) rfl hc]

/-- Draws of a plain Wiener source. -/
theorem wiener_draws {W : WienerSrc} {rng : Rng σ} (hW : W.corr = .none)
    (hr : DrawsLaw μ (Measure.pi fun _ : Cells (W.vshape ++ [W.paths]) => gaussianReal 0 1)
      fun s => .ok (fun c => (rng.normal (W.vshape ++ [W.paths]) s).1 c,
        (rng.normal (W.vshape ++ [W.paths]) s).2)) (t dt : ℝ) :
    DrawsLaw μ (Measure.pi fun _ : Cells (W.vshape ++ [W.paths]) => gaussianReal 0 |dt|.toNNReal)
      fun s => match wienerCall W rng (.scalar t) (.scalar dt) s with
        | .error e => .error e
        | .ok (dz, s) => .ok (fun c => dz.get c, s) := by
  have h2 := hr.map (φ := fun x c => x c * Real.sqrt |dt|) (by fun_prop)
  have e := Measure.pi_map_pi (μ := fun _ : Cells (W.vshape ++ [W.paths]) => gaussianReal 0 1)
    (f := fun _ x => x * Real.sqrt |dt|) (fun c => by fun_prop)
  rw [e] at h2
  convert h2 using 1
  · congr 1
    funext c
    rw [gaussianReal_map_mul_const]
    congr 1
    · simp
    · ext
      simp [Real.sq_sqrt (abs_nonneg dt)]
  · funext s
    have hbr : broadcast2 (Arr.scalar t) (Arr.scalar dt) = .ok (⟨[], fun _ => t⟩, ⟨[], fun _ => dt⟩) := by
      rw [broadcast2_eq]; rfl
    simp only [wienerCall, hbr, wienerStd, hW, Except.map, List.nil_append]

end Sdepy
