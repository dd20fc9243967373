import Verif.Props.ProcessInterp
import Verif.Props.ProcessSummary
import Mathlib.Analysis.SpecialFunctions.Exp
import Mathlib.Analysis.Complex.Exponential
import Mathlib.Analysis.Complex.Norm

/-!
# Empirical cumulative distribution and characteristic functions of processes
-/

namespace Sdepy
open Spec

/-! ### Broadcasting of points and values -/

theorem axisIdx_append {s i : List ℕ} (h : i.length = s.length) (s' i' : List ℕ) :
    axisIdx (s ++ s') (i ++ i') = axisIdx s i ++ axisIdx s' i' := by
  unfold axisIdx
  rw [List.zipWith_append h.symm]

theorem axisIdx_self {s i : List ℕ} (h : InRange s i) : axisIdx s i = i := by
  induction h with
  | nil => rfl
  | @cons j n js s h1 _ ih =>
    have : axisIdx (n :: s) (j :: js) = (if n = 1 then 0 else j) :: axisIdx s js := rfl
    rw [this, ih]
    split
    · next h => subst h; simp at h1; rw [h1]
    · rfl

theorem axisIdx_ones (i : List ℕ) : axisIdx (List.replicate i.length 1) i = List.replicate i.length 0 := by
  induction i with
  | nil => rfl
  | cons a i ih =>
    have : axisIdx (List.replicate (a :: i).length 1) (a :: i) =
      0 :: axisIdx (List.replicate i.length 1) i := rfl
    rw [this, ih]
    rfl

theorem forall₂_ones_left (s : List ℕ) : List.Forall₂ axOk (List.replicate s.length 1) s := by
  induction s with
  | nil => exact .nil
  | cons a s ih => exact .cons (.inr (.inl rfl)) ih

theorem forall₂_ones_right (s : List ℕ) : List.Forall₂ axOk s (List.replicate s.length 1) := by
  induction s with
  | nil => exact .nil
  | cons a s ih => exact .cons (.inr (.inr rfl)) ih

theorem ax2_ones_left (s : List ℕ) : List.zipWith ax2 (List.replicate s.length 1) s = s := by
  induction s with
  | nil => rfl
  | cons a s ih =>
    simp only [List.length_cons, List.replicate_succ, List.zipWith_cons_cons, ih]
    congr 1
    unfold ax2
    split
    · omega
    · rfl

theorem ax2_ones_right (s : List ℕ) : List.zipWith ax2 s (List.replicate s.length 1) = s := by
  induction s with
  | nil => rfl
  | cons a s ih =>
    simp only [List.length_cons, List.replicate_succ, List.zipWith_cons_cons, ih]
    congr 1
    unfold ax2
    rw [if_pos (.inr rfl)]

theorem binop_eq {α β γ : Type} (f : α → β → γ) {a : Arr α} {b : Arr β} {u : List ℕ}
    (h : bcShape a.shape b.shape = some u) :
    Arr.binop f a b = .ok ⟨u, fun i => f (a.bget i) (b.bget i)⟩ := by
  unfold Arr.binop
  rw [broadcast2_eq, h]

/-- Points are reshaped, adding axes of size one on both sides. -/
theorem reshape_both {α : Type} (x : Arr α) (a c : ℕ) :
    ∃ b, x.reshape (List.replicate a 1 ++ x.shape ++ List.replicate c 1) = .ok b ∧
      b.shape = List.replicate a 1 ++ x.shape ++ List.replicate c 1 ∧
      ∀ j, InRange x.shape j → b.get (List.replicate a 0 ++ j ++ List.replicate c 0) = x.get j := by
  refine ⟨_, by rw [Arr.reshape, if_pos (by simp)], rfl, fun j hj => ?_⟩
  show x.get _ = _
  have h1 := ravel_ones (s := []) (i := []) (x.shape ++ List.replicate c 1) (j ++ List.replicate c 0) a rfl
  have h2 := ravel_ones (s := x.shape) (i := j) [] [] c hj.length
  simp only [List.nil_append, List.append_nil] at h1 h2
  rw [List.append_assoc, List.append_assoc, h1, h2, unravel_ravel hj]

section
variable {K L : Type}

theorem cdfShapes_ok (ts w : List ℕ) (y x : Arr K) (hy : y.shape = ts ++ w) :
    ∃ xx yy, Proc.cdfShapes ts y x = .ok (xx, yy) ∧
      (∀ g : K → K → L, ∃ b, Arr.binop g yy xx = .ok b ∧ b.shape = ts ++ x.shape ++ w ∧
        ∀ i j v, InRange ts i → InRange x.shape j → InRange w v →
          b.get (i ++ j ++ v) = g (y.get (i ++ v)) (x.get j)) ∧
      ∀ g : K → K → L, ∃ b, Arr.binop g xx yy = .ok b ∧ b.shape = ts ++ x.shape ++ w ∧
        ∀ i j v, InRange ts i → InRange x.shape j → InRange w v →
          b.get (i ++ j ++ v) = g (x.get j) (y.get (i ++ v)) := by
  have hyl : y.shape.length - ts.length = w.length := by rw [hy]; simp
  have hyd : y.shape.drop ts.length = w := by rw [hy]; simp
  obtain ⟨xx, hx1, hx2, hx3⟩ := reshape_both x ts.length w.length
  obtain ⟨yy, hy1, hy2, hy3⟩ := reshape_add y ts w x.shape.length hy
  have hbx : ∀ i j v, InRange ts i → InRange x.shape j → InRange w v → xx.bget (i ++ j ++ v) = x.get j := by
    intro i j v hi hj hv
    rw [bget_axis (by rw [hx2]; simp [hi.length, hj.length, hv.length]), hx2,
      axisIdx_append (by simp [hi.length, hj.length]), axisIdx_append (by simp [hi.length]), axisIdx_self hj,
      ← hi.length, ← hv.length, axisIdx_ones, axisIdx_ones, hi.length, hv.length, hx3 j hj]
  have hby : ∀ i j v, InRange ts i → InRange x.shape j → InRange w v → yy.bget (i ++ j ++ v) = y.get (i ++ v) := by
    intro i j v hi hj hv
    rw [bget_axis (by rw [hy2]; simp [hi.length, hj.length, hv.length]), hy2,
      axisIdx_append (by simp [hi.length, hj.length]), axisIdx_append (by simp [hi.length]), axisIdx_self hi,
      axisIdx_self hv, ← hj.length, axisIdx_ones, hj.length, hy3 i v hi hv]
  have hb1 : bcShape yy.shape xx.shape = some (ts ++ x.shape ++ w) := by
    rw [hy2, hx2, bcShape_same, List.zipWith_append (by simp), List.zipWith_append (by simp), ax2_ones_right,
      ax2_ones_left, ax2_ones_right]
    exact List.rel_append (List.rel_append (forall₂_ones_right _) (forall₂_ones_left _)) (forall₂_ones_right _)
  have hb2 : bcShape xx.shape yy.shape = some (ts ++ x.shape ++ w) := by
    rw [hy2, hx2, bcShape_same, List.zipWith_append (by simp), List.zipWith_append (by simp), ax2_ones_right,
      ax2_ones_left, ax2_ones_left]
    exact List.rel_append (List.rel_append (forall₂_ones_left _) (forall₂_ones_right _)) (forall₂_ones_left _)
  refine ⟨xx, yy, ?_, fun g => ⟨_, binop_eq g hb1, rfl, fun i j v hi hj hv => ?_⟩,
    fun g => ⟨_, binop_eq g hb2, rfl, fun i j v hi hj hv => ?_⟩⟩
  · unfold Proc.cdfShapes
    rw [hyl, hyd, hx1, hy1]
  · simp only [hbx i j v hi hj hv, hby i j v hi hj hv]
  · simp only [hbx i j v hi hj hv, hby i j v hi hj hv]

end

/-! ### Cumulative distribution function -/

/-- A function of values across paths: `vals i v m` is the value at time `i`, for component `v` and path `m`. -/
theorem lastAxis {β : Type} {K : Type} (b : Arr K) (f : List K → β) (s : List ℕ) (n : ℕ) (hb : b.shape = s ++ [n]) :
    (b.reduce f [b.shape.length - 1] false).shape = s ∧
      ∀ i, InRange s i → (b.reduce f [b.shape.length - 1] false).get i =
        f ((List.range n).map fun m : ℕ => b.get (i ++ [m])) := by
  obtain ⟨-, h1, h3⟩ := reduce_block b f (s1 := s) (s2 := [n]) (s3 := [])
    (axes := [b.shape.length - 1]) (by rw [hb]; simp) (by
      intro k hk
      rw [hb]
      simp at hk ⊢
      omega)
  refine ⟨by rw [h1]; simp, fun i hi => ?_⟩
  have := h3 i [] hi .nil
  simp only [List.append_nil] at this
  rw [this, ndindex_axis, List.map_map]
  rfl

section cdf
variable {K : Type} [Field K] [LinearOrder K] [IsStrictOrderedRing K]

/-- Fraction of paths with value not above `x`. -/
def Spec.fraction (n : ℕ) (val : ℕ → K) (x : K) : K := ((Finset.range n).filter fun m => val m ≤ x).card / n

theorem sum_indicator (n : ℕ) (val : ℕ → K) (x : K) :
    npSum ((List.range n).map fun m : ℕ => if val m ≤ x then (1 : K) else 0) =
      ((Finset.range n).filter fun m => val m ≤ x).card := by
  rw [npSum_eq, Finset.card_filter]
  push_cast
  rfl

theorem cdf_core (cast : K → K) (p : Proc K K) (t x : Option (Arr K)) {ts : List ℕ} {y u : Arr K}
    (ha : p.cdfArgs cast t x = .ok (ts, y, u)) (hy : y.shape = ts ++ (p.vshape ++ [p.paths])) :
    ∃ z, p.cdf cast t x = .ok z ∧ z.shape = ts ++ u.shape ++ p.vshape ∧
      ∀ i j v, InRange ts i → InRange u.shape j → InRange p.vshape v →
        z.get (i ++ j ++ v) = fraction p.paths (fun m => y.get (i ++ v ++ [m])) (u.get j) := by
  obtain ⟨xx, yy, h1, h2, -⟩ := cdfShapes_ok (L := K) ts (p.vshape ++ [p.paths]) y u hy
  obtain ⟨b, hb1, hb2, hb3⟩ := h2 fun y x : K => if y ≤ x then (1 : K) else 0
  obtain ⟨hr1, hr2⟩ := lastAxis b npSum (ts ++ u.shape ++ p.vshape) p.paths (by rw [hb2]; simp)
  refine ⟨⟨(b.reduce npSum [b.shape.length - 1] false).shape,
    fun i => (b.reduce npSum [b.shape.length - 1] false).get i / p.paths⟩, ?_, hr1, fun i j v hi hj hv => ?_⟩
  · unfold Proc.cdf
    rw [ha]
    simp only [h1, hb1]
  · simp only
    have hij : InRange (ts ++ u.shape ++ p.vshape) (i ++ j ++ v) :=
      (inRange_append (by simp [hi.length, hj.length])).2 ⟨(inRange_append hi.length).2 ⟨hi, hj⟩, hv⟩
    rw [hr2 _ hij]
    unfold fraction
    rw [← sum_indicator]
    congr 2
    apply List.map_congr_left
    intro m hm
    have := hb3 i j (v ++ [m]) hi hj ((inRange_append hv.length).2 ⟨hv, .cons (List.mem_range.1 hm) .nil⟩)
    rw [List.append_assoc (i ++ j), this, List.append_assoc i]

/-- **C49**. `p.cdf(t, x)` has shape `t.shape + x.shape + vshape`; its values are the fraction of paths with
value at time `t` not above `x`. -/
theorem C49_cdf (cast : K → K) (p : Proc K K) (h2 : 2 ≤ p.x.shape.length) (t x : Arr K) :
    ∃ z, p.cdf cast (some t) (some x) = .ok z ∧ z.shape = t.shape ++ x.shape ++ p.vshape ∧
      ∀ i j v, InRange t.shape i → InRange x.shape j → InRange p.vshape v →
        z.get (i ++ j ++ v) = fraction p.paths (fun m => p.at cast .linear (t.get i) (v ++ [m])) (x.get j) := by
  have hc := C44_call cast .linear p t h2
  obtain ⟨z, h1, h3, h4⟩ := cdf_core cast p (some t) (some x) rfl (by rw [hc.1, List.append_assoc])
  refine ⟨z, h1, h3, fun i j v hi hj hv => ?_⟩
  rw [h4 i j v hi hj hv]
  congr 1
  funext m
  rw [List.append_assoc, hc.2 i _ hi]

/-- **C49**. `p.cdf(x)`, or `p.cdf(x=x)`: values of the process along its timeline are used. -/
theorem C49_cdf_timeline (cast : K → K) (p : Proc K K) (hp : IsProc p) (h2 : 2 ≤ p.x.shape.length) (x : Arr K) :
    ∃ z, p.cdf cast (some x) none = .ok z ∧ p.cdf cast none (some x) = .ok z ∧
      z.shape = p.t.length :: x.shape ++ p.vshape ∧
      ∀ k j v, k < p.t.length → InRange x.shape j → InRange p.vshape v →
        z.get (k :: j ++ v) = fraction p.paths (fun m => p.x.get (k :: v ++ [m])) (x.get j) := by
  obtain ⟨z, h1, h3, h4⟩ := cdf_core cast p (some x) none rfl (proc_shape hp h2)
  exact ⟨z, h1, h1, h3, fun k j v hk hj hv => h4 [k] j v (.cons hk .nil) hj hv⟩

/-- **C49**. Fractions of paths are between 0 and 1, do not decrease with `x`, are 0 below all values, 1 above. -/
theorem C49_fraction (n : ℕ) (val : ℕ → K) :
    (∀ x, 0 ≤ fraction n val x ∧ fraction n val x ≤ 1) ∧
    (∀ x y, x ≤ y → fraction n val x ≤ fraction n val y) ∧
    (∀ x, (∀ m < n, x < val m) → fraction n val x = 0) ∧
    ∀ x, 0 < n → (∀ m < n, val m ≤ x) → fraction n val x = 1 := by
  unfold fraction
  refine ⟨fun x => ⟨by positivity, ?_⟩, fun x y h => ?_, fun x h => ?_, fun x hn h => ?_⟩
  · apply div_le_one_of_le₀ _ (by positivity)
    have := Finset.card_filter_le (Finset.range n) fun m => val m ≤ x
    rw [Finset.card_range] at this
    exact_mod_cast this
  · apply div_le_div_of_nonneg_right _ (by positivity)
    have : ((Finset.range n).filter fun m => val m ≤ x) ⊆ (Finset.range n).filter fun m => val m ≤ y := by
      intro m hm
      rw [Finset.mem_filter] at hm ⊢
      exact ⟨hm.1, hm.2.trans h⟩
    exact_mod_cast Finset.card_le_card this
  · rw [Finset.filter_false_of_mem]
    · simp
    · intro m hm
      exact not_le.2 (h m (Finset.mem_range.1 hm))
  · rw [Finset.filter_true_of_mem]
    · rw [Finset.card_range]
      exact div_self (by exact_mod_cast hn.ne')
    · intro m hm
      exact h m (Finset.mem_range.1 hm)

/-- **C49**. Points are mandatory. -/
theorem C49_missing (cast : K → K) (p : Proc K K) : p.cdf cast none none = .error .typeError := rfl

end cdf

/-! ### Characteristic function -/

open Complex in
/-- Average across paths of `exp(1j*u*x)`. -/
noncomputable def Spec.expAverage (n : ℕ) (val : ℕ → ℝ) (u : ℝ) : ℂ :=
  (∑ m ∈ Finset.range n, exp (I * u * val m)) / n

theorem chf_core (cast : ℝ → ℝ) (p : Proc ℝ ℝ) (t x : Option (Arr ℝ)) {ts : List ℕ} {y u : Arr ℝ}
    (ha : p.cdfArgs cast t x = .ok (ts, y, u)) (hy : y.shape = ts ++ (p.vshape ++ [p.paths])) :
    ∃ z, p.chf cast t x = .ok z ∧ z.shape = ts ++ u.shape ++ p.vshape ∧
      ∀ i j v, InRange ts i → InRange u.shape j → InRange p.vshape v →
        z.get (i ++ j ++ v) = expAverage p.paths (fun m => y.get (i ++ v ++ [m])) (u.get j) := by
  obtain ⟨xx, yy, h1, -, h2⟩ := cdfShapes_ok (L := ℂ) ts (p.vshape ++ [p.paths]) y u hy
  obtain ⟨b, hb1, hb2, hb3⟩ := h2 fun u y : ℝ => Complex.exp (Complex.I * u * y)
  obtain ⟨hr1, hr2⟩ := lastAxis b npMean (ts ++ u.shape ++ p.vshape) p.paths (by rw [hb2]; simp)
  refine ⟨b.reduce npMean [b.shape.length - 1] false, ?_, hr1, fun i j v hi hj hv => ?_⟩
  · unfold Proc.chf
    rw [ha]
    simp only [h1, hb1]
  · have hij : InRange (ts ++ u.shape ++ p.vshape) (i ++ j ++ v) :=
      (inRange_append (by simp [hi.length, hj.length])).2 ⟨(inRange_append hi.length).2 ⟨hi, hj⟩, hv⟩
    rw [hr2 _ hij]
    unfold expAverage npMean
    rw [npSum_eq]
    simp only [List.length_map, List.length_range]
    congr 1
    show _ = ((List.range p.paths).map _).sum
    congr 1
    apply List.map_congr_left
    intro m hm
    have := hb3 i j (v ++ [m]) hi hj ((inRange_append hv.length).2 ⟨hv, .cons (List.mem_range.1 hm) .nil⟩)
    rw [List.append_assoc (i ++ j), this, List.append_assoc i]

/-- **C49**. `p.chf(t, u)` has shape `t.shape + u.shape + vshape`; its values are averages across paths of
`exp(1j*u*p(t))`. -/
theorem C49_chf (cast : ℝ → ℝ) (p : Proc ℝ ℝ) (h2 : 2 ≤ p.x.shape.length) (t u : Arr ℝ) :
    ∃ z, p.chf cast (some t) (some u) = .ok z ∧ z.shape = t.shape ++ u.shape ++ p.vshape ∧
      ∀ i j v, InRange t.shape i → InRange u.shape j → InRange p.vshape v →
        z.get (i ++ j ++ v) = expAverage p.paths (fun m => p.at cast .linear (t.get i) (v ++ [m])) (u.get j) := by
  have hc := C44_call cast .linear p t h2
  obtain ⟨z, h1, h3, h4⟩ := chf_core cast p (some t) (some u) rfl (by rw [hc.1, List.append_assoc])
  refine ⟨z, h1, h3, fun i j v hi hj hv => ?_⟩
  rw [h4 i j v hi hj hv]
  congr 1
  funext m
  rw [List.append_assoc, hc.2 i _ hi]

/-- **C49**. `p.chf(u)`, or `p.chf(u=u)`: values of the process along its timeline are used. -/
theorem C49_chf_timeline (cast : ℝ → ℝ) (p : Proc ℝ ℝ) (hp : IsProc p) (h2 : 2 ≤ p.x.shape.length) (u : Arr ℝ) :
    p.chf cast none none = .error .typeError ∧
    ∃ z, p.chf cast (some u) none = .ok z ∧ p.chf cast none (some u) = .ok z ∧
      z.shape = p.t.length :: u.shape ++ p.vshape ∧
      ∀ k j v, k < p.t.length → InRange u.shape j → InRange p.vshape v →
        z.get (k :: j ++ v) = expAverage p.paths (fun m => p.x.get (k :: v ++ [m])) (u.get j) := by
  obtain ⟨z, h1, h3, h4⟩ := chf_core cast p (some u) none rfl (proc_shape hp h2)
  exact ⟨rfl, z, h1, h1, h3, fun k j v hk hj hv => h4 [k] j v (.cons hk .nil) hj hv⟩

/-- **C49**. Averages of exponentials are 1 at 0, have modulus at most 1, and take conjugate values at opposite
points. -/
theorem C49_average (n : ℕ) (hn : 0 < n) (val : ℕ → ℝ) :
    expAverage n val 0 = 1 ∧ (∀ u, ‖expAverage n val u‖ ≤ 1) ∧
    ∀ u, expAverage n val (-u) = (starRingEnd ℂ) (expAverage n val u) := by
  unfold expAverage
  have hn' : (n : ℂ) ≠ 0 := by exact_mod_cast hn.ne'
  refine ⟨?_, fun u => ?_, fun u => ?_⟩
  · simp [hn']
  · rw [norm_div, Complex.norm_natCast]
    apply div_le_one_of_le₀ _ (by positivity)
    calc ‖∑ m ∈ Finset.range n, Complex.exp (Complex.I * u * val m)‖
        ≤ ∑ m ∈ Finset.range n, ‖Complex.exp (Complex.I * u * val m)‖ := norm_sum_le _ _
      _ = ∑ m ∈ Finset.range n, 1 := by
        apply Finset.sum_congr rfl
        intro m _
        rw [mul_assoc, mul_comm, ← Complex.ofReal_mul, Complex.norm_exp_ofReal_mul_I]
      _ = n := by simp
  · rw [map_div₀, map_sum, Complex.conj_natCast]
    congr 1
    apply Finset.sum_congr rfl
    intro m _
    rw [← Complex.exp_conj]
    congr 1
    simp

example := C49_cdf id exProc (by simp [exProc]) exTimes (Arr.scalar 50)
example := C49_cdf_timeline id exProc exProc_isProc (by simp [exProc]) (⟨[2, 1], fun _ => 50⟩)
example : fraction 4 (fun m => exProc.x.get [0, 0, m]) 1 = 1 / 2 := by decide +kernel
example := C49_fraction (K := ℚ) 3 fun m => (m : ℚ)
example := C49_chf id (⟨[0, 1], ⟨[2, 3], fun i => ((i.headD 0 : ℕ) : ℝ)⟩⟩ : Proc ℝ ℝ) (by simp)
  (Arr.scalar 0) (Arr.scalar 1)
example := C49_chf_timeline id (⟨[0, 1], ⟨[2, 3], fun i => ((i.headD 0 : ℕ) : ℝ)⟩⟩ : Proc ℝ ℝ) ⟨by simp, rfl⟩
  (by simp) (Arr.scalar 1)
example := C49_average 3 (by omega) fun m => (m : ℝ)

end Sdepy
