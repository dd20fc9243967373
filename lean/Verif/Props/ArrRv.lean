import Verif.Props.JumpLaw
import Verif.Lemmas.ArrRv

/-!
# Preset distributions of jumps with array parameters
-/

set_option linter.unusedSectionVars false
set_option linter.unusedSimpArgs false

namespace Sdepy

open Spec Real MeasureTheory Set ProbabilityTheory

section
variable {Ω : Type} [MeasurableSpace Ω]

/-- A distribution with parameters of joint shape `S`, item `i` of them yielding the variate `X i`. Variates
may have any shape that `S` fits, each cell being given its own item of parameters and its own draw; other
shapes are rejected. -/
structure Spec.YieldsItems (S : List ℕ) (X : List ℕ → Ω → ℝ) (d : RVA Ω) : Prop where
  variates : ∀ size z, Fits S size → ∃ r, d.rvs size z = .ok r ∧
    (∃ k, r.shape = List.replicate k 1 ++ size) ∧ r.shape.length ≤ max S.length size.length ∧
    ∀ c, InRange size c → cellValue r c = X (cellIndex S c) (z c)
  rejected : ∀ size z, ¬ Fits S size → d.rvs size z = .error .valueError

/-- Moreover mean, variance and standard deviation are reported for each item. -/
structure Spec.DescribesItems (μ : Measure Ω) (S : List ℕ) (X : List ℕ → Ω → ℝ) (d : RVA Ω) : Prop
    extends YieldsItems S X d where
  memLp : ∀ i, InRange S i → MemLp (X i) 2 μ
  mean : d.mean.shape = S ∧ ∀ i, InRange S i → d.mean.get i = .fin (∫ z, X i z ∂μ)
  var : d.var.shape = S ∧ ∀ i, InRange S i → d.var.get i = .fin (Var[X i; μ])
  std : d.std.shape = S ∧ ∀ i, InRange S i → d.std.get i = .fin (√(Var[X i; μ]))

/-- The mean of the exponential is reported for each item, infinite exactly if it does not exist. -/
def Spec.ReportsExpMean (μ : Measure Ω) (S : List ℕ) (X : List ℕ → Ω → ℝ) (em : Py (Arr Num)) : Prop :=
  ∃ r, em = .ok r ∧ r.shape = S ∧ ∀ i, InRange S i →
    (Integrable (fun z => exp (X i z)) μ ∧ r.get i = .fin (∫ z, exp (X i z) ∂μ)) ∨
      (¬ Integrable (fun z => exp (X i z)) μ ∧ r.get i = .inf)

/-- The variates determine what is reported. -/
theorem describes_of_variates {μ : Measure Ω} {rv : RV Ω} {Y : Ω → ℝ} (h : Describes μ rv)
    (hY : ∀ z, rv.rvs z = .ok (Y z)) : MemLp Y 2 μ ∧ rv.mean = .fin (∫ z, Y z ∂μ) ∧
    rv.var = .fin (Var[Y; μ]) ∧ rv.std = .fin (√(Var[Y; μ])) ∧
    ((Integrable (fun z => exp (Y z)) μ ∧ rv.expMean = .fin (∫ z, exp (Y z) ∂μ)) ∨
      (¬ Integrable (fun z => exp (Y z)) μ ∧ rv.expMean = .inf)) := by
  obtain ⟨X, hX, h1, h2, h3, h4, h5⟩ := h
  have e : X = Y := by
    funext z
    have := (hX z).symm.trans (hY z)
    exact Except.ok.inj this
  subst e
  exact ⟨h1, h2, h3, h4, h5⟩

end

/-- Variates of distributions of `scipy.stats`, with nonnegative scales. -/
theorem frozenA_yields {m v : ℝ} {loc scale : Arr ℝ} {em : Py (Arr Num)}
    {S : List ℕ} (h1 : loc.shape = S) (h2 : scale.shape = S) {lv sv : List ℕ → ℝ}
    (hlv : ∀ i, InRange S i → loc.get i = lv i) (hsv : ∀ i, InRange S i → scale.get i = sv i)
    (hpos : ∀ i, InRange S i → 0 ≤ sv i) :
    YieldsItems S (fun i z => lv i + sv i * z) (frozenA m v loc scale em) := by
  have hneg : ¬ scale.anyItem (· < 0) := by
    rw [anyItem_iff, h2]
    rintro ⟨c, hc, h⟩
    rw [hsv c hc] at h
    exact absurd (hpos c hc) (not_le.2 h)
  refine ⟨?_, ?_⟩
  · intro size z hf
    refine ⟨⟨size, fun i => loc.bget i + scale.bget i * z i⟩, ?_, ⟨0, rfl⟩, le_max_right _ _, ?_⟩
    · simp only [frozenA, if_neg hneg]
      rw [scipyRvs_ok (by rw [h2]; exact hf)]
    · intro c hc
      have hi := cellIndex_inRange hf hc
      rw [cellValue_self _ hc]
      simp only
      rw [bget_item loc (S := size) (by rw [h1]; exact hf) hc,
        bget_item scale (S := size) (by rw [h2]; exact hf) hc, h1, h2, hlv _ hi, hsv _ hi]
  · intro size z hf
    simp only [frozenA, if_neg hneg]
    rw [scipyRvs_error (by rw [h2]; exact hf)]

/-- Distributions of `scipy.stats`, with positive scales. -/
theorem frozenA_describes {μ : Measure ℝ} {m v : ℝ} {loc scale : Arr ℝ} {em : Py (Arr Num)}
    {emv : List ℕ → Num} {S : List ℕ} (h1 : loc.shape = S) (h2 : scale.shape = S) {lv sv : List ℕ → ℝ}
    (hlv : ∀ i, InRange S i → loc.get i = lv i) (hsv : ∀ i, InRange S i → scale.get i = sv i)
    (hpos : ∀ i, InRange S i → 0 < sv i)
    (hd : ∀ i, InRange S i → Describes μ (frozen m v (lv i) (sv i) (emv i)))
    (hem : ∃ r, em = .ok r ∧ r.shape = S ∧ ∀ i, InRange S i → r.get i = emv i) :
    DescribesItems μ S (fun i z => lv i + sv i * z) (frozenA m v loc scale em) ∧
      ReportsExpMean μ S (fun i z => lv i + sv i * z) (frozenA m v loc scale em).expMean := by
  have hv : ∀ i, InRange S i → _ := fun i hi =>
    describes_of_variates (hd i hi) (Y := fun z => lv i + sv i * z)
      (fun z => by simp only [frozen, if_neg (not_lt.2 (hpos i hi).le)])
  refine ⟨⟨frozenA_yields h1 h2 hlv hsv fun i hi => (hpos i hi).le, fun i hi => (hv i hi).1, ⟨h2, ?_⟩,
    ⟨h2, ?_⟩, ⟨h2, ?_⟩⟩, ?_⟩
  · intro i hi
    rw [← (hv i hi).2.1]
    simp only [frozenA, frozen, hsv i hi, hlv i hi]
  · intro i hi
    rw [← (hv i hi).2.2.1]
    simp only [frozenA, frozen, hsv i hi]
  · intro i hi
    rw [← (hv i hi).2.2.2.1]
    simp only [frozenA, frozen, hsv i hi]
  · obtain ⟨r, e, hr, hg⟩ := hem
    refine ⟨r, e, hr, fun i hi => ?_⟩
    rw [hg i hi]
    exact (hv i hi).2.2.2.2

theorem joint_pair_self (S : List ℕ) : Joint [S, S] S :=
  (Joint.congr (fun s => by simp)).1 (joint_single S)

/-- Elementwise functions of two arrays of the same shape. -/
theorem ewise_pair {β : Type} (f : (Fin 2 → ℝ) → β) {a b : Arr ℝ} {S : List ℕ} (ha : a.shape = S)
    (hb : b.shape = S) :
    ∃ r, ewise f ![a, b] = .ok r ∧ r.shape = S ∧
      ∀ i, InRange S i → r.get i = f ![a.get i, b.get i] := by
  have hj : Joint (List.ofFn fun j : Fin 2 => (![a, b] j).shape) S := by
    simp only [List.ofFn_succ, List.ofFn_zero, Matrix.cons_val_zero, Matrix.cons_val_succ, ha, hb]
    exact joint_pair_self S
  refine ⟨_, by rw [ewise, bcShapes_iff.2 hj], rfl, fun i hi => ?_⟩
  simp only
  congr 1
  funext j
  fin_cases j
  · exact bget_self a (by rw [ha]; exact hi)
  · exact bget_self b (by rw [hb]; exact hi)

/-- **C71** (normal). Parameters of `norm_rv` may be arrays: each cell is given a normal variate with its own
parameters. -/
theorem C71_norm {a b : Arr ℝ} {S : List ℕ} (hS : Joint [a.shape, b.shape] S)
    (hb : ∀ i, InRange S i → 0 < cellValue b i) :
    ∃ d, normRvA a b = .ok d ∧
      DescribesItems stdNormal S (fun i z => cellValue a i + cellValue b i * z) d ∧
      ReportsExpMean stdNormal S (fun i z => cellValue a i + cellValue b i * z) d.expMean := by
  obtain ⟨w, hw, hs, hg⟩ := bcAll_items (a := ![a, b]) (S := S)
    (by simpa [List.ofFn_succ] using hS)
  refine ⟨_, by rw [normRvA, hw], frozenA_describes
    (emv := fun i => .fin (exp (cellValue a i + cellValue b i * cellValue b i / 2)))
    (hs 0) (hs 1) (hg 0) (hg 1) hb ?_ ?_⟩
  · intro i hi
    obtain ⟨rv, h1, h2⟩ := C33_norm (a := cellValue a i) (hb i hi)
    rw [normRv, Except.ok.injEq] at h1
    rw [h1]
    exact h2
  · obtain ⟨r, e, hr, h1⟩ := ewise_pair
      (fun v => Num.fin (exp (v 0 + v 1 * v 1 / 2))) (hs 0) (hs 1)
    refine ⟨r, e, hr, fun i hi => ?_⟩
    rw [h1 i hi, hg 0 i hi, hg 1 i hi]
    rfl

/-- **C71** (uniform). -/
theorem C71_uniform {a b : Arr ℝ} {S : List ℕ} (hS : Joint [a.shape, b.shape] S)
    (hab : ∀ i, InRange S i → cellValue a i < cellValue b i) :
    ∃ d, uniformRvA a b = .ok d ∧
      DescribesItems stdUniform S (fun i z => cellValue a i + (cellValue b i - cellValue a i) * z) d ∧
      ReportsExpMean stdUniform S (fun i z => cellValue a i + (cellValue b i - cellValue a i) * z)
        d.expMean := by
  obtain ⟨w, hw, hs, hg⟩ := bcAll_items (a := ![a, b]) (S := S)
    (by simpa [List.ofFn_succ] using hS)
  obtain ⟨sc, h1, h2, h3⟩ := zip_ones (· - ·) (a := w 1) (b := w 0)
    (by rw [hs, hs]; exact fits_iff.2 (fitsRev_refl _))
  rw [hs, hs] at h2
  simp only [Nat.sub_self, List.replicate_zero, List.nil_append] at h2
  rw [hs] at h3
  refine ⟨_, by rw [uniformRvA, hw]; simp only [h1]; rfl, frozenA_describes
    (emv := fun i => Num.div (exp (cellValue b i) - exp (cellValue a i)) (cellValue b i - cellValue a i))
    (hs 0) h2 (hg 0) ?_ (fun i hi => sub_pos.2 (hab i hi)) ?_ ?_⟩
  · intro i hi
    rw [← cellValue_self sc (by rw [h2]; exact hi), h3 i hi,
      cellValue_self _ (by rw [hs]; exact hi), hg 0 i hi, hg 1 i hi]
    rfl
  · intro i hi
    obtain ⟨rv, h1, h2⟩ := C33_uniform (hab i hi)
    rw [uniformRv, Except.ok.injEq] at h1
    rw [h1]
    exact h2
  · obtain ⟨r, e, hr, h1⟩ := ewise_pair
      (fun v => Num.div (exp (v 1) - exp (v 0)) (v 1 - v 0)) (hs 0) (hs 1)
    refine ⟨r, e, hr, fun i hi => ?_⟩
    rw [h1 i hi, hg 0 i hi, hg 1 i hi]
    rfl

/-- **C71** (exponential). -/
theorem C71_exp {a : Arr ℝ} (ha : ∀ i, InRange a.shape i → a.get i ≠ 0) :
    ∃ d, expRvA a = .ok d ∧ DescribesItems stdExpon a.shape (fun i z => a.get i * z) d ∧
      ReportsExpMean stdExpon a.shape (fun i z => a.get i * z) d.expMean := by
  have h0 : ¬ a.anyItem (· = 0) := by
    rw [anyItem_iff]
    rintro ⟨c, hc, h⟩
    exact ha c hc h
  have key : ∀ {x : ℝ}, x ≠ 0 → ∀ z, npSign x * (|x| * z) = x * z := by
    intro x hx z
    unfold npSign
    rcases lt_or_gt_of_ne hx with h | h
    · rw [if_neg (by linarith), if_pos h, abs_of_neg h]; ring
    · rw [if_pos h, abs_of_pos h]; ring
  have hv : ∀ i, InRange a.shape i → ∃ rv, expRv (a.get i) = .ok rv ∧ _ := fun i hi => by
    obtain ⟨rv, h1, h2⟩ := C33_exp (ha i hi)
    have hY : ∀ z, rv.rvs z = .ok (a.get i * z) := by
      intro z
      rw [expRv, if_neg (ha i hi)] at h1
      rw [← Except.ok.inj h1]
      exact congrArg _ (key (ha i hi) z)
    exact ⟨rv, h1, describes_of_variates h2 hY⟩
  refine ⟨_, by rw [expRvA, if_neg h0], ⟨⟨?_, ?_⟩, ?_, ⟨rfl, ?_⟩, ⟨rfl, ?_⟩, ⟨rfl, ?_⟩⟩, _, rfl, rfl, ?_⟩
  · intro size z hf
    obtain ⟨r, h1, h2, h3⟩ := zip_ones (· * ·) (a := a.app npSign)
      (b := ⟨size, fun i => |a.bget i| * z i⟩) hf
    refine ⟨r, ?_, ⟨_, h2⟩, ?_, fun c hc => ?_⟩
    · simp only
      rw [scipyRvs_ok hf]
      exact h1
    · rw [h2]
      simp only [List.length_append, List.length_replicate, Arr.app]
      omega
    · rw [h3 c hc, app_cell]
      simp only
      rw [bget_item a hf hc]
      exact key (ha _ (cellIndex_inRange hf hc)) _
  · intro size z hf
    simp only
    rw [scipyRvs_error hf]
    rfl
  · intro i hi
    obtain ⟨rv, -, h2⟩ := hv i hi
    exact h2.1
  · intro i hi
    obtain ⟨rv, h1, -, h2, -⟩ := hv i hi
    rw [expRv, if_neg (ha i hi)] at h1
    rw [← h2, ← Except.ok.inj h1]
    rfl
  · intro i hi
    obtain ⟨rv, h1, -, -, h2, -⟩ := hv i hi
    rw [expRv, if_neg (ha i hi)] at h1
    rw [← h2, ← Except.ok.inj h1]
    rfl
  · intro i hi
    obtain ⟨rv, h1, -, -, -, h2, -⟩ := hv i hi
    rw [expRv, if_neg (ha i hi)] at h1
    rw [← h2, ← Except.ok.inj h1]
    rfl
  · intro i hi
    obtain ⟨rv, h1, -, -, -, -, h2⟩ := hv i hi
    rw [expRv, if_neg (ha i hi)] at h1
    rw [← Except.ok.inj h1] at h2
    exact h2

theorem npWhere_eq (c : Prop) [Decidable c] (v : ℝ × ℝ) : npWhere c v = if c then v.1 else v.2 := by
  unfold npWhere
  split_ifs <;> rfl

theorem joint_double {a b pa : Arr ℝ} {S : List ℕ} (hS : Joint [a.shape, b.shape, pa.shape] S) :
    Joint (List.ofFn fun j : Fin 4 => (![a, b, pa, pa.app (1 - ·)] j).shape) S := by
  refine (Joint.congr fun s => ?_).1 hS
  simp [List.ofFn_succ, Arr.app]

/-- **C71** (double exponential, partial). Parameters of `double_exp_rv` may be arrays, and so are the mean,
variance and standard deviation reported; not so for the mean of the exponential, that is returned only if
there is one item: see `C71_exp_mean_false`. -/
theorem C71_double_exp_partial {a b pa : Arr ℝ} {S : List ℕ} (hS : Joint [a.shape, b.shape, pa.shape] S)
    (ha : ∀ i, InRange S i → 0 < cellValue a i) (hb : ∀ i, InRange S i → 0 < cellValue b i)
    (h0 : ∀ i, InRange S i → 0 ≤ cellValue pa i) (h1 : ∀ i, InRange S i → cellValue pa i ≤ 1) :
    ∃ d, doubleExpRvA a b pa = .ok d ∧
      DescribesItems doubleExpDraws S (fun i z => if z.2.2 ≤ cellValue pa i then cellValue a i * z.1
        else -(cellValue b i * z.2.1)) d ∧
      (S.prod = 1 → (∀ i, InRange S i → cellValue pa i ≠ 0 ∨ cellValue a i < 1) →
        ReportsExpMean doubleExpDraws S (fun i z => if z.2.2 ≤ cellValue pa i then cellValue a i * z.1
          else -(cellValue b i * z.2.1)) d.expMean) := by
  obtain ⟨w, hw, hs, hg⟩ := bcAll_items (joint_double hS)
  have g0 : ∀ i, InRange S i → (w 0).get i = cellValue a i := hg 0
  have g1 : ∀ i, InRange S i → (w 1).get i = cellValue b i := hg 1
  have g2 : ∀ i, InRange S i → (w 2).get i = cellValue pa i := hg 2
  have g3 : ∀ i, InRange S i → (w 3).get i = 1 - cellValue pa i := hg 3
  have hok : ¬ ((w 0).anyItem (· ≤ 0) ∨ (w 1).anyItem (· ≤ 0) ∨ (w 2).anyItem (1 < ·) ∨
      (w 2).anyItem (· < 0)) := by
    simp only [anyItem_iff, hs]
    rintro (⟨c, hc, h⟩ | ⟨c, hc, h⟩ | ⟨c, hc, h⟩ | ⟨c, hc, h⟩)
    · rw [g0 c hc] at h; exact absurd (ha c hc) (not_lt.2 h)
    · rw [g1 c hc] at h; exact absurd (hb c hc) (not_lt.2 h)
    · rw [g2 c hc] at h; exact absurd (h1 c hc) (not_le.2 h)
    · rw [g2 c hc] at h; exact absurd (h0 c hc) (not_le.2 h)
  refine ⟨_, by rw [doubleExpRvA, hw]; simp only [if_neg hok]; rfl, ⟨⟨?_, ?_⟩, ?_, ⟨hs 0, ?_⟩, ⟨hs 0, ?_⟩,
    ⟨hs 0, ?_⟩⟩, ?_⟩
  · intro size z hf
    simp only
    have f0 : Fits (w 0).shape size := by rw [hs]; exact hf
    have f1 : Fits (w 1).shape size := by rw [hs]; exact hf
    have f2 : Fits (w 2).shape size := by rw [hs]; exact hf
    rw [scipyRvs_ok f0, scipyRvs_ok f1, scipyRvs_ok (p := []) (fitsRev_nil _)]
    obtain ⟨r1, e1, s1, v1⟩ := zip_ones' (α := ℝ) (· ≤ ·) (a := ⟨size, fun i => (z i).2.2⟩) (b := w 2) f2
    obtain ⟨r2, e2, s2, v2⟩ := zip_ones (α := ℝ) Prod.mk (a := ⟨size, fun i => (w 0).bget i * (z i).1⟩)
      (b := (Arr.mk size fun i => (w 1).bget i * (z i).2.1).app (- ·)) (fits_iff.2 (fitsRev_refl _))
    simp only [Arr.app, Nat.sub_self, List.replicate_zero, List.nil_append] at s2
    have f3 : Fits r2.shape r1.shape := by
      rw [s1, s2]
      intro j
      rw [sizeFromLast_ones]
      exact .inr rfl
    obtain ⟨r, e, -, s⟩ := zip_fits npWhere (a := r1)
      (b := r2) (S := size) (by rw [s1]; intro j; rw [sizeFromLast_ones]; exact .inr rfl)
      (by rw [s2]; exact fits_iff.2 (fitsRev_refl _))
    obtain ⟨r', e', s', -⟩ := zip_ones' npWhere (a := r1)
      (b := r2) f3
    have hrr : r' = r := Except.ok.inj (e'.symm.trans e)
    subst hrr
    have hz : (w 2).shape.length = S.length := by rw [hs]
    refine ⟨r', ?_, ?_, ?_, fun c hc => ?_⟩
    · simp only [zipPy, appPy, e1]
      simp only [e2]
      exact e'
    · rw [s', s1, s2]
      simp only [List.length_append, List.length_replicate]
      refine ⟨(size.length - ((w 2).shape.length - size.length + size.length)) +
        ((w 2).shape.length - size.length), ?_⟩
      rw [← List.append_assoc, List.replicate_append_replicate]
    · rw [s', s1, s2]
      simp only [List.length_append, List.length_replicate]
      omega
    · rw [s c hc, v1 c hc, cellValue_self r2 (by rw [s2]; exact hc)]
      have v2' := v2 c hc
      rw [cellValue_self r2 (by rw [s2]; exact hc)] at v2'
      rw [v2', cellValue_self (Arr.mk size fun i => (w 0).bget i * (z i).1) hc]
      simp only [Arr.app]
      have hi := cellIndex_inRange hf hc
      rw [cellValue_eq (w 2) f2 hc, bget_item _ f2 hc, bget_item _ f0 hc, bget_item _ f1 hc, hs, hs, hs,
        g0 _ hi, g1 _ hi, g2 _ hi, npWhere_eq]
  · intro size z hf
    simp only
    rw [scipyRvs_error (p := (w 0).shape) (by rw [hs]; exact hf)]
  · exact fun i hi => (double_moments (h0 i hi) (h1 i hi)).1
  · intro i hi
    simp only [g0 i hi, g1 i hi, g2 i hi, g3 i hi]
    rw [(double_moments (h0 i hi) (h1 i hi)).2.2]
  · intro i hi
    simp only [g0 i hi, g1 i hi, g2 i hi, g3 i hi]
    rw [(double_moments (h0 i hi) (h1 i hi)).2.1]
  · intro i hi
    simp only [g0 i hi, g1 i hi, g2 i hi, g3 i hi]
    rw [(double_moments (h0 i hi) (h1 i hi)).2.1]
  · intro hp hne
    refine ⟨_, by simp only [hs, hp, if_true]; rfl, rfl, fun i hi => ?_⟩
    obtain ⟨rv, e1, e2⟩ := C33_double_exp_partial (ha i hi) (hb i hi) (h0 i hi) (h1 i hi) (hne i hi)
    rw [doubleExpRv, if_neg (by
      rintro (h | h | h | h)
      · linarith [ha i hi]
      · linarith [hb i hi]
      · linarith [h1 i hi]
      · linarith [h0 i hi])] at e1
    have e1 := Except.ok.inj e1
    subst e1
    have := (describes_of_variates e2 fun z => rfl).2.2.2.2
    simp only [g0 i hi, g1 i hi, g2 i hi, g3 i hi]
    exact this

/-- **C71** (variates). Null standard deviations, and intervals that reduce to a point, are allowed as far as
variates are concerned. -/
theorem C71_degenerate {a b : Arr ℝ} {S : List ℕ} (hS : Joint [a.shape, b.shape] S) :
    ((∀ i, InRange S i → 0 ≤ cellValue b i) → ∃ d, normRvA a b = .ok d ∧
      YieldsItems S (fun i z => cellValue a i + cellValue b i * z) d) ∧
    ((∀ i, InRange S i → cellValue a i ≤ cellValue b i) → ∃ d, uniformRvA a b = .ok d ∧
      YieldsItems S (fun i z => cellValue a i + (cellValue b i - cellValue a i) * z) d) := by
  obtain ⟨w, hw, hs, hg⟩ := bcAll_items (a := ![a, b]) (S := S)
    (by simpa [List.ofFn_succ] using hS)
  constructor
  · intro hb
    exact ⟨_, by rw [normRvA, hw], frozenA_yields (hs 0) (hs 1) (hg 0) (hg 1) hb⟩
  · intro hab
    obtain ⟨sc, h1, h2, h3⟩ := zip_ones (· - ·) (a := w 1) (b := w 0)
      (by rw [hs, hs]; exact fits_iff.2 (fitsRev_refl _))
    rw [hs, hs] at h2
    simp only [Nat.sub_self, List.replicate_zero, List.nil_append] at h2
    rw [hs] at h3
    refine ⟨_, by rw [uniformRvA, hw]; simp only [h1]; rfl, frozenA_yields (hs 0) h2 (hg 0) ?_
      (fun i hi => sub_nonneg.2 (hab i hi))⟩
    intro i hi
    rw [← cellValue_self sc (by rw [h2]; exact hi), h3 i hi,
      cellValue_self _ (by rw [hs]; exact hi), hg 0 i hi, hg 1 i hi]
    rfl

/-- **C71** (rejection). Parameters that cannot be broadcast together are rejected with `ValueError`, and so
are parameters out of the domain, if only for an item: by the constructor, or if it relies on `scipy.stats`
when drawing variates. -/
theorem C71_rejected :
    (∀ a b : Arr ℝ, (¬ ∃ S, Joint [a.shape, b.shape] S) →
      normRvA a b = .error .valueError ∧ uniformRvA a b = .error .valueError) ∧
    (∀ a b pa : Arr ℝ, (¬ ∃ S, Joint [a.shape, b.shape, pa.shape] S) →
      doubleExpRvA a b pa = .error .valueError) ∧
    (∀ (a b : Arr ℝ) S, Joint [a.shape, b.shape] S → (∃ i, InRange S i ∧ cellValue b i < 0) →
      ∃ d, normRvA a b = .ok d ∧ ∀ size z, d.rvs size z = .error .valueError) ∧
    (∀ (a b : Arr ℝ) S, Joint [a.shape, b.shape] S →
      (∃ i, InRange S i ∧ cellValue b i < cellValue a i) →
      ∃ d, uniformRvA a b = .ok d ∧ ∀ size z, d.rvs size z = .error .valueError) ∧
    (∀ a : Arr ℝ, (∃ i, InRange a.shape i ∧ a.get i = 0) → expRvA a = .error .valueError) ∧
    (∀ (a b pa : Arr ℝ) S, Joint [a.shape, b.shape, pa.shape] S →
      (∃ i, InRange S i ∧ ¬ (0 < cellValue a i ∧ 0 < cellValue b i ∧ 0 ≤ cellValue pa i ∧
        cellValue pa i ≤ 1)) → doubleExpRvA a b pa = .error .valueError) := by
  refine ⟨?_, ?_, ?_, ?_, ?_, ?_⟩
  · intro a b h
    have := bcAll_error (a := ![a, b]) (by simpa [List.ofFn_succ] using h)
    exact ⟨by rw [normRvA, this], by rw [uniformRvA, this]⟩
  · intro a b pa h
    have := bcAll_error (a := ![a, b, pa, pa.app (1 - ·)]) (by
      rintro ⟨S, hS⟩
      refine h ⟨S, (Joint.congr fun s => ?_).1 hS⟩
      simp [List.ofFn_succ, Arr.app])
    rw [doubleExpRvA, this]
  · rintro a b S hS ⟨i, hi, hlt⟩
    obtain ⟨w, hw, hs, hg⟩ := bcAll_items (a := ![a, b]) (S := S)
      (by simpa [List.ofFn_succ] using hS)
    refine ⟨_, by rw [normRvA, hw], fun size z => ?_⟩
    have : (w 1).anyItem (· < 0) := by
      rw [anyItem_iff, hs]
      exact ⟨i, hi, by rw [hg 1 i hi]; exact hlt⟩
    simp only [frozenA, if_pos this]
  · rintro a b S hS ⟨i, hi, hlt⟩
    obtain ⟨w, hw, hs, hg⟩ := bcAll_items (a := ![a, b]) (S := S)
      (by simpa [List.ofFn_succ] using hS)
    obtain ⟨sc, h1, h2, h3⟩ := zip_ones (· - ·) (a := w 1) (b := w 0)
      (by rw [hs, hs]; exact fits_iff.2 (fitsRev_refl _))
    rw [hs, hs] at h2
    simp only [Nat.sub_self, List.replicate_zero, List.nil_append] at h2
    rw [hs] at h3
    refine ⟨_, by rw [uniformRvA, hw]; simp only [h1]; rfl, fun size z => ?_⟩
    have : sc.anyItem (· < 0) := by
      rw [anyItem_iff, h2]
      refine ⟨i, hi, ?_⟩
      rw [← cellValue_self sc (by rw [h2]; exact hi), h3 i hi,
        cellValue_self _ (by rw [hs]; exact hi), hg 0 i hi, hg 1 i hi]
      exact sub_neg.2 hlt
    simp only [frozenA, if_pos this]
  · intro a h
    rw [expRvA, if_pos ((anyItem_iff _ _).2 h)]
  · rintro a b pa S hS ⟨i, hi, hlt⟩
    obtain ⟨w, hw, hs, hg⟩ := bcAll_items (joint_double hS)
    have g0 : (w 0).get i = cellValue a i := hg 0 i hi
    have g1 : (w 1).get i = cellValue b i := hg 1 i hi
    have g2 : (w 2).get i = cellValue pa i := hg 2 i hi
    rw [doubleExpRvA, hw]
    simp only
    rw [if_pos]
    simp only [anyItem_iff, hs]
    by_contra hc
    simp only [not_or, not_exists, not_and] at hc
    refine hlt ⟨?_, ?_, ?_, ?_⟩
    · rw [← g0]; exact not_le.1 (hc.1 i hi)
    · rw [← g1]; exact not_le.1 (hc.2.1 i hi)
    · rw [← g2]; exact not_lt.1 (hc.2.2.2 i hi)
    · rw [← g2]; exact not_lt.1 (hc.2.2.1 i hi)

/-! ### Parameters that depend on time -/

/-- Value of a parameter at time `t`. -/
inductive Spec.ArrayAt {T : Type} (t : T) : MaybeTimed T (Arr ℝ) → Arr ℝ → Prop
  | plain (a : Arr ℝ) : ArrayAt t (.plain a) a
  | timed {f : T → Py (Arr ℝ)} {a : Arr ℝ} : f t = .ok a → ArrayAt t (.timed f) a

theorem fixed_none {T R : Type} {ps : List (MaybeTimed T R)} (h : ∃ f, .timed f ∈ ps) :
    ps.mapM MaybeTimed.fixed? = none := by
  obtain ⟨f, hf⟩ := h
  induction ps with
  | nil => cases hf
  | cons p ps ih =>
    rw [List.mapM_cons]
    cases p with
    | timed g => rfl
    | plain a =>
      rcases List.mem_cons.1 hf with h | h
      · cases h
      · rw [ih h]; rfl

theorem fixed_some {T R : Type} (vs : List R) :
    (vs.map MaybeTimed.plain : List (MaybeTimed T R)).mapM MaybeTimed.fixed? = some vs := by
  induction vs with
  | nil => rfl
  | cons v vs ih =>
    rw [List.map_cons, List.mapM_cons, ih]
    rfl

theorem plain_of_not {T R : Type} {ps : List (MaybeTimed T R)} (h : ¬ ∃ f, .timed f ∈ ps) :
    ∃ vs : List R, ps = vs.map .plain := by
  induction ps with
  | nil => exact ⟨[], rfl⟩
  | cons p ps ih =>
    obtain ⟨vs, rfl⟩ := ih fun ⟨f, hf⟩ => h ⟨f, List.mem_cons_of_mem _ hf⟩
    cases p with
    | plain a => exact ⟨a :: vs, rfl⟩
    | timed f => exact absurd ⟨f, by simp⟩ h

theorem mapM_at {T : Type} {t : T} {ps : List (MaybeTimed T (Arr ℝ))} {vs : List (Arr ℝ)}
    (h : List.Forall₂ (ArrayAt t) ps vs) : ps.mapM (fun p => p.at t) = .ok vs := by
  induction h with
  | nil => rfl
  | cons h1 _ ih =>
    rw [List.mapM_cons, ih]
    cases h1 with
    | plain a => rfl
    | timed hf =>
      simp only [MaybeTimed.at, hf]
      rfl

/-- **C71** (parameters that depend on time). If some parameter is a function, the result is a function of
time, its value at `t` being the distribution with the values of parameters at `t`; otherwise it is a
distribution, and errors are raised at once. -/
theorem C71_variable {T R : Type} (rv : List (Arr ℝ) → Py R) :
    (∀ ps : List (MaybeTimed T (Arr ℝ)), (∃ f, .timed f ∈ ps) → ∃ d, makeVariableA rv ps = .ok (.timed d) ∧
      ∀ t vs, List.Forall₂ (ArrayAt t) ps vs → d t = rv vs) ∧
    ∀ vs : List (Arr ℝ), makeVariableA rv (vs.map .plain : List (MaybeTimed T (Arr ℝ))) =
      (rv vs).map .plain := by
  refine ⟨fun ps h => ⟨_, by rw [makeVariableA, fixed_none h], fun t vs hv => ?_⟩, fun vs => ?_⟩
  · simp only [mapM_at hv]
  · rw [makeVariableA, fixed_some]
    simp only
    cases rv vs <;> rfl

/-! ### Sources of jumps -/

/-- An array with one item, and no more than two axes. -/
def Spec.OneItem (a : Arr ℝ) (x : ℝ) : Prop :=
  a.shape.length ≤ 2 ∧ (∀ n ∈ a.shape, n = 1) ∧ a.get (List.replicate a.shape.length 0) = x

/-- The same parameter, as an array with one item and as a number. -/
inductive Spec.OneItemParam : MaybeTimed ℝ (Arr ℝ) → RvParam ℝ → Prop
  | plain {a : Arr ℝ} {x : ℝ} : OneItem a x → OneItemParam (.plain a) (.const x)
  | timed {f : ℝ → Py (Arr ℝ)} {g : ℝ → ℝ} : (∀ t, ∃ a, f t = .ok a ∧ OneItem a (g t)) →
      OneItemParam (.timed f) (.func g)

theorem fits_ones {s : List ℕ} (h : ∀ n ∈ s, n = 1) (S : List ℕ) : Fits s S := by
  intro j
  left
  unfold sizeFromLast
  rw [List.getD_eq_getElem?_getD]
  cases hj : s.reverse[j]? with
  | none => rfl
  | some n =>
    have := List.mem_of_getElem? hj
    exact h n (List.mem_reverse.1 this)

theorem cellIndex_ones {s : List ℕ} (h : ∀ n ∈ s, n = 1) (c : List ℕ) :
    cellIndex s c = List.replicate s.length 0 := by
  apply List.ext_getElem
  · simp [cellIndex]
  · intro p h1 h2
    simp only [cellIndex, List.getElem_map, List.getElem_range, List.getElem_replicate]
    rw [if_pos]
    rw [List.getD_eq_getElem _ _ (by simpa [cellIndex] using h1)]
    exact h _ (List.getElem_mem _)

theorem cellValue_ones {a : Arr ℝ} {x : ℝ} (h : OneItem a x) (c : List ℕ) : cellValue a c = x := by
  unfold cellValue
  rw [cellIndex_ones h.2.1]
  exact h.2.2

/-- The joint shape of arrays with one item. -/
theorem joint_oneItem {l : List (List ℕ)} (h : ∀ s ∈ l, s.length ≤ 2 ∧ ∀ n ∈ s, n = 1) :
    ∃ S, Joint l S ∧ S.length ≤ 2 ∧ ∀ n ∈ S, n = 1 := by
  obtain ⟨S, hS, -⟩ := joint_of_fits (S := []) fun s hs => fits_ones (h s hs).2 _
  refine ⟨S, hS, ?_, ?_⟩
  · by_cases hn : S = []
    · simp [hn]
    · obtain ⟨s, hs, e⟩ := hS.length hn
      rw [← e]
      exact (h s hs).1
  · intro n hn
    obtain ⟨j, hj, e⟩ := List.getElem_of_mem (List.mem_reverse.2 hn)
    by_contra hc
    have e1 : sizeFromLast S j = n := by
      unfold sizeFromLast
      rw [List.getD_eq_getElem _ _ hj, e]
    obtain ⟨s, hs, e2⟩ := hS.sizes j (by rw [e1]; exact hc)
    rw [e1] at e2
    rcases fits_ones (h s hs).2 [] j with h1 | h1
    · exact hc (e2.symm.trans h1)
    · exact hc (e2.symm.trans (h1.trans (by simp [sizeFromLast])))

/-- With one item of parameters, the variates compounded are those of the distribution with numbers as
parameters. -/
theorem rvsOfA_eq {σ Ω : Type} {S : List ℕ} {X : List ℕ → Ω → ℝ} {d : RVA Ω} (h : YieldsItems S X d)
    (hl : S.length ≤ 2) (h1 : ∀ n ∈ S, n = 1) {rv : RV Ω} {Y : Ω → ℝ}
    (hY : ∀ z, rv.rvs z = .ok (Y z)) (hX : ∀ c z, X c z = Y z)
    (sample : ℕ → ℕ → σ → (ℕ → ℕ → Ω) × σ) : rvsOfA d sample = rvsOf rv sample := by
  funext n j s
  obtain ⟨r, e1, ⟨k, e2⟩, e3, e4⟩ := h.variates [n, j]
    (fun i => (sample n j s).1 (i.getD 0 0) (i.getD 1 0)) (fits_ones h1 _)
  have hk : k = 0 := by
    rw [e2] at e3
    simp only [List.length_append, List.length_replicate, List.length_cons, List.length_nil] at e3
    omega
  subst hk
  simp only [List.replicate_zero, List.nil_append] at e2
  simp only [rvsOfA, e1, e2, rvsOf, hY, mapM_ok, Except.ok.injEq, Prod.mk.injEq, and_true]
  funext a b
  by_cases ha : a < n
  · by_cases hb : b < j
    · have hc : InRange [n, j] [a, b] := .cons ha (.cons hb .nil)
      have := e4 _ hc
      rw [cellValue_self r (by rw [e2]; exact hc), hX] at this
      rw [if_pos ⟨ha, hb⟩, this]
      simp [List.getD_eq_getElem?_getD, ha, hb]
    · rw [if_neg fun h => hb h.2]
      simp [List.getD_eq_getElem?_getD, ha, hb]
  · rw [if_neg fun h => ha h.1]
    simp [List.getD_eq_getElem?_getD, ha]

/-- Parameters with one item at all times: the distribution at each time. -/
theorem rvsAtA_eq {σ Ω : Type} (rvA : List (Arr ℝ) → Py (RVA Ω)) (rv : List ℝ → Py (RV Ω))
    {ps : List (MaybeTimed ℝ (Arr ℝ))} {qs : List (RvParam ℝ)} (h : List.Forall₂ OneItemParam ps qs)
    (sample : ℕ → ℕ → σ → (ℕ → ℕ → Ω) × σ)
    (hrv : ∀ t vs xs, List.Forall₂ (fun q x => RvIs q t x) qs xs → List.Forall₂ OneItem vs xs →
      ∃ d r, rvA vs = .ok d ∧ rv xs = .ok r ∧ rvsOfA d sample = rvsOf r sample) :
    ∃ y y', makeVariableA rvA ps = .ok y ∧ makeVariable rv qs = .ok y' ∧
      rvsAtA y sample = y'.rvsAt sample := by
  letI : MeasurableSpace σ := ⊤
  have hv : ∀ t, ∃ vs, List.Forall₂ (ArrayAt t) ps vs ∧
      List.Forall₂ OneItem vs (qs.map fun q => q.value t) ∧
      List.Forall₂ (fun q x => RvIs q t x) qs (qs.map fun q => q.value t) := by
    intro t
    clear hrv
    induction h with
    | nil => exact ⟨[], .nil, .nil, .nil⟩
    | cons h1 _ ih =>
      obtain ⟨vs, e1, e2, e3⟩ := ih
      cases h1 with
      | plain h => exact ⟨_, .cons (.plain _) e1, .cons h e2, .cons (.const _ _) e3⟩
      | timed h =>
        obtain ⟨a, h3, h4⟩ := h t
        exact ⟨_, .cons (.timed h3) e1, .cons h4 e2, .cons (.func _ _) e3⟩
  obtain ⟨y', hy'⟩ := makeVariable_ok rv (ps := qs) 0 (by
    obtain ⟨vs, -, e2, e3⟩ := hv 0
    obtain ⟨d, r, -, h2, -⟩ := hrv 0 _ _ e3 e2
    exact ⟨r, h2⟩)
  by_cases ht : ∃ f, .timed f ∈ ps
  · obtain ⟨d, h1, h2⟩ := (C71_variable rvA).1 ps ht
    refine ⟨_, y', h1, hy', ?_⟩
    funext t
    obtain ⟨vs, e1, e2, e3⟩ := hv t
    obtain ⟨d', r, h3, h4, h5⟩ := hrv t _ _ e3 e2
    rw [rvsAt_variable rv hy', h4]
    simp only [rvsAtA, MaybeTimed.at, h2 t vs e1, h3, h5]
    rfl
  · obtain ⟨us, rfl⟩ := plain_of_not ht
    have hus : ∀ (t : ℝ) vs, List.Forall₂ (ArrayAt t) (us.map .plain) vs → vs = us := by
      intro t vs
      clear h ht hv
      induction us generalizing vs with
      | nil => intro h; cases h; rfl
      | cons u us ih =>
        intro h
        cases h with
        | cons h1 h2 =>
          cases h1
          rw [ih _ h2]
    obtain ⟨vs, e1, e2, e3⟩ := hv 0
    obtain ⟨d, r, h3, -, -⟩ := hrv 0 _ _ e3 e2
    have := hus 0 vs e1
    subst this
    refine ⟨.plain d, y', by rw [(C71_variable rvA).2, h3]; rfl, hy', ?_⟩
    funext t
    obtain ⟨vs', e1', e2', e3'⟩ := hv t
    have := hus t vs' e1'
    subst this
    obtain ⟨d', r', h3', h4', h5'⟩ := hrv t _ _ e3' e2'
    rw [h3] at h3'
    cases h3'
    rw [rvsAt_variable rv hy', h4']
    simp only [rvsAtA, MaybeTimed.at, h5']
    rfl

section
variable {σ : Type} {paths : ℕ} {wshape : List ℕ} {draw : (List ℕ → ℝ) → List ℕ → σ → (List ℕ → ℤ) × σ}

/-- **C71** (Merton, partial). Parameters with one item, and no more than two axes, yield the source of jumps
that numbers yield. With more items this fails: see `C71_cpoisson_false`. -/
theorem C71_merton_partial {sample : ℕ → ℕ → σ → (ℕ → ℕ → ℝ) × σ} (lam : RawParam ℝ)
    {a b : MaybeTimed ℝ (Arr ℝ)} {a' b' : RvParam ℝ} (ha : OneItemParam a a') (hb : OneItemParam b b')
    (hpos : ∀ t x, RvIs b' t x → 0 ≤ x) :
    mertonSourceDjA paths wshape draw sample lam a b = mertonSourceDj paths wshape draw sample lam a' b' := by
  obtain ⟨y, y', h1, h2, h3⟩ := rvsAtA_eq (fun l => normRvA (nthArr l 0) (nthArr l 1))
    (fun l => normRv (l.getD 0 0) (l.getD 1 0)) (.cons ha (.cons hb .nil)) sample (by
      intro t vs xs hx hvx
      cases hx with | cons x1 hx =>
      cases hx with | cons x2 hx =>
      cases hx
      cases hvx with | cons v1 hvx =>
      cases hvx with | cons v2 hvx =>
      cases hvx
      rename_i x x' u u'
      obtain ⟨S, hS, hl, hone⟩ := joint_oneItem (l := [u.shape, u'.shape]) (by
        simp only [List.mem_cons, List.not_mem_nil, or_false]
        rintro s (rfl | rfl)
        exacts [⟨v1.1, v1.2.1⟩, ⟨v2.1, v2.2.1⟩])
      have h0 := hpos t _ x2
      obtain ⟨d, e1, e2⟩ := (C71_degenerate hS).1 fun i _ => by rw [cellValue_ones v2]; exact h0
      refine ⟨d, _, e1, rfl, rvsOfA_eq e2 hl hone (Y := fun z => x + x' * z) (fun z => ?_)
        (fun c z => ?_) sample⟩
      · simp only [frozen, List.getD_cons_zero, List.getD_cons_succ, if_neg (not_lt.2 h0)]
      · rw [cellValue_ones v1, cellValue_ones v2])
  have h1' : norm_rvA a b = .ok y := h1
  have h2' : norm_rv a' b' = .ok y' := h2
  simp only [mertonSourceDjA, mertonSourceDj, h1', h2', sourceDjA, sourceDj, h3]
  cases poissonNew paths wshape lam <;> rfl

/-- **C71** (Kou, partial). -/
theorem C71_kou_partial {sample : ℕ → ℕ → σ → (ℕ → ℕ → ℝ × ℝ × ℝ) × σ} (lam : RawParam ℝ)
    {a b pa : MaybeTimed ℝ (Arr ℝ)} {a' b' pa' : RvParam ℝ} (ha : OneItemParam a a')
    (hb : OneItemParam b b') (hpa : OneItemParam pa pa') (ha0 : ∀ t x, RvIs a' t x → 0 < x)
    (hb0 : ∀ t x, RvIs b' t x → 0 < x) (hp : ∀ t x, RvIs pa' t x → 0 ≤ x ∧ x ≤ 1) :
    kouSourceDjA paths wshape draw sample lam a b pa =
      kouSourceDj paths wshape draw sample lam a' b' pa' := by
  obtain ⟨y, y', h1, h2, h3⟩ := rvsAtA_eq
    (fun l => doubleExpRvA (nthArr l 0) (nthArr l 1) (nthArr l 2))
    (fun l => doubleExpRv (l.getD 0 0) (l.getD 1 0) (l.getD 2 0))
    (.cons ha (.cons hb (.cons hpa .nil))) sample (by
      intro t vs xs hx hvx
      cases hx with | cons x1 hx =>
      cases hx with | cons x2 hx =>
      cases hx with | cons x3 hx =>
      cases hx
      cases hvx with | cons v1 hvx =>
      cases hvx with | cons v2 hvx =>
      cases hvx with | cons v3 hvx =>
      cases hvx
      rename_i x x' x'' u u' u''
      obtain ⟨S, hS, hl, hone⟩ := joint_oneItem (l := [u.shape, u'.shape, u''.shape]) (by
        simp only [List.mem_cons, List.not_mem_nil, or_false]
        rintro s (rfl | rfl | rfl)
        exacts [⟨v1.1, v1.2.1⟩, ⟨v2.1, v2.2.1⟩, ⟨v3.1, v3.2.1⟩])
      have c1 := ha0 t _ x1
      have c2 := hb0 t _ x2
      have c3 := hp t _ x3
      obtain ⟨d, e1, e2, -⟩ := C71_double_exp_partial hS (fun i _ => by rw [cellValue_ones v1]; exact c1)
        (fun i _ => by rw [cellValue_ones v2]; exact c2) (fun i _ => by rw [cellValue_ones v3]; exact c3.1)
        (fun i _ => by rw [cellValue_ones v3]; exact c3.2)
      obtain ⟨r, hr, hY⟩ : ∃ r, doubleExpRv x x' x'' = .ok r ∧
          ∀ z, r.rvs z = .ok (if z.2.2 ≤ x'' then x * z.1 else -(x' * z.2.1)) :=
        ⟨_, by rw [doubleExpRv, if_neg (by push Not; exact ⟨c1, c2, c3.2, c3.1⟩)], fun z => rfl⟩
      refine ⟨d, r, e1, hr, rvsOfA_eq e2.toYieldsItems hl hone hY (fun c z => ?_) sample⟩
      · rw [cellValue_ones v1, cellValue_ones v2, cellValue_ones v3])
  have h1' : double_exp_rvA a b pa = .ok y := h1
  have h2' : double_exp_rv a' b' pa' = .ok y' := h2
  simp only [kouSourceDjA, kouSourceDj, h1', h2', sourceDjA, sourceDj, h3]
  cases poissonNew paths wshape lam <;> rfl

end

/-! ### Disagreements -/

/-- A vector with two items. -/
def vec2 (x y : ℝ) : Arr ℝ := ⟨[2], fun i => if i = [0] then x else y⟩

theorem joint_vec2 (a b : Arr ℝ) (ha : a.shape = [2]) (hb : b.shape = [2]) : Joint [a.shape, b.shape] [2] := by
  rw [ha, hb]; exact joint_pair_self _

theorem inRange_two {P : List ℕ → Prop} (h0 : P [0]) (h1 : P [1]) : ∀ i, InRange [2] i → P i := by
  intro i hi
  rw [inRange_singleton] at hi
  obtain ⟨j, rfl, hj⟩ := hi
  have : j = 0 ∨ j = 1 := by omega
  rcases this with rfl | rfl
  exacts [h0, h1]

/-- **C71 fails** (mean of the exponential). Parameters of `double_exp_rv` are documented as arrays, but with
two items `exp_mean` raises `ValueError`, the condition `a < 1` being taken on the array. -/
theorem C71_exp_mean_false :
    ∃ d, doubleExpRvA (vec2 (1 / 2) (1 / 4)) (.scalar 1) (.scalar (1 / 2)) = .ok d ∧
      (∀ z, ∃ r, d.rvs [2] z = .ok r) ∧ d.expMean = .error .valueError := by
  have hS : Joint [(vec2 (1 / 2) (1 / 4)).shape, (Arr.scalar (1 : ℝ)).shape, (Arr.scalar (1 / 2 : ℝ)).shape]
      [2] := by
    rw [← bcShapes_iff]
    simp only [vec2, Arr.scalar]
    decide
  obtain ⟨d, h1, h2, -⟩ := C71_double_exp_partial hS
    (inRange_two (by simp [cellValue, cellIndex, vec2, List.range_succ])
      (by simp [cellValue, cellIndex, vec2, List.range_succ]))
    (fun i _ => by simp [cellValue, Arr.scalar]) (fun i _ => by simp [cellValue, Arr.scalar])
    (fun i _ => by simp [cellValue, Arr.scalar]; norm_num)
  refine ⟨d, h1, fun z => ?_, ?_⟩
  · obtain ⟨r, e, -⟩ := h2.variates [2] z (fits_iff.2 (fitsRev_refl _))
    exact ⟨r, e⟩
  · obtain ⟨w, hw, hs, -⟩ := bcAll_items (joint_double hS)
    rw [doubleExpRvA, hw] at h1
    simp only at h1
    split_ifs at h1 with hc hp
    · rw [hs] at hp
      simp at hp
    · rw [Except.ok.injEq] at h1
      rw [← h1]

/-- **C71 fails** (compound Poisson source). The parameters of the distribution of jumps are documented as
broadcastable to `vshape + (paths,)`, but they are not given to paths. Let jumps be uniform between 0 and 1 for
the first of two paths, between 10 and 11 for the second one. If two jumps occur on both paths, then the sum
for the first path exceeds 2, as the second jump is drawn with the parameters of the second path. If one jump
occurs on both paths, `ValueError` is raised. -/
theorem C71_cpoisson_false :
    ∃ d, uniformRvA (vec2 0 10) (vec2 1 11) = .ok d ∧
      ∀ (σ : Type) (sample : ℕ → ℕ → σ → (ℕ → ℕ → ℝ) × σ) (s : σ),
        (∀ n j s a b, (sample n j s).1 a b ∈ Icc (0 : ℝ) 1) →
        (∃ dz dn ys s', cpoissonCall ⟨2, [], fun _ _ s => .ok (⟨[2], fun _ => 2⟩, s),
          rvsAtA (.plain d) sample⟩ (.scalar 0) (.scalar 1) s = .ok ((dz, dn, ys), s') ∧
          dn.get [0] = 2 ∧ 2 < dz.get [0]) ∧
        cpoissonCall ⟨2, [], fun _ _ s => .ok (⟨[2], fun _ => 1⟩, s),
          rvsAtA (.plain d) sample⟩ (.scalar 0) (.scalar 1) s = .error .valueError := by
  obtain ⟨d, h1, h2, -⟩ := C71_uniform (a := vec2 0 10) (b := vec2 1 11) (S := [2])
    (joint_vec2 _ _ rfl rfl)
    (inRange_two (by simp [cellValue, cellIndex, vec2, List.range_succ])
      (by simp [cellValue, cellIndex, vec2, List.range_succ]; norm_num))
  refine ⟨d, h1, fun σ sample s hs => ⟨?_, ?_⟩⟩
  · obtain ⟨r, e1, ⟨k, e2⟩, e3, e4⟩ := h2.variates [2, 2]
      (fun i => (sample 2 2 s).1 (i.getD 0 0) (i.getD 1 0)) (by
        intro j
        rcases j with _ | _ | j <;> simp [sizeFromLast])
    have hk : k = 0 := by
      rw [e2] at e3
      simp only [List.length_append, List.length_replicate, List.length_cons, List.length_nil] at e3
      omega
    subst hk
    simp only [List.replicate_zero, List.nil_append] at e2
    have hr : rvsOfA d sample 2 2 s = .ok (fun a b => if a < 2 ∧ b < 2 then r.get [a, b] else 0,
        (sample 2 2 s).2) := by
      simp only [rvsOfA, e1, e2]
    have v0 : r.get [0, 0] = (sample 2 2 s).1 0 0 := by
      have hc : InRange [2, 2] [0, 0] := by decide
      have := e4 _ hc
      rw [cellValue_self r (by rw [e2]; exact hc)] at this
      rw [this]
      simp [cellIndex, cellValue, vec2, List.range_succ]
    have v1 : r.get [0, 1] = 10 + (11 - 10) * (sample 2 2 s).1 0 1 := by
      have hc : InRange [2, 2] [0, 1] := by decide
      have := e4 _ hc
      rw [cellValue_self r (by rw [e2]; exact hc)] at this
      rw [this]
      simp [cellIndex, cellValue, vec2, List.range_succ]
    have b0 := (hs 2 2 s 0 0).1
    have b1 := (hs 2 2 s 0 1).1
    have hc : trueCells [2] (fun _ => true) = [[0], [1]] := by decide
    have hc' : trueCells [2] (fun _ => false) = [] := by decide
    simp [cpoissonCall, broadcast2, bcShape, bc2Rev, Arr.scalar, Arr.broadcastTo, BcOk, bcOkRev, loopIdx, ndindex,
      cpoissonBody, arrMax, rvsAtA, MaybeTimed.at, jumpLoop, hc, hc', hr, maskAssign, sgn]
    simp [assemble, bcIdxRev, List.range_succ, v0, v1]
    linarith
  · have hr : rvsOfA d sample 2 1 s = .error .valueError := by
      have := h2.rejected [2, 1] (fun i => (sample 2 1 s).1 (i.getD 0 0) (i.getD 1 0))
        (fun h => by simpa [sizeFromLast] using h 0)
      simp only [rvsOfA, this]
    have hc : trueCells [2] (fun _ => true) = [[0], [1]] := by decide
    simp [cpoissonCall, broadcast2, bcShape, bc2Rev, Arr.scalar, Arr.broadcastTo, BcOk, bcOkRev, loopIdx, ndindex,
      cpoissonBody, arrMax, rvsAtA, MaybeTimed.at, jumpLoop, hc, hr, maskAssign, sgn]

/-! ### Examples -/

theorem vec2_pos {x y : ℝ} (hx : 0 < x) (hy : 0 < y) : ∀ i, InRange [2] i → 0 < cellValue (vec2 x y) i :=
  inRange_two (by simpa [cellValue, cellIndex, vec2, List.range_succ])
    (by simpa [cellValue, cellIndex, vec2, List.range_succ])

example := C71_norm (a := .scalar 1) (b := vec2 2 3) (S := [2])
  (by rw [← bcShapes_iff]; simp only [vec2, Arr.scalar]; decide) (vec2_pos two_pos three_pos)
example := C71_uniform (a := .scalar 0) (b := vec2 2 3) (S := [2])
  (by rw [← bcShapes_iff]; simp only [vec2, Arr.scalar]; decide)
  (fun i hi => by
    have := vec2_pos (x := 2) (y := 3) two_pos three_pos i hi
    simpa [cellValue, Arr.scalar] using this)
example := C71_exp (a := vec2 2 (-3)) (inRange_two (by simp [vec2]) (by simp [vec2]))
example := (C71_degenerate (a := .scalar 1) (b := .scalar 0) (S := [])
  (by rw [← bcShapes_iff]; simp only [Arr.scalar]; decide)).1
    (fun i _ => by simp [cellValue, Arr.scalar])
example := C71_double_exp_partial (a := vec2 2 3) (b := .scalar 1) (pa := .scalar 1) (S := [2])
  (by rw [← bcShapes_iff]; simp only [vec2, Arr.scalar]; decide) (vec2_pos two_pos three_pos)
  (fun i _ => by simp [cellValue, Arr.scalar]) (fun i _ => by simp [cellValue, Arr.scalar])
  (fun i _ => by simp [cellValue, Arr.scalar])
example : expRvA (vec2 1 0) = .error .valueError :=
  C71_rejected.2.2.2.2.1 _ ⟨[1], by simp [vec2, inRange_singleton], by simp [vec2]⟩
example := (C71_variable (T := ℝ) (fun l => normRvA (nthArr l 0) (nthArr l 1))).1
  [.plain (vec2 1 2), .timed fun t => .ok (.scalar t)] ⟨fun t => .ok (.scalar t), by simp⟩

/-- An array with one item, and a function of time with values in such arrays. -/
theorem oneItem_example (x : ℝ) : OneItem ⟨[1, 1], fun _ => x⟩ x := ⟨le_rfl, by simp, rfl⟩

example (sample : ℕ → ℕ → ℕ → (ℕ → ℕ → ℝ) × ℕ) (draw : (List ℕ → ℝ) → List ℕ → ℕ → (List ℕ → ℤ) × ℕ) :=
  C71_merton_partial (paths := 10) (wshape := [3]) (draw := draw) (sample := sample) (.arr (.scalar 1))
    (.timed fun t => ⟨_, rfl, oneItem_example (2 * t)⟩) (.plain (oneItem_example 1))
    (fun t x h => by cases h; exact zero_le_one)
example (sample : ℕ → ℕ → ℕ → (ℕ → ℕ → ℝ × ℝ × ℝ) × ℕ)
    (draw : (List ℕ → ℝ) → List ℕ → ℕ → (List ℕ → ℤ) × ℕ) :=
  C71_kou_partial (paths := 10) (wshape := [3]) (draw := draw) (sample := sample) (.arr (.scalar 1))
    (.plain (oneItem_example 1)) (.plain (oneItem_example 2)) (.plain (oneItem_example 1))
    (fun t x h => by cases h; exact one_pos) (fun t x h => by cases h; exact two_pos)
    (fun t x h => by cases h; exact ⟨zero_le_one, le_rfl⟩)

end Sdepy
