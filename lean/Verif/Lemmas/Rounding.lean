import Verif.Spec.Rounding
import Mathlib.Tactic.Linarith
import Mathlib.Tactic.Positivity
import Mathlib.Tactic.FieldSimp
import Mathlib.Tactic.Ring
import Mathlib.Tactic.NormNum
import Mathlib.Algebra.Order.Archimedean.Real.Basic

/-!
# Lemmas on floating point arithmetic
-/

namespace Sdepy

open Spec

namespace FloatFormat

variable (F : FloatFormat)

theorem exists_below (x : ℝ) : ∃ y, F.IsBelow x y := by
  obtain ⟨w, hw, hxw⟩ := F.unbounded (-x)
  obtain ⟨k0, hk0⟩ := F.multiple _ (F.neg_mem _ hw)
  have hl := F.least_pos
  obtain ⟨k, ⟨hk, hkx⟩, hmax⟩ := Int.exists_greatest_of_bdd (P := fun k : ℤ => F.mem (k * F.least) ∧ k * F.least ≤ x)
    ⟨⌊x / F.least⌋, fun z hz => Int.le_floor.2 ((le_div_iff₀ hl).2 hz.2)⟩
    ⟨k0, by rw [← hk0]; exact ⟨F.neg_mem _ hw, by linarith⟩⟩
  refine ⟨k * F.least, hk, hkx, fun z hz hzx => ?_⟩
  obtain ⟨j, rfl⟩ := F.multiple z hz
  have : (j : ℝ) ≤ k := by exact_mod_cast hmax j ⟨hz, hzx⟩
  exact mul_le_mul_of_nonneg_right this hl.le

theorem exists_above (x : ℝ) : ∃ y, F.IsAbove x y := by
  obtain ⟨y, h1, h2, h3⟩ := exists_below F (-x)
  refine ⟨-y, F.neg_mem _ h1, by linarith, fun z hz hxz => ?_⟩
  have := h3 (-z) (F.neg_mem _ hz) (by linarith)
  linarith

variable {F}

theorem below_unique {x y z : ℝ} (h : F.IsBelow x y) (h' : F.IsBelow x z) : y = z :=
  le_antisymm (h'.2.2 y h.1 h.2.1) (h.2.2 z h'.1 h'.2.1)

theorem above_unique {x y z : ℝ} (h : F.IsAbove x y) (h' : F.IsAbove x z) : y = z :=
  le_antisymm (h.2.2 z h'.1 h'.2.1) (h'.2.2 y h.1 h.2.1)

variable (F)

theorem exists_rounds (x : ℝ) : ∃ y, F.Rounds x y := by
  obtain ⟨a, ha⟩ := exists_below F x
  obtain ⟨b, hb⟩ := exists_above F x
  rcases lt_trichotomy (x - a) (b - x) with h | h | h
  · exact ⟨a, a, b, ha, hb, .inl ⟨rfl, .inl h⟩⟩
  · by_cases hk : ∃ k : ℤ, a = 2 * k * (b - a)
    · exact ⟨a, a, b, ha, hb, .inl ⟨rfl, .inr ⟨h, hk⟩⟩⟩
    · exact ⟨b, a, b, ha, hb, .inr ⟨rfl, .inr ⟨h, hk⟩⟩⟩
  · exact ⟨b, a, b, ha, hb, .inr ⟨rfl, .inl h⟩⟩

variable {F}

theorem rounds_mem {x y : ℝ} (h : F.Rounds x y) : F.mem y := by
  obtain ⟨a, b, ha, hb, h | h⟩ := h
  · rw [h.1]; exact ha.1
  · rw [h.1]; exact hb.1

theorem rounds_mono {x x' y y' : ℝ} (h : F.Rounds x y) (h' : F.Rounds x' y') (hx : x ≤ x') : y ≤ y' := by
  obtain ⟨a, b, ha, hb, h⟩ := h
  obtain ⟨a', b', ha', hb', h'⟩ := h'
  have hab : a ≤ b := ha.2.1.trans hb.2.1
  have hab' : a' ≤ b' := ha'.2.1.trans hb'.2.1
  have hy : a ≤ y ∧ y ≤ b := by
    rcases h with h | h <;> rw [h.1] <;> constructor <;> first | exact le_rfl | exact hab
  have hy' : a' ≤ y' ∧ y' ≤ b' := by
    rcases h' with h | h <;> rw [h.1] <;> constructor <;> first | exact le_rfl | exact hab'
  by_cases hbx : b ≤ x'
  · exact hy.2.trans ((ha'.2.2 b hb.1 hbx).trans hy'.1)
  push Not at hbx
  have e1 : a = a' := by
    refine le_antisymm (ha'.2.2 a ha.1 (ha.2.1.trans hx)) (ha.2.2 a' ha'.1 ?_)
    by_contra hc
    push Not at hc
    exact absurd (hb.2.2 a' ha'.1 hc.le) (by linarith [ha'.2.1])
  have e2 : b = b' :=
    le_antisymm (hb.2.2 b' hb'.1 (hx.trans hb'.2.1)) (hb'.2.2 b hb.1 hbx.le)
  subst e1 e2
  rcases h with ⟨rfl, h⟩ | ⟨rfl, h⟩
  · exact hy'.1
  rcases h' with ⟨rfl, h'⟩ | ⟨rfl, h'⟩
  swap
  · exact le_rfl
  rcases h with h | ⟨h, hk⟩
  · rcases h' with h' | ⟨h', hk'⟩ <;> linarith
  · rcases h' with h' | ⟨h', hk'⟩
    · linarith
    · exact absurd hk' hk

theorem rounds_unique {x y y' : ℝ} (h : F.Rounds x y) (h' : F.Rounds x y') : y = y' :=
  le_antisymm (rounds_mono h h' le_rfl) (rounds_mono h' h le_rfl)

theorem rounds_self {x y : ℝ} (hx : F.mem x) (h : F.Rounds x y) : y = x := by
  obtain ⟨a, b, ha, hb, h⟩ := h
  have e1 : a = x := le_antisymm ha.2.1 (ha.2.2 x hx le_rfl)
  have e2 : b = x := le_antisymm (hb.2.2 x hx le_rfl) hb.2.1
  rcases h with h | h
  · rw [h.1, e1]
  · rw [h.1, e2]

variable (F)

/-- The rounded value. -/
noncomputable def rnd (x : ℝ) : ℝ := Classical.choose (exists_rounds F x)

theorem rnd_rounds (x : ℝ) : F.Rounds x (rnd F x) := Classical.choose_spec (exists_rounds F x)

theorem rnd_mem (x : ℝ) : F.mem (rnd F x) := rounds_mem (rnd_rounds F x)

theorem rnd_mono {x y : ℝ} (h : x ≤ y) : rnd F x ≤ rnd F y := rounds_mono (rnd_rounds F x) (rnd_rounds F y) h

theorem rnd_self {x : ℝ} (h : F.mem x) : rnd F x = x := rounds_self h (rnd_rounds F x)

/-- Differences of different numbers do not vanish by rounding. -/
theorem gap {x y : ℝ} (hx : F.mem x) (hy : F.mem y) (h : x < y) : x - y ≤ -F.least := by
  obtain ⟨j, rfl⟩ := F.multiple x hx
  obtain ⟨k, rfl⟩ := F.multiple y hy
  have hl := F.least_pos
  have : j < k := by
    have := lt_of_mul_lt_mul_right h hl.le
    exact_mod_cast this
  have : (j : ℝ) + 1 ≤ k := by exact_mod_cast this
  nlinarith

theorem rnd_sub_neg {x y : ℝ} (hx : F.mem x) (hy : F.mem y) : rnd F (x - y) < 0 ↔ x < y := by
  constructor
  · intro h
    by_contra hc
    push Not at hc
    have := rnd_mono F (sub_nonneg.2 hc)
    rw [rnd_self F F.zero_mem] at this
    linarith
  · intro h
    have := rnd_mono F (gap F hx hy h)
    rw [rnd_self F (F.neg_mem _ F.least_mem)] at this
    linarith [F.least_pos]

end FloatFormat

/-! ### binary formats -/

theorem isBinary_unbounded (p : ℕ) (e : ℤ) (hp : 1 ≤ p) (x : ℝ) : ∃ y, IsBinary p e y ∧ x ≤ y := by
  obtain ⟨n, hn⟩ := pow_unbounded_of_one_lt x (one_lt_two : (1 : ℝ) < 2)
  refine ⟨(2 : ℝ) ^ (max e (n : ℤ)), ⟨1, max e n, ?_, le_max_left _ _, by simp⟩, ?_⟩
  · rw [abs_one]; exact one_lt_pow₀ one_lt_two (by omega)
  · refine hn.le.trans ?_
    rw [← zpow_natCast]
    exact zpow_le_zpow_right₀ one_le_two (le_max_right _ _)

/-- Binary floating point numbers are a floating point format. -/
noncomputable def binary (p : ℕ) (e : ℤ) (hp : 1 ≤ p) (he : e ≤ 0) : FloatFormat where
  mem := IsBinary p e
  least := (2 : ℝ) ^ e
  least_pos := zpow_pos two_pos _
  least_mem := ⟨1, e, by rw [abs_one]; exact one_lt_pow₀ one_lt_two (by omega), le_rfl, by simp⟩
  multiple := by
    rintro x ⟨m, j, _, hj, rfl⟩
    refine ⟨m * 2 ^ (j - e).toNat, ?_⟩
    push_cast
    rw [mul_assoc]
    congr 1
    rw [← zpow_natCast, ← zpow_add₀ two_ne_zero]
    congr 1
    rw [Int.toNat_of_nonneg (by omega)]; ring
  zero_mem := ⟨0, e, by simp, le_rfl, by simp⟩
  one_mem := ⟨1, 0, by rw [abs_one]; exact one_lt_pow₀ one_lt_two (by omega), he, by simp⟩
  neg_mem := by
    rintro x ⟨m, j, hm, hj, rfl⟩
    exact ⟨-m, j, by rwa [abs_neg], hj, by push_cast; ring⟩
  unbounded := isBinary_unbounded p e hp

/-- IEEE 754 double precision numbers, but for their bounds: 53 digits, least positive number `2^(-1074)`. -/
noncomputable def binary64 : FloatFormat := binary 53 (-1074) (by norm_num) (by norm_num)

/-! ### numbers of a format, with rounded operations -/

/-- Numbers of a floating point format. -/
def FNum (F : FloatFormat) : Type := {x : ℝ // F.mem x}

namespace FNum

variable {F : FloatFormat}

/-- Round a real number. -/
noncomputable def of (F : FloatFormat) (x : ℝ) : FNum F := ⟨FloatFormat.rnd F x, FloatFormat.rnd_mem F x⟩

noncomputable instance : LinearOrder (FNum F) := inferInstanceAs (LinearOrder {x : ℝ // F.mem x})
noncomputable instance : Zero (FNum F) := ⟨⟨0, F.zero_mem⟩⟩
noncomputable instance : One (FNum F) := ⟨⟨1, F.one_mem⟩⟩
noncomputable instance : Neg (FNum F) := ⟨fun a => ⟨-a.1, F.neg_mem _ a.2⟩⟩
noncomputable instance : Add (FNum F) := ⟨fun a b => of F (a.1 + b.1)⟩
noncomputable instance : Sub (FNum F) := ⟨fun a b => of F (a.1 - b.1)⟩
noncomputable instance : Mul (FNum F) := ⟨fun a b => of F (a.1 * b.1)⟩
noncomputable instance : Div (FNum F) := ⟨fun a b => of F (a.1 / b.1)⟩

/-- `np.linspace(a, b, n)`, `n` equally spaced points computed with rounded operations: `arange(n)*step + a`, or
`arange(n)/(n - 1)*(b - a) + a` if `step` is rounded to zero, and then the last point is set to `b`, unless it is
the only one. -/
noncomputable instance : Linspace (FNum F) where
  linspace a b n := (List.range n).map fun i =>
    if n = 1 then of F 0 * (b - a) + a
    else if i + 1 = n then b
    else if (b - a) / of F ((n : ℝ) - 1) = 0 then of F i / of F ((n : ℝ) - 1) * (b - a) + a
    else of F i * ((b - a) / of F ((n : ℝ) - 1)) + a

theorem lt_iff {a b : FNum F} : a < b ↔ a.1 < b.1 := Iff.rfl

theorem mul_one' (a : FNum F) : a * 1 = a := by
  apply Subtype.ext
  change FloatFormat.rnd F (a.1 * 1) = a.1
  rw [mul_one, FloatFormat.rnd_self F a.2]

theorem mul_neg_one' (a : FNum F) : a * (-1) = -a := by
  apply Subtype.ext
  change FloatFormat.rnd F (a.1 * (-1)) = -a.1
  rw [mul_neg_one, FloatFormat.rnd_self F (F.neg_mem _ a.2)]

/-- Comparisons of times made by subtraction are exact, whatever the rounding errors. -/
instance : SignOk (FNum F) where
  fwd a b := by
    rw [mul_one']
    exact FloatFormat.rnd_sub_neg F a.2 b.2
  bwd a b := by
    rw [mul_neg_one', lt_iff]
    change -(FloatFormat.rnd F (a.1 - b.1)) < 0 ↔ b.1 < a.1
    rw [neg_lt_zero]
    constructor
    · intro h
      by_contra hc
      push Not at hc
      have := FloatFormat.rnd_mono F (sub_nonpos.2 hc)
      rw [FloatFormat.rnd_self F F.zero_mem] at this
      linarith
    · intro h
      have h1 := FloatFormat.gap F b.2 a.2 h
      have h2 : F.least ≤ a.1 - b.1 := by linarith
      have := FloatFormat.rnd_mono F h2
      rw [FloatFormat.rnd_self F F.least_mem] at this
      linarith [F.least_pos]

end FNum

end Sdepy
