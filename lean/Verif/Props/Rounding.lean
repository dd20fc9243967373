import Verif.Lemmas.Rounding
import Verif.Props.SDE

/-!
# Properties C01 to C08 in floating point arithmetic

The theorems on the integration of paths assume, of times, that they are linearly ordered and that the sign of a
difference tells which time comes first (`Spec.SignOk`). Floating point numbers are so (`FNum.instSignOk`), hence
all of C01 and C03 to C08 hold for them, as does C02 with rounded steps.
-/

namespace Sdepy

open Spec

/-- **C03.** In exact arithmetic, the points requested by `steps = n` are `n` equally spaced points, from the
first to the last point of the timeline. -/
theorem C03_linspace {T : Type} [Field T] (n : ℤ) (tt : List T) (t : T) : Requested (.int n) tt t ↔
    ∃ a b, tt.head? = some a ∧ tt.getLast? = some b ∧
      ∃ k : ℕ, (k : ℤ) < n ∧ t = a + k * ((b - a) / ((n : T) - 1)) := requested_int

example : Requested (.int 4) [(0 : ℚ), 1, 6] 4 := by
  rw [C03_linspace]
  exact ⟨0, 6, rfl, rfl, 2, by norm_num, by norm_num⟩

variable {F : FloatFormat}

/-- **C03.** In floating point arithmetic the points touched are strictly ordered and no step vanishes by rounding:
the time increment handed to the stochasticity sources, computed as a rounded difference of points of the grid,
is positive forwards and negative backwards. -/
theorem C03_floats {steps : Steps (FNum F)} {tt grid : List (FNum F)} (hg : IsGrid steps tt grid) :
    grid.Pairwise (fun t u => t < u ∧ 0 < u - t ∧ t - u < 0) := by
  refine hg.1.imp fun {t u} h => ⟨h, ?_, ?_⟩
  · have := (SignOk.bwd u t).2 h
    rw [FNum.mul_neg_one'] at this
    have h2 : -(u - t).1 < 0 := this
    exact neg_lt_zero.1 h2
  · have := (SignOk.fwd t u).2 h
    rwa [FNum.mul_one'] at this

/-- **C02.** In floating point arithmetic, with values that are arrays of floating point numbers: the
Euler-Maruyama recursion with each product and each sum rounded, in the order of the dictionary returned by
`sde`, along the points of the grid. -/
theorem C02_floats {ι O Id σ : Type} [LinearOrder Id] (S : SDE (FNum F) (ι → FNum F) O Id σ)
    (hS : DictOk S.sources) (fuel : ℕ) (steps : Steps (FNum F)) (i0 : ℤ) (tl : TArr (FNum F)) (s : σ)
    (hv : ValidTimeline tl) {i : ℕ} (hi : Designates tl.data.length i0 i)
    (hst : ∀ n : ℤ, steps = .int n → 0 ≤ n) {grid : List (FNum F)} (hg : IsGrid steps tl.data grid)
    {t0 : FNum F} (h0 : tl.data[i]? = some t0) (hfuel : grid.length ≤ fuel) :
    S.call fuel steps i0 tl s =
      (do let x0 ← S.init t0
          let (ps, s) ← solutionOf (roundedStep S) t0 (if S.log then S.logX x0 else x0) grid s
          pure (tl.data.map fun t => (ps.lookup t).map fun x =>
            if S.log then S.expO (S.letX t x) else S.letX t x, s)) :=
  C02_rounded S hS fuel steps i0 tl s hv hi hst hg h0 hfuel

/-- Rounded sums are what they should be: the number of the format that is nearest to the exact sum. -/
example (a b : FNum binary64) : binary64.Rounds (a.1 + b.1) (a + b).1 := FloatFormat.rnd_rounds _ _

/-- Numbers with 53 digits are below `2^53`, or even. -/
theorem binary53_cases {e : ℤ} {z : ℝ} (h : IsBinary 53 e z) : z < 2 ^ 53 ∨ ∃ k : ℤ, z = 2 * k := by
  obtain ⟨m, j, hm, _, rfl⟩ := h
  have hm' : (m : ℝ) < 2 ^ 53 := by exact_mod_cast (abs_lt.1 hm).2
  by_cases hj : j ≤ 0
  · left
    have h1 : (2 : ℝ) ^ j ≤ 1 := zpow_le_one_of_nonpos₀ one_le_two hj
    have h0 : (0 : ℝ) < (2 : ℝ) ^ j := zpow_pos two_pos _
    by_cases hm0 : (0 : ℝ) ≤ m
    · nlinarith
    · push Not at hm0
      nlinarith
  · right
    obtain ⟨n, rfl⟩ : ∃ n : ℕ, j = n + 1 := ⟨(j - 1).toNat, by omega⟩
    refine ⟨m * 2 ^ n, ?_⟩
    push_cast
    rw [zpow_add_one₀ two_ne_zero, zpow_natCast]
    ring

/-- In double precision `2^53 + 1` is rounded to `2^53`: there are two nearest numbers, and the other one is odd.
So rounded steps are not those of exact arithmetic. -/
theorem binary64_rounds : binary64.Rounds ((2 : ℝ) ^ 53 + 1) ((2 : ℝ) ^ 53) := by
  refine ⟨2 ^ 53, 2 ^ 53 + 2, ⟨⟨1, 53, by norm_num, by norm_num, by norm_num⟩, by norm_num, fun z hz hle => ?_⟩,
    ⟨⟨2 ^ 52 + 1, 1, by norm_num, by norm_num, by norm_num⟩, by norm_num, fun z hz hle => ?_⟩,
    .inl ⟨rfl, .inr ⟨by norm_num, 2 ^ 51, by norm_num⟩⟩⟩
  · rcases binary53_cases hz with h | ⟨k, rfl⟩
    · exact h.le
    · have h1 : 2 * k ≤ 2 ^ 53 + 1 := by exact_mod_cast hle
      have h2 : 2 * k ≤ 2 ^ 53 := by omega
      exact_mod_cast h2
  · rcases binary53_cases hz with h | ⟨k, rfl⟩
    · linarith
    · have h1 : 2 ^ 53 + 1 ≤ 2 * k := by exact_mod_cast hle
      have h2 : 2 ^ 53 + 2 ≤ 2 * k := by omega
      exact_mod_cast h2

/-- The number `m * 2^j`, in double precision. -/
noncomputable def exT (m : ℤ) (j : ℕ) (h : |m| < 2 ^ 53) : FNum binary64 :=
  ⟨m * (2 : ℝ) ^ j, m, j, h, by omega, by rw [zpow_natCast]⟩

example : ValidTimeline (⟨[3], [exT 0 0 (by norm_num), exT 1 0 (by norm_num), exT 1 60 (by norm_num)]⟩ :
    TArr (FNum binary64)) := by
  refine ⟨rfl, ?_⟩
  have h1 : exT 0 0 (by norm_num) < exT 1 0 (by norm_num) := by rw [FNum.lt_iff]; norm_num [exT]
  have h2 : exT 1 0 (by norm_num) < exT 1 60 (by norm_num) := by rw [FNum.lt_iff]; norm_num [exT]
  simp [h1, h2, h1.trans h2]

/-- A grid of double precision numbers: with a point requested between those of a timeline. -/
example : IsGrid (.iter [exT 3 1 (by norm_num), exT 5 90 (by norm_num)])
    [exT 0 0 (by norm_num), exT 1 0 (by norm_num), exT 1 60 (by norm_num)]
    [exT 0 0 (by norm_num), exT 1 0 (by norm_num), exT 3 1 (by norm_num), exT 1 60 (by norm_num)] := by
  have h1 : exT 0 0 (by norm_num) < exT 1 0 (by norm_num) := by rw [FNum.lt_iff]; norm_num [exT]
  have h2 : exT 1 0 (by norm_num) < exT 3 1 (by norm_num) := by rw [FNum.lt_iff]; norm_num [exT]
  have h3 : exT 3 1 (by norm_num) < exT 1 60 (by norm_num) := by rw [FNum.lt_iff]; norm_num [exT]
  have h4 : exT 1 60 (by norm_num) < exT 5 90 (by norm_num) := by rw [FNum.lt_iff]; norm_num [exT]
  have h13 := h1.trans h2
  have h14 := h13.trans h3
  have h24 := h2.trans h3
  refine ⟨by simp [h1, h2, h3, h13, h14, h24], fun t => ?_⟩
  simp only [Requested, List.mem_cons, List.not_mem_nil, or_false]
  constructor
  · rintro (rfl | rfl | rfl | rfl)
    · simp
    · simp
    · exact .inr ⟨.inl rfl, ⟨_, .inl rfl, h13.le⟩, ⟨_, .inr (.inr rfl), h3.le⟩⟩
    · simp
  · rintro (h | ⟨rfl | rfl, _, b, hb, hle⟩)
    · rcases h with h | h | h <;> simp [h]
    · simp
    · exfalso
      rcases hb with rfl | rfl | rfl
      · exact absurd (h14.trans h4) (not_lt.2 hle)
      · exact absurd (h24.trans h4) (not_lt.2 hle)
      · exact absurd h4 (not_lt.2 hle)

end Sdepy
