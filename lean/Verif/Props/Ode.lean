import Verif.Lemmas.Ode
import Verif.Props.StrongN

/-!
# Property C88: equations with no noise
-/

open MeasureTheory

namespace Sdepy

open Spec Set

section
variable {ι σ O : Type} [Fintype ι] {S : SDE ℝ (ι → ℝ) O ℕ σ} {c : ℕ → ℝ → (ι → ℝ) → ι → ℝ} {t0 : ℝ} {x0 : ι → ℝ}

/-- **C88** (scheme). With time as the only source, the integration returns the values of the Euler method along the
grid, forwards and backwards in time; these do not depend on the state of random generators, nor change it. -/
theorem C88_scheme [Nonempty σ] (hS : SDEOk S) (hsrc : S.sources = [(idT, dtSource)])
    (hcoef : ∀ t x, (equation S).coef t x = .ok fun id => c id t x) (hinit : S.init t0 = .ok x0)
    {fuel : ℕ} {steps : Steps ℝ} {i0 : ℤ} {tl : TArr ℝ} {grid : List ℝ} (h : Along fuel steps i0 tl grid t0) :
    ∃ X : ℝ → ι → ℝ,
      (∀ s, S.call fuel steps i0 tl s = .ok (tl.data.map fun t => some
        (if S.log then S.expO (S.letX t (X t)) else S.letX t (X t)), s)) ∧
      EulerOde (c idT) t0 (if S.log then S.logX x0 else x0) grid X := by
  obtain ⟨h1, h2, h3⟩ := along_mem h
  have hids : (equation S).ids = {idT} := by simp [equation, hsrc]
  have hk : idT ∈ (equation S).ids := by simp [hids]
  have hz : ∀ t dt s, (equation S).noise idT t dt s = .ok (fun _ => dt, s) := by
    intro t dt s
    simp only [equation, hsrc]
    rfl
  have hR : RealisesAll (equation S) idT t0 grid
      (fun _ _ _ => 0 : ℝ → σ → (equation S).Stochastic idT × ι → ℝ) id id := by
    refine realises_paths (fun j t dt ω => ?_) hz (fun id hid t dt ω => ?_) h.isGrid.1 h2
    · exact absurd j.2 (by simp [hids])
    · have : (id == idT) = false := by simpa [hids] using hid
      simp only [equation, hsrc, List.lookup, this]
  choose V hV hVZ using hR
  choose X hX hX0 hXs using fun ω => solution_of_noises hcoef h.isGrid.1 h2
    (if S.log then S.logX x0 else x0) (hV ω)
  have hstep : ∀ ω u v, StepOf grid t0 u v → X ω v = X ω u + (v - u) • c idT u (X ω u) := by
    intro ω u v huv
    have htime : ∀ u ∈ grid, ∀ i, V ω u idT i = V ω t0 idT i + (u - t0) := by
      intro u hu i
      obtain ⟨s1, w1, w2⟩ := cumulated_split h.isGrid.1 h2 (hV ω)
      rcases lt_trichotomy u t0 with hlt | rfl | hlt
      · exact cumulate_time hk hz w1 u (by simp [hu, hlt]) i
      · simp
      · exact cumulate_time hk hz w2 u (by simp [hu, hlt]) i
    funext i
    rw [hXs ω u v huv i, hids, Finset.sum_singleton, htime u huv.1, htime v huv.2.1]
    simp only [Pi.add_apply, Pi.smul_apply, smul_eq_mul]
    ring
  have hsame : ∀ ω ω', ∀ u ∈ grid, X ω u = X ω' u := by
    intro ω ω'
    refine grid_induction_both h.isGrid.1 h2 (by rw [hX0, hX0]) fun u v huv he => ?_
    rw [hstep ω u v huv, hstep ω' u v huv, he]
  obtain ⟨ω0⟩ := ‹Nonempty σ›
  refine ⟨X ω0, fun ω => ?_, hX0 ω0, hstep ω0⟩
  rw [call_along S hS h ω, hinit]
  simp only [bind, Except.bind, pure, Except.pure]
  have := hX ω
  simp only [id] at this
  simp only [this, Except.ok.injEq, Prod.mk.injEq, and_true]
  apply List.map_congr_left
  intro t ht
  rw [lookup_map_self (fun u => X ω u) (h3 t ht), hsame ω0 ω t (h3 t ht)]
  rfl

/-- **C88** (solution). If the coefficient of the equation is Lipschitz in `x`, and regular enough in time, the
equation has one and only one solution from the initial values; the values returned by any integration differ from
those of the solution, at all times within `T` of the initial one, before or after, by at most a constant times the
longest step. -/
theorem C88_solution [Nonempty σ] (hS : SDEOk S) (hsrc : S.sources = [(idT, dtSource)])
    (hcoef : ∀ t x, (equation S).coef t x = .ok fun id => c id t x) (hinit : S.init t0 = .ok x0) {T L : ℝ} (hT : 0 < T)
    (hL : LipschitzField (c idT) t0 T L) :
    ∃ y, SolvesOde (c idT) t0 T (if S.log then S.logX x0 else x0) y ∧
      (∀ y', SolvesOde (c idT) t0 T (if S.log then S.logX x0 else x0) y' →
        ∀ t ∈ Icc (t0 - T) (t0 + T), y' t = y t) ∧
      ∃ K ≥ 0, ∀ {fuel : ℕ} {steps : Steps ℝ} {i0 : ℤ} {tl : TArr ℝ} {grid : List ℝ} {δ : ℝ}, 0 ≤ δ →
        Along fuel steps i0 tl grid t0 → Mesh grid δ →
        ∃ X : ℝ → ι → ℝ,
          (∀ s, S.call fuel steps i0 tl s = .ok (tl.data.map fun t => some
            (if S.log then S.expO (S.letX t (X t)) else S.letX t (X t)), s)) ∧
          ∀ t ∈ tl.data, t ∈ Icc (t0 - T) (t0 + T) → ∀ i, |X t i - y t i| ≤ K * δ := by
  obtain ⟨y, hy⟩ := exists_ode hL hT (if S.log then S.logX x0 else x0)
  obtain ⟨K, hK, h⟩ := ode_error hL hT hy
  refine ⟨y, hy, fun y' hy' => ode_unique hL hT hy' hy, K, hK, ?_⟩
  intro fuel steps i0 tl grid δ hδ ha hm
  obtain ⟨X, e1, e2⟩ := C88_scheme hS hsrc hcoef hinit ha
  refine ⟨X, e1, fun t ht hI i => ?_⟩
  have := h ha.isGrid.1 (along_mem ha).2.1 hδ hm e2 t ((along_mem ha).2.2 t ht) hI
  exact (Real.norm_eq_abs _ ▸ norm_le_pi_norm (X t - y t) i).trans this

end

/-! ### Examples -/

/-- `dx = r*x*dt`, from the value 2. -/
noncomputable def exOde (r : ℝ) : SDE ℝ (Fin 3 → ℝ) (Fin 3 → ℝ) ℕ Unit where
  sources := [(idT, dtSource)]
  sde _ x := .ok (some [(idT, fun i => r * x i)])
  init _ := .ok fun _ => 2
  letX _ x := x
  log := false
  logX := id
  expO := id

theorem exOde_ok (r : ℝ) : SDEOk (exOde r) where
  sources := by simp [DictOk, exOde]
  sde := by
    intro t x A h
    simp only [exOde, Except.ok.injEq, Option.some.injEq] at h
    subst h
    simp [DictOk]

theorem exOde_coef (r : ℝ) (t : ℝ) (x : Fin 3 → ℝ) :
    (equation (exOde r)).coef t x = .ok fun id i => if id = idT then r * x i else 0 := by
  simp only [equation, exOde, bind, Except.bind, pure, Except.pure, List.map_cons, List.map_nil]
  rw [if_neg (by rintro ⟨k, h1, h2⟩; exact h2 h1)]
  simp only [Except.ok.injEq]
  funext id i
  by_cases h : id = idT
  · subst h; simp [entry, List.lookup]
  · have e : (id == idT) = false := by simpa using h
    simp [entry, List.lookup, e, h]

theorem exOde_lipschitz (r T : ℝ) (hT : 0 < T) :
    LipschitzField (fun _ (x : Fin 3 → ℝ) i => if idT = idT then r * x i else 0) 1 T |r| := by
  intro t _ u _ x y
  have : (fun i => if idT = idT then r * x i else 0) - (fun i => if idT = idT then r * y i else 0) = r • (x - y) := by
    funext i
    simp
    ring
  rw [this, norm_smul, Real.norm_eq_abs]
  have h : 0 ≤ (1 + ‖x‖) * |t - u| := by positivity
  exact mul_le_mul_of_nonneg_left (by linarith) (abs_nonneg _)

/-- The solution of `dx = r*x*dt` from the value 2 at time 1 is an exponential, approximated by integrations with an error
of the order of the length of steps, also before the initial time. -/
example (r : ℝ) : ∃ K ≥ 0, ∀ {fuel : ℕ} {steps : Steps ℝ} {i0 : ℤ} {tl : TArr ℝ} {grid : List ℝ} {δ : ℝ}, 0 ≤ δ →
    Along fuel steps i0 tl grid 1 → Mesh grid δ →
    ∃ X : ℝ → Fin 3 → ℝ, (∀ s, (exOde r).call fuel steps i0 tl s = .ok (tl.data.map fun t => some (X t), s)) ∧
      ∀ t ∈ tl.data, t ∈ Icc (1 - 5 : ℝ) (1 + 5) → ∀ i, |X t i - 2 * Real.exp (r * (t - 1))| ≤ K * δ := by
  obtain ⟨y, hy, hu, K, hK, h⟩ := C88_solution (S := exOde r) (t0 := 1) (T := 5) (exOde_ok r) rfl (exOde_coef r) rfl
    (by norm_num) (exOde_lipschitz r 5 (by norm_num))
  refine ⟨K, hK, ?_⟩
  intro fuel steps i0 tl grid δ hδ ha hm
  obtain ⟨X, e1, e2⟩ := h hδ ha hm
  refine ⟨X, e1, fun t ht hI i => ?_⟩
  have := hu (fun t _ => 2 * Real.exp (r * (t - 1))) ⟨by funext i; simp [exOde], fun t ht => by
    refine hasDerivWithinAt_pi.2 fun i => ?_
    have h1 : HasDerivAt (fun t : ℝ => r * (t - 1)) (r * 1) t := ((hasDerivAt_id t).sub_const 1).const_mul r
    have h2 := (h1.exp.const_mul 2).hasDerivWithinAt (s := Icc (1 - 5 : ℝ) (1 + 5))
    convert h2 using 1
    simp
    ring⟩ t hI
  have e := e2 t ht hI i
  rwa [← this] at e

/-- With two steps. -/
example (r : ℝ) : ∃ X : ℝ → Fin 3 → ℝ,
    (∀ s, (exOde r).call 10 .none 0 ⟨[3], [1, 3 / 2, 2]⟩ s = .ok ([some (X 1), some (X (3 / 2)), some (X 2)], s)) ∧
    X (3 / 2) = fun _ => 2 + 1 / 2 * (r * 2) := by
  obtain ⟨X, e1, e2, e3⟩ := C88_scheme (S := exOde r) (t0 := 1) (exOde_ok r) rfl (exOde_coef r) rfl exAlongS
  refine ⟨X, e1, ?_⟩
  rw [e3 1 (3 / 2) ⟨by simp, by simp, .inl ⟨le_rfl, by norm_num, by
    intro c hc h; simp at hc; rcases hc with rfl | rfl | rfl <;> norm_num at h⟩⟩, e2]
  funext i
  simp [exOde]
  norm_num

end Sdepy
