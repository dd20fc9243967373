import Verif.Lemmas.Elementwise

/-!
# C69: analytical results are computed cell by cell

Functions of `analytical.py` accept arrays: values of arguments for each cell are those assigned by
broadcasting, and the value of the cell is the one of the formula for numbers.
-/

namespace Sdepy

open Spec Real

theorem vec4 {α : Type} (a : Fin 4 → α) : ![a 0, a 1, a 2, a 3] = a := by
  funext i; fin_cases i <;> rfl

theorem vec5 {α : Type} (a : Fin 5 → α) : ![a 0, a 1, a 2, a 3, a 4] = a := by
  funext i; fin_cases i <;> rfl

theorem vec6 {α : Type} (a : Fin 6 → α) : ![a 0, a 1, a 2, a 3, a 4, a 5] = a := by
  funext i; fin_cases i <;> rfl

theorem vec7 {α : Type} (a : Fin 7 → α) : ![a 0, a 1, a 2, a 3, a 4, a 5, a 6] = a := by
  funext i; fin_cases i <;> rfl

theorem vec8 {α : Type} (a : Fin 8 → α) : ![a 0, a 1, a 2, a 3, a 4, a 5, a 6, a 7] = a := by
  funext i; fin_cases i <;> rfl

theorem vec9 {α : Type} (a : Fin 9 → α) : ![a 0, a 1, a 2, a 3, a 4, a 5, a 6, a 7, a 8] = a := by
  funext i; fin_cases i <;> rfl

theorem vec10 {α : Type} (a : Fin 10 → α) :
    ![a 0, a 1, a 2, a 3, a 4, a 5, a 6, a 7, a 8, a 9] = a := by
  funext i; fin_cases i <;> rfl

theorem elementwise_app {n : ℕ} {α β γ : Type} {F : (Fin n → Arr α) → Py (Arr β)} (f : (Fin n → α) → β)
    (g : β → γ) (hF : ∀ a, F a = ewise f a) :
    Elementwise (fun a => appPy g (F a)) (fun v => g (f v)) :=
  elementwise_of_ew fun a => ⟨_, fun _ => Iff.rfl, by
    rw [hF]; exact (ew_args f a).app g⟩

theorem ew_ofMeanVar' (f : ℝ → ℝ → ℝ → Option ℝ) {x : Arr ℝ} {lx l : List (List ℕ)} {mean var : Py (Arr ℝ)}
    {gx gm gv : List ℕ → ℝ} (hx : Ew lx (.ok x) gx) (hlx : ∃ S, Joint lx S) (hm : Ew l mean gm)
    (hv : Ew l var gv) :
    Ew (lx ++ (l ++ l)) (ofMeanVar f x mean var) (fun c => f (gx c) (gm c) (√(gv c))) := by
  by_cases hl : ∃ S, Joint l S
  · obtain ⟨S, hS⟩ := hl
    obtain ⟨m, rfl, h1, h2⟩ := hm.1 S hS
    obtain ⟨v, rfl, h3, h4⟩ := hv.1 S hS
    have h := ew_ewise (n := 3) (fun v => f (v 0) (v 1) (v 2)) (a := ![x, m, v.app Real.sqrt])
      (L := ![lx, l, l]) (g := ![gx, gm, fun c => √(gv c)])
      (by intro j; fin_cases j; exacts [hx, hm, hv.app Real.sqrt])
      (by intro j; fin_cases j; exacts [hlx, ⟨S, hS⟩, ⟨S, hS⟩])
    simpa [ofMeanVar] using h
  · refine ⟨fun S hS => ?_, fun _ => by rw [hm.2 hl]; rfl⟩
    obtain ⟨u, hu, _⟩ := joint_of_fits (l := l) fun s hs => hS.fits s (by simp [hs])
    exact absurd ⟨u, hu⟩ hl

theorem ew_ofMeanVar (f : ℝ → ℝ → ℝ → Option ℝ) (x : Arr ℝ) {l : List (List ℕ)} {mean var : Py (Arr ℝ)}
    {gm gv : List ℕ → ℝ} (hm : Ew l mean gm) (hv : Ew l var gv) :
    Ew ([x.shape] ++ (l ++ l)) (ofMeanVar f x mean var)
      (fun c => f (cellValue x c) (gm c) (√(gv c))) :=
  ew_ofMeanVar' f (ew_arr x) ⟨_, joint_single _⟩ hm hv

theorem ew_cirPdf (t x x0 theta k xi : Arr ℝ) :
    Ew [t.shape, x0.shape, theta.shape, k.shape, xi.shape, x.shape] (cirPdfA t x x0 theta k xi)
      (fun c => cirPdf (cellValue x0 c) (cellValue theta c) (cellValue k c) (cellValue xi c)
        (cellValue t c) (cellValue x c)) := by
  have hof : (List.ofFn fun j => ((![t, x0, theta, k, xi] : Fin 5 → Arr ℝ) j).shape) =
      [t.shape, x0.shape, theta.shape, k.shape, xi.shape] := by simp [List.ofFn_succ]
  by_cases hl : ∃ S, Joint (List.ofFn fun j => ((![t, x0, theta, k, xi] : Fin 5 → Arr ℝ) j).shape) S
  · obtain ⟨S, hS⟩ := hl
    obtain ⟨v, hv, _, hE⟩ := ew_bcAll hS
    rw [hof] at hS hE
    have h := ew_ewise (n := 6) (fun v => cirPdf (v 1) (v 2) (v 3) (v 4) (v 0) (v 5))
      (a := ![v 0, v 1, v 2, v 3, v 4, x])
      (L := ![[t.shape, x0.shape, theta.shape, k.shape, xi.shape],
        [t.shape, x0.shape, theta.shape, k.shape, xi.shape],
        [t.shape, x0.shape, theta.shape, k.shape, xi.shape],
        [t.shape, x0.shape, theta.shape, k.shape, xi.shape],
        [t.shape, x0.shape, theta.shape, k.shape, xi.shape], [x.shape]])
      (g := ![cellValue t, cellValue x0, cellValue theta, cellValue k, cellValue xi, cellValue x])
      (by intro j; fin_cases j; exacts [hE 0, hE 1, hE 2, hE 3, hE 4, ew_arr x])
      (by
        intro j
        fin_cases j
        exacts [⟨S, hS⟩, ⟨S, hS⟩, ⟨S, hS⟩, ⟨S, hS⟩, ⟨S, hS⟩, ⟨_, joint_single _⟩])
    simp only [cirPdfA, hv]
    refine h.congr fun s => ?_
    simp [List.ofFn_succ]
    tauto
  · refine ⟨fun S hS => ?_, fun _ => ?_⟩
    · obtain ⟨u, hu, _⟩ := joint_of_fits (S := S)
        (l := List.ofFn fun j => ((![t, x0, theta, k, xi] : Fin 5 → Arr ℝ) j).shape)
        fun s hs => hS.fits s (by rw [hof] at hs; simp at hs ⊢; tauto)
      exact absurd ⟨u, hu⟩ hl
    · simp only [cirPdfA, bcAll, bcShapes_none hl]

theorem ew_bs (k t x0 r q sigma : Arr ℝ) :
    (∃ S, Joint [k.shape, t.shape, x0.shape, r.shape, q.shape, sigma.shape] S) ∧
      (∃ d1 d2, bsd1d2A k t x0 r q sigma = .ok (d1, d2) ∧
        Ew [k.shape, t.shape, x0.shape, r.shape, q.shape, sigma.shape] (.ok d1)
          (fun c => (bsd1d2 (cellValue k c) (cellValue t c) (cellValue x0 c) (cellValue r c)
            (cellValue q c) (cellValue sigma c)).1) ∧
        Ew [k.shape, t.shape, x0.shape, r.shape, q.shape, sigma.shape] (.ok d2)
          (fun c => (bsd1d2 (cellValue k c) (cellValue t c) (cellValue x0 c) (cellValue r c)
            (cellValue q c) (cellValue sigma c)).2)) ∨
    (¬ ∃ S, Joint [k.shape, t.shape, x0.shape, r.shape, q.shape, sigma.shape] S) ∧
      bsd1d2A k t x0 r q sigma = .error .valueError := by
  have hof : (List.ofFn fun j => ((![k, t, x0, r, q, sigma] : Fin 6 → Arr ℝ) j).shape) =
      [k.shape, t.shape, x0.shape, r.shape, q.shape, sigma.shape] := by simp [List.ofFn_succ]
  have e1 := ew_args (fun v => (bsd1d2 (v 0) (v 1) (v 2) (v 3) (v 4) (v 5)).1) ![k, t, x0, r, q, sigma]
  have e2 := ew_args (fun v => (bsd1d2 (v 0) (v 1) (v 2) (v 3) (v 4) (v 5)).2) ![k, t, x0, r, q, sigma]
  rw [hof] at e1 e2
  by_cases hl : ∃ S, Joint [k.shape, t.shape, x0.shape, r.shape, q.shape, sigma.shape] S
  · refine .inl ⟨hl, ?_⟩
    obtain ⟨S, hS⟩ := hl
    obtain ⟨d1, h1, _⟩ := e1.1 S hS
    obtain ⟨d2, h2, _⟩ := e2.1 S hS
    refine ⟨d1, d2, ?_, h1 ▸ e1, h2 ▸ e2⟩
    simp only [bsd1d2A, h1, h2]
  · refine .inr ⟨hl, ?_⟩
    simp only [bsd1d2A, e1.2 hl]

theorem ew_bsTerm (x0 q t : Arr ℝ) {d : Arr EReal} {l : List (List ℕ)} {g : List ℕ → EReal}
    (h : Ew l (.ok d) g) :
    Ew ([x0.shape] ++ ([q.shape] ++ [t.shape]) ++ l) (bsTerm x0 q t d)
      (fun c => cellValue x0 c * exp (-cellValue q c * cellValue t c) * npNormCdf (g c)) :=
  ((ew_arr x0).zip ((((ew_arr q).app (- ·)).zip (ew_arr t) (· * ·)).app Real.exp) (· * ·)).zip
    (h.app npNormCdf) (· * ·)

/-- **C69** (Wiener process). -/
theorem C69_wiener :
    Elementwise (n := 4) (fun a => wienerMeanA (a 0) (a 1) (a 2) (a 3))
      (fun v => wienerMean (v 1) (v 2) (v 3) (v 0)) ∧
    Elementwise (n := 4) (fun a => wienerVarA (a 0) (a 1) (a 2) (a 3))
      (fun v => wienerVar (v 1) (v 2) (v 3) (v 0)) ∧
    Elementwise (n := 4) (fun a => wienerStdA (a 0) (a 1) (a 2) (a 3))
      (fun v => wienerSd (v 1) (v 2) (v 3) (v 0)) ∧
    Elementwise (n := 5) (fun a => wienerPdfA (a 0) (a 1) (a 2) (a 3) (a 4))
      (fun v => wienerPdf (v 2) (v 3) (v 4) (v 0) (v 1)) ∧
    Elementwise (n := 5) (fun a => wienerCdfA (a 0) (a 1) (a 2) (a 3) (a 4))
      (fun v => wienerCdf (v 2) (v 3) (v 4) (v 0) (v 1)) ∧
    Elementwise (n := 5) (fun a => wienerChfA (a 0) (a 1) (a 2) (a 3) (a 4))
      (fun v => wienerChf (v 2) (v 3) (v 4) (v 0) (v 1)) := by
  refine ⟨?_, ?_, ?_, ?_, ?_, ?_⟩
  · simp only [wienerMeanA, vec4]; exact elementwise_ewise _
  · simp only [wienerVarA, vec4]; exact elementwise_ewise _
  · exact elementwise_app _ _ fun a => by simp only [wienerVarA, vec4]
  · simp only [wienerPdfA, vec5]; exact elementwise_ewise _
  · simp only [wienerCdfA, vec5]; exact elementwise_ewise _
  · simp only [wienerChfA, vec5]; exact elementwise_ewise _

/-- **C69** (lognormal process). -/
theorem C69_lognorm :
    Elementwise (n := 4) (fun a => lognormMeanA (a 0) (a 1) (a 2) (a 3))
      (fun v => lognormMean (v 1) (v 2) (v 3) (v 0)) ∧
    Elementwise (n := 4) (fun a => lognormVarA (a 0) (a 1) (a 2) (a 3))
      (fun v => lognormVar (v 1) (v 2) (v 3) (v 0)) ∧
    Elementwise (n := 4) (fun a => lognormStdA (a 0) (a 1) (a 2) (a 3))
      (fun v => lognormSd (v 1) (v 2) (v 3) (v 0)) ∧
    Elementwise (n := 5) (fun a => lognormPdfA (a 0) (a 1) (a 2) (a 3) (a 4))
      (fun v => lognormPdf (v 2) (v 3) (v 4) (v 0) (v 1)) ∧
    Elementwise (n := 5) (fun a => lognormCdfA (a 0) (a 1) (a 2) (a 3) (a 4))
      (fun v => lognormCdf (v 2) (v 3) (v 4) (v 0) (v 1)) ∧
    Elementwise (n := 5) (fun a => lognormLogChfA (a 0) (a 1) (a 2) (a 3) (a 4))
      (fun v => lognormLogChf (v 2) (v 3) (v 4) (v 0) (v 1)) := by
  refine ⟨?_, ?_, ?_, ?_, ?_, ?_⟩
  · simp only [lognormMeanA, vec4]; exact elementwise_ewise _
  · simp only [lognormVarA, vec4]; exact elementwise_ewise _
  · exact elementwise_app _ _ fun a => by simp only [lognormVarA, vec4]
  · simp only [lognormPdfA, vec5]; exact elementwise_ewise _
  · simp only [lognormCdfA, vec5]; exact elementwise_ewise _
  · simp only [lognormLogChfA, vec5]; exact elementwise_ewise _

/-- **C69** (Ornstein-Uhlenbeck process; Hull-White process with one factor). -/
theorem C69_oruh :
    Elementwise (n := 5) (fun a => oruhMeanA (a 0) (a 1) (a 2) (a 3) (a 4))
      (fun v => oruhMean (v 1) (v 2) (v 3) (v 4) (v 0)) ∧
    Elementwise (n := 5) (fun a => oruhVarA (a 0) (a 1) (a 2) (a 3) (a 4))
      (fun v => oruhVar (v 1) (v 2) (v 3) (v 4) (v 0)) ∧
    Elementwise (n := 5) (fun a => oruhStdA (a 0) (a 1) (a 2) (a 3) (a 4))
      (fun v => oruhSd (v 1) (v 2) (v 3) (v 4) (v 0)) ∧
    Elementwise (n := 6) (fun a => oruhPdfA (a 0) (a 1) (a 2) (a 3) (a 4) (a 5))
      (fun v => oruhPdf (v 2) (v 3) (v 4) (v 5) (v 0) (v 1)) ∧
    Elementwise (n := 6) (fun a => oruhCdfA (a 0) (a 1) (a 2) (a 3) (a 4) (a 5))
      (fun v => oruhCdf (v 2) (v 3) (v 4) (v 5) (v 0) (v 1)) := by
  refine ⟨?_, ?_, ?_, ?_, ?_⟩
  · simp only [oruhMeanA, vec5]; exact elementwise_ewise _
  · simp only [oruhVarA, vec5]; exact elementwise_ewise _
  · exact elementwise_app _ _ fun a => by simp only [oruhVarA, vec5]
  · refine elementwise_of_ew fun a => ⟨_, ?_, ew_ofMeanVar _ _ (ew_args _ _) (ew_args _ _)⟩
    simp [List.ofFn_succ]; tauto
  · refine elementwise_of_ew fun a => ⟨_, ?_, ew_ofMeanVar _ _ (ew_args _ _) (ew_args _ _)⟩
    simp [List.ofFn_succ]; tauto

/-- **C69** (Cox-Ingersoll-Ross process). -/
theorem C69_cir :
    Elementwise (n := 5) (fun a => cirMeanA (a 0) (a 1) (a 2) (a 3) (a 4))
      (fun v => cirMean (v 1) (v 2) (v 3) (v 4) (v 0)) ∧
    Elementwise (n := 5) (fun a => cirVarA (a 0) (a 1) (a 2) (a 3) (a 4))
      (fun v => cirVar (v 1) (v 2) (v 3) (v 4) (v 0)) ∧
    Elementwise (n := 5) (fun a => cirStdA (a 0) (a 1) (a 2) (a 3) (a 4))
      (fun v => cirSd (v 1) (v 2) (v 3) (v 4) (v 0)) ∧
    Elementwise (n := 6) (fun a => cirPdfA (a 0) (a 1) (a 2) (a 3) (a 4) (a 5))
      (fun v => cirPdf (v 2) (v 3) (v 4) (v 5) (v 0) (v 1)) := by
  refine ⟨?_, ?_, ?_, ?_⟩
  · simp only [cirMeanA, vec5]; exact elementwise_ewise _
  · simp only [cirVarA, vec5]; exact elementwise_ewise _
  · exact elementwise_app _ _ fun a => by simp only [cirVarA, vec5]
  · refine elementwise_of_ew fun a => ⟨_, ?_, ew_cirPdf _ _ _ _ _ _⟩
    simp [List.ofFn_succ]; tauto

/-- **C69** (Heston process). -/
theorem C69_heston :
    Elementwise (n := 9) (fun a => hestonLogMeanA (a 0) (a 1) (a 2) (a 3) (a 4) (a 5) (a 6) (a 7) (a 8))
      (fun v => hestonLogMean (v 1) (v 2) (v 3) (v 4) (v 5) (v 6) (v 7) (v 8) (v 0)) ∧
    Elementwise (n := 9) (fun a => hestonLogVarA (a 0) (a 1) (a 2) (a 3) (a 4) (a 5) (a 6) (a 7) (a 8))
      (fun v => hestonLogVar (v 1) (v 2) (v 3) (v 4) (v 5) (v 6) (v 7) (v 8) (v 0)) ∧
    Elementwise (n := 9) (fun a => hestonLogStdA (a 0) (a 1) (a 2) (a 3) (a 4) (a 5) (a 6) (a 7) (a 8))
      (fun v => hestonLogSd (v 1) (v 2) (v 3) (v 4) (v 5) (v 6) (v 7) (v 8) (v 0)) ∧
    Elementwise (n := 10) (fun a => hestonLogChfA (a 0) (a 1) (a 2) (a 3) (a 4) (a 5) (a 6) (a 7) (a 8) (a 9))
      (fun v => hestonLogChf (v 2) (v 3) (v 4) (v 5) (v 6) (v 7) (v 8) (v 9) (v 0) (v 1)) := by
  refine ⟨?_, ?_, ?_, ?_⟩
  · simp only [hestonLogMeanA, vec9]; exact elementwise_ewise _
  · simp only [hestonLogVarA, vec9]; exact elementwise_ewise _
  · exact elementwise_app _ _ fun a => by simp only [hestonLogVarA, vec9]
  · simp only [hestonLogChfA, vec10]; exact elementwise_ewise _

/-- **C69** (Merton jump-diffusion). -/
theorem C69_mjd :
    Elementwise (n := 7) (fun a => mjdMeanA (a 0) (a 1) (a 2) (a 3) (a 4) (a 5) (a 6))
      (fun v => mjdMean (v 1) (v 2) (v 3) (v 4) (v 5) (v 6) (v 0)) ∧
    Elementwise (n := 8) (fun a => mjdLogChfA (a 0) (a 1) (a 2) (a 3) (a 4) (a 5) (a 6) (a 7))
      (fun v => mjdLogChf (v 2) (v 3) (v 4) (v 5) (v 6) (v 7) (v 0) (v 1)) := by
  refine ⟨?_, ?_⟩
  · simp only [mjdMeanA, vec7]; exact elementwise_ewise _
  · simp only [mjdLogChfA, vec8]; exact elementwise_ewise _

/-- **C69** (Kou jump-diffusion). -/
theorem C69_kou :
    Elementwise (n := 8) (fun a => kouMeanA (a 0) (a 1) (a 2) (a 3) (a 4) (a 5) (a 6) (a 7))
      (fun v => kouMean (v 1) (v 2) (v 3) (v 4) (v 5) (v 6) (v 7) (v 0)) ∧
    Elementwise (n := 9) (fun a => kouLogChfA (a 0) (a 1) (a 2) (a 3) (a 4) (a 5) (a 6) (a 7) (a 8))
      (fun v => kouLogChf (v 2) (v 3) (v 4) (v 5) (v 6) (v 7) (v 8) (v 0) (v 1)) := by
  refine ⟨?_, ?_⟩
  · simp only [kouMeanA, vec8]; exact elementwise_ewise _
  · simp only [kouLogChfA, vec9]; exact elementwise_ewise _

/-- **C69** (Black-Scholes formulae). -/
theorem C69_bs :
    Elementwise (n := 6) (fun a => bscallA (a 0) (a 1) (a 2) (a 3) (a 4) (a 5))
      (fun v => bscall (v 0) (v 1) (v 2) (v 3) (v 4) (v 5)) ∧
    Elementwise (n := 6) (fun a => bscallDeltaA (a 0) (a 1) (a 2) (a 3) (a 4) (a 5))
      (fun v => bscallDelta (v 0) (v 1) (v 2) (v 3) (v 4) (v 5)) ∧
    Elementwise (n := 6) (fun a => bsputA (a 0) (a 1) (a 2) (a 3) (a 4) (a 5))
      (fun v => bsput (v 0) (v 1) (v 2) (v 3) (v 4) (v 5)) ∧
    Elementwise (n := 6) (fun a => bsputDeltaA (a 0) (a 1) (a 2) (a 3) (a 4) (a 5))
      (fun v => bsputDelta (v 0) (v 1) (v 2) (v 3) (v 4) (v 5)) := by
  have key : ∀ (F : (Fin 6 → Arr ℝ) → Py (Arr ℝ)) (f : (Fin 6 → ℝ) → ℝ),
      (∀ a, bsd1d2A (a 0) (a 1) (a 2) (a 3) (a 4) (a 5) = .error .valueError → F a = .error .valueError) →
      (∀ (a : Fin 6 → Arr ℝ) d1 d2, bsd1d2A (a 0) (a 1) (a 2) (a 3) (a 4) (a 5) = .ok (d1, d2) →
        Ew [(a 0).shape, (a 1).shape, (a 2).shape, (a 3).shape, (a 4).shape, (a 5).shape] (.ok d1)
          (fun c => (bsd1d2 (cellValue (a 0) c) (cellValue (a 1) c) (cellValue (a 2) c)
            (cellValue (a 3) c) (cellValue (a 4) c) (cellValue (a 5) c)).1) →
        Ew [(a 0).shape, (a 1).shape, (a 2).shape, (a 3).shape, (a 4).shape, (a 5).shape] (.ok d2)
          (fun c => (bsd1d2 (cellValue (a 0) c) (cellValue (a 1) c) (cellValue (a 2) c)
            (cellValue (a 3) c) (cellValue (a 4) c) (cellValue (a 5) c)).2) →
        ∃ l, (∀ s, s ∈ l ↔ s = (a 0).shape ∨ s = (a 1).shape ∨ s = (a 2).shape ∨ s = (a 3).shape ∨
          s = (a 4).shape ∨ s = (a 5).shape) ∧ Ew l (F a) (fun c => f fun j => cellValue (a j) c)) →
      Elementwise F f := by
    intro F f h1 h2
    refine elementwise_of_ew fun a => ?_
    have hof : (List.ofFn fun j => (a j).shape) =
      [(a 0).shape, (a 1).shape, (a 2).shape, (a 3).shape, (a 4).shape, (a 5).shape] := by
      simp [List.ofFn_succ]
    rw [hof]
    rcases ew_bs (a 0) (a 1) (a 2) (a 3) (a 4) (a 5) with ⟨_, d1, d2, h, e1, e2⟩ | ⟨hn, h⟩
    · obtain ⟨l, hl, hE⟩ := h2 a d1 d2 h e1 e2
      exact ⟨l, fun s => by rw [hl]; simp, hE⟩
    · exact ⟨_, fun _ => Iff.rfl, fun S hS => absurd ⟨S, hS⟩ hn, fun _ => h1 a h⟩
  refine ⟨?_, ?_, ?_, ?_⟩ <;> refine key _ _ (fun a h => ?_) (fun a d1 d2 h e1 e2 => ?_)
  · simp only [bscallA, h]
  · simp only [bscallA, h]
    exact ⟨_, fun s => by simp; tauto,
      (ew_bsTerm (a 2) (a 4) (a 1) e1).zip (ew_bsTerm (a 0) (a 3) (a 1) e2) (· - ·)⟩
  · simp only [bscallDeltaA, h]
  · simp only [bscallDeltaA, h]
    exact ⟨_, fun s => by simp; tauto,
      ((((ew_arr (a 4)).app (- ·)).zip (ew_arr (a 1)) (· * ·)).app Real.exp).zip
        (e1.app npNormCdf) (· * ·)⟩
  · simp only [bsputA, h]
  · simp only [bsputA, h]
    exact ⟨_, fun s => by simp; tauto,
      (ew_bsTerm (a 0) (a 3) (a 1) (e2.app (- ·))).zip (ew_bsTerm (a 2) (a 4) (a 1) (e1.app (- ·)))
        (· - ·)⟩
  · simp only [bsputDeltaA, h]
  · simp only [bsputDeltaA, h]
    exact ⟨_, fun s => by simp; tauto,
      (((((ew_arr (a 4)).app (- ·)).zip (ew_arr (a 1)) (· * ·)).app Real.exp).app (- ·)).zip
        ((e1.app (- ·)).app npNormCdf) (· * ·)⟩

/-! ### Examples -/

/-- Times of shape `(3,)` and volatilities of shape `(2, 1)`: variances have shape `(2, 3)`. -/
example (t sigma : Arr ℝ) (ht : t.shape = [3]) (hs : sigma.shape = [2, 1]) :
    ∃ r, wienerVarA t (.scalar 0) (.scalar 1) sigma = .ok r ∧ r.shape = [2, 3] ∧
      r.get [1, 2] = wienerVar 0 1 (sigma.get [1, 0]) (t.get [2]) := by
  obtain ⟨r, h1, h2, h3⟩ := (C69_wiener.2.1 ![t, .scalar 0, .scalar 1, sigma]).1 [2, 3] (by
    rw [← bcShapes_iff]
    simp [List.ofFn_succ, ht, hs, Arr.scalar]
    decide)
  refine ⟨r, h1, h2, ?_⟩
  rw [h3 [1, 2] (.cons (by norm_num) (.cons (by norm_num) .nil))]
  simp [cellValue, cellIndex, ht, hs, Arr.scalar, List.range_succ]

/-- Times of shape `(3,)` and volatilities of shape `(2,)`. -/
example (t sigma : Arr ℝ) (ht : t.shape = [3]) (hs : sigma.shape = [2]) :
    wienerVarA t (.scalar 0) (.scalar 1) sigma = .error .valueError := by
  refine (C69_wiener.2.1 ![t, .scalar 0, .scalar 1, sigma]).2 ?_
  rintro ⟨S, hS⟩
  rw [← bcShapes_iff] at hS
  simp [List.ofFn_succ, ht, hs, Arr.scalar] at hS
  exact absurd hS (by
    rw [show bcShapes [[3], [], [], [2]] = none by decide]
    simp)

/-- Call options with strikes of shape `(2,)`. -/
example (k : Arr ℝ) (hk : k.shape = [2]) :
    ∃ r, bscallA k (.scalar 1) (.scalar 100) (.scalar 0) (.scalar 0) (.scalar 1) = .ok r ∧ r.shape = [2] ∧
      r.get [1] = bscall (k.get [1]) 1 100 0 0 1 := by
  obtain ⟨r, h1, h2, h3⟩ := (C69_bs.1 ![k, .scalar 1, .scalar 100, .scalar 0, .scalar 0, .scalar 1]).1 [2] (by
    rw [← bcShapes_iff]
    simp [List.ofFn_succ, hk, Arr.scalar]
    decide)
  refine ⟨r, h1, h2, ?_⟩
  rw [h3 [1] (.cons (by norm_num) .nil)]
  simp [cellValue, cellIndex, hk, Arr.scalar]

end Sdepy
