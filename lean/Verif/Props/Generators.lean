import Verif.Model.Generators
import Mathlib.Data.List.Basic

/-!
# C109: which random number generator is used, and what follows from it
-/

namespace Sdepy
namespace C109

variable {γ Λ I M Q V O R R' σ : Type}

/-! ### Specification -/

namespace Spec

/-- A computation makes no use of generators, except those in `P`: its outcome depends on the states of
generators in `P` alone, and so do their states afterwards; the states of all other generators are left
unchanged. -/
def Only [DecidableEq γ] (P : γ → Prop) (p : Prog γ Q V R) : Prop :=
  ∀ (σ : Type) (gen : γ → Q → σ → V × σ) (h h' : γ → σ), (∀ g, P g → h g = h' g) →
    (p.run gen h).1 = (p.run gen h').1 ∧
    (∀ g, P g → (p.run gen h).2 g = (p.run gen h').2 g) ∧
    (∀ g, ¬ P g → (p.run gen h).2 g = h g)

/-- A source makes no use of generators, except those in `P`, whatever it computes, and whenever it is
called. -/
def Uses [DecidableEq γ] (P : γ → Prop) (s : GenSrc γ Λ I M Q V O) : Prop :=
  ∀ (E : Beh Λ I M Q V O) (i : I) (m : M), Only P (s.call E i m)

/-- Generator `g` is the one asked for by `rng`, if the default generator is `d`. -/
def Meant (d : γ) (rng : RngArg γ) (g : γ) : Prop :=
  rng = .gen g ∨ (rng = .none ∧ g = d)

end Spec

/-! ### Auxiliary: computations made of such computations -/

section
variable [DecidableEq γ] {P : γ → Prop}

theorem only_ret (r : R) : Spec.Only P (.ret r : Prog γ Q V R) := fun _ _ _ _ e =>
  ⟨rfl, fun g hg => e g hg, fun _ _ => rfl⟩

theorem only_draw {g : γ} (hg : P g) (q : Q) {k : V → Prog γ Q V R} (hk : ∀ v, Spec.Only P (k v)) :
    Spec.Only P (.draw g q k) := by
  intro σ gen h h' e
  have eg := e g hg
  simp only [Prog.run]
  rw [← eg]
  obtain ⟨a, b, c⟩ := hk (gen g q (h g)).1 σ gen (Function.update h g (gen g q (h g)).2)
    (Function.update h' g (gen g q (h g)).2) (by
      intro g' hg'
      by_cases x : g' = g
      · subst x; simp
      · simp [Function.update_of_ne x, e g' hg'])
  refine ⟨a, b, fun g' hg' => ?_⟩
  rw [c g' hg', Function.update_of_ne]
  rintro rfl; exact hg' hg

theorem run_bind (gen : γ → Q → σ → V × σ) (p : Prog γ Q V R) (f : R → Prog γ Q V R') (h : γ → σ) :
    (p.bind f).run gen h = (f (p.run gen h).1).run gen (p.run gen h).2 := by
  induction p generalizing h with
  | ret r => rfl
  | draw g q k ih => simp only [Prog.bind, Prog.run, ih]

theorem _root_.Sdepy.C109.Spec.Only.bind {p : Prog γ Q V R} {f : R → Prog γ Q V R'} (hp : Spec.Only P p)
    (hf : ∀ r, Spec.Only P (f r)) : Spec.Only P (p.bind f) := by
  intro σ gen h h' e
  obtain ⟨a, b, c⟩ := hp σ gen h h' e
  rw [run_bind, run_bind, ← a]
  obtain ⟨a', b', c'⟩ := hf (p.run gen h).1 σ gen _ _ b
  exact ⟨a', b', fun g hg => (c' g hg).trans (c g hg)⟩

theorem only_mono {P' : γ → Prop} (hPP : ∀ g, P g → P' g) {p : Prog γ Q V R} (hp : Spec.Only P p) :
    Spec.Only P' p := by
  intro σ gen h h' e
  obtain ⟨a, b, c⟩ := hp σ gen h h' fun g hg => e g (hPP g hg)
  refine ⟨a, fun g hg => ?_, fun g hg => c g fun x => hg (hPP g x)⟩
  by_cases x : P g
  · exact b g x
  · rw [c g x, (hp σ gen h' h fun g hg => (e g (hPP g hg)).symm).2.2 g x, e g hg]

end

theorem only_drawAll [DecidableEq γ] {P : γ → Prop} {g : γ} (hg : P g) (qs : List Q) :
    Spec.Only P (Prog.drawAll (V := V) g qs) := by
  induction qs with
  | nil => exact only_ret _
  | cons q qs ih => exact only_draw hg q fun v => ih.bind fun _ => only_ret _

theorem only_visits [DecidableEq γ] {P : γ → Prop} {f : I → M → Prog γ Q V M} (hf : ∀ i m, Spec.Only P (f i m)) :
    ∀ (is : List I) (m : M), Spec.Only P (visits f is m)
  | [], _ => only_ret _
  | i :: is, m => (hf i m).bind fun m => only_visits hf is m

section
variable [DecidableEq γ] {P : γ → Prop} {g : γ} {s s' : GenSrc γ Λ I M Q V O}

theorem uses_mono {P' : γ → Prop} (hPP : ∀ g, P g → P' g) (h : Spec.Uses P s) : Spec.Uses P' s :=
  fun E i m => only_mono hPP (h E i m)

theorem uses_wiener (hg : P g) : Spec.Uses P (.wiener g : GenSrc γ Λ I M Q V O) := fun _ _ _ =>
  (only_drawAll hg _).bind fun _ => only_ret _

theorem uses_poisson (hg : P g) (lam : Λ) : Spec.Uses P (.poisson g lam : GenSrc γ Λ I M Q V O) :=
  fun _ _ _ => (only_drawAll hg _).bind fun _ => only_ret _

theorem uses_cpoisson (hg : P g) (hs : Spec.Uses P s) (lam : Λ) {y : JumpRv γ}
    (hy : y.keyword = true ∨ P y.own) : Spec.Uses P (.cpoisson g s lam y) := fun E i m =>
  (hs E i m).bind fun _ => (only_drawAll (by
    rcases hy with hy | hy
    · simpa [hy] using hg
    · split <;> assumption) _).bind fun _ => only_ret _

theorem uses_antith (hs : Spec.Uses P s) : Spec.Uses P (.antith s) := fun E i m =>
  (hs E i m).bind fun _ => only_ret _

theorem uses_trueWiener (hs : Spec.Uses P s) : Spec.Uses P (.trueWiener g s) := fun E i m =>
  (only_visits (by
    intro j m
    split
    · exact only_ret _
    · exact only_ret _
    · exact (hs _ _ _).bind fun _ => only_ret _
    · exact (hs _ _ _).bind fun _ => only_ret _) _ _).bind fun _ => only_ret _

theorem uses_truePoisson (hg : P g) (hs : Spec.Uses P s) (lam : Λ) :
    Spec.Uses P (.truePoisson g s lam) := fun E i m =>
  (only_visits (by
    intro j m
    split
    · exact only_ret _
    · exact only_ret _
    · exact (hs _ _ _).bind fun _ => only_ret _
    · exact only_draw hg _ fun _ => only_ret _) _ _).bind fun _ => only_ret _

theorem uses_trueCPoisson (hs : Spec.Uses P s) (hs' : Spec.Uses P s') (lam : Λ) :
    Spec.Uses P (.trueCPoisson g s s' lam) := fun E i m =>
  (only_visits (by
    intro j m
    split
    · exact only_ret _
    · exact only_ret _
    · exact (hs _ _ _).bind fun _ => only_ret _
    · refine Spec.Only.bind (only_visits ?_ _ _) fun _ => only_ret _
      intro _ _
      exact (hs' _ _ _).bind fun _ => only_ret _)
    _ _).bind fun _ => only_ret _

end

theorem setRng_ok {d g : γ} {rng : RngArg γ} (h : setRng d rng = .ok g) : Spec.Meant d rng g := by
  cases rng with
  | none => exact .inr ⟨rfl, (Except.ok.inj h).symm⟩
  | seed => cases h
  | gen g' => exact .inl (by rw [Except.ok.inj h])

theorem setRng_meant {d g : γ} {rng : RngArg γ} (h : Spec.Meant d rng g) : setRng d rng = .ok g := by
  rcases h with rfl | ⟨rfl, rfl⟩ <;> rfl

/-! ### Sources -/

section
variable [DecidableEq γ] {d g : γ} {rng : RngArg γ} {c : SrcCls}

/-- Sources of increments of Wiener processes: if instantiated, whatever the class, they report the
generator asked for, and use no other. -/
theorem C109_dw (hg : Spec.Meant d rng g) {s : GenSrc γ Λ I M Q V O} (h : newDw d c rng = .ok s) :
    s.rng = some g ∧ Spec.Uses (· = g) s := by
  have e := setRng_meant hg
  cases c <;> simp only [newDw, e] at h <;> cases h
  · exact ⟨rfl, uses_wiener rfl⟩
  · exact ⟨rfl, uses_antith (uses_wiener rfl)⟩
  · exact ⟨rfl, uses_trueWiener (uses_wiener rfl)⟩

theorem newPoisson_eq (hg : Spec.Meant d rng g) (lam : Λ) :
    (newPoisson d rng lam : Py (GenSrc γ Λ I M Q V O)) = .ok (.poisson g lam) := by
  simp only [newPoisson, setRng_meant hg]; rfl

theorem newTruePoisson_eq (hg : Spec.Meant d rng g) (lam : Λ) :
    (newTruePoisson d rng lam : Py (GenSrc γ Λ I M Q V O)) = .ok (.truePoisson g (.poisson g lam) lam) := by
  simp only [newTruePoisson, setRng_meant hg, newPoisson_eq hg]; rfl

/-- What is said of an optional parameter `dn` (or `dw`, `dj`): if an instance, it only makes use of
generators in `P`. -/
def Spec.ArgUses (P : γ → Prop) (a : SrcArg (GenSrc γ Λ I M Q V O)) : Prop :=
  ∀ s, a = .inst s → Spec.Uses P s

theorem newCPoisson_ok {P : γ → Prop} (hg : Spec.Meant d rng g) (hP : P g)
    {setup : SrcCls → Py (GenSrc γ Λ I M Q V O)} {dn : SrcArg (GenSrc γ Λ I M Q V O)} {lam : Λ} {y : JumpRv γ}
    (hset : ∀ c s, setup c = .ok s → Spec.Uses P s) (hdn : Spec.ArgUses P dn)
    (hy : y.keyword = true ∨ P y.own) {s : GenSrc γ Λ I M Q V O}
    (h : newCPoisson setup d rng dn lam y = .ok s) :
    ∃ s' l, s = .cpoisson g s' l y ∧ Spec.Uses P s' := by
  have e := setRng_meant hg
  cases dn with
  | none =>
    simp only [newCPoisson, e, newPoisson_eq hg] at h
    cases h
    exact ⟨_, _, rfl, uses_poisson hP _⟩
  | cls c =>
    simp only [newCPoisson, e] at h
    cases hc : setup c with
    | error x => rw [hc] at h; cases h
    | ok s' =>
      rw [hc] at h
      cases h
      exact ⟨_, _, rfl, hset c s' hc⟩
  | inst s' =>
    simp only [newCPoisson, e] at h
    cases h
    exact ⟨_, _, rfl, hdn s' rfl⟩

theorem newTrueCPoisson_ok {P : γ → Prop} (hg : Spec.Meant d rng g) (hP : P g)
    {setup : SrcCls → Py (GenSrc γ Λ I M Q V O)} {dn : SrcArg (GenSrc γ Λ I M Q V O)} {lam lam1 : Λ}
    {y : JumpRv γ} (hset : ∀ c s, setup c = .ok s → Spec.Uses P s) (hdn : Spec.ArgUses P dn)
    (hy : y.keyword = true ∨ P y.own) {s : GenSrc γ Λ I M Q V O}
    (h : newTrueCPoisson setup lam1 d rng dn lam y = .ok s) :
    s.rng = some g ∧ Spec.Uses P s := by
  have e := setRng_meant hg
  have key : ∀ dn', Spec.ArgUses P dn' → ∀ s₁, (do
      let dj ← newCPoisson setup d rng dn' lam1 y
      match dj with
      | .cpoisson _ s l _ => return .trueCPoisson g dj s l
      | _ => .error .attributeError : Py (GenSrc γ Λ I M Q V O)) = .ok s₁ →
      s₁.rng = some g ∧ Spec.Uses P s₁ := by
    intro dn' hdn' s₁ h₁
    cases hc : newCPoisson setup d rng dn' lam1 y with
    | error x => rw [hc] at h₁; cases h₁
    | ok dj =>
      rw [hc] at h₁
      obtain ⟨s', l, rfl, hs'⟩ := newCPoisson_ok hg hP hset hdn' hy hc
      cases h₁
      exact ⟨rfl, uses_trueCPoisson (uses_cpoisson hP hs' _ hy) hs' _⟩
  cases dn with
  | none =>
    simp only [newTrueCPoisson, e, newTruePoisson_eq hg] at h
    exact key _ (by rintro s' ⟨⟩; exact uses_truePoisson hP (uses_poisson hP _) _) _ h
  | cls c =>
    simp only [newTrueCPoisson, e] at h
    exact key _ hdn _ h
  | inst s' =>
    simp only [newTrueCPoisson, e] at h
    exact key _ hdn _ h

theorem newDn_ok {P : γ → Prop} (hg : Spec.Meant d rng g) (hP : P g) {lam lam1 : Λ} {y1 : JumpRv γ}
    (hy1 : y1.keyword = true) {s : GenSrc γ Λ I M Q V O} (h : newDn lam1 y1 d c rng lam = .ok s) :
    s.rng = some g ∧ Spec.Uses P s := by
  have e := setRng_meant hg
  have none_ok : Spec.ArgUses P (.none : SrcArg (GenSrc γ Λ I M Q V O)) := by rintro s ⟨⟩
  have set_ok : ∀ (c : SrcCls) (s : GenSrc γ Λ I M Q V O),
      (fun _ : SrcCls => (.error .typeError : Py (GenSrc γ Λ I M Q V O))) c = .ok s → Spec.Uses P s := by
    intro c s x; cases x
  cases c with
  | wiener => cases h
  | oddWiener => cases h
  | trueWiener => cases h
  | poisson =>
    simp only [newDn, newPoisson_eq hg] at h; cases h
    exact ⟨rfl, uses_poisson hP _⟩
  | evenPoisson =>
    simp only [newDn, newPoisson_eq hg] at h; cases h
    exact ⟨rfl, uses_antith (uses_poisson hP _)⟩
  | truePoisson =>
    simp only [newDn, newTruePoisson_eq hg] at h; cases h
    exact ⟨rfl, uses_truePoisson hP (uses_poisson hP _) _⟩
  | cpoisson =>
    obtain ⟨s', l, rfl, hs'⟩ := newCPoisson_ok hg hP set_ok none_ok (.inl hy1) h
    exact ⟨rfl, uses_cpoisson hP hs' _ (.inl hy1)⟩
  | evenCPoisson =>
    simp only [newDn] at h
    cases hc : newCPoisson (fun _ => (.error .typeError : Py (GenSrc γ Λ I M Q V O))) d rng .none lam y1 with
    | error x => rw [hc] at h; cases h
    | ok s₁ =>
      rw [hc] at h; cases h
      obtain ⟨s', l, rfl, hs'⟩ := newCPoisson_ok hg hP set_ok none_ok (.inl hy1) hc
      exact ⟨rfl, uses_antith (uses_cpoisson hP hs' _ (.inl hy1))⟩
  | trueCPoisson => exact newTrueCPoisson_ok hg hP set_ok none_ok (.inl hy1) h

/-- Sources given for Poisson processes: if instantiated, whatever the class, they report the generator
asked for, and use no other. -/
theorem C109_dn (hg : Spec.Meant d rng g) {lam lam1 : Λ} {y1 : JumpRv γ} (hy1 : y1.keyword = true)
    {s : GenSrc γ Λ I M Q V O} (h : newDn lam1 y1 d c rng lam = .ok s) :
    s.rng = some g ∧ Spec.Uses (· = g) s :=
  newDn_ok (P := (· = g)) hg rfl hy1 h

/-- Sources of jumps: if instantiated, whatever the class, they report the generator asked for, and use no
other, except those used by a source given as `dn` (`P`), and by `y` if not accepting `random_state`. -/
theorem C109_dj {P : γ → Prop} (hg : Spec.Meant d rng g) {lam lam1 : Λ} {y y1 : JumpRv γ}
    (hy1 : y1.keyword = true) {dn : SrcArg (GenSrc γ Λ I M Q V O)} (hdn : Spec.ArgUses P dn)
    {s : GenSrc γ Λ I M Q V O} (h : newDj lam1 y1 d c rng dn lam y = .ok s) :
    s.rng = some g ∧ Spec.Uses (fun x => x = g ∨ P x ∨ (y.keyword = false ∧ x = y.own)) s := by
  set P' : γ → Prop := fun x => x = g ∨ P x ∨ (y.keyword = false ∧ x = y.own) with hP'
  have hP : P' g := .inl rfl
  have hy : y.keyword = true ∨ P' y.own := by
    cases hk : y.keyword
    · exact .inr (.inr (.inr ⟨hk, rfl⟩))
    · exact .inl rfl
  have hdn' : Spec.ArgUses P' dn := fun s hs => uses_mono (fun x hx => .inr (.inl hx)) (hdn s hs)
  have set_ok : ∀ (l : Λ) (c : SrcCls) (s : GenSrc γ Λ I M Q V O),
      newDn lam1 y1 d c rng l = .ok s → Spec.Uses P' s := fun l c s x => (newDn_ok hg hP hy1 x).2
  cases c with
  | cpoisson =>
    obtain ⟨s', l, rfl, hs'⟩ := newCPoisson_ok hg hP (set_ok lam) hdn' hy h
    exact ⟨rfl, uses_cpoisson hP hs' _ hy⟩
  | evenCPoisson =>
    simp only [newDj] at h
    cases hc : newCPoisson (fun c => newDn lam1 y1 d c rng lam) d rng dn lam y with
    | error x => rw [hc] at h; cases h
    | ok s₁ =>
      rw [hc] at h; cases h
      obtain ⟨s', l, rfl, hs'⟩ := newCPoisson_ok hg hP (set_ok lam) hdn' hy hc
      exact ⟨rfl, uses_antith (uses_cpoisson hP hs' _ hy)⟩
  | trueCPoisson => exact newTrueCPoisson_ok hg hP (set_ok lam1) hdn' hy h
  | _ => cases h

omit [DecidableEq γ] in
/-- A seed in place of a generator is rejected by all classes, whatever the other parameters. -/
theorem C109_seed (d : γ) (c : SrcCls) (lam lam1 : Λ) (y y1 : JumpRv γ)
    (dn : SrcArg (GenSrc γ Λ I M Q V O)) :
    (newDw d c .seed : Py (GenSrc γ Λ I M Q V O)) = .error .typeError ∧
    (newDn lam1 y1 d c .seed lam : Py (GenSrc γ Λ I M Q V O)) = .error .typeError ∧
    newDj lam1 y1 d c .seed dn lam y = .error .typeError := by
  cases c <;> exact ⟨rfl, rfl, rfl⟩

/-- Classes of the right kind are instantiated, if `rng` is not a seed (and `dn` is none, an instance, or a
class taking `lam`). -/
theorem C109_accepted (hg : Spec.Meant d rng g) (lam lam1 : Λ) (y y1 : JumpRv γ)
    (dn : SrcArg (GenSrc γ Λ I M Q V O))
    (hdn : ∀ c, dn = .cls c → c ∉ [SrcCls.wiener, .oddWiener, .trueWiener]) :
    (c ∈ [SrcCls.wiener, .oddWiener, .trueWiener] →
      ∃ s : GenSrc γ Λ I M Q V O, newDw d c rng = .ok s) ∧
    (c ∉ [SrcCls.wiener, .oddWiener, .trueWiener] →
      ∃ s : GenSrc γ Λ I M Q V O, newDn lam1 y1 d c rng lam = .ok s) ∧
    (c ∈ [SrcCls.cpoisson, .evenCPoisson, .trueCPoisson] →
      ∃ s : GenSrc γ Λ I M Q V O, newDj lam1 y1 d c rng dn lam y = .ok s) := by
  rcases hg with rfl | ⟨rfl, rfl⟩
  all_goals
    refine ⟨?_, ?_, ?_⟩
    · cases c <;> intro h <;> first | exact ⟨_, rfl⟩ | simp at h
    · cases c <;> intro h <;> first | exact ⟨_, rfl⟩ | simp at h
    · cases dn with
      | none => cases c <;> intro h <;> first | exact ⟨_, rfl⟩ | simp at h
      | inst s => cases c <;> intro h <;> first | exact ⟨_, rfl⟩ | simp at h
      | cls c' =>
        have := hdn c' rfl
        cases c' <;> first | (exfalso; simp at this; done) | skip
        all_goals cases c <;> intro h <;> first | exact ⟨_, rfl⟩ | simp at h

end

/-! ### Processes -/

section
variable [DecidableEq γ] {d g : γ} {rng : RngArg γ}

/-- What is given explicitly in order to set up a source of a process makes use of generators in `P` alone. -/
def Spec.Given (P : γ → Prop) : SrcSpec γ Λ (GenSrc γ Λ I M Q V O) → Prop
  | .dt => True
  | .dw a => Spec.ArgUses P a
  | .dn a _ => Spec.ArgUses P a
  | .dj a dn _ y => Spec.ArgUses P a ∧ Spec.ArgUses P dn ∧ (y.keyword = true ∨ P y.own)

theorem uses_sourceOf {P : γ → Prop} (hg : Spec.Meant d rng g) (hP : P g) (dtOut : I → O) {lam1 : Λ}
    {y1 : JumpRv γ} (hy1 : y1.keyword = true) {a : SrcSpec γ Λ (GenSrc γ Λ I M Q V O)} (ha : Spec.Given P a)
    {s : GenSrc γ Λ I M Q V O} (h : sourceOf dtOut lam1 y1 d rng a = .ok s) : Spec.Uses P s := by
  have one : ∀ x, x = g → P x := by rintro x rfl; exact hP
  have dj_ok : ∀ (c : SrcCls) dn lam y, (Spec.ArgUses P dn ∧ (y.keyword = true ∨ P y.own)) →
      newDj lam1 y1 d c rng dn lam y = .ok s → Spec.Uses P s := by
    intro c dn lam y ⟨h1, h2⟩ e
    refine uses_mono ?_ (C109_dj hg hy1 h1 e).2
    rintro x (rfl | hx | ⟨hk, rfl⟩)
    · exact hP
    · exact hx
    · rcases h2 with h2 | h2
      · rw [hk] at h2; cases h2
      · exact h2
  cases a with
  | dt => cases h; exact fun _ _ _ => only_ret _
  | dw a =>
    cases a with
    | none => exact uses_mono one (C109_dw (c := .wiener) hg h).2
    | cls c => exact uses_mono one (C109_dw hg h).2
    | inst s' => cases h; exact ha _ rfl
  | dn a lam =>
    cases a with
    | none => exact uses_mono one (C109_dn (c := .poisson) (lam1 := lam1) hg hy1 h).2
    | cls c => exact uses_mono one (C109_dn hg hy1 h).2
    | inst s' => cases h; exact ha _ rfl
  | dj a dn lam y =>
    obtain ⟨h1, h2⟩ := ha
    cases a with
    | none => exact dj_ok .cpoisson _ _ _ h2 h
    | cls c => exact dj_ok _ _ _ _ h2 h
    | inst s' => cases h; exact h1 _ rfl

theorem mapM_mem {A B : Type} {f : A → Py B} : ∀ {as : List A} {bs : List B}, as.mapM f = .ok bs →
    ∀ b ∈ bs, ∃ a ∈ as, f a = .ok b
  | [], bs, h, b, hb => by cases h; simp at hb
  | a :: as, bs, h, b, hb => by
    rw [List.mapM_cons] at h
    cases ha : f a with
    | error e => rw [ha] at h; cases h
    | ok b0 =>
      cases has : as.mapM f with
      | error e => rw [ha, has] at h; cases h
      | ok bs0 =>
        rw [ha, has] at h
        cases h
        rcases List.mem_cons.1 hb with rfl | hb
        · exact ⟨a, by simp, ha⟩
        · obtain ⟨a', h1, h2⟩ := mapM_mem has b hb
          exact ⟨a', by simp [h1], h2⟩

/-- A process reports the generator asked for (by default, the default generator as of its instantiation),
and the increments used in its integration are drawn from it alone, apart from sources given as instances:
it suffices that `P` holds for it, and for the generators used by the latter. -/
theorem C109_process {P : γ → Prop} (hg : Spec.Meant d rng g) (hP : P g) (dtOut : I → O) {lam1 : Λ}
    {y1 : JumpRv γ} (hy1 : y1.keyword = true) {specs : List (SrcSpec γ Λ (GenSrc γ Λ I M Q V O))}
    (hgiven : ∀ a ∈ specs, Spec.Given P a) {p : RngSim γ Λ I M Q V O}
    (h : newRngSim dtOut lam1 y1 d rng specs = .ok p) :
    p.rng = .gen g ∧ (∀ s ∈ p.sources, Spec.Uses P s) ∧
    ∀ E i ms, Spec.Only P (RngSim.dZ E p.sources i ms) := by
  cases hs : specs.mapM (sourceOf dtOut lam1 y1 d rng) with
  | error e => simp only [newRngSim, hs] at h; cases h
  | ok ss =>
    simp only [newRngSim, hs] at h
    cases h
    have hss : ∀ s ∈ ss, Spec.Uses P s := by
      intro s hmem
      obtain ⟨a, ha, e⟩ := mapM_mem hs s hmem
      exact uses_sourceOf hg hP dtOut hy1 (hgiven a ha) e
    refine ⟨?_, hss, ?_⟩
    · rcases hg with rfl | ⟨rfl, rfl⟩ <;> rfl
    · intro E i
      clear hs
      induction ss with
      | nil => intro ms; exact only_ret _
      | cons s ss ih =>
        intro ms
        cases ms with
        | nil => exact only_ret _
        | cons m ms =>
          exact (hss s (by simp) E i m).bind fun z =>
            (ih (fun s hs => hss s (by simp [hs])) ms).bind fun w => only_ret _

end

/-- A seed given to a process as `rng` is rejected as soon as one of its sources has to be instantiated. It is
accepted if there is none: all of them are given. -/
theorem C109_process_seed (d : γ) (dtOut : I → O) (lam1 : Λ) (y1 : JumpRv γ)
    (specs : List (SrcSpec γ Λ (GenSrc γ Λ I M Q V O))) :
    ((∃ p, newRngSim dtOut lam1 y1 d .seed specs = .ok p) ↔
      ∀ a ∈ specs, a = .dt ∨ ∃ s, a = .dw (.inst s) ∨ (∃ l, a = .dn (.inst s) l) ∨
        ∃ dn l y, a = .dj (.inst s) dn l y) ∧
    ((¬ ∃ p, newRngSim dtOut lam1 y1 d .seed specs = .ok p) →
      newRngSim dtOut lam1 y1 d .seed specs = .error .typeError) := by
  have one : ∀ a : SrcSpec γ Λ (GenSrc γ Λ I M Q V O),
      ((∃ s, sourceOf dtOut lam1 y1 d .seed a = .ok s) ∧ (a = .dt ∨ ∃ s, a = .dw (.inst s) ∨
        (∃ l, a = .dn (.inst s) l) ∨ ∃ dn l y, a = .dj (.inst s) dn l y)) ∨
      (sourceOf dtOut lam1 y1 d .seed a = .error .typeError ∧ ¬ (a = .dt ∨ ∃ s, a = .dw (.inst s) ∨
        (∃ l, a = .dn (.inst s) l) ∨ ∃ dn l y, a = .dj (.inst s) dn l y)) := by
    intro a
    cases a with
    | dt => exact .inl ⟨⟨_, rfl⟩, .inl rfl⟩
    | dw a =>
      cases a with
      | none => exact .inr ⟨rfl, by simp⟩
      | cls c => exact .inr ⟨(C109_seed (M := M) (Q := Q) (V := V) d c lam1 lam1 y1 y1 .none).1, by simp⟩
      | inst s => exact .inl ⟨⟨_, rfl⟩, .inr ⟨s, .inl rfl⟩⟩
    | dn a l =>
      cases a with
      | none => exact .inr ⟨rfl, by simp⟩
      | cls c => exact .inr ⟨(C109_seed (M := M) (Q := Q) (V := V) d c l lam1 y1 y1 .none).2.1, by simp⟩
      | inst s => exact .inl ⟨⟨_, rfl⟩, .inr ⟨s, .inr (.inl ⟨l, rfl⟩)⟩⟩
    | dj a dn l y =>
      cases a with
      | none => exact .inr ⟨(C109_seed d .cpoisson l lam1 y y1 dn).2.2, by simp⟩
      | cls c => exact .inr ⟨(C109_seed d c l lam1 y y1 dn).2.2, by simp⟩
      | inst s => exact .inl ⟨⟨_, rfl⟩, .inr ⟨s, .inr (.inr ⟨dn, l, y, rfl⟩)⟩⟩
  have all : ((∃ ss, specs.mapM (sourceOf dtOut lam1 y1 d .seed) = .ok ss) ∧ ∀ a ∈ specs, a = .dt ∨
        ∃ s, a = .dw (.inst s) ∨ (∃ l, a = .dn (.inst s) l) ∨ ∃ dn l y, a = .dj (.inst s) dn l y) ∨
      (specs.mapM (sourceOf dtOut lam1 y1 d .seed) = .error .typeError ∧ ¬ ∀ a ∈ specs, a = .dt ∨
        ∃ s, a = .dw (.inst s) ∨ (∃ l, a = .dn (.inst s) l) ∨ ∃ dn l y, a = .dj (.inst s) dn l y) := by
    induction specs with
    | nil => exact .inl ⟨⟨[], rfl⟩, by simp⟩
    | cons a as ih =>
      rcases one a with ⟨⟨s, hs⟩, ha⟩ | ⟨hs, ha⟩
      · rcases ih with ⟨⟨ss, hss⟩, has⟩ | ⟨hss, has⟩
        · refine .inl ⟨⟨s :: ss, ?_⟩, ?_⟩
          · rw [List.mapM_cons, hs, hss]; rfl
          · intro b hb
            rcases List.mem_cons.1 hb with rfl | hb
            · exact ha
            · exact has b hb
        · refine .inr ⟨?_, fun h => has fun b hb => h b (by simp [hb])⟩
          rw [List.mapM_cons, hs, hss]; rfl
      · refine .inr ⟨?_, fun h => ha (h a (by simp))⟩
        rw [List.mapM_cons, hs]; rfl
  rcases all with ⟨⟨ss, hss⟩, h⟩ | ⟨hss, h⟩
  · have e : newRngSim dtOut lam1 y1 d .seed specs = .ok ⟨.seed, ss⟩ := by simp only [newRngSim, hss]; rfl
    exact ⟨⟨fun _ => h, fun _ => ⟨_, e⟩⟩, fun x => absurd ⟨_, e⟩ x⟩
  · have e : newRngSim dtOut lam1 y1 d .seed specs = .error .typeError := by simp only [newRngSim, hss]; rfl
    refine ⟨⟨fun ⟨p, hp⟩ => ?_, fun x => absurd x h⟩, fun _ => e⟩
    rw [e] at hp; cases hp

/-! ### Independence of other objects -/

/-- The outcomes of the calls of object `k`, in order. -/
def Spec.outsOf (k : ℕ) (outs : List (ℕ × O)) : List O :=
  (outs.filter (·.1 = k)).map (·.2)

/-- Is it a call of object `k`? -/
def Spec.isCall (k : ℕ) : RngEvent γ I → Bool
  | .call j _ => j = k
  | .setDefault _ => false

/-- If no other object makes use of the generators used by object `k`, what is returned by calls of `k` does
not depend on calls of the others, nor on assignments of `default_rng`: these may be dropped from any
history. -/
theorem C109_isolated [DecidableEq γ] {P : γ → Prop} (E : Beh Λ I M Q V O) (gen : γ → Q → σ → V × σ)
    (objs : ℕ → GenSrc γ Λ I M Q V O) (k : ℕ) (hk : Spec.Uses P (objs k))
    (hj : ∀ j, j ≠ k → Spec.Uses (fun g => ¬ P g) (objs j)) (w : RngWorld γ σ M O)
    (es : List (RngEvent γ I)) :
    Spec.outsOf k (RngWorld.run E gen objs w es).outs =
      Spec.outsOf k (RngWorld.run E gen objs w (es.filter (Spec.isCall k))).outs := by
  suffices H : ∀ (es : List (RngEvent γ I)) (w w' : RngWorld γ σ M O), (∀ g, P g → w.heap g = w'.heap g) →
      w.mem k = w'.mem k → Spec.outsOf k w.outs = Spec.outsOf k w'.outs →
      Spec.outsOf k (RngWorld.run E gen objs w es).outs =
        Spec.outsOf k (RngWorld.run E gen objs w' (es.filter (Spec.isCall k))).outs from
    H es w w (fun _ _ => rfl) rfl rfl
  intro es
  induction es with
  | nil => intro w w' _ _ h; exact h
  | cons e es ih =>
    intro w w' hh hm ho
    cases e with
    | setDefault g => exact ih _ _ hh hm ho
    | call j i =>
      by_cases hjk : j = k
      · subst hjk
        have e1 : (RngEvent.call j i :: es : List (RngEvent γ I)).filter (Spec.isCall j) =
            .call j i :: es.filter (Spec.isCall j) := by simp [Spec.isCall]
        rw [e1]
        obtain ⟨a, b, _⟩ := hk E i (w.mem j) σ gen w.heap w'.heap hh
        refine ih _ _ ?_ ?_ ?_
        · intro g hg
          simp only [RngWorld.step, ← hm]
          exact b g hg
        · simp only [RngWorld.step, ← hm, Function.update_self, a]
        · simp only [RngWorld.step, ← hm, a]
          simp only [Spec.outsOf, List.filter_append, List.map_append] at ho ⊢
          rw [ho]
      · have e1 : (RngEvent.call j i :: es : List (RngEvent γ I)).filter (Spec.isCall k) =
            es.filter (Spec.isCall k) := by simp [Spec.isCall, hjk]
        rw [e1]
        refine ih _ _ ?_ ?_ ?_
        · intro g hg
          rw [← hh g hg]
          exact (hj j hjk E i (w.mem j) σ gen w.heap w.heap fun _ _ => rfl).2.2 g (by simpa using hg)
        · simp only [RngWorld.step]
          rw [Function.update_of_ne (Ne.symm hjk), hm]
        · simp only [RngWorld.step, Spec.outsOf, List.filter_append, List.map_append] at ho ⊢
          rw [← ho]
          simp [hjk]

/-! ### Concrete cases -/

/-- Numbers are drawn one by one; sources sum them up. Sources with memory visit a single time, and call
`new_outside`, or `new_inside` at odd times. -/
def exBeh : Beh ℕ ℕ ℕ Unit ℕ ℕ where
  wienerReq := fun i => List.replicate i ()
  wienerOut := fun _ vs => vs.sum
  poissonReq := fun lam i => List.replicate (lam * i) ()
  poissonOut := fun _ _ vs => vs.sum
  jumpReq := fun _ n => List.replicate n ()
  jumpOut := fun _ _ vs => vs.sum
  anti := fun n => 2 * n
  points := fun i => [i]
  step := fun i m => if i = m then .found else if i % 2 = 0 then .outside i else .inside i [i, i + 1] ()
  storeOut := fun i _ o => i + o
  storeBinomial := fun i _ v => i + v
  storeSplit := fun i _ => i
  out := fun _ m => m

/-- Generators are counters. -/
def exGen : ℕ → Unit → ℕ → ℕ × ℕ := fun g _ s => (g + s, s + 1)

/-- `jumpdiff_process(rng=g7, lam=2)`, while the default generator is number 3: `dw` and `dj` are built, and
all is drawn from 7. -/
example : ∃ p : RngSim ℕ ℕ ℕ ℕ Unit ℕ ℕ,
    newRngSim (fun i => i) 1 ⟨true, 0⟩ 3 (.gen 7) [.dt, .dw .none, .dj .none .none 2 ⟨true, 0⟩] = .ok p ∧
    p.rng = .gen 7 ∧ (∀ s ∈ p.sources, Spec.Uses (· = 7) s) ∧
    p.sources.tail = [.wiener 7, .cpoisson 7 (.poisson 7 2) 2 ⟨true, 0⟩] := by
  refine ⟨_, rfl, rfl, ?_, rfl⟩
  exact (C109_process (d := 3) (rng := .gen 7) (P := (· = 7)) (lam1 := 1) (y1 := ⟨true, 0⟩) (.inl rfl) rfl
    (fun i => i) rfl (specs := [.dt, .dw .none, .dj .none .none 2 ⟨true, 0⟩]) (by
      intro a ha
      simp only [List.mem_cons, List.not_mem_nil, or_false] at ha
      rcases ha with rfl | rfl | rfl
      · trivial
      · rintro s ⟨⟩
      · exact ⟨by rintro s ⟨⟩, by rintro s ⟨⟩, .inl rfl⟩) rfl).2.1

/-- `cpoisson_source(dn=dn)`, where `dn` has generator 5, and the default generator is number 3. -/
example : ∃ s : GenSrc ℕ ℕ ℕ ℕ Unit ℕ ℕ,
    newDj 1 ⟨true, 0⟩ 3 .cpoisson .none (.inst (.poisson 5 2)) 4 ⟨true, 0⟩ = .ok s ∧ s.rng = some 3 ∧
    Spec.Uses (fun x => x = 3 ∨ x = 5 ∨ (true = false ∧ x = 0)) s ∧ ¬ Spec.Uses (· = 3) s := by
  refine ⟨_, rfl, rfl, (C109_dj (P := (· = 5)) (d := 3) (rng := .none) (lam1 := 1) (y1 := ⟨true, 0⟩)
    (dn := .inst (.poisson 5 2)) (.inr ⟨rfl, rfl⟩) rfl (by rintro s ⟨⟩; exact uses_poisson (γ := ℕ) (P := (· = 5)) rfl _) (c := .cpoisson) (lam := 4)
    (y := ⟨true, 0⟩) rfl).2, ?_⟩
  intro h
  have := (h exBeh 1 0 ℕ exGen (fun _ => 0) (fun _ => 0) fun _ _ => rfl).2.2 5 (by decide)
  revert this
  decide

/-- `odd_wiener_source(rng=g7)`, `true_cpoisson_source(rng=g7)`, `even_poisson_source()`. -/
example : (newDw 3 .oddWiener (.gen 7) : Py (GenSrc ℕ ℕ ℕ ℕ Unit ℕ ℕ)) = .ok (.antith (.wiener 7)) ∧
    (newDj 1 ⟨true, 0⟩ 3 .trueCPoisson (.gen 7) .none 4 ⟨true, 0⟩ : Py (GenSrc ℕ ℕ ℕ ℕ Unit ℕ ℕ)) =
      .ok (.trueCPoisson 7 (.cpoisson 7 (.truePoisson 7 (.poisson 7 4) 4) 4 ⟨true, 0⟩)
        (.truePoisson 7 (.poisson 7 4) 4) 4) ∧
    (newDn 1 ⟨true, 0⟩ 3 .evenPoisson .none 4 : Py (GenSrc ℕ ℕ ℕ ℕ Unit ℕ ℕ)) =
      .ok (.antith (.poisson 3 4)) :=
  ⟨rfl, rfl, rfl⟩

/-- `C109_accepted` applies with `dn=even_poisson_source`, given to `true_cpoisson_source`. -/
example : ∃ s : GenSrc ℕ ℕ ℕ ℕ Unit ℕ ℕ,
    newDj 1 ⟨true, 0⟩ 3 .trueCPoisson .none (.cls .evenPoisson) 4 ⟨true, 0⟩ = .ok s :=
  (C109_accepted (d := 3) (.inr ⟨rfl, rfl⟩) 4 1 ⟨true, 0⟩ ⟨true, 0⟩ (.cls .evenPoisson)
    (by rintro c ⟨⟩; decide)).2.2 (by decide)

/-- A process is given a seed, and one of two sources: `TypeError`. -/
example : (newRngSim (fun i => i) 1 ⟨true, 0⟩ 3 .seed [.dw (.inst (.wiener 7)), .dn .none 2] :
    Py (RngSim ℕ ℕ ℕ ℕ Unit ℕ ℕ)) = .error .typeError :=
  rfl

/-- Three objects: a source with generator 7, one with generator 3, one with both 3 and 4. Calls of the first
are not affected by the others, nor by a change of the default generator. -/
example (es : List (RngEvent ℕ ℕ)) (w : RngWorld ℕ ℕ ℕ ℕ) :
    let objs : ℕ → GenSrc ℕ ℕ ℕ ℕ Unit ℕ ℕ := fun
      | 0 => .truePoisson 7 (.poisson 7 2) 2
      | 1 => .wiener 3
      | _ => .cpoisson 3 (.poisson 4 2) 2 ⟨true, 0⟩
    Spec.outsOf 0 (RngWorld.run exBeh exGen objs w es).outs =
      Spec.outsOf 0 (RngWorld.run exBeh exGen objs w (es.filter (Spec.isCall 0))).outs := by
  intro objs
  refine C109_isolated (P := (· = 7)) exBeh exGen objs 0
    (uses_truePoisson (P := (· = 7)) rfl (uses_poisson (P := (· = 7)) rfl _) _) ?_ w es
  rintro (_ | _ | j) hj
  · exact absurd rfl hj
  · exact uses_wiener (by decide)
  · exact uses_cpoisson (by decide) (uses_poisson (by decide) _) _ (.inl rfl)

/-- Otherwise they are: two sources with the default generator. -/
example :
    let objs : ℕ → GenSrc ℕ ℕ ℕ ℕ Unit ℕ ℕ := fun _ => .wiener 3
    let w : RngWorld ℕ ℕ ℕ ℕ := ⟨3, fun _ => 0, fun _ => 0, []⟩
    let es : List (RngEvent ℕ ℕ) := [.call 1 2, .setDefault 4, .call 0 2]
    Spec.outsOf 0 (RngWorld.run exBeh exGen objs w es).outs ≠
      Spec.outsOf 0 (RngWorld.run exBeh exGen objs w (es.filter (Spec.isCall 0))).outs := by
  decide

end C109

/-! ## C110: the intensity of Poisson processes -/

namespace C110

variable {γ Λ I M Q V O : Type}

/-- The intensity at which events are generated: the one known to the `poisson_source` they are drawn by. -/
def Spec.intensity : GenSrc γ Λ I M Q V O → Option Λ
  | .poisson _ lam => some lam
  | .cpoisson _ dn _ _ => Spec.intensity dn
  | .antith dz => Spec.intensity dz
  | .truePoisson _ dn _ => Spec.intensity dn
  | .trueCPoisson _ dj _ _ => Spec.intensity dj
  | _ => none

theorem intensity_newDn {d : γ} {rng : RngArg γ} {c : SrcCls} {lam lam1 : Λ} {y1 : JumpRv γ}
    {s : GenSrc γ Λ I M Q V O} (h : newDn lam1 y1 d c rng lam = .ok s) : Spec.intensity s = some lam := by
  cases rng <;> cases c <;> cases h <;> rfl

/-- The intensity `lam` given is that of the events generated, for all source classes, if no instance is given
as the underlying source (that comes with its own intensity). Missing: `true_cpoisson_source` with a class
given as `dn`, where it fails, see `C110_false`. -/
theorem C110_intensity_partial {d : γ} {rng : RngArg γ} {c : SrcCls} {lam lam1 : Λ} {y y1 : JumpRv γ}
    {dn : SrcArg (GenSrc γ Λ I M Q V O)} (hdn : ∀ s, dn ≠ .inst s)
    (hc : c = .trueCPoisson → ∀ c', dn ≠ .cls c') {s : GenSrc γ Λ I M Q V O}
    (h : newDj lam1 y1 d c rng dn lam y = .ok s ∨ newDn lam1 y1 d c rng lam = .ok s) :
    Spec.intensity s = some lam := by
  rcases h with h | h
  · cases dn with
    | inst s' => exact absurd rfl (hdn s')
    | none => cases rng <;> cases c <;> cases h <;> rfl
    | cls c' =>
      cases c <;> first | (exact absurd rfl (hc rfl c')) | (cases h; done) | skip
      all_goals
        cases hn : (newDn lam1 y1 d c' rng lam : Py (GenSrc γ Λ I M Q V O)) with
        | error e => cases rng <;> simp only [newDj, newCPoisson, hn] at h <;> cases h
        | ok s' =>
          have := intensity_newDn hn
          cases rng <;> simp only [newDj, newCPoisson, hn] at h <;> cases h <;> exact this
  · exact intensity_newDn h

/-- An instance given as the underlying source is used with its own intensity. -/
theorem C110_instance {d : γ} {rng : RngArg γ} {c : SrcCls} {lam lam1 : Λ} {y y1 : JumpRv γ}
    {dn s : GenSrc γ Λ I M Q V O} (h : newDj lam1 y1 d c rng (.inst dn) lam y = .ok s) :
    Spec.intensity s = Spec.intensity dn := by
  cases rng <;> cases c <;> cases h <;> rfl

/-- `true_cpoisson_source(dn=true_poisson_source, lam=5.)` generates events with intensity 1 (`lam1`), not `lam`:
so does a process given `dj=true_cpoisson_source, dn=true_poisson_source, lam=5.`. -/
theorem C110_false (d : γ) (rng : RngArg γ) (hr : rng ≠ .seed) (lam lam1 : Λ) (hl : lam ≠ lam1) (y y1 : JumpRv γ) (dtOut : I → O) :
    ∃ s : GenSrc γ Λ I M Q V O, newDj lam1 y1 d .trueCPoisson rng (.cls .truePoisson) lam y = .ok s ∧
      sourceOf dtOut lam1 y1 d rng (.dj (.cls .trueCPoisson) (.cls .truePoisson) lam y) = .ok s ∧
      Spec.intensity s = some lam1 ∧ s.lam = some lam1 ∧ Spec.intensity s ≠ some lam := by
  have ne : some lam1 ≠ some lam := fun h => hl (Option.some.inj h).symm
  cases rng with
  | none => exact ⟨_, rfl, rfl, rfl, rfl, ne⟩
  | seed => exact absurd rfl hr
  | gen g => exact ⟨_, rfl, rfl, rfl, rfl, ne⟩

/-- `even_cpoisson_source(dn=even_poisson_source, lam=5)`. -/
example : ∃ s : GenSrc ℕ ℕ ℕ ℕ Unit ℕ ℕ,
    newDj 1 ⟨true, 0⟩ 3 .evenCPoisson .none (.cls .evenPoisson) 5 ⟨true, 0⟩ = .ok s ∧
    Spec.intensity s = some 5 :=
  ⟨_, rfl, C110_intensity_partial (d := 3) (rng := .none) (c := .evenCPoisson) (lam1 := 1) (y := ⟨true, 0⟩)
    (y1 := ⟨true, 0⟩) (dn := .cls .evenPoisson) (by simp) (by simp) (.inl rfl)⟩

/-- `true_cpoisson_source(dn=true_poisson_source(lam=2), lam=5)`. -/
example : ∃ s : GenSrc ℕ ℕ ℕ ℕ Unit ℕ ℕ,
    newDj 1 ⟨true, 0⟩ 3 .trueCPoisson .none (.inst (.truePoisson 4 (.poisson 4 2) 2)) 5 ⟨true, 0⟩ = .ok s ∧
    Spec.intensity s = some 2 :=
  ⟨_, rfl, C110_instance (d := 3) (rng := .none) (c := .trueCPoisson) (lam := 5) (lam1 := 1) (y := ⟨true, 0⟩)
    (y1 := ⟨true, 0⟩) (dn := .truePoisson 4 (.poisson 4 2) 2) rfl⟩

/-- 5 in place of 1. -/
example : ∃ s : GenSrc ℕ ℕ ℕ ℕ Unit ℕ ℕ,
    newDj 1 ⟨true, 0⟩ 3 .trueCPoisson .none (.cls .truePoisson) 5 ⟨true, 0⟩ = .ok s ∧
    Spec.intensity s ≠ some 5 :=
  ⟨_, rfl, by decide⟩

end C110
end Sdepy
