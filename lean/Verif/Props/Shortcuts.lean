import Verif.Model.Shortcuts
import Verif.Props.Kfunc
import Mathlib.Data.List.TakeWhile

/-!
# C108: names exported by the package
-/

namespace Sdepy

open Spec

/-- Shortcuts of sources and processes, and the names they stand for. -/
def Spec.standsFor : List (String × String) :=
  ([("dw", "wiener"), ("dn", "poisson"), ("dj", "cpoisson")].flatMap fun p =>
    [(p.1, p.2 ++ "_source"), ("true_" ++ p.1, "true_" ++ p.2 ++ "_source")]) ++
  [("odd_dw", "odd_wiener_source"), ("even_dn", "even_poisson_source"), ("even_dj", "even_cpoisson_source")] ++
  [("wiener", "wiener"), ("lognorm", "lognorm"), ("oruh", "ornstein_uhlenbeck"), ("hwff", "hull_white"),
    ("hw1f", "hull_white_1factor"), ("cir", "cox_ingersoll_ross"), ("heston_xy", "full_heston"), ("heston", "heston"),
    ("jumpdiff", "jumpdiff"), ("mjd", "merton_jumpdiff"), ("kou", "kou_jumpdiff")].map fun p => (p.1, p.2 ++ "_process")

/-- Analytical functions, and the number of their variables: time, for means, variances and standard deviations; time and
the point at which they are evaluated, or strike and time, for the others. -/
def Spec.analytical : List (String × ℤ) :=
  ([("wiener", ["mean", "var", "std", "pdf", "cdf", "chf"]),
    ("lognorm", ["mean", "var", "std", "pdf", "cdf", "log_chf"]),
    ("oruh", ["mean", "var", "std", "pdf", "cdf"]), ("hw1f", ["mean", "var", "std", "pdf", "cdf"]),
    ("hw2f", ["mean", "var", "std", "pdf", "cdf"]), ("cir", ["mean", "var", "std", "pdf"]),
    ("heston", ["log_mean", "log_var", "log_std", "log_chf", "log_pdf"]), ("mjd", ["mean", "log_chf", "log_pdf"]),
    ("kou", ["mean", "log_chf", "log_pdf"])].flatMap fun p => p.2.map fun s =>
      (p.1 ++ "_" ++ s, if s ∈ ["mean", "var", "std", "log_mean", "log_var", "log_std"] then 1 else 2)) ++
  [("bsd1d2", 2), ("bscall", 2), ("bscall_delta", 2), ("bsput", 2), ("bsput_delta", 2)]

variable {V : Type}

/-- `m` is what the wrapper of a class, of such parameters and variables, knows of them. -/
def Spec.Knows (m : KMeta String V) (ini cal : List (SigParam String V)) : Prop :=
  (∀ k d, (k, d) ∈ m.initArgs ↔ ∃ z, Named ini z ∧ z.name = k ∧ z.default = d) ∧
    ∀ k, k ∈ m.callNames ↔ ∃ z, Named cal z ∧ z.name = k

theorem standsFor_iff (p : String × String) : p ∈ standsFor ↔ p ∈ shortNames := by
  constructor <;> intro h
  · revert p
    simp [standsFor, shortNames]
  · revert p
    simp [standsFor, shortNames]

theorem analytical_iff (f : String × ℤ) : f ∈ analytical ↔ f ∈ wrappedFunctions := by
  constructor <;> intro h
  · revert f
    simp [analytical, wrappedFunctions]
  · revert f
    simp [analytical, wrappedFunctions]

theorem run_spec (l : List (String × (PyVal V → Py (PyVal V)) × String)) (env : Names V) (hn : (l.map (·.1)).Nodup)
    (hs : ∀ a ∈ l, a.2.2 = a.1 ∨ a.2.2 ∉ l.map (·.1)) (hv : ∀ a ∈ l, ∃ v w, env a.2.2 = some v ∧ a.2.1 v = .ok w) :
    ∃ env', env.run l = .ok env' ∧
      (∀ a ∈ l, ∀ v w, env a.2.2 = some v → a.2.1 v = .ok w → env' a.1 = some w) ∧
      ∀ k, k ∉ l.map (·.1) → env' k = env k := by
  induction l generalizing env with
  | nil => exact ⟨env, rfl, by simp, fun k _ => rfl⟩
  | cons a l ih =>
    obtain ⟨n, f, m⟩ := a
    obtain ⟨v, w, h1, h2⟩ := hv _ (List.mem_cons_self ..)
    dsimp only at h1 h2
    rw [List.map_cons, List.nodup_cons] at hn
    have hne : ∀ a ∈ l, a.2.2 ≠ n := by
      intro a ha e
      rcases hs a (List.mem_cons_of_mem _ ha) with h | h
      · exact hn.1 (List.mem_map.2 ⟨a, ha, h ▸ e⟩)
      · exact h (by rw [e]; exact List.mem_cons_self ..)
    obtain ⟨env', e1, e2, e3⟩ := ih (fun k => if k = n then some w else env k) hn.2
      (fun a ha => (hs a (List.mem_cons_of_mem _ ha)).imp id fun h h' => h (List.mem_cons_of_mem _ h'))
      (fun a ha => by
        obtain ⟨v, w, q1, q2⟩ := hv a (List.mem_cons_of_mem _ ha)
        exact ⟨v, w, by rw [if_neg (hne a ha)]; exact q1, q2⟩)
    refine ⟨env', ?_, ?_, ?_⟩
    · simp only [Names.run, Names.assign, h1, h2]
      exact e1
    · intro a ha v' w' q1 q2
      rcases List.mem_cons.1 ha with rfl | ha
      · dsimp only at q1 q2 ⊢
        rw [e3 n hn.1, if_pos rfl]
        rw [h1, Option.some.injEq] at q1
        rw [← q1, h2, Except.ok.injEq] at q2
        rw [q2]
      · exact e2 a ha v' w' (by rw [if_neg (hne a ha)]; exact q1) q2
    · intro k hk
      rw [List.map_cons, List.mem_cons, not_or] at hk
      rw [e3 k hk.2, if_neg hk.1]

theorem module_ok {cfg : Option String} {ka ks : PyVal V → Py (PyVal V)} (hk : kfuncHelpers cfg = .ok (ka, ks))
    (env : Names V) (hc : ∀ p ∈ shortNames, ∃ v w u, env p.2 = some v ∧ ka v = .ok w ∧ ks w = .ok u)
    (hf : ∀ p ∈ wrappedFunctions, ∃ v w, env p.1 = some v ∧ wrapFun p.2 v = .ok w) :
    ∃ env', shortcutsModule cfg env = .ok env' ∧
      (∀ p ∈ shortNames, ∀ v w u, env p.2 = some v → ka v = .ok w → ks w = .ok u →
        env' p.2 = some w ∧ env' p.1 = some u) ∧
      (∀ p ∈ wrappedFunctions, ∀ v w, env p.1 = some v → wrapFun p.2 v = .ok w →
        env' p.1 = some (if cfg = none then v else w)) ∧
      ∀ k, k ∉ fullNames → k ∉ shortNames.map (·.1) → k ∉ wrappedFunctions.map (·.1) → env' k = env k := by
  have n1 : fullNames.Nodup := by decide
  have n2 : (shortNames.map (·.1)).Nodup := by decide
  have n3 : (wrappedFunctions.map (·.1)).Nodup := by decide
  have d12 : ∀ n ∈ fullNames, n ∉ shortNames.map (·.1) := by decide
  have d13 : ∀ n ∈ fullNames, n ∉ wrappedFunctions.map (·.1) := by decide
  have d23 : ∀ n ∈ shortNames.map (·.1), n ∉ wrappedFunctions.map (·.1) := by decide
  have s1 : ∀ p ∈ shortNames, p.2 ∈ fullNames := by decide
  have s2 : ∀ n ∈ fullNames, ∃ p ∈ shortNames, p.2 = n := by decide
  obtain ⟨env1, a1, a2, a3⟩ := run_spec (fullNames.map fun n => (n, ka, n)) env
    (by simpa [Function.comp_def] using n1) (by simp) (by
      intro a ha
      obtain ⟨n, hn, rfl⟩ := List.mem_map.1 ha
      obtain ⟨p, hp, rfl⟩ := s2 n hn
      obtain ⟨v, w, u, q1, q2, -⟩ := hc p hp
      exact ⟨v, w, q1, q2⟩)
  have m1 : (fullNames.map fun n => (n, ka, n)).map (·.1) = fullNames := by simp [Function.comp_def]
  have m2 : (shortNames.map fun p => (p.1, ks, p.2)).map (·.1) = shortNames.map (·.1) := by simp [Function.comp_def]
  have m3 : (wrappedFunctions.map fun p => (p.1, wrapFun (V := V) p.2, p.1)).map (·.1) =
    wrappedFunctions.map (·.1) := by simp [Function.comp_def]
  rw [m1] at a3
  have b0 : ∀ p ∈ shortNames, ∀ v w, env p.2 = some v → ka v = .ok w → env1 p.2 = some w := fun p hp v w q1 q2 =>
    a2 (p.2, ka, p.2) (List.mem_map_of_mem (s1 p hp)) v w q1 q2
  obtain ⟨env2, b1, b2, b3⟩ := run_spec (shortNames.map fun p => (p.1, ks, p.2)) env1 (m2 ▸ n2)
    (by
      intro a ha
      obtain ⟨p, hp, rfl⟩ := List.mem_map.1 ha
      right
      rw [m2]
      exact d12 _ (s1 p hp))
    (by
      intro a ha
      obtain ⟨p, hp, rfl⟩ := List.mem_map.1 ha
      obtain ⟨v, w, u, q1, q2, q3⟩ := hc p hp
      exact ⟨w, u, b0 p hp v w q1 q2, q3⟩)
  rw [m2] at b3
  have c0 : ∀ p ∈ shortNames, ∀ v w u, env p.2 = some v → ka v = .ok w → ks w = .ok u →
      env2 p.2 = some w ∧ env2 p.1 = some u := fun p hp v w u q1 q2 q3 =>
    ⟨by rw [b3 _ (d12 _ (s1 p hp))]; exact b0 p hp v w q1 q2,
      b2 (p.1, ks, p.2) (List.mem_map_of_mem hp) w u (b0 p hp v w q1 q2) q3⟩
  have c1 : ∀ k, k ∈ wrappedFunctions.map (·.1) → env2 k = env k := fun k hk => by
    rw [b3 k fun h => d23 k h hk, a3 k fun h => d13 k h hk]
  by_cases hcfg : cfg = none
  · refine ⟨env2, ?_, c0, ?_, ?_⟩
    · simp only [shortcutsModule, hk, a1, b1]
      rw [if_neg (by simp [hcfg])]
    · intro p hp v w q1 q2
      rw [if_pos hcfg, c1 _ (List.mem_map_of_mem hp), q1]
    · intro k h1 h2 _
      rw [b3 k h2, a3 k h1]
  · obtain ⟨env3, e1, e2, e3⟩ := run_spec (wrappedFunctions.map fun p => (p.1, wrapFun p.2, p.1)) env2 (m3 ▸ n3)
      (by
        intro a ha
        obtain ⟨p, hp, rfl⟩ := List.mem_map.1 ha
        exact .inl rfl) (by
        intro a ha
        obtain ⟨p, hp, rfl⟩ := List.mem_map.1 ha
        obtain ⟨v, w, q1, q2⟩ := hf p hp
        exact ⟨v, w, by rw [c1 _ (List.mem_map_of_mem hp)]; exact q1, q2⟩)
    rw [m3] at e3
    have hcf : cfg = some "all" ∨ cfg = some "shortcuts" := by
      unfold kfuncHelpers at hk
      by_contra hx
      rw [not_or] at hx
      rw [if_neg hx.1, if_neg hx.2, if_neg hcfg] at hk
      cases hk
    refine ⟨env3, ?_, fun p hp v w u q1 q2 q3 => ?_, ?_, ?_⟩
    · simp only [shortcutsModule, hk, a1, b1]
      rw [if_pos hcf]
      exact e1
    · obtain ⟨r1, r2⟩ := c0 p hp v w u q1 q2 q3
      rw [e3 _ (d13 _ (s1 p hp)), e3 _ (d23 _ (List.mem_map_of_mem hp))]
      exact ⟨r1, r2⟩
    · intro p hp v w q1 q2
      rw [if_neg hcfg]
      exact e2 (p.1, wrapFun p.2, p.1) (List.mem_map_of_mem hp) v w
        (by rw [c1 _ (List.mem_map_of_mem hp)]; exact q1) q2
    · intro k h1 h2 h3
      rw [e3 k h3, b3 k h2, a3 k h1]

/-- What the module relies upon: sources and processes can be wrapped, and analytical functions have their variables as
positional parameters, and keyword-only parameters after them. -/
structure Spec.Importable (env : Names V) : Prop where
  classes : ∀ p ∈ standsFor, ∃ c s1 s2 ini cal, env p.2 = some (.plain (.cls c)) ∧ Method c.initSig s1 ini ∧
    Method c.callSig s2 cal ∧ CanWrapClass c ini cal
  functions : ∀ p ∈ analytical, ∃ vars pars, env p.1 = some (.plain (.fn (vars ++ pars))) ∧
    (vars.length : ℤ) = p.2 ∧ (∀ z ∈ vars, z.kind = .posOrKw) ∧ ∀ z ∈ pars, z.kind = .kwOnly

theorem wrapCls_ok {c : ClassInfo String V} {s1 s2 : SigParam String V} {ini cal : List (SigParam String V)}
    (h1 : Method c.initSig s1 ini) (h2 : Method c.callSig s2 cal) (h : CanWrapClass c ini cal) :
    ∃ m, wrapCls (.plain (.cls c)) = .ok (.kfunc m (.plain (.cls c))) ∧ Knows m ini cal := by
  obtain ⟨m, e, h3, h4⟩ := (C52_class c h1 h2).2 h
  exact ⟨m, by simp only [wrapCls, kfuncDeco, e], h3, h4⟩

theorem wrapFun_ok {n : ℤ} (hn : 1 ≤ n) {vars pars : List (SigParam String V)} (hl : (vars.length : ℤ) = n)
    (hv : ∀ z ∈ vars, z.kind = .posOrKw) (hp : ∀ z ∈ pars, z.kind = .kwOnly) :
    wrapFun n (.plain (.fn (vars ++ pars))) =
      .ok (.kfunc ⟨pars.map fun z => (z.name, z.default), vars.map fun z => z.name⟩ (.plain (.fn (vars ++ pars)))) := by
  have := ((C52_function (vars ++ pars) [] n (by
    intro z hz
    rcases List.mem_append.1 hz with h | h
    · rw [hv z h]; decide
    · rw [hp z h]; decide) (by simp)).2 vars pars rfl hl hn).2 hp
  rw [List.append_nil] at this
  simp only [wrapFun, kfuncDeco, this]

/-- **C108** Names exported, according to the configuration. Values other than 'all', 'shortcuts' and `None` are rejected.
Otherwise each shortcut stands for its source or process: both are the class wrapped once as a kfunc
('all'); the shortcut is the class wrapped once, and the other name is the class ('shortcuts'); both are the class
(`None`). Analytical functions, unless the configuration is `None`, are wrapped, with their positional parameters as
variables and the other ones as parameters. No other name is affected. -/
theorem C108_names (env : Names V) (cfg : Option String) :
    (cfg ≠ none → cfg ≠ some "all" → cfg ≠ some "shortcuts" → shortcutsModule cfg env = .error .valueError) ∧
    (cfg = none ∨ cfg = some "all" ∨ cfg = some "shortcuts" → Importable env →
      ∃ env', shortcutsModule cfg env = .ok env' ∧
        (∀ p ∈ standsFor, ∃ c s1 s2 ini cal m, env p.2 = some (.plain (.cls c)) ∧ Method c.initSig s1 ini ∧
          Method c.callSig s2 cal ∧ Knows m ini cal ∧
          (cfg = none → env' p.1 = some (.plain (.cls c)) ∧ env' p.2 = some (.plain (.cls c))) ∧
          (cfg = some "all" → env' p.1 = some (.kfunc m (.plain (.cls c))) ∧
            env' p.2 = some (.kfunc m (.plain (.cls c)))) ∧
          (cfg = some "shortcuts" → env' p.1 = some (.kfunc m (.plain (.cls c))) ∧
            env' p.2 = some (.plain (.cls c)))) ∧
        (∀ p ∈ analytical, ∀ vars pars, env p.1 = some (.plain (.fn (vars ++ pars))) →
          (∀ z ∈ vars, z.kind = .posOrKw) → (∀ z ∈ pars, z.kind = .kwOnly) →
          (cfg = none → env' p.1 = env p.1) ∧
          (cfg ≠ none → env' p.1 = some (.kfunc ⟨pars.map fun z => (z.name, z.default), vars.map fun z => z.name⟩
            (.plain (.fn (vars ++ pars)))))) ∧
        ∀ k, (∀ p ∈ standsFor, k ≠ p.1 ∧ k ≠ p.2) → (∀ p ∈ analytical, k ≠ p.1) → env' k = env k) := by
  refine ⟨fun h1 h2 h3 => ?_, fun hcfg hi => ?_⟩
  · simp only [shortcutsModule, kfuncHelpers, if_neg h1, if_neg h2, if_neg h3]
  have hpos : ∀ p ∈ wrappedFunctions, 1 ≤ p.2 := by decide
  have hf : ∀ p ∈ wrappedFunctions, ∃ v w, env p.1 = some v ∧ wrapFun p.2 v = .ok w := by
    intro p hp
    obtain ⟨vars, pars, q1, q2, q3, q4⟩ := hi.functions p ((analytical_iff p).2 hp)
    exact ⟨_, _, q1, wrapFun_ok (hpos p hp) q2 q3 q4⟩
  have hother : ∀ k, (∀ p ∈ standsFor, k ≠ p.1 ∧ k ≠ p.2) → (∀ p ∈ analytical, k ≠ p.1) →
      k ∉ fullNames ∧ k ∉ shortNames.map (·.1) ∧ k ∉ wrappedFunctions.map (·.1) := by
    intro k h1 h2
    have s2 : ∀ n ∈ fullNames, ∃ p ∈ shortNames, p.2 = n := by decide
    refine ⟨fun h => ?_, fun h => ?_, fun h => ?_⟩
    · obtain ⟨p, hp, e⟩ := s2 k h
      exact (h1 p ((standsFor_iff p).2 hp)).2 e.symm
    · obtain ⟨p, hp, e⟩ := List.mem_map.1 h
      exact (h1 p ((standsFor_iff p).2 hp)).1 e.symm
    · obtain ⟨p, hp, e⟩ := List.mem_map.1 h
      exact h2 p ((analytical_iff p).2 hp) e.symm
  have hfun : ∀ (env' : Names V), (∀ p ∈ wrappedFunctions, ∀ v w, env p.1 = some v → wrapFun p.2 v = .ok w →
      env' p.1 = some (if cfg = none then v else w)) →
      ∀ p ∈ analytical, ∀ vars pars, env p.1 = some (.plain (.fn (vars ++ pars))) →
        (∀ z ∈ vars, z.kind = .posOrKw) → (∀ z ∈ pars, z.kind = .kwOnly) →
        (cfg = none → env' p.1 = env p.1) ∧
        (cfg ≠ none → env' p.1 = some (.kfunc ⟨pars.map fun z => (z.name, z.default), vars.map fun z => z.name⟩
          (.plain (.fn (vars ++ pars))))) := by
    intro env' h p hp vars pars q1 q3 q4
    obtain ⟨vars', pars', r1, r2, r3, r4⟩ := hi.functions p hp
    have hp' := (analytical_iff p).1 hp
    have hl : vars = vars' := by
      rw [q1] at r1
      simp only [Option.some.injEq, PyVal.plain.injEq, Decorated.fn.injEq] at r1
      have t : ∀ vs ps : List (SigParam String V), (∀ z ∈ vs, z.kind = .posOrKw) → (∀ z ∈ ps, z.kind = .kwOnly) →
          (vs ++ ps).filter (fun z => z.kind = .posOrKw) = vs := by
        intro vs ps h1 h2
        rw [List.filter_append, List.filter_eq_self.2 (by simpa using h1), List.filter_eq_nil_iff.2, List.append_nil]
        intro z hz
        rw [h2 z hz]
        decide
      rw [← t vars pars q3 q4, r1, t vars' pars' r3 r4]
    have := h p hp' _ _ q1 (wrapFun_ok (hpos p hp') (hl ▸ r2) q3 q4)
    constructor
    · intro hc
      rw [this, if_pos hc, q1]
    · intro hc
      rw [this, if_neg hc]
  rcases hcfg with rfl | rfl | rfl
  · obtain ⟨env', e1, e2, e3, e4⟩ := module_ok (V := V) (cfg := none) (ka := .ok) (ks := .ok) rfl env (by
      intro p hp
      obtain ⟨c, s1, s2, ini, cal, q1, q2, q3, q4⟩ := hi.classes p ((standsFor_iff p).2 hp)
      exact ⟨_, _, _, q1, rfl, rfl⟩) hf
    refine ⟨env', e1, fun p hp => ?_, hfun env' e3, fun k h1 h2 => ?_⟩
    · obtain ⟨c, s1, s2, ini, cal, q1, q2, q3, q4⟩ := hi.classes p hp
      obtain ⟨m, m1, m2⟩ := wrapCls_ok q2 q3 q4
      obtain ⟨r1, r2⟩ := e2 p ((standsFor_iff p).1 hp) _ _ _ q1 rfl rfl
      exact ⟨c, s1, s2, ini, cal, m, q1, q2, q3, m2, fun _ => ⟨r2, r1⟩, fun h => by simp at h, fun h => by simp at h⟩
    · obtain ⟨o1, o2, o3⟩ := hother k h1 h2
      exact e4 k o1 o2 o3
  · obtain ⟨env', e1, e2, e3, e4⟩ := module_ok (V := V) (cfg := some "all") (ka := wrapCls) (ks := .ok) rfl env (by
      intro p hp
      obtain ⟨c, s1, s2, ini, cal, q1, q2, q3, q4⟩ := hi.classes p ((standsFor_iff p).2 hp)
      obtain ⟨m, m1, m2⟩ := wrapCls_ok q2 q3 q4
      exact ⟨_, _, _, q1, m1, rfl⟩) hf
    refine ⟨env', e1, fun p hp => ?_, hfun env' e3, fun k h1 h2 => ?_⟩
    · obtain ⟨c, s1, s2, ini, cal, q1, q2, q3, q4⟩ := hi.classes p hp
      obtain ⟨m, m1, m2⟩ := wrapCls_ok q2 q3 q4
      obtain ⟨r1, r2⟩ := e2 p ((standsFor_iff p).1 hp) _ _ _ q1 m1 rfl
      exact ⟨c, s1, s2, ini, cal, m, q1, q2, q3, m2, fun h => by simp at h, fun _ => ⟨r2, r1⟩, fun h => by simp at h⟩
    · obtain ⟨o1, o2, o3⟩ := hother k h1 h2
      exact e4 k o1 o2 o3
  · obtain ⟨env', e1, e2, e3, e4⟩ := module_ok (V := V) (cfg := some "shortcuts") (ka := .ok) (ks := wrapCls) rfl env (by
      intro p hp
      obtain ⟨c, s1, s2, ini, cal, q1, q2, q3, q4⟩ := hi.classes p ((standsFor_iff p).2 hp)
      obtain ⟨m, m1, m2⟩ := wrapCls_ok q2 q3 q4
      exact ⟨_, _, _, q1, rfl, m1⟩) hf
    refine ⟨env', e1, fun p hp => ?_, hfun env' e3, fun k h1 h2 => ?_⟩
    · obtain ⟨c, s1, s2, ini, cal, q1, q2, q3, q4⟩ := hi.classes p hp
      obtain ⟨m, m1, m2⟩ := wrapCls_ok q2 q3 q4
      obtain ⟨r1, r2⟩ := e2 p ((standsFor_iff p).1 hp) _ _ _ q1 rfl m1
      exact ⟨c, s1, s2, ini, cal, m, q1, q2, q3, m2, fun h => by simp at h, fun h => by simp at h, fun _ => ⟨r2, r1⟩⟩
    · obtain ⟨o1, o2, o3⟩ := hother k h1 h2
      exact e4 k o1 o2 o3

/-- `n` positional parameters, followed by keyword-only ones. -/
def splitOk (sig : List (SigParam String String)) (n : ℤ) : Bool :=
  (((sig.takeWhile fun z => z.kind = .posOrKw).length : ℤ) = n) &&
    (sig.dropWhile fun z => z.kind = .posOrKw).all fun z => z.kind = .kwOnly

/-- **C108** What the module relies upon holds for the classes and functions of the package. -/
theorem C108_sdepy : Importable sdepyNames := by
  constructor
  · intro p hp
    have : ∀ p ∈ shortNames, ∃ g ∈ classSigs, p.2 ∈ g.1 ∧
        sdepyNames p.2 = some (.plain (.cls ⟨false, false, true, true, g.2.1, g.2.2⟩)) := by
      simp [shortNames, classSigs, sdepyNames, functionSigs]
    obtain ⟨g, hg, -, h⟩ := this p ((standsFor_iff p).1 hp)
    have hall : ∀ g ∈ classSigs, g.2.1 = SigParam.pos "self" :: g.2.1.tail ∧ g.2.2 = SigParam.pos "self" :: g.2.2.tail ∧
        (∀ z ∈ g.2.1.tail, z.kind ≠ .varKw → z.kind = .kwOnly) ∧
        ∀ z ∈ g.2.1.tail, ∀ w ∈ g.2.2.tail, z.kind ≠ .varKw → w.kind ≠ .varKw → z.name ≠ w.name := by decide
    obtain ⟨h1, h2, h3, h4⟩ := hall g hg
    exact ⟨_, .pos "self", .pos "self", g.2.1.tail, g.2.2.tail, h, ⟨h1, by decide⟩, ⟨h2, by decide⟩,
      ⟨.inr ⟨rfl, rfl, rfl⟩, fun z hz => h3 z hz.1 hz.2, fun z w hz hw => h4 z hz.1 w hw.1 hz.2 hw.2⟩⟩
  · intro p hp
    have : ∀ p ∈ wrappedFunctions, ∃ g ∈ functionSigs, p.1 ∈ g.1 ∧ splitOk g.2 p.2 = true ∧
        sdepyNames p.1 = some (.plain (.fn g.2)) := by
      simp [wrappedFunctions, functionSigs, sdepyNames, splitOk, SigParam.pos, SigParam.kw]
    obtain ⟨g, hg, -, h1, h2⟩ := this p ((analytical_iff p).1 hp)
    rw [splitOk, Bool.and_eq_true] at h1
    refine ⟨g.2.takeWhile fun z => z.kind = .posOrKw, g.2.dropWhile fun z => z.kind = .posOrKw, ?_,
      of_decide_eq_true h1.1, fun z hz => by simpa using List.mem_takeWhile_imp hz, fun z hz => ?_⟩
    · rw [List.takeWhile_append_dropWhile]
      exact h2
    · exact of_decide_eq_true (List.all_eq_true.1 h1.2 z hz)

/-- With the configuration of the package, `dw` is a kfunc, of variables `t` and `dt`, and `wiener_source` is not. -/
example : ∃ (env' : Names String) (m : KMeta String String) (v : PyVal String),
    shortcutsModule (some "shortcuts") sdepyNames = .ok env' ∧ env' "dw" = some (.kfunc m v) ∧
    env' "wiener_source" = some v ∧ sdepyNames "wiener_source" = some v ∧
    (∀ k, k ∈ m.callNames ↔ k = "t" ∨ k = "dt") ∧ ("rho", some "None") ∈ m.initArgs := by
  obtain ⟨env', h1, h2, -⟩ := (C108_names sdepyNames (some "shortcuts")).2 (.inr (.inr rfl)) C108_sdepy
  obtain ⟨c, s1, s2, ini, cal, m, q1, q2, q3, q4, -, -, q5⟩ := h2 ("dw", "wiener_source") (by simp [standsFor])
  have e : c = ⟨false, false, true, true, [.pos "self", .kw "paths" "1", .kw "vshape" "()", .kw "dtype" "None",
      .kw "rng" "None", .kw "corr" "None", .kw "rho" "None"], [.pos "self", .pos "t", .pos "dt"]⟩ := by
    have : sdepyNames "wiener_source" = some (.plain (.cls ⟨false, false, true, true, [.pos "self", .kw "paths" "1",
      .kw "vshape" "()", .kw "dtype" "None", .kw "rng" "None", .kw "corr" "None", .kw "rho" "None"],
      [.pos "self", .pos "t", .pos "dt"]⟩)) := by simp [sdepyNames, functionSigs, classSigs]
    rw [q1] at this
    simpa using this
  subst e
  obtain ⟨h3, -⟩ := q2
  obtain ⟨h4, -⟩ := q3
  simp only [List.cons.injEq] at h3 h4
  obtain ⟨-, rfl⟩ := h3
  obtain ⟨-, rfl⟩ := h4
  refine ⟨env', m, _, h1, (q5 rfl).1, (q5 rfl).2, q1, fun k => ?_, ?_⟩
  · rw [q4.2]
    constructor
    · rintro ⟨z, ⟨hz, -⟩, rfl⟩
      simp only [List.mem_cons, List.not_mem_nil, or_false] at hz
      rcases hz with rfl | rfl
      · exact .inl rfl
      · exact .inr rfl
    · rintro (rfl | rfl)
      · exact ⟨.pos "t", ⟨by simp, by decide⟩, rfl⟩
      · exact ⟨.pos "dt", ⟨by simp, by decide⟩, rfl⟩
  · rw [q4.1]
    exact ⟨.kw "rho" "None", ⟨by simp, by decide⟩, rfl, rfl⟩

/-- Another configuration. -/
example : shortcutsModule (some "none") sdepyNames = .error .valueError :=
  (C108_names sdepyNames (some "none")).1 (by decide) (by decide) (by decide)

end Sdepy
