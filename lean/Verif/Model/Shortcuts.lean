import Verif.Model.Kfunc

/-!
# Names exported by the package

Model of `/repo/sdepy/shortcuts.py`: which names of the package are bound to classes and functions wrapped as
kfuncs, according to the `KFUNC` configuration parameter (`_config.py` 13).

A namespace gives the object bound to each name. Simplified: `kfunc_all` and `kfunc_short` are not names of the
namespace (they are deleted at the end, line 169); the name of the module `_config` is not rebound; a `NameError` is told by
`keyError`. A value of `KFUNC` is `None` or a string (anything else is rejected, as are other strings).
-/

namespace Sdepy

/-- An object bound to a name: a class or function as defined, or the class that wraps an object as a kfunc. -/
inductive PyVal (V : Type) where
  | plain (d : Decorated String V)
  | kfunc (m : KMeta String V) (of : PyVal V)

/-- `kfunc(f)` (`kfun.py` 251-355, 57-201). A class wrapped already can be wrapped again: signatures
are read through `__wrapped__` attributes (lines 152, 180), so that its parameters and variables are the same.
(Not so for a class made of a function, that no statement of the module wraps again.) -/
def wrapCls {V : Type} : PyVal V → Py (PyVal V)
  | .plain d =>
    match kfuncDeco (some d) none with
    | .error e => .error e
    | .ok (.wrapped m) => .ok (.kfunc m (.plain d))
    | .ok (.decorator _) => .error .typeError
  | .kfunc m f => .ok (.kfunc m (.kfunc m f))

/-- `kfunc(nvar=n)(f)` (`kfun.py` 251-355, 204-248). -/
def wrapFun {V : Type} (n : ℤ) : PyVal V → Py (PyVal V)
  | .plain d =>
    match kfuncDeco none (some n) with
    | .error e => .error e
    | .ok (.wrapped _) => .error .typeError
    | .ok (.decorator dec) =>
      match dec d with
      | .error e => .error e
      | .ok m => .ok (.kfunc m (.plain d))
  | .kfunc _ _ => .error .syntaxError

/-- A namespace. -/
abbrev Names (V : Type) := String → Option (PyVal V)

/-- `name = f(arg)`. -/
def Names.assign {V : Type} (env : Names V) (name : String) (f : PyVal V → Py (PyVal V)) (arg : String) :
    Py (Names V) :=
  match env arg with
  | none => .error .keyError
  | some v =>
    match f v with
    | .error e => .error e
    | .ok w => .ok fun k => if k = name then some w else env k

/-- A sequence of assignments. -/
def Names.run {V : Type} (env : Names V) : List (String × (PyVal V → Py (PyVal V)) × String) → Py (Names V)
  | [] => .ok env
  | (name, f, arg) :: l =>
    match env.assign name f arg with
    | .error e => .error e
    | .ok env => env.run l

/-- `kfunc_all` and `kfunc_short` (`shortcuts.py` 23-44). -/
def kfuncHelpers {V : Type} (cfg : Option String) :
    Py ((PyVal V → Py (PyVal V)) × (PyVal V → Py (PyVal V))) :=
  if cfg = some "all" then .ok (wrapCls, .ok)
  else if cfg = some "shortcuts" then .ok (.ok, wrapCls)
  else if cfg = none then .ok (.ok, .ok)
  else .error .valueError

/-- Names of sources and processes (`shortcuts.py` 49-71). -/
def fullNames : List String :=
  ["wiener_source", "poisson_source", "cpoisson_source", "odd_wiener_source",
   "even_poisson_source", "even_cpoisson_source", "true_wiener_source", "true_poisson_source",
   "true_cpoisson_source", "wiener_process", "lognorm_process", "ornstein_uhlenbeck_process",
   "hull_white_process", "hull_white_1factor_process", "cox_ingersoll_ross_process", "full_heston_process",
   "heston_process", "jumpdiff_process", "merton_jumpdiff_process", "kou_jumpdiff_process"]

/-- Shortcuts, and the names they stand for (`shortcuts.py` 76-99). -/
def shortNames : List (String × String) :=
  [("dw", "wiener_source"), ("dn", "poisson_source"),
   ("dj", "cpoisson_source"), ("odd_dw", "odd_wiener_source"),
   ("even_dn", "even_poisson_source"), ("even_dj", "even_cpoisson_source"),
   ("true_dw", "true_wiener_source"), ("true_dn", "true_poisson_source"),
   ("true_dj", "true_cpoisson_source"), ("wiener", "wiener_process"),
   ("lognorm", "lognorm_process"), ("oruh", "ornstein_uhlenbeck_process"),
   ("hwff", "hull_white_process"), ("hw1f", "hull_white_1factor_process"),
   ("cir", "cox_ingersoll_ross_process"), ("heston_xy", "full_heston_process"),
   ("heston", "heston_process"), ("jumpdiff", "jumpdiff_process"),
   ("mjd", "merton_jumpdiff_process"), ("kou", "kou_jumpdiff_process")]

/-- Analytical functions, with `nvar` (`shortcuts.py` 111-166). -/
def wrappedFunctions : List (String × ℤ) :=
  [("wiener_mean", 1), ("wiener_var", 1), ("wiener_std", 1), ("wiener_pdf", 2),
   ("wiener_cdf", 2), ("wiener_chf", 2), ("lognorm_mean", 1), ("lognorm_var", 1),
   ("lognorm_std", 1), ("lognorm_pdf", 2), ("lognorm_cdf", 2), ("lognorm_log_chf", 2),
   ("oruh_mean", 1), ("oruh_var", 1), ("oruh_std", 1), ("oruh_pdf", 2),
   ("oruh_cdf", 2), ("hw1f_mean", 1), ("hw1f_var", 1), ("hw1f_std", 1),
   ("hw1f_pdf", 2), ("hw1f_cdf", 2), ("hw2f_mean", 1), ("hw2f_var", 1),
   ("hw2f_std", 1), ("hw2f_pdf", 2), ("hw2f_cdf", 2), ("cir_mean", 1),
   ("cir_var", 1), ("cir_std", 1), ("cir_pdf", 2), ("heston_log_mean", 1),
   ("heston_log_var", 1), ("heston_log_std", 1), ("heston_log_chf", 2), ("heston_log_pdf", 2),
   ("mjd_mean", 1), ("mjd_log_chf", 2), ("mjd_log_pdf", 2), ("kou_mean", 1),
   ("kou_log_chf", 2), ("kou_log_pdf", 2), ("bsd1d2", 2), ("bscall", 2),
   ("bscall_delta", 2), ("bsput", 2), ("bsput_delta", 2)]

/-- The module (`shortcuts.py` 23-169), executed in the namespace with the names imported at lines 11-15. -/
def shortcutsModule {V : Type} (cfg : Option String) (env : Names V) : Py (Names V) :=
  match kfuncHelpers cfg with
  | .error e => .error e
  | .ok (kall, kshort) =>
    match env.run (fullNames.map fun n => (n, kall, n)) with
    | .error e => .error e
    | .ok env =>
      match env.run (shortNames.map fun p => (p.1, kshort, p.2)) with
      | .error e => .error e
      | .ok env =>
        if cfg = some "all" ∨ cfg = some "shortcuts" then
          env.run (wrappedFunctions.map fun p => (p.1, wrapFun p.2, p.1))
        else .ok env

/-! ### signatures -/

/-- A positional parameter. -/
def SigParam.pos (name : String) : SigParam String String := ⟨name, .posOrKw, none⟩

/-- A keyword-only parameter, with the text of its default. -/
def SigParam.kw (name default : String) : SigParam String String := ⟨name, .kwOnly, some default⟩

/-- Signatures of functions: in each group, the names of the functions and the signature
(`analytical.py`, lines 24-1023; `hw1f` functions are the `oruh` ones, lines 329-333). -/
def functionSigs : List (List String × List (SigParam String String)) :=
  [(["wiener_mean", "wiener_var", "wiener_std"],
    [.pos "t", .kw "x0" "0.", .kw "mu" "0.", .kw "sigma" "1."]),
   (["wiener_pdf", "wiener_cdf"],
    [.pos "t", .pos "x", .kw "x0" "0.", .kw "mu" "0.", .kw "sigma" "1."]),
   (["wiener_chf"],
    [.pos "t", .pos "u", .kw "x0" "0.", .kw "mu" "0.", .kw "sigma" "1."]),
   (["lognorm_mean", "lognorm_var", "lognorm_std"],
    [.pos "t", .kw "x0" "1.", .kw "mu" "0.", .kw "sigma" "1."]),
   (["lognorm_pdf", "lognorm_cdf"],
    [.pos "t", .pos "x", .kw "x0" "1.", .kw "mu" "0.", .kw "sigma" "1."]),
   (["lognorm_log_chf"],
    [.pos "t", .pos "u", .kw "x0" "1.", .kw "mu" "0.", .kw "sigma" "1."]),
   (["oruh_mean", "oruh_var", "oruh_std", "hw1f_mean", "hw1f_var", "hw1f_std"],
    [.pos "t", .kw "x0" "0.", .kw "theta" "0.", .kw "k" "1.", .kw "sigma" "1."]),
   (["oruh_pdf", "oruh_cdf", "hw1f_pdf", "hw1f_cdf"],
    [.pos "t", .pos "x", .kw "x0" "0.", .kw "theta" "0.", .kw "k" "1.", .kw "sigma" "1."]),
   (["hw2f_mean", "hw2f_var", "hw2f_std"],
    [.pos "t", .kw "x0" "(0., 0.)", .kw "theta" "(0., 0.)", .kw "k" "(1., 1.)", .kw "sigma" "(1., 1.)",
      .kw "rho" "0."]),
   (["hw2f_pdf", "hw2f_cdf"],
    [.pos "t", .pos "x", .kw "x0" "(0., 0.)", .kw "theta" "(0., 0.)", .kw "k" "(1., 1.)", .kw "sigma" "(1., 1.)",
      .kw "rho" "0."]),
   (["cir_mean", "cir_var", "cir_std"],
    [.pos "t", .kw "x0" "1.", .kw "theta" "1.", .kw "k" "1.", .kw "xi" "1."]),
   (["cir_pdf"],
    [.pos "t", .pos "x", .kw "x0" "1.", .kw "theta" "1.", .kw "k" "1.", .kw "xi" "1."]),
   (["heston_log_mean", "heston_log_var", "heston_log_std"],
    [.pos "t", .kw "x0" "1.", .kw "mu" "0.", .kw "sigma" "1.", .kw "y0" "1.", .kw "theta" "1.", .kw "k" "1.",
      .kw "xi" "1.", .kw "rho" "0."]),
   (["heston_log_chf"],
    [.pos "t", .pos "u", .kw "x0" "1.", .kw "mu" "0.", .kw "sigma" "1.", .kw "y0" "1.", .kw "theta" "1.",
      .kw "k" "1.", .kw "xi" "1.", .kw "rho" "0."]),
   (["heston_log_pdf"],
    [.pos "t", .pos "logx", .kw "x0" "1.", .kw "mu" "0.", .kw "sigma" "1.", .kw "y0" "1.", .kw "theta" "1.",
      .kw "k" "1.", .kw "xi" "1.", .kw "rho" "0."]),
   (["mjd_mean"],
    [.pos "t", .kw "x0" "1.", .kw "mu" "0.", .kw "sigma" "1.", .kw "lam" "1.", .kw "a" "0.0", .kw "b" "1."]),
   (["mjd_log_chf"],
    [.pos "t", .pos "u", .kw "x0" "1.", .kw "mu" "0.", .kw "sigma" "1.", .kw "lam" "1.", .kw "a" "0.0",
      .kw "b" "1."]),
   (["mjd_log_pdf"],
    [.pos "t", .pos "logx", .kw "x0" "1.", .kw "mu" "0.", .kw "sigma" "1.", .kw "lam" "1.", .kw "a" "0.0",
      .kw "b" "1."]),
   (["kou_mean"],
    [.pos "t", .kw "x0" "1.", .kw "mu" "0.", .kw "sigma" "1.", .kw "lam" "1.", .kw "a" "0.5", .kw "b" "0.5",
      .kw "pa" "0.5"]),
   (["kou_log_chf"],
    [.pos "t", .pos "u", .kw "x0" "1.", .kw "mu" "0.", .kw "sigma" "1.", .kw "lam" "1.", .kw "a" "0.5",
      .kw "b" "0.5", .kw "pa" "0.5"]),
   (["kou_log_pdf"],
    [.pos "t", .pos "logx", .kw "x0" "1.", .kw "mu" "0.", .kw "sigma" "1.", .kw "lam" "1.", .kw "pa" "0.5",
      .kw "a" "0.5", .kw "b" "0.5"]),
   (["bsd1d2", "bscall", "bscall_delta", "bsput", "bsput_delta"],
    [.pos "k", .pos "t", .kw "x0" "1.", .kw "r" "0.", .kw "q" "0.", .kw "sigma" "1."])]

/-- Sources and processes: in each group, names of the classes, signatures of `__init__` and of `__call__`, as found in
the class or in the first base class that defines them
(`infrastructure.py` 1481, 1503, 1602, 1617, 1986, 2017, 2057, 2069, 2254, 2449, 2538, 2600; `integration.py` 1081 and 476). -/
def classSigs : List (List String × List (SigParam String String) × List (SigParam String String)) :=
  [(["wiener_source"],
    [.pos "self", .kw "paths" "1", .kw "vshape" "()", .kw "dtype" "None", .kw "rng" "None", .kw "corr" "None",
      .kw "rho" "None"],
    [.pos "self", .pos "t", .pos "dt"]),
   (["poisson_source"],
    [.pos "self", .kw "paths" "1", .kw "vshape" "()", .kw "dtype" "int", .kw "rng" "None", .kw "lam" "1."],
    [.pos "self", .pos "t", .pos "dt"]),
   (["cpoisson_source"],
    [.pos "self", .kw "paths" "1", .kw "vshape" "()", .kw "dtype" "None", .kw "rng" "None", .kw "dn" "None",
      .kw "ptype" "int", .kw "lam" "1.", .kw "y" "None"],
    [.pos "self", .pos "t", .pos "dt"]),
   (["odd_wiener_source", "even_poisson_source", "even_cpoisson_source"],
    [.pos "self", .kw "paths" "2", .kw "vshape" "()", .kw "dtype" "None", .kw "rng" "None", ⟨"args", .varKw, none⟩],
    [.pos "self", .pos "t", ⟨"dt", .posOrKw, some "None"⟩]),
   (["true_wiener_source"],
    [.pos "self", .kw "paths" "1", .kw "vshape" "()", .kw "dtype" "None", .kw "rng" "None", .kw "corr" "None",
      .kw "rho" "None", .kw "rtol" "'max'", .kw "t0" "0.", .kw "z0" "0."],
    [.pos "self", .pos "t", ⟨"dt", .posOrKw, some "None"⟩]),
   (["true_poisson_source"],
    [.pos "self", .kw "paths" "1", .kw "vshape" "()", .kw "dtype" "int", .kw "rng" "None", .kw "lam" "1.",
      .kw "rtol" "'max'", .kw "t0" "0.", .kw "z0" "0"],
    [.pos "self", .pos "t", ⟨"dt", .posOrKw, some "None"⟩]),
   (["true_cpoisson_source"],
    [.pos "self", .kw "paths" "1", .kw "vshape" "()", .kw "dtype" "None", .kw "rng" "None", .kw "rtol" "'max'",
      .kw "t0" "0.", .kw "z0" "0.", .kw "dn" "None", .kw "ptype" "int", .kw "lam" "1.", .kw "y" "None"],
    [.pos "self", .pos "t", ⟨"dt", .posOrKw, some "None"⟩]),
   (["wiener_process", "lognorm_process", "ornstein_uhlenbeck_process", "hull_white_process",
     "hull_white_1factor_process", "cox_ingersoll_ross_process", "full_heston_process", "heston_process",
     "jumpdiff_process", "merton_jumpdiff_process", "kou_jumpdiff_process"],
    [.pos "self", .kw "paths" "1", .kw "vshape" "()", .kw "dtype" "None", .kw "rng" "None", .kw "steps" "None",
      .kw "i0" "0", .kw "info" "None", .kw "getinfo" "True", .kw "method" "'euler'", ⟨"args", .varKw, none⟩],
    [.pos "self", .pos "timeline"])]

/-- The names imported by the module (lines 11-15), among those that it uses: no class defines `__new__`, and all find
`__init__` and `__call__` in themselves or in a base class. -/
def sdepyNames : Names String := fun n =>
  match functionSigs.find? fun g => n ∈ g.1 with
  | some (_, sig) => some (.plain (.fn sig))
  | none =>
    match classSigs.find? fun g => n ∈ g.1 with
    | some (_, ini, cal) => some (.plain (.cls ⟨false, false, true, true, ini, cal⟩))
    | none => none

end Sdepy
