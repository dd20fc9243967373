import Verif.Py
import Mathlib.Logic.Function.Basic
import Mathlib.Data.Nat.Notation

/-!
# Which random number generator is used

Model of how random number generators reach the objects that draw from them: the `rng` parameter of
sources and processes, the module level `default_rng`, and the sources nested into other sources.

Simplified: `paths`, `vshape`, `dtype`, `corr`, `rho`, `rtol`, `t0`, `z0` are not shown (they are in
`Model/Params.lean`, `Model/PoissonTypes.lean`, `Model/TrueSource.lean`, ...), instances given as sources
are supposed to have passed `_check_source`, and what is computed out of the numbers drawn is left to a
parameter, `Beh`. A generator is its identity `g : γ`, its state is `heap g`.
-/

namespace Sdepy

/-- A computation drawing random numbers: `draw g q k` asks generator `g` for `q` (as `rng.normal(0., 1.,
size)`, `rng.poisson(...)`, `rng.binomial(...)`, `rvs(size=size, random_state=rng)` do, `infrastructure.py`
1515, 1532, 1548, 1631, 2007, 2555), and goes on with the outcome. -/
inductive Prog (γ Q V R : Type) where
  | ret (r : R)
  | draw (g : γ) (q : Q) (k : V → Prog γ Q V R)

namespace Prog
variable {γ Q V R R' σ : Type}

/-- One computation after the other. -/
def bind : Prog γ Q V R → (R → Prog γ Q V R') → Prog γ Q V R'
  | .ret r, f => f r
  | .draw g q k, f => .draw g q (fun v => (k v).bind f)

/-- Draw a list of requests from `g`. -/
def drawAll (g : γ) : List Q → Prog γ Q V (List V)
  | [] => .ret []
  | q :: qs => .draw g q (fun v => (drawAll g qs).bind (fun vs => .ret (v :: vs)))

/-- Execution: `gen g q s` is what generator `g` in state `s` returns, and its state afterwards. -/
def run [DecidableEq γ] (gen : γ → Q → σ → V × σ) : Prog γ Q V R → (γ → σ) → R × (γ → σ)
  | .ret r, h => (r, h)
  | .draw g q k, h => (k (gen g q (h g)).1).run gen (Function.update h g (gen g q (h g)).2)

end Prog

/-- The `rng` parameter, as far as `source.__init__` can tell (`infrastructure.py` 1344-1349): `None`, an
instance of one of the types rejected (`int`, `np.int64`, `list`, `np.ndarray`), or anything else, taken as
a generator. -/
inductive RngArg (γ : Type) where
  | none
  | seed
  | gen (g : γ)

/-- The `_rng` attribute set by `source.__init__` (`infrastructure.py` 1344-1349); `d` is the value of the
global `default_rng` (line 28) at that time. -/
def setRng {γ : Type} (d : γ) : RngArg γ → Py γ
  | .none => .ok d
  | .seed => .error .typeError
  | .gen g => .ok g

/-- The `y` parameter of `cpoisson_source`, as far as `_y_rvs` can tell (`infrastructure.py` 2003-2014): if
its `rvs` method accepts the keyword `random_state`, and the generator it draws from otherwise. -/
structure JumpRv (γ : Type) where
  keyword : Bool
  own : γ

/-- A stochasticity source: the generators and the nested sources it holds.
`poisson`: `lam`. `cpoisson`: attributes `dn`, `lam`, `y` (`infrastructure.py` 1989-2001). `antith`: `_dz`
(2063). `trueWiener`: `_dw` (2455). `truePoisson`: `_dn`, `lam` (2543-2545). `trueCPoisson`: `_dj`, `dn`, `lam`
(2610-2614). `other`: any other object complying with the source protocol, that draws as it likes; `lam` is
its attribute of this name, if any. -/
inductive GenSrc (γ Λ I M Q V O : Type) where
  | wiener (g : γ)
  | poisson (g : γ) (lam : Λ)
  | cpoisson (g : γ) (dn : GenSrc γ Λ I M Q V O) (lam : Λ) (y : JumpRv γ)
  | antith (dz : GenSrc γ Λ I M Q V O)
  | trueWiener (g : γ) (dw : GenSrc γ Λ I M Q V O)
  | truePoisson (g : γ) (dn : GenSrc γ Λ I M Q V O) (lam : Λ)
  | trueCPoisson (g : γ) (dj dn : GenSrc γ Λ I M Q V O) (lam : Λ)
  | other (lam : Option Λ) (call : I → M → Prog γ Q V (O × M))

/-- What a source with memory does for a single time (`infrastructure.py` 2272-2290): the value is stored
already; `new_outside`; `new_inside`, that may return `None`. -/
inductive VisitStep (I Q : Type) where
  | found
  | outside (i : I)
  | inside (i : I) (is : List I) (q : Q)
  | kept

/-- All about the computation of values that does not concern generators. `I`: inputs of a call. `M`:
memory of an object, including that of nested objects. `O`: outputs. -/
structure Beh (Λ I M Q V O : Type) where
  wienerReq : I → List Q
  wienerOut : I → List V → O
  poissonReq : Λ → I → List Q
  poissonOut : Λ → I → List V → O
  jumpReq : I → O → List Q
  jumpOut : I → O → List V → O
  anti : O → O
  points : I → List I
  step : I → M → VisitStep I Q
  storeOut : I → M → O → M
  storeBinomial : I → M → V → M
  storeSplit : I → M → M
  out : I → M → O

section
variable {γ Λ I M Q V O : Type}

/-- One visit after the other, memory being handed on (`for i in np.ndindex(s.shape)`,
`infrastructure.py` 2292-2293). -/
def visits (f : I → M → Prog γ Q V M) : List I → M → Prog γ Q V M
  | [], m => .ret m
  | i :: is, m => (f i m).bind (visits f is)

/-- `__call__` of the sources: `wiener_source` (`infrastructure.py` 1508-1555, line 1515, 1532 or 1548 draw
from `self.rng`), `poisson_source` (1614-1634), `cpoisson_source` (2016-2042: `self.dn(t, dt)`, then variates
of `y` by `self.rng`), antithetics (2070-2072), and sources with memory (2255-2295), where values are
generated by `_dw` (2460-2508), `_dn` or `self.rng.binomial` (2547-2555), `_dj` or `dn` (2654-2697). -/
def GenSrc.call (E : Beh Λ I M Q V O) : GenSrc γ Λ I M Q V O → I → M → Prog γ Q V (O × M)
  | .wiener g, i, m => (Prog.drawAll g (E.wienerReq i)).bind fun vs => .ret (E.wienerOut i vs, m)
  | .poisson g lam, i, m => (Prog.drawAll g (E.poissonReq lam i)).bind fun vs => .ret (E.poissonOut lam i vs, m)
  | .cpoisson g dn _ y, i, m => (dn.call E i m).bind fun n =>
      (Prog.drawAll (if y.keyword then g else y.own) (E.jumpReq i n.1)).bind fun vs =>
        .ret (E.jumpOut i n.1 vs, n.2)
  | .antith dz, i, m => (dz.call E i m).bind fun z => .ret (E.anti z.1, z.2)
  | .trueWiener _ dw, i, m =>
      (visits (fun j m => match E.step j m with
        | .found => .ret m
        | .kept => .ret m
        | .outside i' => (dw.call E i' m).bind fun z => .ret (E.storeOut j z.2 z.1)
        | .inside i' _ _ => (dw.call E i' m).bind fun z => .ret (E.storeOut j z.2 z.1))
        (E.points i) m).bind fun m => .ret (E.out i m, m)
  | .truePoisson g dn _, i, m =>
      (visits (fun j m => match E.step j m with
        | .found => .ret m
        | .kept => .ret m
        | .outside i' => (dn.call E i' m).bind fun z => .ret (E.storeOut j z.2 z.1)
        | .inside _ _ q => .draw g q fun v => .ret (E.storeBinomial j m v))
        (E.points i) m).bind fun m => .ret (E.out i m, m)
  | .trueCPoisson _ dj dn _, i, m =>
      (visits (fun j m => match E.step j m with
        | .found => .ret m
        | .kept => .ret m
        | .outside i' => (dj.call E i' m).bind fun z => .ret (E.storeOut j z.2 z.1)
        | .inside _ is _ =>
          (visits (fun i' m => (dn.call E i' m).bind fun z => .ret z.2) is m).bind fun m =>
            .ret (E.storeSplit j m))
        (E.points i) m).bind fun m => .ret (E.out i m, m)
  | .other _ call, i, m => call i m

/-- The attribute `rng` (`infrastructure.py` 1357-1365; 2085-2087 for antithetics). -/
def GenSrc.rng : GenSrc γ Λ I M Q V O → Option γ
  | .wiener g => some g
  | .poisson g _ => some g
  | .cpoisson g _ _ _ => some g
  | .antith dz => dz.rng
  | .trueWiener g _ => some g
  | .truePoisson g _ _ => some g
  | .trueCPoisson g _ _ _ => some g
  | .other _ _ => none

/-- The attribute `lam`, if any (`infrastructure.py` 1604, 1998, 2545, 2613; antithetics have none). -/
def GenSrc.lam : GenSrc γ Λ I M Q V O → Option Λ
  | .poisson _ lam => some lam
  | .cpoisson _ _ lam _ => some lam
  | .truePoisson _ _ lam => some lam
  | .trueCPoisson _ _ _ lam => some lam
  | .other lam _ => lam
  | _ => none

/-- The source classes of the package. -/
inductive SrcCls where
  | wiener | oddWiener | trueWiener
  | poisson | evenPoisson | truePoisson
  | cpoisson | evenCPoisson | trueCPoisson
  deriving DecidableEq, Repr

/-- A parameter `dw`, `dn` or `dj`: `None`, a class or an instance (`_source_setup`, `infrastructure.py`
235-243). -/
inductive SrcArg (S : Type) where
  | none
  | cls (c : SrcCls)
  | inst (s : S)

/-- `c(paths=..., vshape=..., dtype=..., rng=rng, corr=..., rho=...)` (`infrastructure.py` 1483, 2063-2064,
2453-2457). Classes with no such keywords raise `TypeError`. -/
def newDw (d : γ) (c : SrcCls) (rng : RngArg γ) : Py (GenSrc γ Λ I M Q V O) :=
  match c with
  | .wiener => do return .wiener (← setRng d rng)
  | .oddWiener => do return .antith (.wiener (← setRng d rng))
  | .trueWiener => do
    let g ← setRng d rng
    return .trueWiener g (.wiener (← setRng d rng))
  | _ => .error .typeError

/-- `poisson_source(..., rng=rng, lam=lam)` (`infrastructure.py` 1602-1604). -/
def newPoisson (d : γ) (rng : RngArg γ) (lam : Λ) : Py (GenSrc γ Λ I M Q V O) := do
  return .poisson (← setRng d rng) lam

/-- `true_poisson_source(..., rng=rng, lam=lam)` (`infrastructure.py` 2538-2545). -/
def newTruePoisson (d : γ) (rng : RngArg γ) (lam : Λ) : Py (GenSrc γ Λ I M Q V O) := do
  let g ← setRng d rng
  return .truePoisson g (← newPoisson d rng lam) lam

/-- `cpoisson_source(..., rng=rng, dn=dn, lam=lam, y=y)` (`infrastructure.py` 1986-2001). `setup`: how a
source is instantiated, should `dn` be a class. As to line 1998, a class `dn` has no attribute `lam`. -/
def newCPoisson (setup : SrcCls → Py (GenSrc γ Λ I M Q V O)) (d : γ) (rng : RngArg γ)
    (dn : SrcArg (GenSrc γ Λ I M Q V O)) (lam : Λ) (y : JumpRv γ) : Py (GenSrc γ Λ I M Q V O) := do
  let g ← setRng d rng
  let s ← match dn with
    | .none => newPoisson d rng lam
    | .cls c => setup c
    | .inst s => .ok s
  let l := match dn with
    | .inst s => s.lam.getD lam
    | _ => lam
  return .cpoisson g s l y

/-- `true_cpoisson_source(..., rng=rng, dn=dn, lam=lam, y=y)` (`infrastructure.py` 2600-2616). Neither
`ptype` nor `lam` are handed on to `cpoisson_source` ("ptype, lam are set by dn"), so that its default
`lam1`, that is `1.`, applies there. -/
def newTrueCPoisson (setup : SrcCls → Py (GenSrc γ Λ I M Q V O)) (lam1 : Λ) (d : γ) (rng : RngArg γ)
    (dn : SrcArg (GenSrc γ Λ I M Q V O)) (lam : Λ) (y : JumpRv γ) : Py (GenSrc γ Λ I M Q V O) := do
  let g ← setRng d rng
  let dn ← match dn with
    | .none => do pure (.inst (← newTruePoisson d rng lam))
    | a => pure a
  let dj ← newCPoisson setup d rng dn lam1 y
  match dj with
  | .cpoisson _ s l _ => return .trueCPoisson g dj s l
  | _ => .error .attributeError

/-- `c(paths=..., vshape=..., dtype=..., rng=rng, lam=lam)`: parameters not given have their defaults
(`infrastructure.py` 1602, 2057-2064, 2538; 1986-1988 and 2600-2603, where `dn=None`, `y=None`, for classes
of compound Poisson sources). `y1` is `uniform_rv(a=0, b=1)` (2001). Classes with no keyword `lam` raise
`TypeError`. -/
def newDn (lam1 : Λ) (y1 : JumpRv γ) (d : γ) (c : SrcCls) (rng : RngArg γ) (lam : Λ) :
    Py (GenSrc γ Λ I M Q V O) :=
  match c with
  | .poisson => newPoisson d rng lam
  | .evenPoisson => do return .antith (← newPoisson d rng lam)
  | .truePoisson => newTruePoisson d rng lam
  | .cpoisson => newCPoisson (fun _ => .error .typeError) d rng .none lam y1
  | .evenCPoisson => do return .antith (← newCPoisson (fun _ => .error .typeError) d rng .none lam y1)
  | .trueCPoisson => newTrueCPoisson (fun _ => .error .typeError) lam1 d rng .none lam y1
  | _ => .error .typeError

/-- `c(paths=..., vshape=..., dtype=..., rng=rng, dn=dn, ptype=..., lam=lam, y=y)` (`infrastructure.py`
1986-1988, 2063-2064, 2600-2603). Classes with no such keywords raise `TypeError`. -/
def newDj (lam1 : Λ) (y1 : JumpRv γ) (d : γ) (c : SrcCls) (rng : RngArg γ)
    (dn : SrcArg (GenSrc γ Λ I M Q V O)) (lam : Λ) (y : JumpRv γ) : Py (GenSrc γ Λ I M Q V O) :=
  match c with
  | .cpoisson => newCPoisson (fun c => newDn lam1 y1 d c rng lam) d rng dn lam y
  | .evenCPoisson => do return .antith (← newCPoisson (fun c => newDn lam1 y1 d c rng lam) d rng dn lam y)
  | .trueCPoisson => newTrueCPoisson (fun c => newDn lam1 y1 d c rng lam1) lam1 d rng dn lam y
  | _ => .error .typeError

/-- What a `source_{id}` method of a process is given (`integration.py` 1290-1424). `dt` is a function,
drawing nothing. -/
inductive SrcSpec (γ Λ S : Type) where
  | dt
  | dw (a : SrcArg S)
  | dn (a : SrcArg S) (lam : Λ)
  | dj (a dn : SrcArg S) (lam : Λ) (y : JumpRv γ)

/-- Methods `source_dt` (`integration.py` 1290-1309; `dtOut` is the time increment), `source_dw`
(1341-1344), `source_dn` (1377-1381), `source_dj` (1416-1424), with `rng=self._rng_asis`. -/
def sourceOf (dtOut : I → O) (lam1 : Λ) (y1 : JumpRv γ) (d : γ) (rng : RngArg γ) :
    SrcSpec γ Λ (GenSrc γ Λ I M Q V O) → Py (GenSrc γ Λ I M Q V O)
  | .dt => .ok (.other none (fun i m => .ret (dtOut i, m)))
  | .dw .none => newDw d .wiener rng
  | .dw (.cls c) => newDw d c rng
  | .dw (.inst s) => .ok s
  | .dn .none lam => newDn lam1 y1 d .poisson rng lam
  | .dn (.cls c) lam => newDn lam1 y1 d c rng lam
  | .dn (.inst s) _ => .ok s
  | .dj .none dn lam y => newDj lam1 y1 d .cpoisson rng dn lam y
  | .dj (.cls c) dn lam y => newDj lam1 y1 d c rng dn lam y
  | .dj (.inst s) _ _ _ => .ok s

/-- A process, as far as random numbers are concerned: attributes `rng` and `sources`. -/
structure RngSim (γ Λ I M Q V O : Type) where
  rng : RngArg γ
  sources : List (GenSrc γ Λ I M Q V O)

/-- `SDE.__init__` (`integration.py` 1124-1135): `_rng` is set to `default_rng` if `rng` is `None`, while
sources are instantiated with `rng` as it was given. -/
def newRngSim (dtOut : I → O) (lam1 : Λ) (y1 : JumpRv γ) (d : γ) (rng : RngArg γ)
    (specs : List (SrcSpec γ Λ (GenSrc γ Λ I M Q V O))) : Py (RngSim γ Λ I M Q V O) := do
  let attr := match rng with
    | .none => .gen d
    | r => r
  return ⟨attr, ← specs.mapM (sourceOf dtOut lam1 y1 d rng)⟩

/-- `dZ` (`integration.py` 1227-1234): all sources are called, in order. Memories are those of the sources,
one by one. -/
def RngSim.dZ (E : Beh Λ I M Q V O) : List (GenSrc γ Λ I M Q V O) → I → List M → Prog γ Q V (List O × List M)
  | s :: ss, i, m :: ms => (s.call E i m).bind fun z => (RngSim.dZ E ss i ms).bind fun w =>
      .ret (z.1 :: w.1, z.2 :: w.2)
  | _, _, _ => .ret ([], [])

/-- What may happen after sources are built: one of them is called, or `default_rng` is assigned
(`infrastructure.py` 28-31). -/
inductive RngEvent (γ I : Type) where
  | call (k : ℕ) (i : I)
  | setDefault (g : γ)

/-- The global `default_rng`, the states of generators, the memories of objects, the outcomes of calls. -/
structure RngWorld (γ σ M O : Type) where
  default : γ
  heap : γ → σ
  mem : ℕ → M
  outs : List (ℕ × O)

/-- Execution of an event, where object `k` is `objs k`. Objects do not share their memories. -/
def RngWorld.step {σ : Type} [DecidableEq γ] (E : Beh Λ I M Q V O) (gen : γ → Q → σ → V × σ)
    (objs : ℕ → GenSrc γ Λ I M Q V O) (w : RngWorld γ σ M O) : RngEvent γ I → RngWorld γ σ M O
  | .setDefault g => { w with default := g }
  | .call k i =>
    let r := ((objs k).call E i (w.mem k)).run gen w.heap
    { w with heap := r.2, mem := Function.update w.mem k r.1.2, outs := w.outs ++ [(k, r.1.1)] }

/-- Execution of a history. -/
def RngWorld.run {σ : Type} [DecidableEq γ] (E : Beh Λ I M Q V O) (gen : γ → Q → σ → V × σ)
    (objs : ℕ → GenSrc γ Λ I M Q V O) (w : RngWorld γ σ M O) (es : List (RngEvent γ I)) : RngWorld γ σ M O :=
  es.foldl (RngWorld.step E gen objs) w

end

end Sdepy
