import Verif.NpMore

/-!
# Model of the set up of parameters, correlations and stochasticity sources
(`/repo/sdepy/infrastructure.py`, lines 55-243)

Simplifications: values are exact numbers in `K`; the callables wrapped by `_variable_param_setup` and
those it wraps have the same values (`numpy.asarray` leaves values as they are).
-/

namespace Sdepy

/-- A parameter as given by the user: `None`, an array-like, a callable (that may raise), or a process
with given `vshape` and `paths`. -/
inductive RawParam (K : Type) where
  | none
  | arr (a : Arr K)
  | fn (f : K → Py (Arr K))
  | proc (vshape : List ℕ) (paths : ℕ) (f : K → Py (Arr K))

/-- A parameter after `_variable_param_setup`, together with what `_get_param_shape` returns for it
(`none` if no shape is known). -/
inductive Param (K : Type) where
  | none
  | arr (a : Arr K)
  | fn (shape : Option (List ℕ)) (f : K → Py (Arr K))

section
variable {K : Type} [Zero K] [One K]

/-- `_variable_param_setup` (`infrastructure.py` 64-108): the shape of the values of a callable is that
of a test call at `t = 1.`, if that does not raise. The shape of a process is set here as
`_get_param_shape` reports it (118-119). -/
def RawParam.setup : RawParam K → Param K
  | .none => .none
  | .arr a => .arr a
  | .fn f => .fn (match f 1 with | .ok a => some a.shape | .error _ => Option.none) f
  | .proc vshape paths f => .fn (some (vshape ++ [paths])) f

/-- `_get_param_shape` (`infrastructure.py` 111-125). -/
def Param.shape : Param K → Option (List ℕ)
  | .none => Option.none
  | .arr a => some a.shape
  | .fn sh _ => sh

/-- `numpy.eye(n)` -/
def npEye (n : ℕ) : Arr K := ⟨[n, n], fun i => if i.headD 0 = i.tail.headD 0 then 1 else 0⟩

/-- `numpy.diag(v)`, for a vector `v` of size `n`. -/
def npDiag (n : ℕ) (v : ℕ → K) : Arr K :=
  ⟨[n, n], fun i => if i.headD 0 = i.tail.headD 0 then v (i.headD 0) else 0⟩

/-- `numpy.concatenate((a, b))`, for matrices with the same number of columns. -/
def vcat (a b : Arr K) : Arr K :=
  ⟨[a.shape.headD 0 + b.shape.headD 0, a.shape.tail.headD 0], fun i =>
    if i.headD 0 < a.shape.headD 0 then a.get i else b.get ((i.headD 0 - a.shape.headD 0) :: i.tail)⟩

/-- `numpy.concatenate((a, b), axis=1)`, for matrices with the same number of rows. -/
def hcat (a b : Arr K) : Arr K :=
  ⟨[a.shape.headD 0, a.shape.tail.headD 0 + b.shape.tail.headD 0], fun i =>
    if i.tail.headD 0 < a.shape.tail.headD 0 then a.get i
    else b.get [i.headD 0, i.tail.headD 0 - a.shape.tail.headD 0]⟩

/-- `_const_rho_to_corr` (`infrastructure.py` 128-150), for an array `rho`. -/
def rhoToCorr (rho : Arr K) : Py (Arr K) :=
  let n := rho.shape.prod
  if ¬ (rho.shape = [] ∨ rho.shape = [n] ∨ rho.shape = [n, 1]) then .error .valueError
  else if n = 1 then
    let r := rho.get (rho.shape.map fun _ => 0)
    .ok ⟨[2, 2], fun i => if i = [0, 1] ∨ i = [1, 0] then r else 1⟩
  else
    let v := fun k => rho.get (k :: rho.shape.tail.map fun _ => 0)
    .ok (hcat (vcat (npEye n) (npDiag n v)) (vcat (npDiag n v) (npEye n)))

/-- The condition under which `corr` is rejected (`infrastructure.py` 175-177). -/
def badCorrShape (sh : Option (List ℕ)) : Prop :=
  match sh with
  | Option.none => False
  | some [a, b] => a ≠ b
  | some [a, b, c] => a ≠ b ∨ c ≠ 1
  | some _ => True

instance (sh : Option (List ℕ)) : Decidable (badCorrShape sh) := by
  unfold badCorrShape; split <;> infer_instance

/-- The condition under which `rho` is rejected (`infrastructure.py` 188-190). -/
def badRhoShape (sh : Option (List ℕ)) : Prop :=
  match sh with
  | some (_ :: b :: rest) => rest ≠ [] ∨ b ≠ 1
  | _ => False

instance (sh : Option (List ℕ)) : Decidable (badRhoShape sh) := by
  unfold badRhoShape; split <;> infer_instance

/-- The correlation matrix obtained from `rho` (`infrastructure.py` 186-204), once set up. -/
def corrOfRho (rho : Param K) : Py (Param K) :=
  if badRhoShape rho.shape then .error .valueError
  else
    match rho with
    | .none => .ok .none
    | .arr a =>
      match rhoToCorr a with
      | .error e => .error e
      | .ok c => .ok (.arr c)
    | .fn sh f => .ok (.fn
        (sh.map fun s => match s with | [] => [2, 2] | k :: _ => [2 * k, 2 * k])
        fun t => match f t with
          | .error e => .error e
          | .ok a => rhoToCorr a)

/-- `_get_corr_matrix` (`infrastructure.py` 153-206). -/
def getCorrMatrix (corr rho : RawParam K) : Py (Param K) :=
  match corr with
  | .none => corrOfRho rho.setup
  | corr => if badCorrShape corr.setup.shape then .error .valueError else .ok corr.setup

end

/-! ### sources -/

/-- An object given as a source, as far as the set up of sources can tell: `None`, a class, or an
instance, of which it matters if it is callable, and its attributes `paths` and `vshape`, if any. -/
inductive RawSource (C S : Type) where
  | none
  | cls (c : C)
  | obj (s : S) (callable : Bool) (paths : Option ℕ) (vshape : Option (List ℕ))

/-- `_check_source` (`infrastructure.py` 209-232). -/
def checkSource (callable : Bool) (srcPaths : Option ℕ) (srcVshape : Option (List ℕ))
    (paths : ℕ) (vshape : List ℕ) : Py Unit :=
  match callable, srcPaths, srcVshape with
  | true, some p, some v =>
    if p ≠ paths ∨ ¬ BcOk v vshape then .error .valueError else .ok ()
  | _, _, _ => .error .valueError

/-- `_source_setup` (`infrastructure.py` 235-243); `make c paths vshape` instantiates class `c` (with
the keyword arguments given, not shown here). -/
def sourceSetup {C S : Type} (dz : RawSource C S) (default : C) (make : C → ℕ → List ℕ → Py S)
    (paths : ℕ) (vshape : List ℕ) : Py S :=
  match dz with
  | .none => make default paths vshape
  | .cls c => make c paths vshape
  | .obj s callable p v =>
    match checkSource callable p v paths vshape with
    | .error e => .error e
    | .ok _ => .ok s

end Sdepy
