import Verif.Model.SDEs
import Verif.Model.Presets

/-!
# Model of the Heston processes (`/repo/sdepy/integration.py`, lines 2403-2541)

Built on the model of `SDEs`, with `q = 2`. Parameters are functions of time and of the
multi-indices of an array of shape `vshape + (paths,)`, i.e. broadcast already.
-/

namespace Sdepy

/-- Parameters of the Heston processes. -/
structure HestonParams where
  mu : ℝ → List ℕ → ℝ
  sigma : ℝ → List ℕ → ℝ
  theta : ℝ → List ℕ → ℝ
  k : ℝ → List ℕ → ℝ
  xi : ℝ → List ℕ → ℝ

/-- `full_heston_SDE.sde` (`integration.py` 2425-2433). -/
noncomputable def hestonSde (P : HestonParams) (t : ℝ) (xs : List (Arr ℝ)) :
    Py (Option (List (Option (List (ℕ × Arr ℝ))))) :=
  match xs with
  | [_, y] =>
    match npSqrt (npPlus y.get) with
    | .error e => .error e
    | .ok r => .ok (some [
        some [(idT, ⟨y.shape, P.mu t - P.sigma t * P.sigma t * npPlus y.get / 2⟩),
          (idW, ⟨y.shape, P.sigma t * r⟩)],
        some [(idT, ⟨y.shape, P.k t * (P.theta t - npPlus y.get)⟩),
          (idW, ⟨y.shape, P.xi t * r⟩)]])
  | _ => .error .typeError

variable {σ : Type}

/-- The two equations of `full_heston_SDE` (`integration.py` 2412-2433); its `init` is
`hestonInit`, so `x0` is not used. -/
noncomputable def hestonSys (addaxis : Bool) (vshape : List ℕ) (paths : ℕ) (P : HestonParams)
    (dw : Src ℝ (List ℕ) σ) : SDEs ℝ ℝ ℕ σ where
  L := ⟨2, addaxis, vshape, paths⟩
  sources := [(idT, dtSource), (idW, dw)]
  sde := hestonSde P
  x0 := .scalar 0
  log := false
  logK := Real.log
  expK := Real.exp

/-- `full_heston_SDE.init` (`integration.py` 2416-2419). Writing to the views returned by `unpack`
is modelled as packing. -/
noncomputable def hestonInit (L : Layout) (x0 y0 : Arr ℝ) : Py (List ℕ → ℝ) :=
  match L.pack [⟨x0.shape, npLog x0.get⟩, y0] with
  | .error e => .error e
  | .ok X => .ok X.get

/-- `full_heston_SDE` (`integration.py` 2403-2444), without info methods and `result`. -/
noncomputable def fullHestonSDE (addaxis : Bool) (vshape : List ℕ) (paths : ℕ) (P : HestonParams)
    (x0 y0 : Arr ℝ) (dw : Src ℝ (List ℕ) σ) : SDE ℝ (List ℕ → ℝ) (List ℕ → ℝ) ℕ σ :=
  { (hestonSys addaxis vshape paths P dw).toSDE with
    init := fun _ => hestonInit ⟨2, addaxis, vshape, paths⟩ x0 y0 }

/-- `full_heston_SDE.result` (`integration.py` 2441-2444), on the values at one time. -/
noncomputable def fullHestonResult (L : Layout) (x : Option (List ℕ → ℝ)) :
    Py (Option (Arr ℝ × Arr ℝ)) :=
  match x with
  | none => .ok none
  | some x =>
    match L.unpack ⟨L.wshape ++ [L.paths], x⟩ with
    | .error e => .error e
    | .ok [x, y] => .ok (some (Arr.canon ⟨x.shape, npExp x.get⟩, y.canon))
    | .ok _ => .error .valueError

/-- `full_heston_process(...)(timeline)`. -/
noncomputable def fullHestonCall (addaxis : Bool) (vshape : List ℕ) (paths : ℕ) (P : HestonParams)
    (x0 y0 : Arr ℝ) (dw : Src ℝ (List ℕ) σ) (fuel : ℕ) (steps : Steps ℝ) (i0 : ℤ) (tl : TArr ℝ)
    (s : σ) : Py (List (Option (Arr ℝ × Arr ℝ)) × σ) :=
  match (fullHestonSDE addaxis vshape paths P x0 y0 dw).call fuel steps i0 tl s with
  | .error e => .error e
  | .ok (xx, s) =>
    match mapPy (fullHestonResult ⟨2, addaxis, vshape, paths⟩) xx with
    | .error e => .error e
    | .ok r => .ok (r, s)

/-- `heston_SDE.let` (`integration.py` 2533-2537): the part of the working array that is stored.
Indexing cannot fail on a working array (see `C17_heston_component`). -/
def hestonLet (L : Layout) (x : List ℕ → ℝ) : List ℕ → ℝ :=
  match (if L.addaxis then Arr.index2 ⟨L.wshape ++ [L.paths], x⟩ 0
    else Arr.slice2 ⟨L.wshape ++ [L.paths], x⟩ 0 (L.vshape.getLastD 0)) with
  | .error _ => fun _ => 0
  | .ok a => a.get

/-- `heston_SDE` (`integration.py` 2517-2541), without `result`. -/
noncomputable def hestonSDE (addaxis : Bool) (vshape : List ℕ) (paths : ℕ) (P : HestonParams)
    (x0 y0 : Arr ℝ) (dw : Src ℝ (List ℕ) σ) : SDE ℝ (List ℕ → ℝ) (List ℕ → ℝ) ℕ σ :=
  { fullHestonSDE addaxis vshape paths P x0 y0 dw with
    letX := fun _ => hestonLet ⟨2, addaxis, vshape, paths⟩ }

/-- `heston_process(...)(timeline)`, with `heston_SDE.result` (`integration.py` 2539-2541). -/
noncomputable def hestonCall (addaxis : Bool) (vshape : List ℕ) (paths : ℕ) (P : HestonParams)
    (x0 y0 : Arr ℝ) (dw : Src ℝ (List ℕ) σ) (fuel : ℕ) (steps : Steps ℝ) (i0 : ℤ) (tl : TArr ℝ)
    (s : σ) : Py (List (Option (Arr ℝ)) × σ) :=
  match (hestonSDE addaxis vshape paths P x0 y0 dw).call fuel steps i0 tl s with
  | .error e => .error e
  | .ok (xx, s) => .ok (xx.map (Option.map fun x => Arr.canon ⟨vshape ++ [paths], npExp x⟩), s)

end Sdepy
