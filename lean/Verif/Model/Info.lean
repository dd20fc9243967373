import Verif.Model.Heston
import Mathlib.Algebra.BigOperators.Group.Finset.Basic
import Mathlib.Data.Fintype.Basic

/-!
# Model of the `info_*` methods (`/repo/sdepy/integration.py`)

An integration with `getinfo=True`: the state also holds `itervars['i']` (the position of the next
output, `integration.py` 433, 473) and the items of `info` set by the methods of a subclass.
-/

namespace Sdepy

/-- The `info_begin`, `info_next`, `info_end` methods of a subclass. `info_next` is given
`itervars['i']`, `itervars['last_x']` and the state of the sources after the step. -/
structure InfoHooks (X σ I : Type) where
  ibegin : Bool → I → I
  inext : Bool → ℕ → X → σ → I → I
  iend : Bool → I → I

/-- State of an integration: that of the sources, `itervars['reverse']`, `itervars['i']`, `info`. -/
structure InfoState (σ I : Type) where
  s : σ
  rev : Bool
  i : ℕ
  info : I

section
variable {T X O Id σ I : Type} [Field T] [LinearOrder T] [CommRing X] [LinearOrder Id]

/-- As `SDE.toPGen`, with `getinfo=True` (`integration.py` 1166-1191, and 396-397, 433, 473 for
`itervars`). -/
def SDE.toPGenInfo (S : SDE T X O Id σ) (H : InfoHooks X σ I) : PGen T X O (InfoState σ I) where
  depth := 2
  begin rev sw st :=
    match sw with
    | [t0] =>
      match S.beginX t0 with
      | .error e => .error e
      | .ok x => .ok (fun _ => x, ⟨st.s, rev, 0, H.ibegin rev st.info⟩)
    | _ => .error .indexError
  next _ win target st :=
    match win with
    | [(s0, x)] =>
      match S.eulerNext s0 x target st.s with
      | .error e => .error e
      | .ok (x', s) => .ok ((target, x'), ⟨s, st.rev, st.i, H.inext st.rev st.i x s st.info⟩)
    | _ => .error .indexError
  store _ t x st := .ok (S.letX t x, { st with i := st.i + 1 })
  fin st := .ok { st with info := H.iend st.rev st.info }

/-- `p(timeline)`, followed by reading `p.info`: values, state of the sources, and items of
`info`. -/
def SDE.callInfo (S : SDE T X O Id σ) (H : InfoHooks X σ I) (fuel : ℕ) (steps : Steps T) (i0 : ℤ)
    (tl : TArr T) (s : σ) (j : I) : Py (List (Option O) × σ × I) :=
  match callPG (S.toPGenInfo H) fuel steps i0 tl ⟨s, false, 0, j⟩ with
  | .error e => .error e
  | .ok r => .ok (S.exitX r.xx, r.s.s, r.s.info)

end

/-- `full_heston_SDE.info_begin`, `info_next` (`integration.py` 2421-2423, 2435-2439):
`info['negative_y_count']`. -/
noncomputable def hestonHooks {σ : Type} (L : Layout) :
    InfoHooks (List ℕ → ℝ) σ (Arr ℕ) where
  ibegin _ _ := ⟨L.vshape ++ [L.paths], fun _ => 0⟩
  inext _ _ x _ c :=
    match L.unpack ⟨L.wshape ++ [L.paths], x⟩ with
    | .ok [_, y] => ⟨c.shape, fun i => c.get i + if y.get i < 0 then 1 else 0⟩
    | _ => c
  iend _ c := c

/-- `info['jump_rate']` and `info['jump_count']`. -/
structure JumpInfo (ι : Type) where
  rate : List ℝ
  count : ι → ℤ

/-- `jumpdiff_SDE.info_begin`, `info_next`, `info_end` (`integration.py` 2588-2592, 2610-2623).
`tt` is `itervars['tt']` in each direction; `dn` is the `dn_value` attribute of the `dj` source, if
any, in a given state; `ι` are the cells of an array of shape `vshape + (paths,)`. -/
noncomputable def jumpHooks {ι σ : Type} [Fintype ι] (paths : ℕ) (tt : Bool → List ℝ)
    (dn : σ → Option (ι → ℤ)) : InfoHooks (ι → ℝ) σ (JumpInfo ι) where
  ibegin rev _ := ⟨List.replicate (tt rev).length 0, fun _ => 0⟩
  inext rev i _ s j :=
    match dn s with
    | none => j
    | some v =>
      ⟨j.rate.modify (i - 1) fun r =>
        r + ((Finset.univ.sum fun c => v c : ℤ) : ℝ) /
          ((tt rev).getD i 0 - (tt rev).getD (i - 1) 0) / paths,
        fun c => j.count c + v c⟩
  iend rev j :=
    if 1 < (tt rev).length then
      ⟨j.rate.set (j.rate.length - 1) (j.rate.getD (j.rate.length - 2) 0), j.count⟩
    else j

end Sdepy
