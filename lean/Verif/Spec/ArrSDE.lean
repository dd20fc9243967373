import Verif.Model.ArrSDE
import Verif.Spec.SDE
import Verif.Spec.Levy

/-!
# What is expected of array valued equations: each cell has its own scalar equation
-/

namespace Sdepy.Spec

/-- Size of the `j`-th axis, counted from the last one; missing axes count as one. -/
def sizeFromLast (s : List ℕ) (j : ℕ) : ℕ := s.reverse.getD j 1

/-- Values of shape `s` can be given to cells of shape `S`: counting axes from the last one, each is of
the same size, or of size one. -/
def Fits (s S : List ℕ) : Prop := ∀ j, sizeFromLast s j = 1 ∨ sizeFromLast s j = sizeFromLast S j

/-- The item of an array of shape `s` given to cell `c`: axes are aligned from the last one, and those of
size one are repeated. -/
def cellIndex (s c : List ℕ) : List ℕ :=
  (List.range s.length).map fun p => if s.getD p 1 = 1 then 0 else c.getD (p + c.length - s.length) 0

/-- Value that an array gives to cell `c`. -/
def cellValue {K : Type} (a : Arr K) (c : List ℕ) : K := a.get (cellIndex a.shape c)

section
variable {N K Id σ : Type} [DecidableEq N]

/-- Value of an expression, given those of `x` and of the parameters. -/
def scalarExpr (x : K) (p : N → K) : UExpr N K → K
  | .x => x
  | .par n => p n
  | .num c => c
  | .un f e => f (scalarExpr x p e)
  | .bin f e e' => f (scalarExpr x p e) (scalarExpr x p e')

/-- Parameters an expression depends on. -/
def exprParams : UExpr N K → List N
  | .x => []
  | .par n => [n]
  | .num _ => []
  | .un _ e => exprParams e
  | .bin _ e e' => exprParams e ++ exprParams e'

/-- Values of parameters at time `t`: arrays are constant, callables are called, `None` has no value. -/
def paramsAt (t : K) (ps : List (N × Param K)) : Py (List (N × Option (Arr K))) :=
  ps.mapM fun q => do
    let v ← (match q.2 with
      | .none => pure none
      | .arr a => pure (some a)
      | .fn _ f => some <$> f t : Py (Option (Arr K)))
    pure (q.1, v)

variable [Zero K]

/-- Value of parameter `n` for cell `c`, the parameters being `env`. -/
def paramAt (env : List (N × Option (Arr K))) (n : N) (c : List ℕ) : K :=
  match env.lookup n with
  | some (some a) => cellValue a c
  | _ => 0

/-- The parameters the equation depends on are given, and fit. -/
def ParamsFit (S : ArrSDE N K Id σ) (t : K) : Prop :=
  ∀ env, paramsAt t S.params = .ok env → ∀ e ∈ S.eqs, ∀ n ∈ exprParams e.2,
    ∃ a, env.lookup n = some (some a) ∧ Fits a.shape (S.wshape ++ [S.paths])

/-- The realisations of the sources fit (as the source protocol requires). -/
def SourcesFit (S : ArrSDE N K Id σ) : Prop :=
  ∀ z ∈ S.sources, ∀ t dt s v s', z.2 t dt s = .ok (v, s') → Fits v.shape (S.wshape ++ [S.paths])

/-- Values on the cells of an array. -/
def cellsOf (shape : List ℕ) (a : Arr K) : Cells shape → K := fun c => cellValue a c.1

/-- The same equation, for each cell. -/
def cellwise (S : ArrSDE N K Id σ) {X : Type} (out : (Cells (S.wshape ++ [S.paths]) → K) → X)
    (expO : X → X) : SDE K (Cells (S.wshape ++ [S.paths]) → K) X Id σ where
  sources := S.sources.map fun z => (z.1, fun t dt s =>
    match z.2 t dt s with
    | .error e => .error e
    | .ok (v, s) => .ok (cellsOf _ v, s))
  sde t x :=
    match paramsAt t S.params with
    | .error e => .error e
    | .ok env => .ok (some (S.eqs.map fun e =>
        (e.1, fun c => scalarExpr (x c) (fun n => paramAt env n c.1) e.2)))
  init _ := .ok (cellsOf _ S.x0)
  letX _ x := out x
  log := S.log
  logX x := fun c => S.logK (x c)
  expO := expO

/-- Outcome of a call, with arrays replaced by the values of their cells. -/
def onCells (shape : List ℕ) (r : Py (List (Option (Arr K)) × σ)) :
    Py (List (Option (Cells shape → K)) × σ) :=
  r.map fun q => (q.1.map (Option.map (cellsOf shape)), q.2)

/-- A source, on cells. -/
def cellSource (shape : List ℕ) (z : K → K → σ → Py (Arr K × σ)) :
    K → K → σ → Py ((Cells shape → K) × σ) :=
  fun t dt s => (z t dt s).map fun q => (cellsOf shape q.1, q.2)

end

/-- The parameter is an array, or a callable that does not raise, with value `a t` at time `t`; its values
can be given to cells of shape `W`. -/
def Given {K : Type} (W : List ℕ) (p : Param K) (a : K → Arr K) : Prop :=
  ((∃ b, p = .arr b ∧ ∀ t, a t = b) ∨ ∃ sh f, p = .fn sh f ∧ ∀ t, f t = .ok (a t)) ∧
    ∀ t, Fits (a t).shape W

/-- Realisations of a source can be given to cells of shape `W`. -/
def Realises {K σ : Type} (W : List ℕ) (z : K → K → σ → Py (Arr K × σ)) : Prop :=
  ∀ t dt s v s', z t dt s = .ok (v, s') → Fits v.shape W

/-- Cell of the working values for factor `k`, and for cell `c` of the output: the axis of the factors
comes before the one of the paths. -/
def insertFactor (c : List ℕ) (k : ℕ) : List ℕ := c.dropLast ++ k :: c.drop (c.length - 1)

theorem insertFactor_inRange {vshape : List ℕ} {F p : ℕ} (c : Cells (vshape ++ [p])) (k : Fin F) :
    InRange (vshape ++ [F] ++ [p]) (insertFactor c.1 k) := by
  obtain ⟨c, hc⟩ := c
  have hl := hc.length_eq
  simp only [List.length_append, List.length_singleton] at hl
  have hne : c ≠ [] := by rintro rfl; simp at hl
  have h2 : c = c.dropLast ++ [c.getLast hne] := (List.dropLast_append_getLast hne).symm
  have h3 : c.dropLast.length = vshape.length := by simp [hl]
  have h4 : c.drop (c.length - 1) = [c.getLast hne] := List.drop_length_sub_one hne
  rw [h2, inRange_append h3] at hc
  unfold insertFactor
  rw [h4, List.append_assoc, inRange_append h3]
  exact ⟨hc.1, .cons k.2 hc.2⟩

/-- Sum over factors. -/
def sumFactors {K : Type} [AddCommMonoid K] {vshape : List ℕ} {F p : ℕ}
    (f : Cells (vshape ++ [F] ++ [p]) → K) :
    Cells (vshape ++ [p]) → K :=
  fun c => Finset.univ.sum fun k : Fin F => f ⟨insertFactor c.1 k, insertFactor_inRange c k⟩

end Sdepy.Spec
