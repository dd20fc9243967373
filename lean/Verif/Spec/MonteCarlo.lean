import Verif.Model.MonteCarlo

/-!
# What `montecarlo` should compute: statistics of lists of values
-/

namespace Sdepy.Spec

section stat
variable {K : Type} [Field K]

/-- Mean of a list. -/
def avg (l : List K) : K := l.sum / l.length

/-- Central moment of order `k`, about the mean. -/
def cmom (k : ℕ) (l : List K) : K := avg (l.map fun x => (x - avg l) ^ k)

/-- Bin `j` of a histogram with the given edges contains the value `v`: all bins but the last one do
not contain their upper edge. -/
def inBin [LinearOrder K] (edges : List K) (j : ℕ) (v : K) : Bool :=
  match edges[j]?, edges[j + 1]? with
  | some a, some b => a ≤ v ∧ (v < b ∨ v = b ∧ j + 2 = edges.length)
  | _, _ => false

/-- Histogram of a list of values: for each bin, the number of values in it. -/
def hist [LinearOrder K] (edges : List K) (l : List K) : List ℤ :=
  (List.range (edges.length - 1)).map fun j => (l.countP (inBin edges j) : ℕ)

/-- The data passed to `update`. -/
structure Batch (K : Type) where
  x : Arr K
  axis : ℤ

/-- The axis that enumerates data points. -/
def Batch.ax (b : Batch K) : ℕ := (if 0 ≤ b.axis then b.axis else b.axis + b.x.shape.length).toNat

/-- Shape of data points. -/
def Batch.vshape (b : Batch K) : List ℕ := b.x.shape.eraseIdx b.ax

/-- Values of a component across data points; a number is a single data point. -/
def Batch.raw (b : Batch K) (c : List ℕ) : List K :=
  if b.x.shape = [] then [b.x.get []]
  else (List.range (b.x.shape.getD b.ax 0)).map fun k => b.x.get (c.insertIdx b.ax k)

/-- Half sums, or half differences, of the values in the first half of a list with those in the
second half. -/
def halves (f : K → K → K) (l : List K) : List K :=
  List.zipWith (fun a b => f a b / 2) (l.take (l.length / 2)) (l.drop (l.length / 2))

/-- Values of a component that enter in statistics. -/
def Batch.data (use : String) (b : Batch K) (c : List ℕ) : List K :=
  if use = "even" then halves (· + ·) (b.raw c)
  else if use = "odd" then halves (· - ·) (b.raw c)
  else b.raw c

/-- Number of data points. -/
def Batch.rawSize (b : Batch K) : ℕ := if b.x.shape = [] then 1 else b.x.shape.getD b.ax 0

/-- Number of values, for each component, that enter in statistics. -/
def Batch.size (use : String) (b : Batch K) : ℕ := if use = "all" then b.rawSize else b.rawSize / 2

/-- Samples that `update` should accept: the axis exists, and with antithetics the number of data points
is even. -/
def Batch.Valid (use : String) (b : Batch K) : Prop :=
  -(max 1 b.x.shape.length : ℤ) ≤ b.axis ∧ b.axis < max 1 b.x.shape.length ∧
    (use = "all" ∨ (use = "even" ∨ use = "odd") ∧ b.rawSize % 2 = 0)

/-- All values of a component, from several samples. -/
def pooled (use : String) (l : List (Batch K)) (c : List ℕ) : List K := l.flatMap fun b => b.data use c

/-- Range of values to be covered by bins: the one given if any, or else from the least to the greatest
of the data `x`, or from 0 to 1 if there is none. -/
def RangeIs [LinearOrder K] (range : Option (K × K)) (x : List K) (lo hi : K) : Prop :=
  match range with
  | some r => r = (lo, hi)
  | none => (x = [] ∧ lo = 0 ∧ hi = 1) ∨
    (lo ∈ x ∧ hi ∈ x ∧ ∀ a ∈ x, lo ≤ a ∧ a ≤ hi)

/-- The edges `e` of `n` bins of equal width, that cover the range of values; bins cover an interval of
width 1 if the range is a single value. -/
def EvenEdges [LinearOrder K] (n : ℤ) (range : Option (K × K)) (x e : List K) : Prop :=
  1 ≤ n ∧ ∃ lo hi, RangeIs range x lo hi ∧ lo ≤ hi ∧ (e.length : ℤ) = n + 1 ∧
    ∀ (k : ℕ) a, e[k]? = some a →
      a = if lo = hi then lo - 1 / 2 + k / n else lo + k * (hi - lo) / n

/-- The edges `e` are those that the parameter `bins` prescribes for component `c`, the data of which
in the first sample are `x`. -/
def FirstEdges [LinearOrder K] (auto : String → Option (K × K) → List K → Py (List K)) (bins : Bins K)
    (range : Option (K × K)) (x : List K) (c : List ℕ) (e : List K) : Prop :=
  match bins with
  | .none => False
  | .int n => EvenEdges n range x e
  | .str s => auto s range x = .ok e
  | .array a => e = (List.range (a.shape.getLastD 0)).map fun k => a.get (c ++ [k])
  | .objs a => a.get c = some e

end stat

/-- Sequences of successful updates of a new instance, in order. -/
inductive McHistory {K : Type} [Field K] [LinearOrder K]
    (auto : String → Option (K × K) → List K → Py (List K)) (bins : Bins K) (range : Option (K × K))
    (use : String) : List (Batch K) → MC K → Prop
  | new : McHistory auto bins range use [] (MC.new bins range use)
  | update {l mc b mc'} : McHistory auto bins range use l mc →
      mc.update auto b.x b.axis = (mc', .ok ()) → McHistory auto bins range use (l ++ [b]) mc'

/-- Samples of data points of the same shape. -/
def Uniform {K : Type} (vs : List ℕ) (l : List (Batch K)) : Prop := ∀ b ∈ l, b.vshape = vs

/-- Non empty samples. -/
def NonEmpty {K : Type} (use : String) (l : List (Batch K)) : Prop := ∀ b ∈ l, 0 < b.size use

/-- There is no data, or there is an empty sample after one that is not. -/
def hasNaN {K : Type} (use : String) (l : List (Batch K)) : Bool :=
  match l.dropWhile fun b => b.size use = 0 with
  | [] => true
  | _ :: l => l.any fun b => b.size use = 0

end Sdepy.Spec
