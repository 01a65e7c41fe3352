import Mathlib.Data.Real.Sqrt
import Mathlib.Data.List.Sort

/-!
# `utils::statistics` (statistics.h)

`double` is modelled by `ℝ` (exact arithmetic); `DBL_MAX` is a parameter.  A `std::priority_queue` is modelled by the
list of its elements in order of removal (its documented contract); `top`/`pop` of an empty queue is undefined behaviour
(`none`).
-/

namespace Fftwpp

/-- `std::priority_queue<double>` (largest first): statistics.h:31. -/
abbrev MaxQ := List ℝ
/-- `std::priority_queue<double,vector<double>,greater<double>>` (smallest first): statistics.h:33. -/
abbrev MinQ := List ℝ

/-- `s.push(t)`. -/
noncomputable def MaxQ.push (s : MaxQ) (t : ℝ) : MaxQ := s.orderedInsert (· ≥ ·) t
/-- `g.push(t)`. -/
noncomputable def MinQ.push (g : MinQ) (t : ℝ) : MinQ := g.orderedInsert (· ≤ ·) t

/-- Data members, statistics.h:20-33. -/
structure Stats where
  N : ℕ
  A : ℝ
  varL : ℝ
  varH : ℝ
  m : ℝ
  M : ℝ
  Median : ℝ
  computeMedian : Bool
  s : MaxQ
  g : MinQ

namespace Stats

/-- statistics.h:36-39: the constructor and `clear()` (`Median` keeps an indeterminate value `junk`). -/
noncomputable def init (DBL_MAX junk : ℝ) (computeMedian : Bool) : Stats :=
  { N := 0, A := 0, varL := 0, varH := 0, m := DBL_MAX, M := -DBL_MAX, Median := junk, computeMedian := computeMedian
    s := [], g := [] }

/-- statistics.h:39 `clear()`. -/
noncomputable def clear (DBL_MAX : ℝ) (o : Stats) : Stats := init DBL_MAX o.Median o.computeMedian

/-- statistics.h:59-96, the part of `add` under `if(computeMedian)`; `N` is the incremented count. -/
noncomputable def addMedian (o : Stats) (t : ℝ) : Option Stats :=
  if o.N = 1 then some { o with s := MaxQ.push o.s t, Median := t }
  else if o.g.length < o.s.length then
    if t < o.Median then
      match o.s with
      | [] => none
      | top :: rest =>
        let g := MinQ.push o.g top
        let s := MaxQ.push rest t
        match s, g with
        | a :: _, b :: _ => some { o with s := s, g := g, Median := 0.5 * (a + b) }
        | _, _ => none
    else
      let g := MinQ.push o.g t
      match o.s, g with
      | a :: _, b :: _ => some { o with g := g, Median := 0.5 * (a + b) }
      | _, _ => none
  else if o.s.length = o.g.length then
    if t < o.Median then
      let s := MaxQ.push o.s t
      match s with
      | a :: _ => some { o with s := s, Median := a }
      | [] => none
    else
      let g := MinQ.push o.g t
      match g with
      | a :: _ => some { o with g := g, Median := a }
      | [] => none
  else
    if o.Median < t then
      match o.g with
      | [] => none
      | top :: rest =>
        let s := MaxQ.push o.s top
        let g := MinQ.push rest t
        match s, g with
        | a :: _, b :: _ => some { o with s := s, g := g, Median := 0.5 * (a + b) }
        | _, _ => none
    else
      let s := MaxQ.push o.s t
      match s, o.g with
      | a :: _, b :: _ => some { o with s := s, Median := 0.5 * (a + b) }
      | _, _ => none

/-- statistics.h:45-97 `add(t)`. -/
noncomputable def add (o : Stats) (t : ℝ) : Option Stats :=
  let N := o.N + 1
  let diff := t - o.A
  let A := o.A + diff / N
  let v := diff * (t - A)
  let o' := { o with
    N := N, A := A
    varL := if diff < 0 then o.varL + v else o.varL
    varH := if diff < 0 then o.varH else o.varH + v
    m := if t < o.m then t else o.m
    M := if o.M < t then t else o.M }
  if o.computeMedian then o'.addMedian t else some o'

/-- A sequence of calls `add(t)`. -/
noncomputable def adds (o : Stats) : List ℝ → Option Stats
  | [] => some o
  | t :: l => match o.add t with
    | some o' => o'.adds l
    | none => none

/-- statistics.h:40 `count()`. -/
noncomputable def count (o : Stats) : ℝ := o.N
/-- statistics.h:41 `mean()`. -/
noncomputable def mean (o : Stats) : ℝ := o.A
/-- statistics.h:42 `max()`. -/
noncomputable def max (o : Stats) : ℝ := o.M
/-- statistics.h:43 `min()`. -/
noncomputable def min (o : Stats) : ℝ := o.m
/-- statistics.h:44 `sum()`. -/
noncomputable def sum (o : Stats) : ℝ := o.N * o.A
/-- statistics.h:115-121 `median()`: `none` is `exit(-1)`. -/
noncomputable def median (o : Stats) : Option ℝ := if o.computeMedian then some o.Median else none

/-- statistics.h:99-102 `stdev(var,f)`. -/
noncomputable def stdevOf (DBL_MAX : ℝ) (o : Stats) (var f : ℝ) : ℝ :=
  if (o.N : ℝ) ≤ f then DBL_MAX else Real.sqrt (var * f / (o.N - f))
/-- statistics.h:103-105 `stdev()`. -/
noncomputable def stdev (DBL_MAX : ℝ) (o : Stats) : ℝ := o.stdevOf DBL_MAX (o.varL + o.varH) 1

end Stats
end Fftwpp
