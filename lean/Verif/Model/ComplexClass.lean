import Mathlib.Analysis.SpecialFunctions.Complex.Circle
import Mathlib.Analysis.SpecialFunctions.Complex.Arg
import Mathlib.Analysis.SpecialFunctions.Sqrt
import Mathlib.Analysis.SpecialFunctions.Log.Basic

/-!
# The class `Complex` (Complex.h)

Doubles are exact real numbers.  The libm functions are the real functions of Mathlib; `atan2(y,x)` is the angle of the point `(x,y)`.

The compound assignments take their right-hand side by reference, so that the two sides may be the same object: they are modelled on a store of objects, every
read of a member taking place when the code makes it.
-/

namespace Fftwpp
namespace Cplx

/-- Complex.h:38-39: the members of an object. -/
structure Cx where
  re : ℝ
  im : ℝ

/-- The objects of a program, by location. -/
abbrev Store := ℕ → Cx

/-- Assignment to the member `re` of the object at `a`. -/
def Store.setRe (s : Store) (a : ℕ) (x : ℝ) : Store := Function.update s a { s a with re := x }
/-- Assignment to the member `im` of the object at `a`. -/
def Store.setIm (s : Store) (a : ℕ) (x : ℝ) : Store := Function.update s a { s a with im := x }

/-- Complex.h:68-72 `a = b`. -/
def assign (a b : ℕ) (s : Store) : Store :=
  let s := s.setRe a (s b).re
  s.setIm a (s b).im
/-- Complex.h:74-77 `a += b`. -/
def addAssign (a b : ℕ) (s : Store) : Store :=
  let s := s.setRe a ((s a).re + (s b).re)
  s.setIm a ((s a).im + (s b).im)
/-- Complex.h:79-82 `a += y`. -/
def addAssignR (a : ℕ) (y : ℝ) (s : Store) : Store := s.setRe a ((s a).re + y)
/-- Complex.h:84-87 `a -= b`. -/
def subAssign (a b : ℕ) (s : Store) : Store :=
  let s := s.setRe a ((s a).re - (s b).re)
  s.setIm a ((s a).im - (s b).im)
/-- Complex.h:89-92 `a -= y`. -/
def subAssignR (a : ℕ) (y : ℝ) (s : Store) : Store := s.setRe a ((s a).re - y)
/-- Complex.h:94-100 `a *= b`. -/
def mulAssign (a b : ℕ) (s : Store) : Store :=
  let r := (s a).re * (s b).re - (s a).im * (s b).im
  let s := s.setIm a ((s a).re * (s b).im + (s a).im * (s b).re)
  s.setRe a r
/-- Complex.h:102-105 `a *= y`. -/
def mulAssignR (a : ℕ) (y : ℝ) (s : Store) : Store :=
  let s := s.setRe a ((s a).re * y)
  s.setIm a ((s a).im * y)
/-- Complex.h:107-115 `a /= b`. -/
noncomputable def divAssign (a b : ℕ) (s : Store) : Store :=
  let t2 := 1 / ((s b).re * (s b).re + (s b).im * (s b).im)
  let t1 := t2 * (s b).re
  let t2 := t2 * (s b).im
  let t3 := (s a).re
  let s := s.setRe a ((s a).re * t1)
  let s := s.setRe a ((s a).re + (s a).im * t2)
  let s := s.setIm a ((s a).im * t1)
  s.setIm a ((s a).im - t3 * t2)
/-- Complex.h:117-122 `a /= y`. -/
noncomputable def divAssignR (a : ℕ) (y : ℝ) (s : Store) : Store :=
  let s := s.setRe a ((s a).re / y)
  s.setIm a ((s a).im / y)

/-- Complex.h:126-129 `x == y`. -/
def Eq' (x y : Cx) : Prop := x.re = y.re ∧ x.im = y.im
/-- Complex.h:131-134 `x == y`, `y` real. -/
def EqR (x : Cx) (y : ℝ) : Prop := x.im = 0 ∧ x.re = y
/-- Complex.h:136-139 `x != y`. -/
def Ne' (x y : Cx) : Prop := x.re ≠ y.re ∨ x.im ≠ y.im
/-- Complex.h:141-144 `x != y`, `y` real. -/
def NeR (x : Cx) (y : ℝ) : Prop := x.im ≠ 0 ∨ x.re ≠ y
/-- Complex.h:146-149 `-x`. -/
def neg (x : Cx) : Cx := ⟨-x.re, -x.im⟩
/-- Complex.h:151-154. -/
def conj (x : Cx) : Cx := ⟨x.re, -x.im⟩
/-- Complex.h:156-159. -/
def add (x y : Cx) : Cx := ⟨x.re + y.re, x.im + y.im⟩
/-- Complex.h:161-164 `x+y`, `y` real. -/
def addR (x : Cx) (y : ℝ) : Cx := ⟨x.re + y, x.im⟩
/-- Complex.h:166-169 `x+y`, `x` real. -/
def addL (x : ℝ) (y : Cx) : Cx := ⟨x + y.re, y.im⟩
/-- Complex.h:171-174. -/
def sub (x y : Cx) : Cx := ⟨x.re - y.re, x.im - y.im⟩
/-- Complex.h:176-179 `x-y`, `y` real. -/
def subR (x : Cx) (y : ℝ) : Cx := ⟨x.re - y, x.im⟩
/-- Complex.h:181-184 `x-y`, `x` real. -/
def subL (x : ℝ) (y : Cx) : Cx := ⟨x - y.re, -y.im⟩
/-- Complex.h:186-189. -/
def mul (x y : Cx) : Cx := ⟨x.re * y.re - x.im * y.im, x.re * y.im + x.im * y.re⟩
/-- Complex.h:191-194. -/
def multconj (x y : Cx) : Cx := ⟨x.re * y.re + x.im * y.im, x.im * y.re - x.re * y.im⟩
/-- Complex.h:196-199 `x*y`, `y` real. -/
def mulR (x : Cx) (y : ℝ) : Cx := ⟨x.re * y, x.im * y⟩
/-- Complex.h:201-204 `x*y`, `x` real. -/
def mulL (x : ℝ) (y : Cx) : Cx := ⟨x * y.re, x * y.im⟩
/-- Complex.h:206-212. -/
noncomputable def div (x y : Cx) : Cx :=
  let t2 := 1 / (y.re * y.re + y.im * y.im)
  let t1 := t2 * y.re
  let t2 := t2 * y.im
  ⟨x.im * t2 + x.re * t1, x.im * t1 - x.re * t2⟩
/-- Complex.h:214-217 `x/y`, `y` real. -/
noncomputable def divR (x : Cx) (y : ℝ) : Cx := ⟨x.re / y, x.im / y⟩
/-- Complex.h:219-224 `x/y`, `x` real. -/
noncomputable def divL (x : ℝ) (y : Cx) : Cx :=
  let factor := 1 / (y.re * y.re + y.im * y.im)
  ⟨x * y.re * factor, -x * y.im * factor⟩
/-- Complex.h:236-239. -/
def abs2 (x : Cx) : ℝ := x.re * x.re + x.im * x.im
/-- Complex.h:241-244. -/
noncomputable def abs (x : Cx) : ℝ := Real.sqrt (abs2 x)
/-- The libm function `atan2(y,x)`: the angle of the point `(x,y)` in `(-π,π]`. -/
noncomputable def atan2 (y x : ℝ) : ℝ := Complex.arg ⟨x, y⟩
open Classical in
/-- Complex.h:246-249. -/
noncomputable def arg (x : Cx) : ℝ := if x.im ≠ 0 then atan2 x.im x.re else 0
open Classical in
/-- Complex.h:252-264. -/
noncomputable def sqrt (x : Cx) : Cx :=
  let mag := abs x
  if mag = 0 then ⟨0, 0⟩
  else if x.re > 0 then
    let re := Real.sqrt (0.5 * (mag + x.re))
    ⟨re, 0.5 * x.im / re⟩
  else
    let im := Real.sqrt (0.5 * (mag - x.re))
    let im := if x.im < 0 then -im else im
    ⟨0.5 * x.im / im, im⟩
/-- Complex.h:266-269. -/
noncomputable def polar (r t : ℝ) : Cx := ⟨r * Real.cos t, r * Real.sin t⟩
/-- Complex.h:277-280 `realProduct(x,y)`. -/
def realProduct (x y : Cx) : ℝ := x.re * y.re + x.im * y.im
/-- Complex.h:290-295. -/
noncomputable def expi (phase : ℝ) : Cx := ⟨Real.cos phase, Real.sin phase⟩
/-- Complex.h:297-300. -/
noncomputable def exp (z : Cx) : Cx := mulL (Real.exp z.re) (expi z.im)
open Classical in
/-- Complex.h:302-311 `pow(z,w)`. -/
noncomputable def pow (z w : Cx) : Cx :=
  let u := w.re
  let v := w.im
  if EqR z 0 then (if EqR w 0 then ⟨1, 0⟩ else ⟨0, 0⟩)
  else
    let logr := 0.5 * Real.log (abs2 z)
    let th := arg z
    let phi := logr * v + th * u
    mulL (Real.exp (logr * u - th * v)) ⟨Real.cos phi, Real.sin phi⟩
open Classical in
/-- Complex.h:313-319 `pow(z,u)`, `u` real. -/
noncomputable def powR (z : Cx) (u : ℝ) : Cx :=
  if EqR z 0 then (if u = 0 then ⟨1, 0⟩ else ⟨0, 0⟩)
  else
    let logr := 0.5 * Real.log (abs2 z)
    let theta := u * arg z
    mulL (Real.exp (logr * u)) ⟨Real.cos theta, Real.sin theta⟩

end Cplx
end Fftwpp
