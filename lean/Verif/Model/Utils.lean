import Mathlib.Data.Nat.Bitwise
import Verif.Model.Params

/-!
# Integer utilities (utils.h, convolve.cc)

`size_t` is a natural number below `2^64`; every operation that can wrap around is reduced modulo `2^64`.  A `while`
loop is a recursion whose value is `none` when it does not terminate.
-/

namespace Fftwpp.Utils

/-- Reduction of a `size_t` result. -/
def wrap (x : ℕ) : ℕ := x % 2 ^ 64

/-- utils.h:197-207 `ceilpow2`. -/
def ceilpow2 (n : ℕ) : ℕ :=
  let n := wrap (n + (2 ^ 64 - 1))   -- --n
  let n := n ||| n >>> 1
  let n := n ||| n >>> 2
  let n := n ||| n >>> 4
  let n := n ||| n >>> 8
  let n := n ||| n >>> 16
  let n := n ||| n >>> 32
  wrap (n + 1)                       -- ++n

/-- The loop of `utils::pow` (utils.h:41-46). -/
def powLoop (r x y : ℕ) : Option ℕ :=
  let r := if y &&& 1 ≠ 0 then wrap (r * x) else r
  let y := y >>> 1
  if y = 0 then some r else powLoop r (wrap (x * x)) y
partial_fixpoint

/-- utils.h:35-47 `utils::pow(size_t x, size_t y)`. -/
def pow (x y : ℕ) : Option ℕ := if y = 0 then some 1 else if x = 0 then some 0 else powLoop 1 x y

/-- First loop of `ceilpow` (utils.h:212-219): returns `(x,u,l)`. -/
def ceilpowDouble (n x u l : ℕ) : Option (ℕ × ℕ × ℕ) :=
  if x < n then ceilpowDouble n (wrap (x * x)) (wrap (u * 2)) u else some (x, u, l)
partial_fixpoint

/-- Second loop of `ceilpow` (utils.h:222-228), binary search: returns `u`. -/
def ceilpowSearch (p n l u : ℕ) : Option ℕ :=
  if l < u then do
    let i := wrap (l + u) >>> 1
    let v ← pow p i
    if v < n then ceilpowSearch p n (wrap (i + 1)) u else ceilpowSearch p n l i
  else some u
partial_fixpoint

/-- utils.h:210-230 `ceilpow`. -/
def ceilpow (p n : ℕ) : Option ℕ := do
  let (x, u, l) ← ceilpowDouble n p 1 0
  if n = x then return n
  let u ← ceilpowSearch p n l u
  pow p u

/-- Innermost loop of `nextfftsize` (convolve.cc:118-119): returns the new `N`. -/
def nextfft3 (m nk N : ℕ) : Option ℕ :=
  if nk < N then nextfft3 m (wrap (nk * 3)) (min N (wrap (nk * ceilpow2 (ceilquotient m nk)))) else some N
partial_fixpoint

/-- Middle loop of `nextfftsize` (convolve.cc:117). -/
def nextfft5 (m nj N : ℕ) : Option ℕ :=
  if nj < N then do
    let N ← nextfft3 m nj N
    nextfft5 m (wrap (nj * 5)) N
  else some N
partial_fixpoint

/-- Outer loop of `nextfftsize` (convolve.cc:116). -/
def nextfft7 (m ni N : ℕ) : Option ℕ :=
  if ni < N then do
    let N ← nextfft5 m ni N
    nextfft7 m (wrap (ni * 7)) N
  else some N
partial_fixpoint

/-- convolve.cc:111-121 `nextfftsize`. -/
def nextfftsize (m : ℕ) : Option ℕ :=
  let N := ceilpow2 m
  if m = N then some m else nextfft7 m 1 N

/-- convolve.cc:156-158 `ispow2` (the `m-1` wraps for `m=0`). -/
def ispow2 (m : ℕ) : Bool := m &&& wrap (m + (2 ^ 64 - 1)) = 0

/-- convolve.cc:161-172 `ispure`. -/
def ispure (m : ℕ) : Option Bool := do
  if ispow2 m then return true
  if m = (← ceilpow 3 m) then return true
  if m = (← ceilpow 5 m) then return true
  if m = (← ceilpow 7 m) then return true
  return false

/-- convolve.cc:141-153 `nextpuresize`. -/
def nextpuresize (m : ℕ) : Option ℕ := do
  let M := ceilpow2 m
  if m = M then return m
  let M := min M (← ceilpow 3 m)
  if m = M then return m
  let M := min M (← ceilpow 5 m)
  if m = M then return m
  return min M (← ceilpow 7 m)

end Fftwpp.Utils
