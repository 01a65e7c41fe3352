import Mathlib.Analysis.SpecialFunctions.Complex.Circle

/-!
# The SIMD helper operations (cmult-sse2.h)

A `Vec` is a pair of doubles; we use the carrier of `ℂ` (`re` is the low word, `im` the high word), so that `LOAD`/`STORE`
of a `Complex *` (cmult-sse2.h:222-240) are the identity.  `Vec` multiplication is componentwise.
The definitions follow the portable branch (cmult-sse2.h:127-221); the SSE2 branch (lines 24-125) computes the same
bits (C64, `Model/Sse.lean`).
-/

namespace Fftwpp

/-- `Vec operator*` (cmult-sse2.h:55-58, 180-183): componentwise product. -/
def vmul (a b : ℂ) : ℂ := ⟨a.re * b.re, a.im * b.im⟩
@[inherit_doc] infixl:70 " ⊙ " => vmul

/-- cmult-sse2.h:76-79, 185-188: `(z.x,w.x)`. -/
def UNPACKL (z w : ℂ) : ℂ := ⟨z.re, w.re⟩
/-- cmult-sse2.h:82-85, 190-193: `(z.y,w.y)`. -/
def UNPACKH (z w : ℂ) : ℂ := ⟨z.im, w.im⟩
/-- cmult-sse2.h:88-91, 195-198: `(z.y,z.x)`. -/
def FLIP (z : ℂ) : ℂ := ⟨z.im, z.re⟩
/-- cmult-sse2.h:109-112, 200-203: `(z.x,-z.y)`. -/
def CONJ (z : ℂ) : ℂ := ⟨z.re, -z.im⟩
/-- cmult-sse2.h:115-118, 225-228: `(-z.y,z.x)`. -/
def ZMULTI (z : ℂ) : ℂ := ⟨-z.im, z.re⟩
/-- cmult-sse2.h:93-96, 210-213: `LOAD2(x)=(x,x)`. -/
def LOAD2 (x : ℝ) : ℂ := ⟨x, x⟩

/-- cmult-sse2.h, `ZMULT(z,w)`. -/
def ZMULT (z w : ℂ) : ℂ := UNPACKL z z ⊙ w + UNPACKH (-z) z ⊙ FLIP w
/-- cmult-sse2.h, `ZCMULT(z,w)`. -/
def ZCMULT (z w : ℂ) : ℂ := UNPACKL z z ⊙ w + UNPACKH z (-z) ⊙ FLIP w
/-- cmult-sse2.h, `ZMULTI(z,w)`. -/
def ZMULTI' (z w : ℂ) : ℂ := UNPACKL (-z) z ⊙ FLIP w - UNPACKH z z ⊙ w
/-- cmult-sse2.h, `ZCMULTI(z,w)`. -/
def ZCMULTI (z w : ℂ) : ℂ := UNPACKL (-z) z ⊙ FLIP w + UNPACKH z z ⊙ w
/-- cmult-sse2.h, `ZMULT2(z,w,v)`. -/
def ZMULT2 (z w v : ℂ) : ℂ := UNPACKL z z ⊙ (w + v) - UNPACKH z (-z) ⊙ FLIP (w - v)
/-- cmult-sse2.h, `ZMULT(x,y,w)`. -/
def ZMULTxy (x y w : ℂ) : ℂ := x ⊙ w - y ⊙ FLIP w
/-- cmult-sse2.h, `ZMULT2(x,y,w,v)`. -/
def ZMULT2xy (x y w v : ℂ) : ℂ := x ⊙ (w + v) - y ⊙ FLIP (w - v)
/-- cmult-sse2.h, `ZMULTI(x,y,w)`. -/
def ZMULTIxy (x y w : ℂ) : ℂ := FLIP (x ⊙ w) - y ⊙ w

end Fftwpp
