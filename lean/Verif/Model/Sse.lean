/-!
# The two builds of the SIMD helpers (cmult-sse2.h)

With `__SSE2__` a `Vec` is a register of 128 bits (lines 25-124), without it a pair of doubles (126-228); the rest of the file (230-297) is the same text for
both.  A double is its 64 bits.  The arithmetic of the machine is a parameter: nothing is assumed about rounding, except that both builds use the same operations
on doubles and that negation flips the sign bit (IEEE 754).
-/

namespace Fftwpp
namespace Sse

/-- The bits of a double. -/
abbrev Dbl := BitVec 64
/-- The bits of an `__m128d`. -/
abbrev M128 := BitVec (64 + 64)

/-- The machine's operations on doubles. -/
structure Fp where
  add : Dbl → Dbl → Dbl
  sub : Dbl → Dbl → Dbl
  mul : Dbl → Dbl → Dbl
  sqrt : Dbl → Dbl

/-- IEEE 754 negation. -/
def fneg (x : Dbl) : Dbl := x ^^^ 0x8000000000000000#64

/-- The helpers in which the builds differ. -/
structure Ops (V : Type) where
  neg : V → V
  add : V → V → V
  sub : V → V → V
  mul : V → V → V
  unpackl : V → V → V
  unpackh : V → V → V
  flip : V → V
  load2 : Dbl → V
  load1 : Dbl → V
  /-- `LOADFLIP(z)`, `z` pointing to the words `re`, `im`. -/
  loadflip : Dbl → Dbl → V
  conj : V → V
  zmulti : V → V
  sqrt : V → V
  /-- `LOAD(z)` (cmult-sse2.h:230-233, 240-243). -/
  load : Dbl → Dbl → V
  /-- The words written by `STORE(z,v)` (cmult-sse2.h:235-238, 245-248). -/
  store : V → Dbl × Dbl

/-! ## Intrinsics (Intel's documentation) -/

/-- The low double of a register. -/
def lo (v : M128) : Dbl := v.extractLsb' 0 64
/-- The high double. -/
def hi (v : M128) : Dbl := v.extractLsb' 64 64
/-- The register with low double `x` and high double `y`. -/
def mk (x y : Dbl) : M128 := (y ++ x : BitVec (64 + 64))
/-- `_mm_unpacklo_pd`. -/
def unpacklo_pd (a b : M128) : M128 := mk (lo a) (lo b)
/-- `_mm_unpackhi_pd`. -/
def unpackhi_pd (a b : M128) : M128 := mk (hi a) (hi b)
/-- `_mm_shuffle_pd(a,b,imm)`: bit 0 of `imm` selects from `a`, bit 1 from `b`. -/
def shuffle_pd (a b : M128) (imm : Nat) : M128 := mk (if imm % 2 = 1 then hi a else lo a) (if imm / 2 % 2 = 1 then hi b else lo b)
/-- `_mm_xor_pd`. -/
def xor_pd (a b : M128) : M128 := a ^^^ b
/-- `_mm_load1_pd`. -/
def load1_pd (x : Dbl) : M128 := mk x x
/-- `_mm_load_sd`. -/
def load_sd (x : Dbl) : M128 := mk x 0
/-- `_mm_loadr_pd` of the words `x`, `y`. -/
def loadr_pd (x y : Dbl) : M128 := mk y x
/-- The register holding the words `u[0..3]` (`union uvec`, cmult-sse2.h:31-34, little-endian). -/
def uvec (u0 u1 u2 u3 : BitVec 32) : M128 := mk (u1 ++ u0 : BitVec (32 + 32)) (u3 ++ u2 : BitVec (32 + 32))
/-- convolve.cc:15-17. -/
def sse2_pm : M128 := uvec 0x00000000 0x00000000 0x00000000 0x80000000
/-- convolve.cc:19-21. -/
def sse2_mm : M128 := uvec 0x00000000 0x80000000 0x00000000 0x80000000

/-- The SSE2 build (cmult-sse2.h:25-124).  `gnu`: the compiler's own vector operators are used (GCC's `-v` negates every lane) instead of lines 39-73. -/
def sse2 (F : Fp) (gnu : Bool) : Ops M128 where
  neg a := if gnu then mk (fneg (lo a)) (fneg (hi a)) else xor_pd sse2_mm a
  add a b := mk (F.add (lo a) (lo b)) (F.add (hi a) (hi b))
  sub a b := mk (F.sub (lo a) (lo b)) (F.sub (hi a) (hi b))
  mul a b := mk (F.mul (lo a) (lo b)) (F.mul (hi a) (hi b))
  unpackl := unpacklo_pd
  unpackh := unpackhi_pd
  flip z := shuffle_pd z z 1
  load2 := load1_pd
  load1 := load_sd
  loadflip := loadr_pd
  conj z := xor_pd sse2_pm z
  zmulti z := shuffle_pd (if gnu then mk (fneg (lo z)) (fneg (hi z)) else xor_pd sse2_mm z) z 1
  sqrt z := mk (F.sqrt (lo z)) (F.sqrt (hi z))
  load x y := mk x y
  store v := (lo v, hi v)

/-- The class `Vec` of the portable build (cmult-sse2.h:128-136). -/
structure Vec where
  x : Dbl
  y : Dbl

/-- The portable build (cmult-sse2.h:126-228). -/
def portable (F : Fp) : Ops Vec where
  neg a := ⟨fneg a.x, fneg a.y⟩
  add a b := ⟨F.add a.x b.x, F.add a.y b.y⟩
  sub a b := ⟨F.sub a.x b.x, F.sub a.y b.y⟩
  mul a b := ⟨F.mul a.x b.x, F.mul a.y b.y⟩
  unpackl z w := ⟨z.x, w.x⟩
  unpackh z w := ⟨z.y, w.y⟩
  flip z := ⟨z.y, z.x⟩
  load2 x := ⟨x, x⟩
  load1 x := ⟨x, 0⟩
  loadflip re im := ⟨im, re⟩
  conj z := ⟨z.x, fneg z.y⟩
  zmulti z := ⟨fneg z.y, z.x⟩
  sqrt z := ⟨F.sqrt z.x, F.sqrt z.y⟩
  load x y := ⟨x, y⟩
  store v := (v.x, v.y)

namespace Ops
variable {V : Type} (o : Ops V)

/-- `ZMULT(z,w)` (cmult-sse2.h:250-254). -/
def zmult (z w : V) : V := o.add (o.mul (o.unpackl z z) w) (o.mul (o.unpackh (o.neg z) z) (o.flip w))
/-- `ZCMULT(z,w)` (256-260). -/
def zcmult (z w : V) : V := o.add (o.mul (o.unpackl z z) w) (o.mul (o.unpackh z (o.neg z)) (o.flip w))
/-- `ZMULTI(z,w)` (262-266). -/
def zmulti2 (z w : V) : V := o.sub (o.mul (o.unpackl (o.neg z) z) (o.flip w)) (o.mul (o.unpackh z z) w)
/-- `ZCMULTI(z,w)` (268-272). -/
def zcmulti (z w : V) : V := o.add (o.mul (o.unpackl (o.neg z) z) (o.flip w)) (o.mul (o.unpackh z z) w)
/-- `ZMULT2(z,w,v)` (274-278). -/
def zmult2 (z w v : V) : V := o.sub (o.mul (o.unpackl z z) (o.add w v)) (o.mul (o.unpackh z (o.neg z)) (o.flip (o.sub w v)))
/-- `ZMULT(x,y,w)` (280-284). -/
def zmultxy (x y w : V) : V := o.sub (o.mul x w) (o.mul y (o.flip w))
/-- `ZMULT2(x,y,w,v)` (286-291). -/
def zmult2xy (x y w v : V) : V := o.sub (o.mul x (o.add w v)) (o.mul y (o.flip (o.sub w v)))
/-- `ZMULTI(x,y,w)` (293-297). -/
def zmultixy (x y w : V) : V := o.sub (o.flip (o.mul x w)) (o.mul y w)

end Ops
end Sse
end Fftwpp
