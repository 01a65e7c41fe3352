import Verif.Model.Vec
import Mathlib.Tactic.Ring

/-!
# C30: the SIMD helpers compute complex arithmetic
-/

namespace Fftwpp
open Complex ComplexConjugate

section
local macro "vec_tac" : tactic => `(tactic|
  (apply Complex.ext <;>
    simp [vmul, UNPACKL, UNPACKH, FLIP, CONJ, ZMULTI, ZMULT, ZCMULT, ZMULTI', ZCMULTI, ZMULT2, ZMULTxy,
      ZMULT2xy, ZMULTIxy] <;> ring))

/-- `CONJ` is complex conjugation. -/
theorem C30_conj (z : ℂ) : CONJ z = conj z := by vec_tac
/-- `ZMULTI(z)` is `i z`. -/
theorem C30_zmulti (z : ℂ) : ZMULTI z = I * z := by vec_tac
/-- `ZMULT(z,w)` is `z w`. -/
theorem C30_zmult (z v : ℂ) : ZMULT z v = z * v := by vec_tac
/-- `ZCMULT(z,w)` is `conj(z) w`. -/
theorem C30_zcmult (z v : ℂ) : ZCMULT z v = conj z * v := by vec_tac
/-- `ZMULTI(z,w)` is `i z w`. -/
theorem C30_zmulti2 (z v : ℂ) : ZMULTI' z v = z * (I * v) := by vec_tac
/-- `ZCMULTI(z,w)` is `i conj(z) w`. -/
theorem C30_zcmulti (z v : ℂ) : ZCMULTI z v = conj z * (I * v) := by vec_tac
/-- `ZMULT2(z,w,v)` is `z w + conj(z) v`. -/
theorem C30_zmult2 (z v u : ℂ) : ZMULT2 z v u = z * v + conj z * u := by vec_tac
/-- `ZMULT(x,y,w)` with `x=(re,re)`, `y=(im,-im)` is `z w`. -/
theorem C30_zmult_xy (z v : ℂ) : ZMULTxy (UNPACKL z z) (UNPACKH z (-z)) v = z * v := by vec_tac
/-- `ZMULT(x,y,w)` with `x=(re,re)`, `y=(-im,im)` is `conj(z) w`. -/
theorem C30_zmult_xy_conj (z v : ℂ) : ZMULTxy (UNPACKL z z) (UNPACKH (-z) z) v = conj z * v := by vec_tac
/-- `ZMULT2(x,y,w,v)` with `x=(re,re)`, `y=(im,-im)` is `z w + conj(z) v`. -/
theorem C30_zmult2_xy (z v u : ℂ) :
    ZMULT2xy (UNPACKL z z) (UNPACKH z (-z)) v u = z * v + conj z * u := by vec_tac
/-- `ZMULTI(x,y,w)` with `x=(re,-re)`, `y=(im,im)` is `z (i w)`. -/
theorem C30_zmulti_xy (z v : ℂ) :
    ZMULTIxy (UNPACKL z (-z)) (UNPACKH z z) v = z * (I * v) := by vec_tac
/-- The idiom `A=Zeta*UNPACKL(f,f); B=ZMULTI(Zeta*UNPACKH(f,f)); A+B` is `Zeta f`. -/
theorem C30_pair_add (z v : ℂ) : z ⊙ UNPACKL v v + ZMULTI (z ⊙ UNPACKH v v) = z * v := by vec_tac
/-- The idiom `CONJ(A-B)` is `conj(Zeta) f`. -/
theorem C30_pair_sub (z v : ℂ) : CONJ (z ⊙ UNPACKL v v - ZMULTI (z ⊙ UNPACKH v v)) = conj z * v := by
  vec_tac
/-- The two-term version of the idiom, `A+B`. -/
theorem C30_pair2_add (z v y u : ℂ) :
    (z ⊙ UNPACKL v v + y ⊙ UNPACKL u u) + ZMULTI (z ⊙ UNPACKH v v + y ⊙ UNPACKH u u) = z * v + y * u := by
  vec_tac
/-- The two-term version of the idiom, `CONJ(A-B)`. -/
theorem C30_pair2_sub (z v y u : ℂ) :
    CONJ ((z ⊙ UNPACKL v v + y ⊙ UNPACKL u u) - ZMULTI (z ⊙ UNPACKH v v + y ⊙ UNPACKH u u)) =
      conj z * v + conj y * u := by
  vec_tac
end

/-- Concrete instance (no hypotheses to satisfy). -/
example : ZMULT (1 + I) (2 * I) = -2 + 2 * I := by
  rw [C30_zmult]; apply Complex.ext <;> simp

end Fftwpp
