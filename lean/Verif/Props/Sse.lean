import Verif.Model.Sse

/-!
# C64: the SSE2 build and the portable build compute the same bits

Whatever the machine's rounding, for every helper of cmult-sse2.h and all bit patterns of the operands (NaNs, infinities and signed zeros included).
-/

namespace Fftwpp
namespace Sse

@[simp] theorem lo_mk (x y : Dbl) : lo (mk x y) = x := by
  unfold lo mk
  apply BitVec.eq_of_getLsbD_eq
  intro i hi
  rw [BitVec.getLsbD_extractLsb', BitVec.getLsbD_append, if_pos (by omega)]
  simp [hi]

@[simp] theorem hi_mk (x y : Dbl) : hi (mk x y) = y := by
  unfold hi mk
  apply BitVec.eq_of_getLsbD_eq
  intro i hi
  rw [BitVec.getLsbD_extractLsb', BitVec.getLsbD_append, if_neg (by omega)]
  simp [hi]

theorem mk_lo_hi (v : M128) : mk (lo v) (hi v) = v := by
  unfold mk lo hi
  apply BitVec.eq_of_getLsbD_eq
  intro i hi
  rw [BitVec.getLsbD_append, BitVec.getLsbD_extractLsb', BitVec.getLsbD_extractLsb']
  by_cases h : i < 64
  · simp [h]
  · have : i - 64 < 64 := by omega
    have e : 64 + (i - 64) = i := by omega
    simp [h, this, e]

theorem ext {v w : M128} (h1 : lo v = lo w) (h2 : hi v = hi w) : v = w := by rw [← mk_lo_hi v, h1, h2, mk_lo_hi]

theorem lo_xor (a b : M128) : lo (a ^^^ b) = lo a ^^^ lo b := by
  unfold lo
  apply BitVec.eq_of_getLsbD_eq
  intro i hi
  simp [hi]

theorem hi_xor (a b : M128) : hi (a ^^^ b) = hi a ^^^ hi b := by
  unfold hi
  apply BitVec.eq_of_getLsbD_eq
  intro i hi
  simp [hi]

theorem xor_mm (a : M128) : xor_pd sse2_mm a = mk (fneg (lo a)) (fneg (hi a)) := by
  apply ext
  · unfold xor_pd fneg
    rw [lo_xor, lo_mk, BitVec.xor_comm, show lo sse2_mm = 0x8000000000000000#64 by decide]
  · unfold xor_pd fneg
    rw [hi_xor, hi_mk, BitVec.xor_comm, show hi sse2_mm = 0x8000000000000000#64 by decide]

theorem xor_pm (a : M128) : xor_pd sse2_pm a = mk (lo a) (fneg (hi a)) := by
  apply ext
  · unfold xor_pd
    rw [lo_xor, lo_mk, show lo sse2_pm = 0#64 by decide, BitVec.zero_xor]
  · unfold xor_pd fneg
    rw [hi_xor, hi_mk, BitVec.xor_comm, show hi sse2_pm = 0x8000000000000000#64 by decide]

/-- The register that holds the same two doubles as a `Vec` of the portable build. -/
def reg (v : Vec) : M128 := mk v.x v.y

variable (F : Fp) (gnu : Bool)

/-- **C64**: the helpers in which the builds differ. -/
theorem C64_basic (a b : Vec) (x y : Dbl) :
    let s := sse2 F gnu
    let p := portable F
    s.neg (reg a) = reg (p.neg a) ∧ s.add (reg a) (reg b) = reg (p.add a b) ∧ s.sub (reg a) (reg b) = reg (p.sub a b) ∧ s.mul (reg a) (reg b) = reg (p.mul a b) ∧
    s.unpackl (reg a) (reg b) = reg (p.unpackl a b) ∧ s.unpackh (reg a) (reg b) = reg (p.unpackh a b) ∧ s.flip (reg a) = reg (p.flip a) ∧
    s.load2 x = reg (p.load2 x) ∧ s.load1 x = reg (p.load1 x) ∧ s.loadflip x y = reg (p.loadflip x y) ∧
    s.conj (reg a) = reg (p.conj a) ∧ s.zmulti (reg a) = reg (p.zmulti a) ∧ s.sqrt (reg a) = reg (p.sqrt a) ∧
    s.load x y = reg (p.load x y) ∧ s.store (reg a) = p.store a := by
  refine ⟨?_, ?_, ?_, ?_, ?_, ?_, ?_, ?_, ?_, ?_, ?_, ?_, ?_, ?_, ?_⟩ <;>
    simp [sse2, portable, reg, unpacklo_pd, unpackhi_pd, shuffle_pd, load1_pd, load_sd, loadr_pd, xor_mm, xor_pm]

/-- **C64**: the complex products. -/
theorem C64_products (z w v x y : Vec) :
    let s := sse2 F gnu
    let p := portable F
    s.zmult (reg z) (reg w) = reg (p.zmult z w) ∧ s.zcmult (reg z) (reg w) = reg (p.zcmult z w) ∧
    s.zmulti2 (reg z) (reg w) = reg (p.zmulti2 z w) ∧ s.zcmulti (reg z) (reg w) = reg (p.zcmulti z w) ∧
    s.zmult2 (reg z) (reg w) (reg v) = reg (p.zmult2 z w v) ∧ s.zmultxy (reg x) (reg y) (reg w) = reg (p.zmultxy x y w) ∧
    s.zmult2xy (reg x) (reg y) (reg w) (reg v) = reg (p.zmult2xy x y w v) ∧ s.zmultixy (reg x) (reg y) (reg w) = reg (p.zmultixy x y w) := by
  have h := fun a b => C64_basic F gnu a b 0 0
  simp only at h
  have neg := fun a => (h a a).1
  have add := fun a b => (h a b).2.1
  have sub := fun a b => (h a b).2.2.1
  have mul := fun a b => (h a b).2.2.2.1
  have ul := fun a b => (h a b).2.2.2.2.1
  have uh := fun a b => (h a b).2.2.2.2.2.1
  have fl := fun a => (h a a).2.2.2.2.2.2.1
  refine ⟨?_, ?_, ?_, ?_, ?_, ?_, ?_, ?_⟩ <;>
    simp only [Ops.zmult, Ops.zcmult, Ops.zmulti2, Ops.zcmulti, Ops.zmult2, Ops.zmultxy, Ops.zmult2xy, Ops.zmultixy, neg, add, sub, mul, ul, uh, fl]

/-- **C64**: every register is that of a `Vec`, and different `Vec`s have different registers: the correspondence loses nothing. -/
theorem C64_reg : (∀ v : M128, ∃ a : Vec, reg a = v) ∧ ∀ a b : Vec, reg a = reg b → a = b := by
  refine ⟨fun v => ⟨⟨lo v, hi v⟩, mk_lo_hi v⟩, ?_⟩
  rintro ⟨x, y⟩ ⟨x', y'⟩ h
  have h1 : lo (reg ⟨x, y⟩) = lo (reg ⟨x', y'⟩) := by rw [h]
  have h2 : hi (reg ⟨x, y⟩) = hi (reg ⟨x', y'⟩) := by rw [h]
  simp only [reg, lo_mk, hi_mk] at h1 h2
  rw [h1, h2]

/-- The helpers do something: `CONJ` of `(0,1.0)` is `(0,-1.0)`. -/
example : (portable F).conj ⟨0, 0x3ff0000000000000⟩ = ⟨0, 0xbff0000000000000⟩ := rfl

end Sse
end Fftwpp
