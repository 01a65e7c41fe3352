import Verif.Model.Align
import Mathlib.Data.Nat.Bitwise
import Mathlib.Tactic.NormNum

/-!
# C65: aligned allocation without `posix_memalign`
-/

namespace Fftwpp
namespace Align

theorem mask_bits {al : BitVec 64} {k : ℕ} (h : al.toNat = 2 ^ k) (x : BitVec 64) : (x &&& ~~~(al - 1)).toNat = x.toNat / 2 ^ k * 2 ^ k := by
  have h1 : (al - 1).toNat = 2 ^ k - 1 := by
    have p : 0 < 2 ^ k := Nat.two_pow_pos k
    have : al.toNat < 2 ^ 64 := al.isLt
    rw [BitVec.toNat_sub, show (1 : BitVec 64).toNat = 1 from rfl]
    omega
  have e : x &&& ~~~(al - 1) = (x >>> k) <<< k := by
    apply BitVec.eq_of_getLsbD_eq
    intro i hi
    have hb : (al - 1).getLsbD i = decide (i < k) := by
      rw [← BitVec.testBit_toNat, h1, Nat.testBit_two_pow_sub_one]
    rw [BitVec.getLsbD_and, BitVec.getLsbD_not, hb, BitVec.getLsbD_shiftLeft, BitVec.getLsbD_ushiftRight]
    by_cases hk : i < k
    · simp [hk]
    · have : k + (i - k) = i := by omega
      simp [hk, hi, this]
  rw [e, BitVec.toNat_shiftLeft, BitVec.toNat_ushiftRight, Nat.shiftLeft_eq, Nat.shiftRight_eq_div_pow]
  exact Nat.mod_eq_of_lt (lt_of_le_of_lt (Nat.div_mul_le_self _ _) x.isLt)

theorem pow_of_and {al : BitVec 64} (h0 : al ≠ 0) : (al &&& (al - 1)) = 0 ↔ ∃ k, al.toNat = 2 ^ k := by
  have hn : al.toNat ≠ 0 := fun e => h0 (BitVec.eq_of_toNat_eq (by simpa using e))
  have h1 : (al - 1).toNat = al.toNat - 1 := by
    have : al.toNat < 2 ^ 64 := al.isLt
    rw [BitVec.toNat_sub, show (1 : BitVec 64).toNat = 1 from rfl]
    omega
  have h2 : (al &&& (al - 1)) = 0 ↔ al.toNat &&& (al.toNat - 1) = 0 := by
    constructor
    · intro e
      have := congrArg BitVec.toNat e
      rw [BitVec.toNat_and, h1] at this
      simpa using this
    · intro e
      apply BitVec.eq_of_toNat_eq
      rw [BitVec.toNat_and, h1, e]
      rfl
  rw [h2, Nat.and_sub_one_eq_zero_iff_isPowerOfTwo hn]
  rfl

theorem mod8 (al : BitVec 64) : al % 8 = 0 ↔ 8 ∣ al.toNat := by
  constructor
  · intro e
    have := congrArg BitVec.toNat e
    rw [BitVec.toNat_umod] at this
    exact Nat.dvd_of_mod_eq_zero (by simpa using this)
  · intro e
    apply BitVec.eq_of_toNat_eq
    rw [BitVec.toNat_umod]
    simpa using Nat.mod_eq_zero_of_dvd e

/-- **C65**: for an alignment that is a multiple of 8 and a power of 2, and a `malloc` that returns a block of `size+alignment` bytes at a multiple of 8: the result is a
multiple of the alignment, the `size` bytes from it lie in the block, and so do the 8 bytes before it, the only ones written; and `free0` of the result, as long as
these 8 bytes are left alone, frees the block. -/
theorem C65_memalign {malloc : BitVec 64 → BitVec 64} {al size : BitVec 64} {k : ℕ} (hk : al.toNat = 2 ^ k) (h8 : 8 ∣ al.toNat)
    (hs : malloc (size + al) ≠ 0) (hp : 8 ∣ (malloc (size + al)).toNat) (hb : (malloc (size + al)).toNat + (size.toNat + al.toNat) < 2 ^ 64) (w : Words) :
    ∃ (p : BitVec 64) (w' : Words), posixMemalign0 malloc al size w = .ok p w' ∧
      al.toNat ∣ p.toNat ∧ (malloc (size + al)).toNat + 8 ≤ p.toNat ∧
      p.toNat + size.toNat ≤ (malloc (size + al)).toNat + (size + al).toNat ∧ (size + al).toNat = size.toNat + al.toNat ∧
      (∀ a : BitVec 64, (a.toNat + 8 ≤ p.toNat - 8 ∨ p.toNat ≤ a.toNat) → w' a = w a) ∧
      ∀ w'' : Words, (∀ a : BitVec 64, a.toNat + 8 = p.toNat → w'' a = w' a) → free0 p w'' = some (malloc (size + al)) := by
  have ha0 : al ≠ 0 := by
    rintro rfl
    have := Nat.two_pow_pos k
    rw [← hk] at this
    simp at this
  have hsum : (size + al).toNat = size.toNat + al.toNat := by
    rw [BitVec.toNat_add]
    exact Nat.mod_eq_of_lt (by omega)
  have c : ¬ (al % 8 ≠ 0 ∨ (al &&& (al - 1)) ≠ 0) := by
    rw [not_or, not_not, not_not]
    exact ⟨(mod8 al).2 h8, (pow_of_and ha0).2 ⟨k, hk⟩⟩
  unfold posixMemalign0
  rw [if_neg c]
  simp only [if_neg hs]
  generalize hP0 : malloc (size + al) = p0 at *
  have hx : (p0 + al).toNat = p0.toNat + al.toNat := by
    rw [BitVec.toNat_add]
    exact Nat.mod_eq_of_lt (by omega)
  have hm := mask_bits hk (p0 + al)
  rw [hx, hk, Nat.add_div_right _ (Nat.two_pow_pos k), Nat.succ_mul, ← hk] at hm
  generalize (p0 + al) &&& ~~~(al - 1) = p at *
  have hdiv : p0.toNat / al.toNat * al.toNat ≤ p0.toNat := Nat.div_mul_le_self _ _
  have hlt : p0.toNat < p0.toNat / al.toNat * al.toNat + al.toNat := by
    have := Nat.div_add_mod' p0.toNat al.toNat
    have := Nat.mod_lt p0.toNat (show 0 < al.toNat by rw [hk]; exact Nat.two_pow_pos k)
    omega
  have hal : al.toNat ∣ p.toNat := by
    rw [hm]
    exact (Nat.dvd_add_right ⟨_, Nat.mul_comm _ _⟩).2 (dvd_refl _)
  have h8p : 8 ∣ p.toNat := dvd_trans h8 hal
  have hge : p0.toNat + 8 ≤ p.toNat := by
    obtain ⟨u, hu⟩ := h8p
    obtain ⟨v, hv⟩ := hp
    omega
  have hq : (p - 8).toNat = p.toNat - 8 := by
    have : p.toNat < 2 ^ 64 := p.isLt
    rw [BitVec.toNat_sub, show (8 : BitVec 64).toNat = 8 from rfl]
    omega
  refine ⟨p, _, rfl, hal, hge, by omega, hsum, ?_, ?_⟩
  · intro a h
    rw [if_neg]
    rintro rfl
    rw [hq] at h
    omega
  · intro w'' h
    unfold free0
    rw [if_pos, h (p - 8) (by omega), if_pos rfl]
    rintro rfl
    simp at hge

/-- **C65**: other alignments (but 0) are rejected, a failure of `malloc` is reported, and `free0(NULL)` frees nothing. -/
theorem C65_errors (malloc : BitVec 64 → BitVec 64) (al size : BitVec 64) (w : Words) :
    (al ≠ 0 → (¬ (8 ∣ al.toNat ∧ ∃ k, al.toNat = 2 ^ k) ↔ posixMemalign0 malloc al size w = .einval)) ∧
    (8 ∣ al.toNat → (∃ k, al.toNat = 2 ^ k) → malloc (size + al) = 0 → posixMemalign0 malloc al size w = .enomem) ∧ free0 0 w = none := by
  refine ⟨fun h => ?_, fun h8 hk hm => ?_, by simp [free0]⟩
  · unfold posixMemalign0
    rw [← mod8, ← pow_of_and h]
    constructor
    · intro hc
      rw [if_pos]
      by_contra hn
      rw [not_or, not_not, not_not] at hn
      exact hc hn
    · intro he hc
      rw [if_neg (by rw [not_or, not_not, not_not]; exact hc)] at he
      simp only at he
      split at he <;> cases he
  · have h : al ≠ 0 := by
      rintro rfl
      obtain ⟨k, e⟩ := hk
      have := Nat.two_pow_pos k
      rw [← e] at this
      simp at this
    unfold posixMemalign0
    rw [if_neg (by rw [not_or, not_not, not_not]; exact ⟨(mod8 al).2 h8, (pow_of_and h).2 hk⟩)]
    simp only [if_pos hm]

/-- The alignment 0 is not rejected: the result is the null pointer, reported as a success, and a word below address 0 is written. -/
theorem C65_zero_refuted (malloc : BitVec 64 → BitVec 64) (size : BitVec 64) (w : Words) (h : malloc size ≠ 0) :
    ∃ w' : Words, posixMemalign0 malloc 0 size w = .ok 0 w' ∧ w' (-8) = malloc size := by
  refine ⟨fun a => if a = -8 then malloc size else w a, ?_, if_pos rfl⟩
  unfold posixMemalign0
  have e : (malloc (size + 0#64) + 0#64) &&& ~~~(0#64 - 1) = 0#64 := by
    rw [show ~~~(0#64 - 1) = 0#64 by decide, BitVec.and_zero]
  rw [if_neg (by decide)]
  simp only [BitVec.ofNat_eq_ofNat, BitVec.add_zero] at *
  rw [if_neg h, e]
  rfl

/-- A size close to 2^64 is not rejected either: `size+alignment` overflows, and a block of 0 bytes is requested. -/
theorem C65_overflow_refuted (malloc : BitVec 64 → BitVec 64) (w : Words) (h : malloc 0 ≠ 0) :
    ∃ (p : BitVec 64) (w' : Words), posixMemalign0 malloc 16 (-16) w = .ok p w' := by
  unfold posixMemalign0
  rw [if_neg (by decide)]
  simp only [show (-16 : BitVec 64) + 16 = 0 by decide, if_neg h]
  exact ⟨_, _, rfl⟩

/-- A `malloc` and an alignment that meet the hypotheses. -/
example : ∃ (malloc : BitVec 64 → BitVec 64) (al size : BitVec 64) (k : ℕ), al.toNat = 2 ^ k ∧ 8 ∣ al.toNat ∧ malloc (size + al) ≠ 0 ∧
    8 ∣ (malloc (size + al)).toNat ∧ (malloc (size + al)).toNat + (size.toNat + al.toNat) < 2 ^ 64 :=
  ⟨fun _ => 0x1008, 32, 1000, 5, by decide, by decide, by decide, by decide, by decide⟩

end Align
end Fftwpp
