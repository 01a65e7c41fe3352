import Verif.Proof.NextFft

/-!
# C01–C04: integer utilities

`size_t` is a natural number reduced modulo `2^64`; `none` is non-termination.
-/

namespace Fftwpp.Utils

/-- **C01.** For `1 ≤ n ≤ 2^63`, `ceilpow2(n)` is the least power of two that is at least `n`. -/
theorem C01_ceilpow2 {n : ℕ} (h1 : 1 ≤ n) (h2 : n ≤ 2 ^ 63) : IsLeast {x | (∃ k : ℕ, x = 2 ^ k) ∧ n ≤ x} (ceilpow2 n) := by
  refine ⟨⟨⟨_, ceilpow2_pos h1 h2⟩, le_ceilpow2 h1 h2⟩, ?_⟩
  rintro x ⟨⟨j, rfl⟩, h⟩
  exact (ceilpow2_le_iff h1 h2).2 h

/-- **C01**, the remaining `size_t` values: the result wraps to 0. -/
theorem C01_ceilpow2_wraps {n : ℕ} (h : n = 0 ∨ 2 ^ 63 < n) (h2 : n < 2 ^ 64) : ceilpow2 n = 0 := by
  rw [ceilpow2_eq]
  have hx : (wrap (n + (2 ^ 64 - 1))).size = 64 := by
    have h1 : 2 ^ 63 ≤ wrap (n + (2 ^ 64 - 1)) := by unfold wrap; omega
    have h3 : wrap (n + (2 ^ 64 - 1)) < 2 ^ 64 := Nat.mod_lt _ (by norm_num)
    have := Nat.lt_size.2 h1
    have := Nat.size_le.2 h3
    omega
  rw [hx]
  rfl

/-- **C02**, `pow`: for every base and exponent `pow(x,y)` terminates with `x^y` modulo `2^64`. -/
theorem C02_pow (x y : ℕ) : pow x y = some (x ^ y % 2 ^ 64) := pow_eq x y

/-- **C02**, `ceilpow`: for every base `2 ≤ p < 2^64` and `n ≤ 2^32`, `ceilpow(p,n)` terminates with the least power of `p`
that is at least `n`. -/
theorem C02_ceilpow {p n : ℕ} (hp : 2 ≤ p) (hp64 : p < 2 ^ 64) (hn : n ≤ 2 ^ 32) :
    ∃ x, ceilpow p n = some x ∧ IsLeast {x | (∃ k : ℕ, x = p ^ k) ∧ n ≤ x} x := by
  obtain ⟨k, h1, h2, h3⟩ := ceilpow_ok hp hp64 hn
  refine ⟨p ^ k, h1, ⟨⟨k, rfl⟩, h2⟩, ?_⟩
  rintro x ⟨⟨j, rfl⟩, h⟩
  by_contra hc
  have : j < k := by
    by_contra hjk
    exact hc (Nat.pow_le_pow_right (by omega) (by omega))
  have := h3 j this
  omega

/-- The bound `2^32` in `C02_ceilpow` is needed: `ceilpow(2,2^32+1)` squares `x` to `2^64=0` and loops forever. -/
theorem C02_ceilpow_diverges : ceilpow 2 (2 ^ 32 + 1) = none := by
  have h0 : ∀ u l, ceilpowDouble (2 ^ 32 + 1) 0 u l = none := by
    intro u l
    by_contra hne
    obtain ⟨r, hr⟩ := Option.ne_none_iff_exists'.1 hne
    have := ceilpowDouble.partial_correctness (2 ^ 32 + 1) (fun x _ _ _ => x = 0 → False) (by
      intro f ih x u l r h hx
      subst hx
      rw [if_pos (by omega)] at h
      exact ih _ _ _ _ h rfl) 0 u l r hr rfl
    exact this
  have : ceilpowDouble (2 ^ 32 + 1) 2 1 0 = none := by
    rw [ceilpowDouble, if_pos (by norm_num), ceilpowDouble, if_pos (by norm_num [wrap]), ceilpowDouble, if_pos (by norm_num [wrap]),
      ceilpowDouble, if_pos (by norm_num [wrap]), ceilpowDouble, if_pos (by norm_num [wrap]), ceilpowDouble, if_pos (by norm_num [wrap])]
    exact h0 _ _
  unfold ceilpow
  rw [this]
  rfl

/-- **C03.** For `1 ≤ m ≤ 2^61`, `nextfftsize(m)` terminates with the least number of the form `2^a 3^b 5^c 7^d` that is at
least `m`. -/
theorem C03_nextfftsize {m : ℕ} (h1 : 1 ≤ m) (h2 : m ≤ 2 ^ 61) :
    ∃ N, nextfftsize m = some N ∧ IsLeast {x | (∃ a b c d : ℕ, x = 2 ^ a * 3 ^ b * 5 ^ c * 7 ^ d) ∧ m ≤ x} N := by
  have hc := le_ceilpow2 h1 (by omega : m ≤ 2 ^ 63)
  have hp := ceilpow2_pos h1 (by omega : m ≤ 2 ^ 63)
  unfold nextfftsize
  simp only
  by_cases h : m = ceilpow2 m
  · rw [if_pos h]
    refine ⟨m, rfl, ⟨⟨(m - 1).size, 0, 0, 0, ?_⟩, le_refl _⟩, fun x hx => hx.2⟩
    rw [hp] at h
    simpa using h
  · rw [if_neg h]
    have hg : Good m (ceilpow2 m) := ⟨⟨(m - 1).size, 0, 0, 0, by rw [hp]; simp⟩, hc,
      (ceilpow2_le_iff h1 (by omega)).2 h2⟩
    obtain ⟨N, g1, g2, _, g4⟩ := nextfft7_ok h1 h2 _ 1 (ceilpow2 m) (le_refl _) ⟨0, 0, 0, 0, by simp⟩ hg
    refine ⟨N, g1, ⟨g2.1, g2.2.1⟩, ?_⟩
    rintro x ⟨⟨a, b, c, d, rfl⟩, hx⟩
    have he : 2 ^ a * 3 ^ b * 5 ^ c * 7 ^ d = 2 ^ a * (1 * 7 ^ d * 5 ^ c * 3 ^ b) := by ring
    rw [he] at hx ⊢
    exact g4 a b c d hx

/-- **C04**, `ispow2`: for every `1 ≤ m < 2^64`. -/
theorem C04_ispow2 {m : ℕ} (h1 : 1 ≤ m) (h2 : m < 2 ^ 64) : ispow2 m = true ↔ ∃ k : ℕ, m = 2 ^ k := by
  unfold ispow2
  rw [wrap_dec h1 h2.le, decide_eq_true_iff]
  constructor
  · intro h
    have hs : 0 < m.size := Nat.size_pos.2 h1
    have hlo : 2 ^ (m.size - 1) ≤ m := Nat.lt_size.1 (by omega)
    have hhi : m < 2 ^ m.size := Nat.lt_size_self m
    refine ⟨m.size - 1, ?_⟩
    by_contra hne
    have hb : ∀ x, 2 ^ (m.size - 1) ≤ x → x < 2 ^ m.size → x.testBit (m.size - 1) = true := by
      intro x h1 h2
      obtain ⟨j, hj, hb⟩ := Nat.exists_ge_and_testBit_of_ge_two_pow h1
      have h3 := Nat.ge_two_pow_of_testBit hb
      have : j < m.size := by
        by_contra hc
        have : 2 ^ m.size ≤ 2 ^ j := Nat.pow_le_pow_right (by omega) (by omega)
        omega
      obtain rfl : j = m.size - 1 := by omega
      exact hb
    have hA := hb m hlo hhi
    have hB := hb (m - 1) (by omega) (by omega)
    have : (m &&& (m - 1)).testBit (m.size - 1) = true := by rw [Nat.testBit_and, hA, hB]; rfl
    rw [h] at this
    simp at this
  · rintro ⟨k, rfl⟩
    rw [Nat.and_two_pow_sub_one_eq_mod, Nat.mod_self]

/-- A power of 2, 3, 5 or 7. -/
def Pure (x : ℕ) : Prop := ∃ k : ℕ, x = 2 ^ k ∨ x = 3 ^ k ∨ x = 5 ^ k ∨ x = 7 ^ k

theorem ceilpow_self {p m : ℕ} (hp : 2 ≤ p) (hp64 : p < 2 ^ 64) (h2 : m ≤ 2 ^ 32) :
    ∃ x, ceilpow p m = some x ∧ (m = x ↔ ∃ k : ℕ, m = p ^ k) := by
  obtain ⟨x, hx, h⟩ := C02_ceilpow hp hp64 h2
  refine ⟨x, hx, ?_, ?_⟩
  · intro h'; rw [h']; exact h.1.1
  · intro hk
    exact le_antisymm h.1.2 (h.2 ⟨hk, le_refl _⟩)

/-- **C04**, `ispure`: for every `1 ≤ m ≤ 2^32` it terminates and is true iff `m` is a power of 2, 3, 5 or 7. -/
theorem C04_ispure {m : ℕ} (h1 : 1 ≤ m) (h2 : m ≤ 2 ^ 32) : ∃ b, ispure m = some b ∧ (b = true ↔ Pure m) := by
  obtain ⟨x3, e3, i3⟩ := ceilpow_self (p := 3) (by norm_num) (by norm_num) h2
  obtain ⟨x5, e5, i5⟩ := ceilpow_self (p := 5) (by norm_num) (by norm_num) h2
  obtain ⟨x7, e7, i7⟩ := ceilpow_self (p := 7) (by norm_num) (by norm_num) h2
  have i2 := C04_ispow2 h1 (by omega)
  unfold ispure Pure
  simp only [e3, e5, e7, Option.bind_eq_bind, Option.bind_some]
  by_cases c2 : ispow2 m = true
  · rw [if_pos c2]
    obtain ⟨k, hk⟩ := i2.1 c2
    exact ⟨true, rfl, iff_of_true rfl ⟨k, Or.inl hk⟩⟩
  by_cases c3 : m = x3
  · rw [if_neg c2, if_pos c3]
    obtain ⟨k, hk⟩ := i3.1 c3
    exact ⟨true, rfl, iff_of_true rfl ⟨k, Or.inr (Or.inl hk)⟩⟩
  by_cases c5 : m = x5
  · rw [if_neg c2, if_neg c3, if_pos c5]
    obtain ⟨k, hk⟩ := i5.1 c5
    exact ⟨true, rfl, iff_of_true rfl ⟨k, Or.inr (Or.inr (Or.inl hk))⟩⟩
  by_cases c7 : m = x7
  · rw [if_neg c2, if_neg c3, if_neg c5, if_pos c7]
    obtain ⟨k, hk⟩ := i7.1 c7
    exact ⟨true, rfl, iff_of_true rfl ⟨k, Or.inr (Or.inr (Or.inr hk))⟩⟩
  rw [if_neg c2, if_neg c3, if_neg c5, if_neg c7]
  refine ⟨false, rfl, iff_of_false (by simp) ?_⟩
  rintro ⟨k, h | h | h | h⟩
  · exact c2 (i2.2 ⟨k, h⟩)
  · exact c3 (i3.2 ⟨k, h⟩)
  · exact c5 (i5.2 ⟨k, h⟩)
  · exact c7 (i7.2 ⟨k, h⟩)

/-- **C04**, `nextpuresize`: for every `1 ≤ m ≤ 2^32` it terminates with the least power of 2, 3, 5 or 7 that is at least
`m`. -/
theorem C04_nextpuresize {m : ℕ} (h1 : 1 ≤ m) (h2 : m ≤ 2 ^ 32) :
    ∃ x, nextpuresize m = some x ∧ IsLeast {x | (∃ k : ℕ, x = 2 ^ k ∨ x = 3 ^ k ∨ x = 5 ^ k ∨ x = 7 ^ k) ∧ m ≤ x} x := by
  obtain ⟨x3, e3, ⟨⟨k3, p3⟩, l3⟩, m3⟩ := C02_ceilpow (p := 3) (by norm_num) (by norm_num) h2
  obtain ⟨x5, e5, ⟨⟨k5, p5⟩, l5⟩, m5⟩ := C02_ceilpow (p := 5) (by norm_num) (by norm_num) h2
  obtain ⟨x7, e7, ⟨⟨k7, p7⟩, l7⟩, m7⟩ := C02_ceilpow (p := 7) (by norm_num) (by norm_num) h2
  obtain ⟨⟨⟨k2, p2⟩, l2⟩, m2⟩ := C01_ceilpow2 h1 (by omega : m ≤ 2 ^ 63)
  unfold nextpuresize
  simp only [e3, e5, e7, Option.bind_eq_bind, Option.bind_some]
  generalize ceilpow2 m = x2 at p2 l2 m2 ⊢
  have q2 : Pure x2 := ⟨k2, Or.inl p2⟩
  have q3 : Pure x3 := ⟨k3, Or.inr (Or.inl p3)⟩
  have q5 : Pure x5 := ⟨k5, Or.inr (Or.inr (Or.inl p5))⟩
  have q7 : Pure x7 := ⟨k7, Or.inr (Or.inr (Or.inr p7))⟩
  have least : ∀ x, Pure x → m ≤ x → x2 ≤ x ∨ x3 ≤ x ∨ x5 ≤ x ∨ x7 ≤ x := by
    rintro x ⟨k, h | h | h | h⟩ hx
    · exact Or.inl (m2 ⟨⟨k, h⟩, hx⟩)
    · exact Or.inr (Or.inl (m3 ⟨⟨k, h⟩, hx⟩))
    · exact Or.inr (Or.inr (Or.inl (m5 ⟨⟨k, h⟩, hx⟩)))
    · exact Or.inr (Or.inr (Or.inr (m7 ⟨⟨k, h⟩, hx⟩)))
  have pmin : ∀ a b, Pure a → Pure b → Pure (min a b) := by
    intro a b ha hb
    rcases min_choice a b with h | h <;> rw [h] <;> assumption
  have stop : ∀ x, Pure x → m = x → IsLeast {x | Pure x ∧ m ≤ x} m := by
    intro x hx h
    subst h
    exact ⟨⟨hx, le_refl _⟩, fun y hy => hy.2⟩
  show ∃ x, _ ∧ IsLeast {x | Pure x ∧ m ≤ x} x
  by_cases c2 : m = x2
  · rw [if_pos c2]; exact ⟨m, rfl, stop _ q2 c2⟩
  by_cases c3 : m = min x2 x3
  · rw [if_neg c2, if_pos c3]; exact ⟨m, rfl, stop _ (pmin _ _ q2 q3) c3⟩
  by_cases c5 : m = min (min x2 x3) x5
  · rw [if_neg c2, if_neg c3, if_pos c5]; exact ⟨m, rfl, stop _ (pmin _ _ (pmin _ _ q2 q3) q5) c5⟩
  rw [if_neg c2, if_neg c3, if_neg c5]
  refine ⟨_, rfl, ⟨pmin _ _ (pmin _ _ (pmin _ _ q2 q3) q5) q7, ?_⟩, ?_⟩
  · exact le_min (le_min (le_min l2 l3) l5) l7
  · rintro x ⟨hx, hmx⟩
    rcases least x hx hmx with h | h | h | h <;> omega

-- the hypotheses only bound the argument; sample values
example : ceilpow2 37 = 64 := by decide
example : ispow2 64 = true ∧ ispow2 96 = false := by decide

end Fftwpp.Utils
