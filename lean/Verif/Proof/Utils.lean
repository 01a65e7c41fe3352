import Mathlib.Data.Nat.Size
import Mathlib.Tactic.Ring
import Mathlib.Tactic.Linarith
import Verif.Model.Utils

/-! # Lemmas on the integer utilities -/

namespace Fftwpp.Utils

theorem wrap_of_lt {x : ℕ} (h : x < 2 ^ 64) : wrap x = x := Nat.mod_eq_of_lt h

theorem wrap_dec {n : ℕ} (h : 0 < n) (h2 : n ≤ 2 ^ 64) : wrap (n + (2 ^ 64 - 1)) = n - 1 := by unfold wrap; omega

theorem smear_step {x y d : ℕ} (h : ∀ i, y.testBit i = true ↔ ∃ t < d, x.testBit (i + t) = true) :
    ∀ i, (y ||| y >>> d).testBit i = true ↔ ∃ t < 2 * d, x.testBit (i + t) = true := by
  intro i
  rw [Nat.testBit_or, Nat.testBit_shiftRight, Bool.or_eq_true, h, h]
  constructor
  · rintro (⟨t, ht, hx⟩ | ⟨t, ht, hx⟩)
    · exact ⟨t, by omega, hx⟩
    · exact ⟨d + t, by omega, by rwa [show i + (d + t) = d + i + t by omega]⟩
  · rintro ⟨t, ht, hx⟩
    by_cases h1 : t < d
    · exact Or.inl ⟨t, h1, hx⟩
    · exact Or.inr ⟨t - d, by omega, by rwa [show d + i + (t - d) = i + t by omega]⟩

theorem smear {x y : ℕ} (hx : x < 2 ^ 64) (h : ∀ i, y.testBit i = true ↔ ∃ t < 64, x.testBit (i + t) = true) :
    y = 2 ^ x.size - 1 := by
  apply Nat.eq_of_testBit_eq
  intro i
  rw [Nat.testBit_two_pow_sub_one, Bool.eq_iff_iff, h, decide_eq_true_iff]
  constructor
  · rintro ⟨t, _, ht⟩
    have : i + t < x.size := Nat.lt_size.2 (Nat.ge_two_pow_of_testBit ht)
    omega
  · intro hi
    obtain ⟨j, hj, hb⟩ := Nat.exists_ge_and_testBit_of_ge_two_pow (Nat.lt_size.1 hi)
    have hj64 : j < 64 := by
      by_contra hc
      have h1 := Nat.ge_two_pow_of_testBit hb
      have h2 : 2 ^ 64 ≤ 2 ^ j := Nat.pow_le_pow_right (by omega) (by omega)
      omega
    exact ⟨j - i, by omega, by rwa [show i + (j - i) = j by omega]⟩

theorem ceilpow2_eq (n : ℕ) : ceilpow2 n = wrap (2 ^ (wrap (n + (2 ^ 64 - 1))).size) := by
  have hx : wrap (n + (2 ^ 64 - 1)) < 2 ^ 64 := Nat.mod_lt _ (by norm_num)
  unfold ceilpow2
  simp only
  generalize wrap (n + (2 ^ 64 - 1)) = x at hx ⊢
  have h1 : ∀ i, x.testBit i = true ↔ ∃ t < 1, x.testBit (i + t) = true := by
    intro i
    constructor
    · intro h; exact ⟨0, by omega, h⟩
    · rintro ⟨t, ht, h⟩
      obtain rfl : t = 0 := by omega
      exact h
  have h64 := smear_step (smear_step (smear_step (smear_step (smear_step (smear_step h1)))))
  rw [smear hx h64, Nat.sub_add_cancel Nat.one_le_two_pow]

theorem ceilpow2_pos {n : ℕ} (h1 : 0 < n) (h2 : n ≤ 2 ^ 63) : ceilpow2 n = 2 ^ (n - 1).size := by
  rw [ceilpow2_eq, wrap_dec h1 (by omega)]
  have : (n - 1).size ≤ 63 := Nat.size_le.2 (by omega)
  have : 2 ^ (n - 1).size ≤ 2 ^ 63 := Nat.pow_le_pow_right (by omega) this
  exact wrap_of_lt (by omega)

theorem ceilpow2_le_iff {n j : ℕ} (h1 : 0 < n) (h2 : n ≤ 2 ^ 63) : ceilpow2 n ≤ 2 ^ j ↔ n ≤ 2 ^ j := by
  rw [ceilpow2_pos h1 h2, Nat.pow_le_pow_iff_right (by omega), Nat.size_le]
  omega

theorem le_ceilpow2 {n : ℕ} (h1 : 0 < n) (h2 : n ≤ 2 ^ 63) : n ≤ ceilpow2 n := by
  have := Nat.lt_size_self (n - 1)
  rw [ceilpow2_pos h1 h2]
  omega

theorem ceilpow2_lt {n : ℕ} (h1 : 0 < n) (h2 : n ≤ 2 ^ 63) : ceilpow2 n < 2 * n := by
  by_contra hc
  rw [ceilpow2_pos h1 h2] at hc
  cases hk : (n - 1).size with
  | zero => rw [hk] at hc; omega
  | succ k =>
    rw [hk, Nat.pow_succ] at hc
    have : (n - 1).size ≤ k := Nat.size_le.2 (by omega)
    omega

theorem and_one (y : ℕ) : y &&& 1 ≠ 0 ↔ y % 2 = 1 := by rw [Nat.and_one_is_mod]; omega

theorem powLoop_eq : ∀ (y r x : ℕ), 0 < y → r < 2 ^ 64 → powLoop r x y = some (wrap (r * x ^ y)) := by
  intro y
  induction y using Nat.strong_induction_on with
  | _ y ih =>
    intro r x hy hr
    rw [powLoop]
    simp only [and_one, Nat.shiftRight_one]
    have hr' : (if y % 2 = 1 then wrap (r * x) else r) < 2 ^ 64 := by
      split_ifs
      · exact Nat.mod_lt _ (by norm_num)
      · exact hr
    by_cases h0 : y / 2 = 0
    · have : y = 1 := by omega
      subst this
      simp
    · rw [if_neg h0, ih (y / 2) (by omega) _ _ (by omega) hr']
      have key : ∀ z, (wrap (x * x)) ^ z ≡ x ^ (2 * z) [MOD 2 ^ 64] := by
        intro z
        rw [pow_mul, pow_two]
        exact (Nat.mod_modEq _ _).pow z
      congr 1
      show _ ≡ _ [MOD 2 ^ 64]
      split_ifs with h1
      · refine ((Nat.mod_modEq _ _).mul (key _)).trans ?_
        rw [Nat.mul_assoc, ← pow_succ', show 2 * (y / 2) + 1 = y by omega]
      · refine ((Nat.ModEq.refl r).mul (key _)).trans ?_
        rw [show 2 * (y / 2) = y by omega]

theorem pow_eq (x y : ℕ) : pow x y = some (wrap (x ^ y)) := by
  unfold pow
  by_cases h : y = 0
  · subst h; simp [wrap]
  · rw [if_neg h]
    by_cases hx : x = 0
    · subst hx
      simp [wrap, h]
    · rw [if_neg hx, powLoop_eq y 1 x (by omega) (by norm_num), Nat.one_mul]

/-- First loop of `ceilpow`. -/
theorem ceilpowDouble_ok {p n : ℕ} (hp : 2 ≤ p) (hn : n ≤ 2 ^ 32) (hp64 : p < 2 ^ 64) : ∀ (k u l : ℕ), n - p ^ u ≤ k → 0 < u →
    p ^ u < 2 ^ 64 → (∀ i < l, p ^ i < n) → l ≤ u →
    ∃ u' l', ceilpowDouble n (p ^ u) u l = some (p ^ u', u', l') ∧ n ≤ p ^ u' ∧ p ^ u' < 2 ^ 64 ∧ (∀ i < l', p ^ i < n) ∧ l' ≤ u' := by
  intro k
  induction k using Nat.strong_induction_on with
  | _ k ih =>
    intro u l hk hu hb hl hlu
    rw [ceilpowDouble]
    by_cases h : p ^ u < n
    · rw [if_pos h]
      have h1 : p ^ u * p ^ u = p ^ (u * 2) := by rw [← pow_add]; congr 1; omega
      have h2 : p ^ u * p ^ u < 2 ^ 64 := by
        have : p ^ u * p ^ u < 2 ^ 32 * 2 ^ 32 := Nat.mul_lt_mul_of_lt_of_le (by omega) (by omega) (by norm_num)
        norm_num at this ⊢; exact this
      have hul : u < p ^ u := Nat.lt_pow_self (by omega)
      rw [wrap_of_lt h2, wrap_of_lt (by omega), h1]
      have h3 : p ^ u < p ^ (u * 2) := Nat.pow_lt_pow_right (by omega) (by omega)
      refine ih (n - p ^ (u * 2)) (by omega) (u * 2) u (le_refl _) (by omega) (by rw [← h1]; exact h2) ?_ (by omega)
      intro i hi
      exact lt_of_le_of_lt (Nat.pow_le_pow_right (by omega) (by omega)) h
    · rw [if_neg h]
      exact ⟨u, l, rfl, by omega, hb, hl, hlu⟩

/-- Second loop of `ceilpow`. -/
theorem ceilpowSearch_ok {p n : ℕ} (hp : 2 ≤ p) : ∀ (k u l : ℕ), u - l ≤ k → l ≤ u → p ^ u < 2 ^ 64 → n ≤ p ^ u →
    (∀ i < l, p ^ i < n) →
    ∃ u', ceilpowSearch p n l u = some u' ∧ n ≤ p ^ u' ∧ p ^ u' < 2 ^ 64 ∧ ∀ i < u', p ^ i < n := by
  intro k
  induction k using Nat.strong_induction_on with
  | _ k ih =>
    intro u l hk hlu hb hn hl
    rw [ceilpowSearch]
    by_cases h : l < u
    · have hul : u < p ^ u := Nat.lt_pow_self (by omega)
      have hu64 : u < 64 := by
        by_contra hc
        have h1 : 2 ^ 64 ≤ 2 ^ u := Nat.pow_le_pow_right (by omega) (by omega)
        have h2 : 2 ^ u ≤ p ^ u := Nat.pow_le_pow_left hp u
        omega
      rw [if_pos h, wrap_of_lt (by omega : l + u < 2 ^ 64), Nat.shiftRight_one]
      have hiu : (l + u) / 2 < u := by omega
      have hli : l ≤ (l + u) / 2 := by omega
      generalize (l + u) / 2 = i at hiu hli
      have hpi : p ^ i < 2 ^ 64 := lt_of_le_of_lt (Nat.pow_le_pow_right (by omega) hiu.le) hb
      simp only [pow_eq, wrap_of_lt hpi, Option.bind_eq_bind, Option.bind_some]
      by_cases hlt : p ^ i < n
      · rw [if_pos hlt, wrap_of_lt (by omega)]
        refine ih (u - (i + 1)) (by omega) u (i + 1) (le_refl _) (by omega) hb hn ?_
        intro j hj
        exact lt_of_le_of_lt (Nat.pow_le_pow_right (by omega) (by omega)) hlt
      · rw [if_neg hlt]
        exact ih (i - l) (by omega) i l (le_refl _) hli hpi (by omega) hl
    · rw [if_neg h]
      obtain rfl : l = u := by omega
      exact ⟨l, rfl, hn, hb, hl⟩

theorem ceilpow_ok {p n : ℕ} (hp : 2 ≤ p) (hp64 : p < 2 ^ 64) (hn : n ≤ 2 ^ 32) :
    ∃ k, ceilpow p n = some (p ^ k) ∧ n ≤ p ^ k ∧ ∀ j < k, p ^ j < n := by
  obtain ⟨u, l, h1, h2, h3, h4, h5⟩ := ceilpowDouble_ok hp hn hp64 (n - p ^ 1) 1 0 (le_refl _) (by omega) (by rwa [pow_one])
    (fun i hi => by omega) (by omega)
  obtain ⟨v, g1, g2, g3, g4⟩ := ceilpowSearch_ok hp (u - l) u l (le_refl _) h5 h3 h2 h4
  rw [pow_one] at h1
  unfold ceilpow
  simp only [h1, Option.bind_eq_bind, Option.bind_some]
  by_cases h : n = p ^ u
  · rw [if_pos h]
    refine ⟨u, by rw [h]; rfl, by omega, ?_⟩
    intro j hj
    rw [h]
    exact Nat.pow_lt_pow_right (by omega) hj
  · rw [if_neg h]
    simp only [g1, Option.bind_some, pow_eq, wrap_of_lt g3]
    exact ⟨v, rfl, g2, g4⟩

end Fftwpp.Utils
