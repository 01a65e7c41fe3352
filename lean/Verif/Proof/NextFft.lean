import Verif.Proof.Utils
import Verif.Proof.WF

/-! # Loops of `nextfftsize` -/

namespace Fftwpp.Utils

/-- `x` has the form `2^a 3^b 5^c 7^d`. -/
def Smooth (x : ℕ) : Prop := ∃ a b c d : ℕ, x = 2 ^ a * 3 ^ b * 5 ^ c * 7 ^ d

theorem Smooth.pos {x : ℕ} (h : Smooth x) : 0 < x := by obtain ⟨a, b, c, d, rfl⟩ := h; positivity

theorem Smooth.two {x : ℕ} (h : Smooth x) (k : ℕ) : Smooth (x * 2 ^ k) := by
  obtain ⟨a, b, c, d, rfl⟩ := h; exact ⟨a + k, b, c, d, by ring⟩
theorem Smooth.three {x : ℕ} (h : Smooth x) : Smooth (x * 3) := by
  obtain ⟨a, b, c, d, rfl⟩ := h; exact ⟨a, b + 1, c, d, by ring⟩
theorem Smooth.five {x : ℕ} (h : Smooth x) : Smooth (x * 5) := by
  obtain ⟨a, b, c, d, rfl⟩ := h; exact ⟨a, b, c + 1, d, by ring⟩
theorem Smooth.seven {x : ℕ} (h : Smooth x) : Smooth (x * 7) := by
  obtain ⟨a, b, c, d, rfl⟩ := h; exact ⟨a, b, c, d + 1, by ring⟩

/-- A possible answer. -/
def Good (m N : ℕ) : Prop := Smooth N ∧ m ≤ N ∧ N ≤ 2 ^ 61

theorem cand {m k : ℕ} (hm : 0 < m) (hm2 : m ≤ 2 ^ 61) (hk : Smooth k) (hk2 : k < 2 ^ 61) :
    Smooth (wrap (k * ceilpow2 (ceilquotient m k))) ∧ m ≤ wrap (k * ceilpow2 (ceilquotient m k)) ∧
    ∀ a, m ≤ 2 ^ a * k → wrap (k * ceilpow2 (ceilquotient m k)) ≤ 2 ^ a * k := by
  have hk0 := hk.pos
  have h1 : m ≤ k * ceilquotient m k := ceilquotient_le hk0
  have h2 : k * (ceilquotient m k - 1) < m := ceilquotient_lt hk0 hm
  have h3 : 0 < ceilquotient m k := ceilquotient_pos hk0 hm
  have h5 : ceilquotient m k ≤ 2 ^ 61 := by
    have : 1 * (ceilquotient m k - 1) ≤ k * (ceilquotient m k - 1) := Nat.mul_le_mul_right _ hk0
    omega
  have hle : ∀ a, m ≤ 2 ^ a * k → ceilquotient m k ≤ 2 ^ a := by
    intro a ha
    by_contra hc
    have : k * 2 ^ a ≤ k * (ceilquotient m k - 1) := Nat.mul_le_mul_left _ (by omega)
    rw [Nat.mul_comm] at ha
    omega
  generalize ceilquotient m k = t at h1 h2 h3 h5 hle ⊢
  have h4 := ceilpow2_lt h3 (by omega)
  have h6 := le_ceilpow2 h3 (by omega)
  have h7 : k * ceilpow2 t < 2 ^ 64 := by
    have h8 : k * ceilpow2 t ≤ k * (2 * t) := Nat.mul_le_mul_left _ (by omega)
    have h9 : k * (2 * t) = 2 * (k * (t - 1)) + 2 * k := by
      obtain ⟨s, rfl⟩ : ∃ s, t = s + 1 := ⟨t - 1, by omega⟩
      rw [Nat.add_sub_cancel]; ring
    omega
  rw [wrap_of_lt h7]
  refine ⟨?_, h1.trans (Nat.mul_le_mul_left _ h6), ?_⟩
  · rw [ceilpow2_pos h3 (by omega)]; exact hk.two _
  · intro a ha
    rw [Nat.mul_comm]
    exact Nat.mul_le_mul_right _ ((ceilpow2_le_iff h3 (by omega)).2 (hle a ha))

theorem nextfft3_ok {m : ℕ} (hm : 0 < m) (hm2 : m ≤ 2 ^ 61) : ∀ (e nk N : ℕ), N - nk ≤ e → Smooth nk → Good m N →
    ∃ N', nextfft3 m nk N = some N' ∧ Good m N' ∧ N' ≤ N ∧ ∀ a t, m ≤ 2 ^ a * (nk * 3 ^ t) → N' ≤ 2 ^ a * (nk * 3 ^ t) := by
  intro e
  induction e using Nat.strong_induction_on with
  | _ e ih =>
    intro nk N he hs hg
    have h0 := hs.pos
    rw [nextfft3]
    by_cases h : nk < N
    · rw [if_pos h]
      obtain ⟨c1, c2, c3⟩ := cand hm hm2 hs (lt_of_lt_of_le h hg.2.2)
      generalize wrap (nk * ceilpow2 (ceilquotient m nk)) = X at c1 c2 c3 ⊢
      have hN61 := hg.2.2
      rw [wrap_of_lt (by omega)]
      have hg' : Good m (min N X) := by
        rcases min_choice N X with hc | hc
        · rw [hc]; exact hg
        · have : X ≤ N := hc ▸ min_le_left N X
          rw [hc]; exact ⟨c1, c2, this.trans hN61⟩
      have hmin : min N X ≤ N := min_le_left _ _
      obtain ⟨N', g1, g2, g3, g4⟩ := ih (min N X - nk * 3) (by omega) (nk * 3) _ (le_refl _) hs.three hg'
      refine ⟨N', g1, g2, g3.trans hmin, ?_⟩
      intro a t ht
      cases t with
      | zero =>
        rw [pow_zero, Nat.mul_one] at ht ⊢
        exact g3.trans ((min_le_right _ _).trans (c3 a ht))
      | succ t =>
        have hx : nk * 3 ^ (t + 1) = nk * 3 * 3 ^ t := by ring
        rw [hx] at ht ⊢
        exact g4 a t ht
    · rw [if_neg h]
      refine ⟨N, rfl, hg, le_refl _, ?_⟩
      intro a t _
      calc N ≤ nk := by omega
        _ ≤ nk * 3 ^ t := Nat.le_mul_of_pos_right _ (by positivity)
        _ ≤ 2 ^ a * (nk * 3 ^ t) := Nat.le_mul_of_pos_left _ (by positivity)

theorem nextfft5_ok {m : ℕ} (hm : 0 < m) (hm2 : m ≤ 2 ^ 61) : ∀ (e nj N : ℕ), N - nj ≤ e → Smooth nj → Good m N →
    ∃ N', nextfft5 m nj N = some N' ∧ Good m N' ∧ N' ≤ N ∧
      ∀ a t s, m ≤ 2 ^ a * (nj * 5 ^ s * 3 ^ t) → N' ≤ 2 ^ a * (nj * 5 ^ s * 3 ^ t) := by
  intro e
  induction e using Nat.strong_induction_on with
  | _ e ih =>
    intro nj N he hs hg
    have h0 := hs.pos
    rw [nextfft5]
    by_cases h : nj < N
    · rw [if_pos h]
      obtain ⟨N1, c1, c2, c3, c4⟩ := nextfft3_ok hm hm2 (N - nj) nj N (le_refl _) hs hg
      have hN61 := hg.2.2
      simp only [c1, Option.bind_eq_bind, Option.bind_some]
      rw [wrap_of_lt (by omega)]
      obtain ⟨N', g1, g2, g3, g4⟩ := ih (N1 - nj * 5) (by omega) (nj * 5) _ (le_refl _) hs.five c2
      refine ⟨N', g1, g2, g3.trans c3, ?_⟩
      intro a t s ht
      cases s with
      | zero =>
        rw [pow_zero, Nat.mul_one] at ht ⊢
        exact g3.trans (c4 a t ht)
      | succ s =>
        have hx : nj * 5 ^ (s + 1) = nj * 5 * 5 ^ s := by ring
        rw [hx] at ht ⊢
        exact g4 a t s ht
    · rw [if_neg h]
      refine ⟨N, rfl, hg, le_refl _, ?_⟩
      intro a t s _
      calc N ≤ nj := by omega
        _ ≤ nj * 5 ^ s := Nat.le_mul_of_pos_right _ (by positivity)
        _ ≤ nj * 5 ^ s * 3 ^ t := Nat.le_mul_of_pos_right _ (by positivity)
        _ ≤ 2 ^ a * (nj * 5 ^ s * 3 ^ t) := Nat.le_mul_of_pos_left _ (by positivity)

theorem nextfft7_ok {m : ℕ} (hm : 0 < m) (hm2 : m ≤ 2 ^ 61) : ∀ (e ni N : ℕ), N - ni ≤ e → Smooth ni → Good m N →
    ∃ N', nextfft7 m ni N = some N' ∧ Good m N' ∧ N' ≤ N ∧
      ∀ a t s v, m ≤ 2 ^ a * (ni * 7 ^ v * 5 ^ s * 3 ^ t) → N' ≤ 2 ^ a * (ni * 7 ^ v * 5 ^ s * 3 ^ t) := by
  intro e
  induction e using Nat.strong_induction_on with
  | _ e ih =>
    intro ni N he hs hg
    have h0 := hs.pos
    rw [nextfft7]
    by_cases h : ni < N
    · rw [if_pos h]
      obtain ⟨N1, c1, c2, c3, c4⟩ := nextfft5_ok hm hm2 (N - ni) ni N (le_refl _) hs hg
      have hN61 := hg.2.2
      simp only [c1, Option.bind_eq_bind, Option.bind_some]
      rw [wrap_of_lt (by omega)]
      obtain ⟨N', g1, g2, g3, g4⟩ := ih (N1 - ni * 7) (by omega) (ni * 7) _ (le_refl _) hs.seven c2
      refine ⟨N', g1, g2, g3.trans c3, ?_⟩
      intro a t s v ht
      cases v with
      | zero =>
        rw [pow_zero, Nat.mul_one] at ht ⊢
        exact g3.trans (c4 a t s ht)
      | succ v =>
        have hx : ni * 7 ^ (v + 1) = ni * 7 * 7 ^ v := by ring
        rw [hx] at ht ⊢
        exact g4 a t s v ht
    · rw [if_neg h]
      refine ⟨N, rfl, hg, le_refl _, ?_⟩
      intro a t s v _
      calc N ≤ ni := by omega
        _ ≤ ni * 7 ^ v := Nat.le_mul_of_pos_right _ (by positivity)
        _ ≤ ni * 7 ^ v * 5 ^ s := Nat.le_mul_of_pos_right _ (by positivity)
        _ ≤ ni * 7 ^ v * 5 ^ s * 3 ^ t := Nat.le_mul_of_pos_right _ (by positivity)
        _ ≤ 2 ^ a * (ni * 7 ^ v * 5 ^ s * 3 ^ t) := Nat.le_mul_of_pos_left _ (by positivity)

end Fftwpp.Utils
