import Verif.Proof.WF

/-! Residues of the rows of a block, and the index function. -/

namespace Fftwpp
namespace Fft
variable {o : Fft}

/-- Block start `r` occurs in the residue loop. -/
def Visit (o : Fft) (r : ℕ) : Prop := r = 0 ∨ (∃ k, r = o.increment 0 + k * o.dr) ∧ r < o.R

/-- Number of size-`m` rows in the block of `r`. -/
def rows (o : Fft) (r : ℕ) : ℕ := o.P * (if r = 0 then o.D0 else o.D)

/-- Residue (as an integer, modulo `q`... or `N`) of row `k` of the block of `r`. -/
def res (o : Fft) (r k : ℕ) : ℤ :=
  if o.conj then
    if r = 0 then
      if o.q % 2 = 1 then (if k % 2 = 1 then ((k + 1) / 2 : ℕ) else -((k / 2 : ℕ) : ℤ))
      else if k = 1 then (if o.p = 2 then -((o.q / 2 : ℕ) : ℤ) else (o.q / 2 : ℕ))
      else if k % 2 = 0 then ((k / 2 : ℕ) : ℤ) else -((k / 2 : ℕ) : ℤ)
    else if k % 2 = 0 then ((r + k / 2 : ℕ) : ℤ) else -((r + k / 2 : ℕ) : ℤ)
  else ((o.n * (k % o.P) + (r + k / o.P) : ℕ) : ℤ)

theorem WF.P_pos (h : o.WF) : 0 < o.P := by
  unfold P; have := h.p_pos; split_ifs <;> omega

theorem WF.q_pos (h : o.WF) : 0 < o.q := by rw [h.q_eq]; exact Nat.mul_pos h.P_pos h.n_pos

theorem WF.M_pos (h : o.WF) : 0 < o.M := by rw [h.M_eq]; exact Nat.mul_pos h.m_pos h.q_pos

theorem WF.conj_iff (h : o.WF) : o.conj = true ↔ 1 < o.D ∧ o.p ≤ 2 := by
  unfold conj conjugates; simp [h.cent]

theorem WF.conj_false_iff (h : o.WF) : o.conj = false ↔ o.D = 1 ∨ 2 < o.p := by
  have := h.conj_iff
  have hD := h.D_pos
  constructor
  · intro h1
    by_contra h2
    rw [this.2 (by omega)] at h1
    exact absurd h1 (by simp)
  · intro h1
    by_contra h2
    have := this.1 (by simpa using h2)
    omega

theorem WF.P_one (h : o.WF) (hp : o.p ≤ 2) : o.P = 1 := by
  unfold P; have := h.p_pos; split_ifs <;> omega

theorem WF.q_n (h : o.WF) (hp : o.p ≤ 2) : o.q = o.n := by rw [h.q_eq, h.P_one hp, Nat.one_mul]

theorem WF.P_p (h : o.WF) (hp : o.p ≠ 2) : o.P = o.p := by unfold P; rw [if_neg hp]

theorem WF.D0_pos (h : o.WF) : 0 < o.D0 := by
  have := h.D_pos
  rw [h.D0_eq]; split_ifs <;> omega

theorem WF.D0_le (h : o.WF) : o.D0 ≤ o.D := by
  have := h.D_pos
  rw [h.D0_eq]; split_ifs
  · exact le_rfl
  · exact (Nat.mod_lt _ this).le

/-- `n = D0 + t D`. -/
theorem WF.n_D0 (h : o.WF) : ∃ t, o.n = o.D0 + t * o.D := by
  have h1 := Nat.div_add_mod o.n o.D
  have hn := h.n_pos
  rw [h.D0_eq]
  split_ifs with h0
  · have : 0 < o.n / o.D := by
      rcases Nat.eq_zero_or_pos (o.n / o.D) with h2 | h2
      · rw [h2, h0] at h1; omega
      · exact h2
    obtain ⟨k, hk⟩ : ∃ k, o.n / o.D = k + 1 := ⟨_, (Nat.succ_pred_eq_of_pos this).symm⟩
    rw [hk, h0] at h1
    exact ⟨k, by rw [← h1]; ring⟩
  · exact ⟨o.n / o.D, by rw [Nat.mul_comm]; omega⟩

/-- With conjugate pairs either the whole set of residues is one block or `D` is even. -/
theorem WF.D_conj (h : o.WF) (hc : o.conj = true) : (o.D0 = o.n ∧ o.D = o.n) ∨ o.D % 2 = 0 := by
  have h1 := (h.conj_iff.1 hc).1
  rcases h.D_valid with h2 | ⟨_, h2 | h2⟩
  · omega
  · exact Or.inr h2.2
  · left
    rw [h.D0_eq, h2]; simp

theorem WF.D0_parity (h : o.WF) (hc : o.conj = true) : o.D0 % 2 = o.n % 2 := by
  obtain ⟨t, ht⟩ := h.n_D0
  rcases h.D_conj hc with h1 | h1
  · rw [h1.1]
  · rw [ht, Nat.add_mod, Nat.mul_mod, h1]; simp

theorem WF.S_one (h : o.WF) (hD : o.D ≠ 1) : o.S = 1 ∧ o.C = 1 := by
  have h1 := h.D_valid
  have h2 := h.C_le_S
  have h3 := h.C_pos
  omega

theorem WF.q_ne_one (h : o.WF) (hD : o.D ≠ 1) (hp : o.p ≤ 2) : o.q ≠ 1 := by
  have h1 := h.D_valid
  have h2 := h.q_n hp
  have h3 := h.D_pos
  omega

theorem WF.p_of_q (h : o.WF) (hq : o.q = 1) : o.p = 1 := by
  have h1 := h.q_eq
  rw [hq] at h1
  have h2 : o.P = 1 ∧ o.n = 1 := by simpa using h1.symm
  by_contra hne
  by_cases hp : o.p = 2
  · have h3 := h.p_lb
    have h4 := h.L_le_M
    rw [h.M_eq, hq] at h4
    rw [hp] at h3
    simp only [Nat.add_one_sub_one, Nat.mul_one] at h3 h4
    omega
  · have := h.P_p hp
    omega

theorem WF.dr_conj (h : o.WF) (hc : o.conj = true) : o.dr = o.D / 2 := by
  rw [h.dr_eq]; unfold Dr
  unfold conj at hc; rw [h.cent] at hc; rw [if_pos hc]

theorem WF.dr_nconj (h : o.WF) (hc : o.conj = false) : o.dr = o.D := by
  rw [h.dr_eq]; unfold Dr
  unfold conj at hc; rw [h.cent] at hc; rw [if_neg (by simp [hc])]

theorem WF.R_conj (h : o.WF) (hc : o.conj = true) : o.R = (o.n + 1) / 2 := by
  rw [h.R_eq]; unfold residueBlocks
  unfold conj at hc; rw [h.cent] at hc; rw [if_pos hc]
  unfold ceilquotient; congr 1

theorem WF.R_nconj (h : o.WF) (hc : o.conj = false) : o.R = o.n := by
  rw [h.R_eq]; unfold residueBlocks
  unfold conj at hc; rw [h.cent] at hc; rw [if_neg (by simp [hc])]

theorem inc0_conj (hc : o.conj = true) : o.increment 0 = (o.D0 + 1) / 2 := by
  unfold increment; rw [hc]; rfl

theorem inc0_nconj (hc : o.conj = false) : o.increment 0 = o.D0 := by
  unfold increment; rw [hc]; rfl

theorem inc_pos {r : ℕ} (hr : 0 < r) : o.increment r = o.dr := by
  unfold increment; rw [if_pos hr]

theorem WF.dr_pos (h : o.WF) : 0 < o.dr := by
  rcases hc : o.conj
  · rw [h.dr_nconj hc]; exact h.D_pos
  · rw [h.dr_conj hc]; have := (h.conj_iff.1 hc).1; omega

theorem WF.inc0_pos (h : o.WF) : 0 < o.increment 0 := by
  have := h.D0_pos
  rcases hc : o.conj
  · rw [inc0_nconj hc]; exact this
  · rw [inc0_conj hc]; omega

/-- `R = increment 0 + t dr` for the same `t`. -/
theorem WF.R_blocks (h : o.WF) : ∃ t, o.n = o.D0 + t * o.D ∧ o.R = o.increment 0 + t * o.dr := by
  obtain ⟨t, ht⟩ := h.n_D0
  refine ⟨t, ht, ?_⟩
  rcases hc : o.conj
  · rw [h.R_nconj hc, inc0_nconj hc, h.dr_nconj hc, ht]
  · rw [h.R_conj hc, inc0_conj hc, h.dr_conj hc]
    rcases h.D_conj hc with h1 | h1
    · have : t = 0 ∨ o.D = 0 := by
        have : t * o.D = 0 := by omega
        simpa using this
      rcases this with rfl | h2
      · rw [ht]; simp
      · have := h.D_pos; omega
    · obtain ⟨e, he⟩ : ∃ e, o.D = 2 * e := ⟨o.D / 2, by omega⟩
      rw [ht, he, show 2 * e / 2 = e by omega, show t * (2 * e) = 2 * (t * e) by ring]
      omega

theorem WF.visit_bound (h : o.WF) {r : ℕ} (hv : o.Visit r) (hr : 0 < r) : r + o.dr ≤ o.R := by
  obtain ⟨t, _, ht⟩ := h.R_blocks
  rcases hv with hv | ⟨⟨k, hk⟩, hlt⟩
  · omega
  · have hkt : k < t := by
      by_contra hge
      have : t * o.dr ≤ k * o.dr := Nat.mul_le_mul_right _ (by omega)
      omega
    have : (k + 1) * o.dr ≤ t * o.dr := Nat.mul_le_mul_right _ hkt
    rw [ht, hk]
    have e : (k + 1) * o.dr = k * o.dr + o.dr := by ring
    omega

theorem WF.noutputs_eq (h : o.WF) (r : ℕ) : o.noutputs r = o.m * o.rows r := by
  unfold noutputs blocksize rows; rw [h.l_eq]; ring

theorem WF.rows_le (h : o.WF) (r : ℕ) : o.rows r ≤ o.P * o.D := by
  unfold rows; apply Nat.mul_le_mul_left; split_ifs
  · exact h.D0_le
  · exact le_rfl

theorem WF.b_D (h : o.WF) : o.b * o.D = o.S * (o.m * (o.P * o.D)) := by
  rw [h.b_eq, h.l_eq]; ring

/-- The index of output `i` of block `r` is `q (i mod m) + residue` modulo `N`. -/
theorem WF.index_res (h : o.WF) {r i : ℕ} (hv : o.Visit r) (hi : i < o.noutputs r) :
    (o.M : ℤ) ∣ (o.index r i : ℤ) - (o.q * (i % o.m : ℕ) + o.res r (i / o.m)) ∧ o.index r i < o.M := by
  have hm := h.m_pos
  rw [h.noutputs_eq] at hi
  have hk : i / o.m < o.rows r := Nat.div_lt_of_lt_mul hi
  have hs : i % o.m < o.m := Nat.mod_lt _ hm
  have him := Nat.div_add_mod i o.m
  by_cases hq : o.q = 1
  · -- explicit padding
    have hp := h.p_of_q hq
    have hD : o.D = 1 := by
      by_contra hD
      exact h.q_ne_one hD (by omega) hq
    have hc : o.conj = false := h.conj_false_iff.2 (Or.inl hD)
    have hP := h.P_one (by omega)
    have hr : o.rows r = 1 := by
      have h0 := h.D0_pos
      have h1 := h.D0_le
      unfold rows; rw [hP, hD]; split_ifs <;> omega
    have hk0 : i / o.m = 0 := by rw [hr] at hk; exact Nat.lt_one_iff.1 hk
    have hRn := h.R_nconj hc
    have hn1 := h.q_n (by omega)
    have hr0 : r = 0 := by
      rcases hv with hv | ⟨_, hlt⟩
      · exact hv
      · rw [hRn] at hlt; omega
    subst hr0
    unfold index res
    rw [if_pos hq, hc, hP, hk0, h.M_eq, hq]
    simp only [Bool.false_eq_true, if_false, Nat.zero_mod, Nat.mul_zero, Nat.zero_div, Nat.add_zero]
    rw [hk0] at him
    constructor
    · rw [show i % o.m = i by omega]; simp
    · omega
  have hmk : i / (o.P * o.m) = i / o.m / o.P := by rw [Nat.mul_comm, Nat.div_div_eq_div_mul]
  rcases hc : o.conj
  · -- no conjugate pairs
    have hcond : ¬ (1 < o.D ∧ ((o.centered = true ∧ o.p % 2 = 0) ∨ o.p ≤ 2)) := by
      rw [h.conj_false_iff] at hc
      simp [h.cent]; omega
    have hP : i / o.m % o.p = i / o.m % o.P ∧ i / (o.p * o.m) = i / o.m / o.P := by
      by_cases hp2 : o.p = 2
      · have hD : o.D = 1 := by rw [h.conj_false_iff] at hc; omega
        have hP1 := h.P_one (by omega)
        have hr : o.rows r = 1 := by
          have h0 := h.D0_pos
          have h1 := h.D0_le
          unfold rows; rw [hP1, hD]; split_ifs <;> omega
        have hk0 : i / o.m = 0 := by rw [hr] at hk; exact Nat.lt_one_iff.1 hk
        rw [Nat.mul_comm o.p, ← Nat.div_div_eq_div_mul, hk0]; simp
      · rw [h.P_p hp2, ← h.P_p hp2, hmk]; exact ⟨rfl, rfl⟩
    unfold index res
    rw [if_neg hq, if_neg hcond, hc]
    simp only [Bool.false_eq_true, if_false]
    rw [hP.1, hP.2]
    constructor
    · rw [show (↑(o.q * (i % o.m) + o.n * (i / o.m % o.P) + (r + i / o.m / o.P)) : ℤ) -
        (↑o.q * ↑(i % o.m) + ↑(o.n * (i / o.m % o.P) + (r + i / o.m / o.P))) = 0 by push_cast; ring]
      exact dvd_zero _
    · -- bound
      have hPp := h.P_pos
      have hu : i / o.m % o.P < o.P := Nat.mod_lt _ hPp
      have hd : i / o.m / o.P < if r = 0 then o.D0 else o.D := Nat.div_lt_of_lt_mul hk
      have hrn : r + i / o.m / o.P < o.n := by
        obtain ⟨t, ht⟩ := h.n_D0
        rcases Nat.eq_zero_or_pos r with h0 | h0
        · rw [if_pos h0] at hd
          have : 0 ≤ t * o.D := Nat.zero_le _
          omega
        · have h1 := h.visit_bound hv h0
          rw [h.R_nconj hc, h.dr_nconj hc] at h1
          rw [if_neg (by omega)] at hd
          omega
      have h1 : o.n * (i / o.m % o.P) + (r + i / o.m / o.P) < o.n * o.P := by
        have : o.n * (i / o.m % o.P + 1) ≤ o.n * o.P := Nat.mul_le_mul_left _ hu
        rw [Nat.mul_succ] at this
        omega
      have h2 : o.q * (i % o.m + 1) ≤ o.q * o.m := Nat.mul_le_mul_left _ hs
      rw [Nat.mul_succ] at h2
      rw [h.M_eq, Nat.mul_comm o.m]
      have h3 : o.q = o.n * o.P := by rw [h.q_eq, Nat.mul_comm]
      omega
  · -- conjugate pairs
    obtain ⟨hD1, hp⟩ := h.conj_iff.1 hc
    have hP := h.P_one hp
    have hqn := h.q_n hp
    have hcond : 1 < o.D ∧ ((o.centered = true ∧ o.p % 2 = 0) ∨ o.p ≤ 2) := ⟨hD1, Or.inr hp⟩
    have hcq : ceilquotient o.p 2 = 1 := by
      have := h.p_pos
      unfold ceilquotient; omega
    have hpar := h.D0_parity hc
    have hkr : i / o.m < if r = 0 then o.D0 else o.D := by
      have := hk; unfold rows at this; rwa [hP, Nat.one_mul] at this
    have hn2 : 2 ≤ o.n := by
      have := h.D_valid; omega
    obtain ⟨t, ht⟩ := h.n_D0
    have hD0n : o.D0 ≤ o.n := by have : 0 ≤ t * o.D := Nat.zero_le _; omega
    unfold index res
    rw [if_neg hq, if_pos hcond, hc, hcq]
    simp only [if_true, Nat.one_mul, Nat.mul_one, Nat.mod_one, h.cent, true_and, and_true,
      Nat.lt_irrefl, if_false, Nat.sub_self, Nat.mul_zero, Nat.add_zero]
    have hmi : o.m ≤ i ↔ 1 ≤ i / o.m := by rw [Nat.le_div_iff_mul_le hm, Nat.one_mul]
    simp only [hmi]
    have hinc : ∀ off, (i + o.m * off) / (2 * o.m) = (i / o.m + off) / 2 := by
      intro off
      rw [Nat.mul_comm 2, ← Nat.div_div_eq_div_mul, Nat.add_mul_div_left _ _ hm]
    simp only [hinc]
    have hM : (o.M : ℤ) = o.q * o.m := by rw [h.M_eq]; push_cast; ring
    have hMn : o.M = o.q * o.m := by rw [h.M_eq, Nat.mul_comm]
    have hrb : 0 < r → r + o.D / 2 ≤ (o.n + 1) / 2 := by
      intro h0
      have := h.visit_bound hv h0
      rwa [h.R_conj hc, h.dr_conj hc] at this
    rw [hM, hMn]
    generalize i / o.m = k at *
    generalize i % o.m = s at *
    have key1 : ∀ e : ℕ, e < o.q → ((o.q : ℤ) * o.m ∣ ((o.q * s + e : ℕ) : ℤ) - (o.q * s + (e : ℤ))) ∧
        o.q * s + e < o.q * o.m := by
      intro e he
      refine ⟨?_, ?_⟩
      · rw [show ((o.q * s + e : ℕ) : ℤ) - (o.q * s + (e : ℤ)) = 0 by push_cast; ring]
        exact dvd_zero _
      · have : o.q * (s + 1) ≤ o.q * o.m := Nat.mul_le_mul_left _ hs
        rw [Nat.mul_succ] at this
        omega
    have key2 : ∀ e : ℕ, 0 < e → e < o.q →
        ((o.q : ℤ) * o.m ∣ ((o.q * (if 0 < s then s - 1 else o.m - 1) + (o.q - e) : ℕ) : ℤ) - (o.q * s + (-(e : ℤ)))) ∧
        o.q * (if 0 < s then s - 1 else o.m - 1) + (o.q - e) < o.q * o.m := by
      intro e he0 he
      have hlt : (if 0 < s then s - 1 else o.m - 1) < o.m := by split_ifs <;> omega
      refine ⟨?_, ?_⟩
      · rw [Nat.cast_add, Nat.cast_mul, Nat.cast_sub he.le]
        split_ifs with h0
        · rw [Nat.cast_sub (by omega)]
          rw [show ((o.q : ℤ) * (s - (1 : ℕ)) + (o.q - e)) - (o.q * s + -(e : ℤ)) = 0 by push_cast; ring]
          exact dvd_zero _
        · have : s = 0 := by omega
          subst this
          rw [Nat.cast_sub (by omega)]
          exact ⟨1, by push_cast; ring⟩
      · have : o.q * ((if 0 < s then s - 1 else o.m - 1) + 1) ≤ o.q * o.m := Nat.mul_le_mul_left _ hlt
        rw [Nat.mul_succ] at this
        omega
    have hp1 := h.p_pos
    rcases Nat.eq_zero_or_pos r with h0 | h0
    · subst h0
      simp only [if_true, true_and, Nat.zero_add] at hkr ⊢
      by_cases hodd : o.q % 2 = 1
      · -- odd
        have hD0 : o.D0 % 2 = 1 := by omega
        simp only [hodd, hD0, if_true, and_true]
        by_cases hk0 : k = 0
        · subst hk0
          simp
          have := key1 0 (by omega)
          simpa using this
        · rw [if_pos (by omega : 1 ≤ k)]
          by_cases hk1 : k % 2 = 1
          · rw [if_neg (by omega), if_pos hk1]
            exact key1 _ (by omega)
          · rw [if_pos (by omega), if_neg hk1, if_pos (Or.inr (by omega)), if_neg (by omega), ← hqn,
              show (k + 1) / 2 = k / 2 by omega]
            exact key2 _ (by omega) (by omega)
      · have hD0 : ¬ o.D0 % 2 = 1 := by omega
        simp only [hodd, hD0, if_false, and_false, Nat.cast_zero, _root_.add_zero, Nat.add_zero]
        by_cases hk1 : k = 1
        · subst hk1
          simp only [if_true]
          rw [if_pos (by norm_num)]
          by_cases hp2 : o.p = 2
          · simp only [hp2, if_true, true_or]
            have := key2 (o.q / 2) (by omega) (by omega)
            rw [← hqn]
            rw [show o.q - o.q / 2 = o.q / 2 by omega] at this
            simpa using this
          · simp only [hp2, if_false, false_or]
            rw [if_neg (by simp)]
            rw [← hqn]
            have := key1 (o.q / 2) (by omega)
            simpa using this
        · rw [if_neg hk1]
          by_cases hk2 : k % 2 = 0
          · rw [if_neg (by omega), if_pos hk2]
            exact key1 _ (by omega)
          · rw [if_pos (by omega), if_neg hk2, if_pos (Or.inr (by omega)), if_neg (by omega), ← hqn]
            exact key2 _ (by omega) (by omega)
    · have h00 : r ≠ 0 := by omega
      have := hrb h0
      simp only [h00, if_false, false_and, Nat.cast_zero, _root_.add_zero, Nat.add_zero] at hkr ⊢
      by_cases hk2 : k % 2 = 0
      · rw [if_neg (by omega), if_pos hk2]
        have hDk := h.D_conj hc
        exact key1 _ (by omega)
      · rw [if_pos (by omega), if_neg hk2, if_pos (Or.inr (by omega)), if_neg (by omega), ← hqn]
        exact key2 _ (by omega) (by omega)

end Fft
end Fftwpp
