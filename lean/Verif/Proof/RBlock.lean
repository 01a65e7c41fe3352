import Verif.Proof.RSum

/-! Weights and sums of the blocks. -/

namespace Fftwpp
open Finset

theorem gsum_half {q h r : ℕ} {g : ℤ → ℝ} (hr : 2 * r = q) (hg : EvenPer (2 * h * q) g) :
    2 * ∑ l ∈ range h, g (2 * (q : ℤ) * l + r) = gsum q (2 * h) g r := by
  unfold gsum
  rw [sum_splitR (m := 2) (p := h)]
  simp only [sum_range_succ, sum_range_zero, zero_add]
  rw [two_mul]
  congr 1
  · refine sum_congr rfl fun l _ => ?_
    congr 1; push_cast; ring
  · rw [← sum_range_reflect]
    refine sum_congr rfl fun l hl => ?_
    have hl' : l < h := mem_range.1 hl
    rw [← hg.even, ← hg.mul _ 1]
    congr 1
    rw [Nat.cast_sub (by omega), Nat.cast_sub (by omega), ← hr]
    push_cast; ring

namespace Re
variable {o : Re} {r : ℕ}

/-- Sum of `g` over the frequencies congruent to `a` modulo `n`. -/
noncomputable def hs (o : Re) (g : ℤ → ℝ) : ℤ → ℝ := gsum o.n o.P (gsum o.q o.m g)

theorem WF.hs_EvenPer (w' : o.WF) {g : ℤ → ℝ} (h : EvenPer o.M g) : EvenPer o.n (o.hs g) :=
  gsum_EvenPer w'.q_eq (gsum_EvenPer w'.M_eq h)

theorem WF.hs_total (w' : o.WF) (g : ℤ → ℝ) : ∑ k ∈ range o.n, o.hs g k = ∑ k ∈ range o.M, g k := by
  unfold hs
  rw [gsum_total, ← w'.q_eq, gsum_total, w'.M_eq]

theorem P_eq (o : Re) (hp : 0 < o.p) : (if o.p ≤ 2 then 1 else o.p) = o.P := by unfold P; split_ifs <;> omega

theorem WF.q_half (w' : o.WF) (hp : 2 < o.p) (h2 : o.p % 2 = 0) : o.q % 2 = 0 ∧ o.q / 2 = o.n * (o.p / 2) := by
  have h := w'.q_eq
  unfold P at h
  rw [if_neg (by omega)] at h
  obtain ⟨k, hk⟩ : ∃ k, o.p = 2 * k := ⟨o.p / 2, by omega⟩
  rw [hk, Nat.mul_assoc] at h
  rw [hk, h, Nat.mul_div_cancel_left _ (by omega : 0 < 2), Nat.mul_div_cancel_left _ (by omega : 0 < 2)]
  exact ⟨by omega, Nat.mul_comm _ _⟩

theorem WF.q_big (w' : o.WF) (hp : 2 < o.p) : o.q = o.p * o.n := by
  have h := w'.q_eq
  unfold P at h
  rwa [if_neg (by omega)] at h

theorem WF.q_ne (w' : o.WF) (hp : 2 < o.p) : o.q ≠ 1 := by
  rw [w'.q_big hp]
  intro h
  have := Nat.eq_one_of_mul_eq_one_right h
  omega

theorem ceil2 (p : ℕ) : ceilquotient p 2 = (p + 1) / 2 := by unfold ceilquotient; omega

theorem dvd_opp (w' : o.WF) {a : ℤ} (h : ((o.m * o.q : ℕ) : ℤ) ∣ o.q * a) : (o.m : ℤ) ∣ a := by
  have hq : (o.q : ℤ) ≠ 0 := by have := w'.q_pos; omega
  obtain ⟨t, ht⟩ := h
  refine ⟨t, ?_⟩
  apply mul_left_cancel₀ hq
  rw [ht]; push_cast; ring

theorem not_opp_odd {a b : ℕ} (hb : b % 2 = 0) {x : ℤ} (h : ((a * b : ℕ) : ℤ) ∣ a * (2 * x + 1)) (ha : a ≠ 0) : False := by
  obtain ⟨t, ht⟩ := h
  have ha' : (a : ℤ) ≠ 0 := by omega
  have h2 : (2 * x + 1) = b * t := by
    apply mul_left_cancel₀ ha'; rw [ht]; push_cast; ring
  obtain ⟨k, rfl⟩ : ∃ k, b = 2 * k := ⟨b / 2, by omega⟩
  push_cast at h2
  have : 2 * x + 1 = 2 * (k * t) := by rw [h2]; ring
  omega

theorem dvd_lt {a x : ℕ} (h : (a : ℤ) ∣ (x : ℤ)) (h0 : 0 < x) (h1 : x < a) : False := by
  have := Nat.le_of_dvd h0 (Int.natCast_dvd_natCast.1 h)
  omega

theorem opp0_le2 (w' : o.WF) (hp : o.p ≤ 2) {i i' : ℕ} (hi : i < o.e) (hi' : i' < o.e) :
    o.Opposite 0 i i' ↔ (i = 0 ∧ i' = 0) ∨ (2 * i = o.m ∧ i' = i) := by
  have he := w'.e_eq
  have hm := w'.m_pos
  unfold Opposite freq
  simp only [if_true, if_pos hp]
  constructor
  · intro h
    have h2 : (o.m : ℤ) ∣ ((i + i' : ℕ) : ℤ) := by
      apply dvd_opp w'
      refine Int.dvd_neg.1 ?_; convert h using 1; push_cast; ring
    have h3 : o.m ∣ i + i' := Int.natCast_dvd_natCast.1 h2
    by_cases h0 : i + i' = 0
    · left; omega
    · have := Nat.le_of_dvd (by omega) h3
      right; omega
  · rintro (⟨rfl, rfl⟩ | ⟨h2, rfl⟩)
    · simp
    · refine ⟨-1, ?_⟩
      rw [← h2]; push_cast; ring

theorem noutputs0_le2 (hp : o.p ≤ 2) : o.noutputs 0 = o.e := by
  unfold noutputs; rw [if_pos rfl, if_neg (by omega)]

theorem weight0_le2 (w' : o.WF) (hp : o.p ≤ 2) {i : ℕ} (hi : i < o.e) : o.weight 0 i = if i = 0 ∨ 2 * i = o.m then 1 else 2 := by
  unfold weight
  rw [noutputs0_le2 hp]
  by_cases h : i = 0 ∨ 2 * i = o.m
  · rw [if_pos h, if_pos]
    rcases h with h | h
    · exact ⟨0, by omega, (opp0_le2 w' hp hi (by omega)).2 (Or.inl ⟨h, rfl⟩)⟩
    · exact ⟨i, hi, (opp0_le2 w' hp hi hi).2 (Or.inr ⟨h, rfl⟩)⟩
  · rw [if_neg h, if_neg]
    rintro ⟨i', hi', h'⟩
    rcases (opp0_le2 w' hp hi hi').1 h' with h1 | h1
    · exact h (Or.inl h1.1)
    · exact h (Or.inr h1.1)

theorem not_opp_half (w' : o.WF) (hq : o.q ≠ 1) (hr : 0 < r) (h2 : 2 * r = o.n) (i i' : ℕ) : ¬ o.Opposite r i i' := by
  unfold Opposite freq
  simp only [if_neg (by omega : ¬ r = 0), if_pos h2]
  intro h
  by_cases hp : o.p ≤ 2
  · simp only [if_pos hp] at h
    have hqn := w'.q_n hp
    have hm : o.m % 2 = 0 := by have := w'.m_even hq; omega
    refine not_opp_odd (a := o.q) (x := ((i + i' : ℕ) : ℤ)) hm ?_ (by have := w'.q_pos; omega)
    rw [Nat.mul_comm]
    convert h using 1
    have : (o.q : ℤ) = 2 * r := by omega
    push_cast; linear_combination this
  · simp only [if_neg hp] at h
    have hqb := w'.q_big (by omega)
    have hpe : o.p % 2 = 0 := by have := w'.p_odd hq; omega
    refine not_opp_odd (a := o.n) (b := o.p) (x := ((i / o.m + i' / o.m : ℕ) : ℤ)) hpe ?_ (by have := w'.n_pos; omega)
    have h1 : ((o.n * o.p : ℕ) : ℤ) ∣ ((o.m * o.q : ℕ) : ℤ) := by
      rw [hqb, Int.natCast_dvd_natCast]; exact ⟨o.m, by ring⟩
    have h3 := Int.dvd_trans h1 h
    have h4 : ((o.n * o.p : ℕ) : ℤ) ∣ (o.q : ℤ) * (((i % o.m : ℕ) : ℤ) + ((i' % o.m : ℕ) : ℤ)) := by
      rw [hqb]; exact ⟨((i % o.m : ℕ) : ℤ) + ((i' % o.m : ℕ) : ℤ), by push_cast; ring⟩
    have h5 := Int.dvd_sub h3 h4
    convert h5 using 1
    have : (o.n : ℤ) = 2 * r := by omega
    push_cast; linear_combination this

theorem not_opp_ord (w' : o.WF) (hq : o.q ≠ 1) (hv : o.Visit r) (hr : 0 < r) (h2 : 2 * r < o.n) {i i' : ℕ} (hi : i < o.m * o.P * o.nd r) (hi' : i' < o.m * o.P * o.nd r) :
    ¬ o.Opposite r i i' := by
  unfold Opposite freq
  simp only [if_neg (by omega : ¬ r = 0), if_neg (by omega : ¬ 2 * r = o.n), P_eq o w'.p_pos]
  intro h
  have hle : r + o.nd r ≤ (o.n - 1) / 2 + 1 := by
    rcases hv with h | h | h
    · omega
    · omega
    · exact h.2.2
  have hd := Nat.div_lt_of_lt_mul hi
  have hd' := Nat.div_lt_of_lt_mul hi'
  have h1 : (o.n : ℤ) ∣ ((o.m * o.q : ℕ) : ℤ) := by
    rw [w'.q_eq, Int.natCast_dvd_natCast]; exact ⟨o.m * o.P, by ring⟩
  have h3 := Int.dvd_trans h1 h
  have h4 : (o.n : ℤ) ∣ (o.q : ℤ) * (((i % o.m : ℕ) : ℤ) + ((i' % o.m : ℕ) : ℤ)) + o.n * (((i % (o.m * o.P) / o.m : ℕ) : ℤ) + ((i' % (o.m * o.P) / o.m : ℕ) : ℤ)) := by
    rw [w'.q_eq]; exact ⟨o.P * (((i % o.m : ℕ) : ℤ) + ((i' % o.m : ℕ) : ℤ)) + (((i % (o.m * o.P) / o.m : ℕ) : ℤ) + ((i' % (o.m * o.P) / o.m : ℕ) : ℤ)), by push_cast; ring⟩
  have h5 := Int.dvd_sub h3 h4
  have hbd : (r + i / (o.m * o.P)) + (r + i' / (o.m * o.P)) < o.n := by
    generalize i / (o.m * o.P) = x at hd ⊢
    generalize i' / (o.m * o.P) = y at hd' ⊢
    omega
  have hbp : 0 < (r + i / (o.m * o.P)) + (r + i' / (o.m * o.P)) :=
    Nat.add_pos_left (Nat.add_pos_left hr _) _
  refine dvd_lt (a := o.n) (x := (r + i / (o.m * o.P)) + (r + i' / (o.m * o.P))) ?_ hbp hbd
  convert h5 using 1
  push_cast; ring

theorem WF.noutputs_ord (w' : o.WF) (hq : o.q ≠ 1) (hr : 0 < r) (h2 : 2 * r < o.n) : o.noutputs r = o.m * o.P * o.nd r := by
  unfold noutputs blocksize nd
  rw [if_neg (by omega), if_neg (by omega), if_neg (by omega), if_neg (by omega), w'.l_eq, if_neg hq]
  congr 1
  by_cases h1 : r = 1
  · by_cases hd : o.D0 = o.D
    · rw [if_pos h1, if_neg (fun h => h.2 hd), hd]
    · rw [if_pos h1, if_pos ⟨h1, hd⟩]
  · rw [if_neg h1, if_neg (fun h => h1 h.1)]

theorem noutputs_half (hr : 0 < r) (h2 : 2 * r = o.n) : o.noutputs r = if 2 < o.p then o.p / 2 * o.m else o.h := by
  unfold noutputs blocksize h
  rw [if_neg (by omega), if_neg (by omega), if_pos h2, if_pos h2, Nat.mul_one]

/-- Block `0`, `p ≤ 2`. -/
theorem block0_le2 (w' : o.WF) (hp : o.p ≤ 2) {g : ℤ → ℝ} (hg : EvenPer o.M g) :
    ∑ i ∈ range (o.noutputs 0), o.weight 0 i * g (o.freq 0 i) = o.hs g 0 := by
  have he := w'.e_eq
  have hm := w'.m_pos
  have hf : EvenPer o.m (fun l => g (o.q * l)) :=
    ⟨fun k => by rw [← hg.per (o.q * k)]; congr 1; rw [w'.M_eq]; push_cast; ring, fun k => by rw [← hg.even]; congr 1; ring⟩
  have e1 : o.hs g 0 = ∑ l ∈ range o.m, g (o.q * l) := by
    unfold hs gsum
    rw [w'.P_one hp w'.p_pos]; simp
  have h1 : ∀ i ∈ range (o.noutputs 0), o.weight 0 i * g (o.freq 0 i) = (if i = 0 ∨ 2 * i = o.m then 1 else 2) * g (o.q * i) := by
    intro i hi
    rw [noutputs0_le2 hp] at hi
    rw [weight0_le2 w' hp (mem_range.1 hi)]
    unfold freq
    rw [if_pos rfl, if_pos hp, hg.even]
  rw [sum_congr rfl h1, e1, even_total hm hf, noutputs0_le2 hp]
  have h2 : ∀ i, i ∈ range ((o.m - 1) / 2) → (if i + 1 = 0 ∨ 2 * (i + 1) = o.m then (1 : ℝ) else 2) * g (o.q * ((i + 1 : ℕ) : ℤ)) = 2 * g (o.q * ((i : ℤ) + 1)) := by
    intro i hi
    have := mem_range.1 hi
    rw [if_neg (by omega)]; push_cast; rfl
  split_ifs with h3
  · rw [he, show o.m / 2 + 1 = (o.m - 1) / 2 + 1 + 1 by omega, sum_range_succ, sum_range_succ', sum_congr rfl h2, ← mul_sum,
      show (o.m - 1) / 2 + 1 = o.m / 2 by omega, if_pos (by omega), if_pos (by omega)]
    simp only [Nat.cast_zero, one_mul]
    ring
  · rw [he, show o.m / 2 + 1 = (o.m - 1) / 2 + 1 by omega, sum_range_succ', sum_congr rfl h2, ← mul_sum, if_pos (by omega)]
    simp only [Nat.cast_zero, one_mul]
    ring

/-- An ordinary block. -/
theorem block_ord (w' : o.WF) (hq : o.q ≠ 1) (hv : o.Visit r) (hr : 0 < r) (h2 : 2 * r < o.n) (g : ℤ → ℝ) :
    ∑ i ∈ range (o.noutputs r), o.weight r i * g (o.freq r i) = 2 * ∑ d ∈ range (o.nd r), o.hs g ((r + d : ℕ) : ℤ) := by
  have hm := w'.m_pos
  rw [w'.noutputs_ord hq hr h2]
  have hP : 0 < o.P := by unfold P; have := w'.p_pos; split_ifs <;> omega
  have h1 : ∀ i ∈ range (o.m * o.P * o.nd r), o.weight r i * g (o.freq r i) = 2 * g (o.freq r i) := by
    intro i hi
    unfold weight
    rw [if_neg]
    rintro ⟨i', hi', h'⟩
    rw [w'.noutputs_ord hq hr h2] at hi'
    exact not_opp_ord w' hq hv hr h2 (mem_range.1 hi) hi' h'
  rw [sum_congr rfl h1, ← mul_sum, sum_splitR, sum_comm]
  congr 1
  refine sum_congr rfl fun d _ => ?_
  rw [sum_splitR, sum_comm]
  unfold hs gsum
  refine sum_congr rfl fun t ht => sum_congr rfl fun l hl => ?_
  have ht' : t < o.P := mem_range.1 ht
  have hl' : l < o.m := mem_range.1 hl
  have hlt : l + o.m * t < o.m * o.P := by rw [Nat.add_comm]; exact radix_lt hl' ht'
  unfold freq
  simp only [if_neg (by omega : ¬ r = 0), if_neg (by omega : ¬ 2 * r = o.n), P_eq o w'.p_pos]
  have e1 : (l + o.m * t + o.m * o.P * d) % o.m = l := by
    rw [Nat.mul_assoc, Nat.add_assoc, ← Nat.mul_add, Nat.add_mul_mod_self_left, Nat.mod_eq_of_lt hl']
  have e2 : (l + o.m * t + o.m * o.P * d) % (o.m * o.P) = l + o.m * t := by
    rw [Nat.add_mul_mod_self_left, Nat.mod_eq_of_lt hlt]
  have e3 : (l + o.m * t + o.m * o.P * d) / (o.m * o.P) = d := by
    rw [Nat.add_mul_div_left _ _ (Nat.mul_pos hm hP), Nat.div_eq_of_lt hlt, Nat.zero_add]
  have e4 : (l + o.m * t) / o.m = t := by
    rw [Nat.add_mul_div_left _ _ hm, Nat.div_eq_of_lt hl', Nat.zero_add]
  rw [e1, e2, e3, e4]
  congr 1; push_cast; ring

/-- The middle block. -/
theorem block_half (w' : o.WF) (hq : o.q ≠ 1) (hr : 0 < r) (h2 : 2 * r = o.n) {g : ℤ → ℝ} (hg : EvenPer o.M g) :
    ∑ i ∈ range (o.noutputs r), o.weight r i * g (o.freq r i) = o.hs g r := by
  have hm := w'.m_pos
  have h1 : ∀ i ∈ range (o.noutputs r), o.weight r i * g (o.freq r i) = 2 * g (o.freq r i) := by
    intro i _
    unfold weight
    rw [if_neg]
    rintro ⟨i', _, h'⟩
    exact not_opp_half w' hq hr h2 i i' h'
  rw [sum_congr rfl h1, ← mul_sum, noutputs_half hr h2]
  unfold freq
  simp only [if_neg (by omega : ¬ r = 0), if_pos h2]
  by_cases hp : o.p ≤ 2
  · have hqn := w'.q_n hp
    have hmh := w'.m_h hq (by omega)
    simp only [if_pos hp, if_neg (by omega : ¬ 2 < o.p)]
    rw [gsum_half (by omega) (by rw [← hmh, ← w'.M_eq]; exact hg)]
    unfold hs
    rw [w'.P_one hp w'.p_pos, ← hmh]
    conv_rhs => unfold gsum
    simp [gsum]
  · have hpe : o.p % 2 = 0 := by have := w'.p_odd hq; omega
    simp only [if_neg hp, if_pos (by omega : 2 < o.p)]
    have hG := gsum_EvenPer w'.M_eq hg
    have hp2 : o.p = 2 * (o.p / 2) := by omega
    have hP : o.P = 2 * (o.p / 2) := by unfold P; rw [if_neg (by omega)]; exact hp2
    unfold hs
    rw [hP, ← gsum_half h2 (by rw [← hp2, ← w'.q_big (by omega)]; exact hG)]
    congr 1
    rw [Nat.mul_comm, sum_splitR, sum_comm]
    refine sum_congr rfl fun t ht => ?_
    unfold gsum
    refine sum_congr rfl fun l hl => ?_
    have hl' : l < o.m := mem_range.1 hl
    rw [Nat.add_mul_mod_self_left, Nat.mod_eq_of_lt hl', Nat.add_mul_div_left _ _ hm, Nat.div_eq_of_lt hl', Nat.zero_add]
    congr 1; ring

section big
variable (w' : o.WF) (hp : 2 < o.p)
include w' hp

theorem noutputs0_big : o.noutputs 0 = o.m * ((o.p + 1) / 2) + if o.p % 2 = 0 then o.h else 0 := by
  unfold noutputs h
  rw [if_pos rfl, if_pos hp]
  have he := w'.e_eq
  by_cases h : o.p % 2 = 1
  · rw [if_pos h, if_neg (by omega), show (o.p + 1) / 2 = o.p / 2 + 1 by omega, Nat.mul_comm]; rfl
  · rw [if_neg h, if_pos (by omega), show (o.p + 1) / 2 = o.p / 2 by omega, Nat.mul_comm o.m, Nat.add_sub_assoc (by omega)]

theorem freq0_row {t l : ℕ} (ht : t < (o.p + 1) / 2) (hl : l < o.m) : o.freq 0 (l + o.m * t) = o.q * l - o.n * t := by
  unfold freq
  simp only [if_true, if_neg (by omega : ¬ o.p ≤ 2)]
  have hm := w'.m_pos
  rw [Nat.add_mul_mod_self_left, Nat.mod_eq_of_lt hl, Nat.add_mul_div_left _ _ hm, Nat.div_eq_of_lt hl, Nat.zero_add, ceil2, if_pos ht]

theorem freq0_half {l : ℕ} (hl : l < o.m) : o.freq 0 (l + o.m * ((o.p + 1) / 2)) = 2 * o.q * l + (o.q / 2 : ℕ) := by
  unfold freq
  simp only [if_true, if_neg (by omega : ¬ o.p ≤ 2)]
  have hm := w'.m_pos
  rw [Nat.add_mul_mod_self_left, Nat.mod_eq_of_lt hl, Nat.add_mul_div_left _ _ hm, Nat.div_eq_of_lt hl, Nat.zero_add, ceil2, if_neg (lt_irrefl _)]

theorem split0 {i : ℕ} (hi : i < o.noutputs 0) : (∃ t l, t < (o.p + 1) / 2 ∧ l < o.m ∧ i = l + o.m * t) ∨
    (o.p % 2 = 0 ∧ ∃ l, l < o.h ∧ l < o.m ∧ i = l + o.m * ((o.p + 1) / 2)) := by
  rw [noutputs0_big w' hp] at hi
  have hm := w'.m_pos
  by_cases h : i < o.m * ((o.p + 1) / 2)
  · left
    exact ⟨i / o.m, i % o.m, Nat.div_lt_of_lt_mul h, Nat.mod_lt _ hm, (Nat.mod_add_div _ _).symm⟩
  · right
    have hq := w'.q_ne hp
    have hpe : o.p % 2 = 0 := by
      by_contra hc
      rw [if_neg hc] at hi; omega
    rw [if_pos hpe] at hi
    have hmh := w'.m_h hq (w'.q_half hp hpe).1
    exact ⟨hpe, i - o.m * ((o.p + 1) / 2), by omega, by omega, by omega⟩

theorem opp0_rows {t t' l l' : ℕ} (ht : t < (o.p + 1) / 2) (hl : l < o.m) (ht' : t' < (o.p + 1) / 2) (hl' : l' < o.m)
    (h : o.Opposite 0 (l + o.m * t) (l' + o.m * t')) : t = 0 ∧ t' = 0 ∧ o.m ∣ l + l' := by
  unfold Opposite at h
  rw [freq0_row w' hp ht hl, freq0_row w' hp ht' hl'] at h
  have hqb := w'.q_big hp
  have hn := w'.n_pos
  have h0 : t + t' = 0 := by
    by_contra hc
    refine dvd_lt (a := o.n * o.p) (x := o.n * (t + t')) ?_ (Nat.mul_pos hn (by omega)) (Nat.mul_lt_mul_of_pos_left (by omega) hn)
    have h1 : ((o.n * o.p : ℕ) : ℤ) ∣ ((o.m * o.q : ℕ) : ℤ) := by
      rw [hqb, Int.natCast_dvd_natCast]; exact ⟨o.m, by ring⟩
    have h4 : ((o.n * o.p : ℕ) : ℤ) ∣ (o.q : ℤ) * (l + l') := by
      rw [hqb]; exact ⟨l + l', by push_cast; ring⟩
    have h5 := Int.dvd_sub h4 (Int.dvd_trans h1 h)
    convert h5 using 1
    push_cast; ring
  obtain ⟨rfl, rfl⟩ : t = 0 ∧ t' = 0 := by omega
  refine ⟨rfl, rfl, ?_⟩
  have h2 : (o.m : ℤ) ∣ ((l + l' : ℕ) : ℤ) := by
    apply dvd_opp w'
    convert h using 1; push_cast; ring
  exact Int.natCast_dvd_natCast.1 h2

theorem opp0_mixed (hpe : o.p % 2 = 0) {t l l' : ℕ} (ht : t < (o.p + 1) / 2) (hl : l < o.m) (hl' : l' < o.m) :
    ¬ ((o.m * o.q : ℕ) : ℤ) ∣ o.freq 0 (l + o.m * t) + o.freq 0 (l' + o.m * ((o.p + 1) / 2)) := by
  intro h
  rw [freq0_row w' hp ht hl, freq0_half w' hp hl', (w'.q_half hp hpe).2] at h
  have hqb := w'.q_big hp
  have hn := w'.n_pos
  refine dvd_lt (a := o.n * o.p) (x := o.n * (o.p / 2 - t)) ?_ (Nat.mul_pos hn (by omega)) (Nat.mul_lt_mul_of_pos_left (by omega) hn)
  have h1 : ((o.n * o.p : ℕ) : ℤ) ∣ ((o.m * o.q : ℕ) : ℤ) := by
    rw [hqb, Int.natCast_dvd_natCast]; exact ⟨o.m, by ring⟩
  have h4 : ((o.n * o.p : ℕ) : ℤ) ∣ (o.q : ℤ) * (l + 2 * l') := by
    rw [hqb]; exact ⟨l + 2 * l', by push_cast; ring⟩
  have h5 := Int.dvd_sub (Int.dvd_trans h1 h) h4
  convert h5 using 1
  rw [Nat.cast_mul, Nat.cast_sub (by omega), Nat.cast_mul]; ring

theorem opp0_half (hpe : o.p % 2 = 0) {l l' : ℕ} (hl : l < o.m) (hl' : l' < o.m) :
    ¬ ((o.m * o.q : ℕ) : ℤ) ∣ o.freq 0 (l + o.m * ((o.p + 1) / 2)) + o.freq 0 (l' + o.m * ((o.p + 1) / 2)) := by
  intro h
  rw [freq0_half w' hp hl, freq0_half w' hp hl'] at h
  have hq := w'.q_ne hp
  have hqe := (w'.q_half hp hpe).1
  have hm : o.m % 2 = 0 := by have := w'.m_even hq; omega
  refine not_opp_odd (a := o.q) (x := ((l + l' : ℕ) : ℤ)) hm ?_ (by have := w'.q_pos; omega)
  rw [Nat.mul_comm]
  convert h using 1
  have : (o.q : ℤ) = 2 * (o.q / 2 : ℕ) := by omega
  rw [Nat.cast_add]; linear_combination this

/-- The outputs of block `0` that occur with the opposite frequency are the first `m`. -/
theorem opp0_big {i i' : ℕ} (hi : i < o.noutputs 0) (hi' : i' < o.noutputs 0) : o.Opposite 0 i i' ↔ i < o.m ∧ i' < o.m ∧ o.m ∣ i + i' := by
  have hm := w'.m_pos
  constructor
  · intro h
    rcases split0 w' hp hi with ⟨t, l, ht, hl, rfl⟩ | ⟨hpe, l, hl, hl2, rfl⟩ <;>
      rcases split0 w' hp hi' with ⟨t', l', ht', hl', rfl⟩ | ⟨hpe', l', hl', hl2', rfl⟩
    · obtain ⟨rfl, rfl, h3⟩ := opp0_rows w' hp ht hl ht' hl' h
      simpa using ⟨hl, hl', h3⟩
    · exact absurd h (opp0_mixed w' hp hpe' ht hl hl2')
    · exact absurd (by rw [add_comm]; exact h) (opp0_mixed w' hp hpe ht' hl' hl2)
    · exact absurd h (opp0_half w' hp hpe hl2 hl2')
  · rintro ⟨h1, h2, t, h3⟩
    unfold Opposite
    have e1 := freq0_row w' hp (t := 0) (by omega) h1
    have e2 := freq0_row w' hp (t := 0) (by omega) h2
    rw [Nat.mul_zero, Nat.add_zero] at e1 e2
    rw [e1, e2]
    refine ⟨t, ?_⟩
    have : ((i : ℤ) + i') = o.m * t := by exact_mod_cast h3
    push_cast
    linear_combination (o.q : ℤ) * this

theorem weight0_big {i : ℕ} (hi : i < o.noutputs 0) : o.weight 0 i = if i < o.m then 1 else 2 := by
  have hm := w'.m_pos
  unfold weight
  by_cases h : i < o.m
  · have hno : o.m ≤ o.noutputs 0 := by
      rw [noutputs0_big w' hp]
      have : o.m * 1 ≤ o.m * ((o.p + 1) / 2) := Nat.mul_le_mul_left _ (by omega)
      omega
    rw [if_pos h, if_pos]
    by_cases h0 : i = 0
    · exact ⟨0, by omega, (opp0_big w' hp hi (by omega)).2 ⟨h, hm, by simp [h0]⟩⟩
    · exact ⟨o.m - i, by omega, (opp0_big w' hp hi (by omega)).2 ⟨h, by omega, 1, by omega⟩⟩
  · rw [if_neg h, if_neg]
    rintro ⟨i', hi', h'⟩
    exact h ((opp0_big w' hp hi hi').1 h').1

/-- Block `0`, `p > 2`. -/
theorem block0_big {g : ℤ → ℝ} (hg : EvenPer o.M g) :
    ∑ i ∈ range (o.noutputs 0), o.weight 0 i * g (o.freq 0 i) = o.hs g 0 := by
  have hm := w'.m_pos
  have hq := w'.q_ne hp
  have hG := gsum_EvenPer w'.M_eq hg
  have hf : EvenPer o.p (fun t => gsum o.q o.m g (o.n * t)) :=
    ⟨fun k => by
      rw [← hG.per (o.n * k)]; congr 1; rw [w'.q_big hp]; push_cast; ring, fun k => by rw [← hG.even]; congr 1; ring⟩
  have e1 : o.hs g 0 = ∑ t ∈ range o.p, gsum o.q o.m g (o.n * t) := by
    unfold hs P
    rw [if_neg (by omega)]
    conv_lhs => unfold gsum
    simp
    rfl
  rw [e1, even_total (by omega) hf]
  have h1 : ∀ i ∈ range (o.noutputs 0), o.weight 0 i * g (o.freq 0 i) = (if i < o.m then 1 else 2) * g (o.freq 0 i) :=
    fun i hi => by rw [weight0_big w' hp (mem_range.1 hi)]
  rw [sum_congr rfl h1, noutputs0_big w' hp, sum_range_add, sum_splitR, sum_comm]
  congr 1
  · have hrow : ∀ t ∈ range ((o.p + 1) / 2), ∑ l ∈ range o.m, (if l + o.m * t < o.m then (1 : ℝ) else 2) * g (o.freq 0 (l + o.m * t)) =
        (if t = 0 then 1 else 2) * gsum o.q o.m g (o.n * t) := by
      intro t ht
      rw [← hG.even, gsum, mul_sum]
      refine sum_congr rfl fun l hl => ?_
      rw [freq0_row w' hp (mem_range.1 ht) (mem_range.1 hl), ← sub_eq_add_neg]
      congr 1
      have : l < o.m := mem_range.1 hl
      by_cases h0 : t = 0
      · subst h0; rw [if_pos (by omega), if_pos rfl]
      · have : o.m * 1 ≤ o.m * t := Nat.mul_le_mul_left _ (by omega)
        rw [if_neg (by omega), if_neg h0]
    rw [sum_congr rfl hrow, show (o.p + 1) / 2 = (o.p - 1) / 2 + 1 by omega, sum_range_succ', add_comm, mul_sum]
    congr 1
    simp
  · split_ifs with hpe
    · obtain ⟨hqe, hqh⟩ := w'.q_half hp hpe
      have hmh := w'.m_h hq hqe
      have : ∀ l ∈ range o.h, (if o.m * ((o.p + 1) / 2) + l < o.m then (1 : ℝ) else 2) * g (o.freq 0 (o.m * ((o.p + 1) / 2) + l)) =
          2 * g (2 * (o.q : ℤ) * l + (o.q / 2 : ℕ)) := by
        intro l hl
        have hl' : l < o.h := mem_range.1 hl
        have : o.m * 1 ≤ o.m * ((o.p + 1) / 2) := Nat.mul_le_mul_left _ (by omega)
        rw [if_neg (by omega), Nat.add_comm, freq0_half w' hp (by omega)]
      rw [sum_congr rfl this, ← mul_sum, gsum_half (by omega) (by rw [← hmh, ← w'.M_eq]; exact hg), ← hmh, hqh]
      push_cast; rfl
    · simp

end big

/-- The sum of an even periodic function over all frequencies, by the blocks of the loop over `r`. -/
theorem WF.sum_blocks (w' : o.WF) {g : ℤ → ℝ} (hg : EvenPer o.M g) :
    ((o.visited o.R 0).map fun r => ∑ i ∈ range (o.noutputs r), o.weight r i * g (o.freq r i)).sum = ∑ k ∈ range o.M, g k := by
  rw [← w'.hs_total]
  have hq1 : ∀ r, 0 < r → 2 * r ≤ o.n → o.q ≠ 1 := by
    intro r h1 h2 h
    have := (w'.q_one_n h).1
    omega
  refine w'.sum_all (w'.hs_EvenPer hg) ?_ ?_ ?_
  · rcases Nat.lt_or_ge 2 o.p with hp | hp
    · exact block0_big w' hp hg
    · exact block0_le2 w' hp hg
  · intro r hr h2 hv
    exact block_ord w' (hq1 r hr (by omega)) hv hr h2 g
  · intro h0 h2
    exact block_half w' (hq1 _ h0 (by omega)) h0 (by omega) hg

end Re
end Fftwpp
