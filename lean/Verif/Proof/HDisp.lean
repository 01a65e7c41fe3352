import Verif.Proof.HOne
import Verif.Props.Transform

/-! The routines selected by the constructor; the residues visited; the frequencies. -/

namespace Fftwpp
namespace Herm
open Finset ComplexConjugate
variable {o : Herm} {mem : Mem} {f F W : Ptr} {r : ℕ} {W? : Option Ptr}

theorem Visit.q1 (hq : o.q = 1) (hr : o.Visit r) : r = 0 := by
  rcases hr with h | h
  · exact h
  · exact absurd hq h.1

theorem WF.route_cases (h : o.WF) : (o.q = 1 ∧ o.C = 1 ∧ o.route = .explicit) ∨ (o.q = 1 ∧ o.route = .explicitMany) ∨
    (2 < o.p ∧ o.route = .inner) ∨ (o.p = 2 ∧ o.C = 1 ∧ o.route = .two) ∨ (o.p = 2 ∧ o.route = .twoMany) := by
  have e := h.route_eq
  have hp : o.q ≠ 1 → 2 ≤ o.p := by
    intro hq
    rcases h.cases with h1 | h1
    · exact absurd h1.1 hq
    · have := h.P_pos; omega
  split_ifs at e with h1 h2 h3 h4
  · exact Or.inl ⟨h1, h2, e⟩
  · exact Or.inr (Or.inl ⟨h1, e⟩)
  · exact Or.inr (Or.inr (Or.inl ⟨h3, e⟩))
  · exact Or.inr (Or.inr (Or.inr (Or.inl ⟨by have := hp h1; omega, h4, e⟩)))
  · exact Or.inr (Or.inr (Or.inr (Or.inr ⟨by have := hp h1; omega, e⟩)))

theorem forward_ok (h : o.WF) (hW : W?.getD F = W) (pre : o.Pre mem f F W r) (hr : o.Visit r) :
    (o.forward f F r W?).Ok mem (fun _ m' => o.FwdPost mem m' f F W r) := by
  unfold forward
  rcases h.route_cases with ⟨h1, h2, e⟩ | ⟨h1, e⟩ | ⟨h1, e⟩ | ⟨h1, h2, e⟩ | ⟨h1, e⟩
  · obtain rfl := hr.q1 h1
    simp only [e]
    rw [forwardExplicit_eq h2]; exact forwardExplicitMany_ok h h1 hW pre
  · obtain rfl := hr.q1 h1
    simp only [e]
    exact forwardExplicitMany_ok h h1 hW pre
  · simp only [e]; exact forwardInner_ok h h1 hW hr pre
  · simp only [e]; exact forward2_le h h2 _ _ (forward2Many_ok h h1 hW pre hr)
  · simp only [e]; exact forward2Many_ok h h1 hW pre hr

theorem backward_ok (h : o.WF) (hW : W?.getD F = W) (pre : o.Pre mem f F W r) (hr : o.Visit r) :
    (o.backward F f r W?).Ok mem (fun _ m' => o.BwdPost mem m' F f W r) := by
  unfold backward
  rcases h.route_cases with ⟨h1, h2, e⟩ | ⟨h1, e⟩ | ⟨h1, e⟩ | ⟨h1, h2, e⟩ | ⟨h1, e⟩
  · obtain rfl := hr.q1 h1
    simp only [e]
    rw [backwardExplicit_eq h2]; exact backwardExplicitMany_ok h h1 hW pre
  · obtain rfl := hr.q1 h1
    simp only [e]
    exact backwardExplicitMany_ok h h1 hW pre
  · simp only [e]; exact backwardInner_ok h h1 hW hr pre
  · simp only [e]; exact backward2_le h h2 _ _ (backward2Many_ok h h1 hW pre hr)
  · simp only [e]; exact backward2Many_ok h h1 hW pre hr

/-- The increments of the residue loop are 1. -/
theorem WF.increment_eq (h : o.WF) (r : ℕ) : o.increment r = 1 := by
  unfold Fft.increment
  rw [h.dr_eq]
  split_ifs with h1 h2
  · rfl
  · rw [h.D0_eq]; unfold ceilquotient; split_ifs <;> rfl
  · rw [h.D0_eq]
    rcases h.cases with h3 | ⟨h3, h4, h5, _⟩
    · rw [if_pos h3.1]
    · exfalso
      apply h2
      unfold Fft.conj conjugates
      rw [h.cen, h4, h5]
      simp

theorem WF.visited_eq (h : o.WF) (k r : ℕ) (hk : o.R ≤ r + k) : o.visited k r = rng r o.R := by
  induction k generalizing r with
  | zero =>
    unfold Fft.visited rng
    rw [show o.R - r = 0 by omega]; rfl
  | succ k ih =>
    unfold Fft.visited
    split_ifs with hr
    · rw [h.increment_eq, ih _ (by omega)]
      unfold rng
      rw [show o.R - r = (o.R - (r + 1)) + 1 by omega, List.range'_succ]
    · unfold rng
      rw [show o.R - r = 0 by omega]; rfl

theorem WF.starts (h : o.WF) : o.visited (o.R + 1) 0 = rng 0 o.R := h.visited_eq _ _ (by omega)

theorem WF.nloops_eq (h : o.WF) : o.nloops = o.R := by
  unfold Fft.nloops; rw [h.starts]; simp [rng]

theorem WF.R_pos (h : o.WF) : 0 < o.R := by
  rw [h.R_eq]; have := h.n_pos; split_ifs <;> omega

theorem WF.visit (h : o.WF) (hr : r < o.R) : o.Visit r := by
  rw [h.R_eq] at hr
  split_ifs at hr with hq
  · left; omega
  · rcases Nat.eq_zero_or_pos r with h0 | h0
    · exact Or.inl h0
    · exact Or.inr ⟨hq, by omega⟩

theorem WF.nd_D (h : o.WF) (hD : 0 < o.D) (r : ℕ) (hr : o.Visit r) : o.nd r ≤ o.D := by
  rcases h.cases with h3 | ⟨h3, h4, h5, _⟩
  · obtain rfl := hr.q1 h3.1
    unfold nd; rw [if_pos rfl, h.D0_eq, if_pos h3.1]; exact hD
  · rw [h4]; exact (Herm.nd_pos h r).2

/-- The documented index of an output is congruent to the frequency. -/
theorem WF.index_dvd (h : o.WF) (hr : o.Visit r) {d u l : ℕ} (hd : d < o.nd r) (hu : u < o.P) (hl : l < o.m) :
    (o.M : ℤ) ∣ (o.index r (o.P * o.m * d + (o.m * u + l)) : ℤ) - (o.q * l + (o.n * u + o.kd r d)) := by
  have hm := h.m_pos
  unfold Fft.index
  rcases h.cases with h3 | ⟨h3, h4, h5, h6, _⟩
  · obtain rfl := hr.q1 h3.1
    have hnd : o.nd 0 = 1 := by unfold nd; rw [if_pos rfl, h.D0_eq, if_pos h3.1]
    have hP : o.P = 1 := by unfold P; rw [if_pos h3.1]
    obtain rfl : d = 0 := by omega
    obtain rfl : u = 0 := by omega
    rw [if_pos h3.1]
    simp [kd, h3.1]
  · rw [if_neg h3]
    have hP := h.P_pos
    have hcq : ceilquotient o.p 2 = o.P := by unfold ceilquotient; omega
    have hd2 : d < 2 := by have := (Herm.nd_pos h r).2; omega
    have hj : o.m * u + l < o.P * o.m := by rw [Nat.mul_comm o.P]; exact radix_lt hl hu
    generalize hi : o.P * o.m * d + (o.m * u + l) = i
    have e1 : i % o.m = l := by
      rw [← hi, show o.P * o.m * d + (o.m * u + l) = l + o.m * (o.P * d + u) by ring, Nat.add_mul_mod_self_left, Nat.mod_eq_of_lt hl]
    have e2 : i / o.m % o.P = u := by
      rw [← hi, show o.P * o.m * d + (o.m * u + l) = l + o.m * (o.P * d + u) by ring, Nat.add_mul_div_left _ _ hm, Nat.div_eq_of_lt hl,
        Nat.zero_add, Nat.mul_add_mod, Nat.mod_eq_of_lt hu]
    have hPm : 0 < o.P * o.m := Nat.mul_pos hP hm
    have e3 : i / (o.P * o.m) = d := by
      rw [← hi, Nat.add_comm, Nat.add_mul_div_left _ _ hPm, Nat.div_eq_of_lt hj, Nat.zero_add]
    have hoff : (if r = 0 ∧ o.P * o.m ≤ i ∧ o.D0 % 2 = 1 then 1 else 0) = 0 := by
      rw [if_neg]
      rintro ⟨rfl, g1, g2⟩
      unfold nd at hd
      rw [if_pos rfl] at hd
      have hdd : d = 1 := by
        by_contra hne
        obtain rfl : d = 0 := by omega
        rw [Nat.mul_zero] at hi
        omega
      have := h.D0_eq
      split_ifs at this <;> omega
    have e4 : i / (2 * o.P * o.m) = 0 := by
      apply Nat.div_eq_of_lt
      have : o.P * o.m * d ≤ o.P * o.m * 1 := Nat.mul_le_mul_left _ (by omega)
      rw [Nat.mul_assoc]; omega
    have hM : (o.M : ℤ) = o.m * (o.P * o.n) := by rw [h.M_eq, h.q_eq]; push_cast; ring
    have hq : (o.q : ℤ) = o.P * o.n := by rw [h.q_eq]; push_cast; ring
    have hc : 1 < o.D ∧ (o.centered = true ∧ o.p % 2 = 0 ∨ o.p ≤ 2) := ⟨by omega, Or.inl ⟨h.cen, by omega⟩⟩
    simp only [hcq]
    rw [if_pos hc, e1, e2, e3, hoff, Nat.mul_zero, Nat.add_zero, e4, Nat.add_zero]
    obtain rfl | rfl : d = 0 ∨ d = 1 := by omega
    · rw [if_neg (by norm_num)]
      have : o.kd r 0 = r := by unfold kd; rw [if_pos rfl, if_pos rfl]; split_ifs with h0 <;> simp [h0]
      rw [this]
      push_cast
      exact ⟨0, by ring⟩
    · rw [if_pos (by norm_num)]
      have hcc : ((o.centered = false ∧ o.p = 2) ∨ (0 < r ∧ u = 0)) ↔ (0 < r ∧ u = 0) := by simp [h.cen]
      simp only [hcc]
      rcases Nat.eq_zero_or_pos r with rfl | h0
      · rw [if_pos rfl, if_neg (by omega)]
        have : o.kd 0 1 = (o.n / 2 : ℕ) := by simp [kd]
        rw [this, Nat.cast_add, Nat.cast_add, Nat.cast_mul, Nat.cast_mul]
        exact ⟨0, by ring⟩
      · have hrn : 2 * r < o.n := by
          rcases hr with hr | hr
          · omega
          · exact hr.2
        have : o.kd r 1 = -(r : ℤ) := by unfold kd; rw [if_neg (by omega), if_neg (by omega)]
        rw [this, if_neg (by omega)]
        rw [Nat.cast_add, Nat.cast_add, Nat.cast_mul, Nat.cast_mul, Nat.cast_sub (by omega : r ≤ o.n), hM, hq]
        by_cases hu0 : u = 0
        · subst hu0
          simp only [h0, true_and, if_true, Nat.lt_irrefl, if_false]
          rw [Nat.cast_sub (by omega : 1 ≤ o.P)]
          split_ifs with hl0
          · rw [Nat.cast_sub (by omega : 1 ≤ l)]
            exact ⟨0, by push_cast; ring⟩
          · rw [Nat.cast_sub (by omega : 1 ≤ o.m), show l = 0 by omega]
            exact ⟨1, by push_cast; ring⟩
        · rw [if_neg (fun h => hu0 h.2), if_pos (by omega), Nat.cast_sub (by omega : 1 ≤ u)]
          exact ⟨0, by push_cast; ring⟩

theorem sum_shift {P : ℕ} {h : ℕ → ℂ} (h0 : h P = h 0) : ∑ u ∈ range P, h (u + 1) = ∑ u ∈ range P, h u := by
  have e1 := Finset.sum_range_succ h P
  have e2 := Finset.sum_range_succ' h P
  rw [h0] at e1
  rw [e1] at e2
  exact (add_right_cancel e2).symm

/-- Conjugate pairs of residues modulo `n`. -/
theorem sum_pairs {n : ℕ} (hn : 2 ≤ n) {G : ℤ → ℂ} (hG : ∀ k, G (k + n) = G k) :
    ∑ r ∈ range ((n + 1) / 2), (if r = 0 then (G 0 + if n % 2 = 0 then G (n / 2 : ℕ) else 0) else G r + G (-r)) = ∑ k ∈ range n, G k := by
  obtain ⟨R, hR⟩ : ∃ R, (n + 1) / 2 = R + 1 := ⟨(n + 1) / 2 - 1, by omega⟩
  rw [hR, Finset.sum_range_succ']
  have e0 : ∀ r ∈ range R, (if r + 1 = 0 then (G 0 + if n % 2 = 0 then G (n / 2 : ℕ) else 0) else G ((r + 1 : ℕ) : ℤ) + G (-((r + 1 : ℕ) : ℤ))) =
      G ((r + 1 : ℕ) : ℤ) + G ((n - (r + 1) : ℕ) : ℤ) := by
    intro r hr
    rw [mem_range] at hr
    rw [if_neg (by omega), ← hG (-_)]
    congr 2; omega
  rw [sum_congr rfl e0, if_pos rfl, sum_add_distrib]
  have e1 : ∑ k ∈ range n, G k = ∑ k ∈ range (R + 1), G k + (if n % 2 = 0 then G (n / 2 : ℕ) else 0) + ∑ r ∈ range R, G ((n - (r + 1) : ℕ) : ℤ) := by
    have hrefl : ∀ a, a + R = n → ∑ r ∈ range R, G ((n - (r + 1) : ℕ) : ℤ) = ∑ x ∈ range R, G ((a + x : ℕ) : ℤ) := by
      intro a ha
      rw [← Finset.sum_range_reflect]
      refine sum_congr rfl fun x hx => ?_
      rw [mem_range] at hx
      congr 2; omega
    split_ifs with he
    · rw [hrefl (R + 1 + 1) (by omega)]
      rw [show (G ((n / 2 : ℕ) : ℤ)) = G ((R + 1 : ℕ) : ℤ) by congr 2; omega, ← Finset.sum_range_succ (fun k : ℕ => G k), ← Finset.sum_range_add]
      congr 2; omega
    · rw [hrefl (R + 1) (by omega), add_zero, ← Finset.sum_range_add]
      congr 2; omega
  rw [e1, Finset.sum_range_succ']
  push_cast
  ring

/-- The frequencies of all the residues are all the frequencies. -/
theorem WF.sum_freq (h : o.WF) {g : ℤ → ℂ} (hg : ∀ x y : ℤ, (o.M : ℤ) ∣ x - y → g x = g y) :
    ∑ r ∈ range o.R, ∑ d ∈ range (o.nd r), ∑ u ∈ range o.P, ∑ l ∈ range o.m, g (o.q * l + (o.n * u + o.kd r d)) =
      ∑ e ∈ range o.M, g e := by
  let G : ℤ → ℂ := fun k => ∑ u ∈ range o.P, ∑ l ∈ range o.m, g (o.q * l + (o.n * u + k))
  have hM : (o.M : ℤ) = o.q * o.m := by rw [h.M_eq]; push_cast; ring
  have hq : (o.q : ℤ) = o.n * o.P := by rw [h.q_eq]; push_cast; ring
  have hG : ∀ k, G (k + o.n) = G k := by
    intro k
    show _ = ∑ u ∈ range o.P, ∑ l ∈ range o.m, g (o.q * l + (o.n * u + k))
    rw [← sum_shift (P := o.P) (h := fun u => ∑ l ∈ range o.m, g (o.q * l + (o.n * u + k)))]
    · refine sum_congr rfl fun u _ => sum_congr rfl fun l _ => ?_
      congr 1; push_cast; ring
    · rw [← sum_shift (P := o.m) (h := fun l => g (o.q * l + (o.n * (0 : ℕ) + k)))]
      · refine sum_congr rfl fun l _ => ?_
        congr 1; push_cast; rw [hq]; ring
      · apply hg
        rw [hM]
        exact ⟨1, by push_cast; ring⟩
  have hall : ∑ e ∈ range o.M, g e = ∑ k ∈ range o.n, G k := by
    rw [h.M_eq, Nat.mul_comm o.m, sum_split o.m o.q (fun e => g e), h.q_eq, Nat.mul_comm o.P, sum_split o.P o.n]
    refine sum_congr rfl fun k _ => sum_congr rfl fun u _ => sum_congr rfl fun l _ => ?_
    congr 1; rw [hq]; push_cast; ring
  rw [hall]
  show ∑ r ∈ range o.R, ∑ d ∈ range (o.nd r), G (o.kd r d) = _
  have hk0 : o.kd 0 0 = 0 := by simp [kd]
  rcases h.cases with h3 | ⟨h3, h4, h5, h6, _⟩
  · rw [h.R_eq, if_pos h3.1, h3.2.2]
    have hnd : o.nd 0 = 1 := by unfold nd; rw [if_pos rfl, h.D0_eq, if_pos h3.1]
    simp [hnd, hk0]
  · rw [h.R_eq, if_neg h3, ← sum_pairs h6 hG]
    refine sum_congr rfl fun r _ => ?_
    unfold nd
    rw [h.D0_eq, if_neg h3]
    by_cases h0 : r = 0
    · subst h0
      rw [if_pos rfl, if_pos rfl]
      split_ifs
      · rw [Finset.sum_range_succ, Finset.sum_range_one, hk0]
        simp [kd]
      · rw [Finset.sum_range_one, hk0, add_zero]
    · rw [if_neg h0, if_neg h0, Finset.sum_range_succ, Finset.sum_range_one]
      simp [kd, h0]

/-- Inversion. -/
theorem hdft_inversion {N H : ℕ} (hH : 0 < H) (hN : 2 * H ≤ N + 1) (x : ℕ → ℂ) {j : ℕ} (hj : j < H) :
    ∑ e ∈ range N, hdft N H x e * w N (-((j : ℤ) * e)) = N * x j := by
  have hN0 : N ≠ 0 := by omega
  have hs : ∀ (a : ℤ), ∑ e ∈ range N, w N (a * e) * w N (-((j : ℤ) * e)) = if (N : ℤ) ∣ a - j then (N : ℂ) else 0 := by
    intro a
    rw [← w_sum N hN0]
    refine sum_congr rfl fun e _ => ?_
    rw [← w_add]; congr 1; ring
  unfold hdft
  simp only [add_mul, sum_mul, sum_add_distrib]
  rw [sum_comm, sum_comm (s := range N)]
  have e1 : ∑ i ∈ range H, ∑ e ∈ range N, x i * w N (i * e) * w N (-((j : ℤ) * e)) = N * x j := by
    rw [Finset.sum_eq_single_of_mem j (mem_range.2 hj)]
    · simp only [mul_assoc, ← mul_sum]
      rw [hs, if_pos (by simp)]; ring
    · intro i hi hne
      rw [mem_range] at hi
      simp only [mul_assoc, ← mul_sum]
      rw [hs, if_neg, mul_zero]
      intro hd
      have := Int.eq_zero_of_abs_lt_dvd hd (by rw [abs_lt]; omega)
      omega
  have e2 : ∑ i ∈ Ico 1 H, ∑ e ∈ range N, conj (x i) * w N (-(i * e)) * w N (-((j : ℤ) * e)) = 0 := by
    refine sum_eq_zero fun i hi => ?_
    rw [mem_Ico] at hi
    simp only [mul_assoc, ← mul_sum]
    have := hs (-(i : ℤ))
    simp only [neg_mul] at this
    rw [this, if_neg, mul_zero]
    intro hd
    have := Int.eq_zero_of_abs_lt_dvd hd (by rw [abs_lt]; omega)
    omega
  rw [e1, e2, add_zero]

end Herm
end Fftwpp
