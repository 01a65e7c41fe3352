import Verif.Proof.RBwd3
import Verif.Spec.Real

/-! Sums over the frequencies of the blocks of a transform of real data. -/

namespace Fftwpp
open Finset

theorem sum_splitR {m p : ℕ} (g : ℕ → ℝ) : ∑ j ∈ range (m * p), g j = ∑ s ∈ range m, ∑ t ∈ range p, g (s + m * t) := by
  induction p with
  | zero => simp
  | succ p ih =>
    rw [Nat.mul_succ, sum_range_add, ih, ← sum_add_distrib]
    refine sum_congr rfl fun s _ => ?_
    rw [sum_range_succ, Nat.add_comm (m * p)]

/-- Sum of `g` over `m` frequencies congruent modulo `q`. -/
noncomputable def gsum (q m : ℕ) (g : ℤ → ℝ) (ρ : ℤ) : ℝ := ∑ l ∈ range m, g ((q : ℤ) * l + ρ)

/-- Even and periodic. -/
structure EvenPer (N : ℕ) (g : ℤ → ℝ) : Prop where
  per : ∀ k, g (k + N) = g k
  even : ∀ k, g (-k) = g k

theorem EvenPer.mul {N : ℕ} {g : ℤ → ℝ} (h : EvenPer N g) (k t : ℤ) : g (k + N * t) = g k := by
  induction t using Int.induction_on with
  | zero => simp
  | succ i ih => rw [mul_add, mul_one, ← add_assoc, h.per, ih]
  | pred i ih => rw [← ih, ← h.per (k + N * (-i - 1))]; congr 1; ring

theorem sum_shift_per {m : ℕ} {f : ℤ → ℝ} (hf : ∀ k, f (k + m) = f k) (a : ℤ) : ∑ l ∈ range m, f (l + a) = ∑ l ∈ range m, f l := by
  have step : ∀ a : ℤ, ∑ l ∈ range m, f (l + (a + 1)) = ∑ l ∈ range m, f (l + a) := by
    intro a
    have h1 := sum_range_succ (fun l : ℕ => f (l + a)) m
    have h2 := sum_range_succ' (fun l : ℕ => f (l + a)) m
    have h3 : f ((m : ℕ) + a) = f ((0 : ℕ) + a) := by
      rw [Nat.cast_zero, zero_add, add_comm (m : ℤ), hf]
    rw [h1, h3] at h2
    have h4 := add_right_cancel h2
    rw [h4]
    refine sum_congr rfl fun l _ => ?_
    congr 1; push_cast; ring
  induction a using Int.induction_on with
  | zero => simp
  | succ i ih => rw [step, ih]
  | pred i ih => rw [← ih, ← step]; refine sum_congr rfl fun l _ => ?_; congr 1; ring

theorem sum_neg_per {m : ℕ} {f : ℤ → ℝ} (hf : ∀ k, f (k + m) = f k) : ∑ l ∈ range m, f (-l) = ∑ l ∈ range m, f l := by
  rw [← sum_range_reflect (fun l : ℕ => f (-(l : ℤ))) m, ← sum_shift_per hf 1]
  refine sum_congr rfl fun l hl => ?_
  have : l < m := mem_range.1 hl
  rw [← hf]
  congr 1
  omega

theorem gsum_even {N q m : ℕ} {g : ℤ → ℝ} (hN : N = m * q) (h : EvenPer N g) (ρ : ℤ) : gsum q m g (-ρ) = gsum q m g ρ := by
  have hp : ∀ k : ℤ, g ((q : ℤ) * (k + m) + ρ) = g ((q : ℤ) * k + ρ) := by
    intro k
    rw [← h.per (q * k + ρ)]; congr 1; rw [hN]; push_cast; ring
  unfold gsum
  rw [← sum_neg_per (f := fun k => g ((q : ℤ) * k + ρ)) hp]
  refine sum_congr rfl fun l _ => ?_
  rw [← h.even]; congr 1; ring

theorem gsum_per {N q m : ℕ} {g : ℤ → ℝ} (hN : N = m * q) (h : EvenPer N g) (ρ : ℤ) : gsum q m g (ρ + q) = gsum q m g ρ := by
  have hp : ∀ k : ℤ, g ((q : ℤ) * (k + m) + ρ) = g ((q : ℤ) * k + ρ) := by
    intro k
    rw [← h.per (q * k + ρ)]; congr 1; rw [hN]; push_cast; ring
  unfold gsum
  rw [← sum_shift_per (f := fun k => g ((q : ℤ) * k + ρ)) hp 1]
  refine sum_congr rfl fun l _ => ?_
  congr 1; ring

theorem gsum_EvenPer {N q m : ℕ} {g : ℤ → ℝ} (hN : N = m * q) (h : EvenPer N g) : EvenPer q (gsum q m g) :=
  ⟨gsum_per hN h, gsum_even hN h⟩

theorem gsum_total {q m : ℕ} (g : ℤ → ℝ) : ∑ ρ ∈ range q, gsum q m g ρ = ∑ k ∈ range (m * q), g k := by
  rw [Nat.mul_comm, sum_splitR]
  refine sum_congr rfl fun ρ _ => ?_
  unfold gsum
  refine sum_congr rfl fun l _ => ?_
  congr 1; push_cast; ring

/-- The sum over all of a period of an even function, from half of the period. -/
theorem even_total {n : ℕ} {g : ℤ → ℝ} (hn : 0 < n) (h : EvenPer n g) :
    ∑ k ∈ range n, g k = g 0 + 2 * (∑ a ∈ range ((n - 1) / 2), g ((a : ℤ) + 1)) + if n % 2 = 0 then g ((n / 2 : ℕ) : ℤ) else 0 := by
  have hx : ∀ K, ∀ a, ∑ k ∈ range K, g ((n : ℤ) - (a + 1 + k : ℕ)) = ∑ k ∈ range K, g ((a + 1 + k : ℕ) : ℤ) := by
    intro K a
    refine sum_congr rfl fun k _ => ?_
    rw [← h.even, ← h.per]; congr 1; ring
  have key : ∀ K E, n = 2 * K + 1 + E → ∑ k ∈ range n, g k = g 0 + 2 * (∑ a ∈ range K, g ((a : ℤ) + 1)) + ∑ a ∈ range E, g ((K + 1 + a : ℕ) : ℤ) := by
    intro K E hKE
    have e1 : ∑ a ∈ range K, g ((K + 1 + E + a : ℕ) : ℤ) = ∑ a ∈ range K, g ((a : ℤ) + 1) := by
      rw [← sum_range_reflect]
      refine sum_congr rfl fun a ha => ?_
      have : a < K := mem_range.1 ha
      rw [← h.even, ← h.per]; congr 1; omega
    rw [hKE, show 2 * K + 1 + E = 1 + (K + (E + K)) by ring, sum_range_add, sum_range_add, sum_range_add]
    simp only [sum_range_one, Nat.cast_zero]
    rw [two_mul, ← e1]
    have e2 : ∑ x ∈ range K, g ((1 + x : ℕ) : ℤ) = ∑ a ∈ range K, g ((K + 1 + E + a : ℕ) : ℤ) := by
      rw [e1]; refine sum_congr rfl fun x _ => ?_; congr 1; push_cast; ring
    have e3 : ∑ x ∈ range E, g ((1 + (K + x) : ℕ) : ℤ) = ∑ a ∈ range E, g ((K + 1 + a : ℕ) : ℤ) :=
      sum_congr rfl fun x _ => by congr 1; push_cast; ring
    have e4 : ∑ x ∈ range K, g ((1 + (K + (E + x)) : ℕ) : ℤ) = ∑ a ∈ range K, g ((K + 1 + E + a : ℕ) : ℤ) :=
      sum_congr rfl fun x _ => by congr 1; push_cast; ring
    rw [e2, e3, e4]
    ring
  split_ifs with h2
  · rw [key ((n - 1) / 2) 1 (by omega)]
    simp only [sum_range_one]
    congr 3; omega
  · rw [key ((n - 1) / 2) 0 (by omega)]
    simp

namespace Re
variable {o : Re}

/-- What the ordinary residues and the middle one contribute, along the loop over `r`. -/
theorem WF.sum_visited (w' : o.WF) (hq : o.q ≠ 1) {H : ℤ → ℝ} {B : ℕ → ℝ} (hB : ∀ r, 0 < r → 2 * r < o.n → o.Visit r → B r = 2 * ∑ d ∈ range (o.nd r), H ((r + d : ℕ) : ℤ))
    (hBn : 0 < o.n / 2 → o.n % 2 = 0 → B (o.n / 2) = H ((o.n / 2 : ℕ) : ℤ)) :
    ∀ fuel r0, 0 < r0 → (r0 = 1 ∨ (∃ t, r0 = 1 + o.D0 + o.D * t) ∨ o.R ≤ r0) → o.R ≤ r0 + fuel →
      ((o.visited fuel r0).map B).sum = 2 * (∑ a ∈ range ((o.n - 1) / 2 + 1 - r0), H ((r0 + a : ℕ) : ℤ)) +
        if r0 < o.R ∧ o.n % 2 = 0 then H ((o.n / 2 : ℕ) : ℤ) else 0 := by
  obtain ⟨hD00, hD0D, hD0e, hD0t⟩ := w'.D0_facts hq
  have hR := w'.R_eq
  have hn := w'.n_pos
  have hR' : o.R = (o.n + 2) / 2 := by rw [hR]; unfold ceilquotient; omega
  intro fuel
  induction fuel with
  | zero =>
    intro r0 h0 _ hf
    rw [visited, show (o.n - 1) / 2 + 1 - r0 = 0 by omega, if_neg (by omega)]
    simp
  | succ fuel ih =>
    intro r0 h0 hr hf
    rw [visited]
    by_cases hlt : r0 < o.R
    · rw [if_pos hlt, List.map_cons, List.sum_cons]
      by_cases h2 : 2 * r0 < o.n
      · have hinc : o.increment r0 = o.nd r0 := by
          unfold increment nd
          by_cases h1 : r0 = 1
          · subst h1
            simp only [true_and, lt_irrefl, if_false, if_true]
            by_cases hd : o.D0 = o.D
            · rw [if_neg (by simp [hd]), hd]
            · rw [if_pos hd]
          · rw [if_pos (by omega), if_neg (by omega)]
        have hnext : (∃ t, r0 + o.increment r0 = 1 + o.D0 + o.D * t) := by
          rw [hinc]; unfold nd
          rcases hr with rfl | ⟨t, rfl⟩ | h
          · refine ⟨0, ?_⟩
            split_ifs with hc
            · simp
            · have : o.D0 = o.D := by by_contra h'; exact hc ⟨rfl, h'⟩
              omega
          · rw [if_neg (by omega)]; exact ⟨t + 1, by ring⟩
          · omega
        obtain ⟨T, hT⟩ := hD0t (by omega)
        have hle : r0 + o.nd r0 ≤ (o.n - 1) / 2 + 1 := by
          obtain ⟨t, ht⟩ := hnext
          rw [hinc] at ht
          by_contra hc
          have h3 : o.D0 + o.D * T < o.D0 + o.D * t := by omega
          have h4 : T < t := by
            by_contra h5
            have := Nat.mul_le_mul_left o.D (Nat.le_of_not_lt h5)
            omega
          have h5 : o.D * (T + 1) ≤ o.D * t := Nat.mul_le_mul_left _ h4
          have h6 : o.nd r0 ≤ o.D := by unfold nd; split_ifs <;> omega
          rw [Nat.mul_succ] at h5
          omega
        have hnd : 0 < o.nd r0 := by unfold nd; split_ifs <;> omega
        rw [hB r0 h0 h2 (Or.inr (Or.inr ⟨h0, h2, hle⟩)), ih _ (by omega) (Or.inr (Or.inl hnext)) (by rw [hinc]; omega), hinc,
          show (o.n - 1) / 2 + 1 - r0 = o.nd r0 + ((o.n - 1) / 2 + 1 - (r0 + o.nd r0)) by omega, sum_range_add, mul_add, add_assoc]
        congr 1
        congr 1
        · congr 1
          refine sum_congr rfl fun a _ => ?_
          congr 2; omega
        · by_cases he : o.n % 2 = 0
          · rw [if_pos ⟨by omega, he⟩, if_pos ⟨by omega, he⟩]
          · rw [if_neg (fun h => he h.2), if_neg (fun h => he h.2)]
      · have he : o.n % 2 = 0 ∧ r0 = o.n / 2 := by omega
        obtain ⟨he1, rfl⟩ := he
        have hinc : 0 < o.increment (o.n / 2) := by unfold increment; have := w'.D_pos; split_ifs <;> omega
        generalize o.increment (o.n / 2) = inc at hinc ⊢
        have hRR : o.R ≤ o.n / 2 + inc := by omega
        rw [hBn (by omega) he1, ih _ (by omega) (Or.inr (Or.inr hRR)) (by omega)]
        rw [show (o.n - 1) / 2 + 1 - o.n / 2 = 0 by omega, if_neg (by omega), if_pos ⟨by omega, he1⟩,
          show (o.n - 1) / 2 + 1 - (o.n / 2 + inc) = 0 by omega]
        simp
    · rw [if_neg hlt, if_neg (fun h => hlt h.1), show (o.n - 1) / 2 + 1 - r0 = 0 by omega]
      simp

/-- The sum over all frequencies, block by block. -/
theorem WF.sum_all (w' : o.WF) {H : ℤ → ℝ} {B : ℕ → ℝ} (hH : EvenPer o.n H) (h0 : B 0 = H 0)
    (hB : ∀ r, 0 < r → 2 * r < o.n → o.Visit r → B r = 2 * ∑ d ∈ range (o.nd r), H ((r + d : ℕ) : ℤ))
    (hBn : 0 < o.n / 2 → o.n % 2 = 0 → B (o.n / 2) = H ((o.n / 2 : ℕ) : ℤ)) :
    ((o.visited o.R 0).map B).sum = ∑ k ∈ range o.n, H k := by
  have hn := w'.n_pos
  have hR' : o.R = (o.n + 2) / 2 := by rw [w'.R_eq]; unfold ceilquotient; omega
  rw [even_total hn hH]
  obtain ⟨R', hR1⟩ : ∃ R', o.R = R' + 1 := ⟨o.R - 1, by omega⟩
  have hinc : o.increment 0 = 1 := by unfold increment; simp
  rw [hR1, visited, if_pos (by omega), List.map_cons, List.sum_cons, hinc, h0, add_assoc]
  congr 1
  by_cases hq : o.q = 1
  · have h1 := (w'.q_one_n hq).1
    have : R' = 0 := by omega
    subst this
    rw [visited, h1]; simp
  · rw [w'.sum_visited hq hB hBn R' (0 + 1) (by omega) (Or.inl rfl) (by omega)]
    congr 1
    · rw [show (o.n - 1) / 2 + 1 - (0 + 1) = (o.n - 1) / 2 by omega]
      congr 1
      refine sum_congr rfl fun a _ => ?_
      congr 1; push_cast; ring
    · by_cases he : o.n % 2 = 0
      · rw [if_pos ⟨by omega, he⟩, if_pos he]
      · rw [if_neg (fun h => he h.2), if_neg he]

end Re
end Fftwpp
