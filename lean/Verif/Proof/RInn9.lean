import Verif.Proof.RInn8

/-! Backward inner transforms of real data (`p>2`): the residue `0`, the sums. -/

namespace Fftwpp
open Finset
local notation "conj" => starRingEnd ℂ

namespace Re
variable {o : Re} {f F U W : Ptr} {mem : Mem} {r : ℕ} {W? : Option Ptr} {Q : Unit → Mem → Prop}

/-- The inverse transform of row `t` with the twiddle factors. -/
noncomputable def zR (o : Re) (Y : ℕ → ℂ) (t s : ℕ) : ℂ := ∑ l ∈ range o.m, Y (o.m * t + l) * w o.M (-((s : ℤ) * ((o.q : ℤ) * l - o.n * t)))

/-- The inverse transform of the last row with the twiddle factors. -/
noncomputable def zH (o : Re) (Y : ℕ → ℂ) (p2 s : ℕ) : ℂ := ∑ l ∈ range o.h, Y (o.m * p2 + l) * w o.M (-((s : ℤ) * (2 * (o.q : ℤ) * l + (o.q / 2 : ℕ))))

section
variable (w' : o.WF) (hp : 2 < o.p)
include w' hp

theorem zR_real {Y : ℕ → ℂ} (hY : o.Consistent 0 Y) (s : ℕ) : (o.zR Y 0 s).im = 0 := by
  have hm := w'.m_pos
  have hmz : (0 : ℤ) < o.m := by omega
  have hno : o.m ≤ o.noutputs 0 := by
    rw [noutputs0_big w' hp]
    have : o.m * 1 ≤ o.m * ((o.p + 1) / 2) := Nat.mul_le_mul_left _ (by omega)
    omega
  let g : ℤ → ℝ := fun k => (Y (k % o.m).toNat * w o.M (-((s : ℤ) * (o.q * k)))).im
  have hg : ∀ k, g (k + o.m) = g k := by
    intro k
    simp only [g]
    rw [Int.add_emod_right]
    congr 2
    apply w_congr
    rw [w'.M_eq]
    exact ⟨-s, by push_cast; ring⟩
  have hneg := sum_neg_per hg
  have hodd : ∀ l ∈ range o.m, g (-(l : ℤ)) = -g l := by
    intro l hl
    have hl := mem_range.1 hl
    have e1 : ((l : ℤ) % o.m).toNat = l := by rw [Int.emod_eq_of_lt (by omega) (by omega)]; simp
    obtain ⟨l', hl', hd, e2⟩ : ∃ l' < o.m, o.m ∣ l + l' ∧ ((-(l : ℤ)) % o.m).toNat = l' := by
      by_cases h0 : l = 0
      · subst h0; exact ⟨0, hm, by simp, by simp⟩
      · refine ⟨o.m - l, by omega, by rw [Nat.add_sub_cancel' hl.le], ?_⟩
        have : (-(l : ℤ)) % o.m = ((o.m - l : ℕ) : ℤ) := by
          rw [show -(l : ℤ) = ((o.m - l : ℕ) : ℤ) + o.m * (-1) by rw [Nat.cast_sub hl.le]; ring, Int.add_mul_emod_self_left,
            Int.emod_eq_of_lt (by omega) (by omega)]
        rw [this]; simp
    simp only [g]
    rw [e1, e2, hY l (by omega) l' (by omega) ((opp0_big w' hp (by omega) (by omega)).2 ⟨hl, hl', hd⟩)]
    rw [show -((s : ℤ) * (o.q * -(l : ℤ))) = -(-((s : ℤ) * (o.q * l))) by ring, ← w_conj, ← map_mul, Complex.conj_im]
  rw [sum_congr rfl hodd, sum_neg_distrib] at hneg
  have hz : ∑ l ∈ range o.m, g l = 0 := by linarith
  unfold zR
  rw [Complex.im_sum, ← hz]
  refine sum_congr rfl fun l hl => ?_
  have hl := mem_range.1 hl
  have e1 : ((l : ℤ) % o.m).toNat = l := by rw [Int.emod_eq_of_lt (by omega) (by omega)]; simp
  simp only [g]
  rw [e1]
  simp

theorem zero_sum {Y V : ℕ → ℂ} (hY : o.Consistent 0 Y) {s : ℕ} (u : ℕ) (hV1 : ∀ t < (o.p + 1) / 2, V t = o.zR Y t s)
    (hV2 : o.p % 2 = 0 → V (o.p / 2) = ((2 * (o.zH Y (o.p / 2) s).re : ℝ) : ℂ)) :
    RPlan.realSpec o.p V ∧ (∑ t ∈ range o.p, RPlan.full o.p V t * w o.p (t * u)).re =
      ∑ i ∈ range (o.noutputs 0), o.weight 0 i * (Y i * w o.M (-(((s + o.m * u : ℕ) : ℤ) * o.freq 0 i))).re := by
  have hm := w'.m_pos
  have hn := w'.n_pos
  have hq := w'.q_ne hp
  have hreal : RPlan.realSpec o.p V := by
    refine ⟨?_, fun h => ?_⟩
    · rw [hV1 0 (by omega)]; exact zR_real w' hp hY s
    · rw [hV2 h]; exact Complex.ofReal_im _
  refine ⟨hreal, ?_⟩
  have hM : o.M = o.p * (o.m * o.n) := by rw [w'.M_eq, w'.q_big hp]; ring
  have e1 : ∀ k ∈ range o.p, (RPlan.full o.p V k * w o.p (k * u)).re = specTerm o.p V u k := fun k hk => (specTerm_lt (mem_range.1 hk)).symm
  rw [Complex.re_sum, sum_congr rfl e1, ← half_weights (by omega) (specTerm_EvenPer (by omega) hreal u)]
  have h1 : ∀ i ∈ range (o.noutputs 0), o.weight 0 i * (Y i * w o.M (-(((s + o.m * u : ℕ) : ℤ) * o.freq 0 i))).re =
      (if i < o.m then 1 else 2) * (Y i * w o.M (-(((s + o.m * u : ℕ) : ℤ) * o.freq 0 i))).re :=
    fun i hi => by rw [weight0_big w' hp (mem_range.1 hi)]
  rw [sum_congr rfl h1, noutputs0_big w' hp]
  conv_rhs => rw [sum_range_add, sum_splitR, sum_comm]
  -- an ordinary row
  have hrow : ∀ t ∈ range ((o.p + 1) / 2), (if t = 0 ∨ 2 * t = o.p then (1 : ℝ) else 2) * specTerm o.p V u t =
      ∑ l ∈ range o.m, (if l + o.m * t < o.m then (1 : ℝ) else 2) * (Y (l + o.m * t) * w o.M (-(((s + o.m * u : ℕ) : ℤ) * o.freq 0 (l + o.m * t)))).re := by
    intro t ht
    have ht := mem_range.1 ht
    rw [specTerm_lt (by omega)]
    unfold RPlan.full
    rw [if_pos (show t < o.p / 2 + 1 by omega), hV1 t ht]
    unfold zR
    rw [sum_mul, Complex.re_sum, mul_sum]
    refine sum_congr rfl fun l hl => ?_
    have hl := mem_range.1 hl
    rw [freq0_row w' hp ht hl, Nat.add_comm l]
    congr 1
    · by_cases h0 : t = 0
      · subst h0; rw [if_pos (Or.inl rfl), if_pos (by omega)]
      · have : o.m * 1 ≤ o.m * t := Nat.mul_le_mul_left _ (by omega)
        rw [if_neg (by omega), if_neg (by omega)]
    · rw [mul_assoc]
      congr 2
      rw [show w o.p ((t : ℤ) * u) = w o.M (((o.m * o.n : ℕ) : ℤ) * ((t : ℤ) * u)) by
        rw [hM, w_base _ _ (by have := Nat.mul_pos hm hn; omega)], ← w_add]
      apply w_congr
      rw [w'.M_eq]
      exact ⟨u * l, by push_cast; ring⟩
  by_cases hpe : o.p % 2 = 0
  · rw [if_pos hpe]
    obtain ⟨hqe, hqh⟩ := w'.q_half hp hpe
    have hmh := w'.m_h hq hqe
    have hp2 : (o.p + 1) / 2 = o.p / 2 := by omega
    rw [hp2] at hrow ⊢
    rw [sum_range_succ, sum_congr rfl hrow]
    congr 1
    rw [if_pos (Or.inr (by omega)), specTerm_lt (by omega)]
    unfold RPlan.full
    rw [if_pos (by omega), hV2 hpe, show w o.p (((o.p / 2 : ℕ) : ℤ) * u) = w 2 u by
      have h := w_base 2 (o.p / 2) (by omega) u
      rw [← h]; congr 1; omega]
    have hre : ∀ (a : ℂ), (a * w 2 u).re = a.re * (w 2 u).re := by
      intro a
      have : (w 2 (u : ℤ)).im = 0 := Complex.conj_eq_iff_im.1 (w_two_real u)
      rw [Complex.mul_re, this]; ring
    rw [hre, Complex.ofReal_re, one_mul, mul_assoc, ← hre]
    unfold zH
    rw [sum_mul, Complex.re_sum, mul_sum]
    refine sum_congr rfl fun l hl => ?_
    have hl := mem_range.1 hl
    have : o.m * 1 ≤ o.m * (o.p / 2) := Nat.mul_le_mul_left _ (by omega)
    have hf := freq0_half w' hp (l := l) (by omega)
    rw [hp2] at hf
    rw [if_neg (by omega), Nat.add_comm _ l, hf, mul_assoc]
    congr 3
    have hw2 : w 2 (u : ℤ) = w o.M (-(((o.m * (o.q / 2) : ℕ) : ℤ) * u)) := by
      rw [show -(((o.m * (o.q / 2) : ℕ) : ℤ) * u) = ((o.m * (o.q / 2) : ℕ) : ℤ) * (-u) by ring]
      have hMe : o.M = 2 * (o.m * (o.q / 2)) := by
        rw [w'.M_eq]
        obtain ⟨k, hk⟩ : ∃ k, o.q = 2 * k := ⟨o.q / 2, by omega⟩
        rw [hk, Nat.mul_div_cancel_left _ (by omega : 0 < 2)]; ring
      have h0 : o.m * (o.q / 2) ≠ 0 := by
        have := w'.q_pos
        have := Nat.mul_pos hm (show 0 < o.q / 2 by omega)
        omega
      have := w_base 2 (o.m * (o.q / 2)) h0 (-u)
      rw [hMe, this, ← w_conj, w_two_real]
    rw [hw2, ← w_add]
    apply w_congr
    rw [w'.M_eq]
    generalize o.q / 2 = q2
    exact ⟨2 * u * l, by push_cast; ring⟩
  · rw [if_neg hpe, sum_range_zero, add_zero, show o.p / 2 + 1 = (o.p + 1) / 2 by omega, sum_congr rfl hrow]

end
end Re
end Fftwpp
