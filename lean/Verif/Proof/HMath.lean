import Verif.Spec.Herm
import Verif.Proof.Rows
import Mathlib.Tactic.Ring

/-! Folding of Hermitian data: the algebra behind the Hermitian transforms. -/

namespace Fftwpp
open Finset ComplexConjugate

theorem hext_conj {H : ℕ} {x : ℕ → ℂ} (h0 : (x 0).im = 0) (j : ℤ) : conj (hext H x j) = hext H x (-j) := by
  unfold hext
  rw [Int.natAbs_neg]
  split_ifs with h1 h2 h3 h3
  · have : j = 0 := by omega
    subst this
    exact Complex.conj_eq_iff_im.2 h0
  · rfl
  · simp
  · omega
  · simp

theorem hext_nat {H : ℕ} {x : ℕ → ℂ} (j : ℕ) : hext H x j = if j < H then x j else 0 := by
  unfold hext
  simp

theorem hext_neg {H : ℕ} {x : ℕ → ℂ} {j : ℕ} (hj : 0 < j) : hext H x (-(j : ℤ)) = if j < H then conj (x j) else 0 := by
  unfold hext
  rw [Int.natAbs_neg, Int.natAbs_natCast, if_neg (by omega : ¬ (0 : ℤ) ≤ -(j : ℤ))]

/-- The transform as a sum over `[-K,K)`. -/
theorem hdft_eq {N H K : ℕ} (hK : H ≤ K) (x : ℕ → ℂ) (k : ℤ) :
    hdft N H x k = ∑ a ∈ range K, (hext H x a * w N (a * k) + hext H x ((a : ℤ) - K) * w N (((a : ℤ) - K) * k)) := by
  rw [sum_add_distrib]
  unfold hdft
  congr 1
  · rw [sum_trunc H K hK]
    apply sum_congr rfl
    intro j _
    rw [hext_nat, apply_ite (· * w N (j * k)), zero_mul]
  · have h1 : ∑ a ∈ range K, hext H x ((a : ℤ) - K) * w N (((a : ℤ) - K) * k) =
        ∑ j ∈ range K, hext H x (-((j + 1 : ℕ) : ℤ)) * w N (-(((j + 1 : ℕ) : ℤ) * k)) := by
      rw [← Finset.sum_range_reflect]
      apply sum_congr rfl
      intro j hj
      rw [mem_range] at hj
      have : (((K - 1 - j : ℕ) : ℤ) - K) = -((j + 1 : ℕ) : ℤ) := by omega
      rw [this]; congr 2; ring
    rw [h1, Finset.sum_Ico_eq_sum_range, sum_trunc (H - 1) K (by omega)]
    apply sum_congr rfl
    intro j _
    rw [hext_neg (by omega)]
    by_cases hj : j < H - 1
    · rw [if_pos hj, if_pos (by omega), add_comm 1 j]
    · rw [if_neg hj, if_neg (by omega), zero_mul]

/-- The transform of Hermitian data is real. -/
theorem hdft_real {N H : ℕ} {x : ℕ → ℂ} (h0 : (x 0).im = 0) (k : ℤ) : (hdft N H x k).im = 0 := by
  rw [← Complex.conj_eq_iff_im]
  unfold hdft
  rcases Nat.eq_zero_or_pos H with rfl | hH
  · simp
  rw [map_add, map_sum, map_sum, Finset.range_eq_Ico, Finset.sum_eq_sum_Ico_succ_bot hH,
    Finset.sum_eq_sum_Ico_succ_bot hH]
  simp only [map_mul, w_conj, Complex.conj_conj, neg_neg, Nat.cast_zero, zero_mul, neg_zero, w_zero, mul_one]
  rw [Complex.conj_eq_iff_im.2 h0]
  ring

/-- Data folded modulo `m`, with the phase of residue `k`. -/
noncomputable def fold (N m P H : ℕ) (x : ℕ → ℂ) (k : ℤ) (s : ℕ) : ℂ :=
  ∑ t ∈ range P, (hext H x ((t * m + s : ℕ) : ℤ) * w N (((t * m + s : ℕ) : ℤ) * k) +
    hext H x (((t * m + s : ℕ) : ℤ) - (P * m : ℕ)) * w N ((((t * m + s : ℕ) : ℤ) - (P * m : ℕ)) * k))

theorem fold_sum {m q P H : ℕ} (hm : 0 < m) (hq : 0 < q) (hH : H ≤ P * m) (x : ℕ → ℂ) (k : ℤ) (l : ℕ) :
    ∑ s ∈ range m, fold (m * q) m P H x k s * w m (s * l) = hdft (m * q) H x (q * l + k) := by
  rw [hdft_eq hH]
  have := sum_split P m (fun a => hext H x a * w (m * q) (a * (q * l + k)) +
    hext H x ((a : ℤ) - (P * m : ℕ)) * w (m * q) (((a : ℤ) - (P * m : ℕ)) * (q * l + k)))
  rw [mul_comm m P] at this
  rw [this]
  apply sum_congr rfl
  intro s _
  unfold fold
  rw [sum_mul]
  apply sum_congr rfl
  intro t _
  have e0 : w m (s * l) = w (m * q) (q * (s * l)) := (w_base m q (by omega) _).symm
  have e1 : w (m * q) (((s + m * t : ℕ) : ℤ) * (q * l + k)) = w (m * q) (((t * m + s : ℕ) : ℤ) * k) * w m (s * l) := by
    rw [e0, ← w_add]
    apply w_congr
    refine ⟨t * l, ?_⟩
    push_cast; ring
  have e2 : w (m * q) ((((s + m * t : ℕ) : ℤ) - (P * m : ℕ)) * (q * l + k)) =
      w (m * q) ((((t * m + s : ℕ) : ℤ) - (P * m : ℕ)) * k) * w m (s * l) := by
    rw [e0, ← w_add]
    apply w_congr
    refine ⟨(t - P) * l, ?_⟩
    push_cast; ring
  rw [e1, e2, show s + m * t = t * m + s by ring]
  ring

theorem fold_conj {N m P H : ℕ} (hm : 0 < m) {x : ℕ → ℂ} (h0 : (x 0).im = 0) (k : ℤ) {s : ℕ} (hs : 0 < s) (hsm : s < m) :
    conj (fold N m P H x k s) = fold N m P H x k (m - s) := by
  unfold fold
  rw [map_sum, ← Finset.sum_range_reflect]
  apply sum_congr rfl
  intro t ht
  rw [mem_range] at ht
  have e : P * m = (P - 1 - t) * m + t * m + m := by
    rw [← Nat.add_mul, ← Nat.succ_mul]; congr 1; omega
  have e1 : -((((P - 1 - t) * m + s : ℕ) : ℤ)) = ((t * m + (m - s) : ℕ) : ℤ) - (P * m : ℕ) := by
    rw [e]; omega
  have e2 : -((((P - 1 - t) * m + s : ℕ) : ℤ) - (P * m : ℕ)) = ((t * m + (m - s) : ℕ) : ℤ) := by
    rw [e]; omega
  rw [map_add, map_mul, map_mul, hext_conj h0, hext_conj h0, w_conj, w_conj, ← neg_mul, ← neg_mul, e1, e2, add_comm]

theorem fold_zero_real {N m P H : ℕ} (hH : H ≤ P * m) {x : ℕ → ℂ} (h0 : (x 0).im = 0) (k : ℤ) :
    (fold N m P H x k 0).im = 0 := by
  rw [← Complex.conj_eq_iff_im]
  let g : ℤ → ℂ := fun j => hext H x (j * m) * w N (j * m * k)
  have hg : ∀ j, conj (g j) = g (-j) := by
    intro j
    simp only [g]
    rw [map_mul, hext_conj h0, w_conj, neg_mul, neg_mul]
  have hP : g (-(P : ℤ)) = 0 := by
    simp only [g]
    unfold hext
    rw [if_neg, zero_mul]
    rw [neg_mul, Int.natAbs_neg]
    have : ((P : ℤ) * m).natAbs = P * m := by rw [← Nat.cast_mul, Int.natAbs_natCast]
    omega
  have hf : fold N m P H x k 0 = ∑ t ∈ range P, (g t + g ((t : ℤ) - P)) := by
    unfold fold
    apply sum_congr rfl
    intro t _
    simp only [g]
    have a1 : (((t * m + 0 : ℕ) : ℤ)) = (t : ℤ) * m := by push_cast; ring
    have a2 : (((t * m + 0 : ℕ) : ℤ)) - (P * m : ℕ) = ((t : ℤ) - P) * m := by push_cast; ring
    rw [a2, a1]
  have hs : ∑ t ∈ range P, g ((t : ℤ) - P) + g 0 = ∑ t ∈ range P, g (-(t : ℤ)) := by
    have e1 : ∑ t ∈ range P, g ((t : ℤ) - P) = ∑ t ∈ range P, g (-((t + 1 : ℕ) : ℤ)) := by
      rw [← Finset.sum_range_reflect]
      apply sum_congr rfl
      intro t ht
      rw [mem_range] at ht
      congr 1; omega
    have e2 := Finset.sum_range_succ' (fun t : ℕ => g (-(t : ℤ))) P
    rw [Finset.sum_range_succ, hP, add_zero] at e2
    rw [e1, e2]; simp
  have hf2 : fold N m P H x k 0 = ∑ t ∈ range P, (g t + g (-(t : ℤ))) - g 0 := by
    rw [hf, sum_add_distrib, sum_add_distrib, ← hs]; ring
  rw [hf2, map_sub, map_sum, hg, neg_zero]
  congr 1
  apply sum_congr rfl
  intro t _
  rw [map_add, hg, hg, neg_neg, add_comm]

/-- The first stage of the transform of residue `k`. -/
noncomputable def fold1 (m P n H : ℕ) (x : ℕ → ℂ) (k : ℤ) (t s : ℕ) : ℂ :=
  w (P * n) (t * k) * (hext H x ((t * m + s : ℕ) : ℤ) + w n (-k) * hext H x (((t * m + s : ℕ) : ℤ) - (P * m : ℕ)))

theorem w_split {m P n : ℕ} (hm : 0 < m) (hP : 0 < P) (hn : 0 < n) (t s : ℕ) (u : ℕ) (k : ℤ) :
    w (m * (P * n)) (((t * m + s : ℕ) : ℤ) * (n * u + k)) = w (m * (P * n)) (s * (n * u + k)) * (w P (t * u) * w (P * n) (t * k)) := by
  have e1 : w P (t * u) = w (P * n) (n * (t * u)) := (w_base P n (by omega) _).symm
  rw [e1, ← w_add, ← w_base' m (P * n) (by omega), ← w_add]
  congr 1; push_cast; ring

theorem w_shift {m P n : ℕ} (hm : 0 < m) (hP : 0 < P) (hn : 0 < n) (u : ℕ) (k : ℤ) :
    w (m * (P * n)) (((P * m : ℕ) : ℤ) * (n * u + k)) = w n k := by
  rw [show (((P * m : ℕ) : ℤ) * (n * u + k)) = m * (P * (n * u + k)) by push_cast; ring, w_base' _ _ (by omega), w_base' _ _ (by omega)]
  apply w_congr
  exact ⟨u, by ring⟩

theorem fold_stages {m P n H : ℕ} (hm : 0 < m) (hP : 0 < P) (hn : 0 < n) (x : ℕ → ℂ) (k : ℤ) (u s : ℕ) :
    fold (m * (P * n)) m P H x (n * u + k) s =
      w (m * (P * n)) (s * (n * u + k)) * ∑ t ∈ range P, fold1 m P n H x k t s * w P (t * u) := by
  unfold fold fold1
  rw [mul_sum]
  apply sum_congr rfl
  intro t _
  rw [sub_mul, sub_eq_add_neg (((t * m + s : ℕ) : ℤ) * (n * u + k)), w_add, w_split hm hP hn, ← w_conj, w_shift hm hP hn, w_conj]
  ring

theorem bwd_low {m P n : ℕ} (hm : 0 < m) (hP : 0 < P) (hn : 0 < n) (y : ℕ → ℕ → ℂ) (k : ℤ) (t s : ℕ) :
    w (P * n) (-(t * k)) * ∑ u ∈ range P, (∑ l ∈ range m, y u l * w m (-((s : ℤ) * l))) * w (m * (P * n)) (-(s * (n * u + k))) * w P (-(t * u)) =
      ∑ u ∈ range P, ∑ l ∈ range m, y u l * w (m * (P * n)) (-(((t * m + s : ℕ) : ℤ) * ((P * n : ℕ) * l + (n * u + k)))) := by
  rw [mul_sum]
  apply sum_congr rfl
  intro u _
  rw [sum_mul, sum_mul, mul_sum]
  apply sum_congr rfl
  intro l _
  have e : w (m * (P * n)) (-(((t * m + s : ℕ) : ℤ) * ((P * n : ℕ) * l + (n * u + k)))) =
      w m (-((s : ℤ) * l)) * (w (m * (P * n)) (-(s * (n * u + k))) * (w P (-(t * u)) * w (P * n) (-(t * k)))) := by
    rw [← w_conj, ← w_conj, ← w_conj, ← w_conj, ← w_conj, ← map_mul, ← map_mul, ← map_mul, ← w_split hm hP hn,
      ← w_base m (P * n) (Nat.mul_pos hP hn).ne', ← w_add]
    congr 1
    apply w_congr
    exact ⟨t * l, by push_cast; ring⟩
  rw [e]; ring

theorem bwd_high {m P n : ℕ} (hm : 0 < m) (hP : 0 < P) (hn : 0 < n) {y : ℕ → ℕ → ℂ} (hy : ∀ u l, conj (y u l) = y u l) (k : ℤ)
    (t s : ℕ) (hts : t * m + s ≤ P * m) :
    conj (w n k * (w (P * n) (-(t * k)) * ∑ u ∈ range P,
      (∑ l ∈ range m, y u l * w m (-((s : ℤ) * l))) * w (m * (P * n)) (-(s * (n * u + k))) * w P (-(t * u)))) =
      ∑ u ∈ range P, ∑ l ∈ range m, y u l * w (m * (P * n)) (-(((P * m - (t * m + s) : ℕ) : ℤ) * ((P * n : ℕ) * l + (n * u + k)))) := by
  rw [bwd_low hm hP hn, map_mul, w_conj, map_sum, mul_sum]
  apply sum_congr rfl
  intro u _
  rw [map_sum, mul_sum]
  apply sum_congr rfl
  intro l _
  rw [map_mul, hy, w_conj, neg_neg, ← w_conj, ← w_shift hm hP hn u, w_conj, mul_left_comm, ← w_add]
  congr 1
  apply w_congr
  refine ⟨P * l, ?_⟩
  rw [Nat.cast_sub hts]; push_cast; ring

end Fftwpp
