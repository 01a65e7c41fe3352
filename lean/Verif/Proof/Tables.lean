import Verif.Proof.Resid
import Verif.Proof.Loops

/-! Lookups in the tables of roots of unity. -/

namespace Fftwpp
namespace Fft
variable {o : Fft}

theorem WF.zq_bd (h : o.WF) (hq : o.q ≠ 1) {r s : ℕ} (hr : 0 < r) (hrq : r < o.q) (hs : s < o.m) :
    o.Zetaqm.lo ≤ o.m * r + s ∧ o.m * r + s < o.Zetaqm.hi := by
  rw [h.Zqm hq]
  simp only [initZetaqm]
  have h1 : o.m * 1 ≤ o.m * r := Nat.mul_le_mul_left _ hr
  have h2 : o.m * (r + 1) ≤ o.m * o.q := Nat.mul_le_mul_left _ hrq
  rw [Nat.mul_succ] at h2
  have h3 : o.m + (o.q - 1) * o.m = o.m * o.q := by
    obtain ⟨k, hk⟩ : ∃ k, o.q = k + 1 := ⟨o.q - 1, by omega⟩
    rw [hk]; simp; ring
  omega

theorem WF.zq_val (h : o.WF) (hq : o.q ≠ 1) {r s : ℕ} (hs : s < o.m) :
    o.Zetaqm.val (o.m * r + s) = w o.M (s * r) := by
  rw [h.Zqm hq]
  simp only [initZetaqm]
  rw [Nat.mul_add_div h.m_pos, Nat.div_eq_of_lt hs, Nat.add_zero, Nat.mul_add_mod, Nat.mod_eq_of_lt hs]
  congr 1; push_cast; ring

theorem WF.zq_bd1 (h : o.WF) (hq : 1 < o.q) {s : ℕ} (hs : s < o.m) :
    o.Zetaqm.lo ≤ o.m + s ∧ o.m + s < o.Zetaqm.hi := by
  have := h.zq_bd (by omega) (r := 1) (by omega) hq hs
  rwa [Nat.mul_one] at this

theorem WF.zq_val1 (h : o.WF) (hq : o.q ≠ 1) {s : ℕ} (hs : s < o.m) :
    o.Zetaqm.val (o.m + s) = w o.M (s * 1) := by
  have := h.zq_val hq (r := 1) hs
  rwa [Nat.mul_one, Nat.cast_one] at this

theorem WF.zqS_bd (h : o.WF) (hp : o.p = 2) {r j : ℕ} (hr : 0 < r) (hrq : r < o.q) (hj : o.m ≤ j) (hjL : j < o.L) :
    o.ZetaqmS.lo ≤ (o.L - o.m) * r + j ∧ (o.L - o.m) * r + j < o.ZetaqmS.hi := by
  rw [h.ZqmS hp]
  simp only [initZetaqmS]
  have h1 : (o.L - o.m) * 1 ≤ (o.L - o.m) * r := Nat.mul_le_mul_left _ hr
  have h2 : (o.L - o.m) * r ≤ (o.L - o.m) * (o.q - 1) := Nat.mul_le_mul_left _ (by omega)
  rw [Nat.mul_comm (o.q - 1)]
  omega

theorem WF.zqS_val (h : o.WF) (hp : o.p = 2) {r j : ℕ} (hj : o.m ≤ j) (hjL : j < o.L) :
    o.ZetaqmS.val ((o.L - o.m) * r + j) = w o.M (j * r) := by
  rw [h.ZqmS hp]
  simp only [initZetaqmS]
  rw [Nat.add_sub_assoc hj, Nat.mul_add_div (by omega), Nat.div_eq_of_lt (by omega : j - o.m < o.L - o.m), Nat.add_zero,
    Nat.mul_add_mod, Nat.mod_eq_of_lt (by omega : j - o.m < o.L - o.m), show o.m + (j - o.m) = j by omega]
  congr 1; push_cast; ring

theorem WF.zqp_bd (h : o.WF) (hp : 2 < o.p) {r t : ℕ} (hr : 0 < r) (hrn : r < o.n) (ht : 0 < t) (htp : t < o.p) :
    o.Zetaqp.lo ≤ (o.p - 1) * r + t ∧ (o.p - 1) * r + t < o.Zetaqp.hi := by
  rw [h.Zqp hp]
  simp only [initZetaqp]
  have h1 : (o.p - 1) * 1 ≤ (o.p - 1) * r := Nat.mul_le_mul_left _ hr
  have h2 : (o.p - 1) * r ≤ (o.p - 1) * (o.n - 1) := Nat.mul_le_mul_left _ (by omega)
  rw [Nat.mul_comm (o.n - 1)]
  omega

theorem WF.zqp_val (h : o.WF) (hp : 2 < o.p) {r t : ℕ} (ht : 0 < t) (htp : t < o.p) :
    o.Zetaqp.val ((o.p - 1) * r + t) = w o.q (r * t) := by
  rw [h.Zqp hp]
  simp only [initZetaqp]
  rw [Nat.add_sub_assoc (by omega : 1 ≤ t), Nat.mul_add_div (by omega), Nat.div_eq_of_lt (by omega : t - 1 < o.p - 1),
    Nat.add_zero, Nat.mul_add_mod, Nat.mod_eq_of_lt (by omega : t - 1 < o.p - 1), show 1 + (t - 1) = t by omega]
  congr 1

end Fft
end Fftwpp
