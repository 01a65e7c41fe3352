import Verif.Proof.BwdInnerMany
import Verif.Props.Params

/-! Postconditions of `forward`/`backward` in terms of `index`, serial loops over lists, Fourier inversion. -/

namespace Fftwpp
open Finset

/-- Serial loop over a list, by an invariant on the part already done. -/
theorem seqLoop_list {ι : Type} {body : ι → Cmd Unit} (I : List ι → Mem → Prop) {l : List ι} {m : Mem} (h0 : I [] m)
    (hstep : ∀ l1 i m, i ∈ l → I l1 m → (body i).Ok m (fun _ m' => I (l1 ++ [i]) m')) {Q : Unit → Mem → Prop}
    (hQ : ∀ m', I l m' → Q () m') : (seqLoop l body).Ok m Q := by
  have key : ∀ (l2 l1 : List ι) (mk : Mem), (∀ i ∈ l2, i ∈ l) → I l1 mk →
      (seqLoop l2 body).Ok mk (fun _ m' => I (l1 ++ l2) m') := by
    intro l2
    induction l2 with
    | nil => intro l1 mk _ hI; exact ⟨(), mk, rfl, by simpa using hI⟩
    | cons i l2 ih =>
      intro l1 mk hsub hI
      obtain ⟨_, m1, h1, h2⟩ := hstep l1 i mk (hsub i (by simp)) hI
      obtain ⟨_, m2, h3, h4⟩ := ih (l1 ++ [i]) m1 (fun j hj => hsub j (by simp [hj])) h2
      refine ⟨(), m2, ?_, by simpa using h4⟩
      simp only [seqLoop, h1]; exact h3
  refine (key l [] m (fun _ h => h) h0).mono ?_
  intro _ m' h
  exact hQ m' (by simpa using h)

/-- Fourier inversion for zero-padded data. -/
theorem dft_inversion {N L : ℕ} (hN : N ≠ 0) (hL : L ≤ N) (x : ℕ → ℂ) {j : ℕ} (hj : j < L) :
    ∑ e ∈ range N, paddedDFT N L x e * w N (-((j : ℤ) * e)) = N * x j := by
  unfold paddedDFT
  simp only [sum_mul]
  rw [sum_comm]
  rw [sum_eq_single j]
  · have : ∀ e ∈ range N, x j * w N ((j : ℤ) * (e : ℤ)) * w N (-((j : ℤ) * e)) = x j := by
      intro e _
      rw [mul_assoc, ← w_add, add_neg_cancel, w_zero, mul_one]
    rw [sum_congr rfl this, sum_const, card_range, nsmul_eq_mul]
  · intro i hi hij
    rw [mem_range] at hi
    have : ∀ e ∈ range N, x i * w N ((i : ℤ) * (e : ℤ)) * w N (-((j : ℤ) * e)) = x i * w N (e * ((i : ℤ) - j)) := by
      intro e _
      rw [mul_assoc, ← w_add]
      congr 2; ring
    rw [sum_congr rfl this, ← mul_sum, w_sum N hN, if_neg, mul_zero]
    intro hd
    have := Int.eq_zero_of_abs_lt_dvd hd (by rw [abs_lt]; constructor <;> omega)
    omega
  · intro hj'; exact absurd (mem_range.2 hj) hj'

namespace Fft
variable {o : Fft}

theorem FwdPost.index (h : o.WF) {mem m' : Mem} {f F W : Ptr} {r : ℕ} (hv : o.Visit r) (hp : o.FwdPost mem m' f F W r) :
    ∀ i < o.noutputs r, ∀ c < o.C, m'.val (F + (o.S * i + c)) =
      paddedDFT o.M o.L (fun j => mem.val (f + (o.S * j + c))) (o.index r i) := by
  intro i hi c hc
  have hi' := hi
  rw [h.noutputs_eq] at hi'
  have h1 := hp.out (i / o.m) (Nat.div_lt_of_lt_mul hi') (i % o.m) (Nat.mod_lt _ h.m_pos) c hc
  rw [Nat.div_add_mod] at h1
  rw [h1]
  apply paddedDFT_congr
  have := (h.index_res hv hi).1
  rw [← dvd_neg]
  simpa using this

theorem sum_rows (m K : ℕ) (g : ℕ → ℂ) : ∑ i ∈ range (m * K), g i = ∑ ρ ∈ range K, ∑ s ∈ range m, g (m * ρ + s) := by
  induction K with
  | zero => simp
  | succ K ih => rw [Nat.mul_succ, sum_range_add, ih, sum_range_succ]

theorem BwdPost.index (h : o.WF) {mem m' : Mem} {f F W : Ptr} {r : ℕ} (hv : o.Visit r) (hp : o.BwdPost mem m' F f W r) :
    ∀ j < o.L, ∀ c < o.C, m'.val (f + (o.S * j + c)) = (if r = 0 then 0 else mem.val (f + (o.S * j + c))) +
      ∑ i ∈ range (o.noutputs r), mem.val (F + (o.S * i + c)) * w o.M (-((j : ℤ) * (o.index r i : ℤ))) := by
  intro j hj c hc
  rw [hp.out j hj c hc]
  congr 1
  rw [h.noutputs_eq, sum_rows]
  refine sum_congr rfl fun ρ hρ => sum_congr rfl fun s hs => ?_
  rw [mem_range] at hρ hs
  congr 1
  apply w_congr
  have hi : o.m * ρ + s < o.noutputs r := by rw [h.noutputs_eq]; exact radix_lt hs hρ
  have := (h.index_res hv hi).1
  rw [Nat.mul_add_mod, Nat.mod_eq_of_lt hs, Nat.mul_add_div h.m_pos, Nat.div_eq_of_lt hs, Nat.add_zero] at this
  rw [show -((j : ℤ) * (o.q * s + o.res r ρ)) - -((j : ℤ) * (o.index r (o.m * ρ + s) : ℤ)) =
    j * ((o.index r (o.m * ρ + s) : ℤ) - (o.q * s + o.res r ρ)) by ring]
  exact Dvd.dvd.mul_left this _

/-- Visiting the blocks, as in the loop of the C++ code. -/
theorem WF.visited_starts (h : o.WF) : o.visited o.nloops 0 = o.starts := by
  obtain ⟨t, g1, g2, g3⟩ := h.visited_eq
  have : t * 1 ≤ t * o.dr := Nat.mul_le_mul_left _ h.dr_pos
  have hs : o.starts = o.visited (t + 1) 0 := by unfold starts; rw [g3 _ (by omega), g3 _ (by omega)]
  have hn : o.nloops = t + 1 := by
    show o.starts.length = _
    rw [hs, g3 _ (by omega)]; simp
  rw [hn, hs]

end Fft
end Fftwpp
