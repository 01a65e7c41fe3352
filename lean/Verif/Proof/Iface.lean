import Verif.Proof.F1

/-! The interface of a forward/backward call, and lemmas on residues of conjugate pairs. -/

namespace Fftwpp
namespace Fft
open Finset ComplexConjugate
variable {o : Fft}

/-- The words of an output (or work) array of `K` rows that may be touched. -/
def Reg (o : Fft) (F : Ptr) (K : ℕ) (p : Ptr) : Prop := ∃ i < o.m * K, ∃ c < o.C, p = F + (o.S * i + c)

/-- The words of the data array. -/
def RegL (o : Fft) (f : Ptr) (p : Ptr) : Prop := ∃ j < o.L, ∃ c < o.C, p = f + (o.S * j + c)

/-- Padding is in place in the work array. -/
def Padded (o : Fft) (mem : Mem) (W : Ptr) : Prop :=
  o.inplace = false → o.q ≠ 1 → o.p = 1 → ∀ t < o.D, ∀ s < o.m, o.L ≤ s → ∀ c < o.C,
    mem.val (W + (o.S * (o.m * t + s) + c)) = 0

/-- Precondition of a call of `forward` or `backward`. -/
structure Pre (o : Fft) (mem : Mem) (f F W : Ptr) : Prop where
  fF : f.buf ≠ F.buf
  fW : f.buf ≠ W.buf
  sep : SepPtr o.inplace W F
  vf : ∀ j < o.L, ∀ c < o.C, mem.valid (f + (o.S * j + c))
  vF : ∀ i < o.m * (o.P * o.D), ∀ c < o.C, mem.valid (F + (o.S * i + c))
  vW : ∀ i < o.m * (o.P * o.D), ∀ c < o.C, mem.valid (W + (o.S * i + c))

/-- Postcondition of `forward`. -/
structure FwdPost (o : Fft) (mem m' : Mem) (f F W : Ptr) (r : ℕ) : Prop where
  upd : mem.Upd m' (fun p => o.Reg F (o.P * o.D) p ∨ o.Reg W (o.P * o.D) p)
  out : ∀ ρ < o.rows r, ∀ s < o.m, ∀ c < o.C, m'.val (F + (o.S * (o.m * ρ + s) + c)) =
    paddedDFT o.M o.L (fun j => mem.val (f + (o.S * j + c))) (o.q * s + o.res r ρ)
  pad : o.Padded m' W

/-- Postcondition of `backward`. -/
structure BwdPost (o : Fft) (mem m' : Mem) (F f W : Ptr) (r : ℕ) : Prop where
  upd : mem.Upd m' (fun p => o.RegL f p ∨ o.Reg F (o.P * o.D) p ∨ o.Reg W (o.P * o.D) p)
  out : ∀ j < o.L, ∀ c < o.C, m'.val (f + (o.S * j + c)) =
    (if r = 0 then 0 else mem.val (f + (o.S * j + c))) +
      ∑ ρ ∈ range (o.rows r), ∑ s ∈ range o.m,
        mem.val (F + (o.S * (o.m * ρ + s) + c)) * w o.M (-(j * (o.q * s + o.res r ρ)))

theorem WF.C_one (h : o.WF) (hS : o.S = 1) : o.C = 1 := by
  have h1 := h.C_pos; have h2 := h.C_le_S; omega

theorem WF.fW_ne (_h : o.WF) {mem : Mem} {f F W : Ptr} (pre : o.Pre mem f F W) (i j : ℕ) : f + i ≠ W + j :=
  Ptr.ne_of_buf (by simpa using pre.fW)

theorem WF.D0_eq_one (h : o.WF) (hD : o.D = 1) : o.D0 = 1 := by
  have h1 := h.D0_pos; have h2 := h.D0_le; omega

/-- Number of rows of a block when `p ≤ 2`. -/
theorem WF.rows_le2 (h : o.WF) (hp : o.p ≤ 2) (r : ℕ) : o.rows r = if r = 0 then o.D0 else o.D := by
  unfold rows; rw [h.P_one hp, Nat.one_mul]

theorem WF.conj_le2 (h : o.WF) (hp : o.p ≤ 2) (hD : o.D ≠ 1) : o.conj = true :=
  h.conj_iff.2 ⟨by have := h.D_pos; omega, hp⟩

/-- Residue block 0, `q` odd or `D=1`. -/
theorem WF.block0_odd (h : o.WF) (hp : o.p ≤ 2) (hc : o.D = 1 ∨ 2 * (o.q / 2) < o.q) :
    o.rows 0 = 1 + (if o.D = 1 then min ((o.D0 - 1) / 2) 1 else 2 * ((o.D0 - 1) / 2)) ∧ o.res 0 0 = 0 ∧
    1 + (o.D0 - 1) / 2 ≤ o.q ∧
    ∀ ρ, o.D ≠ 1 → o.res 0 (1 + ρ) = kpair 1 ρ := by
  have hD0 := h.D0_pos
  have hqn := h.q_n hp
  obtain ⟨t, ht⟩ := h.n_D0
  have hle : o.D0 ≤ o.n := by
    have := Nat.zero_le (t * o.D)
    omega
  rw [h.rows_le2 hp, if_pos rfl]
  refine ⟨?_, ?_, by omega, ?_⟩
  · by_cases hD : o.D = 1
    · rw [if_pos hD, h.D0_eq_one hD]; rfl
    · rw [if_neg hD]
      have := h.D0_parity (h.conj_le2 hp hD)
      omega
  · unfold res
    rcases hcj : o.conj
    · simp
    · have hD : o.D ≠ 1 := by have := (h.conj_iff.1 hcj).1; omega
      simp
  · intro ρ hD
    have hcj := h.conj_le2 hp hD
    unfold res kpair
    rw [hcj, if_pos rfl, if_pos rfl, if_pos (by omega)]
    by_cases h2 : ρ % 2 = 0
    · rw [if_pos (by omega), if_pos h2, show (1 + ρ + 1) / 2 = 1 + ρ / 2 by omega]
    · rw [if_neg (by omega), if_neg h2, show (1 + ρ) / 2 = 1 + ρ / 2 by omega]

/-- Residue block 0, `q` even and `D>1`. -/
theorem WF.block0_even (h : o.WF) (hp : o.p ≤ 2) (hc : ¬ (o.D = 1 ∨ 2 * (o.q / 2) < o.q)) :
    o.rows 0 = 2 + 2 * ((o.D0 - 2) / 2) ∧ o.res 0 0 = 0 ∧
    o.res 0 1 = (if o.p = 2 then -((o.q / 2 : ℕ) : ℤ) else (o.q / 2 : ℕ)) ∧ 1 + (o.D0 - 2) / 2 ≤ o.q ∧
    ∀ ρ, o.res 0 (2 + ρ) = kpair 1 ρ := by
  push Not at hc
  obtain ⟨hD, hq2⟩ := hc
  have hD0 := h.D0_pos
  have hqn := h.q_n hp
  obtain ⟨t, ht⟩ := h.n_D0
  have hle : o.D0 ≤ o.n := by
    have := Nat.zero_le (t * o.D)
    omega
  have hcj := h.conj_le2 hp hD
  have hpar := h.D0_parity hcj
  rw [h.rows_le2 hp, if_pos rfl]
  refine ⟨by omega, ?_, ?_, by omega, ?_⟩
  · unfold res
    rw [hcj, if_pos rfl, if_pos rfl, if_neg (by omega), if_neg (by omega)]; simp
  · unfold res
    rw [hcj, if_pos rfl, if_pos rfl, if_neg (by omega), if_pos rfl]
  · intro ρ
    unfold res kpair
    rw [hcj, if_pos rfl, if_pos rfl, if_neg (by omega), if_neg (by omega)]
    rw [show (2 + ρ) / 2 = 1 + ρ / 2 by omega, show (2 + ρ) % 2 = ρ % 2 by omega]

/-- The other residue blocks. -/
theorem WF.block_pos (h : o.WF) (hp : o.p ≤ 2) {r : ℕ} (hv : o.Visit r) (hr : 0 < r) :
    o.rows r = (if o.D = 1 then min o.dr 1 else 2 * o.dr) ∧ r + o.dr ≤ o.q ∧
    ∀ ρ < o.rows r, o.res r ρ = if o.D = 1 then (r : ℤ) else kpair r ρ := by
  have hqn := h.q_n hp
  have hb := h.visit_bound hv hr
  rw [h.rows_le2 hp, if_neg (by omega)]
  have hP := h.P_one hp
  by_cases hD : o.D = 1
  · have hcj := h.conj_false_iff.2 (Or.inl hD)
    have hdr := h.dr_nconj hcj
    have hR := h.R_nconj hcj
    refine ⟨by rw [if_pos hD, hdr, hD]; rfl, by omega, ?_⟩
    intro ρ hρ
    obtain rfl : ρ = 0 := by omega
    unfold res
    rw [hcj, if_pos hD, hP]
    simp
  · have hcj := h.conj_le2 hp hD
    have hdr := h.dr_conj hcj
    have hR := h.R_conj hcj
    have hn := h.n_pos
    have heven : o.D % 2 = 0 := by
      rcases h.D_conj hcj with ⟨h1, h2⟩ | h1
      · have h3 := inc0_conj hcj
        rcases hv with hv | ⟨⟨k, hk⟩, hlt⟩
        · omega
        · rw [h3, h1] at hk
          have := Nat.zero_le (k * o.dr)
          omega
      · exact h1
    refine ⟨by rw [if_neg hD]; omega, by omega, ?_⟩
    intro ρ hρ
    unfold res kpair
    rw [hcj, if_neg hD, if_pos rfl, if_neg (by omega)]

/-- The transform of the rows completes `forward` (single stride, `q>1`). -/
theorem finish_rows (h : o.WF) (hq : o.q ≠ 1) (hS : o.S = 1) {mem m1 : Mem} {f F W : Ptr} {r : ℕ}
    (pre : o.Pre mem f F W) (u1 : mem.Upd m1 (o.RowReg W (o.P * o.D)))
    (hfill : o.Filled m1 W (fun j => mem.val (f + j)) (o.res r) (o.rows r)) (hp2 : o.Padded m1 W) :
    ((if 0 < r ∨ o.D0 = o.D then o.fftm else o.fftm0).exec W F).Ok m1 (fun _ m' => o.FwdPost mem m' f F W r) := by
  have hC := h.C_one hS
  have hplan : (if 0 < r ∨ o.D0 = o.D then o.fftm else o.fftm0) = ⟨o.m, 1, o.rows r, 1, o.m, o.inplace⟩ := by
    split_ifs with h1
    · rw [(h.fftm_S1 hq hS).1]
      have : o.rows r = o.D * o.P := by
        unfold rows; rw [Nat.mul_comm]; congr 1
        split_ifs with h2
        · rcases h1 with h1 | h1
          · omega
          · exact h1
        · rfl
      rw [this]
    · push Not at h1
      rw [(h.fftm0_eq hq h1.2).1]
      have : o.rows r = o.D0 * o.P := by
        unfold rows; rw [Nat.mul_comm, if_pos (by omega)]
      rw [this]
  rw [hplan]
  have hv : ∀ p : Ptr, (∀ i < o.m * (o.P * o.D), ∀ c < o.C, mem.valid (p + (o.S * i + c))) →
      ∀ i < o.m * o.rows r, m1.valid (p + i) := by
    intro p hp i hi
    have := hp i (lt_of_lt_of_le hi (Nat.mul_le_mul_left _ (h.rows_le r))) 0 h.C_pos
    rw [hS, Nat.one_mul, Nat.add_zero] at this
    exact Mem.valid_of_size u1.size this
  refine exec_rows pre.sep (hv W pre.vW) (hv F pre.vF) ?_
  intro m' u' e'
  have hreg : ∀ (p : Ptr) K p', o.RowReg p K p' → o.Reg p K p' := by
    rintro p K p' ⟨ρ, hρ, s, hs, rfl⟩
    exact ⟨o.m * ρ + s, radix_lt hs hρ, 0, h.C_pos, by rw [hS, Nat.one_mul, Nat.add_zero]⟩
  refine ⟨u1.trans u' (fun p hp => Or.inr (hreg _ _ _ hp)) ?_, ?_, ?_⟩
  · rintro p ⟨ρ, hρ, s, hs, rfl⟩
    exact Or.inl (hreg _ _ _ ⟨ρ, lt_of_lt_of_le hρ (h.rows_le r), s, hs, rfl⟩)
  · intro ρ hρ s hs c hc
    obtain rfl : c = 0 := by omega
    rw [hS]
    simp only [Nat.one_mul, Nat.add_zero]
    rw [e' ρ hρ s hs, ← row_fft h.M_eq (by have := h.m_pos; omega) (by have := h.q_pos; omega) h.p_ub]
    refine sum_congr rfl fun s' hs' => ?_
    rw [hfill ρ hρ s' (mem_range.1 hs')]
  · intro hi hq' hp1 t ht s hs hLs c hc
    rw [u'.frame, hp2 hi hq' hp1 t ht s hs hLs c hc]
    rintro ⟨_, _, _, _, h3⟩
    rcases pre.sep with ⟨h4, _⟩ | ⟨_, h4⟩
    · rw [hi] at h4; simp at h4
    · exact h4 (by simpa using congrArg Ptr.buf h3)

end Fft
end Fftwpp
