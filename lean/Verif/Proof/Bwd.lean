import Verif.Proof.Fwd

/-! The backward transforms with `p ≤ 2`. -/

namespace Fftwpp
namespace Fft
open Finset ComplexConjugate
variable {o : Fft}

/-- Rows of the inverse transform: `W[ρ][s] = Σ_i F[ρ][i] w_m^{-is}`. -/
def InvRows (o : Fft) (mem m1 : Mem) (F W : Ptr) (K : ℕ) : Prop :=
  ∀ ρ < K, ∀ s < o.m, ∀ c < o.C, m1.val (W + (o.S * (o.m * ρ + s) + c)) =
    ∑ i ∈ range o.m, mem.val (F + (o.S * (o.m * ρ + i) + c)) * w o.m (-1 * i * s)

/-- What accumulating the rows adds to `f[j]`. -/
noncomputable def bsum (o : Fft) (m1 : Mem) (W : Ptr) (k : ℕ → ℤ) (K j c : ℕ) : ℂ :=
  ∑ ρ ∈ range K, w o.M (-(j * k ρ)) * m1.val (W + (o.S * (o.m * ρ + j % o.m) + c))

/-- From the accumulation of the inverse rows to the postcondition of `backward`. -/
theorem finish_back (h : o.WF) {mem m1 m' : Mem} {F f W : Ptr} {r : ℕ}
    (hu : mem.Upd m' (fun p => o.RegL f p ∨ o.Reg F (o.P * o.D) p ∨ o.Reg W (o.P * o.D) p))
    (hin : o.InvRows mem m1 F W (o.rows r))
    (hout : ∀ j < o.L, ∀ c < o.C, m'.val (f + (o.S * j + c)) =
      (if r = 0 then 0 else mem.val (f + (o.S * j + c))) + o.bsum m1 W (o.res r) (o.rows r) j c) :
    o.BwdPost mem m' F f W r := by
  refine ⟨hu, ?_⟩
  intro j hj c hc
  rw [hout j hj c hc]
  congr 1
  unfold bsum
  refine sum_congr rfl fun ρ hρ => ?_
  rw [mem_range] at hρ
  have hs := Nat.mod_lt j h.m_pos
  rw [hin ρ hρ (j % o.m) hs c hc]
  have := row_back h.M_eq (by have := h.m_pos; omega) (by have := h.q_pos; omega)
    (fun i => mem.val (F + (o.S * (o.m * ρ + i) + c))) (o.res r ρ) (j % o.m) (j / o.m)
  rw [Nat.mod_add_div] at this
  exact this

/-- Inverse transform of the rows (single stride, `q>1`). -/
theorem back_rows (h : o.WF) (hq : o.q ≠ 1) (hS : o.S = 1) {mem : Mem} {f F W : Ptr} {r : ℕ}
    (pre : o.Pre mem f F W) {Q : Unit → Mem → Prop}
    (hQ : ∀ m1, mem.Upd m1 (o.Reg W (o.P * o.D)) → o.InvRows mem m1 F W (o.rows r) → Q () m1) :
    ((if 0 < r ∨ o.D0 = o.D then o.ifftm else o.ifftm0).exec F W).Ok mem Q := by
  have hplan : (if 0 < r ∨ o.D0 = o.D then o.ifftm else o.ifftm0) = ⟨o.m, -1, o.rows r, 1, o.m, o.inplace⟩ := by
    split_ifs with h1
    · rw [(h.fftm_S1 hq hS).2]
      have : o.rows r = o.D * o.P := by
        unfold rows; rw [Nat.mul_comm]; congr 1
        split_ifs with h2
        · rcases h1 with h1 | h1
          · omega
          · exact h1
        · rfl
      rw [this]
    · push Not at h1
      rw [(h.fftm0_eq hq h1.2).2]
      have : o.rows r = o.D0 * o.P := by
        unfold rows; rw [Nat.mul_comm, if_pos (by omega)]
      rw [this]
  rw [hplan]
  have hv : ∀ p : Ptr, (∀ i < o.m * (o.P * o.D), ∀ c < o.C, mem.valid (p + (o.S * i + c))) →
      ∀ i < o.m * o.rows r, mem.valid (p + i) := by
    intro p hp i hi
    have := hp i (lt_of_lt_of_le hi (Nat.mul_le_mul_left _ (h.rows_le r))) 0 h.C_pos
    rw [hS, Nat.one_mul, Nat.add_zero] at this
    exact this
  have hsep : SepPtr o.inplace F W := by
    rcases pre.sep with ⟨h1, h2⟩ | ⟨h1, h2⟩
    · exact Or.inl ⟨h1, h2.symm⟩
    · exact Or.inr ⟨h1, h2.symm⟩
  refine exec_rows hsep (hv F pre.vF) (hv W pre.vW) ?_
  intro m1 u1 e1
  refine hQ m1 (u1.mono ?_) ?_
  · rintro p ⟨ρ, hρ, s, hs, rfl⟩
    exact ⟨o.m * ρ + s, radix_lt hs (lt_of_lt_of_le hρ (h.rows_le r)), 0, h.C_pos, by rw [hS, Nat.one_mul, Nat.add_zero]⟩
  · intro ρ hρ s hs c hc
    have hC := h.C_one hS
    obtain rfl : c = 0 := by omega
    rw [hS]
    simp only [Nat.one_mul, Nat.add_zero]
    exact e1 ρ hρ s hs

/-- Inverse transform of the columns (`S>1`, one row). -/
theorem back_cols (h : o.WF) (hS : o.S ≠ 1) (hP : o.P = 1) {mem : Mem} {f F W : Ptr} {r : ℕ}
    (pre : o.Pre mem f F W) {Q : Unit → Mem → Prop}
    (hQ : ∀ m1, mem.Upd m1 (o.Reg W (o.P * o.D)) → o.InvRows mem m1 F W (o.rows r) → Q () m1) :
    (o.ifftm.exec F W).Ok mem Q := by
  have hD := h.D_one hS
  have hPD : o.P * o.D = 1 := by rw [hP, hD]
  have hsep : SepPtr o.inplace F W := by
    rcases pre.sep with ⟨h1, h2⟩ | ⟨h1, h2⟩
    · exact Or.inl ⟨h1, h2.symm⟩
    · exact Or.inr ⟨h1, h2.symm⟩
  rw [(h.fftm_many hS).2]
  refine exec_cols h.C_le_S hsep (fun i hi c hc => pre.vF i (by rw [hPD]; omega) c hc)
    (fun i hi c hc => pre.vW i (by rw [hPD]; omega) c hc) ?_
  intro m1 u1 e1
  refine hQ m1 (u1.mono ?_) ?_
  · rintro p ⟨i, hi, c, hc, rfl⟩
    exact ⟨i, by rw [hPD]; omega, c, hc, rfl⟩
  · intro ρ hρ s hs c hc
    rw [h.rows_D1 hD, hP] at hρ
    obtain rfl : ρ = 0 := by omega
    simp only [Nat.mul_zero, Nat.zero_add]
    exact e1 s hs c hc

/-- `W[i]` as a row, single stride. -/
theorem bsum_S1 (hS : o.S = 1) (m1 : Mem) (W : Ptr) (k : ℕ → ℤ) (K j : ℕ) :
    o.bsum m1 W k K j 0 = ∑ ρ ∈ range K, w o.M (-(j * k ρ)) * m1.val (W + (o.m * ρ + j % o.m)) := by
  unfold bsum; rw [hS]; simp

/-- Sum over the rows of pairs of residues `r0+d`, `-(r0+d)`. -/
noncomputable def psum (o : Fft) (m1 : Mem) (W : Ptr) (r0 K j : ℕ) : ℂ :=
  ∑ ρ ∈ range K, w o.M (-(j * (if o.D = 1 then (r0 : ℤ) else kpair r0 ρ))) * m1.val (W + (o.m * ρ + j % o.m))

theorem psum_pair (hD : o.D ≠ 1) (m1 : Mem) (W : Ptr) (r0 d j : ℕ) :
    o.psum m1 W r0 (2 * (d + 1)) j = o.psum m1 W r0 (2 * d) j +
      (conj (w o.M (j * (r0 + d : ℕ))) * m1.val (W + 2 * o.m * d + (j % o.m)) +
        w o.M (j * (r0 + d : ℕ)) * m1.val (W + 2 * o.m * d + o.m + (j % o.m))) := by
  unfold psum
  rw [show 2 * (d + 1) = 2 * d + 1 + 1 by ring, sum_range_succ, sum_range_succ, add_assoc]
  congr 1
  rw [if_neg hD, if_neg hD]
  unfold kpair
  rw [if_pos (by omega), if_neg (by omega), show 2 * d / 2 = d by omega, show (2 * d + 1) / 2 = d by omega, w_conj,
    Ptr.add_add, Ptr.add_add, Ptr.add_add, show o.m * (2 * d) + j % o.m = 2 * o.m * d + j % o.m by ring,
    show o.m * (2 * d + 1) + j % o.m = 2 * o.m * d + (o.m + j % o.m) by ring, mul_neg, neg_neg]

theorem backward1Rest_ok (h : o.WF) (hp : o.p = 1) (hq : o.q ≠ 1) {f W : Ptr} {mem : Mem} {r0 dr0 K : ℕ}
    (hK : K = if o.D = 1 then min dr0 1 else 2 * dr0)
    (hb : f.buf ≠ W.buf) (hf : ∀ j < o.L, mem.valid (f + j)) (hW : ∀ i < o.m * K, mem.valid (W + i))
    (hr : 0 < r0) (hrq : r0 + dr0 ≤ o.q) {Q : Unit → Mem → Prop}
    (hQ : ∀ m', mem.Upd m' (fun p => ∃ j < o.L, p = f + j) →
      (∀ j < o.L, m'.val (f + j) = mem.val (f + j) + o.psum mem W r0 K j) → Q () m') :
    (o.backward1Rest f W r0 dr0).Ok mem Q := by
  have hL : o.L ≤ o.m := by have := h.p_ub; rw [hp, Nat.mul_one] at this; exact this
  have hL0 := h.L_pos
  have hm := h.m_pos
  unfold backward1Rest
  by_cases hD : o.D = 1
  · rw [if_pos hD] at hK ⊢
    by_cases hd : 0 < dr0
    · rw [Nat.min_eq_right hd] at hK
      subst hK
      rw [Nat.mul_one] at hW
      rw [if_pos hd]
      refine Cmd.Ok.bind (run_map1 f (mem.val f + mem.val W) ?_ ?_ ?_)
      · body_simp
        rw [← Ptr.add_zero f, ← Ptr.add_zero W]
        exact ⟨hf 0 hL0, hW 0 hm, hf 0 hL0⟩
      · body_simp
      intro m1 u1 e1
      have hW1 : ∀ j : ℕ, m1.val (W + j) = mem.val (W + j) := fun j => u1.frame _ (by ptr)
      refine par_at (W := f) (fun s => s) (fun s => m1.val (f + s) + conj (w o.M (s * r0)) * mem.val (W + s)) (rng_nodup _ _)
        ?_ ?_ (fun i _ j _ h => h) ?_ ?_
      · intro s hs
        rw [mem_rng] at hs
        body_simp
        exact ⟨Mem.valid_of_size u1.size (hf s hs.2), h.zq_bd hq hr (by omega) (by omega),
          Mem.valid_of_size u1.size (hW _ (by omega)), Mem.valid_of_size u1.size (hf s hs.2)⟩
      · intro s hs
        rw [mem_rng] at hs
        body_simp
        rw [h.zq_val hq (by omega), hW1]
      · intro s hs p; body_simp
        rintro (rfl | rfl)
        · exact Or.inr rfl
        · exact Or.inl (by simpa using hb.symm)
      intro m2 u2 e2
      refine hQ m2 (u1.trans u2 ?_ ?_) ?_
      · rintro p rfl; exact ⟨0, hL0, (Ptr.add_zero _).symm⟩
      · rintro p ⟨s, hs, rfl⟩; rw [mem_rng] at hs; exact ⟨s, hs.2, rfl⟩
      · intro j hj
        unfold psum
        rw [sum_range_one, if_pos hD, Nat.mod_eq_of_lt (by omega), Nat.mul_zero, Nat.zero_add, ← w_conj]
        rcases Nat.eq_zero_or_pos j with rfl | h0
        · rw [u2.frame (f + 0) (by ptr), Ptr.add_zero, e1, Ptr.add_zero]; simp
        · rw [e2 j (mem_rng.2 ⟨h0, hj⟩), u1.frame (f + j) (by ptr)]
    · rw [if_neg hd]
      refine Cmd.Ok.pure (hQ mem (Mem.Upd.refl _ _) ?_)
      intro j hj
      have : K = 0 := by omega
      subst this
      simp [psum]
  · rw [if_neg hD] at hK ⊢
    subst hK
    refine seqLoop_rng (fun d m' => mem.Upd m' (fun p => ∃ j < o.L, p = f + j) ∧
      ∀ j < o.L, m'.val (f + j) = mem.val (f + j) + o.psum mem W r0 (2 * d) j)
      ⟨Mem.Upd.refl _ _, fun j hj => by simp [psum]⟩ ?_ (fun m' hm' => hQ m' hm'.1 hm'.2)
    rintro d m1 hd ⟨u1, e1⟩
    have hW1 : ∀ j : ℕ, m1.val (W + j) = mem.val (W + j) := fun j => u1.frame _ (by
      rintro ⟨j', _, h3⟩; exact hb (by simpa using (congrArg Ptr.buf h3).symm))
    have hle : 2 * o.m * (d + 1) ≤ o.m * (2 * dr0) := by
      rw [show o.m * (2 * dr0) = 2 * o.m * dr0 by ring]; exact Nat.mul_le_mul_left _ hd
    rw [Nat.mul_succ] at hle
    have hWv : ∀ i < 2 * o.m, m1.valid (W + (2 * o.m * d + i)) := fun i hi => Mem.valid_of_size u1.size (hW _ (by omega))
    have hfv : ∀ j < o.L, m1.valid (f + j) := fun j hj => Mem.valid_of_size u1.size (hf j hj)
    refine Cmd.Ok.bind (run_map1 f (m1.val f + (m1.val (W + 2 * o.m * d) + m1.val (W + (2 * o.m * d + o.m)))) ?_ ?_ ?_)
    · body_simp
      have h1 := hfv 0 hL0
      rw [Ptr.add_zero] at h1
      exact ⟨h1, hWv 0 (by omega), hWv o.m (by omega), h1⟩
    · body_simp
    intro m2 u2 e2
    have hW2 : ∀ j : ℕ, m2.val (W + j) = mem.val (W + j) := fun j => by
      rw [u2.frame _ (by ptr), hW1]
    refine par_at (W := f) (fun s => s) (fun s => m2.val (f + s) + (w o.M (s * (r0 + d : ℕ)) * mem.val (W + (2 * o.m * d + o.m + s))
        + conj (w o.M (s * (r0 + d : ℕ))) * mem.val (W + (2 * o.m * d + s)))) (rng_nodup _ _)
        ?_ ?_ (fun i _ j _ h => h) ?_ ?_
    · intro s hs
      rw [mem_rng] at hs
      body_simp
      refine ⟨h.zq_bd hq (by omega) (by omega) (by omega), Mem.valid_of_size u2.size (hWv s (by omega)), ?_,
        Mem.valid_of_size u2.size (hfv s hs.2), Mem.valid_of_size u2.size (hfv s hs.2)⟩
      have := hWv (o.m + s) (by omega)
      rw [← Nat.add_assoc] at this
      exact Mem.valid_of_size u2.size this
    · intro s hs
      rw [mem_rng] at hs
      body_simp
      rw [C30_zmult2, h.zq_val hq (by omega), hW2, hW2]
    · intro s hs p; body_simp
      rintro (rfl | rfl | rfl)
      · exact Or.inl (by simpa using hb.symm)
      · exact Or.inl (by simpa using hb.symm)
      · exact Or.inr rfl
    intro m3 u3 e3
    refine ⟨(u1.trans u2 (R := fun p => ∃ j < o.L, p = f + j) (fun _ h => h) ?_).trans u3 (fun _ h => h) ?_, ?_⟩
    · rintro p rfl; exact ⟨0, hL0, (Ptr.add_zero _).symm⟩
    · rintro p ⟨s, hs, rfl⟩; rw [mem_rng] at hs; exact ⟨s, hs.2, rfl⟩
    · intro j hj
      rw [psum_pair hD, Nat.mod_eq_of_lt (by omega), Ptr.add_add, Ptr.add_add, Ptr.add_add, ← add_assoc, ← e1 j hj]
      rcases Nat.eq_zero_or_pos j with rfl | h0
      · rw [u3.frame (f + 0) (by ptr), Ptr.add_zero, e2, hW1, hW1]; simp
      · rw [e3 j (mem_rng.2 ⟨h0, hj⟩), u2.frame (f + j) (by ptr), Nat.add_assoc]
        ring

theorem psum_congr {m1 m2 : Mem} {W : Ptr} {r0 K j : ℕ} (h : ∀ i : ℕ, m2.val (W + i) = m1.val (W + i)) :
    o.psum m2 W r0 K j = o.psum m1 W r0 K j := by
  unfold psum; simp only [h]

theorem bsum_split (hS : o.S = 1) {m1 : Mem} {W : Ptr} {k : ℕ → ℤ} {a K r0 j : ℕ}
    (hk : ∀ ρ < K, k (a + ρ) = if o.D = 1 then (r0 : ℤ) else kpair r0 ρ) :
    o.bsum m1 W k (a + K) j 0 = o.bsum m1 W k a j 0 + o.psum m1 (W + a * o.m) r0 K j := by
  rw [bsum_S1 hS, bsum_S1 hS, sum_range_add]
  congr 1
  unfold psum
  refine sum_congr rfl fun ρ hρ => ?_
  rw [hk ρ (mem_range.1 hρ), Ptr.add_add, show o.m * (a + ρ) + j % o.m = a * o.m + (o.m * ρ + j % o.m) by ring]

theorem backward1_ok (h : o.WF) (hp : o.p = 1) (hq : o.q ≠ 1) (hS : o.S = 1) {f F W : Ptr} {mem : Mem} {r : ℕ}
    {W? : Option Ptr} (hW : W?.getD F = W) (pre : o.Pre mem f F W) (hv : o.Visit r) :
    (o.backward1 F f r W?).Ok mem (fun _ m' => o.BwdPost mem m' F f W r) := by
  have hL : o.L ≤ o.m := by have := h.p_ub; rw [hp, Nat.mul_one] at this; exact this
  have hL0 := h.L_pos
  have hm := h.m_pos
  have hC := h.C_one hS
  have hP := h.P_one (by omega : o.p ≤ 2)
  have hq0 := h.q_pos
  have vf : ∀ j < o.L, mem.valid (f + j) := fun j hj => by
    have := pre.vf j hj 0 h.C_pos; rwa [hS, Nat.one_mul, Nat.add_zero] at this
  have vW : ∀ i < o.m * o.D, mem.valid (W + i) := fun i hi => by
    have := pre.vW i (by rw [hP, Nat.one_mul]; exact hi) 0 h.C_pos; rwa [hS, Nat.one_mul, Nat.add_zero] at this
  have vF : ∀ i < o.m * o.D, mem.valid (F + i) := fun i hi => by
    have := pre.vF i (by rw [hP, Nat.one_mul]; exact hi) 0 h.C_pos; rwa [hS, Nat.one_mul, Nat.add_zero] at this
  have hD0 := h.D0_pos
  have hDD := h.D0_le
  have hmD : o.m * 1 ≤ o.m * o.D := Nat.mul_le_mul_left _ h.D_pos
  have hne : ∀ i j : ℕ, f + i ≠ W + j := fun i j => Ptr.ne_of_buf (by simpa using pre.fW)
  have hrowsD : o.rows r ≤ o.D := by have := h.rows_le r; rwa [hP, Nat.one_mul] at this
  have hregL : ∀ p, (∃ j < o.L, p = f + j) → o.RegL f p := by
    rintro p ⟨j, hj, rfl⟩; exact ⟨j, hj, 0, h.C_pos, by rw [hS]; simp⟩
  -- finishing
  have fin : ∀ m1 m' : Mem, mem.Upd m1 (o.Reg W (o.P * o.D)) → o.InvRows mem m1 F W (o.rows r) →
      m1.Upd m' (fun p => ∃ j < o.L, p = f + j) →
      (∀ j < o.L, m'.val (f + j) = (if r = 0 then 0 else mem.val (f + j)) + o.bsum m1 W (o.res r) (o.rows r) j 0) →
      o.BwdPost mem m' F f W r := by
    intro m1 m' u1 hin u' e'
    refine finish_back h (u1.trans u' (fun p hp => Or.inr (Or.inr hp)) (fun p hp => Or.inl (hregL p hp))) hin ?_
    intro j hj c hc
    obtain rfl : c = 0 := by omega
    have := e' j hj
    rwa [hS, Nat.one_mul, Nat.add_zero]
  unfold backward1
  simp only [hW]
  by_cases hx : r = 0 ∧ o.inplace = false ∧ o.D = 1 ∧ o.m ≤ o.L
  · rw [if_pos hx]
    obtain ⟨rfl, hi, hD, hmL⟩ := hx
    rw [(h.fftm_S1 hq hS).2, hD, hP]
    rw [hD, Nat.mul_one] at vF
    refine exec_rows (Or.inr ⟨hi, pre.fF.symm⟩) (fun i hi => vF i (by omega)) (fun i hi => vf i (by omega)) ?_
    intro m' u' e'
    have hrow : o.rows 0 = 1 := by rw [h.rows_D1 hD, hP]
    refine ⟨u'.mono ?_, ?_⟩
    · rintro p ⟨k, hk, i, hi, rfl⟩
      obtain rfl : k = 0 := by omega
      exact Or.inl ⟨i, by omega, 0, h.C_pos, by rw [hS]; simp⟩
    · intro j hj c hc
      obtain rfl : c = 0 := by omega
      rw [hrow, sum_range_one, if_pos rfl, zero_add, hS]
      have := e' 0 (by omega) j (by omega)
      simp only [Nat.mul_zero, Nat.zero_add, Nat.one_mul, Nat.add_zero] at this ⊢
      rw [this]
      have hb := row_back h.M_eq (by omega) (by omega) (fun i => mem.val (F + i)) (o.res 0 0) j 0
      simp only [Nat.mul_zero, Nat.add_zero] at hb
      rw [← hb, h.res_D1 hD 0 (by omega)]
      simp
  · rw [if_neg hx]
    refine Cmd.Ok.bind (back_rows h hq hS pre ?_)
    intro m1 u1 hin
    have vf1 : ∀ j < o.L, m1.valid (f + j) := fun j hj => Mem.valid_of_size u1.size (vf j hj)
    have vW1 : ∀ i < o.m * o.D, m1.valid (W + i) := fun i hi => Mem.valid_of_size u1.size (vW i hi)
    have hf1 : ∀ j : ℕ, m1.val (f + j) = mem.val (f + j) := fun j => u1.frame _ (by
      rintro ⟨_, _, _, _, h3⟩; exact hne _ _ h3)
    by_cases hr : r = 0
    · subst hr
      rw [if_pos rfl]
      by_cases hc : o.D = 1 ∨ 2 * (o.q / 2) < o.q
      · rw [if_pos hc]
        obtain ⟨b1, b2, b3, b4⟩ := h.block0_odd (by omega) hc
        refine Cmd.Ok.bind (copyRow_ok hne (fun s _ hs => vf1 s hs) (fun s _ hs => vW1 s (by omega)) ?_)
        intro m2 u2 e2
        have hW2 : ∀ i : ℕ, m2.val (W + i) = m1.val (W + i) := fun i => u2.frame _ (by
          rintro ⟨_, _, _, h3⟩; exact hne _ _ h3.symm)
        set K := (if o.D = 1 then min ((o.D0 - 1) / 2) 1 else 2 * ((o.D0 - 1) / 2)) with hKdef
        have hle : o.m * (1 + K) ≤ o.m * o.D := Nat.mul_le_mul_left _ (by omega)
        rw [Nat.mul_add, Nat.mul_one] at hle
        refine backward1Rest_ok h hp hq hKdef (by simpa using pre.fW)
          (fun j hj => Mem.valid_of_size u2.size (vf1 j hj)) (fun i hi => ?_) (by omega) (by omega) ?_
        · rw [Ptr.add_add, Nat.one_mul]; exact Mem.valid_of_size u2.size (vW1 _ (by omega))
        intro m3 u3 e3
        refine fin m1 m3 u1 hin (u2.trans u3 ?_ (fun _ h => h)) ?_
        · rintro p ⟨s, _, hs, rfl⟩; exact ⟨s, hs, rfl⟩
        · intro j hj
          rw [if_pos rfl, zero_add, b1, bsum_split hS (r0 := 1), e3 j hj, e2 j (by omega) hj,
            psum_congr (m1 := m1)]
          · congr 1
            rw [bsum_S1 hS, sum_range_one, b2, Nat.mod_eq_of_lt (by omega)]; simp
          · intro i; rw [Ptr.add_add]; exact hW2 _
          · intro ρ hρ
            by_cases hD : o.D = 1
            · have := h.D0_eq_one hD
              rw [if_pos hD] at hKdef
              omega
            · rw [if_neg hD]; exact b4 ρ hD
      · rw [if_neg hc]
        obtain ⟨b1, b2, b3, b4, b5⟩ := h.block0_even (by omega) hc
        have hD : o.D ≠ 1 := fun h => hc (Or.inl h)
        have hq2 : 2 * (o.q / 2) = o.q := by omega
        have hD2 : 2 ≤ o.D := by have := h.D_pos; omega
        have hle2 : o.m * 2 ≤ o.m * o.D := Nat.mul_le_mul_left _ hD2
        refine Cmd.Ok.bind (run_map1 f (m1.val W + m1.val (W + o.m)) ?_ ?_ ?_)
        · body_simp
          have h1 := vf1 0 hL0
          have h2 := vW1 0 (by omega)
          rw [Ptr.add_zero] at h1 h2
          exact ⟨h2, vW1 o.m (by omega), h1⟩
        · body_simp
        intro m2 u2 e2
        have hW2 : ∀ i : ℕ, m2.val (W + i) = m1.val (W + i) := fun i => u2.frame _ (by
          intro h3; exact hne 0 i (by rw [Ptr.add_zero]; exact h3.symm))
        refine Cmd.Ok.bind (par_at (W := f) (fun s => s)
          (fun s => m1.val (W + s) + conj (w o.M (s * (o.q / 2 : ℕ))) * m1.val (W + (o.m + s))) (rng_nodup _ _)
          ?_ ?_ (fun i _ j _ h => h) ?_ ?_)
        · intro s hs
          rw [mem_rng] at hs
          body_simp
          exact ⟨Mem.valid_of_size u2.size (vW1 s (by omega)), h.zq_bd hq (by omega) (by omega) (by omega),
            Mem.valid_of_size u2.size (vW1 _ (by omega)), Mem.valid_of_size u2.size (vf1 s hs.2)⟩
        · intro s hs
          rw [mem_rng] at hs
          body_simp
          rw [h.zq_val hq (by omega), hW2, hW2]
        · intro s hs p; body_simp
          rintro (rfl | rfl) <;> exact Or.inl (by simpa using pre.fW.symm)
        intro m3 u3 e3
        have hW3 : ∀ i : ℕ, m3.val (W + i) = m1.val (W + i) := fun i => by
          rw [u3.frame _ (by rintro ⟨_, _, h3⟩; exact hne _ _ h3.symm), hW2]
        have hle : o.m * (2 + 2 * ((o.D0 - 2) / 2)) ≤ o.m * o.D := Nat.mul_le_mul_left _ (by omega)
        rw [Nat.mul_add] at hle
        refine backward1Rest_ok (K := 2 * ((o.D0 - 2) / 2)) h hp hq (by rw [if_neg hD]) (by simpa using pre.fW)
          (fun j hj => Mem.valid_of_size (u3.size.trans u2.size) (vf1 j hj)) (fun i hi => ?_) (by omega) (by omega) ?_
        · rw [Ptr.add_add]; exact Mem.valid_of_size (u3.size.trans u2.size) (vW1 _ (by omega))
        intro m4 u4 e4
        refine fin m1 m4 u1 hin ((u2.trans u3 (R := fun p => ∃ j < o.L, p = f + j) ?_ ?_).trans u4 (fun _ h => h) (fun _ h => h)) ?_
        · rintro p rfl; exact ⟨0, hL0, (Ptr.add_zero _).symm⟩
        · rintro p ⟨s, hs, rfl⟩; rw [mem_rng] at hs; exact ⟨s, hs.2, rfl⟩
        · intro j hj
          rw [if_pos rfl, zero_add, b1, bsum_split hS (r0 := 1), e4 j hj, psum_congr (m1 := m1)]
          · congr 1
            rw [bsum_S1 hS, sum_range_succ, sum_range_one, b2, b3, if_neg (by omega), Nat.mod_eq_of_lt (by omega)]
            rcases Nat.eq_zero_or_pos j with rfl | h0
            · rw [u3.frame (f + 0) (by ptr), Ptr.add_zero, e2]; simp [Ptr.add_zero]
            · rw [e3 j (mem_rng.2 ⟨h0, hj⟩), w_conj]; simp
          · intro i; rw [Ptr.add_add]; exact hW3 _
          · intro ρ hρ; rw [if_neg hD]; exact b5 ρ
    · rw [if_neg hr]
      obtain ⟨b1, b2, b3⟩ := h.block_pos (by omega) hv (by omega)
      have hle : o.m * o.rows r ≤ o.m * o.D := Nat.mul_le_mul_left _ hrowsD
      refine backward1Rest_ok h hp hq b1 pre.fW vf1 (fun i hi => vW1 i (by omega)) (by omega) b2 ?_
      intro m2 u2 e2
      refine fin m1 m2 u1 hin u2 ?_
      intro j hj
      rw [if_neg hr, e2 j hj, hf1, bsum_S1 hS]
      congr 1
      unfold psum
      refine sum_congr rfl fun ρ hρ => ?_
      rw [b3 ρ (mem_range.1 hρ)]

end Fft
end Fftwpp
