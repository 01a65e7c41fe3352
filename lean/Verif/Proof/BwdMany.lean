import Verif.Proof.Bwd2

/-! `backwardExplicit`, `backwardExplicitMany`, `backward1Many`, `backward2Many`. -/

namespace Fftwpp
namespace Fft
open Finset ComplexConjugate
variable {o : Fft}

theorem bsum_one (m1 : Mem) (W : Ptr) (k : ℕ → ℤ) (j c : ℕ) :
    o.bsum m1 W k 1 j c = w o.M (-(j * k 0)) * m1.val (W + (o.S * (j % o.m) + c)) := by
  unfold bsum; simp

theorem backwardExplicit_ok (h : o.WF) (hq : o.q = 1) (hS : o.S = 1) {f F W : Ptr} {mem : Mem} {r : ℕ}
    {W? : Option Ptr} (hW : W?.getD F = W) (pre : o.Pre mem f F W) (hv : o.Visit r) :
    (o.backwardExplicit F f W?).Ok mem (fun _ m' => o.BwdPost mem m' F f W r) := by
  obtain ⟨hp, hP, hD, hM, hn⟩ := h.explicit hq
  obtain rfl := h.visit_explicit hq hv
  have hC := h.C_one hS
  have hm := h.m_pos
  have hL := h.p_ub
  rw [hp, Nat.mul_one] at hL
  have hPD : o.P * o.D = 1 := by rw [hP, hD]
  have vf : ∀ j < o.L, mem.valid (f + j) := fun j hj => by
    have := pre.vf j hj 0 h.C_pos; rwa [hS, Nat.one_mul, Nat.add_zero] at this
  have vW : ∀ i < o.m, mem.valid (W + i) := fun i hi => by
    have := pre.vW i (by rw [hPD]; omega) 0 h.C_pos; rwa [hS, Nat.one_mul, Nat.add_zero] at this
  have vF : ∀ i < o.m, mem.valid (F + i) := fun i hi => by
    have := pre.vF i (by rw [hPD]; omega) 0 h.C_pos; rwa [hS, Nat.one_mul, Nat.add_zero] at this
  have hne : ∀ i j : ℕ, f + i ≠ W + j := fun i j => Ptr.ne_of_buf (by simpa using pre.fW)
  have hsep : SepPtr o.inplace F W := by
    rcases pre.sep with ⟨h1, h2⟩ | ⟨h1, h2⟩
    · exact Or.inl ⟨h1, h2.symm⟩
    · exact Or.inr ⟨h1, h2.symm⟩
  unfold backwardExplicit
  simp only [hW]
  rw [(h.fftm_1 hq hS).2]
  refine Cmd.Ok.bind (exec_one hsep vF vW ?_)
  intro m1 u1 e1
  refine copyRow_ok hne (fun s _ hs => Mem.valid_of_size u1.size (vf s hs))
    (fun s _ hs => Mem.valid_of_size u1.size (vW s (by omega))) ?_
  intro m2 u2 e2
  refine finish_back (m1 := m1) h (u1.trans u2 ?_ ?_) ?_ ?_
  · rintro p ⟨s, hs, rfl⟩
    exact Or.inr (Or.inr ⟨s, by rw [hPD]; omega, 0, h.C_pos, by rw [hS]; simp⟩)
  · rintro p ⟨s, _, hs, rfl⟩
    exact Or.inl ⟨s, by omega, 0, h.C_pos, by rw [hS]; simp⟩
  · intro ρ hρ s hs c hc
    rw [h.rows_D1 hD, hP] at hρ
    obtain rfl : ρ = 0 := by omega
    obtain rfl : c = 0 := by omega
    rw [hS]
    simp only [Nat.mul_zero, Nat.zero_add, Nat.one_mul, Nat.add_zero]
    exact e1 s hs
  · intro j hj c hc
    obtain rfl : c = 0 := by omega
    rw [h.rows_D1 hD, hP, bsum_one, h.res_D1 hD 0 (by omega), hS, Nat.mod_eq_of_lt (by omega)]
    simp only [Nat.mul_zero, Nat.zero_add, Nat.one_mul, Nat.add_zero]
    rw [e2 j (by omega) hj]; simp

theorem backwardExplicitMany_ok (h : o.WF) (hq : o.q = 1) (hS : o.S ≠ 1) {f F W : Ptr} {mem : Mem} {r : ℕ}
    {W? : Option Ptr} (hW : W?.getD F = W) (pre : o.Pre mem f F W) (hv : o.Visit r) :
    (o.backwardExplicitMany F f W?).Ok mem (fun _ m' => o.BwdPost mem m' F f W r) := by
  obtain ⟨hp, hP, hD, hM, hn⟩ := h.explicit hq
  obtain rfl := h.visit_explicit hq hv
  have hm := h.m_pos
  have hCS := h.C_le_S
  have hL := h.p_ub
  rw [hp, Nat.mul_one] at hL
  have hPD : o.P * o.D = 1 := by rw [hP, hD]
  have vW := pre.vW
  rw [hPD, Nat.mul_one] at vW
  unfold backwardExplicitMany
  simp only [hW]
  refine Cmd.Ok.bind (back_cols h hS hP (r := 0) pre ?_)
  intro m1 u1 hin
  refine copyCols_ok hCS pre.fW.symm (fun s c _ h2 h3 => Mem.valid_of_size u1.size (pre.vf s h2 c h3))
    (fun s c _ h2 h3 => Mem.valid_of_size u1.size (vW s (by omega) c h3)) ?_
  intro m2 u2 e2
  refine finish_back (m1 := m1) h (u1.trans u2 (fun p hp => Or.inr (Or.inr hp)) ?_) hin ?_
  · rintro p ⟨s, c, _, hs, _, hc, rfl⟩; exact Or.inl ⟨s, hs, c, hc, rfl⟩
  · intro j hj c hc
    rw [h.rows_D1 hD, hP, bsum_one, h.res_D1 hD 0 (by omega), Nat.mod_eq_of_lt (by omega), e2 j c (by omega) hj (by omega) hc]
    simp

theorem backward1Many_ok (h : o.WF) (hp : o.p = 1) (hq : o.q ≠ 1) (hS : o.S ≠ 1) {f F W : Ptr} {mem : Mem} {r : ℕ}
    {W? : Option Ptr} (hW : W?.getD F = W) (pre : o.Pre mem f F W) (hv : o.Visit r) :
    (o.backward1Many F f r W?).Ok mem (fun _ m' => o.BwdPost mem m' F f W r) := by
  have hL : o.L ≤ o.m := by have := h.p_ub; rw [hp, Nat.mul_one] at this; exact this
  have hL0 := h.L_pos
  have hm := h.m_pos
  have hCS := h.C_le_S
  have hC := h.C_pos
  have hP := h.P_one (by omega : o.p ≤ 2)
  have hD := h.D_one hS
  have hqn := h.q_n (by omega)
  have hrn := h.r_lt hD hv
  have hPD : o.P * o.D = 1 := by rw [hP, hD]
  have vf := pre.vf
  have vW := pre.vW
  have vF := pre.vF
  rw [hPD, Nat.mul_one] at vW vF
  have hb := pre.fW
  have hrow : o.rows r = 1 := by rw [h.rows_D1 hD, hP]
  unfold backward1Many
  simp only [hW]
  by_cases hx : r = 0 ∧ o.inplace = false ∧ o.m ≤ o.L
  · rw [if_pos hx]
    obtain ⟨rfl, hi, hmL⟩ := hx
    rw [(h.fftm_many hS).2]
    refine exec_cols hCS (Or.inr ⟨hi, pre.fF.symm⟩) vF (fun i hi c hc => vf i (by omega) c hc) ?_
    intro m' u' e'
    refine ⟨u'.mono ?_, ?_⟩
    · rintro p ⟨i, hi, c, hc, rfl⟩; exact Or.inl ⟨i, by omega, c, hc, rfl⟩
    · intro j hj c hc
      rw [hrow, sum_range_one, if_pos rfl, zero_add, e' j (by omega) c hc]
      have hb := row_back h.M_eq (by omega) (by have := h.q_pos; omega) (fun i => mem.val (F + (o.S * i + c))) (o.res 0 0) j 0
      simp only [Nat.mul_zero, Nat.add_zero, Nat.zero_add] at hb ⊢
      rw [← hb, h.res_D1 hD 0 (by omega)]
      simp
  · rw [if_neg hx]
    refine Cmd.Ok.bind (back_cols h hS hP (r := r) pre ?_)
    intro m1 u1 hin
    have fin : ∀ m' : Mem, m1.Upd m' (o.RegL f) →
        (∀ j < o.L, ∀ c < o.C, m'.val (f + (o.S * j + c)) = (if r = 0 then 0 else mem.val (f + (o.S * j + c))) +
          conj (w o.M (j * r)) * m1.val (W + (o.S * j + c))) → o.BwdPost mem m' F f W r := by
      intro m' u' e'
      refine finish_back h (u1.trans u' (fun p hp => Or.inr (Or.inr hp)) (fun p hp => Or.inl hp)) hin ?_
      intro j hj c hc
      rw [hrow, bsum_one, h.res_D1 hD r (by omega), Nat.mod_eq_of_lt (by omega), Nat.mul_zero, Nat.zero_add, ← w_conj]
      exact e' j hj c hc
    have hf1 : ∀ j : ℕ, m1.val (f + j) = mem.val (f + j) := fun j => u1.frame _ (by
      rintro ⟨_, _, _, _, h3⟩; exact hb (by simpa using congrArg Ptr.buf h3))
    by_cases hr : r = 0
    · subst hr
      rw [if_pos rfl]
      refine copyCols_ok hCS hb.symm (fun s c _ h2 h3 => Mem.valid_of_size u1.size (vf s h2 c h3))
        (fun s c _ h2 h3 => Mem.valid_of_size u1.size (vW s (by omega) c h3)) ?_
      intro m2 u2 e2
      refine fin m2 (u2.mono ?_) ?_
      · rintro p ⟨s, c, _, hs, _, hc, rfl⟩; exact ⟨s, hs, c, hc, rfl⟩
      · intro j hj c hc
        rw [e2 j c (by omega) hj (by omega) hc]; simp
    · rw [if_neg hr]
      refine Cmd.Ok.bind (par1c (W := f) (fun c => m1.val (f + c) + m1.val (W + c)) ?_ ?_ ?_ ?_)
      · intro c hc; body_simp
        have h1 := vf 0 hL0 c hc
        have h2 := vW 0 hm c hc
        rw [Nat.mul_zero, Nat.zero_add] at h1 h2
        exact ⟨Mem.valid_of_size u1.size h1, Mem.valid_of_size u1.size h2, Mem.valid_of_size u1.size h1⟩
      · intro c hc; body_simp
      · intro c hc p; body_simp
        rintro (rfl | rfl)
        · exact Or.inr rfl
        · exact Or.inl (by simpa using hb.symm)
      intro m2 u2 e2
      have hW2 : ∀ j : ℕ, m2.val (W + j) = m1.val (W + j) := fun j => u2.frame _ (by
        rintro ⟨_, _, h3⟩; exact hb (by simpa using congrArg Ptr.buf h3.symm))
      have hsz : m2.size = mem.size := u2.size.trans u1.size
      refine par2 (W := f) hCS (fun s c => m2.val (f + (o.S * s + c)) + conj (w o.M (s * r)) * m1.val (W + (o.S * s + c))) ?_ ?_ ?_ ?_
      · intro s c h1 h2 _ h3; body_simp
        exact ⟨h.zq_bd hq (by omega) (by omega) (by omega), Mem.valid_of_size hsz (vf s h2 c h3),
          Mem.valid_of_size hsz (vW s (by omega) c h3), Mem.valid_of_size hsz (vf s h2 c h3)⟩
      · intro s c h1 h2 _ h3; body_simp
        rw [C30_zmult_xy_conj, h.zq_val hq (by omega), hW2]
      · intro s c h1 h2 _ h3 p; body_simp
        rintro (rfl | rfl)
        · exact Or.inr rfl
        · exact Or.inl (by simpa using hb.symm)
      intro m3 u3 e3
      refine fin m3 (u2.trans u3 ?_ ?_) ?_
      · rintro p ⟨c, hc, rfl⟩; exact ⟨0, hL0, c, hc, by simp⟩
      · rintro p ⟨s, c, h1, h2, h3, h4, rfl⟩; exact ⟨s, h2, c, h4, rfl⟩
      · intro j hj c hc
        rw [if_neg hr, ← hf1]
        rcases Nat.eq_zero_or_pos j with rfl | h0
        · rw [u3.frame, Nat.mul_zero, Nat.zero_add, e2 c hc]
          · simp
          · rintro ⟨s', c', h1, h2, _, h4, h3⟩
            rw [Ptr.add_inj] at h3
            have := radix_inj (by omega) (by omega) h3
            omega
        · rw [e3 j c h0 hj (by omega) hc, u2.frame]
          rintro ⟨c', h4, h3⟩
          rw [Ptr.add_inj] at h3
          have := radix_inj (S := o.S) (s' := 0) (by omega : c < o.S) (by omega : c' < o.S) (by rw [h3]; omega)
          omega

theorem backward2Many_ok (h : o.WF) (hp : o.p = 2) (hq : o.q ≠ 1) (hS : o.S ≠ 1) {f F W : Ptr} {mem : Mem} {r : ℕ}
    {W? : Option Ptr} (hW : W?.getD F = W) (pre : o.Pre mem f F W) (hv : o.Visit r) :
    (o.backward2Many F f r W?).Ok mem (fun _ m' => o.BwdPost mem m' F f W r) := by
  obtain ⟨hmL, hL2⟩ := h.L_two hp
  have hL0 := h.L_pos
  have hm := h.m_pos
  have hCS := h.C_le_S
  have hC := h.C_pos
  have hP := h.P_one (by omega : o.p ≤ 2)
  have hD := h.D_one hS
  have hqn := h.q_n (by omega)
  have hrn := h.r_lt hD hv
  have hPD : o.P * o.D = 1 := by rw [hP, hD]
  have vf := pre.vf
  have vW := pre.vW
  rw [hPD, Nat.mul_one] at vW
  have hb := pre.fW
  have hrow : o.rows r = 1 := by rw [h.rows_D1 hD, hP]
  have hWS : ∀ s c, o.m ≤ s → W - o.Sm + (o.S * s + c) = W + (o.S * (s - o.m) + c) := fun s c hs => by
    have h1 : o.S * o.m ≤ o.S * s := Nat.mul_le_mul_left _ hs
    rw [h.Sm_eq, Ptr.sub_add (by omega), Nat.mul_sub]
    congr 1; omega
  unfold backward2Many
  simp only [hW]
  refine Cmd.Ok.bind (back_cols h hS hP (r := r) pre ?_)
  intro m1 u1 hin
  have fin : ∀ m' : Mem, m1.Upd m' (o.RegL f) →
      (∀ j < o.L, ∀ c < o.C, m'.val (f + (o.S * j + c)) = (if r = 0 then 0 else mem.val (f + (o.S * j + c))) +
        conj (w o.M (j * r)) * m1.val (W + (o.S * (j % o.m) + c))) → o.BwdPost mem m' F f W r := by
    intro m' u' e'
    refine finish_back h (u1.trans u' (fun p hp => Or.inr (Or.inr hp)) (fun p hp => Or.inl hp)) hin ?_
    intro j hj c hc
    rw [hrow, bsum_one, h.res_D1 hD r (by omega), Nat.mul_zero, Nat.zero_add, ← w_conj]
    exact e' j hj c hc
  have hf1 : ∀ j : ℕ, m1.val (f + j) = mem.val (f + j) := fun j => u1.frame _ (by
    rintro ⟨_, _, _, _, h3⟩; exact hb (by simpa using congrArg Ptr.buf h3))
  have hreg : ∀ a b : ℕ, b ≤ o.L → ∀ p, (∃ s c, a ≤ s ∧ s < b ∧ 0 ≤ c ∧ c < o.C ∧ p = f + (o.S * s + c)) → o.RegL f p := by
    rintro a b hb p ⟨s, c, h1, h2, h3, h4, rfl⟩; exact ⟨s, by omega, c, h4, rfl⟩
  have hni : ∀ {s c a b : ℕ}, c < o.C → ¬ (a ≤ s ∧ s < b) →
      ¬ (∃ s' c', a ≤ s' ∧ s' < b ∧ 0 ≤ c' ∧ c' < o.C ∧ f + (o.S * s + c) = f + (o.S * s' + c')) := by
    rintro s c a b hc hn ⟨s', c', h1, h2, _, h4, h3⟩
    rw [Ptr.add_inj] at h3
    have := radix_inj (by omega) (by omega) h3
    omega
  have hfr : ∀ {m m' : Mem} {a b : ℕ}, m.Upd m' (fun p => ∃ s c, a ≤ s ∧ s < b ∧ 0 ≤ c ∧ c < o.C ∧ p = f + (o.S * s + c)) →
      ∀ j : ℕ, m'.val (W + j) = m.val (W + j) := fun u j => u.frame _ (by
    rintro ⟨_, _, _, _, _, _, h3⟩; exact hb (by simpa using congrArg Ptr.buf h3.symm))
  by_cases hr : r = 0
  · subst hr
    rw [if_pos rfl]
    refine Cmd.Ok.bind (copyCols_ok hCS hb.symm (fun s c _ h2 h3 => Mem.valid_of_size u1.size (vf s (by omega) c h3))
      (fun s c _ h2 h3 => Mem.valid_of_size u1.size (vW s (by omega) c h3)) ?_)
    intro m2 u2 e2
    have hsz := u2.size.trans u1.size
    refine par2 (W := f) hCS (fun s c => m1.val (W + (o.S * (s - o.m) + c))) ?_ ?_ ?_ ?_
    · intro s c h1 h2 _ h3; body_simp; rw [hWS s c h1]
      exact ⟨Mem.valid_of_size hsz (vW _ (by omega) c h3), Mem.valid_of_size hsz (vf s h2 c h3)⟩
    · intro s c h1 h2 _ h3; body_simp; rw [hWS s c h1, hfr u2]
    · intro s c h1 h2 _ h3 p; body_simp; rw [hWS s c h1]
      rintro rfl; exact Or.inl (by simpa using hb.symm)
    intro m3 u3 e3
    refine fin m3 (u2.trans u3 (hreg _ _ (by omega)) (hreg _ _ (by omega))) ?_
    intro j hj c hc
    rcases Nat.lt_or_ge j o.m with h0 | h0
    · rw [u3.frame _ (hni hc (by omega)), e2 j c (by omega) h0 (by omega) hc, mod_lo h0]; simp
    · rw [e3 j c h0 hj (by omega) hc, mod_hi h0 (by omega)]; simp
  · rw [if_neg hr]
    refine Cmd.Ok.bind (par1c (W := f) (fun c => m1.val (f + c) + m1.val (W + c)) ?_ ?_ ?_ ?_)
    · intro c hc; body_simp
      have h1 := vf 0 hL0 c hc
      have h2 := vW 0 hm c hc
      rw [Nat.mul_zero, Nat.zero_add] at h1 h2
      exact ⟨Mem.valid_of_size u1.size h1, Mem.valid_of_size u1.size h2, Mem.valid_of_size u1.size h1⟩
    · intro c hc; body_simp
    · intro c hc p; body_simp
      rintro (rfl | rfl)
      · exact Or.inr rfl
      · exact Or.inl (by simpa using hb.symm)
    intro m2 u2 e2
    have hW2 : ∀ j : ℕ, m2.val (W + j) = m1.val (W + j) := fun j => u2.frame _ (by
      rintro ⟨_, _, h3⟩; exact hb (by simpa using congrArg Ptr.buf h3.symm))
    have hsz : m2.size = mem.size := u2.size.trans u1.size
    refine Cmd.Ok.bind (par2 (W := f) hCS
      (fun s c => m2.val (f + (o.S * s + c)) + conj (w o.M (s * r)) * m1.val (W + (o.S * s + c))) ?_ ?_ ?_ ?_)
    · intro s c h1 h2 _ h3; body_simp
      exact ⟨h.zq_bd hq (by omega) (by omega) (by omega), Mem.valid_of_size hsz (vf s (by omega) c h3),
        Mem.valid_of_size hsz (vW s (by omega) c h3), Mem.valid_of_size hsz (vf s (by omega) c h3)⟩
    · intro s c h1 h2 _ h3; body_simp
      rw [h.zq_val hq (by omega), hW2]
    · intro s c h1 h2 _ h3 p; body_simp
      rintro (rfl | rfl)
      · exact Or.inr rfl
      · exact Or.inl (by simpa using hb.symm)
    intro m3 u3 e3
    have hW3 : ∀ j : ℕ, m3.val (W + j) = m1.val (W + j) := fun j => by rw [hfr u3, hW2]
    have hsz3 := u3.size.trans hsz
    refine par2 (W := f) hCS
      (fun s c => m3.val (f + (o.S * s + c)) + conj (w o.M (s * r)) * m1.val (W + (o.S * (s - o.m) + c))) ?_ ?_ ?_ ?_
    · intro s c h1 h2 _ h3; body_simp; rw [hWS s c h1]
      exact ⟨h.zqS_bd hp (by omega) (by omega) h1 h2, Mem.valid_of_size hsz3 (vf s (by omega) c h3),
        Mem.valid_of_size hsz3 (vW _ (by omega) c h3), Mem.valid_of_size hsz3 (vf s (by omega) c h3)⟩
    · intro s c h1 h2 _ h3; body_simp
      rw [h.zqS_val hp h1 h2, hWS s c h1, hW3]
    · intro s c h1 h2 _ h3 p; body_simp; rw [hWS s c h1]
      rintro (rfl | rfl)
      · exact Or.inr rfl
      · exact Or.inl (by simpa using hb.symm)
    intro m4 u4 e4
    refine fin m4 ((u2.trans u3 (R := o.RegL f) ?_ (hreg _ _ (by omega))).trans u4 (fun _ h => h) (hreg _ _ (by omega))) ?_
    · rintro p ⟨c, hc, rfl⟩; exact ⟨0, hL0, c, hc, by simp⟩
    · intro j hj c hc
      rw [if_neg hr, ← hf1]
      have hn0 : 0 < j → ¬ ∃ c', c' < o.C ∧ f + (o.S * j + c) = f + c' := by
        rintro h0 ⟨c', h4, h3⟩
        rw [Ptr.add_inj] at h3
        have := radix_inj (S := o.S) (s' := 0) (by omega : c < o.S) (by omega : c' < o.S) (by rw [h3]; omega)
        omega
      obtain rfl | h0 | h0 : j = 0 ∨ (1 ≤ j ∧ j < o.m) ∨ o.m ≤ j := by omega
      · rw [u4.frame _ (hni hc (by omega)), u3.frame _ (hni hc (by omega)), Nat.mul_zero, Nat.zero_add, e2 c hc, Nat.zero_mod]
        simp
      · rw [u4.frame _ (hni hc (by omega)), e3 j c h0.1 h0.2 (by omega) hc, u2.frame _ (hn0 (by omega)), mod_lo h0.2]
      · rw [e4 j c h0 hj (by omega) hc, u3.frame _ (hni hc (by omega)), u2.frame _ (hn0 (by omega)), mod_hi h0 (by omega)]

end Fft
end Fftwpp
