import Verif.Proof.F1b

/-! `forward2`. -/

namespace Fftwpp
namespace Fft
open Finset ComplexConjugate
variable {o : Fft}

theorem WF.L_two (h : o.WF) (hp : o.p = 2) : o.m < o.L ∧ o.L ≤ 2 * o.m := by
  have h1 := h.p_ub
  have h2 := h.p_lb
  rw [hp] at h1 h2
  omega

theorem fillv2_lo {N L m : ℕ} (hm : m < L) {x : ℕ → ℂ} {k : ℤ} {s : ℕ} (hs : s < L - m) :
    fillv N L m 2 x k s = x s * w N (s * k) + x (m + s) * w N (((m + s : ℕ) : ℤ) * k) := by
  rw [fillv_two, if_pos (by omega), if_pos (by omega), Nat.add_comm m]

theorem fillv2_hi {N L m : ℕ} (hm : m < L) {x : ℕ → ℂ} {k : ℤ} {s : ℕ} (hs : L - m ≤ s) (hsm : s < m) :
    fillv N L m 2 x k s = x s * w N (s * k) := by
  rw [fillv_two, if_pos (by omega), if_neg (by omega), add_zero]

theorem forward2Pair_ok (h : o.WF) (hp : o.p = 2) (hq : o.q ≠ 1) {f F : Ptr} {mem : Mem} {r : ℕ}
    (hb : f.buf ≠ F.buf) (hf : ∀ j < o.L, mem.valid (f + j)) (hF : ∀ i < 2 * o.m, mem.valid (F + i))
    (hr : 0 < r) (hrq : r < o.q) {Q : Unit → Mem → Prop}
    (hQ : ∀ m', mem.Upd m' (fun p => ∃ s < o.m, p = F + s ∨ p = F + (o.m + s)) →
      (∀ s < o.m, m'.val (F + s) = fillv o.M o.L o.m 2 (fun j => mem.val (f + j)) r s) →
      (∀ s < o.m, m'.val (F + (o.m + s)) = fillv o.M o.L o.m 2 (fun j => mem.val (f + j)) (-r) s) → Q () m') :
    (o.forward2Pair f F r).Ok mem Q := by
  obtain ⟨hmL, hL2⟩ := h.L_two hp
  have hm := h.m_pos
  unfold forward2Pair
  refine Cmd.Ok.bind (run_map2 F (fillv o.M o.L o.m 2 (fun j => mem.val (f + j)) r 0) (F + o.m)
    (fillv o.M o.L o.m 2 (fun j => mem.val (f + j)) (-r) 0) ?_ ?_ ?_ ?_)
  · body_simp
    have := h.zqS_bd hp hr hrq (le_refl o.m) hmL
    refine ⟨?_, hf _ hmL, this, ?_, hF _ (by omega)⟩
    · rw [← Ptr.add_zero f]; exact hf 0 (by omega)
    · rw [← Ptr.add_zero F]; exact hF 0 (by omega)
  · body_simp
    rw [add_assoc, C30_pair_add, C30_pair_sub, h.zqS_val hp (le_refl o.m) hmL, w_conj, fillv2_lo hmL (by omega),
      fillv2_lo hmL (by omega), mul_comm, mul_comm (w o.M _) (mem.val _)]
    simp [Ptr.add_zero]
  · ptr
  intro m1 u1 e1 e1'
  have hf1 : ∀ j : ℕ, m1.val (f + j) = mem.val (f + j) := fun j => u1.frame _ (by ptr)
  refine Cmd.Ok.bind (par_map2 (fun s => F + s) (fun s => fillv o.M o.L o.m 2 (fun j => mem.val (f + j)) r s)
    (fun s => F + (o.m + s))
    (fun s => fillv o.M o.L o.m 2 (fun j => mem.val (f + j)) (-r) s) (rng_nodup _ _) ?_ ?_ ?_ ?_ ?_ ?_ ?_)
  · intro s hs
    rw [mem_rng] at hs
    body_simp
    rw [Nat.add_assoc]
    exact ⟨Mem.valid_of_size u1.size (hf s (by omega)), Mem.valid_of_size u1.size (hf _ (by omega)),
      h.zq_bd hq hr hrq (by omega), h.zqS_bd hp hr hrq (by omega) (by omega),
      Mem.valid_of_size u1.size (hF s (by omega)), Mem.valid_of_size u1.size (hF _ (by omega))⟩
  · intro s hs
    rw [mem_rng] at hs
    body_simp
    rw [C30_pair2_add, C30_pair2_sub, h.zq_val hq (by omega), Nat.add_assoc, h.zqS_val hp (by omega) (by omega), w_conj, w_conj,
      fillv2_lo hmL (by omega), fillv2_lo hmL (by omega), hf1, hf1]
    simp only [mul_neg]
    congr 2
    · ring
    · congr 1; ring
  · ptr
  · ptr
  · ptr
  · body_simp <;> ptr
  intro m2 u2 e2 e2'
  have hf2 : ∀ j : ℕ, m2.val (f + j) = mem.val (f + j) := fun j => by rw [u2.frame (f + j) (by ptr), hf1]
  have hsz : m2.size = mem.size := u2.size.trans u1.size
  refine par_map2 (fun s => F + s) (fun s => fillv o.M o.L o.m 2 (fun j => mem.val (f + j)) r s)
    (fun s => F + (o.m + s))
    (fun s => fillv o.M o.L o.m 2 (fun j => mem.val (f + j)) (-r) s) (rng_nodup _ _) ?_ ?_ ?_ ?_ ?_ ?_ ?_
  · intro s hs
    rw [mem_rng] at hs
    body_simp
    exact ⟨Mem.valid_of_size hsz (hf s (by omega)),
      h.zq_bd hq hr hrq (by omega),
      Mem.valid_of_size hsz (hF s (by omega)), Mem.valid_of_size hsz (hF _ (by omega))⟩
  · intro s hs
    rw [mem_rng] at hs
    body_simp
    rw [C30_pair_add, C30_pair_sub, h.zq_val hq (by omega), w_conj, fillv2_hi hmL hs.1 hs.2, fillv2_hi hmL hs.1 hs.2, hf2]
    simp only [mul_neg]
    rw [mul_comm, mul_comm (w o.M (-_))]
  · ptr
  · ptr
  · ptr
  · body_simp <;> ptr
  intro m3 u3 e3 e3'
  refine hQ m3 ((u1.trans u2 (R := fun p => ∃ s < o.m, p = F + s ∨ p = F + (o.m + s)) ?_ ?_).trans u3 (fun _ h => h) ?_) ?_ ?_
  · rintro p (rfl | rfl)
    · exact ⟨0, hm, Or.inl (Ptr.add_zero _).symm⟩
    · exact ⟨0, hm, Or.inr rfl⟩
  · rintro p (⟨i, hi, rfl⟩ | ⟨i, hi, rfl⟩) <;> rw [mem_rng] at hi
    · exact ⟨i, by omega, Or.inl rfl⟩
    · exact ⟨i, by omega, Or.inr rfl⟩
  · rintro p (⟨i, hi, rfl⟩ | ⟨i, hi, rfl⟩) <;> rw [mem_rng] at hi
    · exact ⟨i, by omega, Or.inl rfl⟩
    · exact ⟨i, by omega, Or.inr rfl⟩
  · intro s hs
    obtain rfl | h0 | h0 : s = 0 ∨ (1 ≤ s ∧ s < o.L - o.m) ∨ o.L - o.m ≤ s := by omega
    · rw [u3.frame (F + 0) (by ptr), u2.frame (F + 0) (by ptr), Ptr.add_zero, e1]
    · rw [u3.frame (F + s) (by ptr), e2 s (mem_rng.2 h0)]
    · exact e3 s (mem_rng.2 ⟨h0, hs⟩)
  · intro s hs
    obtain rfl | h0 | h0 : s = 0 ∨ (1 ≤ s ∧ s < o.L - o.m) ∨ o.L - o.m ≤ s := by omega
    · rw [u3.frame (F + (o.m + 0)) (by ptr), u2.frame (F + (o.m + 0)) (by ptr), Nat.add_zero, e1']
    · rw [u3.frame (F + (o.m + s)) (by ptr), e2' s (mem_rng.2 h0)]
    · exact e3' s (mem_rng.2 ⟨h0, hs⟩)

theorem forward2Rest_ok (h : o.WF) (hp : o.p = 2) (hq : o.q ≠ 1) {f W : Ptr} {mem : Mem} {r0 dr0 K : ℕ}
    (hK : K = if o.D = 1 then min dr0 1 else 2 * dr0)
    (hb : f.buf ≠ W.buf) (hf : ∀ j < o.L, mem.valid (f + j)) (hW : ∀ i < o.m * K, mem.valid (W + i))
    (hr : 0 < r0) (hrq : r0 + dr0 ≤ o.q) {Q : Unit → Mem → Prop}
    (hQ : ∀ m', mem.Upd m' (o.RowReg W K) → o.Filled m' W (fun j => mem.val (f + j))
      (fun ρ => if o.D = 1 then (r0 : ℤ) else kpair r0 ρ) K → Q () m') :
    (o.forward2Rest f W r0 dr0).Ok mem Q := by
  obtain ⟨hmL, hL2⟩ := h.L_two hp
  have hm := h.m_pos
  unfold forward2Rest
  by_cases hD : o.D = 1
  · simp only [hD, if_true] at hK hQ ⊢
    by_cases hd : 0 < dr0
    · rw [Nat.min_eq_right hd] at hK
      subst hK
      rw [Nat.mul_one] at hW
      rw [if_pos hd]
      refine Cmd.Ok.bind (run_map1 W (fillv o.M o.L o.m 2 (fun j => mem.val (f + j)) r0 0) ?_ ?_ ?_)
      · body_simp
        refine ⟨?_, h.zqS_bd hp hr (by omega) (le_refl o.m) hmL, hf _ hmL, ?_⟩
        · rw [← Ptr.add_zero f]; exact hf 0 (by omega)
        · rw [← Ptr.add_zero W]; exact hW 0 (by omega)
      · body_simp
        rw [h.zqS_val hp (le_refl o.m) hmL, fillv2_lo hmL (by omega), mul_comm]
        simp [Ptr.add_zero]
      intro m1 u1 e1
      have hf1 : ∀ j : ℕ, m1.val (f + j) = mem.val (f + j) := fun j => u1.frame _ (by ptr)
      refine Cmd.Ok.bind (par_map1 (fun s => W + s) (fun s => fillv o.M o.L o.m 2 (fun j => mem.val (f + j)) r0 s)
        (rng_nodup _ _) ?_ ?_ ?_ ?_ ?_)
      · intro s hs
        rw [mem_rng] at hs
        body_simp
        rw [Nat.add_assoc]
        exact ⟨h.zq_bd hq hr (by omega) (by omega), h.zqS_bd hp hr (by omega) (by omega) (by omega),
          Mem.valid_of_size u1.size (hf s (by omega)), Mem.valid_of_size u1.size (hf _ (by omega)),
          Mem.valid_of_size u1.size (hW s (by omega))⟩
      · intro s hs
        rw [mem_rng] at hs
        body_simp
        rw [C30_zmult, C30_zmult, h.zq_val hq (by omega), Nat.add_assoc, h.zqS_val hp (by omega) (by omega),
          fillv2_lo hmL (by omega), hf1, hf1, mul_comm, mul_comm (w o.M _) (mem.val (f + (o.m + s)))]
      · ptr
      · body_simp <;> ptr
      intro m2 u2 e2
      have hf2 : ∀ j : ℕ, m2.val (f + j) = mem.val (f + j) := fun j => by rw [u2.frame (f + j) (by ptr), hf1]
      have hsz : m2.size = mem.size := u2.size.trans u1.size
      refine par_map1 (fun s => W + s) (fun s => fillv o.M o.L o.m 2 (fun j => mem.val (f + j)) r0 s)
        (rng_nodup _ _) ?_ ?_ ?_ ?_ ?_
      · intro s hs
        rw [mem_rng] at hs
        body_simp
        exact ⟨h.zq_bd hq hr (by omega) (by omega),
          Mem.valid_of_size hsz (hf s (by omega)), Mem.valid_of_size hsz (hW s (by omega))⟩
      · intro s hs
        rw [mem_rng] at hs
        body_simp
        rw [h.zq_val hq (by omega), fillv2_hi hmL hs.1 hs.2, hf2, mul_comm]
      · ptr
      · body_simp <;> ptr
      intro m3 u3 e3
      refine hQ m3 ((u1.trans u2 (R := o.RowReg W 1) ?_ ?_).trans u3 (fun _ h => h) ?_) ?_
      · rintro p rfl; exact ⟨0, by omega, 0, hm, by simp [Ptr.add_zero]⟩
      · rintro p ⟨i, hi, rfl⟩; rw [mem_rng] at hi
        exact ⟨0, by omega, i, by omega, by simp⟩
      · rintro p ⟨i, hi, rfl⟩; rw [mem_rng] at hi
        exact ⟨0, by omega, i, by omega, by simp⟩
      · intro ρ hρ s hs
        obtain rfl : ρ = 0 := by omega
        rw [hp, Nat.mul_zero, Nat.zero_add]
        obtain rfl | h0 | h0 : s = 0 ∨ (1 ≤ s ∧ s < o.L - o.m) ∨ o.L - o.m ≤ s := by omega
        · rw [u3.frame (W + 0) (by ptr), u2.frame (W + 0) (by ptr), Ptr.add_zero, e1]
        · rw [u3.frame (W + s) (by ptr), e2 s (mem_rng.2 h0)]
        · exact e3 s (mem_rng.2 ⟨h0, hs⟩)
    · rw [if_neg hd]
      obtain rfl : dr0 = 0 := by omega
      simp only [Nat.zero_min] at hK
      subst hK
      exact Cmd.Ok.pure (hQ mem (Mem.Upd.refl _ _) (fun ρ hρ => by omega))
  · simp only [hD, if_false] at hK hQ ⊢
    subst hK
    have hidx : ∀ d, 2 * o.m * d = o.m * (2 * d) := fun d => by ring
    simp only [hidx]
    refine seqLoop_rng (fun d m' => mem.Upd m' (o.RowReg W (2 * d)) ∧
      o.Filled m' W (fun j => mem.val (f + j)) (kpair r0) (2 * d)) ?_ ?_ ?_
    · exact ⟨Mem.Upd.refl _ _, fun ρ hρ => by omega⟩
    · rintro d m1 hd ⟨u1, e1⟩
      refine forward2Pair_ok h hp hq (by simpa using hb) (fun j hj => Mem.valid_of_size u1.size (hf j hj)) ?_ (by omega)
        (by omega) ?_
      · intro i hi
        rw [Ptr.add_add]
        refine Mem.valid_of_size u1.size (hW _ ?_)
        have : o.m * (2 * d + 2) ≤ o.m * (2 * dr0) := Nat.mul_le_mul_left _ (by omega)
        rw [Nat.mul_add] at this
        omega
      intro m2 u2 e2 e3
      have hfr : ∀ s : ℕ, m1.val (f + s) = mem.val (f + s) := fun s => u1.frame _ (by
        rintro ⟨_, _, _, _, h3⟩; exact hb (by simpa using congrArg Ptr.buf h3))
      have hrow : ∀ s, W + o.m * (2 * d) + (o.m + s) = W + (o.m * (2 * d + 1) + s) := fun s => by
        rw [Ptr.add_add]; congr 1; ring
      simp only [hrow, hfr] at u2 e3
      simp only [Ptr.add_add, hfr] at u2 e2
      refine ⟨u1.trans u2 ?_ ?_, ?_⟩
      · intro p hp; exact hp.mono (by omega)
      · rintro p ⟨s, hs, rfl | rfl⟩
        · exact ⟨2 * d, by omega, s, hs, rfl⟩
        · exact ⟨2 * d + 1, by omega, s, hs, rfl⟩
      · intro ρ hρ s hs
        rcases Nat.lt_or_ge ρ (2 * d) with h1 | h1
        · rw [u2.frame, e1 ρ h1 s hs]
          rintro ⟨s', hs', h3 | h3⟩ <;> rw [Ptr.add_inj] at h3 <;>
            have := radix_inj (by omega) (by omega) h3 <;> omega
        · obtain rfl | rfl : ρ = 2 * d ∨ ρ = 2 * d + 1 := by omega
          · rw [e2 s hs, hp]; simp [kpair]
          · rw [e3 s hs, hp]
            simp only [kpair]
            rw [if_neg (by omega), show (2 * d + 1) / 2 = d by omega]
    · rintro m1 ⟨u1, e1⟩
      exact hQ m1 u1 e1

theorem forward2_ok (h : o.WF) (hp : o.p = 2) (hq : o.q ≠ 1) (hS : o.S = 1) {f F W : Ptr} {mem : Mem} {r : ℕ}
    {W? : Option Ptr} (hW : W?.getD F = W) (pre : o.Pre mem f F W) (hpd : o.Padded mem W) (hv : o.Visit r) :
    (o.forward2 f F r W?).Ok mem (fun _ m' => o.FwdPost mem m' f F W r) := by
  obtain ⟨hmL, hL2⟩ := h.L_two hp
  have hm := h.m_pos
  have hC := h.C_one hS
  have hP := h.P_one (by omega : o.p ≤ 2)
  have hq0 := h.q_pos
  have vf : ∀ j < o.L, mem.valid (f + j) := fun j hj => by
    have := pre.vf j hj 0 h.C_pos; rwa [hS, Nat.one_mul, Nat.add_zero] at this
  have vW : ∀ i < o.m * o.D, mem.valid (W + i) := fun i hi => by
    have := pre.vW i (by rw [hP, Nat.one_mul]; exact hi) 0 h.C_pos; rwa [hS, Nat.one_mul, Nat.add_zero] at this
  have hD0 := h.D0_pos
  have hDD := h.D0_le
  have hmD : o.m * 1 ≤ o.m * o.D := Nat.mul_le_mul_left _ h.D_pos
  have hne : ∀ i j : ℕ, W + i ≠ f + j := fun i j => Ptr.ne_of_buf (by simpa using pre.fW.symm)
  have hb := pre.fW
  have hpadv : ∀ m', o.Padded m' W := fun m' _ _ hp1 => by omega
  -- the common end of the two branches for r=0
  have hstep : ∀ (a dr0 : ℕ) (m2 : Mem), mem.Upd m2 (o.RowReg W a) →
      o.Filled m2 W (fun j => mem.val (f + j)) (o.res 0) a →
      o.rows 0 = a + (if o.D = 1 then min dr0 1 else 2 * dr0) → 1 + dr0 ≤ o.q →
      (∀ ρ < (if o.D = 1 then min dr0 1 else 2 * dr0), o.res 0 (a + ρ) = if o.D = 1 then 1 else kpair 1 ρ) →
      Cmd.Ok (do o.forward2Rest f (W + a * o.m) 1 dr0
                 (if o.D0 = o.D then o.fftm else o.fftm0).exec W F) m2 (fun _ m' => o.FwdPost mem m' f F W 0) := by
    intro a dr0 m2 u2 f2 b1 b3 b4
    have hKD := h.rows_le 0
    rw [hP, Nat.one_mul, b1] at hKD
    refine Cmd.Ok.bind (forward2Rest_ok h hp hq rfl (by simpa using pre.fW)
      (fun j hj => Mem.valid_of_size u2.size (vf j hj)) ?_ (by omega) b3 ?_)
    · intro i hi
      rw [Ptr.add_add]
      refine Mem.valid_of_size u2.size (vW _ ?_)
      refine lt_of_lt_of_le ?_ (Nat.mul_le_mul_left _ hKD)
      rw [Nat.mul_add, Nat.mul_comm a]; omega
    intro m3 u3 f3
    have hfr : ∀ j : ℕ, m2.val (f + j) = mem.val (f + j) := fun j => u2.frame _ (by
      rintro ⟨_, _, _, _, h3⟩; exact hne _ _ h3.symm)
    simp only [hfr] at f3
    have hfill : o.Filled m3 W (fun j => mem.val (f + j)) (o.res 0) (o.rows 0) := by
      rw [b1]
      refine (f2.frame u3).append f3 ?_
      intro ρ hρ
      rw [b4 ρ hρ]; simp
    have u23 : mem.Upd m3 (o.RowReg W (o.rows 0)) := by
      rw [b1]; exact u2.trans u3 (fun p hp => hp.mono (by omega)) (fun p hp => hp.shift)
    have := finish_rows h hq hS (r := 0) pre (u23.mono fun p hp => hp.mono (h.rows_le 0)) hfill (hpadv _)
    simpa using this
  unfold forward2
  simp only [hW]
  by_cases hr : r = 0
  · subst hr
    rw [if_pos rfl]
    by_cases hc : o.D = 1 ∨ 2 * (o.q / 2) < o.q
    · rw [if_pos hc]
      obtain ⟨b1, b2, b3, b4⟩ := h.block0_odd (by omega) hc
      refine Cmd.Ok.bind (par_map1 (fun s => W + s) (fun s => fillv o.M o.L o.m 2 (fun j => mem.val (f + j)) 0 s)
        (rng_nodup _ _) ?_ ?_ ?_ ?_ ?_)
      · intro s hs
        rw [mem_rng] at hs
        body_simp
        exact ⟨vf _ (by omega), vf _ (by omega), vW _ (by omega)⟩
      · intro s hs
        rw [mem_rng] at hs
        body_simp
        rw [fillv2_lo hmL hs.2]; simp
      · ptr
      · body_simp <;> ptr
      intro m1 u1 e1
      refine Cmd.Ok.bind (copyRow_ok hne (fun s _ h2 => Mem.valid_of_size u1.size (vW s (by omega)))
        (fun s _ h2 => Mem.valid_of_size u1.size (vf s (by omega))) ?_)
      intro m2 u2 e2
      refine hstep 1 _ m2 (u1.trans u2 ?_ ?_) ?_ b1 b3 ?_
      · rintro p ⟨s, hs, rfl⟩; rw [mem_rng] at hs; exact ⟨0, by omega, s, by omega, by simp⟩
      · rintro p ⟨s, h1, h2, rfl⟩; exact ⟨0, by omega, s, by omega, by simp⟩
      · intro ρ hρ s hs
        obtain rfl : ρ = 0 := by omega
        rw [hp, b2, Nat.mul_zero, Nat.zero_add]
        rcases Nat.lt_or_ge s (o.L - o.m) with h1 | h1
        · rw [u2.frame (W + s) (by ptr), e1 s (mem_rng.2 ⟨by omega, h1⟩)]
        · rw [e2 s h1 hs, fillv2_hi hmL h1 hs, u1.frame (f + s) (by ptr)]; simp
      · intro ρ hρ
        split_ifs at hρ ⊢ with hD
        · rw [h.D0_eq_one hD] at hρ; simp at hρ
        · exact b4 ρ hD
    · rw [if_neg hc]
      obtain ⟨b1, b2, b3, b4, b5⟩ := h.block0_even (by omega) hc
      rw [if_pos hp] at b3
      have hD2 : 2 ≤ o.D := by have := h.D_pos; omega
      have hm2 : o.m * 2 ≤ o.m * o.D := Nat.mul_le_mul_left _ hD2
      -- w^(m q/2) = -1
      have hhalf : w o.M ((o.m : ℤ) * (-((o.q / 2 : ℕ) : ℤ))) = -1 := by
        have hq2 : o.q = 2 * (o.q / 2) := by omega
        rw [h.M_eq]
        have h1 : w (o.m * o.q) ((o.m : ℤ) * (-((o.q / 2 : ℕ) : ℤ))) = w 2 (-1) := by
          have : o.m * o.q = 2 * (o.m * (o.q / 2)) := by
            conv_lhs => rw [hq2]
            ring
          rw [this, show ((o.m : ℤ) * (-((o.q / 2 : ℕ) : ℤ))) = ((o.m * (o.q / 2) : ℕ) : ℤ) * (-1) by push_cast; ring]
          apply w_base
          have : 0 < o.m * (o.q / 2) := Nat.mul_pos hm (by omega)
          omega
        rw [h1, w]
        push_cast
        rw [show (2 * Real.pi * Complex.I * -1 / 2 : ℂ) = -(Real.pi * Complex.I) by ring, Complex.exp_neg,
          Complex.exp_pi_mul_I]
        norm_num
      have hms : ∀ s : ℕ, w o.M (((o.m + s : ℕ) : ℤ) * (-((o.q / 2 : ℕ) : ℤ))) = - w o.M (-((s : ℤ) * (o.q / 2 : ℕ))) := by
        intro s
        push_cast
        rw [add_mul, w_add]
        push_cast at hhalf
        rw [hhalf, mul_neg]; ring
      refine Cmd.Ok.bind (run_map2 W (fillv o.M o.L o.m 2 (fun j => mem.val (f + j)) 0 0) (W + o.m)
        (fillv o.M o.L o.m 2 (fun j => mem.val (f + j)) (-((o.q / 2 : ℕ) : ℤ)) 0) ?_ ?_ ?_ ?_)
      · body_simp
        refine ⟨?_, vf _ hmL, ?_, vW _ (by omega)⟩
        · rw [← Ptr.add_zero f]; exact vf 0 (by omega)
        · rw [← Ptr.add_zero W]; exact vW 0 (by omega)
      · body_simp
        rw [fillv2_lo hmL (by omega), fillv2_lo hmL (by omega), hms]
        simp [Ptr.add_zero, sub_eq_add_neg]
      · ptr
      intro m1 u1 e1 e1'
      have hf1 : ∀ j : ℕ, m1.val (f + j) = mem.val (f + j) := fun j => u1.frame _ (by ptr)
      refine Cmd.Ok.bind (par_map2 (fun s => W + s) (fun s => fillv o.M o.L o.m 2 (fun j => mem.val (f + j)) 0 s)
        (fun s => W + (o.m + s))
        (fun s => fillv o.M o.L o.m 2 (fun j => mem.val (f + j)) (-((o.q / 2 : ℕ) : ℤ)) s) (rng_nodup _ _) ?_ ?_ ?_ ?_ ?_ ?_ ?_)
      · intro s hs
        rw [mem_rng] at hs
        body_simp
        exact ⟨Mem.valid_of_size u1.size (vf s (by omega)), Mem.valid_of_size u1.size (vf _ (by omega)),
          Mem.valid_of_size u1.size (vW _ (by omega)),
          h.zq_bd hq (by omega) (by omega) (by omega), Mem.valid_of_size u1.size (vW _ (by omega))⟩
      · intro s hs
        rw [mem_rng] at hs
        body_simp
        rw [h.zq_val hq (by omega), fillv2_lo hmL (by omega), fillv2_lo hmL (by omega), hf1, hf1, hms, w_conj]
        simp only [mul_neg, mul_zero, w_zero, mul_one]
        congr 3
        ring
      · ptr
      · ptr
      · ptr
      · body_simp <;> ptr
      intro m2 u2 e2 e2'
      have hf2 : ∀ j : ℕ, m2.val (f + j) = mem.val (f + j) := fun j => by rw [u2.frame (f + j) (by ptr), hf1]
      have hsz : m2.size = mem.size := u2.size.trans u1.size
      refine Cmd.Ok.bind (par_map2 (fun s => W + s) (fun s => fillv o.M o.L o.m 2 (fun j => mem.val (f + j)) 0 s)
        (fun s => W + (o.m + s))
        (fun s => fillv o.M o.L o.m 2 (fun j => mem.val (f + j)) (-((o.q / 2 : ℕ) : ℤ)) s) (rng_nodup _ _) ?_ ?_ ?_ ?_ ?_ ?_ ?_)
      · intro s hs
        rw [mem_rng] at hs
        body_simp
        exact ⟨Mem.valid_of_size hsz (vf s (by omega)),
          Mem.valid_of_size hsz (vW _ (by omega)),
          h.zq_bd hq (by omega) (by omega) (by omega), Mem.valid_of_size hsz (vW _ (by omega))⟩
      · intro s hs
        rw [mem_rng] at hs
        body_simp
        rw [h.zq_val hq (by omega), fillv2_hi hmL hs.1 hs.2, fillv2_hi hmL hs.1 hs.2, hf2, w_conj]
        simp only [mul_neg, mul_zero, w_zero, mul_one]
        congr 3
        ring
      · ptr
      · ptr
      · ptr
      · body_simp <;> ptr
      intro m3 u3 e3 e3'
      have hreg : ∀ s < o.m, o.RowReg W 2 (W + s) ∧ o.RowReg W 2 (W + (o.m + s)) := fun s hs =>
        ⟨⟨0, by omega, s, hs, by simp⟩, ⟨1, by omega, s, hs, by simp⟩⟩
      have hK2 : 2 * ((o.D0 - 2) / 2) = if o.D = 1 then min ((o.D0 - 2) / 2) 1 else 2 * ((o.D0 - 2) / 2) := by
        rw [if_neg (by omega)]
      rw [hK2] at b1
      refine hstep 2 _ m3 ((u1.trans u2 (R := o.RowReg W 2) ?_ ?_).trans u3 (fun _ h => h) ?_) ?_ b1 b4 ?_
      · rintro p (rfl | rfl)
        · have := (hreg 0 hm).1; rwa [Ptr.add_zero] at this
        · exact (hreg 0 hm).2
      · rintro p (⟨i, hi, rfl⟩ | ⟨i, hi, rfl⟩) <;> rw [mem_rng] at hi
        · exact (hreg i (by omega)).1
        · exact (hreg i (by omega)).2
      · rintro p (⟨i, hi, rfl⟩ | ⟨i, hi, rfl⟩) <;> rw [mem_rng] at hi
        · exact (hreg i (by omega)).1
        · exact (hreg i (by omega)).2
      · intro ρ hρ s hs
        obtain rfl | rfl : ρ = 0 ∨ ρ = 1 := by omega
        · rw [hp, b2, Nat.mul_zero, Nat.zero_add]
          obtain rfl | h0 | h0 : s = 0 ∨ (1 ≤ s ∧ s < o.L - o.m) ∨ o.L - o.m ≤ s := by omega
          · rw [u3.frame (W + 0) (by ptr), u2.frame (W + 0) (by ptr), Ptr.add_zero, e1]
          · rw [u3.frame (W + s) (by ptr), e2 s (mem_rng.2 h0)]
          · exact e3 s (mem_rng.2 ⟨h0, hs⟩)
        · rw [hp, b3, Nat.mul_one]
          obtain rfl | h0 | h0 : s = 0 ∨ (1 ≤ s ∧ s < o.L - o.m) ∨ o.L - o.m ≤ s := by omega
          · rw [u3.frame (W + (o.m + 0)) (by ptr), u2.frame (W + (o.m + 0)) (by ptr), Nat.add_zero, e1']
          · rw [u3.frame (W + (o.m + s)) (by ptr), e2' s (mem_rng.2 h0)]
          · exact e3' s (mem_rng.2 ⟨h0, hs⟩)
      · intro ρ hρ
        rw [if_neg (by omega)]
        exact b5 ρ
  · rw [if_neg hr]
    obtain ⟨b1, b2, b3⟩ := h.block_pos (by omega) hv (by omega)
    have hKD := h.rows_le r
    rw [hP, Nat.one_mul] at hKD
    refine Cmd.Ok.bind (forward2Rest_ok h hp hq b1 pre.fW vf ?_ (by omega) b2 ?_)
    · intro i hi
      exact vW _ (lt_of_lt_of_le hi (Nat.mul_le_mul_left _ hKD))
    intro m3 u3 f3
    have hfill : o.Filled m3 W (fun j => mem.val (f + j)) (o.res r) (o.rows r) := by
      intro ρ hρ s hs
      rw [f3 ρ hρ s hs, b3 ρ hρ]
    have := finish_rows h hq hS (r := r) pre (u3.mono fun p hp => hp.mono (h.rows_le r)) hfill (hpadv _)
    rw [if_pos (Or.inl (by omega))] at this
    exact this

end Fft
end Fftwpp
