import Verif.Proof.Iface

/-! `forward1`. -/

namespace Fftwpp
namespace Fft
open Finset ComplexConjugate
variable {o : Fft}

theorem copyRow_ok {a b : ℕ} {W f : Ptr} {mem : Mem} (hb : ∀ i j : ℕ, W + i ≠ f + j)
    (hv : ∀ s, a ≤ s → s < b → mem.valid (W + s)) (hf : ∀ s, a ≤ s → s < b → mem.valid (f + s))
    {Q : Unit → Mem → Prop}
    (hQ : ∀ m', mem.Upd m' (fun p => ∃ s, a ≤ s ∧ s < b ∧ p = W + s) →
      (∀ s, a ≤ s → s < b → m'.val (W + s) = mem.val (f + s)) → Q () m') :
    (par (rng a b) fun s => copy1 (W + s) (f + s)).Ok mem Q := by
  refine par_map1 (fun s => W + s) (fun s => mem.val (f + s)) (rng_nodup _ _) ?_ ?_ ?_ ?_ ?_
  · intro s hs; rw [mem_rng] at hs; body_simp; exact ⟨hf s hs.1 hs.2, hv s hs.1 hs.2⟩
  · intro s hs; body_simp
  · ptr
  · body_simp
    intro i _ j _ _; exact hb _ _
  · intro m' hu h1
    refine hQ m' (hu.mono ?_) ?_
    · rintro p ⟨i, hi, rfl⟩; rw [mem_rng] at hi; exact ⟨i, hi.1, hi.2, rfl⟩
    · intro s h2 h3; exact h1 s (mem_rng.2 ⟨h2, h3⟩)

theorem Filled.append {m : Mem} {W : Ptr} {x : ℕ → ℂ} {k k' : ℕ → ℤ} {a K : ℕ} (h1 : o.Filled m W x k a)
    (h2 : o.Filled m (W + a * o.m) x k' K) (hk : ∀ ρ < K, k (a + ρ) = k' ρ) : o.Filled m W x k (a + K) := by
  intro ρ hρ s hs
  rcases Nat.lt_or_ge ρ a with h3 | h3
  · exact h1 ρ h3 s hs
  · have := h2 (ρ - a) (by omega) s hs
    rw [← hk (ρ - a) (by omega), show a + (ρ - a) = ρ by omega, Ptr.add_add, show a * o.m + (o.m * (ρ - a) + s) =
      o.m * (a + (ρ - a)) + s by ring, show a + (ρ - a) = ρ by omega] at this
    exact this

theorem Filled.frame {m m' : Mem} {W : Ptr} {x : ℕ → ℂ} {k : ℕ → ℤ} {a K : ℕ} (h1 : o.Filled m W x k a)
    (u : m.Upd m' (o.RowReg (W + a * o.m) K)) : o.Filled m' W x k a := by
  intro ρ hρ s hs
  rw [u.frame, h1 ρ hρ s hs]
  rintro ⟨ρ', hρ', s', hs', h3⟩
  rw [Ptr.add_add, Ptr.add_inj, show a * o.m + (o.m * ρ' + s') = o.m * (a + ρ') + s' by ring] at h3
  have := radix_inj hs hs' h3
  omega

theorem RowReg.shift {W : Ptr} {a K : ℕ} {p : Ptr} (h : o.RowReg (W + a * o.m) K p) : o.RowReg W (a + K) p := by
  obtain ⟨ρ, hρ, s, hs, rfl⟩ := h
  exact ⟨a + ρ, by omega, s, hs, by rw [Ptr.add_add]; congr 1; ring⟩

theorem RowReg.mono {W : Ptr} {K K' : ℕ} {p : Ptr} (h : o.RowReg W K p) (hK : K ≤ K') : o.RowReg W K' p := by
  obtain ⟨ρ, hρ, s, hs, rfl⟩ := h
  exact ⟨ρ, by omega, s, hs, rfl⟩

theorem PadZ.sub {m m' : Mem} {W : Ptr} {K K' a : ℕ} (h : o.PadZ m W K) (u : m.Upd m' (o.RowReg W a)) (hK : a + K' ≤ K) :
    o.PadZ m' (W + a * o.m) K' := by
  intro hi hp ρ hρ s hs hL
  rw [Ptr.add_add, show a * o.m + (o.m * ρ + s) = o.m * (a + ρ) + s by ring, u.frame, h hi hp (a + ρ) (by omega) s hs hL]
  rintro ⟨ρ', hρ', s', hs', h3⟩
  rw [Ptr.add_inj] at h3
  have := radix_inj hs hs' h3
  omega

/-- Rows filled with padding zeros keep the array padded. -/
theorem WF.padded_of_filled (h : o.WF) (hS : o.S = 1) {mem m1 : Mem} {W : Ptr} {x : ℕ → ℂ} {k : ℕ → ℤ} {K : ℕ}
    (hpd : o.Padded mem W) (u : mem.Upd m1 (o.RowReg W K)) (hf : o.Filled m1 W x k K) : o.Padded m1 W := by
  intro hi hq hp1 t ht s hs hLs c hc
  have hC := h.C_one hS
  obtain rfl : c = 0 := by omega
  have h0 := hpd hi hq hp1 t ht s hs hLs 0 h.C_pos
  rw [hS] at h0 ⊢
  simp only [Nat.one_mul, Nat.add_zero] at h0 ⊢
  rcases Nat.lt_or_ge t K with h1 | h1
  · rw [hf t h1 s hs, hp1, fillv_one, if_neg (by omega)]
  · rw [u.frame, h0]
    rintro ⟨ρ', hρ', s', hs', h3⟩
    rw [Ptr.add_inj] at h3
    have := radix_inj hs hs' h3
    omega

theorem Pre.padZ (h : o.WF) (hS : o.S = 1) (hq : o.q ≠ 1) {mem : Mem} {W : Ptr}
    (hpd : o.Padded mem W) : o.PadZ mem W o.D := by
  intro hi hp ρ hρ s hs hL
  have := hpd hi hq hp ρ hρ s hs hL 0 h.C_pos
  rw [hS, Nat.one_mul, Nat.add_zero] at this
  exact this

theorem forward1_ok (h : o.WF) (hp : o.p = 1) (hq : o.q ≠ 1) (hS : o.S = 1) {f F W : Ptr} {mem : Mem} {r : ℕ}
    {W? : Option Ptr} (hW : W?.getD F = W) (pre : o.Pre mem f F W) (hpd : o.Padded mem W) (hv : o.Visit r) :
    (o.forward1 f F r W?).Ok mem (fun _ m' => o.FwdPost mem m' f F W r) := by
  have hL : o.L ≤ o.m := by have := h.p_ub; rw [hp, Nat.mul_one] at this; exact this
  have hL0 := h.L_pos
  have hm := h.m_pos
  have hC := h.C_one hS
  have hP := h.P_one (by omega : o.p ≤ 2)
  have hq0 := h.q_pos
  have vf : ∀ j < o.L, mem.valid (f + j) := fun j hj => by
    have := pre.vf j hj 0 h.C_pos; rwa [hS, Nat.one_mul, Nat.add_zero] at this
  have vW : ∀ i < o.m * o.D, mem.valid (W + i) := fun i hi => by
    have := pre.vW i (by rw [hP, Nat.one_mul]; exact hi) 0 h.C_pos; rwa [hS, Nat.one_mul, Nat.add_zero] at this
  have hpz := Pre.padZ h hS hq hpd
  have hD0 := h.D0_pos
  have hDD := h.D0_le
  have hmD : o.m * 1 ≤ o.m * o.D := Nat.mul_le_mul_left _ h.D_pos
  have hne : ∀ i j : ℕ, W + i ≠ f + j := fun i j => Ptr.ne_of_buf (by simpa using pre.fW.symm)
  unfold forward1
  simp only [hW]
  by_cases hr : r = 0
  · subst hr
    rw [if_pos rfl]
    by_cases hc : o.D = 1 ∨ 2 * (o.q / 2) < o.q
    · rw [if_pos hc]
      obtain ⟨b1, b2, b3, b4⟩ := h.block0_odd (by omega) hc
      by_cases hx : o.inplace = false ∧ o.D = 1 ∧ o.m ≤ o.L
      · -- direct transform
        rw [if_pos hx]
        obtain ⟨hi, hD, hmL⟩ := hx
        have hD1 := h.D0_eq_one hD
        have hrow : o.rows 0 = 1 := by rw [b1, if_pos hD, hD1]; rfl
        rw [(h.fftm_S1 hq hS).1, hD, hP]
        refine exec_rows (Or.inr ⟨hi, pre.fF⟩) (fun i hi => vf i (by omega)) (fun i hi => ?_) ?_
        · have := pre.vF i (by rw [hP, hD]; omega) 0 h.C_pos; rwa [hS, Nat.one_mul, Nat.add_zero] at this
        intro m' u' e'
        refine ⟨u'.mono ?_, ?_, ?_⟩
        · rintro p ⟨ρ, hρ, s, hs, rfl⟩
          exact Or.inl ⟨o.m * ρ + s, by rw [hP, hD]; exact radix_lt hs (by omega), 0, h.C_pos, by rw [hS]; simp⟩
        · intro ρ hρ s hs c hc
          obtain rfl : c = 0 := by omega
          obtain rfl : ρ = 0 := by omega
          rw [hS]
          simp only [Nat.one_mul, Nat.add_zero]
          rw [e' 0 (by omega) s hs, ← row_fft h.M_eq (by omega) (by omega) h.p_ub, b2]
          refine sum_congr rfl fun s' hs' => ?_
          rw [mem_range] at hs'
          rw [hp, fillv_one, if_pos (by omega)]; simp
        · intro hi' hq' hp1 t ht s hs hLs c hc
          omega
      · rw [if_neg hx, if_pos (show W ≠ f from Ptr.ne_of_buf pre.fW.symm)]
        refine Cmd.Ok.bind (copyRow_ok hne (fun s _ h2 => vW s (by omega)) (fun s _ h2 => vf s h2) ?_)
        intro m1 u1 e1
        have hstep : ∀ m2, mem.Upd m2 (o.RowReg W 1) → o.Filled m2 W (fun j => mem.val (f + j)) (o.res 0) 1 →
            Cmd.Ok (do o.forward1Rest f (W + 1 * o.m) 1 ((o.D0 - 1) / 2)
                       (if o.D0 = o.D then o.fftm else o.fftm0).exec W F) m2 (fun _ m' => o.FwdPost mem m' f F W 0) := by
          intro m2 u2 f2
          have hKD := h.rows_le 0
          rw [hP, Nat.one_mul, b1] at hKD
          refine Cmd.Ok.bind (forward1Rest_ok h hp hq rfl (by simpa using pre.fW)
            (fun j hj => Mem.valid_of_size u2.size (vf j hj)) ?_ (by omega) b3 (hpz.sub u2 hKD) ?_)
          · intro i hi
            rw [Ptr.add_add]
            refine Mem.valid_of_size u2.size (vW _ ?_)
            refine lt_of_lt_of_le ?_ (Nat.mul_le_mul_left _ hKD)
            rw [Nat.mul_add, Nat.mul_comm 1]; omega
          intro m3 u3 f3
          have hfr : ∀ j : ℕ, m2.val (f + j) = mem.val (f + j) := fun j => u2.frame _ (by
            rintro ⟨_, _, _, _, h3⟩; exact hne _ _ h3.symm)
          simp only [hfr] at f3
          have hfill : o.Filled m3 W (fun j => mem.val (f + j)) (o.res 0) (o.rows 0) := by
            rw [b1]
            refine (f2.frame u3).append f3 ?_
            intro ρ hρ
            split_ifs at hρ ⊢ with hD
            · rw [h.D0_eq_one hD] at hρ; simp at hρ
            · exact b4 ρ hD
          have u23 : mem.Upd m3 (o.RowReg W (o.rows 0)) := by
            rw [b1]; exact u2.trans u3 (fun p hp => hp.mono (by omega)) (fun p hp => hp.shift)
          have := finish_rows h hq hS (r := 0) pre (u23.mono fun p hp => hp.mono (h.rows_le 0)) hfill
            (h.padded_of_filled hS hpd u23 hfill)
          simpa using this
        by_cases hi : o.inplace = true
        · simp only [hi, if_true]
          refine Cmd.Ok.bind (zeroRow_ok (fun s h1 h2 => Mem.valid_of_size u1.size (vW s (by omega))) ?_)
          intro m2 u2 e2
          refine hstep m2 (u1.trans u2 ?_ ?_) ?_
          · rintro p ⟨s, h1, h2, rfl⟩; exact ⟨0, by omega, s, by omega, by simp⟩
          · rintro p ⟨s, h1, h2, rfl⟩; exact ⟨0, by omega, s, by omega, by simp⟩
          · intro ρ hρ s hs
            obtain rfl : ρ = 0 := by omega
            rw [hp, fillv_one, b2, Nat.mul_zero, Nat.zero_add]
            split_ifs with h1
            · rw [u2.frame (W + s) (by ptr), e1 s (by omega) h1]; simp
            · exact e2 s (by omega) hs
        · simp only [hi]
          refine hstep m1 (u1.mono ?_) ?_
          · rintro p ⟨s, h1, h2, rfl⟩; exact ⟨0, by omega, s, by omega, by simp⟩
          · intro ρ hρ s hs
            obtain rfl : ρ = 0 := by omega
            rw [hp, fillv_one, b2, Nat.mul_zero, Nat.zero_add]
            split_ifs with h1
            · rw [e1 s (by omega) h1]; simp
            · have := hpz (by simpa using hi) hp 0 (by omega) s hs (by omega)
              rw [Nat.mul_zero, Nat.zero_add] at this
              rw [← this, u1.frame (W + s) (by ptr)]
    · rw [if_neg hc]
      obtain ⟨b1, b2, b3, b4, b5⟩ := h.block0_even (by omega) hc
      rw [if_neg (by omega)] at b3
      have hD2 : 2 ≤ o.D := by have := h.D_pos; omega
      have hm2 : o.m * 2 ≤ o.m * o.D := Nat.mul_le_mul_left _ hD2
      refine Cmd.Ok.bind (run_map2 W (mem.val f) (W + o.m) (mem.val f) ?_ ?_ ?_ ?_)
      · body_simp
        refine ⟨?_, ?_, vW _ (by omega)⟩
        · rw [← Ptr.add_zero f]; exact vf 0 hL0
        · rw [← Ptr.add_zero W]; exact vW 0 (by omega)
      · body_simp
      · ptr
      intro m1 u1 e1 e1'
      refine Cmd.Ok.bind (par_map2 (fun s => W + s) (fun s => m1.val (f + s)) (fun s => W + (o.m + s))
        (fun s => m1.val (f + s) * w o.M (s * (o.q / 2 : ℕ))) (rng_nodup _ _) ?_ ?_ ?_ ?_ ?_ ?_ ?_)
      · intro s hs
        rw [mem_rng] at hs
        body_simp
        exact ⟨Mem.valid_of_size u1.size (vf s hs.2), Mem.valid_of_size u1.size (vW _ (by omega)),
          h.zq_bd hq (by omega) (by omega) (by omega), Mem.valid_of_size u1.size (vW _ (by omega))⟩
      · intro s hs
        rw [mem_rng] at hs
        body_simp
        rw [h.zq_val hq (by omega), mul_comm]
      · ptr
      · ptr
      · ptr
      · body_simp
        intro i _ j _ _; exact ⟨hne _ _, hne _ _⟩
      intro m2 u2 e2 e2'
      have hfm : ∀ j : ℕ, m1.val (f + j) = mem.val (f + j) := fun j => u1.frame _ (by
        have := pre.fW; ptr)
      have hx : ∀ s < o.L, m2.val (W + s) = mem.val (f + s) := by
        intro s hs
        rcases Nat.eq_zero_or_pos s with rfl | h0
        · rw [u2.frame (W + 0) (by ptr), Ptr.add_zero, e1, Ptr.add_zero]
        · rw [e2 s (mem_rng.2 ⟨h0, hs⟩), hfm]
      have hx' : ∀ s < o.L, m2.val (W + (o.m + s)) = mem.val (f + s) * w o.M (s * (o.q / 2 : ℕ)) := by
        intro s hs
        rcases Nat.eq_zero_or_pos s with rfl | h0
        · rw [u2.frame (W + (o.m + 0)) (by ptr), Nat.add_zero, e1', Ptr.add_zero]; simp
        · rw [e2' s (mem_rng.2 ⟨h0, hs⟩), hfm]
      have u12 : mem.Upd m2 (fun p => ∃ s < o.L, p = W + s ∨ p = W + (o.m + s)) := by
        refine u1.trans u2 ?_ ?_
        · rintro p (rfl | rfl)
          · exact ⟨0, hL0, Or.inl (Ptr.add_zero _).symm⟩
          · exact ⟨0, hL0, Or.inr rfl⟩
        · rintro p (⟨i, hi, rfl⟩ | ⟨i, hi, rfl⟩) <;> rw [mem_rng] at hi
          · exact ⟨i, hi.2, Or.inl rfl⟩
          · exact ⟨i, hi.2, Or.inr rfl⟩
      have hstep : ∀ m2, mem.Upd m2 (o.RowReg W 2) → o.Filled m2 W (fun j => mem.val (f + j)) (o.res 0) 2 →
            Cmd.Ok (do o.forward1Rest f (W + 2 * o.m) 1 ((o.D0 - 2) / 2)
                       (if o.D0 = o.D then o.fftm else o.fftm0).exec W F) m2 (fun _ m' => o.FwdPost mem m' f F W 0) := by
        intro m2 u2 f2
        have hKD := h.rows_le 0
        rw [hP, Nat.one_mul, b1] at hKD
        refine Cmd.Ok.bind (forward1Rest_ok h hp hq (K := 2 * ((o.D0 - 2) / 2)) (by rw [if_neg (by omega)])
          (by simpa using pre.fW)
          (fun j hj => Mem.valid_of_size u2.size (vf j hj)) ?_ (by omega) b4 (hpz.sub u2 hKD) ?_)
        · intro i hi
          rw [Ptr.add_add]
          refine Mem.valid_of_size u2.size (vW _ ?_)
          refine lt_of_lt_of_le ?_ (Nat.mul_le_mul_left _ hKD)
          rw [Nat.mul_add, Nat.mul_comm 2]; omega
        intro m3 u3 f3
        have hfr : ∀ j : ℕ, m2.val (f + j) = mem.val (f + j) := fun j => u2.frame _ (by
          rintro ⟨_, _, _, _, h3⟩; exact hne _ _ h3.symm)
        simp only [hfr] at f3
        have hfill : o.Filled m3 W (fun j => mem.val (f + j)) (o.res 0) (o.rows 0) := by
          rw [b1]
          refine (f2.frame u3).append f3 ?_
          intro ρ hρ
          rw [if_neg (by omega)]
          exact b5 ρ
        have u23 : mem.Upd m3 (o.RowReg W (o.rows 0)) := by
          rw [b1]; exact u2.trans u3 (fun p hp => hp.mono (by omega)) (fun p hp => hp.shift)
        have := finish_rows h hq hS (r := 0) pre (u23.mono fun p hp => hp.mono (h.rows_le 0)) hfill
          (h.padded_of_filled hS hpd u23 hfill)
        simpa using this
      have ureg : ∀ p, (∃ s < o.L, p = W + s ∨ p = W + (o.m + s)) → o.RowReg W 2 p := by
        rintro p ⟨s, hs, rfl | rfl⟩
        · exact ⟨0, by omega, s, by omega, by simp⟩
        · exact ⟨1, by omega, s, by omega, by simp⟩
      by_cases hi : o.inplace = true
      · simp only [hi, if_true]
        refine Cmd.Ok.bind (zeroRow_ok (fun s h1 h2 => ?_) ?_)
        · rw [Ptr.add_add]; exact Mem.valid_of_size u12.size (vW _ (by omega))
        intro m3 u3 e3
        simp only [Ptr.add_add] at u3 e3
        refine Cmd.Ok.bind (zeroRow_ok (fun s h1 h2 => ?_) ?_)
        · exact Mem.valid_of_size (u3.size.trans u12.size) (vW _ (by omega))
        intro m4 u4 e4
        refine hstep m4 ((u12.trans u3 (R := o.RowReg W 2) ureg ?_).trans u4 (fun _ h => h) ?_) ?_
        · rintro p ⟨s, h1, h2, rfl⟩; exact ⟨1, by omega, s, by omega, by simp⟩
        · rintro p ⟨s, h1, h2, rfl⟩; exact ⟨0, by omega, s, by omega, by simp⟩
        · intro ρ hρ s hs
          obtain rfl | rfl : ρ = 0 ∨ ρ = 1 := by omega
          · rw [hp, fillv_one, b2, Nat.mul_zero, Nat.zero_add]
            split_ifs with h1
            · rw [u4.frame (W + s) (by ptr), u3.frame (W + s) (by ptr), hx s h1]; simp
            · exact e4 s (by omega) hs
          · rw [hp, fillv_one, b3, Nat.mul_one]
            split_ifs with h1
            · rw [u4.frame (W + (o.m + s)) (by ptr), u3.frame (W + (o.m + s)) (by ptr), hx' s h1]
            · rw [u4.frame (W + (o.m + s)) (by ptr), e3 s (by omega) hs]
      · simp only [hi]
        refine hstep m2 (u12.mono ureg) ?_
        have hi' : o.inplace = false := by simpa using hi
        intro ρ hρ s hs
        obtain rfl | rfl : ρ = 0 ∨ ρ = 1 := by omega
        · rw [hp, fillv_one, b2, Nat.mul_zero, Nat.zero_add]
          split_ifs with h1
          · rw [hx s h1]; simp
          · have := hpz hi' hp 0 (by omega) s hs (by omega)
            rw [Nat.mul_zero, Nat.zero_add] at this
            rw [← this, u12.frame (W + s) (by ptr)]
        · rw [hp, fillv_one, b3, Nat.mul_one]
          split_ifs with h1
          · exact hx' s h1
          · have := hpz hi' hp 1 (by omega) s hs (by omega)
            rw [Nat.mul_one] at this
            rw [← this, u12.frame (W + (o.m + s)) (by ptr)]
  · rw [if_neg hr]
    obtain ⟨b1, b2, b3⟩ := h.block_pos (by omega) hv (by omega)
    have hKD := h.rows_le r
    rw [hP, Nat.one_mul] at hKD
    refine Cmd.Ok.bind (forward1Rest_ok h hp hq b1 pre.fW vf ?_ (by omega) b2 ?_ ?_)
    · intro i hi
      exact vW _ (lt_of_lt_of_le hi (Nat.mul_le_mul_left _ hKD))
    · intro hi hp ρ hρ; exact hpz hi hp ρ (by omega)
    intro m3 u3 f3
    have hfill : o.Filled m3 W (fun j => mem.val (f + j)) (o.res r) (o.rows r) := by
      intro ρ hρ s hs
      rw [f3 ρ hρ s hs, b3 ρ hρ]
    have := finish_rows h hq hS (r := r) pre (u3.mono fun p hp => hp.mono (h.rows_le r)) hfill
      (h.padded_of_filled hS hpd u3 hfill)
    rw [if_pos (Or.inl (by omega))] at this
    exact this

end Fft
end Fftwpp
