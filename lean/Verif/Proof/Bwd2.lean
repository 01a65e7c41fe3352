import Verif.Proof.Bwd

/-! `backward2`. -/

namespace Fftwpp
namespace Fft
open Finset ComplexConjugate
variable {o : Fft}

theorem mod_lo {j m : ℕ} (h : j < m) : j % m = j := Nat.mod_eq_of_lt h
theorem mod_hi {j m : ℕ} (h1 : m ≤ j) (h2 : j < 2 * m) : j % m = j - m := by
  rw [Nat.mod_eq_sub_mod h1, Nat.mod_eq_of_lt (by omega)]

theorem backward2Rest_ok (h : o.WF) (hp : o.p = 2) (hq : o.q ≠ 1) {f W : Ptr} {mem : Mem} {r0 dr0 K : ℕ}
    (hK : K = if o.D = 1 then min dr0 1 else 2 * dr0)
    (hb : f.buf ≠ W.buf) (hf : ∀ j < o.L, mem.valid (f + j)) (hW : ∀ i < o.m * K, mem.valid (W + i))
    (hr : 0 < r0) (hrq : r0 + dr0 ≤ o.q) {Q : Unit → Mem → Prop}
    (hQ : ∀ m', mem.Upd m' (fun p => ∃ j < o.L, p = f + j) →
      (∀ j < o.L, m'.val (f + j) = mem.val (f + j) + o.psum mem W r0 K j) → Q () m') :
    (o.backward2Rest f W r0 dr0).Ok mem Q := by
  obtain ⟨hmL, hL2⟩ := h.L_two hp
  have hL0 := h.L_pos
  have hm := h.m_pos
  unfold backward2Rest
  simp only
  by_cases hD : o.D = 1
  · rw [if_pos hD] at hK ⊢
    by_cases hd : 0 < dr0
    · rw [Nat.min_eq_right hd] at hK
      subst hK
      rw [Nat.mul_one] at hW
      rw [if_pos hd]
      refine Cmd.Ok.bind (run_map1 f (mem.val f + mem.val W) ?_ ?_ ?_)
      · body_simp
        rw [← Ptr.add_zero f, ← Ptr.add_zero W]
        exact ⟨hf 0 hL0, hW 0 hm, hf 0 hL0⟩
      · body_simp
      intro m1 u1 e1
      have hW1 : ∀ j : ℕ, m1.val (W + j) = mem.val (W + j) := fun j => u1.frame _ (by ptr)
      refine Cmd.Ok.bind (par_at (W := f) (fun s => s) (fun s => m1.val (f + s) + conj (w o.M (s * r0)) * mem.val (W + s))
        (rng_nodup _ _) ?_ ?_ (fun i _ j _ h => h) ?_ ?_)
      · intro s hs
        rw [mem_rng] at hs
        body_simp
        exact ⟨Mem.valid_of_size u1.size (hf s (by omega)), h.zq_bd hq hr (by omega) (by omega),
          Mem.valid_of_size u1.size (hW _ (by omega)), Mem.valid_of_size u1.size (hf s (by omega))⟩
      · intro s hs
        rw [mem_rng] at hs
        body_simp
        rw [h.zq_val hq (by omega), hW1]
      · intro s hs p; body_simp
        rintro (rfl | rfl)
        · exact Or.inr rfl
        · exact Or.inl (by simpa using hb.symm)
      intro m2 u2 e2
      have hW2 : ∀ j : ℕ, m2.val (W + j) = mem.val (W + j) := fun j => by
        rw [u2.frame _ (by ptr), hW1]
      have hs2 := u2.size.trans u1.size
      refine par_at (W := f) (fun s => s) (fun s => m2.val (f + s) + conj (w o.M (s * r0)) * mem.val (W + (s - o.m)))
        (rng_nodup _ _) ?_ ?_ (fun i _ j _ h => h) ?_ ?_
      · intro s hs
        rw [mem_rng] at hs
        body_simp
        rw [Ptr.sub_add hs.1]
        exact ⟨Mem.valid_of_size hs2 (hf s (by omega)), h.zqS_bd hp hr (by omega) hs.1 hs.2,
          Mem.valid_of_size hs2 (hW _ (by omega)), Mem.valid_of_size hs2 (hf s (by omega))⟩
      · intro s hs
        rw [mem_rng] at hs
        body_simp
        rw [h.zqS_val hp hs.1 hs.2, Ptr.sub_add hs.1, hW2]
      · intro s hs p; rw [mem_rng] at hs; body_simp
        rw [Ptr.sub_add hs.1]
        rintro (rfl | rfl)
        · exact Or.inr rfl
        · exact Or.inl (by simpa using hb.symm)
      intro m3 u3 e3
      refine hQ m3 ((u1.trans u2 (R := fun p => ∃ j < o.L, p = f + j) ?_ ?_).trans u3 (fun _ h => h) ?_) ?_
      · rintro p rfl; exact ⟨0, hL0, (Ptr.add_zero _).symm⟩
      · rintro p ⟨s, hs, rfl⟩; rw [mem_rng] at hs; exact ⟨s, by omega, rfl⟩
      · rintro p ⟨s, hs, rfl⟩; rw [mem_rng] at hs; exact ⟨s, by omega, rfl⟩
      · intro j hj
        unfold psum
        rw [sum_range_one, if_pos hD, Nat.mul_zero, Nat.zero_add, ← w_conj]
        obtain rfl | h0 | h0 : j = 0 ∨ (1 ≤ j ∧ j < o.m) ∨ o.m ≤ j := by omega
        · rw [u3.frame (f + 0) (by ptr), u2.frame (f + 0) (by ptr), Ptr.add_zero, e1, Nat.zero_mod, Ptr.add_zero]; simp
        · rw [u3.frame (f + j) (by ptr), e2 j (mem_rng.2 h0), u1.frame (f + j) (by ptr), mod_lo h0.2]
        · rw [e3 j (mem_rng.2 ⟨h0, hj⟩), u2.frame (f + j) (by ptr), u1.frame (f + j) (by ptr), mod_hi h0 (by omega)]
    · rw [if_neg hd]
      refine Cmd.Ok.pure (hQ mem (Mem.Upd.refl _ _) ?_)
      intro j hj
      have : K = 0 := by omega
      subst this
      simp [psum]
  · rw [if_neg hD] at hK ⊢
    subst hK
    refine seqLoop_rng (fun d m' => mem.Upd m' (fun p => ∃ j < o.L, p = f + j) ∧
      ∀ j < o.L, m'.val (f + j) = mem.val (f + j) + o.psum mem W r0 (2 * d) j)
      ⟨Mem.Upd.refl _ _, fun j hj => by simp [psum]⟩ ?_ (fun m' hm' => hQ m' hm'.1 hm'.2)
    rintro d m1 hd ⟨u1, e1⟩
    have hW1 : ∀ j : ℕ, m1.val (W + j) = mem.val (W + j) := fun j => u1.frame _ (by
      rintro ⟨j', _, h3⟩; exact hb (by simpa using (congrArg Ptr.buf h3).symm))
    have hle : 2 * o.m * (d + 1) ≤ o.m * (2 * dr0) := by
      rw [show o.m * (2 * dr0) = 2 * o.m * dr0 by ring]; exact Nat.mul_le_mul_left _ hd
    rw [Nat.mul_succ] at hle
    have hWv : ∀ i < 2 * o.m, m1.valid (W + (2 * o.m * d + i)) := fun i hi => Mem.valid_of_size u1.size (hW _ (by omega))
    have hWv' : ∀ i < o.m, m1.valid (W + (2 * o.m * d + o.m + i)) := fun i hi => by
      rw [Nat.add_assoc]; exact hWv _ (by omega)
    have hfv : ∀ j < o.L, m1.valid (f + j) := fun j hj => Mem.valid_of_size u1.size (hf j hj)
    refine Cmd.Ok.bind (run_map1 f (m1.val f + (m1.val (W + 2 * o.m * d) + m1.val (W + (2 * o.m * d + o.m)))) ?_ ?_ ?_)
    · body_simp
      have h1 := hfv 0 hL0
      rw [Ptr.add_zero] at h1
      exact ⟨h1, hWv 0 (by omega), hWv o.m (by omega), h1⟩
    · body_simp
    intro m2 u2 e2
    have hW2 : ∀ j : ℕ, m2.val (W + j) = mem.val (W + j) := fun j => by
      rw [u2.frame _ (by ptr), hW1]
    refine Cmd.Ok.bind (par_at (W := f) (fun s => s)
        (fun s => m2.val (f + s) + (w o.M (s * (r0 + d : ℕ)) * mem.val (W + (2 * o.m * d + o.m + s))
        + conj (w o.M (s * (r0 + d : ℕ))) * mem.val (W + (2 * o.m * d + s)))) (rng_nodup _ _)
        ?_ ?_ (fun i _ j _ h => h) ?_ ?_)
    · intro s hs
      rw [mem_rng] at hs
      body_simp
      exact ⟨Mem.valid_of_size u2.size (hfv s (by omega)), h.zq_bd hq (by omega) (by omega) (by omega),
        Mem.valid_of_size u2.size (hWv' s (by omega)),
        Mem.valid_of_size u2.size (hWv s (by omega)), Mem.valid_of_size u2.size (hfv s (by omega))⟩
    · intro s hs
      rw [mem_rng] at hs
      body_simp
      rw [C30_zmult2, h.zq_val hq (by omega), hW2, hW2]
    · intro s hs p; body_simp
      rintro (rfl | rfl | rfl)
      · exact Or.inr rfl
      · exact Or.inl (by simpa using hb.symm)
      · exact Or.inl (by simpa using hb.symm)
    intro m3 u3 e3
    have hW3 : ∀ j : ℕ, m3.val (W + j) = mem.val (W + j) := fun j => by
      rw [u3.frame _ (by rintro ⟨j', _, h3⟩; exact hb (by simpa using (congrArg Ptr.buf h3).symm)), hW2]
    have hs3 := u3.size.trans u2.size
    refine par_at (W := f) (fun s => s)
        (fun s => m3.val (f + s) + (w o.M (s * (r0 + d : ℕ)) * mem.val (W + (2 * o.m * d + o.m + (s - o.m)))
        + conj (w o.M (s * (r0 + d : ℕ))) * mem.val (W + (2 * o.m * d + (s - o.m))))) (rng_nodup _ _)
        ?_ ?_ (fun i _ j _ h => h) ?_ ?_
    · intro s hs
      rw [mem_rng] at hs
      body_simp
      rw [Ptr.sub_add hs.1, Ptr.sub_add hs.1]
      simp only [Ptr.add_add]
      exact ⟨Mem.valid_of_size hs3 (hfv s (by omega)), h.zqS_bd hp (by omega) (by omega) (by omega) (by omega),
        Mem.valid_of_size hs3 (hWv' _ (by omega)),
        Mem.valid_of_size hs3 (hWv _ (by omega)), Mem.valid_of_size hs3 (hfv s (by omega))⟩
    · intro s hs
      rw [mem_rng] at hs
      body_simp
      rw [Ptr.sub_add hs.1, Ptr.sub_add hs.1]
      simp only [Ptr.add_add]
      rw [C30_zmult2, h.zqS_val hp hs.1 hs.2, hW3, hW3]
    · intro s hs p; rw [mem_rng] at hs; body_simp
      rw [Ptr.sub_add hs.1, Ptr.sub_add hs.1]
      rintro (rfl | rfl | rfl)
      · exact Or.inr rfl
      · exact Or.inl (by simpa using hb.symm)
      · exact Or.inl (by simpa using hb.symm)
    intro m4 u4 e4
    refine ⟨((u1.trans u2 (R := fun p => ∃ j < o.L, p = f + j) (fun _ h => h) ?_).trans u3 (fun _ h => h) ?_).trans
      u4 (fun _ h => h) ?_, ?_⟩
    · rintro p rfl; exact ⟨0, hL0, (Ptr.add_zero _).symm⟩
    · rintro p ⟨s, hs, rfl⟩; rw [mem_rng] at hs; exact ⟨s, by omega, rfl⟩
    · rintro p ⟨s, hs, rfl⟩; rw [mem_rng] at hs; exact ⟨s, by omega, rfl⟩
    · intro j hj
      rw [psum_pair hD, Ptr.add_add, Ptr.add_add, Ptr.add_add, ← add_assoc, ← e1 j hj]
      obtain rfl | h0 | h0 : j = 0 ∨ (1 ≤ j ∧ j < o.m) ∨ o.m ≤ j := by omega
      · rw [u4.frame (f + 0) (by ptr), u3.frame (f + 0) (by ptr), Ptr.add_zero, e2, hW1, hW1]; simp
      · rw [u4.frame (f + j) (by ptr), e3 j (mem_rng.2 h0), u2.frame (f + j) (by ptr), mod_lo h0.2, Nat.add_assoc]
        ring
      · rw [e4 j (mem_rng.2 ⟨h0, hj⟩), u3.frame (f + j) (by ptr), u2.frame (f + j) (by ptr), mod_hi h0 (by omega),
          Nat.add_assoc]
        ring

theorem backward2_ok (h : o.WF) (hp : o.p = 2) (hq : o.q ≠ 1) (hS : o.S = 1) {f F W : Ptr} {mem : Mem} {r : ℕ}
    {W? : Option Ptr} (hW : W?.getD F = W) (pre : o.Pre mem f F W) (hv : o.Visit r) :
    (o.backward2 F f r W?).Ok mem (fun _ m' => o.BwdPost mem m' F f W r) := by
  obtain ⟨hmL, hL2⟩ := h.L_two hp
  have hL0 := h.L_pos
  have hm := h.m_pos
  have hC := h.C_one hS
  have hP := h.P_one (by omega : o.p ≤ 2)
  have hq0 := h.q_pos
  have vf : ∀ j < o.L, mem.valid (f + j) := fun j hj => by
    have := pre.vf j hj 0 h.C_pos; rwa [hS, Nat.one_mul, Nat.add_zero] at this
  have vW : ∀ i < o.m * o.D, mem.valid (W + i) := fun i hi => by
    have := pre.vW i (by rw [hP, Nat.one_mul]; exact hi) 0 h.C_pos; rwa [hS, Nat.one_mul, Nat.add_zero] at this
  have hD0 := h.D0_pos
  have hDD := h.D0_le
  have hmD : o.m * 1 ≤ o.m * o.D := Nat.mul_le_mul_left _ h.D_pos
  have hne : ∀ i j : ℕ, f + i ≠ W + j := fun i j => Ptr.ne_of_buf (by simpa using pre.fW)
  have hrowsD : o.rows r ≤ o.D := by have := h.rows_le r; rwa [hP, Nat.one_mul] at this
  have hregL : ∀ p, (∃ j < o.L, p = f + j) → o.RegL f p := by
    rintro p ⟨j, hj, rfl⟩; exact ⟨j, hj, 0, h.C_pos, by rw [hS]; simp⟩
  have fin : ∀ m1 m' : Mem, mem.Upd m1 (o.Reg W (o.P * o.D)) → o.InvRows mem m1 F W (o.rows r) →
      m1.Upd m' (fun p => ∃ j < o.L, p = f + j) →
      (∀ j < o.L, m'.val (f + j) = (if r = 0 then 0 else mem.val (f + j)) + o.bsum m1 W (o.res r) (o.rows r) j 0) →
      o.BwdPost mem m' F f W r := by
    intro m1 m' u1 hin u' e'
    refine finish_back h (u1.trans u' (fun p hp => Or.inr (Or.inr hp)) (fun p hp => Or.inl (hregL p hp))) hin ?_
    intro j hj c hc
    obtain rfl : c = 0 := by omega
    have := e' j hj
    rwa [hS, Nat.one_mul, Nat.add_zero]
  unfold backward2
  simp only [hW]
  refine Cmd.Ok.bind (back_rows h hq hS pre ?_)
  intro m1 u1 hin
  have vf1 : ∀ j < o.L, m1.valid (f + j) := fun j hj => Mem.valid_of_size u1.size (vf j hj)
  have vW1 : ∀ i < o.m * o.D, m1.valid (W + i) := fun i hi => Mem.valid_of_size u1.size (vW i hi)
  have hf1 : ∀ j : ℕ, m1.val (f + j) = mem.val (f + j) := fun j => u1.frame _ (by
    rintro ⟨_, _, _, _, h3⟩; exact hne _ _ h3)
  by_cases hr : r = 0
  · subst hr
    rw [if_pos rfl]
    by_cases hc : o.D = 1 ∨ 2 * (o.q / 2) < o.q
    · rw [if_pos hc]
      obtain ⟨b1, b2, b3, b4⟩ := h.block0_odd (by omega) hc
      refine Cmd.Ok.bind (copyRow_ok hne (fun s _ hs => vf1 s (by omega)) (fun s _ hs => vW1 s (by omega)) ?_)
      intro m2 u2 e2
      have hW2 : ∀ i : ℕ, m2.val (W + i) = m1.val (W + i) := fun i => u2.frame _ (by
        rintro ⟨_, _, _, h3⟩; exact hne _ _ h3.symm)
      refine Cmd.Ok.bind (par_at (W := f) (fun s => s) (fun s => m1.val (W + (s - o.m)))
        (rng_nodup _ _) ?_ ?_ (fun i _ j _ h => h) ?_ ?_)
      · intro s hs; rw [mem_rng] at hs; body_simp
        rw [Ptr.sub_add hs.1]
        exact ⟨Mem.valid_of_size u2.size (vW1 _ (by omega)), Mem.valid_of_size u2.size (vf1 s hs.2)⟩
      · intro s hs; rw [mem_rng] at hs; body_simp
        rw [Ptr.sub_add hs.1, hW2]
      · intro s hs p; rw [mem_rng] at hs; body_simp
        rw [Ptr.sub_add hs.1]
        rintro rfl; exact Or.inl (by simpa using pre.fW.symm)
      intro m3 u3 e3
      have hW3 : ∀ i : ℕ, m3.val (W + i) = m1.val (W + i) := fun i => by
        rw [u3.frame _ (by rintro ⟨_, _, h3⟩; exact hne _ _ h3.symm), hW2]
      have hs3 := u3.size.trans u2.size
      set K := (if o.D = 1 then min ((o.D0 - 1) / 2) 1 else 2 * ((o.D0 - 1) / 2)) with hKdef
      have hle : o.m * (1 + K) ≤ o.m * o.D := Nat.mul_le_mul_left _ (by omega)
      rw [Nat.mul_add, Nat.mul_one] at hle
      refine backward2Rest_ok h hp hq hKdef (by simpa using pre.fW)
        (fun j hj => Mem.valid_of_size hs3 (vf1 j hj)) (fun i hi => ?_) (by omega) (by omega) ?_
      · rw [Ptr.add_add, Nat.one_mul]; exact Mem.valid_of_size hs3 (vW1 _ (by omega))
      intro m4 u4 e4
      refine fin m1 m4 u1 hin ((u2.trans u3 (R := fun p => ∃ j < o.L, p = f + j) ?_ ?_).trans u4 (fun _ h => h) (fun _ h => h)) ?_
      · rintro p ⟨s, _, hs, rfl⟩; exact ⟨s, by omega, rfl⟩
      · rintro p ⟨s, hs, rfl⟩; rw [mem_rng] at hs; exact ⟨s, by omega, rfl⟩
      · intro j hj
        rw [if_pos rfl, zero_add, b1, bsum_split hS (r0 := 1), e4 j hj, psum_congr (m1 := m1)]
        · congr 1
          rw [bsum_S1 hS, sum_range_one, b2]
          rcases Nat.lt_or_ge j o.m with h0 | h0
          · rw [u3.frame (f + j) (by ptr), e2 j (by omega) h0, mod_lo h0]; simp
          · rw [e3 j (mem_rng.2 ⟨h0, hj⟩), mod_hi h0 (by omega)]; simp
        · intro i; rw [Ptr.add_add]; exact hW3 _
        · intro ρ hρ
          by_cases hD : o.D = 1
          · have := h.D0_eq_one hD
            rw [if_pos hD] at hKdef
            omega
          · rw [if_neg hD]; exact b4 ρ hD
    · rw [if_neg hc]
      obtain ⟨b1, b2, b3, b4, b5⟩ := h.block0_even (by omega) hc
      have hD : o.D ≠ 1 := fun h => hc (Or.inl h)
      have hq2 : 2 * (o.q / 2) = o.q := by omega
      have hD2 : 2 ≤ o.D := by have := h.D_pos; omega
      have hle2 : o.m * 2 ≤ o.m * o.D := Nat.mul_le_mul_left _ hD2
      refine Cmd.Ok.bind (run_map1 f (m1.val W + m1.val (W + o.m)) ?_ ?_ ?_)
      · body_simp
        have h1 := vf1 0 hL0
        have h2 := vW1 0 (by omega)
        rw [Ptr.add_zero] at h1 h2
        exact ⟨h2, vW1 o.m (by omega), h1⟩
      · body_simp
      intro m2 u2 e2
      have hW2 : ∀ i : ℕ, m2.val (W + i) = m1.val (W + i) := fun i => u2.frame _ (by
        intro h3; exact hne 0 i (by rw [Ptr.add_zero]; exact h3.symm))
      refine Cmd.Ok.bind (par_at (W := f) (fun s => s)
        (fun s => m1.val (W + s) + w o.M (s * (o.q / 2 : ℕ)) * m1.val (W + (o.m + s))) (rng_nodup _ _)
        ?_ ?_ (fun i _ j _ h => h) ?_ ?_)
      · intro s hs
        rw [mem_rng] at hs
        body_simp
        exact ⟨Mem.valid_of_size u2.size (vW1 s (by omega)), h.zq_bd hq (by omega) (by omega) (by omega),
          Mem.valid_of_size u2.size (vW1 _ (by omega)), Mem.valid_of_size u2.size (vf1 s (by omega))⟩
      · intro s hs
        rw [mem_rng] at hs
        body_simp
        rw [h.zq_val hq (by omega), hW2, hW2]
      · intro s hs p; body_simp
        rintro (rfl | rfl) <;> exact Or.inl (by simpa using pre.fW.symm)
      intro m3 u3 e3
      have hW3 : ∀ i : ℕ, m3.val (W + i) = m1.val (W + i) := fun i => by
        rw [u3.frame _ (by rintro ⟨_, _, h3⟩; exact hne _ _ h3.symm), hW2]
      have hs3 := u3.size.trans u2.size
      refine Cmd.Ok.bind (par_at (W := f) (fun s => s)
        (fun s => m1.val (W + (s - o.m)) + w o.M (s * (o.q / 2 : ℕ)) * m1.val (W + s)) (rng_nodup _ _)
        ?_ ?_ (fun i _ j _ h => h) ?_ ?_)
      · intro s hs
        rw [mem_rng] at hs
        body_simp
        rw [Ptr.sub_add hs.1]
        exact ⟨Mem.valid_of_size hs3 (vW1 _ (by omega)), h.zqS_bd hp (by omega) (by omega) (by omega) (by omega),
          Mem.valid_of_size hs3 (vW1 _ (by omega)), Mem.valid_of_size hs3 (vf1 s (by omega))⟩
      · intro s hs
        rw [mem_rng] at hs
        body_simp
        rw [h.zqS_val hp hs.1 hs.2, Ptr.sub_add hs.1, hW3, hW3]
      · intro s hs p; rw [mem_rng] at hs; body_simp
        rw [Ptr.sub_add hs.1]
        rintro (rfl | rfl) <;> exact Or.inl (by simpa using pre.fW.symm)
      intro m4 u4 e4
      have hW4 : ∀ i : ℕ, m4.val (W + i) = m1.val (W + i) := fun i => by
        rw [u4.frame _ (by rintro ⟨_, _, h3⟩; exact hne _ _ h3.symm), hW3]
      have hs4 := u4.size.trans hs3
      have hle : o.m * (2 + 2 * ((o.D0 - 2) / 2)) ≤ o.m * o.D := Nat.mul_le_mul_left _ (by omega)
      rw [Nat.mul_add] at hle
      refine backward2Rest_ok (K := 2 * ((o.D0 - 2) / 2)) h hp hq (by rw [if_neg hD]) (by simpa using pre.fW)
        (fun j hj => Mem.valid_of_size hs4 (vf1 j hj)) (fun i hi => ?_) (by omega) (by omega) ?_
      · rw [Ptr.add_add]; exact Mem.valid_of_size hs4 (vW1 _ (by omega))
      intro m5 u5 e5
      refine fin m1 m5 u1 hin (((u2.trans u3 (R := fun p => ∃ j < o.L, p = f + j) ?_ ?_).trans u4 (fun _ h => h) ?_).trans
        u5 (fun _ h => h) (fun _ h => h)) ?_
      · rintro p rfl; exact ⟨0, hL0, (Ptr.add_zero _).symm⟩
      · rintro p ⟨s, hs, rfl⟩; rw [mem_rng] at hs; exact ⟨s, by omega, rfl⟩
      · rintro p ⟨s, hs, rfl⟩; rw [mem_rng] at hs; exact ⟨s, by omega, rfl⟩
      · intro j hj
        rw [if_pos rfl, zero_add, b1, bsum_split hS (r0 := 1), e5 j hj, psum_congr (m1 := m1)]
        · congr 1
          rw [bsum_S1 hS, sum_range_succ, sum_range_one, b2, b3, if_pos hp]
          obtain rfl | h0 | h0 : j = 0 ∨ (1 ≤ j ∧ j < o.m) ∨ o.m ≤ j := by omega
          · rw [u4.frame (f + 0) (by ptr), u3.frame (f + 0) (by ptr), Ptr.add_zero, e2]; simp [Ptr.add_zero]
          · rw [u4.frame (f + j) (by ptr), e3 j (mem_rng.2 h0), mod_lo h0.2]; simp
          · rw [e4 j (mem_rng.2 ⟨h0, hj⟩), mod_hi h0 (by omega)]
            simp only [mul_neg, neg_neg, Nat.mul_zero, Nat.zero_add, mul_zero, neg_zero, w_zero, one_mul, Nat.mul_one]
            rw [show o.m + (j - o.m) = j by omega]
        · intro i; rw [Ptr.add_add]; exact hW4 _
        · intro ρ hρ; rw [if_neg hD]; exact b5 ρ
  · rw [if_neg hr]
    obtain ⟨b1, b2, b3⟩ := h.block_pos (by omega) hv (by omega)
    have hle : o.m * o.rows r ≤ o.m * o.D := Nat.mul_le_mul_left _ hrowsD
    refine backward2Rest_ok h hp hq b1 pre.fW vf1 (fun i hi => vW1 i (by omega)) (by omega) b2 ?_
    intro m2 u2 e2
    refine fin m1 m2 u1 hin u2 ?_
    intro j hj
    rw [if_neg hr, e2 j hj, hf1, bsum_S1 hS]
    congr 1
    unfold psum
    refine sum_congr rfl fun ρ hρ => ?_
    rw [b3 ρ (mem_range.1 hρ)]

end Fft
end Fftwpp
