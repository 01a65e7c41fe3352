import Verif.Proof.Exec

namespace Fftwpp
namespace Fft
open Finset ComplexConjugate
variable {o : Fft}

theorem forward1Pair_ok (h : o.WF) (hp : o.p = 1) (hq : o.q ≠ 1) {f F : Ptr} {mem : Mem} {r : ℕ}
    (hb : f.buf ≠ F.buf) (hf : ∀ j < o.L, mem.valid (f + j)) (hF : ∀ i < 2 * o.m, mem.valid (F + i))
    (hr : 0 < r) (hrq : r < o.q) {Q : Unit → Mem → Prop}
    (hQ : ∀ m', mem.Upd m' (fun p => ∃ s < o.L, p = F + s ∨ p = F + (o.m + s)) →
      (∀ s < o.L, m'.val (F + s) = mem.val (f + s) * w o.M (s * r)) →
      (∀ s < o.L, m'.val (F + (o.m + s)) = mem.val (f + s) * w o.M (s * (-r))) → Q () m') :
    (o.forward1Pair f F r).Ok mem Q := by
  have hL : o.L ≤ o.m := by have := h.p_ub; rw [hp, Nat.mul_one] at this; exact this
  have hL0 := h.L_pos
  have hm := h.m_pos
  unfold forward1Pair
  refine Cmd.Ok.bind (run_map2 (F + o.m) (mem.val f) F (mem.val f) ?_ ?_ ?_ ?_)
  · body_simp
    rw [← Ptr.add_zero f, ← Ptr.add_zero F, Ptr.add_add]
    exact ⟨hf 0 hL0, hF _ (by omega), hF _ (by omega)⟩
  · body_simp
  · ptr
  intro m1 u1 e1 e2
  have hf1 : ∀ j : ℕ, m1.val (f + j) = mem.val (f + j) := fun j => u1.frame _ (by ptr)
  refine par_map2 (fun s => F + s) (fun s => m1.val (f + s) * w o.M (s * r)) (fun s => F + (o.m + s))
    (fun s => m1.val (f + s) * w o.M (s * (-r))) (rng_nodup _ _) ?_ ?_ ?_ ?_ ?_ ?_ ?_
  · intro s hs
    rw [mem_rng] at hs
    body_simp
    exact ⟨h.zq_bd hq hr hrq (by omega), Mem.valid_of_size u1.size (hf s hs.2), Mem.valid_of_size u1.size (hF s (by omega)),
      Mem.valid_of_size u1.size (hF _ (by omega))⟩
  · intro s hs
    rw [mem_rng] at hs
    body_simp
    rw [C30_pair_add, C30_pair_sub, h.zq_val hq (by omega), w_conj, mul_comm, mul_comm (w o.M _) (m1.val _), mul_neg]
  · ptr
  · ptr
  · ptr
  · body_simp <;> ptr
  · intro m' hu h1 h2
    refine hQ m' (u1.trans hu ?_ ?_) ?_ ?_
    · rintro p (rfl | rfl)
      · exact ⟨0, hL0, Or.inr rfl⟩
      · exact ⟨0, hL0, Or.inl (Ptr.add_zero _).symm⟩
    · rintro p (⟨i, hi, rfl⟩ | ⟨i, hi, rfl⟩) <;> rw [mem_rng] at hi
      · exact ⟨i, hi.2, Or.inl rfl⟩
      · exact ⟨i, hi.2, Or.inr rfl⟩
    · intro s hs
      rcases Nat.eq_zero_or_pos s with rfl | h0
      · rw [hu.frame (F + 0) (by ptr), Ptr.add_zero, e2, Ptr.add_zero]; simp
      · rw [h1 s (mem_rng.2 ⟨h0, hs⟩), hf1]
    · intro s hs
      rcases Nat.eq_zero_or_pos s with rfl | h0
      · rw [hu.frame (F + (o.m + 0)) (by ptr), Nat.add_zero, e1, Ptr.add_zero]; simp
      · rw [h2 s (mem_rng.2 ⟨h0, hs⟩), hf1]

/-- Rows `0 ≤ ρ < K` of `W` hold the folded data of the residues `k ρ`. -/
def Filled (o : Fft) (m : Mem) (W : Ptr) (x : ℕ → ℂ) (k : ℕ → ℤ) (K : ℕ) : Prop :=
  ∀ ρ < K, ∀ s < o.m, m.val (W + (o.m * ρ + s)) = fillv o.M o.L o.m o.p x (k ρ) s

/-- Padding entries of rows `0 ≤ ρ < K` are zero (needed only when there is a separate work array). -/
def PadZ (o : Fft) (m : Mem) (W : Ptr) (K : ℕ) : Prop :=
  o.inplace = false → o.p = 1 → ∀ ρ < K, ∀ s < o.m, o.L ≤ s → m.val (W + (o.m * ρ + s)) = 0

/-- The region of `K` rows. -/
def RowReg (o : Fft) (W : Ptr) (K : ℕ) (p : Ptr) : Prop := ∃ ρ < K, ∃ s < o.m, p = W + (o.m * ρ + s)

/-- Residues of the pairs. -/
def kpair (r0 ρ : ℕ) : ℤ := if ρ % 2 = 0 then ((r0 + ρ / 2 : ℕ) : ℤ) else -((r0 + ρ / 2 : ℕ) : ℤ)

/-- Zeroing loop of one row. -/
theorem zeroRow_ok {a b : ℕ} {W : Ptr} {mem : Mem} (hv : ∀ s, a ≤ s → s < b → mem.valid (W + s))
    {Q : Unit → Mem → Prop}
    (hQ : ∀ m', mem.Upd m' (fun p => ∃ s, a ≤ s ∧ s < b ∧ p = W + s) → (∀ s, a ≤ s → s < b → m'.val (W + s) = 0) → Q () m') :
    (par (rng a b) fun s => zero1 (W + s)).Ok mem Q := by
  refine par_map1 (fun s => W + s) (fun _ => 0) (rng_nodup _ _) ?_ ?_ ?_ ?_ ?_
  · intro s hs; rw [mem_rng] at hs; body_simp; exact hv s hs.1 hs.2
  · intro s hs; body_simp
  · ptr
  · body_simp <;> ptr
  · intro m' hu h1
    refine hQ m' (hu.mono ?_) ?_
    · rintro p ⟨i, hi, rfl⟩; rw [mem_rng] at hi; exact ⟨i, hi.1, hi.2, rfl⟩
    · intro s h2 h3; exact h1 s (mem_rng.2 ⟨h2, h3⟩)

theorem seqLoop_rng {body : ℕ → Cmd Unit} {n : ℕ} {mem : Mem} {Q : Unit → Mem → Prop} (I : ℕ → Mem → Prop)
    (h0 : I 0 mem) (hs : ∀ s m, s < n → I s m → (body s).Ok m (fun _ m' => I (s + 1) m'))
    (hQ : ∀ m, I n m → Q () m) : (seqLoop (rng 0 n) body).Ok mem Q := by
  unfold rng
  have := seqLoop_range' (body := body) (n := n) I 0 mem h0 (fun s m _ h2 h3 => hs s m (by omega) h3)
  rw [Nat.zero_add] at this
  exact this.mono fun _ m' h => hQ m' h

theorem forward1Rest_ok (h : o.WF) (hp : o.p = 1) (hq : o.q ≠ 1) {f W : Ptr} {mem : Mem} {r0 dr0 K : ℕ}
    (hK : K = if o.D = 1 then min dr0 1 else 2 * dr0)
    (hb : f.buf ≠ W.buf) (hf : ∀ j < o.L, mem.valid (f + j)) (hW : ∀ i < o.m * K, mem.valid (W + i))
    (hr : 0 < r0) (hrq : r0 + dr0 ≤ o.q) (hpad : o.PadZ mem W K) {Q : Unit → Mem → Prop}
    (hQ : ∀ m', mem.Upd m' (o.RowReg W K) → o.Filled m' W (fun j => mem.val (f + j))
      (fun ρ => if o.D = 1 then (r0 : ℤ) else kpair r0 ρ) K → Q () m') :
    (o.forward1Rest f W r0 dr0).Ok mem Q := by
  have hL : o.L ≤ o.m := by have := h.p_ub; rw [hp, Nat.mul_one] at this; exact this
  have hL0 := h.L_pos
  have hm := h.m_pos
  unfold forward1Rest
  by_cases hD : o.D = 1
  · simp only [hD, if_true] at hK hQ ⊢
    by_cases hd : 0 < dr0
    · rw [Nat.min_eq_right hd] at hK
      subst hK
      rw [Nat.mul_one] at hW
      rw [if_pos hd]
      refine Cmd.Ok.bind (run_map1 W (mem.val f) ?_ ?_ ?_)
      · body_simp
        rw [← Ptr.add_zero f, ← Ptr.add_zero W]
        exact ⟨hf 0 hL0, hW _ (by omega)⟩
      · body_simp
      intro m1 u1 e1
      refine Cmd.Ok.bind (par_map1 (fun s => W + s) (fun s => m1.val (f + s) * w o.M (s * r0)) (rng_nodup _ _)
        ?_ ?_ ?_ ?_ ?_)
      · intro s hs
        rw [mem_rng] at hs
        body_simp
        exact ⟨h.zq_bd hq hr (by omega) (by omega), Mem.valid_of_size u1.size (hf s hs.2),
          Mem.valid_of_size u1.size (hW _ (by omega))⟩
      · intro s hs
        rw [mem_rng] at hs
        body_simp
        rw [h.zq_val hq (by omega), mul_comm]
      · ptr
      · body_simp <;> ptr
      intro m2 u2 e2
      have hx : ∀ s < o.L, m2.val (W + s) = mem.val (f + s) * w o.M (s * r0) := by
        intro s hs
        rcases Nat.eq_zero_or_pos s with rfl | h0
        · rw [u2.frame (W + 0) (by ptr), Ptr.add_zero, e1, Ptr.add_zero]; simp
        · rw [e2 s (mem_rng.2 ⟨h0, hs⟩), u1.frame (f + s) (by ptr)]
      have u12 : mem.Upd m2 (o.RowReg W 1) := by
        refine u1.trans u2 ?_ ?_
        · rintro p rfl; exact ⟨0, by omega, 0, hm, by simp [Ptr.add_zero]⟩
        · rintro p ⟨i, hi, rfl⟩; rw [mem_rng] at hi
          exact ⟨0, by omega, i, by omega, by simp⟩
      by_cases hi : o.inplace = true
      · rw [if_pos hi]
        refine zeroRow_ok ?_ ?_
        · intro s h1 h2; exact Mem.valid_of_size u12.size (hW _ h2)
        intro m3 u3 e3
        refine hQ m3 (u12.trans u3 (fun _ h => h) ?_) ?_
        · rintro p ⟨s, h1, h2, rfl⟩; exact ⟨0, by omega, s, h2, by simp⟩
        · intro ρ hρ s hs
          obtain rfl : ρ = 0 := by omega
          rw [hp, fillv_one, Nat.mul_zero, Nat.zero_add]
          split_ifs with h1
          · rw [u3.frame (W + s) (by ptr), hx s h1]
          · exact e3 s (by omega) hs
      · rw [if_neg hi]
        refine Cmd.Ok.pure (hQ m2 u12 ?_)
        intro ρ hρ s hs
        obtain rfl : ρ = 0 := by omega
        rw [hp, fillv_one, Nat.mul_zero, Nat.zero_add]
        split_ifs with h1
        · exact hx s h1
        · have := hpad (by simpa using hi) hp 0 hρ s hs (by omega)
          rw [Nat.mul_zero, Nat.zero_add] at this
          rw [← this, u2.frame (W + s) (by ptr), u1.frame (W + s) (by ptr)]
    · rw [if_neg hd]
      obtain rfl : dr0 = 0 := by omega
      simp only [Nat.zero_min] at hK
      subst hK
      exact Cmd.Ok.pure (hQ mem (Mem.Upd.refl _ _) (fun ρ hρ => by omega))
  · simp only [hD, if_false] at hK hQ ⊢
    subst hK
    have hidx : ∀ d, 2 * o.m * d = o.m * (2 * d) := fun d => by ring
    simp only [hidx]
    refine Cmd.Ok.bind (seqLoop_rng (fun d m' => mem.Upd m' (fun p => ∃ ρ < 2 * d, ∃ s < o.L, p = W + (o.m * ρ + s)) ∧
      ∀ ρ < 2 * d, ∀ s < o.L, m'.val (W + (o.m * ρ + s)) = mem.val (f + s) * w o.M (s * kpair r0 ρ)) ?_ ?_ ?_)
    · exact ⟨Mem.Upd.refl _ _, fun ρ hρ => by omega⟩
    · rintro d m1 hd ⟨u1, e1⟩
      refine forward1Pair_ok h hp hq (by simpa using hb) (fun j hj => Mem.valid_of_size u1.size (hf j hj)) ?_ (by omega)
        (by omega) ?_
      · intro i hi
        rw [Ptr.add_add]
        refine Mem.valid_of_size u1.size (hW _ ?_)
        have : o.m * (2 * d + 2) ≤ o.m * (2 * dr0) := Nat.mul_le_mul_left _ (by omega)
        rw [Nat.mul_add] at this
        omega
      intro m2 u2 e2 e3
      have hfr : ∀ s : ℕ, m1.val (f + s) = mem.val (f + s) := fun s => u1.frame _ (by
        rintro ⟨_, _, _, _, h3⟩; exact hb (by simpa using congrArg Ptr.buf h3))
      have hrow : ∀ s, W + o.m * (2 * d) + (o.m + s) = W + (o.m * (2 * d + 1) + s) := fun s => by
        rw [Ptr.add_add]; congr 1; ring
      simp only [hrow] at u2 e3
      simp only [Ptr.add_add] at u2 e2
      refine ⟨u1.trans u2 ?_ ?_, ?_⟩
      · rintro p ⟨ρ, hρ, s, hs, rfl⟩; exact ⟨ρ, by omega, s, hs, rfl⟩
      · rintro p ⟨s, hs, rfl | rfl⟩
        · exact ⟨2 * d, by omega, s, hs, rfl⟩
        · exact ⟨2 * d + 1, by omega, s, hs, rfl⟩
      · intro ρ hρ s hs
        rcases Nat.lt_or_ge ρ (2 * d) with h1 | h1
        · rw [u2.frame, e1 ρ h1 s hs]
          rintro ⟨s', hs', h3 | h3⟩ <;> rw [Ptr.add_inj] at h3 <;>
            have := radix_inj (by omega) (by omega) h3 <;> omega
        · obtain rfl | rfl : ρ = 2 * d ∨ ρ = 2 * d + 1 := by omega
          · rw [e2 s hs, hfr]; simp [kpair]
          · rw [e3 s hs, hfr]
            simp only [kpair]
            rw [if_neg (by omega), show (2 * d + 1) / 2 = d by omega]
    · rintro m1 ⟨u1, e1⟩
      by_cases hi : o.inplace = true
      · rw [if_pos hi]
        refine seqLoop_rng (fun d m' => m1.Upd m' (fun p => ∃ ρ < 2 * d, ∃ s < o.m, o.L ≤ s ∧ p = W + (o.m * ρ + s)) ∧
          ∀ ρ < 2 * d, ∀ s < o.m, o.L ≤ s → m'.val (W + (o.m * ρ + s)) = 0) ?_ ?_ ?_
        · exact ⟨Mem.Upd.refl _ _, fun ρ hρ => by omega⟩
        · rintro d m2 hd ⟨u2, e2⟩
          have hval : ∀ ρ < 2 * d + 2, ∀ s < o.m, m2.valid (W + (o.m * ρ + s)) := by
            intro ρ hρ s hs
            refine Mem.valid_of_size (u2.size.trans u1.size) (hW _ (radix_lt hs (by omega)))
          have hrow : ∀ s, W + o.m * (2 * d) + o.m + s = W + (o.m * (2 * d + 1) + s) := fun s => by
            rw [Ptr.add_add, Ptr.add_add]; congr 1; ring
          refine Cmd.Ok.bind (zeroRow_ok ?_ ?_)
          · intro s h1 h2; rw [Ptr.add_add]; exact hval _ (by omega) s h2
          intro m3 u3 e3
          refine zeroRow_ok ?_ ?_
          · intro s h1 h2; rw [hrow]; exact Mem.valid_of_size u3.size (hval _ (by omega) s h2)
          intro m4 u4 e4
          simp only [hrow] at u4 e4
          simp only [Ptr.add_add] at u3 e3
          refine ⟨(u2.trans u3 (R := fun p => ∃ ρ < 2 * (d + 1), ∃ s < o.m, o.L ≤ s ∧ p = W + (o.m * ρ + s)) ?_ ?_).trans
            u4 (fun _ h => h) ?_, ?_⟩
          · rintro p ⟨ρ, hρ, s, hs, h1, rfl⟩; exact ⟨ρ, by omega, s, hs, h1, rfl⟩
          · rintro p ⟨s, h1, h2, rfl⟩; exact ⟨2 * d, by omega, s, h2, h1, rfl⟩
          · rintro p ⟨s, h1, h2, rfl⟩; exact ⟨2 * d + 1, by omega, s, h2, h1, rfl⟩
          · intro ρ hρ s hs hLs
            obtain h1 | rfl | rfl : ρ < 2 * d ∨ ρ = 2 * d ∨ ρ = 2 * d + 1 := by omega
            · rw [u4.frame, u3.frame, e2 ρ h1 s hs hLs] <;>
              · rintro ⟨s', _, hs', h3⟩
                rw [Ptr.add_inj] at h3
                have := radix_inj (by omega) (by omega) h3
                omega
            · rw [u4.frame, e3 s hLs hs]
              rintro ⟨s', _, hs', h3⟩
              rw [Ptr.add_inj] at h3
              have := radix_inj (by omega) (by omega) h3
              omega
            · exact e4 s hLs hs
        · rintro m2 ⟨u2, e2⟩
          refine hQ m2 (u1.trans u2 ?_ ?_) ?_
          · rintro p ⟨ρ, hρ, s, hs, rfl⟩; exact ⟨ρ, hρ, s, by omega, rfl⟩
          · rintro p ⟨ρ, hρ, s, hs, h1, rfl⟩; exact ⟨ρ, hρ, s, hs, rfl⟩
          · intro ρ hρ s hs
            rw [hp, fillv_one]
            split_ifs with h1
            · rw [u2.frame, e1 ρ hρ s h1]
              rintro ⟨ρ', _, s', hs', _, h3⟩
              rw [Ptr.add_inj] at h3
              have := radix_inj (by omega) (by omega) h3
              omega
            · exact e2 ρ hρ s hs (by omega)
      · rw [if_neg hi]
        refine Cmd.Ok.pure (hQ m1 (u1.mono ?_) ?_)
        · rintro p ⟨ρ, hρ, s, hs, rfl⟩; exact ⟨ρ, hρ, s, by omega, rfl⟩
        · intro ρ hρ s hs
          rw [hp, fillv_one]
          split_ifs with h1
          · exact e1 ρ hρ s h1
          · rw [u1.frame, hpad (by simpa using hi) hp ρ hρ s hs (by omega)]
            rintro ⟨ρ', _, s', hs', h3⟩
            rw [Ptr.add_inj] at h3
            have := radix_inj (by omega) (by omega) h3
            omega

end Fft
end Fftwpp
