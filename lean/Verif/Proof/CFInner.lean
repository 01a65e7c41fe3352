import Verif.Proof.CInner

/-! `fftPadCentered::forwardInner`: the blocks. -/

namespace Fftwpp
namespace Cent
open Finset ComplexConjugate
open Fft (kpair seqLoop_rng)
variable {o : Cent}

/-- Rewriting of the sizes used in the inner routines. -/
theorem WF.szI (h : o.WF) (hp : 2 < o.p) : o.p / 2 = o.P ∧ o.P * o.m - o.H = o.m0 ∧ o.L - o.H - (o.P - 1) * o.m = o.m1 ∧
    o.L / 2 = o.H := by
  refine ⟨by have := h.geoI hp; omega, ?_, ?_, rfl⟩
  · unfold m0; rw [Nat.mul_comm]
  · unfold m1; rw [Nat.mul_comm (o.P - 1)]

theorem WF.dF1 (h : o.WF) (hS : o.S = 1) {V : ℕ → Ptr} (d t s : ℕ) : o.dF V (d, t, s, 0) = V d + (o.m * t + s) := by
  unfold dF; simp [hS]

theorem RF1 (h : o.WF) {nd t s c : ℕ} (ht : t < o.P) (hs : s < o.m) (hc : c < o.C) (d : ℕ) : o.RF nd (d, t, s, c) ↔ d < nd := by
  unfold RF; simp [ht, hs, hc]

/-- Reads of the data are not in the blocks. -/
theorem rd_f {nd : ℕ} {V : ℕ → Ptr} {B : ℕ} {f : Ptr} (hV : ∀ d, (V d).buf = B) (hb : f.buf ≠ B) (i : ℕ) :
    ∀ x, o.RF nd x → f + i ≠ o.dF V x := fun x _ => Ptr.ne_of_buf (by
  unfold dF; simp only [Ptr.add_buf]; rw [hV]; exact hb)

section
variable {f W : Ptr} {mem : Mem}

theorem forwardInnerZero_ok (h : o.WF) (hp : 2 < o.p) (hS : o.S = 1) (hb : f.buf ≠ W.buf)
    (hf : ∀ j < o.L, mem.valid (f + j)) (hW : ∀ i < o.m * o.P, mem.valid (W + i)) {Q : Unit → Mem → Prop}
    (hQ : ∀ m', Fills mem m' (o.RF 1) (o.dF fun _ => W) (o.WT (fun _ j => mem.val (f + j)) fun _ => 0) (fun _ => True) → Q () m') :
    (o.forwardInnerZero f W).Ok mem Q := by
  obtain ⟨g1, g2, g3, g4, g5, g6, g7, g8, g9, g10⟩ := h.geoI hp
  obtain ⟨z1, z2, z3, z4⟩ := h.szI hp
  have hC := h.C_one hS
  have hm := h.m_pos
  have hgm : o.m * o.P - o.H = o.m0 := rfl
  have hWv : ∀ x, o.RF 1 x → mem.valid (o.dF (fun _ => W) x) := by
    rintro ⟨d, t, s, c⟩ ⟨_, h2, h3, h4⟩
    obtain rfl : c = 0 := by simp only at h4; omega
    rw [h.dF1 hS]; exact hW _ (radix_lt h3 h2)
  have hrd : ∀ i : ℕ, ∀ x, o.RF 1 x → f + i ≠ o.dF (fun _ => W) x := rd_f (fun _ => rfl) hb
  have hfv : ∀ {m' k}, Same mem m' (o.RF 1) (o.dF fun _ => W) k → ∀ j : ℕ, m'.val (f + j) = mem.val (f + j) :=
    fun hm j => hm.frame _ (hrd j)
  have hR1 : ∀ {t s : ℕ}, t < o.P → s < o.m → ∀ d, o.RF 1 (d, t, s, 0) ↔ d = 0 := fun ht hs d => by
    rw [RF1 h ht hs h.C_pos]; omega
  have hsub : ∀ s : ℕ, o.m0 ≤ s → f - o.m0 + s = f + (s - o.m0) := fun s hs => Ptr.sub_add hs
  unfold forwardInnerZero
  simp only [z1, z2, z3, z4]
  refine zonesS (R := o.RF 1) (dst := o.dF fun _ => W) (T := o.GT (fun _ j => mem.val (f + j)) fun _ => 0) h hp (dF_inj h Disj.one) ?_ ?_ ?_ ?_ ?_ ?_ ?_
  · rintro d t s c ⟨_, h2, h3, h4⟩; simp only at h2 h3 h4; exact ⟨h2, h3, by omega⟩
  · intro s hs m' sm
    have hv := sm.valid (hWv (0, 0, s, 0) ((hR1 (by omega) (by omega) 0).2 rfl))
    refine Wr.mk1 (hR1 (by omega) (by omega)) ?_ ?_ ?_
    · body_simp
      rw [h.dF1 hS, Nat.mul_zero, Nat.zero_add] at hv
      exact ⟨sm.valid (hf _ (by omega)), hv⟩
    · body_simp
      rw [h.dF1 hS, Nat.mul_zero, Nat.zero_add, hfv sm]
      unfold GT
      simp only
      rw [gf1 _ _ (by omega) (by omega)]
    · intro p; body_simp; rintro rfl; exact Or.inl (hrd _)
  · intro s hs1 hs m' sm
    have hv := sm.valid (hWv (0, 0, s, 0) ((hR1 (by omega) (by omega) 0).2 rfl))
    refine Wr.mk1 (hR1 (by omega) (by omega)) ?_ ?_ ?_
    · body_simp
      rw [h.dF1 hS, Nat.mul_zero, Nat.zero_add] at hv
      rw [hsub s hs1]
      exact ⟨sm.valid (hf _ (by omega)), sm.valid (hf _ (by omega)), hv⟩
    · body_simp
      rw [h.dF1 hS, Nat.mul_zero, Nat.zero_add, hsub s hs1, hfv sm, hfv sm]
      unfold GT
      simp only
      rw [gf2 _ _ (by omega) (by omega)]
      simp [hgm]
    · intro p; body_simp; rw [hsub s hs1]; rintro (rfl | rfl) <;> exact Or.inl (hrd _)
  · intro t s ht1 ht hs m' sm
    have hmt : o.m * (t + 1) ≤ o.m * (o.P - 1) := Nat.mul_le_mul_left _ ht
    have hmt1 : o.m * 1 ≤ o.m * t := Nat.mul_le_mul_left _ ht1
    rw [Nat.mul_succ] at hmt
    have hv := sm.valid (hWv (0, t, s, 0) ((hR1 (by omega) (by omega) 0).2 rfl))
    have hs1 : o.m0 ≤ o.m * t + s := by omega
    refine Wr.mk1 (hR1 (by omega) (by omega)) ?_ ?_ ?_
    · simp only [Nat.mul_comm t o.m]
      body_simp
      rw [h.dF1 hS] at hv
      rw [hsub _ hs1]
      exact ⟨sm.valid (hf _ (by omega)), sm.valid (hf _ (by omega)), hv⟩
    · simp only [Nat.mul_comm t o.m]
      body_simp
      rw [h.dF1 hS, hsub _ hs1, hfv sm, hfv sm]
      unfold GT
      simp only
      rw [gf3 _ _ (by omega) (by omega)]
      simp [hgm]
    · simp only [Nat.mul_comm t o.m]
      intro p; body_simp; rw [hsub _ hs1]; rintro (rfl | rfl) <;> exact Or.inl (hrd _)
  · intro s hs m' sm
    have hv := sm.valid (hWv (0, o.P - 1, s, 0) ((hR1 (by omega) (by omega) 0).2 rfl))
    have hs1 : o.m0 ≤ o.m * (o.P - 1) + s := by omega
    refine Wr.mk1 (hR1 (by omega) (by omega)) ?_ ?_ ?_
    · simp only [Nat.mul_comm (o.P - 1) o.m]
      body_simp
      rw [h.dF1 hS] at hv
      rw [hsub _ hs1]
      exact ⟨sm.valid (hf _ (by omega)), sm.valid (hf _ (by omega)), hv⟩
    · simp only [Nat.mul_comm (o.P - 1) o.m]
      body_simp
      rw [h.dF1 hS, hsub _ hs1, hfv sm, hfv sm]
      unfold GT
      simp only
      rw [gf3 _ _ (by omega) (by omega)]
      simp [hgm]
    · simp only [Nat.mul_comm (o.P - 1) o.m]
      intro p; body_simp; rw [hsub _ hs1]; rintro (rfl | rfl) <;> exact Or.inl (hrd _)
  · intro s hs0 hs m' sm
    have hv := sm.valid (hWv (0, o.P - 1, s, 0) ((hR1 (by omega) (by omega) 0).2 rfl))
    have hs1 : o.m0 ≤ o.m * (o.P - 1) + s := by omega
    refine Wr.mk1 (hR1 (by omega) (by omega)) ?_ ?_ ?_
    · simp only [Nat.mul_comm (o.P - 1) o.m]
      body_simp
      rw [h.dF1 hS] at hv
      rw [hsub _ hs1]
      exact ⟨sm.valid (hf _ (by omega)), hv⟩
    · simp only [Nat.mul_comm (o.P - 1) o.m]
      body_simp
      rw [h.dF1 hS, hsub _ hs1, hfv sm]
      unfold GT
      simp only
      rw [gf5 _ _ (by omega) (by omega)]
      simp [hgm]
    · simp only [Nat.mul_comm (o.P - 1) o.m]
      intro p; body_simp; rw [hsub _ hs1]; rintro rfl; exact Or.inl (hrd _)
  intro m1 f1
  refine Cmd.Ok.bind (fftpS_ok h hS (h.plF hp) (V := fun _ => W) (d := 0) rfl Nat.one_pos (Fills.start (dF_inj h Disj.one)) (fun _ h => h)
    (fun x hx => f1.valid (hWv x hx)) ?_)
  intro m2 f2
  refine (Fills.start (T := o.ZT m2 (fun _ => W) fun _ => 0) (dF_inj h (nd := 1) (V := fun _ => W) Disj.one)).parz (fun x : ℕ × ℕ => (x.1, x.2, 0)) (rng2_nodup _ _ _ _) ?_ (fun _ _ _ h => h) ?_ ?_
  · intro i _ j _ e; simp only [Prod.mk.injEq, and_true] at e; exact Prod.ext e.1 e.2
  · rintro ⟨u, s⟩ hs m' sm
    simp only [mem_rng2] at hs
    have hR := hR1 hs.1.2 hs.2.2
    have hv := sm.valid (f2.valid (f1.valid (hWv (0, u, s, 0) ((hR 0).2 rfl))))
    have hown := sm.own 0 ((hR 0).2 rfl)
    rw [h.dF1 hS] at hv hown
    have hz : o.m * o.n * u + s = o.m * (o.n * u) + s := by rw [Nat.mul_assoc]
    have hnu : 0 < o.n * u := Nat.mul_pos h.n_pos hs.1.1
    have hnq : o.n * u < o.q := by rw [h.q_eq, Nat.mul_comm]; exact Nat.mul_lt_mul_of_pos_right hs.1.2 h.n_pos
    refine Wr.mk1 hR ?_ ?_ ?_
    · simp only [mulBy, Nat.mul_comm u o.m]
      body_simp
      rw [hz]
      exact ⟨h.zq_bd hp hnu hnq hs.2.2, hv, hv⟩
    · simp only [mulBy, Nat.mul_comm u o.m]
      body_simp
      rw [hz, h.zq_val hp hs.2.2, hown, h.dF1 hS]
      unfold ZT
      rw [h.dF1 hS]
      simp
    · simp only [mulBy, Nat.mul_comm u o.m]
      intro p; body_simp; rintro rfl; exact Or.inr (by rw [h.dF1 hS])
  intro m3 f3
  refine hQ m3 (stages h f1 f2 (fun k hk => Or.inr (by have := hk.1; omega)) f3 ?_)
  rintro ⟨d, u, s, c⟩ hk hd
  by_contra hne
  simp only [not_or, and_true] at hne
  obtain rfl : c = 0 := by have := hk.2.2.2; simp only at this; omega
  exact hd (Or.inr ⟨(u, s), mem_rng2.2 ⟨⟨by simp only; omega, hk.2.1⟩, by simp only; omega, hk.2.2.1⟩, rfl⟩)

end
end Cent
end Fftwpp
