import Verif.Proof.CZone2

/-! `fftPadCentered::forwardInner`: the blocks of nonzero residues. -/

namespace Fftwpp

/-- Unfolding of loop bodies with flattened offsets. -/
macro "body_flat" : tactic => `(tactic|
  (body_simp; try simp only [Nat.add_assoc, Nat.mul_zero, Nat.zero_add]))

namespace Cent
open Finset ComplexConjugate
open Fft (kpair seqLoop_rng)
variable {o : Cent}

theorem WF.qn (h : o.WF) {u r : ℕ} (hu : u < o.P) (hr : r < o.n) : o.n * u + r < o.q := by
  rw [h.q_eq, Nat.mul_comm o.P]; exact radix_lt hr hu

section
variable {f W : Ptr} {mem : Mem}

theorem forwardInnerOne_ok (h : o.WF) (hp : 2 < o.p) (hS : o.S = 1) (hb : f.buf ≠ W.buf) {r : ℕ} (hr : 0 < r) (hrn : r < o.n)
    (hf : ∀ j < o.L, mem.valid (f + j)) (hW : ∀ i < o.m * o.P, mem.valid (W + i)) {Q : Unit → Mem → Prop}
    (hQ : ∀ m', Fills mem m' (o.RF 1) (o.dF fun _ => W) (o.WT (fun _ j => mem.val (f + j)) fun _ => r) (fun _ => True) → Q () m') :
    (o.forwardInnerOne f W r).Ok mem Q := by
  obtain ⟨g1, g2, g3, g4, g5, g6, g7, g8, g9, g10⟩ := h.geoI hp
  obtain ⟨z1, z2, z3, z4⟩ := h.szI hp
  have hC := h.C_one hS
  have hm := h.m_pos
  have hWv : ∀ x, o.RF 1 x → mem.valid (o.dF (fun _ => W) x) := by
    rintro ⟨d, t, s, c⟩ ⟨_, h2, h3, h4⟩
    obtain rfl : c = 0 := by simp only at h4; omega
    rw [h.dF1 hS]; exact hW _ (radix_lt h3 h2)
  have hrd : ∀ i : ℕ, ∀ x, o.RF 1 x → f + i ≠ o.dF (fun _ => W) x := rd_f (fun _ => rfl) hb
  have hfv : ∀ {m' k}, Same mem m' (o.RF 1) (o.dF fun _ => W) k → ∀ j : ℕ, m'.val (f + j) = mem.val (f + j) :=
    fun hm j => hm.frame _ (hrd j)
  have hR1 : ∀ {t s : ℕ}, t < o.P → s < o.m → ∀ d, o.RF 1 (d, t, s, 0) ↔ d = 0 := fun ht hs d => by
    rw [RF1 h ht hs h.C_pos]; omega
  have hsub : ∀ s : ℕ, o.m0 ≤ s → f - o.m0 + s = f + (s - o.m0) := fun s hs => Ptr.sub_add hs
  have hd0 : ∀ d t s, o.dF (fun _ => W) (d, t, s, 0) = W + (o.m * t + s) := fun d t s => h.dF1 hS d t s
  have hd00 : ∀ d s, o.dF (fun _ => W) (d, 0, s, 0) = W + s := fun d s => by rw [hd0]; simp
  have hv : ∀ {m' k}, Same mem m' (o.RF 1) (o.dF fun _ => W) k → ∀ t s, t < o.P → s < o.m → m'.valid (W + (o.m * t + s)) :=
    fun sm t s ht hs => sm.valid (hW _ (radix_lt hs ht))
  have hv0 : ∀ {m' k}, Same mem m' (o.RF 1) (o.dF fun _ => W) k → ∀ s, s < o.m → m'.valid (W + s) := fun sm s hs => by
    have := hv sm 0 s (by omega) hs; simpa using this
  have tb : ∀ {t}, 0 < t → t ≤ o.P → o.Zetaqp.lo ≤ o.P * r + t ∧ o.P * r + t < o.Zetaqp.hi := fun h1 h2 => h.zqp_bd hp hr hrn h1 h2
  have tv : ∀ {t}, 0 < t → t ≤ o.P → o.Zetaqp.val (o.P * r + t) = w o.q (t * r) := fun h1 h2 => h.zqp_val hp h1 h2
  unfold forwardInnerOne
  simp only [z1, z2, z3, z4]
  refine zonesS2 (R := o.RF 1) (dst := o.dF fun _ => W) (T := o.GT (fun _ j => mem.val (f + j)) fun _ => r) h hp (dF_inj h Disj.one) ?_ ?_ ?_ ?_ rfl ?_ ?_
  · rintro d t s c ⟨_, h2, h3, h4⟩; simp only at h2 h3 h4; exact ⟨h2, h3, by omega⟩
  · intro s hs0 hs hL m' sm
    refine Wr.mk1p (hR1 (by omega) hs) (hd00 _ _) ?_ ?_ ?_
    · body_flat
      exact ⟨sm.valid (hf _ hL), hv0 sm s hs⟩
    · body_flat
      rw [hfv sm, GT1 _ _ hs0 hL]
    · intro p; body_flat; rintro rfl; exact Or.inl (hrd _)
  · intro s hs0 hs hL m' sm
    refine Wr.mk1p (hR1 (by omega) hs) (hd00 _ _) ?_ ?_ ?_
    · body_flat
      rw [hsub s hs0]
      exact ⟨tb (by omega) le_rfl, sm.valid (hf _ (by omega)), sm.valid (hf _ hL), hv0 sm s hs⟩
    · body_flat
      rw [hsub s hs0, hfv sm, hfv sm, GT2 _ _ hs0 hL, tv (by omega) le_rfl, C30_zmult_xy, C30_conj, wP_conj, mul_comm (w _ _)]
    · intro p; body_flat; rw [hsub s hs0]; rintro (rfl | rfl) <;> exact Or.inl (hrd _)
  · intro t s ht0 ht hs hs0 hL m' sm
    simp only [Nat.mul_comm t o.m]
    refine Wr.mk1p (hR1 ht hs) (hd0 _ _ _) ?_ ?_ ?_
    · body_flat
      rw [hsub _ hs0]
      exact ⟨tb (by omega) le_rfl, tb ht0 (by omega), sm.valid (hf _ (by omega)), sm.valid (hf _ hL), hv sm t s ht hs⟩
    · body_flat
      rw [hsub _ hs0, hfv sm, hfv sm, GT3 _ _ hs0 hL, tv (by omega) le_rfl, tv ht0 (by omega), C30_zmult_xy, C30_zmult_xy, C30_zmult, C30_conj, wtP,
        mul_comm (w _ ((_ - _) * _)), mul_comm (w _ _)]
    · intro p; body_flat; rw [hsub _ hs0]; rintro (rfl | rfl) <;> exact Or.inl (hrd _)
  · intro s ht0 ht hs hs0 hL hL' m' sm
    simp only [Nat.mul_comm (o.P - 1) o.m]
    refine Wr.mk1p (hR1 ht hs) (hd0 _ _ _) ?_ ?_ ?_
    · body_flat
      rw [hsub _ hs0]
      exact ⟨tb (by omega) le_rfl, tb ht0 (by omega), sm.valid (hf _ hL'), hv sm _ s ht hs⟩
    · body_flat
      rw [hsub _ hs0, hfv sm, GT5 _ _ hs0 hL, tv (by omega) le_rfl, tv ht0 (by omega), C30_zmult_xy, C30_zmult, C30_conj, wtP,
        mul_comm (w _ ((_ - _) * _))]
    · intro p; body_flat; rw [hsub _ hs0]; rintro rfl; exact Or.inl (hrd _)
  intro m1 f1
  refine Cmd.Ok.bind (fftpS_ok h hS (h.plF hp) (V := fun _ => W) (d := 0) rfl Nat.one_pos (Fills.start (dF_inj h Disj.one)) (fun _ h => h)
    (fun x hx => f1.valid (hWv x hx)) ?_)
  intro m2 f2
  have hv2 : ∀ {m' k}, Same m2 m' (o.RF 1) (o.dF fun _ => W) k → ∀ t s, t < o.P → s < o.m → m'.valid (W + (o.m * t + s)) :=
    fun sm t s ht hs => sm.valid (f2.valid (f1.valid (hW _ (radix_lt hs ht))))
  refine Cmd.Ok.bind ((Fills.start (T := o.ZT m2 (fun _ => W) fun _ => r) (dF_inj h (nd := 1) (V := fun _ => W) Disj.one)).parz (fun s => (0, s, 0)) (rng_nodup _ _) ?_ (fun _ _ _ h => h) ?_ ?_)
  · intro i _ j _ e; simpa using e
  · intro s hs m' sm
    rw [mem_rng] at hs
    have hown := sm.own 0 ((hR1 (by omega) (by omega) 0).2 rfl)
    have hv' := hv2 sm 0 s (by omega) (by omega)
    rw [Nat.mul_zero, Nat.zero_add] at hv'
    have hrq := h.qn (u := 0) (by omega) hrn
    rw [Nat.mul_zero, Nat.zero_add] at hrq
    rw [hd00] at hown
    refine Wr.mk1p (hR1 (by omega) (by omega)) (hd00 _ _) ?_ ?_ ?_
    · simp only [mulBy]
      body_flat
      exact ⟨h.zq_bd hp hr hrq hs.2, hv', hv'⟩
    · simp only [mulBy]
      body_flat
      rw [h.zq_val hp hs.2, hown]
      unfold ZT
      rw [hd00]
      simp
    · intro p; simp only [mulBy]; body_flat; rintro rfl; exact Or.inr rfl
  intro m3 f3
  refine f3.parz (fun x : ℕ × ℕ => (x.1, x.2, 0)) (rng2_nodup _ _ _ _) ?_ ?_ ?_ ?_
  · intro i _ j _ e; simp only [Prod.mk.injEq, and_true] at e; exact Prod.ext e.1 e.2
  · rintro ⟨u, s⟩ hs d hd
    simp only [mem_rng2, mem_rng, Prod.mk.injEq, false_or] at hs hd
    obtain ⟨i, hi, e⟩ := hd; omega
  · rintro ⟨u, s⟩ hs m' sm
    simp only [mem_rng2] at hs
    have hR := hR1 hs.1.2 hs.2.2
    have hown := sm.own 0 ((hR 0).2 rfl)
    have hv' := hv2 sm u s hs.1.2 hs.2.2
    have hz : o.m * r + (o.n * (o.m * u) + s) = o.m * (o.n * u + r) + s := by ring
    rw [hd0] at hown
    refine Wr.mk1p hR (hd0 _ _ _) ?_ ?_ ?_
    · simp only [mulBy]
      body_flat
      rw [hz]
      exact ⟨h.zq_bd hp (by omega) (h.qn hs.1.2 hrn) hs.2.2, hv', hv'⟩
    · simp only [mulBy]
      body_flat
      rw [hz, h.zq_val hp hs.2.2, hown]
      unfold ZT
      rw [hd0]
      simp
    · intro p; simp only [mulBy]; body_flat; rintro rfl; exact Or.inr rfl
  intro m4 f4
  refine hQ m4 (stages h f1 f2 (fun k hk => Or.inr (by have := hk.1; omega)) f4 ?_)
  rintro ⟨d, u, s, c⟩ hk hd
  by_contra hne
  simp only [not_or] at hne
  obtain rfl : c = 0 := by have := hk.2.2.2; simp only at this; omega
  by_cases hu : u = 0
  · subst hu
    exact hd (Or.inl (Or.inr ⟨s, mem_rng.2 ⟨by omega, hk.2.2.1⟩, rfl⟩))
  · exact hd (Or.inr ⟨(u, s), mem_rng2.2 ⟨⟨by simp only; omega, hk.2.1⟩, by simp only; omega, hk.2.2.1⟩, rfl⟩)

end
end Cent
end Fftwpp
