import Verif.Proof.CFInner2

/-! `fftPadCentered::forwardInner`: the pairs of blocks. -/

namespace Fftwpp
namespace Cent
open Finset ComplexConjugate
open Fft (kpair seqLoop_rng)
variable {o : Cent}

/-- Consecutive blocks. -/
def Vb (o : Cent) (W : Ptr) (d : ℕ) : Ptr := W + o.b * d

theorem Vb_buf (W : Ptr) (d : ℕ) : (o.Vb W d).buf = W.buf := rfl

theorem WF.b1 (h : o.WF) (hS : o.S = 1) : o.b = o.m * o.P := by rw [h.b_eq, hS, h.l_eq, Nat.one_mul]

theorem WF.Vb_0 (h : o.WF) (hS : o.S = 1) (W : Ptr) (t s : ℕ) : o.dF (o.Vb W) (0, t, s, 0) = W + (o.m * t + s) := by
  rw [h.dF1 hS]; unfold Vb; rw [Nat.mul_zero, Ptr.add_zero]
theorem WF.Vb_1 (h : o.WF) (hS : o.S = 1) (W : Ptr) (t s : ℕ) : o.dF (o.Vb W) (1, t, s, 0) = W + (o.b + (o.m * t + s)) := by
  rw [h.dF1 hS]; unfold Vb; rw [Nat.mul_one, Ptr.add_add]

theorem WF.Vb_inj (h : o.WF) (W : Ptr) (nd : ℕ) : ∀ k k', o.RF nd k → o.RF nd k' → o.dF (o.Vb W) k = o.dF (o.Vb W) k' → k = k' :=
  dF_inj h (Disj.consec h W nd)

/-- Two products, one after the other. -/
theorem set_mul {m' : Mem} {X Y : Ptr} {v : ℂ} (hne : Y ≠ X) : (m'.set X v).val Y = m'.val Y := by
  rw [Mem.set_val, if_neg hne]

section
variable {f W : Ptr} {mem : Mem}

theorem forwardInnerPair_ok (h : o.WF) (hp : 2 < o.p) (hS : o.S = 1) (hb : f.buf ≠ W.buf) {r : ℕ} (hr : 0 < r) (hrn : r < o.n)
    (hf : ∀ j < o.L, mem.valid (f + j)) (hW : ∀ i < o.m * (o.P * 2), mem.valid (W + i)) {Q : Unit → Mem → Prop}
    (hQ : ∀ m', Fills mem m' (o.RF 2) (o.dF (o.Vb W)) (o.WT (fun _ j => mem.val (f + j)) (sg2 r (-r))) (fun _ => True) → Q () m') :
    (o.forwardInnerPair f W r).Ok mem Q := by
  obtain ⟨g1, g2, g3, g4, g5, g6, g7, g8, g9, g10⟩ := h.geoI hp
  obtain ⟨z1, z2, z3, z4⟩ := h.szI hp
  have hC := h.C_one hS
  have hm := h.m_pos
  have hb1 := h.b1 hS
  have hd0 := h.Vb_0 hS W
  have hd1 := h.Vb_1 hS W
  have hd00 : ∀ s, o.dF (o.Vb W) (0, 0, s, 0) = W + s := fun s => by rw [hd0]; simp
  have hd10 : ∀ s, o.dF (o.Vb W) (1, 0, s, 0) = W + (o.b + s) := fun s => by rw [hd1]; simp
  have vW : ∀ t s, t < o.P → s < o.m → mem.valid (W + (o.m * t + s)) ∧ mem.valid (W + (o.b + (o.m * t + s))) := fun t s ht hs => by
    have := radix_lt hs ht
    have e : o.m * (o.P * 2) = 2 * (o.m * o.P) := by ring
    exact ⟨hW _ (by omega), hW _ (by omega)⟩
  have hWv : ∀ x, o.RF 2 x → mem.valid (o.dF (o.Vb W) x) := by
    rintro ⟨d, t, s, c⟩ ⟨h1, h2, h3, h4⟩
    simp only at h1 h2 h3 h4
    obtain rfl : c = 0 := by omega
    obtain rfl | rfl : d = 0 ∨ d = 1 := by omega
    · rw [hd0]; exact (vW t s h2 h3).1
    · rw [hd1]; exact (vW t s h2 h3).2
  have hrd : ∀ i : ℕ, ∀ x, o.RF 2 x → f + i ≠ o.dF (o.Vb W) x := rd_f (Vb_buf W) hb
  have hfv : ∀ {m' k}, Same mem m' (o.RF 2) (o.dF (o.Vb W)) k → ∀ j : ℕ, m'.val (f + j) = mem.val (f + j) :=
    fun hm j => hm.frame _ (hrd j)
  have hR2 : ∀ {t s : ℕ}, t < o.P → s < o.m → ∀ d, o.RF 2 (d, t, s, 0) ↔ d = 0 ∨ d = 1 := fun ht hs d => by
    rw [RF1 h ht hs h.C_pos]; omega
  have hsub : ∀ s : ℕ, o.m0 ≤ s → f - o.m0 + s = f + (s - o.m0) := fun s hs => Ptr.sub_add hs
  have hv : ∀ {m' k}, Same mem m' (o.RF 2) (o.dF (o.Vb W)) k → ∀ t s, t < o.P → s < o.m →
      m'.valid (W + (o.m * t + s)) ∧ m'.valid (W + (o.b + (o.m * t + s))) :=
    fun sm t s ht hs => ⟨sm.valid (vW t s ht hs).1, sm.valid (vW t s ht hs).2⟩
  have hv0 : ∀ {m' k}, Same mem m' (o.RF 2) (o.dF (o.Vb W)) k → ∀ s, s < o.m → m'.valid (W + s) ∧ m'.valid (W + (o.b + s)) := fun sm s hs => by
    have := hv sm 0 s (by omega) hs; simpa using this
  have tb : ∀ {t}, 0 < t → t ≤ o.P → o.Zetaqp.lo ≤ o.P * r + t ∧ o.P * r + t < o.Zetaqp.hi := fun h1 h2 => h.zqp_bd hp hr hrn h1 h2
  have tv : ∀ {t}, 0 < t → t ≤ o.P → o.Zetaqp.val (o.P * r + t) = w o.q (t * r) := fun h1 h2 => h.zqp_val hp h1 h2
  unfold forwardInnerPair
  simp only [z1, z2, z3, z4]
  refine zonesS2 (R := o.RF 2) (dst := o.dF (o.Vb W)) (T := o.GT (fun _ j => mem.val (f + j)) (sg2 r (-r))) h hp (h.Vb_inj W 2) ?_ ?_ ?_ ?_ rfl ?_ ?_
  · rintro d t s c ⟨_, h2, h3, h4⟩; simp only at h2 h3 h4; exact ⟨h2, h3, by omega⟩
  · intro s hs0 hs hL m' sm
    refine Wr.mk2p (hR2 (by omega) hs) (hd00 _) (hd10 _) ?_ ?_ ?_
    · body_flat
      exact ⟨sm.valid (hf _ hL), (hv0 sm s hs).1, (hv0 sm s hs).2⟩
    · body_flat
      rw [hfv sm, GT1 _ _ hs0 hL, GT1 _ _ hs0 hL]
    · intro p; body_flat; rintro rfl; exact Or.inl (hrd _)
  · intro s hs0 hs hL m' sm
    refine Wr.mk2p (hR2 (by omega) hs) (hd00 _) (hd10 _) ?_ ?_ ?_
    · body_flat
      rw [hsub s hs0]
      exact ⟨tb (by omega) le_rfl, sm.valid (hf _ (by omega)), sm.valid (hf _ hL), (hv0 sm s hs).1, (hv0 sm s hs).2⟩
    · body_flat
      rw [hsub s hs0, hfv sm, hfv sm, GT2 _ _ hs0 hL, GT2 _ _ hs0 hL, tv (by omega) le_rfl, C30_pair_add, C30_pair_sub, C30_conj, Complex.conj_conj, wP_conj,
        mul_comm (w _ _), mul_comm (w _ _)]
      simp
    · intro p; body_flat; rw [hsub s hs0]; rintro (rfl | rfl) <;> exact Or.inl (hrd _)
  · intro t s ht0 ht hs hs0 hL m' sm
    simp only [Nat.mul_comm t o.m]
    refine Wr.mk2p (hR2 ht hs) (hd0 _ _) (hd1 _ _) ?_ ?_ ?_
    · body_flat
      rw [hsub _ hs0]
      exact ⟨tb (by omega) le_rfl, tb ht0 (by omega), sm.valid (hf _ (by omega)), sm.valid (hf _ hL), (hv sm t s ht hs).1, (hv sm t s ht hs).2⟩
    · body_flat
      rw [hsub _ hs0, hfv sm, hfv sm, GT3 _ _ hs0 hL, GT3 _ _ hs0 hL, tv (by omega) le_rfl, tv ht0 (by omega), C30_pair2_add, C30_pair2_sub,
        C30_zmult, C30_conj, wtP, w_conj, w_conj,
        mul_comm (w _ ((_ - _) * _)), mul_comm (w _ (_ * (r : ℤ))), mul_comm (w _ (-_)), mul_comm (w _ (-_))]
      simp
    · intro p; body_flat; rw [hsub _ hs0]; rintro (rfl | rfl) <;> exact Or.inl (hrd _)
  · intro s ht0 ht hs hs0 hL hL' m' sm
    simp only [Nat.mul_comm (o.P - 1) o.m]
    refine Wr.mk2p (hR2 ht hs) (hd0 _ _) (hd1 _ _) ?_ ?_ ?_
    · body_flat
      rw [hsub _ hs0]
      exact ⟨tb (by omega) le_rfl, tb ht0 (by omega), sm.valid (hf _ hL'), (hv sm _ s ht hs).1, (hv sm _ s ht hs).2⟩
    · body_flat
      rw [hsub _ hs0, hfv sm, GT5 _ _ hs0 hL, GT5 _ _ hs0 hL, tv (by omega) le_rfl, tv ht0 (by omega), C30_pair_add, C30_pair_sub, C30_zmult, C30_conj, wtP,
        w_conj, mul_comm (w _ ((_ - _) * _)), mul_comm (w _ (-_))]
      simp
    · intro p; body_flat; rw [hsub _ hs0]; rintro rfl; exact Or.inl (hrd _)
  intro m1 f1
  refine Cmd.Ok.bind (fftpS_ok h hS (h.plF hp) (V := o.Vb W) (d := 0) (X := W) (by simp [Vb, Ptr.add_zero]) Nat.two_pos (Fills.start (h.Vb_inj W 2)) (fun _ h => h)
    (fun x hx => f1.valid (hWv x hx)) ?_)
  intro m1' f1'
  refine Cmd.Ok.bind (fftpS_ok h hS (h.plF hp) (V := o.Vb W) (d := 1) (X := W + o.b) (by simp [Vb]) Nat.one_lt_two f1' (fun _ h => by simp at h)
    (fun x hx => f1.valid (hWv x hx)) ?_)
  intro m2 f2
  have hv2 : ∀ {m' k}, Same m2 m' (o.RF 2) (o.dF (o.Vb W)) k → ∀ t s, t < o.P → s < o.m →
      m'.valid (W + (o.m * t + s)) ∧ m'.valid (W + (o.b + (o.m * t + s))) :=
    fun sm t s ht hs => ⟨sm.valid (f2.valid (f1.valid (vW t s ht hs).1)), sm.valid (f2.valid (f1.valid (vW t s ht hs).2))⟩
  refine Cmd.Ok.bind ((Fills.start (T := o.ZT m2 (o.Vb W) (sg2 r (-r))) (h.Vb_inj W 2)).parz (fun s => (0, s, 0)) (rng_nodup _ _) ?_ (fun _ _ _ h => h) ?_ ?_)
  · intro i _ j _ e; simpa using e
  · intro s hs m' sm
    rw [mem_rng] at hs
    have hR := hR2 (t := 0) (s := s) (by omega) (by omega)
    have hown0 := sm.own 0 ((hR 0).2 (Or.inl rfl))
    have hown1 := sm.own 1 ((hR 1).2 (Or.inr rfl))
    have hv' := hv2 sm 0 s (by omega) (by omega)
    rw [Nat.mul_zero, Nat.zero_add] at hv'
    have hrq := h.qn (u := 0) (by omega) hrn
    rw [Nat.mul_zero, Nat.zero_add] at hrq
    rw [hd00] at hown0
    rw [hd10] at hown1
    have hne : (W + (o.b + s) : Ptr) ≠ W + s := by rw [Ne, Ptr.add_inj]; have := Nat.mul_pos hm h.P_pos; omega
    refine Wr.mk2p hR (hd00 _) (hd10 _) ?_ ?_ ?_
    · simp only [mulBy]
      body_flat
      exact ⟨h.zq_bd hp hr hrq hs.2, hv'.1, hv'.1, hv'.2, hv'.2⟩
    · simp only [mulBy]
      body_flat
      rw [h.zq_val hp hs.2, set_mul hne, hown0, hown1]
      unfold ZT
      rw [hd00, hd10, w_conj]
      simp
    · intro p; simp only [mulBy]; body_flat; rintro (rfl | rfl) <;> simp
  intro m3 f3
  refine f3.parz (fun x : ℕ × ℕ => (x.1, x.2, 0)) (rng2_nodup _ _ _ _) ?_ ?_ ?_ ?_
  · intro i _ j _ e; simp only [Prod.mk.injEq, and_true] at e; exact Prod.ext e.1 e.2
  · rintro ⟨u, s⟩ hs d hd
    simp only [mem_rng2, mem_rng, Prod.mk.injEq, false_or] at hs hd
    obtain ⟨i, hi, e⟩ := hd; omega
  · rintro ⟨u, s⟩ hs m' sm
    simp only [mem_rng2] at hs
    have hR := hR2 hs.1.2 hs.2.2
    have hown0 := sm.own 0 ((hR 0).2 (Or.inl rfl))
    have hown1 := sm.own 1 ((hR 1).2 (Or.inr rfl))
    have hv' := hv2 sm u s hs.1.2 hs.2.2
    rw [hd0] at hown0
    rw [hd1] at hown1
    have hz : o.n * (o.m * u) + (o.m * r + s) = o.m * (o.n * u + r) + s := by ring
    have hnu : o.n * 1 ≤ o.n * u := Nat.mul_le_mul_left _ hs.1.1
    have hz' : o.n * (o.m * u) - o.m * r + s = o.m * (o.n * u - r) + s := by
      rw [Nat.mul_sub]; congr 2; ring
    have hne : (W + (o.b + (o.m * u + s)) : Ptr) ≠ W + (o.m * u + s) := by rw [Ne, Ptr.add_inj]; have := Nat.mul_pos hm h.P_pos; omega
    have hq1 := h.qn hs.1.2 hrn
    refine Wr.mk2p hR (hd0 _ _) (hd1 _ _) ?_ ?_ ?_
    · simp only [mulBy]
      body_flat
      rw [hz, hz']
      exact ⟨h.zq_bd hp (by omega) hq1 hs.2.2, hv'.1, hv'.1, h.zq_bd hp (by omega) (by omega) hs.2.2, hv'.2, hv'.2⟩
    · simp only [mulBy]
      body_flat
      rw [hz, hz', h.zq_val hp hs.2.2, h.zq_val hp hs.2.2, set_mul hne, hown0, hown1]
      unfold ZT
      rw [hd0, hd1]
      simp only [sg2_0, sg2_1]
      rw [Nat.cast_sub (by omega)]
      push_cast
      rw [sub_eq_add_neg]
    · intro p; simp only [mulBy]; body_flat; rintro (rfl | rfl) <;> simp
  intro m4 f4
  refine hQ m4 (stages h f1 f2 (fun k hk => by have := hk.1; simp only [false_or]; omega) f4 ?_)
  rintro ⟨d, u, s, c⟩ hk hd
  by_contra hne
  simp only [not_or] at hne
  obtain rfl : c = 0 := by have := hk.2.2.2; simp only at this; omega
  by_cases hu : u = 0
  · subst hu
    exact hd (Or.inl (Or.inr ⟨s, mem_rng.2 ⟨by omega, hk.2.2.1⟩, rfl⟩))
  · exact hd (Or.inr ⟨(u, s), mem_rng2.2 ⟨⟨by simp only; omega, hk.2.1⟩, by simp only; omega, hk.2.2.1⟩, rfl⟩)

theorem forwardInnerHalf_ok (h : o.WF) (hp : 2 < o.p) (hS : o.S = 1) (hb : f.buf ≠ W.buf) (hn : o.n = 2 * (o.n / 2))
    (hf : ∀ j < o.L, mem.valid (f + j)) (hW : ∀ i < o.m * (o.P * 2), mem.valid (W + i)) {Q : Unit → Mem → Prop}
    (hQ : ∀ m', Fills mem m' (o.RF 2) (o.dF (o.Vb W)) (o.WT (fun _ j => mem.val (f + j)) (sg2 0 (o.n / 2 : ℕ))) (fun _ => True) → Q () m') :
    (o.forwardInnerHalf f W).Ok mem Q := by
  obtain ⟨g1, g2, g3, g4, g5, g6, g7, g8, g9, g10⟩ := h.geoI hp
  obtain ⟨z1, z2, z3, z4⟩ := h.szI hp
  have hC := h.C_one hS
  have hm := h.m_pos
  have hb1 := h.b1 hS
  have hn0 := h.n_pos
  have hr : 0 < o.n / 2 := by omega
  have hrn : o.n / 2 < o.n := by omega
  have hd0 := h.Vb_0 hS W
  have hd1 := h.Vb_1 hS W
  have hd00 : ∀ s, o.dF (o.Vb W) (0, 0, s, 0) = W + s := fun s => by rw [hd0]; simp
  have hd10 : ∀ s, o.dF (o.Vb W) (1, 0, s, 0) = W + (o.b + s) := fun s => by rw [hd1]; simp
  have vW : ∀ t s, t < o.P → s < o.m → mem.valid (W + (o.m * t + s)) ∧ mem.valid (W + (o.b + (o.m * t + s))) := fun t s ht hs => by
    have := radix_lt hs ht
    have e : o.m * (o.P * 2) = 2 * (o.m * o.P) := by ring
    exact ⟨hW _ (by omega), hW _ (by omega)⟩
  have hWv : ∀ x, o.RF 2 x → mem.valid (o.dF (o.Vb W) x) := by
    rintro ⟨d, t, s, c⟩ ⟨h1, h2, h3, h4⟩
    simp only at h1 h2 h3 h4
    obtain rfl : c = 0 := by omega
    obtain rfl | rfl : d = 0 ∨ d = 1 := by omega
    · rw [hd0]; exact (vW t s h2 h3).1
    · rw [hd1]; exact (vW t s h2 h3).2
  have hrd : ∀ i : ℕ, ∀ x, o.RF 2 x → f + i ≠ o.dF (o.Vb W) x := rd_f (Vb_buf W) hb
  have hfv : ∀ {m' k}, Same mem m' (o.RF 2) (o.dF (o.Vb W)) k → ∀ j : ℕ, m'.val (f + j) = mem.val (f + j) :=
    fun hm j => hm.frame _ (hrd j)
  have hR2 : ∀ {t s : ℕ}, t < o.P → s < o.m → ∀ d, o.RF 2 (d, t, s, 0) ↔ d = 0 ∨ d = 1 := fun ht hs d => by
    rw [RF1 h ht hs h.C_pos]; omega
  have hsub : ∀ s : ℕ, o.m0 ≤ s → f - o.m0 + s = f + (s - o.m0) := fun s hs => Ptr.sub_add hs
  have hv : ∀ {m' k}, Same mem m' (o.RF 2) (o.dF (o.Vb W)) k → ∀ t s, t < o.P → s < o.m →
      m'.valid (W + (o.m * t + s)) ∧ m'.valid (W + (o.b + (o.m * t + s))) :=
    fun sm t s ht hs => ⟨sm.valid (vW t s ht hs).1, sm.valid (vW t s ht hs).2⟩
  have hv0 : ∀ {m' k}, Same mem m' (o.RF 2) (o.dF (o.Vb W)) k → ∀ s, s < o.m → m'.valid (W + s) ∧ m'.valid (W + (o.b + s)) := fun sm s hs => by
    have := hv sm 0 s (by omega) hs; simpa using this
  have tb : ∀ {t}, 0 < t → t ≤ o.P → o.Zetaqp.lo ≤ o.P * (o.n / 2) + t ∧ o.P * (o.n / 2) + t < o.Zetaqp.hi := fun h1 h2 => h.zqp_bd hp hr hrn h1 h2
  have tv : ∀ {t}, 0 < t → t ≤ o.P → o.Zetaqp.val (o.P * (o.n / 2) + t) = w o.q (t * (o.n / 2 : ℕ)) := fun h1 h2 => h.zqp_val hp h1 h2
  unfold forwardInnerHalf
  simp only [z1, z2, z3, z4]
  refine zonesS2 (R := o.RF 2) (dst := o.dF (o.Vb W)) (T := o.GT (fun _ j => mem.val (f + j)) (sg2 0 (o.n / 2 : ℕ))) h hp (h.Vb_inj W 2) ?_ ?_ ?_ ?_ rfl ?_ ?_
  · rintro d t s c ⟨_, h2, h3, h4⟩; simp only at h2 h3 h4; exact ⟨h2, h3, by omega⟩
  · intro s hs0 hs hL m' sm
    refine Wr.mk2p (hR2 (by omega) hs) (hd00 _) (hd10 _) ?_ ?_ ?_
    · body_flat
      exact ⟨sm.valid (hf _ hL), (hv0 sm s hs).1, (hv0 sm s hs).2⟩
    · body_flat
      rw [hfv sm, GT1 _ _ hs0 hL, GT1 _ _ hs0 hL]
    · intro p; body_flat; rintro rfl; exact Or.inl (hrd _)
  · intro s hs0 hs hL m' sm
    refine Wr.mk2p (hR2 (by omega) hs) (hd00 _) (hd10 _) ?_ ?_ ?_
    · body_flat
      rw [hsub s hs0]
      exact ⟨sm.valid (hf _ (by omega)), sm.valid (hf _ hL), (hv0 sm s hs).1, (hv0 sm s hs).2⟩
    · body_flat
      rw [hsub s hs0, hfv sm, hfv sm, GT2 _ _ hs0 hL, GT2 _ _ hs0 hL, sg2_0, sg2_1, h.half_q0 hn]
      simp
    · intro p; body_flat; rw [hsub s hs0]; rintro (rfl | rfl) <;> exact Or.inl (hrd _)
  · intro t s ht0 ht hs hs0 hL m' sm
    simp only [Nat.mul_comm t o.m]
    refine Wr.mk2p (hR2 ht hs) (hd0 _ _) (hd1 _ _) ?_ ?_ ?_
    · body_flat
      rw [hsub _ hs0]
      exact ⟨tb ht0 (by omega), sm.valid (hf _ (by omega)), sm.valid (hf _ hL), (hv sm t s ht hs).1, (hv sm t s ht hs).2⟩
    · body_flat
      rw [hsub _ hs0, hfv sm, hfv sm, GT3 _ _ hs0 hL, GT3 _ _ hs0 hL, sg2_0, sg2_1, h.half_q hn, tv ht0 (by omega), mul_comm (w _ _), sub_mul, mul_neg,
        ← sub_eq_neg_add]
      simp
    · intro p; body_flat; rw [hsub _ hs0]; rintro (rfl | rfl) <;> exact Or.inl (hrd _)
  · intro s ht0 ht hs hs0 hL hL' m' sm
    simp only [Nat.mul_comm (o.P - 1) o.m]
    refine Wr.mk2p (hR2 ht hs) (hd0 _ _) (hd1 _ _) ?_ ?_ ?_
    · body_flat
      rw [hsub _ hs0]
      exact ⟨tb ht0 (by omega), sm.valid (hf _ hL'), (hv sm _ s ht hs).1, (hv sm _ s ht hs).2⟩
    · body_flat
      rw [hsub _ hs0, hfv sm, GT5 _ _ hs0 hL, GT5 _ _ hs0 hL, sg2_0, sg2_1, h.half_q hn, tv ht0 (by omega), mul_comm (-w _ _)]
      simp
    · intro p; body_flat; rw [hsub _ hs0]; rintro rfl; exact Or.inl (hrd _)
  intro m1 f1
  refine Cmd.Ok.bind (fftpS_ok h hS (h.plF hp) (V := o.Vb W) (d := 0) (X := W) (by simp [Vb, Ptr.add_zero]) Nat.two_pos (Fills.start (h.Vb_inj W 2)) (fun _ h => h)
    (fun x hx => f1.valid (hWv x hx)) ?_)
  intro m1' f1'
  refine Cmd.Ok.bind (fftpS_ok h hS (h.plF hp) (V := o.Vb W) (d := 1) (X := W + o.b) (by simp [Vb]) Nat.one_lt_two f1' (fun _ h => by simp at h)
    (fun x hx => f1.valid (hWv x hx)) ?_)
  intro m2 f2
  have vW2 : ∀ t s, t < o.P → s < o.m → m2.valid (W + (o.m * t + s)) ∧ m2.valid (W + (o.b + (o.m * t + s))) := fun t s ht hs =>
    ⟨f2.valid (f1.valid (vW t s ht hs).1), f2.valid (f1.valid (vW t s ht hs).2)⟩
  have fz := Fills.start (m0 := m2) (T := o.ZT m2 (o.Vb W) (sg2 0 (o.n / 2 : ℕ))) (h.Vb_inj W 2)
  refine Cmd.Ok.bind (fz.par1 (fun s => (1, 0, s, 0)) (rng_nodup _ _) ?_ ?_ ?_ ?_ ?_ ?_)
  · intro s hs; rw [mem_rng] at hs; exact ((hR2 (by omega) hs.2) 1).2 (Or.inr rfl)
  · intro i _ j _ e; simpa using e
  · intro s hs
    rw [mem_rng] at hs
    have hv' := vW2 0 s (by omega) hs.2
    rw [Nat.mul_zero, Nat.zero_add] at hv'
    have hrq := h.qn (u := 0) (by omega) hrn
    rw [Nat.mul_zero, Nat.zero_add] at hrq
    simp only [mulBy]
    body_flat
    exact ⟨h.zq_bd hp hr hrq hs.2, hv'.2, hv'.2⟩
  · intro s hs
    rw [mem_rng] at hs
    simp only [mulBy]
    body_flat
    rw [h.zq_val hp hs.2]
    unfold ZT
    rw [hd10]
    simp
  · intro s hs p; simp only [mulBy]; body_flat; rintro rfl; exact Or.inr (hd10 s).symm
  intro m3 f3
  refine f3.parz (fun x : ℕ × ℕ => (x.1, x.2, 0)) (rng2_nodup _ _ _ _) ?_ ?_ ?_ ?_
  · intro i _ j _ e; simp only [Prod.mk.injEq, and_true] at e; exact Prod.ext e.1 e.2
  · rintro ⟨u, s⟩ hs d hd
    simp only [mem_rng2, mem_rng, Prod.mk.injEq, false_or] at hs hd
    obtain ⟨i, hi, e⟩ := hd; omega
  · rintro ⟨u, s⟩ hs m' sm
    simp only [mem_rng2] at hs
    have hR := hR2 hs.1.2 hs.2.2
    have hown0 := sm.own 0 ((hR 0).2 (Or.inl rfl))
    have hown1 := sm.own 1 ((hR 1).2 (Or.inr rfl))
    have hv' : m'.valid (W + (o.m * u + s)) ∧ m'.valid (W + (o.b + (o.m * u + s))) :=
      ⟨sm.valid (vW2 u s hs.1.2 hs.2.2).1, sm.valid (vW2 u s hs.1.2 hs.2.2).2⟩
    rw [hd0] at hown0
    rw [hd1] at hown1
    have hz : o.m * o.n * u + s = o.m * (o.n * u) + s := by ring
    have hnu : o.n * 1 ≤ o.n * u := Nat.mul_le_mul_left _ hs.1.1
    have hz' : o.m * o.n * u + (o.m * (o.n / 2) + s) = o.m * (o.n * u + o.n / 2) + s := by ring
    have hne : (W + (o.b + (o.m * u + s)) : Ptr) ≠ W + (o.m * u + s) := by rw [Ne, Ptr.add_inj]; have := Nat.mul_pos hm h.P_pos; omega
    have hq1 := h.qn hs.1.2 hrn
    simp only [Nat.mul_comm u o.m]
    refine Wr.mk2p hR (hd0 _ _) (hd1 _ _) ?_ ?_ ?_
    · simp only [mulBy]
      body_flat
      rw [hz, hz']
      exact ⟨h.zq_bd hp (by omega) (by omega) hs.2.2, hv'.1, hv'.1, h.zq_bd hp (by omega) hq1 hs.2.2, hv'.2, hv'.2⟩
    · simp only [mulBy]
      body_flat
      rw [hz, hz', h.zq_val hp hs.2.2, h.zq_val hp hs.2.2, set_mul hne, hown0, hown1]
      unfold ZT
      rw [hd0, hd1]
      simp
    · intro p; simp only [mulBy]; body_flat; rintro (rfl | rfl) <;> simp
  intro m4 f4
  refine hQ m4 (stages h f1 f2 (fun k hk => by have := hk.1; simp only [false_or]; omega) f4 ?_)
  rintro ⟨d, u, s, c⟩ hk hd
  by_contra hne
  simp only [not_or] at hne
  obtain rfl : c = 0 := by have := hk.2.2.2; simp only at this; omega
  by_cases hu : u = 0
  · subst hu
    have hd2 : d = 1 := by
      have h1 := hk.1
      simp only at h1
      by_contra h2
      obtain rfl : d = 0 := by omega
      simp at hne
    subst hd2
    exact hd (Or.inl (Or.inr ⟨s, mem_rng.2 ⟨by omega, hk.2.2.1⟩, rfl⟩))
  · exact hd (Or.inr ⟨(u, s), mem_rng2.2 ⟨⟨by simp only; omega, hk.2.1⟩, by simp only; omega, hk.2.2.1⟩, rfl⟩)

end
end Cent
end Fftwpp
