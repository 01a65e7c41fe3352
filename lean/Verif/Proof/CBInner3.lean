import Verif.Proof.CBInner2

/-! `fftPadCentered::backwardInner`: pairs of blocks. -/

namespace Fftwpp
namespace Cent
open Finset ComplexConjugate
open Fft (kpair seqLoop_rng)
variable {o : Cent}

theorem zmult_xy_neg (z v : ℂ) : ZMULTxy (UNPACKL z z) (-(UNPACKH z (-z))) v = conj z * v := by
  rw [← C30_zmult_xy_conj]; congr 1; apply Complex.ext <;> simp [UNPACKH]

/-- Values of the data cells for two blocks of opposite residues. -/
theorem DT_pair_lo {m2 : Mem} {V : ℕ → Ptr} {v : ℕ → ℕ → ℂ} (r : ℕ) (t s c : ℕ) :
    o.DT m2 2 V (sg2 r (-r)) v (0, t, s, c) = v (o.m * t + s - o.m0) c +
      (w o.q ((o.P - t) * (r : ℤ)) * m2.val (o.dF V (0, t, s, c)) + conj (w o.q ((o.P - t) * (r : ℤ))) * m2.val (o.dF V (1, t, s, c))) := by
  rw [DT_lo, sum_range_succ, sum_range_one, sg2_0, sg2_1, w_conj, mul_neg]
theorem DT_pair_hi {m2 : Mem} {V : ℕ → Ptr} {v : ℕ → ℕ → ℂ} (r : ℕ) (t s c : ℕ) :
    o.DT m2 2 V (sg2 r (-r)) v (1, t, s, c) = v (o.H + (o.m * t + s)) c +
      (w o.q (t * (r : ℤ)) * m2.val (o.dF V (1, t, s, c)) + conj (w o.q (t * (r : ℤ))) * m2.val (o.dF V (0, t, s, c))) := by
  rw [DT_hi, sum_range_succ, sum_range_one, sg2_0, sg2_1, w_conj, w_conj, mul_neg, neg_neg, add_comm (w _ _ * _)]

theorem DT_half_lo (h : o.WF) (hn : o.n = 2 * (o.n / 2)) {m2 : Mem} {V : ℕ → Ptr} {v : ℕ → ℕ → ℂ} (t s c : ℕ) :
    o.DT m2 2 V (sg2 0 (o.n / 2 : ℕ)) v (0, t, s, c) = v (o.m * t + s - o.m0) c +
      (m2.val (o.dF V (0, t, s, c)) - conj (w o.q (t * (o.n / 2 : ℕ))) * m2.val (o.dF V (1, t, s, c))) := by
  rw [DT_lo, sum_range_succ, sum_range_one, sg2_0, sg2_1]
  have e := h.half_q hn t
  have e2 : w o.q ((o.P - t) * (o.n / 2 : ℕ)) = conj (w o.q ((t - o.P) * (o.n / 2 : ℕ))) := by rw [w_conj]; congr 1; ring
  rw [e2, e, map_neg]
  simp; ring
theorem DT_half_hi {m2 : Mem} {V : ℕ → Ptr} {v : ℕ → ℕ → ℂ} (t s c : ℕ) :
    o.DT m2 2 V (sg2 0 (o.n / 2 : ℕ)) v (1, t, s, c) = v (o.H + (o.m * t + s)) c +
      (m2.val (o.dF V (0, t, s, c)) + conj (w o.q (t * (o.n / 2 : ℕ))) * m2.val (o.dF V (1, t, s, c))) := by
  rw [DT_hi, sum_range_succ, sum_range_one, sg2_0, sg2_1]
  simp

section
variable {f W : Ptr} {mem : Mem}

theorem backwardInnerPair_ok (h : o.WF) (hp : 2 < o.p) (hS : o.S = 1) (hb : f.buf ≠ W.buf) {r : ℕ} (hr : 0 < r) (hrn : r < o.n)
    (hf : ∀ j < o.L, mem.valid (f + j)) (hW : ∀ i < o.m * (o.P * 2), mem.valid (W + i)) {Q : Unit → Mem → Prop}
    (hQ : ∀ m', o.BI mem m' 2 (o.Vb W) (sg2 r (-r)) f (fun j c => mem.val (f + (o.S * j + c))) → Q () m') :
    (o.backwardInnerPair W f r).Ok mem Q := by
  obtain ⟨g1, g2, g3, g4, g5, g6, g7, g8, g9, g10⟩ := h.geoI hp
  obtain ⟨z1, z2, z3, z4⟩ := h.szI hp
  have hC := h.C_one hS
  have hC0 := h.C_pos
  have hm := h.m_pos
  have hb1 := h.b1 hS
  have hd0 := h.Vb_0 hS W
  have hd1 := h.Vb_1 hS W
  have hd00 : ∀ s, o.dF (o.Vb W) (0, 0, s, 0) = W + s := fun s => by rw [hd0]; simp
  have hd10 : ∀ s, o.dF (o.Vb W) (1, 0, s, 0) = W + (o.b + s) := fun s => by rw [hd1]; simp
  have vW' : ∀ t s, t < o.P → s < o.m → mem.valid (W + (o.m * t + s)) ∧ mem.valid (W + (o.b + (o.m * t + s))) := fun t s ht hs => by
    have := radix_lt hs ht
    have e : o.m * (o.P * 2) = 2 * (o.m * o.P) := by ring
    exact ⟨hW _ (by omega), hW _ (by omega)⟩
  have hWv : ∀ x, o.RF 2 x → mem.valid (o.dF (o.Vb W) x) := by
    rintro ⟨d, t, s, c⟩ ⟨h1, h2, h3, h4⟩
    simp only at h1 h2 h3 h4
    obtain rfl : c = 0 := by omega
    obtain rfl | rfl : d = 0 ∨ d = 1 := by omega
    · rw [hd0]; exact (vW' t s h2 h3).1
    · rw [hd1]; exact (vW' t s h2 h3).2
  have hR2 : ∀ {t s : ℕ}, t < o.P → s < o.m → ∀ d, o.RF 2 (d, t, s, 0) ↔ d = 0 ∨ d = 1 := fun ht hs d => by
    rw [RF1 h ht hs h.C_pos]; omega
  have hsub : ∀ s : ℕ, o.m0 ≤ s → f - o.m0 + s = f + (s - o.m0) := fun s hs => Ptr.sub_add hs
  have hrd : ∀ i : ℕ, ∀ x, o.RD x → W + i ≠ o.dD f x := rd_W hb
  have l0 : ∀ s, o.dD f (0, 0, s, 0) = f + (s - o.m0) := fun s => by rw [dD_lo0]; simp [hS]
  have l1 : ∀ s, o.dD f (1, 0, s, 0) = f + (o.H + s) := fun s => by rw [dD_hi0]; simp [hS]
  have t0 : ∀ t s, o.dD f (0, t, s, 0) = f + (o.m * t + s - o.m0) := fun t s => by rw [dD_lo]; simp [hS]
  have t1 : ∀ t s, o.dD f (1, t, s, 0) = f + (o.H + (o.m * t + s)) := fun t s => by rw [dD_hi]; simp [hS]
  have tb : ∀ {t}, 0 < t → t ≤ o.P → o.Zetaqp.lo ≤ o.P * r + t ∧ o.P * r + t < o.Zetaqp.hi := fun h1 h2 => h.zqp_bd hp hr hrn h1 h2
  have tv : ∀ {t}, 0 < t → t ≤ o.P → o.Zetaqp.val (o.P * r + t) = w o.q (t * (r : ℕ)) := fun h1 h2 => h.zqp_val hp h1 h2
  unfold backwardInnerPair
  simp only [z1, z2, z3, z4]
  refine Cmd.Ok.bind ((Fills.start (T := o.BT mem (o.Vb W) (sg2 r (-r))) (h.Vb_inj W 2)).parz (fun s => (0, s, 0)) (rng_nodup _ _) ?_ (fun _ _ _ h => h) ?_ ?_)
  · intro i _ j _ e; simpa using e
  · intro s hs m' sm
    rw [mem_rng] at hs
    have hR := hR2 (t := 0) (s := s) (by omega) (by omega)
    have hown0 := sm.own 0 ((hR 0).2 (Or.inl rfl))
    have hown1 := sm.own 1 ((hR 1).2 (Or.inr rfl))
    have hv0 := sm.valid (vW' 0 s (by omega) (by omega)).1
    have hv1 := sm.valid (vW' 0 s (by omega) (by omega)).2
    rw [Nat.mul_zero, Nat.zero_add] at hv0 hv1
    have hrq := h.qn (u := 0) (by omega) hrn
    rw [Nat.mul_zero, Nat.zero_add] at hrq
    rw [hd00] at hown0
    rw [hd10] at hown1
    have hne : (W + (o.b + s) : Ptr) ≠ W + s := by rw [Ne, Ptr.add_inj]; have := Nat.mul_pos hm h.P_pos; omega
    refine Wr.mk2p hR (hd00 _) (hd10 _) ?_ ?_ ?_
    · simp only [mulBy]
      body_flat
      exact ⟨h.zq_bd hp hr hrq hs.2, hv0, hv0, hv1, hv1⟩
    · simp only [mulBy]
      body_flat
      rw [h.zq_val hp hs.2, set_mul hne, hown0, hown1]
      unfold BT
      rw [hd00, hd10, w_conj]
      simp
    · intro p; simp only [mulBy]; body_flat; rintro (rfl | rfl) <;> simp
  intro m0 f0
  refine Cmd.Ok.bind (f0.parz (fun x : ℕ × ℕ => (x.1, x.2, 0)) (rng2_nodup _ _ _ _) ?_ ?_ ?_ ?_)
  · intro i _ j _ e; simp only [Prod.mk.injEq, and_true] at e; exact Prod.ext e.1 e.2
  · rintro ⟨u, s⟩ hs d hd
    simp only [mem_rng2, mem_rng, Prod.mk.injEq, false_or] at hs hd
    obtain ⟨i, hi, e⟩ := hd; omega
  · rintro ⟨u, s⟩ hs m' sm
    simp only [mem_rng2] at hs
    have hR := hR2 hs.1.2 hs.2.2
    have hown0 := sm.own 0 ((hR 0).2 (Or.inl rfl))
    have hown1 := sm.own 1 ((hR 1).2 (Or.inr rfl))
    have hv0 := sm.valid (vW' u s hs.1.2 hs.2.2).1
    have hv1 := sm.valid (vW' u s hs.1.2 hs.2.2).2
    rw [hd0] at hown0
    rw [hd1] at hown1
    have hz : o.n * (o.m * u) + (o.m * r + s) = o.m * (o.n * u + r) + s := by ring
    have hnu : o.n * 1 ≤ o.n * u := Nat.mul_le_mul_left _ hs.1.1
    have hz' : o.n * (o.m * u) - o.m * r + s = o.m * (o.n * u - r) + s := by
      rw [Nat.mul_sub]; congr 2; ring
    have hne : (W + (o.b + (o.m * u + s)) : Ptr) ≠ W + (o.m * u + s) := by rw [Ne, Ptr.add_inj]; have := Nat.mul_pos hm h.P_pos; omega
    have hq1 := h.qn hs.1.2 hrn
    refine Wr.mk2p hR (hd0 _ _) (hd1 _ _) ?_ ?_ ?_
    · simp only [mulBy]
      body_flat
      rw [hz, hz']
      exact ⟨h.zq_bd hp (by omega) hq1 hs.2.2, hv0, hv0, h.zq_bd hp (by omega) (by omega) hs.2.2, hv1, hv1⟩
    · simp only [mulBy]
      body_flat
      rw [hz, hz', h.zq_val hp hs.2.2, h.zq_val hp hs.2.2, set_mul hne, hown0, hown1, w_conj, w_conj]
      unfold BT
      rw [hd0, hd1]
      simp only [sg2_0, sg2_1]
      rw [Nat.cast_sub (by omega)]
      push_cast
      rw [sub_eq_add_neg]
    · intro p; simp only [mulBy]; body_flat; rintro (rfl | rfl) <;> simp
  intro m1 f1
  refine Cmd.Ok.bind (fftpS_ok h hS (h.plB hp) (V := o.Vb W) (d := 0) (X := W) (by simp [Vb, Ptr.add_zero]) Nat.two_pos (Fills.start (h.Vb_inj W 2)) (fun _ h => h)
    (fun x hx => f1.valid (hWv x hx)) ?_)
  intro m1' f1'
  refine Cmd.Ok.bind (fftpS_ok h hS (h.plB hp) (V := o.Vb W) (d := 1) (X := W + o.b) (by simp [Vb]) Nat.one_lt_two f1' (fun _ h => by simp at h)
    (fun x hx => f1.valid (hWv x hx)) ?_)
  intro m2 f2
  have vf : ∀ {m' k}, Same m2 m' o.RD (o.dD f) k → ∀ j < o.L, m'.valid (f + j) := fun sm j hj => sm.valid (f2.valid (f1.valid (hf j hj)))
  have vW : ∀ {m' k}, Same m2 m' o.RD (o.dD f) k → ∀ t s, t < o.P → s < o.m → m'.valid (W + (o.m * t + s)) ∧ m'.valid (W + (o.b + (o.m * t + s))) :=
    fun sm t s ht hs => ⟨sm.valid (f2.valid (f1.valid (vW' t s ht hs).1)), sm.valid (f2.valid (f1.valid (vW' t s ht hs).2))⟩
  have vW0 : ∀ {m' k}, Same m2 m' o.RD (o.dD f) k → ∀ s, s < o.m → m'.valid (W + s) ∧ m'.valid (W + (o.b + s)) := fun sm s hs => by
    have := vW sm 0 s (by omega) hs; simpa using this
  have hWm : ∀ {m' k}, Same m2 m' o.RD (o.dD f) k → ∀ i : ℕ, m'.val (W + i) = m2.val (W + i) := fun sm i => sm.frame _ (hrd i)
  have hfm : ∀ i : ℕ, m2.val (f + i) = mem.val (f + i) := fun i => by
    rw [f2.frame _ (rd_f (Vb_buf W) hb i), f1.frame _ (rd_f (Vb_buf W) hb i)]
  rw [← bind_pure (par (rng o.m1 o.m) _)]
  refine zonesS2 (R := o.RD) (dst := o.dD f) (T := o.DT m2 2 (o.Vb W) (sg2 r (-r)) (fun j c => mem.val (f + (o.S * j + c)))) h hp (h.dD_inj hp f) ?_ ?_ ?_ ?_ rfl ?_ ?_
  · rintro d t s c ⟨_, h2, h3, h4⟩; simp only at h2 h3 h4; exact ⟨h2, h3, by omega⟩
  · intro s hs0 hs hL m' sm
    have hR := h.RDz1 hp hs0 hs hL hC0
    have hown := sm.own 1 ((hR 1).2 rfl)
    rw [l1] at hown
    refine Wr.mk1p hR (l1 _) ?_ ?_ ?_
    · body_flat
      exact ⟨vf sm _ hL, (vW0 sm s hs).1, (vW0 sm s hs).2, vf sm _ hL⟩
    · body_flat
      rw [hWm sm, hWm sm, hown, hfm, DT_pair_hi, hd00, hd10]; simp [hS, add_comm (m2.val (W + (o.b + s)))]
    · intro p; body_flat; rintro (rfl | rfl | rfl)
      · exact Or.inr rfl
      · exact Or.inl (hrd _)
      · exact Or.inl (hrd _)
  · intro s hs0 hs hL m' sm
    have hR := RDz2 (t := 0) (by omega) hs (by simpa using hs0) (by simpa using hL) hC0
    have hown0 := sm.own 0 ((hR 0).2 (Or.inl rfl))
    have hown1 := sm.own 1 ((hR 1).2 (Or.inr rfl))
    rw [l0] at hown0
    rw [l1] at hown1
    have hne : (f + (o.H + s) : Ptr) ≠ f + (s - o.m0) := by rw [Ne, Ptr.add_inj]; omega
    refine Wr.mk2p hR (l0 _) (l1 _) ?_ ?_ ?_
    · body_flat
      rw [hsub s hs0]
      exact ⟨tb (by omega) le_rfl, (vW0 sm s hs).1, (vW0 sm s hs).2, vf sm _ (by omega), vf sm _ (by omega), vf sm _ hL, vf sm _ hL⟩
    · body_flat
      rw [hsub s hs0, set_mul hne, hWm sm, hWm sm, hown0, hown1, hfm, hfm, DT_pair_lo, DT_pair_hi, tv (by omega) le_rfl, C30_zmult2_xy, hd00, hd10,
        add_assoc (mem.val _) (m2.val _), add_comm (m2.val (W + s))]; simp [hS]
    · intro p; body_flat; rw [hsub s hs0]; rintro (rfl | rfl | rfl | rfl)
      · exact Or.inl (hrd _)
      · exact Or.inl (hrd _)
      · exact Or.inr (Or.inl rfl)
      · exact Or.inr (Or.inr rfl)
  · intro t s ht0 ht hs hs0 hL m' sm
    simp only [Nat.mul_comm t o.m]
    have hR := RDz2 ht hs hs0 hL hC0
    have hown0 := sm.own 0 ((hR 0).2 (Or.inl rfl))
    have hown1 := sm.own 1 ((hR 1).2 (Or.inr rfl))
    rw [t0] at hown0
    rw [t1] at hown1
    have := radix_lt hs ht
    have hne : (f + (o.H + (o.m * t + s)) : Ptr) ≠ f + (o.m * t + s - o.m0) := by rw [Ne, Ptr.add_inj]; omega
    refine Wr.mk2p hR (t0 _ _) (t1 _ _) ?_ ?_ ?_
    · body_flat
      rw [hsub _ hs0]
      exact ⟨tb (by omega) le_rfl, tb ht0 (by omega), (vW sm t s ht hs).1, (vW sm t s ht hs).2, vf sm _ (by omega), vf sm _ (by omega), vf sm _ hL, vf sm _ hL⟩
    · body_flat
      rw [hsub _ hs0, set_mul hne, hWm sm, hWm sm, hown0, hown1, hfm, hfm, DT_pair_lo, DT_pair_hi, tv (by omega) le_rfl, tv ht0 (by omega), zmult_xy_neg, wPt,
        C30_zmult2_xy, C30_zmult2_xy, hd0, hd1]; simp [hS]
    · intro p; body_flat; rw [hsub _ hs0]; rintro (rfl | rfl | rfl | rfl)
      · exact Or.inl (hrd _)
      · exact Or.inl (hrd _)
      · exact Or.inr (Or.inl rfl)
      · exact Or.inr (Or.inr rfl)
  · intro s ht0 ht hs hs0 hL hL' m' sm
    simp only [Nat.mul_comm (o.P - 1) o.m]
    have hR := RDz5 ht hs hs0 hL hC0
    have hown := sm.own 0 ((hR 0).2 rfl)
    rw [t0] at hown
    refine Wr.mk1p hR (t0 _ _) ?_ ?_ ?_
    · body_flat
      rw [hsub _ hs0]
      exact ⟨tb (by omega) le_rfl, tb ht0 (by omega), vf sm _ hL', (vW sm _ s ht hs).1, (vW sm _ s ht hs).2, vf sm _ hL'⟩
    · body_flat
      rw [hsub _ hs0, hWm sm, hWm sm, hown, hfm, DT_pair_lo, tv (by omega) le_rfl, tv ht0 (by omega), zmult_xy_neg, wPt, C30_zmult2_xy, hd0, hd1]; simp [hS]
    · intro p; body_flat; rw [hsub _ hs0]; rintro (rfl | rfl | rfl)
      · exact Or.inr rfl
      · exact Or.inl (hrd _)
      · exact Or.inl (hrd _)
  intro m3 f3
  refine Cmd.Ok.pure (hQ m3 (back_stages h hp f1 ?_ f2 (fun k hk => by have := hk.1; simp only [false_or]; omega) f3))
  rintro ⟨d, u, s, c⟩ hk hd
  by_contra hne
  simp only [not_or] at hne
  obtain rfl := h.C0 hS hk.2.2.2
  by_cases hu : u = 0
  · subst hu
    exact hd (Or.inl (Or.inr ⟨s, mem_rng.2 ⟨by omega, hk.2.2.1⟩, rfl⟩))
  · exact hd (Or.inr ⟨(u, s), mem_rng2.2 ⟨⟨by simp only; omega, hk.2.1⟩, by simp only; omega, hk.2.2.1⟩, rfl⟩)

theorem backwardInnerHalf_ok (h : o.WF) (hp : 2 < o.p) (hS : o.S = 1) (hb : f.buf ≠ W.buf) (hn : o.n = 2 * (o.n / 2))
    (hf : ∀ j < o.L, mem.valid (f + j)) (hW : ∀ i < o.m * (o.P * 2), mem.valid (W + i)) {Q : Unit → Mem → Prop}
    (hQ : ∀ m', o.BI mem m' 2 (o.Vb W) (sg2 0 (o.n / 2 : ℕ)) f (fun _ _ => 0) → Q () m') :
    (o.backwardInnerHalf f W).Ok mem Q := by
  obtain ⟨g1, g2, g3, g4, g5, g6, g7, g8, g9, g10⟩ := h.geoI hp
  obtain ⟨z1, z2, z3, z4⟩ := h.szI hp
  have hC := h.C_one hS
  have hC0 := h.C_pos
  have hm := h.m_pos
  have hb1 := h.b1 hS
  have hn0 := h.n_pos
  have hr : 0 < o.n / 2 := by omega
  have hrn : o.n / 2 < o.n := by omega
  have hd0 := h.Vb_0 hS W
  have hd1 := h.Vb_1 hS W
  have hd00 : ∀ s, o.dF (o.Vb W) (0, 0, s, 0) = W + s := fun s => by rw [hd0]; simp
  have hd10 : ∀ s, o.dF (o.Vb W) (1, 0, s, 0) = W + (o.b + s) := fun s => by rw [hd1]; simp
  have vW' : ∀ t s, t < o.P → s < o.m → mem.valid (W + (o.m * t + s)) ∧ mem.valid (W + (o.b + (o.m * t + s))) := fun t s ht hs => by
    have := radix_lt hs ht
    have e : o.m * (o.P * 2) = 2 * (o.m * o.P) := by ring
    exact ⟨hW _ (by omega), hW _ (by omega)⟩
  have hWv : ∀ x, o.RF 2 x → mem.valid (o.dF (o.Vb W) x) := by
    rintro ⟨d, t, s, c⟩ ⟨h1, h2, h3, h4⟩
    simp only at h1 h2 h3 h4
    obtain rfl : c = 0 := by omega
    obtain rfl | rfl : d = 0 ∨ d = 1 := by omega
    · rw [hd0]; exact (vW' t s h2 h3).1
    · rw [hd1]; exact (vW' t s h2 h3).2
  have hR2 : ∀ {t s : ℕ}, t < o.P → s < o.m → ∀ d, o.RF 2 (d, t, s, 0) ↔ d = 0 ∨ d = 1 := fun ht hs d => by
    rw [RF1 h ht hs h.C_pos]; omega
  have hsub : ∀ s : ℕ, o.m0 ≤ s → f - o.m0 + s = f + (s - o.m0) := fun s hs => Ptr.sub_add hs
  have hrd : ∀ i : ℕ, ∀ x, o.RD x → W + i ≠ o.dD f x := rd_W hb
  have l0 : ∀ s, o.dD f (0, 0, s, 0) = f + (s - o.m0) := fun s => by rw [dD_lo0]; simp [hS]
  have l1 : ∀ s, o.dD f (1, 0, s, 0) = f + (o.H + s) := fun s => by rw [dD_hi0]; simp [hS]
  have t0 : ∀ t s, o.dD f (0, t, s, 0) = f + (o.m * t + s - o.m0) := fun t s => by rw [dD_lo]; simp [hS]
  have t1 : ∀ t s, o.dD f (1, t, s, 0) = f + (o.H + (o.m * t + s)) := fun t s => by rw [dD_hi]; simp [hS]
  have tb : ∀ {t}, 0 < t → t ≤ o.P → o.Zetaqp.lo ≤ o.P * (o.n / 2) + t ∧ o.P * (o.n / 2) + t < o.Zetaqp.hi := fun h1 h2 => h.zqp_bd hp hr hrn h1 h2
  have tv : ∀ {t}, 0 < t → t ≤ o.P → o.Zetaqp.val (o.P * (o.n / 2) + t) = w o.q (t * ((o.n / 2) : ℕ)) := fun h1 h2 => h.zqp_val hp h1 h2
  unfold backwardInnerHalf
  simp only [z1, z2, z3, z4]
  have fz := Fills.start (m0 := mem) (T := o.BT mem (o.Vb W) (sg2 0 (o.n / 2 : ℕ))) (h.Vb_inj W 2)
  refine Cmd.Ok.bind (fz.par1 (fun s => (1, 0, s, 0)) (rng_nodup _ _) ?_ ?_ ?_ ?_ ?_ ?_)
  · intro s hs; rw [mem_rng] at hs; exact ((hR2 (by omega) hs.2) 1).2 (Or.inr rfl)
  · intro i _ j _ e; simpa using e
  · intro s hs
    rw [mem_rng] at hs
    have hv' := vW' 0 s (by omega) hs.2
    rw [Nat.mul_zero, Nat.zero_add] at hv'
    have hrq := h.qn (u := 0) (by omega) hrn
    rw [Nat.mul_zero, Nat.zero_add] at hrq
    simp only [mulBy]
    body_flat
    exact ⟨h.zq_bd hp hr hrq hs.2, hv'.2, hv'.2⟩
  · intro s hs
    rw [mem_rng] at hs
    simp only [mulBy]
    body_flat
    rw [h.zq_val hp hs.2, w_conj]
    unfold BT
    rw [hd10]
    simp
  · intro s hs p; simp only [mulBy]; body_flat; rintro rfl; exact Or.inr (hd10 s).symm
  intro m0 f0
  refine Cmd.Ok.bind (f0.parz (fun x : ℕ × ℕ => (x.1, x.2, 0)) (rng2_nodup _ _ _ _) ?_ ?_ ?_ ?_)
  · intro i _ j _ e; simp only [Prod.mk.injEq, and_true] at e; exact Prod.ext e.1 e.2
  · rintro ⟨u, s⟩ hs d hd
    simp only [mem_rng2, mem_rng, Prod.mk.injEq, false_or] at hs hd
    obtain ⟨i, hi, e⟩ := hd; omega
  · rintro ⟨u, s⟩ hs m' sm
    simp only [mem_rng2] at hs
    have hR := hR2 hs.1.2 hs.2.2
    have hown0 := sm.own 0 ((hR 0).2 (Or.inl rfl))
    have hown1 := sm.own 1 ((hR 1).2 (Or.inr rfl))
    have hv' : m'.valid (W + (o.m * u + s)) ∧ m'.valid (W + (o.b + (o.m * u + s))) :=
      ⟨sm.valid (vW' u s hs.1.2 hs.2.2).1, sm.valid (vW' u s hs.1.2 hs.2.2).2⟩
    rw [hd0] at hown0
    rw [hd1] at hown1
    have hz : o.m * o.n * u + s = o.m * (o.n * u) + s := by ring
    have hnu : o.n * 1 ≤ o.n * u := Nat.mul_le_mul_left _ hs.1.1
    have hz' : o.m * o.n * u + (o.m * (o.n / 2) + s) = o.m * (o.n * u + o.n / 2) + s := by ring
    have hne : (W + (o.b + (o.m * u + s)) : Ptr) ≠ W + (o.m * u + s) := by rw [Ne, Ptr.add_inj]; have := Nat.mul_pos hm h.P_pos; omega
    have hq1 := h.qn hs.1.2 hrn
    refine Wr.mk2p hR (hd0 _ _) (hd1 _ _) ?_ ?_ ?_
    · simp only [mulBy]
      body_flat
      rw [hz, hz']
      exact ⟨h.zq_bd hp (by omega) (by omega) hs.2.2, hv'.1, hv'.1, h.zq_bd hp (by omega) hq1 hs.2.2, hv'.2, hv'.2⟩
    · simp only [mulBy]
      body_flat
      rw [hz, hz', h.zq_val hp hs.2.2, h.zq_val hp hs.2.2, set_mul hne, hown0, hown1, w_conj, w_conj]
      unfold BT
      rw [hd0, hd1]
      simp
    · intro p; simp only [mulBy]; body_flat; rintro (rfl | rfl) <;> simp
  intro m1 f1
  refine Cmd.Ok.bind (fftpS_ok h hS (h.plB hp) (V := o.Vb W) (d := 0) (X := W) (by simp [Vb, Ptr.add_zero]) Nat.two_pos (Fills.start (h.Vb_inj W 2)) (fun _ h => h)
    (fun x hx => f1.valid (hWv x hx)) ?_)
  intro m1' f1'
  refine Cmd.Ok.bind (fftpS_ok h hS (h.plB hp) (V := o.Vb W) (d := 1) (X := W + o.b) (by simp [Vb]) Nat.one_lt_two f1' (fun _ h => by simp at h)
    (fun x hx => f1.valid (hWv x hx)) ?_)
  intro m2 f2
  have vf : ∀ {m' k}, Same m2 m' o.RD (o.dD f) k → ∀ j < o.L, m'.valid (f + j) := fun sm j hj => sm.valid (f2.valid (f1.valid (hf j hj)))
  have vW : ∀ {m' k}, Same m2 m' o.RD (o.dD f) k → ∀ t s, t < o.P → s < o.m → m'.valid (W + (o.m * t + s)) ∧ m'.valid (W + (o.b + (o.m * t + s))) :=
    fun sm t s ht hs => ⟨sm.valid (f2.valid (f1.valid (vW' t s ht hs).1)), sm.valid (f2.valid (f1.valid (vW' t s ht hs).2))⟩
  have vW0 : ∀ {m' k}, Same m2 m' o.RD (o.dD f) k → ∀ s, s < o.m → m'.valid (W + s) ∧ m'.valid (W + (o.b + s)) := fun sm s hs => by
    have := vW sm 0 s (by omega) hs; simpa using this
  have hWm : ∀ {m' k}, Same m2 m' o.RD (o.dD f) k → ∀ i : ℕ, m'.val (W + i) = m2.val (W + i) := fun sm i => sm.frame _ (hrd i)
  rw [← bind_pure (par (rng o.m1 o.m) _)]
  refine zonesS2 (R := o.RD) (dst := o.dD f) (T := o.DT m2 2 (o.Vb W) (sg2 0 (o.n / 2 : ℕ)) (fun _ _ => 0)) h hp (h.dD_inj hp f) ?_ ?_ ?_ ?_ rfl ?_ ?_
  · rintro d t s c ⟨_, h2, h3, h4⟩; simp only at h2 h3 h4; exact ⟨h2, h3, by omega⟩
  · intro s hs0 hs hL m' sm
    refine Wr.mk1p (h.RDz1 hp hs0 hs hL hC0) (l1 _) ?_ ?_ ?_
    · body_flat
      exact ⟨(vW0 sm s hs).1, (vW0 sm s hs).2, vf sm _ hL⟩
    · body_flat
      rw [hWm sm, hWm sm, DT_half_hi, hd00, hd10]; simp
    · intro p; body_flat; rintro (rfl | rfl) <;> exact Or.inl (hrd _)
  · intro s hs0 hs hL m' sm
    refine Wr.mk2p (RDz2 (by omega) hs (by simpa using hs0) (by simpa using hL) hC0) (l0 _) (l1 _) ?_ ?_ ?_
    · body_flat
      rw [hsub s hs0]
      exact ⟨(vW0 sm s hs).1, (vW0 sm s hs).2, vf sm _ (by omega), vf sm _ hL⟩
    · body_flat
      rw [hsub s hs0, hWm sm, hWm sm, DT_half_lo h hn, DT_half_hi, hd00, hd10]; simp
    · intro p; body_flat; rintro (rfl | rfl) <;> exact Or.inl (hrd _)
  · intro t s ht0 ht hs hs0 hL m' sm
    simp only [Nat.mul_comm t o.m]
    refine Wr.mk2p (RDz2 ht hs hs0 hL hC0) (t0 _ _) (t1 _ _) ?_ ?_ ?_
    · body_flat
      rw [hsub _ hs0]
      exact ⟨tb ht0 (by omega), (vW sm t s ht hs).1, (vW sm t s ht hs).2, vf sm _ (by omega), vf sm _ hL⟩
    · body_flat
      rw [hsub _ hs0, hWm sm, hWm sm, DT_half_lo h hn, DT_half_hi, tv ht0 (by omega), hd0, hd1]; simp
    · intro p; body_flat; rintro (rfl | rfl) <;> exact Or.inl (hrd _)
  · intro s ht0 ht hs hs0 hL hL' m' sm
    simp only [Nat.mul_comm (o.P - 1) o.m]
    refine Wr.mk1p (RDz5 ht hs hs0 hL hC0) (t0 _ _) ?_ ?_ ?_
    · body_flat
      rw [hsub _ hs0]
      exact ⟨tb ht0 (by omega), (vW sm _ s ht hs).1, (vW sm _ s ht hs).2, vf sm _ hL'⟩
    · body_flat
      rw [hsub _ hs0, hWm sm, hWm sm, DT_half_lo h hn, tv ht0 (by omega), hd0, hd1]; simp
    · intro p; body_flat; rintro (rfl | rfl) <;> exact Or.inl (hrd _)
  intro m3 f3
  refine Cmd.Ok.pure (hQ m3 (back_stages h hp f1 ?_ f2 (fun k hk => by have := hk.1; simp only [false_or]; omega) f3))
  rintro ⟨d, u, s, c⟩ hk hd
  by_contra hne
  simp only [not_or] at hne
  obtain rfl := h.C0 hS hk.2.2.2
  by_cases hu : u = 0
  · subst hu
    have hd2 : d = 1 := by
      have h1 := hk.1
      simp only at h1
      by_contra h2
      obtain rfl : d = 0 := by omega
      simp at hne
    subst hd2
    exact hd (Or.inl (Or.inr ⟨s, mem_rng.2 ⟨by omega, hk.2.2.1⟩, rfl⟩))
  · exact hd (Or.inr ⟨(u, s), mem_rng2.2 ⟨⟨by simp only; omega, hk.2.1⟩, by simp only; omega, hk.2.2.1⟩, rfl⟩)

end
end Cent
end Fftwpp
