import Verif.Proof.CBInner

/-! `fftPadCentered::backwardInner`: single blocks. -/

namespace Fftwpp
namespace Cent
open Finset ComplexConjugate
open Fft (kpair seqLoop_rng)
variable {o : Cent}

/-- Product of table entries: `conj(Zeta_t) Zeta_P`. -/
theorem wPt (q P t : ℕ) (r : ℕ) : conj (w q (t * r)) * w q (P * r) = w q ((P - t) * (r : ℤ)) := by
  rw [w_conj, ← w_add]; congr 1; ring

/-- Reads of the blocks are not in the data. -/
theorem rd_W {f W : Ptr} (hb : f.buf ≠ W.buf) (i : ℕ) : ∀ x, o.RD x → W + i ≠ o.dD f x := fun x _ => Ptr.ne_of_buf (by
  rw [dD_buf]; simpa using hb.symm)

section
variable {f W : Ptr} {mem : Mem}

theorem backwardInnerZero_ok (h : o.WF) (hp : 2 < o.p) (hS : o.S = 1) (hb : f.buf ≠ W.buf)
    (hf : ∀ j < o.L, mem.valid (f + j)) (hW : ∀ i < o.m * o.P, mem.valid (W + i)) {Q : Unit → Mem → Prop}
    (hQ : ∀ m', o.BI mem m' 1 (fun _ => W) (fun _ => 0) f (fun _ _ => 0) → Q () m') :
    (o.backwardInnerZero f W).Ok mem Q := by
  obtain ⟨g1, g2, g3, g4, g5, g6, g7, g8, g9, g10⟩ := h.geoI hp
  obtain ⟨z1, z2, z3, z4⟩ := h.szI hp
  have hC := h.C_one hS
  have hC0 := h.C_pos
  have hm := h.m_pos
  have hWv : ∀ x, o.RF 1 x → mem.valid (o.dF (fun _ => W) x) := by
    rintro ⟨d, t, s, c⟩ ⟨_, h2, h3, h4⟩
    obtain rfl : c = 0 := by simp only at h4; omega
    rw [h.dF1 hS]; exact hW _ (radix_lt h3 h2)
  have hR1 : ∀ {t s : ℕ}, t < o.P → s < o.m → ∀ d, o.RF 1 (d, t, s, 0) ↔ d = 0 := fun ht hs d => by
    rw [RF1 h ht hs h.C_pos]; omega
  have hd0 : ∀ d t s, o.dF (fun _ => W) (d, t, s, 0) = W + (o.m * t + s) := fun d t s => h.dF1 hS d t s
  have hd00 : ∀ d s, o.dF (fun _ => W) (d, 0, s, 0) = W + s := fun d s => by rw [hd0]; simp
  have hsub : ∀ s : ℕ, o.m0 ≤ s → f - o.m0 + s = f + (s - o.m0) := fun s hs => Ptr.sub_add hs
  have hrd : ∀ i : ℕ, ∀ x, o.RD x → W + i ≠ o.dD f x := rd_W hb
  have l0 : ∀ s, o.dD f (0, 0, s, 0) = f + (s - o.m0) := fun s => by rw [dD_lo0]; simp [hS]
  have l1 : ∀ s, o.dD f (1, 0, s, 0) = f + (o.H + s) := fun s => by rw [dD_hi0]; simp [hS]
  have t0 : ∀ t s, o.dD f (0, t, s, 0) = f + (o.m * t + s - o.m0) := fun t s => by rw [dD_lo]; simp [hS]
  have t1 : ∀ t s, o.dD f (1, t, s, 0) = f + (o.H + (o.m * t + s)) := fun t s => by rw [dD_hi]; simp [hS]
  unfold backwardInnerZero
  simp only [z1, z2, z3, z4]
  refine Cmd.Ok.bind ((Fills.start (T := o.BT mem (fun _ => W) fun _ => 0) (dF_inj h (nd := 1) (V := fun _ => W) Disj.one)).parz (fun x : ℕ × ℕ => (x.1, x.2, 0)) (rng2_nodup _ _ _ _) ?_ (fun _ _ _ h => h) ?_ ?_)
  · intro i _ j _ e; simp only [Prod.mk.injEq, and_true] at e; exact Prod.ext e.1 e.2
  · rintro ⟨u, s⟩ hs m' sm
    simp only [mem_rng2] at hs
    have hR := hR1 hs.1.2 hs.2.2
    have hv := sm.valid (hWv (0, u, s, 0) ((hR 0).2 rfl))
    have hown := sm.own 0 ((hR 0).2 rfl)
    rw [hd0] at hv hown
    have hz : o.m * o.n * u + s = o.m * (o.n * u) + s := by rw [Nat.mul_assoc]
    have hnu : 0 < o.n * u := Nat.mul_pos h.n_pos hs.1.1
    have hnq : o.n * u < o.q := by rw [h.q_eq, Nat.mul_comm]; exact Nat.mul_lt_mul_of_pos_right hs.1.2 h.n_pos
    refine Wr.mk1p hR (hd0 _ _ _) ?_ ?_ ?_
    · simp only [mulBy, Nat.mul_comm u o.m]
      body_flat
      rw [hz]
      exact ⟨h.zq_bd hp hnu hnq hs.2.2, hv, hv⟩
    · simp only [mulBy, Nat.mul_comm u o.m]
      body_flat
      rw [hz, h.zq_val hp hs.2.2, hown, w_conj]
      unfold BT
      rw [hd0]
      simp
    · simp only [mulBy, Nat.mul_comm u o.m]
      intro p; body_flat; rintro rfl; exact Or.inr rfl
  intro m1 f1
  refine Cmd.Ok.bind (fftpS_ok h hS (h.plB hp) (V := fun _ => W) (d := 0) rfl Nat.one_pos (Fills.start (dF_inj h Disj.one)) (fun _ h => h)
    (fun x hx => f1.valid (hWv x hx)) ?_)
  intro m2 f2
  have vf : ∀ {m' k}, Same m2 m' o.RD (o.dD f) k → ∀ j < o.L, m'.valid (f + j) := fun sm j hj => sm.valid (f2.valid (f1.valid (hf j hj)))
  have vW : ∀ {m' k}, Same m2 m' o.RD (o.dD f) k → ∀ t s, t < o.P → s < o.m → m'.valid (W + (o.m * t + s)) :=
    fun sm t s ht hs => sm.valid (f2.valid (f1.valid (hW _ (radix_lt hs ht))))
  have vW0 : ∀ {m' k}, Same m2 m' o.RD (o.dD f) k → ∀ s, s < o.m → m'.valid (W + s) := fun sm s hs => by
    have := vW sm 0 s (by omega) hs; simpa using this
  have hWm : ∀ {m' k}, Same m2 m' o.RD (o.dD f) k → ∀ i : ℕ, m'.val (W + i) = m2.val (W + i) := fun sm i => sm.frame _ (hrd i)
  rw [← bind_pure (par (rng o.m1 o.m) _)]
  refine zonesS2 (R := o.RD) (dst := o.dD f) (T := o.DT m2 1 (fun _ => W) (fun _ => 0) (fun _ _ => 0)) h hp (h.dD_inj hp f) ?_ ?_ ?_ ?_ rfl ?_ ?_
  · rintro d t s c ⟨_, h2, h3, h4⟩; simp only at h2 h3 h4; exact ⟨h2, h3, by omega⟩
  · intro s hs0 hs hL m' sm
    refine Wr.mk1p (h.RDz1 hp hs0 hs hL hC0) (l1 _) ?_ ?_ ?_
    · body_flat
      exact ⟨vW0 sm s hs, vf sm _ hL⟩
    · body_flat
      rw [hWm sm, DT_hi0]; simp [hd00]
    · intro p; body_flat; rintro rfl; exact Or.inl (hrd _)
  · intro s hs0 hs hL m' sm
    refine Wr.mk2p (RDz2 (by omega) hs (by simpa using hs0) (by simpa using hL) hC0) (l0 _) (l1 _) ?_ ?_ ?_
    · body_flat
      rw [hsub s hs0]
      exact ⟨vW0 sm s hs, vf sm _ (by omega), vf sm _ hL⟩
    · body_flat
      rw [hsub s hs0, hWm sm, DT_lo0, DT_hi0]; simp [hd00]
    · intro p; body_flat; rintro rfl; exact Or.inl (hrd _)
  · intro t s ht0 ht hs hs0 hL m' sm
    simp only [Nat.mul_comm t o.m]
    refine Wr.mk2p (RDz2 ht hs hs0 hL hC0) (t0 _ _) (t1 _ _) ?_ ?_ ?_
    · body_flat
      rw [hsub _ hs0]
      exact ⟨vW sm t s ht hs, vf sm _ (by omega), vf sm _ hL⟩
    · body_flat
      rw [hsub _ hs0, hWm sm, DT_lo, DT_hi]; simp [hd0]
    · intro p; body_flat; rintro rfl; exact Or.inl (hrd _)
  · intro s ht0 ht hs hs0 hL hL' m' sm
    simp only [Nat.mul_comm (o.P - 1) o.m]
    refine Wr.mk1p (RDz5 ht hs hs0 hL hC0) (t0 _ _) ?_ ?_ ?_
    · body_flat
      rw [hsub _ hs0]
      exact ⟨vW sm _ s ht hs, vf sm _ hL'⟩
    · body_flat
      rw [hsub _ hs0, hWm sm, DT_lo]; simp [hd0]
    · intro p; body_flat; rintro rfl; exact Or.inl (hrd _)
  intro m3 f3
  refine Cmd.Ok.pure (hQ m3 (back_stages h hp f1 ?_ f2 (fun k hk => Or.inr (by have := hk.1; omega)) f3))
  rintro ⟨d, u, s, c⟩ hk hd
  by_contra hne
  simp only [not_or, and_true] at hne
  obtain rfl := h.C0 hS hk.2.2.2
  exact hd (Or.inr ⟨(u, s), mem_rng2.2 ⟨⟨by simp only; omega, hk.2.1⟩, by simp only; omega, hk.2.2.1⟩, rfl⟩)

theorem backwardInnerOne_ok (h : o.WF) (hp : 2 < o.p) (hS : o.S = 1) (hb : f.buf ≠ W.buf) {r : ℕ} (hr : 0 < r) (hrn : r < o.n)
    (hf : ∀ j < o.L, mem.valid (f + j)) (hW : ∀ i < o.m * o.P, mem.valid (W + i)) {Q : Unit → Mem → Prop}
    (hQ : ∀ m', o.BI mem m' 1 (fun _ => W) (fun _ => r) f (fun j c => mem.val (f + (o.S * j + c))) → Q () m') :
    (o.backwardInnerOne W f r).Ok mem Q := by
  obtain ⟨g1, g2, g3, g4, g5, g6, g7, g8, g9, g10⟩ := h.geoI hp
  obtain ⟨z1, z2, z3, z4⟩ := h.szI hp
  have hC := h.C_one hS
  have hC0 := h.C_pos
  have hm := h.m_pos
  have hWv : ∀ x, o.RF 1 x → mem.valid (o.dF (fun _ => W) x) := by
    rintro ⟨d, t, s, c⟩ ⟨_, h2, h3, h4⟩
    obtain rfl : c = 0 := by simp only at h4; omega
    rw [h.dF1 hS]; exact hW _ (radix_lt h3 h2)
  have hR1 : ∀ {t s : ℕ}, t < o.P → s < o.m → ∀ d, o.RF 1 (d, t, s, 0) ↔ d = 0 := fun ht hs d => by
    rw [RF1 h ht hs h.C_pos]; omega
  have hd0 : ∀ d t s, o.dF (fun _ => W) (d, t, s, 0) = W + (o.m * t + s) := fun d t s => h.dF1 hS d t s
  have hd00 : ∀ d s, o.dF (fun _ => W) (d, 0, s, 0) = W + s := fun d s => by rw [hd0]; simp
  have hsub : ∀ s : ℕ, o.m0 ≤ s → f - o.m0 + s = f + (s - o.m0) := fun s hs => Ptr.sub_add hs
  have hrd : ∀ i : ℕ, ∀ x, o.RD x → W + i ≠ o.dD f x := rd_W hb
  have l0 : ∀ s, o.dD f (0, 0, s, 0) = f + (s - o.m0) := fun s => by rw [dD_lo0]; simp [hS]
  have l1 : ∀ s, o.dD f (1, 0, s, 0) = f + (o.H + s) := fun s => by rw [dD_hi0]; simp [hS]
  have t0 : ∀ t s, o.dD f (0, t, s, 0) = f + (o.m * t + s - o.m0) := fun t s => by rw [dD_lo]; simp [hS]
  have t1 : ∀ t s, o.dD f (1, t, s, 0) = f + (o.H + (o.m * t + s)) := fun t s => by rw [dD_hi]; simp [hS]
  have tb : ∀ {t}, 0 < t → t ≤ o.P → o.Zetaqp.lo ≤ o.P * r + t ∧ o.P * r + t < o.Zetaqp.hi := fun h1 h2 => h.zqp_bd hp hr hrn h1 h2
  have tv : ∀ {t}, 0 < t → t ≤ o.P → o.Zetaqp.val (o.P * r + t) = w o.q (t * r) := fun h1 h2 => h.zqp_val hp h1 h2
  unfold backwardInnerOne
  simp only [z1, z2, z3, z4]
  refine Cmd.Ok.bind ((Fills.start (T := o.BT mem (fun _ => W) fun _ => r) (dF_inj h (nd := 1) (V := fun _ => W) Disj.one)).parz (fun s : ℕ => (0, s, 0)) (rng_nodup _ _) ?_ (fun _ _ _ h => h) ?_ ?_)
  · intro i _ j _ e; simpa using e
  · intro s hs m' sm
    rw [mem_rng] at hs
    have hR := hR1 (t := 0) (s := s) (by omega) (by omega)
    have hv := sm.valid (hWv (0, 0, s, 0) ((hR 0).2 rfl))
    have hown := sm.own 0 ((hR 0).2 rfl)
    rw [hd00] at hv hown
    have hrq := h.qn (u := 0) (by omega) hrn
    rw [Nat.mul_zero, Nat.zero_add] at hrq
    refine Wr.mk1p hR (hd00 _ _) ?_ ?_ ?_
    · simp only [mulBy]
      body_flat
      exact ⟨h.zq_bd hp hr hrq hs.2, hv, hv⟩
    · simp only [mulBy]
      body_flat
      rw [h.zq_val hp hs.2, hown, w_conj]
      unfold BT
      rw [hd00]
      simp
    · simp only [mulBy]
      intro p; body_flat; rintro rfl; exact Or.inr rfl
  intro m0 f0
  refine Cmd.Ok.bind (f0.parz (fun x : ℕ × ℕ => (x.1, x.2, 0)) (rng2_nodup _ _ _ _) ?_ ?_ ?_ ?_)
  · intro i _ j _ e; simp only [Prod.mk.injEq, and_true] at e; exact Prod.ext e.1 e.2
  · rintro ⟨u, s⟩ hs d hd
    simp only [mem_rng2, mem_rng, Prod.mk.injEq, false_or] at hs hd
    obtain ⟨i, hi, e⟩ := hd; omega
  · rintro ⟨u, s⟩ hs m' sm
    simp only [mem_rng2] at hs
    have hR := hR1 hs.1.2 hs.2.2
    have hv := sm.valid (hWv (0, u, s, 0) ((hR 0).2 rfl))
    have hown := sm.own 0 ((hR 0).2 rfl)
    rw [hd0] at hv hown
    have hz : o.m * r + (o.n * (o.m * u) + s) = o.m * (o.n * u + r) + s := by ring
    have hq1 := h.qn hs.1.2 hrn
    refine Wr.mk1p hR (hd0 _ _ _) ?_ ?_ ?_
    · simp only [mulBy]
      body_flat
      rw [hz]
      exact ⟨h.zq_bd hp (by omega) hq1 hs.2.2, hv, hv⟩
    · simp only [mulBy]
      body_flat
      rw [hz, h.zq_val hp hs.2.2, hown, w_conj]
      unfold BT
      rw [hd0]
      simp
    · simp only [mulBy]
      intro p; body_flat; rintro rfl; exact Or.inr rfl
  intro m1 f1
  refine Cmd.Ok.bind (fftpS_ok h hS (h.plB hp) (V := fun _ => W) (d := 0) rfl Nat.one_pos (Fills.start (dF_inj h Disj.one)) (fun _ h => h)
    (fun x hx => f1.valid (hWv x hx)) ?_)
  intro m2 f2
  have vf : ∀ {m' k}, Same m2 m' o.RD (o.dD f) k → ∀ j < o.L, m'.valid (f + j) := fun sm j hj => sm.valid (f2.valid (f1.valid (hf j hj)))
  have vW : ∀ {m' k}, Same m2 m' o.RD (o.dD f) k → ∀ t s, t < o.P → s < o.m → m'.valid (W + (o.m * t + s)) :=
    fun sm t s ht hs => sm.valid (f2.valid (f1.valid (hW _ (radix_lt hs ht))))
  have vW0 : ∀ {m' k}, Same m2 m' o.RD (o.dD f) k → ∀ s, s < o.m → m'.valid (W + s) := fun sm s hs => by
    have := vW sm 0 s (by omega) hs; simpa using this
  have hWm : ∀ {m' k}, Same m2 m' o.RD (o.dD f) k → ∀ i : ℕ, m'.val (W + i) = m2.val (W + i) := fun sm i => sm.frame _ (hrd i)
  have hfm : ∀ i : ℕ, m2.val (f + i) = mem.val (f + i) := fun i => by
    rw [f2.frame _ (rd_f (fun _ => rfl) hb i), f1.frame _ (rd_f (fun _ => rfl) hb i)]
  rw [← bind_pure (par (rng o.m1 o.m) _)]
  refine zonesS2 (R := o.RD) (dst := o.dD f) (T := o.DT m2 1 (fun _ => W) (fun _ => r) (fun j c => mem.val (f + (o.S * j + c)))) h hp (h.dD_inj hp f) ?_ ?_ ?_ ?_ rfl ?_ ?_
  · rintro d t s c ⟨_, h2, h3, h4⟩; simp only at h2 h3 h4; exact ⟨h2, h3, by omega⟩
  · intro s hs0 hs hL m' sm
    have hR := h.RDz1 hp hs0 hs hL hC0
    have hown := sm.own 1 ((hR 1).2 rfl)
    rw [l1] at hown
    refine Wr.mk1p hR (l1 _) ?_ ?_ ?_
    · body_flat
      exact ⟨vf sm _ hL, vW0 sm s hs, vf sm _ hL⟩
    · body_flat
      rw [hWm sm, hown, hfm, DT_hi0]; simp [hd00, hS]
    · intro p; body_flat; rintro (rfl | rfl)
      · exact Or.inr rfl
      · exact Or.inl (hrd _)
  · intro s hs0 hs hL m' sm
    have hR := RDz2 (t := 0) (by omega) hs (by simpa using hs0) (by simpa using hL) hC0
    have hown0 := sm.own 0 ((hR 0).2 (Or.inl rfl))
    have hown1 := sm.own 1 ((hR 1).2 (Or.inr rfl))
    rw [l0] at hown0
    rw [l1] at hown1
    have hne : (f + (o.H + s) : Ptr) ≠ f + (s - o.m0) := by rw [Ne, Ptr.add_inj]; omega
    refine Wr.mk2p hR (l0 _) (l1 _) ?_ ?_ ?_
    · body_flat
      rw [hsub s hs0]
      exact ⟨tb (by omega) le_rfl, vW0 sm s hs, vf sm _ (by omega), vf sm _ (by omega), vf sm _ hL, vf sm _ hL⟩
    · body_flat
      rw [hsub s hs0, set_mul hne, hWm sm, hown0, hown1, hfm, hfm, DT_lo0, DT_hi0, tv (by omega) le_rfl, C30_zmult_xy]; simp [hd00, hS]
    · intro p; body_flat; rw [hsub s hs0]; rintro (rfl | rfl | rfl)
      · exact Or.inl (hrd _)
      · exact Or.inr (Or.inl rfl)
      · exact Or.inr (Or.inr rfl)
  · intro t s ht0 ht hs hs0 hL m' sm
    simp only [Nat.mul_comm t o.m]
    have hR := RDz2 ht hs hs0 hL hC0
    have hown0 := sm.own 0 ((hR 0).2 (Or.inl rfl))
    have hown1 := sm.own 1 ((hR 1).2 (Or.inr rfl))
    rw [t0] at hown0
    rw [t1] at hown1
    have := radix_lt hs ht
    have hne : (f + (o.H + (o.m * t + s)) : Ptr) ≠ f + (o.m * t + s - o.m0) := by rw [Ne, Ptr.add_inj]; omega
    refine Wr.mk2p hR (t0 _ _) (t1 _ _) ?_ ?_ ?_
    · body_flat
      rw [hsub _ hs0]
      exact ⟨tb (by omega) le_rfl, tb ht0 (by omega), vW sm t s ht hs, vf sm _ (by omega), vf sm _ (by omega), vf sm _ hL, vf sm _ hL⟩
    · body_flat
      rw [hsub _ hs0, set_mul hne, hWm sm, hown0, hown1, hfm, hfm, DT_lo, DT_hi, tv (by omega) le_rfl, tv ht0 (by omega), C30_zmult_xy, C30_zmult_xy_conj,
        C30_zmult_xy_conj, wPt]; simp [hd0, hS]
    · intro p; body_flat; rw [hsub _ hs0]; rintro (rfl | rfl | rfl)
      · exact Or.inl (hrd _)
      · exact Or.inr (Or.inl rfl)
      · exact Or.inr (Or.inr rfl)
  · intro s ht0 ht hs hs0 hL hL' m' sm
    simp only [Nat.mul_comm (o.P - 1) o.m]
    have hR := RDz5 ht hs hs0 hL hC0
    have hown := sm.own 0 ((hR 0).2 rfl)
    rw [t0] at hown
    refine Wr.mk1p hR (t0 _ _) ?_ ?_ ?_
    · body_flat
      rw [hsub _ hs0]
      exact ⟨tb (by omega) le_rfl, tb ht0 (by omega), vf sm _ hL', vW sm _ s ht hs, vf sm _ hL'⟩
    · body_flat
      rw [hsub _ hs0, hWm sm, hown, hfm, DT_lo, tv (by omega) le_rfl, tv ht0 (by omega), C30_zmult_xy, C30_zmult_xy_conj, wPt]; simp [hd0, hS]
    · intro p; body_flat; rw [hsub _ hs0]; rintro (rfl | rfl)
      · exact Or.inr rfl
      · exact Or.inl (hrd _)
  intro m3 f3
  refine Cmd.Ok.pure (hQ m3 (back_stages h hp f1 ?_ f2 (fun k hk => Or.inr (by have := hk.1; omega)) f3))
  rintro ⟨d, u, s, c⟩ hk hd
  by_contra hne
  simp only [not_or] at hne
  obtain rfl := h.C0 hS hk.2.2.2
  by_cases hu : u = 0
  · subst hu
    exact hd (Or.inl (Or.inr ⟨s, mem_rng.2 ⟨by omega, hk.2.2.1⟩, rfl⟩))
  · exact hd (Or.inr ⟨(u, s), mem_rng2.2 ⟨⟨by simp only; omega, hk.2.1⟩, by simp only; omega, hk.2.2.1⟩, rfl⟩)

end
end Cent
end Fftwpp
