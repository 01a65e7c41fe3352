import Verif.Proof.CBInner4

/-! `fftPadCentered::backwardInnerMany`. -/

namespace Fftwpp
namespace Cent
open Finset ComplexConjugate
open Fft (kpair seqLoop_rng)
variable {o : Cent}

theorem backwardInnerMany_ok (h : o.WF) (hp : 2 < o.p) (hS : o.S ≠ 1) {f F W : Ptr} {mem : Mem} {r : ℕ}
    {W? : Option Ptr} (hW : W?.getD F = W) (pre : o.Pre mem f F W) (hv : o.Visit r) :
    (o.backwardInnerMany F f r W?).Ok mem (fun _ m' => o.BwdPost mem m' F f W r) := by
  obtain ⟨g1, g2, g3, g4, g5, g6, g7, g8, g9, g10⟩ := h.geoI hp
  obtain ⟨z1, z2, z3, z4⟩ := h.szI hp
  have hm := h.m_pos
  have hb := pre.fW
  have hPD := h.PD hS
  have vF := pre.vF
  have vW := pre.vW
  rw [hPD] at vF vW
  obtain ⟨hsig, hrn⟩ := h.sigM (h.D_one hS) hv
  have hR1 : ∀ {t s c : ℕ}, t < o.P → s < o.m → c < o.C → ∀ d, o.RF 1 (d, t, s, c) ↔ d = 0 := fun ht hs hc d => by
    rw [RF1 h ht hs hc]; omega
  have hd0 : ∀ d t s c, o.dF (fun _ => W) (d, t, s, c) = W + (o.S * (o.m * t + s) + c) := fun d t s c => rfl
  have hd00 : ∀ d s c, o.dF (fun _ => W) (d, 0, s, c) = W + (o.S * s + c) := fun d s c => by rw [hd0]; simp
  have hrd : ∀ i : ℕ, ∀ x, o.RD x → W + i ≠ o.dD f x := rd_W hb
  have tb : 0 < r → ∀ {t}, 0 < t → t ≤ o.P → o.Zetaqp.lo ≤ o.P * r + t ∧ o.P * r + t < o.Zetaqp.hi := fun hr _ h1 h2 => h.zqp_bd hp hr hrn h1 h2
  have tv : ∀ {t}, 0 < t → t ≤ o.P → o.Zetaqp.val (o.P * r + t) = w o.q (t * r) := fun h1 h2 => h.zqp_val hp h1 h2
  have e4 : o.S * ((o.P - 1) * o.m) = (o.P - 1) * o.Sm := by rw [h.Sm_eq]; ring
  have a1 : ∀ s c, o.S * o.H + (o.S * s + c) = o.S * (o.H + s) + c := fun s c => (h.adr s c 0).1
  have a2 : ∀ s c t, t * o.Sm + (o.S * s + c) = o.S * (o.m * t + s) + c := fun s c t => (h.adr s c t).2.1
  have a3 : ∀ s c t, o.S * o.H + (t * o.Sm + (o.S * s + c)) = o.S * (o.H + (o.m * t + s)) + c := fun s c t => (h.adr s c t).2.2.1
  have hblk : o.blks r = 1 := by
    have := h.rowsI hS r
    unfold rows at this
    exact Nat.eq_of_mul_eq_mul_left h.P_pos (by rw [this, Nat.mul_one])
  unfold backwardInnerMany
  simp only [hW, z1, z2, z3, z4, e4]
  rw [(h.fftm_many hS).2]
  have hrows : ∀ {Q : Unit → Mem → Prop}, (∀ m', mem.Upd m' (fun p => ∃ i < o.m * o.P, ∃ c < o.C, p = W + (o.S * i + c)) →
      (∀ t < o.P, ∀ s < o.m, ∀ c < o.C, m'.val (W + (o.S * (o.m * t + s) + c)) =
        ∑ j ∈ range o.m, mem.val (F + (o.S * (o.m * t + j) + c)) * w o.m (-1 * j * s)) → Q () m') →
      (seqLoop (rng 0 o.P) fun t => (Plan.mk o.m (-1) o.C o.S 1 o.inplace).exec (F + o.Sm * t) (W + o.Sm * t)).Ok mem Q := fun hQ => by
    rw [h.Sm_eq]
    exact rows_cols h.C_le_S (-1) (pre.sep.imp (fun h => ⟨h.1, h.2.symm⟩) (fun h => ⟨h.1, h.2.symm⟩)) vF vW hQ
  refine Cmd.Ok.bind (hrows ?_)
  intro m0 u0 hin
  have u0' : mem.Upd m0 (o.toFft.Reg W (o.P * o.D)) := u0.mono (by rintro p ⟨i, hi, c, hc, rfl⟩; exact ⟨i, by rw [hPD]; exact hi, c, hc, rfl⟩)
  have hin' : ∀ ρ < o.rows r, ∀ s < o.m, ∀ c < o.C, m0.val (W + (o.S * (o.m * ρ + s) + c)) =
      ∑ i ∈ range o.m, mem.val (F + (o.S * (o.m * ρ + i) + c)) * w o.m (-1 * i * s) := by
    intro ρ hρ; rw [h.rowsI hS] at hρ; exact hin ρ hρ
  have hWv : ∀ x, o.RF 1 x → m0.valid (o.dF (fun _ => W) x) := by
    rintro ⟨d, t, s, c⟩ ⟨_, h2, h3, h4⟩
    exact Mem.valid_of_size u0.size (vW _ (radix_lt h3 h2) c h4)
  have hf0 : ∀ j : ℕ, m0.val (f + j) = mem.val (f + j) := fun j => u0.frame _ (by
    rintro ⟨_, _, _, _, h3⟩; exact hb (by simpa using congrArg Ptr.buf h3))
  have vfm : ∀ {m1 m2 T D T' D'}, Fills m0 m1 (o.RF 1) (o.dF fun _ => W) T D → Fills m1 m2 (o.RF 1) (o.dF fun _ => W) T' D' →
      ∀ {m' k}, Same m2 m' o.RD (o.dD f) k → ∀ j < o.L, ∀ c < o.C, m'.valid (f + (o.S * j + c)) :=
    fun f1 f2 _ _ sm j hj c hc => sm.valid (f2.valid (f1.valid (Mem.valid_of_size u0.size (pre.vf j hj c hc))))
  have vWm : ∀ {m1 m2 T D T' D'}, Fills m0 m1 (o.RF 1) (o.dF fun _ => W) T D → Fills m1 m2 (o.RF 1) (o.dF fun _ => W) T' D' →
      ∀ {m' k}, Same m2 m' o.RD (o.dD f) k → ∀ t s c, t < o.P → s < o.m → c < o.C → m'.valid (W + (o.S * (o.m * t + s) + c)) :=
    fun f1 f2 _ _ sm t s c ht hs hc => sm.valid (f2.valid (f1.valid (Mem.valid_of_size u0.size (vW _ (radix_lt hs ht) c hc))))
  have hWm : ∀ {m2 m' k}, Same m2 m' o.RD (o.dD f) k → ∀ i : ℕ, m'.val (W + i) = m2.val (W + i) := fun sm i => sm.frame _ (hrd i)
  have hfmm : ∀ {m1 m2 T D T' D'}, Fills m0 m1 (o.RF 1) (o.dF fun _ => W) T D → Fills m1 m2 (o.RF 1) (o.dF fun _ => W) T' D' →
      ∀ i : ℕ, m2.val (f + i) = m0.val (f + i) := fun f1 f2 i => by
    rw [f2.frame _ (rd_f (fun _ => rfl) hb i), f1.frame _ (rd_f (fun _ => rfl) hb i)]
  by_cases hr : r = 0
  · subst hr
    rw [if_pos rfl]
    refine Cmd.Ok.bind ((Fills.start (T := o.BT m0 (fun _ => W) fun _ => 0) (dF_inj h (nd := 1) (V := fun _ => W) Disj.one)).parz (fun x => x) (rng3_nodup _ _ _ _ _ _)
      (fun _ _ _ _ h => h) (fun _ _ _ h => h) ?_ ?_)
    · rintro ⟨u, s, c⟩ hs m' sm
      rw [mem_rng3] at hs
      have hs' : 1 ≤ u ∧ u < o.P ∧ s < o.m ∧ c < o.C := by simp only at hs; omega
      have hR := hR1 hs'.2.1 hs'.2.2.1 hs'.2.2.2
      have hown := sm.own 0 ((hR 0).2 rfl)
      have hv' := sm.valid (hWv (0, u, s, c) ((hR 0).2 rfl))
      have hz : o.m * o.n * u + s = o.m * (o.n * u) + s := by ring
      have hnu : o.n * 1 ≤ o.n * u := Nat.mul_le_mul_left _ hs'.1
      have hq := h.qn hs'.2.1 hrn
      rw [hd0] at hown hv'
      refine Wr.mk1p hR (hd0 _ _ _ _) ?_ ?_ ?_
      · body_flat
        rw [hz, a2]
        exact ⟨h.zq_bd hp (by omega) (by omega) hs'.2.2.1, hv', hv'⟩
      · body_flat
        rw [hz, a2, h.zq_val hp hs'.2.2.1, hown, C30_zmult_xy_conj, w_conj, mul_comm (w _ _)]
        unfold BT
        rw [hd0]
        simp
      · intro p; body_flat; rw [a2]; rintro rfl; exact Or.inr rfl
    intro m1 f1
    refine Cmd.Ok.bind (fftpMany_ok h (h.plB hp) (V := fun _ => W) (d := 0) rfl Nat.one_pos (Fills.start (dF_inj h Disj.one)) (fun _ h => h)
      (fun x hx => f1.valid (hWv x hx)) ?_)
    intro m2 f2
    have vW0 : ∀ {m' k}, Same m2 m' o.RD (o.dD f) k → ∀ s c, s < o.m → c < o.C → m'.valid (W + (o.S * s + c)) := fun sm s c hs hc => by
      have := vWm f1 f2 sm 0 s c (by omega) hs hc; simpa using this
    rw [← bind_pure (par (rng2 o.m1 o.m 0 o.C) _)]
    refine zonesM2 (R := o.RD) (dst := o.dD f) (T := o.DT m2 1 (fun _ => W) (fun _ => 0) (fun _ _ => 0)) h hp (h.dD_inj hp f) ?_ ?_ ?_ ?_ (fun s c _ _ _ _ _ _ m' _ h => h) ?_ ?_
    · rintro d t s c ⟨_, h2, h3, h4⟩; exact ⟨h2, h3, h4⟩
    · intro s c hs0 hs hL hc m' sm
      refine Wr.mk1p (h.RDz1 hp hs0 hs hL hc) (dD_hi0 f _ _) ?_ ?_ ?_
      · body_flat
        rw [a1]
        exact ⟨vW0 sm s c hs hc, vfm f1 f2 sm _ hL c hc⟩
      · body_flat
        rw [a1, hWm sm, DT_hi0]; simp [hd00]
      · intro p; body_flat; rintro rfl; exact Or.inl (hrd _)
    · intro s c hs0 hs hL hc m' sm
      refine Wr.mk2p (RDz2 (by omega) hs (by simpa using hs0) (by simpa using hL) hc) (dD_lo0 f _ _) (dD_hi0 f _ _) ?_ ?_ ?_
      · body_flat
        rw [a1, sub_adr hs0]
        exact ⟨vW0 sm s c hs hc, vfm f1 f2 sm _ (by omega) c hc, vfm f1 f2 sm _ hL c hc⟩
      · body_flat
        rw [a1, sub_adr hs0, hWm sm, DT_lo0, DT_hi0]; simp [hd00]
      · intro p; body_flat; rintro rfl; exact Or.inl (hrd _)
    · intro t s c ht0 ht hs hs0 hL hc m' sm
      refine Wr.mk2p (RDz2 ht hs hs0 hL hc) (dD_lo f _ _ _) (dD_hi f _ _ _) ?_ ?_ ?_
      · body_flat
        rw [a3, a2, sub_adr hs0]
        exact ⟨vWm f1 f2 sm t s c ht hs hc, vfm f1 f2 sm _ (by omega) c hc, vfm f1 f2 sm _ hL c hc⟩
      · body_flat
        rw [a3, a2, sub_adr hs0, hWm sm, DT_lo, DT_hi]; simp [hd0]
      · intro p; body_flat; rintro rfl; exact Or.inl (hrd _)
    · intro s c ht0 ht hs hs0 hL hL' hc m' sm
      refine Wr.mk1p (RDz5 ht hs hs0 hL hc) (dD_lo f _ _ _) ?_ ?_ ?_
      · body_flat
        rw [a2, sub_adr hs0]
        exact ⟨vWm f1 f2 sm _ s c ht hs hc, vfm f1 f2 sm _ hL' c hc⟩
      · body_flat
        rw [a2, sub_adr hs0, hWm sm, DT_lo]; simp [hd0]
      · intro p; body_flat; rintro rfl; exact Or.inl (hrd _)
    intro m3 f3
    have hB := back_stages h hp f1 (by
      rintro ⟨d, u, s, c⟩ hk hd
      by_contra hne
      simp only [not_or, and_true] at hne
      refine hd (Or.inr ⟨(u, s, c), mem_rng3.2 ?_, rfl⟩)
      have := hk.2.1; have := hk.2.2.1; have := hk.2.2.2
      simp only at *
      omega) f2 (fun k hk => Or.inr (by have := hk.1; omega)) f3
    have hA := AccB.first h (W := W) (s := o.sig 0) hB (by intro d hd; obtain rfl : d = 0 := by omega
                                                           simp [Ptr.add_zero])
      (by intro d hd; obtain rfl : d = 0 := by omega
          rw [hsig]; rfl)
    refine Cmd.Ok.pure (finish_backI h hp u0' hin' ?_)
    rw [hblk]
    simpa using hA
  · rw [if_neg hr]
    have hr0 : 0 < r := by omega
    refine Cmd.Ok.bind ((Fills.start (T := o.BT m0 (fun _ => W) fun _ => (r : ℤ)) (dF_inj h (nd := 1) (V := fun _ => W) Disj.one)).parz (fun x => x) (rng3_nodup _ _ _ _ _ _)
      (fun _ _ _ _ h => h) (fun _ _ _ h => h) ?_ ?_)
    · rintro ⟨u, s, c⟩ hs m' sm
      rw [mem_rng3] at hs
      have hs' : u < o.P ∧ s < o.m ∧ c < o.C := by simp only at hs; omega
      have hR := hR1 hs'.1 hs'.2.1 hs'.2.2
      have hown := sm.own 0 ((hR 0).2 rfl)
      have hv' := sm.valid (hWv (0, u, s, c) ((hR 0).2 rfl))
      have hz : o.m * r + (o.n * (o.m * u) + s) = o.m * (o.n * u + r) + s := by ring
      have hq := h.qn hs'.1 hrn
      rw [hd0] at hown hv'
      refine Wr.mk1p hR (hd0 _ _ _ _) ?_ ?_ ?_
      · body_flat
        rw [hz, a2]
        exact ⟨h.zq_bd hp (by omega) (by omega) hs'.2.1, hv', hv'⟩
      · body_flat
        rw [hz, a2, h.zq_val hp hs'.2.1, hown, C30_zmult_xy_conj, w_conj, mul_comm (w _ _)]
        unfold BT
        rw [hd0]
        simp
      · intro p; body_flat; rw [a2]; rintro rfl; exact Or.inr rfl
    intro m1 f1
    refine Cmd.Ok.bind (fftpMany_ok h (h.plB hp) (V := fun _ => W) (d := 0) rfl Nat.one_pos (Fills.start (dF_inj h Disj.one)) (fun _ h => h)
      (fun x hx => f1.valid (hWv x hx)) ?_)
    intro m2 f2
    have vW0 : ∀ {m' k}, Same m2 m' o.RD (o.dD f) k → ∀ s c, s < o.m → c < o.C → m'.valid (W + (o.S * s + c)) := fun sm s c hs hc => by
      have := vWm f1 f2 sm 0 s c (by omega) hs hc; simpa using this
    have hfm := hfmm f1 f2
    rw [← bind_pure (par (rng2 o.m1 o.m 0 o.C) _)]
    refine zonesM2 (R := o.RD) (dst := o.dD f) (T := o.DT m2 1 (fun _ => W) (fun _ => (r : ℤ)) (fun j c => m0.val (f + (o.S * j + c)))) h hp (h.dD_inj hp f) ?_ ?_ ?_ ?_
      (fun s c _ _ _ _ _ _ m' _ h => h) ?_ ?_
    · rintro d t s c ⟨_, h2, h3, h4⟩; exact ⟨h2, h3, h4⟩
    · intro s c hs0 hs hL hc m' sm
      have hR := h.RDz1 hp hs0 hs hL hc
      have hown := sm.own 1 ((hR 1).2 rfl)
      rw [dD_hi0] at hown
      refine Wr.mk1p hR (dD_hi0 f _ _) ?_ ?_ ?_
      · body_flat
        rw [a1]
        exact ⟨vfm f1 f2 sm _ hL c hc, vW0 sm s c hs hc, vfm f1 f2 sm _ hL c hc⟩
      · body_flat
        rw [a1, hWm sm, hown, hfm, DT_hi0]; simp [hd00]
      · intro p; body_flat; rw [a1]; rintro (rfl | rfl)
        · exact Or.inr rfl
        · exact Or.inl (hrd _)
    · intro s c hs0 hs hL hc m' sm
      have hR := RDz2 (t := 0) (by omega) hs (by simpa using hs0) (by simpa using hL) hc
      have hown0 := sm.own 0 ((hR 0).2 (Or.inl rfl))
      have hown1 := sm.own 1 ((hR 1).2 (Or.inr rfl))
      have hne : (f + (o.S * (o.H + s) + c) : Ptr) ≠ f + (o.S * (s - o.m0) + c) := by
        rw [← dD_hi0, ← dD_lo0]
        exact fun e => absurd (h.dD_inj hp f _ _ ((hR 1).2 (Or.inr rfl)) ((hR 0).2 (Or.inl rfl)) e) (by simp)
      rw [dD_lo0] at hown0
      rw [dD_hi0] at hown1
      refine Wr.mk2p hR (dD_lo0 f _ _) (dD_hi0 f _ _) ?_ ?_ ?_
      · body_flat
        rw [a1, sub_adr hs0]
        exact ⟨tb hr0 (by omega) le_rfl, vW0 sm s c hs hc, vfm f1 f2 sm _ (by omega) c hc, vfm f1 f2 sm _ (by omega) c hc, vfm f1 f2 sm _ hL c hc, vfm f1 f2 sm _ hL c hc⟩
      · body_flat
        rw [a1, sub_adr hs0, set_mul hne, hWm sm, hown0, hown1, hfm, hfm, DT_lo0, DT_hi0, tv (by omega) le_rfl, C30_zmult_xy]; simp [hd00]
      · intro p; body_flat; rw [a1, sub_adr hs0]; rintro (rfl | rfl | rfl)
        · exact Or.inl (hrd _)
        · exact Or.inr (Or.inl rfl)
        · exact Or.inr (Or.inr rfl)
    · intro t s c ht0 ht hs hs0 hL hc m' sm
      have hR := RDz2 ht hs hs0 hL hc
      have hown0 := sm.own 0 ((hR 0).2 (Or.inl rfl))
      have hown1 := sm.own 1 ((hR 1).2 (Or.inr rfl))
      have hne : (f + (o.S * (o.H + (o.m * t + s)) + c) : Ptr) ≠ f + (o.S * (o.m * t + s - o.m0) + c) := by
        rw [← dD_hi, ← dD_lo]
        exact fun e => absurd (h.dD_inj hp f _ _ ((hR 1).2 (Or.inr rfl)) ((hR 0).2 (Or.inl rfl)) e) (by simp)
      rw [dD_lo] at hown0
      rw [dD_hi] at hown1
      refine Wr.mk2p hR (dD_lo f _ _ _) (dD_hi f _ _ _) ?_ ?_ ?_
      · body_flat
        rw [a3, a2, sub_adr hs0]
        exact ⟨tb hr0 (by omega) le_rfl, tb hr0 ht0 (by omega), vWm f1 f2 sm t s c ht hs hc, vfm f1 f2 sm _ (by omega) c hc, vfm f1 f2 sm _ (by omega) c hc,
          vfm f1 f2 sm _ hL c hc, vfm f1 f2 sm _ hL c hc⟩
      · body_flat
        rw [a3, a2, sub_adr hs0, set_mul hne, hWm sm, hown0, hown1, hfm, hfm, DT_lo, DT_hi, tv (by omega) le_rfl, tv ht0 (by omega), C30_zmult_xy,
          C30_zmult_xy_conj, C30_zmult_xy_conj, wPt]; simp [hd0]
      · intro p; body_flat; rw [a3, a2, sub_adr hs0]; rintro (rfl | rfl | rfl)
        · exact Or.inl (hrd _)
        · exact Or.inr (Or.inl rfl)
        · exact Or.inr (Or.inr rfl)
    · intro s c ht0 ht hs hs0 hL hL' hc m' sm
      have hR := RDz5 ht hs hs0 hL hc
      have hown := sm.own 0 ((hR 0).2 rfl)
      rw [dD_lo] at hown
      refine Wr.mk1p hR (dD_lo f _ _ _) ?_ ?_ ?_
      · body_flat
        rw [a2, sub_adr hs0]
        exact ⟨tb hr0 (by omega) le_rfl, tb hr0 ht0 (by omega), vfm f1 f2 sm _ hL' c hc, vWm f1 f2 sm _ s c ht hs hc, vfm f1 f2 sm _ hL' c hc⟩
      · body_flat
        rw [a2, sub_adr hs0, hWm sm, hown, hfm, DT_lo, tv (by omega) le_rfl, tv ht0 (by omega), C30_zmult_xy, C30_zmult_xy_conj, wPt]; simp [hd0]
      · intro p; body_flat; rw [a2, sub_adr hs0]; rintro (rfl | rfl)
        · exact Or.inr rfl
        · exact Or.inl (hrd _)
    intro m3 f3
    have hB := back_stages h hp f1 (by
      rintro ⟨d, u, s, c⟩ hk hd
      by_contra hne
      simp only [not_or] at hne
      refine hd (Or.inr ⟨(u, s, c), mem_rng3.2 ?_, rfl⟩)
      have := hk.2.1; have := hk.2.2.1; have := hk.2.2.2
      simp only at *
      omega) f2 (fun k hk => Or.inr (by have := hk.1; omega)) f3
    have hA := (AccB.zero m0 f W).step h hb (s := o.sig r) hB (fun _ _ _ _ => rfl)
      (by intro d hd; obtain rfl : d = 0 := by omega
          simp [Ptr.add_zero])
      (by intro d hd; obtain rfl : d = 0 := by omega
          rw [hsig])
    refine Cmd.Ok.pure (finish_backI h hp u0' hin' ?_)
    rw [hblk]
    simp only [if_neg hr]
    simp only [hf0] at hA
    simpa using hA

end Cent
end Fftwpp
