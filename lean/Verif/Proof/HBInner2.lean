import Verif.Proof.HBInner

/-! `fftPadHermitian::backwardInner`. -/

namespace Fftwpp
namespace Herm
open Finset ComplexConjugate
open Fft (copy1 zero1)
open Cent (mulBy set_mul)
variable {o : Herm}

section
variable {f W : Ptr} {mem : Mem}

/-- Facts about the result cells. -/
theorem WF.facB (h : o.WF) (hp : 2 < o.p) : (∀ t s, o.dB f (0, t, s, 0) = f + (t * o.m + s)) ∧ (∀ t s, o.dB f (1, t, s, 0) = f + (o.P * o.m - (t * o.m + s))) ∧
    (∀ s, o.dB f (0, 0, s, 0) = f + s) ∧ (∀ s, o.dB f (1, 0, s, 0) = f + (o.P * o.m - s)) ∧
    (∀ t : ℕ, f + (o.e - 1) + t * o.m = f + (t * o.m + (o.e - 1))) ∧
    (∀ t : ℕ, W + (o.e - 1) + t * o.e = W + (o.e * t + (o.e - 1))) ∧
    (∀ t : ℕ, W + o.Bw + (o.e - 1) + t * o.e = W + (o.Bw + (o.e * t + (o.e - 1)))) := by
  refine ⟨fun t s => (h.dBI hp t s).1, fun t s => (h.dBI hp t s).2, fun s => ?_, fun s => ?_, fun t => ?_, fun t => ?_, fun t => ?_⟩
  · rw [(h.dBI hp 0 s).1, Nat.zero_mul, Nat.zero_add]
  · rw [(h.dBI hp 0 s).2, Nat.zero_mul, Nat.zero_add]
  · rw [Ptr.add_add, Nat.add_comm]
  · rw [Ptr.add_add, Nat.add_comm, Nat.mul_comm]
  · rw [Ptr.add_add, Ptr.add_add, Nat.mul_comm t]; congr 1; omega

theorem backwardInner0odd (h : o.WF) (hp : 2 < o.p) {F : Ptr} {W? : Option Ptr} (hW : W?.getD F = W) (pre : o.Pre mem f F W 0) (hn : 2 * (o.n / 2) < o.n) :
    (o.backwardInner F f 0 W?).Ok mem (fun _ m' => o.BwdPost mem m' F f W 0) := by
  obtain ⟨g1, g2, g3, g4, g5, g6, g7, g8, g9, g10, g11, g12⟩ := h.geoI hp
  obtain ⟨k1, k2, k3, k4, k5, k6, k7, k8, k9⟩ := h.geoB g1
  have hnd := h.nd_odd g1 (by omega)
  have l := pre.loc h hp (K := 1) (by omega)
  have hH : ceilquotient o.L 2 = o.H := rfl
  have hm0 : min (o.P * o.m - o.H + 1) o.e = o.m0 := rfl
  obtain ⟨hd0, hd1, hd00, hd10, hsub, hsub2⟩ := h.two (f := f) (W := W) hp
  obtain ⟨b0, b1, b00, b10, a1, a2, a3⟩ := h.facB (f := f) (W := W) hp
  have hb := pre.fW
  unfold backwardInner
  simp only [hW, hH, g4, hm0]
  rw [if_pos trivial, if_pos hn]
  refine Cmd.Ok.bind ((r2c_first h pre).mono ?_)
  intro _ m1 rp
  have sz1 := rp.upd.size
  refine Cmd.Ok.bind ((Fills.start (m0 := m1) (T := o.ZB m1 W (o.kd 0)) (dH_inj h (nd := 1) (W := W))).parz (fun x : ℕ × ℕ => (x.1, x.2, 0)) (rng2_nodup _ _ _ _) ?_
    (fun _ _ _ h => h) ?_ ?_)
  · intro i _ j _ e; simp only [Prod.mk.injEq, and_true] at e; exact Prod.ext e.1 e.2
  · rintro ⟨u, s⟩ hs m' sm
    simp only [mem_rng2] at hs
    have hR := RH1I h hs.1.2 hs.2.2
    have hv0 := l.v0 h hp (by omega) (sm.size.trans sz1) hs.1.2 hs.2.2
    have hown0 := sm.own 0 ((hR 0).2 rfl)
    rw [hd0] at hown0
    have hz : o.n * (o.m * u) + s = o.m * (o.n * u) + s := by ring
    have hnu : o.n * 1 ≤ o.n * u := Nat.mul_le_mul_left _ hs.1.1
    have hq1 := h.qn (r := 0) hs.1.2 (by omega)
    simp only [mulBy, Nat.mul_comm u o.e]
    refine Wr.mk1p hR (hd0 _ _) ?_ ?_ ?_
    · body_flat
      rw [hz]
      exact ⟨h.zq_bd hp (by omega) (by omega) (by omega), hv0, hv0⟩
    · body_flat
      rw [hz, h.z_val g1 (by omega), hown0]
      unfold ZB
      rw [hd0, w_conj, kd0]
      simp
    · intro p; body_flat; rintro rfl; exact Or.inr rfl
  intro m2 f2
  refine Cmd.Ok.bind (fftpH_ok h (h.fftp_eq hp).2 (d := 0) (W := W) (by rw [Nat.mul_zero]; exact Ptr.add_zero _) Nat.one_pos (Fills.start (dH_inj h (nd := 1) (W := W))) (fun _ h => h)
    (fun x hx => f2.valid (Mem.valid_of_size sz1 (l.hv x hx))) ?_)
  intro m3 f3
  have ip : o.IP mem m3 F W (o.kd 0) 1 := by
    refine stagesB h rp f2 ?_ f3 (fun k hk => Or.inr (by have := hk.1; omega))
    rintro ⟨d, u, s, c⟩ hk hd
    by_contra hne
    have hd0 := hk.1
    simp only [not_or] at hne hd0
    obtain rfl : d = 0 := by omega
    rw [kd0] at hne
    obtain rfl : c = 0 := by have := hk.2.2.2; simp only at this; omega
    exact hd (Or.inr ⟨(u, s), mem_rng2.2 ⟨⟨by simp only; simp at hne; omega, hk.2.1⟩, by simp only; omega, hk.2.2.1⟩, rfl⟩)
  have sz := ip.upd.size
  have fv : ∀ {m' : Mem} {j : ℕ}, m'.size = m3.size → j < o.H → m'.valid (f + j) := fun e hj => Mem.valid_of_size (e.trans sz) (l.hf _ hj)
  have wv : ∀ {m' : Mem} {t s : ℕ}, m'.size = m3.size → t < o.P → s < o.e → m'.valid (W + (o.e * t + s)) := fun e ht hs => l.v0 h hp (by omega) (e.trans sz) ht hs
  have wv0 : ∀ {m' : Mem} {s : ℕ}, m'.size = m3.size → s < o.e → m'.valid (W + s) := fun {m' s} e hs => by
    have := wv (t := 0) e (by omega) hs; rwa [Nat.mul_zero, Nat.zero_add] at this
  have T1 := fun {t s : ℕ} (hs : t * o.m + s ≤ o.P * o.m) => TB1I (mem := mem) (F := F) (f := f) h hnd (t := t) (s := s) (c := 0) hs
  refine zonesBI (T := o.TB mem F f 0) (f := f) h hp ?_ ?_ ?_ ?_ ?_
  · intro s hs m' sm
    have hw := ip.W0 h hp (by omega) hb sm (t := 0) (s := s) (by omega) (by omega)
    rw [Nat.mul_zero, Nat.zero_add] at hw
    refine Wr.mk1p (RB_one h g1 (by omega) h.C_pos (by omega) (by omega)) (b00 _) ?_ ?_ ?_
    · body_flat
      exact ⟨wv0 sm.size (by omega), fv sm.size (by omega)⟩
    · body_flat
      rw [hw, (T1 (by omega)).1]
    · intro p; body_flat; rintro rfl; exact Or.inl (rd_W hb _)
  · intro s hs0 hs m' sm
    have hw := ip.W0 h hp (by omega) hb sm (t := 0) (s := s) (by omega) (by omega)
    rw [Nat.mul_zero, Nat.zero_add] at hw
    have hsP : s ≤ o.P * o.m := by omega
    simp only [hsub s hsP]
    refine Wr.mk2p (RB_two h g1 (by omega) h.C_pos hs (by omega) (by omega)) (b00 _) (b10 _) ?_ ?_ ?_
    · body_flat
      exact ⟨wv0 sm.size (by omega), fv sm.size (by omega), fv sm.size (by omega)⟩
    · body_flat
      rw [hw, (T1 (by omega)).1, (T1 (by omega)).2]
    · intro p; body_flat; rintro rfl; exact Or.inl (rd_W hb _)
  · intro t s ht0 ht hs m' sm
    obtain ⟨r1, r2⟩ := k7 t ht
    have h1 : 1 * o.m ≤ t * o.m := Nat.mul_le_mul_right _ (by omega)
    have hw := ip.W0 h hp (by omega) hb sm (t := t) (s := s) ht (by omega)
    have vw := wv sm.size (s := s) ht (by omega)
    by_cases hs0 : s = 0
    · subst hs0
      rw [Nat.add_zero] at hw vw
      simp only
      rw [if_pos trivial, Nat.mul_comm t o.e]
      refine Wr.mk1p (RB_one h g1 ht h.C_pos (by omega) (by omega)) (b0 _ _) ?_ ?_ ?_
      · body_flat
        exact ⟨vw, fv sm.size (by omega)⟩
      · body_flat
        rw [hw, (T1 (by omega)).1, Nat.add_zero]
      · intro p; body_flat; rintro rfl; exact Or.inl (rd_W hb _)
    · have hsP : t * o.m + s ≤ o.P * o.m := by omega
      simp only [hsub2 t s hsP, Nat.mul_comm t o.e]
      rw [if_neg hs0]
      refine Wr.mk2p (RB_two h g1 ht h.C_pos hs (by omega) (by omega)) (b0 _ _) (b1 _ _) ?_ ?_ ?_
      · body_flat
        exact ⟨vw, fv sm.size (by omega), fv sm.size (by omega)⟩
      · body_flat
        rw [hw, (T1 (by omega)).1, (T1 (by omega)).2]
      · intro p; body_flat; rintro rfl; exact Or.inl (rd_W hb _)
  · intro hev m4 f4
    have := k8 hev
    refine lastB1 h hp ?_ f4
    intro t ht m' sm
    obtain ⟨r1, r2⟩ := k7 t ht
    simp only [a1, a2]
    refine Wr.mk1p (RB_one h g1 ht h.C_pos (by omega) (by omega)) (b0 _ _) ?_ ?_ ?_
    · body_flat
      exact ⟨wv sm.size ht (by omega), fv sm.size (by omega)⟩
    · body_flat
      rw [ip.W0 h hp (by omega) hb sm ht (by omega), (T1 (by omega)).1]
    · intro p; body_flat; rintro rfl; exact Or.inl (rd_W hb _)
  · intro m4 f4
    exact finishB h g1 pre (by rw [hnd]; exact ip.upd) f4

theorem backwardInner0even (h : o.WF) (hp : 2 < o.p) {F : Ptr} {W? : Option Ptr} (hW : W?.getD F = W) (pre : o.Pre mem f F W 0) (hn : ¬ 2 * (o.n / 2) < o.n) :
    (o.backwardInner F f 0 W?).Ok mem (fun _ m' => o.BwdPost mem m' F f W 0) := by
  obtain ⟨g1, g2, g3, g4, g5, g6, g7, g8, g9, g10, g11, g12⟩ := h.geoI hp
  obtain ⟨k1, k2, k3, k4, k5, k6, k7, k8, k9⟩ := h.geoB g1
  have hnd := h.nd_even g1 (by omega)
  have l := pre.loc h hp (K := 2) (by omega)
  have hH : ceilquotient o.L 2 = o.H := rfl
  have hm0 : min (o.P * o.m - o.H + 1) o.e = o.m0 := rfl
  obtain ⟨hd0, hd1, hd00, hd10, hsub, hsub2⟩ := h.two (f := f) (W := W) hp
  obtain ⟨b0, b1, b00, b10, a1, a2, a3⟩ := h.facB (f := f) (W := W) hp
  have hb := pre.fW
  have hrq := h.qn (u := 0) (r := o.n / 2) (by omega) (by omega)
  rw [Nat.mul_zero, Nat.zero_add] at hrq
  unfold backwardInner
  simp only [hW, hH, g4, hm0]
  rw [if_pos trivial, if_neg hn]
  refine Cmd.Ok.bind ((r2c_first h pre).mono ?_)
  intro _ m1' rp1
  refine Cmd.Ok.bind ((r2c_second h pre hnd rp1).mono ?_)
  intro _ m1 rp
  have sz1 := rp.upd.size
  have fz := Fills.start (m0 := m1) (T := o.ZB m1 W (o.kd 0)) (dH_inj h (nd := 2) (W := W))
  refine Cmd.Ok.bind (fz.par1 (fun s => (1, 0, s, 0)) (rng_nodup _ _) ?_ ?_ ?_ ?_ ?_ ?_)
  · intro s hs; rw [mem_rng] at hs; exact (RH2I h (by omega) hs.2 1).2 (Or.inr rfl)
  · intro i _ j _ e; simpa using e
  · intro s hs
    rw [mem_rng] at hs
    have hv' := l.v00 h hp sz1 hs.2
    simp only [mulBy]
    body_flat
    exact ⟨h.zq_bd hp (by omega) hrq (by omega), hv'.2, hv'.2⟩
  · intro s hs
    rw [mem_rng] at hs
    simp only [mulBy]
    body_flat
    rw [h.z_val g1 (by omega)]
    unfold ZB
    rw [hd10, kd01, w_conj]
    simp
  · intro s hs p; simp only [mulBy]; body_flat; rintro rfl; exact Or.inr (hd10 s).symm
  intro m2 f2
  refine Cmd.Ok.bind (f2.parz (fun x : ℕ × ℕ => (x.1, x.2, 0)) (rng2_nodup _ _ _ _) ?_ ?_ ?_ ?_)
  · intro i _ j _ e; simp only [Prod.mk.injEq, and_true] at e; exact Prod.ext e.1 e.2
  · rintro ⟨u, s⟩ hs d hd
    simp only [mem_rng2, mem_rng, Prod.mk.injEq, false_or] at hs hd
    obtain ⟨i, hi, e⟩ := hd; omega
  · rintro ⟨u, s⟩ hs m' sm
    simp only [mem_rng2] at hs
    have hR := RH2I h hs.1.2 hs.2.2
    have hv0 := l.v0 h hp (by omega) (sm.size.trans sz1) hs.1.2 hs.2.2
    have hv1 := l.v1 h hp (by omega) (sm.size.trans sz1) hs.1.2 hs.2.2
    have hown0 := sm.own 0 ((hR 0).2 (Or.inl rfl))
    have hown1 := sm.own 1 ((hR 1).2 (Or.inr rfl))
    rw [hd0] at hown0
    rw [hd1] at hown1
    have hz : o.m * o.n * u + s = o.m * (o.n * u) + s := by ring
    have hnu : o.n * 1 ≤ o.n * u := Nat.mul_le_mul_left _ hs.1.1
    have hz' : o.m * o.n * u + (o.m * (o.n / 2) + s) = o.m * (o.n * u + o.n / 2) + s := by ring
    have hq1 := h.qn (r := o.n / 2) hs.1.2 (by omega)
    simp only [mulBy, Nat.mul_comm u o.e]
    refine Wr.mk2p hR (hd0 _ _) (hd1 _ _) ?_ ?_ ?_
    · body_flat
      rw [hz, hz']
      exact ⟨h.zq_bd hp (by omega) (by omega) (by omega), hv0, hv0, h.zq_bd hp (by omega) hq1 (by omega), hv1, hv1⟩
    · body_flat
      rw [hz, hz', h.z_val g1 (by omega), h.z_val g1 (by omega), set_mul (h.bw_ne hp hs.1.2 hs.2.2), hown0, hown1]
      unfold ZB
      rw [hd0, hd1, kd0, kd01, w_conj, w_conj]
      simp
    · intro p; body_flat; rintro (rfl | rfl) <;> simp
  intro m2' f2'
  refine Cmd.Ok.bind (fftpH_ok h (h.fftp_eq hp).2 (d := 0) (W := W) (by rw [Nat.mul_zero]; exact Ptr.add_zero _) Nat.two_pos (Fills.start (dH_inj h (nd := 2) (W := W))) (fun _ h => h)
    (fun x hx => f2'.valid (Mem.valid_of_size sz1 (l.hv x hx))) ?_)
  intro m3' f3'
  refine Cmd.Ok.bind (fftpH_ok h (h.fftp_eq hp).2 (d := 1) (W := W) (by rw [Nat.mul_one]) Nat.one_lt_two f3' (fun _ h => by simp at h)
    (fun x hx => f2'.valid (Mem.valid_of_size sz1 (l.hv x hx))) ?_)
  intro m3 f3
  have ip : o.IP mem m3 F W (o.kd 0) 2 := by
    refine stagesB h rp f2' ?_ f3 (fun k hk => by have := hk.1; simp only [false_or]; omega)
    rintro ⟨d, u, s, c⟩ hk hd
    by_contra hne
    have hk1 := hk.1
    simp only [not_or] at hne hk1
    obtain rfl : c = 0 := by have := hk.2.2.2; simp only at this; omega
    by_cases hu : u = 0
    · subst hu
      obtain rfl | rfl : d = 0 ∨ d = 1 := by omega
      · rw [kd0] at hne; simp at hne
      · exact hd (Or.inl (Or.inr ⟨s, mem_rng.2 ⟨by omega, hk.2.2.1⟩, rfl⟩))
    · exact hd (Or.inr ⟨(u, s), mem_rng2.2 ⟨⟨by simp only; omega, hk.2.1⟩, by simp only; omega, hk.2.2.1⟩, rfl⟩)
  have sz := ip.upd.size
  have fv : ∀ {m' : Mem} {j : ℕ}, m'.size = m3.size → j < o.H → m'.valid (f + j) := fun e hj => Mem.valid_of_size (e.trans sz) (l.hf _ hj)
  have wv : ∀ {m' : Mem} {t s : ℕ}, m'.size = m3.size → t < o.P → s < o.e → m'.valid (W + (o.e * t + s)) := fun e ht hs => l.v0 h hp (by omega) (e.trans sz) ht hs
  have vv : ∀ {m' : Mem} {t s : ℕ}, m'.size = m3.size → t < o.P → s < o.e → m'.valid (W + (o.Bw + (o.e * t + s))) := fun e ht hs => l.v1 h hp (by omega) (e.trans sz) ht hs
  have tb : ∀ {t : ℕ}, 0 < t → t ≤ o.P → o.Zetaqp.lo ≤ o.P * (o.n / 2) + t ∧ o.P * (o.n / 2) + t < o.Zetaqp.hi := fun h1 h2 => h.zqp_bd hp (by omega) (by omega) h1 h2
  have tv : ∀ {t : ℕ}, 0 < t → t ≤ o.P → o.Zetaqp.val (o.P * (o.n / 2) + t) = w o.q (t * (o.n / 2 : ℕ)) := fun h1 h2 => h.zqp_val hp h1 h2
  have T1 := fun {t s : ℕ} (hs : t * o.m + s ≤ o.P * o.m) => TB2I (mem := mem) (F := F) (f := f) h hnd (by omega) (t := t) (s := s) (c := 0) hs
  refine zonesBI (T := o.TB mem F f 0) (f := f) h hp ?_ ?_ ?_ ?_ ?_
  · intro s hs m' sm
    have hw := ip.W0 h hp (by omega) hb sm (t := 0) (s := s) (by omega) (by omega)
    have hw1 := ip.W1 h hp (by omega) hb sm (t := 0) (s := s) (by omega) (by omega)
    have v0 := l.v00 h hp (sm.size.trans sz) (s := s) (by omega)
    rw [Nat.mul_zero, Nat.zero_add] at hw hw1
    refine Wr.mk1p (RB_one h g1 (by omega) h.C_pos (by omega) (by omega)) (b00 _) ?_ ?_ ?_
    · body_flat
      exact ⟨v0.1, v0.2, fv sm.size (by omega)⟩
    · body_flat
      rw [hw, hw1, (T1 (by omega)).1]
      simp
    · intro p; body_flat; rintro (rfl | rfl) <;> exact Or.inl (rd_W hb _)
  · intro s hs0 hs m' sm
    have hw := ip.W0 h hp (by omega) hb sm (t := 0) (s := s) (by omega) (by omega)
    have hw1 := ip.W1 h hp (by omega) hb sm (t := 0) (s := s) (by omega) (by omega)
    have v0 := l.v00 h hp (sm.size.trans sz) (s := s) (by omega)
    rw [Nat.mul_zero, Nat.zero_add] at hw hw1
    have hsP : s ≤ o.P * o.m := by omega
    simp only [hsub s hsP]
    refine Wr.mk2r (RB_two h g1 (by omega) h.C_pos hs (by omega) (by omega)) (b00 _) (b10 _) ?_ ?_ ?_
    · body_flat
      exact ⟨v0.1, v0.2, fv sm.size (by omega), fv sm.size (by omega)⟩
    · body_flat
      rw [hw, hw1, (T1 (by omega)).1, (T1 (by omega)).2]
      simp
    · intro p; body_flat; rintro (rfl | rfl) <;> exact Or.inl (rd_W hb _)
  · intro t s ht0 ht hs m' sm
    obtain ⟨r1, r2⟩ := k7 t ht
    have h1 : 1 * o.m ≤ t * o.m := Nat.mul_le_mul_right _ (by omega)
    have hw := ip.W0 h hp (by omega) hb sm (t := t) (s := s) ht (by omega)
    have hw1 := ip.W1 h hp (by omega) hb sm (t := t) (s := s) ht (by omega)
    have vw := wv sm.size (s := s) ht (by omega)
    have vw1 := vv sm.size (s := s) ht (by omega)
    by_cases hs0 : s = 0
    · subst hs0
      rw [Nat.add_zero] at hw vw hw1 vw1
      simp only [if_true, Nat.mul_comm t o.e]
      refine Wr.mk1p (RB_one h g1 ht h.C_pos (by omega) (by omega)) (b0 _ _) ?_ ?_ ?_
      · body_flat
        exact ⟨tb ht0 (by omega), vw, vw1, fv sm.size (by omega)⟩
      · body_flat
        rw [hw, hw1, tv ht0 (by omega), (T1 (by omega)).1, Nat.add_zero, C30_zmult_xy_conj]
      · intro p; body_flat; rintro (rfl | rfl) <;> exact Or.inl (rd_W hb _)
    · have hsP : t * o.m + s ≤ o.P * o.m := by omega
      simp only [hsub2 t s hsP, Nat.mul_comm t o.e, if_neg hs0]
      refine Wr.mk2r (RB_two h g1 ht h.C_pos hs (by omega) (by omega)) (b0 _ _) (b1 _ _) ?_ ?_ ?_
      · body_flat
        exact ⟨tb ht0 (by omega), vw, vw1, fv sm.size (by omega), fv sm.size (by omega)⟩
      · body_flat
        rw [hw, hw1, tv ht0 (by omega), (T1 (by omega)).1, (T1 (by omega)).2, C30_zmult_xy_conj, C30_conj]
      · intro p; body_flat; rintro (rfl | rfl) <;> exact Or.inl (rd_W hb _)
  · intro hev m4 f4
    have := k8 hev
    refine lastB2 h hp ?_ ?_ f4
    · intro m' sm
      have hw := ip.W0 h hp (by omega) hb sm (t := 0) (s := o.e - 1) (by omega) (by omega)
      have hw1 := ip.W1 h hp (by omega) hb sm (t := 0) (s := o.e - 1) (by omega) (by omega)
      have v0 := l.v00 h hp (sm.size.trans sz) (s := o.e - 1) (by omega)
      rw [Nat.mul_zero, Nat.zero_add] at hw hw1
      refine Wr.mk1p (RB_one h g1 (by omega) h.C_pos (by omega) (by omega)) (b00 _) ?_ ?_ ?_
      · body_flat
        exact ⟨v0.1, v0.2, fv sm.size (by omega)⟩
      · body_flat
        rw [hw, hw1, (T1 (by omega)).1]
        simp
      · intro p; body_flat; rintro (rfl | rfl) <;> exact Or.inl (rd_W hb _)
    · intro t ht0 ht m' sm
      obtain ⟨r1, r2⟩ := k7 t ht
      simp only [a1, a2, a3]
      refine Wr.mk1p (RB_one h g1 ht h.C_pos (by omega) (by omega)) (b0 _ _) ?_ ?_ ?_
      · body_flat
        exact ⟨wv sm.size ht (by omega), tb ht0 (by omega), vv sm.size ht (by omega), fv sm.size (by omega)⟩
      · body_flat
        rw [ip.W0 h hp (by omega) hb sm ht (by omega), ip.W1 h hp (by omega) hb sm ht (by omega), tv ht0 (by omega), (T1 (by omega)).1]
      · intro p; body_flat; rintro (rfl | rfl) <;> exact Or.inl (rd_W hb _)
  · intro m4 f4
    exact finishB h g1 pre (by rw [hnd]; exact ip.upd) f4

theorem backwardInner_pos (h : o.WF) (hp : 2 < o.p) {F : Ptr} {W? : Option Ptr} (hW : W?.getD F = W) {r : ℕ} (hr : 0 < r) (hrn : 2 * r < o.n) (pre : o.Pre mem f F W r) :
    (o.backwardInner F f r W?).Ok mem (fun _ m' => o.BwdPost mem m' F f W r) := by
  obtain ⟨g1, g2, g3, g4, g5, g6, g7, g8, g9, g10, g11, g12⟩ := h.geoI hp
  obtain ⟨k1, k2, k3, k4, k5, k6, k7, k8, k9⟩ := h.geoB g1
  have hnd := h.nd_pos r hr
  have l := pre.loc h hp (K := 2) (by omega)
  have hH : ceilquotient o.L 2 = o.H := rfl
  have hm0 : min (o.P * o.m - o.H + 1) o.e = o.m0 := rfl
  obtain ⟨hd0, hd1, hd00, hd10, hsub, hsub2⟩ := h.two (f := f) (W := W) hp
  obtain ⟨b0, b1, b00, b10, a1, a2, a3⟩ := h.facB (f := f) (W := W) hp
  have hb := pre.fW
  have hrq := h.qn (u := 0) (r := r) (by omega) (by omega)
  rw [Nat.mul_zero, Nat.zero_add] at hrq
  unfold backwardInner
  simp only [hW, hH, g4, hm0]
  rw [if_neg (by omega)]
  refine Cmd.Ok.bind ((r2c_first h pre).mono ?_)
  intro _ m1' rp1
  refine Cmd.Ok.bind ((r2c_second h pre hnd rp1).mono ?_)
  intro _ m1 rp
  have sz1 := rp.upd.size
  refine Cmd.Ok.bind ((Fills.start (m0 := m1) (T := o.ZB m1 W (o.kd r)) (dH_inj h (nd := 2) (W := W))).parz (fun s => (0, s, 0)) (rng_nodup _ _) ?_ (fun _ _ _ h => h) ?_ ?_)
  · intro i _ j _ e; simpa using e
  · intro s hs m' sm
    rw [mem_rng] at hs
    have hR := RH2I h (t := 0) (s := s) (by omega) hs.2
    have hown0 := sm.own 0 ((hR 0).2 (Or.inl rfl))
    have hown1 := sm.own 1 ((hR 1).2 (Or.inr rfl))
    have hv' := l.v00 h hp (sm.size.trans sz1) hs.2
    rw [hd00] at hown0
    rw [hd10] at hown1
    have hne := h.bw_ne (W := W) hp h.P_pos hs.2
    rw [Nat.mul_zero, Nat.zero_add] at hne
    simp only [mulBy]
    refine Wr.mk2p hR (hd00 _) (hd10 _) ?_ ?_ ?_
    · body_flat
      exact ⟨h.zq_bd hp hr hrq (by omega), hv'.1, hv'.1, hv'.2, hv'.2⟩
    · body_flat
      rw [h.z_val g1 (by omega), set_mul hne, hown0, hown1]
      unfold ZB
      rw [hd00, hd10, w_conj, kd0, kd1 hr]
      simp
    · intro p; body_flat; rintro (rfl | rfl) <;> simp
  intro m2 f2
  refine Cmd.Ok.bind (f2.parz (fun x : ℕ × ℕ => (x.1, x.2, 0)) (rng2_nodup _ _ _ _) ?_ ?_ ?_ ?_)
  · intro i _ j _ e; simp only [Prod.mk.injEq, and_true] at e; exact Prod.ext e.1 e.2
  · rintro ⟨u, s⟩ hs d hd
    simp only [mem_rng2, mem_rng, Prod.mk.injEq, false_or] at hs hd
    obtain ⟨i, hi, e⟩ := hd; omega
  · rintro ⟨u, s⟩ hs m' sm
    simp only [mem_rng2] at hs
    have hR := RH2I h hs.1.2 hs.2.2
    have hv0 := l.v0 h hp (by omega) (sm.size.trans sz1) hs.1.2 hs.2.2
    have hv1 := l.v1 h hp (by omega) (sm.size.trans sz1) hs.1.2 hs.2.2
    have hown0 := sm.own 0 ((hR 0).2 (Or.inl rfl))
    have hown1 := sm.own 1 ((hR 1).2 (Or.inr rfl))
    rw [hd0] at hown0
    rw [hd1] at hown1
    have hz : o.n * o.m * u + (o.m * r + s) = o.m * (o.n * u + r) + s := by ring
    have hnu : o.n * 1 ≤ o.n * u := Nat.mul_le_mul_left _ hs.1.1
    have hz' : o.n * o.m * u - o.m * r + s = o.m * (o.n * u - r) + s := by
      rw [Nat.mul_sub]; congr 2; ring
    have hq1 := h.qn (r := r) hs.1.2 (by omega)
    simp only [mulBy, Nat.mul_comm u o.e]
    refine Wr.mk2p hR (hd0 _ _) (hd1 _ _) ?_ ?_ ?_
    · body_flat
      rw [hz, hz']
      exact ⟨h.zq_bd hp (by omega) hq1 (by omega), hv0, hv0, h.zq_bd hp (by omega) (by omega) (by omega), hv1, hv1⟩
    · body_flat
      rw [hz, hz', h.z_val g1 (by omega), h.z_val g1 (by omega), set_mul (h.bw_ne hp hs.1.2 hs.2.2), hown0, hown1]
      unfold ZB
      rw [hd0, hd1, kd0, kd1 hr, w_conj, w_conj]
      simp only
      rw [Nat.cast_sub (by omega)]
      push_cast
      rw [sub_eq_add_neg]
    · intro p; body_flat; rintro (rfl | rfl) <;> simp
  intro m2' f2'
  refine Cmd.Ok.bind (fftpH_ok h (h.fftp_eq hp).2 (d := 0) (W := W) (by rw [Nat.mul_zero]; exact Ptr.add_zero _) Nat.two_pos (Fills.start (dH_inj h (nd := 2) (W := W))) (fun _ h => h)
    (fun x hx => f2'.valid (Mem.valid_of_size sz1 (l.hv x hx))) ?_)
  intro m3' f3'
  refine Cmd.Ok.bind (fftpH_ok h (h.fftp_eq hp).2 (d := 1) (W := W) (by rw [Nat.mul_one]) Nat.one_lt_two f3' (fun _ h => by simp at h)
    (fun x hx => f2'.valid (Mem.valid_of_size sz1 (l.hv x hx))) ?_)
  intro m3 f3
  have ip : o.IP mem m3 F W (o.kd r) 2 := by
    refine stagesB h rp f2' ?_ f3 (fun k hk => by have := hk.1; simp only [false_or]; omega)
    rintro ⟨d, u, s, c⟩ hk hd
    by_contra hne
    simp only [not_or] at hne
    obtain rfl : c = 0 := by have := hk.2.2.2; simp only at this; omega
    by_cases hu : u = 0
    · subst hu
      exact hd (Or.inl (Or.inr ⟨s, mem_rng.2 ⟨by omega, hk.2.2.1⟩, rfl⟩))
    · exact hd (Or.inr ⟨(u, s), mem_rng2.2 ⟨⟨by simp only; omega, hk.2.1⟩, by simp only; omega, hk.2.2.1⟩, rfl⟩)
  have sz := ip.upd.size
  have fv : ∀ {m' : Mem} {j : ℕ}, m'.size = m3.size → j < o.H → m'.valid (f + j) := fun e hj => Mem.valid_of_size (e.trans sz) (l.hf _ hj)
  have wv : ∀ {m' : Mem} {t s : ℕ}, m'.size = m3.size → t < o.P → s < o.e → m'.valid (W + (o.e * t + s)) := fun e ht hs => l.v0 h hp (by omega) (e.trans sz) ht hs
  have vv : ∀ {m' : Mem} {t s : ℕ}, m'.size = m3.size → t < o.P → s < o.e → m'.valid (W + (o.Bw + (o.e * t + s))) := fun e ht hs => l.v1 h hp (by omega) (e.trans sz) ht hs
  have tb : ∀ {t : ℕ}, 0 < t → t ≤ o.P → o.Zetaqp.lo ≤ o.P * r + t ∧ o.P * r + t < o.Zetaqp.hi := fun h1 h2 => h.zqp_bd hp hr (by omega) h1 h2
  have tv : ∀ {t : ℕ}, 0 < t → t ≤ o.P → o.Zetaqp.val (o.P * r + t) = w o.q (t * r) := fun h1 h2 => h.zqp_val hp h1 h2
  have tP : o.Zetaqp.val (o.P * r + o.P) = w o.n r := by rw [tv (by omega) le_rfl, h.wP]
  have T1 := fun {t s : ℕ} (hs : t * o.m + s ≤ o.P * o.m) => TBrI (mem := mem) (F := F) (f := f) h hr (t := t) (s := s) (c := 0) hs
  have old0 : ∀ {m' : Mem} {t s : ℕ}, Same m3 m' o.RB (o.dB f) (t, s, 0) → o.RB (0, t, s, 0) → m'.val (f + (t * o.m + s)) = mem.val (o.dB f (0, t, s, 0)) :=
    fun sm hx => by rw [← b0, sm.own 0 hx, pre.old ip.upd]
  have old1 : ∀ {m' : Mem} {t s : ℕ}, Same m3 m' o.RB (o.dB f) (t, s, 0) → o.RB (1, t, s, 0) → m'.val (f + (o.P * o.m - (t * o.m + s))) = mem.val (o.dB f (1, t, s, 0)) :=
    fun sm hx => by rw [← b1, sm.own 1 hx, pre.old ip.upd]
  have hne : ∀ {t s : ℕ}, o.RB (0, t, s, 0) → o.RB (1, t, s, 0) → (f + (t * o.m + s) : Ptr) ≠ f + (o.P * o.m - (t * o.m + s)) := fun {t s} h0 h1 e => by
    rw [← b0, ← b1] at e
    have := dB_inj h g1 _ _ h0 h1 e
    simp at this
  refine zonesBI (T := o.TB mem F f r) (f := f) h hp ?_ ?_ ?_ ?_ ?_
  · intro s hs m' sm
    have hR := RB_one h g1 (t := 0) (s := s) (c := 0) (by omega) h.C_pos (by omega) (by omega)
    have hw := ip.W0 h hp (by omega) hb sm (t := 0) (s := s) (by omega) (by omega)
    have hw1 := ip.W1 h hp (by omega) hb sm (t := 0) (s := s) (by omega) (by omega)
    have v0 := l.v00 h hp (sm.size.trans sz) (s := s) (by omega)
    have o0 := old0 sm ((hR 0).2 rfl)
    rw [Nat.mul_zero, Nat.zero_add] at hw hw1
    rw [Nat.zero_mul, Nat.zero_add] at o0
    refine Wr.mk1p hR (b00 _) ?_ ?_ ?_
    · body_flat
      exact ⟨fv sm.size (by omega), v0.1, v0.2, fv sm.size (by omega)⟩
    · body_flat
      rw [o0, hw, hw1, (T1 (by omega)).1]
      simp [add_comm]
    · intro p; body_flat; rintro (rfl | rfl | rfl)
      · exact Or.inr rfl
      · exact Or.inl (rd_W hb _)
      · exact Or.inl (rd_W hb _)
  · intro s hs0 hs m' sm
    have hR := RB_two h g1 (t := 0) (s := s) (c := 0) (by omega) h.C_pos hs (by omega) (by omega)
    have hw := ip.W0 h hp (by omega) hb sm (t := 0) (s := s) (by omega) (by omega)
    have hw1 := ip.W1 h hp (by omega) hb sm (t := 0) (s := s) (by omega) (by omega)
    have v0 := l.v00 h hp (sm.size.trans sz) (s := s) (by omega)
    have o0 := old0 sm ((hR 0).2 (by simp))
    have o1 := old1 sm ((hR 1).2 (by simp))
    have hn' := hne ((hR 0).2 (by simp)) ((hR 1).2 (by simp))
    rw [Nat.mul_zero, Nat.zero_add] at hw hw1
    rw [Nat.zero_mul, Nat.zero_add] at o0 o1 hn'
    have hsP : s ≤ o.P * o.m := by omega
    simp only [hsub s hsP]
    refine Wr.mk2r hR (b00 _) (b10 _) ?_ ?_ ?_
    · body_flat
      exact ⟨tb (by omega) le_rfl, v0.1, v0.2, fv sm.size (by omega), fv sm.size (by omega), fv sm.size (by omega), fv sm.size (by omega)⟩
    · body_flat
      rw [set_mul hn', o0, o1, hw, hw1, (T1 (by omega)).1, (T1 (by omega)).2, tP, C30_zmult2_xy, C30_conj]
      simp [add_comm, add_left_comm, add_assoc]
    · intro p; body_flat; rintro (rfl | rfl | rfl | rfl)
      · exact Or.inl (rd_W hb _)
      · exact Or.inl (rd_W hb _)
      · exact Or.inr (Or.inr rfl)
      · exact Or.inr (Or.inl rfl)
  · intro t s ht0 ht hs m' sm
    obtain ⟨r1, r2⟩ := k7 t ht
    have h1 : 1 * o.m ≤ t * o.m := Nat.mul_le_mul_right _ (by omega)
    have hw := ip.W0 h hp (by omega) hb sm (t := t) (s := s) ht (by omega)
    have hw1 := ip.W1 h hp (by omega) hb sm (t := t) (s := s) ht (by omega)
    have vw := wv sm.size (s := s) ht (by omega)
    have vw1 := vv sm.size (s := s) ht (by omega)
    by_cases hs0 : s = 0
    · subst hs0
      have hR := RB_one h g1 (t := t) (s := 0) (c := 0) ht h.C_pos (by omega) (by omega)
      have o0 := old0 sm ((hR 0).2 rfl)
      rw [Nat.add_zero] at hw vw hw1 vw1 o0
      simp only [if_true, Nat.mul_comm t o.e]
      refine Wr.mk1p hR (b0 _ _) ?_ ?_ ?_
      · body_flat
        exact ⟨tb (by omega) le_rfl, tb ht0 (by omega), fv sm.size (by omega), vw1, vw, fv sm.size (by omega)⟩
      · body_flat
        rw [o0, hw, hw1, tv ht0 (by omega), (T1 (by omega)).1, Nat.add_zero, C30_zmult2_xy]
      · intro p; body_flat; rintro (rfl | rfl | rfl)
        · exact Or.inr rfl
        · exact Or.inl (rd_W hb _)
        · exact Or.inl (rd_W hb _)
    · have hR := RB_two h g1 (t := t) (s := s) (c := 0) ht h.C_pos hs (by omega) (by omega)
      have o0 := old0 sm ((hR 0).2 (by simp))
      have o1 := old1 sm ((hR 1).2 (by simp))
      have hn' := hne ((hR 0).2 (by simp)) ((hR 1).2 (by simp))
      have hsP : t * o.m + s ≤ o.P * o.m := by omega
      simp only [hsub2 t s hsP, Nat.mul_comm t o.e, if_neg hs0]
      refine Wr.mk2r hR (b0 _ _) (b1 _ _) ?_ ?_ ?_
      · body_flat
        exact ⟨tb (by omega) le_rfl, tb ht0 (by omega), vw, vw1, fv sm.size (by omega), fv sm.size (by omega), fv sm.size (by omega), fv sm.size (by omega)⟩
      · body_flat
        rw [set_mul hn', o0, o1, hw, hw1, tP, tv ht0 (by omega), (T1 (by omega)).1, (T1 (by omega)).2, zmult_xy_negy, C30_zmult2_xy, C30_zmult2_xy, C30_conj]
      · intro p; body_flat; rintro (rfl | rfl | rfl | rfl)
        · exact Or.inl (rd_W hb _)
        · exact Or.inl (rd_W hb _)
        · exact Or.inr (Or.inr rfl)
        · exact Or.inr (Or.inl rfl)
  · intro hev m4 f4
    have := k8 hev
    refine lastB2 h hp ?_ ?_ f4
    · intro m' sm
      have hR := RB_one h g1 (t := 0) (s := o.e - 1) (c := 0) (by omega) h.C_pos (by omega) (by omega)
      have hw := ip.W0 h hp (by omega) hb sm (t := 0) (s := o.e - 1) (by omega) (by omega)
      have hw1 := ip.W1 h hp (by omega) hb sm (t := 0) (s := o.e - 1) (by omega) (by omega)
      have v0 := l.v00 h hp (sm.size.trans sz) (s := o.e - 1) (by omega)
      have o0 := old0 sm ((hR 0).2 rfl)
      rw [Nat.mul_zero, Nat.zero_add] at hw hw1
      rw [Nat.zero_mul, Nat.zero_add] at o0
      refine Wr.mk1p hR (b00 _) ?_ ?_ ?_
      · body_flat
        exact ⟨fv sm.size (by omega), v0.1, v0.2, fv sm.size (by omega)⟩
      · body_flat
        rw [o0, hw, hw1, (T1 (by omega)).1]
        simp [add_comm]
      · intro p; body_flat; rintro (rfl | rfl | rfl)
        · exact Or.inr rfl
        · exact Or.inl (rd_W hb _)
        · exact Or.inl (rd_W hb _)
    · intro t ht0 ht m' sm
      obtain ⟨r1, r2⟩ := k7 t ht
      have hR := RB_one h g1 (t := t) (s := o.e - 1) (c := 0) ht h.C_pos (by omega) (by omega)
      have o0 := old0 sm ((hR 0).2 rfl)
      simp only [a1, a2, a3]
      refine Wr.mk1p hR (b0 _ _) ?_ ?_ ?_
      · body_flat
        exact ⟨tb ht0 (by omega), fv sm.size (by omega), vv sm.size ht (by omega), wv sm.size ht (by omega), fv sm.size (by omega)⟩
      · body_flat
        rw [o0, ip.W0 h hp (by omega) hb sm ht (by omega), ip.W1 h hp (by omega) hb sm ht (by omega), tv ht0 (by omega), (T1 (by omega)).1, C30_zmult2_xy]
      · intro p; body_flat; rintro (rfl | rfl | rfl)
        · exact Or.inr rfl
        · exact Or.inl (rd_W hb _)
        · exact Or.inl (rd_W hb _)
  · intro m4 f4
    exact finishB h g1 pre (by rw [hnd]; exact ip.upd) f4

theorem backwardInner_ok (h : o.WF) (hp : 2 < o.p) {F : Ptr} {W? : Option Ptr} (hW : W?.getD F = W) {r : ℕ} (hr : o.Visit r) (pre : o.Pre mem f F W r) :
    (o.backwardInner F f r W?).Ok mem (fun _ m' => o.BwdPost mem m' F f W r) := by
  rcases Nat.eq_zero_or_pos r with rfl | hr0
  · by_cases hn : 2 * (o.n / 2) < o.n
    · exact backwardInner0odd h hp hW pre hn
    · exact backwardInner0even h hp hW pre hn
  · rcases hr with hr | hr
    · omega
    · exact backwardInner_pos h hp hW hr0 hr.2 pre

end
end Herm
end Fftwpp
