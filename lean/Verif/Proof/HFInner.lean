import Verif.Proof.HInner

/-! `fftPadHermitian::forwardInner`. -/

namespace Fftwpp
namespace Herm
open Finset ComplexConjugate
open Fft (copy1 zero1)
open Cent (mulBy set_mul)
variable {o : Herm}

/-- What the loops of the inner routines use. -/
structure Loc (o : Herm) (mem : Mem) (f W : Ptr) (K : ℕ) : Prop where
  hv : ∀ x, o.RH K x → mem.valid (o.dH W x)
  hf : ∀ j < o.H, mem.valid (f + j)
  hb : f.buf ≠ W.buf

section
variable {f W : Ptr} {mem : Mem}

theorem Pre.loc (h : o.WF) (hp : 2 < o.p) {F : Ptr} {r K : ℕ} (pre : o.Pre mem f F W r) (hK : K ≤ o.nd r) : o.Loc mem f W K := by
  refine ⟨h.dHv pre hK, fun j hj => ?_, pre.fW⟩
  have := pre.vf j hj 0 h.C_pos
  rw [(h.geoI hp).2.2.1] at this
  simpa using this

theorem Loc.fv {K : ℕ} (l : o.Loc mem f W K) {m' : Mem} {k} (sm : Same mem m' (o.RH K) (o.dH W) k) (j : ℕ) : m'.val (f + j) = mem.val (f + j) :=
  sm.frame _ (rd_f l.hb j)

theorem Loc.v0 {K : ℕ} (h : o.WF) (hp : 2 < o.p) (l : o.Loc mem f W K) (hK : 0 < K) {m' : Mem} (hs : m'.size = mem.size) {t s : ℕ} (ht : t < o.P) (hse : s < o.e) :
    m'.valid (W + (o.e * t + s)) := by
  have := l.hv (0, t, s, 0) ((h.RHI ht hse 0).2 hK)
  rw [h.dHI hp, Nat.mul_zero, Nat.zero_add] at this
  exact Mem.valid_of_size hs this

theorem Loc.v1 {K : ℕ} (h : o.WF) (hp : 2 < o.p) (l : o.Loc mem f W K) (hK : 1 < K) {m' : Mem} (hs : m'.size = mem.size) {t s : ℕ} (ht : t < o.P) (hse : s < o.e) :
    m'.valid (W + (o.Bw + (o.e * t + s))) := by
  have := l.hv (1, t, s, 0) ((h.RHI ht hse 1).2 hK)
  rw [h.dHI hp, Nat.mul_one] at this
  exact Mem.valid_of_size hs this

theorem RH1I (h : o.WF) {t s : ℕ} (ht : t < o.P) (hs : s < o.e) (d : ℕ) : o.RH 1 (d, t, s, 0) ↔ d = 0 := by
  rw [h.RHI ht hs]; omega
theorem RH2I (h : o.WF) {t s : ℕ} (ht : t < o.P) (hs : s < o.e) (d : ℕ) : o.RH 2 (d, t, s, 0) ↔ d = 0 ∨ d = 1 := by
  rw [h.RHI ht hs]; omega

/-- The data as used by `TH`, with `C=1`. -/
theorem WF.x_eq (h : o.WF) (hp : 2 < o.p) (T : (ℕ → ℕ → ℂ) → (ℕ × ℕ × ℕ × ℕ) → ℂ) {K : ℕ}
    (hT : T = (fun x => o.TH x (o.kd K))) {m1 : Mem} {N : ℕ}
    (hf : Fills mem m1 (o.RH N) (o.dH W) (T fun _ j => mem.val (f + j)) (fun _ => True)) :
    Fills mem m1 (o.RH N) (o.dH W) (o.TH (fun c j => mem.val (f + (o.C * j + c))) (o.kd K)) (fun _ => True) := by
  subst hT
  refine hf.vals (fun k hk _ => ?_) (fun _ _ h => (h trivial).elim)
  obtain ⟨_, _, _, hc⟩ := hk
  have hC := (h.geoI hp).2.2.1
  unfold TH
  have : k.2.2.2 = 0 := by omega
  rw [this, hC]
  simp

theorem forwardInner0odd (h : o.WF) (hp : 2 < o.p) {F : Ptr} {W? : Option Ptr} (hW : W?.getD F = W) (pre : o.Pre mem f F W 0) (hn : 2 * (o.n / 2) < o.n) :
    (o.forwardInner f F 0 W?).Ok mem (fun _ m' => o.FwdPost mem m' f F W 0) := by
  obtain ⟨g1, g2, g3, g4, g5, g6, g7, g8, g9, g10, g11, g12⟩ := h.geoI hp
  have hnd := h.nd_odd g1 (by omega)
  have l := pre.loc h hp (K := 1) (by omega)
  have hH : ceilquotient o.L 2 = o.H := rfl
  have hm0 : min (o.P * o.m - o.H + 1) o.e = o.m0 := rfl
  have hd0 : ∀ t s, o.dH W (0, t, s, 0) = W + (o.e * t + s) := fun t s => by rw [h.dHI hp, Nat.mul_zero, Nat.zero_add]
  have hd00 : ∀ s, o.dH W (0, 0, s, 0) = W + s := fun s => by rw [hd0]; simp
  have hv00 : ∀ {m' : Mem} {s : ℕ}, m'.size = mem.size → s < o.e → m'.valid (W + s) := fun hs hse => by
    have := l.v0 h hp (by omega) hs (t := 0) (by omega) hse; simpa using this
  have hsub : ∀ i : ℕ, i ≤ o.P * o.m → f + o.P * o.m - i = f + (o.P * o.m - i) := fun i hi => by
    rw [Ptr.ext_iff]; simp; omega
  have hsub2 : ∀ t s : ℕ, t * o.m + s ≤ o.P * o.m → f + o.P * o.m - t * o.m - s = f + (o.P * o.m - (t * o.m + s)) := fun t s hi => by
    rw [Ptr.ext_iff]; simp; omega
  unfold forwardInner
  simp only [hW, hH, g4, hm0]
  rw [if_pos trivial, if_pos hn]
  refine zonesI (K := 1) (W := W) (T := o.GH (fun _ j => mem.val (f + j)) (o.kd 0)) h hp ?_ ?_ ?_ ?_
  · intro s hs0 hs m' sm
    refine Wr.mk1p (RH1I h (by omega) hs) (hd00 _) ?_ ?_ ?_
    · body_flat
      exact ⟨sm.valid (l.hf _ (by omega)), hv00 sm.size hs⟩
    · body_flat
      rw [l.fv sm, GH1 _ _ h hp hs0]
    · intro p; body_flat; rintro rfl; exact Or.inl (rd_f l.hb _)
  · intro s hs0 hs m' sm
    have hsP : s ≤ o.P * o.m := by omega
    refine Wr.mk1p (RH1I h (by omega) hs) (hd00 _) ?_ ?_ ?_
    · rw [hsub s hsP]
      body_flat
      exact ⟨sm.valid (l.hf _ (by unfold m0 at hs0; omega)), sm.valid (l.hf _ (by omega)), hv00 sm.size hs⟩
    · rw [hsub s hsP]
      body_flat
      rw [l.fv sm, l.fv sm, GH2 _ _ h hp hs0 hs, kd0]
      simp [add_comm]
    · rw [hsub s hsP]
      intro p; body_flat; rintro (rfl | rfl) <;> exact Or.inl (rd_f l.hb _)
  · intro t s ht0 ht hs m' sm
    obtain ⟨r1, r2⟩ := h.rowt hp ht
    have hsP : t * o.m + s ≤ o.P * o.m := by omega
    have h1 : 1 * o.m ≤ t * o.m := Nat.mul_le_mul_right _ (by omega)
    simp only [hsub2 t s hsP, Nat.mul_comm t o.e]
    refine Wr.mk1p (RH1I h ht hs) (hd0 _ _) ?_ ?_ ?_
    · body_flat
      exact ⟨sm.valid (l.hf _ (by omega)), sm.valid (l.hf _ (by omega)), l.v0 h hp (by omega) sm.size ht hs⟩
    · body_flat
      rw [l.fv sm, l.fv sm, GH3 _ _ h hp ht0 ht hs, kd0]
      simp [add_comm]
    · intro p; body_flat; rintro (rfl | rfl) <;> exact Or.inl (rd_f l.hb _)
  intro m1 f1
  refine Cmd.Ok.bind (fftpH_ok h (h.fftp_eq hp).1 (d := 0) (W := W) (by rw [Nat.mul_zero]; exact Ptr.add_zero _) Nat.one_pos (Fills.start (dH_inj h (nd := 1) (W := W))) (fun _ h => h)
    (fun x hx => f1.valid (l.hv x hx)) ?_)
  intro m2 f2
  refine Cmd.Ok.bind ((Fills.start (T := o.ZH m2 W (o.kd 0)) (dH_inj h (nd := 1) (W := W))).parz (fun x : ℕ × ℕ => (x.1, x.2, 0)) (rng2_nodup _ _ _ _) ?_ (fun _ _ _ h => h) ?_ ?_)
  · intro i _ j _ e; simp only [Prod.mk.injEq, and_true] at e; exact Prod.ext e.1 e.2
  · rintro ⟨u, s⟩ hs m' sm
    simp only [mem_rng2] at hs
    have hR := RH1I h hs.1.2 hs.2.2
    have hv := l.v0 h hp (by omega) (sm.size.trans (f2.size.trans f1.size)) hs.1.2 hs.2.2
    have hown := sm.own 0 ((hR 0).2 rfl)
    rw [hd0] at hown
    have hz : o.m * o.n * u + s = o.m * (o.n * u) + s := by rw [Nat.mul_assoc]
    have hnu : 0 < o.n * u := Nat.mul_pos h.n_pos hs.1.1
    have hq := h.qn hs.1.2 h.n_pos
    simp only [mulBy, Nat.mul_comm u o.e]
    refine Wr.mk1p hR (hd0 _ _) ?_ ?_ ?_
    · body_flat
      rw [hz]
      exact ⟨h.zq_bd hp hnu (by omega) (by omega), hv, hv⟩
    · body_flat
      rw [hz, h.z_val g1 (by omega), hown]
      unfold ZH
      rw [hd0, kd0]
      simp
    · intro p; body_flat; rintro rfl; exact Or.inr rfl
  intro m3 f3
  refine finish1 h pre hnd (h.x_eq hp _ rfl (stagesH h f1 f2 (fun k hk => Or.inr (by have := hk.1; omega)) f3 ?_))
  rintro ⟨d, u, s, c⟩ hk hd
  by_contra hne
  have hd0 := hk.1
  simp only [not_or] at hne hd0
  obtain rfl : d = 0 := by omega
  rw [kd0] at hne
  obtain rfl : c = 0 := by have := hk.2.2.2; simp only at this; omega
  exact hd (Or.inr ⟨(u, s), mem_rng2.2 ⟨⟨by simp only; simp at hne; omega, hk.2.1⟩, by simp only; omega, hk.2.2.1⟩, rfl⟩)

/-- Facts about the two work blocks. -/
theorem WF.two (h : o.WF) (hp : 2 < o.p) : (∀ t s, o.dH W (0, t, s, 0) = W + (o.e * t + s)) ∧ (∀ t s, o.dH W (1, t, s, 0) = W + (o.Bw + (o.e * t + s))) ∧
    (∀ s, o.dH W (0, 0, s, 0) = W + s) ∧ (∀ s, o.dH W (1, 0, s, 0) = W + (o.Bw + s)) ∧
    (∀ i, i ≤ o.P * o.m → f + o.P * o.m - i = f + (o.P * o.m - i)) ∧
    (∀ t s, t * o.m + s ≤ o.P * o.m → f + o.P * o.m - t * o.m - s = f + (o.P * o.m - (t * o.m + s))) := by
  refine ⟨fun t s => ?_, fun t s => ?_, fun s => ?_, fun s => ?_, fun i hi => ?_, fun t s hi => ?_⟩
  · rw [h.dHI hp, Nat.mul_zero, Nat.zero_add]
  · rw [h.dHI hp, Nat.mul_one]
  · rw [h.dHI hp, Nat.mul_zero, Nat.zero_add, Nat.mul_zero, Nat.zero_add]
  · rw [h.dHI hp, Nat.mul_one, Nat.mul_zero, Nat.zero_add]
  · rw [Ptr.ext_iff]; simp; omega
  · rw [Ptr.ext_iff]; simp; omega

theorem Loc.v00 (h : o.WF) (hp : 2 < o.p) (l : o.Loc mem f W 2) {m' : Mem} (hs : m'.size = mem.size) {s : ℕ} (hse : s < o.e) :
    m'.valid (W + s) ∧ m'.valid (W + (o.Bw + s)) := by
  have h0 := l.v0 h hp (by omega) hs h.P_pos hse
  have h1 := l.v1 h hp (by omega) hs h.P_pos hse
  rw [Nat.mul_zero, Nat.zero_add] at h0 h1
  exact ⟨h0, h1⟩

theorem WF.bw_ne (h : o.WF) (hp : 2 < o.p) {t s : ℕ} (ht : t < o.P) (hs : s < o.e) : (W + (o.Bw + (o.e * t + s)) : Ptr) ≠ W + (o.e * t + s) := by
  rw [Ne, Ptr.add_inj]; have := h.cellI hp ht hs; omega

theorem WF.half_n (h : o.WF) (hn : o.n % 2 = 0) : w o.n (-((o.n / 2 : ℕ) : ℤ)) = -1 :=
  (w_half_neg (by omega) (by have := h.n_pos; omega)).2

theorem forwardInner0even (h : o.WF) (hp : 2 < o.p) {F : Ptr} {W? : Option Ptr} (hW : W?.getD F = W) (pre : o.Pre mem f F W 0) (hn : ¬ 2 * (o.n / 2) < o.n) :
    (o.forwardInner f F 0 W?).Ok mem (fun _ m' => o.FwdPost mem m' f F W 0) := by
  obtain ⟨g1, g2, g3, g4, g5, g6, g7, g8, g9, g10, g11, g12⟩ := h.geoI hp
  have hnd := h.nd_even g1 (by omega)
  have l := pre.loc h hp (K := 2) (by omega)
  have hH : ceilquotient o.L 2 = o.H := rfl
  have hm0 : min (o.P * o.m - o.H + 1) o.e = o.m0 := rfl
  obtain ⟨hd0, hd1, hd00, hd10, hsub, hsub2⟩ := h.two (f := f) (W := W) hp
  have hwn := h.half_n (by omega)
  unfold forwardInner
  simp only [hW, hH, g4, hm0]
  rw [if_pos trivial, if_neg hn]
  refine zonesI (K := 2) (W := W) (T := o.GH (fun _ j => mem.val (f + j)) (o.kd 0)) h hp ?_ ?_ ?_ ?_
  · intro s hs0 hs m' sm
    refine Wr.mk2p (RH2I h (by omega) hs) (hd00 _) (hd10 _) ?_ ?_ ?_
    · body_flat
      exact ⟨sm.valid (l.hf _ (by omega)), l.v00 h hp sm.size hs⟩
    · body_flat
      rw [l.fv sm, GH1 _ _ h hp hs0, GH1 _ _ h hp hs0]
    · intro p; body_flat; rintro rfl; exact Or.inl (rd_f l.hb _)
  · intro s hs0 hs m' sm
    have hsP : s ≤ o.P * o.m := by omega
    rw [hsub s hsP]
    refine Wr.mk2p (RH2I h (by omega) hs) (hd00 _) (hd10 _) ?_ ?_ ?_
    · body_flat
      exact ⟨sm.valid (l.hf _ (by unfold m0 at hs0; omega)), sm.valid (l.hf _ (by omega)), l.v00 h hp sm.size hs⟩
    · body_flat
      rw [l.fv sm, l.fv sm, GH2 _ _ h hp hs0 hs, GH2 _ _ h hp hs0 hs, kd0, kd01, hwn]
      simp [add_comm]
    · intro p; body_flat; rintro (rfl | rfl) <;> exact Or.inl (rd_f l.hb _)
  · intro t s ht0 ht hs m' sm
    obtain ⟨r1, r2⟩ := h.rowt hp ht
    have hsP : t * o.m + s ≤ o.P * o.m := by omega
    have h1 : 1 * o.m ≤ t * o.m := Nat.mul_le_mul_right _ (by omega)
    simp only [hsub2 t s hsP, Nat.mul_comm t o.e]
    refine Wr.mk2p (RH2I h ht hs) (hd0 _ _) (hd1 _ _) ?_ ?_ ?_
    · body_flat
      exact ⟨h.zqp_bd hp (by omega) (by omega) ht0 (by omega), sm.valid (l.hf _ (by omega)), sm.valid (l.hf _ (by omega)), l.v0 h hp (by omega) sm.size ht hs,
        l.v1 h hp (by omega) sm.size ht hs⟩
    · body_flat
      rw [l.fv sm, l.fv sm, GH3 _ _ h hp ht0 ht hs, GH3 _ _ h hp ht0 ht hs, kd0, kd01, hwn, h.zqp_val hp ht0 (by omega), C30_zmult_xy, C30_conj]
      simp [add_comm, sub_eq_add_neg]
    · intro p; body_flat; rintro (rfl | rfl) <;> exact Or.inl (rd_f l.hb _)
  intro m1 f1
  refine Cmd.Ok.bind (fftpH_ok h (h.fftp_eq hp).1 (d := 0) (W := W) (by rw [Nat.mul_zero]; exact Ptr.add_zero _) Nat.two_pos (Fills.start (dH_inj h (nd := 2) (W := W))) (fun _ h => h)
    (fun x hx => f1.valid (l.hv x hx)) ?_)
  intro m1' f1'
  refine Cmd.Ok.bind (fftpH_ok h (h.fftp_eq hp).1 (d := 1) (W := W) (by rw [Nat.mul_one]) Nat.one_lt_two f1' (fun _ h => by simp at h)
    (fun x hx => f1.valid (l.hv x hx)) ?_)
  intro m2 f2
  have sz2 := f2.size.trans f1.size
  have hrq := h.qn (u := 0) (r := o.n / 2) (by omega) (by omega)
  rw [Nat.mul_zero, Nat.zero_add] at hrq
  have fz := Fills.start (m0 := m2) (T := o.ZH m2 W (o.kd 0)) (dH_inj h (nd := 2) (W := W))
  refine Cmd.Ok.bind (fz.par1 (fun s => (1, 0, s, 0)) (rng_nodup _ _) ?_ ?_ ?_ ?_ ?_ ?_)
  · intro s hs; rw [mem_rng] at hs; exact (RH2I h (by omega) hs.2 1).2 (Or.inr rfl)
  · intro i _ j _ e; simpa using e
  · intro s hs
    rw [mem_rng] at hs
    have hv' := l.v00 h hp sz2 hs.2
    simp only [mulBy]
    body_flat
    exact ⟨h.zq_bd hp (by omega) hrq (by omega), hv'.2, hv'.2⟩
  · intro s hs
    rw [mem_rng] at hs
    simp only [mulBy]
    body_flat
    rw [h.z_val g1 (by omega)]
    unfold ZH
    rw [hd10, kd01]
    simp
  · intro s hs p; simp only [mulBy]; body_flat; rintro rfl; exact Or.inr (hd10 s).symm
  intro m3 f3
  refine Cmd.Ok.bind (f3.parz (fun x : ℕ × ℕ => (x.1, x.2, 0)) (rng2_nodup _ _ _ _) ?_ ?_ ?_ ?_)
  · intro i _ j _ e; simp only [Prod.mk.injEq, and_true] at e; exact Prod.ext e.1 e.2
  · rintro ⟨u, s⟩ hs d hd
    simp only [mem_rng2, mem_rng, Prod.mk.injEq, false_or] at hs hd
    obtain ⟨i, hi, e⟩ := hd; omega
  · rintro ⟨u, s⟩ hs m' sm
    simp only [mem_rng2] at hs
    have hR := RH2I h hs.1.2 hs.2.2
    have hv0 := l.v0 h hp (by omega) (sm.size.trans sz2) hs.1.2 hs.2.2
    have hv1 := l.v1 h hp (by omega) (sm.size.trans sz2) hs.1.2 hs.2.2
    have hown0 := sm.own 0 ((hR 0).2 (Or.inl rfl))
    have hown1 := sm.own 1 ((hR 1).2 (Or.inr rfl))
    rw [hd0] at hown0
    rw [hd1] at hown1
    have hz : o.m * o.n * u + s = o.m * (o.n * u) + s := by ring
    have hnu : o.n * 1 ≤ o.n * u := Nat.mul_le_mul_left _ hs.1.1
    have hz' : o.m * o.n * u + (o.m * (o.n / 2) + s) = o.m * (o.n * u + o.n / 2) + s := by ring
    have hq1 := h.qn (r := o.n / 2) hs.1.2 (by omega)
    simp only [mulBy, Nat.mul_comm u o.e]
    refine Wr.mk2p hR (hd0 _ _) (hd1 _ _) ?_ ?_ ?_
    · body_flat
      rw [hz, hz']
      exact ⟨h.zq_bd hp (by omega) (by omega) (by omega), hv0, hv0, h.zq_bd hp (by omega) hq1 (by omega), hv1, hv1⟩
    · body_flat
      rw [hz, hz', h.z_val g1 (by omega), h.z_val g1 (by omega), set_mul (h.bw_ne hp hs.1.2 hs.2.2), hown0, hown1]
      unfold ZH
      rw [hd0, hd1, kd0, kd01]
      simp
    · intro p; body_flat; rintro (rfl | rfl) <;> simp
  intro m4 f4
  refine finish2 h pre hnd (h.x_eq hp _ rfl (stagesH h f1 f2 (fun k hk => by have := hk.1; simp only [false_or]; omega) f4 ?_))
  rintro ⟨d, u, s, c⟩ hk hd
  by_contra hne
  have hk1 := hk.1
  simp only [not_or] at hne hk1
  obtain rfl : c = 0 := by have := hk.2.2.2; simp only at this; omega
  by_cases hu : u = 0
  · subst hu
    obtain rfl | rfl : d = 0 ∨ d = 1 := by omega
    · rw [kd0] at hne; simp at hne
    · exact hd (Or.inl (Or.inr ⟨s, mem_rng.2 ⟨by omega, hk.2.2.1⟩, rfl⟩))
  · exact hd (Or.inr ⟨(u, s), mem_rng2.2 ⟨⟨by simp only; omega, hk.2.1⟩, by simp only; omega, hk.2.2.1⟩, rfl⟩)

theorem forwardInner_pos (h : o.WF) (hp : 2 < o.p) {F : Ptr} {W? : Option Ptr} (hW : W?.getD F = W) {r : ℕ} (hr : 0 < r) (hrn : 2 * r < o.n) (pre : o.Pre mem f F W r) :
    (o.forwardInner f F r W?).Ok mem (fun _ m' => o.FwdPost mem m' f F W r) := by
  obtain ⟨g1, g2, g3, g4, g5, g6, g7, g8, g9, g10, g11, g12⟩ := h.geoI hp
  have hnd := h.nd_pos r hr
  have l := pre.loc h hp (K := 2) (by omega)
  have hH : ceilquotient o.L 2 = o.H := rfl
  have hm0 : min (o.P * o.m - o.H + 1) o.e = o.m0 := rfl
  obtain ⟨hd0, hd1, hd00, hd10, hsub, hsub2⟩ := h.two (f := f) (W := W) hp
  have tb : ∀ {t}, 0 < t → t ≤ o.P → o.Zetaqp.lo ≤ o.P * r + t ∧ o.P * r + t < o.Zetaqp.hi := fun h1 h2 => h.zqp_bd hp hr (by omega) h1 h2
  have tv : ∀ {t}, 0 < t → t ≤ o.P → o.Zetaqp.val (o.P * r + t) = w o.q (t * r) := fun h1 h2 => h.zqp_val hp h1 h2
  have tP : o.Zetaqp.val (o.P * r + o.P) = w o.n r := by rw [tv (by omega) le_rfl, h.wP]
  unfold forwardInner
  simp only [hW, hH, g4, hm0]
  rw [if_neg (by omega), h.V_eq pre.sep]
  refine zonesI (K := 2) (W := W) (T := o.GH (fun _ j => mem.val (f + j)) (o.kd r)) h hp ?_ ?_ ?_ ?_
  · intro s hs0 hs m' sm
    refine Wr.mk2p (RH2I h (by omega) hs) (hd00 _) (hd10 _) ?_ ?_ ?_
    · body_flat
      exact ⟨sm.valid (l.hf _ (by omega)), l.v00 h hp sm.size hs⟩
    · body_flat
      rw [l.fv sm, GH1 _ _ h hp hs0, GH1 _ _ h hp hs0]
    · intro p; body_flat; rintro rfl; exact Or.inl (rd_f l.hb _)
  · intro s hs0 hs m' sm
    have hsP : s ≤ o.P * o.m := by omega
    rw [hsub s hsP]
    refine Wr.mk2p (RH2I h (by omega) hs) (hd00 _) (hd10 _) ?_ ?_ ?_
    · body_flat
      exact ⟨tb (by omega) le_rfl, sm.valid (l.hf _ (by unfold m0 at hs0; omega)), sm.valid (l.hf _ (by omega)), l.v00 h hp sm.size hs⟩
    · body_flat
      rw [l.fv sm, l.fv sm, GH2 _ _ h hp hs0 hs, GH2 _ _ h hp hs0 hs, kd0, kd1 hr, tP, C30_pair_add, C30_pair_sub, C30_conj, C30_conj, Complex.conj_conj, w_conj, neg_neg]
      simp [add_comm]
    · intro p; body_flat; rintro (rfl | rfl) <;> exact Or.inl (rd_f l.hb _)
  · intro t s ht0 ht hs m' sm
    obtain ⟨r1, r2⟩ := h.rowt hp ht
    have hsP : t * o.m + s ≤ o.P * o.m := by omega
    have h1 : 1 * o.m ≤ t * o.m := Nat.mul_le_mul_right _ (by omega)
    simp only [hsub2 t s hsP, Nat.mul_comm t o.e]
    refine Wr.mk2p (RH2I h ht hs) (hd0 _ _) (hd1 _ _) ?_ ?_ ?_
    · body_flat
      exact ⟨tb (by omega) le_rfl, tb ht0 (by omega), sm.valid (l.hf _ (by omega)), sm.valid (l.hf _ (by omega)), l.v0 h hp (by omega) sm.size ht hs,
        l.v1 h hp (by omega) sm.size ht hs⟩
    · body_flat
      rw [l.fv sm, l.fv sm, GH3 _ _ h hp ht0 ht hs, GH3 _ _ h hp ht0 ht hs, kd0, kd1 hr, tP, tv ht0 (by omega), C30_pair2_add, C30_pair2_sub, C30_zmult, C30_conj, C30_conj]
      simp only [map_mul, Complex.conj_conj, w_conj, neg_neg, mul_neg]
      congr 3
      · ring
      · ring
    · intro p; body_flat; rintro (rfl | rfl) <;> exact Or.inl (rd_f l.hb _)
  intro m1 f1
  refine Cmd.Ok.bind (fftpH_ok h (h.fftp_eq hp).1 (d := 0) (W := W) (by rw [Nat.mul_zero]; exact Ptr.add_zero _) Nat.two_pos (Fills.start (dH_inj h (nd := 2) (W := W))) (fun _ h => h)
    (fun x hx => f1.valid (l.hv x hx)) ?_)
  intro m1' f1'
  refine Cmd.Ok.bind (fftpH_ok h (h.fftp_eq hp).1 (d := 1) (W := W) (by rw [Nat.mul_one]) Nat.one_lt_two f1' (fun _ h => by simp at h)
    (fun x hx => f1.valid (l.hv x hx)) ?_)
  intro m2 f2
  have sz2 := f2.size.trans f1.size
  have hrq := h.qn (u := 0) (r := r) (by omega) (by omega)
  rw [Nat.mul_zero, Nat.zero_add] at hrq
  refine Cmd.Ok.bind ((Fills.start (m0 := m2) (T := o.ZH m2 W (o.kd r)) (dH_inj h (nd := 2) (W := W))).parz (fun s => (0, s, 0)) (rng_nodup _ _) ?_ (fun _ _ _ h => h) ?_ ?_)
  · intro i _ j _ e; simpa using e
  · intro s hs m' sm
    rw [mem_rng] at hs
    have hR := RH2I h (t := 0) (s := s) (by omega) hs.2
    have hown0 := sm.own 0 ((hR 0).2 (Or.inl rfl))
    have hown1 := sm.own 1 ((hR 1).2 (Or.inr rfl))
    have hv' := l.v00 h hp (sm.size.trans sz2) hs.2
    rw [hd00] at hown0
    rw [hd10] at hown1
    have hne := h.bw_ne (W := W) hp h.P_pos hs.2
    rw [Nat.mul_zero, Nat.zero_add] at hne
    simp only [mulBy]
    refine Wr.mk2p hR (hd00 _) (hd10 _) ?_ ?_ ?_
    · body_flat
      exact ⟨h.zq_bd hp hr hrq (by omega), hv'.1, hv'.1, hv'.2, hv'.2⟩
    · body_flat
      rw [h.z_val g1 (by omega), set_mul hne, hown0, hown1]
      unfold ZH
      rw [hd00, hd10, w_conj, kd0, kd1 hr]
      simp
    · intro p; body_flat; rintro (rfl | rfl) <;> simp
  intro m3 f3
  refine Cmd.Ok.bind (f3.parz (fun x : ℕ × ℕ => (x.1, x.2, 0)) (rng2_nodup _ _ _ _) ?_ ?_ ?_ ?_)
  · intro i _ j _ e; simp only [Prod.mk.injEq, and_true] at e; exact Prod.ext e.1 e.2
  · rintro ⟨u, s⟩ hs d hd
    simp only [mem_rng2, mem_rng, Prod.mk.injEq, false_or] at hs hd
    obtain ⟨i, hi, e⟩ := hd; omega
  · rintro ⟨u, s⟩ hs m' sm
    simp only [mem_rng2] at hs
    have hR := RH2I h hs.1.2 hs.2.2
    have hv0 := l.v0 h hp (by omega) (sm.size.trans sz2) hs.1.2 hs.2.2
    have hv1 := l.v1 h hp (by omega) (sm.size.trans sz2) hs.1.2 hs.2.2
    have hown0 := sm.own 0 ((hR 0).2 (Or.inl rfl))
    have hown1 := sm.own 1 ((hR 1).2 (Or.inr rfl))
    rw [hd0] at hown0
    rw [hd1] at hown1
    have hz : o.n * (o.m * u) + (o.m * r + s) = o.m * (o.n * u + r) + s := by ring
    have hnu : o.n * 1 ≤ o.n * u := Nat.mul_le_mul_left _ hs.1.1
    have hz' : o.n * (o.m * u) - o.m * r + s = o.m * (o.n * u - r) + s := by
      rw [Nat.mul_sub]; congr 2; ring
    have hq1 := h.qn (r := r) hs.1.2 (by omega)
    simp only [mulBy]
    refine Wr.mk2p hR (hd0 _ _) (hd1 _ _) ?_ ?_ ?_
    · body_flat
      rw [hz, hz']
      exact ⟨h.zq_bd hp (by omega) hq1 (by omega), hv0, hv0, h.zq_bd hp (by omega) (by omega) (by omega), hv1, hv1⟩
    · body_flat
      rw [hz, hz', h.z_val g1 (by omega), h.z_val g1 (by omega), set_mul (h.bw_ne hp hs.1.2 hs.2.2), hown0, hown1]
      unfold ZH
      rw [hd0, hd1, kd0, kd1 hr]
      simp only
      rw [Nat.cast_sub (by omega)]
      push_cast
      rw [sub_eq_add_neg]
    · intro p; body_flat; rintro (rfl | rfl) <;> simp
  intro m4 f4
  refine finish2 h pre hnd (h.x_eq hp _ rfl (stagesH h f1 f2 (fun k hk => by have := hk.1; simp only [false_or]; omega) f4 ?_))
  rintro ⟨d, u, s, c⟩ hk hd
  by_contra hne
  simp only [not_or] at hne
  obtain rfl : c = 0 := by have := hk.2.2.2; simp only at this; omega
  by_cases hu : u = 0
  · subst hu
    exact hd (Or.inl (Or.inr ⟨s, mem_rng.2 ⟨by omega, hk.2.2.1⟩, rfl⟩))
  · exact hd (Or.inr ⟨(u, s), mem_rng2.2 ⟨⟨by simp only; omega, hk.2.1⟩, by simp only; omega, hk.2.2.1⟩, rfl⟩)

theorem forwardInner_ok (h : o.WF) (hp : 2 < o.p) {F : Ptr} {W? : Option Ptr} (hW : W?.getD F = W) {r : ℕ} (hr : o.Visit r) (pre : o.Pre mem f F W r) :
    (o.forwardInner f F r W?).Ok mem (fun _ m' => o.FwdPost mem m' f F W r) := by
  rcases Nat.eq_zero_or_pos r with rfl | hr0
  · by_cases hn : 2 * (o.n / 2) < o.n
    · exact forwardInner0odd h hp hW pre hn
    · exact forwardInner0even h hp hW pre hn
  · rcases hr with hr | hr
    · omega
    · exact forwardInner_pos h hp hW hr0 hr.2 pre

end
end Herm
end Fftwpp
