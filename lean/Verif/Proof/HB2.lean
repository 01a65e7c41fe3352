import Verif.Proof.HB

/-! `backwardExplicitMany`, `backward2Many` of the Hermitian transforms. -/

namespace Fftwpp
namespace Herm
open Finset ComplexConjugate
open Fft (copy1 zero1)
open Cent (set_mul)
variable {o : Herm}

theorem backwardExplicitMany_ok (h : o.WF) (hq : o.q = 1) {f F W : Ptr} {mem : Mem} {W? : Option Ptr} (hW : W?.getD F = W)
    (pre : o.Pre mem f F W 0) : (o.backwardExplicitMany F f W?).Ok mem (fun _ m' => o.BwdPost mem m' F f W 0) := by
  obtain ⟨hP, hn, hp⟩ := h.P_q1 hq
  have hnd : o.nd 0 = 1 := by unfold nd; rw [if_pos rfl, h.D0_eq, if_pos hq]
  have hm := h.m_pos
  obtain ⟨g1, g2, g3, g4⟩ := h.H_facts
  have hLm : o.L ≤ o.m := by have := h.p_ub; rw [hp] at this; omega
  have he := h.e_eq
  have hH : ceilquotient o.L 2 = o.H := rfl
  unfold backwardExplicitMany
  simp only [hW, hH]
  refine Cmd.Ok.bind ((r2c_first h pre).mono ?_)
  intro _ m1 rp
  have hinj : ∀ k k' : ℕ × ℕ, (k.1 < o.H ∧ k.2 < o.C) → (k'.1 < o.H ∧ k'.2 < o.C) → f + (o.C * k.1 + k.2) = f + (o.C * k'.1 + k'.2) → k = k' := by
    intro k k' a a' e
    rw [Ptr.add_inj] at e
    have := radix_inj a.2 a'.2 e
    exact Prod.ext this.1 this.2
  have hW' : ∀ i j : ℕ, W + i ≠ f + j := fun i j => Ptr.ne_of_buf (by simpa using pre.fW.symm)
  have hRH : ∀ {s c}, s < o.H → c < o.C → o.RH 1 (0, 0, s, c) := fun hs hc => (RH_iff h (by omega) hc 0).2 (by omega)
  refine (Fills.start (T := fun k : ℕ × ℕ => o.YH mem F (0, 0, k.1, k.2)) hinj).par1 (fun k => k) (rng2_nodup _ _ _ _) ?_ ?_ ?_ ?_ ?_ ?_
  · rintro ⟨s, c⟩ hs; simp only [mem_rng2] at hs ⊢; omega
  · intro i _ j _ e; exact e
  · rintro ⟨s, c⟩ hs
    simp only [mem_rng2] at hs
    have := pre.vW (o.C * s + c) (by rw [hnd, Nat.mul_one]; have := h.cell_lt (t := 0) (s := s) (c := c) h.P_pos (by omega) (by omega); simpa using this)
    body_simp
    exact ⟨Mem.valid_of_size rp.upd.size this, Mem.valid_of_size rp.upd.size (pre.vf s (by omega) c (by omega))⟩
  · rintro ⟨s, c⟩ hs
    simp only [mem_rng2] at hs
    body_simp
    rw [← dH0 W, rp.val _ (hRH (by omega) (by omega))]
  · rintro ⟨s, c⟩ hs p
    body_simp; rintro rfl; exact Or.inl fun k _ => hW' _ _
  · intro m2 f2
    refine ⟨rp.upd.trans f2.upd (fun p hp => Or.inr (by rw [hnd]; exact hp)) ?_, ?_⟩
    · rintro p ⟨k, hk, rfl⟩
      exact Or.inl ⟨_, radix_lt hk.2 hk.1, rfl⟩
    · intro j hj c hc
      have := f2.got (j, c) ⟨hj, hc⟩ (Or.inr ⟨(j, c), mem_rng2.2 ⟨⟨by simp, hj⟩, by simp, hc⟩, rfl⟩)
      rw [this, if_pos rfl, hnd, hP, sum_range_one, sum_range_one, zero_add]
      unfold YH
      refine sum_congr rfl fun l _ => ?_
      simp only
      congr 1
      rw [h.M_eq, hq, hn, kd0, Nat.mul_one]
      congr 1; push_cast; ring

section zones
variable {mem : Mem} {f : Ptr} {T : ℕ × ℕ × ℕ × ℕ → ℂ} {Q : Unit → Mem → Prop}

/-- The loops of the routines for `p=2`. -/
theorem zonesB3 (h : o.WF) (hp : o.p = 2) {b1 b2 : ℕ × ℕ → Body Unit} {b3 : ℕ → Body Unit}
    (h1 : ∀ s c, s < o.m0 → s < o.e → c < o.C → ∀ m', Same mem m' o.RB (o.dB f) (0, s, c) → Wr o.RB (o.dB f) T m' (0, s, c) (b1 (s, c)))
    (h2 : ∀ s c, o.m0 ≤ s → s < o.m - o.e + 1 → c < o.C → ∀ m', Same mem m' o.RB (o.dB f) (0, s, c) → Wr o.RB (o.dB f) T m' (0, s, c) (b2 (s, c)))
    (h3 : o.m = 2 * (o.e - 1) → ∀ c < o.C, ∀ m', Same mem m' o.RB (o.dB f) (0, o.e - 1, c) → Wr o.RB (o.dB f) T m' (0, o.e - 1, c) (b3 c))
    (hQ : ∀ m', Fills mem m' o.RB (o.dB f) T (fun _ => True) → Q () m') :
    Cmd.Ok (do par (rng2 0 o.m0 0 o.C) b1; par (rng2 o.m0 (o.m - o.e + 1) 0 o.C) b2;
               if o.m = 2 * (o.e - 1) then par (rng 0 o.C) b3 else pure ()) mem Q := by
  obtain ⟨k1, k2, -⟩ := h.geo2 hp
  obtain ⟨g1, g2, g3, g4, g5, g6, g7, g8, g9⟩ := h.geoB k1
  refine Cmd.Ok.bind ((Fills.start (T := T) (dB_inj h k1 (f := f))).parz (fun x => (0, x.1, x.2)) (rng2_nodup _ _ _ _) ?_ (fun _ _ _ h => h) ?_ ?_)
  · intro i _ j _ e; simp only [Prod.mk.injEq, true_and] at e; exact Prod.ext e.1 e.2
  · rintro ⟨s, c⟩ hs; simp only [mem_rng2] at hs; exact h1 s c hs.1.2 (by omega) hs.2.2
  intro m1 f1
  refine Cmd.Ok.bind (f1.parz (fun x => (0, x.1, x.2)) (rng2_nodup _ _ _ _) ?_ ?_ ?_ ?_)
  · intro i _ j _ e; simp only [Prod.mk.injEq, true_and] at e; exact Prod.ext e.1 e.2
  · intro i hi d hf
    simp only [mem_rng2, Prod.mk.injEq, true_and, false_or] at hf hi
    obtain ⟨j, hj, hf⟩ := hf; omega
  · rintro ⟨s, c⟩ hs; simp only [mem_rng2] at hs; exact h2 s c hs.1.1 hs.1.2 hs.2.2
  intro m2 f2
  by_cases hev : o.m = 2 * (o.e - 1)
  · rw [if_pos hev]
    have hee := g8 hev
    refine f2.parz (fun c => (0, o.e - 1, c)) (rng_nodup _ _) ?_ ?_ ?_ ?_
    · intro i _ j _ e; simpa using e
    · intro i hi d hf
      simp only [mem_rng2, mem_rng, Prod.mk.injEq, true_and, false_or] at hf hi
      rcases hf with ⟨j, hj, hf⟩ | ⟨j, hj, hf⟩ <;> omega
    · intro c hc; rw [mem_rng] at hc; exact h3 hev c hc.2
    intro m3 f3
    refine hQ m3 (f3.congr ?_)
    rintro ⟨d, t, s, c⟩ ⟨a2, a3, a4⟩
    simp only at a2 a3 a4
    obtain rfl : t = 0 := by omega
    simp only [mem_rng2, mem_rng, Prod.mk.injEq, false_or, iff_true]
    obtain hs | hs | hs : s < o.m0 ∨ (o.m0 ≤ s ∧ s < o.m - o.e + 1) ∨ s = o.e - 1 := by omega
    · exact Or.inl (Or.inl ⟨(s, c), by simp only; omega, by simp⟩)
    · exact Or.inl (Or.inr ⟨(s, c), by simp only; omega, by simp⟩)
    · exact Or.inr ⟨c, by omega, by simp [hs]⟩
  · rw [if_neg hev]
    have hee := g9 hev
    refine ⟨(), m2, rfl, hQ m2 (f2.congr ?_)⟩
    rintro ⟨d, t, s, c⟩ ⟨a2, a3, a4⟩
    simp only at a2 a3 a4
    obtain rfl : t = 0 := by omega
    simp only [mem_rng2, Prod.mk.injEq, false_or, iff_true]
    obtain hs | hs : s < o.m0 ∨ (o.m0 ≤ s ∧ s < o.m - o.e + 1) := by omega
    · exact Or.inl ⟨(s, c), by simp only; omega, by simp⟩
    · exact Or.inr ⟨(s, c), by simp only; omega, by simp⟩

/-- The loops of the routines for `p=2`, with a separate loop for `s=0`. -/
theorem zonesB4 (h : o.WF) (hp : o.p = 2) {b0 : ℕ → Body Unit} {b1 b2 : ℕ × ℕ → Body Unit} {b3 : ℕ → Body Unit}
    (h0 : ∀ c, c < o.C → ∀ m', Same mem m' o.RB (o.dB f) (0, 0, c) → Wr o.RB (o.dB f) T m' (0, 0, c) (b0 c))
    (h1 : ∀ s c, 0 < s → s < o.m0 → s < o.e → c < o.C → ∀ m', Same mem m' o.RB (o.dB f) (0, s, c) → Wr o.RB (o.dB f) T m' (0, s, c) (b1 (s, c)))
    (h2 : ∀ s c, o.m0 ≤ s → s < o.m - o.e + 1 → c < o.C → ∀ m', Same mem m' o.RB (o.dB f) (0, s, c) → Wr o.RB (o.dB f) T m' (0, s, c) (b2 (s, c)))
    (h3 : o.m = 2 * (o.e - 1) → ∀ c < o.C, ∀ m', Same mem m' o.RB (o.dB f) (0, o.e - 1, c) → Wr o.RB (o.dB f) T m' (0, o.e - 1, c) (b3 c))
    (hQ : ∀ m', Fills mem m' o.RB (o.dB f) T (fun _ => True) → Q () m') :
    Cmd.Ok (do par (rng 0 o.C) b0; par (rng2 1 o.m0 0 o.C) b1; par (rng2 o.m0 (o.m - o.e + 1) 0 o.C) b2;
               if o.m = 2 * (o.e - 1) then par (rng 0 o.C) b3 else pure ()) mem Q := by
  obtain ⟨k1, k2, -⟩ := h.geo2 hp
  obtain ⟨g1, g2, g3, g4, g5, g6, g7, g8, g9⟩ := h.geoB k1
  refine Cmd.Ok.bind ((Fills.start (T := T) (dB_inj h k1 (f := f))).parz (fun c => (0, 0, c)) (rng_nodup _ _) ?_ (fun _ _ _ h => h) ?_ ?_)
  · intro i _ j _ e; simpa using e
  · intro c hc; rw [mem_rng] at hc; exact h0 c hc.2
  intro m0 f0
  refine Cmd.Ok.bind (f0.parz (fun x => (0, x.1, x.2)) (rng2_nodup _ _ _ _) ?_ ?_ ?_ ?_)
  · intro i _ j _ e; simp only [Prod.mk.injEq, true_and] at e; exact Prod.ext e.1 e.2
  · intro i hi d hf
    simp only [mem_rng2, mem_rng, Prod.mk.injEq, true_and, false_or] at hf hi
    obtain ⟨j, hj, hf⟩ := hf; omega
  · rintro ⟨s, c⟩ hs; simp only [mem_rng2] at hs; exact h1 s c hs.1.1 hs.1.2 (by omega) hs.2.2
  intro m1 f1
  refine Cmd.Ok.bind (f1.parz (fun x => (0, x.1, x.2)) (rng2_nodup _ _ _ _) ?_ ?_ ?_ ?_)
  · intro i _ j _ e; simp only [Prod.mk.injEq, true_and] at e; exact Prod.ext e.1 e.2
  · intro i hi d hf
    simp only [mem_rng2, mem_rng, Prod.mk.injEq, true_and, false_or] at hf hi
    rcases hf with ⟨j, hj, hf⟩ | ⟨j, hj, hf⟩ <;> omega
  · rintro ⟨s, c⟩ hs; simp only [mem_rng2] at hs; exact h2 s c hs.1.1 hs.1.2 hs.2.2
  intro m2 f2
  by_cases hev : o.m = 2 * (o.e - 1)
  · rw [if_pos hev]
    have hee := g8 hev
    refine f2.parz (fun c => (0, o.e - 1, c)) (rng_nodup _ _) ?_ ?_ ?_ ?_
    · intro i _ j _ e; simpa using e
    · intro i hi d hf
      simp only [mem_rng2, mem_rng, Prod.mk.injEq, true_and, false_or] at hf hi
      rcases hf with (⟨j, hj, hf⟩ | ⟨j, hj, hf⟩) | ⟨j, hj, hf⟩ <;> omega
    · intro c hc; rw [mem_rng] at hc; exact h3 hev c hc.2
    intro m3 f3
    refine hQ m3 (f3.congr ?_)
    rintro ⟨d, t, s, c⟩ ⟨a2, a3, a4⟩
    simp only at a2 a3 a4
    obtain rfl : t = 0 := by omega
    simp only [mem_rng2, mem_rng, Prod.mk.injEq, false_or, iff_true]
    obtain hs | hs | hs | hs : s = 0 ∨ (0 < s ∧ s < o.m0) ∨ (o.m0 ≤ s ∧ s < o.m - o.e + 1) ∨ s = o.e - 1 := by omega
    · exact Or.inl (Or.inl (Or.inl ⟨c, by omega, by simp [hs]⟩))
    · exact Or.inl (Or.inl (Or.inr ⟨(s, c), by simp only; omega, by simp⟩))
    · exact Or.inl (Or.inr ⟨(s, c), by simp only; omega, by simp⟩)
    · exact Or.inr ⟨c, by omega, by simp [hs]⟩
  · rw [if_neg hev]
    have hee := g9 hev
    refine ⟨(), m2, rfl, hQ m2 (f2.congr ?_)⟩
    rintro ⟨d, t, s, c⟩ ⟨a2, a3, a4⟩
    simp only at a2 a3 a4
    obtain rfl : t = 0 := by omega
    simp only [mem_rng2, mem_rng, Prod.mk.injEq, false_or, iff_true]
    obtain hs | hs | hs : s = 0 ∨ (0 < s ∧ s < o.m0) ∨ (o.m0 ≤ s ∧ s < o.m - o.e + 1) := by omega
    · exact Or.inl (Or.inl ⟨c, by omega, by simp [hs]⟩)
    · exact Or.inl (Or.inr ⟨(s, c), by simp only; omega, by simp⟩)
    · exact Or.inr ⟨(s, c), by simp only; omega, by simp⟩

end zones

section cells
variable {mem m1 m' : Mem} {f F W : Ptr} {r K : ℕ} {k : ℕ × ℕ × ℕ}

/-- Words of the work blocks are not outputs. -/
theorem rd_W (hb : f.buf ≠ W.buf) (i : ℕ) : ∀ x, o.RB x → W + i ≠ o.dB f x :=
  fun x _ => Ptr.ne_of_buf (by unfold dB; simpa using hb.symm)

theorem RB_one (h : o.WF) (hq : o.q ≠ 1) {t s c : ℕ} (ht : t < o.P) (hc : c < o.C) (hs : s < o.e)
    (hn : s = 0 ∨ (t = 0 ∧ s < o.m0) ∨ o.m - o.e + 1 ≤ s) (d : ℕ) : o.RB (d, t, s, c) ↔ d = 0 := by
  unfold RB; simp only [ht, hc, true_and]; omega

theorem RB_two (h : o.WF) (hq : o.q ≠ 1) {t s c : ℕ} (ht : t < o.P) (hc : c < o.C) (hs : s < o.m - o.e + 1) (hs0 : 0 < s)
    (hn : t = 0 → o.m0 ≤ s) (d : ℕ) : o.RB (d, t, s, c) ↔ d = 0 ∨ d = 1 := by
  have := h.geoB hq
  unfold RB; simp only [ht, hc, true_and]; omega

theorem RP.W0 (h : o.WF) (rp : o.RP mem m1 F W K) (hK : 0 < K) (hb : f.buf ≠ W.buf) (sm : Same m1 m' o.RB (o.dB f) k) {s c : ℕ} (hs : s < o.e) (hc : c < o.C) :
    m'.val (W + (o.C * s + c)) = o.YH mem F (0, 0, s, c) := by
  rw [sm.frame _ (rd_W hb _), ← dH0, rp.val _ ((RH_iff h hs hc _).2 hK)]

theorem RP.W1 (h : o.WF) (rp : o.RP mem m1 F W K) (hK : 1 < K) (hb : f.buf ≠ W.buf) (sm : Same m1 m' o.RB (o.dB f) k) {s c : ℕ} (hs : s < o.e) (hc : c < o.C) :
    m'.val (W + (o.Bw + (o.C * s + c))) = o.YH mem F (1, 0, s, c) := by
  rw [sm.frame _ (rd_W hb _), ← dH1, rp.val _ ((RH_iff h hs hc _).2 hK)]

theorem Pre.vW0 (h : o.WF) (pre : o.Pre mem f F W r) (hsz : m'.size = mem.size) {s c : ℕ} (hs : s < o.e) (hc : c < o.C) : m'.valid (W + (o.C * s + c)) := by
  have := h.dHv pre (K := 1) (by have := (Herm.nd_pos h r).1; omega) (0, 0, s, c) ((RH_iff h hs hc _).2 (by omega))
  rw [dH0] at this
  exact Mem.valid_of_size hsz this

theorem Pre.vW1 (h : o.WF) (pre : o.Pre mem f F W r) (hnd : o.nd r = 2) (hsz : m'.size = mem.size) {s c : ℕ} (hs : s < o.e) (hc : c < o.C) :
    m'.valid (W + (o.Bw + (o.C * s + c))) := by
  have := h.dHv pre (K := 2) (by omega) (1, 0, s, c) ((RH_iff h hs hc _).2 (by omega))
  rw [dH1] at this
  exact Mem.valid_of_size hsz this

theorem Pre.vfB (pre : o.Pre mem f F W r) (hsz : m'.size = mem.size) {j c : ℕ} (hj : j < o.H) (hc : c < o.C) : m'.valid (f + (o.C * j + c)) :=
  Mem.valid_of_size hsz (pre.vf j hj c hc)

theorem Pre.old (pre : o.Pre mem f F W r) {K : ℕ} (u : mem.Upd m1 (fun p => InArr F (o.b * K) p ∨ InArr W (o.Bw * K) p)) (x : ℕ × ℕ × ℕ × ℕ) :
    m1.val (o.dB f x) = mem.val (o.dB f x) := by
  apply u.frame
  rintro (⟨i, _, e⟩ | ⟨i, _, e⟩)
  · exact pre.fF (by unfold dB at e; simpa using congrArg Ptr.buf e)
  · exact pre.fW (by unfold dB at e; simpa using congrArg Ptr.buf e)

theorem BV_one (hP : o.P = 1) (kk : ℕ → ℤ) (d s c : ℕ) : o.BV mem F kk (d, 0, s, c) = o.YH mem F (d, 0, s, c) * w o.M (-((s : ℤ) * kk d)) := by
  unfold BV; rw [hP]; simp

theorem dB0 (s c : ℕ) : o.dB f (0, 0, s, c) = f + (o.C * s + c) := by unfold dB jB; simp
theorem dB1 (hP : o.P = 1) (s c : ℕ) : o.dB f (1, 0, s, c) = f + (o.C * (o.m - s) + c) := by unfold dB jB; simp [hP]

/-- Values to be stored, one residue. -/
theorem TB1 (h : o.WF) (hP : o.P = 1) (hnd : o.nd 0 = 1) {s c : ℕ} (hs : s ≤ o.m) :
    o.TB mem F f 0 (0, 0, s, c) = o.YH mem F (0, 0, s, c) ∧ o.TB mem F f 0 (1, 0, s, c) = conj (o.YH mem F (0, 0, s, c)) := by
  unfold TB
  simp only
  rw [if_pos trivial, if_pos trivial, hnd, sum_range_one, sum_range_one, OB_low h (k := o.kd 0), OB_high h (k := o.kd 0) (by rw [hP]; omega), BV_one hP, kd0]
  simp

/-- Values to be stored, residues `0` and `n/2`. -/
theorem TB2 (h : o.WF) (hP : o.P = 1) (hnd : o.nd 0 = 2) (hn : o.n % 2 = 0) {s c : ℕ} (hs : s ≤ o.m) :
    o.TB mem F f 0 (0, 0, s, c) = o.YH mem F (0, 0, s, c) + conj (w o.M (s * (o.n / 2 : ℕ))) * o.YH mem F (1, 0, s, c) ∧
    o.TB mem F f 0 (1, 0, s, c) = conj (o.YH mem F (0, 0, s, c) - conj (w o.M (s * (o.n / 2 : ℕ))) * o.YH mem F (1, 0, s, c)) := by
  have hh := (w_half_neg (n := o.n) (h := o.n / 2) (by omega) (by have := h.n_pos; omega)).1
  unfold TB
  simp only
  rw [if_pos trivial, if_pos trivial, hnd, sum_range_succ, sum_range_one, sum_range_succ, sum_range_one, OB_low h (k := o.kd 0), OB_low h (k := o.kd 0),
    OB_high h (k := o.kd 0) (by rw [hP]; omega), OB_high h (k := o.kd 0) (by rw [hP]; omega), BV_one hP, BV_one hP, kd0, kd01, hh, w_conj]
  simp [sub_eq_add_neg, mul_comm]

/-- Values to be stored, residues `r` and `-r`. -/
theorem TBr (h : o.WF) (hP : o.P = 1) (hr : 0 < r) {s c : ℕ} (hs : s ≤ o.m) :
    o.TB mem F f r (0, 0, s, c) = mem.val (o.dB f (0, 0, s, c)) + (w o.M (s * r) * o.YH mem F (1, 0, s, c) + conj (w o.M (s * r)) * o.YH mem F (0, 0, s, c)) ∧
    o.TB mem F f r (1, 0, s, c) = mem.val (o.dB f (1, 0, s, c)) + conj (w o.M ((o.m - s : ℕ) * r) * o.YH mem F (0, 0, s, c) +
      conj (w o.M ((o.m - s : ℕ) * r)) * o.YH mem F (1, 0, s, c)) := by
  have hwn : ∀ k : ℤ, w o.n k = w o.M (o.m * k) := fun k => by
    rw [h.M_eq, w_base' _ _ (by have := h.m_pos; omega), h.q_eq, hP, Nat.one_mul]
  have e1 : w o.M (((o.m - s : ℕ) : ℤ) * r) = w o.M (o.m * r) * w o.M (-(s * r)) := by
    rw [← w_add]; congr 1; rw [Nat.cast_sub hs]; ring
  unfold TB
  simp only
  rw [if_neg (by omega), if_neg (by omega), h.nd_pos r hr, sum_range_succ, sum_range_one, sum_range_succ, sum_range_one, OB_low h (k := o.kd r), OB_low h (k := o.kd r),
    OB_high h (k := o.kd r) (by rw [hP]; omega), OB_high h (k := o.kd r) (by rw [hP]; omega), BV_one hP, BV_one hP, kd0, kd1 hr, hwn, hwn, e1, w_conj]
  refine ⟨?_, ?_⟩
  · simp; ring
  · simp only [map_add, map_mul, w_conj, neg_neg, mul_neg, Nat.cast_zero, zero_mul, neg_zero, w_zero, one_mul]
    ring

end cells

theorem backward2Many_ok (h : o.WF) (hp : o.p = 2) {f F W : Ptr} {mem : Mem} {r : ℕ} {W? : Option Ptr} (hW : W?.getD F = W)
    (pre : o.Pre mem f F W r) (hr : o.Visit r) : (o.backward2Many F f r W?).Ok mem (fun _ m' => o.BwdPost mem m' F f W r) := by
  obtain ⟨g1, g2, g3, g4, g5, g6, g7, g8, g9⟩ := h.geo2 hp
  obtain ⟨k1, k2, k3, k4, k5, k6, k7, k8, k9⟩ := h.geoB g1
  have hH : ceilquotient o.L 2 = o.H := rfl
  have hm := h.m_pos
  have hm0 : o.m - o.H + 1 = o.m0 := by rw [← k2, g2, Nat.one_mul]
  have hsub : ∀ s c : ℕ, s ≤ o.m → f + o.Cm - o.C * s + c = f + (o.C * (o.m - s) + c) := fun s c hs => by
    rw [h.Cm_eq, Nat.mul_sub]
    have := Nat.mul_le_mul_left o.C hs
    rw [Ptr.ext_iff]; simp; omega
  have hne : ∀ s c, o.m0 ≤ s → s < o.m - o.e + 1 → c < o.C → f + (o.C * (o.m - s) + c) ≠ f + (o.C * s + c) := fun s c h1 h2 hc e => by
    rw [Ptr.add_inj] at e
    have := radix_inj hc hc e
    omega
  have hb := pre.fW
  unfold backward2Many
  simp only [hW, hH, hm0]
  refine Cmd.Ok.bind ((r2c_first h pre).mono ?_)
  intro _ m1 rp
  by_cases hr0 : r = 0
  · subst hr0
    rw [if_pos rfl]
    by_cases hodd : 2 * (o.q / 2) < o.q
    · rw [if_pos hodd]
      have hnd := h.nd_odd g1 (by omega)
      have sz := rp.upd.size
      have T1 := fun {s c : ℕ} (hs : s ≤ o.m) => TB1 (mem := mem) (F := F) (f := f) h g2 hnd (s := s) (c := c) hs
      refine zonesB3 (T := o.TB mem F f 0) (f := f) h hp ?_ ?_ ?_ ?_
      · intro s c hs hse hc m' sm
        refine Wr.mk1p (RB_one h g1 (by omega) hc hse (by omega)) (dB0 _ _) ?_ ?_ ?_
        · body_simp
          exact ⟨pre.vW0 h (sm.size.trans sz) hse hc, pre.vfB (sm.size.trans sz) (by omega) hc⟩
        · body_simp
          rw [rp.W0 h (by omega) hb sm hse hc, (T1 (by omega)).1]
        · intro p; body_simp; rintro rfl; exact Or.inl (rd_W hb _)
      · intro s c hs hse hc m' sm
        simp only [hsub s c (by omega)]
        refine Wr.mk2p (RB_two h g1 (by omega) hc hse (by omega) (by omega)) (dB0 _ _) (dB1 g2 _ _) ?_ ?_ ?_
        · body_simp
          exact ⟨pre.vW0 h (sm.size.trans sz) (by omega) hc, pre.vfB (sm.size.trans sz) (by omega) hc, pre.vfB (sm.size.trans sz) (by omega) hc⟩
        · body_simp
          rw [rp.W0 h (by omega) hb sm (by omega) hc, (T1 (by omega)).1, (T1 (by omega)).2]
        · intro p; body_simp; rintro rfl; exact Or.inl (rd_W hb _)
      · intro hev c hc m' sm
        have := k8 hev
        refine Wr.mk1p (RB_one h g1 (by omega) hc (by omega) (by omega)) (dB0 _ _) ?_ ?_ ?_
        · body_simp
          exact ⟨pre.vW0 h (sm.size.trans sz) (by omega) hc, pre.vfB (sm.size.trans sz) (by omega) hc⟩
        · body_simp
          rw [rp.W0 h (by omega) hb sm (by omega) hc, (T1 (by omega)).1]
        · intro p; body_simp; rintro rfl; exact Or.inl (rd_W hb _)
      · intro m2 f2
        exact finishB h g1 pre (by rw [hnd]; exact rp.upd) f2
    · rw [if_neg hodd, h.V_eq pre.sep]
      have hnd := h.nd_even g1 (by omega)
      refine Cmd.Ok.bind ((r2c_second h pre hnd rp).mono ?_)
      intro _ m2 rp2
      have sz := rp2.upd.size
      have T2 := fun {s c : ℕ} (hs : s ≤ o.m) => TB2 (mem := mem) (F := F) (f := f) h g2 hnd (by omega) (s := s) (c := c) hs
      rw [g3]
      refine zonesB4 (T := o.TB mem F f 0) (f := f) h hp ?_ ?_ ?_ ?_ ?_
      · intro c hc m' sm
        have v0 := pre.vW0 h (sm.size.trans sz) (s := 0) (by omega) hc
        have v1 := pre.vW1 h hnd (sm.size.trans sz) (s := 0) (by omega) hc
        have vf := pre.vfB (j := 0) (sm.size.trans sz) (by omega) hc
        have w0 := rp2.W0 h (by omega) hb sm (s := 0) (by omega) hc
        have w1 := rp2.W1 h (by omega) hb sm (s := 0) (by omega) hc
        rw [Nat.mul_zero, Nat.zero_add] at v0 v1 vf w0 w1
        refine Wr.mk1p (RB_one h g1 (by omega) hc (by omega) (by omega)) (dB0 _ _) ?_ ?_ ?_
        · body_flat
          exact ⟨v0, v1, vf⟩
        · body_flat
          rw [w0, w1, (T2 (by omega)).1]
          simp
        · intro p; body_flat; rintro (rfl | rfl) <;> exact Or.inl (rd_W hb _)
      · intro s c hs0 hs hse hc m' sm
        refine Wr.mk1p (RB_one h g1 (by omega) hc hse (by omega)) (dB0 _ _) ?_ ?_ ?_
        · body_flat
          exact ⟨h.z2_bd hp (by omega) (by omega) (by omega), pre.vW0 h (sm.size.trans sz) hse hc, pre.vW1 h hnd (sm.size.trans sz) hse hc, pre.vfB (sm.size.trans sz) (by omega) hc⟩
        · body_flat
          rw [h.z_val g1 (by omega), rp2.W0 h (by omega) hb sm hse hc, rp2.W1 h (by omega) hb sm hse hc, (T2 (by omega)).1]
        · intro p; body_flat; rintro (rfl | rfl) <;> exact Or.inl (rd_W hb _)
      · intro s c hs hse hc m' sm
        simp only [hsub s c (by omega)]
        refine Wr.mk2p (RB_two h g1 (by omega) hc hse (by omega) (by omega)) (dB0 _ _) (dB1 g2 _ _) ?_ ?_ ?_
        · body_flat
          exact ⟨h.z2_bd hp (by omega) (by omega) (by omega), pre.vW0 h (sm.size.trans sz) (by omega) hc, pre.vW1 h hnd (sm.size.trans sz) (by omega) hc,
            pre.vfB (sm.size.trans sz) (by omega) hc, pre.vfB (sm.size.trans sz) (by omega) hc⟩
        · body_flat
          rw [h.z_val g1 (by omega), rp2.W0 h (by omega) hb sm (by omega) hc, rp2.W1 h (by omega) hb sm (by omega) hc, (T2 (by omega)).1, (T2 (by omega)).2]
        · intro p; body_flat; rintro (rfl | rfl) <;> exact Or.inl (rd_W hb _)
      · intro hev c hc m' sm
        have := k8 hev
        refine Wr.mk1p (RB_one h g1 (by omega) hc (by omega) (by omega)) (dB0 _ _) ?_ ?_ ?_
        · body_flat
          exact ⟨pre.vW0 h (sm.size.trans sz) (by omega) hc, pre.vW1 h hnd (sm.size.trans sz) (by omega) hc, pre.vfB (sm.size.trans sz) (by omega) hc⟩
        · body_flat
          rw [rp2.W0 h (by omega) hb sm (by omega) hc, rp2.W1 h (by omega) hb sm (by omega) hc, (T2 (by omega)).1]
          have hI : w o.M (((o.e - 1 : ℕ) : ℤ) * (o.n / 2 : ℕ)) = Complex.I := by
            have := w_quarter (a := o.e - 1) (b := o.n / 2) (by omega) (by omega)
            rwa [← hev, show 2 * (o.n / 2) = o.n by omega, ← g3, ← h.M_eq, g3] at this
          rw [hI, Complex.conj_I]
          simp [sub_eq_add_neg]
        · intro p; body_flat; rintro (rfl | rfl) <;> exact Or.inl (rd_W hb _)
      · intro m3 f3
        exact finishB h g1 pre (by rw [hnd]; exact rp2.upd) f3
  · rw [if_neg hr0, h.V_eq pre.sep]
    have hrn : 2 * r < o.n := by rcases hr with hr | hr; exact absurd hr hr0; exact hr.2
    have hnd := h.nd_pos r (by omega)
    refine Cmd.Ok.bind ((r2c_second h pre hnd rp).mono ?_)
    intro _ m2 rp2
    have sz := rp2.upd.size
    have Tr := fun {s c : ℕ} (hs : s ≤ o.m) => TBr (mem := mem) (F := F) (f := f) h g2 (r := r) (by omega) (s := s) (c := c) hs
    have old0 : ∀ {m' s c}, Same m2 m' o.RB (o.dB f) (0, s, c) → o.RB (0, 0, s, c) → m'.val (f + (o.C * s + c)) = mem.val (o.dB f (0, 0, s, c)) :=
      fun sm hx => by rw [← dB0, sm.own 0 hx, pre.old rp2.upd]
    have old1 : ∀ {m' s c}, Same m2 m' o.RB (o.dB f) (0, s, c) → o.RB (1, 0, s, c) → m'.val (f + (o.C * (o.m - s) + c)) = mem.val (o.dB f (1, 0, s, c)) :=
      fun sm hx => by rw [← dB1 g2, sm.own 1 hx, pre.old rp2.upd]
    refine zonesB4 (T := o.TB mem F f r) (f := f) h hp ?_ ?_ ?_ ?_ ?_
    · intro c hc m' sm
      have hR := RB_one h g1 (t := 0) (s := 0) (c := c) (by omega) hc (by omega) (by omega)
      have v0 := pre.vW0 h (sm.size.trans sz) (s := 0) (by omega) hc
      have v1 := pre.vW1 h hnd (sm.size.trans sz) (s := 0) (by omega) hc
      have vf := pre.vfB (j := 0) (sm.size.trans sz) (by omega) hc
      have w0 := rp2.W0 h (by omega) hb sm (s := 0) (by omega) hc
      have w1 := rp2.W1 h (by omega) hb sm (s := 0) (by omega) hc
      have o0 := old0 sm ((hR 0).2 rfl)
      rw [Nat.mul_zero, Nat.zero_add] at v0 v1 vf w0 w1 o0
      refine Wr.mk1p hR (dB0 _ _) ?_ ?_ ?_
      · body_flat
        exact ⟨vf, v0, v1, vf⟩
      · body_flat
        rw [o0, w0, w1, (Tr (by omega)).1]
        simp [add_comm]
      · intro p; body_flat; rintro (rfl | rfl | rfl)
        · exact Or.inr rfl
        · exact Or.inl (rd_W hb _)
        · exact Or.inl (rd_W hb _)
    · intro s c hs0 hs hse hc m' sm
      have hR := RB_one h g1 (t := 0) (s := s) (c := c) (by omega) hc hse (by omega)
      refine Wr.mk1p hR (dB0 _ _) ?_ ?_ ?_
      · body_flat
        exact ⟨h.z2_bd hp (by omega) (by omega) (by omega), pre.vfB (sm.size.trans sz) (by omega) hc, pre.vW1 h hnd (sm.size.trans sz) hse hc, pre.vW0 h (sm.size.trans sz) hse hc,
          pre.vfB (sm.size.trans sz) (by omega) hc⟩
      · body_flat
        rw [h.z_val g1 (by omega), old0 sm ((hR 0).2 rfl), rp2.W0 h (by omega) hb sm hse hc, rp2.W1 h (by omega) hb sm hse hc, (Tr (by omega)).1, C30_zmult2]
      · intro p; body_flat; rintro (rfl | rfl | rfl)
        · exact Or.inr rfl
        · exact Or.inl (rd_W hb _)
        · exact Or.inl (rd_W hb _)
    · intro s c hs hse hc m' sm
      have hR := RB_two h g1 (t := 0) (s := s) (c := c) (by omega) hc hse (by omega) (by omega)
      have hzm : o.m * r + o.m - s = o.m * r + (o.m - s) := Nat.add_sub_assoc (by omega) _
      simp only [hsub s c (by omega), hzm]
      refine Wr.mk2p hR (dB0 _ _) (dB1 g2 _ _) ?_ ?_ ?_
      · body_flat
        exact ⟨h.z2_bd hp (by omega) (by omega) (by omega), h.z2_bd hp (by omega) (by omega) (by omega), pre.vW0 h (sm.size.trans sz) (by omega) hc, pre.vW1 h hnd (sm.size.trans sz) (by omega) hc,
          pre.vfB (sm.size.trans sz) (by omega) hc, pre.vfB (sm.size.trans sz) (by omega) hc, pre.vfB (sm.size.trans sz) (by omega) hc, pre.vfB (sm.size.trans sz) (by omega) hc⟩
      · body_flat
        rw [set_mul (hne s c hs hse hc), h.z_val g1 (by omega), h.z_val g1 (by omega), old0 sm ((hR 0).2 (by simp)), old1 sm ((hR 1).2 (by simp)),
          rp2.W0 h (by omega) hb sm (by omega) hc, rp2.W1 h (by omega) hb sm (by omega) hc, (Tr (by omega)).1, (Tr (by omega)).2, C30_zmult2_xy, zmult2_xy_hconj]
      · intro p; body_flat; rintro (rfl | rfl | rfl | rfl)
        · exact Or.inl (rd_W hb _)
        · exact Or.inl (rd_W hb _)
        · exact Or.inr (Or.inl rfl)
        · exact Or.inr (Or.inr rfl)
    · intro hev c hc m' sm
      have := k8 hev
      have hR := RB_one h g1 (t := 0) (s := o.e - 1) (c := c) (by omega) hc (by omega) (by omega)
      refine Wr.mk1p hR (dB0 _ _) ?_ ?_ ?_
      · body_flat
        exact ⟨h.z2_bd hp (by omega) (by omega) (by omega), pre.vfB (sm.size.trans sz) (by omega) hc, pre.vW1 h hnd (sm.size.trans sz) (by omega) hc, pre.vW0 h (sm.size.trans sz) (by omega) hc,
          pre.vfB (sm.size.trans sz) (by omega) hc⟩
      · body_flat
        rw [h.z_val g1 (by omega), old0 sm ((hR 0).2 rfl), rp2.W0 h (by omega) hb sm (by omega) hc, rp2.W1 h (by omega) hb sm (by omega) hc, (Tr (by omega)).1, C30_zmult2_xy]
      · intro p; body_flat; rintro (rfl | rfl | rfl)
        · exact Or.inr rfl
        · exact Or.inl (rd_W hb _)
        · exact Or.inl (rd_W hb _)
    · intro m3 f3
      exact finishB h g1 pre (by rw [hnd]; exact rp2.upd) f3

end Herm
end Fftwpp
