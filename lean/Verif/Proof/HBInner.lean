import Verif.Proof.HB2

/-! `fftPadHermitian::backwardInner`: tools. -/

namespace Fftwpp
open Finset ComplexConjugate

theorem zmult_xy_negy (z v : ℂ) : ZMULTxy (UNPACKL z z) (-UNPACKH z (-z)) v = conj z * v := by
  apply Complex.ext <;> simp [vmul, UNPACKL, UNPACKH, FLIP, ZMULTxy] <;> ring

/-- A straight-line block behaves as a loop with one iteration. -/
theorem Body.run_of_par {b : Body Unit} {m : Mem} {Q : Unit → Mem → Prop} (h : (par (rng 0 1) fun _ => b).Ok m Q) : b.run.Ok m Q := by
  obtain ⟨⟨⟩, m', e, hq⟩ := h
  unfold par at e
  split_ifs at e with hr
  simp only [rng, Nat.sub_zero, List.range'_one, seqLoop] at e
  refine ⟨(), m', ?_, hq⟩
  rcases e' : b.run m with _ | ⟨⟨⟩, m2⟩
  · rw [e'] at e; cases e
  · rw [e'] at e; exact e

namespace Herm
variable {o : Herm}

/-- Values of the twiddling of `backward`. -/
noncomputable def ZB (o : Herm) (m1 : Mem) (W : Ptr) (k : ℕ → ℤ) (i : ℕ × ℕ × ℕ × ℕ) : ℂ :=
  m1.val (o.dH W i) * w o.M (-((i.2.2.1 : ℤ) * (o.n * i.2.1 + k i.1)))

/-- The inner transforms are done. -/
structure IP (o : Herm) (mem m3 : Mem) (F W : Ptr) (k : ℕ → ℤ) (K : ℕ) : Prop where
  upd : mem.Upd m3 (fun p => InArr F (o.b * K) p ∨ InArr W (o.Bw * K) p)
  val : ∀ x, o.RH K x → m3.val (o.dH W x) = o.BV mem F k x

theorem stagesB (h : o.WF) {K : ℕ} {F W : Ptr} {mem m1 m2 m3 : Mem} {k : ℕ → ℤ} {d2 d3 : ℕ × ℕ × ℕ × ℕ → Prop}
    (rp : o.RP mem m1 F W K)
    (f2 : Fills m1 m2 (o.RH K) (o.dH W) (o.ZB m1 W k) d2)
    (hd2 : ∀ i, o.RH K i → ¬ d2 i → i.2.2.1 = 0 ∨ (i.2.1 = 0 ∧ k i.1 = 0))
    (f3 : Fills m2 m3 (o.RH K) (o.dH W) (o.FftpH m2 W (-1)) d3) (hd3 : ∀ i, o.RH K i → d3 i) : o.IP mem m3 F W k K := by
  have hin : ∀ p, (∃ x, o.RH K x ∧ p = o.dH W x) → InArr W (o.Bw * K) p := by
    rintro p ⟨⟨d, t, s, c⟩, ⟨h1, h2, h3, h4⟩, rfl⟩
    exact ⟨_, radix_lt (h.cell_lt h2 h3 h4) h1, rfl⟩
  have f2' : ∀ x, o.RH K x → m2.val (o.dH W x) = o.YH mem F x * w o.M (-((x.2.2.1 : ℤ) * (o.n * x.2.1 + k x.1))) := by
    intro x hx
    by_cases hd : d2 x
    · rw [f2.got x hx hd, ZB, rp.val x hx]
    · rw [f2.keep x hx hd, rp.val x hx]
      rcases hd2 x hx hd with h0 | ⟨h0, h1⟩
      · rw [h0]; simp
      · rw [h0, h1]; simp
  refine ⟨(rp.upd.trans (f2.upd.mono fun p hp => hin p hp) (fun p hp => hp) (fun p hp => Or.inr hp)).trans (f3.upd.mono fun p hp => hin p hp)
    (fun p hp => hp) (fun p hp => Or.inr hp), ?_⟩
  intro x hx
  rw [f3.got x hx (hd3 x hx)]
  unfold FftpH BV
  refine sum_congr rfl fun u hu => ?_
  rw [f2' (x.1, u, x.2.2.1, x.2.2.2) ⟨hx.1, mem_range.1 hu, hx.2.2⟩]
  simp only
  congr 2; ring

section zones
variable {mem : Mem} {f : Ptr} {T : ℕ × ℕ × ℕ × ℕ → ℂ} {Q : Unit → Mem → Prop}

/-- The loops that write the result. -/
theorem zonesBI (h : o.WF) (hp : 2 < o.p) {b1 b2 : ℕ → Body Unit} {b3 : ℕ × ℕ → Body Unit} {rest : Cmd Unit}
    (h1 : ∀ s, s < o.m0 → ∀ m', Same mem m' o.RB (o.dB f) (0, s, 0) → Wr o.RB (o.dB f) T m' (0, s, 0) (b1 s))
    (h2 : ∀ s, o.m0 ≤ s → s < o.m - o.e + 1 → ∀ m', Same mem m' o.RB (o.dB f) (0, s, 0) → Wr o.RB (o.dB f) T m' (0, s, 0) (b2 s))
    (h3 : ∀ t s, 0 < t → t < o.P → s < o.m - o.e + 1 → ∀ m', Same mem m' o.RB (o.dB f) (t, s, 0) → Wr o.RB (o.dB f) T m' (t, s, 0) (b3 (t, s)))
    (h4 : o.m = 2 * (o.e - 1) → ∀ m', Fills mem m' o.RB (o.dB f) T (fun x => x.2.2.1 ≠ o.e - 1) →
      rest.Ok m' (fun _ m'' => Fills mem m'' o.RB (o.dB f) T (fun _ => True)))
    (hQ : ∀ m', Fills mem m' o.RB (o.dB f) T (fun _ => True) → Q () m') :
    Cmd.Ok (do par (rng 0 o.m0) b1; par (rng o.m0 (o.m - o.e + 1)) b2; par (rng2 1 o.P 0 (o.m - o.e + 1)) b3;
               if o.m = 2 * (o.e - 1) then rest else pure ()) mem Q := by
  obtain ⟨k1, k2, hC, -⟩ := h.geoI hp
  obtain ⟨g1, g2, g3, g4, g5, g6, g7, g8, g9⟩ := h.geoB k1
  refine Cmd.Ok.bind ((Fills.start (T := T) (dB_inj h k1 (f := f))).parz (fun s => (0, s, 0)) (rng_nodup _ _) ?_ (fun _ _ _ h => h) ?_ ?_)
  · intro i _ j _ e; simpa using e
  · intro s hs; rw [mem_rng] at hs; exact h1 s hs.2
  intro m1 f1
  refine Cmd.Ok.bind (f1.parz (fun s => (0, s, 0)) (rng_nodup _ _) ?_ ?_ ?_ ?_)
  · intro i _ j _ e; simpa using e
  · intro i hi d hf
    simp only [mem_rng, Prod.mk.injEq, true_and, and_true, false_or] at hf hi
    obtain ⟨j, hj, hf⟩ := hf; omega
  · intro s hs; rw [mem_rng] at hs; exact h2 s hs.1 hs.2
  intro m2 f2
  refine Cmd.Ok.bind (f2.parz (fun x => (x.1, x.2, 0)) (rng2_nodup _ _ _ _) ?_ ?_ ?_ ?_)
  · intro i _ j _ e; simp only [Prod.mk.injEq, and_true] at e; exact Prod.ext e.1 e.2
  · intro i hi d hf
    simp only [mem_rng, mem_rng2, Prod.mk.injEq, and_true, false_or] at hf hi
    rcases hf with ⟨j, hj, hf⟩ | ⟨j, hj, hf⟩ <;> omega
  · rintro ⟨t, s⟩ hs; simp only [mem_rng2] at hs; exact h3 t s hs.1.1 hs.1.2 hs.2.2
  intro m3 f3
  have f3' : Fills mem m3 o.RB (o.dB f) T (fun x => x.2.2.1 < o.m - o.e + 1) := by
    refine f3.congr ?_
    rintro ⟨d, t, s, c⟩ ⟨a2, a3, a4⟩
    simp only at a2 a3 a4
    obtain rfl : c = 0 := by omega
    simp only [mem_rng2, mem_rng, Prod.mk.injEq, false_or, and_true]
    constructor
    · rintro ((⟨j, hj, _, rfl⟩ | ⟨j, hj, _, rfl⟩) | ⟨⟨j, j'⟩, hj, _, rfl⟩)
      · omega
      · omega
      · exact hj.2.2
    · intro hs
      by_cases ht : t = 0
      · by_cases hs' : s < o.m0
        · exact Or.inl (Or.inl ⟨s, by omega, by simp [ht]⟩)
        · exact Or.inl (Or.inr ⟨s, by omega, by simp [ht]⟩)
      · exact Or.inr ⟨(t, s), by simp only; omega, rfl, rfl⟩
  by_cases hev : o.m = 2 * (o.e - 1)
  · rw [if_pos hev]
    have hee := g8 hev
    refine (h4 hev m3 (f3'.congr ?_)).mono fun _ m4 f4 => hQ m4 f4
    rintro ⟨d, t, s, c⟩ ⟨a2, a3, a4⟩
    simp only at a4 ⊢
    omega
  · rw [if_neg hev]
    have hee := g9 hev
    refine ⟨(), m3, rfl, hQ m3 (f3'.congr ?_)⟩
    rintro ⟨d, t, s, c⟩ ⟨a2, a3, a4⟩
    simp only [iff_true] at a4 ⊢
    omega

/-- The last column, one loop. -/
theorem lastB1 (h : o.WF) (hp : 2 < o.p) {b : ℕ → Body Unit}
    (hb : ∀ t, t < o.P → ∀ m', Same mem m' o.RB (o.dB f) (t, o.e - 1, 0) → Wr o.RB (o.dB f) T m' (t, o.e - 1, 0) (b t))
    {m1 : Mem} (f1 : Fills mem m1 o.RB (o.dB f) T (fun x => x.2.2.1 ≠ o.e - 1)) :
    (par (rng 0 o.P) b).Ok m1 (fun _ m'' => Fills mem m'' o.RB (o.dB f) T (fun _ => True)) := by
  obtain ⟨k1, k2, hC, -⟩ := h.geoI hp
  refine f1.parz (fun t => (t, o.e - 1, 0)) (rng_nodup _ _) ?_ ?_ ?_ ?_
  · intro i _ j _ e; simpa using e
  · intro i hi d hf; simp at hf
  · intro t ht; rw [mem_rng] at ht; exact hb t ht.2
  intro m2 f2
  refine f2.congr ?_
  rintro ⟨d, t, s, c⟩ ⟨a2, a3, a4⟩
  simp only at a2 a3 a4
  obtain rfl : c = 0 := by omega
  simp only [mem_rng, Prod.mk.injEq, and_true, iff_true]
  by_cases hs : s = o.e - 1
  · exact Or.inr ⟨t, ⟨by omega, a2⟩, rfl, hs⟩
  · exact Or.inl hs

/-- The last column, the first row apart. -/
theorem lastB2 (h : o.WF) (hp : 2 < o.p) {b0 : Body Unit} {b : ℕ → Body Unit}
    (hb0 : ∀ m', Same mem m' o.RB (o.dB f) (0, o.e - 1, 0) → Wr o.RB (o.dB f) T m' (0, o.e - 1, 0) b0)
    (hb : ∀ t, 0 < t → t < o.P → ∀ m', Same mem m' o.RB (o.dB f) (t, o.e - 1, 0) → Wr o.RB (o.dB f) T m' (t, o.e - 1, 0) (b t))
    {m1 : Mem} (f1 : Fills mem m1 o.RB (o.dB f) T (fun x => x.2.2.1 ≠ o.e - 1)) :
    Cmd.Ok (do b0.run; par (rng 1 o.P) b) m1 (fun _ m'' => Fills mem m'' o.RB (o.dB f) T (fun _ => True)) := by
  obtain ⟨k1, k2, hC, -⟩ := h.geoI hp
  refine Cmd.Ok.bind (Body.run_of_par (f1.parz (fun t => (t, o.e - 1, 0)) (rng_nodup _ _) ?_ ?_ ?_ ?_))
  · intro i _ j _ e; simpa using e
  · intro i hi d hf; simp at hf
  · intro t ht; rw [mem_rng] at ht; obtain rfl : t = 0 := by omega
    exact hb0
  intro m2 f2
  refine f2.parz (fun t => (t, o.e - 1, 0)) (rng_nodup _ _) ?_ ?_ ?_ ?_
  · intro i _ j _ e; simpa using e
  · intro i hi d hf
    simp only [mem_rng, Prod.mk.injEq, and_true, ne_eq, not_true_eq_false, false_or] at hf hi
    obtain ⟨j, hj, hf⟩ := hf; omega
  · intro t ht; rw [mem_rng] at ht; exact hb t ht.1 ht.2
  intro m3 f3
  refine f3.congr ?_
  rintro ⟨d, t, s, c⟩ ⟨a2, a3, a4⟩
  simp only at a2 a3 a4
  obtain rfl : c = 0 := by omega
  simp only [mem_rng, Prod.mk.injEq, and_true, iff_true]
  by_cases hs : s = o.e - 1
  · by_cases ht : t = 0
    · exact Or.inl (Or.inr ⟨t, ⟨by omega, by omega⟩, rfl, hs⟩)
    · exact Or.inr ⟨t, ⟨by omega, a2⟩, rfl, hs⟩
  · exact Or.inl (Or.inl hs)
end zones

section cells
variable {mem m3 m' : Mem} {f F W : Ptr} {r K : ℕ} {key : ℕ × ℕ × ℕ} {k : ℕ → ℤ}

theorem IP.W0 (h : o.WF) (hp : 2 < o.p) (ip : o.IP mem m3 F W k K) (hK : 0 < K) (hb : f.buf ≠ W.buf) (sm : Same m3 m' o.RB (o.dB f) key) {t s : ℕ} (ht : t < o.P) (hs : s < o.e) :
    m'.val (W + (o.e * t + s)) = o.BV mem F k (0, t, s, 0) := by
  rw [sm.frame _ (rd_W hb _), ← ip.val _ ((h.RHI ht hs 0).2 hK), h.dHI hp, Nat.mul_zero, Nat.zero_add]

theorem IP.W1 (h : o.WF) (hp : 2 < o.p) (ip : o.IP mem m3 F W k K) (hK : 1 < K) (hb : f.buf ≠ W.buf) (sm : Same m3 m' o.RB (o.dB f) key) {t s : ℕ} (ht : t < o.P) (hs : s < o.e) :
    m'.val (W + (o.Bw + (o.e * t + s))) = o.BV mem F k (1, t, s, 0) := by
  rw [sm.frame _ (rd_W hb _), ← ip.val _ ((h.RHI ht hs 1).2 hK), h.dHI hp, Nat.mul_one]

theorem WF.dBI (h : o.WF) (hp : 2 < o.p) (t s : ℕ) : o.dB f (0, t, s, 0) = f + (t * o.m + s) ∧ o.dB f (1, t, s, 0) = f + (o.P * o.m - (t * o.m + s)) := by
  unfold dB jB; simp [(h.geoI hp).2.2.1]

theorem TB1I (h : o.WF) (hnd : o.nd 0 = 1) {t s c : ℕ} (hs : t * o.m + s ≤ o.P * o.m) :
    o.TB mem F f 0 (0, t, s, c) = o.BV mem F (o.kd 0) (0, t, s, c) ∧ o.TB mem F f 0 (1, t, s, c) = conj (o.BV mem F (o.kd 0) (0, t, s, c)) := by
  unfold TB
  simp only
  rw [if_pos trivial, if_pos trivial, hnd, sum_range_one, sum_range_one, OB_low h (k := o.kd 0), OB_high h (k := o.kd 0) hs, kd0]
  simp

theorem TB2I (h : o.WF) (hnd : o.nd 0 = 2) (hn : o.n % 2 = 0) {t s c : ℕ} (hs : t * o.m + s ≤ o.P * o.m) :
    o.TB mem F f 0 (0, t, s, c) = o.BV mem F (o.kd 0) (0, t, s, c) + conj (w o.q (t * (o.n / 2 : ℕ))) * o.BV mem F (o.kd 0) (1, t, s, c) ∧
    o.TB mem F f 0 (1, t, s, c) = conj (o.BV mem F (o.kd 0) (0, t, s, c) - conj (w o.q (t * (o.n / 2 : ℕ))) * o.BV mem F (o.kd 0) (1, t, s, c)) := by
  have hh := (w_half_neg (n := o.n) (h := o.n / 2) (by omega) (by have := h.n_pos; omega)).1
  unfold TB
  simp only
  rw [if_pos trivial, if_pos trivial, hnd, sum_range_succ, sum_range_one, sum_range_succ, sum_range_one, OB_low h (k := o.kd 0), OB_low h (k := o.kd 0),
    OB_high h (k := o.kd 0) hs, OB_high h (k := o.kd 0) hs, kd0, kd01, hh, w_conj]
  simp [sub_eq_add_neg]

theorem TBrI (h : o.WF) (hr : 0 < r) {t s c : ℕ} (hs : t * o.m + s ≤ o.P * o.m) :
    o.TB mem F f r (0, t, s, c) = mem.val (o.dB f (0, t, s, c)) + (w o.q (t * r) * o.BV mem F (o.kd r) (1, t, s, c) + conj (w o.q (t * r)) * o.BV mem F (o.kd r) (0, t, s, c)) ∧
    o.TB mem F f r (1, t, s, c) = mem.val (o.dB f (1, t, s, c)) + conj (conj (w o.q (t * r)) * w o.n r * o.BV mem F (o.kd r) (0, t, s, c) +
      conj (conj (w o.q (t * r)) * w o.n r) * o.BV mem F (o.kd r) (1, t, s, c)) := by
  unfold TB
  simp only
  rw [if_neg (by omega), if_neg (by omega), h.nd_pos r hr, sum_range_succ, sum_range_one, sum_range_succ, sum_range_one, OB_low h (k := o.kd r), OB_low h (k := o.kd r),
    OB_high h (k := o.kd r) hs, OB_high h (k := o.kd r) hs, kd0, kd1 hr, w_conj]
  refine ⟨?_, ?_⟩
  · simp; ring
  · simp only [map_add, map_mul, w_conj, neg_neg, mul_neg]
    ring

end cells
end Herm
end Fftwpp
