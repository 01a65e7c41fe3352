import Verif.Proof.COwInner

/-! The centered routines that overwrite their input, `p>2`. -/

namespace Fftwpp
namespace Cent
open Finset ComplexConjugate
open Fft (seqLoop_rng)
variable {o : Cent}

section
variable {f F : Ptr} {m0 m : Mem} {sgn : ℤ}

theorem FftpT_start (h : o.Ow) (pre : o.OwPre m f F) : Fills m m (o.RF 3) (o.dF (o.VA f F)) (o.FftpT m (o.VA f F) sgn) (fun _ => False) :=
  Fills.start (h.inj pre.fF)

/-- Inner transforms of the three blocks, single stride. -/
theorem fftp3S (h : o.Ow) (hS : o.S = 1) {pl : Plan} (hpl : o.FftpPl sgn pl) (pre : o.OwPre m f F) {Q : Unit → Mem → Prop} {rest : Cmd Unit}
    (hQ : ∀ m', Fills m m' (o.RF 3) (o.dF (o.VA f F)) (o.FftpT m (o.VA f F) sgn) (fun _ => True) → rest.Ok m' Q) :
    (do pl.exec f f; pl.exec (f + o.b) (f + o.b); pl.exec F F; rest : Cmd Unit).Ok m Q := by
  refine Cmd.Ok.bind (fftpS_ok h.wf hS hpl (V := o.VA f F) (d := 0) rfl (by omega) (FftpT_start h pre) (fun _ h => h) pre.v ?_)
  intro m1 f1
  refine Cmd.Ok.bind (fftpS_ok h.wf hS hpl (V := o.VA f F) (d := 1) rfl (by omega) f1 (by rintro k (h | h) <;> simp at h) pre.v ?_)
  intro m2 f2
  refine Cmd.Ok.bind (fftpS_ok h.wf hS hpl (V := o.VA f F) (d := 2) rfl (by omega) f2 (by rintro k ((h | h) | h) <;> simp at h) pre.v ?_)
  intro m3 f3
  refine hQ m3 (f3.congr ?_)
  rintro ⟨d, k⟩ hx
  have := hx.1
  simp only at this
  simp only [iff_true]
  omega

/-- Inner transforms of the three blocks, many copies. -/
theorem fftp3M (h : o.Ow) {pl : Plan} (hpl : o.FftpPl sgn pl) (pre : o.OwPre m f F) {Q : Unit → Mem → Prop}
    (hQ : ∀ m', Fills m m' (o.RF 3) (o.dF (o.VA f F)) (o.FftpT m (o.VA f F) sgn) (fun _ => True) → Q () m') :
    (if o.S = o.C then do
      pl.exec f f
      pl.exec (f + o.b) (f + o.b)
      pl.exec F F
    else
      seqLoop (rng 0 o.m) fun s => do
        pl.exec (f + o.S * s) (f + o.S * s)
        pl.exec (f + o.b + o.S * s) (f + o.b + o.S * s)
        pl.exec (F + o.S * s) (F + o.S * s) : Cmd Unit).Ok m Q := by
  by_cases hSC : o.S = o.C
  · rw [if_pos hSC, hpl.1 hSC]
    refine Cmd.Ok.bind (fftp_all h.wf hSC (V := o.VA f F) (d := 0) rfl (by omega) (FftpT_start h pre) (fun _ h => h) pre.v ?_)
    intro m1 f1
    refine Cmd.Ok.bind (fftp_all h.wf hSC (V := o.VA f F) (d := 1) rfl (by omega) f1 (by rintro k (h | h) <;> simp at h) pre.v ?_)
    intro m2 f2
    refine fftp_all h.wf hSC (V := o.VA f F) (d := 2) rfl (by omega) f2 (by rintro k ((h | h) | h) <;> simp at h) pre.v ?_
    intro m3 f3
    refine hQ m3 (f3.congr ?_)
    rintro ⟨d, k⟩ hx
    have := hx.1
    simp only at this
    simp only [iff_true]
    omega
  · rw [if_neg hSC, hpl.2 hSC]
    refine seqLoop_rng (fun k m' => Fills m m' (o.RF 3) (o.dF (o.VA f F)) (o.FftpT m (o.VA f F) sgn) (fun x => x.2.2.1 < k)) ?_ ?_ ?_
    · exact (FftpT_start h pre).congr fun x _ => by simp
    · intro k m1 hk f1
      refine Cmd.Ok.bind (fftp_col h.wf hk (V := o.VA f F) (d := 0) rfl (by omega) f1 (by intro t c h; simp at h) pre.v ?_)
      intro m2 f2
      refine Cmd.Ok.bind (fftp_col h.wf hk (V := o.VA f F) (d := 1) rfl (by omega) f2 (by rintro t c (h | h) <;> simp at h) pre.v ?_)
      intro m3 f3
      refine fftp_col h.wf hk (V := o.VA f F) (d := 2) rfl (by omega) f3 (by rintro t c ((h | h) | h) <;> simp at h) pre.v ?_
      intro m4 f4
      refine f4.congr ?_
      rintro ⟨d, t, s, c⟩ hx
      have := hx.1
      simp only at this ⊢
      omega
    · intro m1 f1
      refine hQ m1 (f1.congr fun x hx => ?_)
      simp only [hx.2.2.1]

end

/-- Words of the blocks. -/
macro "dfe" h:term : tactic => `(tactic| (unfold dF; simp only [VA_0, VA_1, VA_2, Ptr.add_add, $h:term]; congr 1; ring1))

theorem ok_assoc3 {a b c rest : Cmd Unit} {m : Mem} {Q : Unit → Mem → Prop}
    (H : (do a; b; c : Cmd Unit).Ok m fun _ m' => rest.Ok m' Q) : (do a; b; c; rest : Cmd Unit).Ok m Q := by
  have e : (do a; b; c; rest : Cmd Unit) = ((do a; b; c : Cmd Unit) >>= fun _ => rest) := by
    funext m
    simp only [Bind.bind]
    rcases a m with e | ⟨_, m'⟩
    · rfl
    · simp only
      rcases b m' with e | ⟨_, m''⟩ <;> rfl
  rw [e]
  exact Cmd.Ok.bind H

section
variable {f F : Ptr} {mem : Mem}

theorem Ow.zn (h : o.Ow) {t s : ℕ} (ht : 0 < t) : o.n * (o.m * t) + s = o.m * (o.n * t) + s ∧ o.n * (o.m * t) + o.m + s = o.m * (o.n * t + 1) + s ∧
    o.n * (o.m * t) - o.m + s = o.m * (o.n * t - 1) + s := by
  refine ⟨by ring, by ring, ?_⟩
  rw [Nat.mul_sub, Nat.mul_one]; congr 2; ring

theorem forwardInnerAll_ok (h : o.Ow) (hp : 2 < o.p) (hS : o.S = 1) (pre : o.OwPre mem f F) :
    (o.forwardInnerAll f F).Ok mem (fun _ m' => o.OwFwd mem m' f F) := by
  obtain ⟨h1, h2, h3, h4, h5, h6, h7, h8, h9⟩ := h.facts
  have hP := h.wf.P_pos
  have hC := h.wf.C_one hS
  have hC0 := h.wf.C_pos
  have z1 : o.p / 2 = o.P := by omega
  have hc0 : ∀ {k : ℕ × ℕ × ℕ × ℕ}, o.RF 3 k → k.2.2.2 = 0 := fun hk => by have := hk.2.2.2; omega
  unfold forwardInnerAll
  simp only [z1]
  refine Cmd.Ok.bind ((Fills.start (T := o.GT (o.xA mem f) sA) (h.inj pre.fF)).parz (fun s => (0, s, 0)) (rng_nodup _ _) ?_ (fun _ _ _ h => h) ?_ ?_)
  · intro i _ j _ e; simpa using e
  · intro s hs m' sm
    rw [mem_rng] at hs
    exact wrG0 h hp sm pre hP hs.2 hC0 (by dfe hS) (by dfe hS) (by dfe hS) rfl
  intro m1 f1
  refine Cmd.Ok.bind (f1.parz (fun x : ℕ × ℕ => (x.1, x.2, 0)) (rng2_nodup _ _ _ _) ?_ ?_ ?_ ?_)
  · intro i _ j _ e; simp only [Prod.mk.injEq, and_true] at e; exact Prod.ext e.1 e.2
  · rintro ⟨u, s⟩ hs d hd
    simp only [mem_rng2, mem_rng, Prod.mk.injEq, false_or] at hs hd
    obtain ⟨i, hi, e⟩ := hd; omega
  · rintro ⟨t, s⟩ hs m' sm
    simp only [mem_rng2] at hs
    exact wrG1 h hp sm pre hs.1.2 hs.2.2 hC0 (by dfe hS) (by dfe hS) (by dfe hS) hs.1.1
  intro m2 f2
  have f2' := f2.congr (done' := fun _ => True) (by
    rintro ⟨d, t, s, c⟩ hk
    have h0 := hc0 hk
    have h1 := hk.2.1
    have h2 := hk.2.2.1
    simp only at h0 h1 h2
    simp only [mem_rng2, mem_rng, Prod.mk.injEq, false_or, iff_true, h0]
    by_cases ht : t = 0
    · exact Or.inl ⟨s, ⟨by omega, h2⟩, ht, rfl, trivial⟩
    · exact Or.inr ⟨(t, s), ⟨⟨by simp only; omega, h1⟩, by simp only; omega, h2⟩, rfl, rfl, trivial⟩)
  refine fftp3S h hS (h.wf.plF hp) (pre.size f2.size) fun m3 f3 => ?_
  have pre3 : o.OwPre m3 f F := pre.size (f3.size.trans f2.size)
  refine Cmd.Ok.bind ((Fills.start (T := o.ZT m3 (o.VA f F) sA) (h.inj pre.fF)).parD (fun s => (0, s, 0)) (rng_nodup _ _) ?_ [1, 2] (by simp) ?_ ?_ ?_ ?_ ?_)
  · intro i _ j _ e; simpa using e
  · intro s hs d hd
    rw [mem_rng] at hs
    exact (R3 hP hs.2 hC0 d).2 (by simp at hd; omega)
  · intro s hs
    rw [mem_rng] at hs
    exact (wrZ0 h hp pre3 hP hs.2 hC0 rfl (by dfe hS) (by dfe hS) rfl rfl (fun _ => rfl) (by rw [Nat.mul_one]) rfl).1
  · intro s hs
    rw [mem_rng] at hs
    exact (wrZ0 h hp pre3 hP hs.2 hC0 rfl (by dfe hS) (by dfe hS) rfl rfl (fun _ => rfl) (by rw [Nat.mul_one]) rfl).2.1
  · intro s hs
    rw [mem_rng] at hs
    exact (wrZ0 h hp pre3 hP hs.2 hC0 rfl (by dfe hS) (by dfe hS) rfl rfl (fun _ => rfl) (by rw [Nat.mul_one]) rfl).2.2
  intro m4 f4
  refine Cmd.Ok.bind (f4.parz (fun x : ℕ × ℕ => (x.1, x.2, 0)) (rng2_nodup _ _ _ _) ?_ ?_ ?_ ?_)
  · intro i _ j _ e; simp only [Prod.mk.injEq, and_true] at e; exact Prod.ext e.1 e.2
  · rintro ⟨u, s⟩ hs d hd
    simp only [mem_rng2, mem_rng, Prod.mk.injEq, false_or] at hs hd
    obtain ⟨i, hi, e⟩ := hd; omega
  · rintro ⟨t, s⟩ hs m' sm
    simp only [mem_rng2] at hs
    obtain ⟨y1, y2, y3⟩ := h.zn (s := s) hs.1.1
    exact wrZ h hp sm pre3 hs.1.2 hs.2.2 hC0 (by dfe hS) (by dfe hS) (by dfe hS) hs.1.1 y1 y2 y3
  intro m5 f5
  have st := stages h.wf f2' f3 (fun _ _ => trivial) f5 (by
    rintro ⟨d, u, s, c⟩ hk hd
    by_contra hne
    have h0 := hc0 hk
    have h1 := hk.2.1
    have h2 := hk.2.2.1
    have h3 := hk.1
    simp only at h0 h1 h2 h3
    subst h0
    simp only [not_or] at hne
    by_cases hu : u = 0
    · subst hu
      have hd0 : d ≠ 0 := fun e => hne.2 ⟨rfl, by rw [e]; rfl⟩
      exact hd (Or.inl (Or.inr ⟨s, mem_rng.2 ⟨by omega, h2⟩, by simp only [List.mem_cons, List.mem_singleton]; omega, rfl⟩))
    · exact hd (Or.inr ⟨(u, s), mem_rng2.2 ⟨⟨by simp only; omega, h1⟩, by simp only; omega, h2⟩, rfl⟩))
  exact rows3S_ok h hS (h.wf.fftm_S1 h1 hS).1 (pre.size st.size) fun m6 f6 => ow_out h st f6

theorem backwardInnerAll_ok (h : o.Ow) (hp : 2 < o.p) (hS : o.S = 1) (pre : o.OwPre mem f F) :
    (o.backwardInnerAll F f).Ok mem (fun _ m' => o.OwBwd mem m' f F) := by
  obtain ⟨h1, h2, h3, h4, h5, h6, h7, h8, h9⟩ := h.facts
  have hP := h.wf.P_pos
  have hC := h.wf.C_one hS
  have hC0 := h.wf.C_pos
  have z1 : o.p / 2 = o.P := by omega
  have hc0 : ∀ {k : ℕ × ℕ × ℕ × ℕ}, o.RF 3 k → k.2.2.2 = 0 := fun hk => by have := hk.2.2.2; omega
  unfold backwardInnerAll
  simp only [z1]
  refine ok_assoc3 (rows3S_ok h hS (h.wf.fftm_S1 h1 hS).2 pre fun m0 f0 => ?_)
  have pre3 : o.OwPre m0 f F := pre.size f0.size
  refine Cmd.Ok.bind ((Fills.start (T := o.BT m0 (o.VA f F) sA) (h.inj pre.fF)).parD (fun s => (0, s, 0)) (rng_nodup _ _) ?_ [1, 2] (by simp) ?_ ?_ ?_ ?_ ?_)
  · intro i _ j _ e; simpa using e
  · intro s hs d hd
    rw [mem_rng] at hs
    exact (R3 hP hs.2 hC0 d).2 (by simp at hd; omega)
  · intro s hs
    rw [mem_rng] at hs
    exact (wrB0 h hp pre3 hP hs.2 hC0 rfl (by dfe hS) (by dfe hS) rfl rfl (fun _ => rfl) (by rw [Nat.mul_one]) rfl).1
  · intro s hs
    rw [mem_rng] at hs
    exact (wrB0 h hp pre3 hP hs.2 hC0 rfl (by dfe hS) (by dfe hS) rfl rfl (fun _ => rfl) (by rw [Nat.mul_one]) rfl).2.1
  · intro s hs
    rw [mem_rng] at hs
    exact (wrB0 h hp pre3 hP hs.2 hC0 rfl (by dfe hS) (by dfe hS) rfl rfl (fun _ => rfl) (by rw [Nat.mul_one]) rfl).2.2
  intro m4 f4
  refine Cmd.Ok.bind (f4.parz (fun x : ℕ × ℕ => (x.1, x.2, 0)) (rng2_nodup _ _ _ _) ?_ ?_ ?_ ?_)
  · intro i _ j _ e; simp only [Prod.mk.injEq, and_true] at e; exact Prod.ext e.1 e.2
  · rintro ⟨u, s⟩ hs d hd
    simp only [mem_rng2, mem_rng, Prod.mk.injEq, false_or] at hs hd
    obtain ⟨i, hi, e⟩ := hd; omega
  · rintro ⟨t, s⟩ hs m' sm
    simp only [mem_rng2] at hs
    obtain ⟨y1, y2, y3⟩ := h.zn (s := s) hs.1.1
    exact wrB h hp sm pre3 hs.1.2 hs.2.2 hC0 (by dfe hS) (by dfe hS) (by dfe hS) hs.1.1 y1 y2 y3
  intro m5 f5
  refine fftp3S h hS (h.wf.plB hp) (pre3.size f5.size) fun m6 f6 => ?_
  have pre6 : o.OwPre m6 f F := pre3.size (f6.size.trans f5.size)
  refine Cmd.Ok.bind ((Fills.start (T := o.DT m6 3 (o.VA f F) sA (fun _ _ => 0)) (h.wf.dD_inj hp f)).parz (fun s => (0, s, 0)) (rng_nodup _ _) ?_ (fun _ _ _ h => h) ?_ ?_)
  · intro i _ j _ e; simpa using e
  · intro s hs m' sm
    rw [mem_rng] at hs
    exact wrD0 h hp pre6 hP hs.2 hC0 (by dfe hS) (by dfe hS) (by dfe hS) sm rfl
  intro m7 f7
  refine f7.parz (fun x : ℕ × ℕ => (x.1, x.2, 0)) (rng2_nodup _ _ _ _) ?_ ?_ ?_ ?_
  · intro i _ j _ e; simp only [Prod.mk.injEq, and_true] at e; exact Prod.ext e.1 e.2
  · rintro ⟨u, s⟩ hs d hd
    simp only [mem_rng2, mem_rng, Prod.mk.injEq, false_or] at hs hd
    obtain ⟨i, hi, e⟩ := hd; omega
  · rintro ⟨t, s⟩ hs m' sm
    simp only [mem_rng2] at hs
    exact wrD1 h hp pre6 hs.1.2 hs.2.2 hC0 (by dfe hS) (by dfe hS) (by dfe hS) sm hs.1.1
  intro m8 f8
  refine ow_back h f0 (back_stages h.wf hp f5 ?_ f6 (fun _ _ => trivial) (f8.congr ?_))
  · rintro ⟨d, u, s, c⟩ hk hd
    by_contra hne
    have h0 := hc0 hk
    have h1 := hk.2.1
    have h2 := hk.2.2.1
    have h3 := hk.1
    simp only at h0 h1 h2 h3
    subst h0
    simp only [not_or] at hne
    by_cases hu : u = 0
    · subst hu
      have hd0 : d ≠ 0 := fun e => hne.2 ⟨rfl, by rw [e]; rfl⟩
      exact hd (Or.inl (Or.inr ⟨s, mem_rng.2 ⟨by omega, h2⟩, by simp only [List.mem_cons, List.mem_singleton]; omega, rfl⟩))
    · exact hd (Or.inr ⟨(u, s), mem_rng2.2 ⟨⟨by simp only; omega, h1⟩, by simp only; omega, h2⟩, rfl⟩)
  · rintro ⟨d, t, s, c⟩ ⟨_, h1, h2, h3⟩
    simp only at h1 h2 h3
    obtain rfl : c = 0 := by omega
    simp only [mem_rng2, mem_rng, Prod.mk.injEq, false_or, iff_true]
    by_cases ht : t = 0
    · exact Or.inl ⟨s, ⟨by omega, h2⟩, ht, rfl, trivial⟩
    · exact Or.inr ⟨(t, s), ⟨⟨by simp only; omega, h1⟩, by simp only; omega, h2⟩, rfl, rfl, trivial⟩

end
end Cent
end Fftwpp
