import Verif.Proof.Outer3

/-! Construction of `Convolution2`. -/

namespace Fftwpp
open Finset

/-- The call of `pad` in the constructors. -/
theorem FftBase.padNew_ok {o : FftBase} {x0 : ℤ} {padded : Mem → Ptr → Prop} (h : o.Spec x0 padded) {mem : Mem} {F : PtrArr} {k : ℕ}
    {al : Alloc} (hwk : o.Work mem F k (Conv.newW o al)) :
    (o.padCall (Conv.newW o al)).Ok mem fun _ m' => mem.Upd m' (o.InW (Conv.newW o al)) ∧ FftBase.Pd padded (Conv.newW o al) m' := by
  unfold FftBase.padCall
  by_cases hpn : o.padNone = true
  · rw [if_pos hpn]
    exact Cmd.Ok.pure ⟨Mem.Upd.refl _ _, fun W _ => h.pad_none hpn _ _⟩
  · rw [if_neg hpn]
    have hbW := hwk.bW
    by_cases hi : o.inplace = true
    · exact absurd (h.padNone_in hi) hpn
    · rw [if_neg hi] at hbW
      obtain ⟨W, hW, _, hbl⟩ := hbW
      rw [hW]
      refine (h.padOk (by simpa using hi) hbl).mono ?_
      rintro _ m' ⟨u, p⟩
      refine ⟨u.mono fun p hp => ⟨W, rfl, hp⟩, ?_⟩
      intro W' hW'
      obtain rfl : W = W' := by simpa using hW'
      exact p

namespace Outer
variable {x0 : ℤ} {padded : Mem → Ptr → Prop}

/-- The work arrays, allocated or supplied by the user, have the documented sizes and are distinct. -/
structure Buffers (o : FftBase) (mem : Mem) (Fu : Option PtrArr) (Vu : Option Ptr) (al : Alloc) : Prop where
  work : o.Work mem (Conv.newF o Fu al) (max o.A o.B) (Conv.newW o al)
  V : 1 < o.nloops → o.loop2 = false →
    o.Dat mem (Conv.newV o Vu al) 0 o.B (Conv.newF o Fu al) (max o.A o.B) (Conv.newW o al) ∧ o.Apart (Conv.newV o Vu al) 0 o.B

theorem Buffers.size {o : FftBase} {mem m' : Mem} {Fu : Option PtrArr} {Vu : Option Ptr} {al : Alloc} (h : Buffers o mem Fu Vu al)
    (hs : m'.size = mem.size) : Buffers o m' Fu Vu al :=
  ⟨h.work.size hs, fun h1 h2 => ⟨(h.V h1 h2).1.size hs, (h.V h1 h2).2⟩⟩

theorem new_ok {o : FftBase} (h : o.Spec x0 padded) (hs : Sched o x0) {mem : Mem} {Fu Vu al} (hb : Buffers o mem Fu Vu al) :
    (Outer.new o Fu none Vu al).Ok mem fun c m' => c.fft = o ∧ c.F = Conv.newF o Fu al ∧ c.V = Conv.newV o Vu al ∧
      c.W = Conv.newW o al ∧ c.Ready padded m' ∧ mem.Upd m' (o.InW c.W) := by
  have hWeq : (if decide (True ∧ o.inplace = false) = true then some al.W else none) = Conv.newW o al := by
    unfold Conv.newW
    cases o.inplace <;> simp
  unfold Outer.new
  simp only [hWeq]
  refine Cmd.Ok.bind ((o.padNew_ok h hb.work).mono ?_)
  rintro _ m1 ⟨u1, p1⟩
  refine Cmd.Ok.pure ⟨rfl, rfl, rfl, rfl, ⟨hb.work.size u1.size, p1, ?_, ?_⟩, u1⟩
  · intro hl
    have hl : o.loop2 = true := hl
    have hA := (hs.l2 hl).1
    refine ⟨?_, ?_, ?_⟩
    · show (if o.B + (if o.loop2 = true then 1 else 0) < o.A ∧ _ then _ else _) = _
      rw [if_neg]
      rw [if_pos hl]; omega
    · show o.A ≤ (if o.loop2 = true then (⟨o.A, _⟩ : PtrArr) else _).n
      rw [if_pos hl]
    · intro i hi
      show (if o.loop2 = true then (⟨o.A, fun a => if a = 0 then (Conv.newF o Fu al).at_ (o.A - 1) else (Conv.newF o Fu al).at_ (a - 1)⟩ : PtrArr)
        else _).at_ i = if i < o.A - o.B then (Conv.newF o Fu al).at_ (o.B + i) else (Conv.newF o Fu al).at_ (i - (o.A - o.B))
      rw [if_pos hl]
      have h1 : o.A - o.B = 1 := by omega
      rw [h1]
      by_cases hi0 : i = 0
      · subst hi0
        simp [hA]
      · have : ¬ i < 1 := by omega
        simp [hi0]
  · rintro ⟨g2, g3⟩
    obtain ⟨g4, g5⟩ := hb.V g2 g3
    exact ⟨g4.size u1.size, g5⟩

end Outer

/-- Constructing one object per thread. -/
theorem newAll_ok {α : Type} {d : α} {mk : ℕ → Cmd α} {n : ℕ} (P : ℕ → α → Mem → Prop) (R : ℕ → Ptr → Prop)
    (hstab : ∀ t t' x, t < n → t' < n → t ≠ t' → ∀ {m m' : Mem}, P t x m → m.Upd m' (R t') → P t x m') {mem : Mem}
    (hmk : ∀ t < n, ∀ m : Mem, m.size = mem.size → (mk t).Ok m fun x m' => P t x m' ∧ m.Upd m' (R t)) :
    (newAll d mk n).Ok mem fun g m' => (∀ t < n, P t (g t) m') ∧ mem.Upd m' (fun p => ∃ t < n, R t p) := by
  have key : ∀ k ≤ n, (newAll d mk k).Ok mem fun g m' => (∀ t < k, P t (g t) m') ∧ mem.Upd m' (fun p => ∃ t < k, R t p) := by
    intro k
    induction k with
    | zero => intro _; exact Cmd.Ok.pure ⟨fun _ h => absurd h (by omega), Mem.Upd.refl _ _⟩
    | succ k ih =>
      intro hk
      unfold newAll
      refine Cmd.Ok.bind ((ih (by omega)).mono ?_)
      rintro g m1 ⟨P1, u1⟩
      refine Cmd.Ok.bind ((hmk k (by omega) m1 u1.size).mono ?_)
      rintro x m2 ⟨P2, u2⟩
      refine Cmd.Ok.pure ⟨?_, u1.trans u2 (fun p ⟨t, ht, hp⟩ => ⟨t, by omega, hp⟩) (fun p hp => ⟨k, by omega, hp⟩)⟩
      intro t ht
      by_cases htk : t = k
      · subst htk; simpa using P2
      · rw [Function.update_of_ne htk]
        exact hstab t k _ (by omega) (by omega) htk (P1 t (by omega)) u2
  exact key n le_rfl

namespace Conv

/-- The buffers of the work arrays of an object to be constructed. -/
def NewBufs (o : FftBase) (Fu : Option PtrArr) (Vu : Option Ptr) (al : Alloc) (k : ℕ) : Prop :=
  (∃ a < max o.A o.B, k = ((newF o Fu al).at_ a).buf) ∨ (∃ W, newW o al = some W ∧ k = W.buf) ∨ ∃ b < o.B, k = ((newV o Vu al).at_ b).buf

theorem bufs_new {o : FftBase} {Fu : Option PtrArr} {Vu : Option Ptr} {al : Alloc} {c : Conv} (hfft : c.fft = o)
    (hF : c.F = newF o Fu al) (hV : c.V = newV o Vu al) (hW : c.W = newW o al) {k : ℕ} (h : c.Bufs k) : NewBufs o Fu Vu al k := by
  unfold Bufs at h
  rw [hfft, hF, hV, hW] at h
  rcases h with h | h | ⟨_, h⟩
  · exact Or.inl h
  · exact Or.inr (Or.inl h)
  · exact Or.inr (Or.inr h)

theorem bufs_newOuter {o : FftBase} {Fu : Option PtrArr} {Vu : Option Ptr} {al : Alloc} {c : Outer} (hfft : c.fft = o)
    (hF : c.F = newF o Fu al) (hV : c.V = newV o Vu al) (hW : c.W = newW o al) {k : ℕ} (h : c.Bufs k) : NewBufs o Fu Vu al k := by
  unfold Outer.Bufs at h
  rw [hfft, hF, hV, hW] at h
  rcases h with h | h | ⟨_, h⟩
  · exact Or.inl h
  · exact Or.inr (Or.inl h)
  · exact Or.inr (Or.inr h)

end Conv

namespace Conv2

/-- Number of threads of the object. -/
def newThreads (fftx : FftBase) (th : ℕ) : ℕ := if fftx.l < th then 1 else th

/-- The transforms and the multiplier fit together. -/
structure Fits (fftx ffty : FftBase) (mult : Multiplier) (x0 y0 : ℤ) (pdx pdy : Mem → Ptr → Prop) (K : ℕ → ℕ)
    (φ : List ℕ → ℕ → (ℕ → ℂ) → ℂ) : Prop where
  spx : fftx.Spec x0 pdx
  schx : Outer.Sched fftx x0
  spy : ffty.Spec y0 pdy
  qy : 0 < ffty.q
  fly : ffty.Flat K
  schy : Conv.Sched ffty y0 K
  mult : MultSpec ffty.A ffty.B ffty.index mult φ
  freq : ffty.FreqOK K φ
  freqx : fftx.overwrite = true → fftx.n = 2 ∨ ∀ ey e e' idx, φ (ey :: e :: idx) = φ (ey :: e' :: idx)
  A : ffty.A = fftx.A
  B : ffty.B = fftx.B
  C : ffty.L = fftx.C
  col : ∀ c, fftx.col c = c
  bs : ∀ r ∈ fftx.residues, fftx.noutputs r = fftx.blocksize r

/-- The work arrays have the documented sizes and are distinct. -/
structure Buffers (fftx ffty : FftBase) (th : ℕ) (mem : Mem) (Fu : Option PtrArr) (Vu : Option Ptr) (al : Alloc2) : Prop where
  x : Outer.Buffers fftx mem Fu Vu al.x
  y : ∀ t < newThreads fftx th, Conv.Buffers ffty mem none none (al.y t)
  sepT : ∀ t < newThreads fftx th, ∀ t' < newThreads fftx th, t ≠ t' → ∀ k, Conv.NewBufs ffty none none (al.y t) k →
    ¬ Conv.NewBufs ffty none none (al.y t') k
  sepX : ∀ t < newThreads fftx th, ∀ k, Conv.NewBufs fftx Fu Vu al.x k → ¬ Conv.NewBufs ffty none none (al.y t) k

/-- The buffers of the work arrays of an object to be constructed. -/
def NewBufs (fftx ffty : FftBase) (th : ℕ) (Fu : Option PtrArr) (Vu : Option Ptr) (al : Alloc2) (k : ℕ) : Prop :=
  Conv.NewBufs fftx Fu Vu al.x k ∨ ∃ t < newThreads fftx th, Conv.NewBufs ffty none none (al.y t) k

theorem Buffers.size {fftx ffty : FftBase} {th : ℕ} {mem m' : Mem} {Fu : Option PtrArr} {Vu : Option Ptr} {al : Alloc2}
    (h : Buffers fftx ffty th mem Fu Vu al) (hs : m'.size = mem.size) : Buffers fftx ffty th m' Fu Vu al := by
  refine ⟨h.x.size hs, fun t ht => ?_, h.sepT, h.sepX⟩
  have hy := h.y t ht
  exact ⟨hy.work.size hs, fun h1 h2 h3 => ⟨(hy.V h1 h2 h3).1.size hs, (hy.V h1 h2 h3).2⟩⟩

theorem new_ok {fftx ffty : FftBase} {mult : Multiplier} {x0 y0 : ℤ} {pdx pdy : Mem → Ptr → Prop} {K : ℕ → ℕ}
    {φ : List ℕ → ℕ → (ℕ → ℂ) → ℂ} (h : Fits fftx ffty mult x0 y0 pdx pdy K φ) {th : ℕ} {mem : Mem} {Fu : Option PtrArr}
    {Vu : Option Ptr} {al : Alloc2} (hb : Buffers fftx ffty th mem Fu Vu al) :
    (Conv2.new fftx ffty mult th Fu none Vu al).Ok mem fun o m' => o.x.fft = fftx ∧ o.ffty = ffty ∧
      o.threads = newThreads fftx th ∧ o.Setup x0 y0 pdx pdy K φ ∧ o.Ready pdx pdy m' ∧
      (∀ k, o.Bufs k → NewBufs fftx ffty th Fu Vu al k) ∧ mem.Upd m' (fun p => NewBufs fftx ffty th Fu Vu al p.buf) := by
  unfold Conv2.new
  have hthr : (if fftx.l < th then 1 else th) = newThreads fftx th := rfl
  simp only [hthr]
  refine Cmd.Ok.bind ((newAll_ok (fun t (c : Conv) m => c.fft = ffty ∧ c.mult = mult ∧ c.F = Conv.newF ffty none (al.y t) ∧
      c.V = Conv.newV ffty none (al.y t) ∧ c.W = Conv.newW ffty (al.y t) ∧ c.Ready pdy m)
    (fun t p => Conv.NewBufs ffty none none (al.y t) p.buf) ?_ ?_).mono ?_)
  · rintro t t' c ht ht' hne m m' ⟨h1, h2, h3, h4, h5, h6⟩ u
    refine ⟨h1, h2, h3, h4, h5, h6.bufs (by rw [h1]; exact h.spy) u.size ?_⟩
    intro p hp
    exact u.frame p fun hp' => hb.sepT t ht t' ht' hne _ (Conv.bufs_new h1 h3 h4 h5 hp) hp'
  · intro t ht m hs
    have hy := (hb.size hs).y t ht
    refine (Conv.new_ok h.spy h.qy mult hy).mono ?_
    rintro c m' ⟨h1, h2, h3, h4, h5, h6, u⟩
    refine ⟨⟨h1, h2, h3, h4, h5, h6⟩, u.mono ?_⟩
    rintro p ⟨W, hW, hp⟩
    rw [h5] at hW
    exact Or.inr (Or.inl ⟨W, hW, FftBase.inArr_buf hp⟩)
  rintro convy m1 ⟨hc, u1⟩
  refine Cmd.Ok.bind ((Outer.new_ok h.spx h.schx (hb.size u1.size).x).mono ?_)
  rintro x m2 ⟨g1, g2, g3, g4, g5, u2⟩
  have hxn : ∀ k, x.Bufs k → Conv.NewBufs fftx Fu Vu al.x k := fun k hk => Conv.bufs_newOuter g1 g2 g3 g4 hk
  have hyn : ∀ t < newThreads fftx th, ∀ k, (convy t).Bufs k → Conv.NewBufs ffty none none (al.y t) k := by
    intro t ht k hk
    obtain ⟨h1, h2, h3, h4, h5, h6⟩ := hc t ht
    exact Conv.bufs_new h1 h3 h4 h5 hk
  have hu2 : ∀ p, fftx.InW x.W p → Conv.NewBufs fftx Fu Vu al.x p.buf := by
    rintro p ⟨W, hW, hp⟩
    rw [g4] at hW
    exact Or.inr (Or.inl ⟨W, hW, FftBase.inArr_buf hp⟩)
  refine Cmd.Ok.pure ⟨g1, rfl, rfl, ?_, ⟨g5, ?_⟩, ?_, u1.trans u2 ?_ ?_⟩
  · refine ⟨by rw [g1]; exact h.spx, by rw [g1]; exact h.schx, h.spy, h.fly, h.schy, fun t ht => (hc t ht).1, ?_, h.freq, by rw [g1]; exact h.freqx,
      by rw [g1]; exact h.A, by rw [g1]; exact h.B, by rw [g1]; exact h.C, by rw [g1]; exact h.col, by rw [g1]; exact h.bs, ?_, ?_, ?_⟩
    · intro t ht
      have := (hc t ht).2.1
      show MultSpec _ _ _ (convy t).mult φ
      rw [this]; exact h.mult
    · rw [g1, ← h.A]; exact h.mult.congr
    · intro t ht t' ht' hne k hk hk'
      exact hb.sepT t ht t' ht' hne k (hyn t ht k hk) (hyn t' ht' k hk')
    · intro t ht k hk hk'
      exact hb.sepX t ht k (hxn k hk) (hyn t ht k hk')
  · intro t ht
    refine (hc t ht).2.2.2.2.2.bufs (by rw [(hc t ht).1]; exact h.spy) u2.size ?_
    intro p hp
    exact u2.frame p fun hp' => hb.sepX t ht _ (hu2 p hp') (hyn t ht _ hp)
  · rintro k (hk | ⟨t, ht, hk⟩)
    · exact Or.inl (hxn k hk)
    · exact Or.inr ⟨t, ht, hyn t ht k hk⟩
  · rintro p ⟨t, ht, hp⟩
    exact Or.inr ⟨t, ht, hp⟩
  · intro p hp
    exact Or.inl (hu2 p hp)

/-! Sequences of calls -/

/-- What may happen between calls of `convolve`: the user writes a word, or calls `convolve` on some arrays; the schedules are
chosen by the environment. -/
inductive Step where
  | write (p : Ptr) (v : ℂ)
  | call (s : ℕ → Sch) (f : PtrArr) (offset : ℕ)

/-- Perform a step. -/
noncomputable def step (o : Conv2) : Step → Cmd Unit
  | .write p v => (store p v).run
  | .call s f off => o.convolve s f off

/-- The user writes outside the work arrays of the object. -/
def Allowed (o : Conv2) (mem : Mem) : Step → Prop
  | .write p _ => mem.valid p ∧ ¬ o.Bufs p.buf
  | .call s f off => o.LegalS s ∧ o.Inputs mem f off

theorem history_ok {o : Conv2} {x0 y0 : ℤ} {pdx pdy : Mem → Ptr → Prop} {K : ℕ → ℕ} {φ : List ℕ → ℕ → (ℕ → ℂ) → ℂ}
    (h : o.Setup x0 y0 pdx pdy K φ) {mem : Mem} (hr : o.Ready pdx pdy mem) (steps : List Step) (ha : ∀ s ∈ steps, o.Allowed mem s) :
    (seqLoop steps o.step).Ok mem fun _ m' => o.Ready pdx pdy m' ∧ m'.size = mem.size := by
  refine seqLoop_list (fun _ m1 => o.Ready pdx pdy m1 ∧ m1.size = mem.size) ⟨hr, rfl⟩ ?_ (fun _ h => h)
  rintro _ s m1 hsm ⟨r1, s1⟩
  have hal := ha s hsm
  cases s with
  | write p v =>
    refine run_map1 (body := store p v) p v ?_ ?_ ?_
    · body_simp
      exact Mem.valid_of_size s1 hal.1
    · body_simp
    intro m2 u2 e2
    refine ⟨r1.bufs h u2.size ?_, u2.size.trans s1⟩
    intro p' hp'
    refine u2.frame _ ?_
    rintro rfl
    exact hal.2 hp'
  | call s g off =>
    refine (convolve_ok h hal.1 r1 (hal.2.size s1)).mono ?_
    rintro _ m2 ⟨u2, r2, _⟩
    exact ⟨r2, u2.size.trans s1⟩

end Conv2
end Fftwpp
