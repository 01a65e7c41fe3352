import Verif.Proof.Outer4
import Verif.Proof.AConv

/-! The common part of `Convolution2` and `Convolution3` over an abstract view of the arrays (transforms that do not overwrite their inputs). -/

namespace Fftwpp
open Finset
namespace View

/-- The state of the object between calls. -/
structure OReady (v : View) (c : Outer) (padded : Mem → Ptr → Prop) (mem : Mem) : Prop where
  work : Work c.fft mem c.F (max c.fft.A c.fft.B) c.W
  pd : FftBase.Pd padded c.W mem
  l2 : c.fft.loop2 = true → c.W0 = c.W ∧ c.fft.A ≤ c.Fp.n ∧
    ∀ i < c.fft.A, c.Fp.at_ i = if i < c.fft.A - c.fft.B then c.F.at_ (c.fft.B + i) else c.F.at_ (i - (c.fft.A - c.fft.B))
  V : c.UsesV → v.Dat mem c.V 0 c.fft.B c.F (max c.fft.A c.fft.B) c.W ∧ v.Apart c.V 0 c.fft.B

/-- The side conditions under which the schedules are right. -/
structure OSched (o : FftBase) : Prop where
  ow : o.overwrite = false
  BA : o.B ≤ o.A
  l2 : o.loop2 = true → o.A = o.B + 1 ∧ o.residues = [0, o.incr0]

/-- The arguments of `convolveRaw`: `A` distinct data arrays, not in the buffers of the work arrays. -/
structure OInputs (v : View) (c : Outer) (mem : Mem) (f : PtrArr) (off : ℕ) : Prop where
  n : c.fft.A ≤ f.n
  bf : ∀ a < c.fft.A, ∀ p, v.D (f.at_ a + off) p → mem.valid p
  apart : v.Apart f off c.fft.A
  buf : ∀ a < c.fft.A, ¬ c.Bufs (f.at_ a).buf

variable {v : View} {c : Outer} {padded : Mem → Ptr → Prop}
variable {Φ : ℕ → ℕ → ℕ → (ℕ → ℕ → ℂ) → ℕ → ℂ} {P : ℕ → ℕ → (ℕ → ℕ → ℂ) → Prop} {T : ℕ → Prop} {Inv : Mem → Prop}

theorem OReady.size {mem m' : Mem} (h : v.OReady c padded mem) (hs : m'.size = mem.size) (hp : FftBase.Pd padded c.W m') :
    v.OReady c padded m' :=
  ⟨h.work.size hs, hp, h.l2, fun hu => ⟨(h.V hu).1.size hs, (h.V hu).2⟩⟩

theorem OReady.frame (hsp : v.Spec c.fft padded) {mem m' : Mem} (h : v.OReady c padded mem) {R : Ptr → Prop} (u : mem.Upd m' R)
    (hR : ∀ p, R p → ¬ InW c.fft c.W p) : v.OReady c padded m' := by
  refine h.size u.size ?_
  intro W hW
  refine hsp.pad_frame ?_ (h.pd W hW)
  intro i hi
  refine u.frame _ fun hp => hR _ hp ⟨W, hW, i, hi, rfl⟩

/-- The state depends on the work arrays only. -/
theorem OReady.bufs (hsp : v.Spec c.fft padded) {mem m' : Mem} (h : v.OReady c padded mem) (hs : m'.size = mem.size)
    (hv : ∀ p : Ptr, c.Bufs p.buf → m'.val p = mem.val p) : v.OReady c padded m' := by
  refine h.size hs ?_
  intro W hW
  refine hsp.pad_frame ?_ (h.pd W hW)
  intro i _
  exact hv _ (Or.inr (Or.inl ⟨W, hW, rfl⟩))

theorem OInputs.size {mem m' : Mem} {f : PtrArr} {off : ℕ} (h : v.OInputs c mem f off) (hs : m'.size = mem.size) : v.OInputs c m' f off :=
  ⟨h.n, fun a ha p hp => Mem.valid_of_size hs (h.bf a ha p hp), h.apart, h.buf⟩

theorem OInputs.dat {mem : Mem} {f : PtrArr} {off : ℕ} (hi : v.OInputs c mem f off) :
    v.Dat mem f off c.fft.A c.F (max c.fft.A c.fft.B) c.W := by
  refine ⟨hi.n, hi.bf, ?_, ?_⟩
  · intro a ha a' ha' e
    exact hi.buf a ha (Or.inl ⟨a', ha', e⟩)
  · intro a ha W hW e
    exact hi.buf a ha (Or.inr (Or.inl ⟨W, hW, e.symm⟩))

/-- `convolveRaw`, given `subconvolution` and the loop copying the results (of the columns `live`). -/
theorem oraw_ok (h : v.Spec c.fft padded) (hs : OSched c.fft) {sub : PtrArr → ℕ → ℕ → Cmd Unit} {copy : PtrArr → PtrArr → Cmd Unit}
    (hop : v.OpSpec c.fft (fun F r => sub F r 0) Φ P T Inv) {mem : Mem} {f : PtrArr} {off : ℕ}
    (hr : v.OReady c padded mem) (hi : v.OInputs c mem f off) (hI : Inv mem) (hTB : ∀ k, c.Bufs k → ¬ T k)
    (hTf : ∀ a < c.fft.A, ¬ T (f.at_ a).buf) (live : ℕ → Prop)
    (hcopy : c.UsesV → ∀ m1 : Mem, m1.size = mem.size → (copy f c.V).Ok m1 fun _ m2 =>
      m1.Upd m2 (fun p => ∃ b < c.fft.B, v.D (f.at_ b + off) p) ∧
      ∀ b < c.fft.B, ∀ j < c.fft.L, ∀ k < c.fft.C, live k → v.x m2 (f.at_ b + off) j k = v.x m1 (c.V.at_ b) j k) :
    (c.convolveRaw sub copy f off).Ok mem fun _ m' =>
      mem.Upd m' (fun p => T p.buf ∨ c.Bufs p.buf ∨ ∃ b < c.fft.B, v.D (f.at_ b + off) p) ∧ v.OReady c padded m' ∧ Inv m' ∧
      (v.Good c.fft Φ P mem f off → ∀ b < c.fft.B, ∀ j < c.fft.L, ∀ k < c.fft.C, live k →
        v.x m' (f.at_ b + off) j k = v.result c.fft Φ mem f off b j k) := by
  have hBA := hs.BA
  have hmax : max c.fft.A c.fft.B = c.fft.A := max_eq_left hBA
  have hts : c.fft.TSep c.F c.W T :=
    ⟨fun a ha => hTB _ (Or.inl ⟨a, ha, rfl⟩), fun W hW => hTB _ (Or.inr (Or.inl ⟨W, hW, rfl⟩))⟩
  have hd := hi.dat
  have hDb : ∀ {f : Ptr} {p}, v.D f p → p.buf = f.buf := h.D_buf
  have hWk : ∀ p, Wk c.fft c.F c.W T p → T p.buf ∨ c.Bufs p.buf := by
    rintro p (hp | ⟨a, ha, hp⟩ | ⟨W, hW, hp⟩)
    · exact Or.inl hp
    · exact Or.inr (Or.inl ⟨a, ha, FftBase.inArr_buf hp⟩)
    · exact Or.inr (Or.inr (Or.inl ⟨W, hW, FftBase.inArr_buf hp⟩))
  unfold Outer.convolveRaw
  rw [if_neg (by rw [hs.ow]; simp)]
  by_cases hl : c.fft.loop2 = true
  · rw [if_pos hl]
    obtain ⟨hA1, hres⟩ := hs.l2 hl
    obtain ⟨hW0, hFpn, hFp⟩ := hr.l2 hl
    have hwk := hr.work
    rw [hmax] at hwk hd
    unfold Outer.rawLoop2 Outer.backward
    rw [hW0]
    simp only [Outer.cond_isSome]
    refine (loop2_ok h hop rfl (by omega) (by rw [hA1]; simp) hres hFpn hFp hwk hd hi.apart hts hTf hr.pd hI
      (G := v.Good c.fft Φ P mem f off) id).mono ?_
    rintro _ m1 ⟨u1, p1, I1, e1⟩
    refine ⟨u1.mono ?_, hr.size u1.size p1, I1, fun g b hb j hj k hk _ => e1 g b hb j hj k hk⟩
    rintro p (hp | hp)
    · rcases hWk p hp with h1 | h1
      · exact Or.inl h1
      · exact Or.inr (Or.inl h1)
    · exact Or.inr (Or.inr hp)
  · rw [if_neg hl]
    have hl' : c.fft.loop2 = false := by simpa using hl
    have hbw : BackW c.fft c.F c.W c.W c.W.isSome := Or.inl ⟨rfl, rfl⟩
    unfold Outer.rawGeneric Outer.backward
    simp only [Outer.cond_isSome]
    by_cases hnl : 1 < c.fft.nloops
    · simp only [if_pos hnl]
      have hV : c.UsesV := ⟨hnl, hl'⟩
      obtain ⟨hdV, haV⟩ := hr.V hV
      have hVb : ∀ b < c.fft.B, c.Bufs (c.V.at_ b).buf := fun b hb => Or.inr (Or.inr ⟨hV, b, hb, rfl⟩)
      refine Cmd.Ok.bind ((loop_ok h hop hr.work hd hdV haV hts hTf (fun b hb => hTB _ (hVb b hb)) hbw (Or.inr ?_)
        hr.pd hI (G := v.Good c.fft Φ P mem f off) id).mono ?_)
      · intro a ha b hb p h1 h2
        have e1 := hDb h1
        have e2 := hDb h2
        simp only [Ptr.add_buf] at e1 e2
        exact hi.buf a ha (by rw [← e1, e2]; exact hVb b hb)
      rintro _ m1 ⟨u1, p1, I1, e1⟩
      refine (hcopy hV m1 u1.size).mono ?_
      rintro _ m2 ⟨u2, e2⟩
      have hfb : ∀ p, (∃ b < c.fft.B, v.D (f.at_ b + off) p) → ∃ a < c.fft.A, p.buf = (f.at_ a).buf := by
        rintro p ⟨b, hb, hp⟩
        exact ⟨b, by omega, by simpa using hDb hp⟩
      refine ⟨u1.trans u2 ?_ (fun p hp => Or.inr (Or.inr hp)), ?_, ?_, ?_⟩
      · rintro p (hp | ⟨b, hb, hp⟩)
        · rcases hWk p hp with h1 | h1
          · exact Or.inl h1
          · exact Or.inr (Or.inl h1)
        · refine Or.inr (Or.inl ?_)
          have := hDb hp
          simp only [Ptr.add_buf] at this
          rw [this]; exact hVb b hb
      · refine (hr.size u1.size p1).frame h u2 ?_
        rintro p hp ⟨W, hW, hp2⟩
        obtain ⟨a, ha, e⟩ := hfb p hp
        exact hi.buf a ha (Or.inr (Or.inl ⟨W, hW, by rw [← e, FftBase.inArr_buf hp2]⟩))
      · refine hop.inv I1 u2.size fun p hp => u2.frame p fun hp2 => ?_
        obtain ⟨a, ha, e⟩ := hfb p hp2
        rw [e] at hp
        exact hTf a ha hp
      · intro hG b hb j hj k hk hlk
        have := e1 hG b hb j hj k hk
        rw [Conv.Ptr.add0] at this
        rw [e2 b hb j hj k hk hlk, this]
    · simp only [if_neg hnl]
      have hres : c.fft.residues = [0] := by
        obtain ⟨rest, e, _⟩ := h.res0
        have := h.nl
        rw [e] at this
        simp at this
        have : rest = [] := by
          cases rest with
          | nil => rfl
          | cons a l => simp at this; omega
        rw [e, this]
      have hdB := hd.mono hBA le_rfl
      refine Cmd.Ok.bind ((loop_ok h hop hr.work hd hdB (fun a ha a' ha' => hi.apart a (by omega) a' (by omega)) hts hTf
        (fun b hb => hTf b (by omega)) hbw (Or.inl hres) hr.pd hI (G := v.Good c.fft Φ P mem f off) id).mono ?_)
      rintro _ m1 ⟨u1, p1, I1, e1⟩
      refine Cmd.Ok.pure ⟨u1.mono ?_, hr.size u1.size p1, I1, fun g b hb j hj k hk _ => e1 g b hb j hj k hk⟩
      rintro p (hp | hp)
      · rcases hWk p hp with h1 | h1
        · exact Or.inl h1
        · exact Or.inr (Or.inl h1)
      · exact Or.inr (Or.inr hp)

/-- The work arrays, allocated or supplied by the user, have the documented sizes and are distinct. -/
structure OBuffers (v : View) (o : FftBase) (mem : Mem) (Fu : Option PtrArr) (Vu : Option Ptr) (al : Alloc) : Prop where
  work : Work o mem (Conv.newF o Fu al) (max o.A o.B) (Conv.newW o al)
  V : 1 < o.nloops → o.loop2 = false →
    v.Dat mem (Conv.newV o Vu al) 0 o.B (Conv.newF o Fu al) (max o.A o.B) (Conv.newW o al) ∧ v.Apart (Conv.newV o Vu al) 0 o.B

theorem OBuffers.size {o : FftBase} {mem m' : Mem} {Fu : Option PtrArr} {Vu : Option Ptr} {al : Alloc} (h : v.OBuffers o mem Fu Vu al)
    (hs : m'.size = mem.size) : v.OBuffers o m' Fu Vu al :=
  ⟨h.work.size hs, fun h1 h2 => ⟨(h.V h1 h2).1.size hs, (h.V h1 h2).2⟩⟩

theorem onew_ok {o : FftBase} (h : v.Spec o padded) (hs : OSched o) {mem : Mem} {Fu Vu al} (hb : v.OBuffers o mem Fu Vu al) :
    (Outer.new o Fu none Vu al).Ok mem fun c m' => c.fft = o ∧ c.F = Conv.newF o Fu al ∧ c.V = Conv.newV o Vu al ∧
      c.W = Conv.newW o al ∧ v.OReady c padded m' ∧ mem.Upd m' (InW o c.W) := by
  have hWeq : (if decide (True ∧ o.inplace = false) = true then some al.W else none) = Conv.newW o al := by
    unfold Conv.newW
    cases o.inplace <;> simp
  have hwk := hb.work
  unfold Outer.new
  simp only [hWeq]
  have hpad : (o.padCall (Conv.newW o al)).Ok mem fun _ m' => mem.Upd m' (InW o (Conv.newW o al)) ∧ FftBase.Pd padded (Conv.newW o al) m' := by
    unfold FftBase.padCall
    by_cases hpn : o.padNone = true
    · rw [if_pos hpn]
      exact Cmd.Ok.pure ⟨Mem.Upd.refl _ _, fun W _ => h.pad_none hpn _ _⟩
    · rw [if_neg hpn]
      have hbW := hwk.bW
      by_cases hi : o.inplace = true
      · exact absurd (h.padNone_in hi) hpn
      · rw [if_neg hi] at hbW
        obtain ⟨W, hW, _, hbl⟩ := hbW
        rw [hW]
        refine (h.padOk (by simpa using hi) hbl).mono ?_
        rintro _ m' ⟨u, p⟩
        refine ⟨u.mono fun p hp => ⟨W, rfl, hp⟩, ?_⟩
        intro W' hW'
        obtain rfl : W = W' := by simpa using hW'
        exact p
  refine Cmd.Ok.bind (hpad.mono ?_)
  rintro _ m1 ⟨u1, p1⟩
  refine Cmd.Ok.pure ⟨rfl, rfl, rfl, rfl, ⟨hb.work.size u1.size, p1, ?_, ?_⟩, u1⟩
  · intro hl
    have hl : o.loop2 = true := hl
    have hA := (hs.l2 hl).1
    refine ⟨?_, ?_, ?_⟩
    · show (if o.B + (if o.loop2 = true then 1 else 0) < o.A ∧ _ then _ else _) = _
      rw [if_neg]
      rw [if_pos hl]; omega
    · show o.A ≤ (if o.loop2 = true then (⟨o.A, _⟩ : PtrArr) else _).n
      rw [if_pos hl]
    · intro i hi
      show (if o.loop2 = true then (⟨o.A, fun a => if a = 0 then (Conv.newF o Fu al).at_ (o.A - 1) else (Conv.newF o Fu al).at_ (a - 1)⟩ : PtrArr)
        else _).at_ i = if i < o.A - o.B then (Conv.newF o Fu al).at_ (o.B + i) else (Conv.newF o Fu al).at_ (i - (o.A - o.B))
      rw [if_pos hl]
      have h1 : o.A - o.B = 1 := by omega
      rw [h1]
      by_cases hi0 : i = 0
      · subst hi0
        simp [hA]
      · have : ¬ i < 1 := by omega
        simp [hi0]
  · rintro ⟨g2, g3⟩
    obtain ⟨g4, g5⟩ := hb.V g2 g3
    exact ⟨g4.size u1.size, g5⟩

end View
end Fftwpp
