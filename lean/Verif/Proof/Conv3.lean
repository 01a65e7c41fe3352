import Verif.Proof.Conv2

/-! `Convolution`: construction and sequences of calls, generically over the transform class. -/

namespace Fftwpp
open Finset

namespace Conv
variable {c : Conv} {x0 : ℤ} {padded : Mem → Ptr → Prop} {K : ℕ → ℕ}

/-- The side conditions under which the schedules are right. -/
structure Sched (o : FftBase) (x0 : ℤ) (K : ℕ → ℕ) : Prop where
  ow : o.overwrite = true → ∃ freq, o.OwSpec x0 freq
  l2 : o.q ≠ 1 → o.loop2 = true → o.B < o.A ∧ (o.A - o.B) ∣ o.B ∧ o.residues = [0, o.incr0]
  BA : o.B ≤ o.A ∨ ∀ r ∈ o.residues, K r = 1

theorem Sched.outs_le {o : FftBase} (hs : Sched o x0 K) : o.B ≤ o.outs := by
  unfold FftBase.outs
  split_ifs with h
  · obtain ⟨freq, ho⟩ := hs.ow h
    exact ho.BA
  · exact le_rfl

theorem convolveRaw_ok (h : c.fft.Spec x0 padded) (fl : c.fft.Flat K) (hs : Sched c.fft x0 K) {φ}
    (hm : MultSpec c.fft.A c.fft.B c.fft.index c.mult φ) (hf : c.fft.FreqOK K φ) {mem : Mem} {g : PtrArr}
    (hr : c.Ready padded mem) (hi : c.Inputs mem g) (idx : List ℕ) :
    (c.convolveRaw idx g).Ok mem fun _ m' => c.RawPost x0 padded φ idx g mem m' := by
  unfold convolveRaw
  by_cases hq : c.fft.q = 1
  · rw [if_pos hq]
    refine explicit_ok h fl ?_ hq hm hr hi idx
    by_contra how
    obtain ⟨freq, ho⟩ := hs.ow (by simpa using how)
    exact ho.q1 hq
  rw [if_neg hq]
  by_cases how : c.fft.overwrite = true
  · rw [if_pos how]
    obtain ⟨freq, ho⟩ := hs.ow how
    exact overwrite_ok ho fl how hm hf hr (h.pad_in ho.inpl) hi idx
  rw [if_neg how]
  replace how : c.fft.overwrite = false := by simpa using how
  by_cases hl : c.fft.loop2 = true
  · rw [if_pos hl]
    obtain ⟨h1, h2, h3⟩ := hs.l2 hq hl
    exact loop2_raw_ok h fl how hq hl h1 h2 h3 hm hf hr hi idx
  · rw [if_neg hl]
    exact generic_ok h fl how hq (by simpa using hl) hm hs.BA hf hr hi idx

theorem convolve_ok (h : c.fft.Spec x0 padded) (fl : c.fft.Flat K) (hs : Sched c.fft x0 K) {φ}
    (hm : MultSpec c.fft.A c.fft.B c.fft.index c.mult φ) (hf : c.fft.FreqOK K φ) {mem : Mem} {g : PtrArr}
    (hr : c.Ready padded mem) (hi : c.Inputs mem g) :
    (c.convolve g).Ok mem fun _ m' => mem.Upd m' (fun p => c.WorkWord p ∨ ∃ b < c.fft.outs, c.fft.Data (g.at_ b) p) ∧
      c.Ready padded m' ∧ ∀ b < c.fft.B, ∀ j < c.fft.L, m'.val (g.at_ b + j) =
        c.fft.result x0 (fun e b X c => φ [e] b (fun a => X a c)) mem g 0 b j 0 * (1 / (c.fft.N : ℂ)) := by
  unfold convolve
  refine Cmd.Ok.bind ((convolveRaw_ok h fl hs hm hf hr hi []).mono ?_)
  rintro _ m1 ⟨u1, r1, e1⟩
  have hdB := hi.dat.mono (le_max_right c.fft.A c.fft.B) le_rfl
  refine (normalize_ok rfl fl hdB.n ?_ ?_).mono ?_
  · intro b hb
    have := hdB.bf b hb
    rw [fl.S, one_mul] at this
    exact FftBase.block_size u1.size this
  · intro b hb b' hb' hne p h1 h2
    exact hi.apart b (lt_of_lt_of_le hb (le_max_right _ _)) b' (lt_of_lt_of_le hb' (le_max_right _ _)) hne p
      ((flat_data fl).2 h1) ((flat_data fl).2 h2)
  rintro _ m2 ⟨u2, e2⟩
  refine ⟨u1.trans u2 (fun _ h => h) ?_, r1.frame h u2 ?_, ?_⟩
  · rintro p ⟨b, hb, hp⟩
    rw [Ptr.add0] at hp
    exact Or.inr ⟨b, lt_of_lt_of_le hb (hs.outs_le), (flat_data fl).2 hp⟩
  · rintro p ⟨b, hb, hp⟩ ⟨W, hW, hp2⟩
    refine hdB.fW b hb W hW ?_
    have h1 := FftBase.inArr_buf hp
    rw [Ptr.add_buf] at h1
    rw [← h1, FftBase.inArr_buf hp2]
  · intro b hb j hj
    have := e2 b hb j hj
    rw [Ptr.add0] at this
    rw [this, e1 b hb j hj]

/-! Construction -/

/-- The array `F` of the object. -/
def newF (o : FftBase) (Fu : Option PtrArr) (al : Alloc) : PtrArr :=
  match Fu with
  | none => ⟨max o.A o.B, al.F⟩
  | some F => F

/-- The array `V` of the object. -/
def newV (o : FftBase) (Vu : Option Ptr) (al : Alloc) : PtrArr :=
  match Vu with
  | none => ⟨o.B, al.V⟩
  | some V => ⟨o.B, fun i => V + i * o.workSizeV⟩

/-- The array `W` of the object (`W` argument not supplied). -/
def newW (o : FftBase) (al : Alloc) : Option Ptr := if o.inplace then none else some al.W

/-- The work arrays, allocated or supplied by the user, have the documented sizes and are distinct. -/
structure Buffers (o : FftBase) (mem : Mem) (Fu : Option PtrArr) (Vu : Option Ptr) (al : Alloc) : Prop where
  work : o.Work mem (newF o Fu al) (max o.A o.B) (newW o al)
  V : o.q ≠ 1 → 1 < o.nloops → o.loop2 = false →
    o.Dat mem (newV o Vu al) 0 o.B (newF o Fu al) (max o.A o.B) (newW o al) ∧ o.Apart (newV o Vu al) 0 o.B

theorem new_ok {o : FftBase} (h : o.Spec x0 padded) (hq0 : 0 < o.q) (mult : Multiplier) {mem : Mem} {Fu Vu al} (hb : Buffers o mem Fu Vu al) :
    (Conv.new o mult Fu none Vu al).Ok mem fun c m' => c.fft = o ∧ c.mult = mult ∧ c.F = newF o Fu al ∧ c.V = newV o Vu al ∧
      c.W = newW o al ∧ c.Ready padded m' ∧ mem.Upd m' (o.InW c.W) := by
  have hWeq : (if decide (True ∧ o.inplace = false) = true then some al.W else none) = newW o al := by
    unfold newW
    cases o.inplace <;> simp
  have hwk := hb.work
  unfold Conv.new
  simp only [hWeq]
  by_cases hq : 1 < o.q
  · rw [if_pos hq]
    -- the call of `pad`
    have hpad : (o.padCall (newW o al)).Ok mem fun _ m' => mem.Upd m' (o.InW (newW o al)) ∧ FftBase.Pd padded (newW o al) m' := by
      unfold FftBase.padCall
      by_cases hpn : o.padNone = true
      · rw [if_pos hpn]
        exact Cmd.Ok.pure ⟨Mem.Upd.refl _ _, fun W _ => h.pad_none hpn _ _⟩
      · rw [if_neg hpn]
        have hbW := hwk.bW
        by_cases hi : o.inplace = true
        · have hW : newW o al = none := by unfold newW; rw [if_pos hi]
          exfalso
          exact hpn (h.padNone_in hi)
        · rw [if_neg hi] at hbW
          obtain ⟨W, hW, _, hbl⟩ := hbW
          rw [hW]
          refine (h.padOk (by simpa using hi) hbl).mono ?_
          rintro _ m' ⟨u, p⟩
          refine ⟨u.mono fun p hp => ⟨W, rfl, hp⟩, ?_⟩
          intro W' hW'
          obtain rfl : W = W' := by simpa using hW'
          exact p
    refine Cmd.Ok.bind (hpad.mono ?_)
    rintro _ m1 ⟨u1, p1⟩
    have hV : ∀ W0 Fp po, (⟨o, mult, newF o Fu al, Fp, newV o Vu al, newW o al, W0, po⟩ : Conv).UsesV →
        o.Dat m1 (newV o Vu al) 0 o.B (newF o Fu al) (max o.A o.B) (newW o al) ∧ o.Apart (newV o Vu al) 0 o.B := by
      rintro W0 Fp po ⟨g1, g2, g3⟩
      obtain ⟨g4, g5⟩ := hb.V g1 g2 g3
      exact ⟨g4.size u1.size, g5⟩
    by_cases hc : o.loop2 = false ∧ o.B < o.A ∧ o.inplace = false ∧ o.workSizeW ≤ o.outputSize
    · rw [if_pos hc]
      refine Cmd.Ok.pure ⟨rfl, rfl, rfl, rfl, rfl, ⟨hwk.size u1.size, p1, ?_, ?_, hV _ _ _⟩, u1⟩
      · intro _ _
        exact Or.inr ⟨rfl, hc.2.1, hc.2.2.1, by simp [rp]⟩
      · intro _ hl
        rw [hc.1] at hl; simp at hl
    · rw [if_neg hc]
      have hrp : (newW o al).isSome = decide (newW o al ≠ none ∧ newW o al = newW o al ∧ True) := by
        cases newW o al <;> simp
      refine Cmd.Ok.pure ⟨rfl, rfl, rfl, rfl, rfl, ⟨hwk.size u1.size, p1, ?_, ?_, hV _ _ _⟩, u1⟩
      · intro _ _
        refine Or.inl ⟨rfl, ?_⟩
        show decide _ = (newW o al).isSome
        rw [hrp]; simp
      · intro _ hl
        refine ⟨rfl, ?_, le_rfl, ?_⟩
        · show decide _ = (newW o al).isSome
          rw [hrp]; simp
        · intro i hi
          rfl
  · rw [if_neg hq]
    have hq1 : o.q = 1 := by omega
    refine Cmd.Ok.pure ⟨rfl, rfl, rfl, rfl, rfl, ⟨hwk, fun W _ => h.pad_q1 hq1 _ _, ?_, ?_, ?_⟩, Mem.Upd.refl _ _⟩
    · intro hne; exact absurd hq1 hne
    · intro hne; exact absurd hq1 hne
    · intro hu; exact absurd hq1 hu.1

/-! Sequences of calls -/

/-- What may happen between calls of `convolve`: the user writes a word, or calls `convolve` on some arrays. -/
inductive Step where
  | write (p : Ptr) (v : ℂ)
  | call (g : PtrArr)

/-- Perform a step. -/
noncomputable def step (c : Conv) : Step → Cmd Unit
  | .write p v => (store p v).run
  | .call g => c.convolve g

/-- The user may write any word, even of the work arrays `F` and `V`, except words of `W`. -/
def Allowed (c : Conv) (mem : Mem) : Step → Prop
  | .write p _ => mem.valid p ∧ ¬ c.fft.InW c.W p
  | .call g => c.Inputs mem g

theorem history_ok (h : c.fft.Spec x0 padded) (fl : c.fft.Flat K) (hs : Sched c.fft x0 K) {φ}
    (hm : MultSpec c.fft.A c.fft.B c.fft.index c.mult φ) (hf : c.fft.FreqOK K φ) {mem : Mem}
    (hr : c.Ready padded mem) (steps : List Step) (ha : ∀ s ∈ steps, c.Allowed mem s) :
    (seqLoop steps c.step).Ok mem fun _ m' => c.Ready padded m' ∧ m'.size = mem.size := by
  refine seqLoop_list (fun _ m1 => c.Ready padded m1 ∧ m1.size = mem.size) ⟨hr, rfl⟩ ?_ (fun _ h => h)
  rintro _ s m1 hsm ⟨r1, s1⟩
  have hal := ha s hsm
  cases s with
  | write p v =>
    refine run_map1 (body := store p v) p v ?_ ?_ ?_
    · body_simp
      exact Mem.valid_of_size s1 hal.1
    · body_simp
    intro m2 u2 e2
    refine ⟨r1.frame h u2 ?_, u2.size.trans s1⟩
    rintro _ rfl
    exact hal.2
  | call g =>
    have hi : c.Inputs mem g := hal
    refine (convolve_ok h fl hs hm hf r1 (hi.size s1)).mono ?_
    rintro _ m2 ⟨u2, r2, _⟩
    exact ⟨r2, u2.size.trans s1⟩

end Conv
end Fftwpp
