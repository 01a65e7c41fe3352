import Verif.Proof.Gen2
import Verif.Proof.Conv3D

/-! `Convolution3` over any inner convolution defined on a domain of inputs. -/

namespace Fftwpp
open Finset
namespace Conv3

/-- The state of the object between calls; `Rd` is that of the innermost convolutions. -/
def ReadyG (o : Conv3) (pdx pdy : Mem → Ptr → Prop) (Rd : Conv → Mem → Prop) (mem : Mem) : Prop :=
  o.x.Ready pdx mem ∧ ∀ t < o.threads, (o.convyz t).ReadyG pdy Rd mem

/-- How the parts of a `Convolution3` fit together. -/
structure Gen (o : Conv3) (x0 y0 : ℤ) (pdx pdy : Mem → Ptr → Prop) (Ψ : List ℕ → ℕ → (ℕ → ℕ → ℂ) → ℕ → ℂ) (P : (ℕ → ℕ → ℂ) → Prop)
    (Rd : Conv → Mem → Prop) : Prop where
  spx : o.x.fft.Spec x0 pdx
  schx : Outer.Sched o.x.fft x0
  freqx : o.x.fft.overwrite = true → o.x.fft.FreqX (o.ffty.valG y0 Ψ)
  yz : ∀ t < o.threads, (o.convyz t).Gen y0 pdy Ψ P Rd
  fy : ∀ t < o.threads, (o.convyz t).x.fft = o.ffty
  fz : ∀ t < o.threads, (o.convyz t).ffty = o.fftz
  A : o.ffty.A = o.x.fft.A
  B : o.ffty.B = o.x.fft.B
  Cz : o.fftz.L = o.ffty.C
  Cz_pos : 0 < o.ffty.C
  Cz_le : o.ffty.C ≤ o.ffty.S
  C : o.x.fft.C = o.ffty.L * o.ffty.C
  col : o.x.fft.col = fun k => o.ffty.S * (k / o.ffty.C) + k % o.ffty.C
  ext : o.ffty.S * o.ffty.L ≤ o.x.fft.S
  bs : ∀ r ∈ o.x.fft.residues, o.x.fft.noutputs r = o.x.fft.blocksize r
  cong : ∀ idx b X Y, (∀ a < o.x.fft.A, ∀ c < o.x.fft.C, X a c = Y a c) → ∀ c < o.x.fft.C, o.ffty.valG y0 Ψ idx b X c = o.ffty.valG y0 Ψ idx b Y c
  dom : ∀ X Y, (∀ a < o.x.fft.A, ∀ c < o.x.fft.C, X a c = Y a c) → o.ffty.domG y0 P X → o.ffty.domG y0 P Y
  sepT : ∀ t < o.threads, ∀ t' < o.threads, t ≠ t' → ∀ k, (o.convyz t).Bufs k → ¬ (o.convyz t').Bufs k
  sepX : ∀ t < o.threads, ∀ k, o.x.Bufs k → ¬ (o.convyz t).Bufs k

variable {o : Conv3} {x0 y0 : ℤ} {pdx pdy : Mem → Ptr → Prop} {Ψ : List ℕ → ℕ → (ℕ → ℕ → ℂ) → ℕ → ℂ} {P : (ℕ → ℕ → ℂ) → Prop} {Rd : Conv → Mem → Prop}

theorem Gen.hin (h : o.Gen x0 y0 pdx pdy Ψ P Rd) : ∀ t < o.threads, ∀ s' : ℕ → Sch, (o.convyz t).LegalS s' →
      Inner o.x.fft.A o.x.fft.B o.x.fft.C (o.ffty.S * o.ffty.L) o.x.fft.col ((o.convyz t).convolveRaw s')
      (o.ffty.valG y0 Ψ) (o.convyz t).Bufs ((o.convyz t).ReadyG pdy Rd) (o.ffty.domG y0 P) := by
  intro t ht s' hs'
  have := Conv2.Gen.inner (h.yz t ht) hs'
  rw [h.fy t ht, h.A, h.B, ← h.C, ← h.col] at this
  exact this

theorem Gen.op (h : o.Gen x0 y0 pdx pdy Ψ P Rd) {s : ℕ → Sch} {s2 : ℕ → ℕ → ℕ → Sch} (hs : o.LegalS s s2) (idx : List ℕ) :
    o.x.fft.OpSpec (fun F r => o.subconvolution (s r) (s2 r) idx F r 0) (fun e b X c => o.ffty.valG y0 Ψ (e :: idx) b X c)
      (fun k => ∃ t < o.threads, (o.convyz t).Bufs k) (fun m => ∀ t < o.threads, (o.convyz t).ReadyG pdy Rd m) (o.ffty.domG y0 P) :=
  sub_spec h.spx h.schx.BA (raw := fun r t i => (o.convyz t).convolveRaw (s2 r i)) (ext := o.ffty.S * o.ffty.L)
    (fun r hr t ht i hi => h.hin t ht _ ((hs r hr).2 i hi t ht))
    (fun t ht {m m'} hr hs hv => Conv2.ReadyG.bufs (h.yz t ht) hr hs hv) h.cong h.dom h.sepT h.ext h.bs (fun r hr => (hs r hr).1) idx

theorem Gen.owsub (h : o.Gen x0 y0 pdx pdy Ψ P Rd) (how : o.x.fft.overwrite = true) {s : ℕ → Sch} {s2 : ℕ → ℕ → ℕ → Sch}
    (hs : o.LegalS s s2) (idx : List ℕ) :
    o.x.OwSub x0 (fun F r off => o.subconvolution (s r) (s2 r) idx F r off) (fun e b X c => o.ffty.valG y0 Ψ (e :: idx) b X c)
      (fun k => ∃ t < o.threads, (o.convyz t).Bufs k) (fun m => ∀ t < o.threads, (o.convyz t).ReadyG pdy Rd m) (o.ffty.domG y0 P) := by
  intro freq ho size F off0 r hr hn hb hsep hT
  exact sub_ow ho (raw := fun r t i => (o.convyz t).convolveRaw (s2 r i)) (ext := o.ffty.S * o.ffty.L)
    (fun r hr t ht i hi => h.hin t ht _ ((hs r hr).2 i hi t ht))
    (fun t ht {m m'} hr hs hv => Conv2.ReadyG.bufs (h.yz t ht) hr hs hv) h.cong h.dom h.sepT h.ext
    (fun r hr => (hs r hr).1) idx (h.freqx how) hr hn hb hsep hT

theorem Gen.pos_eq (h : o.Gen x0 y0 pdx pdy Ψ P Rd) {j c : ℕ} (hc : c < o.x.fft.C) :
    o.pos (o.x.fft.C * j + c) = o.x.fft.S * j + o.x.fft.col c := by
  unfold pos
  rw [h.Cz, ← h.C, h.col, Nat.mul_add_div (by omega), Nat.mul_add_mod, Nat.div_eq_of_lt hc, Nat.mod_eq_of_lt hc, Nat.add_zero]
  have : (o.x.fft.C * j + c) % o.ffty.C = c % o.ffty.C := by
    rw [h.C, Nat.mul_comm o.ffty.L, Nat.mul_assoc, Nat.mul_add_mod]
  rw [this]

theorem Gen.split (h : o.Gen x0 y0 pdx pdy Ψ P Rd) {k : ℕ} (hk : k < o.x.fft.L * o.x.fft.C) :
    ∃ j < o.x.fft.L, ∃ c < o.x.fft.C, k = o.x.fft.C * j + c := by
  have hC := h.spx.C_pos
  refine ⟨k / o.x.fft.C, Nat.div_lt_of_lt_mul (by rw [Nat.mul_comm]; exact hk), k % o.x.fft.C, Nat.mod_lt _ hC, ?_⟩
  rw [Nat.div_add_mod]

theorem Gen.pos_data (h : o.Gen x0 y0 pdx pdy Ψ P Rd) {f : Ptr} {k : ℕ} (hk : k < o.x.fft.L * o.x.fft.C) :
    o.x.fft.Data f (f + o.pos k) := by
  obtain ⟨j, hj, c, hc, rfl⟩ := h.split hk
  exact ⟨j, hj, c, hc, by rw [h.pos_eq hc]⟩

theorem Gen.col_inj (h : o.Gen x0 y0 pdx pdy Ψ P Rd) {c c' : ℕ} (e : o.x.fft.col c = o.x.fft.col c') : c = c' := by
  rw [h.col] at e
  obtain ⟨e1, e2⟩ := radix_inj (lt_of_lt_of_le (Nat.mod_lt c h.Cz_pos) h.Cz_le) (lt_of_lt_of_le (Nat.mod_lt c' h.Cz_pos) h.Cz_le) e
  rw [← Nat.div_add_mod c o.ffty.C, ← Nat.div_add_mod c' o.ffty.C, e1, e2]

theorem Gen.pos_inj (h : o.Gen x0 y0 pdx pdy Ψ P Rd) : ∀ i < o.x.fft.L * o.x.fft.C, ∀ j < o.x.fft.L * o.x.fft.C,
    o.pos i = o.pos j → i = j := by
  intro i hi j hj e
  obtain ⟨i1, _, c1, h1, rfl⟩ := h.split hi
  obtain ⟨j1, _, c2, h2, rfl⟩ := h.split hj
  rw [h.pos_eq h1, h.pos_eq h2] at e
  obtain ⟨rfl, e2⟩ := radix_inj (h.spx.col_lt _ h1) (h.spx.col_lt _ h2) e
  rw [h.col_inj e2]

/-- One call of `convolveRaw`. -/
theorem Gen.raw_ok (h : o.Gen x0 y0 pdx pdy Ψ P Rd) {s : ℕ → Sch} {s2 : ℕ → ℕ → ℕ → Sch} (hs : o.LegalS s s2) (idx : List ℕ) {mem : Mem}
    {f : PtrArr} {off : ℕ} (hr : o.ReadyG pdx pdy Rd mem) (hi : o.Inputs mem f off) :
    (o.convolveRaw s s2 idx f off).Ok mem fun _ m' =>
      mem.Upd m' (fun p => o.Bufs p.buf ∨ ∃ b < o.x.fft.outs, o.x.fft.Data (f.at_ b + off) p) ∧ o.ReadyG pdx pdy Rd m' ∧
      (o.x.fft.Good x0 (o.ffty.domG y0 P) mem f off → ∀ b < o.x.fft.B, ∀ j < o.x.fft.L, ∀ k < o.x.fft.C, m'.val (f.at_ b + off + (o.x.fft.S * j + o.x.fft.col k)) =
        o.x.fft.result x0 (fun e b X c => o.ffty.valG y0 Ψ (e :: idx) b X c) mem f off b j k) := by
  have hBA := h.schx.BA
  unfold convolveRaw
  refine (Outer.raw_ok h.spx h.schx (h.op hs idx) (fun how => h.owsub how hs idx) hr.1 hi.outer hr.2 (fun k hk => ?_) (fun a ha hT => hi.buf a ha (Or.inr hT)) ?_).mono ?_
  · rintro ⟨t, ht, hT⟩
    exact h.sepX t ht k hk hT
  · intro hV m1 hs1
    obtain ⟨hdV, _⟩ := hr.1.V hV
    rw [h.Cz, ← h.C]
    refine (copyWords_ok (by have := hi.n; omega) hdV.n h.pos_inj ?_ ?_ ?_ ?_).mono ?_
    · intro b hb k hk
      exact Mem.valid_of_size hs1 (data_valid h.spx.col_lt (hi.bf b (by omega)) (h.pos_data hk))
    · intro b hb k hk
      have := hdV.bf b hb
      rw [Conv.Ptr.add0] at this
      exact Mem.valid_of_size hs1 (data_valid h.spx.col_lt this (h.pos_data hk))
    · intro b hb b' hb' e
      exact hi.buf b (by omega) (Or.inl (Or.inr (Or.inr ⟨hV, b', hb', e⟩)))
    · intro b hb b' hb' hne k hk k' hk' e
      refine hi.apart b (by omega) b' (by omega) hne _ (h.pos_data hk) ?_
      rw [e]; exact h.pos_data hk'
    · rintro _ m2 ⟨u2, e2⟩
      refine ⟨u2.mono ?_, ?_⟩
      · rintro p ⟨b, hb, k, hk, rfl⟩
        exact ⟨b, hb, h.pos_data hk⟩
      · intro b hb j hj k hk
        have hlt : o.x.fft.C * j + k < o.x.fft.L * o.x.fft.C := by
          rw [Nat.mul_comm o.x.fft.L]; exact radix_lt hk hj
        have := e2 b hb _ hlt
        rwa [h.pos_eq hk] at this
  · rintro _ m' ⟨u, r, I, e⟩
    refine ⟨u.mono ?_, ⟨r, I⟩, e⟩
    rintro p (hp | hp | hp)
    · exact Or.inl (Or.inr hp)
    · exact Or.inl (Or.inl hp)
    · exact Or.inr hp

theorem ReadyG.bufs (h : o.Gen x0 y0 pdx pdy Ψ P Rd) {mem m' : Mem} (hr : o.ReadyG pdx pdy Rd mem) (hs : m'.size = mem.size)
    (hv : ∀ p : Ptr, o.Bufs p.buf → m'.val p = mem.val p) : o.ReadyG pdx pdy Rd m' :=
  ⟨hr.1.bufs h.spx hs fun p hp => hv p (Or.inl hp), fun t ht => Conv2.ReadyG.bufs (h.yz t ht) (hr.2 t ht) hs fun p hp => hv p (Or.inr ⟨t, ht, hp⟩)⟩

/-- One call of `convolve`. -/
theorem Gen.convolve_ok (h : o.Gen x0 y0 pdx pdy Ψ P Rd) {s : ℕ → Sch} {s2 : ℕ → ℕ → ℕ → Sch} (hs : o.LegalS s s2) {mem : Mem}
    {f : PtrArr} {off : ℕ} (hr : o.ReadyG pdx pdy Rd mem) (hi : o.Inputs mem f off) :
    (o.convolve s s2 f off).Ok mem fun _ m' =>
      mem.Upd m' (fun p => o.Bufs p.buf ∨ ∃ b < o.x.fft.outs, o.x.fft.Data (f.at_ b + off) p) ∧ o.ReadyG pdx pdy Rd m' ∧
      (o.x.fft.Good x0 (o.ffty.domG y0 P) mem f off → ∀ b < o.x.fft.B, ∀ j < o.x.fft.L, ∀ k < o.x.fft.C, m'.val (f.at_ b + off + (o.x.fft.S * j + o.x.fft.col k)) =
        o.x.fft.result x0 (fun e b X c => o.ffty.valG y0 Ψ [e] b X c) mem f off b j k *
          (1 / ((o.x.fft.N : ℂ) * ((o.ffty.N : ℂ) * (o.fftz.N : ℂ))))) := by
  have hBA := h.schx.BA
  unfold convolve
  refine Cmd.Ok.bind ((Gen.raw_ok h hs [] hr hi).mono ?_)
  rintro _ m1 ⟨u1, r1, e1⟩
  unfold normalize
  rw [h.Cz, ← h.C]
  refine (scaleWords_ok (by have := hi.n; omega) h.pos_inj ?_ ?_).mono ?_
  · intro b hb k hk
    exact Mem.valid_of_size u1.size (data_valid h.spx.col_lt (hi.bf b (by omega)) (h.pos_data hk))
  · intro b hb b' hb' hne k hk k' hk' e
    refine hi.apart b (by omega) b' (by omega) hne _ (h.pos_data hk) ?_
    rw [e]; exact h.pos_data hk'
  rintro _ m2 ⟨u2, e2⟩
  refine ⟨u1.trans u2 (fun _ h => h) ?_, ?_, ?_⟩
  · rintro p ⟨b, hb, k, hk, rfl⟩
    exact Or.inr ⟨b, lt_of_lt_of_le hb h.schx.outs_le, h.pos_data hk⟩
  · refine r1.bufs h u2.size fun p hp => u2.frame p ?_
    rintro ⟨b, hb, k, hk, rfl⟩
    exact hi.buf b (by omega) (by simpa using hp)
  · intro hG b hb j hj k hk
    have hlt : o.x.fft.C * j + k < o.x.fft.L * o.x.fft.C := by
      rw [Nat.mul_comm o.x.fft.L]; exact radix_lt hk hj
    have := e2 b hb _ hlt
    rw [h.pos_eq hk] at this
    rw [this, e1 hG b hb j hj k hk]

/-! Construction -/

/-- The transforms and the inner convolution fit together. -/
structure GFits (fftx ffty fftz : FftBase) (mult : Multiplier) (x0 y0 : ℤ) (pdx pdy : Mem → Ptr → Prop) (Ψ : List ℕ → ℕ → (ℕ → ℕ → ℂ) → ℕ → ℂ)
    (P : (ℕ → ℕ → ℂ) → Prop) (Rd : Conv → Mem → Prop) (BufY : Mem → Alloc → Prop) : Prop where
  spx : fftx.Spec x0 pdx
  schx : Outer.Sched fftx x0
  freqx : fftx.overwrite = true → fftx.FreqX (ffty.valG y0 Ψ)
  yz : Conv2.GFits ffty fftz mult y0 pdy Ψ P Rd BufY
  A : ffty.A = fftx.A
  B : ffty.B = fftx.B
  ws : fftx.wordSize = 2
  C : fftx.C = if contiguous3 fftx ffty then ffty.L * ffty.S else ffty.C
  S : ffty.L * ffty.S ≤ fftx.S
  L_pos : 0 < ffty.L
  col : ∀ c, fftx.col c = c
  bs : ∀ r ∈ fftx.residues, fftx.noutputs r = fftx.blocksize r

/-- The work arrays have the documented sizes and are distinct. -/
structure GBuffers (fftx ffty fftz : FftBase) (BufY : Mem → Alloc → Prop) (th thy : ℕ) (mem : Mem) (Fu : Option PtrArr) (Vu : Option Ptr) (al : Alloc3) : Prop where
  x : Outer.Buffers (newX fftx ffty) mem Fu Vu al.x
  yz : ∀ t < Conv2.newThreads fftx th, Conv2.GBuffers ffty fftz BufY (newThreadsY fftx th thy) mem none none (al.yz t)
  sepT : ∀ t < Conv2.newThreads fftx th, ∀ t' < Conv2.newThreads fftx th, t ≠ t' → ∀ k,
    Conv2.NewBufs ffty fftz (newThreadsY fftx th thy) none none (al.yz t) k →
    ¬ Conv2.NewBufs ffty fftz (newThreadsY fftx th thy) none none (al.yz t') k
  sepX : ∀ t < Conv2.newThreads fftx th, ∀ k, Conv.NewBufs (newX fftx ffty) Fu Vu al.x k →
    ¬ Conv2.NewBufs ffty fftz (newThreadsY fftx th thy) none none (al.yz t) k

theorem GFits.x {fftx ffty fftz : FftBase} {mult : Multiplier} {BufY : Mem → Alloc → Prop} (h : GFits fftx ffty fftz mult x0 y0 pdx pdy Ψ P Rd BufY) :
    XFacts (newX fftx ffty) ffty fftx x0 pdx := by
  have hCz := h.yz.spx.C_pos
  have hcol := h.yz.spx.col_lt
  simp only [h.yz.col] at hcol
  have hCS : ffty.C ≤ ffty.S := by have := hcol (ffty.C - 1) (by omega); omega
  have hC := h.C
  unfold newX
  by_cases hc : contiguous3 fftx ffty = true
  · have hSC : ffty.S = ffty.C := by unfold contiguous3 at hc; simpa [h.ws] using hc
    rw [if_pos hc] at hC ⊢
    refine ⟨h.spx, h.schx, rfl, rfl, rfl, rfl, rfl, by rw [hC, hSC], ?_, h.bs, rfl, rfl, rfl, rfl⟩
    funext k
    rw [h.col, hSC, Nat.div_add_mod]
  · rw [if_neg hc] at hC ⊢
    rw [← hC]
    refine ⟨FftBase.strided_spec h.spx ?_ h.S h.L_pos, ⟨?_, h.schx.BA, h.schx.l2⟩, rfl, rfl, rfl, rfl, rfl, by rw [← hC]; rfl, ?_, h.bs, rfl, rfl, rfl, rfl⟩
    · intro c hc'
      rw [h.col]; omega
    · intro how
      obtain ⟨freq, ho⟩ := h.schx.ow how
      exact ⟨freq, FftBase.strided_owSpec ho h.spx.C_pos (fun c hc' => by rw [h.col]; omega) h.S⟩
    · funext k
      show ffty.S * (k / fftx.C) + fftx.col (k % fftx.C) = _
      rw [h.col, hC]

theorem GBuffers.size {fftx ffty fftz : FftBase} {BufY : Mem → Alloc → Prop} {mult : Multiplier} (hf : GFits fftx ffty fftz mult x0 y0 pdx pdy Ψ P Rd BufY)
    {th thy : ℕ} {mem m' : Mem} {Fu : Option PtrArr} {Vu : Option Ptr} {al : Alloc3}
    (h : GBuffers fftx ffty fftz BufY th thy mem Fu Vu al) (hs : m'.size = mem.size) : GBuffers fftx ffty fftz BufY th thy m' Fu Vu al :=
  ⟨h.x.size hs, fun t ht => (h.yz t ht).size hf.yz hs, h.sepT, h.sepX⟩

/-- The dependence of the results on the inputs. -/
theorem GFits.yz_cong {fftx ffty fftz : FftBase} {BufY : Mem → Alloc → Prop} {mult : Multiplier} (h : GFits fftx ffty fftz mult x0 y0 pdx pdy Ψ P Rd BufY)
    {X Y : ℕ → ℕ → ℂ} (hXY : ∀ a < fftx.A, ∀ c < ffty.L * ffty.C, X a c = Y a c) :
    (∀ idx b k, ffty.valG y0 Ψ idx b X k = ffty.valG y0 Ψ idx b Y k) ∧ (ffty.domG y0 P X → ffty.domG y0 P Y) := by
  have key : ∀ e : ℕ, ∀ a < ffty.A, ∀ c < ffty.C, ffty.dft y0 (fun j => X a (ffty.C * j + c)) e = ffty.dft y0 (fun j => Y a (ffty.C * j + c)) e := by
    intro e a ha c hc
    unfold FftBase.dft
    refine sum_congr rfl fun j hj => ?_
    simp only
    rw [hXY a (by rw [← h.A]; exact ha) _ (by rw [Nat.mul_comm ffty.L]; exact radix_lt hc (mem_range.1 hj))]
  constructor
  · intro idx b k
    unfold FftBase.valG
    refine sum_congr rfl fun e _ => ?_
    congr 1
    exact h.yz.cong _ _ _ _ (key e) _ (Nat.mod_lt _ h.yz.spx.C_pos)
  · intro hX e
    exact h.yz.dom _ _ (key e) (hX e)

theorem newG_ok {fftx ffty fftz : FftBase} {BufY : Mem → Alloc → Prop} {mult : Multiplier} (h : GFits fftx ffty fftz mult x0 y0 pdx pdy Ψ P Rd BufY) {th thy : ℕ}
    {mem : Mem} {Fu : Option PtrArr} {Vu : Option Ptr} {al : Alloc3} (hb : GBuffers fftx ffty fftz BufY th thy mem Fu Vu al) :
    (Conv3.new fftx ffty fftz mult th thy Fu none Vu al).Ok mem fun o m' => o.x.fft = newX fftx ffty ∧ o.ffty = ffty ∧ o.fftz = fftz ∧
      o.threads = Conv2.newThreads fftx th ∧
      (∀ t < o.threads, (o.convyz t).threads = Conv2.newThreads ffty (newThreadsY fftx th thy)) ∧
      o.Gen x0 y0 pdx pdy Ψ P Rd ∧ o.ReadyG pdx pdy Rd m' ∧
      (∀ k, o.Bufs k → NewBufs fftx ffty fftz th thy Fu Vu al k) ∧ mem.Upd m' (fun p => NewBufs fftx ffty fftz th thy Fu Vu al p.buf) := by
  have hx := h.x
  unfold Conv3.new
  have hthr : (if fftx.l < th then 1 else th) = Conv2.newThreads fftx th := rfl
  have hthy : (if fftx.l < th then th else thy) = newThreadsY fftx th thy := rfl
  have hxx : (if contiguous3 fftx ffty = true then fftx else fftx.strided ffty.L ffty.C ffty.S) = newX fftx ffty := rfl
  simp only [hthr, hthy, hxx]
  refine Cmd.Ok.bind ((newAll_ok (fun t (c : Conv2) m => (c.x.fft = ffty ∧ c.ffty = fftz ∧
      c.threads = Conv2.newThreads ffty (newThreadsY fftx th thy)) ∧ c.Gen y0 pdy Ψ P Rd ∧ c.ReadyG pdy Rd m ∧
      ∀ k, c.Bufs k → Conv2.NewBufs ffty fftz (newThreadsY fftx th thy) none none (al.yz t) k)
    (fun t p => Conv2.NewBufs ffty fftz (newThreadsY fftx th thy) none none (al.yz t) p.buf) ?_ ?_).mono ?_)
  · rintro t t' c ht ht' hne m m' ⟨h1, h2, h3, h4⟩ u
    refine ⟨h1, h2, Conv2.ReadyG.bufs h2 h3 u.size ?_, h4⟩
    intro p hp
    exact u.frame p fun hp' => hb.sepT t ht t' ht' hne _ (h4 _ hp) hp'
  · intro t ht m hs
    refine (Conv2.newG_ok h.yz ((hb.size h hs).yz t ht)).mono ?_
    rintro c m' ⟨h1, h2, h3, h4, h5, h6, u⟩
    exact ⟨⟨⟨h1, h2, h3⟩, h4, h5, h6⟩, u⟩
  rintro convyz m1 ⟨hc, u1⟩
  refine Cmd.Ok.bind (exitIf_ok (Nat.not_lt.2 h.S) ?_)
  refine Cmd.Ok.bind (exitIf_ok (not_not.2 h.C) ?_)
  refine Cmd.Ok.bind ((Outer.new_ok hx.sp hx.sch (hb.size h u1.size).x).mono ?_)
  rintro x m2 ⟨g1, g2, g3, g4, g5, u2⟩
  have hxn : ∀ k, x.Bufs k → Conv.NewBufs (newX fftx ffty) Fu Vu al.x k := fun k hk => Conv.bufs_newOuter g1 g2 g3 g4 hk
  have hu2 : ∀ p, (newX fftx ffty).InW x.W p → Conv.NewBufs (newX fftx ffty) Fu Vu al.x p.buf := by
    rintro p ⟨W, hW, hp⟩
    rw [g4] at hW
    exact Or.inr (Or.inl ⟨W, hW, FftBase.inArr_buf hp⟩)
  have hCz := h.yz.spx.C_pos
  have hcol := h.yz.spx.col_lt
  simp only [h.yz.col] at hcol
  have hCS : ffty.C ≤ ffty.S := by have := hcol (ffty.C - 1) (by omega); omega
  refine Cmd.Ok.pure ⟨g1, rfl, rfl, rfl, fun t ht => (hc t ht).1.2.2, ?_, ⟨g5, ?_⟩, ?_, u1.trans u2 ?_ ?_⟩
  · refine ⟨by rw [g1]; exact hx.sp, by rw [g1]; exact hx.sch, by unfold FftBase.FreqX; rw [g1, hx.n, hx.ow]; exact h.freqx, fun t ht => (hc t ht).2.1, fun t ht => (hc t ht).1.1,
      fun t ht => (hc t ht).1.2.1, by rw [g1, hx.A]; exact h.A, by rw [g1, hx.B]; exact h.B, h.yz.C, hCz, hCS,
      by rw [g1]; exact hx.C, by rw [g1]; exact hx.col, ?_, by rw [g1]; exact hx.bs, ?_, ?_, ?_, ?_⟩
    · rw [g1, hx.S, Nat.mul_comm]; exact h.S
    · rw [g1, hx.A, hx.C]
      intro idx b X Y hXY c _
      exact (h.yz_cong hXY).1 idx b c
    · rw [g1, hx.A, hx.C]
      intro X Y hXY
      exact (h.yz_cong hXY).2
    · intro t ht t' ht' hne k hk hk'
      exact hb.sepT t ht t' ht' hne k ((hc t ht).2.2.2 k hk) ((hc t' ht').2.2.2 k hk')
    · intro t ht k hk hk'
      exact hb.sepX t ht k (hxn k hk) ((hc t ht).2.2.2 k hk')
  · intro t ht
    refine Conv2.ReadyG.bufs (hc t ht).2.1 (hc t ht).2.2.1 u2.size ?_
    intro p hp
    exact u2.frame p fun hp' => hb.sepX t ht _ (hu2 p hp') ((hc t ht).2.2.2 _ hp)
  · rintro k (hk | ⟨t, ht, hk⟩)
    · exact Or.inl (hxn k hk)
    · exact Or.inr ⟨t, ht, (hc t ht).2.2.2 k hk⟩
  · rintro p ⟨t, ht, hp⟩
    exact Or.inr ⟨t, ht, hp⟩
  · intro p hp
    exact Or.inl (hu2 p hp)

theorem Gen.history_ok (h : o.Gen x0 y0 pdx pdy Ψ P Rd) {mem : Mem} (hr : o.ReadyG pdx pdy Rd mem) (steps : List Step)
    (ha : ∀ s ∈ steps, o.Allowed mem s) :
    (seqLoop steps o.step).Ok mem fun _ m' => o.ReadyG pdx pdy Rd m' ∧ m'.size = mem.size := by
  refine seqLoop_list (fun _ m1 => o.ReadyG pdx pdy Rd m1 ∧ m1.size = mem.size) ⟨hr, rfl⟩ ?_ (fun _ h => h)
  rintro _ s m1 hsm ⟨r1, s1⟩
  have hal := ha s hsm
  cases s with
  | write p v =>
    refine run_map1 (body := store p v) p v ?_ ?_ ?_
    · body_simp
      exact Mem.valid_of_size s1 hal.1
    · body_simp
    intro m2 u2 e2
    refine ⟨r1.bufs h u2.size ?_, u2.size.trans s1⟩
    intro p' hp'
    refine u2.frame _ ?_
    rintro rfl
    exact hal.2 hp'
  | call s s2 g off =>
    refine (Gen.convolve_ok h hal.1 r1 (hal.2.size s1)).mono ?_
    rintro _ m2 ⟨u2, r2, _⟩
    exact ⟨r2, u2.size.trans s1⟩

end Conv3
end Fftwpp
