import Verif.Proof.Strided

/-! `Convolution3`. -/

namespace Fftwpp
open Finset

/-- Unnormalized 2D result; words are numbered `k=C*j+c`. -/
noncomputable def FftBase.val2 (fy fz : FftBase) (y0 z0 : ℤ) (φ : List ℕ → ℕ → (ℕ → ℂ) → ℂ) (idx : List ℕ) (b : ℕ) (X : ℕ → ℕ → ℂ)
    (k : ℕ) : ℂ :=
  ∑ e ∈ range fy.N, fz.innerVal z0 φ (e :: idx) b (fun a c => fy.dft y0 (fun j => X a (fy.C * j + c)) e) (k % fy.C) *
    w fy.N (-(((k / fy.C : ℕ) - y0) * (e : ℤ)))

theorem exitIf_ok {p : Prop} [Decidable p] (hp : ¬ p) {m : Mem} {Q : Unit → Mem → Prop} (h : Q () m) : (exitIf p).Ok m Q := by
  refine ⟨(), m, ?_, h⟩
  unfold exitIf
  rw [if_neg hp]

namespace Conv3

/-- The buffers of the work arrays of the object. -/
def Bufs (o : Conv3) (k : ℕ) : Prop := o.x.Bufs k ∨ ∃ t < o.threads, (o.convyz t).Bufs k

/-- The state of the object between calls. -/
def Ready (o : Conv3) (pdx pdy pdz : Mem → Ptr → Prop) (mem : Mem) : Prop :=
  o.x.Ready pdx mem ∧ ∀ t < o.threads, (o.convyz t).Ready pdy pdz mem

/-- How the parts of a `Convolution3` fit together. -/
structure Setup (o : Conv3) (x0 y0 z0 : ℤ) (pdx pdy pdz : Mem → Ptr → Prop) (K : ℕ → ℕ) (φ : List ℕ → ℕ → (ℕ → ℂ) → ℂ) : Prop where
  spx : o.x.fft.Spec x0 pdx
  schx : Outer.Sched o.x.fft x0
  freqx : o.x.fft.overwrite = true → o.x.fft.n = 2 ∨ ∀ ez ey e e' idx, φ (ez :: ey :: e :: idx) = φ (ez :: ey :: e' :: idx)
  yz : ∀ t < o.threads, (o.convyz t).Setup y0 z0 pdy pdz K φ
  fy : ∀ t < o.threads, (o.convyz t).x.fft = o.ffty
  fz : ∀ t < o.threads, (o.convyz t).ffty = o.fftz
  A : o.ffty.A = o.x.fft.A
  B : o.ffty.B = o.x.fft.B
  Cz : o.fftz.L = o.ffty.C
  Cz_pos : 0 < o.ffty.C
  Cz_le : o.ffty.C ≤ o.ffty.S
  C : o.x.fft.C = o.ffty.L * o.ffty.C
  col : o.x.fft.col = fun k => o.ffty.S * (k / o.ffty.C) + k % o.ffty.C
  ext : o.ffty.S * o.ffty.L ≤ o.x.fft.S
  bs : ∀ r ∈ o.x.fft.residues, o.x.fft.noutputs r = o.x.fft.blocksize r
  congr : ∀ e b X Y, (∀ a < o.x.fft.A, X a = Y a) → φ e b X = φ e b Y
  sepT : ∀ t < o.threads, ∀ t' < o.threads, t ≠ t' → ∀ k, (o.convyz t).Bufs k → ¬ (o.convyz t').Bufs k
  sepX : ∀ t < o.threads, ∀ k, o.x.Bufs k → ¬ (o.convyz t).Bufs k

/-- The schedules are legal. -/
def LegalS (o : Conv3) (s : ℕ → Sch) (s2 : ℕ → ℕ → ℕ → Sch) : Prop := ∀ r ∈ o.x.fft.residues,
  (s r).Legal (o.x.fft.blocksize r) o.threads ∧ ∀ i < o.x.fft.blocksize r, ∀ t < o.threads, (o.convyz t).LegalS (s2 r i)

variable {o : Conv3} {x0 y0 z0 : ℤ} {pdx pdy pdz : Mem → Ptr → Prop} {K : ℕ → ℕ} {φ : List ℕ → ℕ → (ℕ → ℂ) → ℂ}

theorem Setup.val2_congr (h : o.Setup x0 y0 z0 pdx pdy pdz K φ) {idx : List ℕ} {b : ℕ} {X Y : ℕ → ℕ → ℂ}
    (hXY : ∀ a < o.x.fft.A, ∀ c < o.x.fft.C, X a c = Y a c) (k : ℕ) :
    o.ffty.val2 o.fftz y0 z0 φ idx b X k = o.ffty.val2 o.fftz y0 z0 φ idx b Y k := by
  unfold FftBase.val2 FftBase.innerVal
  refine sum_congr rfl fun e _ => ?_
  congr 1
  refine sum_congr rfl fun e' _ => ?_
  congr 1
  refine h.congr _ _ _ _ fun a ha => ?_
  unfold FftBase.dft
  refine sum_congr rfl fun c hc => ?_
  congr 1
  refine sum_congr rfl fun j hj => ?_
  beta_reduce
  have hc' : c < o.ffty.C := by rw [← h.Cz]; exact mem_range.1 hc
  rw [hXY a ha _ (by rw [h.C, Nat.mul_comm o.ffty.L]; exact radix_lt hc' (mem_range.1 hj))]

theorem Setup.hin (h : o.Setup x0 y0 z0 pdx pdy pdz K φ) : ∀ t < o.threads, ∀ s' : ℕ → Sch, (o.convyz t).LegalS s' →
      Inner o.x.fft.A o.x.fft.B o.x.fft.C (o.ffty.S * o.ffty.L) o.x.fft.col ((o.convyz t).convolveRaw s')
      (o.ffty.val2 o.fftz y0 z0 φ) (o.convyz t).Bufs ((o.convyz t).Ready pdy pdz) := by
  intro t ht s' hs'
  have := Conv2.inner (h.yz t ht) hs'
  unfold Conv2.val at this
  rw [h.fy t ht, h.fz t ht, h.A, h.B, ← h.C, ← h.col] at this
  exact this

theorem Setup.op (h : o.Setup x0 y0 z0 pdx pdy pdz K φ) {s : ℕ → Sch} {s2 : ℕ → ℕ → ℕ → Sch} (hs : o.LegalS s s2) (idx : List ℕ) :
    o.x.fft.OpSpec (fun F r => o.subconvolution (s r) (s2 r) idx F r 0) (fun e b X c => o.ffty.val2 o.fftz y0 z0 φ (e :: idx) b X c)
      (fun k => ∃ t < o.threads, (o.convyz t).Bufs k) (fun m => ∀ t < o.threads, (o.convyz t).Ready pdy pdz m) := by
  refine sub_spec h.spx h.schx.BA (raw := fun r t i => (o.convyz t).convolveRaw (s2 r i)) (ext := o.ffty.S * o.ffty.L)
    (Ψ := o.ffty.val2 o.fftz y0 z0 φ) (fun r hr t ht i hi => h.hin t ht _ ((hs r hr).2 i hi t ht))
    (fun t ht {m m'} hr hs hv => hr.bufs (h.yz t ht) hs hv) ?_ (P := fun _ => True) (fun _ _ _ _ => trivial) h.sepT h.ext h.bs (fun r hr => (hs r hr).1) idx
  intro idx b X Y hXY j hj
  exact h.val2_congr hXY j

theorem Setup.owsub (h : o.Setup x0 y0 z0 pdx pdy pdz K φ) (how : o.x.fft.overwrite = true) {s : ℕ → Sch} {s2 : ℕ → ℕ → ℕ → Sch}
    (hs : o.LegalS s s2) (idx : List ℕ) :
    o.x.OwSub x0 (fun F r off => o.subconvolution (s r) (s2 r) idx F r off) (fun e b X c => o.ffty.val2 o.fftz y0 z0 φ (e :: idx) b X c)
      (fun k => ∃ t < o.threads, (o.convyz t).Bufs k) (fun m => ∀ t < o.threads, (o.convyz t).Ready pdy pdz m) := by
  intro freq ho size F off0 r hr hn hb hsep hT
  refine sub_ow ho (raw := fun r t i => (o.convyz t).convolveRaw (s2 r i)) (ext := o.ffty.S * o.ffty.L)
    (Ψ := o.ffty.val2 o.fftz y0 z0 φ) (fun r hr t ht i hi => h.hin t ht _ ((hs r hr).2 i hi t ht))
    (fun t ht {m m'} hr hs hv => hr.bufs (h.yz t ht) hs hv) (fun _ _ _ _ hXY j _ => h.val2_congr hXY j) (P := fun _ => True) (fun _ _ _ _ => trivial) h.sepT h.ext
    (fun r hr => (hs r hr).1) idx ?_ hr hn hb hsep hT
  rcases h.freqx how with h1 | h1
  · exact Or.inl h1
  · right
    intro e e' idx
    unfold FftBase.val2 FftBase.innerVal
    funext b X j
    refine sum_congr rfl fun ey _ => ?_
    congr 1
    refine sum_congr rfl fun ez _ => ?_
    rw [h1 ez ey e e']

/-- The arguments of `convolveRaw` and `convolve`. -/
structure Inputs (o : Conv3) (mem : Mem) (f : PtrArr) (off : ℕ) : Prop where
  n : o.x.fft.A ≤ f.n
  bf : ∀ a < o.x.fft.A, mem.block (f.at_ a + off) (o.x.fft.S * o.x.fft.L)
  apart : o.x.fft.Apart f off o.x.fft.A
  buf : ∀ a < o.x.fft.A, ¬ o.Bufs (f.at_ a).buf
  ow : o.x.fft.overwrite = true → ∀ a < o.x.fft.A, ∀ a' < o.x.fft.A, a ≠ a' → (f.at_ a).buf ≠ (f.at_ a').buf

theorem Inputs.size {mem m' : Mem} {f : PtrArr} {off : ℕ} (h : o.Inputs mem f off) (hs : m'.size = mem.size) : o.Inputs m' f off :=
  ⟨h.n, fun a ha => FftBase.block_size hs (h.bf a ha), h.apart, h.buf, h.ow⟩

theorem Inputs.outer {mem : Mem} {f : PtrArr} {off : ℕ} (h : o.Inputs mem f off) : o.x.Inputs mem f off :=
  ⟨h.n, h.bf, h.apart, fun a ha hb => h.buf a ha (Or.inl hb), h.ow⟩

theorem Setup.pos_eq (h : o.Setup x0 y0 z0 pdx pdy pdz K φ) {j c : ℕ} (hc : c < o.x.fft.C) :
    o.pos (o.x.fft.C * j + c) = o.x.fft.S * j + o.x.fft.col c := by
  unfold pos
  rw [h.Cz, ← h.C, h.col, Nat.mul_add_div (by omega), Nat.mul_add_mod, Nat.div_eq_of_lt hc, Nat.mod_eq_of_lt hc, Nat.add_zero]
  have : (o.x.fft.C * j + c) % o.ffty.C = c % o.ffty.C := by
    rw [h.C, Nat.mul_comm o.ffty.L, Nat.mul_assoc, Nat.mul_add_mod]
  rw [this]

theorem Setup.split (h : o.Setup x0 y0 z0 pdx pdy pdz K φ) {k : ℕ} (hk : k < o.x.fft.L * o.x.fft.C) :
    ∃ j < o.x.fft.L, ∃ c < o.x.fft.C, k = o.x.fft.C * j + c := by
  have hC := h.spx.C_pos
  refine ⟨k / o.x.fft.C, Nat.div_lt_of_lt_mul (by rw [Nat.mul_comm]; exact hk), k % o.x.fft.C, Nat.mod_lt _ hC, ?_⟩
  rw [Nat.div_add_mod]

theorem Setup.pos_data (h : o.Setup x0 y0 z0 pdx pdy pdz K φ) {f : Ptr} {k : ℕ} (hk : k < o.x.fft.L * o.x.fft.C) :
    o.x.fft.Data f (f + o.pos k) := by
  obtain ⟨j, hj, c, hc, rfl⟩ := h.split hk
  exact ⟨j, hj, c, hc, by rw [h.pos_eq hc]⟩

theorem Setup.col_inj (h : o.Setup x0 y0 z0 pdx pdy pdz K φ) {c c' : ℕ} (e : o.x.fft.col c = o.x.fft.col c') : c = c' := by
  rw [h.col] at e
  obtain ⟨e1, e2⟩ := radix_inj (lt_of_lt_of_le (Nat.mod_lt c h.Cz_pos) h.Cz_le) (lt_of_lt_of_le (Nat.mod_lt c' h.Cz_pos) h.Cz_le) e
  rw [← Nat.div_add_mod c o.ffty.C, ← Nat.div_add_mod c' o.ffty.C, e1, e2]

theorem Setup.pos_inj (h : o.Setup x0 y0 z0 pdx pdy pdz K φ) : ∀ i < o.x.fft.L * o.x.fft.C, ∀ j < o.x.fft.L * o.x.fft.C,
    o.pos i = o.pos j → i = j := by
  intro i hi j hj e
  obtain ⟨i1, _, c1, h1, rfl⟩ := h.split hi
  obtain ⟨j1, _, c2, h2, rfl⟩ := h.split hj
  rw [h.pos_eq h1, h.pos_eq h2] at e
  obtain ⟨rfl, e2⟩ := radix_inj (h.spx.col_lt _ h1) (h.spx.col_lt _ h2) e
  rw [h.col_inj e2]

theorem data_valid (hcol : ∀ c < o.x.fft.C, o.x.fft.col c < o.x.fft.S) {mem : Mem} {f : Ptr} (hb : mem.block f (o.x.fft.S * o.x.fft.L)) {p : Ptr}
    (hp : o.x.fft.Data f p) : mem.valid p := by
  obtain ⟨j, hj, c, hc, rfl⟩ := hp
  exact hb _ (radix_lt (hcol c hc) hj)

/-- One call of `convolveRaw`. -/
theorem raw_ok (h : o.Setup x0 y0 z0 pdx pdy pdz K φ) {s : ℕ → Sch} {s2 : ℕ → ℕ → ℕ → Sch} (hs : o.LegalS s s2) (idx : List ℕ) {mem : Mem}
    {f : PtrArr} {off : ℕ} (hr : o.Ready pdx pdy pdz mem) (hi : o.Inputs mem f off) :
    (o.convolveRaw s s2 idx f off).Ok mem fun _ m' =>
      mem.Upd m' (fun p => o.Bufs p.buf ∨ ∃ b < o.x.fft.outs, o.x.fft.Data (f.at_ b + off) p) ∧ o.Ready pdx pdy pdz m' ∧
      ∀ b < o.x.fft.B, ∀ j < o.x.fft.L, ∀ k < o.x.fft.C, m'.val (f.at_ b + off + (o.x.fft.S * j + o.x.fft.col k)) =
        o.x.fft.result x0 (fun e b X c => o.ffty.val2 o.fftz y0 z0 φ (e :: idx) b X c) mem f off b j k := by
  have hBA := h.schx.BA
  unfold convolveRaw
  refine (Outer.raw_ok h.spx h.schx (h.op hs idx) (fun how => h.owsub how hs idx) hr.1 hi.outer hr.2 (fun k hk => ?_) (fun a ha hT => hi.buf a ha (Or.inr hT)) ?_).mono ?_
  · rintro ⟨t, ht, hT⟩
    exact h.sepX t ht k hk hT
  · intro hV m1 hs1
    obtain ⟨hdV, _⟩ := hr.1.V hV
    rw [h.Cz, ← h.C]
    refine (copyWords_ok (by have := hi.n; omega) hdV.n h.pos_inj ?_ ?_ ?_ ?_).mono ?_
    · intro b hb k hk
      exact Mem.valid_of_size hs1 (data_valid h.spx.col_lt (hi.bf b (by omega)) (h.pos_data hk))
    · intro b hb k hk
      have := hdV.bf b hb
      rw [Conv.Ptr.add0] at this
      exact Mem.valid_of_size hs1 (data_valid h.spx.col_lt this (h.pos_data hk))
    · intro b hb b' hb' e
      exact hi.buf b (by omega) (Or.inl (Or.inr (Or.inr ⟨hV, b', hb', e⟩)))
    · intro b hb b' hb' hne k hk k' hk' e
      refine hi.apart b (by omega) b' (by omega) hne _ (h.pos_data hk) ?_
      rw [e]; exact h.pos_data hk'
    · rintro _ m2 ⟨u2, e2⟩
      refine ⟨u2.mono ?_, ?_⟩
      · rintro p ⟨b, hb, k, hk, rfl⟩
        exact ⟨b, hb, h.pos_data hk⟩
      · intro b hb j hj k hk
        have hlt : o.x.fft.C * j + k < o.x.fft.L * o.x.fft.C := by
          rw [Nat.mul_comm o.x.fft.L]; exact radix_lt hk hj
        have := e2 b hb _ hlt
        rwa [h.pos_eq hk] at this
  · rintro _ m' ⟨u, r, I, e⟩
    refine ⟨u.mono ?_, ⟨r, I⟩, e fun _ => trivial⟩
    rintro p (hp | hp | hp)
    · exact Or.inl (Or.inr hp)
    · exact Or.inl (Or.inl hp)
    · exact Or.inr hp

theorem Ready.bufs (h : o.Setup x0 y0 z0 pdx pdy pdz K φ) {mem m' : Mem} (hr : o.Ready pdx pdy pdz mem) (hs : m'.size = mem.size)
    (hv : ∀ p : Ptr, o.Bufs p.buf → m'.val p = mem.val p) : o.Ready pdx pdy pdz m' :=
  ⟨hr.1.bufs h.spx hs fun p hp => hv p (Or.inl hp), fun t ht => (hr.2 t ht).bufs (h.yz t ht) hs fun p hp => hv p (Or.inr ⟨t, ht, hp⟩)⟩

/-- One call of `convolve`. -/
theorem convolve_ok (h : o.Setup x0 y0 z0 pdx pdy pdz K φ) {s : ℕ → Sch} {s2 : ℕ → ℕ → ℕ → Sch} (hs : o.LegalS s s2) {mem : Mem}
    {f : PtrArr} {off : ℕ} (hr : o.Ready pdx pdy pdz mem) (hi : o.Inputs mem f off) :
    (o.convolve s s2 f off).Ok mem fun _ m' =>
      mem.Upd m' (fun p => o.Bufs p.buf ∨ ∃ b < o.x.fft.outs, o.x.fft.Data (f.at_ b + off) p) ∧ o.Ready pdx pdy pdz m' ∧
      ∀ b < o.x.fft.B, ∀ j < o.x.fft.L, ∀ k < o.x.fft.C, m'.val (f.at_ b + off + (o.x.fft.S * j + o.x.fft.col k)) =
        o.x.fft.result x0 (fun e b X c => o.ffty.val2 o.fftz y0 z0 φ [e] b X c) mem f off b j k *
          (1 / ((o.x.fft.N : ℂ) * ((o.ffty.N : ℂ) * (o.fftz.N : ℂ)))) := by
  have hBA := h.schx.BA
  unfold convolve
  refine Cmd.Ok.bind ((raw_ok h hs [] hr hi).mono ?_)
  rintro _ m1 ⟨u1, r1, e1⟩
  unfold normalize
  rw [h.Cz, ← h.C]
  refine (scaleWords_ok (by have := hi.n; omega) h.pos_inj ?_ ?_).mono ?_
  · intro b hb k hk
    exact Mem.valid_of_size u1.size (data_valid h.spx.col_lt (hi.bf b (by omega)) (h.pos_data hk))
  · intro b hb b' hb' hne k hk k' hk' e
    refine hi.apart b (by omega) b' (by omega) hne _ (h.pos_data hk) ?_
    rw [e]; exact h.pos_data hk'
  rintro _ m2 ⟨u2, e2⟩
  refine ⟨u1.trans u2 (fun _ h => h) ?_, ?_, ?_⟩
  · rintro p ⟨b, hb, k, hk, rfl⟩
    exact Or.inr ⟨b, lt_of_lt_of_le hb h.schx.outs_le, h.pos_data hk⟩
  · refine r1.bufs h u2.size fun p hp => u2.frame p ?_
    rintro ⟨b, hb, k, hk, rfl⟩
    exact hi.buf b (by omega) (by simpa using hp)
  · intro b hb j hj k hk
    have hlt : o.x.fft.C * j + k < o.x.fft.L * o.x.fft.C := by
      rw [Nat.mul_comm o.x.fft.L]; exact radix_lt hk hj
    have := e2 b hb _ hlt
    rw [h.pos_eq hk] at this
    rw [this, e1 b hb j hj k hk]

/-! Construction -/

theorem _root_.Fftwpp.contiguous3_two {fftx ffty : FftBase} (h : fftx.wordSize = 2) : contiguous3 fftx ffty = decide (ffty.S = ffty.C) := by
  unfold contiguous3
  simp [h]

/-- The `x` transform as used by the object. -/
noncomputable def newX (fftx ffty : FftBase) : FftBase := if contiguous3 fftx ffty then fftx else fftx.strided ffty.L ffty.C ffty.S

/-- Number of threads of the `Convolution2` objects. -/
def newThreadsY (fftx : FftBase) (th thy : ℕ) : ℕ := if fftx.l < th then th else thy

/-- The transforms and the multiplier fit together. -/
structure Fits (fftx ffty fftz : FftBase) (mult : Multiplier) (x0 y0 z0 : ℤ) (pdx pdy pdz : Mem → Ptr → Prop) (K : ℕ → ℕ)
    (φ : List ℕ → ℕ → (ℕ → ℂ) → ℂ) : Prop where
  spx : fftx.Spec x0 pdx
  schx : Outer.Sched fftx x0
  freqx : fftx.overwrite = true → fftx.n = 2 ∨ ∀ ez ey e e' idx, φ (ez :: ey :: e :: idx) = φ (ez :: ey :: e' :: idx)
  yz : Conv2.Fits ffty fftz mult y0 z0 pdy pdz K φ
  A : ffty.A = fftx.A
  B : ffty.B = fftx.B
  ws : fftx.wordSize = 2
  C : fftx.C = if contiguous3 fftx ffty then ffty.L * ffty.S else ffty.C
  S : ffty.L * ffty.S ≤ fftx.S
  L_pos : 0 < ffty.L
  col : ∀ c, fftx.col c = c
  bs : ∀ r ∈ fftx.residues, fftx.noutputs r = fftx.blocksize r

/-- The work arrays have the documented sizes and are distinct. -/
structure Buffers (fftx ffty fftz : FftBase) (th thy : ℕ) (mem : Mem) (Fu : Option PtrArr) (Vu : Option Ptr) (al : Alloc3) : Prop where
  x : Outer.Buffers (newX fftx ffty) mem Fu Vu al.x
  yz : ∀ t < Conv2.newThreads fftx th, Conv2.Buffers ffty fftz (newThreadsY fftx th thy) mem none none (al.yz t)
  sepT : ∀ t < Conv2.newThreads fftx th, ∀ t' < Conv2.newThreads fftx th, t ≠ t' → ∀ k,
    Conv2.NewBufs ffty fftz (newThreadsY fftx th thy) none none (al.yz t) k →
    ¬ Conv2.NewBufs ffty fftz (newThreadsY fftx th thy) none none (al.yz t') k
  sepX : ∀ t < Conv2.newThreads fftx th, ∀ k, Conv.NewBufs (newX fftx ffty) Fu Vu al.x k →
    ¬ Conv2.NewBufs ffty fftz (newThreadsY fftx th thy) none none (al.yz t) k

/-- The buffers of the work arrays of an object to be constructed. -/
def NewBufs (fftx ffty fftz : FftBase) (th thy : ℕ) (Fu : Option PtrArr) (Vu : Option Ptr) (al : Alloc3) (k : ℕ) : Prop :=
  Conv.NewBufs (newX fftx ffty) Fu Vu al.x k ∨
    ∃ t < Conv2.newThreads fftx th, Conv2.NewBufs ffty fftz (newThreadsY fftx th thy) none none (al.yz t) k

/-- The relevant facts on the `x` transform as used. -/
structure XFacts (fx ffty : FftBase) (fftx : FftBase) (x0 : ℤ) (pdx : Mem → Ptr → Prop) : Prop where
  sp : fx.Spec x0 pdx
  sch : Outer.Sched fx x0
  A : fx.A = fftx.A
  B : fx.B = fftx.B
  L : fx.L = fftx.L
  N : fx.N = fftx.N
  S : fx.S = fftx.S
  C : fx.C = ffty.L * ffty.C
  col : fx.col = fun k => ffty.S * (k / ffty.C) + k % ffty.C
  bs : ∀ r ∈ fx.residues, fx.noutputs r = fx.blocksize r
  res : fx.residues = fftx.residues
  bl : fx.blocksize = fftx.blocksize
  n : fx.n = fftx.n
  ow : fx.overwrite = fftx.overwrite

theorem Fits.x {fftx ffty fftz : FftBase} {mult : Multiplier} (h : Fits fftx ffty fftz mult x0 y0 z0 pdx pdy pdz K φ) :
    XFacts (newX fftx ffty) ffty fftx x0 pdx := by
  have hCz := h.yz.spx.C_pos
  have hcol := h.yz.spx.col_lt
  simp only [h.yz.col] at hcol
  have hCS : ffty.C ≤ ffty.S := by have := hcol (ffty.C - 1) (by omega); omega
  have hC := h.C
  unfold newX
  by_cases hc : contiguous3 fftx ffty = true
  · have hSC : ffty.S = ffty.C := by unfold contiguous3 at hc; simpa [h.ws] using hc
    rw [if_pos hc] at hC ⊢
    refine ⟨h.spx, h.schx, rfl, rfl, rfl, rfl, rfl, by rw [hC, hSC], ?_, h.bs, rfl, rfl, rfl, rfl⟩
    funext k
    rw [h.col, hSC, Nat.div_add_mod]
  · rw [if_neg hc] at hC ⊢
    rw [← hC]
    refine ⟨FftBase.strided_spec h.spx ?_ h.S h.L_pos, ⟨?_, h.schx.BA, h.schx.l2⟩, rfl, rfl, rfl, rfl, rfl, by rw [← hC]; rfl, ?_, h.bs, rfl, rfl, rfl, rfl⟩
    · intro c hc'
      rw [h.col]; omega
    · intro how
      obtain ⟨freq, ho⟩ := h.schx.ow how
      exact ⟨freq, FftBase.strided_owSpec ho h.spx.C_pos (fun c hc' => by rw [h.col]; omega) h.S⟩
    · funext k
      show ffty.S * (k / fftx.C) + fftx.col (k % fftx.C) = _
      rw [h.col, hC]

theorem Buffers.size {fftx ffty fftz : FftBase} {th thy : ℕ} {mem m' : Mem} {Fu : Option PtrArr} {Vu : Option Ptr} {al : Alloc3}
    (h : Buffers fftx ffty fftz th thy mem Fu Vu al) (hs : m'.size = mem.size) : Buffers fftx ffty fftz th thy m' Fu Vu al :=
  ⟨h.x.size hs, fun t ht => (h.yz t ht).size hs, h.sepT, h.sepX⟩

theorem new_ok {fftx ffty fftz : FftBase} {mult : Multiplier} (h : Fits fftx ffty fftz mult x0 y0 z0 pdx pdy pdz K φ) {th thy : ℕ}
    {mem : Mem} {Fu : Option PtrArr} {Vu : Option Ptr} {al : Alloc3} (hb : Buffers fftx ffty fftz th thy mem Fu Vu al) :
    (Conv3.new fftx ffty fftz mult th thy Fu none Vu al).Ok mem fun o m' => o.x.fft = newX fftx ffty ∧ o.ffty = ffty ∧ o.fftz = fftz ∧
      o.threads = Conv2.newThreads fftx th ∧
      (∀ t < o.threads, (o.convyz t).threads = Conv2.newThreads ffty (newThreadsY fftx th thy)) ∧
      o.Setup x0 y0 z0 pdx pdy pdz K φ ∧ o.Ready pdx pdy pdz m' ∧
      (∀ k, o.Bufs k → NewBufs fftx ffty fftz th thy Fu Vu al k) ∧ mem.Upd m' (fun p => NewBufs fftx ffty fftz th thy Fu Vu al p.buf) := by
  have hx := h.x
  unfold Conv3.new
  have hthr : (if fftx.l < th then 1 else th) = Conv2.newThreads fftx th := rfl
  have hthy : (if fftx.l < th then th else thy) = newThreadsY fftx th thy := rfl
  have hxx : (if contiguous3 fftx ffty = true then fftx else fftx.strided ffty.L ffty.C ffty.S) = newX fftx ffty := rfl
  simp only [hthr, hthy, hxx]
  refine Cmd.Ok.bind ((newAll_ok (fun t (c : Conv2) m => (c.x.fft = ffty ∧ c.ffty = fftz ∧
      c.threads = Conv2.newThreads ffty (newThreadsY fftx th thy)) ∧ c.Setup y0 z0 pdy pdz K φ ∧ c.Ready pdy pdz m ∧
      ∀ k, c.Bufs k → Conv2.NewBufs ffty fftz (newThreadsY fftx th thy) none none (al.yz t) k)
    (fun t p => Conv2.NewBufs ffty fftz (newThreadsY fftx th thy) none none (al.yz t) p.buf) ?_ ?_).mono ?_)
  · rintro t t' c ht ht' hne m m' ⟨h1, h2, h3, h4⟩ u
    refine ⟨h1, h2, h3.bufs h2 u.size ?_, h4⟩
    intro p hp
    exact u.frame p fun hp' => hb.sepT t ht t' ht' hne _ (h4 _ hp) hp'
  · intro t ht m hs
    refine (Conv2.new_ok h.yz ((hb.size hs).yz t ht)).mono ?_
    rintro c m' ⟨h1, h2, h3, h4, h5, h6, u⟩
    exact ⟨⟨⟨h1, h2, h3⟩, h4, h5, h6⟩, u⟩
  rintro convyz m1 ⟨hc, u1⟩
  refine Cmd.Ok.bind (exitIf_ok (Nat.not_lt.2 h.S) ?_)
  refine Cmd.Ok.bind (exitIf_ok (not_not.2 h.C) ?_)
  refine Cmd.Ok.bind ((Outer.new_ok hx.sp hx.sch (hb.size u1.size).x).mono ?_)
  rintro x m2 ⟨g1, g2, g3, g4, g5, u2⟩
  have hxn : ∀ k, x.Bufs k → Conv.NewBufs (newX fftx ffty) Fu Vu al.x k := fun k hk => Conv.bufs_newOuter g1 g2 g3 g4 hk
  have hu2 : ∀ p, (newX fftx ffty).InW x.W p → Conv.NewBufs (newX fftx ffty) Fu Vu al.x p.buf := by
    rintro p ⟨W, hW, hp⟩
    rw [g4] at hW
    exact Or.inr (Or.inl ⟨W, hW, FftBase.inArr_buf hp⟩)
  have hCz := h.yz.spx.C_pos
  have hcol := h.yz.spx.col_lt
  simp only [h.yz.col] at hcol
  have hCS : ffty.C ≤ ffty.S := by have := hcol (ffty.C - 1) (by omega); omega
  refine Cmd.Ok.pure ⟨g1, rfl, rfl, rfl, fun t ht => (hc t ht).1.2.2, ?_, ⟨g5, ?_⟩, ?_, u1.trans u2 ?_ ?_⟩
  · refine ⟨by rw [g1]; exact hx.sp, by rw [g1]; exact hx.sch, by rw [g1, hx.n, hx.ow]; exact h.freqx, fun t ht => (hc t ht).2.1, fun t ht => (hc t ht).1.1,
      fun t ht => (hc t ht).1.2.1, by rw [g1, hx.A]; exact h.A, by rw [g1, hx.B]; exact h.B, h.yz.C, hCz, hCS,
      by rw [g1]; exact hx.C, by rw [g1]; exact hx.col, ?_, by rw [g1]; exact hx.bs, ?_, ?_, ?_⟩
    · rw [g1, hx.S, Nat.mul_comm]; exact h.S
    · rw [g1, hx.A, ← h.A, ← h.yz.A]; exact h.yz.mult.congr
    · intro t ht t' ht' hne k hk hk'
      exact hb.sepT t ht t' ht' hne k ((hc t ht).2.2.2 k hk) ((hc t' ht').2.2.2 k hk')
    · intro t ht k hk hk'
      exact hb.sepX t ht k (hxn k hk) ((hc t ht).2.2.2 k hk')
  · intro t ht
    refine (hc t ht).2.2.1.bufs (hc t ht).2.1 u2.size ?_
    intro p hp
    exact u2.frame p fun hp' => hb.sepX t ht _ (hu2 p hp') ((hc t ht).2.2.2 _ hp)
  · rintro k (hk | ⟨t, ht, hk⟩)
    · exact Or.inl (hxn k hk)
    · exact Or.inr ⟨t, ht, (hc t ht).2.2.2 k hk⟩
  · rintro p ⟨t, ht, hp⟩
    exact Or.inr ⟨t, ht, hp⟩
  · intro p hp
    exact Or.inl (hu2 p hp)

/-! Sequences of calls -/

/-- What may happen between calls of `convolve`. -/
inductive Step where
  | write (p : Ptr) (v : ℂ)
  | call (s : ℕ → Sch) (s2 : ℕ → ℕ → ℕ → Sch) (f : PtrArr) (offset : ℕ)

/-- Perform a step. -/
noncomputable def step (o : Conv3) : Step → Cmd Unit
  | .write p v => (store p v).run
  | .call s s2 f off => o.convolve s s2 f off

/-- The user writes outside the work arrays of the object. -/
def Allowed (o : Conv3) (mem : Mem) : Step → Prop
  | .write p _ => mem.valid p ∧ ¬ o.Bufs p.buf
  | .call s s2 f off => o.LegalS s s2 ∧ o.Inputs mem f off

theorem history_ok (h : o.Setup x0 y0 z0 pdx pdy pdz K φ) {mem : Mem} (hr : o.Ready pdx pdy pdz mem) (steps : List Step)
    (ha : ∀ s ∈ steps, o.Allowed mem s) :
    (seqLoop steps o.step).Ok mem fun _ m' => o.Ready pdx pdy pdz m' ∧ m'.size = mem.size := by
  refine seqLoop_list (fun _ m1 => o.Ready pdx pdy pdz m1 ∧ m1.size = mem.size) ⟨hr, rfl⟩ ?_ (fun _ h => h)
  rintro _ s m1 hsm ⟨r1, s1⟩
  have hal := ha s hsm
  cases s with
  | write p v =>
    refine run_map1 (body := store p v) p v ?_ ?_ ?_
    · body_simp
      exact Mem.valid_of_size s1 hal.1
    · body_simp
    intro m2 u2 e2
    refine ⟨r1.bufs h u2.size ?_, u2.size.trans s1⟩
    intro p' hp'
    refine u2.frame _ ?_
    rintro rfl
    exact hal.2 hp'
  | call s s2 g off =>
    refine (convolve_ok h hal.1 r1 (hal.2.size s1)).mono ?_
    rintro _ m2 ⟨u2, r2, _⟩
    exact ⟨r2, u2.size.trans s1⟩

end Conv3
end Fftwpp
