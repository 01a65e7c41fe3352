import Verif.Proof.Outer2

/-! `Convolution` and `Convolution2` as inner convolutions; `Convolution2` and `Convolution3` objects between calls. -/

namespace Fftwpp
open Finset

/-- Unnormalized inverse transform of `φ` of the transforms. -/
noncomputable def FftBase.innerVal (o : FftBase) (x0 : ℤ) (φ : List ℕ → ℕ → (ℕ → ℂ) → ℂ) (idx : List ℕ) (b : ℕ) (X : ℕ → ℕ → ℂ) (j : ℕ) : ℂ :=
  ∑ e ∈ range o.N, φ (e :: idx) b (fun a => o.dft x0 (X a) e) * w o.N (-(((j : ℤ) - x0) * (e : ℤ)))

namespace Conv
variable {c : Conv} {x0 : ℤ} {padded : Mem → Ptr → Prop} {K : ℕ → ℕ}

/-- The buffers of the work arrays of the object. -/
def Bufs (c : Conv) (k : ℕ) : Prop :=
  (∃ a < max c.fft.A c.fft.B, k = (c.F.at_ a).buf) ∨ (∃ W, c.W = some W ∧ k = W.buf) ∨
    c.UsesV ∧ ∃ b < c.fft.B, k = (c.V.at_ b).buf

theorem WorkWord.bufs {p : Ptr} (h : c.WorkWord p) : c.Bufs p.buf := by
  rcases h with ⟨a, ha, hp⟩ | ⟨W, hW, hp⟩ | ⟨hV, b, hb, hp⟩
  · exact Or.inl ⟨a, ha, FftBase.inArr_buf hp⟩
  · exact Or.inr (Or.inl ⟨W, hW, FftBase.inArr_buf hp⟩)
  · exact Or.inr (Or.inr ⟨hV, b, hb, FftBase.data_buf hp⟩)

theorem Ready.bufs (hsp : c.fft.Spec x0 padded) {mem m' : Mem} (h : c.Ready padded mem) (hs : m'.size = mem.size)
    (hv : ∀ p : Ptr, c.Bufs p.buf → m'.val p = mem.val p) : c.Ready padded m' := by
  refine h.size hs ?_
  intro W hW
  refine hsp.pad_frame ?_ (h.pd W hW)
  intro i _
  exact hv _ (Or.inr (Or.inl ⟨W, hW, rfl⟩))

/-- A `Convolution` as inner convolution. -/
theorem inner (h : c.fft.Spec x0 padded) (fl : c.fft.Flat K) (hs : Sched c.fft x0 K) {φ}
    (hm : MultSpec c.fft.A c.fft.B c.fft.index c.mult φ) (hf : c.fft.FreqOK K φ) (hBA : c.fft.B ≤ c.fft.A) :
    Inner c.fft.A c.fft.B c.fft.L c.fft.L (fun j => j) c.convolveRawOffset (c.fft.innerVal x0 φ) c.Bufs (c.Ready padded) := by
  have hmax : max c.fft.A c.fft.B = c.fft.A := max_eq_left hBA
  refine ⟨?_, fun hr hs hv => hr.bufs h hs hv, ?_⟩
  · intro idx b X Y hXY j hj
    unfold FftBase.innerVal
    refine sum_congr rfl fun e _ => ?_
    congr 1
    refine hm.congr _ _ _ _ fun a ha => ?_
    unfold FftBase.dft
    refine sum_congr rfl fun i hi => ?_
    rw [hXY a ha i (mem_range.1 hi)]
  intro m F off idx hr hn hb hsep hT
  unfold convolveRawOffset
  rw [if_neg (by omega)]
  have hin : c.Inputs m ⟨c.fft.A, fun a => F.at_ a + off⟩ := by
    rw [← hmax] at hb hsep hT
    refine ⟨⟨by simp [hBA], ?_, ?_, ?_⟩, ?_, ?_, ?_⟩
    · intro a ha
      rw [fl.S, one_mul, Ptr.add0]
      exact hb a ha
    · intro a ha a' ha' e
      exact hT a ha (Or.inl ⟨a', ha', e⟩)
    · intro a ha W hW e
      exact hT a ha (Or.inr (Or.inl ⟨W, hW, e.symm⟩))
    · intro a ha a' ha' hne p h1 h2
      have e1 := FftBase.data_buf h1
      have e2 := FftBase.data_buf h2
      simp only [Ptr.add_buf] at e1 e2
      exact hsep a ha a' ha' hne (by rw [← e1, e2])
    · intro hV a ha b hb' e
      exact hT a ha (Or.inr (Or.inr ⟨hV, b, hb', e⟩))
    · intro _ a ha a' ha' hne
      exact hsep a (by omega) a' (by omega) hne
  refine (convolveRaw_ok h fl hs hm hf hr hin idx).mono ?_
  rintro _ m' ⟨u, r, e⟩
  refine ⟨r, u.mono ?_, fun _ => ?_⟩
  · rintro p (hp | ⟨b, hb', hp⟩)
    · exact Or.inl hp.bufs
    · rw [flat_data fl] at hp
      obtain ⟨j, hj, rfl⟩ := hp
      refine Or.inr ⟨b, ?_, j, hj, rfl⟩
      unfold FftBase.outs at hb'
      split_ifs at hb' <;> omega
  · intro b hb' j hj
    rw [e b hb' j hj]
    unfold FftBase.result FftBase.hat FftBase.innerVal
    simp only [fl.S, fl.col, one_mul, add_zero, Ptr.add0]

end Conv

namespace Conv2

/-- The buffers of the work arrays of the object. -/
def Bufs (o : Conv2) (k : ℕ) : Prop := o.x.Bufs k ∨ ∃ t < o.threads, (o.convy t).Bufs k

/-- The state of the object between calls. -/
def Ready (o : Conv2) (pdx pdy : Mem → Ptr → Prop) (mem : Mem) : Prop :=
  o.x.Ready pdx mem ∧ ∀ t < o.threads, (o.convy t).Ready pdy mem

/-- How the parts of a `Convolution2` fit together. -/
structure Setup (o : Conv2) (x0 y0 : ℤ) (pdx pdy : Mem → Ptr → Prop) (K : ℕ → ℕ) (φ : List ℕ → ℕ → (ℕ → ℂ) → ℂ) : Prop where
  spx : o.x.fft.Spec x0 pdx
  schx : Outer.Sched o.x.fft x0
  spy : o.ffty.Spec y0 pdy
  fly : o.ffty.Flat K
  schy : Conv.Sched o.ffty y0 K
  convy : ∀ t < o.threads, (o.convy t).fft = o.ffty
  mult : ∀ t < o.threads, MultSpec o.ffty.A o.ffty.B o.ffty.index (o.convy t).mult φ
  freq : o.ffty.FreqOK K φ
  freqx : o.x.fft.overwrite = true → o.x.fft.n = 2 ∨ ∀ ey e e' idx, φ (ey :: e :: idx) = φ (ey :: e' :: idx)
  A : o.ffty.A = o.x.fft.A
  B : o.ffty.B = o.x.fft.B
  C : o.ffty.L = o.x.fft.C
  col : ∀ c, o.x.fft.col c = c
  bs : ∀ r ∈ o.x.fft.residues, o.x.fft.noutputs r = o.x.fft.blocksize r
  congr : ∀ e b X Y, (∀ a < o.x.fft.A, X a = Y a) → φ e b X = φ e b Y
  sepT : ∀ t < o.threads, ∀ t' < o.threads, t ≠ t' → ∀ k, (o.convy t).Bufs k → ¬ (o.convy t').Bufs k
  sepX : ∀ t < o.threads, ∀ k, o.x.Bufs k → ¬ (o.convy t).Bufs k

/-- The schedules are legal. -/
def LegalS (o : Conv2) (s : ℕ → Sch) : Prop := ∀ r ∈ o.x.fft.residues, (s r).Legal (o.x.fft.blocksize r) o.threads

variable {o : Conv2} {x0 y0 : ℤ} {pdx pdy : Mem → Ptr → Prop} {K : ℕ → ℕ} {φ : List ℕ → ℕ → (ℕ → ℂ) → ℂ}

theorem Setup.hin (h : o.Setup x0 y0 pdx pdy K φ) : ∀ t < o.threads, Inner o.x.fft.A o.x.fft.B o.x.fft.C o.x.fft.C o.x.fft.col
    (o.convy t).convolveRawOffset (o.ffty.innerVal y0 φ) (o.convy t).Bufs ((o.convy t).Ready pdy) := by
  intro t ht
  have e := h.convy t ht
  have hc : o.x.fft.col = fun c => c := funext h.col
  have := Conv.inner (c := o.convy t) (x0 := y0) (padded := pdy) (K := K) (φ := φ) (by rw [e]; exact h.spy) (by rw [e]; exact h.fly)
    (by rw [e]; exact h.schy) (by rw [e]; exact h.mult t ht) (by rw [e]; exact h.freq)
    (by rw [e, h.A, h.B]; exact h.schx.BA)
  rw [e, h.A, h.B, h.C] at this
  rw [hc]
  exact this

theorem Setup.CS (h : o.Setup x0 y0 pdx pdy K φ) : o.x.fft.C ≤ o.x.fft.S := by
  have h1 := h.spx.C_pos
  have h2 := h.spx.col_lt (o.x.fft.C - 1) (by omega)
  rw [h.col] at h2
  omega

theorem innerVal_congr (h : o.Setup x0 y0 pdx pdy K φ) {idx : List ℕ} {b : ℕ} {X Y : ℕ → ℕ → ℂ}
    (hXY : ∀ a < o.x.fft.A, ∀ c < o.x.fft.C, X a c = Y a c) (j : ℕ) :
    o.ffty.innerVal y0 φ idx b X j = o.ffty.innerVal y0 φ idx b Y j := by
  unfold FftBase.innerVal
  refine sum_congr rfl fun e _ => ?_
  congr 1
  refine h.congr _ _ _ _ fun a ha => ?_
  unfold FftBase.dft
  refine sum_congr rfl fun i hi => ?_
  rw [hXY a ha i (by rw [← h.C]; exact mem_range.1 hi)]

theorem Setup.op (h : o.Setup x0 y0 pdx pdy K φ) {s : ℕ → Sch} (hs : o.LegalS s) (idx : List ℕ) :
    o.x.fft.OpSpec (fun F r => o.subconvolution (s r) idx F r 0) (fun e b X c => o.ffty.innerVal y0 φ (e :: idx) b X c)
      (fun k => ∃ t < o.threads, (o.convy t).Bufs k) (fun m => ∀ t < o.threads, (o.convy t).Ready pdy m) :=
  sub_spec h.spx h.schx.BA (raw := fun _ t _ => (o.convy t).convolveRawOffset) (ext := o.x.fft.C)
    (Ψ := o.ffty.innerVal y0 φ) (fun r _ t ht i _ => h.hin t ht) (fun t ht => (h.hin t ht).inv)
    (fun _ _ _ _ hXY j _ => innerVal_congr h hXY j) (P := fun _ => True) (fun _ _ _ _ => trivial) h.sepT h.CS h.bs hs idx

theorem Setup.owsub (h : o.Setup x0 y0 pdx pdy K φ) (how : o.x.fft.overwrite = true) {s : ℕ → Sch} (hs : o.LegalS s) (idx : List ℕ) :
    o.x.OwSub x0 (fun F r off => o.subconvolution (s r) idx F r off) (fun e b X c => o.ffty.innerVal y0 φ (e :: idx) b X c)
      (fun k => ∃ t < o.threads, (o.convy t).Bufs k) (fun m => ∀ t < o.threads, (o.convy t).Ready pdy m) := by
  intro freq ho size F off0 r hr hn hb hsep hT
  refine sub_ow ho (raw := fun _ t _ => (o.convy t).convolveRawOffset) (ext := o.x.fft.C)
    (Ψ := o.ffty.innerVal y0 φ) (fun r _ t ht i _ => h.hin t ht) (fun t ht => (h.hin t ht).inv)
    (fun _ _ _ _ hXY j _ => innerVal_congr h hXY j) (P := fun _ => True) (fun _ _ _ _ => trivial) h.sepT h.CS hs idx ?_ hr hn hb hsep hT
  rcases h.freqx how with h1 | h1
  · exact Or.inl h1
  · right
    intro e e' idx
    unfold FftBase.innerVal
    funext b X j
    refine sum_congr rfl fun ey _ => ?_
    rw [h1 ey e e']

/-- The arguments of `convolveRaw` and `convolve`. -/
structure Inputs (o : Conv2) (mem : Mem) (f : PtrArr) (off : ℕ) : Prop where
  n : o.x.fft.A ≤ f.n
  bf : ∀ a < o.x.fft.A, mem.block (f.at_ a + off) (o.x.fft.S * o.x.fft.L)
  apart : o.x.fft.Apart f off o.x.fft.A
  buf : ∀ a < o.x.fft.A, ¬ o.Bufs (f.at_ a).buf
  ow : o.x.fft.overwrite = true → ∀ a < o.x.fft.A, ∀ a' < o.x.fft.A, a ≠ a' → (f.at_ a).buf ≠ (f.at_ a').buf

theorem Inputs.size {mem m' : Mem} {f : PtrArr} {off : ℕ} (h : o.Inputs mem f off) (hs : m'.size = mem.size) : o.Inputs m' f off :=
  ⟨h.n, fun a ha => FftBase.block_size hs (h.bf a ha), h.apart, h.buf, h.ow⟩

theorem Inputs.outer {mem : Mem} {f : PtrArr} {off : ℕ} (h : o.Inputs mem f off) : o.x.Inputs mem f off :=
  ⟨h.n, h.bf, h.apart, fun a ha hb => h.buf a ha (Or.inl hb), h.ow⟩

theorem Setup.pos_eq (h : o.Setup x0 y0 pdx pdy K φ) {j c : ℕ} (hc : c < o.x.fft.C) :
    o.pos (o.x.fft.C * j + c) = o.x.fft.S * j + o.x.fft.col c := by
  unfold pos
  rw [h.C, h.col, Nat.mul_add_div (by omega), Nat.mul_add_mod, Nat.div_eq_of_lt hc, Nat.mod_eq_of_lt hc, Nat.add_zero]

theorem Setup.split (h : o.Setup x0 y0 pdx pdy K φ) {k : ℕ} (hk : k < o.x.fft.L * o.x.fft.C) :
    ∃ j < o.x.fft.L, ∃ c < o.x.fft.C, k = o.x.fft.C * j + c := by
  have hC := h.spx.C_pos
  refine ⟨k / o.x.fft.C, Nat.div_lt_of_lt_mul (by rw [Nat.mul_comm]; exact hk), k % o.x.fft.C, Nat.mod_lt _ hC, ?_⟩
  rw [Nat.div_add_mod]

theorem Setup.pos_data (h : o.Setup x0 y0 pdx pdy K φ) {f : Ptr} {k : ℕ} (hk : k < o.x.fft.L * o.x.fft.C) :
    o.x.fft.Data f (f + o.pos k) := by
  obtain ⟨j, hj, c, hc, rfl⟩ := h.split hk
  exact ⟨j, hj, c, hc, by rw [h.pos_eq hc]⟩

theorem Setup.pos_inj (h : o.Setup x0 y0 pdx pdy K φ) : ∀ i < o.x.fft.L * o.x.fft.C, ∀ j < o.x.fft.L * o.x.fft.C,
    o.pos i = o.pos j → i = j := by
  intro i hi j hj e
  obtain ⟨i1, _, c1, h1, rfl⟩ := h.split hi
  obtain ⟨j1, _, c2, h2, rfl⟩ := h.split hj
  rw [h.pos_eq h1, h.pos_eq h2] at e
  obtain ⟨rfl, e2⟩ := radix_inj (h.spx.col_lt _ h1) (h.spx.col_lt _ h2) e
  rw [h.col, h.col] at e2
  rw [e2]

theorem data_valid (hcol : ∀ c < o.x.fft.C, o.x.fft.col c < o.x.fft.S) {mem : Mem} {f : Ptr} (hb : mem.block f (o.x.fft.S * o.x.fft.L)) {p : Ptr}
    (hp : o.x.fft.Data f p) : mem.valid p := by
  obtain ⟨j, hj, c, hc, rfl⟩ := hp
  exact hb _ (radix_lt (hcol c hc) hj)

/-- One call of `convolveRaw`. -/
theorem raw_ok (h : o.Setup x0 y0 pdx pdy K φ) {s : ℕ → Sch} (hs : o.LegalS s) (idx : List ℕ) {mem : Mem} {f : PtrArr} {off : ℕ}
    (hr : o.Ready pdx pdy mem) (hi : o.Inputs mem f off) :
    (o.convolveRaw s idx f off).Ok mem fun _ m' =>
      mem.Upd m' (fun p => o.Bufs p.buf ∨ ∃ b < o.x.fft.outs, o.x.fft.Data (f.at_ b + off) p) ∧ o.Ready pdx pdy m' ∧
      ∀ b < o.x.fft.B, ∀ j < o.x.fft.L, ∀ k < o.x.fft.C, m'.val (f.at_ b + off + (o.x.fft.S * j + k)) =
        o.x.fft.result x0 (fun e b X c => o.ffty.innerVal y0 φ (e :: idx) b X c) mem f off b j k := by
  have hBA := h.schx.BA
  unfold convolveRaw
  refine (Outer.raw_ok h.spx h.schx (h.op hs idx) (fun how => h.owsub how hs idx) hr.1 hi.outer hr.2 (fun k hk => ?_) (fun a ha hT => hi.buf a ha (Or.inr hT)) ?_).mono ?_
  · rintro ⟨t, ht, hT⟩
    exact h.sepX t ht k hk hT
  · intro hV m1 hs1
    obtain ⟨hdV, _⟩ := hr.1.V hV
    rw [h.C]
    refine (copyWords_ok (by have := hi.n; omega) hdV.n h.pos_inj ?_ ?_ ?_ ?_).mono ?_
    · intro b hb k hk
      exact Mem.valid_of_size hs1 (data_valid h.spx.col_lt (hi.bf b (by omega)) (h.pos_data hk))
    · intro b hb k hk
      have := hdV.bf b hb
      rw [Conv.Ptr.add0] at this
      exact Mem.valid_of_size hs1 (data_valid h.spx.col_lt this (h.pos_data hk))
    · intro b hb b' hb' e
      exact hi.buf b (by omega) (Or.inl (Or.inr (Or.inr ⟨hV, b', hb', e⟩)))
    · intro b hb b' hb' hne k hk k' hk' e
      refine hi.apart b (by omega) b' (by omega) hne _ (h.pos_data hk) ?_
      rw [e]; exact h.pos_data hk'
    · rintro _ m2 ⟨u2, e2⟩
      refine ⟨u2.mono ?_, ?_⟩
      · rintro p ⟨b, hb, k, hk, rfl⟩
        exact ⟨b, hb, h.pos_data hk⟩
      · intro b hb j hj k hk
        have hlt : o.x.fft.C * j + k < o.x.fft.L * o.x.fft.C := by
          rw [Nat.mul_comm o.x.fft.L]; exact radix_lt hk hj
        have := e2 b hb _ hlt
        rwa [h.pos_eq hk] at this
  · rintro _ m' ⟨u, r, I, e⟩
    refine ⟨u.mono ?_, ⟨r, I⟩, ?_⟩
    · rintro p (hp | hp | hp)
      · exact Or.inl (Or.inr hp)
      · exact Or.inl (Or.inl hp)
      · exact Or.inr hp
    · intro b hb j hj k hk
      have := e (fun _ => trivial) b hb j hj k hk
      rwa [h.col] at this

/-- Unnormalized 2D result; words are numbered `k=C*j+c`. -/
noncomputable def val (o : Conv2) (x0 y0 : ℤ) (φ : List ℕ → ℕ → (ℕ → ℂ) → ℂ) (idx : List ℕ) (b : ℕ) (X : ℕ → ℕ → ℂ) (k : ℕ) : ℂ :=
  ∑ e ∈ range o.x.fft.N, o.ffty.innerVal y0 φ (e :: idx) b (fun a c => o.x.fft.dft x0 (fun j => X a (o.x.fft.C * j + c)) e) (k % o.x.fft.C) *
    w o.x.fft.N (-(((k / o.x.fft.C : ℕ) - x0) * (e : ℤ)))

theorem val_congr (h : o.Setup x0 y0 pdx pdy K φ) {idx : List ℕ} {b : ℕ} {X Y : ℕ → ℕ → ℂ}
    (hXY : ∀ a < o.x.fft.A, ∀ c < o.x.fft.L * o.x.fft.C, X a c = Y a c) (k : ℕ) :
    o.val x0 y0 φ idx b X k = o.val x0 y0 φ idx b Y k := by
  unfold val
  refine sum_congr rfl fun e _ => ?_
  congr 1
  refine innerVal_congr h ?_ _
  intro a ha c hc
  unfold FftBase.dft
  refine sum_congr rfl fun j hj => ?_
  simp only
  rw [hXY a ha _ (by rw [Nat.mul_comm o.x.fft.L]; exact radix_lt hc (mem_range.1 hj))]

theorem Ready.bufs (h : o.Setup x0 y0 pdx pdy K φ) {mem m' : Mem} (hr : o.Ready pdx pdy mem) (hs : m'.size = mem.size)
    (hv : ∀ p : Ptr, o.Bufs p.buf → m'.val p = mem.val p) : o.Ready pdx pdy m' := by
  refine ⟨hr.1.bufs h.spx hs fun p hp => hv p (Or.inl hp), fun t ht => ?_⟩
  exact (hr.2 t ht).bufs (by rw [h.convy t ht]; exact h.spy) hs fun p hp => hv p (Or.inr ⟨t, ht, hp⟩)

/-- A `Convolution2` as inner convolution. -/
theorem inner (h : o.Setup x0 y0 pdx pdy K φ) {s : ℕ → Sch} (hs : o.LegalS s) :
    Inner o.x.fft.A o.x.fft.B (o.x.fft.L * o.x.fft.C) (o.x.fft.S * o.x.fft.L)
      (fun k => o.x.fft.S * (k / o.x.fft.C) + k % o.x.fft.C) (o.convolveRaw s) (o.val x0 y0 φ) o.Bufs (o.Ready pdx pdy) := by
  refine ⟨?_, fun hr hs hv => hr.bufs h hs hv, ?_⟩
  · intro idx b X Y hXY k _
    exact val_congr h hXY k
  intro m F off idx hr hn hb hsep hT
  have hpos : ∀ k, o.x.fft.S * (k / o.x.fft.C) + k % o.x.fft.C = o.pos k := fun k => by unfold pos; rw [h.C]
  simp only [hpos]
  have hi : o.Inputs m F off := by
    refine ⟨hn, hb, ?_, hT, fun _ => hsep⟩
    intro a ha a' ha' hne p h1 h2
    have e1 := FftBase.data_buf h1
    have e2 := FftBase.data_buf h2
    simp only [Ptr.add_buf] at e1 e2
    exact hsep a ha a' ha' hne (by rw [← e1, e2])
  refine (raw_ok h hs idx hr hi).mono ?_
  rintro _ m' ⟨u, r, e⟩
  refine ⟨r, u.mono ?_, fun _ => ?_⟩
  · rintro p (hp | ⟨b, hb', j, hj, c, hc, rfl⟩)
    · exact Or.inl hp
    · have := h.schx.outs_le_A
      refine Or.inr ⟨b, by omega, o.x.fft.C * j + c, ?_, ?_⟩
      · rw [Nat.mul_comm o.x.fft.L]; exact radix_lt hc hj
      · rw [h.pos_eq hc]
  · intro b hb' k hk
    obtain ⟨j, hj, c, hc, rfl⟩ := h.split hk
    have := e b hb' j hj c hc
    rw [h.pos_eq hc, h.col, this]
    unfold FftBase.result val
    rw [Nat.mul_add_div (by omega), Nat.mul_add_mod, Nat.div_eq_of_lt hc, Nat.mod_eq_of_lt hc, Nat.add_zero]
    refine sum_congr rfl fun e _ => ?_
    congr 1
    refine innerVal_congr h ?_ _
    intro a ha c' hc'
    unfold FftBase.hat FftBase.dft
    refine sum_congr rfl fun i hi' => ?_
    beta_reduce
    rw [h.pos_eq hc']

/-- One call of `convolve`. -/
theorem convolve_ok (h : o.Setup x0 y0 pdx pdy K φ) {s : ℕ → Sch} (hs : o.LegalS s) {mem : Mem} {f : PtrArr} {off : ℕ}
    (hr : o.Ready pdx pdy mem) (hi : o.Inputs mem f off) :
    (o.convolve s f off).Ok mem fun _ m' =>
      mem.Upd m' (fun p => o.Bufs p.buf ∨ ∃ b < o.x.fft.outs, o.x.fft.Data (f.at_ b + off) p) ∧ o.Ready pdx pdy m' ∧
      ∀ b < o.x.fft.B, ∀ j < o.x.fft.L, ∀ k < o.x.fft.C, m'.val (f.at_ b + off + (o.x.fft.S * j + k)) =
        o.x.fft.result x0 (fun e b X c => o.ffty.innerVal y0 φ [e] b X c) mem f off b j k *
          (1 / ((o.x.fft.N : ℂ) * (o.ffty.N : ℂ))) := by
  have hBA := h.schx.BA
  unfold convolve
  refine Cmd.Ok.bind ((raw_ok h hs [] hr hi).mono ?_)
  rintro _ m1 ⟨u1, r1, e1⟩
  unfold normalize
  rw [h.C]
  refine (scaleWords_ok (by have := hi.n; omega) h.pos_inj ?_ ?_).mono ?_
  · intro b hb k hk
    exact Mem.valid_of_size u1.size (data_valid h.spx.col_lt (hi.bf b (by omega)) (h.pos_data hk))
  · intro b hb b' hb' hne k hk k' hk' e
    refine hi.apart b (by omega) b' (by omega) hne _ (h.pos_data hk) ?_
    rw [e]; exact h.pos_data hk'
  rintro _ m2 ⟨u2, e2⟩
  refine ⟨u1.trans u2 (fun _ h => h) ?_, ?_, ?_⟩
  · rintro p ⟨b, hb, k, hk, rfl⟩
    exact Or.inr ⟨b, lt_of_lt_of_le hb h.schx.outs_le, h.pos_data hk⟩
  · refine r1.bufs h u2.size fun p hp => u2.frame p ?_
    rintro ⟨b, hb, k, hk, rfl⟩
    exact hi.buf b (by omega) (by simpa using hp)
  · intro b hb j hj k hk
    have hlt : o.x.fft.C * j + k < o.x.fft.L * o.x.fft.C := by
      rw [Nat.mul_comm o.x.fft.L]; exact radix_lt hk hj
    have := e2 b hb _ hlt
    rw [h.pos_eq hk, h.col] at this
    rw [this, e1 b hb j hj k hk]

end Conv2
end Fftwpp
