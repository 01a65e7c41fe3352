import Verif.Proof.Outer4

/-! `Convolution2` over any inner convolution defined on a domain of inputs. -/

namespace Fftwpp
open Finset

/-- Unnormalized result of an outer transform around the inner convolution `Ψ`; words are numbered `k=C*j+c`. -/
noncomputable def FftBase.valG (o : FftBase) (x0 : ℤ) (Ψ : List ℕ → ℕ → (ℕ → ℕ → ℂ) → ℕ → ℂ) (idx : List ℕ) (b : ℕ) (X : ℕ → ℕ → ℂ) (k : ℕ) : ℂ :=
  ∑ e ∈ range o.N, Ψ (e :: idx) b (fun a c => o.dft x0 (fun j => X a (o.C * j + c)) e) (k % o.C) *
    w o.N (-(((k / o.C : ℕ) - x0) * (e : ℤ)))

/-- The inputs all of whose transformed rows are in the domain `P` of the inner convolution. -/
def FftBase.domG (o : FftBase) (x0 : ℤ) (P : (ℕ → ℕ → ℂ) → Prop) (X : ℕ → ℕ → ℂ) : Prop :=
  ∀ e : ℕ, P (fun a c => o.dft x0 (fun j => X a (o.C * j + c)) e)

namespace Conv2

/-- The state of the object between calls; `Rd` is that of the inner convolutions. -/
def ReadyG (o : Conv2) (pdx : Mem → Ptr → Prop) (Rd : Conv → Mem → Prop) (mem : Mem) : Prop :=
  o.x.Ready pdx mem ∧ ∀ t < o.threads, Rd (o.convy t) mem

/-- How the parts of a `Convolution2` fit together. -/
structure Gen (o : Conv2) (x0 : ℤ) (pdx : Mem → Ptr → Prop) (Ψ : List ℕ → ℕ → (ℕ → ℕ → ℂ) → ℕ → ℂ) (P : (ℕ → ℕ → ℂ) → Prop)
    (Rd : Conv → Mem → Prop) : Prop where
  spx : o.x.fft.Spec x0 pdx
  schx : Outer.Sched o.x.fft x0
  inn : ∀ t < o.threads, Inner o.x.fft.A o.x.fft.B o.x.fft.C o.x.fft.C o.x.fft.col (o.convy t).convolveRawOffset Ψ (o.convy t).Bufs (Rd (o.convy t)) P
  cong : ∀ idx b X Y, (∀ a < o.x.fft.A, ∀ c < o.x.fft.C, X a c = Y a c) → ∀ c < o.x.fft.C, Ψ idx b X c = Ψ idx b Y c
  dom : ∀ X Y, (∀ a < o.x.fft.A, ∀ c < o.x.fft.C, X a c = Y a c) → P X → P Y
  freqx : o.x.fft.overwrite = true → o.x.fft.FreqX Ψ
  C : o.ffty.L = o.x.fft.C
  col : ∀ c, o.x.fft.col c = c
  bs : ∀ r ∈ o.x.fft.residues, o.x.fft.noutputs r = o.x.fft.blocksize r
  sepT : ∀ t < o.threads, ∀ t' < o.threads, t ≠ t' → ∀ k, (o.convy t).Bufs k → ¬ (o.convy t').Bufs k
  sepX : ∀ t < o.threads, ∀ k, o.x.Bufs k → ¬ (o.convy t).Bufs k

variable {o : Conv2} {x0 : ℤ} {pdx : Mem → Ptr → Prop} {Ψ : List ℕ → ℕ → (ℕ → ℕ → ℂ) → ℕ → ℂ} {P : (ℕ → ℕ → ℂ) → Prop} {Rd : Conv → Mem → Prop}

theorem Gen.CS (h : o.Gen x0 pdx Ψ P Rd) : o.x.fft.C ≤ o.x.fft.S := by
  have h1 := h.spx.C_pos
  have h2 := h.spx.col_lt (o.x.fft.C - 1) (by omega)
  rw [h.col] at h2
  omega

theorem Gen.op (h : o.Gen x0 pdx Ψ P Rd) {s : ℕ → Sch} (hs : o.LegalS s) (idx : List ℕ) :
    o.x.fft.OpSpec (fun F r => o.subconvolution (s r) idx F r 0) (fun e b X c => Ψ (e :: idx) b X c)
      (fun k => ∃ t < o.threads, (o.convy t).Bufs k) (fun m => ∀ t < o.threads, Rd (o.convy t) m) P :=
  sub_spec h.spx h.schx.BA (raw := fun _ t _ => (o.convy t).convolveRawOffset) (ext := o.x.fft.C)
    (fun r _ t ht i _ => h.inn t ht) (fun t ht => (h.inn t ht).inv) h.cong h.dom h.sepT h.CS h.bs hs idx

theorem Gen.owsub (h : o.Gen x0 pdx Ψ P Rd) (how : o.x.fft.overwrite = true) {s : ℕ → Sch} (hs : o.LegalS s) (idx : List ℕ) :
    o.x.OwSub x0 (fun F r off => o.subconvolution (s r) idx F r off) (fun e b X c => Ψ (e :: idx) b X c)
      (fun k => ∃ t < o.threads, (o.convy t).Bufs k) (fun m => ∀ t < o.threads, Rd (o.convy t) m) P := by
  intro freq ho size F off0 r hr hn hb hsep hT
  exact sub_ow ho (raw := fun _ t _ => (o.convy t).convolveRawOffset) (ext := o.x.fft.C)
    (fun r _ t ht i _ => h.inn t ht) (fun t ht => (h.inn t ht).inv) h.cong h.dom h.sepT h.CS hs idx (h.freqx how) hr hn hb hsep hT

theorem Gen.pos_eq (h : o.Gen x0 pdx Ψ P Rd) {j c : ℕ} (hc : c < o.x.fft.C) :
    o.pos (o.x.fft.C * j + c) = o.x.fft.S * j + o.x.fft.col c := by
  unfold pos
  rw [h.C, h.col, Nat.mul_add_div (by omega), Nat.mul_add_mod, Nat.div_eq_of_lt hc, Nat.mod_eq_of_lt hc, Nat.add_zero]

theorem Gen.split (h : o.Gen x0 pdx Ψ P Rd) {k : ℕ} (hk : k < o.x.fft.L * o.x.fft.C) :
    ∃ j < o.x.fft.L, ∃ c < o.x.fft.C, k = o.x.fft.C * j + c := by
  have hC := h.spx.C_pos
  refine ⟨k / o.x.fft.C, Nat.div_lt_of_lt_mul (by rw [Nat.mul_comm]; exact hk), k % o.x.fft.C, Nat.mod_lt _ hC, ?_⟩
  rw [Nat.div_add_mod]

theorem Gen.pos_data (h : o.Gen x0 pdx Ψ P Rd) {f : Ptr} {k : ℕ} (hk : k < o.x.fft.L * o.x.fft.C) :
    o.x.fft.Data f (f + o.pos k) := by
  obtain ⟨j, hj, c, hc, rfl⟩ := h.split hk
  exact ⟨j, hj, c, hc, by rw [h.pos_eq hc]⟩

theorem Gen.pos_inj (h : o.Gen x0 pdx Ψ P Rd) : ∀ i < o.x.fft.L * o.x.fft.C, ∀ j < o.x.fft.L * o.x.fft.C,
    o.pos i = o.pos j → i = j := by
  intro i hi j hj e
  obtain ⟨i1, _, c1, h1, rfl⟩ := h.split hi
  obtain ⟨j1, _, c2, h2, rfl⟩ := h.split hj
  rw [h.pos_eq h1, h.pos_eq h2] at e
  obtain ⟨rfl, e2⟩ := radix_inj (h.spx.col_lt _ h1) (h.spx.col_lt _ h2) e
  rw [h.col, h.col] at e2
  rw [e2]

/-- One call of `convolveRaw`. -/
theorem Gen.raw_ok (h : o.Gen x0 pdx Ψ P Rd) {s : ℕ → Sch} (hs : o.LegalS s) (idx : List ℕ) {mem : Mem} {f : PtrArr} {off : ℕ}
    (hr : o.ReadyG pdx Rd mem) (hi : o.Inputs mem f off) :
    (o.convolveRaw s idx f off).Ok mem fun _ m' =>
      mem.Upd m' (fun p => o.Bufs p.buf ∨ ∃ b < o.x.fft.outs, o.x.fft.Data (f.at_ b + off) p) ∧ o.ReadyG pdx Rd m' ∧
      (o.x.fft.Good x0 P mem f off → ∀ b < o.x.fft.B, ∀ j < o.x.fft.L, ∀ k < o.x.fft.C, m'.val (f.at_ b + off + (o.x.fft.S * j + k)) =
        o.x.fft.result x0 (fun e b X c => Ψ (e :: idx) b X c) mem f off b j k) := by
  have hBA := h.schx.BA
  unfold convolveRaw
  refine (Outer.raw_ok h.spx h.schx (h.op hs idx) (fun how => h.owsub how hs idx) hr.1 hi.outer hr.2 (fun k hk => ?_) (fun a ha hT => hi.buf a ha (Or.inr hT)) ?_).mono ?_
  · rintro ⟨t, ht, hT⟩
    exact h.sepX t ht k hk hT
  · intro hV m1 hs1
    obtain ⟨hdV, _⟩ := hr.1.V hV
    rw [h.C]
    refine (copyWords_ok (by have := hi.n; omega) hdV.n h.pos_inj ?_ ?_ ?_ ?_).mono ?_
    · intro b hb k hk
      exact Mem.valid_of_size hs1 (data_valid h.spx.col_lt (hi.bf b (by omega)) (h.pos_data hk))
    · intro b hb k hk
      have := hdV.bf b hb
      rw [Conv.Ptr.add0] at this
      exact Mem.valid_of_size hs1 (data_valid h.spx.col_lt this (h.pos_data hk))
    · intro b hb b' hb' e
      exact hi.buf b (by omega) (Or.inl (Or.inr (Or.inr ⟨hV, b', hb', e⟩)))
    · intro b hb b' hb' hne k hk k' hk' e
      refine hi.apart b (by omega) b' (by omega) hne _ (h.pos_data hk) ?_
      rw [e]; exact h.pos_data hk'
    · rintro _ m2 ⟨u2, e2⟩
      refine ⟨u2.mono ?_, ?_⟩
      · rintro p ⟨b, hb, k, hk, rfl⟩
        exact ⟨b, hb, h.pos_data hk⟩
      · intro b hb j hj k hk
        have hlt : o.x.fft.C * j + k < o.x.fft.L * o.x.fft.C := by
          rw [Nat.mul_comm o.x.fft.L]; exact radix_lt hk hj
        have := e2 b hb _ hlt
        rwa [h.pos_eq hk] at this
  · rintro _ m' ⟨u, r, I, e⟩
    refine ⟨u.mono ?_, ⟨r, I⟩, ?_⟩
    · rintro p (hp | hp | hp)
      · exact Or.inl (Or.inr hp)
      · exact Or.inl (Or.inl hp)
      · exact Or.inr hp
    · intro hG b hb j hj k hk
      have := e hG b hb j hj k hk
      rwa [h.col] at this

theorem Gen.valG_congr (h : o.Gen x0 pdx Ψ P Rd) {idx : List ℕ} {b : ℕ} {X Y : ℕ → ℕ → ℂ}
    (hXY : ∀ a < o.x.fft.A, ∀ c < o.x.fft.L * o.x.fft.C, X a c = Y a c) (k : ℕ) :
    o.x.fft.valG x0 Ψ idx b X k = o.x.fft.valG x0 Ψ idx b Y k := by
  unfold FftBase.valG
  refine sum_congr rfl fun e _ => ?_
  congr 1
  refine h.cong _ _ _ _ ?_ _ (Nat.mod_lt _ h.spx.C_pos)
  intro a ha c hc
  unfold FftBase.dft
  refine sum_congr rfl fun j hj => ?_
  simp only
  rw [hXY a ha _ (by rw [Nat.mul_comm o.x.fft.L]; exact radix_lt hc (mem_range.1 hj))]

theorem Gen.domG_congr (h : o.Gen x0 pdx Ψ P Rd) {X Y : ℕ → ℕ → ℂ}
    (hXY : ∀ a < o.x.fft.A, ∀ c < o.x.fft.L * o.x.fft.C, X a c = Y a c) (hX : o.x.fft.domG x0 P X) : o.x.fft.domG x0 P Y := by
  intro e
  refine h.dom _ _ ?_ (hX e)
  intro a ha c hc
  unfold FftBase.dft
  refine sum_congr rfl fun j hj => ?_
  simp only
  rw [hXY a ha _ (by rw [Nat.mul_comm o.x.fft.L]; exact radix_lt hc (mem_range.1 hj))]

theorem ReadyG.bufs (h : o.Gen x0 pdx Ψ P Rd) {mem m' : Mem} (hr : o.ReadyG pdx Rd mem) (hs : m'.size = mem.size)
    (hv : ∀ p : Ptr, o.Bufs p.buf → m'.val p = mem.val p) : o.ReadyG pdx Rd m' :=
  ⟨hr.1.bufs h.spx hs fun p hp => hv p (Or.inl hp), fun t ht => (h.inn t ht).inv (hr.2 t ht) hs fun p hp => hv p (Or.inr ⟨t, ht, hp⟩)⟩

/-- A `Convolution2` as inner convolution. -/
theorem Gen.inner (h : o.Gen x0 pdx Ψ P Rd) {s : ℕ → Sch} (hs : o.LegalS s) :
    Inner o.x.fft.A o.x.fft.B (o.x.fft.L * o.x.fft.C) (o.x.fft.S * o.x.fft.L)
      (fun k => o.x.fft.S * (k / o.x.fft.C) + k % o.x.fft.C) (o.convolveRaw s) (o.x.fft.valG x0 Ψ) o.Bufs (o.ReadyG pdx Rd) (o.x.fft.domG x0 P) := by
  refine ⟨?_, fun hr hs hv => hr.bufs h hs hv, ?_⟩
  · intro idx b X Y hXY k _
    exact h.valG_congr hXY k
  intro m F off idx hr hn hb hsep hT
  have hpos : ∀ k, o.x.fft.S * (k / o.x.fft.C) + k % o.x.fft.C = o.pos k := fun k => by unfold pos; rw [h.C]
  simp only [hpos]
  have hi : o.Inputs m F off := by
    refine ⟨hn, hb, ?_, hT, fun _ => hsep⟩
    intro a ha a' ha' hne p h1 h2
    have e1 := FftBase.data_buf h1
    have e2 := FftBase.data_buf h2
    simp only [Ptr.add_buf] at e1 e2
    exact hsep a ha a' ha' hne (by rw [← e1, e2])
  refine (Gen.raw_ok h hs idx hr hi).mono ?_
  rintro _ m' ⟨u, r, e⟩
  refine ⟨r, u.mono ?_, fun hP => ?_⟩
  · rintro p (hp | ⟨b, hb', j, hj, c, hc, rfl⟩)
    · exact Or.inl hp
    · have := h.schx.outs_le_A
      refine Or.inr ⟨b, by omega, o.x.fft.C * j + c, ?_, ?_⟩
      · rw [Nat.mul_comm o.x.fft.L]; exact radix_lt hc hj
      · rw [h.pos_eq hc]
  · intro b hb' k hk
    obtain ⟨j, hj, c, hc, rfl⟩ := h.split hk
    have hG : o.x.fft.Good x0 P m F off := by
      intro e
      refine h.dom _ _ ?_ (hP e)
      intro a ha c' hc'
      unfold FftBase.hat FftBase.dft
      refine sum_congr rfl fun i hi' => ?_
      beta_reduce
      rw [h.pos_eq hc']
    have := e hG b hb' j hj c hc
    rw [h.pos_eq hc, h.col, this]
    unfold FftBase.result FftBase.valG
    rw [Nat.mul_add_div (by omega), Nat.mul_add_mod, Nat.div_eq_of_lt hc, Nat.mod_eq_of_lt hc, Nat.add_zero]
    refine sum_congr rfl fun e _ => ?_
    congr 1
    refine h.cong _ _ _ _ ?_ _ hc
    intro a ha c' hc'
    unfold FftBase.hat FftBase.dft
    refine sum_congr rfl fun i hi' => ?_
    beta_reduce
    rw [h.pos_eq hc']

/-- One call of `convolve`. -/
theorem Gen.convolve_ok (h : o.Gen x0 pdx Ψ P Rd) {s : ℕ → Sch} (hs : o.LegalS s) {mem : Mem} {f : PtrArr} {off : ℕ}
    (hr : o.ReadyG pdx Rd mem) (hi : o.Inputs mem f off) :
    (o.convolve s f off).Ok mem fun _ m' =>
      mem.Upd m' (fun p => o.Bufs p.buf ∨ ∃ b < o.x.fft.outs, o.x.fft.Data (f.at_ b + off) p) ∧ o.ReadyG pdx Rd m' ∧
      (o.x.fft.Good x0 P mem f off → ∀ b < o.x.fft.B, ∀ j < o.x.fft.L, ∀ k < o.x.fft.C, m'.val (f.at_ b + off + (o.x.fft.S * j + k)) =
        o.x.fft.result x0 (fun e b X c => Ψ [e] b X c) mem f off b j k * (1 / ((o.x.fft.N : ℂ) * (o.ffty.N : ℂ)))) := by
  have hBA := h.schx.BA
  unfold convolve
  refine Cmd.Ok.bind ((Gen.raw_ok h hs [] hr hi).mono ?_)
  rintro _ m1 ⟨u1, r1, e1⟩
  unfold normalize
  rw [h.C]
  refine (scaleWords_ok (by have := hi.n; omega) h.pos_inj ?_ ?_).mono ?_
  · intro b hb k hk
    exact Mem.valid_of_size u1.size (data_valid h.spx.col_lt (hi.bf b (by omega)) (h.pos_data hk))
  · intro b hb b' hb' hne k hk k' hk' e
    refine hi.apart b (by omega) b' (by omega) hne _ (h.pos_data hk) ?_
    rw [e]; exact h.pos_data hk'
  rintro _ m2 ⟨u2, e2⟩
  refine ⟨u1.trans u2 (fun _ h => h) ?_, ?_, ?_⟩
  · rintro p ⟨b, hb, k, hk, rfl⟩
    exact Or.inr ⟨b, lt_of_lt_of_le hb h.schx.outs_le, h.pos_data hk⟩
  · refine r1.bufs h u2.size fun p hp => u2.frame p ?_
    rintro ⟨b, hb, k, hk, rfl⟩
    exact hi.buf b (by omega) (by simpa using hp)
  · intro hG b hb j hj k hk
    have hlt : o.x.fft.C * j + k < o.x.fft.L * o.x.fft.C := by
      rw [Nat.mul_comm o.x.fft.L]; exact radix_lt hk hj
    have := e2 b hb _ hlt
    rw [h.pos_eq hk, h.col] at this
    rw [this, e1 hG b hb j hj k hk]

theorem Gen.history_ok (h : o.Gen x0 pdx Ψ P Rd) {mem : Mem} (hr : o.ReadyG pdx Rd mem) (steps : List Step) (ha : ∀ s ∈ steps, o.Allowed mem s) :
    (seqLoop steps o.step).Ok mem fun _ m' => o.ReadyG pdx Rd m' ∧ m'.size = mem.size := by
  refine seqLoop_list (fun _ m1 => o.ReadyG pdx Rd m1 ∧ m1.size = mem.size) ⟨hr, rfl⟩ ?_ (fun _ h => h)
  rintro _ s m1 hsm ⟨r1, s1⟩
  have hal := ha s hsm
  cases s with
  | write p v =>
    refine run_map1 (body := store p v) p v ?_ ?_ ?_
    · body_simp
      exact Mem.valid_of_size s1 hal.1
    · body_simp
    intro m2 u2 e2
    refine ⟨r1.bufs h u2.size ?_, u2.size.trans s1⟩
    intro p' hp'
    refine u2.frame _ ?_
    rintro rfl
    exact hal.2 hp'
  | call s g off =>
    refine (Gen.convolve_ok h hal.1 r1 (hal.2.size s1)).mono ?_
    rintro _ m2 ⟨u2, r2, _⟩
    exact ⟨r2, u2.size.trans s1⟩

/-! Construction -/

/-- The transforms and the inner convolution fit together; `BufY m al` are the requirements on the work arrays `al` of an inner convolution. -/
structure GFits (fftx ffty : FftBase) (mult : Multiplier) (x0 : ℤ) (pdx : Mem → Ptr → Prop) (Ψ : List ℕ → ℕ → (ℕ → ℕ → ℂ) → ℕ → ℂ)
    (P : (ℕ → ℕ → ℂ) → Prop) (Rd : Conv → Mem → Prop) (BufY : Mem → Alloc → Prop) : Prop where
  spx : fftx.Spec x0 pdx
  schx : Outer.Sched fftx x0
  new : ∀ {m : Mem} {al : Alloc}, BufY m al → (Conv.new ffty mult none none none al).Ok m fun c m' => c.fft = ffty ∧ c.mult = mult ∧
    c.F = Conv.newF ffty none al ∧ c.V = Conv.newV ffty none al ∧ c.W = Conv.newW ffty al ∧ Rd c m' ∧ m.Upd m' (fun p => ∃ W, c.W = some W ∧ p.buf = W.buf)
  size : ∀ {m m' : Mem} {al : Alloc}, BufY m al → m'.size = m.size → BufY m' al
  inn : ∀ c : Conv, c.fft = ffty → c.mult = mult → Inner fftx.A fftx.B fftx.C fftx.C fftx.col c.convolveRawOffset Ψ c.Bufs (Rd c) P
  cong : ∀ idx b X Y, (∀ a < fftx.A, ∀ c < fftx.C, X a c = Y a c) → ∀ c < fftx.C, Ψ idx b X c = Ψ idx b Y c
  dom : ∀ X Y, (∀ a < fftx.A, ∀ c < fftx.C, X a c = Y a c) → P X → P Y
  freqx : fftx.overwrite = true → fftx.FreqX Ψ
  C : ffty.L = fftx.C
  col : ∀ c, fftx.col c = c
  bs : ∀ r ∈ fftx.residues, fftx.noutputs r = fftx.blocksize r

/-- The work arrays have the documented sizes and are distinct. -/
structure GBuffers (fftx ffty : FftBase) (BufY : Mem → Alloc → Prop) (th : ℕ) (mem : Mem) (Fu : Option PtrArr) (Vu : Option Ptr) (al : Alloc2) : Prop where
  x : Outer.Buffers fftx mem Fu Vu al.x
  y : ∀ t < newThreads fftx th, BufY mem (al.y t)
  sepT : ∀ t < newThreads fftx th, ∀ t' < newThreads fftx th, t ≠ t' → ∀ k, Conv.NewBufs ffty none none (al.y t) k →
    ¬ Conv.NewBufs ffty none none (al.y t') k
  sepX : ∀ t < newThreads fftx th, ∀ k, Conv.NewBufs fftx Fu Vu al.x k → ¬ Conv.NewBufs ffty none none (al.y t) k

theorem GBuffers.size {fftx ffty : FftBase} {BufY : Mem → Alloc → Prop} {mult : Multiplier} (hf : GFits fftx ffty mult x0 pdx Ψ P Rd BufY)
    {th : ℕ} {mem m' : Mem} {Fu : Option PtrArr} {Vu : Option Ptr} {al : Alloc2}
    (h : GBuffers fftx ffty BufY th mem Fu Vu al) (hs : m'.size = mem.size) : GBuffers fftx ffty BufY th m' Fu Vu al :=
  ⟨h.x.size hs, fun t ht => hf.size (h.y t ht) hs, h.sepT, h.sepX⟩

theorem newG_ok {fftx ffty : FftBase} {BufY : Mem → Alloc → Prop} {mult : Multiplier} (h : GFits fftx ffty mult x0 pdx Ψ P Rd BufY) {th : ℕ} {mem : Mem} {Fu : Option PtrArr}
    {Vu : Option Ptr} {al : Alloc2} (hb : GBuffers fftx ffty BufY th mem Fu Vu al) :
    (Conv2.new fftx ffty mult th Fu none Vu al).Ok mem fun o m' => o.x.fft = fftx ∧ o.ffty = ffty ∧
      o.threads = newThreads fftx th ∧ o.Gen x0 pdx Ψ P Rd ∧ o.ReadyG pdx Rd m' ∧
      (∀ k, o.Bufs k → NewBufs fftx ffty th Fu Vu al k) ∧ mem.Upd m' (fun p => NewBufs fftx ffty th Fu Vu al p.buf) := by
  unfold Conv2.new
  have hthr : (if fftx.l < th then 1 else th) = newThreads fftx th := rfl
  simp only [hthr]
  refine Cmd.Ok.bind ((newAll_ok (fun t (c : Conv) m => c.fft = ffty ∧ c.mult = mult ∧ c.F = Conv.newF ffty none (al.y t) ∧
      c.V = Conv.newV ffty none (al.y t) ∧ c.W = Conv.newW ffty (al.y t) ∧ Rd c m)
    (fun t p => Conv.NewBufs ffty none none (al.y t) p.buf) ?_ ?_).mono ?_)
  · rintro t t' c ht ht' hne m m' ⟨h1, h2, h3, h4, h5, h6⟩ u
    refine ⟨h1, h2, h3, h4, h5, (h.inn c h1 h2).inv h6 u.size ?_⟩
    intro p hp
    exact u.frame p fun hp' => hb.sepT t ht t' ht' hne _ (Conv.bufs_new h1 h3 h4 h5 hp) hp'
  · intro t ht m hs
    have hy := (hb.size h hs).y t ht
    refine (h.new hy).mono ?_
    rintro c m' ⟨h1, h2, h3, h4, h5, h6, u⟩
    refine ⟨⟨h1, h2, h3, h4, h5, h6⟩, u.mono ?_⟩
    rintro p ⟨W, hW, hp⟩
    rw [h5] at hW
    exact Or.inr (Or.inl ⟨W, hW, hp⟩)
  rintro convy m1 ⟨hc, u1⟩
  refine Cmd.Ok.bind ((Outer.new_ok h.spx h.schx (hb.size h u1.size).x).mono ?_)
  rintro x m2 ⟨g1, g2, g3, g4, g5, u2⟩
  have hxn : ∀ k, x.Bufs k → Conv.NewBufs fftx Fu Vu al.x k := fun k hk => Conv.bufs_newOuter g1 g2 g3 g4 hk
  have hyn : ∀ t < newThreads fftx th, ∀ k, (convy t).Bufs k → Conv.NewBufs ffty none none (al.y t) k := by
    intro t ht k hk
    obtain ⟨h1, h2, h3, h4, h5, h6⟩ := hc t ht
    exact Conv.bufs_new h1 h3 h4 h5 hk
  have hu2 : ∀ p, fftx.InW x.W p → Conv.NewBufs fftx Fu Vu al.x p.buf := by
    rintro p ⟨W, hW, hp⟩
    rw [g4] at hW
    exact Or.inr (Or.inl ⟨W, hW, FftBase.inArr_buf hp⟩)
  refine Cmd.Ok.pure ⟨g1, rfl, rfl, ?_, ⟨g5, ?_⟩, ?_, u1.trans u2 ?_ ?_⟩
  · refine ⟨by rw [g1]; exact h.spx, by rw [g1]; exact h.schx, ?_, by rw [g1]; exact h.cong, by rw [g1]; exact h.dom, by rw [g1]; exact h.freqx,
      by rw [g1]; exact h.C, by rw [g1]; exact h.col, by rw [g1]; exact h.bs, ?_, ?_⟩
    · intro t ht
      rw [g1]
      exact h.inn _ (hc t ht).1 (hc t ht).2.1
    · intro t ht t' ht' hne k hk hk'
      exact hb.sepT t ht t' ht' hne k (hyn t ht k hk) (hyn t' ht' k hk')
    · intro t ht k hk hk'
      exact hb.sepX t ht k (hxn k hk) (hyn t ht k hk')
  · intro t ht
    refine (h.inn _ (hc t ht).1 (hc t ht).2.1).inv (hc t ht).2.2.2.2.2 u2.size ?_
    intro p hp
    exact u2.frame p fun hp' => hb.sepX t ht _ (hu2 p hp') (hyn t ht _ hp)
  · rintro k (hk | ⟨t, ht, hk⟩)
    · exact Or.inl (hxn k hk)
    · exact Or.inr ⟨t, ht, hyn t ht k hk⟩
  · rintro p ⟨t, ht, hp⟩
    exact Or.inr ⟨t, ht, hp⟩
  · intro p hp
    exact Or.inl (hu2 p hp)

end Conv2
end Fftwpp
