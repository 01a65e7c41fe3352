import Verif.Proof.Tr

/-!
# C42: convolutions of centered data, and of data centered in some directions only
-/

namespace Fftwpp
open Finset

/-- The origin of the data: position `0` is element `⌊L/2⌋` of centered data and element `0` otherwise. -/
def origin (centered : Bool) (L : ℕ) : ℕ := if centered then L / 2 else 0

/-- The requested size for a linear convolution: `M ≥ L+⌊L/2⌋` for centered data, `M ≥ 2L-1` otherwise. -/
def linearSize (centered : Bool) (L : ℕ) : ℕ := if centered then L + L / 2 else 2 * L - 1

theorem linearSize_le {cen : Bool} {L N : ℕ} (hL : 0 < L) (h : linearSize cen L ≤ N) :
    L - 1 + origin cen L < N ∧ 2 * (L - 1) < N + origin cen L := by
  unfold linearSize at h
  unfold origin
  cases cen
  · simp only [Bool.false_eq_true, if_false] at h ⊢; omega
  · simp only [if_true] at h ⊢; omega

theorem FftBase.dft_cdft {o : FftBase} {N L x0 : ℕ} (hN : o.N = N) (hL : o.L = L) (X : ℕ → ℂ) (e : ℕ) : o.dft x0 X e = cdft N L x0 X e := by
  unfold FftBase.dft cdft
  rw [hN, hL]

/-- **C42**, one dimension, with the analogues of C12, C13 and C15: as `C12_history`, for a transform of either class
(`cen=true`: `fftPadCentered`). -/
theorem C42_history {cen : Bool} {L M : ℕ} {app : App} {S0 m D : ℕ} {inplace : Bool} {t : Tr}
    (hnew : Tr.new cen L M app 1 S0 m D inplace = .ok t) (hS : t.fft.S = 1)
    (hdvd : t.fft.q ≠ 1 → t.fft.overwrite = false → t.fft.nloops = 2 → app.B < app.A → (app.A - app.B) ∣ app.B)
    (hBA : app.B ≤ app.A ∨ t.fft.D = 1)
    {mult : Multiplier} {φ : List ℕ → ℕ → (ℕ → ℂ) → ℂ} (hm : MultSpec app.A app.B t.fft.index mult φ)
    (hfreq : (t.fft.D0 = 1 ∧ (t.fft.overwrite = true → t.fft.n = 2)) ∨ ∀ e e' idx, φ (e :: idx) = φ (e' :: idx))
    {mem0 : Mem} {Fu : Option PtrArr} {Vu : Option Ptr} {al : Alloc} (hbuf : Conv.Buffers t.base mem0 Fu Vu al) :
    ∃ c mem1, Conv.new t.base mult Fu none Vu al mem0 = .ok (c, mem1) ∧
      ∀ steps : List Conv.Step, (∀ s ∈ steps, c.Allowed mem0 s) →
      ∃ mem2, seqLoop steps c.step mem1 = .ok ((), mem2) ∧
      ∀ g : PtrArr, c.Inputs mem0 g → (c.convolve g).Ok mem2 fun _ mem3 =>
        (∀ b < app.B, ∀ j < L, mem3.val (g.at_ b + j) =
          convResultC (m * t.fft.q) L (origin cen L) (fun e => φ [e]) (fun a j => mem2.val (g.at_ a + j)) b j) ∧
        (∀ p, ¬ c.WorkWord p → (∀ b < (if t.fft.overwrite = true then app.A else app.B), ∀ j < L, p ≠ g.at_ b + j) →
          mem3.val p = mem2.val p) ∧ mem3.size = mem2.size := by
  have ft := Tr.facts (by omega) hnew
  have hsp := ft.spec
  have fl := ft.flat rfl hS
  have hs := ft.sched hdvd hBA
  obtain ⟨c, mem1, e1, hfft, hmult, hF, hV, hW, hr, hu⟩ := Conv.new_ok hsp (by rw [ft.bq]; exact ft.q_pos) mult hbuf
  refine ⟨c, mem1, e1, ?_⟩
  intro steps hst
  have hm' : MultSpec c.fft.A c.fft.B c.fft.index c.mult φ := by
    rw [hfft, hmult, ft.bA, ft.bB, ft.bindex]; exact hm
  have hf' : c.fft.FreqOK t.fft.K φ := by
    rcases hfreq with h1 | h1
    · left; unfold Fft.K; rw [if_pos rfl, hfft, ft.bow, ft.bn]; exact h1
    · right; exact h1
  rw [← hfft] at hsp fl hs
  have hal : ∀ s ∈ steps, c.Allowed mem1 s := by
    intro s hsm
    have := hst s hsm
    cases s with
    | write p v => exact ⟨Mem.valid_of_size hu.size this.1, this.2⟩
    | call g => exact Conv.Inputs.size this hu.size
  obtain ⟨_, mem2, e2, hr2, hs2⟩ := Conv.history_ok hsp fl hs hm' hf' hr steps hal
  refine ⟨mem2, e2, ?_⟩
  intro g hg
  refine (Conv.convolve_ok hsp fl hs hm' hf' hr2 (hg.size (hs2.trans hu.size))).mono ?_
  rintro _ mem3 ⟨u3, _, e3⟩
  have bB : c.fft.B = app.B := by rw [hfft]; exact ft.bB
  have bL : c.fft.L = L := by rw [hfft]; exact ft.bL
  have bN : c.fft.N = m * t.fft.q := by rw [hfft]; exact ft.bN
  have bO : c.fft.outs = if t.fft.overwrite = true then app.A else app.B := by
    unfold FftBase.outs; rw [hfft, ft.bow, ft.bA, ft.bB]
  refine ⟨?_, ?_, u3.size⟩
  · intro b hb j hj
    rw [e3 b (by rw [bB]; exact hb) j (by rw [bL]; exact hj)]
    unfold FftBase.result convResultC FftBase.hat
    rw [mul_comm]
    simp only [FftBase.dft_cdft bN bL, bN, fl.S, fl.col, one_mul, add_zero, Conv.Ptr.add0, origin]
  · intro p hp hpg
    refine u3.frame p ?_
    rintro (hp' | ⟨b, hb, hp'⟩)
    · exact hp hp'
    · rw [Conv.flat_data fl] at hp'
      obtain ⟨j, hj, rfl⟩ := hp'
      exact hpg b (by rw [← bO]; exact hb) j (by rw [← bL]; exact hj) rfl

/-- **C42**, one dimension: with `A=2`, `B=1`, `multBinary`, any valid parameters and either class, after any history, `convolve(g)` leaves in
`g[0][k]` the cyclic convolution of period `N=m*q` of the inputs, taken with respect to the origin of the data, and the linear one if the
requested size is `M ≥ L+⌊L/2⌋` (centered) or `M ≥ 2L-1` (noncentered). -/
theorem C42_convolve {cen : Bool} {L M : ℕ} {ow : Bool} {S0 m D : ℕ} {inplace : Bool} {t : Tr}
    (hnew : Tr.new cen L M ⟨2, 1, ow⟩ 1 S0 m D inplace = .ok t) (hS : t.fft.S = 1)
    {mem0 : Mem} {Fu : Option PtrArr} {Vu : Option Ptr} {al : Alloc} (hbuf : Conv.Buffers t.base mem0 Fu Vu al) :
    ∃ c mem1, Conv.new t.base multBinary Fu none Vu al mem0 = .ok (c, mem1) ∧
      ∀ steps : List Conv.Step, (∀ s ∈ steps, c.Allowed mem0 s) →
      ∃ mem2, seqLoop steps c.step mem1 = .ok ((), mem2) ∧
      ∀ g : PtrArr, c.Inputs mem0 g → (c.convolve g).Ok mem2 fun _ mem3 => ∀ k < L,
        mem3.val (g.at_ 0 + k) =
          cyclicConvC (m * t.fft.q) L (origin cen L) (fun i => mem2.val (g.at_ 0 + i)) (fun j => mem2.val (g.at_ 1 + j)) k ∧
        (linearSize cen L ≤ M → mem3.val (g.at_ 0 + k) =
          linearConvC L (origin cen L) (fun i => mem2.val (g.at_ 0 + i)) (fun j => mem2.val (g.at_ 1 + j)) k) := by
  have ft := Tr.facts (by omega) hnew
  have hN0 : m * t.fft.q ≠ 0 := (Nat.mul_pos ft.m_pos ft.q_pos).ne'
  obtain ⟨c, mem1, e1, hc⟩ := C42_history hnew hS (fun _ _ _ _ => by simp) (Or.inl (by simp)) multBinary_spec
    (Or.inr fun _ _ _ => rfl) hbuf
  refine ⟨c, mem1, e1, fun steps hst => ?_⟩
  obtain ⟨mem2, e2, hc2⟩ := hc steps hst
  refine ⟨mem2, e2, fun g hg => (hc2 g hg).mono ?_⟩
  rintro _ mem3 ⟨e3, _, _⟩ k hk
  have : mem3.val (g.at_ 0 + k) =
      cyclicConvC (m * t.fft.q) L (origin cen L) (fun i => mem2.val (g.at_ 0 + i)) (fun j => mem2.val (g.at_ 1 + j)) k := by
    rw [e3 0 (by simp) k hk]
    exact convResultC_binary hN0 _ k
  refine ⟨this, fun hM => ?_⟩
  rw [this]
  obtain ⟨h1, h2⟩ := linearSize_le ft.L_pos (hM.trans ft.size)
  exact cyclicConvC_linear h1 h2 _ _ hk

/-- The transforms in the two directions fit together. -/
theorem Conv2.fitsTr {cx cy : Bool} {Lx Mx Ly My A B : ℕ} {owx owy ipx ipy : Bool} {Sx mx Dx Sy my Dy : ℕ} {tx ty : Tr} (hLy : 0 < Ly)
    (hx : Tr.new cx Lx Mx ⟨A, B, owx⟩ Ly Sx mx Dx ipx = .ok tx) (hy : Tr.new cy Ly My ⟨A, B, owy⟩ 1 Sy my Dy ipy = .ok ty)
    (hSy : ty.fft.S = 1) (hBA : B ≤ A) (hDx : tx.fft.D = 1)
    (hlx : tx.fft.overwrite = false → tx.fft.nloops = 2 → B < A → A = B + 1)
    (hly : ty.fft.q ≠ 1 → ty.fft.overwrite = false → ty.fft.nloops = 2 → B < A → (A - B) ∣ B)
    {mult : Multiplier} {φ : List ℕ → ℕ → (ℕ → ℂ) → ℂ} (hm : MultSpec A B ty.fft.index mult φ)
    (hfreq : (ty.fft.D0 = 1 ∧ (ty.fft.overwrite = true → ty.fft.n = 2)) ∨ ∀ e e' idx, φ (e :: idx) = φ (e' :: idx))
    (hfreqx : tx.fft.overwrite = true → tx.fft.n = 2 ∨ ∀ ey e e' idx, φ (ey :: e :: idx) = φ (ey :: e' :: idx)) :
    Conv2.Fits tx.base ty.base mult (origin cx Lx : ℕ) (origin cy Ly : ℕ) tx.Padded ty.Padded ty.fft.K φ := by
  have f := Tr.facts hLy hx
  have f' := Tr.facts (by omega) hy
  refine ⟨f.spec, f.outer hBA hlx, f'.spec, by rw [f'.bq]; exact f'.q_pos, f'.flat rfl hSy, f'.sched hly (Or.inl hBA), ?_, ?_, ?_, ?_, ?_, ?_,
    f.bcol, fun r _ => f.bs hDx r⟩
  · rw [f'.bA, f'.bB, f'.bindex]; exact hm
  · rcases hfreq with h1 | h1
    · left; unfold Fft.K; rw [if_pos rfl, f'.bow, f'.bn]; exact h1
    · right; exact h1
  · rw [f.bow, f.bn]; exact hfreqx
  · rw [f.bA, f'.bA]
  · rw [f.bB, f'.bB]
  · rw [f'.bL, f.bC]

/-- **C42**, two dimensions, with the analogues of C12, C13 and C15: as `C17_history2`, with a transform of either class in each direction
(in particular both centered). -/
theorem C42_history2 {cx cy : Bool} {Lx Mx Ly My A B : ℕ} {owx owy ipx ipy : Bool} {Sx mx Dx Sy my Dy : ℕ} {tx ty : Tr} (hLy : 0 < Ly)
    (hx : Tr.new cx Lx Mx ⟨A, B, owx⟩ Ly Sx mx Dx ipx = .ok tx) (hy : Tr.new cy Ly My ⟨A, B, owy⟩ 1 Sy my Dy ipy = .ok ty)
    (hSy : ty.fft.S = 1) (hBA : B ≤ A) (hDx : tx.fft.D = 1)
    (hlx : tx.fft.overwrite = false → tx.fft.nloops = 2 → B < A → A = B + 1)
    (hly : ty.fft.q ≠ 1 → ty.fft.overwrite = false → ty.fft.nloops = 2 → B < A → (A - B) ∣ B)
    {mult : Multiplier} {φ : List ℕ → ℕ → (ℕ → ℂ) → ℂ} (hm : MultSpec A B ty.fft.index mult φ)
    (hfreq : (ty.fft.D0 = 1 ∧ (ty.fft.overwrite = true → ty.fft.n = 2)) ∨ ∀ e e' idx, φ (e :: idx) = φ (e' :: idx))
    (hfreqx : tx.fft.overwrite = true → tx.fft.n = 2 ∨ ∀ ey e e' idx, φ (ey :: e :: idx) = φ (ey :: e' :: idx))
    {th : ℕ} {mem0 : Mem} {Fu : Option PtrArr} {Vu : Option Ptr} {al : Alloc2} (hbuf : Conv2.Buffers tx.base ty.base th mem0 Fu Vu al) :
    ∃ c mem1, Conv2.new tx.base ty.base mult th Fu none Vu al mem0 = .ok (c, mem1) ∧
      (∀ k, c.Bufs k → Conv2.NewBufs tx.base ty.base th Fu Vu al k) ∧
      ∀ steps : List Conv2.Step, (∀ s ∈ steps, c.Allowed mem0 s) →
      ∃ mem2, seqLoop steps c.step mem1 = .ok ((), mem2) ∧
      ∀ (s : ℕ → Sch) (f : PtrArr) (off : ℕ), c.LegalS s → c.Inputs mem0 f off → (c.convolve s f off).Ok mem2 fun _ mem3 =>
        (∀ b < B, ∀ i < Lx, ∀ j < Ly, mem3.val (f.at_ b + off + (tx.fft.S * i + j)) =
          convResultC2 (mx * tx.fft.q) Lx (origin cx Lx) (my * ty.fft.q) Ly (origin cy Ly) (fun kx ky => φ [ky, kx])
            (fun a i j => mem2.val (f.at_ a + off + (tx.fft.S * i + j))) b i j) ∧
        (∀ p, ¬ c.Bufs p.buf → (∀ b < (if tx.fft.overwrite = true then A else B), ∀ i < Lx, ∀ j < Ly,
          p ≠ f.at_ b + off + (tx.fft.S * i + j)) → mem3.val p = mem2.val p) ∧
        mem3.size = mem2.size := by
  have hfit := Conv2.fitsTr hLy hx hy hSy hBA hDx hlx hly hm hfreq hfreqx
  have g := Tr.facts hLy hx
  have g' := Tr.facts (by omega) hy
  obtain ⟨c, mem1, e1, hfx, hfy, hth, hset, hr, hbn, hu⟩ := Conv2.new_ok hfit hbuf
  refine ⟨c, mem1, e1, hbn, ?_⟩
  intro steps hst
  have hal : ∀ s ∈ steps, c.Allowed mem1 s := by
    intro s hsm
    have := hst s hsm
    cases s with
    | write p v => exact ⟨Mem.valid_of_size hu.size this.1, this.2⟩
    | call s g off => exact ⟨this.1, this.2.size hu.size⟩
  obtain ⟨_, mem2, e2, hr2, hs2⟩ := Conv2.history_ok hset hr steps hal
  refine ⟨mem2, e2, ?_⟩
  intro s f off hs hf
  refine (Conv2.convolve_ok hset hs hr2 (hf.size (hs2.trans hu.size))).mono ?_
  rintro _ mem3 ⟨u3, _, e3⟩
  have bB : c.x.fft.B = B := by rw [hfx]; exact g.bB
  have bO : c.x.fft.outs = if tx.fft.overwrite = true then A else B := by
    unfold FftBase.outs; rw [hfx, g.bow, g.bA, g.bB]
  have bL : c.x.fft.L = Lx := by rw [hfx]; exact g.bL
  have bC : c.x.fft.C = Ly := by rw [hfx]; exact g.bC
  have bS : c.x.fft.S = tx.fft.S := by rw [hfx]; exact g.bS
  have bN : c.x.fft.N = mx * tx.fft.q := by rw [hfx]; exact g.bN
  have bNy : c.ffty.N = my * ty.fft.q := by rw [hfy]; exact g'.bN
  have bLy : c.ffty.L = Ly := by rw [hfy]; exact g'.bL
  refine ⟨?_, ?_, u3.size⟩
  · intro b hb i hi j hj
    have := e3 b (by omega) i (by omega) j (by omega)
    rw [bS] at this
    rw [this, convResultC2_eq, bN, bNy]
    unfold FftBase.result FftBase.innerVal convResultC FftBase.hat
    rw [bN, bNy, ← one_div_mul_one_div]
    simp only [FftBase.dft_cdft bN bL, FftBase.dft_cdft bNy bLy, hset.col, bS]
    rw [mul_comm, mul_assoc]
    congr 1
    rw [mul_sum]
    refine sum_congr rfl fun e _ => ?_
    ring
  · intro p hp hpf
    refine u3.frame p ?_
    rintro (hp' | ⟨b, hb, i, hi, k, hk, rfl⟩)
    · exact hp hp'
    · refine hpf b (by rw [← bO]; exact hb) i (by omega) k (by omega) ?_
      rw [hset.col, bS]

/-- **C42**, two dimensions: `multBinary`, `A=2`, `B=1`: the cyclic 2D convolution with respect to the origins, and the linear one for
sufficiently large requested sizes. -/
theorem C42_convolve2 {cx cy : Bool} {Lx Mx Ly My : ℕ} {owx owy ipx ipy : Bool} {Sx mx Dx Sy my Dy : ℕ} {tx ty : Tr} (hLy : 0 < Ly)
    (hx : Tr.new cx Lx Mx ⟨2, 1, owx⟩ Ly Sx mx Dx ipx = .ok tx) (hy : Tr.new cy Ly My ⟨2, 1, owy⟩ 1 Sy my Dy ipy = .ok ty)
    (hSy : ty.fft.S = 1) (hDx : tx.fft.D = 1)
    {th : ℕ} {mem0 : Mem} {Fu : Option PtrArr} {Vu : Option Ptr} {al : Alloc2} (hbuf : Conv2.Buffers tx.base ty.base th mem0 Fu Vu al) :
    ∃ c mem1, Conv2.new tx.base ty.base multBinary th Fu none Vu al mem0 = .ok (c, mem1) ∧
      ∀ steps : List Conv2.Step, (∀ s ∈ steps, c.Allowed mem0 s) →
      ∃ mem2, seqLoop steps c.step mem1 = .ok ((), mem2) ∧
      ∀ (s : ℕ → Sch) (f : PtrArr) (off : ℕ), c.LegalS s → c.Inputs mem0 f off → (c.convolve s f off).Ok mem2 fun _ mem3 =>
        ∀ i < Lx, ∀ j < Ly,
          mem3.val (f.at_ 0 + off + (tx.fft.S * i + j)) =
            cyclicConvC2 (mx * tx.fft.q) Lx (origin cx Lx) (my * ty.fft.q) Ly (origin cy Ly)
            (fun i j => mem2.val (f.at_ 0 + off + (tx.fft.S * i + j))) (fun i j => mem2.val (f.at_ 1 + off + (tx.fft.S * i + j))) i j ∧
          (linearSize cx Lx ≤ Mx → linearSize cy Ly ≤ My → mem3.val (f.at_ 0 + off + (tx.fft.S * i + j)) =
            linearConvC2 Lx (origin cx Lx) Ly (origin cy Ly)
            (fun i j => mem2.val (f.at_ 0 + off + (tx.fft.S * i + j))) (fun i j => mem2.val (f.at_ 1 + off + (tx.fft.S * i + j))) i j) := by
  have g := Tr.facts hLy hx
  have g' := Tr.facts (by omega) hy
  have hN : mx * tx.fft.q ≠ 0 := (Nat.mul_pos g.m_pos g.q_pos).ne'
  have hN' : my * ty.fft.q ≠ 0 := (Nat.mul_pos g'.m_pos g'.q_pos).ne'
  obtain ⟨c, mem1, e1, _, hc⟩ := C42_history2 hLy hx hy hSy (by omega) hDx (fun _ _ _ => rfl) (fun _ _ _ _ => by simp)
    multBinary_spec (Or.inr fun _ _ _ => rfl) (fun _ => Or.inr fun _ _ _ _ => rfl) hbuf
  refine ⟨c, mem1, e1, fun steps hst => ?_⟩
  obtain ⟨mem2, e2, hc2⟩ := hc steps hst
  refine ⟨mem2, e2, fun s f off hs hf => (hc2 s f off hs hf).mono ?_⟩
  rintro _ mem3 ⟨e3, _, _⟩ i hi j hj
  have := (e3 0 (by omega) i hi j hj).trans (convResultC2_binary hN hN' _ i j)
  refine ⟨this, fun h1 h2 => ?_⟩
  rw [this]
  obtain ⟨a1, a2⟩ := linearSize_le g.L_pos (h1.trans g.size)
  obtain ⟨b1, b2⟩ := linearSize_le g'.L_pos (h2.trans g'.size)
  exact cyclicConvC2_linear a1 a2 b1 b2 _ _ hi hj

/-- The transforms in the three directions fit together. -/
theorem Conv3.fitsTr {cx cy cz : Bool} {Lx Mx Ly My Lz Mz A B Cx : ℕ} {owx owy owz ipx ipy ipz : Bool} {Sx mx Dx Sy my Dy Sz mz Dz : ℕ}
    {tx ty tz : Tr} (hLy : 0 < Ly) (hLz : 0 < Lz)
    (hx : Tr.new cx Lx Mx ⟨A, B, owx⟩ Cx Sx mx Dx ipx = .ok tx) (hy : Tr.new cy Ly My ⟨A, B, owy⟩ Lz Sy my Dy ipy = .ok ty)
    (hz : Tr.new cz Lz Mz ⟨A, B, owz⟩ 1 Sz mz Dz ipz = .ok tz)
    (hC : Cx = if ty.fft.S = Lz then Ly * ty.fft.S else Lz) (hS : Ly * ty.fft.S ≤ tx.fft.S)
    (hSz : tz.fft.S = 1) (hBA : B ≤ A)
    (hDx : tx.fft.D = 1) (hDy : ty.fft.D = 1)
    (hlx : tx.fft.overwrite = false → tx.fft.nloops = 2 → B < A → A = B + 1)
    (hly : ty.fft.overwrite = false → ty.fft.nloops = 2 → B < A → A = B + 1)
    (hlz : tz.fft.q ≠ 1 → tz.fft.overwrite = false → tz.fft.nloops = 2 → B < A → (A - B) ∣ B)
    {mult : Multiplier} {φ : List ℕ → ℕ → (ℕ → ℂ) → ℂ} (hm : MultSpec A B tz.fft.index mult φ)
    (hfreq : (tz.fft.D0 = 1 ∧ (tz.fft.overwrite = true → tz.fft.n = 2)) ∨ ∀ e e' idx, φ (e :: idx) = φ (e' :: idx))
    (hfreqy : ty.fft.overwrite = true → ty.fft.n = 2 ∨ ∀ ez e e' idx, φ (ez :: e :: idx) = φ (ez :: e' :: idx))
    (hfreqx : tx.fft.overwrite = true → tx.fft.n = 2 ∨ ∀ ez ey e e' idx, φ (ez :: ey :: e :: idx) = φ (ez :: ey :: e' :: idx)) :
    Conv3.Fits tx.base ty.base tz.base mult (origin cx Lx : ℕ) (origin cy Ly : ℕ) (origin cz Lz : ℕ) tx.Padded ty.Padded tz.Padded
      tz.fft.K φ := by
  have f' := Tr.facts hLz hy
  have hSy : Lz ≤ ty.fft.S := f'.CS
  have hCx0 : 0 < Cx := by
    rw [hC]
    split_ifs
    · exact Nat.mul_pos hLy (by omega)
    · exact hLz
  have f := Tr.facts hCx0 hx
  refine ⟨f.spec, f.outer hBA hlx, by rw [f.bow, f.bn]; exact hfreqx,
    Conv2.fitsTr hLz hy hz hSz hBA hDy hly hlz hm hfreq hfreqy, by rw [f.bA, f'.bA], by rw [f.bB, f'.bB], Tr.ws, ?_, ?_, ?_, f.bcol, fun r _ => f.bs hDx r⟩
  · rw [contiguous3_two Tr.ws, f.bC, hC, f'.bC, f'.bL, f'.bS]
    simp only [decide_eq_true_eq]
  · rw [f'.bL, f'.bS, f.bS]; exact hS
  · rw [f'.bL]; exact hLy

/-- **C42**, three dimensions, with the analogues of C12, C13 and C15: as `C17_history3`, with a transform of either class in each direction. -/
theorem C42_history3 {cx cy cz : Bool} {Lx Mx Ly My Lz Mz A B Cx : ℕ} {owx owy owz ipx ipy ipz : Bool} {Sx mx Dx Sy my Dy Sz mz Dz : ℕ}
    {tx ty tz : Tr} (hLy : 0 < Ly) (hLz : 0 < Lz)
    (hx : Tr.new cx Lx Mx ⟨A, B, owx⟩ Cx Sx mx Dx ipx = .ok tx) (hy : Tr.new cy Ly My ⟨A, B, owy⟩ Lz Sy my Dy ipy = .ok ty)
    (hz : Tr.new cz Lz Mz ⟨A, B, owz⟩ 1 Sz mz Dz ipz = .ok tz)
    (hC : Cx = if ty.fft.S = Lz then Ly * ty.fft.S else Lz) (hS : Ly * ty.fft.S ≤ tx.fft.S)
    (hSz : tz.fft.S = 1) (hBA : B ≤ A)
    (hDx : tx.fft.D = 1) (hDy : ty.fft.D = 1)
    (hlx : tx.fft.overwrite = false → tx.fft.nloops = 2 → B < A → A = B + 1)
    (hly : ty.fft.overwrite = false → ty.fft.nloops = 2 → B < A → A = B + 1)
    (hlz : tz.fft.q ≠ 1 → tz.fft.overwrite = false → tz.fft.nloops = 2 → B < A → (A - B) ∣ B)
    {mult : Multiplier} {φ : List ℕ → ℕ → (ℕ → ℂ) → ℂ} (hm : MultSpec A B tz.fft.index mult φ)
    (hfreq : (tz.fft.D0 = 1 ∧ (tz.fft.overwrite = true → tz.fft.n = 2)) ∨ ∀ e e' idx, φ (e :: idx) = φ (e' :: idx))
    (hfreqy : ty.fft.overwrite = true → ty.fft.n = 2 ∨ ∀ ez e e' idx, φ (ez :: e :: idx) = φ (ez :: e' :: idx))
    (hfreqx : tx.fft.overwrite = true → tx.fft.n = 2 ∨ ∀ ez ey e e' idx, φ (ez :: ey :: e :: idx) = φ (ez :: ey :: e' :: idx))
    {th thy : ℕ} {mem0 : Mem} {Fu : Option PtrArr} {Vu : Option Ptr} {al : Alloc3}
    (hbuf : Conv3.Buffers tx.base ty.base tz.base th thy mem0 Fu Vu al) :
    ∃ c mem1, Conv3.new tx.base ty.base tz.base mult th thy Fu none Vu al mem0 = .ok (c, mem1) ∧
      (∀ k, c.Bufs k → Conv3.NewBufs tx.base ty.base tz.base th thy Fu Vu al k) ∧
      ∀ steps : List Conv3.Step, (∀ s ∈ steps, c.Allowed mem0 s) →
      ∃ mem2, seqLoop steps c.step mem1 = .ok ((), mem2) ∧
      ∀ (s : ℕ → Sch) (s2 : ℕ → ℕ → ℕ → Sch) (f : PtrArr) (off : ℕ), c.LegalS s s2 → c.Inputs mem0 f off →
        (c.convolve s s2 f off).Ok mem2 fun _ mem3 =>
        (∀ b < B, ∀ i < Lx, ∀ j < Ly, ∀ k < Lz, mem3.val (f.at_ b + off + (tx.fft.S * i + (ty.fft.S * j + k))) =
          convResultC3 (mx * tx.fft.q) Lx (origin cx Lx) (my * ty.fft.q) Ly (origin cy Ly) (mz * tz.fft.q) Lz (origin cz Lz)
            (fun kx ky kz => φ [kz, ky, kx])
            (fun a i j k => mem2.val (f.at_ a + off + (tx.fft.S * i + (ty.fft.S * j + k)))) b i j k) ∧
        (∀ p, ¬ c.Bufs p.buf → (∀ b < (if tx.fft.overwrite = true then A else B), ∀ i < Lx, ∀ j < Ly, ∀ k < Lz,
          p ≠ f.at_ b + off + (tx.fft.S * i + (ty.fft.S * j + k))) → mem3.val p = mem2.val p) ∧
        mem3.size = mem2.size := by
  have hfit := Conv3.fitsTr hLy hLz hx hy hz hC hS hSz hBA hDx hDy hlx hly hlz hm hfreq hfreqy hfreqx
  have hxf := hfit.x
  have f' := Tr.facts hLz hy
  have f'' := Tr.facts (by omega) hz
  have hCx0 : 0 < Cx := by
    have := f'.CS
    rw [hC]
    split_ifs
    · exact Nat.mul_pos hLy (by omega)
    · exact hLz
  have f := Tr.facts hCx0 hx
  obtain ⟨c, mem1, e1, hfx, hfy, hfz, hth, _, hset, hr, hbn, hu⟩ := Conv3.new_ok hfit hbuf
  refine ⟨c, mem1, e1, hbn, ?_⟩
  intro steps hst
  have hal : ∀ s ∈ steps, c.Allowed mem1 s := by
    intro s hsm
    have := hst s hsm
    cases s with
    | write p v => exact ⟨Mem.valid_of_size hu.size this.1, this.2⟩
    | call s s2 g off => exact ⟨this.1, this.2.size hu.size⟩
  obtain ⟨_, mem2, e2, hr2, hs2⟩ := Conv3.history_ok hset hr steps hal
  refine ⟨mem2, e2, ?_⟩
  intro s s2 g off hs hf
  refine (Conv3.convolve_ok hset hs hr2 (hf.size (hs2.trans hu.size))).mono ?_
  rintro _ mem3 ⟨u3, _, e3⟩
  have bB : c.x.fft.B = B := by rw [hfx, hxf.B]; exact f.bB
  have bO : c.x.fft.outs = if tx.fft.overwrite = true then A else B := by
    unfold FftBase.outs
    rw [hfx, hxf.ow, hxf.A, hxf.B, f.bow, f.bA, f.bB]
  have bL : c.x.fft.L = Lx := by rw [hfx, hxf.L]; exact f.bL
  have bC : c.x.fft.C = Ly * Lz := by rw [hfx, hxf.C, f'.bL, f'.bC]
  have bS : c.x.fft.S = tx.fft.S := by rw [hfx, hxf.S]; exact f.bS
  have bN : c.x.fft.N = mx * tx.fft.q := by rw [hfx, hxf.N]; exact f.bN
  have bcol : c.x.fft.col = fun k => ty.fft.S * (k / Lz) + k % Lz := by
    rw [hset.col, hfy, f'.bS, f'.bC]
  have bNy : c.ffty.N = my * ty.fft.q := by rw [hfy]; exact f'.bN
  have bLy : c.ffty.L = Ly := by rw [hfy]; exact f'.bL
  have bCy : c.ffty.C = Lz := by rw [hfy]; exact f'.bC
  have bNz : c.fftz.N = mz * tz.fft.q := by rw [hfz]; exact f''.bN
  have bLz : c.fftz.L = Lz := by rw [hfz]; exact f''.bL
  have hcol : ∀ j k, k < Lz → c.x.fft.col (Lz * j + k) = ty.fft.S * j + k := by
    intro j k hk
    rw [bcol]
    simp only
    rw [Nat.mul_add_div (by omega), Nat.mul_add_mod, Nat.div_eq_of_lt hk, Nat.mod_eq_of_lt hk, Nat.add_zero]
  refine ⟨?_, ?_, u3.size⟩
  · intro b hb i hi j hj k hk
    have := e3 b (by omega) i (by omega) (Lz * j + k) (by rw [bC, Nat.mul_comm Ly]; exact radix_lt hk hj)
    rw [bS, hcol j k hk] at this
    rw [this, convResultC3_eq]
    simp only [convResultC2_eq]
    unfold FftBase.result FftBase.val2 FftBase.innerVal convResultC FftBase.hat
    rw [bN, bNy, bNz, bCy, ← one_div_mul_one_div]
    simp only [FftBase.dft_cdft bN bL, FftBase.dft_cdft bNy bLy, FftBase.dft_cdft bNz bLz, bS]
    rw [mul_comm, mul_assoc]
    congr 1
    rw [mul_sum]
    refine sum_congr rfl fun ex _ => ?_
    rw [Nat.mul_add_div (by omega), Nat.mul_add_mod, Nat.div_eq_of_lt hk, Nat.mod_eq_of_lt hk, Nat.add_zero, ← mul_assoc,
      ← one_div_mul_one_div, mul_assoc (1 / _), mul_sum]
    congr 2
    refine sum_congr rfl fun ey _ => ?_
    rw [← mul_assoc]
    congr 2
    refine sum_congr rfl fun ez _ => ?_
    congr 1
    refine hm.congr _ _ _ _ fun a _ => ?_
    unfold cdft
    refine sum_congr rfl fun k' hk' => ?_
    congr 1
    refine sum_congr rfl fun j' _ => ?_
    congr 1
    refine sum_congr rfl fun i' _ => ?_
    rw [hcol j' k' (mem_range.1 hk')]
  · intro p hp hpf
    refine u3.frame p ?_
    rintro (hp' | ⟨b, hb, i, hi, k, hk, rfl⟩)
    · exact hp hp'
    · rw [bC] at hk
      refine hpf b (by rw [← bO]; exact hb) i (by omega) (k / Lz) (Nat.div_lt_of_lt_mul (by rw [Nat.mul_comm]; exact hk)) (k % Lz)
        (Nat.mod_lt _ hLz) ?_
      rw [bcol, bS]

/-- **C42**, three dimensions: `multBinary`, `A=2`, `B=1`. -/
theorem C42_convolve3 {cx cy cz : Bool} {Lx Mx Ly My Lz Mz Cx : ℕ} {owx owy owz ipx ipy ipz : Bool} {Sx mx Dx Sy my Dy Sz mz Dz : ℕ}
    {tx ty tz : Tr} (hLy : 0 < Ly) (hLz : 0 < Lz)
    (hx : Tr.new cx Lx Mx ⟨2, 1, owx⟩ Cx Sx mx Dx ipx = .ok tx) (hy : Tr.new cy Ly My ⟨2, 1, owy⟩ Lz Sy my Dy ipy = .ok ty)
    (hz : Tr.new cz Lz Mz ⟨2, 1, owz⟩ 1 Sz mz Dz ipz = .ok tz)
    (hC : Cx = if ty.fft.S = Lz then Ly * ty.fft.S else Lz) (hS : Ly * ty.fft.S ≤ tx.fft.S)
    (hSz : tz.fft.S = 1)
    (hDx : tx.fft.D = 1) (hDy : ty.fft.D = 1)
    {th thy : ℕ} {mem0 : Mem} {Fu : Option PtrArr} {Vu : Option Ptr} {al : Alloc3}
    (hbuf : Conv3.Buffers tx.base ty.base tz.base th thy mem0 Fu Vu al) :
    ∃ c mem1, Conv3.new tx.base ty.base tz.base multBinary th thy Fu none Vu al mem0 = .ok (c, mem1) ∧
      ∀ steps : List Conv3.Step, (∀ s ∈ steps, c.Allowed mem0 s) →
      ∃ mem2, seqLoop steps c.step mem1 = .ok ((), mem2) ∧
      ∀ (s : ℕ → Sch) (s2 : ℕ → ℕ → ℕ → Sch) (f : PtrArr) (off : ℕ), c.LegalS s s2 → c.Inputs mem0 f off →
        (c.convolve s s2 f off).Ok mem2 fun _ mem3 => ∀ i < Lx, ∀ j < Ly, ∀ k < Lz,
          mem3.val (f.at_ 0 + off + (tx.fft.S * i + (ty.fft.S * j + k))) =
            cyclicConvC3 (mx * tx.fft.q) Lx (origin cx Lx) (my * ty.fft.q) Ly (origin cy Ly) (mz * tz.fft.q) Lz (origin cz Lz)
            (fun i j k => mem2.val (f.at_ 0 + off + (tx.fft.S * i + (ty.fft.S * j + k))))
            (fun i j k => mem2.val (f.at_ 1 + off + (tx.fft.S * i + (ty.fft.S * j + k)))) i j k ∧
          (linearSize cx Lx ≤ Mx → linearSize cy Ly ≤ My → linearSize cz Lz ≤ Mz →
            mem3.val (f.at_ 0 + off + (tx.fft.S * i + (ty.fft.S * j + k))) =
            linearConvC3 Lx (origin cx Lx) Ly (origin cy Ly) Lz (origin cz Lz)
            (fun i j k => mem2.val (f.at_ 0 + off + (tx.fft.S * i + (ty.fft.S * j + k))))
            (fun i j k => mem2.val (f.at_ 1 + off + (tx.fft.S * i + (ty.fft.S * j + k)))) i j k) := by
  have g' := Tr.facts hLz hy
  have g'' := Tr.facts (by omega) hz
  have hCx0 : 0 < Cx := by
    have := g'.CS
    rw [hC]
    split_ifs
    · exact Nat.mul_pos hLy (by omega)
    · exact hLz
  have g := Tr.facts hCx0 hx
  have hN : mx * tx.fft.q ≠ 0 := (Nat.mul_pos g.m_pos g.q_pos).ne'
  have hN' : my * ty.fft.q ≠ 0 := (Nat.mul_pos g'.m_pos g'.q_pos).ne'
  have hN'' : mz * tz.fft.q ≠ 0 := (Nat.mul_pos g''.m_pos g''.q_pos).ne'
  obtain ⟨c, mem1, e1, _, hc⟩ := C42_history3 hLy hLz hx hy hz hC hS hSz (by omega) hDx hDy (fun _ _ _ => rfl) (fun _ _ _ => rfl)
    (fun _ _ _ _ => by simp) multBinary_spec (Or.inr fun _ _ _ => rfl) (fun _ => Or.inr fun _ _ _ _ => rfl) (fun _ => Or.inr fun _ _ _ _ _ => rfl) hbuf
  refine ⟨c, mem1, e1, fun steps hst => ?_⟩
  obtain ⟨mem2, e2, hc2⟩ := hc steps hst
  refine ⟨mem2, e2, fun s s2 f off hs hf => (hc2 s s2 f off hs hf).mono ?_⟩
  rintro _ mem3 ⟨e3, _, _⟩ i hi j hj k hk
  have := (e3 0 (by omega) i hi j hj k hk).trans (convResultC3_binary hN hN' hN'' _ i j k)
  refine ⟨this, fun h1 h2 h3 => ?_⟩
  rw [this]
  obtain ⟨a1, a2⟩ := linearSize_le g.L_pos (h1.trans g.size)
  obtain ⟨b1, b2⟩ := linearSize_le g'.L_pos (h2.trans g'.size)
  obtain ⟨c1, c2⟩ := linearSize_le g''.L_pos (h3.trans g''.size)
  exact cyclicConvC3_linear a1 a2 b1 b2 c1 c2 _ _ hi hj hk

/-! ## Examples -/

/-- The hypotheses of C42 are met in one dimension: centered, `L=5`, `M=9 ≥ L+⌊L/2⌋`, `m=4` (`p=2`, `n=3`), out of place; and so are those on
the arguments of `convolve`. -/
example : ∃ t, Tr.new true 5 9 ⟨2, 1, true⟩ 1 1 4 1 false = .ok t ∧ t.fft.S = 1 ∧ t.fft.overwrite = false ∧ t.fft.nloops = 3 ∧
    linearSize true 5 ≤ 9 ∧ Conv.Buffers t.base (Fft.exMem 100) none none exAlloc ∧
    ∃ c mem1, Conv.new t.base multBinary none none none exAlloc (Fft.exMem 100) = .ok (c, mem1) ∧
      c.Inputs (Fft.exMem 100) (exArr 5) := by
  obtain ⟨t, hnew, how, hn, hos, hS⟩ : ∃ t, Tr.new true 5 9 ⟨2, 1, true⟩ 1 1 4 1 false = .ok t ∧ t.fft.overwrite = false ∧
      t.fft.nloops = 3 ∧ t.base.outputSize ≤ 100 ∧ t.fft.S = 1 :=
    ⟨_, rfl, rfl, by decide, by show (Fft.outputSize _) ≤ 100; decide, rfl⟩
  have f := Tr.facts (by omega) hnew
  have hAB : max t.base.A t.base.B ≤ 5 := by rw [f.bA, f.bB]; decide
  have hSL : t.base.S * t.base.L ≤ 100 := by rw [f.bS, f.bL, hS]; decide
  have hb := exBuffers hAB hos hSL
  refine ⟨t, hnew, hS, how, hn, by decide, hb, ?_⟩
  obtain ⟨c, mem1, e1, hfft, _, hF, hV, hW, _⟩ := Conv.new_ok f.spec (by rw [f.bq]; exact f.q_pos) multBinary hb
  exact ⟨c, mem1, e1, exInputs (by rw [hF, hfft]) (by rw [hV, hfft]) (by rw [hW, hfft]) (by rw [hfft]; exact hAB) (by rw [hfft]; exact hSL)⟩

/-- In two dimensions: centered in `x` (overwriting its input, two threads, `Sx=3`) and noncentered in `y`; both centered; and so are the
hypotheses on the arguments of `convolve`. -/
example : ∃ tx ty ty', Tr.new true 4 6 ⟨2, 1, true⟩ 2 3 2 1 true = .ok tx ∧ Tr.new false 2 4 ⟨2, 1, false⟩ 1 1 2 1 true = .ok ty ∧
    Tr.new true 2 3 ⟨2, 1, false⟩ 1 1 1 1 true = .ok ty' ∧ ty.fft.S = 1 ∧ ty'.fft.S = 1 ∧ tx.fft.D = 1 ∧ tx.fft.overwrite = true ∧
    linearSize true 4 ≤ 6 ∧ linearSize true 2 ≤ 3 ∧
    Conv2.Buffers tx.base ty.base 2 (Fft.exMem 100) none none (exAlloc2 0) ∧
    Conv2.Buffers tx.base ty'.base 2 (Fft.exMem 100) none none (exAlloc2 0) ∧
    ∃ c mem1, Conv2.new tx.base ty.base multBinary 2 none none none (exAlloc2 0) (Fft.exMem 100) = .ok (c, mem1) ∧
      c.threads = 2 ∧ c.Inputs (Fft.exMem 100) (exArr 5) 3 ∧ c.LegalS (fun _ => [(1, 0), (0, 1)]) := by
  obtain ⟨tx, hx, hox, hSx, hDx, hlx, hbs, howx⟩ : ∃ t, Tr.new true 4 6 ⟨2, 1, true⟩ 2 3 2 1 true = .ok t ∧ t.base.outputSize ≤ 100 ∧
      t.fft.S = 3 ∧ t.fft.D = 1 ∧ t.base.l = 2 ∧ (∀ r, t.base.blocksize r = 2) ∧ t.fft.overwrite = true :=
    ⟨_, rfl, by show (Fft.outputSize _) ≤ 100; decide, rfl, rfl, rfl, fun _ => rfl, by decide⟩
  obtain ⟨ty, hy, hoy, hSy⟩ : ∃ t, Tr.new false 2 4 ⟨2, 1, false⟩ 1 1 2 1 true = .ok t ∧ t.base.outputSize ≤ 100 ∧ t.fft.S = 1 :=
    ⟨_, rfl, by show (Fft.outputSize _) ≤ 100; decide, rfl⟩
  obtain ⟨ty', hy', hoy', hSy'⟩ : ∃ t, Tr.new true 2 3 ⟨2, 1, false⟩ 1 1 1 1 true = .ok t ∧ t.base.outputSize ≤ 100 ∧ t.fft.S = 1 :=
    ⟨_, rfl, by show (Fft.outputSize _) ≤ 100; decide, rfl⟩
  have f := Tr.facts (by omega) hx
  have f' := Tr.facts (by omega) hy
  have f'' := Tr.facts (by omega) hy'
  have hA : max tx.base.A tx.base.B ≤ 5 := by rw [f.bA, f.bB]; decide
  have hA' : max ty.base.A ty.base.B ≤ 5 := by rw [f'.bA, f'.bB]; decide
  have hA'' : max ty'.base.A ty'.base.B ≤ 5 := by rw [f''.bA, f''.bB]; decide
  have hb : Conv2.Buffers tx.base ty.base 2 (Fft.exMem 100) none none (exAlloc2 0) :=
    exBuffers2 hA hox (by rw [f.bS, f.bL, hSx]; decide) hA' hoy (by rw [f'.bS, f'.bL, hSy]; decide)
  have hb' : Conv2.Buffers tx.base ty'.base 2 (Fft.exMem 100) none none (exAlloc2 0) :=
    exBuffers2 hA hox (by rw [f.bS, f.bL, hSx]; decide) hA'' hoy' (by rw [f''.bS, f''.bL, hSy']; decide)
  refine ⟨tx, ty, ty', hx, hy, hy', hSy, hSy', hDx, howx, by decide, by decide, hb, hb', ?_⟩
  have hfit := Conv2.fitsTr (by omega) hx hy hSy (by omega) hDx (fun _ _ _ => rfl) (fun _ _ _ _ => by simp) multBinary_spec
    (Or.inr fun _ _ _ => rfl) (fun _ => Or.inr fun _ _ _ _ => rfl)
  obtain ⟨c, mem1, e1, hfx, hfy, hth, _, _, hbn, _⟩ := Conv2.new_ok hfit hb
  have hth2 : Conv2.newThreads tx.base 2 = 2 := by
    unfold Conv2.newThreads
    rw [if_neg]
    omega
  refine ⟨c, mem1, e1, by rw [hth, hth2], ⟨?_, ?_, ?_, ?_, fun _ a _ a' _ hne => hne⟩, ?_⟩
  · rw [hfx, f.bA]; decide
  · intro a _ i hi
    rw [hfx, f.bS, f.bL, hSx] at hi
    constructor
    · show (0 : ℤ) ≤ 0 + (3 : ℕ) + i
      omega
    · show (0 : ℤ) + (3 : ℕ) + i < (100 : ℕ)
      omega
  · intro a _ a' _ hne p h1 h2
    have e1 := FftBase.data_buf h1
    have e2 := FftBase.data_buf h2
    exact hne (e1.symm.trans e2)
  · intro a ha hB
    rw [hfx, f.bA] at ha
    have ha : a < 2 := ha
    have := exNewBufs2 hA hA' (hbn _ hB)
    have h2 : 0 + 7 ≤ a := this.1
    omega
  · intro r _
    rw [hfx, hbs, hth, hth2]
    exact ⟨by beta_reduce; decide, by beta_reduce; decide⟩

end Fftwpp
