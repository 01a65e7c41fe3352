import Verif.Proof.Conv3D
import Verif.Proof.ConvMath2
import Verif.Props.Conv

/-!
# Properties of `Convolution2` and `Convolution3` (C17)
-/

namespace Fftwpp
open Finset

namespace Fft
variable {o : Fft}

/-- The two-pass schedule runs over the residues `0` and `increment(0)`. -/
theorem WF.residues2 (h : o.WF) (hn : o.nloops = 2) : o.base.residues = [0, o.base.incr0] := by
  obtain ⟨t, _, _, h3⟩ := h.starts_eq
  have hlen : o.starts.length = 2 := hn
  rw [h3] at hlen
  simp at hlen
  subst hlen
  show o.starts = [0, o.increment 0]
  rw [h3]; simp

/-- Schedules of the outer direction. -/
theorem WF.outerSched (h : o.WF) (hBA : o.B ≤ o.A)
    (hl : o.overwrite = false → o.nloops = 2 → o.B < o.A → o.A = o.B + 1) : Outer.Sched o.base 0 := by
  refine ⟨fun how => ⟨_, Ow.spec ⟨h, how⟩⟩, hBA, ?_⟩
  intro hl2
  have hl' : o.nloops = 2 ∧ o.B < o.A ∧ o.overwrite = false := by
    have : o.loop2 = true := hl2
    unfold loop2 at this
    simpa using this
  exact ⟨hl hl'.2.2 hl'.1 hl'.2.1, h.residues2 hl'.1⟩

/-- With `D=1` every pass computes one block. -/
theorem WF.bs (h : o.WF) (hD : o.D = 1) (r : ℕ) : o.base.noutputs r = o.base.blocksize r := by
  show o.l * o.K r = o.l
  unfold K
  rw [h.D0_eq_one hD, hD]
  simp

end Fft

open Fft in
/-- The transforms in the two directions fit together. -/
theorem Conv2.fits {Lx Mx Ly My A B : ℕ} {owx owy ipx ipy : Bool} {Sx mx Dx Sy my Dy : ℕ} {ox oy : Fft} (hLy : 0 < Ly)
    (hx : Fft.new Lx Mx ⟨A, B, owx⟩ Ly Sx mx Dx ipx = .ok ox) (hy : Fft.new Ly My ⟨A, B, owy⟩ 1 Sy my Dy ipy = .ok oy)
    (hSy : oy.S = 1) (hBA : B ≤ A) (hDx : ox.D = 1)
    (hlx : ox.overwrite = false → ox.nloops = 2 → B < A → A = B + 1) (hly : oy.q ≠ 1 → oy.overwrite = false → oy.nloops = 2 → B < A → (A - B) ∣ B)
    {mult : Multiplier} {φ : List ℕ → ℕ → (ℕ → ℂ) → ℂ} (hm : MultSpec A B oy.index mult φ)
    (hfreq : (oy.D0 = 1 ∧ (oy.overwrite = true → oy.n = 2)) ∨ ∀ e e' idx, φ (e :: idx) = φ (e' :: idx))
    (hfreqx : ox.overwrite = true → ox.n = 2 ∨ ∀ ey e e' idx, φ (ey :: e :: idx) = φ (ey :: e' :: idx)) :
    Conv2.Fits ox.base oy.base mult 0 0 ox.Padded oy.Padded oy.K φ := by
  have h := Fft.WF.of_new hLy hx
  have h' := Fft.WF.of_new (by omega) hy
  obtain ⟨hL, hmm, hC, _, _, _, hA, hB, _⟩ := Fft.new_fields hx
  obtain ⟨hL', hmm', hC', _, _, _, hA', hB', _⟩ := Fft.new_fields hy
  refine ⟨h.base_spec, h.outerSched (by rw [hA, hB]; exact hBA) (by rw [hA, hB]; exact hlx), h'.base_spec, h'.q_pos,
    h'.flat hC' hSy, h'.sched (by rw [hA', hB']; exact hly) (Or.inl (by rw [hA', hB']; exact hBA)), ?_, ?_, hfreqx, ?_, ?_, ?_,
    fun _ => rfl, fun r _ => h.bs hDx r⟩
  · show MultSpec oy.A oy.B oy.index mult φ
    rw [hA', hB']; exact hm
  · rcases hfreq with h1 | h1
    · left; unfold K; rw [if_pos rfl]; exact h1
    · right; exact h1
  · show oy.A = ox.A; rw [hA, hA']
  · show oy.B = ox.B; rw [hB, hB']
  · show oy.L = ox.C; rw [hL', hC]

open Fft in
/-- **C17**, two dimensions, with the analogues of C12, C13 and C15.  For every pair of constructed noncentered transforms, in `x` (with
`Ly` copies) and `y`, overwriting their inputs or not, every pointwise multiplier `φ` (possibly depending on both frequencies), all
work arrays, every number of threads and every schedule of the parallel loops: the constructor succeeds, and after any sequence of
`convolve` calls and of writes by the user outside the work arrays, `convolve(f,offset)`
* runs to completion;
* leaves in `f[b][offset+Sx*i+j]` the inverse 2D DFT, divided by `Nx*Ny`, of `φ` of the 2D DFTs of the inputs at that time;
* changes nothing else outside the work arrays (if the `x` transform overwrites its inputs, all `A` arrays are changed).
Conditions: `B ≤ A`; one block per pass in `x` (always the case if `Sx > 1`); if the two-pass schedule is used in `x`, `A=B+1`; if it is
used in `y`, `A-B` divides `B`; in an overwriting direction, `φ` does not depend on the frequency in that direction unless `n=2`. -/
theorem C17_history2 {Lx Mx Ly My A B : ℕ} {owx owy ipx ipy : Bool} {Sx mx Dx Sy my Dy : ℕ} {ox oy : Fft} (hLy : 0 < Ly)
    (hx : Fft.new Lx Mx ⟨A, B, owx⟩ Ly Sx mx Dx ipx = .ok ox) (hy : Fft.new Ly My ⟨A, B, owy⟩ 1 Sy my Dy ipy = .ok oy)
    (hSy : oy.S = 1) (hBA : B ≤ A) (hDx : ox.D = 1)
    (hlx : ox.overwrite = false → ox.nloops = 2 → B < A → A = B + 1) (hly : oy.q ≠ 1 → oy.overwrite = false → oy.nloops = 2 → B < A → (A - B) ∣ B)
    {mult : Multiplier} {φ : List ℕ → ℕ → (ℕ → ℂ) → ℂ} (hm : MultSpec A B oy.index mult φ)
    (hfreq : (oy.D0 = 1 ∧ (oy.overwrite = true → oy.n = 2)) ∨ ∀ e e' idx, φ (e :: idx) = φ (e' :: idx))
    (hfreqx : ox.overwrite = true → ox.n = 2 ∨ ∀ ey e e' idx, φ (ey :: e :: idx) = φ (ey :: e' :: idx))
    {th : ℕ} {mem0 : Mem} {Fu : Option PtrArr} {Vu : Option Ptr} {al : Alloc2} (hbuf : Conv2.Buffers ox.base oy.base th mem0 Fu Vu al) :
    ∃ c mem1, Conv2.new ox.base oy.base mult th Fu none Vu al mem0 = .ok (c, mem1) ∧
      (∀ k, c.Bufs k → Conv2.NewBufs ox.base oy.base th Fu Vu al k) ∧
      ∀ steps : List Conv2.Step, (∀ s ∈ steps, c.Allowed mem0 s) →
      ∃ mem2, seqLoop steps c.step mem1 = .ok ((), mem2) ∧
      ∀ (s : ℕ → Sch) (f : PtrArr) (off : ℕ), c.LegalS s → c.Inputs mem0 f off → (c.convolve s f off).Ok mem2 fun _ mem3 =>
        (∀ b < B, ∀ i < Lx, ∀ j < Ly, mem3.val (f.at_ b + off + (ox.S * i + j)) =
          convResult2 (mx * ox.q) Lx (my * oy.q) Ly (fun kx ky => φ [ky, kx])
            (fun a i j => mem2.val (f.at_ a + off + (ox.S * i + j))) b i j) ∧
        (∀ p, ¬ c.Bufs p.buf → (∀ b < (if ox.overwrite = true then A else B), ∀ i < Lx, ∀ j < Ly, p ≠ f.at_ b + off + (ox.S * i + j)) → mem3.val p = mem2.val p) ∧
        mem3.size = mem2.size := by
  have hfit := Conv2.fits hLy hx hy hSy hBA hDx hlx hly hm hfreq hfreqx
  have h := Fft.WF.of_new hLy hx
  have h' := Fft.WF.of_new (by omega) hy
  obtain ⟨hL, hmm, hC, _, _, _, hA, hB, _⟩ := Fft.new_fields hx
  obtain ⟨hL', hmm', hC', _, _, _, hA', hB', _⟩ := Fft.new_fields hy
  obtain ⟨c, mem1, e1, hfx, hfy, hth, hset, hr, hbn, hu⟩ := Conv2.new_ok hfit hbuf
  refine ⟨c, mem1, e1, hbn, ?_⟩
  intro steps hst
  have hal : ∀ s ∈ steps, c.Allowed mem1 s := by
    intro s hsm
    have := hst s hsm
    cases s with
    | write p v => exact ⟨Mem.valid_of_size hu.size this.1, this.2⟩
    | call s g off => exact ⟨this.1, this.2.size hu.size⟩
  obtain ⟨_, mem2, e2, hr2, hs2⟩ := Conv2.history_ok hset hr steps hal
  refine ⟨mem2, e2, ?_⟩
  intro s f off hs hf
  refine (Conv2.convolve_ok hset hs hr2 (hf.size (hs2.trans hu.size))).mono ?_
  rintro _ mem3 ⟨u3, _, e3⟩
  have bB : c.x.fft.B = B := by rw [hfx]; exact hB
  have bO : c.x.fft.outs = if ox.overwrite = true then A else B := by
    rw [hfx]; show (if ox.overwrite = true then ox.A else ox.B) = _; rw [hA, hB]
  have bL : c.x.fft.L = Lx := by rw [hfx]; exact hL
  have bC : c.x.fft.C = Ly := by rw [hfx]; exact hC
  have bS : c.x.fft.S = ox.S := by rw [hfx]; rfl
  have bN : c.x.fft.N = mx * ox.q := by rw [hfx]; show ox.M = _; rw [h.M_eq, hmm]
  have bNy : c.ffty.N = my * oy.q := by rw [hfy]; show oy.M = _; rw [h'.M_eq, hmm']
  have bLy : c.ffty.L = Ly := by rw [hfy]; exact hL'
  refine ⟨?_, ?_, u3.size⟩
  · intro b hb i hi j hj
    have := e3 b (by omega) i (by omega) j (by omega)
    rw [bS] at this
    rw [this, convResult2_eq, bN, bNy]
    unfold FftBase.result FftBase.innerVal convResult
    rw [bN, bNy, ← one_div_mul_one_div]
    have hc : ∀ k, c.x.fft.col k = k := hset.col
    have hd : ∀ (e : ℕ) (a : ℕ), c.x.fft.hat 0 mem2 f off e a =
        fun k => paddedDFT (mx * ox.q) Lx (fun i => mem2.val (f.at_ a + off + (ox.S * i + k))) e := by
      intro e a
      funext k
      unfold FftBase.hat FftBase.dft paddedDFT
      simp only [hc, bL, bS, bN, sub_zero]
    have hdy : ∀ (X : ℕ → ℂ) (e : ℕ), c.ffty.dft 0 X e = paddedDFT (my * oy.q) Ly X e := by
      intro X e
      unfold FftBase.dft paddedDFT
      simp only [bLy, bNy, sub_zero]
    simp only [hd, hdy, sub_zero]
    rw [mul_comm, mul_assoc]
    congr 1
    rw [mul_sum]
    refine sum_congr rfl fun e _ => ?_
    ring
  · intro p hp hpf
    refine u3.frame p ?_
    rintro (hp' | ⟨b, hb, i, hi, k, hk, rfl⟩)
    · exact hp hp'
    · refine hpf b (by rw [← bO]; exact hb) i (by omega) k (by omega) ?_
      rw [hset.col, bS]

open Fft in
/-- **C17**, two dimensions: with `A=2`, `B=1` and `multBinary`, `Convolution2::convolve` leaves the cyclic 2D convolution of periods
`Nx=mx*qx`, `Ny=my*qy`, and the linear one if the requested sizes are `Mx ≥ 2Lx-1`, `My ≥ 2Ly-1`, for all valid parameters in both
directions, any number of threads, any schedules and after any history. -/
theorem C17_convolve2 {Lx Mx Ly My : ℕ} {owx owy ipx ipy : Bool} {Sx mx Dx Sy my Dy : ℕ} {ox oy : Fft} (hLy : 0 < Ly)
    (hx : Fft.new Lx Mx ⟨2, 1, owx⟩ Ly Sx mx Dx ipx = .ok ox) (hy : Fft.new Ly My ⟨2, 1, owy⟩ 1 Sy my Dy ipy = .ok oy)
    (hSy : oy.S = 1) (hDx : ox.D = 1)
    {th : ℕ} {mem0 : Mem} {Fu : Option PtrArr} {Vu : Option Ptr} {al : Alloc2} (hbuf : Conv2.Buffers ox.base oy.base th mem0 Fu Vu al) :
    ∃ c mem1, Conv2.new ox.base oy.base multBinary th Fu none Vu al mem0 = .ok (c, mem1) ∧
      ∀ steps : List Conv2.Step, (∀ s ∈ steps, c.Allowed mem0 s) →
      ∃ mem2, seqLoop steps c.step mem1 = .ok ((), mem2) ∧
      ∀ (s : ℕ → Sch) (f : PtrArr) (off : ℕ), c.LegalS s → c.Inputs mem0 f off → (c.convolve s f off).Ok mem2 fun _ mem3 =>
        ∀ i < Lx, ∀ j < Ly,
          mem3.val (f.at_ 0 + off + (ox.S * i + j)) = cyclicConv2 (mx * ox.q) Lx (my * oy.q) Ly
            (fun i j => mem2.val (f.at_ 0 + off + (ox.S * i + j))) (fun i j => mem2.val (f.at_ 1 + off + (ox.S * i + j))) i j ∧
          (2 * Lx - 1 ≤ Mx → 2 * Ly - 1 ≤ My → mem3.val (f.at_ 0 + off + (ox.S * i + j)) = linearConv2 Lx Ly
            (fun i j => mem2.val (f.at_ 0 + off + (ox.S * i + j))) (fun i j => mem2.val (f.at_ 1 + off + (ox.S * i + j))) i j) := by
  have h := Fft.WF.of_new hLy hx
  have h' := Fft.WF.of_new (by omega) hy
  have hN : mx * ox.q ≠ 0 := by have := h.M_pos; have := h.M_eq; rw [(Fft.new_fields hx).2.1] at this; omega
  have hN' : my * oy.q ≠ 0 := by have := h'.M_pos; have := h'.M_eq; rw [(Fft.new_fields hy).2.1] at this; omega
  have hMx : Mx ≤ mx * ox.q := C10_size hx
  have hMy : My ≤ my * oy.q := C10_size hy
  obtain ⟨c, mem1, e1, _, hc⟩ := C17_history2 hLy hx hy hSy (by omega) hDx (fun _ _ _ => rfl) (fun _ _ _ _ => by simp)
    multBinary_spec (Or.inr fun _ _ _ => rfl) (fun _ => Or.inr fun _ _ _ _ => rfl) hbuf
  refine ⟨c, mem1, e1, fun steps hst => ?_⟩
  obtain ⟨mem2, e2, hc2⟩ := hc steps hst
  refine ⟨mem2, e2, fun s f off hs hf => (hc2 s f off hs hf).mono ?_⟩
  rintro _ mem3 ⟨e3, _, _⟩ i hi j hj
  have : mem3.val (f.at_ 0 + off + (ox.S * i + j)) = cyclicConv2 (mx * ox.q) Lx (my * oy.q) Ly
      (fun i j => mem2.val (f.at_ 0 + off + (ox.S * i + j))) (fun i j => mem2.val (f.at_ 1 + off + (ox.S * i + j))) i j := by
    rw [e3 0 (by omega) i hi j hj]
    exact convResult2_binary hN hN' _ i j
  refine ⟨this, fun h1 h2 => ?_⟩
  rw [this]
  exact cyclicConv2_linear (by omega) (by omega) _ _ hi hj

open Fft in
/-- The transforms in the three directions fit together. -/
theorem Conv3.fits {Lx Mx Ly My Lz Mz A B Cx : ℕ} {owx owy owz ipx ipy ipz : Bool} {Sx mx Dx Sy my Dy Sz mz Dz : ℕ} {ox oy oz : Fft}
    (hLy : 0 < Ly) (hLz : 0 < Lz)
    (hx : Fft.new Lx Mx ⟨A, B, owx⟩ Cx Sx mx Dx ipx = .ok ox) (hy : Fft.new Ly My ⟨A, B, owy⟩ Lz Sy my Dy ipy = .ok oy)
    (hz : Fft.new Lz Mz ⟨A, B, owz⟩ 1 Sz mz Dz ipz = .ok oz)
    (hC : Cx = if oy.S = Lz then Ly * oy.S else Lz) (hS : Ly * oy.S ≤ ox.S)
    (hSz : oz.S = 1) (hBA : B ≤ A)
    (hDx : ox.D = 1) (hDy : oy.D = 1)
    (hlx : ox.overwrite = false → ox.nloops = 2 → B < A → A = B + 1) (hly : oy.overwrite = false → oy.nloops = 2 → B < A → A = B + 1)
    (hlz : oz.q ≠ 1 → oz.overwrite = false → oz.nloops = 2 → B < A → (A - B) ∣ B)
    {mult : Multiplier} {φ : List ℕ → ℕ → (ℕ → ℂ) → ℂ} (hm : MultSpec A B oz.index mult φ)
    (hfreq : (oz.D0 = 1 ∧ (oz.overwrite = true → oz.n = 2)) ∨ ∀ e e' idx, φ (e :: idx) = φ (e' :: idx))
    (hfreqy : oy.overwrite = true → oy.n = 2 ∨ ∀ ez e e' idx, φ (ez :: e :: idx) = φ (ez :: e' :: idx))
    (hfreqx : ox.overwrite = true → ox.n = 2 ∨ ∀ ez ey e e' idx, φ (ez :: ey :: e :: idx) = φ (ez :: ey :: e' :: idx)) :
    Conv3.Fits ox.base oy.base oz.base mult 0 0 0 ox.Padded oy.Padded oz.Padded oz.K φ := by
  have hy2 := Fft.WF.of_new hLz hy
  obtain ⟨hL, hmm, hCx, _, _, _, hA, hB, _⟩ := Fft.new_fields hx
  obtain ⟨hL', hmm', hC', _, _, _, hA', hB', _⟩ := Fft.new_fields hy
  have hSy : Lz ≤ oy.S := by have := hy2.C_le_S; omega
  have hCx0 : 0 < Cx := by
    rw [hC]
    split_ifs
    · exact Nat.mul_pos hLy (by omega)
    · exact hLz
  have h := Fft.WF.of_new hCx0 hx
  refine ⟨h.base_spec, h.outerSched (by rw [hA, hB]; exact hBA) (by rw [hA, hB]; exact hlx), hfreqx,
    Conv2.fits hLz hy hz hSz hBA hDy hly hlz hm hfreq hfreqy, ?_, ?_, rfl, ?_, ?_, ?_, fun _ => rfl, fun r _ => h.bs hDx r⟩
  · show oy.A = ox.A; rw [hA, hA']
  · show oy.B = ox.B; rw [hB, hB']
  · rw [contiguous3_two rfl]
    show ox.C = if decide (oy.S = oy.C) = true then oy.L * oy.S else oy.C
    rw [hCx, hC, hC', hL']
    simp only [decide_eq_true_eq]
  · show oy.L * oy.S ≤ ox.S; rw [hL']; exact hS
  · show 0 < oy.L; rw [hL']; exact hLy

open Fft in
/-- **C17**, three dimensions, with the analogues of C12, C13 and C15: as `C17_history2`, for `Convolution3`.  The data are in rows with
strides `Sy` (`y`) and `Sx` (`x`), `Sx ≥ Ly*Sy`; the `x` transform has `Ly*Lz` copies if `Sy=Lz` and `Lz` copies otherwise (the
constructor exits otherwise). -/
theorem C17_history3 {Lx Mx Ly My Lz Mz A B Cx : ℕ} {owx owy owz ipx ipy ipz : Bool} {Sx mx Dx Sy my Dy Sz mz Dz : ℕ} {ox oy oz : Fft}
    (hLy : 0 < Ly) (hLz : 0 < Lz)
    (hx : Fft.new Lx Mx ⟨A, B, owx⟩ Cx Sx mx Dx ipx = .ok ox) (hy : Fft.new Ly My ⟨A, B, owy⟩ Lz Sy my Dy ipy = .ok oy)
    (hz : Fft.new Lz Mz ⟨A, B, owz⟩ 1 Sz mz Dz ipz = .ok oz)
    (hC : Cx = if oy.S = Lz then Ly * oy.S else Lz) (hS : Ly * oy.S ≤ ox.S)
    (hSz : oz.S = 1) (hBA : B ≤ A)
    (hDx : ox.D = 1) (hDy : oy.D = 1)
    (hlx : ox.overwrite = false → ox.nloops = 2 → B < A → A = B + 1) (hly : oy.overwrite = false → oy.nloops = 2 → B < A → A = B + 1)
    (hlz : oz.q ≠ 1 → oz.overwrite = false → oz.nloops = 2 → B < A → (A - B) ∣ B)
    {mult : Multiplier} {φ : List ℕ → ℕ → (ℕ → ℂ) → ℂ} (hm : MultSpec A B oz.index mult φ)
    (hfreq : (oz.D0 = 1 ∧ (oz.overwrite = true → oz.n = 2)) ∨ ∀ e e' idx, φ (e :: idx) = φ (e' :: idx))
    (hfreqy : oy.overwrite = true → oy.n = 2 ∨ ∀ ez e e' idx, φ (ez :: e :: idx) = φ (ez :: e' :: idx))
    (hfreqx : ox.overwrite = true → ox.n = 2 ∨ ∀ ez ey e e' idx, φ (ez :: ey :: e :: idx) = φ (ez :: ey :: e' :: idx))
    {th thy : ℕ} {mem0 : Mem} {Fu : Option PtrArr} {Vu : Option Ptr} {al : Alloc3}
    (hbuf : Conv3.Buffers ox.base oy.base oz.base th thy mem0 Fu Vu al) :
    ∃ c mem1, Conv3.new ox.base oy.base oz.base mult th thy Fu none Vu al mem0 = .ok (c, mem1) ∧
      (∀ k, c.Bufs k → Conv3.NewBufs ox.base oy.base oz.base th thy Fu Vu al k) ∧
      ∀ steps : List Conv3.Step, (∀ s ∈ steps, c.Allowed mem0 s) →
      ∃ mem2, seqLoop steps c.step mem1 = .ok ((), mem2) ∧
      ∀ (s : ℕ → Sch) (s2 : ℕ → ℕ → ℕ → Sch) (f : PtrArr) (off : ℕ), c.LegalS s s2 → c.Inputs mem0 f off →
        (c.convolve s s2 f off).Ok mem2 fun _ mem3 =>
        (∀ b < B, ∀ i < Lx, ∀ j < Ly, ∀ k < Lz, mem3.val (f.at_ b + off + (ox.S * i + (oy.S * j + k))) =
          convResult3 (mx * ox.q) Lx (my * oy.q) Ly (mz * oz.q) Lz (fun kx ky kz => φ [kz, ky, kx])
            (fun a i j k => mem2.val (f.at_ a + off + (ox.S * i + (oy.S * j + k)))) b i j k) ∧
        (∀ p, ¬ c.Bufs p.buf → (∀ b < (if ox.overwrite = true then A else B), ∀ i < Lx, ∀ j < Ly, ∀ k < Lz, p ≠ f.at_ b + off + (ox.S * i + (oy.S * j + k))) →
          mem3.val p = mem2.val p) ∧
        mem3.size = mem2.size := by
  have hfit := Conv3.fits hLy hLz hx hy hz hC hS hSz hBA hDx hDy hlx hly hlz hm hfreq hfreqy hfreqx
  have hxf := hfit.x
  obtain ⟨hL, hmm, hCx, _, _, _, hA, hB, _⟩ := Fft.new_fields hx
  obtain ⟨hL', hmm', hC', _, _, _, hA', hB', _⟩ := Fft.new_fields hy
  obtain ⟨hL'', hmm'', hC'', _, _, _, hA'', hB'', _⟩ := Fft.new_fields hz
  have h := Fft.WF.of_new (by rw [← hCx]; exact hfit.spx.C_pos) hx
  have h' := Fft.WF.of_new hLz hy
  have h'' := Fft.WF.of_new (by omega) hz
  obtain ⟨c, mem1, e1, hfx, hfy, hfz, hth, _, hset, hr, hbn, hu⟩ := Conv3.new_ok hfit hbuf
  refine ⟨c, mem1, e1, hbn, ?_⟩
  intro steps hst
  have hal : ∀ s ∈ steps, c.Allowed mem1 s := by
    intro s hsm
    have := hst s hsm
    cases s with
    | write p v => exact ⟨Mem.valid_of_size hu.size this.1, this.2⟩
    | call s s2 g off => exact ⟨this.1, this.2.size hu.size⟩
  obtain ⟨_, mem2, e2, hr2, hs2⟩ := Conv3.history_ok hset hr steps hal
  refine ⟨mem2, e2, ?_⟩
  intro s s2 f off hs hf
  refine (Conv3.convolve_ok hset hs hr2 (hf.size (hs2.trans hu.size))).mono ?_
  rintro _ mem3 ⟨u3, _, e3⟩
  have bB : c.x.fft.B = B := by rw [hfx, hxf.B]; exact hB
  have bO : c.x.fft.outs = if ox.overwrite = true then A else B := by
    unfold FftBase.outs
    rw [hfx, hxf.ow, hxf.A, hxf.B]; show (if ox.overwrite = true then ox.A else ox.B) = _; rw [hA, hB]
  have bL : c.x.fft.L = Lx := by rw [hfx, hxf.L]; exact hL
  have bC : c.x.fft.C = Ly * Lz := by
    rw [hfx, hxf.C]
    show oy.L * oy.C = _
    rw [hL', hC']
  have bS : c.x.fft.S = ox.S := by rw [hfx, hxf.S]; rfl
  have bN : c.x.fft.N = mx * ox.q := by rw [hfx, hxf.N]; show ox.M = _; rw [h.M_eq, hmm]
  have bcol : c.x.fft.col = fun k => oy.S * (k / Lz) + k % Lz := by
    rw [hset.col, hfy]
    show (fun k => oy.S * (k / oy.C) + k % oy.C) = _
    rw [hC']
  have bNy : c.ffty.N = my * oy.q := by rw [hfy]; show oy.M = _; rw [h'.M_eq, hmm']
  have bLy : c.ffty.L = Ly := by rw [hfy]; exact hL'
  have bCy : c.ffty.C = Lz := by rw [hfy]; exact hC'
  have bNz : c.fftz.N = mz * oz.q := by rw [hfz]; show oz.M = _; rw [h''.M_eq, hmm'']
  have bLz : c.fftz.L = Lz := by rw [hfz]; exact hL''
  have hcol : ∀ j k, k < Lz → c.x.fft.col (Lz * j + k) = oy.S * j + k := by
    intro j k hk
    rw [bcol]
    simp only
    rw [Nat.mul_add_div (by omega), Nat.mul_add_mod, Nat.div_eq_of_lt hk, Nat.mod_eq_of_lt hk, Nat.add_zero]
  refine ⟨?_, ?_, u3.size⟩
  · intro b hb i hi j hj k hk
    have := e3 b (by omega) i (by omega) (Lz * j + k) (by rw [bC, Nat.mul_comm Ly]; exact radix_lt hk hj)
    rw [bS, hcol j k hk] at this
    rw [this, convResult3_eq]
    simp only [convResult2_eq]
    unfold FftBase.result FftBase.val2 FftBase.innerVal convResult
    rw [bN, bNy, bNz, bCy, ← one_div_mul_one_div]
    have hdx : ∀ (e : ℕ) (a k : ℕ), c.x.fft.hat 0 mem2 f off e a k =
        paddedDFT (mx * ox.q) Lx (fun i => mem2.val (f.at_ a + off + (ox.S * i + c.x.fft.col k))) e := by
      intro e a k
      unfold FftBase.hat FftBase.dft paddedDFT
      simp only [bL, bS, bN, sub_zero]
    have hdy : ∀ (X : ℕ → ℂ) (e : ℕ), c.ffty.dft 0 X e = paddedDFT (my * oy.q) Ly X e := by
      intro X e
      unfold FftBase.dft paddedDFT
      simp only [bLy, bNy, sub_zero]
    have hdz : ∀ (X : ℕ → ℂ) (e : ℕ), c.fftz.dft 0 X e = paddedDFT (mz * oz.q) Lz X e := by
      intro X e
      unfold FftBase.dft paddedDFT
      simp only [bLz, bNz, sub_zero]
    simp only [hdx, hdy, hdz, sub_zero]
    rw [mul_comm, mul_assoc]
    congr 1
    rw [mul_sum]
    refine sum_congr rfl fun ex _ => ?_
    rw [Nat.mul_add_div (by omega), Nat.mul_add_mod, Nat.div_eq_of_lt hk, Nat.mod_eq_of_lt hk, Nat.add_zero, ← mul_assoc,
      ← one_div_mul_one_div, mul_assoc (1 / _), mul_sum]
    congr 2
    refine sum_congr rfl fun ey _ => ?_
    rw [← mul_assoc]
    congr 2
    refine sum_congr rfl fun ez _ => ?_
    congr 1
    refine hm.congr _ _ _ _ fun a _ => ?_
    unfold paddedDFT
    refine sum_congr rfl fun k' hk' => ?_
    congr 1
    refine sum_congr rfl fun j' _ => ?_
    congr 1
    refine sum_congr rfl fun i' _ => ?_
    rw [hcol j' k' (mem_range.1 hk')]
  · intro p hp hpf
    refine u3.frame p ?_
    rintro (hp' | ⟨b, hb, i, hi, k, hk, rfl⟩)
    · exact hp hp'
    · rw [bC] at hk
      refine hpf b (by rw [← bO]; exact hb) i (by omega) (k / Lz) (Nat.div_lt_of_lt_mul (by rw [Nat.mul_comm]; exact hk)) (k % Lz)
        (Nat.mod_lt _ hLz) ?_
      rw [bcol, bS]

open Fft in
/-- **C17**, three dimensions: with `A=2`, `B=1` and `multBinary`, `Convolution3::convolve` leaves the cyclic 3D convolution of periods
`Nx`, `Ny`, `Nz`, and the linear one if the requested sizes are at least `2L-1` in each direction. -/
theorem C17_convolve3 {Lx Mx Ly My Lz Mz Cx : ℕ} {owx owy owz ipx ipy ipz : Bool} {Sx mx Dx Sy my Dy Sz mz Dz : ℕ} {ox oy oz : Fft}
    (hLy : 0 < Ly) (hLz : 0 < Lz)
    (hx : Fft.new Lx Mx ⟨2, 1, owx⟩ Cx Sx mx Dx ipx = .ok ox) (hy : Fft.new Ly My ⟨2, 1, owy⟩ Lz Sy my Dy ipy = .ok oy)
    (hz : Fft.new Lz Mz ⟨2, 1, owz⟩ 1 Sz mz Dz ipz = .ok oz)
    (hC : Cx = if oy.S = Lz then Ly * oy.S else Lz) (hS : Ly * oy.S ≤ ox.S)
    (hSz : oz.S = 1)
    (hDx : ox.D = 1) (hDy : oy.D = 1)
    {th thy : ℕ} {mem0 : Mem} {Fu : Option PtrArr} {Vu : Option Ptr} {al : Alloc3}
    (hbuf : Conv3.Buffers ox.base oy.base oz.base th thy mem0 Fu Vu al) :
    ∃ c mem1, Conv3.new ox.base oy.base oz.base multBinary th thy Fu none Vu al mem0 = .ok (c, mem1) ∧
      ∀ steps : List Conv3.Step, (∀ s ∈ steps, c.Allowed mem0 s) →
      ∃ mem2, seqLoop steps c.step mem1 = .ok ((), mem2) ∧
      ∀ (s : ℕ → Sch) (s2 : ℕ → ℕ → ℕ → Sch) (f : PtrArr) (off : ℕ), c.LegalS s s2 → c.Inputs mem0 f off →
        (c.convolve s s2 f off).Ok mem2 fun _ mem3 => ∀ i < Lx, ∀ j < Ly, ∀ k < Lz,
          mem3.val (f.at_ 0 + off + (ox.S * i + (oy.S * j + k))) = cyclicConv3 (mx * ox.q) Lx (my * oy.q) Ly (mz * oz.q) Lz
            (fun i j k => mem2.val (f.at_ 0 + off + (ox.S * i + (oy.S * j + k))))
            (fun i j k => mem2.val (f.at_ 1 + off + (ox.S * i + (oy.S * j + k)))) i j k ∧
          (2 * Lx - 1 ≤ Mx → 2 * Ly - 1 ≤ My → 2 * Lz - 1 ≤ Mz →
            mem3.val (f.at_ 0 + off + (ox.S * i + (oy.S * j + k))) = linearConv3 Lx Ly Lz
            (fun i j k => mem2.val (f.at_ 0 + off + (ox.S * i + (oy.S * j + k))))
            (fun i j k => mem2.val (f.at_ 1 + off + (ox.S * i + (oy.S * j + k)))) i j k) := by
  have hfit := Conv3.fits hLy hLz hx hy hz hC hS hSz (by omega) hDx hDy (fun _ _ _ => rfl) (fun _ _ _ => rfl)
    (fun _ _ _ _ => by simp) multBinary_spec (Or.inr fun _ _ _ => rfl) (fun _ => Or.inr fun _ _ _ _ => rfl) (fun _ => Or.inr fun _ _ _ _ _ => rfl)
  have h := Fft.WF.of_new (by rw [← (Fft.new_fields hx).2.2.1]; exact hfit.spx.C_pos) hx
  have h' := Fft.WF.of_new hLz hy
  have h'' := Fft.WF.of_new (by omega) hz
  have hN : mx * ox.q ≠ 0 := by have := h.M_pos; have := h.M_eq; rw [(Fft.new_fields hx).2.1] at this; omega
  have hN' : my * oy.q ≠ 0 := by have := h'.M_pos; have := h'.M_eq; rw [(Fft.new_fields hy).2.1] at this; omega
  have hN'' : mz * oz.q ≠ 0 := by have := h''.M_pos; have := h''.M_eq; rw [(Fft.new_fields hz).2.1] at this; omega
  have hMx : Mx ≤ mx * ox.q := C10_size hx
  have hMy : My ≤ my * oy.q := C10_size hy
  have hMz : Mz ≤ mz * oz.q := C10_size hz
  obtain ⟨c, mem1, e1, _, hc⟩ := C17_history3 hLy hLz hx hy hz hC hS hSz (by omega) hDx hDy (fun _ _ _ => rfl) (fun _ _ _ => rfl)
    (fun _ _ _ _ => by simp) multBinary_spec (Or.inr fun _ _ _ => rfl) (fun _ => Or.inr fun _ _ _ _ => rfl) (fun _ => Or.inr fun _ _ _ _ _ => rfl) hbuf
  refine ⟨c, mem1, e1, fun steps hst => ?_⟩
  obtain ⟨mem2, e2, hc2⟩ := hc steps hst
  refine ⟨mem2, e2, fun s s2 f off hs hf => (hc2 s s2 f off hs hf).mono ?_⟩
  rintro _ mem3 ⟨e3, _, _⟩ i hi j hj k hk
  have : mem3.val (f.at_ 0 + off + (ox.S * i + (oy.S * j + k))) = cyclicConv3 (mx * ox.q) Lx (my * oy.q) Ly (mz * oz.q) Lz
      (fun i j k => mem2.val (f.at_ 0 + off + (ox.S * i + (oy.S * j + k))))
      (fun i j k => mem2.val (f.at_ 1 + off + (ox.S * i + (oy.S * j + k)))) i j k := by
    rw [e3 0 (by omega) i hi j hj k hk]
    exact convResult3_binary hN hN' hN'' _ i j k
  refine ⟨this, fun h1 h2 h3 => ?_⟩
  rw [this]
  exact cyclicConv3_linear (by omega) (by omega) (by omega) _ _ hi hj hk

/-! ## Examples -/

/-- Allocations for examples: every work array in its own buffer, numbered from `k`. -/
def exAllocK (k : ℕ) : Alloc := ⟨fun a => ⟨k + 10 + a, 0⟩, ⟨k + 7, 0⟩, fun a => ⟨k + 20 + a, 0⟩⟩

theorem exNewBufs {o : FftBase} {k i : ℕ} (hAB : max o.A o.B ≤ 5) (h : Conv.NewBufs o none none (exAllocK k) i) : k + 7 ≤ i ∧ i < k + 25 := by
  have hA : o.A ≤ 5 := le_trans (le_max_left _ _) hAB
  have hB : o.B ≤ 5 := le_trans (le_max_right _ _) hAB
  rcases h with ⟨a, ha, rfl⟩ | ⟨W, hW, rfl⟩ | ⟨b, hb, rfl⟩
  · show k + 7 ≤ k + 10 + a ∧ k + 10 + a < k + 25
    omega
  · unfold Conv.newW at hW
    split_ifs at hW
    obtain rfl : (exAllocK k).W = W := by simpa using hW
    show k + 7 ≤ k + 7 ∧ k + 7 < k + 25
    omega
  · show k + 7 ≤ k + 20 + b ∧ k + 20 + b < k + 25
    omega

theorem exOuterBuffers {o : FftBase} {k : ℕ} (hAB : max o.A o.B ≤ 5) (hos : o.outputSize ≤ 100) (hL : o.S * o.L ≤ 100) :
    Outer.Buffers o (Fft.exMem 100) none none (exAllocK k) := by
  have hFb : ∀ a, ((Conv.newF o none (exAllocK k)).at_ a) = ⟨k + 10 + a, 0⟩ := fun a => rfl
  have hVb : ∀ a, ((Conv.newV o none (exAllocK k)).at_ a) = ⟨k + 20 + a, 0⟩ := fun a => rfl
  refine ⟨⟨le_rfl, ?_, ?_, ?_⟩, ?_⟩
  · intro a ha a' ha' hne
    rw [hFb, hFb]; show k + 10 + a ≠ k + 10 + a'; omega
  · intro a ha; rw [hFb]; exact exMem_block _ _ hos
  · unfold Conv.newW
    split_ifs
    · rfl
    · refine ⟨_, rfl, ?_, exMem_block _ _ hos⟩
      intro a ha; rw [hFb]; show k + 7 ≠ k + 10 + a; omega
  · intro _ _
    refine ⟨⟨le_rfl, ?_, ?_, ?_⟩, ?_⟩
    · intro a ha; rw [hVb, Conv.Ptr.add0]; exact exMem_block _ _ hL
    · intro a ha a' ha'; rw [hVb, hFb]; show k + 20 + a ≠ k + 10 + a'
      omega
    · intro a ha W hW
      rw [hVb]
      unfold Conv.newW at hW
      split_ifs at hW
      obtain rfl : (exAllocK k).W = W := by simpa using hW
      show k + 7 ≠ k + 20 + a; omega
    · intro a ha a' ha' hne p h1 h2
      have e1 := FftBase.data_buf h1
      have e2 := FftBase.data_buf h2
      rw [hVb] at e1 e2
      rw [e1] at e2
      have : k + 20 + a = k + 20 + a' := e2
      omega

/-- Allocations of a `Convolution2`. -/
def exAlloc2 (k : ℕ) : Alloc2 := ⟨exAllocK k, fun t => exAllocK (k + 100 * (t + 1))⟩

theorem exBuffers2 {ox oy : FftBase} {k th : ℕ} (hA : max ox.A ox.B ≤ 5) (hos : ox.outputSize ≤ 100) (hL : ox.S * ox.L ≤ 100)
    (hA' : max oy.A oy.B ≤ 5) (hos' : oy.outputSize ≤ 100) (hL' : oy.S * oy.L ≤ 100) :
    Conv2.Buffers ox oy th (Fft.exMem 100) none none (exAlloc2 k) := by
  refine ⟨exOuterBuffers hA hos hL, ?_, ?_, ?_⟩
  · intro t _
    have h : Outer.Buffers oy (Fft.exMem 100) none none (exAllocK (k + 100 * (t + 1))) := exOuterBuffers hA' hos' hL'
    exact ⟨h.work, fun _ h1 h2 => h.V h1 h2⟩
  · intro t _ t' _ hne i h1 h2
    have := exNewBufs hA' h1
    have := exNewBufs hA' h2
    omega
  · intro t _ i h1 h2
    have := exNewBufs hA h1
    have := exNewBufs hA' h2
    omega

theorem exNewBufs2 {ox oy : FftBase} {k th i : ℕ} (hA : max ox.A ox.B ≤ 5) (hA' : max oy.A oy.B ≤ 5)
    (h : Conv2.NewBufs ox oy th none none (exAlloc2 k) i) : k + 7 ≤ i ∧ i < k + 100 * (Conv2.newThreads ox th + 1) := by
  rcases h with h | ⟨t, ht, h⟩
  · have := exNewBufs hA h
    omega
  · have := exNewBufs hA' h
    omega

/-- The hypotheses of C17 (two dimensions) are met: `Lx=3`, `Mx=5`, `mx=2` (`p=2`, three residue blocks, out of place), `Ly=2`, `Sx=4`; `My=4`,
`my=2` (two residue blocks), two threads; and so are those on the arguments of `convolve`. -/
example : ∃ ox oy, Fft.new 3 5 ⟨2, 1, true⟩ 2 4 2 1 false = .ok ox ∧ Fft.new 2 4 ⟨2, 1, false⟩ 1 1 2 1 true = .ok oy ∧ oy.S = 1 ∧
    ox.overwrite = false ∧ oy.overwrite = false ∧ ox.D = 1 ∧ ox.nloops = 3 ∧ oy.nloops = 2 ∧
    Conv2.Buffers ox.base oy.base 2 (Fft.exMem 100) none none (exAlloc2 0) ∧
    ∃ c mem1, Conv2.new ox.base oy.base multBinary 2 none none none (exAlloc2 0) (Fft.exMem 100) = .ok (c, mem1) ∧
      c.threads = 2 ∧ c.Inputs (Fft.exMem 100) (exArr 5) 3 ∧ c.LegalS (fun _ => [(1, 0), (0, 1)]) := by
  obtain ⟨ox, hx, howx, hnx, hAx, hBx, hosx, hlx, hDx, hbs⟩ : ∃ o, Fft.new 3 5 ⟨2, 1, true⟩ 2 4 2 1 false = .ok o ∧ o.overwrite = false ∧
      o.nloops = 3 ∧ o.A = 2 ∧ o.B = 1 ∧ o.outputSize ≤ 100 ∧ o.l = 2 ∧ o.D = 1 ∧ ∀ r, o.base.blocksize r = 2 :=
    ⟨_, rfl, rfl, by decide, rfl, rfl, by decide, rfl, rfl, fun _ => rfl⟩
  obtain ⟨oy, hy, howy, hny, hAy, hBy, hosy⟩ : ∃ o, Fft.new 2 4 ⟨2, 1, false⟩ 1 1 2 1 true = .ok o ∧ o.overwrite = false ∧
      o.nloops = 2 ∧ o.A = 2 ∧ o.B = 1 ∧ o.outputSize ≤ 100 :=
    ⟨_, rfl, rfl, by decide, rfl, rfl, by decide⟩
  obtain ⟨hL, _, hC, hS, _⟩ := Fft.new_fields hx
  obtain ⟨hL', _, hC', hS', _⟩ := Fft.new_fields hy
  have hS : ox.S = 4 := by rw [hS]; rfl
  have hS' : oy.S = 1 := by rw [hS']; rfl
  have hA : max ox.base.A ox.base.B ≤ 5 := by show max ox.A ox.B ≤ 5; rw [hAx, hBx]; decide
  have hA' : max oy.base.A oy.base.B ≤ 5 := by show max oy.A oy.B ≤ 5; rw [hAy, hBy]; decide
  have hb : Conv2.Buffers ox.base oy.base 2 (Fft.exMem 100) none none (exAlloc2 0) :=
    exBuffers2 hA hosx (by show ox.S * ox.L ≤ 100; rw [hS, hL]; decide) hA' hosy (by show oy.S * oy.L ≤ 100; rw [hS', hL']; decide)
  refine ⟨ox, oy, hx, hy, hS', howx, howy, hDx, hnx, hny, hb, ?_⟩
  have hfit := Conv2.fits (by omega) hx hy hS' (by omega) hDx (fun _ _ _ => rfl) (fun _ _ _ _ => by simp) multBinary_spec
    (Or.inr fun _ _ _ => rfl) (fun _ => Or.inr fun _ _ _ _ => rfl)
  obtain ⟨c, mem1, e1, hfx, hfy, hth, _, _, hbn, _⟩ := Conv2.new_ok hfit hb
  have hth2 : Conv2.newThreads ox.base 2 = 2 := by
    unfold Conv2.newThreads
    rw [if_neg]
    show ¬ ox.l < 2
    omega
  refine ⟨c, mem1, e1, by rw [hth, hth2], ⟨?_, ?_, ?_, ?_, fun _ a _ a' _ hne => hne⟩, ?_⟩
  · rw [hfx]; show ox.A ≤ 5; omega
  · intro a _ i hi
    rw [hfx] at hi
    have hi : i < ox.S * ox.L := hi
    rw [hS, hL] at hi
    constructor
    · show (0 : ℤ) ≤ 0 + (3 : ℕ) + i
      omega
    · show (0 : ℤ) + (3 : ℕ) + i < (100 : ℕ)
      omega
  · intro a _ a' _ hne p h1 h2
    have e1 := FftBase.data_buf h1
    have e2 := FftBase.data_buf h2
    exact hne (e1.symm.trans e2)
  · intro a ha hB
    rw [hfx] at ha
    have ha : a < ox.A := ha
    have := exNewBufs2 hA hA' (hbn _ hB)
    have h2 : 0 + 7 ≤ a := this.1
    omega
  · intro r _
    rw [hfx, hbs, hth, hth2]
    exact ⟨by beta_reduce; decide, by beta_reduce; decide⟩

/-- Allocations of a `Convolution3`. -/
def exAlloc3 : Alloc3 := ⟨exAllocK 0, fun t => exAlloc2 (1000 * (t + 1))⟩

/-- The hypotheses of C17 (three dimensions) are met, in the strided case: `Lx=3`, `Ly=2`, `Lz=2`, `Sy=3`, `Sx=7`, `mx=2`, two threads. -/
example : ∃ ox oy oz, Fft.new 3 5 ⟨2, 1, true⟩ 2 7 2 1 false = .ok ox ∧ Fft.new 2 4 ⟨2, 1, false⟩ 2 3 2 1 false = .ok oy ∧
    Fft.new 2 3 ⟨2, 1, false⟩ 1 1 2 1 true = .ok oz ∧ oz.S = 1 ∧ 2 = (if oy.S = 2 then 2 * oy.S else 2) ∧ 2 * oy.S ≤ ox.S ∧
    ox.overwrite = false ∧ oy.overwrite = false ∧ oz.overwrite = false ∧ ox.D = 1 ∧ oy.D = 1 ∧ ox.nloops = 3 ∧ oy.nloops = 2 ∧
    Conv3.Buffers ox.base oy.base oz.base 2 1 (Fft.exMem 100) none none exAlloc3 ∧
    ∃ c mem1, Conv3.new ox.base oy.base oz.base multBinary 2 1 none none none exAlloc3 (Fft.exMem 100) = .ok (c, mem1) ∧
      c.threads = 2 ∧ c.Inputs (Fft.exMem 100) (exArr 5) 3 ∧ c.LegalS (fun _ => [(1, 0), (0, 1)]) (fun _ _ _ => [(0, 0), (1, 0)]) := by
  obtain ⟨ox, hx, howx, hnx, hAx, hBx, hosx, hlx, hDx, hbs⟩ : ∃ o, Fft.new 3 5 ⟨2, 1, true⟩ 2 7 2 1 false = .ok o ∧ o.overwrite = false ∧
      o.nloops = 3 ∧ o.A = 2 ∧ o.B = 1 ∧ o.outputSize ≤ 100 ∧ o.l = 2 ∧ o.D = 1 ∧ ∀ r, o.base.blocksize r = 2 :=
    ⟨_, rfl, rfl, by decide, rfl, rfl, by decide, rfl, rfl, fun _ => rfl⟩
  obtain ⟨oy, hy, howy, hny, hAy, hBy, hosy, hly, hDy, hbsy⟩ : ∃ o, Fft.new 2 4 ⟨2, 1, false⟩ 2 3 2 1 false = .ok o ∧ o.overwrite = false ∧
      o.nloops = 2 ∧ o.A = 2 ∧ o.B = 1 ∧ o.outputSize ≤ 100 ∧ o.l = 2 ∧ o.D = 1 ∧ ∀ r, o.base.blocksize r = 2 :=
    ⟨_, rfl, rfl, by decide, rfl, rfl, by decide, rfl, rfl, fun _ => rfl⟩
  obtain ⟨oz, hz, howz, hAz, hBz, hosz⟩ : ∃ o, Fft.new 2 3 ⟨2, 1, false⟩ 1 1 2 1 true = .ok o ∧ o.overwrite = false ∧
      o.A = 2 ∧ o.B = 1 ∧ o.outputSize ≤ 100 :=
    ⟨_, rfl, rfl, rfl, rfl, by decide⟩
  obtain ⟨hL, _, hC, hS, _⟩ := Fft.new_fields hx
  obtain ⟨hL', _, hC', hS', _⟩ := Fft.new_fields hy
  obtain ⟨hL'', _, hC'', hS'', _⟩ := Fft.new_fields hz
  have hS : ox.S = 7 := by rw [hS]; rfl
  have hS' : oy.S = 3 := by rw [hS']; rfl
  have hS'' : oz.S = 1 := by rw [hS'']; rfl
  have hA : max ox.base.A ox.base.B ≤ 5 := by show max ox.A ox.B ≤ 5; rw [hAx, hBx]; decide
  have hA' : max oy.base.A oy.base.B ≤ 5 := by show max oy.A oy.B ≤ 5; rw [hAy, hBy]; decide
  have hA'' : max oz.base.A oz.base.B ≤ 5 := by show max oz.A oz.B ≤ 5; rw [hAz, hBz]; decide
  have hth2 : Conv2.newThreads ox.base 2 = 2 := by
    unfold Conv2.newThreads
    rw [if_neg]
    show ¬ ox.l < 2
    omega
  have hthY : Conv3.newThreadsY ox.base 2 1 = 1 := by
    unfold Conv3.newThreadsY
    rw [if_neg]
    show ¬ ox.l < 2
    omega
  have hth1 : Conv2.newThreads oy.base 1 = 1 := by unfold Conv2.newThreads; split_ifs <;> rfl
  have hnc : contiguous3 ox.base oy.base = false := by
    rw [contiguous3_two rfl]
    show decide (oy.S = oy.C) = false
    rw [hS', hC']
    decide
  have hX : Conv3.newX ox.base oy.base = ox.base.strided oy.base.L oy.base.C oy.base.S := by
    unfold Conv3.newX; rw [hnc]; simp
  have hb : Conv3.Buffers ox.base oy.base oz.base 2 1 (Fft.exMem 100) none none exAlloc3 := by
    refine ⟨?_, ?_, ?_, ?_⟩
    · rw [hX]
      exact exOuterBuffers hA hosx (by show ox.S * ox.L ≤ 100; rw [hS, hL]; decide)
    · intro t _
      exact exBuffers2 hA' hosy (by show oy.S * oy.L ≤ 100; rw [hS', hL']; decide) hA'' hosz
        (by show oz.S * oz.L ≤ 100; rw [hS'', hL'']; decide)
    · intro t _ t' _ hne i h1 h2
      have h1 := exNewBufs2 hA' hA'' h1
      have h2 := exNewBufs2 hA' hA'' h2
      rw [hthY, hth1] at h1 h2
      omega
    · intro t _ i h1 h2
      rw [hX] at h1
      have h1 := exNewBufs (o := ox.base.strided oy.base.L oy.base.C oy.base.S) hA h1
      have h2 := exNewBufs2 hA' hA'' h2
      omega
  have hCx : 2 = (if oy.S = 2 then 2 * oy.S else 2) := by rw [hS']; rfl
  refine ⟨ox, oy, oz, hx, hy, hz, hS'', hCx, by omega, howx, howy, howz, hDx, hDy, hnx, hny, hb, ?_⟩
  have hfit := Conv3.fits (by omega) (by omega) hx hy hz hCx (by omega) hS'' (by omega) hDx hDy (fun _ _ _ => rfl)
    (fun _ _ _ => rfl) (fun _ _ _ _ => by simp) multBinary_spec (Or.inr fun _ _ _ => rfl) (fun _ => Or.inr fun _ _ _ _ => rfl) (fun _ => Or.inr fun _ _ _ _ _ => rfl)
  obtain ⟨c, mem1, e1, hfx, hfy, hfz, hth, hthy, hset, _, hbn, _⟩ := Conv3.new_ok hfit hb
  rw [hX] at hfx
  refine ⟨c, mem1, e1, by rw [hth, hth2], ⟨?_, ?_, ?_, ?_, fun _ a _ a' _ hne => hne⟩, ?_⟩
  · rw [hfx]; show ox.A ≤ 5; omega
  · intro a _ i hi
    rw [hfx] at hi
    have hi : i < ox.S * ox.L := hi
    rw [hS, hL] at hi
    constructor
    · show (0 : ℤ) ≤ 0 + (3 : ℕ) + i
      omega
    · show (0 : ℤ) + (3 : ℕ) + i < (100 : ℕ)
      omega
  · intro a _ a' _ hne p h1 h2
    have e1 := FftBase.data_buf h1
    have e2 := FftBase.data_buf h2
    exact hne (e1.symm.trans e2)
  · intro a ha hB
    rw [hfx] at ha
    have ha : a < ox.A := ha
    have hB := hbn _ hB
    have h7 : 7 ≤ a := by
      rcases hB with hB | ⟨t, _, hB⟩
      · rw [hX] at hB
        have := exNewBufs (o := ox.base.strided oy.base.L oy.base.C oy.base.S) hA hB
        have h2 : 0 + 7 ≤ a := this.1
        omega
      · have := exNewBufs2 hA' hA'' hB
        have h2 : 1000 * (t + 1) + 7 ≤ a := this.1
        omega
    omega
  · intro r _
    have hbx : c.x.fft.blocksize r = 2 := by rw [hfx]; exact hbs r
    rw [hbx, hth, hth2]
    refine ⟨⟨by beta_reduce; decide, by beta_reduce; decide⟩, ?_⟩
    intro i _ t ht ry _
    have ht' : t < c.threads := by rw [hth, hth2]; exact ht
    rw [hset.fy t ht', hfy, hbsy, hthy t ht', hthY, hth1]
    exact ⟨by beta_reduce; decide, by beta_reduce; decide⟩

end Fftwpp
