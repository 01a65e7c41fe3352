import Verif.Proof.ROuter2
import Verif.Props.Conv2D
import Verif.Props.HermConv2

/-!
# C47: convolutions of real data in two dimensions
-/

namespace Fftwpp
open Finset
local notation "conj" => starRingEnd ℂ

namespace Re
variable {x : Re}

/-- With `D=1` every pass computes one block. -/
theorem WF.bs (w' : x.WF) (hD : x.D = 1) {r : ℕ} (hr : r ∈ x.visited x.R 0) : x.noutputs r = x.blocksize r := by
  have hv := w'.visit hr
  rcases Nat.eq_zero_or_pos r with rfl | h0
  · unfold noutputs blocksize; simp
  · have hq : x.q ≠ 1 := by
      intro hq
      have hn := (w'.q_one_n hq).1
      rcases hv with h | h | ⟨_, h, _⟩ <;> omega
    have hD0 := (w'.D0_facts hq)
    have hD1 : x.D0 = 1 := by have := hD0.1; have := hD0.2.1; omega
    unfold noutputs
    rw [if_neg (by omega), hD, hD1]
    simp

/-- Schedules of the outer direction. -/
theorem WF.osched (w' : x.WF) (how : x.overwrite = false) (hBA : x.B ≤ x.A) (hl : x.nloops = 2 → x.B < x.A → x.A = x.B + 1) : View.OSched x.base := by
  refine ⟨how, hBA, ?_⟩
  intro hl2
  have hl' : x.nloops = 2 ∧ x.B < x.A ∧ x.overwrite = false := by
    have : x.loop2 = true := hl2
    simpa [loop2] using this
  have hA := hl hl'.1 hl'.2.1
  have hq : x.q ≠ 1 := by
    intro hq
    have h1 := hl'.1
    have h2 : x.visited x.R 0 = [0] := by
      have hn := (w'.q_one_n hq).1
      have hR := w'.R_eq
      rw [hn] at hR
      rw [hR, show ceilquotient (1 + 1) 2 = 0 + 1 by decide, visited]
      rw [hR, if_pos (by decide)]
      rfl
    unfold nloops at h1
    rw [h2] at h1
    simp at h1
  refine ⟨hA, (view_L2 w' (fun _ _ _ => by rw [hA]; simp) hq hl2).2.2⟩

end Re

/-- The transforms in the two directions fit together. -/
theorem Conv2.rfits {Lx Mx Ly My A B : ℕ} {owx owy ipx ipy : Bool} {Sx mx Dx Sy my Dy : ℕ} {J : Junk} {Vp : Ptr} {ox : Re} {oy : Fft} (hLy : 0 < Ly)
    (hDx0 : 0 < Dx) (hx : Re.new Lx Mx ⟨A, B, owx⟩ Ly Sx mx Dx ipx J Vp = .ok ox) (hy : Fft.new Ly My ⟨A, B, owy⟩ 1 Sy my Dy ipy = .ok oy)
    (hSy : oy.S = 1) (hBA : B ≤ A) (hDx : ox.D = 1) (hV : ox.V = none)
    (hlx : ox.nloops = 2 → B < A → A = B + 1) (hly : oy.q ≠ 1 → oy.overwrite = false → oy.nloops = 2 → B < A → (A - B) ∣ B)
    {mult : Multiplier} {φ : ℕ → (ℕ → ℂ) → ℂ} (hm : MultSpec A B oy.index mult (fun _ => φ)) (hcj : ConjOp A φ) :
    Conv2.RFits ox oy.base mult (oy.base.innerVal 0 (fun _ => φ) []) (fun c m => c.Ready oy.Padded m) (fun m al => Conv.Buffers oy.base m none none al) := by
  have w' := Re.WF.of_new hLy hDx0 hx
  have h' := Fft.WF.of_new (by omega) hy
  obtain ⟨hL, hmm, hCC⟩ := Re.new_fields hx
  obtain ⟨how, hA, hB, hSS, _⟩ := Re.new_ow hx
  obtain ⟨hL', hmm', hC', _, _, _, hA', hB', _⟩ := Fft.new_fields hy
  have eA : oy.base.A = ox.A := by show oy.A = _; rw [hA', hA]
  have eB : oy.base.B = ox.B := by show oy.B = _; rw [hB', hB]
  have eL : oy.base.L = ox.C := by show oy.L = _; rw [hL', hCC]
  have hinn : ∀ c : Conv, c.fft = oy.base → c.mult = mult → Inner ox.A ox.B ox.C ox.C (fun c => c) c.convolveRawOffset
      (fun _ => oy.base.innerVal 0 (fun _ => φ) []) c.Bufs (c.Ready oy.Padded) := by
    intro c hc hcm
    have hsch : Conv.Sched oy.base 0 oy.K := h'.sched (by rw [hA', hB']; exact hly) (Or.inl (by rw [hA', hB']; exact hBA))
    have := Conv.inner (c := c) (x0 := 0) (padded := oy.Padded) (K := oy.K) (φ := fun _ => φ) (by rw [hc]; exact h'.base_spec)
      (by rw [hc]; exact h'.flat hC' hSy) (by rw [hc]; exact hsch)
      (by rw [hc, hcm]; show MultSpec oy.A oy.B oy.index mult _; rw [hA', hB']; exact hm) (by right; exact fun _ _ _ => rfl)
      (by rw [hc]; show oy.B ≤ oy.A; rw [hA', hB']; exact hBA)
    rw [hc, eA, eB, eL] at this
    exact this
  refine ⟨w', hV, w'.osched how (by rw [hA, hB]; exact hBA) (by rw [hA, hB]; exact hlx), ?_, ?_, hinn, ?_, ?_, eL, fun r hr => w'.bs hDx hr⟩
  · intro m al hb
    refine (Conv.new_ok h'.base_spec h'.q_pos mult hb).mono ?_
    rintro c m' ⟨h1, h2, h3, h4, h5, h6, u⟩
    refine ⟨h1, h2, h3, h4, h5, h6, u.mono ?_⟩
    rintro p ⟨W, hW, hp⟩
    exact ⟨W, hW, FftBase.inArr_buf hp⟩
  · intro m m' al hb hs
    exact ⟨hb.work.size hs, fun h1 h2 h3 => ⟨(hb.V h1 h2 h3).1.size hs, (hb.V h1 h2 h3).2⟩⟩
  · intro b X Y hXY c hc
    unfold FftBase.innerVal
    refine sum_congr rfl fun e _ => ?_
    congr 1
    refine hm.congr [] _ _ _ fun a ha => ?_
    unfold FftBase.dft
    refine sum_congr rfl fun i hi => ?_
    rw [hXY a (by rw [hA]; exact ha) i (by rw [← eL]; exact mem_range.1 hi)]
  · have := FftBase.innerVal_conj (o := oy.base) (x0 := 0) (φ := φ) (by rw [eA, hA]; exact hcj) []
    rw [eA, eL] at this
    exact this

/-- **C47**, general form.  For every transform of real data in `x` (with `Ly` copies) and every complex transform in `y`, every operation `φ` performed by the
multiplier that commutes with complex conjugation, all work arrays, every number of threads and every schedule of the parallel loops: the constructor
succeeds, and after any sequence of `convolve` calls and of writes by the user outside the work arrays, `convolve(f,offset)`
* runs to completion;
* leaves in the double `f[b][offset][Sx*i+j]` the inverse 2D DFT, divided by `Nx*Ny`, of `φ` of the 2D DFTs of the doubles of the inputs at that time;
* changes no word but those of the `B` output arrays and of the work arrays.
Conditions: `B ≤ A`; one block per pass in `x` (always the case if `Sx > 1`); the `x` transform needs no private copy of the data (true unless it is in place
with `p > 2` and `Sx > Ly`); if the two-pass schedule is used in `x`, `A=B+1`; if it is used in `y`, `A-B` divides `B`. -/
theorem C47_history2 {Lx Mx Ly My A B : ℕ} {owx owy ipx ipy : Bool} {Sx mx Dx Sy my Dy : ℕ} {J : Junk} {Vp : Ptr} {ox : Re} {oy : Fft} (hLy : 0 < Ly)
    (hDx0 : 0 < Dx) (hx : Re.new Lx Mx ⟨A, B, owx⟩ Ly Sx mx Dx ipx J Vp = .ok ox) (hy : Fft.new Ly My ⟨A, B, owy⟩ 1 Sy my Dy ipy = .ok oy)
    (hSy : oy.S = 1) (hBA : B ≤ A) (hDx : ox.D = 1) (hV : ox.V = none)
    (hlx : ox.nloops = 2 → B < A → A = B + 1) (hly : oy.q ≠ 1 → oy.overwrite = false → oy.nloops = 2 → B < A → (A - B) ∣ B)
    {mult : Multiplier} {φ : ℕ → (ℕ → ℂ) → ℂ} (hm : MultSpec A B oy.index mult (fun _ => φ)) (hcj : ConjOp A φ)
    {th : ℕ} {mem0 : Mem} {Fu : Option PtrArr} {Vu : Option Ptr} {al : Alloc2}
    (hbuf : Conv2.RBuffers ox oy.base (fun m al => Conv.Buffers oy.base m none none al) th mem0 Fu Vu al) :
    ∃ c mem1, Conv2.new ox.base oy.base mult th Fu none Vu al mem0 = .ok (c, mem1) ∧
      (∀ k, c.Bufs k → Conv2.NewBufs ox.base oy.base th Fu Vu al k) ∧
      ∀ steps : List Conv2.StepD, (∀ s ∈ steps, c.AllowedR mem0 s) →
      ∃ mem2, seqLoop steps c.stepD mem1 = .ok ((), mem2) ∧
      ∀ (s : ℕ → Sch) (f : PtrArr) (off : ℕ), c.LegalS s → c.InputsR mem0 f off → (c.convolveD s f off).Ok mem2 fun _ mem3 =>
        (∀ b < B, ∀ i < Lx, ∀ j < Ly, (mem3.dbl (f.at_ b + off) (ox.S * i + j) : ℂ) =
          convResult2 (mx * ox.q) Lx (my * oy.q) Ly (fun _ _ => φ)
            (fun a i j => (mem2.dbl (f.at_ a + off) (ox.S * i + j) : ℂ)) b i j) ∧
        (∀ p, ¬ c.Bufs p.buf → (∀ b < B, ∀ i < ox.S * Lx, p ≠ f.at_ b + off + i / 2) → mem3.val p = mem2.val p) ∧
        mem3.size = mem2.size := by
  have hfit := Conv2.rfits hLy hDx0 hx hy hSy hBA hDx hV hlx hly hm hcj
  have w' := hfit.wf
  have h' := Fft.WF.of_new (by omega) hy
  obtain ⟨hL, hmm, hCC⟩ := Re.new_fields hx
  obtain ⟨how, hA, hB, hSS, _⟩ := Re.new_ow hx
  obtain ⟨hL', hmm', hC', _, _, _, hA', hB', _⟩ := Fft.new_fields hy
  obtain ⟨c, mem1, e1, hfy, hth, hset, hr, hbn, hu⟩ := Conv2.newR_ok hfit hbuf
  refine ⟨c, mem1, e1, hbn, ?_⟩
  intro steps hst
  have hal : ∀ s ∈ steps, c.AllowedR mem1 s := by
    intro s hsm
    have := hst s hsm
    cases s with
    | write p i v => exact ⟨Mem.valid_of_size hu.size this.1, this.2⟩
    | call s g off => exact ⟨this.1, this.2.size hu.size⟩
  obtain ⟨_, mem2, e2, hr2, hs2⟩ := hset.history_ok hr steps hal
  refine ⟨mem2, e2, ?_⟩
  intro s f off hs hf
  refine (hset.convolve_ok hs hr2 (hf.size (hs2.trans hu.size))).mono ?_
  rintro _ mem3 ⟨u3, _, e3⟩
  have bN : ox.M = mx * ox.q := by rw [w'.M_eq, hmm]
  have bNy : oy.base.N = my * oy.q := by show oy.M = _; rw [h'.M_eq, hmm']
  have bLy : oy.base.L = Ly := hL'
  refine ⟨?_, ?_, u3.size⟩
  · intro b hb i hi j hj
    rw [e3 b (by rw [hB]; exact hb) i (by omega) j (by omega), convResult2_eq, hfy]
    unfold FftBase.innerVal convResult
    rw [bN, bNy, hL, ← one_div_mul_one_div]
    have hdy : ∀ (X : ℕ → ℂ) (e : ℕ), oy.base.dft 0 X e = paddedDFT (my * oy.q) Ly X e := by
      intro X e
      unfold FftBase.dft paddedDFT
      simp only [bLy, bNy, sub_zero]
    simp only [hdy, sub_zero]
    rw [mul_comm, mul_assoc]
    congr 1
    rw [mul_sum]
    refine sum_congr rfl fun e _ => ?_
    ring
  · intro p hp hpf
    refine u3.frame p ?_
    rintro (hp' | ⟨b, hb, k, hk, rfl⟩)
    · exact hp hp'
    · rw [hL] at hk
      rw [hB] at hb
      refine hpf b hb (2 * k) (by omega) ?_
      rw [Nat.mul_div_cancel_left _ (by omega)]

/-- **C47**: with `A=2`, `B=1` and `multBinary`, `Convolution2::convolve` of real data leaves in the double `Sx*i+j` of the first array the cyclic 2D
convolution of periods `Nx=mx*qx`, `Ny=my*qy` of the doubles of the two arrays, and the linear one if the requested sizes are `Mx ≥ 2Lx-1`, `My ≥ 2Ly-1`, for all
valid parameters in both directions, any number of threads, any schedules and after any history. -/
theorem C47_convolve2 {Lx Mx Ly My : ℕ} {owx owy ipx ipy : Bool} {Sx mx Dx Sy my Dy : ℕ} {J : Junk} {Vp : Ptr} {ox : Re} {oy : Fft} (hLy : 0 < Ly)
    (hDx0 : 0 < Dx) (hx : Re.new Lx Mx ⟨2, 1, owx⟩ Ly Sx mx Dx ipx J Vp = .ok ox) (hy : Fft.new Ly My ⟨2, 1, owy⟩ 1 Sy my Dy ipy = .ok oy)
    (hSy : oy.S = 1) (hDx : ox.D = 1) (hV : ox.V = none)
    {th : ℕ} {mem0 : Mem} {Fu : Option PtrArr} {Vu : Option Ptr} {al : Alloc2}
    (hbuf : Conv2.RBuffers ox oy.base (fun m al => Conv.Buffers oy.base m none none al) th mem0 Fu Vu al) :
    ∃ c mem1, Conv2.new ox.base oy.base multBinary th Fu none Vu al mem0 = .ok (c, mem1) ∧
      ∀ steps : List Conv2.StepD, (∀ s ∈ steps, c.AllowedR mem0 s) →
      ∃ mem2, seqLoop steps c.stepD mem1 = .ok ((), mem2) ∧
      ∀ (s : ℕ → Sch) (f : PtrArr) (off : ℕ), c.LegalS s → c.InputsR mem0 f off → (c.convolveD s f off).Ok mem2 fun _ mem3 =>
        ∀ i < Lx, ∀ j < Ly,
          mem3.dbl (f.at_ 0 + off) (ox.S * i + j) =
            ∑ i1 ∈ range Lx, ∑ i2 ∈ range Lx, ∑ j1 ∈ range Ly, ∑ j2 ∈ range Ly,
              (if (i1 + i2) % (mx * ox.q) = i % (mx * ox.q) ∧ (j1 + j2) % (my * oy.q) = j % (my * oy.q) then
                mem2.dbl (f.at_ 0 + off) (ox.S * i1 + j1) * mem2.dbl (f.at_ 1 + off) (ox.S * i2 + j2) else 0) ∧
          (2 * Lx - 1 ≤ Mx → 2 * Ly - 1 ≤ My → mem3.dbl (f.at_ 0 + off) (ox.S * i + j) =
            ∑ i1 ∈ range Lx, ∑ i2 ∈ range Lx, ∑ j1 ∈ range Ly, ∑ j2 ∈ range Ly,
              if i1 + i2 = i ∧ j1 + j2 = j then
                mem2.dbl (f.at_ 0 + off) (ox.S * i1 + j1) * mem2.dbl (f.at_ 1 + off) (ox.S * i2 + j2) else 0) := by
  have w' := Re.WF.of_new hLy hDx0 hx
  have h' := Fft.WF.of_new (by omega) hy
  obtain ⟨hL, hmm, hCC⟩ := Re.new_fields hx
  have hN : mx * ox.q ≠ 0 := by
    have := w'.L_pos; have := w'.L_le_M; have := w'.M_eq; rw [hmm] at this; omega
  have hN' : my * oy.q ≠ 0 := by have := h'.M_pos; have := h'.M_eq; rw [(Fft.new_fields hy).2.1] at this; omega
  obtain ⟨_, _, _, _, hMx⟩ := Re.new_ow hx
  have hMy : My ≤ my * oy.q := Fft.C10_size hy
  obtain ⟨c, mem1, e1, _, hc⟩ := C47_history2 hLy hDx0 hx hy hSy (by omega) hDx hV (fun _ _ => rfl) (fun _ _ _ _ => by simp)
    (φ := fun _ Y => Y 0 * Y 1) multBinary_spec (by
      intro b X Y h
      simp only at h ⊢
      rw [h 0 (by omega), h 1 (by omega), map_mul]) hbuf
  refine ⟨c, mem1, e1, fun steps hst => ?_⟩
  obtain ⟨mem2, e2, hc2⟩ := hc steps hst
  refine ⟨mem2, e2, fun s f off hs hf => (hc2 s f off hs hf).mono ?_⟩
  rintro _ mem3 ⟨e3, _, _⟩ i hi j hj
  have h1 := e3 0 (by omega) i hi j hj
  rw [convResult2_binary hN hN'] at h1
  refine ⟨?_, fun hx' hy' => ?_⟩
  · have h2 := h1
    unfold cyclicConv2 at h2
    apply Complex.ofReal_injective
    rw [h2]
    push_cast
    refine sum_congr rfl fun i1 _ => sum_congr rfl fun i2 _ => sum_congr rfl fun j1 _ => sum_congr rfl fun j2 _ => ?_
    split_ifs <;> simp
  · rw [cyclicConv2_linear (by omega) (by omega) _ _ hi hj] at h1
    unfold linearConv2 at h1
    apply Complex.ofReal_injective
    rw [h1]
    push_cast
    refine sum_congr rfl fun i1 _ => sum_congr rfl fun i2 _ => sum_congr rfl fun j1 _ => sum_congr rfl fun j2 _ => ?_
    split_ifs <;> simp

open Fft (exMem)

theorem exRBuffers2 {ox : Re} {oy : FftBase} {k th : ℕ} (hq : ox.q ≠ 1) (hA : max ox.A ox.B ≤ 5) (hos : ox.outputSize ≤ 100) (hws : ox.workSizeW ≤ 100)
    (hL : ox.S * ox.L ≤ 100) (hA' : max oy.A oy.B ≤ 5) (hos' : oy.outputSize ≤ 100) (hL' : oy.S * oy.L ≤ 100) :
    Conv2.RBuffers ox oy (fun m al => Conv.Buffers oy m none none al) th (exMem 100) none none (exAlloc2 k) := by
  have hD : ∀ f p, ox.view.D f p → InArr f 100 p := by
    rintro f p ⟨i, hi, rfl⟩
    exact ⟨i, by omega, rfl⟩
  have hb := View.exBuffersK (o := ox.base) (k := k) hD hA hos hws
  refine ⟨⟨hb.work, fun h1 h2 => hb.V hq h1 h2⟩, ?_, ?_, ?_⟩
  · intro t _
    have h : Outer.Buffers oy (exMem 100) none none (exAllocK (k + 100 * (t + 1))) := exOuterBuffers hA' hos' hL'
    exact ⟨h.work, fun _ h1 h2 => h.V h1 h2⟩
  · intro t _ t' _ hne i h1 h2
    have := exNewBufs hA' h1
    have := exNewBufs hA' h2
    omega
  · intro t _ i h1 h2
    have := exNewBufs (o := ox.base) hA h1
    have := exNewBufs hA' h2
    omega

/-- The hypotheses of C47 are met: `Lx=7`, `Mx=13`, `mx=4` (`p=2`, `q=4`, out of place), `Ly=2`, `Sx=3`; `My=4`, `my=2` (two residue blocks), two threads;
and so are those on the arguments of `convolve`, and on a write of the double `5/2` by the user. -/
example (J : Junk) (Vp : Ptr) : ∃ ox oy, Re.new 7 13 ⟨2, 1, false⟩ 2 3 4 1 false J Vp = .ok ox ∧ Fft.new 2 4 ⟨2, 1, false⟩ 1 1 2 1 true = .ok oy ∧
    oy.S = 1 ∧ ox.D = 1 ∧ ox.V = none ∧ ox.q = 4 ∧
    Conv2.RBuffers ox oy.base (fun m al => Conv.Buffers oy.base m none none al) 2 (exMem 100) none none (exAlloc2 0) ∧
    ∃ c mem1, Conv2.new ox.base oy.base multBinary 2 none none none (exAlloc2 0) (exMem 100) = .ok (c, mem1) ∧
      c.threads = 2 ∧ c.InputsR (exMem 100) (exArr 5) 3 ∧ c.LegalS (fun r => (List.range (ox.blocksize r)).map fun i => (i, i % 2)) ∧
      c.AllowedR (exMem 100) (.write ((exArr 5).at_ 0) 7 (5/2)) := by
  obtain ⟨ox, hx, hq, hA, hB, hC, hS, hL, hl, hos, hD, hV⟩ : ∃ o, Re.new 7 13 ⟨2, 1, false⟩ 2 3 4 1 false J Vp = .ok o ∧ o.q = 4 ∧ o.A = 2 ∧
      o.B = 1 ∧ o.C = 2 ∧ o.S = 3 ∧ o.L = 7 ∧ o.l = 4 ∧ o.outputSize ≤ 100 ∧ o.D = 1 ∧ o.V = none := by
    refine ⟨Re.newHybrid 7 ⟨2, 1, false⟩ 2 3 4 1 2 4 4 false J Vp, rfl, rfl, rfl, rfl, rfl, rfl, rfl, rfl, ?_, rfl, rfl⟩
    simp [Re.newHybrid, Re.outputSize]
  obtain ⟨oy, hy, hAy, hBy, hosy⟩ : ∃ o, Fft.new 2 4 ⟨2, 1, false⟩ 1 1 2 1 true = .ok o ∧ o.A = 2 ∧ o.B = 1 ∧ o.outputSize ≤ 100 :=
    ⟨_, rfl, rfl, rfl, by decide⟩
  obtain ⟨hL', _, hC', hS', _⟩ := Fft.new_fields hy
  have hS' : oy.S = 1 := by rw [hS']; rfl
  have hws : ox.workSizeW ≤ 100 := by unfold Re.workSizeW; split_ifs <;> omega
  have hAB : max ox.A ox.B ≤ 5 := by rw [hA, hB]; decide
  have hAB' : max oy.base.A oy.base.B ≤ 5 := by show max oy.A oy.B ≤ 5; rw [hAy, hBy]; decide
  have hb : Conv2.RBuffers ox oy.base (fun m al => Conv.Buffers oy.base m none none al) 2 (exMem 100) none none (exAlloc2 0) :=
    exRBuffers2 (by omega) hAB hos hws (by rw [hS, hL]; decide) hAB' hosy (by show oy.S * oy.L ≤ 100; rw [hS', hL']; decide)
  refine ⟨ox, oy, hx, hy, hS', hD, hV, hq, hb, ?_⟩
  have hfit := Conv2.rfits (by omega) (by omega) hx hy hS' (by omega) hD hV (fun _ _ => rfl) (fun _ _ _ _ => by simp)
    (φ := fun _ Y => Y 0 * Y 1) multBinary_spec (by
      intro b X Y h
      simp only at h ⊢
      rw [h 0 (by omega), h 1 (by omega), map_mul])
  obtain ⟨c, mem1, e1, hfy, hth, hset, _, hbn, _⟩ := Conv2.newR_ok hfit hb
  have hfx : c.x.fft = ox.base := hset.fft
  have hth2 : Conv2.newThreads ox.base 2 = 2 := by
    unfold Conv2.newThreads
    rw [if_neg]
    show ¬ ox.l < 2
    omega
  have hbuf : ∀ a < 2, ¬ c.Bufs ((exArr 5).at_ a).buf := by
    intro a ha hB
    have := exNewBufs2 (ox := ox.base) hAB hAB' (hbn _ hB)
    have h2 : 0 + 7 ≤ a := this.1
    omega
  refine ⟨c, mem1, e1, by rw [hth, hth2], ⟨?_, ?_, ?_, ?_⟩, ?_, ?_, ?_⟩
  · rw [hfx]; show ox.A ≤ 5; omega
  · intro a _ i hi
    rw [hfx] at hi
    have hi : i < (ox.S * ox.L + 1) / 2 := hi
    rw [hS, hL] at hi
    constructor
    · show (0 : ℤ) ≤ 0 + (3 : ℕ) + i
      omega
    · show (0 : ℤ) + (3 : ℕ) + i < (100 : ℕ)
      omega
  · rintro a _ a' _ hne p ⟨i, hi, rfl⟩ ⟨j, hj, h3⟩
    have : a = a' := congrArg Ptr.buf h3
    exact hne this
  · intro a ha
    rw [hfx] at ha
    have ha : a < ox.A := ha
    exact hbuf a (by omega)
  · intro r _
    rw [hfx, hth, hth2]
    refine ⟨?_, ?_⟩
    · show List.Perm (((List.range (ox.blocksize r)).map fun i => (i, i % 2)).map Prod.fst) (List.range (ox.blocksize r))
      rw [List.map_map]
      have : (Prod.fst ∘ fun i : ℕ => (i, i % 2)) = id := rfl
      rw [this, List.map_id]
    · intro y hy
      obtain ⟨i, _, rfl⟩ := List.mem_map.1 hy
      exact Nat.mod_lt _ (by omega)
  · exact exMem_block 0 100 le_rfl 3 (by omega)
  · exact hbuf 0 (by omega)

end Fftwpp
