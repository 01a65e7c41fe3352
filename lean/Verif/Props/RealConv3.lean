import Verif.Proof.ROuter3
import Verif.Props.RealConv2

/-!
# C48: convolutions of real data in three dimensions
-/

namespace Fftwpp
open Finset
local notation "conj" => starRingEnd ℂ

/-- The transforms in the three directions fit together. -/
theorem Conv3.rfits {Lx Mx Ly My Lz Mz A B : ℕ} {owx owy owz ipx ipy ipz : Bool} {Sx mx Dx Sy my Dy Sz mz Dz : ℕ} {J : Junk} {Vp : Ptr}
    {ox : Re} {oy oz : Fft} {Cx : ℕ} (hLy : 0 < Ly) (hLz : 0 < Lz)
    (hDx0 : 0 < Dx) (hx : Re.new Lx Mx ⟨A, B, owx⟩ Cx Sx mx Dx ipx J Vp = .ok ox) (hy : Fft.new Ly My ⟨A, B, owy⟩ Lz Sy my Dy ipy = .ok oy)
    (hz : Fft.new Lz Mz ⟨A, B, owz⟩ 1 Sz mz Dz ipz = .ok oz) (hC : Cx = Ly * oy.S)
    (hSz : oz.S = 1) (hBA : B ≤ A) (hDx : ox.D = 1) (hDy : oy.D = 1) (hV : ox.V = none)
    (hlx : ox.nloops = 2 → B < A → A = B + 1) (hly : oy.overwrite = false → oy.nloops = 2 → B < A → A = B + 1)
    (hlz : oz.q ≠ 1 → oz.overwrite = false → oz.nloops = 2 → B < A → (A - B) ∣ B)
    {mult : Multiplier} {φ : ℕ → (ℕ → ℂ) → ℂ} (hm : MultSpec A B oz.index mult (fun _ => φ)) (hcj : ConjOp A φ) :
    Conv3.RFits ox oy.base oz.base mult oy.Padded oz.Padded oz.K φ := by
  have h' := Fft.WF.of_new hLz hy
  obtain ⟨hL', hmm', hC', _, _, _, hA', hB', _⟩ := Fft.new_fields hy
  have hCS : oy.C ≤ oy.S := h'.C_le_S
  have hCx : 0 < Cx := by rw [hC]; exact Nat.mul_pos hLy (by omega)
  have w' := Re.WF.of_new hCx hDx0 hx
  obtain ⟨hL, hmm, hCC⟩ := Re.new_fields hx
  obtain ⟨how, hA, hB, hSS, _⟩ := Re.new_ow hx
  refine ⟨w', hV, w'.osched how (by rw [hA, hB]; exact hBA) (by rw [hA, hB]; exact hlx),
    Conv2.fits hLz hy hz hSz hBA hDy hly hlz hm (Or.inr fun _ _ _ => rfl) (fun _ => Or.inr fun _ _ _ _ => rfl), ?_, ?_, hCS, ?_, ?_,
    fun r hr => w'.bs hDx hr, by rw [hA]; exact hcj⟩
  · show oy.A = ox.A; rw [hA, hA']
  · show oy.B = ox.B; rw [hB, hB']
  · show ox.C = oy.L * oy.S
    rw [hCC, hC, hL']
  · show oy.L * oy.S ≤ ox.S
    rw [hL', ← hC, ← hCC]
    exact w'.C_le_S

/-- **C48**, general form: as `C47_history2` for a `Convolution3` from a transform of real data in `x` (of `Ly*Sy` copies) and complex transforms in `y` and
`z`.  The data are rows of `Lz` doubles, with strides `Sy ≥ Lz` (`y`) and `Sx ≥ Ly*Sy` (`x`), in doubles. -/
theorem C48_history3 {Lx Mx Ly My Lz Mz A B : ℕ} {owx owy owz ipx ipy ipz : Bool} {Sx mx Dx Sy my Dy Sz mz Dz : ℕ} {J : Junk} {Vp : Ptr}
    {ox : Re} {oy oz : Fft} {Cx : ℕ} (hLy : 0 < Ly) (hLz : 0 < Lz)
    (hDx0 : 0 < Dx) (hx : Re.new Lx Mx ⟨A, B, owx⟩ Cx Sx mx Dx ipx J Vp = .ok ox) (hy : Fft.new Ly My ⟨A, B, owy⟩ Lz Sy my Dy ipy = .ok oy)
    (hz : Fft.new Lz Mz ⟨A, B, owz⟩ 1 Sz mz Dz ipz = .ok oz) (hC : Cx = Ly * oy.S)
    (hSz : oz.S = 1) (hBA : B ≤ A) (hDx : ox.D = 1) (hDy : oy.D = 1) (hV : ox.V = none)
    (hlx : ox.nloops = 2 → B < A → A = B + 1) (hly : oy.overwrite = false → oy.nloops = 2 → B < A → A = B + 1)
    (hlz : oz.q ≠ 1 → oz.overwrite = false → oz.nloops = 2 → B < A → (A - B) ∣ B)
    {mult : Multiplier} {φ : ℕ → (ℕ → ℂ) → ℂ} (hm : MultSpec A B oz.index mult (fun _ => φ)) (hcj : ConjOp A φ)
    {th thy : ℕ} {mem0 : Mem} {Fu : Option PtrArr} {Vu : Option Ptr} {al : Alloc3}
    (hbuf : Conv3.RBuffers ox oy.base oz.base th thy mem0 Fu Vu al) :
    ∃ c mem1, Conv3.new ox.base oy.base oz.base mult th thy Fu none Vu al mem0 = .ok (c, mem1) ∧
      (∀ k, c.Bufs k → Conv3.NewBufsR ox oy.base oz.base th thy Fu Vu al k) ∧
      ∀ steps : List Conv3.StepD, (∀ s ∈ steps, c.AllowedR mem0 s) →
      ∃ mem2, seqLoop steps c.stepD mem1 = .ok ((), mem2) ∧
      ∀ (s : ℕ → Sch) (s2 : ℕ → ℕ → ℕ → Sch) (f : PtrArr) (off : ℕ), c.LegalS s s2 → c.InputsR mem0 f off →
        (c.convolveD s s2 f off).Ok mem2 fun _ mem3 =>
        (∀ b < B, ∀ i < Lx, ∀ j < Ly, ∀ k < Lz, (mem3.dbl (f.at_ b + off) (ox.S * i + (oy.S * j + k)) : ℂ) =
          convResult3 (mx * ox.q) Lx (my * oy.q) Ly (mz * oz.q) Lz (fun _ _ _ => φ)
            (fun a i j k => (mem2.dbl (f.at_ a + off) (ox.S * i + (oy.S * j + k)) : ℂ)) b i j k) ∧
        (∀ p, ¬ c.Bufs p.buf → (∀ b < B, ∀ i < ox.S * Lx, p ≠ f.at_ b + off + i / 2) → mem3.val p = mem2.val p) ∧
        mem3.size = mem2.size := by
  have hfit := Conv3.rfits hLy hLz hDx0 hx hy hz hC hSz hBA hDx hDy hV hlx hly hlz hm hcj
  have w' := hfit.wf
  have h' := Fft.WF.of_new hLz hy
  have h'' := Fft.WF.of_new (by omega) hz
  obtain ⟨hL, hmm, hCC⟩ := Re.new_fields hx
  obtain ⟨how, hA, hB, hSS, _⟩ := Re.new_ow hx
  obtain ⟨hL', hmm', hC', _, _, _, hA', hB', _⟩ := Fft.new_fields hy
  obtain ⟨hL'', hmm'', hC'', _, _, _, hA'', hB'', _⟩ := Fft.new_fields hz
  obtain ⟨c, mem1, e1, hfy, hfz, hth, _, hset, hr, hbn, hu⟩ := Conv3.newR_ok hfit hbuf
  refine ⟨c, mem1, e1, hbn, ?_⟩
  intro steps hst
  have hal : ∀ s ∈ steps, c.AllowedR mem1 s := by
    intro s hsm
    have := hst s hsm
    cases s with
    | write p i v => exact ⟨Mem.valid_of_size hu.size this.1, this.2⟩
    | call s s2 g off => exact ⟨this.1, this.2.size hu.size⟩
  obtain ⟨_, mem2, e2, hr2, hs2⟩ := hset.history_ok hr steps hal
  refine ⟨mem2, e2, ?_⟩
  intro s s2 f off hs hf
  refine (hset.convolve_ok hs hr2 (hf.size (hs2.trans hu.size))).mono ?_
  rintro _ mem3 ⟨u3, _, e3⟩
  have bN : ox.M = mx * ox.q := by rw [w'.M_eq, hmm]
  have bNy : c.ffty.N = my * oy.q := by rw [hfy]; show oy.M = _; rw [h'.M_eq, hmm']
  have bLy : c.ffty.L = Ly := by rw [hfy]; exact hL'
  have bCy : c.ffty.C = Lz := by rw [hfy]; exact hC'
  have bSy : c.ffty.S = oy.S := by rw [hfy]; rfl
  have bNz : c.fftz.N = mz * oz.q := by rw [hfz]; show oz.M = _; rw [h''.M_eq, hmm'']
  have bLz : c.fftz.L = Lz := by rw [hfz]; exact hL''
  refine ⟨?_, ?_, u3.size⟩
  · intro b hb i hi j hj k hk
    have := e3 b (by rw [hB]; exact hb) i (by omega) j (by omega) k (by omega)
    rw [bSy] at this
    rw [this, convResult3_eq]
    simp only [convResult2_eq]
    unfold FftBase.val2 FftBase.innerVal convResult
    rw [bN, bNy, bNz, bCy, hL, ← one_div_mul_one_div]
    have hdy : ∀ (X : ℕ → ℂ) (e : ℕ), c.ffty.dft 0 X e = paddedDFT (my * oy.q) Ly X e := by
      intro X e
      unfold FftBase.dft paddedDFT
      simp only [bLy, bNy, sub_zero]
    have hdz : ∀ (X : ℕ → ℂ) (e : ℕ), c.fftz.dft 0 X e = paddedDFT (mz * oz.q) Lz X e := by
      intro X e
      unfold FftBase.dft paddedDFT
      simp only [bLz, bNz, sub_zero]
    simp only [hdy, hdz, sub_zero]
    rw [mul_comm, mul_assoc]
    congr 1
    rw [mul_sum]
    refine sum_congr rfl fun ex _ => ?_
    rw [Nat.mul_add_div (by omega), Nat.mul_add_mod, Nat.div_eq_of_lt hk, Nat.mod_eq_of_lt hk, Nat.add_zero, ← mul_assoc,
      ← one_div_mul_one_div, mul_assoc (1 / _), mul_sum]
    congr 2
    refine sum_congr rfl fun ey _ => ?_
    rw [← mul_assoc]
    refine congrArg (fun z => z * _) (congrArg (fun z => _ * z) (sum_congr rfl fun ez _ => congrArg (fun z => z * _) ?_))
    refine hm.congr [] _ _ _ fun a _ => ?_
    unfold paddedDFT
    refine sum_congr rfl fun k' hk' => ?_
    congr 1
    refine sum_congr rfl fun j' _ => ?_
    have hk' := mem_range.1 hk'
    beta_reduce
    rw [Nat.mul_add_div (by omega), Nat.mul_add_mod, Nat.div_eq_of_lt hk', Nat.mod_eq_of_lt hk', Nat.add_zero]
  · intro p hp hpf
    refine u3.frame p ?_
    rintro (hp' | ⟨b, hb, k, hk, rfl⟩)
    · exact hp hp'
    · rw [hL] at hk
      rw [hB] at hb
      refine hpf b hb (2 * k) (by omega) ?_
      rw [Nat.mul_div_cancel_left _ (by omega)]

/-- **C48**: with `A=2`, `B=1` and `multBinary`, `Convolution3::convolve` of real data leaves in the doubles of the first array the cyclic 3D convolution of
periods `Nx`, `Ny`, `Nz`, and the linear one if the requested sizes are at least `2L-1` in each direction. -/
theorem C48_convolve3 {Lx Mx Ly My Lz Mz : ℕ} {owx owy owz ipx ipy ipz : Bool} {Sx mx Dx Sy my Dy Sz mz Dz : ℕ} {J : Junk} {Vp : Ptr}
    {ox : Re} {oy oz : Fft} {Cx : ℕ} (hLy : 0 < Ly) (hLz : 0 < Lz)
    (hDx0 : 0 < Dx) (hx : Re.new Lx Mx ⟨2, 1, owx⟩ Cx Sx mx Dx ipx J Vp = .ok ox) (hy : Fft.new Ly My ⟨2, 1, owy⟩ Lz Sy my Dy ipy = .ok oy)
    (hz : Fft.new Lz Mz ⟨2, 1, owz⟩ 1 Sz mz Dz ipz = .ok oz) (hC : Cx = Ly * oy.S)
    (hSz : oz.S = 1) (hDx : ox.D = 1) (hDy : oy.D = 1) (hV : ox.V = none)
    {th thy : ℕ} {mem0 : Mem} {Fu : Option PtrArr} {Vu : Option Ptr} {al : Alloc3}
    (hbuf : Conv3.RBuffers ox oy.base oz.base th thy mem0 Fu Vu al) :
    ∃ c mem1, Conv3.new ox.base oy.base oz.base multBinary th thy Fu none Vu al mem0 = .ok (c, mem1) ∧
      ∀ steps : List Conv3.StepD, (∀ s ∈ steps, c.AllowedR mem0 s) →
      ∃ mem2, seqLoop steps c.stepD mem1 = .ok ((), mem2) ∧
      ∀ (s : ℕ → Sch) (s2 : ℕ → ℕ → ℕ → Sch) (f : PtrArr) (off : ℕ), c.LegalS s s2 → c.InputsR mem0 f off →
        (c.convolveD s s2 f off).Ok mem2 fun _ mem3 => ∀ i < Lx, ∀ j < Ly, ∀ k < Lz,
          (mem3.dbl (f.at_ 0 + off) (ox.S * i + (oy.S * j + k)) : ℂ) = cyclicConv3 (mx * ox.q) Lx (my * oy.q) Ly (mz * oz.q) Lz
            (fun i j k => (mem2.dbl (f.at_ 0 + off) (ox.S * i + (oy.S * j + k)) : ℂ))
            (fun i j k => (mem2.dbl (f.at_ 1 + off) (ox.S * i + (oy.S * j + k)) : ℂ)) i j k ∧
          (2 * Lx - 1 ≤ Mx → 2 * Ly - 1 ≤ My → 2 * Lz - 1 ≤ Mz →
            (mem3.dbl (f.at_ 0 + off) (ox.S * i + (oy.S * j + k)) : ℂ) = linearConv3 Lx Ly Lz
            (fun i j k => (mem2.dbl (f.at_ 0 + off) (ox.S * i + (oy.S * j + k)) : ℂ))
            (fun i j k => (mem2.dbl (f.at_ 1 + off) (ox.S * i + (oy.S * j + k)) : ℂ)) i j k) := by
  have hcj : ConjOp 2 (fun _ Y => Y 0 * Y 1) := by
    intro b X Y h
    simp only at h ⊢
    rw [h 0 (by omega), h 1 (by omega), map_mul]
  have hfit := Conv3.rfits hLy hLz hDx0 hx hy hz hC hSz (by omega) hDx hDy hV (fun _ _ => rfl) (fun _ _ _ => rfl) (fun _ _ _ _ => by simp)
    multBinary_spec hcj
  have w' := hfit.wf
  have h' := Fft.WF.of_new hLz hy
  have h'' := Fft.WF.of_new (by omega) hz
  obtain ⟨hL, hmm, hCC⟩ := Re.new_fields hx
  obtain ⟨_, _, _, _, hMx⟩ := Re.new_ow hx
  have hN : mx * ox.q ≠ 0 := by
    have := w'.L_pos; have := w'.L_le_M; have := w'.M_eq; rw [hmm] at this; omega
  have hN' : my * oy.q ≠ 0 := by have := h'.M_pos; have := h'.M_eq; rw [(Fft.new_fields hy).2.1] at this; omega
  have hN'' : mz * oz.q ≠ 0 := by have := h''.M_pos; have := h''.M_eq; rw [(Fft.new_fields hz).2.1] at this; omega
  have hMy : My ≤ my * oy.q := Fft.C10_size hy
  have hMz : Mz ≤ mz * oz.q := Fft.C10_size hz
  obtain ⟨c, mem1, e1, _, hc⟩ := C48_history3 hLy hLz hDx0 hx hy hz hC hSz (by omega) hDx hDy hV (fun _ _ => rfl) (fun _ _ _ => rfl)
    (fun _ _ _ _ => by simp) multBinary_spec hcj hbuf
  refine ⟨c, mem1, e1, fun steps hst => ?_⟩
  obtain ⟨mem2, e2, hc2⟩ := hc steps hst
  refine ⟨mem2, e2, fun s s2 f off hs hf => (hc2 s s2 f off hs hf).mono ?_⟩
  rintro _ mem3 ⟨e3, _, _⟩ i hi j hj k hk
  have := e3 0 (by omega) i hi j hj k hk
  rw [convResult3_binary hN hN' hN''] at this
  refine ⟨this, fun h1 h2 h3 => ?_⟩
  rw [this]
  exact cyclicConv3_linear (by omega) (by omega) (by omega) _ _ hi hj hk

open Fft (exMem)

/-- The hypotheses of C48 are met, with gaps in the rows: `Lx=7`, `Mx=13`, `mx=4`, `Sx=7`; `Ly=2`, `My=4`, `my=2`, `Sy=3`; `Lz=2`, `Mz=3`, `mz=2`; two
threads. -/
example (J : Junk) (Vp : Ptr) : ∃ ox oy oz, Re.new 7 13 ⟨2, 1, false⟩ 6 7 4 1 false J Vp = .ok ox ∧ Fft.new 2 4 ⟨2, 1, false⟩ 2 3 2 1 false = .ok oy ∧
    Fft.new 2 3 ⟨2, 1, false⟩ 1 1 2 1 true = .ok oz ∧ 6 = 2 * oy.S ∧ oz.S = 1 ∧ ox.D = 1 ∧ oy.D = 1 ∧ ox.V = none ∧ ox.q = 4 ∧
    Conv3.RBuffers ox oy.base oz.base 2 1 (exMem 100) none none exAlloc3 ∧
    ∃ c mem1, Conv3.new ox.base oy.base oz.base multBinary 2 1 none none none exAlloc3 (exMem 100) = .ok (c, mem1) ∧
      c.threads = 2 ∧ c.InputsR (exMem 100) (exArr 5) 3 ∧
      c.LegalS (fun r => (List.range (ox.blocksize r)).map fun i => (i, i % 2)) (fun _ _ _ => [(0, 0), (1, 0)]) ∧
      c.AllowedR (exMem 100) (.write ((exArr 5).at_ 0) 7 (5/2)) := by
  obtain ⟨ox, hx, hq, hAx, hBx, hC, hS, hL, hl, hosx, hDx, hV⟩ : ∃ o, Re.new 7 13 ⟨2, 1, false⟩ 6 7 4 1 false J Vp = .ok o ∧ o.q = 4 ∧ o.A = 2 ∧
      o.B = 1 ∧ o.C = 6 ∧ o.S = 7 ∧ o.L = 7 ∧ o.l = 4 ∧ o.outputSize ≤ 100 ∧ o.D = 1 ∧ o.V = none := by
    refine ⟨Re.newHybrid 7 ⟨2, 1, false⟩ 6 7 4 1 2 4 4 false J Vp, rfl, rfl, rfl, rfl, rfl, rfl, rfl, rfl, ?_, rfl, rfl⟩
    simp [Re.newHybrid, Re.outputSize]
  obtain ⟨oy, hy, hAy, hBy, hosy, hly, hDy, hbsy⟩ : ∃ o, Fft.new 2 4 ⟨2, 1, false⟩ 2 3 2 1 false = .ok o ∧
      o.A = 2 ∧ o.B = 1 ∧ o.outputSize ≤ 100 ∧ o.l = 2 ∧ o.D = 1 ∧ ∀ r, o.base.blocksize r = 2 :=
    ⟨_, rfl, rfl, rfl, by decide, rfl, rfl, fun _ => rfl⟩
  obtain ⟨oz, hz, hAz, hBz, hosz⟩ : ∃ o, Fft.new 2 3 ⟨2, 1, false⟩ 1 1 2 1 true = .ok o ∧ o.A = 2 ∧ o.B = 1 ∧ o.outputSize ≤ 100 :=
    ⟨_, rfl, rfl, rfl, by decide⟩
  obtain ⟨hL', _, hC', hS', _⟩ := Fft.new_fields hy
  obtain ⟨hL'', _, hC'', hS'', _⟩ := Fft.new_fields hz
  have hS' : oy.S = 3 := by rw [hS']; rfl
  have hS'' : oz.S = 1 := by rw [hS'']; rfl
  have hws : ox.workSizeW ≤ 100 := by unfold Re.workSizeW; split_ifs <;> omega
  have hA : max ox.base.A ox.base.B ≤ 5 := by show max ox.A ox.B ≤ 5; rw [hAx, hBx]; decide
  have hA' : max oy.base.A oy.base.B ≤ 5 := by show max oy.A oy.B ≤ 5; rw [hAy, hBy]; decide
  have hA'' : max oz.base.A oz.base.B ≤ 5 := by show max oz.A oz.B ≤ 5; rw [hAz, hBz]; decide
  have hth2 : Conv2.newThreads ox.base 2 = 2 := by
    unfold Conv2.newThreads
    rw [if_neg]
    show ¬ ox.l < 2
    omega
  have hthY : Conv3.newThreadsY ox.base 2 1 = 1 := by
    unfold Conv3.newThreadsY
    rw [if_neg]
    show ¬ ox.l < 2
    omega
  have hth1 : Conv2.newThreads oy.base 1 = 1 := by unfold Conv2.newThreads; split_ifs <;> rfl
  have hb : Conv3.RBuffers ox oy.base oz.base 2 1 (exMem 100) none none exAlloc3 := by
    have hD : ∀ f p, ox.view.D f p → InArr f 100 p := by
      rintro f p ⟨i, hi, rfl⟩
      rw [hS, hL] at hi
      exact ⟨i, by omega, rfl⟩
    have hb := View.exBuffersK (o := ox.base) (k := 0) hD hA hosx hws
    refine ⟨⟨hb.work, fun h1 h2 => hb.V (by show ox.q ≠ 1; omega) h1 h2⟩, ?_, ?_, ?_⟩
    · intro t _
      exact exBuffers2 hA' hosy (by show oy.S * oy.L ≤ 100; rw [hS', hL']; decide) hA'' hosz
        (by show oz.S * oz.L ≤ 100; rw [hS'', hL'']; decide)
    · intro t _ t' _ hne i h1 h2
      have h1 := exNewBufs2 hA' hA'' h1
      have h2 := exNewBufs2 hA' hA'' h2
      rw [hthY, hth1] at h1 h2
      omega
    · intro t _ i h1 h2
      have h1 := exNewBufs (o := ox.base) hA h1
      have h2 := exNewBufs2 hA' hA'' h2
      omega
  have hCx : 6 = 2 * oy.S := by rw [hS']
  refine ⟨ox, oy, oz, hx, hy, hz, hCx, hS'', hDx, hDy, hV, hq, hb, ?_⟩
  have hfit := Conv3.rfits (by omega) (by omega) (by omega) hx hy hz hCx hS'' (by omega) hDx hDy hV (fun _ _ => rfl)
    (fun _ _ _ => rfl) (fun _ _ _ _ => by simp) (φ := fun _ Y => Y 0 * Y 1) multBinary_spec (by
      intro b X Y h
      simp only at h ⊢
      rw [h 0 (by omega), h 1 (by omega), map_mul])
  obtain ⟨c, mem1, e1, hfy, hfz, hth, hthy, hset, _, hbn, _⟩ := Conv3.newR_ok hfit hb
  have hfx : c.x.fft = ox.base := hset.fft
  have hbuf : ∀ a < 2, ¬ c.Bufs ((exArr 5).at_ a).buf := by
    intro a ha hB
    have hB := hbn _ hB
    have h7 : 7 ≤ a := by
      rcases hB with hB | ⟨t, _, hB⟩
      · have := exNewBufs (o := ox.base) hA hB
        have h2 : 0 + 7 ≤ a := this.1
        omega
      · have := exNewBufs2 hA' hA'' hB
        have h2 : 1000 * (t + 1) + 7 ≤ a := this.1
        omega
    omega
  refine ⟨c, mem1, e1, by rw [hth, hth2], ⟨?_, ?_, ?_, ?_⟩, ?_, ?_, ?_⟩
  · rw [hfx]; show ox.A ≤ 5; omega
  · intro a _ i hi
    rw [hfx] at hi
    have hi : i < (ox.S * ox.L + 1) / 2 := hi
    rw [hS, hL] at hi
    constructor
    · show (0 : ℤ) ≤ 0 + (3 : ℕ) + i
      omega
    · show (0 : ℤ) + (3 : ℕ) + i < (100 : ℕ)
      omega
  · rintro a _ a' _ hne p ⟨i, hi, rfl⟩ ⟨j, hj, h3⟩
    have : a = a' := congrArg Ptr.buf h3
    exact hne this
  · intro a ha
    rw [hfx] at ha
    have ha : a < ox.A := ha
    exact hbuf a (by omega)
  · intro r _
    rw [hfx, hth, hth2]
    refine ⟨⟨?_, ?_⟩, ?_⟩
    · show List.Perm (((List.range (ox.blocksize r)).map fun i => (i, i % 2)).map Prod.fst) (List.range (ox.blocksize r))
      rw [List.map_map]
      have : (Prod.fst ∘ fun i : ℕ => (i, i % 2)) = id := rfl
      rw [this, List.map_id]
    · intro y hy
      obtain ⟨i, _, rfl⟩ := List.mem_map.1 hy
      exact Nat.mod_lt _ (by omega)
    · intro i _ t ht ry _
      have ht' : t < c.threads := by rw [hth, hth2]; exact ht
      rw [hset.fy t ht', hfy, hbsy, hthy t ht', hthY, hth1]
      exact ⟨by beta_reduce; decide, by beta_reduce; decide⟩
  · exact exMem_block 0 100 le_rfl 3 (by omega)
  · exact hbuf 0 (by omega)

end Fftwpp
