import Verif.Proof.CorrMath
import Verif.Props.Conv2D
import Verif.Props.RealConv2
import Verif.Props.RealConv3

/-!
# C66: correlations in two and three dimensions

`Convolution2` and `Convolution3` with `multcorrelation`, for complex and real data.
-/

namespace Fftwpp
open Finset Complex

section
open Fft

/-- **C66**: after any history of calls and writes, `Convolution2::convolve` with `multcorrelation` gives the cyclic 2D correlation, and the correlation (of the lags in the
range of the array) if there is enough padding. -/
theorem C66_complex2 {Lx Mx Ly My : ℕ} {owx owy ipx ipy : Bool} {Sx mx Dx Sy my Dy : ℕ} {ox oy : Fft} (hLy : 0 < Ly)
    (hx : Fft.new Lx Mx ⟨2, 1, owx⟩ Ly Sx mx Dx ipx = .ok ox) (hy : Fft.new Ly My ⟨2, 1, owy⟩ 1 Sy my Dy ipy = .ok oy)
    (hSy : oy.S = 1) (hDx : ox.D = 1)
    {th : ℕ} {mem0 : Mem} {Fu : Option PtrArr} {Vu : Option Ptr} {al : Alloc2} (hbuf : Conv2.Buffers ox.base oy.base th mem0 Fu Vu al) :
    ∃ c mem1, Conv2.new ox.base oy.base multcorrelation th Fu none Vu al mem0 = .ok (c, mem1) ∧
      ∀ steps : List Conv2.Step, (∀ s ∈ steps, c.Allowed mem0 s) →
      ∃ mem2, seqLoop steps c.step mem1 = .ok ((), mem2) ∧
      ∀ (s : ℕ → Sch) (f : PtrArr) (off : ℕ), c.LegalS s → c.Inputs mem0 f off → (c.convolve s f off).Ok mem2 fun _ mem3 =>
        ∀ i < Lx, ∀ j < Ly,
          mem3.val (f.at_ 0 + off + (ox.S * i + j)) = cyclicCorr2 (mx * ox.q) Lx (my * oy.q) Ly
            (fun i j => mem2.val (f.at_ 0 + off + (ox.S * i + j))) (fun i j => mem2.val (f.at_ 1 + off + (ox.S * i + j))) i j ∧
          (2 * Lx - 1 ≤ Mx → 2 * Ly - 1 ≤ My → mem3.val (f.at_ 0 + off + (ox.S * i + j)) = linearCorr2 Lx Ly
            (fun i j => mem2.val (f.at_ 0 + off + (ox.S * i + j))) (fun i j => mem2.val (f.at_ 1 + off + (ox.S * i + j))) i j) := by
  have h := Fft.WF.of_new hLy hx
  have h' := Fft.WF.of_new (by omega) hy
  have hN : mx * ox.q ≠ 0 := by have := h.M_pos; have := h.M_eq; rw [(Fft.new_fields hx).2.1] at this; omega
  have hN' : my * oy.q ≠ 0 := by have := h'.M_pos; have := h'.M_eq; rw [(Fft.new_fields hy).2.1] at this; omega
  have hMx : Mx ≤ mx * ox.q := C10_size hx
  have hMy : My ≤ my * oy.q := C10_size hy
  obtain ⟨c, mem1, e1, _, hc⟩ := C17_history2 hLy hx hy hSy (by omega) hDx (fun _ _ _ => rfl) (fun _ _ _ _ => by simp)
    multcorrelation_spec (Or.inr fun _ _ _ => rfl) (fun _ => Or.inr fun _ _ _ _ => rfl) hbuf
  refine ⟨c, mem1, e1, fun steps hst => ?_⟩
  obtain ⟨mem2, e2, hc2⟩ := hc steps hst
  refine ⟨mem2, e2, fun s f off hs hf => (hc2 s f off hs hf).mono ?_⟩
  rintro _ mem3 ⟨e3, _, _⟩ i hi j hj
  have : mem3.val (f.at_ 0 + off + (ox.S * i + j)) = cyclicCorr2 (mx * ox.q) Lx (my * oy.q) Ly
      (fun i j => mem2.val (f.at_ 0 + off + (ox.S * i + j))) (fun i j => mem2.val (f.at_ 1 + off + (ox.S * i + j))) i j := by
    rw [e3 0 (by omega) i hi j hj]
    exact convResult2_corr hN hN' _ i j
  refine ⟨this, fun h1 h2 => ?_⟩
  rw [this]
  exact cyclicCorr2_linear (by omega) (by omega) _ _ hi hj

/-- **C66**: `Convolution3`. -/
theorem C66_complex3 {Lx Mx Ly My Lz Mz Cx : ℕ} {owx owy owz ipx ipy ipz : Bool} {Sx mx Dx Sy my Dy Sz mz Dz : ℕ} {ox oy oz : Fft}
    (hLy : 0 < Ly) (hLz : 0 < Lz)
    (hx : Fft.new Lx Mx ⟨2, 1, owx⟩ Cx Sx mx Dx ipx = .ok ox) (hy : Fft.new Ly My ⟨2, 1, owy⟩ Lz Sy my Dy ipy = .ok oy)
    (hz : Fft.new Lz Mz ⟨2, 1, owz⟩ 1 Sz mz Dz ipz = .ok oz)
    (hC : Cx = if oy.S = Lz then Ly * oy.S else Lz) (hS : Ly * oy.S ≤ ox.S)
    (hSz : oz.S = 1)
    (hDx : ox.D = 1) (hDy : oy.D = 1)
    {th thy : ℕ} {mem0 : Mem} {Fu : Option PtrArr} {Vu : Option Ptr} {al : Alloc3}
    (hbuf : Conv3.Buffers ox.base oy.base oz.base th thy mem0 Fu Vu al) :
    ∃ c mem1, Conv3.new ox.base oy.base oz.base multcorrelation th thy Fu none Vu al mem0 = .ok (c, mem1) ∧
      ∀ steps : List Conv3.Step, (∀ s ∈ steps, c.Allowed mem0 s) →
      ∃ mem2, seqLoop steps c.step mem1 = .ok ((), mem2) ∧
      ∀ (s : ℕ → Sch) (s2 : ℕ → ℕ → ℕ → Sch) (f : PtrArr) (off : ℕ), c.LegalS s s2 → c.Inputs mem0 f off →
        (c.convolve s s2 f off).Ok mem2 fun _ mem3 => ∀ i < Lx, ∀ j < Ly, ∀ k < Lz,
          mem3.val (f.at_ 0 + off + (ox.S * i + (oy.S * j + k))) = cyclicCorr3 (mx * ox.q) Lx (my * oy.q) Ly (mz * oz.q) Lz
            (fun i j k => mem2.val (f.at_ 0 + off + (ox.S * i + (oy.S * j + k))))
            (fun i j k => mem2.val (f.at_ 1 + off + (ox.S * i + (oy.S * j + k)))) i j k ∧
          (2 * Lx - 1 ≤ Mx → 2 * Ly - 1 ≤ My → 2 * Lz - 1 ≤ Mz →
            mem3.val (f.at_ 0 + off + (ox.S * i + (oy.S * j + k))) = linearCorr3 Lx Ly Lz
            (fun i j k => mem2.val (f.at_ 0 + off + (ox.S * i + (oy.S * j + k))))
            (fun i j k => mem2.val (f.at_ 1 + off + (ox.S * i + (oy.S * j + k)))) i j k) := by
  have hfit := Conv3.fits hLy hLz hx hy hz hC hS hSz (by omega) hDx hDy (fun _ _ _ => rfl) (fun _ _ _ => rfl)
    (fun _ _ _ _ => by simp) multcorrelation_spec (Or.inr fun _ _ _ => rfl) (fun _ => Or.inr fun _ _ _ _ => rfl) (fun _ => Or.inr fun _ _ _ _ _ => rfl)
  have h := Fft.WF.of_new (by rw [← (Fft.new_fields hx).2.2.1]; exact hfit.spx.C_pos) hx
  have h' := Fft.WF.of_new hLz hy
  have h'' := Fft.WF.of_new (by omega) hz
  have hN : mx * ox.q ≠ 0 := by have := h.M_pos; have := h.M_eq; rw [(Fft.new_fields hx).2.1] at this; omega
  have hN' : my * oy.q ≠ 0 := by have := h'.M_pos; have := h'.M_eq; rw [(Fft.new_fields hy).2.1] at this; omega
  have hN'' : mz * oz.q ≠ 0 := by have := h''.M_pos; have := h''.M_eq; rw [(Fft.new_fields hz).2.1] at this; omega
  have hMx : Mx ≤ mx * ox.q := C10_size hx
  have hMy : My ≤ my * oy.q := C10_size hy
  have hMz : Mz ≤ mz * oz.q := C10_size hz
  obtain ⟨c, mem1, e1, _, hc⟩ := C17_history3 hLy hLz hx hy hz hC hS hSz (by omega) hDx hDy (fun _ _ _ => rfl) (fun _ _ _ => rfl)
    (fun _ _ _ _ => by simp) multcorrelation_spec (Or.inr fun _ _ _ => rfl) (fun _ => Or.inr fun _ _ _ _ => rfl) (fun _ => Or.inr fun _ _ _ _ _ => rfl) hbuf
  refine ⟨c, mem1, e1, fun steps hst => ?_⟩
  obtain ⟨mem2, e2, hc2⟩ := hc steps hst
  refine ⟨mem2, e2, fun s s2 f off hs hf => (hc2 s s2 f off hs hf).mono ?_⟩
  rintro _ mem3 ⟨e3, _, _⟩ i hi j hj k hk
  have : mem3.val (f.at_ 0 + off + (ox.S * i + (oy.S * j + k))) = cyclicCorr3 (mx * ox.q) Lx (my * oy.q) Ly (mz * oz.q) Lz
      (fun i j k => mem2.val (f.at_ 0 + off + (ox.S * i + (oy.S * j + k))))
      (fun i j k => mem2.val (f.at_ 1 + off + (ox.S * i + (oy.S * j + k)))) i j k := by
    rw [e3 0 (by omega) i hi j hj k hk]
    exact convResult3_corr hN hN' hN'' _ i j k
  refine ⟨this, fun h1 h2 h3 => ?_⟩
  rw [this]
  exact cyclicCorr3_linear (by omega) (by omega) (by omega) _ _ hi hj hk

end

/-- **C66**: real data, two dimensions. -/
theorem C66_real2 {Lx Mx Ly My : ℕ} {owx owy ipx ipy : Bool} {Sx mx Dx Sy my Dy : ℕ} {J : Junk} {Vp : Ptr} {ox : Re} {oy : Fft} (hLy : 0 < Ly)
    (hDx0 : 0 < Dx) (hx : Re.new Lx Mx ⟨2, 1, owx⟩ Ly Sx mx Dx ipx J Vp = .ok ox) (hy : Fft.new Ly My ⟨2, 1, owy⟩ 1 Sy my Dy ipy = .ok oy)
    (hSy : oy.S = 1) (hDx : ox.D = 1) (hV : ox.V = none)
    {th : ℕ} {mem0 : Mem} {Fu : Option PtrArr} {Vu : Option Ptr} {al : Alloc2}
    (hbuf : Conv2.RBuffers ox oy.base (fun m al => Conv.Buffers oy.base m none none al) th mem0 Fu Vu al) :
    ∃ c mem1, Conv2.new ox.base oy.base multcorrelation th Fu none Vu al mem0 = .ok (c, mem1) ∧
      ∀ steps : List Conv2.StepD, (∀ s ∈ steps, c.AllowedR mem0 s) →
      ∃ mem2, seqLoop steps c.stepD mem1 = .ok ((), mem2) ∧
      ∀ (s : ℕ → Sch) (f : PtrArr) (off : ℕ), c.LegalS s → c.InputsR mem0 f off → (c.convolveD s f off).Ok mem2 fun _ mem3 =>
        ∀ i < Lx, ∀ j < Ly,
          mem3.dbl (f.at_ 0 + off) (ox.S * i + j) =
            ∑ i1 ∈ range Lx, ∑ i2 ∈ range Lx, ∑ j1 ∈ range Ly, ∑ j2 ∈ range Ly,
              (if ((mx * ox.q : ℕ) : ℤ) ∣ (i1 : ℤ) - i2 - i ∧ ((my * oy.q : ℕ) : ℤ) ∣ (j1 : ℤ) - j2 - j then
                mem2.dbl (f.at_ 0 + off) (ox.S * i1 + j1) * mem2.dbl (f.at_ 1 + off) (ox.S * i2 + j2) else 0) ∧
          (2 * Lx - 1 ≤ Mx → 2 * Ly - 1 ≤ My → mem3.dbl (f.at_ 0 + off) (ox.S * i + j) =
            ∑ i1 ∈ range Lx, ∑ i2 ∈ range Lx, ∑ j1 ∈ range Ly, ∑ j2 ∈ range Ly,
              if (i1 : ℤ) - i2 = i ∧ (j1 : ℤ) - j2 = j then
                mem2.dbl (f.at_ 0 + off) (ox.S * i1 + j1) * mem2.dbl (f.at_ 1 + off) (ox.S * i2 + j2) else 0) := by
  have w' := Re.WF.of_new hLy hDx0 hx
  have h' := Fft.WF.of_new (by omega) hy
  obtain ⟨hL, hmm, hCC⟩ := Re.new_fields hx
  have hN : mx * ox.q ≠ 0 := by
    have := w'.L_pos; have := w'.L_le_M; have := w'.M_eq; rw [hmm] at this; omega
  have hN' : my * oy.q ≠ 0 := by have := h'.M_pos; have := h'.M_eq; rw [(Fft.new_fields hy).2.1] at this; omega
  obtain ⟨_, _, _, _, hMx⟩ := Re.new_ow hx
  have hMy : My ≤ my * oy.q := Fft.C10_size hy
  obtain ⟨c, mem1, e1, _, hc⟩ := C47_history2 hLy hDx0 hx hy hSy (by omega) hDx hV (fun _ _ => rfl) (fun _ _ _ _ => by simp)
    (φ := fun _ Y => Y 0 * (starRingEnd ℂ) (Y 1)) multcorrelation_spec (by
      intro b X Y h
      simp only at h ⊢
      rw [h 0 (by omega), h 1 (by omega), map_mul]) hbuf
  refine ⟨c, mem1, e1, fun steps hst => ?_⟩
  obtain ⟨mem2, e2, hc2⟩ := hc steps hst
  refine ⟨mem2, e2, fun s f off hs hf => (hc2 s f off hs hf).mono ?_⟩
  rintro _ mem3 ⟨e3, _, _⟩ i hi j hj
  have h1 := e3 0 (by omega) i hi j hj
  rw [convResult2_corr hN hN'] at h1
  refine ⟨?_, fun hx' hy' => ?_⟩
  · have h2 := h1
    unfold cyclicCorr2 at h2
    apply Complex.ofReal_injective
    rw [h2]
    push_cast
    refine sum_congr rfl fun i1 _ => sum_congr rfl fun i2 _ => sum_congr rfl fun j1 _ => sum_congr rfl fun j2 _ => ?_
    split_ifs <;> simp
  · rw [cyclicCorr2_linear (by omega) (by omega) _ _ hi hj] at h1
    unfold linearCorr2 at h1
    apply Complex.ofReal_injective
    rw [h1]
    push_cast
    refine sum_congr rfl fun i1 _ => sum_congr rfl fun i2 _ => sum_congr rfl fun j1 _ => sum_congr rfl fun j2 _ => ?_
    split_ifs <;> simp

/-- **C66**: real data, three dimensions. -/
theorem C66_real3 {Lx Mx Ly My Lz Mz : ℕ} {owx owy owz ipx ipy ipz : Bool} {Sx mx Dx Sy my Dy Sz mz Dz : ℕ} {J : Junk} {Vp : Ptr}
    {ox : Re} {oy oz : Fft} {Cx : ℕ} (hLy : 0 < Ly) (hLz : 0 < Lz)
    (hDx0 : 0 < Dx) (hx : Re.new Lx Mx ⟨2, 1, owx⟩ Cx Sx mx Dx ipx J Vp = .ok ox) (hy : Fft.new Ly My ⟨2, 1, owy⟩ Lz Sy my Dy ipy = .ok oy)
    (hz : Fft.new Lz Mz ⟨2, 1, owz⟩ 1 Sz mz Dz ipz = .ok oz) (hC : Cx = Ly * oy.S)
    (hSz : oz.S = 1) (hDx : ox.D = 1) (hDy : oy.D = 1) (hV : ox.V = none)
    {th thy : ℕ} {mem0 : Mem} {Fu : Option PtrArr} {Vu : Option Ptr} {al : Alloc3}
    (hbuf : Conv3.RBuffers ox oy.base oz.base th thy mem0 Fu Vu al) :
    ∃ c mem1, Conv3.new ox.base oy.base oz.base multcorrelation th thy Fu none Vu al mem0 = .ok (c, mem1) ∧
      ∀ steps : List Conv3.StepD, (∀ s ∈ steps, c.AllowedR mem0 s) →
      ∃ mem2, seqLoop steps c.stepD mem1 = .ok ((), mem2) ∧
      ∀ (s : ℕ → Sch) (s2 : ℕ → ℕ → ℕ → Sch) (f : PtrArr) (off : ℕ), c.LegalS s s2 → c.InputsR mem0 f off →
        (c.convolveD s s2 f off).Ok mem2 fun _ mem3 => ∀ i < Lx, ∀ j < Ly, ∀ k < Lz,
          (mem3.dbl (f.at_ 0 + off) (ox.S * i + (oy.S * j + k)) : ℂ) = cyclicCorr3 (mx * ox.q) Lx (my * oy.q) Ly (mz * oz.q) Lz
            (fun i j k => (mem2.dbl (f.at_ 0 + off) (ox.S * i + (oy.S * j + k)) : ℂ))
            (fun i j k => (mem2.dbl (f.at_ 1 + off) (ox.S * i + (oy.S * j + k)) : ℂ)) i j k ∧
          (2 * Lx - 1 ≤ Mx → 2 * Ly - 1 ≤ My → 2 * Lz - 1 ≤ Mz →
            (mem3.dbl (f.at_ 0 + off) (ox.S * i + (oy.S * j + k)) : ℂ) = linearCorr3 Lx Ly Lz
            (fun i j k => (mem2.dbl (f.at_ 0 + off) (ox.S * i + (oy.S * j + k)) : ℂ))
            (fun i j k => (mem2.dbl (f.at_ 1 + off) (ox.S * i + (oy.S * j + k)) : ℂ)) i j k) := by
  have hcj : ConjOp 2 (fun _ Y => Y 0 * (starRingEnd ℂ) (Y 1)) := by
    intro b X Y h
    simp only at h ⊢
    rw [h 0 (by omega), h 1 (by omega), map_mul]
  have hfit := Conv3.rfits hLy hLz hDx0 hx hy hz hC hSz (by omega) hDx hDy hV (fun _ _ => rfl) (fun _ _ _ => rfl) (fun _ _ _ _ => by simp)
    multcorrelation_spec hcj
  have w' := hfit.wf
  have h' := Fft.WF.of_new hLz hy
  have h'' := Fft.WF.of_new (by omega) hz
  obtain ⟨hL, hmm, hCC⟩ := Re.new_fields hx
  obtain ⟨_, _, _, _, hMx⟩ := Re.new_ow hx
  have hN : mx * ox.q ≠ 0 := by
    have := w'.L_pos; have := w'.L_le_M; have := w'.M_eq; rw [hmm] at this; omega
  have hN' : my * oy.q ≠ 0 := by have := h'.M_pos; have := h'.M_eq; rw [(Fft.new_fields hy).2.1] at this; omega
  have hN'' : mz * oz.q ≠ 0 := by have := h''.M_pos; have := h''.M_eq; rw [(Fft.new_fields hz).2.1] at this; omega
  have hMy : My ≤ my * oy.q := Fft.C10_size hy
  have hMz : Mz ≤ mz * oz.q := Fft.C10_size hz
  obtain ⟨c, mem1, e1, _, hc⟩ := C48_history3 hLy hLz hDx0 hx hy hz hC hSz (by omega) hDx hDy hV (fun _ _ => rfl) (fun _ _ _ => rfl)
    (fun _ _ _ _ => by simp) multcorrelation_spec hcj hbuf
  refine ⟨c, mem1, e1, fun steps hst => ?_⟩
  obtain ⟨mem2, e2, hc2⟩ := hc steps hst
  refine ⟨mem2, e2, fun s s2 f off hs hf => (hc2 s s2 f off hs hf).mono ?_⟩
  rintro _ mem3 ⟨e3, _, _⟩ i hi j hj k hk
  have := e3 0 (by omega) i hi j hj k hk
  rw [convResult3_corr hN hN' hN''] at this
  refine ⟨this, fun h1 h2 h3 => ?_⟩
  rw [this]
  exact cyclicCorr3_linear (by omega) (by omega) (by omega) _ _ hi hj hk

/-- The hypotheses of C66 (complex data, two dimensions) are met, with padding sufficient for the correlation itself (`2·3-1≤5`, `2·2-1≤4`): those of the
example of C17, now with `multcorrelation`. -/
example : ∃ ox oy, Fft.new 3 5 ⟨2, 1, true⟩ 2 4 2 1 false = .ok ox ∧ Fft.new 2 4 ⟨2, 1, false⟩ 1 1 2 1 true = .ok oy ∧ oy.S = 1 ∧
    ox.overwrite = false ∧ oy.overwrite = false ∧ ox.D = 1 ∧ ox.nloops = 3 ∧ oy.nloops = 2 ∧
    Conv2.Buffers ox.base oy.base 2 (Fft.exMem 100) none none (exAlloc2 0) ∧
    ∃ c mem1, Conv2.new ox.base oy.base multcorrelation 2 none none none (exAlloc2 0) (Fft.exMem 100) = .ok (c, mem1) ∧
      c.threads = 2 ∧ c.Inputs (Fft.exMem 100) (exArr 5) 3 ∧ c.LegalS (fun _ => [(1, 0), (0, 1)]) := by
  obtain ⟨ox, hx, howx, hnx, hAx, hBx, hosx, hlx, hDx, hbs⟩ : ∃ o, Fft.new 3 5 ⟨2, 1, true⟩ 2 4 2 1 false = .ok o ∧ o.overwrite = false ∧
      o.nloops = 3 ∧ o.A = 2 ∧ o.B = 1 ∧ o.outputSize ≤ 100 ∧ o.l = 2 ∧ o.D = 1 ∧ ∀ r, o.base.blocksize r = 2 :=
    ⟨_, rfl, rfl, by decide, rfl, rfl, by decide, rfl, rfl, fun _ => rfl⟩
  obtain ⟨oy, hy, howy, hny, hAy, hBy, hosy⟩ : ∃ o, Fft.new 2 4 ⟨2, 1, false⟩ 1 1 2 1 true = .ok o ∧ o.overwrite = false ∧
      o.nloops = 2 ∧ o.A = 2 ∧ o.B = 1 ∧ o.outputSize ≤ 100 :=
    ⟨_, rfl, rfl, by decide, rfl, rfl, by decide⟩
  obtain ⟨hL, _, hC, hS, _⟩ := Fft.new_fields hx
  obtain ⟨hL', _, hC', hS', _⟩ := Fft.new_fields hy
  have hS : ox.S = 4 := by rw [hS]; rfl
  have hS' : oy.S = 1 := by rw [hS']; rfl
  have hA : max ox.base.A ox.base.B ≤ 5 := by show max ox.A ox.B ≤ 5; rw [hAx, hBx]; decide
  have hA' : max oy.base.A oy.base.B ≤ 5 := by show max oy.A oy.B ≤ 5; rw [hAy, hBy]; decide
  have hb : Conv2.Buffers ox.base oy.base 2 (Fft.exMem 100) none none (exAlloc2 0) :=
    exBuffers2 hA hosx (by show ox.S * ox.L ≤ 100; rw [hS, hL]; decide) hA' hosy (by show oy.S * oy.L ≤ 100; rw [hS', hL']; decide)
  refine ⟨ox, oy, hx, hy, hS', howx, howy, hDx, hnx, hny, hb, ?_⟩
  have hfit := Conv2.fits (by omega) hx hy hS' (by omega) hDx (fun _ _ _ => rfl) (fun _ _ _ _ => by simp) multcorrelation_spec
    (Or.inr fun _ _ _ => rfl) (fun _ => Or.inr fun _ _ _ _ => rfl)
  obtain ⟨c, mem1, e1, hfx, hfy, hth, _, _, hbn, _⟩ := Conv2.new_ok hfit hb
  have hth2 : Conv2.newThreads ox.base 2 = 2 := by
    unfold Conv2.newThreads
    rw [if_neg]
    show ¬ ox.l < 2
    omega
  refine ⟨c, mem1, e1, by rw [hth, hth2], ⟨?_, ?_, ?_, ?_, fun _ a _ a' _ hne => hne⟩, ?_⟩
  · rw [hfx]; show ox.A ≤ 5; omega
  · intro a _ i hi
    rw [hfx] at hi
    have hi : i < ox.S * ox.L := hi
    rw [hS, hL] at hi
    constructor
    · show (0 : ℤ) ≤ 0 + (3 : ℕ) + i
      omega
    · show (0 : ℤ) + (3 : ℕ) + i < (100 : ℕ)
      omega
  · intro a _ a' _ hne p h1 h2
    have e1 := FftBase.data_buf h1
    have e2 := FftBase.data_buf h2
    exact hne (e1.symm.trans e2)
  · intro a ha hB
    rw [hfx] at ha
    have ha : a < ox.A := ha
    have := exNewBufs2 hA hA' (hbn _ hB)
    have h2 : 0 + 7 ≤ a := this.1
    omega
  · intro r _
    rw [hfx, hbs, hth, hth2]
    exact ⟨by beta_reduce; decide, by beta_reduce; decide⟩

end Fftwpp
