import Verif.Proof.Wrapper3

/-!
# C59: the convolutions of the C and Python interfaces

The plans are chosen by the optimizer, for all results of its timings.
-/

namespace Fftwpp

/-- The default size of Hermitian data holds the data, and pads enough. -/
theorem wrapSizeH_facts {L : ℕ} (hL : 1 ≤ L) (hM : 2 * L ≤ 2 ^ 27) : L ≤ 3 * ceilquotient L 2 - 2 * (L % 2) ∧
    3 * ceilquotient L 2 - 2 * (L % 2) ≤ 2 ^ 27 ∧ 3 * ceilquotient L 2 ≤ 3 * ceilquotient L 2 - 2 * (L % 2) + 2 ∧
    2 * ((L + 1) / 2 - 1) + L / 2 < 3 * ceilquotient L 2 - 2 * (L % 2) := by
  obtain ⟨n, hn | hn⟩ : ∃ n, L = 2 * n ∨ L = 2 * n + 1 := ⟨L / 2, by omega⟩
  · rw [show ceilquotient L 2 = n by unfold ceilquotient; omega]
    omega
  · rw [show ceilquotient L 2 = n + 1 by unfold ceilquotient; omega]
    omega

/-- **C59** `fftwpp_create_conv1d` and `fftwpp_conv1d_convolve`: whatever the optimizer measures, the object is built, and after any history of
allowed writes and convolutions a call leaves the linear convolution of the two inputs in the first. -/
theorem C59_conv1d (k : Clock) {L : ℕ} (hL : 1 ≤ L) (hM : 2 * L - 1 ≤ 2 ^ 27) :
    ∃ o, Fft.opt k L (2 * L - 1) ⟨2, 1, true⟩ 1 = .ok o ∧ ∀ (mem0 : Mem) (al : Alloc), Conv.Buffers o.base mem0 none none al →
    ∃ c mem1, Cwrap.create_conv1d k L al mem0 = .ok (c, mem1) ∧
      ∀ steps : List Conv.Step, (∀ s ∈ steps, c.Allowed mem0 s) →
      ∃ mem2, seqLoop steps c.step mem1 = .ok ((), mem2) ∧
      ∀ a b : Ptr, c.Inputs mem0 (twoArr a b) → (Cwrap.conv1d_convolve c a b).Ok mem2 fun _ mem3 =>
        ∀ i < L, mem3.val (a + i) = linearConv L (fun i => mem2.val (a + i)) (fun j => mem2.val (b + j)) i := by
  obtain ⟨m, D, ip, o, e, hnew, hS, -⟩ := Fft.opt_ok k (M := 2 * L - 1) ⟨2, 1, true⟩ hL (by omega) hM le_rfl
  refine ⟨o, e, fun mem0 al hb => ?_⟩
  obtain ⟨c, mem1, e1, H⟩ := C10_convolve hnew hS hb
  refine ⟨c, mem1, ?_, fun steps hs => ?_⟩
  · unfold Cwrap.create_conv1d HybridConvolution.new wrapSize
    rw [if_pos rfl, show 2 * L - 2 + 1 = 2 * L - 1 by omega, e]
    exact e1
  obtain ⟨mem2, e2, H2⟩ := H steps hs
  refine ⟨mem2, e2, fun a b hi => (H2 _ hi).mono fun _ mem3 h i hi => ?_⟩
  exact (h i hi).2 le_rfl

/-- **C59** `fftwpp_create_hconv1d` and `fftwpp_hconv1d_convolve`: the inputs are the nonnegative-frequency halves of Hermitian data, and the
result is the half of their linear convolution. -/
theorem C59_hconv1d (k : Clock) {L align : ℕ} (J : Junk) (hal : 0 < align) (hL : 1 ≤ L) (hM : 2 * L ≤ 2 ^ 27) :
    ∃ o, Herm.opt k L (3 * ceilquotient L 2 - 2 * (L % 2)) ⟨2, 1, true⟩ align J = .ok o ∧
    ∀ (mem0 : Mem) (al : Alloc), o.view.Buffers o.base mem0 none none al →
    ∃ c mem1, Cwrap.create_hconv1d k L align J al mem0 = .ok (c, mem1) ∧
      ∀ steps : List Conv.Step, (∀ s ∈ steps, o.view.Allowed c mem0 s) →
      ∃ mem2, seqLoop steps c.step mem1 = .ok ((), mem2) ∧
      ∀ a b : Ptr, o.view.Inputs c mem0 (twoArr a b) → (mem2.val a).im = 0 → (mem2.val b).im = 0 →
        (Cwrap.hconv1d_convolve c a b).Ok mem2 fun _ mem3 => ∀ i < ceilquotient L 2,
          mem3.val (a + i) = hermLin (ceilquotient L 2) (fun i => mem2.val (a + i)) (fun j => mem2.val (b + j)) i := by
  have hc : ceilquotient L 2 = (L + 1) / 2 := by unfold ceilquotient; omega
  have hc1 : ∃ j < 2, L = 2 * ((L + 1) / 2) - j ∧ j = L % 2 := ⟨L % 2, by omega, by omega, rfl⟩
  obtain ⟨m, D, ip, o, e, hnew, hD⟩ := Herm.opt_ok k (M := 3 * ceilquotient L 2 - 2 * (L % 2)) ⟨2, 1, true⟩ align J hL (by rw [hc]; omega) (by rw [hc]; omega)
  refine ⟨o, e, fun mem0 al hb => ?_⟩
  obtain ⟨c, mem1, e1, H⟩ := C43_convolve hal hD hnew hb
  refine ⟨c, mem1, ?_, fun steps hs => ?_⟩
  · unfold Cwrap.create_hconv1d HybridConvolutionHermitian.new wrapSizeH
    rw [if_pos rfl, e]
    exact e1
  obtain ⟨mem2, e2, H2⟩ := H steps hs
  refine ⟨mem2, e2, fun a b hi ha hb => (H2 _ hi ?_ ?_).mono fun _ mem3 h i hi => ?_⟩
  · exact ha
  · exact hb
  exact (h i hi).2 (by rw [hc]; omega)

/-- **C59** `fftwpp_create_conv2d` and `fftwpp_conv2d_convolve`, for rows of at least two words and any number of threads. -/
theorem C59_conv2d (kx ky : Clock) {Lx Ly : ℕ} (th : ℕ) (hLx : 1 ≤ Lx) (hLy : 2 ≤ Ly) (hMx : 2 * Lx - 1 ≤ 2 ^ 27) (hMy : 2 * Ly - 1 ≤ 2 ^ 27) :
    ∃ ox oy, Fft.opt kx Lx (2 * Lx - 1) ⟨2, 1, true⟩ Ly = .ok ox ∧ Fft.opt ky Ly (2 * Ly - 1) ⟨2, 1, true⟩ 1 = .ok oy ∧
    ∀ (mem0 : Mem) (al : Alloc2), Conv2.Buffers ox.base oy.base th mem0 none none al →
    ∃ c mem1, Cwrap.create_conv2d kx ky Lx Ly th al mem0 = .ok (c, mem1) ∧
      ∀ steps : List Conv2.Step, (∀ s ∈ steps, c.Allowed mem0 s) →
      ∃ mem2, seqLoop steps c.step mem1 = .ok ((), mem2) ∧
      ∀ (s : ℕ → Sch) (a b : Ptr), c.LegalS s → c.Inputs mem0 (twoArr a b) 0 → (Cwrap.conv2d_convolve s c a b).Ok mem2 fun _ mem3 =>
        ∀ i < Lx, ∀ j < Ly, mem3.val (a + (Ly * i + j)) =
          linearConv2 Lx Ly (fun i j => mem2.val (a + (Ly * i + j))) (fun i j => mem2.val (b + (Ly * i + j))) i j := by
  obtain ⟨mx, Dx, ipx, ox, ex, hx, hSx, hDx⟩ := Fft.opt_ok kx (L := Lx) (M := 2 * Lx - 1) (C := Ly) ⟨2, 1, true⟩ hLx (by omega) hMx (by omega)
  obtain ⟨my, Dy, ipy, oy, ey, hy, hSy, -⟩ := Fft.opt_ok ky (L := Ly) (M := 2 * Ly - 1) (C := 1) ⟨2, 1, true⟩ (by omega) (by omega) hMy le_rfl
  refine ⟨ox, oy, ex, ey, fun mem0 al hb => ?_⟩
  obtain ⟨c, mem1, e1, H⟩ := C17_convolve2 (by omega) hx hy hSy (hDx (by omega)) hb
  refine ⟨c, mem1, ?_, fun steps hs => ?_⟩
  · unfold Cwrap.create_conv2d HybridConvolution2.new wrapSize
    rw [if_pos rfl, if_pos rfl, show 2 * Lx - 2 + 1 = 2 * Lx - 1 by omega, show 2 * Ly - 2 + 1 = 2 * Ly - 1 by omega, ex, ey]
    exact e1
  obtain ⟨mem2, e2, H2⟩ := H steps hs
  refine ⟨mem2, e2, fun s a b hl hi => (H2 s _ _ hl hi).mono fun _ mem3 h i hi j hj => ?_⟩
  have := (h i hi j hj).2 le_rfl le_rfl
  rw [hSx] at this
  simp only [Conv.Ptr.add0] at this
  exact this

/-- **C59** `fftwpp_create_hconv2d` and `fftwpp_hconv2d_convolve`: centered in `x`, half of the frequencies in `y` (at least two of them); for an even
number of rows the row of the Nyquist frequency is zero. -/
theorem C59_hconv2d (kx ky : Clock) {Lx Ly H align : ℕ} (th : ℕ) (J : Junk) (hal : 0 < align) (hLx : 1 ≤ Lx) (hH : H = ceilquotient Ly 2) (hH2 : 2 ≤ H)
    (hMx : 2 * Lx ≤ 2 ^ 27) (hMy : 2 * Ly ≤ 2 ^ 27) :
    ∃ tx o, Tr.optCentered kx Lx (3 * ceilquotient Lx 2 - 2 * (Lx % 2)) ⟨2, 1, true⟩ H = .ok tx ∧
      Herm.opt ky Ly (3 * ceilquotient Ly 2 - 2 * (Ly % 2)) ⟨2, 1, true⟩ align J = .ok o ∧
    ∀ (mem0 : Mem) (al : Alloc2), Conv2.GBuffers tx.base o.base (fun m al => o.view.Buffers o.base m none none al) th mem0 none none al →
    ∃ c mem1, Cwrap.create_hconv2d kx ky Lx Ly th align J al mem0 = .ok (c, mem1) ∧
      ∀ steps : List Conv2.Step, (∀ s ∈ steps, c.Allowed mem0 s) →
      ∃ mem2, seqLoop steps c.step mem1 = .ok ((), mem2) ∧
      ∀ (s : ℕ → Sch) (a b : Ptr), c.LegalS s → c.Inputs mem0 (twoArr a b) 0 →
        HermData2 Lx (Lx / 2) (fun i j => mem2.val (a + (H * i + j))) → HermData2 Lx (Lx / 2) (fun i j => mem2.val (b + (H * i + j))) →
        (Lx % 2 = 0 → ∀ j < H, mem2.val (a + j) = 0 ∧ mem2.val (b + j) = 0) →
        (Cwrap.hconv2d_convolve s c a b).Ok mem2 fun _ mem3 => ∀ i < Lx, ∀ j < H, mem3.val (a + (H * i + j)) =
          hermLin2 Lx (Lx / 2) H (fun i j => mem2.val (a + (H * i + j))) (fun i j => mem2.val (b + (H * i + j))) ((i : ℤ) - (Lx / 2 : ℕ)) j := by
  subst hH
  have fx := wrapSizeH_facts hLx hMx
  have fy := wrapSizeH_facts (L := Ly) (by unfold ceilquotient at hH2; omega) hMy
  obtain ⟨mx, Dx, ipx, tx, ex, hx, hSx, hDx⟩ := Tr.opt_ok kx (L := Lx) (M := 3 * ceilquotient Lx 2 - 2 * (Lx % 2)) (C := ceilquotient Ly 2) ⟨2, 1, true⟩ (by omega) fx.1 fx.2.1 (by omega)
  obtain ⟨my, Dy, ipy, o, ey, hy, hDy⟩ := Herm.opt_ok ky (M := 3 * ceilquotient Ly 2 - 2 * (Ly % 2)) ⟨2, 1, true⟩ align J (L := Ly) (by unfold ceilquotient at hH2; omega) fy.1 fy.2.1
  refine ⟨tx, o, ex, ey, fun mem0 al hb => ?_⟩
  obtain ⟨c, mem1, e1, Hc⟩ := C44_convolve2 hal hDy rfl hx hy (hDx (by omega)) hb
  refine ⟨c, mem1, ?_, fun steps hs => ?_⟩
  · unfold Cwrap.create_hconv2d HybridConvolutionHermitian2.new wrapSizeH
    simp only [if_true]
    rw [ex, ey]
    exact e1
  obtain ⟨mem2, e2, H2⟩ := Hc steps hs
  refine ⟨mem2, e2, fun s a b hl hi ha hb hz => (H2 s _ _ hl hi ?_).mono fun _ mem3 h i hi j hj => ?_⟩
  · intro k hk
    rw [hSx]
    simp only [Conv.Ptr.add0]
    obtain rfl | rfl : k = 0 ∨ k = 1 := by omega
    · exact ha
    · exact hb
  have := (h i hi j hj).2 (fun he k hk j hj => ?_) fx.2.2.2 fy.2.2.1
  · rw [hSx] at this
    simp only [Conv.Ptr.add0] at this
    exact this
  · simp only [Conv.Ptr.add0, Nat.mul_zero, Nat.zero_add]
    obtain rfl | rfl : k = 0 ∨ k = 1 := by omega
    · exact (hz he j hj).1
    · exact (hz he j hj).2

/-- **C59** `fftwpp_create_conv3d` and `fftwpp_conv3d_convolve`, for lines of at least two words and any numbers of threads. -/
theorem C59_conv3d (kx ky kz : Clock) {Lx Ly Lz : ℕ} (th thy : ℕ) (hLx : 1 ≤ Lx) (hLy : 1 ≤ Ly) (hLz : 2 ≤ Lz)
    (hMx : 2 * Lx - 1 ≤ 2 ^ 27) (hMy : 2 * Ly - 1 ≤ 2 ^ 27) (hMz : 2 * Lz - 1 ≤ 2 ^ 27) :
    ∃ ox oy oz, Fft.opt kx Lx (2 * Lx - 1) ⟨2, 1, true⟩ (Ly * Lz) = .ok ox ∧ Fft.opt ky Ly (2 * Ly - 1) ⟨2, 1, true⟩ Lz = .ok oy ∧
      Fft.opt kz Lz (2 * Lz - 1) ⟨2, 1, true⟩ 1 = .ok oz ∧
    ∀ (mem0 : Mem) (al : Alloc3), Conv3.Buffers ox.base oy.base oz.base th thy mem0 none none al →
    ∃ c mem1, Cwrap.create_conv3d kx ky kz Lx Ly Lz th thy al mem0 = .ok (c, mem1) ∧
      ∀ steps : List Conv3.Step, (∀ s ∈ steps, c.Allowed mem0 s) →
      ∃ mem2, seqLoop steps c.step mem1 = .ok ((), mem2) ∧
      ∀ (s : ℕ → Sch) (s2 : ℕ → ℕ → ℕ → Sch) (a b : Ptr), c.LegalS s s2 → c.Inputs mem0 (twoArr a b) 0 →
        (Cwrap.conv3d_convolve s s2 c a b).Ok mem2 fun _ mem3 => ∀ i < Lx, ∀ j < Ly, ∀ k < Lz, mem3.val (a + (Ly * Lz * i + (Lz * j + k))) =
          linearConv3 Lx Ly Lz (fun i j k => mem2.val (a + (Ly * Lz * i + (Lz * j + k)))) (fun i j k => mem2.val (b + (Ly * Lz * i + (Lz * j + k)))) i j k := by
  have hyz : 2 ≤ Ly * Lz := le_trans hLz (Nat.le_mul_of_pos_left _ hLy)
  obtain ⟨mx, Dx, ipx, ox, ex, hx, hSx, hDx⟩ := Fft.opt_ok kx (L := Lx) (M := 2 * Lx - 1) (C := Ly * Lz) ⟨2, 1, true⟩ hLx (by omega) hMx (by omega)
  obtain ⟨my, Dy, ipy, oy, ey, hy, hSy, hDy⟩ := Fft.opt_ok ky (L := Ly) (M := 2 * Ly - 1) (C := Lz) ⟨2, 1, true⟩ hLy (by omega) hMy (by omega)
  obtain ⟨mz, Dz, ipz, oz, ez, hz, hSz, -⟩ := Fft.opt_ok kz (L := Lz) (M := 2 * Lz - 1) (C := 1) ⟨2, 1, true⟩ (by omega) (by omega) hMz le_rfl
  refine ⟨ox, oy, oz, ex, ey, ez, fun mem0 al hb => ?_⟩
  obtain ⟨c, mem1, e1, H⟩ := C17_convolve3 hLy (by omega) hx hy hz (by rw [if_pos hSy, hSy]) (by rw [hSy, hSx]) hSz (hDx (by omega)) (hDy (by omega)) hb
  refine ⟨c, mem1, ?_, fun steps hs => ?_⟩
  · unfold Cwrap.create_conv3d HybridConvolution3.new wrapSize
    simp only [if_true]
    rw [show 2 * Lx - 2 + 1 = 2 * Lx - 1 by omega, show 2 * Ly - 2 + 1 = 2 * Ly - 1 by omega, show 2 * Lz - 2 + 1 = 2 * Lz - 1 by omega, ex, ey, ez]
    exact e1
  obtain ⟨mem2, e2, H2⟩ := H steps hs
  refine ⟨mem2, e2, fun s s2 a b hl hi => (H2 s s2 _ _ hl hi).mono fun _ mem3 h i hi j hj k hk => ?_⟩
  have := (h i hi j hj k hk).2 le_rfl le_rfl le_rfl
  rw [hSx, hSy] at this
  simp only [Conv.Ptr.add0] at this
  exact this

/-- **C59** `fftwpp_create_hconv3d` and `fftwpp_hconv3d_convolve`: centered in `x` and `y`, half of the frequencies in `z` (at least two of them); for
even sizes the planes of the Nyquist frequencies are zero. -/
theorem C59_hconv3d (kx ky kz : Clock) {Lx Ly Lz H align : ℕ} (th thy : ℕ) (J : Junk) (hal : 0 < align) (hLx : 1 ≤ Lx) (hLy : 1 ≤ Ly)
    (hH : H = ceilquotient Lz 2) (hH2 : 2 ≤ H) (hMx : 2 * Lx ≤ 2 ^ 27) (hMy : 2 * Ly ≤ 2 ^ 27) (hMz : 2 * Lz ≤ 2 ^ 27) :
    ∃ tx ty o, Tr.optCentered kx Lx (3 * ceilquotient Lx 2 - 2 * (Lx % 2)) ⟨2, 1, true⟩ (Ly * H) = .ok tx ∧
      Tr.optCentered ky Ly (3 * ceilquotient Ly 2 - 2 * (Ly % 2)) ⟨2, 1, true⟩ H = .ok ty ∧
      Herm.opt kz Lz (3 * ceilquotient Lz 2 - 2 * (Lz % 2)) ⟨2, 1, true⟩ align J = .ok o ∧
    ∀ (mem0 : Mem) (al : Alloc3),
      Conv3.GBuffers tx.base ty.base o.base (fun m al => o.view.Buffers o.base m none none al) th thy mem0 none none al →
    ∃ c mem1, Cwrap.create_hconv3d kx ky kz Lx Ly Lz th thy align J al mem0 = .ok (c, mem1) ∧
      ∀ steps : List Conv3.Step, (∀ s ∈ steps, c.Allowed mem0 s) →
      ∃ mem2, seqLoop steps c.step mem1 = .ok ((), mem2) ∧
      ∀ (s : ℕ → Sch) (s2 : ℕ → ℕ → ℕ → Sch) (a b : Ptr), c.LegalS s s2 → c.Inputs mem0 (twoArr a b) 0 →
        HermData3 Lx (Lx / 2) Ly (Ly / 2) (fun i j k => mem2.val (a + (Ly * H * i + (H * j + k)))) →
        HermData3 Lx (Lx / 2) Ly (Ly / 2) (fun i j k => mem2.val (b + (Ly * H * i + (H * j + k)))) →
        (Lx % 2 = 0 → ∀ j < Ly, ∀ k < H, mem2.val (a + (H * j + k)) = 0 ∧ mem2.val (b + (H * j + k)) = 0) →
        (Ly % 2 = 0 → ∀ i < Lx, ∀ k < H, mem2.val (a + (Ly * H * i + k)) = 0 ∧ mem2.val (b + (Ly * H * i + k)) = 0) →
        (Cwrap.hconv3d_convolve s s2 c a b).Ok mem2 fun _ mem3 => ∀ i < Lx, ∀ j < Ly, ∀ k < H, mem3.val (a + (Ly * H * i + (H * j + k))) =
          hermLin3 Lx (Lx / 2) Ly (Ly / 2) H (fun i j k => mem2.val (a + (Ly * H * i + (H * j + k))))
            (fun i j k => mem2.val (b + (Ly * H * i + (H * j + k)))) ((i : ℤ) - (Lx / 2 : ℕ)) ((j : ℤ) - (Ly / 2 : ℕ)) k := by
  subst hH
  have fx := wrapSizeH_facts hLx hMx
  have fy := wrapSizeH_facts hLy hMy
  have fz := wrapSizeH_facts (L := Lz) (by unfold ceilquotient at hH2; omega) hMz
  have hyz : 2 ≤ Ly * ceilquotient Lz 2 := le_trans hH2 (Nat.le_mul_of_pos_left _ hLy)
  obtain ⟨mx, Dx, ipx, tx, ex, hx, hSx, hDx⟩ := Tr.opt_ok kx (L := Lx) (M := 3 * ceilquotient Lx 2 - 2 * (Lx % 2)) (C := Ly * ceilquotient Lz 2) ⟨2, 1, true⟩ (by omega) fx.1 fx.2.1 (by omega)
  obtain ⟨my, Dy, ipy, ty, ey, hy, hSy, hDy⟩ := Tr.opt_ok ky (L := Ly) (M := 3 * ceilquotient Ly 2 - 2 * (Ly % 2)) (C := ceilquotient Lz 2) ⟨2, 1, true⟩ (by omega) fy.1 fy.2.1 (by omega)
  obtain ⟨mz, Dz, ipz, o, ez, hz, hDz⟩ := Herm.opt_ok kz (M := 3 * ceilquotient Lz 2 - 2 * (Lz % 2)) ⟨2, 1, true⟩ align J (L := Lz) (by unfold ceilquotient at hH2; omega) fz.1 fz.2.1
  refine ⟨tx, ty, o, ex, ey, ez, fun mem0 al hb => ?_⟩
  obtain ⟨c, mem1, e1, Hc⟩ := C45_convolve3 hal hDz hLy rfl hx hy hz (by rw [if_pos hSy, hSy]) (by rw [hSy, hSx]) (hDx (by omega)) (hDy (by omega)) hb
  refine ⟨c, mem1, ?_, fun steps hs => ?_⟩
  · unfold Cwrap.create_hconv3d HybridConvolutionHermitian3.new wrapSizeH
    simp only [if_true]
    rw [ex, ey, ez]
    exact e1
  obtain ⟨mem2, e2, H2⟩ := Hc steps hs
  refine ⟨mem2, e2, fun s s2 a b hl hi ha hb hzx hzy => (H2 s s2 _ _ hl hi ?_).mono fun _ mem3 h i hi j hj k hk => ?_⟩
  · intro k hk
    rw [hSx, hSy]
    simp only [Conv.Ptr.add0]
    obtain rfl | rfl : k = 0 ∨ k = 1 := by omega
    · exact ha
    · exact hb
  have := (h i hi j hj k hk).2 (fun he v hv j hj k hk => ?_) (fun he v hv i hi k hk => ?_) fx.2.2.2 fy.2.2.2 fz.2.2.1
  · rw [hSx, hSy] at this
    simp only [Conv.Ptr.add0] at this
    exact this
  · simp only [Conv.Ptr.add0, Nat.mul_zero, Nat.zero_add, hSy]
    obtain rfl | rfl : v = 0 ∨ v = 1 := by omega
    · exact (hzx he j hj k hk).1
    · exact (hzx he j hj k hk).2
  · simp only [Conv.Ptr.add0, Nat.mul_zero, Nat.zero_add, hSx]
    obtain rfl | rfl : v = 0 ∨ v = 1 := by omega
    · exact (hzy he i hi k hk).1
    · exact (hzy he i hi k hk).2

/-! ## The Python interface -/

namespace Py

/-- What a Python program does with the object: it writes a word of memory, or calls `convolve`. -/
inductive Step1 where
  | write (p : Ptr) (v : ℂ)
  | call (f g : Ptr)

/-- Perform a step. -/
noncomputable def step1 (c : Conv) : Step1 → Cmd Unit
  | .write p v => (store p v).run
  | .call f g => HConvolution1.convolve c f g

/-- Writes outside the work array, calls with arrays of `n` words. -/
def Allowed1 (v : View) (c : Conv) (mem : Mem) : Step1 → Prop
  | .write p x => v.Allowed c mem (.write p x)
  | .call f g => v.Inputs c mem (twoArr f g)

/-- What a Python program does with the object, in two dimensions. -/
inductive Step2 where
  | write (p : Ptr) (v : ℂ)
  | call (s : ℕ → Sch) (f g : Ptr)

/-- Perform a step. -/
noncomputable def step2 (nx ny : ℕ) (c : Conv2) : Step2 → Cmd Unit
  | .write p v => (store p v).run
  | .call s f g => HConvolution2.convolve nx ny s c f g

/-- Writes outside the work arrays, calls with arrays of the declared shape. -/
def Allowed2 (c : Conv2) (mem : Mem) : Step2 → Prop
  | .write p v => c.Allowed mem (.write p v)
  | .call s f g => c.LegalS s ∧ c.Inputs mem (twoArr f g) 0

/-- What a Python program does with the object, in three dimensions. -/
inductive Step3 where
  | write (p : Ptr) (v : ℂ)
  | call (s : ℕ → Sch) (s2 : ℕ → ℕ → ℕ → Sch) (f g : Ptr)

/-- Perform a step. -/
noncomputable def step3 (nx ny nz : ℕ) (c : Conv3) : Step3 → Cmd Unit
  | .write p v => (store p v).run
  | .call s s2 f g => HConvolution3.convolve nx ny nz s s2 c f g

/-- Writes outside the work arrays, calls with arrays of the declared shape. -/
def Allowed3 (c : Conv3) (mem : Mem) : Step3 → Prop
  | .write p v => c.Allowed mem (.write p v)
  | .call s s2 f g => c.LegalS s s2 ∧ c.Inputs mem (twoArr f g) 0

end Py

theorem ceil_odd {n : ℕ} (hn : 1 ≤ n) : ceilquotient (2 * n - 1) 2 = n := by unfold ceilquotient; omega

/-- **C59** `fftwpp.HConvolution` in one dimension: for all data, a call leaves in `f` the half of the linear convolution of the Hermitian data whose halves
are `f` and `g` with the imaginary parts of the words of frequency zero dropped. -/
theorem C59_py1 (k : Clock) {n align : ℕ} (J : Junk) (hal : 0 < align) (hn : 1 ≤ n) (hM : 4 * n ≤ 2 ^ 27) :
    ∃ o, Herm.opt k (2 * n - 1) (3 * n - 2) ⟨2, 1, true⟩ align J = .ok o ∧
    ∀ (mem0 : Mem) (al : Alloc), o.view.Buffers o.base mem0 none none al →
    ∃ c mem1, Py.HConvolution1.init k n align J al mem0 = .ok (c, mem1) ∧
      ∀ steps : List Py.Step1, (∀ s ∈ steps, Py.Allowed1 o.view c mem0 s) →
      ∃ mem2, seqLoop steps (Py.step1 c) mem1 = .ok ((), mem2) ∧
      ∀ f g : Ptr, o.view.Inputs c mem0 (twoArr f g) →
        (Py.HConvolution1.convolve c f g).Ok mem2 fun _ mem3 => ∀ i < n, mem3.val (f + i) =
          hermLin n (fun i => if i = 0 then ((mem2.val f).re : ℂ) else mem2.val (f + i))
            (fun i => if i = 0 then ((mem2.val g).re : ℂ) else mem2.val (g + i)) i := by
  obtain ⟨o, e, Ho⟩ := C59_hconv1d k (L := 2 * n - 1) J hal (by omega) (by omega)
  rw [ceil_odd hn] at Ho e
  rw [show 3 * n - 2 * ((2 * n - 1) % 2) = 3 * n - 2 by omega] at e
  refine ⟨o, e, fun mem0 al hb => ?_⟩
  obtain ⟨c, mem1, e1, Hc⟩ := Ho mem0 al hb
  have ef : c.fft = o.base := by
    unfold Cwrap.create_hconv1d HybridConvolutionHermitian.new wrapSizeH at e1
    rw [if_pos rfl, ceil_odd hn, show 3 * n - 2 * ((2 * n - 1) % 2) = 3 * n - 2 by omega, e] at e1
    exact Conv.new_fft (show Conv.new o.base realMultBinary none none none al mem0 = .ok (c, mem1) from e1)
  have hA : c.fft.A = 2 ∧ o.C = 1 ∧ o.inputLength = n := by
    obtain ⟨m, D, ip, o', e', hnew, -⟩ := Herm.opt_ok k (M := 3 * n - 2) ⟨2, 1, true⟩ align J (L := 2 * n - 1) (by omega) (by omega) (by omega)
    rw [e] at e'
    simp only [Except.ok.injEq] at e'
    subst e'
    obtain ⟨fL, fm, fC, fx⟩ := Herm.new_fields hnew
    rw [ef]
    refine ⟨?_, fC, ?_⟩
    · show o.A = 2
      have := Herm.WF.of_new (by omega) hal hnew
      simp_all
    · show ceilquotient o.L 2 = n
      rw [fL]; exact ceil_odd hn
  have H : ∀ steps : List Conv.Step, (∀ s ∈ steps, o.view.Allowed c mem0 s) → ∃ m, seqLoop steps c.step mem1 = .ok ((), m) := by
    intro steps hs
    obtain ⟨m, em, -⟩ := Hc steps hs
    exact ⟨m, em⟩
  have hw : ∀ p v, c.step (.write p v) = (store p v).run := fun _ _ => rfl
  have hD : ∀ p : Ptr, ∀ i < n, o.view.D p (p + (i : ℕ)) := fun p i hi => ⟨i, by rw [hA.2.1, hA.2.2]; omega, rfl⟩
  have hin : ∀ f g, o.view.Inputs c mem0 (twoArr f g) → (∀ k < 1, ∀ v, o.view.Allowed c mem0 (.write (f + (k : ℕ)) v)) ∧
      (∀ k < 1, ∀ v, o.view.Allowed c mem0 (.write (g + (k : ℕ)) v)) ∧ ∀ i < n, ∀ j < n, f + (i : ℕ) ≠ g + (j : ℕ) := by
    intro f g hi
    have hnw : ∀ (a : ℕ) (_ : a < 2), ¬ View.InW c.fft c.W ((twoArr f g).at_ a) := by
      rintro a ha ⟨W, hW, hp⟩
      exact hi.dat.fW a (by rw [hA.1]; omega) W hW (FftBase.inArr_buf hp).symm
    have hval : ∀ (a : ℕ) (_ : a < 2), mem0.valid ((twoArr f g).at_ a) := by
      intro a ha
      refine hi.dat.bf a (by rw [hA.1]; omega) _ ?_
      have := hD ((twoArr f g).at_ a + 0) 0 (by omega)
      simpa only [Conv.Ptr.add0] using this
    refine ⟨fun k hk v => ?_, fun k hk v => ?_, fun i hi' j hj he => ?_⟩
    · obtain rfl : k = 0 := by omega
      rw [Conv.Ptr.add0]
      exact ⟨hval 0 (by omega), hnw 0 (by omega)⟩
    · obtain rfl : k = 0 := by omega
      rw [Conv.Ptr.add0]
      exact ⟨hval 1 (by omega), hnw 1 (by omega)⟩
    · have := hi.apart 0 (by rw [hA.1]; omega) 1 (by rw [hA.1]; omega) (by omega) (f + (i : ℕ)) (by rw [Conv.Ptr.add0]; exact hD _ i hi')
      rw [Conv.Ptr.add0] at this
      apply this
      rw [he]
      exact hD _ j hj
  have hsym : ∀ (m : Mem) (f : Ptr), m.block f 1 → (hermitianSymmetrize f).Ok m fun _ m' => m.Upd m' (fun p => ∃ k < 1, p = f + k) ∧
      (fun x y : ℕ → ℂ => y 0 = ((x 0).re : ℂ)) (fun k => m.val (f + k)) (fun k => m'.val (f + k)) := by
    intro m f hb
    have hv := hb 0 (by omega)
    rw [Conv.Ptr.add0] at hv
    obtain ⟨m', e, hs, e1, e2⟩ := C21_symmetrize hv
    refine ⟨(), m', e, ⟨hs, fun p hp => e2 p fun he => hp ⟨0, by omega, by rw [Conv.Ptr.add0]; exact he⟩⟩, ?_⟩
    simp only [Conv.Ptr.add0]
    exact e1
  have two : ∀ {f g}, o.view.Inputs c mem0 (twoArr f g) → ∀ {mem}, Reach c.step (o.view.Allowed c mem0) mem1 mem → _ :=
    fun {f g} hi {mem} hr => hr.symm2 (wr := Conv.Step.write) H hw (n := 1) (R := fun x y => y 0 = ((x 0).re : ℂ)) hsym
      (fun x y x' y' hxy hx hy => by beta_reduce at hxy ⊢; rw [← hx 0 (by omega), ← hy 0 (by omega)]; exact hxy) (hin f g hi).1 (hin f g hi).2.1
      (fun i hi' j hj => (hin f g hi).2.2 i (by omega) j (by omega))
  refine ⟨c, mem1, e1, fun steps hs => ?_⟩
  obtain ⟨mem2, e2, r2⟩ := Reach.loop (pst := Py.step1 c) steps Reach.nil (by
    intro s hs' mem hr
    have hal := hs s hs'
    cases s with
    | write p v => exact hr.next H (s := .write p v) hal
    | call f g =>
      obtain ⟨m1, m2, a1, a2, r, -⟩ := two hal hr
      obtain ⟨m3, a3, r3⟩ := r.next H (s := .call (twoArr f g)) hal
      exact ⟨m3, by
        rw [show Py.step1 c (.call f g) mem = Py.HConvolution1.convolve c f g mem from rfl]
        unfold Py.HConvolution1.convolve
        rw [Cmd.bind_run a1, Cmd.bind_run a2]
        exact a3, r3⟩)
  refine ⟨mem2, e2, fun f g hi => ?_⟩
  obtain ⟨m1, m2, a1, a2, ⟨l, hl, el⟩, u, ra, rb⟩ := two hi r2
  obtain ⟨m2', em2, H2⟩ := Hc l hl
  rw [el] at em2
  simp only [Except.ok.injEq, Prod.mk.injEq, true_and] at em2
  subst em2
  simp only [Conv.Ptr.add0] at ra rb
  obtain ⟨_, m3, e3, h3⟩ := H2 f g hi (by rw [ra]; simp) (by rw [rb]; simp)
  refine ⟨(), m3, ?_, fun i hi' => ?_⟩
  · unfold Py.HConvolution1.convolve
    rw [Cmd.bind_run a1, Cmd.bind_run a2]
    exact e3
  rw [h3 i hi']
  refine hermLin_congr (fun i hi' => ?_) (fun i hi' => ?_) _
  · split_ifs with h0
    · rw [h0, Conv.Ptr.add0, ra]
    · refine u.frame _ fun ⟨k, hk, he⟩ => ?_
      obtain rfl : k = 0 := by omega
      rcases he with he | he
      · exact h0 (Ptr.add_inj.mp he)
      · exact (hin f g hi).2.2 i hi' 0 (by omega) he
  · split_ifs with h0
    · rw [h0, Conv.Ptr.add0, rb]
    · refine u.frame _ fun ⟨k, hk, he⟩ => ?_
      obtain rfl : k = 0 := by omega
      rcases he with he | he
      · exact (hin f g hi).2.2 0 (by omega) i hi' he.symm
      · exact h0 (Ptr.add_inj.mp he)

theorem inputs_ne {o : FftBase} {f g : Ptr} (hS : o.C = o.S) (hc : ∀ c, o.col c = c) (hA : o.A = 2) (h : o.Apart (twoArr f g) 0 o.A) :
    ∀ i < o.S * o.L, ∀ j < o.S * o.L, f + i ≠ g + j := by
  have hD : ∀ (p : Ptr), ∀ i < o.S * o.L, o.Data (p + 0) (p + (i : ℕ)) := by
    intro p i hi
    have hS0 : 0 < o.S := by
      rcases Nat.eq_zero_or_pos o.S with h | h
      · rw [h] at hi; simp at hi
      · exact h
    exact ⟨i / o.S, Nat.div_lt_of_lt_mul hi, i % o.S, by rw [hS]; exact Nat.mod_lt _ hS0, by rw [hc, Conv.Ptr.add0, Nat.div_add_mod]⟩
  intro i hi j hj he
  refine h 0 (by omega) 1 (by omega) (by omega) (f + (i : ℕ)) (hD f i hi) ?_
  rw [he]
  exact hD g j hj

/-- **C59** `fftwpp.HConvolution` in two dimensions, for arrays of shape `(nx,ny)`, `ny ≥ 2`: for all data, after any history, a call leaves in `f` the
linear convolution of the Hermitian symmetrizations `F`, `G` of the two inputs. -/
theorem C59_py2 (kx ky : Clock) {nx ny align : ℕ} (th : ℕ) (J : Junk) (hal : 0 < align) (hnx : 1 ≤ nx) (hny : 2 ≤ ny) (hMx : 2 * nx ≤ 2 ^ 27)
    (hMy : 4 * ny ≤ 2 ^ 27) :
    ∃ tx o, Tr.optCentered kx nx (3 * ceilquotient nx 2 - 2 * (nx % 2)) ⟨2, 1, true⟩ ny = .ok tx ∧
      Herm.opt ky (2 * ny - 1) (3 * ny - 2) ⟨2, 1, true⟩ align J = .ok o ∧
    ∀ (mem0 : Mem) (al : Alloc2), Conv2.GBuffers tx.base o.base (fun m al => o.view.Buffers o.base m none none al) th mem0 none none al →
    ∃ c mem1, Py.HConvolution2.init kx ky nx ny th align J al mem0 = .ok (c, mem1) ∧
      ∀ steps : List Py.Step2, (∀ s ∈ steps, Py.Allowed2 c mem0 s) →
      ∃ mem2, seqLoop steps (Py.step2 nx ny c) mem1 = .ok ((), mem2) ∧
      ∀ (s : ℕ → Sch) (f g : Ptr), c.LegalS s → c.Inputs mem0 (twoArr f g) 0 →
        (Py.HConvolution2.convolve nx ny s c f g).Ok mem2 fun _ mem3 => ∃ F G : ℕ → ℕ → ℂ,
          Symmetrized2 nx ny (fun i j => mem2.val (f + (ny * i + j))) F ∧ Symmetrized2 nx ny (fun i j => mem2.val (g + (ny * i + j))) G ∧
          ∀ i < nx, ∀ j < ny, mem3.val (f + (ny * i + j)) = hermLin2 nx (nx / 2) ny F G ((i : ℤ) - (nx / 2 : ℕ)) j := by
  obtain ⟨tx, o, ex, ey, Ho⟩ := C59_hconv2d kx ky (Ly := 2 * ny - 1) th J hal hnx rfl (by rw [ceil_odd (by omega)]; exact hny) hMx (by omega)
  have hcy : ceilquotient (2 * ny - 1) 2 = ny := ceil_odd (by omega)
  have h32 : 3 * ny - 2 * ((2 * ny - 1) % 2) = 3 * ny - 2 := by omega
  simp only [hcy, h32] at Ho ex ey
  refine ⟨tx, o, ex, ey, fun mem0 al hb => ?_⟩
  obtain ⟨c, mem1, e1, Hc⟩ := Ho mem0 al hb
  have ef : c.x.fft = tx.base := by
    unfold Cwrap.create_hconv2d HybridConvolutionHermitian2.new wrapSizeH at e1
    simp only [if_true, hcy, h32, ex, ey] at e1
    exact Conv2.new_fft (show Conv2.new tx.base o.base realMultBinary th none none none al mem0 = .ok (c, mem1) from e1)
  obtain ⟨fA, fS, fC, fL, fcol⟩ : c.x.fft.A = 2 ∧ c.x.fft.S = ny ∧ c.x.fft.C = ny ∧ c.x.fft.L = nx ∧ ∀ k, c.x.fft.col k = k := by
    have fx := wrapSizeH_facts hnx hMx
    obtain ⟨m, D, ip, t, e', hnew, hS, -⟩ := Tr.opt_ok kx (L := nx) (M := 3 * ceilquotient nx 2 - 2 * (nx % 2)) (C := ny) ⟨2, 1, true⟩ hnx fx.1 fx.2.1 (by omega)
    rw [ex] at e'
    simp only [Except.ok.injEq] at e'
    subst e'
    have g := Tr.facts (by omega) hnew
    rw [ef]
    exact ⟨g.bA, by rw [g.bS, hS], g.bC, g.bL, g.bcol⟩
  have H : ∀ steps : List Conv2.Step, (∀ s ∈ steps, c.Allowed mem0 s) → ∃ m, seqLoop steps c.step mem1 = .ok ((), m) := by
    intro steps hs
    obtain ⟨m, em, -⟩ := Hc steps hs
    exact ⟨m, em⟩
  have hw : ∀ p v, c.step (.write p v) = (store p v).run := fun _ _ => rfl
  have hin : ∀ f g, c.Inputs mem0 (twoArr f g) 0 → (∀ k < ny * nx, ∀ v, c.Allowed mem0 (.write (f + (k : ℕ)) v)) ∧
      (∀ k < ny * nx, ∀ v, c.Allowed mem0 (.write (g + (k : ℕ)) v)) ∧ ∀ i < ny * nx, ∀ j < ny * nx, f + (i : ℕ) ≠ g + (j : ℕ) := by
    intro f g hi
    refine ⟨fun k hk v => ⟨?_, ?_⟩, fun k hk v => ⟨?_, ?_⟩, ?_⟩
    · have := hi.bf 0 (by omega) k (by rw [fS, fL]; exact hk)
      simp only [Conv.Ptr.add0] at this
      exact this
    · exact hi.buf 0 (by omega)
    · have := hi.bf 1 (by omega) k (by rw [fS, fL]; exact hk)
      simp only [Conv.Ptr.add0] at this
      exact this
    · exact hi.buf 1 (by omega)
    · have := inputs_ne (by rw [fS, fC]) fcol fA hi.apart
      rwa [fS, fL] at this
  have hx1 : nx / 2 + (nx + 1) / 2 = nx := by omega
  have hsz : ny * (nx / 2 + (nx + 1) / 2 - 1) + ny = ny * nx := by rw [hx1, ← Nat.mul_succ, Nat.succ_eq_add_one, Nat.sub_add_cancel hnx]
  have hlt : ∀ i < nx, ∀ j < ny, ny * i + j < ny * nx := fun i hi j hj => radix_lt hj hi
  have hsym : ∀ (m : Mem) (f : Ptr), m.block f (ny * nx) → (hermitianSymmetrizeX' ((nx + 1) / 2) ny (nx / 2) f).Ok m fun _ m' =>
      m.Upd m' (fun p => ∃ k < ny * nx, p = f + k) ∧
      (fun x y : ℕ → ℂ => Symmetrized2 nx ny (fun i j => x (ny * i + j)) (fun i j => y (ny * i + j))) (fun k => m.val (f + k)) (fun k => m'.val (f + k)) := by
    intro m f hb
    have := Direct.symm2_ok (m := m) (f := f) (mx := (nx + 1) / 2) (my := ny) (x0 := nx / 2) (by omega) (by omega) (by omega) (by omega) (by rw [hsz]; exact hb)
    rw [hsz, hx1] at this
    exact this
  have two : ∀ {f g}, c.Inputs mem0 (twoArr f g) 0 → ∀ {mem}, Reach c.step (c.Allowed mem0) mem1 mem → _ :=
    fun {f g} hi {mem} hr => hr.symm2 (wr := Conv2.Step.write) H hw (n := ny * nx)
      (R := fun x y => Symmetrized2 nx ny (fun i j => x (ny * i + j)) (fun i j => y (ny * i + j))) hsym
      (fun x y x' y' hxy hx hy => symmetrized2_congr (by omega) (by omega) hxy (fun i hi j hj => hx _ (hlt i hi j hj)) (fun i hi j hj => hy _ (hlt i hi j hj)))
      (hin f g hi).1 (hin f g hi).2.1 (hin f g hi).2.2
  refine ⟨c, mem1, e1, fun steps hs => ?_⟩
  obtain ⟨mem2, e2, r2⟩ := Reach.loop (pst := Py.step2 nx ny c) steps Reach.nil (by
    intro s hs' mem hr
    have hal := hs s hs'
    cases s with
    | write p v => exact hr.next H (s := .write p v) hal
    | call s f g =>
      obtain ⟨m1, m2, a1, a2, r, -⟩ := two hal.2 hr
      obtain ⟨m3, a3, r3⟩ := r.next H (s := .call s (twoArr f g) 0) hal
      exact ⟨m3, by
        rw [show Py.step2 nx ny c (.call s f g) mem = Py.HConvolution2.convolve nx ny s c f g mem from rfl]
        unfold Py.HConvolution2.convolve
        exact (Cmd.bind_run a1).trans ((Cmd.bind_run a2).trans a3), r3⟩)
  refine ⟨mem2, e2, fun s f g hl hi => ?_⟩
  obtain ⟨m1, m2, a1, a2, ⟨l, hl', el⟩, u, ra, rb⟩ := two hi r2
  obtain ⟨m2', em2, H2⟩ := Hc l hl'
  rw [el] at em2
  simp only [Except.ok.injEq, Prod.mk.injEq, true_and] at em2
  subst em2
  obtain ⟨_, m3, e3, h3⟩ := H2 s f g hl hi ra.herm rb.herm (fun h j hj => ⟨by simpa using ra.nyq h j hj, by simpa using rb.nyq h j hj⟩)
  refine ⟨(), m3, ?_, _, _, ra, rb, h3⟩
  unfold Py.HConvolution2.convolve
  exact (Cmd.bind_run a1).trans ((Cmd.bind_run a2).trans e3)

/-- **C59** `fftwpp.HConvolution` in three dimensions, for arrays of shape `(nx,ny,nz)`, `nz ≥ 2`. -/
theorem C59_py3 (kx ky kz : Clock) {nx ny nz align : ℕ} (th thy : ℕ) (J : Junk) (hal : 0 < align) (hnx : 1 ≤ nx) (hny : 1 ≤ ny) (hnz : 2 ≤ nz)
    (hMx : 2 * nx ≤ 2 ^ 27) (hMy : 2 * ny ≤ 2 ^ 27) (hMz : 4 * nz ≤ 2 ^ 27) :
    ∃ tx ty o, Tr.optCentered kx nx (3 * ceilquotient nx 2 - 2 * (nx % 2)) ⟨2, 1, true⟩ (ny * nz) = .ok tx ∧
      Tr.optCentered ky ny (3 * ceilquotient ny 2 - 2 * (ny % 2)) ⟨2, 1, true⟩ nz = .ok ty ∧
      Herm.opt kz (2 * nz - 1) (3 * nz - 2) ⟨2, 1, true⟩ align J = .ok o ∧
    ∀ (mem0 : Mem) (al : Alloc3),
      Conv3.GBuffers tx.base ty.base o.base (fun m al => o.view.Buffers o.base m none none al) th thy mem0 none none al →
    ∃ c mem1, Py.HConvolution3.init kx ky kz nx ny nz th thy align J al mem0 = .ok (c, mem1) ∧
      ∀ steps : List Py.Step3, (∀ s ∈ steps, Py.Allowed3 c mem0 s) →
      ∃ mem2, seqLoop steps (Py.step3 nx ny nz c) mem1 = .ok ((), mem2) ∧
      ∀ (s : ℕ → Sch) (s2 : ℕ → ℕ → ℕ → Sch) (f g : Ptr), c.LegalS s s2 → c.Inputs mem0 (twoArr f g) 0 →
        (Py.HConvolution3.convolve nx ny nz s s2 c f g).Ok mem2 fun _ mem3 => ∃ F G : ℕ → ℕ → ℕ → ℂ,
          Symmetrized nx ny nz (fun i j k => mem2.val (f + (ny * nz * i + (nz * j + k)))) F ∧
          Symmetrized nx ny nz (fun i j k => mem2.val (g + (ny * nz * i + (nz * j + k)))) G ∧
          ∀ i < nx, ∀ j < ny, ∀ k < nz, mem3.val (f + (ny * nz * i + (nz * j + k))) =
            hermLin3 nx (nx / 2) ny (ny / 2) nz F G ((i : ℤ) - (nx / 2 : ℕ)) ((j : ℤ) - (ny / 2 : ℕ)) k := by
  obtain ⟨tx, ty, o, ex, ey, ez, Ho⟩ := C59_hconv3d kx ky kz (Lz := 2 * nz - 1) th thy J hal hnx hny rfl (by rw [ceil_odd (by omega)]; exact hnz) hMx hMy (by omega)
  have hcz : ceilquotient (2 * nz - 1) 2 = nz := ceil_odd (by omega)
  have h32 : 3 * nz - 2 * ((2 * nz - 1) % 2) = 3 * nz - 2 := by omega
  simp only [hcz, h32] at Ho ex ey ez
  refine ⟨tx, ty, o, ex, ey, ez, fun mem0 al hb => ?_⟩
  obtain ⟨c, mem1, e1, Hc⟩ := Ho mem0 al hb
  have hyz : 2 ≤ ny * nz := le_trans hnz (Nat.le_mul_of_pos_left _ hny)
  have fx := wrapSizeH_facts hnx hMx
  have fy := wrapSizeH_facts hny hMy
  have ef : c.x.fft = tx.base := by
    unfold Cwrap.create_hconv3d HybridConvolutionHermitian3.new wrapSizeH at e1
    simp only [if_true, hcz, h32, ex, ey, ez] at e1
    have := Conv3.new_fft (show Conv3.new tx.base ty.base o.base realMultBinary th thy none none none al mem0 = .ok (c, mem1) from e1)
    rw [this, if_pos]
    obtain ⟨m, D, ip, t, e', hnew, hS, -⟩ := Tr.opt_ok ky (L := ny) (M := 3 * ceilquotient ny 2 - 2 * (ny % 2)) (C := nz) ⟨2, 1, true⟩ hny fy.1 fy.2.1 (by omega)
    rw [ey] at e'
    simp only [Except.ok.injEq] at e'
    subst e'
    have g := Tr.facts (by omega) hnew
    unfold contiguous3
    exact decide_eq_true (Or.inl (by rw [g.bS, g.bC, hS]))
  obtain ⟨fA, fS, fC, fL, fcol⟩ : c.x.fft.A = 2 ∧ c.x.fft.S = ny * nz ∧ c.x.fft.C = ny * nz ∧ c.x.fft.L = nx ∧ ∀ k, c.x.fft.col k = k := by
    obtain ⟨m, D, ip, t, e', hnew, hS, -⟩ := Tr.opt_ok kx (L := nx) (M := 3 * ceilquotient nx 2 - 2 * (nx % 2)) (C := ny * nz) ⟨2, 1, true⟩ hnx fx.1 fx.2.1 (by omega)
    rw [ex] at e'
    simp only [Except.ok.injEq] at e'
    subst e'
    have g := Tr.facts (by omega) hnew
    rw [ef]
    exact ⟨g.bA, by rw [g.bS, hS], g.bC, g.bL, g.bcol⟩
  have H : ∀ steps : List Conv3.Step, (∀ s ∈ steps, c.Allowed mem0 s) → ∃ m, seqLoop steps c.step mem1 = .ok ((), m) := by
    intro steps hs
    obtain ⟨m, em, -⟩ := Hc steps hs
    exact ⟨m, em⟩
  have hw : ∀ p v, c.step (.write p v) = (store p v).run := fun _ _ => rfl
  have hin : ∀ f g, c.Inputs mem0 (twoArr f g) 0 → (∀ k < ny * nz * nx, ∀ v, c.Allowed mem0 (.write (f + (k : ℕ)) v)) ∧
      (∀ k < ny * nz * nx, ∀ v, c.Allowed mem0 (.write (g + (k : ℕ)) v)) ∧ ∀ i < ny * nz * nx, ∀ j < ny * nz * nx, f + (i : ℕ) ≠ g + (j : ℕ) := by
    intro f g hi
    refine ⟨fun k hk v => ⟨?_, ?_⟩, fun k hk v => ⟨?_, ?_⟩, ?_⟩
    · have := hi.bf 0 (by omega) k (by rw [fS, fL]; exact hk)
      simp only [Conv.Ptr.add0] at this
      exact this
    · exact hi.buf 0 (by omega)
    · have := hi.bf 1 (by omega) k (by rw [fS, fL]; exact hk)
      simp only [Conv.Ptr.add0] at this
      exact this
    · exact hi.buf 1 (by omega)
    · have := inputs_ne (by rw [fS, fC]) fcol fA hi.apart
      rwa [fS, fL] at this
  have hx1 : nx / 2 + (nx + 1) / 2 = nx := by omega
  have hy1 : ny / 2 + (ny + 1) / 2 = ny := by omega
  have hsz : (ny / 2 + (ny + 1) / 2) * nz * (nx / 2 + (nx + 1) / 2 - 1) + nz * (ny / 2 + (ny + 1) / 2 - 1) + nz = ny * nz * nx := by
    rw [hx1, hy1, Nat.add_assoc, ← Nat.mul_succ, Nat.succ_eq_add_one, Nat.sub_add_cancel hny, Nat.mul_comm nz ny, ← Nat.mul_succ, Nat.succ_eq_add_one,
      Nat.sub_add_cancel hnx]
  have hlt : ∀ i < nx, ∀ j < ny, ∀ k < nz, ny * nz * i + (nz * j + k) < ny * nz * nx := fun i hi j hj k hk =>
    radix_lt (by rw [Nat.mul_comm ny nz]; exact radix_lt hk hj) hi
  have hsym : ∀ (m : Mem) (f : Ptr), m.block f (ny * nz * nx) → (hermitianSymmetrizeXY' ((nx + 1) / 2) ((ny + 1) / 2) nz (nx / 2) (ny / 2) f).Ok m fun _ m' =>
      m.Upd m' (fun p => ∃ k < ny * nz * nx, p = f + k) ∧
      (fun x y : ℕ → ℂ => Symmetrized nx ny nz (fun i j k => x (ny * nz * i + (nz * j + k))) (fun i j k => y (ny * nz * i + (nz * j + k))))
        (fun k => m.val (f + k)) (fun k => m'.val (f + k)) := by
    intro m f hb
    have := Direct.symm3_ok (m := m) (f := f) (mx := (nx + 1) / 2) (my := (ny + 1) / 2) (mz := nz) (x0 := nx / 2) (y0 := ny / 2) (by omega) (by omega) (by omega)
      (by omega) (by omega) (by omega) (by omega) (by rw [hsz]; exact hb)
    rw [hsz, hx1, hy1] at this
    exact this
  have two : ∀ {f g}, c.Inputs mem0 (twoArr f g) 0 → ∀ {mem}, Reach c.step (c.Allowed mem0) mem1 mem → _ :=
    fun {f g} hi {mem} hr => hr.symm2 (wr := Conv3.Step.write) H hw (n := ny * nz * nx)
      (R := fun x y => Symmetrized nx ny nz (fun i j k => x (ny * nz * i + (nz * j + k))) (fun i j k => y (ny * nz * i + (nz * j + k)))) hsym
      (fun x y x' y' hxy hx hy => Direct.symmetrized_congr (by omega) (by omega) (by omega) (fun i hi j hj k hk => hx _ (hlt i hi j hj k hk))
        (fun i hi j hj k hk => hy _ (hlt i hi j hj k hk)) hxy)
      (hin f g hi).1 (hin f g hi).2.1 (hin f g hi).2.2
  refine ⟨c, mem1, e1, fun steps hs => ?_⟩
  obtain ⟨mem2, e2, r2⟩ := Reach.loop (pst := Py.step3 nx ny nz c) steps Reach.nil (by
    intro s hs' mem hr
    have hal := hs s hs'
    cases s with
    | write p v => exact hr.next H (s := .write p v) hal
    | call s s2 f g =>
      obtain ⟨m1, m2, a1, a2, r, -⟩ := two hal.2 hr
      obtain ⟨m3, a3, r3⟩ := r.next H (s := .call s s2 (twoArr f g) 0) hal
      exact ⟨m3, by
        rw [show Py.step3 nx ny nz c (.call s s2 f g) mem = Py.HConvolution3.convolve nx ny nz s s2 c f g mem from rfl]
        unfold Py.HConvolution3.convolve
        exact (Cmd.bind_run a1).trans ((Cmd.bind_run a2).trans a3), r3⟩)
  refine ⟨mem2, e2, fun s s2 f g hl hi => ?_⟩
  obtain ⟨m1, m2, a1, a2, ⟨l, hl', el⟩, u, ra, rb⟩ := two hi r2
  obtain ⟨m2', em2, H2⟩ := Hc l hl'
  rw [el] at em2
  simp only [Except.ok.injEq, Prod.mk.injEq, true_and] at em2
  subst em2
  obtain ⟨_, m3, e3, h3⟩ := H2 s s2 f g hl hi ra.herm rb.herm (fun h j hj k hk => ⟨by simpa using ra.nyqx h j hj k hk, by simpa using rb.nyqx h j hj k hk⟩)
    (fun h i hi k hk => ⟨by simpa using ra.nyqy h i hi k hk, by simpa using rb.nyqy h i hi k hk⟩)
  refine ⟨(), m3, ?_, _, _, ra, rb, h3⟩
  unfold Py.HConvolution3.convolve
  exact (Cmd.bind_run a1).trans ((Cmd.bind_run a2).trans e3)

end Fftwpp
