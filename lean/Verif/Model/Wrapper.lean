import Verif.Model.Opt
import Verif.Model.Tr
import Verif.Model.HermDriver
import Verif.Model.Conv2D
import Verif.Model.Hermitian

/-!
# wrappers/HybridConvolution.h, wrappers/cfftw++.cc, wrappers/fftwpp.py: the wrappers for C and Python

The wrapper objects own a plan chosen by the optimizer and a `Convolution`, `Convolution2` or `Convolution3` object.  The `Application` objects have the defaults
`overwrite=true`, `m=D=0`, `I=-1` (convolve.h:96-121), so that the optimizer is free.
-/

namespace Fftwpp

/-- What an optimizer run observes: the results of its timings, and the value of `mlist.back()` on an empty list. -/
structure Clock where
  times : ℕ → ℚ
  back : ℕ

/-- convolve.h:506-519: normal entry point `fftPad(L,M,app,C)`.  (An optimizer run that does not return is the outcome `ub`.) -/
noncomputable def Fft.opt (k : Clock) (L M : ℕ) (app : App) (C : ℕ) : Except Err Fft :=
  match Opt.scan ⟨.pad, L, C, C, k.times, k.back⟩ ⟨0, 0, none⟩ M false with
  | none => .error .ub
  | some s => Fft.new L M app C C s.m s.D s.inplace

/-- convolve.h:619-629: normal entry point `fftPadCentered(L,M,app,C,S)` with `S=C`. -/
noncomputable def Tr.optCentered (k : Clock) (L M : ℕ) (app : App) (C : ℕ) : Except Err Tr :=
  match Opt.scan ⟨.centered, L, C, C, k.times, k.back⟩ ⟨0, 0, none⟩ M false with
  | none => .error .ub
  | some s => Tr.new true L M app C C s.m s.D s.inplace

/-- convolve.h:734-744: normal entry point `fftPadHermitian(L,M,app)` with `C=1`. -/
noncomputable def Herm.opt (k : Clock) (L M : ℕ) (app : App) (align : ℕ) (J : Junk) : Except Err Herm :=
  match Opt.scan ⟨.hermitian, L, 1, 1, k.times, k.back⟩ ⟨0, 0, none⟩ M false with
  | none => .error .ub
  | some s => Herm.new L M app 1 s.m s.D s.inplace align J

/-- The next command gets an object whose construction may fail. -/
noncomputable def withObj {α β : Type} (x : Except Err α) (f : α → Cmd β) : Cmd β := fun m =>
  match x with
  | .error e => .error e
  | .ok o => f o m

/-- wrappers/HybridConvolution.h:19, 62-63, 125-127: the default of a requested size `M`. -/
def wrapSize (M A L : ℕ) : ℕ := if M = 0 then A * L - A + 1 else M

/-- wrappers/HybridConvolution.h:39, 94-95, 160-162: the default of a requested size `M` for Hermitian data. -/
def wrapSizeH (M L : ℕ) : ℕ := if M = 0 then 3 * ceilquotient L 2 - 2 * (L % 2) else M

/-- wrappers/HybridConvolution.h:18-23 `HybridConvolution`. -/
noncomputable def HybridConvolution.new (k : Clock) (L : ℕ) (mult : Multiplier) (M A B : ℕ) (al : Alloc) : Cmd Conv :=
  withObj (Fft.opt k L (wrapSize M A L) ⟨A, B, true⟩ 1) fun o => Conv.new o.base mult none none none al

/-- wrappers/HybridConvolution.h:38-43 `HybridConvolutionHermitian`. -/
noncomputable def HybridConvolutionHermitian.new (k : Clock) (L : ℕ) (mult : Multiplier) (M A B align : ℕ) (J : Junk) (al : Alloc) : Cmd Conv :=
  withObj (Herm.opt k L (wrapSizeH M L) ⟨A, B, true⟩ align J) fun o => Conv.new o.base mult none none none al

/-- wrappers/HybridConvolution.h:60-69 `HybridConvolution2`; `th` is the number of threads of `fftx`. -/
noncomputable def HybridConvolution2.new (kx ky : Clock) (Lx Ly : ℕ) (mult : Multiplier) (Mx My A B th : ℕ) (al : Alloc2) : Cmd Conv2 :=
  withObj (Fft.opt kx Lx (wrapSize Mx A Lx) ⟨A, B, true⟩ Ly) fun ox =>
  withObj (Fft.opt ky Ly (wrapSize My A Ly) ⟨A, B, true⟩ 1) fun oy =>
  Conv2.new ox.base oy.base mult th none none none al

/-- wrappers/HybridConvolution.h:89-102 `HybridConvolutionHermitian2`. -/
noncomputable def HybridConvolutionHermitian2.new (kx ky : Clock) (Lx Ly : ℕ) (mult : Multiplier) (Mx My A B th align : ℕ) (J : Junk) (al : Alloc2) : Cmd Conv2 :=
  let Hy := ceilquotient Ly 2
  withObj (Tr.optCentered kx Lx (wrapSizeH Mx Lx) ⟨A, B, true⟩ Hy) fun tx =>
  withObj (Herm.opt ky Ly (wrapSizeH My Ly) ⟨A, B, true⟩ align J) fun oy =>
  Conv2.new tx.base oy.base mult th none none none al

/-- wrappers/HybridConvolution.h:123-135 `HybridConvolution3`. -/
noncomputable def HybridConvolution3.new (kx ky kz : Clock) (Lx Ly Lz : ℕ) (mult : Multiplier) (Mx My Mz A B th thy : ℕ) (al : Alloc3) : Cmd Conv3 :=
  withObj (Fft.opt kx Lx (wrapSize Mx A Lx) ⟨A, B, true⟩ (Ly * Lz)) fun ox =>
  withObj (Fft.opt ky Ly (wrapSize My A Ly) ⟨A, B, true⟩ Lz) fun oy =>
  withObj (Fft.opt kz Lz (wrapSize Mz A Lz) ⟨A, B, true⟩ 1) fun oz =>
  Conv3.new ox.base oy.base oz.base mult th thy none none none al

/-- wrappers/HybridConvolution.h:158-171 `HybridConvolutionHermitian3`. -/
noncomputable def HybridConvolutionHermitian3.new (kx ky kz : Clock) (Lx Ly Lz : ℕ) (mult : Multiplier) (Mx My Mz A B th thy align : ℕ) (J : Junk) (al : Alloc3) :
    Cmd Conv3 :=
  let Hz := ceilquotient Lz 2
  withObj (Tr.optCentered kx Lx (wrapSizeH Mx Lx) ⟨A, B, true⟩ (Ly * Hz)) fun tx =>
  withObj (Tr.optCentered ky Ly (wrapSizeH My Ly) ⟨A, B, true⟩ Hz) fun ty =>
  withObj (Herm.opt kz Lz (wrapSizeH Mz Lz) ⟨A, B, true⟩ align J) fun oz =>
  Conv3.new tx.base ty.base oz.base mult th thy none none none al

/-- wrappers/cfftw++.cc:64, 83, 105, 121, 145, 162: `Complex *F[]={a,b}`. -/
def twoArr (a b : Ptr) : PtrArr := ⟨2, fun i => if i = 0 then a else b⟩

/-! ## wrappers/cfftw++.cc -/

namespace Cwrap

/-- wrappers/cfftw++.cc:54-56 `fftwpp_create_conv1d`. -/
noncomputable def create_conv1d (k : Clock) (L : ℕ) (al : Alloc) : Cmd Conv := HybridConvolution.new k L multBinary 0 2 1 al
/-- wrappers/cfftw++.cc:62-66 `fftwpp_conv1d_convolve`. -/
noncomputable def conv1d_convolve (c : Conv) (a b : Ptr) : Cmd Unit := c.convolve (twoArr a b)
/-- wrappers/cfftw++.cc:69-71 `fftwpp_create_hconv1d`. -/
noncomputable def create_hconv1d (k : Clock) (L align : ℕ) (J : Junk) (al : Alloc) : Cmd Conv := HybridConvolutionHermitian.new k L realMultBinary 0 2 1 align J al
/-- wrappers/cfftw++.cc:81-85 `fftwpp_hconv1d_convolve`. -/
noncomputable def hconv1d_convolve (c : Conv) (a b : Ptr) : Cmd Unit := c.convolve (twoArr a b)
/-- wrappers/cfftw++.cc:88-91 `fftwpp_create_conv2d`. -/
noncomputable def create_conv2d (kx ky : Clock) (Lx Ly th : ℕ) (al : Alloc2) : Cmd Conv2 := HybridConvolution2.new kx ky Lx Ly multBinary 0 0 2 1 th al
/-- wrappers/cfftw++.cc:102-107 `fftwpp_conv2d_convolve`; `s`: the schedules of the parallel loops. -/
noncomputable def conv2d_convolve (s : ℕ → Sch) (c : Conv2) (a b : Ptr) : Cmd Unit := c.convolve s (twoArr a b) 0
/-- wrappers/cfftw++.cc:110-113 `fftwpp_create_hconv2d`. -/
noncomputable def create_hconv2d (kx ky : Clock) (Lx Ly th align : ℕ) (J : Junk) (al : Alloc2) : Cmd Conv2 :=
  HybridConvolutionHermitian2.new kx ky Lx Ly realMultBinary 0 0 2 1 th align J al
/-- wrappers/cfftw++.cc:119-123 `fftwpp_hconv2d_convolve`. -/
noncomputable def hconv2d_convolve (s : ℕ → Sch) (c : Conv2) (a b : Ptr) : Cmd Unit := c.convolve s (twoArr a b) 0
/-- wrappers/cfftw++.cc:126-130 `fftwpp_create_conv3d`. -/
noncomputable def create_conv3d (kx ky kz : Clock) (Lx Ly Lz th thy : ℕ) (al : Alloc3) : Cmd Conv3 :=
  HybridConvolution3.new kx ky kz Lx Ly Lz multBinary 0 0 0 2 1 th thy al
/-- wrappers/cfftw++.cc:143-147 `fftwpp_conv3d_convolve`. -/
noncomputable def conv3d_convolve (s : ℕ → Sch) (s2 : ℕ → ℕ → ℕ → Sch) (c : Conv3) (a b : Ptr) : Cmd Unit := c.convolve s s2 (twoArr a b) 0
/-- wrappers/cfftw++.cc:150-154 `fftwpp_create_hconv3d`. -/
noncomputable def create_hconv3d (kx ky kz : Clock) (nx ny nz th thy align : ℕ) (J : Junk) (al : Alloc3) : Cmd Conv3 :=
  HybridConvolutionHermitian3.new kx ky kz nx ny nz realMultBinary 0 0 0 2 1 th thy align J al
/-- wrappers/cfftw++.cc:160-164 `fftwpp_hconv3d_convolve`. -/
noncomputable def hconv3d_convolve (s : ℕ → Sch) (s2 : ℕ → ℕ → ℕ → Sch) (c : Conv3) (a b : Ptr) : Cmd Unit := c.convolve s s2 (twoArr a b) 0

end Cwrap

/-! ## wrappers/fftwpp.py -/

namespace Py

/-- wrappers/fftwpp.py:304 `HConvolution.__init__`, one dimension: `fftwpp_create_hconv1d(2*shape[0]-1)`. -/
noncomputable def HConvolution1.init (k : Clock) (n align : ℕ) (J : Junk) (al : Alloc) : Cmd Conv := Cwrap.create_hconv1d k (2 * n - 1) align J al

/-- wrappers/fftwpp.py:324-332, 352 `HConvolution.convolve`, one dimension. -/
noncomputable def HConvolution1.convolve (c : Conv) (f g : Ptr) : Cmd Unit := do
  hermitianSymmetrize f
  hermitianSymmetrize g
  Cwrap.hconv1d_convolve c f g

/-- wrappers/fftwpp.py:308-309 `HConvolution.__init__`, two dimensions: `fftwpp_create_hconv2d(shape[0],2*shape[1]-1)`. -/
noncomputable def HConvolution2.init (kx ky : Clock) (nx ny th align : ℕ) (J : Junk) (al : Alloc2) : Cmd Conv2 := Cwrap.create_hconv2d kx ky nx (2 * ny - 1) th align J al

/-- wrappers/fftwpp.py:324-352 `HConvolution.convolve`, two dimensions; `nx`, `ny`: the shape of `f`. -/
noncomputable def HConvolution2.convolve (nx ny : ℕ) (s : ℕ → Sch) (c : Conv2) (f g : Ptr) : Cmd Unit := do
  let Hx := (nx + 1) / 2
  let x0 := nx / 2
  hermitianSymmetrizeX' Hx ny x0 f
  hermitianSymmetrizeX' Hx ny x0 g
  Cwrap.hconv2d_convolve s c f g

/-- wrappers/fftwpp.py:313-315 `HConvolution.__init__`, three dimensions: `fftwpp_create_hconv3d(shape[0],shape[1],2*shape[2]-1)`. -/
noncomputable def HConvolution3.init (kx ky kz : Clock) (nx ny nz th thy align : ℕ) (J : Junk) (al : Alloc3) : Cmd Conv3 :=
  Cwrap.create_hconv3d kx ky kz nx ny (2 * nz - 1) th thy align J al

/-- wrappers/fftwpp.py:324-352 `HConvolution.convolve`, three dimensions. -/
noncomputable def HConvolution3.convolve (nx ny nz : ℕ) (s : ℕ → Sch) (s2 : ℕ → ℕ → ℕ → Sch) (c : Conv3) (f g : Ptr) : Cmd Unit := do
  let Hx := (nx + 1) / 2
  let Hy := (ny + 1) / 2
  let x0 := nx / 2
  let y0 := ny / 2
  hermitianSymmetrizeXY' Hx Hy nz x0 y0 f
  hermitianSymmetrizeXY' Hx Hy nz x0 y0 g
  Cwrap.hconv3d_convolve s s2 c f g

end Py
end Fftwpp
