import Verif.Model.Fftw
import Verif.Spec.RDft3

/-!
# Fourier transforms of real data: rcfft1d, rcfft2d, rcfft3d, crfft1d, crfft2d, crfft3d (fftw++.h)

A memory word is a `double` (the real part of its value); a `Complex` is two words, the real and the imaginary part.
A one-dimensional transform of length `n` is written as one of `1×1×n` values and a two-dimensional one as one of `nx×1×ny` values:
`ny` of this model is 1 for ranks 1 and 2, and `nz` is the last size.
-/

namespace Fftwpp
open Finset

/-- The double at `p`. -/
noncomputable def Mem.dbl1 (m : Mem) (p : Ptr) : ℝ := (m.val p).re

/-- The `Complex` at `p`. -/
noncomputable def Mem.cplx (m : Mem) (p : Ptr) : ℂ := ⟨m.dbl1 p, m.dbl1 (p + 1)⟩

/-- An object of one of the six classes: the sizes, the members `doubles` and `inplace` of `fftw` (fftw++.h:118-126), and the values,
as a function of the input, of the words that FFTW leaves unspecified (all theorems hold for all of them). -/
structure RFft where
  rank : ℕ
  nx : ℕ
  ny : ℕ
  nz : ℕ
  inplace : Bool
  doubles : ℕ
  junk : Mem → Ptr → ℂ

namespace RFft

/-- fftw++.h:911-919 `rcfft1d(nx,…)`; `ip`: not both pointers are given to the constructor, or they are equal (fftw++.h:87-90, 275-278). -/
def rcfft1d (nx : ℕ) (ip : Bool) (junk : Mem → Ptr → ℂ) : RFft := ⟨1, 1, 1, nx, ip, 2 * (nx / 2 + 1), junk⟩
/-- fftw++.h:82-85 `realsize(n,inplace)`. -/
def realsize (n : ℕ) (ip : Bool) : ℕ := if ip = true then 2 * (n / 2 + 1) else n
/-- fftw++.h:951-959 `crfft1d(nx,…)`; the constructor without `in` has `doubles=2*(nx/2+1)`, the same value as it is in place. -/
def crfft1d (nx : ℕ) (ip : Bool) (junk : Mem → Ptr → ℂ) : RFft := ⟨1, 1, 1, nx, ip, realsize nx ip, junk⟩
/-- fftw++.h:1243-1255 `rcfft2d(nx,ny,…)`. -/
def rcfft2d (nx ny : ℕ) (ip : Bool) (junk : Mem → Ptr → ℂ) : RFft := ⟨2, nx, 1, ny, ip, 2 * nx * (ny / 2 + 1), junk⟩
/-- fftw++.h:1312-1324 `crfft2d(nx,ny,…)`. -/
def crfft2d (nx ny : ℕ) (ip : Bool) (junk : Mem → Ptr → ℂ) : RFft := ⟨2, nx, 1, ny, ip, nx * realsize ny ip, junk⟩
/-- fftw++.h:1430-1444 `rcfft3d(nx,ny,nz,…)`. -/
def rcfft3d (nx ny nz : ℕ) (ip : Bool) (junk : Mem → Ptr → ℂ) : RFft := ⟨3, nx, ny, nz, ip, 2 * nx * ny * (nz / 2 + 1), junk⟩
/-- fftw++.h:1516-1529 `crfft3d(nx,ny,nz,…)`. -/
def crfft3d (nx ny nz : ℕ) (ip : Bool) (junk : Mem → Ptr → ℂ) : RFft := ⟨3, nx, ny, nz, ip, nx * ny * realsize nz ip, junk⟩

variable (o : RFft)

/-- `Complex` values in a row of the spectrum. -/
def nzp : ℕ := o.nz / 2 + 1
/-- Doubles from one row of the real array to the next (the layout of FFTW's plans for real data). -/
def rdist : ℕ := if o.inplace = true then 2 * o.nzp else o.nz
/-- Address of real value `(i,j,k)`. -/
def raddr (p : Ptr) (i j k : ℕ) : Ptr := p + ((i * o.ny + j) * o.rdist + k)
/-- Address of the real (`c=0`) or imaginary (`c=1`) part of the value `(i,j,k)` of the spectrum. -/
def caddr (p : Ptr) (i j k c : ℕ) : Ptr := p + (((i * o.ny + j) * o.nzp + k) * 2 + c)

/-- The arguments `f` (real array) and `g` (spectrum) of a plan: in bounds, and equal or disjoint. -/
def Defined (f g : Ptr) (m : Mem) : Prop :=
  (∀ i < o.nx, ∀ j < o.ny, ∀ k < o.nz, m.valid (o.raddr f i j k)) ∧
  (∀ i < o.nx, ∀ j < o.ny, ∀ k < o.nzp, ∀ c < 2, m.valid (o.caddr g i j k c)) ∧
  (f = g ∨ ∀ i < o.nx, ∀ j < o.ny, ∀ k < o.nz, ∀ i' < o.nx, ∀ j' < o.ny, ∀ k' < o.nzp, ∀ c < 2, o.raddr f i j k ≠ o.caddr g i' j' k' c)

/-- The words of the spectrum at `g`. -/
def IsC (g p : Ptr) : Prop := ∃ x : ℕ × ℕ × ℕ × ℕ, x.1 < o.nx ∧ x.2.1 < o.ny ∧ x.2.2.1 < o.nzp ∧ x.2.2.2 < 2 ∧ p = o.caddr g x.1 x.2.1 x.2.2.1 x.2.2.2
/-- The words of the real array at `f`. -/
def IsR (f p : Ptr) : Prop := ∃ x : ℕ × ℕ × ℕ, x.1 < o.nx ∧ x.2.1 < o.ny ∧ x.2.2 < o.nz ∧ p = o.raddr f x.1 x.2.1 x.2.2

open Classical in
/-- fftw++.h:926, 1267, 1456 `fftw_execute_dft_r2c` (FFTW's contract, exact arithmetic): the half spectrum of the real array.  An
in-place real row has the size of a row of the spectrum, so every word of the array is output. -/
noncomputable def r2c (f g : Ptr) : Cmd Unit := fun m =>
  if o.Defined f g m then
    .ok ((), Mem.mk m.size fun p =>
      if h : o.IsC g p then
        let z := rdft3 o.nx o.ny o.nz 0 0 (fun i j k => m.dbl1 (o.raddr f i j k)) h.choose.1 h.choose.2.1 h.choose.2.2.1
        ((if h.choose.2.2.2 = 0 then z.re else z.im : ℝ) : ℂ)
      else m.val p)
  else .error .ub

/-- The spectrum of which the half at `g` is given. -/
noncomputable def full (g : Ptr) (m : Mem) (i j k : ℕ) : ℂ :=
  if k < o.nzp then m.cplx (o.caddr g i j k 0)
  else (starRingEnd ℂ) (m.cplx (o.caddr g ((o.nx - i) % o.nx) ((o.ny - j) % o.ny) (o.nz - k) 0))

open Classical in
/-- fftw++.h:966, 1332, 1537 `fftw_execute_dft_c2r` (FFTW's contract, exact arithmetic): the real array with the given half spectrum;
unspecified if that is not the spectrum of any.  The input is destroyed: its words that are not output are unspecified. -/
noncomputable def c2r (g f : Ptr) : Cmd Unit := fun m =>
  if o.Defined f g m then
    .ok ((), Mem.mk m.size fun p =>
      if h : o.IsR f p then
        if HermSpec3 o.nx o.ny o.nz (o.full g m) then
          ((irdft3 o.nx o.ny o.nz 0 0 (o.full g m) h.choose.1 h.choose.2.1 h.choose.2.2).re : ℂ)
        else ((o.junk m p).re : ℂ)
      else if o.IsC g p then ((o.junk m p).re : ℂ)
      else m.val p)
  else .error .ub

/-- fftw++.h:1263-1266, 1333-1336 (two dimensions) and 1452-1455, 1538-1541 (three dimensions): `Shift((Complex *) data,…)` in place, with rows of `nzp` complex
numbers, that is `2*nzp` doubles, each negated by itself, and `Shift((double *) data,…)` out of place; rank 1 ignores the argument `shift`. -/
noncomputable def shift (data : Ptr) : Cmd Unit :=
  match o.rank with
  | 1 => pure ()
  | 2 => if o.inplace = true then shiftRows data o.nx (2 * o.nzp) else shift2real data o.nx o.nz
  | _ => if o.inplace = true then shiftPlanes data o.nx o.ny (2 * o.nzp) else shift3real data o.nx o.ny o.nz

/-- fftw++.h:925-927, 1262-1268, 1451-1457 `Execute(in,out,shift)` of `rcfft1d`, `rcfft2d`, `rcfft3d`. -/
noncomputable def executeR (inp out : Ptr) (shift : Bool) : Cmd Unit := do
  (if shift = true then o.shift inp else pure ())
  o.r2c inp out

/-- fftw++.h:965-967, 1331-1337, 1536-1542 `Execute(in,out,shift)` of `crfft1d`, `crfft2d`, `crfft3d`. -/
noncomputable def executeC (inp out : Ptr) (shift : Bool) : Cmd Unit := do
  o.c2r inp out
  (if shift = true then o.shift out else pure ())

/-- fftw++.h:316-323 `Setout(in,out)` and the rest of the call; `none`: the default argument `NULL`. -/
noncomputable def setout (inp : Ptr) (out : Option Ptr) (k : Ptr → Cmd Unit) : Cmd Unit :=
  if (o.inplace = true) ↔ inp = out.getD inp then k (out.getD inp) else exitCmd

/-- fftw++.h:325-332 `fft(double *in,Complex *out)` (`shift` false) and 338-345 `fft0` (`shift` true) of `rcfft1d`, `rcfft2d`, `rcfft3d`. -/
noncomputable def rcfft (inp : Ptr) (out : Option Ptr) (shift : Bool) : Cmd Unit := o.setout inp out fun out => o.executeR inp out shift

/-- fftw++.h:325-336 `fft(Complex *in,double *out)` (`shift` false) and 338-349 `fft0` (`shift` true) of `crfft1d`, `crfft2d`, `crfft3d`. -/
noncomputable def crfft (inp : Ptr) (out : Option Ptr) (shift : Bool) : Cmd Unit := o.setout inp out fun out => o.executeC inp out shift

/-- The member `norm` (fftw++.h:229-232 and the constructors). -/
noncomputable def norm : ℂ := 1 / ((o.nx * o.ny * o.nz : ℕ) : ℂ)

/-- fftw++.h:351-357 `Normalize(Complex *out)`: `doubles/2` complex numbers, two words each. -/
noncomputable def normalizeC (out : Ptr) : Cmd Unit := normalizeAll (2 * (o.doubles / 2)) o.norm out
/-- fftw++.h:359-364 `Normalize(double *out)`. -/
noncomputable def normalizeD (out : Ptr) : Cmd Unit := normalizeAll o.doubles o.norm out

/-- fftw++.h:379-383 and 398-402 `fftNormalized(double *in,Complex *out)`, `fft0Normalized` of `rcfft1d`, `rcfft2d`, `rcfft3d`. -/
noncomputable def rcfftNormalized (inp : Ptr) (out : Option Ptr) (shift : Bool) : Cmd Unit :=
  o.setout inp out fun out => do
    o.executeR inp out shift
    o.normalizeC out

/-- fftw++.h:373-377 and 392-396 `fftNormalized(Complex *in,double *out)`, `fft0Normalized` of `crfft1d`, `crfft2d`, `crfft3d`. -/
noncomputable def crfftNormalized (inp : Ptr) (out : Option Ptr) (shift : Bool) : Cmd Unit :=
  o.setout inp out fun out => do
    o.executeC inp out shift
    o.normalizeD out

/-- fftw++.h:366-371 and 385-390, the overload `fftNormalized(Complex *in,Complex *out)` and `fft0Normalized`, which is the one called in
place (`fftNormalized(in)`), on a `crfft1d`, `crfft2d` or `crfft3d`. -/
noncomputable def crfftNormalizedC (inp : Ptr) (out : Option Ptr) (shift : Bool) : Cmd Unit :=
  o.setout inp out fun out => do
    o.executeC inp out shift
    o.normalizeC out

/-- The stores of a real and an imaginary part in one iteration, `f[e]=0.0`. -/
def zero (f : Ptr) (e : ℕ) : Body Unit := do
  store (f + (e * 2)) 0
  store (f + (e * 2 + 1)) 0

/-- fftw++.h:1271-1284, 1340-1353 (two dimensions; the loop over `ny` is not there and does nothing here as `ny=1` is odd) and 1460-1489,
1545-1574 (three dimensions) `deNyquist(f)`.  The inner loops are merged into the parallel ones: a smaller iteration has fewer
accesses, so this model has at least the data races of the code. -/
noncomputable def deNyquist (f : Ptr) : Cmd Unit := do
  (if o.nx % 2 = 0 then par (rng 0 (o.ny * o.nzp)) fun k => zero f k else pure ())
  (if o.ny % 2 = 0 then par (rng2 0 o.nx 0 o.nzp) fun x => zero f (x.1 * (o.ny * o.nzp) + x.2) else pure ())
  (if o.nz % 2 = 0 then par (rng2 0 o.nx 0 o.ny) fun x => zero f (x.1 * (o.ny * o.nzp) + (x.2 + 1) * o.nzp - 1) else pure ())

end RFft
end Fftwpp
