import Verif.Model.Fftw
import Verif.Spec.DftN

/-!
# Complex Fourier transforms on one process: fft1d, fft2d, fft3d (fftw++.h)

A memory word is a `Complex`.  A one-dimensional transform of length `n` is written as one of `1×1×n` values and a two-dimensional one as one of `1×nx×ny`
values.
-/

namespace Fftwpp
open Finset

/-- An object of one of the three classes: the sizes, the sign, and the members `inplace` and `doubles` of `fftw` (fftw++.h:118-126). -/
structure CFft where
  nx : ℕ
  ny : ℕ
  nz : ℕ
  sign : ℤ
  inplace : Bool
  doubles : ℕ

namespace CFft

/-- fftw++.h:544-547 `fft1d(nx,sign,…)`; `ip`: not both pointers are given to the constructor, or they are equal (fftw++.h:87-90, 282). -/
def fft1d (nx : ℕ) (sign : ℤ) (ip : Bool) : CFft := ⟨1, 1, nx, sign, ip, 2 * nx⟩
/-- fftw++.h:1197-1199 `fft2d(nx,ny,sign,…)`. -/
def fft2d (nx ny : ℕ) (sign : ℤ) (ip : Bool) : CFft := ⟨1, nx, ny, sign, ip, 2 * nx * ny⟩
/-- fftw++.h:1384-1387 `fft3d(nx,ny,nz,sign,…)`. -/
def fft3d (nx ny nz : ℕ) (sign : ℤ) (ip : Bool) : CFft := ⟨nx, ny, nz, sign, ip, 2 * nx * ny * nz⟩

variable (o : CFft)

/-- Address of value `(i,j,k)` (fftw++.h:1377-1379). -/
def addr (p : Ptr) (i j k : ℕ) : Ptr := p + ((i * o.ny + j) * o.nz + k)

/-- The arguments of a plan: in bounds, and equal or disjoint. -/
def Defined (f g : Ptr) (m : Mem) : Prop :=
  (∀ i < o.nx, ∀ j < o.ny, ∀ k < o.nz, m.valid (o.addr f i j k) ∧ m.valid (o.addr g i j k)) ∧
  (f = g ∨ ∀ i < o.nx, ∀ j < o.ny, ∀ k < o.nz, ∀ i' < o.nx, ∀ j' < o.ny, ∀ k' < o.nz, o.addr f i j k ≠ o.addr g i' j' k')

open Classical in
/-- fftw++.h:312-314, 1215-1217 `Execute(in,out)`, with the plans of fftw++.h:556-559, 1210-1213, 1397-1400 (FFTW's contract, exact arithmetic): the unnormalized DFT
of the array.  The third argument, `true` in `fft0`, is not used. -/
noncomputable def execute (f g : Ptr) (_shift : Bool) : Cmd Unit := fun m =>
  if o.Defined f g m then
    .ok ((), Mem.mk m.size fun p =>
      if h : ∃ x : ℕ × ℕ × ℕ, x.1 < o.nx ∧ x.2.1 < o.ny ∧ x.2.2 < o.nz ∧ p = o.addr g x.1 x.2.1 x.2.2 then
        dft3 o.nx o.ny o.nz o.sign (fun i j k => m.val (o.addr f i j k)) h.choose.1 h.choose.2.1 h.choose.2.2
      else m.val p)
  else .error .ub

/-- fftw++.h:316-323 `Setout(in,out)` and the rest of the call; `none`: the default argument `NULL`. -/
noncomputable def setout (inp : Ptr) (out : Option Ptr) (k : Ptr → Cmd Unit) : Cmd Unit :=
  if (o.inplace = true) ↔ inp = out.getD inp then k (out.getD inp) else exitCmd

/-- fftw++.h:325-328 `fft(in,out)` and (`shift` true) 338-341 `fft0(in,out)`. -/
noncomputable def fft (inp : Ptr) (out : Option Ptr) (shift : Bool) : Cmd Unit := o.setout inp out fun out => o.execute inp out shift

/-- The member `norm` (fftw++.h:229-232 and the constructors): `1/(doubles/2)`. -/
noncomputable def norm : ℂ := 1 / ((o.doubles / 2 : ℕ) : ℂ)

/-- fftw++.h:366-371 `fftNormalized(in,out)` and (`shift` true) 385-390 `fft0Normalized(in,out)`, with `Normalize` (351-357). -/
noncomputable def fftNormalized (inp : Ptr) (out : Option Ptr) (shift : Bool) : Cmd Unit :=
  o.setout inp out fun out => do
    o.execute inp out shift
    normalizeAll (o.doubles / 2) o.norm out

end CFft
end Fftwpp
