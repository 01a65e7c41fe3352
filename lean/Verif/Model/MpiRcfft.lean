import Verif.Model.MpiFft
import Verif.Model.Herm

/-!
# Distributed FFTs of real data (mpi/mpifftw++.h:295-390, mpi/mpifftw++.cc)

A memory word is a `double`; a `Complex` is two words, the real and the imaginary part.  `mpitranspose<Complex>(…,L,…)` is
`mpitranspose<double>(…,2*L,…)`: the class only moves blocks of `L*sizeof(T)` bytes.
-/

namespace Fftwpp.Net
open Finset

/-- The complex number whose real part is at `a`. -/
def cget (g : Loc → ℝ) (a : Loc) : ℂ := ⟨g a, g (a + 1)⟩

/-- Real (`c = 0`) or imaginary part. -/
def cpart (z : ℂ) (c : ℕ) : ℝ := if c = 0 then z.re else z.im

/-- `fftw_execute_dft` of a batched plan on words that are doubles (see `planExec`). -/
noncomputable def cplanExec (pl : BPlan) (src dst : Loc) : Prog ℝ Unit :=
  let l := List.range pl.howmany ×ˢ List.range pl.n ×ˢ List.range 2
  .apply (l.map fun x => src + (2 * (x.1 * pl.idist + x.2.1 * pl.istride) + x.2.2))
    (l.map fun x => (dst + (2 * (x.1 * pl.odist + x.2.1 * pl.ostride) + x.2.2), fun g =>
      cpart (∑ j ∈ Finset.range pl.n, cget g (src + 2 * (x.1 * pl.idist + j * pl.istride)) * w pl.n (pl.sign * j * x.2.1)) x.2.2))

/-- fftw++.h:316-328 `fft(in,out)`. -/
noncomputable def Mfft.cfft (o : Mfft) (inp out : Loc) : Prog ℝ Unit :=
  if (o.inplace = true) ↔ inp = out then cplanExec o.pl inp out else .fail

/-- A `mrcfft1d` or `mcrfft1d` object (fftw++.h:1017-1168): `howmany` transforms of length `n`, element `s ≤ n/2` of the complex vector
`h` is the complex word `h*cdist+s`, element `j < n` of the real vector `h` is the double `h*rdist+j`.  `junk` gives the words whose
values FFTW does not specify, as a function of the input; all theorems hold for every `junk`. -/
structure Mrc where
  n : ℕ
  howmany : ℕ
  cdist : ℕ
  rdist : ℕ
  inplace : Bool
  junk : (Loc → ℝ) → Loc → ℝ

/-- The doubles of the complex side. -/
def Mrc.cwords (o : Mrc) : List (ℕ × ℕ × ℕ) := List.range o.howmany ×ˢ List.range (o.n / 2 + 1) ×ˢ List.range 2
/-- The doubles of the real side. -/
def Mrc.rwords (o : Mrc) : List (ℕ × ℕ) := List.range o.howmany ×ˢ List.range o.n
/-- Address of a double of the complex side. -/
def Mrc.caddr (o : Mrc) (p : Loc) (x : ℕ × ℕ × ℕ) : Loc := p + (2 * (x.1 * o.cdist + x.2.1) + x.2.2)
/-- Address of a double of the real side. -/
def Mrc.raddr (o : Mrc) (p : Loc) (x : ℕ × ℕ) : Loc := p + (x.1 * o.rdist + x.2)

/-- `fft(in,out)` of `mrcfft1d` (`fftw_execute_dft_r2c`): the half spectra of the real vectors.  In place, the words of the input that
are not words of the output are unspecified; out of place, the input is preserved.  It exits if the call is in place and the constructor
was not, or conversely. -/
noncomputable def Mrc.r2c (o : Mrc) (inp out : Loc) : Prog ℝ Unit :=
  if (o.inplace = true) ↔ inp = out then
    .apply (o.rwords.map (o.raddr inp))
      ((o.cwords.map fun x => (o.caddr out x, fun g =>
          cpart (∑ j ∈ Finset.range o.n, (g (o.raddr inp (x.1, j)) : ℂ) * w o.n (-((x.2.1 : ℤ) * j))) x.2.2)) ++
        if o.inplace = true then
          ((o.rwords.map (o.raddr inp)).filter fun a => decide (a ∉ o.cwords.map (o.caddr out))).map fun a => (a, fun g => o.junk g a)
        else [])
  else .fail

open Classical in
/-- `fft(in,out)` of `mcrfft1d` (`fftw_execute_dft_c2r`): the inverse transforms of the half spectra; unspecified if a half spectrum is
not one of real data.  FFTW destroys the input. -/
noncomputable def Mrc.c2r (o : Mrc) (inp out : Loc) : Prog ℝ Unit :=
  if (o.inplace = true) ↔ inp = out then
    .apply (o.cwords.map (o.caddr inp))
      ((o.rwords.map fun x => (o.raddr out x, fun g =>
          let S := fun s => cget g (o.caddr inp (x.1, s, 0))
          if RPlan.realSpec o.n S then (∑ s ∈ Finset.range o.n, RPlan.full o.n S s * w o.n (s * x.2)).re else o.junk g (o.raddr out x))) ++
        ((o.cwords.map (o.caddr inp)).filter fun a => decide (a ∉ o.rwords.map (o.raddr out))).map fun a => (a, fun g => o.junk g a))
  else .fail

/-- mpi/mpifftw++.h:295-390 `rcfft2dMPI` on one process.  `X`, `Y`, `x`, `x0`: members of `dr`; `Yc`, `y`, `y0`: `Y`, `y`, `y0` of `dc`. -/
structure Rcfft2MPI where
  X : ℕ
  Y : ℕ
  x : ℕ
  x0 : ℕ
  Yc : ℕ
  y : ℕ
  y0 : ℕ
  inplace : Bool
  T : MT
  junk : (Loc → ℝ) → Loc → ℝ

/-- mpi/mpifftw++.h:305-336, the constructors, on process `rank` of `size`, with `dr=split(X,Y,comm)` and `dc=split(X,Y/2+1,comm)`
(`inplace`: equal pointers). -/
def Rcfft2MPI.new (X Y size rank : ℕ) (inplace : Bool) (optA alltoall : ℕ) (junk : (Loc → ℝ) → Loc → ℝ) : Rcfft2MPI :=
  let xd := Mpi.localdimension X rank size
  let yd := Mpi.localdimension (Y / 2 + 1) rank size
  { X, Y, x := xd.n.toNat, x0 := xd.start.toNat, Yc := Y / 2 + 1, y := yd.n.toNat, y0 := yd.start.toNat, inplace
    T := MT.mk' X (Y / 2 + 1) 2 size rank optA alltoall, junk }

namespace Rcfft2MPI
variable (o : Rcfft2MPI)

/-- mpi/mpifftw++.h:311 `cdist`. -/
def cdist : ℕ := o.Y / 2 + 1
/-- mpi/mpifftw++.h:312 `rdist`, with fftw++.h:82-85 `realsize`. -/
def rdist : ℕ := if o.inplace = true then 2 * o.cdist else o.Y
/-- mpi/mpifftw++.h:318-319 `yForward`, `yBackward`. -/
def yPlan : Mrc := ⟨o.Y, o.x, o.cdist, o.rdist, o.inplace, o.junk⟩
/-- mpi/mpifftw++.h:322 `xForward`. -/
def xForward : Mfft := .new o.X (-1) o.y o.y 1 true
/-- mpi/mpifftw++.h:323 `xBackward`. -/
def xBackward : Mfft := .new o.X 1 o.y o.y 1 true

/-- The rows visited by `for(i=start; i < stop; i += 2)`. -/
def oddRows (start stop : ℕ) : List ℕ := (List.range ((stop - start + 1) / 2)).map fun t => start + 2 * t

/-- mpi/mpifftw++.cc:82-100 `Shift(f)`; `none`: a null pointer, dereferenced if there is a word to negate.  The iterations touch different
words, so they are written as one operation. -/
noncomputable def shift (f : Option Loc) : Prog ℝ Unit :=
  if o.X % 2 = 0 then
    let l := oddRows ((o.x0 + 1) % 2) o.x ×ˢ List.range o.Y
    match f with
    | none => if l = [] then .ret () else .fail
    | some f => .apply (l.map fun x => f + (x.1 * o.rdist + x.2)) (l.map fun x => (f + (x.1 * o.rdist + x.2), fun g => -g (f + (x.1 * o.rdist + x.2))))
  else .fail

/-- mpi/mpifftw++.h:359-362 `ForwardWait(out)` after `T->wait()`; `none`: a null pointer. -/
noncomputable def forwardWait (out : Option Loc) : Prog ℝ Unit :=
  match out with
  | none => if o.X = 0 ∨ o.y = 0 then .ret () else .fail
  | some out => o.xForward.cfft out out

/-- mpi/mpifftw++.h:363-366 `Forward(in,out)`, with mpi/mpifftw++.cc:102-107 `iForward`; `out = none`: the default argument `NULL`. -/
noncomputable def forward (inp : Loc) (out : Option Loc) (wrk : Loc) : Prog ℝ Unit :=
  let out' := out.getD inp
  if (o.inplace = true) ↔ inp = out' then do
    o.yPlan.r2c inp out'
    o.T.localize0 out' out' wrk
    o.forwardWait out
  else .fail

/-- mpi/mpifftw++.h:367-370 `Forward0(in,out)`. -/
noncomputable def forward0 (inp : Loc) (out : Option Loc) (wrk : Loc) : Prog ℝ Unit := do
  o.shift (some inp)
  o.forward inp out wrk

/-- mpi/mpifftw++.h:373-381 `Backward(in,out)`, with mpi/mpifftw++.cc:109-114 `iBackward`; `BackwardWait` calls `Setout` too. -/
noncomputable def backward (inp : Loc) (out : Option Loc) (wrk : Loc) : Prog ℝ Unit :=
  let out' := out.getD inp
  if (o.inplace = true) ↔ inp = out' then do
    o.xBackward.cfft inp inp
    o.T.localize1 inp inp wrk
    o.yPlan.c2r inp out'
  else .fail

/-- mpi/mpifftw++.h:382-385 `Backward0(in,out)`. -/
noncomputable def backward0 (inp : Loc) (out : Option Loc) (wrk : Loc) : Prog ℝ Unit := do
  o.backward inp out wrk
  o.shift out

/-- fftw++.h:359-364 `Normalize(double *)`, inherited with `doubles=dr.x*realsize(dr.Y,inplace)` and `norm=1/(dr.X*dr.Y)`
(mpi/mpifftw++.h:326-337). -/
noncomputable def normalize (out : Loc) : Prog ℝ Unit :=
  let l := List.range (o.x * o.rdist)
  .apply (l.map fun i => out + i) (l.map fun i => (out + i, fun g => g (out + i) * (1 / ((o.X * o.Y : ℕ) : ℝ))))

/-- The `unsigned int` value `k-1`. -/
def pred32 (k : ℕ) : ℕ := if k = 0 then 2 ^ 32 - 1 else k - 1

/-- mpi/mpifftw++.h:345-354 `deNyquist(f)`. -/
def deNyquist (f : Loc) : Prog ℝ Unit := do
  (if o.X % 2 = 0 then
    .calls ((List.range o.y ×ˢ List.range 2).map fun x => .store (f + (2 * x.1 + x.2)) 0)
  else .ret ())
  (if o.Y % 2 = 0 ∧ o.y0 + o.y = o.Yc then
    .calls ((List.range o.X ×ˢ List.range 2).map fun x => .store (f + (2 * pred32 ((x.1 + 1) * o.y) + x.2)) 0)
  else .ret ())

end Rcfft2MPI
end Fftwpp.Net
