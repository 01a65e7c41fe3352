import Verif.Model.Transpose
import Verif.Model.Fftw

/-!
# Distributed FFTs (mpi/mpifftw++.h, mpi/mpifftw++.cc)

The programs of the processes, in the execution model of `Model/Net.lean`.  A local transform reads all of its input words and then
writes its output words, one at a time (FFTW's contract, exact arithmetic: see `BPlan.exec`; the split over threads is C22).
`iForward` is immediately followed by `ForwardWait`, as in `Forward`: `T->ilocalize0(out); T->wait()` is `T->localize0(out)`.
-/

namespace Fftwpp.Net
open Finset

variable {V : Type}

/-- Read the words `l`; the values are passed on as a function of the address (`g` for the other addresses). -/
def Prog.loads {β : Type} (l : List Loc) (g : Loc → V) (k : (Loc → V) → Prog V β) : Prog V β :=
  match l with
  | [] => k g
  | a :: t => .load a fun v => Prog.loads t (fun b => if b = a then v else g b) k

/-- Read the words `rd`, then store at each address of `wr` its function of the values read. -/
def Prog.apply [Inhabited V] (rd : List Loc) (wr : List (Loc × ((Loc → V) → V))) : Prog V Unit :=
  .loads rd (fun _ => default) fun g => .calls (wr.map fun x => .store x.1 (x.2 g))

/-- `fftw_execute_dft` of a batched plan: output `k` is the unnormalized DFT of input `k`. -/
noncomputable def planExec (pl : BPlan) (src dst : Loc) : Prog ℂ Unit :=
  .apply ((List.range pl.howmany ×ˢ List.range pl.n).map fun x => src + (x.1 * pl.idist + x.2 * pl.istride))
    ((List.range pl.howmany ×ˢ List.range pl.n).map fun x => (dst + (x.1 * pl.odist + x.2 * pl.ostride), fun g =>
      ∑ j ∈ Finset.range pl.n, g (src + (x.1 * pl.idist + j * pl.istride)) * w pl.n (pl.sign * j * x.2)))

/-- A `mfft1d` object (fftw++.h:821-900): the plan, and whether the constructor was given equal pointers. -/
structure Mfft where
  pl : BPlan
  inplace : Bool

/-- fftw++.h:837-846 `mfft1d(nx,sign,M,stride,dist,in,out)`. -/
def Mfft.new (nx : ℕ) (sign : ℤ) (M stride dist : ℕ) (inplace : Bool) : Mfft :=
  ⟨(MFft.new nx sign M stride stride dist dist).pl, inplace⟩

/-- fftw++.h:316-328 `fft(in,out)`: it exits if the call is in place and the constructor was not, or conversely. -/
noncomputable def Mfft.fft (o : Mfft) (inp out : Loc) : Prog ℂ Unit :=
  if (o.inplace = true) ↔ inp = out then planExec o.pl inp out else .fail

/-- fftw++.h:351-357 `Normalize(out)`: the first `half` words are multiplied by `norm`. -/
noncomputable def normalizeP (half : ℕ) (norm : ℂ) (out : Loc) : Prog ℂ Unit :=
  .apply ((List.range half).map fun i => out + i) ((List.range half).map fun i => (out + i, fun g => g (out + i) * norm))

/-- mpi/mpifftw++.h:37-117 `fft2dMPI` on one process; `x`, `y`, `X`, `Y`: the members of `d` (mpi/mpigroup.h:67-98). -/
structure Fft2MPI where
  X : ℕ
  Y : ℕ
  x : ℕ
  y : ℕ
  sign : ℤ
  inplace : Bool
  T : MT
  strided : Bool

/-- mpi/mpifftw++.h:47-80, the constructor, on process `rank` of `size` (`inplace`: equal pointers); the transpose is as in `MT.mk'`.
`d.y & (d.y-1)` is computed without wrap-around; for `d.y=0` it is 0 in both. -/
def Fft2MPI.new (X Y size rank : ℕ) (sign : ℤ) (inplace : Bool) (optA alltoall : ℕ) : Fft2MPI :=
  let x := (Mpi.localdimension X rank size).n.toNat
  let y := (Mpi.localdimension Y rank size).n.toNat
  { X, Y, x, y, sign, inplace, T := MT.mk' X Y 1 size rank optA alltoall, strided := decide (y &&& (y - 1) ≠ 0) }

/-- mpi/mpifftw++.h:51 `yForward`. -/
def Fft2MPI.yForward (o : Fft2MPI) : Mfft := .new o.Y o.sign o.x 1 o.Y o.inplace
/-- mpi/mpifftw++.h:52 `yBackward`, always in place. -/
def Fft2MPI.yBackward (o : Fft2MPI) : Mfft := .new o.Y (-o.sign) o.x 1 o.Y true
/-- mpi/mpifftw++.h:58,63 `xForward`, always in place. -/
def Fft2MPI.xForward (o : Fft2MPI) : Mfft :=
  if o.strided = true then .new o.X o.sign o.y o.y 1 true else .new o.X o.sign o.y 1 o.X true
/-- mpi/mpifftw++.h:59,64 `xBackward`. -/
def Fft2MPI.xBackward (o : Fft2MPI) : Mfft :=
  if o.strided = true then .new o.X (-o.sign) o.y o.y 1 o.inplace else .new o.X (-o.sign) o.y 1 o.X o.inplace

/-- mpi/mpifftw++.h:95-101 `ForwardWait(out)` after `T->wait()`; `none`: a null pointer, dereferenced by the transforms if there is
anything to transform. -/
noncomputable def Fft2MPI.forwardWait (o : Fft2MPI) (out : Option Loc) : Prog ℂ Unit :=
  match out with
  | none => if o.X = 0 ∨ o.y = 0 then .ret () else .fail
  | some out => do
    (if o.strided = false then transpose o.X o.y 1 true out out else .ret ())
    o.xForward.fft out out
    (if o.strided = false then transpose o.y o.X 1 true out out else .ret ())

/-- mpi/mpifftw++.h:102-105 `Forward(in,out)`, with mpi/mpifftw++.cc:7-12 `iForward`; `out = none`: the default argument `NULL`.
`wrk`: the work array of the transpose. -/
noncomputable def Fft2MPI.forward (o : Fft2MPI) (inp : Loc) (out : Option Loc) (wrk : Loc) : Prog ℂ Unit :=
  let out' := out.getD inp
  if (o.inplace = true) ↔ inp = out' then do
    o.yForward.fft inp out'
    o.T.localize0 out' out' wrk
    o.forwardWait out
  else .fail

/-- mpi/mpifftw++.h:107-110 `BackwardWait(out)` after `T->wait()`. -/
noncomputable def Fft2MPI.backwardWait (o : Fft2MPI) (out : Option Loc) : Prog ℂ Unit :=
  match out with
  | none => if o.Y = 0 ∨ o.x = 0 then .ret () else .fail
  | some out => o.yBackward.fft out out

/-- mpi/mpifftw++.h:111-114 `Backward(in,out)`, with mpi/mpifftw++.cc:14-21 `iBackward`. -/
noncomputable def Fft2MPI.backward (o : Fft2MPI) (inp : Loc) (out : Option Loc) (wrk : Loc) : Prog ℂ Unit :=
  let out' := out.getD inp
  if (o.inplace = true) ↔ inp = out' then do
    (if o.strided = false then transpose o.X o.y 1 true inp inp else .ret ())
    o.xBackward.fft inp out'
    (if o.strided = false then transpose o.y o.X 1 true out' out' else .ret ())
    o.T.localize1 out' out' wrk
    o.backwardWait out
  else .fail

/-- fftw++.h:351-357 `Normalize(out)`, inherited with `doubles=2*d.x*d.Y` and `norm=1/(d.X*d.Y)` (mpi/mpifftw++.h:67-79). -/
noncomputable def Fft2MPI.normalize (o : Fft2MPI) (out : Loc) : Prog ℂ Unit :=
  normalizeP (o.x * o.Y) (1 / ((o.X * o.Y : ℕ) : ℂ)) out

end Fftwpp.Net
