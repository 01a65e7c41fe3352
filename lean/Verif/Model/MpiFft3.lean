import Verif.Model.MpiFft
import Verif.Model.Comm

/-!
# Distributed three-dimensional FFTs (mpi/mpifftw++.h:148-256, mpi/mpifftw++.cc:23-80)

As in `Model/MpiFft.lean`: exact arithmetic, FFTW's contract for a local transform; `iForward`, `ForwardWait0` and `ForwardWait1` follow
each other as in `Forward`; dimensions do not overflow.
-/

namespace Fftwpp.Net
open Finset

/-- `MPI_Comm_split(comm,color,key,&newcomm)` for a communicator of `size` processes (MPI standard 6.4.2): the process that has rank `i`
in the new communicator of process `r`; other ranks are not processes. -/
def commProc (size : ℕ) (color key : ℕ → ℕ) (r i : ℕ) : ℕ :=
  ((List.range size).find? fun s => decide (color s = color r ∧ Mpi.splitRank size color key s = i)).getD (size + i)

/-- `fft(in,out)` of a `fft2d` object (fftw++.h:1193-1218, 316-328; `ip`: the constructor was given equal pointers): the unnormalized
two-dimensional DFT. -/
noncomputable def fft2dExec (ny nz : ℕ) (sign : ℤ) (ip : Bool) (src dst : Loc) : Prog ℂ Unit :=
  if (ip = true) ↔ src = dst then
    .apply ((List.range ny ×ˢ List.range nz).map fun x => src + (x.1 * nz + x.2))
      ((List.range ny ×ˢ List.range nz).map fun x => (dst + (x.1 * nz + x.2), fun g =>
        ∑ j ∈ Finset.range ny, ∑ k ∈ Finset.range nz, g (src + (j * nz + k)) * w ny (sign * j * x.1) * w nz (sign * k * x.2)))
  else .fail

/-- mpi/mpifftw++.h:148-256 `fft3dMPI` on one process.  `commxy`, `commyz`: the processes with given ranks in `d.xy.communicator` and
`d.yz.communicator`. -/
structure Fft3MPI where
  d : Split3
  sign : ℤ
  inplace : Bool
  Txy : MT
  Tyz : Option MT
  commxy : ℕ → ℕ
  commyz : ℕ → ℕ

/-- mpi/mpifftw++.h:159-210, the constructors, on the active process `r` of `MPIgroup(comm,X,Y,allowPencil)`, where `comm` has `N` processes
(mpi/mpigroup.h:33-55), with `d=split3(X,Y,Z,group)` (`inplace`: equal pointers).  `xy`, `yz`: `options.a` and `options.alltoall` of the
two transposes, as in `MT.mk'`. -/
def Fft3MPI.new (X Y Z N : ℕ) (pencil : Bool) (r : ℕ) (sign : ℤ) (inplace : Bool) (xy yz : ℕ × ℕ) : Fft3MPI :=
  let size := Mpi.groupSize2 X Y N pencil
  let major := Mpi.groupMajor X Y N pencil
  let d := groupSplit3 X Y Z X Y N pencil r
  { d, sign, inplace
    Txy := MT.mk' X Y d.yz.y (Mpi.splitSize size (· % major) r) (Mpi.splitRank size (· % major) (· / major) r) xy.1 xy.2
    Tyz := if d.yz.x < Y then
      some (MT.mk' Y Z 1 (Mpi.splitSize size (· / major) r) (Mpi.splitRank size (· / major) (· % major) r) yz.1 yz.2) else none
    commxy := commProc size (· % major) (· / major) r
    commyz := commProc size (· / major) (· % major) r }

namespace Fft3MPI
variable (o : Fft3MPI)

/-- mpi/mpifftw++.h:167-168 `zForward`. -/
def zForward : Mfft := .new o.d.Z o.sign (o.d.xy.x * o.d.yz.x) 1 o.d.Z o.inplace
/-- mpi/mpifftw++.h:169 `zBackward`, always in place. -/
def zBackward : Mfft := .new o.d.Z (-o.sign) (o.d.xy.x * o.d.yz.x) 1 o.d.Z true
/-- mpi/mpifftw++.h:173 `yForward`, always in place. -/
def yForward : Mfft := .new o.d.Y o.sign o.d.yz.y o.d.yz.y 1 true
/-- mpi/mpifftw++.h:174 `yBackward`, always in place. -/
def yBackward : Mfft := .new o.d.Y (-o.sign) o.d.yz.y o.d.yz.y 1 true
/-- mpi/mpifftw++.h:183-184 `xForward`, always in place. -/
def xForward : Mfft := .new o.d.X o.sign (o.d.xy.y * o.d.yz.y) (o.d.xy.y * o.d.yz.y) 1 true
/-- mpi/mpifftw++.h:183-185 `xBackward`. -/
def xBackward : Mfft := .new o.d.X (-o.sign) (o.d.xy.y * o.d.yz.y) (o.d.xy.y * o.d.yz.y) 1 o.inplace

/-- `for(i=0; i < d.x*stride; i += stride) f(i)`: one iteration for each local plane; the iterations access different planes, so their
order does not matter (C22). -/
noncomputable def planes (stride : ℕ) (f : ℕ → Prog ℂ Unit) : Prog ℂ Unit := .loop (List.range o.d.xy.x) fun i => f (i * stride)

/-- A transpose between the processes of the first communicator. -/
def xy (p : Prog ℂ Unit) : Prog ℂ Unit := p.on o.commxy id
/-- A transpose between the processes of the second communicator, whose contexts are different. -/
def yz (p : Prog ℂ Unit) : Prog ℂ Unit := p.on o.commyz (· + 20)

/-- mpi/mpifftw++.cc:40-51 `ForwardWait0` after `Tyz->wait()`; `none`: a null pointer, dereferenced if there is anything to transform. -/
noncomputable def forwardWait0 (out : Option Loc) (wxy : Loc) : Prog ℂ Unit :=
  match out with
  | none => if o.d.xy.x = 0 ∨ o.d.Y = 0 ∨ o.d.yz.y = 0 then .ret () else .fail
  | some out => do
    o.planes (o.d.yz.y * o.d.Y) fun i => o.yForward.fft (out + i) (out + i)
    o.xy (o.Txy.localize0 out out wxy)

/-- mpi/mpifftw++.h:227-230 `ForwardWait1` after `Txy->wait()`. -/
noncomputable def forwardWait1 (out : Option Loc) : Prog ℂ Unit :=
  match out with
  | none => if o.d.X = 0 ∨ o.d.xy.y = 0 ∨ o.d.yz.y = 0 then .ret () else .fail
  | some out => o.xForward.fft out out

/-- mpi/mpifftw++.h:235-238 `Forward(in,out)`, with mpi/mpifftw++.cc:23-39 `iForward`; `out = none`: the default argument `NULL`.
`wxy`, `wyz`: the work arrays of the transposes. -/
noncomputable def forward (inp : Loc) (out : Option Loc) (wxy wyz : Loc) : Prog ℂ Unit :=
  let out' := out.getD inp
  if (o.inplace = true) ↔ inp = out' then do
    (match o.Tyz with
    | some T => do
      o.zForward.fft inp out'
      o.yz (T.localize0 out' out' wyz)
      o.forwardWait0 out wxy
    | none => do
      o.planes (o.d.Z * o.d.Y) fun i => fft2dExec o.d.Y o.d.Z o.sign o.inplace (inp + i) (out' + i)
      o.xy (o.Txy.localize0 out' out' wxy))
    o.forwardWait1 out
  else .fail

/-- mpi/mpifftw++.cc:60-80 `BackwardWait0` after `Txy->wait()`, with `Tyz->wait()`. -/
noncomputable def backwardWait0 (out : Option Loc) (wyz : Loc) : Prog ℂ Unit :=
  match out with
  | none => if o.d.xy.x = 0 ∨ o.d.Y = 0 ∨ o.d.yz.y = 0 then .ret () else .fail
  | some out =>
    match o.Tyz with
    | some T => do
      o.planes (o.d.yz.y * o.d.Y) fun i => o.yBackward.fft (out + i) (out + i)
      o.yz (T.localize1 out out wyz)
    | none => o.planes (o.d.yz.y * o.d.Y) fun i => fft2dExec o.d.Y o.d.Z (-o.sign) true (out + i) (out + i)

/-- mpi/mpifftw++.h:242-247 `BackwardWait1` after `Tyz->wait()`. -/
noncomputable def backwardWait1 (out : Option Loc) : Prog ℂ Unit :=
  match o.Tyz, out with
  | none, _ => .ret ()
  | some _, none => if o.d.xy.x = 0 ∨ o.d.yz.x = 0 ∨ o.d.Z = 0 then .ret () else .fail
  | some _, some out => o.zBackward.fft out out

/-- mpi/mpifftw++.h:252-255 `Backward(in,out)`, with mpi/mpifftw++.cc:53-58 `iBackward`. -/
noncomputable def backward (inp : Loc) (out : Option Loc) (wxy wyz : Loc) : Prog ℂ Unit :=
  let out' := out.getD inp
  if (o.inplace = true) ↔ inp = out' then do
    o.xBackward.fft inp out'
    o.xy (o.Txy.localize1 out' out' wxy)
    o.backwardWait0 out wyz
    o.backwardWait1 out
  else .fail

/-- fftw++.h:351-357 `Normalize(out)`, inherited with `doubles=2*d.x*d.y*d.Z` and `norm=1/(d.X*d.Y*d.Z)` (mpi/mpifftw++.h:188-205). -/
noncomputable def normalize (out : Loc) : Prog ℂ Unit :=
  normalizeP (o.d.xy.x * o.d.yz.x * o.d.Z) (1 / ((o.d.X * o.d.Y * o.d.Z : ℕ) : ℂ)) out

end Fft3MPI
end Fftwpp.Net
