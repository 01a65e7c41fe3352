import Verif.Model.MpiRcfft
import Verif.Model.MpiFft3

/-!
# Distributed three-dimensional FFTs of real data (mpi/mpifftw++.h:437-581, mpi/mpifftw++.cc:116-186)

A memory word is a `double`, as in `Model/MpiRcfft.lean`.
-/

namespace Fftwpp.Net
open Finset

/-- mpi/mpifftw++.h:437-446 `rcfft3dMPI` on one process.  `commxy`, `commyz`: as in `Fft3MPI`. -/
structure Rcfft3MPI where
  dr : Split3
  dc : Split3
  inplace : Bool
  Txy : MT
  Tyz : Option MT
  commxy : ℕ → ℕ
  commyz : ℕ → ℕ
  junk : (Loc → ℝ) → Loc → ℝ

/-- mpi/mpifftw++.h:448-504, the constructors, on the active process `r` of `MPIgroup(comm,X,Y,allowPencil)`, where `comm` has `N` processes,
with `dr=split3(X,Y,Z,group)` and `dc=split3(X,Y,Z/2+1,group)` (`inplace`: equal pointers).  `xy`, `yz`: `options.a` and
`options.alltoall` of the two transposes, as in `MT.mk'`. -/
def Rcfft3MPI.new (X Y Z N : ℕ) (pencil : Bool) (r : ℕ) (inplace : Bool) (xy yz : ℕ × ℕ) (junk : (Loc → ℝ) → Loc → ℝ) : Rcfft3MPI :=
  let size := Mpi.groupSize2 X Y N pencil
  let major := Mpi.groupMajor X Y N pencil
  let dr := groupSplit3 X Y Z X Y N pencil r
  let dc := groupSplit3 X Y (Z / 2 + 1) X Y N pencil r
  { dr, dc, inplace, junk
    Txy := MT.mk' dc.X dc.Y (dc.yz.y * 2) (Mpi.splitSize size (· % major) r) (Mpi.splitRank size (· % major) (· / major) r) xy.1 xy.2
    Tyz := if dc.yz.x < dc.Y then
      some (MT.mk' dc.Y dc.Z 2 (Mpi.splitSize size (· / major) r) (Mpi.splitRank size (· / major) (· % major) r) yz.1 yz.2) else none
    commxy := commProc size (· % major) (· / major) r
    commyz := commProc size (· / major) (· % major) r }

namespace Rcfft3MPI
variable (o : Rcfft3MPI)

/-- mpi/mpifftw++.h:462 `cdist`. -/
def cdist : ℕ := o.dr.Z / 2 + 1
/-- mpi/mpifftw++.h:479, 488, 495, 502 `rdist`, with fftw++.h:82-85 `realsize`. -/
def rdist : ℕ := if o.inplace = true then 2 * (o.dr.Z / 2 + 1) else o.dr.Z
/-- mpi/mpifftw++.h:461-464 `zForward`, `zBackward`. -/
def zPlan : Mrc := ⟨o.dr.Z, o.dr.xy.x * o.dr.yz.x, o.cdist, o.rdist, o.inplace, o.junk⟩
/-- mpi/mpifftw++.h:466 `yForward`. -/
def yForward : Mfft := .new o.dc.Y (-1) o.dc.yz.y o.dc.yz.y 1 true
/-- mpi/mpifftw++.h:467 `yBackward`. -/
def yBackward : Mfft := .new o.dc.Y 1 o.dc.yz.y o.dc.yz.y 1 true
/-- mpi/mpifftw++.h:469-470 `xForward`. -/
def xForward : Mfft := .new o.dc.X (-1) (o.dc.xy.y * o.dc.yz.y) (o.dc.xy.y * o.dc.yz.y) 1 true
/-- mpi/mpifftw++.h:469-471 `xBackward`. -/
def xBackward : Mfft := .new o.dc.X 1 (o.dc.xy.y * o.dc.yz.y) (o.dc.xy.y * o.dc.yz.y) 1 true

/-- `for(i=0; i < dc.x*stride; i += stride) y->fft(p+i)`, with `stride=dc.z*dc.Y` complex words: one iteration for each local plane; the
iterations access different planes, so their order does not matter (C22). -/
noncomputable def planes (y : Mfft) (p : Loc) : Prog ℝ Unit :=
  .loop (List.range o.dc.xy.x) fun i => y.cfft (p + 2 * (i * (o.dc.yz.y * o.dc.Y))) (p + 2 * (i * (o.dc.yz.y * o.dc.Y)))

/-- A transpose between the processes of the first communicator. -/
def xy (p : Prog ℝ Unit) : Prog ℝ Unit := p.on o.commxy id
/-- A transpose between the processes of the second communicator, whose contexts are different. -/
def yz (p : Prog ℝ Unit) : Prog ℝ Unit := p.on o.commyz (· + 20)

/-- The rows `(i,j)` visited by mpi/mpifftw++.cc:171-174. -/
def shiftRows : List (ℕ × ℕ) :=
  (List.range o.dr.xy.x).flatMap fun i => (Rcfft2MPI.oddRows ((i + o.dr.xy.x0 + o.dr.yz.x0 + 1) % 2) o.dr.yz.x).map fun j => (i, j)

/-- mpi/mpifftw++.cc:165-186 `Shift(f)`; `none`: a null pointer, dereferenced if there is a word to negate.  The iterations touch different
words, so they are written as one operation. -/
noncomputable def shift (f : Option Loc) : Prog ℝ Unit :=
  if o.dr.X % 2 = 0 ∧ o.dr.Y % 2 = 0 then
    let l := o.shiftRows ×ˢ List.range o.dr.Z
    match f with
    | none => if l = [] then .ret () else .fail
    | some f =>
      let a := fun x : (ℕ × ℕ) × ℕ => f + ((x.1.1 * o.dr.yz.x + x.1.2) * o.rdist + x.2)
      .apply (l.map a) (l.map fun x => (a x, fun g => -g (a x)))
  else .fail

/-- mpi/mpifftw++.cc:132-144 `ForwardWait0(out)` after `Tyz->wait()`; `none`: a null pointer, dereferenced if there is anything to
transform. -/
noncomputable def forwardWait0 (out : Option Loc) (wxy : Loc) : Prog ℝ Unit :=
  match o.Tyz, out with
  | none, _ => .ret ()
  | some _, none => if o.dc.xy.x = 0 ∨ o.dc.Y = 0 ∨ o.dc.yz.y = 0 then .ret () else .fail
  | some _, some out => do
    o.planes o.yForward out
    o.xy (o.Txy.localize0 out out wxy)

/-- mpi/mpifftw++.h:543-546 `ForwardWait1(out)` after `Txy->wait()`. -/
noncomputable def forwardWait1 (out : Option Loc) : Prog ℝ Unit :=
  match out with
  | none => if o.dc.X = 0 ∨ o.dc.xy.y = 0 ∨ o.dc.yz.y = 0 then .ret () else .fail
  | some out => o.xForward.cfft out out

/-- mpi/mpifftw++.h:547-554 `Forward(in,out)`, with mpi/mpifftw++.cc:116-130 `iForward`; `out = none`: the default argument `NULL`.
`wxy`, `wyz`: the work arrays of the transposes. -/
noncomputable def forward (inp : Loc) (out : Option Loc) (wxy wyz : Loc) : Prog ℝ Unit :=
  let out' := out.getD inp
  if (o.inplace = true) ↔ inp = out' then do
    o.zPlan.r2c inp out'
    (match o.Tyz with
    | some T => o.yz (T.localize0 out' out' wyz)
    | none => do
      o.planes o.yForward out'
      o.xy (o.Txy.localize0 out' out' wxy))
    o.forwardWait0 out wxy
    o.forwardWait1 out
  else .fail

/-- mpi/mpifftw++.h:555-558 `Forward0(in,out)`. -/
noncomputable def forward0 (inp : Loc) (out : Option Loc) (wxy wyz : Loc) : Prog ℝ Unit := do
  o.shift (some inp)
  o.forward inp out wxy wyz

/-- mpi/mpifftw++.h:562-573 `Backward(in,out)`, with mpi/mpifftw++.cc:146-163 `iBackward`, `BackwardWait0`; `out = none`: the default
argument `NULL`.  The arguments are first compared by `zBackward->fft`. -/
noncomputable def backward (inp : Loc) (out : Option Loc) (wxy wyz : Loc) : Prog ℝ Unit := do
  o.xBackward.cfft inp inp
  o.xy (o.Txy.localize1 inp inp wxy)
  o.planes o.yBackward inp
  (match o.Tyz with
  | some T => o.yz (T.localize1 inp inp wyz)
  | none => .ret ())
  o.zPlan.c2r inp (out.getD inp)

/-- mpi/mpifftw++.h:574-577 `Backward0(in,out)`. -/
noncomputable def backward0 (inp : Loc) (out : Option Loc) (wxy wyz : Loc) : Prog ℝ Unit := do
  o.backward inp out wxy wyz
  o.shift out

/-- fftw++.h:359-364 `Normalize(double *)`, inherited with `doubles=dr.x*dr.yz.x*realsize(dr.Z,inplace)` and `norm=1/(dr.X*dr.Y*dr.Z)`
(mpi/mpifftw++.h:477-502). -/
noncomputable def normalize (out : Loc) : Prog ℝ Unit :=
  let l := List.range (o.dr.xy.x * o.dr.yz.x * o.rdist)
  .apply (l.map fun i => out + i) (l.map fun i => (out + i, fun g => g (out + i) * (1 / ((o.dr.X * o.dr.Y * o.dr.Z : ℕ) : ℝ))))

/-- Stores zero in the complex words with the given numbers. -/
def zero (f : Loc) (l : List ℕ) : Prog ℝ Unit := .calls ((l ×ˢ List.range 2).map fun x => .store (f + (2 * x.1 + x.2)) 0)

/-- mpi/mpifftw++.h:519-538 `deNyquist(f)`. -/
def deNyquist (f : Loc) : Prog ℝ Unit := do
  let yz := o.dc.xy.y * o.dc.yz.y
  (if o.dr.X % 2 = 0 then zero f (List.range yz) else .ret ())
  (if o.dr.Y % 2 = 0 ∧ o.dc.xy.y0 = 0 then
    zero f ((List.range o.dc.X ×ˢ List.range o.dc.yz.y).map fun x => x.1 * yz + x.2)
  else .ret ())
  (if o.dr.Z % 2 = 0 ∧ o.dc.yz.y0 + o.dc.yz.y = o.dc.Z then
    zero f ((List.range o.dc.X ×ˢ List.range o.dc.xy.y).map fun x => Rcfft2MPI.pred32 (x.1 * yz + (x.2 + 1) * o.dc.yz.y))
  else .ret ())

end Rcfft3MPI
end Fftwpp.Net
