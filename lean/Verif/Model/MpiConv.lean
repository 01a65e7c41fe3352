import Verif.Model.Transpose
import Verif.Model.Conv2D
import Verif.Model.Hermitian

/-!
# The distributed two-dimensional convolution `Convolution2MPI` (mpi/mpiconvolve.h:72-180)

The class is derived from `Convolution2` and overrides `forward`, `backward`, `stridex`, `blocksizex` and `inputLengthy`.  The computations
of a process between two communications are the commands of the sequential model (`Model/Conv2D.lean`) acting on its private memory.

Simplification: in the overlapping mode (`overlap`, mpi/mpiconvolve.h:84, 124-136, 158-171) the calls `ilocalize1 … wait` and
`ilocalize0 … wait` of the same array are merged into `localize1`, `localize0` (which are `ilocalize; wait`,
mpi/mpitranspose.h:894-904).  If `A-B=1` (the case of the theorems) each such pair of calls is adjacent in the
C++ as well, because `forward` and `backward` are called for one array at a time.  Which transposes are nonblocking depends on the global
variable `C` of the test programs (`cutoff`, mpi/mpiconvolve.h:125, declared in utils.h:11); every `ilocalize` is waited for in the same call of
`forward` or `backward`, so that with this simplification the result does not depend on it.
-/

namespace Fftwpp
open Net

/-- The word of a process' private memory at which a pointer of the sequential model points.  (Numbering of buffers and words in the
model only: buffer `b` of the sequential model is buffer `2*b`; addresses before the start of a buffer, which are never valid, are
numbered separately.) -/
def Ptr.loc (p : Ptr) : Loc := if 0 ≤ p.off then ⟨2 * p.buf, p.off.toNat⟩ else ⟨2 * p.buf + 1, (-p.off - 1).toNat⟩

/-- The inverse of `Ptr.loc`. -/
def Net.Loc.ptr (a : Loc) : Ptr := if a.buf % 2 = 0 then ⟨a.buf / 2, a.off⟩ else ⟨a.buf / 2, -((a.off : ℤ) + 1)⟩

/-- The private memory of a process, as seen by the sequential code. -/
noncomputable def Net.toMem (size : ℕ → ℕ) (mem : Loc → ℂ) : Mem := ⟨fun b => size (2 * b), fun p => mem p.loc⟩

/-- A computation that makes no MPI call. -/
noncomputable def Net.runCmd (c : Cmd Unit) : Prog ℂ Unit := .call (.comp fun size mem =>
  match c (toMem size mem) with
  | .ok (_, m) => some fun a => m.val a.ptr
  | .error _ => none)

/-- A `Convolution2MPI` object (mpi/mpiconvolve.h:73-78): the inherited members `c`, the decomposition `d` (`X`, `Y`, `x`, `y`), the
transposes (`none`: `T=NULL`; the `T[a]` differ only in their work arrays `wrk a`), and `overwrite`. -/
structure Conv2MPI where
  c : Conv2
  X : ℕ
  Y : ℕ
  x : ℕ
  y : ℕ
  T : Option MT
  wrk : ℕ → Ptr
  overwrite : ℕ

/-- mpi/mpiconvolve.h:80-106: constructor, after that of the base class, in process `rank` of `size`; `D=fftx->D`.  `outputSplit`
(mpi/mpiconvolve.h:34-37) is the decomposition of `fftx->l*fftx->D` rows of `ffty->inputLength()` words. -/
def Conv2MPI.new (c : Conv2) (D size rank optA alltoall : ℕ) (wrk : ℕ → Ptr) : Conv2MPI :=
  let X := c.x.fft.l * D
  let Y := c.ffty.L
  let y := (Mpi.localdimension Y rank size).n.toNat
  { c := c, X := X, Y := Y, x := (Mpi.localdimension X rank size).n.toNat, y := y
    T := if y < Y then some (MT.mk' X Y 1 size rank optA alltoall) else none
    wrk := wrk
    overwrite := if c.x.fft.overwrite = true then c.x.fft.n - 1 else 0 }

namespace Conv2MPI
variable (o : Conv2MPI)

/-- mpi/mpiconvolve.h:121-142 `forward`. -/
noncomputable def forward (f F : PtrArr) (rx start stop offset : ℕ) : Prog ℂ Unit :=
  .loop (rng start stop) fun a =>
    (runCmd (fwdAll o.c.x.fft o.c.x.W f F rx a (a + 1) offset)).bind fun _ =>
    match o.T with
    | none => .ret ()
    | some t =>
      (t.localize1 (F.at_ a).loc (F.at_ a).loc (o.wrk a).loc).bind fun _ =>
      .loop (rng 0 o.overwrite) fun r =>
        let p := f.at_ a + offset + o.c.x.fft.S * o.c.x.fft.l * r
        t.localize1 p.loc p.loc (o.wrk a).loc

/-- mpi/mpiconvolve.h:152-173 `backward`. -/
noncomputable def backward (F f : PtrArr) (rx start stop offset : ℕ) (W0 : Option Ptr) : Prog ℂ Unit :=
  (match o.T with
    | none => (Prog.ret () : Prog ℂ Unit)
    | some t => Prog.loop (rng start stop) fun b =>
      (t.localize0 (F.at_ b).loc (F.at_ b).loc (o.wrk b).loc).bind fun _ =>
      .loop (rng 0 o.overwrite) fun r =>
        let p := f.at_ b + offset + o.c.x.fft.S * o.c.x.fft.l * r
        t.localize0 p.loc p.loc (o.wrk b).loc).bind fun _ =>
  runCmd (do
    bwdAll o.c.x.fft W0 F f rx start stop offset
    if o.c.x.W ≠ none ∧ o.c.x.W = W0 then o.c.x.fft.padCall W0 else pure ())

/-- convolve.h:1401-1411 `subconvolution` with `stridex()=d.Y` and `blocksizex(rx)=d.x` (mpi/mpiconvolve.h:144-150): the schedule `s` is one
of `d.x` rows. -/
noncomputable def subconvolution (s : Sch) (idx : List ℕ) (F : PtrArr) (rx offset : ℕ) : Prog ℂ Unit :=
  runCmd (seqLoop s fun x =>
    if x.2 < o.c.threads then
      (o.c.convy x.2).convolveRawOffset (o.c.x.fft.index rx x.1 :: idx) F (offset + x.1 * o.Y)
    else ubCmd)

/-- Word `k` of the local data: row `k/y`, word `k%y` in the row (`inputLengthy()=d.y`, mpi/mpiconvolve.h:175-177). -/
def pos (k : ℕ) : ℕ := o.c.x.fft.S * (k / o.y) + k % o.y

/-- convolve.h:1445-1451. -/
noncomputable def rawOverwrite (s : ℕ → Sch) (idx : List ℕ) (f : PtrArr) (offset : ℕ) : Prog ℂ Unit :=
  (o.forward f o.c.x.F 0 0 o.c.x.fft.A offset).bind fun _ =>
  (Prog.loop (rng 0 (o.c.x.fft.n - 1)) fun r => o.subconvolution (s r) idx f r (offset + o.c.x.fft.S * r * o.c.x.fft.l)).bind fun _ =>
  (o.subconvolution (s (o.c.x.fft.n - 1)) idx o.c.x.F (o.c.x.fft.n - 1) 0).bind fun _ =>
  o.backward o.c.x.F f 0 0 o.c.x.fft.B offset o.c.x.W

/-- convolve.h:1453-1464. -/
noncomputable def rawLoop2 (s : ℕ → Sch) (idx : List ℕ) (f : PtrArr) (offset : ℕ) : Prog ℂ Unit :=
  let r := o.c.x.fft.incr0
  let A := o.c.x.fft.A
  let B := o.c.x.fft.B
  let C := A - B
  (o.forward f o.c.x.F 0 0 A offset).bind fun _ =>
  (o.subconvolution (s 0) idx o.c.x.F 0 0).bind fun _ =>
  (Prog.loop (rng 0 (B / C)) fun k =>
    (o.forward f o.c.x.Fp r (C * k) (C * k + C) offset).bind fun _ =>
    o.backward o.c.x.F f 0 (C * k) (C * k + C) offset o.c.x.W0).bind fun _ =>
  (o.forward f o.c.x.Fp r (C * (B / C)) A offset).bind fun _ =>
  (o.subconvolution (s r) idx o.c.x.Fp r 0).bind fun _ =>
  o.backward o.c.x.Fp f r 0 B offset o.c.x.W0

/-- convolve.h:1465-1498. -/
noncomputable def rawGeneric (s : ℕ → Sch) (idx : List ℕ) (f : PtrArr) (offset : ℕ) : Prog ℂ Unit :=
  let h0 := if 1 < o.c.x.fft.nloops then o.c.x.V else f
  let Offset := if 1 < o.c.x.fft.nloops then 0 else offset
  (Prog.loop o.c.x.fft.residues fun rx =>
    (o.forward f o.c.x.F rx 0 o.c.x.fft.A offset).bind fun _ =>
    (o.subconvolution (s rx) idx o.c.x.F rx 0).bind fun _ =>
    o.backward o.c.x.F h0 rx 0 o.c.x.fft.B Offset o.c.x.W).bind fun _ =>
  if 1 < o.c.x.fft.nloops then runCmd (copyWords (o.c.x.fft.L * o.y) o.pos o.c.x.fft.B f h0 offset) else .ret ()

/-- convolve.h:1441-1501 `convolveRaw`. -/
noncomputable def convolveRaw (s : ℕ → Sch) (idx : List ℕ) (f : PtrArr) (offset : ℕ) : Prog ℂ Unit :=
  if o.c.x.fft.overwrite = true then o.rawOverwrite s idx f offset
  else if o.c.x.fft.loop2 = true then o.rawLoop2 s idx f offset
  else o.rawGeneric s idx f offset

/-- convolve.h:1503-1506 `convolve`, with `normalize` (convolve.h:1425-1437; `scale` is set by the constructor of the base class). -/
noncomputable def convolve (s : ℕ → Sch) (f : PtrArr) (offset : ℕ) : Prog ℂ Unit :=
  (o.convolveRaw s [] f offset).bind fun _ =>
  runCmd (scaleWords (o.c.x.fft.L * o.y) o.pos o.c.x.fft.B (1 / ((o.c.x.fft.N : ℂ) * (o.c.ffty.N : ℂ))) f offset)

end Conv2MPI

/-- mpi/mpiconvolve.h:298-316 `HermitianSymmetrizeX(d,f)` on a process that holds the `y` columns from `y0` on of `X` rows: no communication. -/
noncomputable def hermitianSymmetrizeXd (X y y0 : ℕ) (f : Ptr) : Cmd Unit :=
  let Hx := ceilquotient X 2
  if y0 = 0 then hermitianSymmetrizeX' Hx y (X / 2) f
  else if X / 2 = Hx then par (rng 0 y) fun j => store (f + j) 0
  else pure ()

end Fftwpp
