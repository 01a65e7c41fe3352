import Verif.Model.MpiConv

/-!
# The distributed three-dimensional convolution `Convolution3MPI` (mpi/mpiconvolve.h:178-297), slab decomposition

The class is derived from `Convolution3` and overrides `forward`, `backward`, `stridex`, `blocksizex`, `inputLengthy` and `inputLengthz`.
Modelled: the slab decomposition (`d.z=d.Z`, i.e. `d.yz.communicator` has one process, mpi/mpigroup.h), in which every process holds `d.xy.y` of the `Y`
planes of the input, all of `z`, and the inner convolutions are sequential `Convolution2` objects (mpi/mpiconvolve.h:205-209).
Not modelled: pencils (`d.z < d.Z`), in which the inner convolutions are `Convolution2MPI` objects.

Simplification as in `Model/MpiConv.lean`: `ilocalize … wait` of the same array are merged into `localize`.  The derived `forward` and `backward` do not
test `contiguous()` (mpi/mpiconvolve.h:239-258, 268-287).
-/

namespace Fftwpp
open Net

/-- A `Convolution3MPI` object (mpi/mpiconvolve.h:178-184): the inherited members `c`, the decomposition `d` (`X`, `Y`, `Z`, `x`, `xy.y`, `z`), the transposes (`none`:
`T=NULL`; the `T[a]` differ only in their work arrays `wrk a`), and `overwrite`. -/
structure Conv3MPI where
  c : Conv3
  X : ℕ
  Y : ℕ
  Z : ℕ
  x : ℕ
  y : ℕ
  z : ℕ
  T : Option MT
  wrk : ℕ → Ptr
  overwrite : ℕ

/-- convolve.h:1544-1562 constructor and 1584-1645 `init`, with `mpi=true`: neither the inner convolutions nor `checkStrides`; then the loop of `initMPI`
(mpi/mpiconvolve.h:205-209) in the slab decomposition.  `thy` is the number of threads of `ffty` (changed by the constructor if `fftx->l < threads`). -/
noncomputable def Conv3MPI.newBase (fftx ffty fftz : FftBase) (mult : Multiplier) (th thy : ℕ) (Fu : Option PtrArr) (Wu Vu : Option Ptr)
    (al : Alloc3) : Cmd Conv3 := do
  let threads := if fftx.l < th then 1 else th
  let thy := if fftx.l < th then th else thy
  let x ← Outer.new fftx Fu Wu Vu al.x
  let d : Conv2 := ⟨⟨ffty, ⟨0, fun _ => ⟨0, 0⟩⟩, ⟨0, fun _ => ⟨0, 0⟩⟩, ⟨0, fun _ => ⟨0, 0⟩⟩, none, none⟩, fftz, 0,
    fun _ => ⟨fftz, mult, ⟨0, fun _ => ⟨0, 0⟩⟩, ⟨0, fun _ => ⟨0, 0⟩⟩, ⟨0, fun _ => ⟨0, 0⟩⟩, none, none, true⟩⟩
  let convyz ← newAll d (fun t => Conv2.new ffty fftz mult thy none none none (al.yz t)) threads
  pure ⟨x, ffty, fftz, threads, convyz⟩

/-- mpi/mpiconvolve.h:186-202 `inittranspose`, in process `rank` of `size`; `D=fftx->D`.  `outputSplit` (mpi/mpiconvolve.h:40-43) is the decomposition
of `fftx->l*fftx->D` by `ffty->inputLength()` by `fftz->inputLength()` words. -/
def Conv3MPI.new (c : Conv3) (D size rank optA alltoall : ℕ) (wrk : ℕ → Ptr) : Conv3MPI :=
  let X := c.x.fft.l * D
  let Y := c.ffty.L
  let Z := c.fftz.L
  let y := (Mpi.localdimension Y rank size).n.toNat
  { c := c, X := X, Y := Y, Z := Z, x := (Mpi.localdimension X rank size).n.toNat, y := y, z := Z
    T := if y < Y then some (MT.mk' X Y Z size rank optA alltoall) else none
    wrk := wrk
    overwrite := if c.x.fft.overwrite = true then c.x.fft.n - 1 else 0 }

namespace Conv3MPI
variable (o : Conv3MPI)

/-- mpi/mpiconvolve.h:239-258 `forward`. -/
noncomputable def forward (f F : PtrArr) (rx start stop offset : ℕ) : Prog ℂ Unit :=
  .loop (rng start stop) fun a =>
    (runCmd (fwdAll o.c.x.fft o.c.x.W f F rx a (a + 1) offset)).bind fun _ =>
    match o.T with
    | none => .ret ()
    | some t =>
      (t.localize1 (F.at_ a).loc (F.at_ a).loc (o.wrk a).loc).bind fun _ =>
      .loop (rng 0 o.overwrite) fun r =>
        let p := f.at_ a + offset + o.c.x.fft.S * o.c.x.fft.l * r
        t.localize1 p.loc p.loc (o.wrk a).loc

/-- mpi/mpiconvolve.h:268-287 `backward`. -/
noncomputable def backward (F f : PtrArr) (rx start stop offset : ℕ) (W0 : Option Ptr) : Prog ℂ Unit :=
  (match o.T with
    | none => (Prog.ret () : Prog ℂ Unit)
    | some t => Prog.loop (rng start stop) fun b =>
      (t.localize0 (F.at_ b).loc (F.at_ b).loc (o.wrk b).loc).bind fun _ =>
      .loop (rng 0 o.overwrite) fun r =>
        let p := f.at_ b + offset + o.c.x.fft.S * o.c.x.fft.l * r
        t.localize0 p.loc p.loc (o.wrk b).loc).bind fun _ =>
  runCmd (do
    bwdAll o.c.x.fft W0 F f rx start stop offset
    if o.c.x.W ≠ none ∧ o.c.x.W = W0 then o.c.x.fft.padCall W0 else pure ())

/-- The schedules of one call of `subconvolution`: that of the loop over the rows, and those of the loops in the inner convolutions (row, residue). -/
structure Sch3 where
  row : Sch
  inner : ℕ → ℕ → Sch

/-- convolve.h:1706-1716 `subconvolution` with `stridex()=d.Y*d.z` and `blocksizex(rx)=d.x` (mpi/mpiconvolve.h:260-266): the schedule is one
of `d.x` rows. -/
noncomputable def subconvolution (s : Sch3) (idx : List ℕ) (F : PtrArr) (rx offset : ℕ) : Prog ℂ Unit :=
  runCmd (seqLoop s.row fun x =>
    if x.2 < o.c.threads then
      (o.c.convyz x.2).convolveRaw (s.inner x.1) (o.c.x.fft.index rx x.1 :: idx) F (offset + x.1 * (o.Y * o.z))
    else ubCmd)

/-- Word `k` of the local data: `x` index `k/(y*z)`, local `y` index `k%(y*z)/z`, `z` index `k%z` (convolve.h:1808-1829, 1745-1762;
`inputLengthy()=d.xy.y`, `inputLengthz()=d.z`, mpi/mpiconvolve.h:289-295). -/
def pos (k : ℕ) : ℕ := o.c.x.fft.S * (k / (o.y * o.z)) + (o.c.ffty.S * (k % (o.y * o.z) / o.z) + k % o.z)

/-- convolve.h:1770-1777. -/
noncomputable def rawOverwrite (s : ℕ → Sch3) (idx : List ℕ) (f : PtrArr) (offset : ℕ) : Prog ℂ Unit :=
  (o.forward f o.c.x.F 0 0 o.c.x.fft.A offset).bind fun _ =>
  (Prog.loop (rng 0 (o.c.x.fft.n - 1)) fun r => o.subconvolution (s r) idx f r (offset + o.c.x.fft.S * r * o.c.x.fft.l)).bind fun _ =>
  (o.subconvolution (s (o.c.x.fft.n - 1)) idx o.c.x.F (o.c.x.fft.n - 1) 0).bind fun _ =>
  o.backward o.c.x.F f 0 0 o.c.x.fft.B offset o.c.x.W

/-- convolve.h:1778-1789. -/
noncomputable def rawLoop2 (s : ℕ → Sch3) (idx : List ℕ) (f : PtrArr) (offset : ℕ) : Prog ℂ Unit :=
  let r := o.c.x.fft.incr0
  let A := o.c.x.fft.A
  let B := o.c.x.fft.B
  let C := A - B
  (o.forward f o.c.x.F 0 0 A offset).bind fun _ =>
  (o.subconvolution (s 0) idx o.c.x.F 0 0).bind fun _ =>
  (Prog.loop (rng 0 (B / C)) fun k =>
    (o.forward f o.c.x.Fp r (C * k) (C * k + C) offset).bind fun _ =>
    o.backward o.c.x.F f 0 (C * k) (C * k + C) offset o.c.x.W0).bind fun _ =>
  (o.forward f o.c.x.Fp r (C * (B / C)) A offset).bind fun _ =>
  (o.subconvolution (s r) idx o.c.x.Fp r 0).bind fun _ =>
  o.backward o.c.x.Fp f r 0 B offset o.c.x.W0

/-- convolve.h:1790-1831. -/
noncomputable def rawGeneric (s : ℕ → Sch3) (idx : List ℕ) (f : PtrArr) (offset : ℕ) : Prog ℂ Unit :=
  let h0 := if 1 < o.c.x.fft.nloops then o.c.x.V else f
  let Offset := if 1 < o.c.x.fft.nloops then 0 else offset
  (Prog.loop o.c.x.fft.residues fun rx =>
    (o.forward f o.c.x.F rx 0 o.c.x.fft.A offset).bind fun _ =>
    (o.subconvolution (s rx) idx o.c.x.F rx 0).bind fun _ =>
    o.backward o.c.x.F h0 rx 0 o.c.x.fft.B Offset o.c.x.W).bind fun _ =>
  if 1 < o.c.x.fft.nloops then runCmd (copyWords (o.c.x.fft.L * (o.y * o.z)) o.pos o.c.x.fft.B f h0 offset) else .ret ()

/-- convolve.h:1766-1833 `convolveRaw`. -/
noncomputable def convolveRaw (s : ℕ → Sch3) (idx : List ℕ) (f : PtrArr) (offset : ℕ) : Prog ℂ Unit :=
  if o.c.x.fft.overwrite = true then o.rawOverwrite s idx f offset
  else if o.c.x.fft.loop2 = true then o.rawLoop2 s idx f offset
  else o.rawGeneric s idx f offset

/-- convolve.h:1835-1838 `convolve`, with `normalize` (convolve.h:1745-1762; `scale` is set in mpi/mpiconvolve.h:210). -/
noncomputable def convolve (s : ℕ → Sch3) (f : PtrArr) (offset : ℕ) : Prog ℂ Unit :=
  (o.convolveRaw s [] f offset).bind fun _ =>
  runCmd (scaleWords (o.c.x.fft.L * (o.y * o.z)) o.pos o.c.x.fft.B
    (1 / ((o.c.x.fft.N : ℂ) * ((o.c.ffty.N : ℂ) * (o.c.fftz.N : ℂ)))) f offset)

end Conv3MPI
end Fftwpp
