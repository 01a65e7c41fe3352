import Verif.Model.MpiConv
import Verif.Model.Gather

/-!
# mpi/mpiconvolve.cc:9-142: `HermitianSymmetrizeXY(split3& d, Complex *f, Complex *u, size_t threads)`

The Hermitian symmetrization of distributed three-dimensional data: rows `y` above the origin are sent to the processes that hold their reflections.

Simplifications: slab decomposition (`d.z0=0` in every process, so that the communicator `*d.XYplane` has the same processes as `d.communicator`, in the same order); the
messages of all communicators are numbered as those of one (no two of the communicators are used at the same time); the tags `j` of the messages of the table
(mpi/mpiconvolve.cc:54-63) are omitted: these messages are matched in the order in which they are sent, which is that of the tags; the
`int`s of the table `d.reflect` are stored as complex numbers; the work array `u` is passed as a pointer also if it is allocated (lines 70-76).
-/

namespace Fftwpp
open Net

/-- `d` in one process (mpi/mpigroup.h:104-171), slab decomposition: the members used here (`dy=d.xy.y`, `y0=d.xy.y0`, which are `d.y` and `d.y0`). -/
structure XYSplit where
  X : ℕ
  Y : ℕ
  z : ℕ
  dy : ℕ
  y0 : ℕ
  n : ℕ
  rank : ℕ
  size : ℕ

/-- mpi/mpigroup.h:115-155, with `d.z=d.Z`: `n=max(xy.n*z,x*n2)`, `xy.n=max(X*xy.y,x*Y)`, `n2=max(Y*z,Y*Z)`. -/
def XYSplit.new (X Y Z rank size : ℕ) : XYSplit :=
  let x := (Mpi.localdimension X rank size).n.toNat
  let dy := (Mpi.localdimension Y rank size).n.toNat
  { X := X, Y := Y, z := Z, dy := dy, y0 := (Mpi.localdimension Y rank size).start.toNat
    n := max (max (X * dy) (x * Y) * Z) (x * max (Y * Z) (Y * Z)), rank := rank, size := size }

namespace XYSplit
variable (d : XYSplit)

/-- `mx` (mpi/mpiconvolve.cc:13). -/
def mx : ℕ := ceilquotient d.X 2
/-- `my` (mpi/mpiconvolve.cc:14). -/
def my : ℕ := ceilquotient d.Y 2
/-- `xcompact` (mpi/mpiconvolve.cc:15). -/
def xcompact : Bool := d.mx - d.X / 2 ≠ 0
/-- `ycompact` (mpi/mpiconvolve.cc:16). -/
def ycompact : Bool := d.my - d.Y / 2 ≠ 0
/-- `xextra` (mpi/mpiconvolve.cc:25). -/
def xextra : ℕ := if d.xcompact = true then 0 else 1
/-- `yextra` (mpi/mpiconvolve.cc:26). -/
def yextra : ℕ := if d.ycompact = true then 0 else 1
/-- `yorigin` (mpi/mpiconvolve.cc:27). -/
def yorigin : ℕ := d.my - (if d.ycompact = true then 1 else 0)
/-- `nx` (mpi/mpiconvolve.cc:28). -/
def nx : ℕ := d.X - d.xextra
/-- `j0` (mpi/mpiconvolve.cc:31). -/
def j0 : ℕ := if d.y0 = 0 then d.yextra else 0
/-- `start` (mpi/mpiconvolve.cc:32). -/
def start : ℕ := if d.y0 < d.yorigin then d.yorigin - d.y0 else 0
/-- `stride` (mpi/mpiconvolve.cc:78). -/
def stride : ℕ := d.dy * d.z

/-- mpi/mpiconvolve.cc:80-81: the conjugates of row `j`, reversed. -/
noncomputable def fill (f u : Ptr) (j : ℕ) : Cmd Unit :=
  seqLoop (rng 0 d.nx) fun i => Body.run do
    let v ← load (f + (d.stride * (d.X - 1 - i) + d.z * j))
    store (u + i) ((starRingEnd ℂ) v)

/-- mpi/mpiconvolve.cc:87-99: the reflection of row `j` is in this process (an index out of range ends the program). -/
noncomputable def local_ (f u : Ptr) (j : ℕ) : Cmd Unit :=
  let offset := d.z * (2 * (d.yorigin - d.y0) - j)
  seqLoop (rng 0 d.nx) fun i => Body.run do
    let N := d.stride * (i + d.xextra) + offset
    .guard (N < d.n) (do
      let v ← load (u + i)
      store (f + N) v)

/-- mpi/mpiconvolve.cc:100-105: the row through the origin.  The loop `for(i=stride; i < mx*stride; i += stride)` runs over `i=s*stride`, `1 ≤ s < mx`. -/
noncomputable def originRow (f : Ptr) (j : ℕ) : Cmd Unit := do
  let origin := d.stride * (d.mx - (if d.xcompact = true then 1 else 0)) + d.z * j
  (clearIm (f + origin)).run
  seqLoop (rng 1 d.mx) fun s => Body.run do
    let v ← load (f + (origin + s * d.stride))
    store (f + (origin - s * d.stride)) ((starRingEnd ℂ) v)

/-- mpi/mpiconvolve.cc:79-107: row `j` of the upper half. -/
noncomputable def upper (reflect : ℕ → ℕ) (f u : Ptr) (j : ℕ) : Prog ℂ Unit :=
  (runCmd (d.fill f u j)).bind fun _ =>
  if reflect j ≠ d.rank then send u.loc d.nx (reflect j)
  else if d.y0 + j ≠ d.yorigin then runCmd (d.local_ f u j)
  else runCmd (d.originRow f j)

/-- mpi/mpiconvolve.cc:113-114. -/
noncomputable def place (f u : Ptr) (j : ℕ) : Cmd Unit :=
  seqLoop (rng 0 d.nx) fun i => Body.run do
    let v ← load (u + i)
    store (f + (d.stride * (i + d.xextra) + d.z * j)) v

/-- mpi/mpiconvolve.cc:109-116: row `j` of the lower half. -/
noncomputable def lower (reflect : ℕ → ℕ) (f u : Ptr) (j : ℕ) : Prog ℂ Unit :=
  if reflect j ≠ d.rank then (recv u.loc d.nx (reflect j)).bind fun _ => runCmd (d.place f u j)
  else .ret ()

/-- mpi/mpiconvolve.cc:119-138: zero out the Nyquist modes. -/
noncomputable def nyquist (f : Ptr) : Cmd Unit := do
  (if d.xextra ≠ 0 then
    par (rng2 0 d.dy 0 d.z) fun (j, k) => store (f + (d.z * j + k)) 0
  else pure ())
  (if d.yextra ≠ 0 ∧ d.y0 = 0 then
    par (rng2 0 d.X 0 d.z) fun (i, k) => store (f + (d.dy * d.z * i + k)) 0
  else pure ())

/-- mpi/mpiconvolve.cc:67-141: all but the construction of the table `d.reflect`, several processes. -/
noncomputable def exchange (reflect : ℕ → ℕ) (f u : Ptr) : Prog ℂ Unit :=
  (Prog.loop (rng d.start d.dy) (d.upper reflect f u)).bind fun _ =>
  (Prog.loop (rng d.j0 (min d.dy d.start)).reverse (d.lower reflect f u)).bind fun _ =>
  runCmd (d.nyquist f)

/-- mpi/mpiconvolve.cc:18-23: a single process. -/
noncomputable def single (f : Ptr) : Cmd Unit :=
  if 0 < d.mx ∧ 0 < d.my ∧ 0 < d.z then hermitianSymmetrizeXY' d.mx d.my d.z (d.X / 2) (d.Y / 2) f else pure ()

/-- mpi/mpiconvolve.cc:9-142, the table `d.reflect` being present (or not needed). -/
noncomputable def symmetrize (reflect : ℕ → ℕ) (f u : Ptr) : Prog ℂ Unit :=
  if d.size = 1 then runCmd (d.single f) else d.exchange reflect f u

/-- mpi/mpiconvolve.cc:47-51 (in process 0): the process that holds row `j`; `n`, `start`: the gathered arrays. -/
def process (size : ℕ) (n start : ℕ → ℕ) (j : ℕ) : ℕ :=
  (rng 0 size).foldl (fun v p => if start p ≤ j ∧ j < start p + n p then p else v) 0

/-- mpi/mpiconvolve.cc:46-65: construction of the table `d.reflect`, whose words are at `t`; `n`, `start`: the arrays gathered by lines 44-45 (`MPI_Allgather`);
`buf`: a word of the automatic array `process` (only the words that are sent are stored, one at a time). -/
noncomputable def table (n start : ℕ → ℕ) (t buf : Ptr) : Prog ℂ Unit :=
  let pr := process d.size n start
  if d.rank = 0 then
    (runCmd (seqLoop (rng d.j0 d.dy) fun j => Body.run (store (t + j) (pr (2 * d.yorigin - d.y0 - j) : ℂ)))).bind fun _ =>
    Prog.loop (rng 1 d.size) fun p =>
      Prog.loop (rng (if start p = 0 then d.yextra else 0) (n p)) fun j =>
        (runCmd (Body.run (store buf (pr (2 * d.yorigin - start p - j) : ℂ)))).bind fun _ => send buf.loc 1 p
  else Prog.loop (rng 0 d.dy) fun j => recv (t + j).loc 1 0

end XYSplit
end Fftwpp
