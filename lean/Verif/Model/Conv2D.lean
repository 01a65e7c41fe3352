import Verif.Model.Driver

/-!
# The multidimensional drivers `Convolution2` (convolve.h:1240-1507) and `Convolution3` (convolve.h:1509-1839)

The member functions `init`, `forward`, `backward`, `convolveRaw` of the two classes have the same text, except for the strided
loops of `Convolution3`; this common part is `Outer`.  Loops over rows and words that copy or scale are flattened (one loop over
the words in the same order).

`PARALLEL(for …)` in `subconvolution`: OpenMP assigns the iterations to threads in any way; each thread performs its iterations
with its own `Convolution` object.  The model takes the order in which iterations are performed and the thread of each as an
argument chosen by the environment; one iteration is atomic (iterations of different threads have disjoint footprints: rows of
`F`, and the work arrays of the thread's own object).
-/

namespace Fftwpp

/-- A schedule of a parallel loop: iterations in order of execution, each with its thread. -/
abbrev Sch := List (ℕ × ℕ)

/-- Every iteration `i < n` is performed once, by one of the threads. -/
def Sch.Legal (s : Sch) (n threads : ℕ) : Prop := (s.map Prod.fst).Perm (List.range n) ∧ ∀ x ∈ s, x.2 < threads

/-- The members common to `Convolution2` (convolve.h:1241-1272) and `Convolution3` (convolve.h:1510-1541). -/
structure Outer where
  fft : FftBase
  F : PtrArr
  Fp : PtrArr
  V : PtrArr
  W : Option Ptr
  W0 : Option Ptr

/-- convolve.h:1296-1351 `Convolution2::init` and convolve.h:1584-1645 `Convolution3::init`.  (`V` is allocated here instead of at
its first use, convolve.h:1353-1359.) -/
noncomputable def Outer.new (fft : FftBase) (Fu : Option PtrArr) (Wu Vu : Option Ptr) (al : Alloc) : Cmd Outer := do
  let F : PtrArr := match Fu with
    | none => ⟨max fft.A fft.B, al.F⟩
    | some F => F
  let allocateW : Bool := Wu = none ∧ fft.inplace = false
  let W : Option Ptr := if allocateW then some al.W else none
  fft.padCall W
  let Fp : PtrArr := if fft.loop2 then ⟨fft.A, fun a => if a = 0 then F.at_ (fft.A - 1) else F.at_ (a - 1)⟩ else F
  let extra := if fft.loop2 then 1 else 0
  let W0 : Option Ptr := if fft.B + extra < fft.A ∧ fft.inplace = false ∧ fft.workSizeW ≤ fft.outputSize then some (F.at_ fft.B) else W
  let V : PtrArr := match Vu with
    | none => ⟨fft.B, al.V⟩
    | some V => ⟨fft.B, fun i => V + i * fft.workSizeV⟩
  pure ⟨fft, F, Fp, V, W, W0⟩

namespace Outer
variable (o : Outer)

/-- convolve.h:1413-1419 `Convolution2::backward` and convolve.h:1718-1735 `Convolution3::backward`. -/
noncomputable def backward (F f : PtrArr) (rx start stop offset : ℕ) (W0 : Option Ptr) : Cmd Unit := do
  bwdAll o.fft W0 F f rx start stop offset
  if o.W ≠ none ∧ o.W = W0 then o.fft.padCall W0 else pure ()

/-- convolve.h:1445-1451 and 1770-1776: in-place overwriting case; `sub F rx offset` is `subconvolution`. -/
noncomputable def rawOverwrite (sub : PtrArr → ℕ → ℕ → Cmd Unit) (f : PtrArr) (offset : ℕ) : Cmd Unit := do
  fwdAll o.fft o.W f o.F 0 0 o.fft.A offset
  let final := o.fft.n - 1
  seqLoop (rng 0 final) fun r => sub f r (offset + o.fft.S * r * o.fft.l)
  sub o.F final 0
  o.backward o.F f 0 0 o.fft.B offset o.W

/-- convolve.h:1453-1464 and 1778-1789: `loop2`.  The values of `a` in `for(a=0; a+C <= B; a += C)` are `C*k`, `k < B/C`. -/
noncomputable def rawLoop2 (sub : PtrArr → ℕ → ℕ → Cmd Unit) (f : PtrArr) (offset : ℕ) : Cmd Unit := do
  let r := o.fft.incr0
  let A := o.fft.A
  let B := o.fft.B
  fwdAll o.fft o.W f o.F 0 0 A offset
  sub o.F 0 0
  let C := A - B
  seqLoop (rng 0 (B / C)) fun k => do
    let a := C * k
    fwdAll o.fft o.W f o.Fp r a (a + C) offset
    o.backward o.F f 0 a (a + C) offset o.W0
  fwdAll o.fft o.W f o.Fp r (C * (B / C)) A offset
  sub o.Fp r 0
  o.backward o.Fp f r 0 B offset o.W0

/-- convolve.h:1465-1498 and 1790-1831: the general residue loop; `copy f h` copies the results from `h` to `f+offset`. -/
noncomputable def rawGeneric (sub : PtrArr → ℕ → ℕ → Cmd Unit) (copy : PtrArr → PtrArr → Cmd Unit) (f : PtrArr) (offset : ℕ) :
    Cmd Unit := do
  let h0 := if 1 < o.fft.nloops then o.V else f
  let Offset := if 1 < o.fft.nloops then 0 else offset
  seqLoop o.fft.residues fun rx => do
    fwdAll o.fft o.W f o.F rx 0 o.fft.A offset
    sub o.F rx 0
    o.backward o.F h0 rx 0 o.fft.B Offset o.W
  if 1 < o.fft.nloops then copy f h0 else pure ()

/-- convolve.h:1441-1501 and 1766-1833 `convolveRaw`. -/
noncomputable def convolveRaw (sub : PtrArr → ℕ → ℕ → Cmd Unit) (copy : PtrArr → PtrArr → Cmd Unit) (f : PtrArr) (offset : ℕ) :
    Cmd Unit :=
  if o.fft.overwrite then o.rawOverwrite sub f offset
  else if o.fft.loop2 then o.rawLoop2 sub f offset
  else o.rawGeneric sub copy f offset

end Outer

/-- `f[b][offset+pos(k)]=h[b][pos(k)]` for `k < n`, `b < B`. -/
noncomputable def copyWords (n : ℕ) (pos : ℕ → ℕ) (B : ℕ) (f h : PtrArr) (offset : ℕ) : Cmd Unit :=
  seqLoop (rng 0 B) fun b => do
    let fb ← f.get b
    let hb ← h.get b
    seqLoop (rng 0 n) fun k => (Fft.copy1 (fb + offset + pos k) (hb + pos k)).run

/-- `h[b][offset+pos(k)] *= scale` for `k < n`, `b < B`. -/
noncomputable def scaleWords (n : ℕ) (pos : ℕ → ℕ) (B : ℕ) (scale : ℂ) (h : PtrArr) (offset : ℕ) : Cmd Unit :=
  seqLoop (rng 0 B) fun b => do
    let hb ← h.get b
    seqLoop (rng 0 n) fun k => (do
      let v ← load (hb + offset + pos k)
      store (hb + offset + pos k) (v * scale) : Body Unit).run

/-- `for(t=0; t < threads; ++t) obj[t]=new …`; entries that are not set are `d`. -/
noncomputable def newAll {α : Type} (d : α) (mk : ℕ → Cmd α) : ℕ → Cmd (ℕ → α)
  | 0 => pure fun _ => d
  | k + 1 => do
    let g ← newAll d mk k
    let c ← mk k
    pure (Function.update g k c)

/-- `if(p) {std::cerr << …; exit(-1);}`. -/
noncomputable def exitIf (p : Prop) [Decidable p] : Cmd Unit := fun m => if p then .error .exit else .ok ((), m)

/-! ## `Convolution2` -/

/-- A `Convolution2` object (convolve.h:1240-1272). -/
structure Conv2 where
  x : Outer
  ffty : FftBase
  threads : ℕ
  convy : ℕ → Conv

/-- Pointers returned by the allocations of a `Convolution2`. -/
structure Alloc2 where
  x : Alloc
  y : ℕ → Alloc

/-- convolve.h:1274-1290: constructor.  `th=fftx->Threads()`; `mult` is `ffty->app.mult`, the one used by `convolvey[t]`.
(`ffty->Threads(threads)` only changes how the loops of `ffty` are executed.) -/
noncomputable def Conv2.new (fftx ffty : FftBase) (mult : Multiplier) (th : ℕ) (Fu : Option PtrArr) (Wu Vu : Option Ptr) (al : Alloc2) :
    Cmd Conv2 := do
  let threads := if fftx.l < th then 1 else th
  let d : Conv := ⟨ffty, mult, ⟨0, fun _ => ⟨0, 0⟩⟩, ⟨0, fun _ => ⟨0, 0⟩⟩, ⟨0, fun _ => ⟨0, 0⟩⟩, none, none, true⟩
  let convy ← newAll d (fun t => Conv.new ffty mult none none none (al.y t)) threads
  let x ← Outer.new fftx Fu Wu Vu al.x
  pure ⟨x, ffty, threads, convy⟩

namespace Conv2
variable (o : Conv2)

/-- convolve.h:1401-1411 `subconvolution`, with the schedule `s`.  `idx` are the entries `index[1..size)` of the objects'
`indices`. -/
noncomputable def subconvolution (s : Sch) (idx : List ℕ) (F : PtrArr) (rx offset : ℕ) : Cmd Unit :=
  seqLoop s fun x =>
    if x.2 < o.threads then
      (o.convy x.2).convolveRawOffset (o.x.fft.index rx x.1 :: idx) F (offset + x.1 * o.x.fft.S)
    else ubCmd

/-- Word `k` of the data: row `k/Ly`, word `k%Ly` in the row (convolve.h:1483-1497, 1425-1437; `Ly` here is `inputLengthy()`, the
row stride is `Sx`). -/
def pos (k : ℕ) : ℕ := o.x.fft.S * (k / o.ffty.L) + k % o.ffty.L

/-- convolve.h:1441-1501 `convolveRaw(f,offset,indices)`; `idx` are the entries `indices->index[1..size)`; `s rx` is the schedule of
the parallel loop for residue `rx`. -/
noncomputable def convolveRaw (s : ℕ → Sch) (idx : List ℕ) (f : PtrArr) (offset : ℕ) : Cmd Unit :=
  o.x.convolveRaw (fun F rx off => o.subconvolution (s rx) idx F rx off)
    (fun f h => copyWords (o.x.fft.L * o.ffty.L) o.pos o.x.fft.B f h offset) f offset

/-- convolve.h:1425-1437 `normalize`, with `scale=1/normalization()` (convolve.h:1292-1294, 1315). -/
noncomputable def normalize (h : PtrArr) (offset : ℕ) : Cmd Unit :=
  scaleWords (o.x.fft.L * o.ffty.L) o.pos o.x.fft.B (1 / ((o.x.fft.N : ℂ) * (o.ffty.N : ℂ))) h offset

/-- convolve.h:1503-1506 `convolve`. -/
noncomputable def convolve (s : ℕ → Sch) (f : PtrArr) (offset : ℕ) : Cmd Unit := do
  o.convolveRaw s [] f offset
  o.normalize f offset

end Conv2

/-! ## `Convolution3` -/

/-- convolve.h:1680-1696 `Convolution3::forward` and 1718-1735 `backward`: if not contiguous, the transform is applied to each of the
`Ly` blocks of `Lz` columns, which are `Sy` words apart.  As a transform of `Ly*Lz` columns. -/
noncomputable def FftBase.strided (o : FftBase) (Ly Lz Sy : ℕ) : FftBase :=
  { o with
    C := Ly * Lz
    col := fun c => Sy * (c / Lz) + o.col (c % Lz)
    forward := fun f F r W => seqLoop (rng 0 Ly) fun j => o.forward (f + Sy * j) (F + Sy * j) r W
    backward := fun F f r W => seqLoop (rng 0 Ly) fun j => o.backward (F + Sy * j) (f + Sy * j) r W }

/-- A `Convolution3` object (convolve.h:1509-1541). -/
structure Conv3 where
  x : Outer
  ffty : FftBase
  fftz : FftBase
  threads : ℕ
  convyz : ℕ → Conv2

/-- Pointers returned by the allocations of a `Convolution3`. -/
structure Alloc3 where
  x : Alloc
  yz : ℕ → Alloc2

/-- convolve.h:1568-1570 `contiguous()` (`wordSize()` is 2 for complex data, 1 for real data). -/
def contiguous3 (fftx ffty : FftBase) : Bool := ffty.S = ffty.C ∨ fftx.wordSize ≠ 2

/-- convolve.h:1544-1562 constructor, 1572-1582 `checkStrides`, 1584-1645 `init` (with `mpi=false`).  (`ffty->Threads(threads)`, called
if `fftx->l < threads`, is the number of threads of the `Convolution2` objects; `thy` is `ffty->Threads()` otherwise.) -/
noncomputable def Conv3.new (fftx ffty fftz : FftBase) (mult : Multiplier) (th thy : ℕ) (Fu : Option PtrArr) (Wu Vu : Option Ptr)
    (al : Alloc3) : Cmd Conv3 := do
  let threads := if fftx.l < th then 1 else th
  let thy := if fftx.l < th then th else thy
  let d : Conv2 := ⟨⟨ffty, ⟨0, fun _ => ⟨0, 0⟩⟩, ⟨0, fun _ => ⟨0, 0⟩⟩, ⟨0, fun _ => ⟨0, 0⟩⟩, none, none⟩, fftz, 0,
    fun _ => ⟨fftz, mult, ⟨0, fun _ => ⟨0, 0⟩⟩, ⟨0, fun _ => ⟨0, 0⟩⟩, ⟨0, fun _ => ⟨0, 0⟩⟩, none, none, true⟩⟩
  let convyz ← newAll d (fun t => Conv2.new ffty fftz mult thy none none none (al.yz t)) threads
  exitIf (fftx.S < ffty.L * ffty.S)
  exitIf (fftx.C ≠ if contiguous3 fftx ffty then ffty.L * ffty.S else ffty.C)
  let x ← Outer.new (if contiguous3 fftx ffty then fftx else fftx.strided ffty.L ffty.C ffty.S) Fu Wu Vu al.x
  pure ⟨x, ffty, fftz, threads, convyz⟩

namespace Conv3
variable (o : Conv3)

/-- convolve.h:1706-1716 `subconvolution`, with the schedule `s`; `s2 i` are the schedules of iteration `i`.  `idx` are the entries
`index[2..size)`. -/
noncomputable def subconvolution (s : Sch) (s2 : ℕ → ℕ → Sch) (idx : List ℕ) (F : PtrArr) (rx offset : ℕ) : Cmd Unit :=
  seqLoop s fun x =>
    if x.2 < o.threads then
      (o.convyz x.2).convolveRaw (s2 x.1) (o.x.fft.index rx x.1 :: idx) F (offset + x.1 * o.x.fft.S)
    else ubCmd

/-- Word `k` of the data: `x` index `k/(Ly*Lz)`, `y` index `k/Lz%Ly`, `z` index `k%Lz` (convolve.h:1745-1762, 1808-1829; `Ly` is
`inputLengthy()`, `Lz` is `inputLengthz()`). -/
def pos (k : ℕ) : ℕ := o.x.fft.S * (k / (o.ffty.L * o.fftz.L)) + (o.ffty.S * (k % (o.ffty.L * o.fftz.L) / o.fftz.L) + k % o.fftz.L)

/-- convolve.h:1766-1833 `convolveRaw`; `s rx` is the schedule of the parallel loop for residue `rx`, `s2 rx i ry` those of the
inner ones. -/
noncomputable def convolveRaw (s : ℕ → Sch) (s2 : ℕ → ℕ → ℕ → Sch) (idx : List ℕ) (f : PtrArr) (offset : ℕ) : Cmd Unit :=
  o.x.convolveRaw (fun F rx off => o.subconvolution (s rx) (s2 rx) idx F rx off)
    (fun f h => copyWords (o.x.fft.L * (o.ffty.L * o.fftz.L)) o.pos o.x.fft.B f h offset) f offset

/-- convolve.h:1745-1762 `normalize`, with `scale=1/normalization()` (convolve.h:1564-1566, 1611). -/
noncomputable def normalize (h : PtrArr) (offset : ℕ) : Cmd Unit :=
  scaleWords (o.x.fft.L * (o.ffty.L * o.fftz.L)) o.pos o.x.fft.B (1 / ((o.x.fft.N : ℂ) * ((o.ffty.N : ℂ) * (o.fftz.N : ℂ)))) h offset

/-- convolve.h:1835-1838 `convolve`. -/
noncomputable def convolve (s : ℕ → Sch) (s2 : ℕ → ℕ → ℕ → Sch) (f : PtrArr) (offset : ℕ) : Cmd Unit := do
  o.convolveRaw s s2 [] f offset
  o.normalize f offset

end Conv3
end Fftwpp
