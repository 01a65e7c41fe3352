import Verif.Model.Driver
import Verif.Model.Real

/-!
# Convolutions of real data

The driver `Convolution` (`Model/Driver.lean`) with an `fftPadReal` transform: the data are `L` doubles (`wordSize()=1`).  The routines of the driver that
copy or scale the data are modelled again, for doubles; the others are those of `Model/Driver.lean`.
-/

namespace Fftwpp

namespace Re
variable (o : Re)

/-- convolve.h:388-393 `nloops()`. -/
def nloops : ℕ := (o.visited o.R 0).length

/-- convolve.h:395-397 `loop2()`. -/
def loop2 : Bool := o.nloops = 2 ∧ o.B < o.A ∧ o.overwrite = false

/-- convolve.h:378-449, 803-952: the interface of an `fftPadReal` object.  (`normalization()` is `M=m*q`, convolve.h:370-372, convolve.cc:5594; `index` is
inherited from `fftBase` and not meaningful for this class.) -/
noncomputable def base : FftBase where
  L := o.L
  C := o.C
  S := o.S
  col := fun c => c
  N := o.M
  q := o.q
  n := o.n
  l := o.l
  b := o.b
  A := o.A
  B := o.B
  inplace := o.inplace
  overwrite := o.overwrite
  loop2 := o.loop2
  nloops := o.nloops
  residues := o.visited o.R 0
  incr0 := o.increment 0
  outputSize := o.outputSize
  workSizeW := o.workSizeW
  blocksize := o.blocksize
  noutputs := o.noutputs
  span := fun r => o.S * o.noutputs r
  index := o.index
  padNone := o.pad = .none
  pad := fun W => o.padW (some W)
  forward := o.forward
  backward := o.backward
  wordSize := 1

end Re

namespace Conv
variable (o : Conv)

/-- convolve.cc:7700-7708: `gb[i]=hb[i]` for the `wordSize()*L=L` doubles of each `b < B`. -/
noncomputable def copyBackD (L B : ℕ) (g h : PtrArr) : Cmd Unit :=
  seqLoop (rng 0 B) fun b => do
    let gb ← g.get b
    let hb ← h.get b
    seqLoop (rng 0 L) fun i => runD (Re.copyD (dptr gb + i) (dptr hb + i))

/-- convolve.cc:7687-7709: the general residue loop, `wordSize()=1`. -/
noncomputable def rawGenericD (idx : List ℕ) (g : PtrArr) : Cmd Unit := do
  let h0 := if 1 < o.fft.nloops then o.V else g
  seqLoop o.fft.residues fun r => do
    fwdAll o.fft o.W g o.F r 0 o.fft.A 0
    o.operate idx o.F r
    o.backwardPad o.F h0 r 0 o.fft.B o.W0
  if 1 < o.fft.nloops then copyBackD o.fft.L o.fft.B g h0 else pure ()

/-- convolve.cc:7651-7712 `Convolution::convolveRaw(g)`, `wordSize()=1`. -/
noncomputable def convolveRawD (idx : List ℕ) (g : PtrArr) : Cmd Unit :=
  if o.fft.q = 1 then o.rawExplicit idx g
  else if o.fft.overwrite then o.rawOverwrite idx g
  else if o.fft.loop2 then o.rawLoop2 idx g
  else o.rawGenericD idx g

/-- convolve.h:1074-1081 `normalize(h)`, `wordSize()=1`: `hb[i] *= scale` for the `L` doubles of each `b < B`; `scale=1.0/normalization()`
(convolve.h:1013). -/
noncomputable def normalizeD (h : PtrArr) : Cmd Unit :=
  seqLoop (rng 0 o.fft.B) fun b => do
    let hb ← h.get b
    seqLoop (rng 0 o.fft.L) fun i => runD (do
      let v ← getD (dptr hb + i)
      setD (dptr hb + i) (v * (1 / (o.fft.N : ℝ))))

/-- convolve.h:1128-1131 `convolve(f)`, `wordSize()=1`. -/
noncomputable def convolveD (f : PtrArr) : Cmd Unit := do
  o.convolveRawD [] f
  o.normalizeD f

/-- One step of a use of a `Convolution` object of real data: a write of a double by the user or a call of `convolve`; see `Conv.step`. -/
inductive StepD where
  | write (p : Ptr) (i : ℕ) (x : ℝ)
  | call (f : PtrArr)

/-- The effect of a step (the user's write is `((double *) p)[i]=x`). -/
noncomputable def stepD : StepD → Cmd Unit
  | .write p i x => runD (setD (dptr p + i) x)
  | .call f => o.convolveD f

end Conv
end Fftwpp
