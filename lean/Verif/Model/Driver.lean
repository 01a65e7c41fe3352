import Verif.Model.FftPad
import Verif.Model.Centered

/-!
# The convolution drivers: `Convolution` (convolve.h:954-1136, convolve.cc:7627-7740) and the multipliers

Allocations made by the constructors (`ComplexAlign`) are modelled by pointers `Alloc` supplied by the environment; the
theorems quantify over all of them (in distinct buffers, arbitrary contents).  `V` is allocated at construction instead
of at the first use (its contents are arbitrary in both cases).
-/

namespace Fftwpp

/-- Undefined behaviour. -/
def ubCmd {α : Type} : Cmd α := fun _ => .error .ub

/-- The interface of `fftBase` used by the drivers (convolve.h:115-450): sizes, the member pointers `Forward`, `Backward`,
`Pad` and the virtual functions. -/
structure FftBase where
  L : ℕ
  C : ℕ
  S : ℕ
  /-- position of copy `c < C` within a row of `S` words (`c` for the classes of convolve.cc; see `FftBase.strided` for the other use) -/
  col : ℕ → ℕ
  /-- `normalization()` -/
  N : ℕ
  q : ℕ
  n : ℕ
  l : ℕ
  b : ℕ
  A : ℕ
  B : ℕ
  inplace : Bool
  overwrite : Bool
  loop2 : Bool
  nloops : ℕ
  /-- the values of `r` in `for(r=0; r < R; r += increment(r))` -/
  residues : List ℕ
  /-- `increment(0)` -/
  incr0 : ℕ
  outputSize : ℕ
  workSizeW : ℕ
  blocksize : ℕ → ℕ
  noutputs : ℕ → ℕ
  span : ℕ → ℕ
  index : ℕ → ℕ → ℕ
  /-- whether `Pad` is `padNone` -/
  padNone : Bool
  pad : Ptr → Cmd Unit
  forward : Ptr → Ptr → ℕ → Option Ptr → Cmd Unit
  backward : Ptr → Ptr → ℕ → Option Ptr → Cmd Unit
  /-- `wordSize()`: number of doubles in an input word (convolve.h:408-411, 918-921) -/
  wordSize : ℕ := 2

/-- convolve.h:378-449: the interface of an `fftPad` object.  (`normalization()` is `M=m*q`, convolve.h:370-372.) -/
noncomputable def Fft.base (o : Fft) : FftBase where
  L := o.L
  C := o.C
  S := o.S
  col := fun c => c
  N := o.M
  q := o.q
  n := o.n
  l := o.l
  b := o.b
  A := o.A
  B := o.B
  inplace := o.inplace
  overwrite := o.overwrite
  loop2 := o.loop2
  nloops := o.nloops
  residues := o.visited (o.R + 1) 0
  incr0 := o.increment 0
  outputSize := o.outputSize
  workSizeW := o.workSizeW
  blocksize := o.blocksize
  noutputs := o.noutputs
  span := o.span
  index := o.index
  padNone := o.pad = .none
  pad := fun W => o.padW (some W)
  forward := o.forward
  backward := o.backward

/-- convolve.h:378-449, 590-697: the interface of an `fftPadCentered` object; `index`, the loop bounds and the sizes are inherited. -/
noncomputable def Cent.base (o : Cent) : FftBase where
  L := o.L
  C := o.C
  S := o.S
  col := fun c => c
  N := o.M
  q := o.q
  n := o.n
  l := o.l
  b := o.b
  A := o.A
  B := o.B
  inplace := o.inplace
  overwrite := o.overwrite
  loop2 := o.loop2
  nloops := o.nloops
  residues := o.visited (o.R + 1) 0
  incr0 := o.increment 0
  outputSize := o.outputSize
  workSizeW := o.workSizeW
  blocksize := o.blocksize
  noutputs := o.noutputs
  span := o.span
  index := o.index
  padNone := o.pad = .none
  pad := fun W => o.padW (some W)
  forward := o.forward
  backward := o.backward

/-- convolve.h:439-441 `workSizeV()`, with `doubles()=wordSize()*S*inputLength()` (convolve.h:414-416). -/
def FftBase.workSizeV (o : FftBase) : ℕ := if o.nloops = 1 ∨ o.loop2 then 0 else ceilquotient (o.wordSize * o.S * o.L) 2

/-- `(fft->*Pad)(W)`: `padNone` ignores its argument, the others write to `W`. -/
noncomputable def FftBase.padCall (o : FftBase) (W? : Option Ptr) : Cmd Unit :=
  if o.padNone then pure ()
  else match W? with
    | none => ubCmd
    | some W => o.pad W

/-- A C++ array of `n` pointers. -/
structure PtrArr where
  n : ℕ
  at_ : ℕ → Ptr

/-- `F[i]`. -/
def PtrArr.get (F : PtrArr) (i : ℕ) : Cmd Ptr := if i < F.n then pure (F.at_ i) else ubCmd

/-- convolve.h:1083-1087 `Convolution::forward` (and convolve.h:1386-1391 `Convolution2::forward`, with `offset`). -/
noncomputable def fwdAll (o : FftBase) (W : Option Ptr) (f F : PtrArr) (r start stop offset : ℕ) : Cmd Unit :=
  seqLoop (rng start stop) fun a => do
    let fa ← f.get a
    let Fa ← F.get a
    o.forward (fa + offset) Fa r W

/-- convolve.h:1108-1113 `Convolution::backward` (and convolve.h:1413-1418 in `Convolution2::backward`, with `offset`). -/
noncomputable def bwdAll (o : FftBase) (W0 : Option Ptr) (F f : PtrArr) (r start stop offset : ℕ) : Cmd Unit :=
  seqLoop (rng start stop) fun b => do
    let Fb ← F.get b
    let fb ← f.get b
    o.backward Fb (fb + offset) r W0

/-- convolve.h:78-79 `multiplier(F,n,indices,threads)`; of `indices` (convolve.h:48-76) the entries `index[0..size)` (as a
list), `r` and `offset` are modelled. -/
abbrev Multiplier := PtrArr → ℕ → (idx : List ℕ) → (r offset : ℕ) → Cmd Unit

/-- convolve.cc:33-55 `multBinary`. -/
noncomputable def multBinary : Multiplier := fun F n _ _ _ => do
  let F0 ← F.get 0
  let F1 ← F.get 1
  par (rng 0 n) fun j => do
    let x ← load (F0 + j)
    let y ← load (F1 + j)
    store (F0 + j) (x * y)

/-- convolve.cc:85-107 `multcorrelation`. -/
noncomputable def multcorrelation : Multiplier := fun F n _ _ _ => do
  let F0 ← F.get 0
  let F1 ← F.get 1
  par (rng 0 n) fun j => do
    let x ← load (F0 + j)
    let y ← load (F1 + j)
    store (F0 + j) (x * (starRingEnd ℂ) y)

/-- convolve.cc:26-29 `multNone`. -/
noncomputable def multNone : Multiplier := fun _ _ _ _ _ => pure ()

/-- A `Convolution` object (convolve.h:954-982).  `padOn` is false if `Pad` was replaced by `padNone`. -/
structure Conv where
  fft : FftBase
  mult : Multiplier
  F : PtrArr
  Fp : PtrArr
  V : PtrArr
  W : Option Ptr
  W0 : Option Ptr
  padOn : Bool

/-- Pointers returned by the allocations. -/
structure Alloc where
  F : ℕ → Ptr
  W : Ptr
  V : ℕ → Ptr

/-- convolve.h:989-1058: constructor and `init`.  `Fu`, `Wu`, `Vu` are the optional arguments `F`, `W`, `V`.  (For `q=1` the
members `V`, `W0`, `Fp` are not set and not used.) -/
noncomputable def Conv.new (fft : FftBase) (mult : Multiplier) (Fu : Option PtrArr) (Wu Vu : Option Ptr) (al : Alloc) : Cmd Conv := do
  let F : PtrArr := match Fu with
    | none => ⟨max fft.A fft.B, al.F⟩
    | some F => F
  let allocateW : Bool := Wu = none ∧ fft.inplace = false
  let W : Option Ptr := if allocateW then some al.W else none
  let V : PtrArr := match Vu with
    | none => ⟨fft.B, al.V⟩
    | some V => ⟨fft.B, fun i => V + i * fft.workSizeV⟩
  if 1 < fft.q then
    fft.padCall W
    let C := fft.A - fft.B
    let Fp : PtrArr := ⟨fft.A, fun c => if c < C then F.at_ (fft.B + c) else F.at_ (c - C)⟩
    if fft.loop2 = false ∧ fft.B < fft.A ∧ fft.inplace = false ∧ fft.workSizeW ≤ fft.outputSize then
      pure ⟨fft, mult, F, Fp, V, W, some (F.at_ fft.B), false⟩
    else pure ⟨fft, mult, F, Fp, V, W, W, true⟩
  else pure ⟨fft, mult, F, F, V, W, W, true⟩

namespace Conv
variable (o : Conv)

/-- convolve.h:1089-1106 `operate`. -/
noncomputable def operate (idx : List ℕ) (F : PtrArr) (r : ℕ) : Cmd Unit := do
  let blocksize := o.fft.blocksize r
  o.mult F blocksize idx r 0
  let stride := o.fft.S * o.fft.noutputs 0
  let b := o.fft.b
  let stop := o.fft.span r
  -- for(d=1; b*d < stop; ++d)
  seqLoop (rng 1 (ceilquotient stop b)) fun d =>
    o.mult ⟨o.fft.A, fun a => F.at_ a + b * d⟩ blocksize idx r (stride * d)

/-- convolve.h:1115-1120 `backwardPad`. -/
noncomputable def backwardPad (F f : PtrArr) (r start stop : ℕ) (W0 : Option Ptr) : Cmd Unit := do
  bwdAll o.fft W0 F f r start stop 0
  if o.W ≠ none ∧ o.W = W0 ∧ o.padOn then o.fft.padCall W0 else pure ()

/-- convolve.cc:7700-7708: `gb[i]=hb[i]` for the `2*L` doubles of each `b < B` (as `L` complex words). -/
noncomputable def copyBack (L B : ℕ) (g h : PtrArr) : Cmd Unit :=
  seqLoop (rng 0 B) fun b => do
    let gb ← g.get b
    let hb ← h.get b
    seqLoop (rng 0 L) fun i => (Fft.copy1 (gb + i) (hb + i)).run

/-- convolve.cc:7653-7657: explicit case (`q=1`). -/
noncomputable def rawExplicit (idx : List ℕ) (g : PtrArr) : Cmd Unit := do
  fwdAll o.fft o.W g o.F 0 0 o.fft.A 0
  o.mult o.F (o.fft.blocksize 0) idx 0 0
  bwdAll o.fft o.W o.F g 0 0 o.fft.B 0

/-- convolve.cc:7659-7673: in-place overwriting case. -/
noncomputable def rawOverwrite (idx : List ℕ) (g : PtrArr) : Cmd Unit := do
  fwdAll o.fft o.W g o.F 0 0 o.fft.A 0
  let final := o.fft.n - 1
  seqLoop (rng 0 final) fun r =>
    let blocksize := o.fft.blocksize r
    o.mult ⟨o.fft.A, fun a => g.at_ a + r * blocksize⟩ blocksize idx r 0
  o.mult o.F (o.fft.blocksize final) idx final 0
  bwdAll o.fft none o.F g 0 0 o.fft.B 0

/-- convolve.cc:7675-7686: `loop2`.  The values of `a` in `for(a=0; a+C <= B; a += C)` are `C*k`, `k < B/C`. -/
noncomputable def rawLoop2 (idx : List ℕ) (g : PtrArr) : Cmd Unit := do
  let r := o.fft.incr0
  let A := o.fft.A
  let B := o.fft.B
  fwdAll o.fft o.W g o.F 0 0 A 0
  o.operate idx o.F 0
  let C := A - B
  seqLoop (rng 0 (B / C)) fun k => do
    let a := C * k
    fwdAll o.fft o.W g o.Fp r a (a + C) 0
    o.backwardPad o.F g 0 a (a + C) o.W0
  fwdAll o.fft o.W g o.Fp r (C * (B / C)) A 0
  o.operate idx o.Fp r
  o.backwardPad o.Fp g r 0 B o.W0

/-- convolve.cc:7687-7709: the general residue loop. -/
noncomputable def rawGeneric (idx : List ℕ) (g : PtrArr) : Cmd Unit := do
  let h0 := if 1 < o.fft.nloops then o.V else g
  seqLoop o.fft.residues fun r => do
    fwdAll o.fft o.W g o.F r 0 o.fft.A 0
    o.operate idx o.F r
    o.backwardPad o.F h0 r 0 o.fft.B o.W0
  if 1 < o.fft.nloops then copyBack o.fft.L o.fft.B g h0 else pure ()

/-- convolve.cc:7651-7712 `Convolution::convolveRaw(g)`; `idx` are the entries `indices.index[0..size)`, set by `subconvolution`
(convolve.h:1401-1411) in multidimensional convolutions. -/
noncomputable def convolveRaw (idx : List ℕ) (g : PtrArr) : Cmd Unit :=
  if o.fft.q = 1 then o.rawExplicit idx g
  else if o.fft.overwrite then o.rawOverwrite idx g
  else if o.fft.loop2 then o.rawLoop2 idx g
  else o.rawGeneric idx g

/-- convolve.cc:7722-7729 `convolveRaw(f,offset)`, and convolve.cc:7731-7738 `convolveRaw(f,offset,indices2)` when `indices2` is the
object's own `indices` (as in `subconvolution`, convolve.h:1409): it is copied onto itself. -/
noncomputable def convolveRawOffset (idx : List ℕ) (f : PtrArr) (offset : ℕ) : Cmd Unit :=
  if f.n < o.fft.A then ubCmd
  else o.convolveRaw idx ⟨o.fft.A, fun a => f.at_ a + offset⟩

/-- convolve.h:1074-1081 `normalize`; `scale=1.0/normalization()` (convolve.h:1013).  The `2*L` doubles are `L` words. -/
noncomputable def normalize (h : PtrArr) (offset : ℕ) : Cmd Unit :=
  seqLoop (rng 0 o.fft.B) fun b => do
    let hb ← h.get b
    seqLoop (rng 0 o.fft.L) fun i => (do
      let v ← load (hb + offset + i)
      store (hb + offset + i) (v * (1 / (o.fft.N : ℂ))) : Body Unit).run

/-- convolve.h:1128-1131 `convolve(f)`. -/
noncomputable def convolve (f : PtrArr) : Cmd Unit := do
  o.convolveRaw [] f
  o.normalize f 0

/-- convolve.h:1132-1135 `convolve(f,offset)`. -/
noncomputable def convolveOffset (f : PtrArr) (offset : ℕ) : Cmd Unit := do
  o.convolveRawOffset [] f offset
  o.normalize f offset

end Conv
end Fftwpp
