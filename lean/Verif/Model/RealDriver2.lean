import Verif.Model.RealDriver
import Verif.Model.Conv2D

/-!
# Convolutions of real data in two and three dimensions

`Convolution2` and `Convolution3` with an `fftPadReal` transform in `x` and complex transforms in the other directions (tests/hybridconvr2.cc,
hybridconvr3.cc): the data are doubles (`wordSize()=1`), in rows of `Sx` doubles.  The routines that copy or scale the data are modelled again, for doubles;
the others are those of `Model/Conv2D.lean`.
-/

namespace Fftwpp

/-- `((double *) (f[b]+offset))[pos(k)]=((double *) h[b])[pos(k)]` for `k < n`, `b < B`. -/
noncomputable def copyDoubles (n : ℕ) (pos : ℕ → ℕ) (B : ℕ) (f h : PtrArr) (offset : ℕ) : Cmd Unit :=
  seqLoop (rng 0 B) fun b => do
    let fb ← f.get b
    let hb ← h.get b
    seqLoop (rng 0 n) fun k => runD (Re.copyD (dptr (fb + offset) + pos k) (dptr hb + pos k))

/-- `((double *) (h[b]+offset))[pos(k)] *= scale` for `k < n`, `b < B`. -/
noncomputable def scaleDoubles (n : ℕ) (pos : ℕ → ℕ) (B : ℕ) (scale : ℝ) (h : PtrArr) (offset : ℕ) : Cmd Unit :=
  seqLoop (rng 0 B) fun b => do
    let hb ← h.get b
    seqLoop (rng 0 n) fun k => runD (do
      let v ← getD (dptr (hb + offset) + pos k)
      setD (dptr (hb + offset) + pos k) (v * scale))

namespace Conv2
variable (o : Conv2)

/-- convolve.h:1441-1501 `convolveRaw(f,offset,indices)` with `wordSize()=1`; the double `k` of the data is the double `k%Ly` of row `k/Ly`, rows being
`Sx` doubles apart (convolve.h:1483-1497). -/
noncomputable def convolveRawD (s : ℕ → Sch) (idx : List ℕ) (f : PtrArr) (offset : ℕ) : Cmd Unit :=
  o.x.convolveRaw (fun F rx off => o.subconvolution (s rx) idx F rx off)
    (fun f h => copyDoubles (o.x.fft.L * o.ffty.L) o.pos o.x.fft.B f h offset) f offset

/-- convolve.h:1425-1437 `normalize` with `wordSize()=1`. -/
noncomputable def normalizeD (h : PtrArr) (offset : ℕ) : Cmd Unit :=
  scaleDoubles (o.x.fft.L * o.ffty.L) o.pos o.x.fft.B (1 / ((o.x.fft.N : ℝ) * (o.ffty.N : ℝ))) h offset

/-- convolve.h:1503-1506 `convolve` with `wordSize()=1`. -/
noncomputable def convolveD (s : ℕ → Sch) (f : PtrArr) (offset : ℕ) : Cmd Unit := do
  o.convolveRawD s [] f offset
  o.normalizeD f offset

/-- One step of a use of the object: the user writes a double, or calls `convolve`; the schedules are chosen by the environment. -/
inductive StepD where
  | write (p : Ptr) (i : ℕ) (x : ℝ)
  | call (s : ℕ → Sch) (f : PtrArr) (offset : ℕ)

/-- The effect of a step (the user's write is `((double *) p)[i]=x`). -/
noncomputable def stepD : StepD → Cmd Unit
  | .write p i x => runD (setD (dptr p + i) x)
  | .call s f off => o.convolveD s f off

end Conv2

namespace Conv3
variable (o : Conv3)

/-- convolve.h:1766-1833 `convolveRaw` with `wordSize()=1`. -/
noncomputable def convolveRawD (s : ℕ → Sch) (s2 : ℕ → ℕ → ℕ → Sch) (idx : List ℕ) (f : PtrArr) (offset : ℕ) : Cmd Unit :=
  o.x.convolveRaw (fun F rx off => o.subconvolution (s rx) (s2 rx) idx F rx off)
    (fun f h => copyDoubles (o.x.fft.L * (o.ffty.L * o.fftz.L)) o.pos o.x.fft.B f h offset) f offset

/-- convolve.h:1745-1762 `normalize` with `wordSize()=1`. -/
noncomputable def normalizeD (h : PtrArr) (offset : ℕ) : Cmd Unit :=
  scaleDoubles (o.x.fft.L * (o.ffty.L * o.fftz.L)) o.pos o.x.fft.B (1 / ((o.x.fft.N : ℝ) * ((o.ffty.N : ℝ) * (o.fftz.N : ℝ)))) h offset

/-- convolve.h:1835-1838 `convolve` with `wordSize()=1`. -/
noncomputable def convolveD (s : ℕ → Sch) (s2 : ℕ → ℕ → ℕ → Sch) (f : PtrArr) (offset : ℕ) : Cmd Unit := do
  o.convolveRawD s s2 [] f offset
  o.normalizeD f offset

/-- One step of a use of the object, see `Conv2.StepD`. -/
inductive StepD where
  | write (p : Ptr) (i : ℕ) (x : ℝ)
  | call (s : ℕ → Sch) (s2 : ℕ → ℕ → ℕ → Sch) (f : PtrArr) (offset : ℕ)

/-- The effect of a step. -/
noncomputable def stepD : StepD → Cmd Unit
  | .write p i x => runD (setD (dptr p + i) x)
  | .call s s2 f off => o.convolveD s s2 f off

end Conv3
end Fftwpp
