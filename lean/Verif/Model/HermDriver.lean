import Verif.Model.Driver
import Verif.Model.Herm

/-!
# Convolutions of Hermitian-symmetric data

The driver `Convolution` (`Model/Driver.lean`) with an `fftPadHermitian` transform and the multiplier `realMultBinary`.
-/

namespace Fftwpp

/-- convolve.h:378-449, 699-801: the interface of an `fftPadHermitian` object.  `L` is `inputLength()`, which is what the drivers use
(convolve.h:1075, 414-416, convolve.cc:7700); `index`, the loop bounds and `outputSize()` are inherited from `fftBase`. -/
noncomputable def Herm.base (o : Herm) : FftBase where
  L := o.inputLength
  C := o.C
  S := o.S
  col := fun c => c
  N := o.M
  q := o.q
  n := o.n
  l := o.l
  b := o.b
  A := o.A
  B := o.B
  inplace := o.inplace
  overwrite := o.overwrite
  loop2 := o.loop2
  nloops := o.nloops
  residues := o.visited (o.R + 1) 0
  incr0 := o.increment 0
  outputSize := o.outputSize
  workSizeW := o.workSizeW
  blocksize := o.blocksize
  noutputs := o.noutputs
  span := o.span
  index := o.index
  padNone := o.pad = .none
  pad := fun W => o.padW (some W)
  forward := o.forward
  backward := o.backward

/-- convolve.cc:59-81 `realMultBinary`: `F0[j] *= F1[j]` for the `n` doubles of each array.  The two doubles of a word are treated in one iteration of
the loop (an odd `n` leaves the second double of the last word unchanged). -/
noncomputable def realMultBinary : Multiplier := fun F n _ _ _ => do
  let F0 ← F.get 0
  let F1 ← F.get 1
  par (rng 0 (ceilquotient n 2)) fun k => do
    let x ← load (F0 + k)
    let y ← load (F1 + k)
    store (F0 + k) ⟨x.re * y.re, if 2 * k + 1 < n then x.im * y.im else x.im⟩

end Fftwpp
