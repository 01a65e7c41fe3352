import Verif.Model.Driver

/-!
# The choice of the transform class

The drivers (convolve.h:1104-1990) take pointers to the base class `fftBase`; the caller passes an `fftPad` or an `fftPadCentered` object
(e.g. tests/hybridconv.cc, tests/hybridconv2.cc, examples), and in two and three dimensions any mixture of the two.
-/

namespace Fftwpp

/-- An object of one of the complex transform classes: `fftPad` (convolve.h:451-588) or `fftPadCentered` (convolve.h:590-697). -/
inductive Tr where
  | pad (o : Fft)
  | cen (o : Cent)

namespace Tr

/-- Construction of an object of the class `fftPadCentered` (`centered=true`) or `fftPad` (`centered=false`) (convolve.h:451-697). -/
noncomputable def new (centered : Bool) (L M : ℕ) (app : App) (C S m D : ℕ) (inplace : Bool) : Except Err Tr :=
  if centered then (Cent.new L M app C S m D inplace).map .cen else (Fft.new L M app C S m D inplace).map .pad

/-- The data members inherited from `fftBase` (convolve.h:96-449). -/
def fft : Tr → Fft
  | .pad o => o
  | .cen o => o.toFft

/-- The interface (virtual functions) of the object (convolve.h:451-697). -/
noncomputable def base : Tr → FftBase
  | .pad o => o.base
  | .cen o => o.base

end Tr
end Fftwpp
