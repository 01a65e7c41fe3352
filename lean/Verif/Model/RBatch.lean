import Verif.Model.Rcfft
import Verif.Spec.RDft1

/-!
# Batched transforms of real data: mrcfft1d, mcrfft1d (fftw++.h)

As in Model/Rcfft.lean, a memory word is a `double` and a `Complex` is two words.
-/

namespace Fftwpp
open Finset

/-- A `Mrcfft1d` or `Mcrfft1d` object: `M` transforms of length `nx`; the strides and distances of the real vectors (in doubles) and of the
spectra (in `Complex` values); the members `inplace` and `T` (threads among which the batch is split, 1 if it is not); the values, as a function of the
input, of the words that FFTW leaves unspecified. -/
structure RBatch where
  nx : ℕ
  M : ℕ
  rs : ℕ
  cs : ℕ
  rd : ℕ
  cd : ℕ
  inplace : Bool
  T : ℕ
  junk : Mem → Ptr → ℂ

namespace RBatch

/-- fftw++.h:974-983 `Mrcfft1d(nx,M,istride,ostride,idist,odist,…)` with fftw++.h:583-587 (`idist`, `odist` 0 mean a default). -/
def forward (nx M istride ostride idist odist : ℕ) (ip : Bool) (T : ℕ) (junk : Mem → Ptr → ℂ) : RBatch :=
  ⟨nx, M, istride, ostride, Dist nx istride idist, Dist nx ostride odist, ip, T, junk⟩
/-- fftw++.h:1072-1081 `Mcrfft1d(nx,M,istride,ostride,idist,odist,…)`. -/
def backward (nx M istride ostride idist odist : ℕ) (ip : Bool) (T : ℕ) (junk : Mem → Ptr → ℂ) : RBatch :=
  ⟨nx, M, ostride, istride, Dist nx ostride odist, Dist nx istride idist, ip, T, junk⟩

/-- fftw++.h:96-113 `Doubles(nx,M,istride,ostride,idist,odist,inplace)`: the members `rsize` and `csize`. -/
def doubles (nx M istride ostride idist odist : ℕ) (ip : Bool) : ℕ × ℕ :=
  let rsize := (RFft.realsize nx ip - 2) * istride + (M - 1) * idist + 2
  let csize := 2 * (nx / 2 * ostride + (M - 1) * odist + 1)
  if ip = true then (max rsize csize, max rsize csize) else (rsize, csize)

/-- fftw++.h:279-281 and 978-979: the doubles of the array on which `Mrcfft1d` plans if it is given none (in place). -/
def scratchR (nx M istride ostride idist odist : ℕ) : ℕ := 2 * (((doubles nx M istride ostride idist odist true).2 + 1) / 2)
/-- fftw++.h:279-281 and 1076-1077: the same for `Mcrfft1d`, whose input is the spectrum. -/
def scratchC (nx M istride ostride idist odist : ℕ) : ℕ := 2 * (((doubles nx M ostride istride odist idist true).1 + 1) / 2)

variable (o : RBatch)

/-- `Complex` values of a half spectrum. -/
def nxp : ℕ := o.nx / 2 + 1
/-- Address of real value `k` of vector `v`. -/
def raddr (p : Ptr) (v k : ℕ) : Ptr := p + (v * o.rd + k * o.rs)
/-- Address of the real (`c=0`) or imaginary (`c=1`) part of value `k` of spectrum `v`. -/
def caddr (p : Ptr) (v k c : ℕ) : Ptr := p + ((v * o.cd + k * o.cs) * 2 + c)

/-- The words of vector `v`. -/
def IsR (f : Ptr) (v : ℕ) (p : Ptr) : Prop := ∃ k < o.nx, p = o.raddr f v k
/-- The words of spectrum `v`. -/
def IsC (g : Ptr) (v : ℕ) (p : Ptr) : Prop := ∃ x : ℕ × ℕ, x.1 < o.nxp ∧ x.2 < 2 ∧ p = o.caddr g v x.1 x.2

/-- All words are in bounds. -/
def InBounds (f g : Ptr) (m : Mem) : Prop :=
  ∀ v < o.M, (∀ k < o.nx, m.valid (o.raddr f v k)) ∧ ∀ k < o.nxp, ∀ c < 2, m.valid (o.caddr g v k c)

open Classical in
/-- fftw++.h:703-706 and 725-727 a plan of `fftw_plan_many_dft_r2c` and its execution (FFTW's contract, exact arithmetic): the half spectra
of the vectors, all inputs being those before the call. -/
noncomputable def r2c (f g : Ptr) : Cmd Unit := fun m =>
  if o.InBounds f g m then
    .ok ((), Mem.mk m.size fun p =>
      if h : ∃ x : ℕ × ℕ × ℕ, x.1 < o.M ∧ x.2.1 < o.nxp ∧ x.2.2 < 2 ∧ p = o.caddr g x.1 x.2.1 x.2.2 then
        let z := rdft1 o.nx (fun k => m.dbl1 (o.raddr f h.choose.1 k)) h.choose.2.1
        ((if h.choose.2.2 = 0 then z.re else z.im : ℝ) : ℂ)
      else m.val p)
  else .error .ub

/-- The spectrum of which the half is given. -/
noncomputable def full (g : Ptr) (m : Mem) (v k : ℕ) : ℂ :=
  if k < o.nxp then m.cplx (o.caddr g v k 0) else (starRingEnd ℂ) (m.cplx (o.caddr g v (o.nx - k) 0))

open Classical in
/-- fftw++.h:708-711 and 729-731 a plan of `fftw_plan_many_dft_c2r` and its execution (FFTW's contract, exact arithmetic): the real vectors with
the given half spectra; unspecified for one that is not the spectrum of any.  The input is destroyed. -/
noncomputable def c2r (g f : Ptr) : Cmd Unit := fun m =>
  if o.InBounds f g m then
    .ok ((), Mem.mk m.size fun p =>
      if h : ∃ x : ℕ × ℕ, x.1 < o.M ∧ x.2 < o.nx ∧ p = o.raddr f x.1 x.2 then
        if HermSpec1 o.nx (o.full g m h.choose.1) then ((irdft1 o.nx (o.full g m h.choose.1) h.choose.2).re : ℂ)
        else ((o.junk m p).re : ℂ)
      else if ∃ v < o.M, o.IsC g v p then ((o.junk m p).re : ℂ)
      else m.val p)
  else .error .ub

/-- fftw++.h:733-751 `Execute(in,out)` of `Mrcfft1d`; the threads execute their plans in the order `order`. -/
noncomputable def executeR (order : List ℕ) (inp out : Ptr) : Cmd Unit :=
  if o.T = 1 then o.r2c inp out
  else seqLoop order fun i =>
    RBatch.r2c { o with M := blockCount o.M o.T i } (inp + blockStart o.M o.T i * o.rd) (out + 2 * (blockStart o.M o.T i * o.cd))

/-- fftw++.h:733-751 `Execute(in,out)` of `Mcrfft1d`. -/
noncomputable def executeC (order : List ℕ) (inp out : Ptr) : Cmd Unit :=
  if o.T = 1 then o.c2r inp out
  else seqLoop order fun i =>
    RBatch.c2r { o with M := blockCount o.M o.T i } (inp + 2 * (blockStart o.M o.T i * o.cd)) (out + blockStart o.M o.T i * o.rd)

/-- fftw++.h:316-323 `Setout(in,out)` and the rest of the call; `none`: the default argument `NULL`. -/
noncomputable def setout (inp : Ptr) (out : Option Ptr) (k : Ptr → Cmd Unit) : Cmd Unit :=
  if (o.inplace = true) ↔ inp = out.getD inp then k (out.getD inp) else exitCmd

/-- Iterations of `for(i=0; i < stop; i += step)`, `step` positive. -/
def iters (stop step : ℕ) : ℕ := (stop + step - 1) / step

/-- The member `norm` (fftw++.h:229-232). -/
noncomputable def norm : ℂ := 1 / (o.nx : ℂ)

/-- fftw++.h:404-419 `Normalize<Complex>(nx,M,ostride,odist,out)`.  The inner loop is merged into the parallel one: a smaller iteration has fewer
accesses, so this model has at least the data races of the code. -/
noncomputable def normalizeC (n M ostride odist : ℕ) (out : Ptr) : Cmd Unit :=
  par (rng2 0 (iters (n * ostride) ostride) 0 (iters (M * odist) odist)) fun x => do
    let p := out + 2 * (x.1 * ostride + x.2 * odist)
    let a ← load p
    let b ← load (p + 1)
    store p (a * o.norm)
    store (p + 1) (b * o.norm)

/-- fftw++.h:404-419 `Normalize<double>(nx,M,ostride,odist,out)`. -/
noncomputable def normalizeD (n M ostride odist : ℕ) (out : Ptr) : Cmd Unit :=
  par (rng2 0 (iters (n * ostride) ostride) 0 (iters (M * odist) odist)) fun x => do
    let p := out + (x.1 * ostride + x.2 * odist)
    let a ← load p
    store p (a * o.norm)

/-- The conditions of fftw++.h:1025 and 1124 for `fft1` to be used. -/
def single : Bool := o.M == 1 && o.rs == 1 && o.cs == 1

/-- fftw++.h:1036-1044 `fft(in)` and `fft(in,out)` of `mrcfft1d`. -/
noncomputable def rcfft (order : List ℕ) (inp : Ptr) (out : Option Ptr) : Cmd Unit :=
  if o.single = true then (RFft.rcfft1d o.nx o.inplace o.junk).rcfft inp out false
  else o.setout inp out fun out => o.executeR order inp out

/-- fftw++.h:1135-1143 `fft(in)` and `fft(in,out)` of `mcrfft1d`. -/
noncomputable def crfft (order : List ℕ) (inp : Ptr) (out : Option Ptr) : Cmd Unit :=
  if o.single = true then (RFft.crfft1d o.nx o.inplace o.junk).crfft inp out false
  else o.setout inp out fun out => o.executeC order inp out

/-- fftw++.h:1050-1058 `fftNormalized` of `mrcfft1d`, with 989-991 and 421-427. -/
noncomputable def rcfftNormalized (order : List ℕ) (inp : Ptr) (out : Option Ptr) : Cmd Unit :=
  if o.single = true then (RFft.rcfft1d o.nx o.inplace o.junk).rcfftNormalized inp out false
  else o.setout inp out fun out => do
    o.executeR order inp out
    o.normalizeC (o.nx / 2 + 1) o.M o.cs o.cd out

/-- fftw++.h:1149-1157 `fftNormalized` of `mcrfft1d`, with 1087-1089 and 421-427; without `out`, the overload of `fft1->fftNormalized` for
`Complex` arrays is called. -/
noncomputable def crfftNormalized (order : List ℕ) (inp : Ptr) (out : Option Ptr) : Cmd Unit :=
  if o.single = true then
    match out with
    | some q => (RFft.crfft1d o.nx o.inplace o.junk).crfftNormalized inp (some q) false
    | none => (RFft.crfft1d o.nx o.inplace o.junk).crfftNormalizedC inp none false
  else o.setout inp out fun out => do
    o.executeC order inp out
    o.normalizeD o.nx o.M o.rs o.rd out

end RBatch
end Fftwpp
