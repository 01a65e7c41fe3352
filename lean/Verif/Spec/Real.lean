import Verif.Model.Real
import Verif.Spec.Dft
import Verif.Props.Transform

/-! # Specification of the transforms of real data

Output `i` of the call with argument `r` is the DFT of length `N=m*q` at the frequency `freq r i`.  Because the data are real, the value at the
frequency `-k` is the conjugate of the value at `k`; only part of the frequencies is computed, and in the inverse each of them stands for itself and,
if the opposite frequency is not in the same block, for the opposite frequency. -/

namespace Fftwpp
namespace Re

/-- The frequency (modulo `N=m*q`) of output `i < noutputs(r)` of the call with argument `r`.  The routines store the conjugate transform for
`r=0`, in blocks of `m` outputs: blocks `t < ⌈p/2⌉` have the frequencies `q*l-n*t`, and for even `p` a last block of `m/2` outputs has the odd
multiples of `q/2` with even quotient.  For `p ≤ 2` there is one block of `m/2+1` outputs.  An ordinary call treats the residues `r`, `r+1`, …, with
`m*P` outputs each (`P` is `1` for `p ≤ 2` and `p` otherwise).  For `2*r=n` half of the frequencies are computed. -/
def freq (o : Re) (r i : ℕ) : ℤ :=
  let P := if o.p ≤ 2 then 1 else o.p
  if r = 0 then
    if o.p ≤ 2 then -((o.q : ℤ) * i)
    else if i / o.m < ceilquotient o.p 2 then (o.q : ℤ) * ((i % o.m : ℕ) : ℤ) - (o.n : ℤ) * ((i / o.m : ℕ) : ℤ)
    else 2 * (o.q : ℤ) * ((i % o.m : ℕ) : ℤ) + ((o.q / 2 : ℕ) : ℤ)
  else if 2 * r = o.n then
    if o.p ≤ 2 then 2 * (o.q : ℤ) * i + r
    else (o.q : ℤ) * ((i % o.m : ℕ) : ℤ) + 2 * (o.n : ℤ) * ((i / o.m : ℕ) : ℤ) + r
  else (o.q : ℤ) * ((i % o.m : ℕ) : ℤ) + (o.n : ℤ) * ((i % (o.m * P) / o.m : ℕ) : ℤ) + ((r + i / (o.m * P) : ℕ) : ℤ)

/-- Outputs `i` and `i'` of the block are at opposite frequencies. -/
def Opposite (o : Re) (r i i' : ℕ) : Prop := ((o.m * o.q : ℕ) : ℤ) ∣ o.freq r i + o.freq r i'

open Classical in
/-- The number of frequencies output `i` of block `r` stands for: 1 if the opposite frequency is (also) in the block, otherwise 2. -/
noncomputable def weight (o : Re) (r i : ℕ) : ℝ := if ∃ i' < o.noutputs r, o.Opposite r i i' then 1 else 2

/-- The values `Y` of a block could be those of real data: values at opposite frequencies are conjugate. -/
def Consistent (o : Re) (r : ℕ) (Y : ℕ → ℂ) : Prop :=
  ∀ i < o.noutputs r, ∀ i' < o.noutputs r, o.Opposite r i i' → Y i' = (starRingEnd ℂ) (Y i)

/-- The documented way of calling `forward`/`backward`: `f` is an array of `S*L` doubles, `F` an array of `outputSize()` words, and `W` is `NULL` for
an in-place transform and otherwise an array of `workSizeW()` words; they are different arrays (tests/hybridr.cc:57-60).  The private work array, if there
is one, is the array of `outputSize()` words allocated by the constructor, different from the others. -/
structure Args (o : Re) (mem : Mem) (f F : Ptr) (W? : Option Ptr) : Prop where
  fF : f.buf ≠ F.buf
  bf : mem.block f ((o.S * o.L + 1) / 2)
  bF : mem.block F o.outputSize
  bW : if o.inplace then W? = none else ∃ W, W? = some W ∧ W.buf ≠ F.buf ∧ W.buf ≠ f.buf ∧ mem.block W o.workSizeW
  bV : ∀ V, o.V = some V → V.buf ≠ F.buf ∧ V.buf ≠ f.buf ∧ mem.block V o.outputSize

/-- The words `forward` may write: words of `F`, `W` and the private work array. -/
def TouchFW (o : Re) (F : Ptr) (W? : Option Ptr) (p : Ptr) : Prop :=
  ∃ i < o.outputSize, p = F + i ∨ (∃ W, W? = some W ∧ p = W + i) ∨ ∃ V, o.V = some V ∧ p = V + i

end Re
end Fftwpp
