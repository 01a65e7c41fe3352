import Verif.Model.Params

/-!
# fftw++.h, align.h: threads, alignment, lookup tables, shifts, batched transforms, normalization

The `double *` overloads of the shifts are modelled on the same memory as the `Complex *` ones (a word holds the value of
one array element).
-/

namespace Fftwpp
open Finset

/-- `exit(1)`. -/
def exitCmd : Cmd Unit := fun _ => .error .exit

/-! ## Threads (C40) -/

/-- fftw++.h:61-80 `ThreadBase`. -/
structure ThreadBase where
  threads : ℕ
  innerthreads : ℕ

/-- fftw++.h:72-79 `multithread(n)`. -/
def ThreadBase.multithread (o : ThreadBase) (n : ℕ) : ThreadBase :=
  if o.threads ≤ n then { o with innerthreads := 1 } else { threads := 1, innerthreads := o.threads }

/-! ## Alignment (C31) -/

/-- align.h:110-121 `ComplexAlign(n,size)`: the offsets, in words from the base `B`, of the buffers `v[i]`, and the number
of words allocated; `none` is `NULL`. -/
def complexAlign (ALIGNMENT n size : ℕ) : Option (ℕ × (ℕ → ℕ)) :=
  if n = 0 ∨ size = 0 then none else
  let Size := ALIGNMENT * ceilquotient size ALIGNMENT
  some ((n - 1) * Size + size, fun i => i * Size)

/-- align.h:145-148 `align(n)`; `sizeofComplex` is 16. -/
def alignWords (ALIGNMENT sizeofComplex n : ℕ) : ℕ := ceilquotient (n * sizeofComplex) ALIGNMENT * ALIGNMENT / sizeofComplex

/-! ## Thread-count tables (C34) -/

/-- fftw++.h:505-513 `keytype`. -/
@[ext] structure Key where
  nx : ℕ
  M : ℕ
  threads : ℕ
  inplace : Bool
deriving DecidableEq

/-- fftw++.h:515-523 `keyless`. -/
def Key.less (a b : Key) : Bool :=
  a.nx < b.nx || (a.nx == b.nx &&
    (a.M < b.M || (a.M == b.M &&
      (a.threads < b.threads || (a.threads == b.threads && a.inplace < b.inplace)))))

/-- A `std::map<keytype,size_t,keyless>`: entries in increasing order.  Two keys are the same entry when neither is less
than the other (the contract of `std::map`). -/
abbrev KeyTable := List (Key × ℕ)

/-- `std::map::find` + fftw++.h:493-496 `Lookup`. -/
def KeyTable.lookup : KeyTable → Key → ℕ
  | [], _ => 0
  | (k, v) :: t, key => if !k.less key && !key.less k then v else lookup t key

/-- `std::map::operator[]` + fftw++.h:498-500 `Store`. -/
def KeyTable.store : KeyTable → Key → ℕ → KeyTable
  | [], key, v => [(key, v)]
  | (k, u) :: t, key, v =>
    if k.less key then (k, u) :: store t key v
    else if key.less k then (key, v) :: (k, u) :: t
    else (k, v) :: t

/-! ## Shifts (C28) -/

/-- The loop of fftw++.h:145-158 and 164-177 over odd rows of `len` words: `i=len, 3len, …` below `nx*len`, outer index
`i` the OpenMP loop, here as pairs (row pair index, `j`). -/
noncomputable def shiftRows (data : Ptr) (nx len : ℕ) : Cmd Unit :=
  if nx % 2 = 0 then
    par (rng2 0 (nx / 2) 0 len) fun (k, j) => do
      let p := data + (len + k * (2 * len)) + j
      let v ← load p
      store p (-v)
  else exitCmd

/-- fftw++.h:142-161 `Shift(Complex *data, nx, ny)`.  (For `nyp > 0` the loop `for(i=nyp; i < nx*nyp; i += 2*nyp)` runs
over `i=(2k+1)*nyp`, `k < nx/2`.) -/
noncomputable def shift2 (data : Ptr) (nx ny : ℕ) : Cmd Unit := shiftRows data nx (ny / 2 + 1)

/-- fftw++.h:164-182 `Shift(double *data, nx, ny)`; for `ny = 0` the C++ loop does not start as `ny < nx*ny` fails. -/
noncomputable def shift2real (data : Ptr) (nx ny : ℕ) : Cmd Unit := shiftRows data nx ny

/-- fftw++.h:185-206 and 209-230 `Shift(data,nx,ny,nz)` with rows of `len` words: plane `i` starts at row `1-(i%2)` and
negates every second row.  The number of rows visited by `for(p=pstart+(1-(i%2))*len; p < pstart+ny*len; p += 2*len)` is
`⌈(ny-(1-i%2))/2⌉`. -/
noncomputable def shiftPlanes (data : Ptr) (nx ny len : ℕ) : Cmd Unit :=
  if nx % 2 = 0 ∧ ny % 2 = 0 then
    par ((rng 0 nx).flatMap fun i => (rng2 0 (ceilquotient (ny - (1 - i % 2)) 2) 0 len).map fun (t, k) => (i, t, k))
      fun (i, t, k) => do
        let p := data + (i * (ny * len)) + ((1 - i % 2) * len + t * (2 * len)) + k
        let v ← load p
        store p (-v)
  else exitCmd

/-- fftw++.h:185-206 `Shift(Complex *data, nx, ny, nz)`. -/
noncomputable def shift3 (data : Ptr) (nx ny nz : ℕ) : Cmd Unit := shiftPlanes data nx ny (nz / 2 + 1)
/-- fftw++.h:209-230 `Shift(double *data, nx, ny, nz)`. -/
noncomputable def shift3real (data : Ptr) (nx ny nz : ℕ) : Cmd Unit := shiftPlanes data nx ny nz

/-! ## Batched transforms (C22, C29) -/

/-- Arguments of `fftw_plan_many_dft` (fftw++.h:689-692): `howmany` transforms of length `n`. -/
structure BPlan where
  n : ℕ
  sign : ℤ
  howmany : ℕ
  istride : ℕ
  ostride : ℕ
  idist : ℕ
  odist : ℕ

/-- Element `j` of input `k`. -/
def BPlan.iaddr (pl : BPlan) (p : Ptr) (k j : ℕ) : Ptr := p + (k * pl.idist + j * pl.istride)
/-- Element `j` of output `k`. -/
def BPlan.oaddr (pl : BPlan) (p : Ptr) (k j : ℕ) : Ptr := p + (k * pl.odist + j * pl.ostride)

/-- All elements are in bounds. -/
def BPlan.InBounds (pl : BPlan) (src dst : Ptr) (m : Mem) : Prop :=
  ∀ k < pl.howmany, ∀ j < pl.n, m.valid (pl.iaddr src k j) ∧ m.valid (pl.oaddr dst k j)

open Classical in
/-- `fftw_execute_dft` of a batched plan (FFTW's contract, exact arithmetic): output `k` is the unnormalized DFT of input
`k`, all inputs being those before the call. -/
noncomputable def BPlan.exec (pl : BPlan) (src dst : Ptr) : Cmd Unit := fun m =>
  if pl.InBounds src dst m then
    .ok ((), Mem.mk m.size (fun p =>
      if h : ∃ kj : ℕ × ℕ, kj.1 < pl.howmany ∧ kj.2 < pl.n ∧ p = pl.oaddr dst kj.1 kj.2 then
        ∑ j ∈ range pl.n, m.val (pl.iaddr src h.choose.1 j) * w pl.n (pl.sign * j * h.choose.2)
      else m.val p))
  else .error .ub

/-- fftw++.h:583-595: the condition under which `fftwblock::init` considers splitting the batch over `T` threads, for the
element types `I`, `O` (`realIn`, `realOut`: the type is `double`, of 8 bytes, and not `fftw_complex`, of 16 bytes). -/
def blockAllowed (realIn realOut inplace : Bool) (nx istride ostride idist odist : ℕ) : Bool :=
  let nxp := nx / 2 + 1
  let ilength := if realOut then nxp else if realIn then nx else 0
  let olength := if realOut then nx else if realIn then nxp else 0
  let szI := if realIn then 8 else 16
  let szO := if realOut then 8 else 16
  !inplace || (ostride * olength * szO ≤ idist * szI && istride * ilength * szI ≤ odist * szO)

/-- fftw++.h:598-600 and 721-727: with `Q=M/T`, `R=M-Q*T`, thread `i` executes `count` transforms from number `start` on. -/
def blockStart (M T i : ℕ) : ℕ :=
  let Q := M / T
  let R := M - Q * T
  let extra := T - R
  if i < extra then i * Q else i * Q + i - extra

/-- fftw++.h:701-706 and 721-727: `plan1` performs `Q` transforms, `plan2` performs `Q+1`. -/
def blockCount (M T i : ℕ) : ℕ :=
  let Q := M / T
  let R := M - Q * T
  let extra := T - R
  if i < extra then Q else Q + 1

/-- fftw++.h:713-731 `fftwblock::Execute` with `T` threads, their transforms executed in the order `order` of the thread
indices.  (`T=1` uses the plan for all `M`.) -/
noncomputable def fftwblockExecute (pl : BPlan) (T : ℕ) (order : List ℕ) (src dst : Ptr) : Cmd Unit :=
  if T = 1 then pl.exec src dst
  else seqLoop order fun i =>
    BPlan.exec { pl with howmany := blockCount pl.howmany T i }
      (src + blockStart pl.howmany T i * pl.idist) (dst + blockStart pl.howmany T i * pl.odist)

/-- fftw++.h:116-118 `Dist(n,stride,dist)`. -/
def Dist (n stride dist : ℕ) : ℕ := if dist ≠ 0 then dist else if stride = 1 then n else 1

/-- fftw++.h:334-340 `Normalize(Complex *out)`: `doubles/2` words from `out` on are multiplied by `norm`. -/
noncomputable def normalizeAll (half : ℕ) (norm : ℂ) (out : Ptr) : Cmd Unit :=
  par (rng 0 half) fun i => do
    let v ← load (out + i)
    store (out + i) (v * norm)

/-- A `Mfft1d` object (fftw++.h:749-781) or, with `M=1` and unit strides, `fft1d` (fftw++.h:541-564): the plan and the member
`doubles`/2 of `fftw`.  The three constructors are the cases `istride=ostride=1, idist=odist=nx`; equal strides; general. -/
structure MFft where
  pl : BPlan
  half : ℕ

/-- fftw++.h:769-780 the general constructor of `Mfft1d` (the other two are instances; fft1d has `doubles=2*nx`, the value for
`M=1` and unit stride). -/
def MFft.new (nx : ℕ) (sign : ℤ) (M istride ostride idist odist : ℕ) : MFft :=
  let idist := Dist nx istride idist
  let odist := Dist nx ostride odist
  { pl := ⟨nx, sign, M, istride, ostride, idist, odist⟩
    half := max ((nx - 1) * istride + (M - 1) * idist + 1) ((nx - 1) * ostride + (M - 1) * odist + 1) }

/-- fftw++.h:308-311 `fft(in,out)` (in-place check aside). -/
noncomputable def MFft.fft (o : MFft) (src dst : Ptr) : Cmd Unit := o.pl.exec src dst

/-- fftw++.h:349-354 `fftNormalized(in,out)`; `norm=1/nx` (fftw++.h:233-237). -/
noncomputable def MFft.fftNormalized (o : MFft) (src dst : Ptr) : Cmd Unit := do
  o.pl.exec src dst
  normalizeAll o.half (1 / (o.pl.n : ℂ)) dst

end Fftwpp
