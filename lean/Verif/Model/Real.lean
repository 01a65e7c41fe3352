import Verif.Model.Herm

/-!
# Transforms of real data (fftPadReal, convolve.h:803-953, convolve.cc:5590-7625)

The data are doubles, two in each word of the memory.  The loops of this class access single doubles (`double *fr=(double *) f`), so
their bodies are run in the memory seen as an array of doubles: `Mem.split` is this view (a cell of the split memory is one double), `Mem.merge`
goes back, and `asDoubles c` runs `c` in it.  In particular the absence of data races (`par`) is at the level of single doubles.

The other conventions are those of `Model/FftPad.lean`.  `double *` pointers are pointers into the split memory; `dptr p` is
the cast `(double *) p`.
-/

namespace Fftwpp
open Finset

/-- The memory as an array of doubles: cell `i` of a buffer is double `i`. -/
noncomputable def Mem.split (m : Mem) : Mem where
  size b := 2 * m.size b
  val x := if x.off % 2 = 0 then ((m.val ⟨x.buf, x.off / 2⟩).re : ℂ) else ((m.val ⟨x.buf, x.off / 2⟩).im : ℂ)

/-- The memory of complex words made of an array of doubles. -/
noncomputable def Mem.merge (d : Mem) : Mem where
  size b := d.size b / 2
  val p := ⟨(d.val ⟨p.buf, 2 * p.off⟩).re, (d.val ⟨p.buf, 2 * p.off + 1⟩).re⟩

/-- Run a piece of code in the memory seen as an array of doubles. -/
noncomputable def asDoubles {α : Type} (c : Cmd α) : Cmd α := fun m =>
  match c m.split with
  | .ok (a, d) => .ok (a, d.merge)
  | .error e => .error e

/-- `PARALLELIF(cond, for …)` (parallel.h:40-62), the body accessing single doubles. -/
noncomputable def parD {ι : Type} (l : List ι) (body : ι → Body Unit) : Cmd Unit := asDoubles (par l body)

/-- A statement accessing single doubles. -/
noncomputable def runD (b : Body Unit) : Cmd Unit := asDoubles b.run

/-- The cast `(double *) p`. -/
def dptr (p : Ptr) : Ptr := ⟨p.buf, 2 * p.off⟩

/-- `*x`, `x` a `double *`. -/
def getD (x : Ptr) : Body ℝ := do
  let v ← load x
  pure v.re

/-- `*x=v`, `x` a `double *`. -/
noncomputable def setD (x : Ptr) (v : ℝ) : Body Unit := store x v

/-- `*x += v`, `x` a `double *`. -/
noncomputable def incD (x : Ptr) (v : ℝ) : Body Unit := do
  let u ← getD x
  setD x (u + v)

/-- `*p`, `p` a `Complex *`. -/
def getC (p : Ptr) : Body ℂ := do
  let x ← getD (dptr p)
  let y ← getD (dptr p + 1)
  pure ⟨x, y⟩

/-- `*p=v`, `p` a `Complex *`. -/
noncomputable def setC (p : Ptr) (v : ℂ) : Body Unit := do
  setD (dptr p) v.re
  setD (dptr p + 1) v.im

/-- Complex.h:276-280 `realProduct(x,y)`. -/
def realProduct (x y : ℂ) : ℝ := x.re * y.re + x.im * y.im

/-- A batched 1D complex plan with different input and output strides and unit distances (`mfft1d(n,sign,howmany,istride,ostride,1,1,in,out)`,
fftw++.h:847-856). -/
structure SPlan where
  n : ℕ
  sign : ℤ
  howmany : ℕ
  istride : ℕ
  ostride : ℕ
  inplace : Bool

/-- Arguments on which executing the plan is defined behaviour, as for `Plan`; in place, the two strides are the same. -/
def SPlan.Defined (pl : SPlan) (src dst : Ptr) (m : Mem) : Prop :=
  (∀ c < pl.howmany, ∀ j < pl.n, m.valid (src + (c + j * pl.istride)) ∧ m.valid (dst + (c + j * pl.ostride))) ∧
  (∀ c < pl.howmany, ∀ j < pl.n, ∀ c' < pl.howmany, ∀ j' < pl.n,
    c + j * pl.ostride = c' + j' * pl.ostride → c = c' ∧ j = j') ∧
  ((src = dst ∧ pl.istride = pl.ostride) ∨ ∀ c < pl.howmany, ∀ j < pl.n, ∀ c' < pl.howmany, ∀ j' < pl.n,
    (src + (c + j * pl.istride) : Ptr) ≠ dst + (c' + j' * pl.ostride))

open Classical in
/-- `plan->fft(in,out)` (fftw++.h:281-293 and `fftw_execute_dft`), as `Plan.exec`. -/
noncomputable def SPlan.exec (pl : SPlan) (src dst : Ptr) : Cmd Unit := fun m =>
  if pl.inplace ≠ decide (src = dst) then .error .exit
  else if pl.Defined src dst m then
    .ok ((), Mem.mk m.size (fun p =>
      if h : ∃ ck : ℕ × ℕ, ck.1 < pl.howmany ∧ ck.2 < pl.n ∧ p = dst + (ck.1 + ck.2 * pl.ostride) then
        ∑ j ∈ range pl.n, m.val (src + (h.choose.1 + j * pl.istride)) * w pl.n (pl.sign * j * h.choose.2)
      else m.val p))
  else .error .ub

/-- A plan that was never created. -/
def SPlan.null : SPlan := ⟨0, 1, 0, 0, 0, false⟩

/-- Data members of `fftPadReal` (convolve.h:804-821).  `rcfftm1/crfftm1` (used when `q=1` and `S=1`) are stored in `rcfftm/crfftm`; for `p>2`
the plans `ffth/iffth` (which have different strides then) are stored in `ffthp/iffthp`.  `V` is the private work array (`none` is `NULL`). -/
structure Re extends Fft where
  e : ℕ
  rcfftm : RPlan
  crfftm : RPlan
  ffth : Plan
  iffth : Plan
  rcfftp : RPlan
  crfftp : RPlan
  fftmp2 : Plan
  ifftmp2 : Plan
  fftp2 : Plan
  ifftp2 : Plan
  ffthp : SPlan
  iffthp : SPlan
  fftmr0 : SPlan
  ifftmr0 : SPlan
  V : Option Ptr

/-- convolve.h:831-834 `fftPadReal::Opt::valid`. -/
def fftPadRealValid (m p q n D S : ℕ) : Bool :=
  (n % 2 = 1 ∨ (p % 2 = 0 ∨ p ≤ 2)) ∧ (q % 2 = 1 ∨ m % 2 = 0) ∧
    (D = 1 ∨ (S = 1 ∧ ((D < (n - 1) / 2 ∧ D % 2 = 0) ∨ D = (n - 1) / 2)))

/-- convolve.cc:5590-5626 `fftPadReal::init`, case `q=1`; `D` keeps the value given to the constructor. -/
def Re.newExplicit (L : ℕ) (app : App) (C S m D p q : ℕ) (inplace : Bool) (J : Junk) : Re :=
  let e := m / 2 + 1
  { L := L, M := m * q, C := C, S := S, m := m, p := p, q := q, n := 1, R := 1, dr := 1, D := D, D0 := 1
    Cm := C * m, Sm := S * m, l := e, b := S * e, inplace := inplace, centered := false
    overwrite := false, A := app.A, B := app.B, route := if S = 1 then .explicit else .explicitMany, pad := .none
    fftm := .null, ifftm := .null, fftm0 := .null, ifftm0 := .null, fftp := .null, ifftp := .null
    Zetaqm := .null, ZetaqmS := .null, Zetaqp := .null
    e := e
    rcfftm := if S = 1 then ⟨m, 1, 1, 1, 1, 1, inplace, J.r2c⟩ else ⟨m, C, S, 1, S, 1, inplace, J.r2c⟩
    crfftm := if S = 1 then ⟨m, 1, 1, 1, 1, 1, inplace, J.c2r⟩ else ⟨m, C, S, 1, S, 1, inplace, J.c2r⟩
    ffth := .null, iffth := .null, rcfftp := .null, crfftp := .null, fftmp2 := .null, ifftmp2 := .null
    fftp2 := .null, ifftp2 := .null, ffthp := .null, iffthp := .null, fftmr0 := .null, ifftmr0 := .null, V := none }

/-- convolve.cc:5590-5594, 5627-5767 `fftPadReal::init`, case `q>1`.  `Vp` is what `ComplexAlign(outputSize())` returns (line 5645); the plans made with
`V` are in-place plans if `V=H=G`, that is if `inplace` and not `S>C` (for `S=1`, `C=1`). -/
noncomputable def Re.newHybrid (L : ℕ) (app : App) (C S m D p n q : ℕ) (inplace : Bool) (J : Junk) (Vp : Ptr) : Re :=
  let N := m * q
  let e := m / 2 + 1
  let P := if p = 2 then 1 else p
  let l := m * P
  let b := S * l
  let d := C * D * P
  let h := e - 1
  let p2 := ceilquotient p 2
  let D0 := if (n - 1) / 2 % D = 0 then D else (n - 1) / 2 % D
  { L := L, M := N, C := C, S := S, m := m, p := p, q := q, n := n
    R := ceilquotient (n + 1) 2, dr := D, D := D, D0 := D0
    Cm := C * m, Sm := S * m, l := l, b := b, inplace := inplace, centered := false
    overwrite := false, A := app.A, B := app.B
    route := if p = 1 then (if S = 1 then .one else .oneMany) else if p = 2 then (if S = 1 then .two else .twoMany)
      else (if S = 1 then .inner else .innerMany)
    pad := if p = 1 ∧ inplace = false ∧ L < m then (if S = 1 then .single else .many) else .none
    fftm := if S = 1 ∧ 2 < n then ⟨m, 1, d, 1, m, inplace⟩ else if 1 < S ∧ (n % 2 = 0 ∨ 2 < n) then ⟨m, 1, C, S, 1, inplace⟩ else .null
    ifftm := if S = 1 ∧ 2 < n then ⟨m, -1, d, 1, m, inplace⟩ else if 1 < S ∧ (n % 2 = 0 ∨ 2 < n) then ⟨m, -1, C, S, 1, inplace⟩ else .null
    fftm0 := if D0 ≠ D then ⟨m, 1, D0 * P, 1, m, inplace⟩ else .null
    ifftm0 := if D0 ≠ D then ⟨m, -1, D0 * P, 1, m, inplace⟩ else .null
    fftp := if 2 < p ∧ 2 < n then (if S = C then ⟨p, 1, C * m, S * m, 1, true⟩ else ⟨p, 1, C, S * m, 1, true⟩) else .null
    ifftp := if 2 < p ∧ 2 < n then (if S = C then ⟨p, -1, C * m, S * m, 1, true⟩ else ⟨p, -1, C, S * m, 1, true⟩) else .null
    Zetaqm := initZetaqm N q m
    ZetaqmS := if p = 2 then initZetaqmS N q m L else .null
    Zetaqp := if 2 < p then initZetaqp q n p else .null
    e := e
    rcfftm := if p ≤ 2 then ⟨m, C, S, 1, S, 1, inplace, J.r2c⟩ else .null
    crfftm := if p ≤ 2 then ⟨m, C, S, 1, S, 1, inplace, J.c2r⟩ else .null
    ffth := if p ≤ 2 ∧ q % 2 = 0 then ⟨h, 1, C, S, 1, inplace⟩ else .null
    iffth := if p ≤ 2 ∧ q % 2 = 0 then ⟨h, -1, C, S, 1, inplace⟩ else .null
    ffthp := if 2 < p ∧ q % 2 = 0 then ⟨h, 1, C, C, S, inplace ∧ ¬ C < S⟩ else .null
    iffthp := if 2 < p ∧ q % 2 = 0 then ⟨h, -1, C, S, C, inplace ∧ ¬ C < S⟩ else .null
    fftmr0 := if 2 < p ∧ 1 < S then ⟨m, 1, C, C, S, inplace ∧ ¬ C < S⟩ else .null
    ifftmr0 := if 2 < p ∧ 1 < S then ⟨m, -1, C, S, C, inplace ∧ ¬ C < S⟩ else .null
    V := if 2 < p ∧ 1 < S ∧ inplace ∧ C < S then some Vp else none
    rcfftp := if 2 < p then ⟨p, C * m, C * m, 1, C * m, 1, true, J.r2c⟩ else .null
    crfftp := if 2 < p then ⟨p, C * m, C * m, 1, C * m, 1, true, J.c2r⟩ else .null
    fftmp2 := if 2 < p ∧ S = 1 then ⟨m, 1, C * p2, 1, m, inplace⟩ else .null
    ifftmp2 := if 2 < p ∧ S = 1 then ⟨m, -1, C * p2, 1, m, inplace⟩ else .null
    fftp2 := if 2 < p ∧ n % 2 = 0 then (if S = C then ⟨p2, 1, C * m, S * m, 1, true⟩ else ⟨p2, 1, C, S * m, 1, true⟩) else .null
    ifftp2 := if 2 < p ∧ n % 2 = 0 then (if S = C then ⟨p2, -1, C * m, S * m, 1, true⟩ else ⟨p2, -1, C, S * m, 1, true⟩) else .null }

/-- The object built by `fftPadReal(L,M,app,C,S,m,D,inplace)` (convolve.h:871-879, fftBase constructor convolve.h:233-240, `checkParameters`
convolve.cc:464-475, `common` convolve.cc:477-493, `init` convolve.cc:5590-5775).  `S=0` means `S=C`; `Vp` is what the allocation of the private work
array, if there is one, returns. -/
noncomputable def Re.new (L M : ℕ) (app : App) (C S0 m D : ℕ) (inplace : Bool) (J : Junk) (Vp : Ptr) : Except Err Re :=
  let S := if S0 = 0 then C else S0
  if M < L then .error .exit
  else if S < C then .error .exit
  else if m = 0 ∨ L = 0 then .error .ub   -- division by zero in `parameters`
  else
    let (p, n, q) := parameters L M m false
    if 1 < q ∧ fftPadRealValid m p q n D S = false then .error .exit
    else if q * m < M then .error .exit
    else if q = 1 then .ok (Re.newExplicit L app C S m D p q inplace J)
    else if D = 0 then .error .ub   -- accepted by `valid` if S=1 and n ≤ 2, then division by zero in `(n-1)/2 % D`
    else .ok (Re.newHybrid L app C S m D p n q inplace J Vp)

namespace Re
variable (o : Re)
local notation "conj" => starRingEnd ℂ

/-- convolve.h:923-926 `outputSize()`. -/
def outputSize : ℕ := if o.n = 2 then (if 2 < o.p then (o.p / 2 + 1) * o.m * o.S else o.e * o.S) else o.b * o.D

/-- convolve.h:443-445 `workSizeW()`. -/
def workSizeW : ℕ := if o.inplace then 0 else o.outputSize

/-- convolve.h:936-938 `increment(r)`. -/
def increment (r : ℕ) : ℕ := if 1 < r then o.D else if r = 1 then o.D0 else 1

/-- convolve.h:941-945 `blocksize(r)`. -/
def blocksize (r : ℕ) : ℕ :=
  if r = 0 then (if 2 < o.p then (if o.p % 2 = 1 then (o.p / 2 + 1) * o.m else o.p / 2 * o.m + o.e - 1) else o.e)
  else if 2 * r = o.n then (if 2 < o.p then o.p / 2 * o.m else o.e - 1)
  else o.l

/-- convolve.h:948-951 `noutputs(r)`. -/
def noutputs (r : ℕ) : ℕ :=
  if r = 0 then (if 2 < o.p then (if o.p % 2 = 1 then (o.p / 2 + 1) * o.m else o.p / 2 * o.m + o.e - 1) else o.e)
  else o.blocksize r * (if 2 * r = o.n then 1 else if r = 1 then o.D0 else o.D)

/-- The residue loop `for(r=0; r < R; r += increment(r))` (tests/hybridr.cc:75), with fuel: the list of visited `r`. -/
def visited : ℕ → ℕ → List ℕ
  | 0, _ => []
  | fuel + 1, r => if r < o.R then r :: visited fuel (r + o.increment r) else []

/-- convolve.cc:5836-5850 `padSingle`. -/
noncomputable def padSingle (W : Ptr) : Cmd Unit :=
  let m := if o.q = 2 then o.m / 2 else o.m
  let mp := m * o.p
  seqLoop (rng 0 o.D) fun d =>
    let F := W + m * d
    par (rng o.L mp) fun s => Fft.zero1 (F + s)

/-- convolve.cc:5852-5865 `padMany`. -/
noncomputable def padMany (W : Ptr) : Cmd Unit :=
  let m := if o.q = 2 then o.m / 2 else o.m
  let mp := m * o.p
  par (rng2 o.L mp 0 o.C) fun (s, c) => Fft.zero1 (W + o.S * s + c)

/-- convolve.h:249-252 `pad(W)`. -/
noncomputable def padW (W? : Option Ptr) : Cmd Unit :=
  match W? with
  | none => pure ()
  | some W =>
    match o.pad with
    | .none => pure ()
    | .single => o.padSingle W
    | .many => o.padMany W

/-- `y[i]=x[i]`, the body of the loops copying doubles. -/
noncomputable def copyD (y x : Ptr) : Body Unit := do
  let v ← getD x
  setD y v

/-- convolve.cc:5867-5884 `forwardExplicit`. -/
noncomputable def forwardExplicit (f F : Ptr) (W? : Option Ptr) : Cmd Unit := do
  let W := W?.getD F
  let Wr := dptr W
  let fr := dptr f
  parD (rng 0 o.L) fun s => copyD (Wr + s) (fr + s)
  parD (rng o.L o.m) fun s => setD (Wr + s) 0
  o.rcfftm.r2c W F

/-- convolve.cc:5886-5910 `forwardExplicitMany`. -/
noncomputable def forwardExplicitMany (f F : Ptr) (W? : Option Ptr) : Cmd Unit := do
  let W := W?.getD F
  let Wr := dptr W
  let fr := dptr f
  parD (rng2 0 o.L 0 o.C) fun (s, c) => copyD (Wr + o.S * s + c) (fr + o.S * s + c)
  parD (rng2 o.L o.m 0 o.C) fun (s, c) => setD (Wr + o.S * s + c) 0
  o.rcfftm.r2c W F

/-- convolve.cc:5912-5991 `forward1`.  (`Wr += L`, executed if `L` is even, is `W+L/2` as a pointer to complex words.) -/
noncomputable def forward1 (f F : Ptr) (r0 : ℕ) (W? : Option Ptr) : Cmd Unit :=
  let W := W?.getD F
  let fr := dptr f
  if r0 = 0 then
    let repad := o.inplace ∨ o.q = 2 ∨ o.L % 2 = 1
    let V := if repad then W else W + o.L / 2
    let Wr := dptr V
    do
    parD (rng 0 o.L) fun s => copyD (Wr + s) (fr + s)
    (if repad then parD (rng o.L o.m) fun s => setD (Wr + s) 0 else pure ())
    o.rcfftm.r2c V F
  else if 2 * r0 < o.q then
    let remainder := r0 = 1 ∧ o.D0 ≠ o.D
    let Dstop := if remainder then o.D0 else o.D
    do
    seqLoop (rng 0 Dstop) fun d => do
      let r := r0 + d
      let U := W + o.m * d
      runD do
        let v ← getD fr
        setC U v
      parD (rng 1 o.L) fun s => do
        let z ← o.Zetaqm.get (o.m * r + s)
        let v ← getD (fr + s)
        setC (U + s) (z * v)
      (if o.inplace then parD (rng o.L o.m) fun s => setC (U + s) 0 else pure ())
    (if remainder then o.fftm0 else o.fftm).exec W F
  else
    let h := o.e - 1
    let frh := fr + h
    let Lmh := if o.L ≤ h then 0 else o.L - h
    let stop := if o.L ≤ h then o.L else h
    do
    (if o.L ≤ h then runD do
       let v ← getD fr
       setC W v
     else runD do
       let x ← getD fr
       let y ← getD frh
       setC W ⟨x, y⟩)
    parD (rng 1 Lmh) fun s => do
      let z ← o.Zetaqm.get (o.m * r0 + s)
      let x ← getD (fr + s)
      let y ← getD (frh + s)
      setC (W + s) (z * ⟨x, y⟩)
    parD (rng Lmh stop) fun s => do
      let z ← o.Zetaqm.get (o.m * r0 + s)
      let v ← getD (fr + s)
      setC (W + s) (z * v)
    (if o.inplace then parD (rng o.L h) fun s => setC (W + s) 0 else pure ())
    o.ffth.exec W F

/-- convolve.cc:5993-6105 `forward1Many`. -/
noncomputable def forward1Many (f F : Ptr) (r : ℕ) (W? : Option Ptr) : Cmd Unit :=
  let W := W?.getD F
  let fr := dptr f
  if r = 0 then
    let repad := o.inplace ∨ o.q = 2 ∨ o.L % 2 = 1 ∨ o.C < o.S
    let V := if repad then W else W + o.L / 2 * o.S
    let Wr := dptr V
    do
    parD (rng2 0 o.L 0 o.C) fun (s, c) => copyD (Wr + o.S * s + c) (fr + o.S * s + c)
    (if repad then parD (rng2 o.L o.m 0 o.C) fun (s, c) => setD (Wr + o.S * s + c) 0 else pure ())
    o.rcfftm.r2c V F
  else if 2 * r < o.q then do
    parD (rng 0 o.C) fun c => do
      let v ← getD (fr + c)
      setC (W + c) v
    parD (rng2 1 o.L 0 o.C) fun (s, c) => do
      let z ← o.Zetaqm.get (o.m * r + s)
      let v ← getD (fr + o.S * s + c)
      setC (W + o.S * s + c) (z * v)
    (if o.inplace then parD (rng2 o.L o.m 0 o.C) fun (s, c) => setC (W + o.S * s + c) 0 else pure ())
    o.fftm.exec W F
  else
    let h := o.e - 1
    let frh := fr + o.S * h
    let Lmh := if o.L ≤ h then 0 else o.L - h
    let stop := if o.L ≤ h then o.L else h
    do
    (if o.L ≤ h then parD (rng 0 o.C) fun c => do
       let v ← getD (fr + c)
       setC (W + c) v
     else parD (rng 0 o.C) fun c => do
       let x ← getD (fr + c)
       let y ← getD (frh + c)
       setC (W + c) ⟨x, y⟩)
    parD (rng2 1 Lmh 0 o.C) fun (s, c) => do
      let z ← o.Zetaqm.get (o.m * r + s)
      let x ← getD (fr + o.S * s + c)
      let y ← getD (frh + o.S * s + c)
      setC (W + o.S * s + c) (z * ⟨x, y⟩)
    parD (rng2 Lmh stop 0 o.C) fun (s, c) => do
      let z ← o.Zetaqm.get (o.m * r + s)
      let v ← getD (fr + o.S * s + c)
      setC (W + o.S * s + c) (z * v)
    (if o.inplace then parD (rng2 o.L h 0 o.C) fun (s, c) => setC (W + o.S * s + c) 0 else pure ())
    o.ffth.exec W F

/-- convolve.cc:6107-6183 `forward2`. -/
noncomputable def forward2 (f F : Ptr) (r0 : ℕ) (W? : Option Ptr) : Cmd Unit :=
  let W := W?.getD F
  let fr := dptr f
  let frm := fr + o.m
  let Lm := o.L - o.m
  if r0 = 0 then do
    let Wr := dptr W
    parD (rng 0 Lm) fun s => do
      let x ← getD (fr + s)
      let y ← getD (frm + s)
      setD (Wr + s) (x + y)
    parD (rng Lm o.m) fun s => copyD (Wr + s) (fr + s)
    o.rcfftm.r2c W F
  else if 2 * r0 < o.q then
    let remainder := r0 = 1 ∧ o.D0 ≠ o.D
    let Dstop := if remainder then o.D0 else o.D
    do
    seqLoop (rng 0 Dstop) fun d => do
      let r := r0 + d
      let U := W + o.m * d
      runD do
        let z2 ← o.ZetaqmS.get (Lm * r + o.m)
        let x ← getD fr
        let y ← getD frm
        setC U (x + z2 * y)
      parD (rng 1 Lm) fun s => do
        let z ← o.Zetaqm.get (o.m * r + s)
        let z2 ← o.ZetaqmS.get (Lm * r + o.m + s)
        let x ← getD (fr + s)
        let y ← getD (frm + s)
        setC (U + s) (z * x + z2 * y)
      parD (rng Lm o.m) fun s => do
        let z ← o.Zetaqm.get (o.m * r + s)
        let x ← getD (fr + s)
        setC (U + s) (z * x)
    (if remainder then o.fftm0 else o.fftm).exec W F
  else
    let h := o.e - 1
    let frh := fr + h
    let frhm := frh + o.m
    let mh := o.m + h
    let stop1 := if mh < o.L then o.L - mh else 1
    let stop2 := if mh < o.L then h else o.L - o.m
    do
    (if mh < o.L then runD do
       let x ← getD fr
       let xm ← getD frm
       let y ← getD frh
       let ym ← getD frhm
       setC W ⟨x - xm, y - ym⟩
     else runD do
       let x ← getD fr
       let xm ← getD frm
       let y ← getD frh
       setC W ⟨x - xm, y⟩)
    parD (rng 1 stop1) fun s => do
      let z ← o.Zetaqm.get (o.m * r0 + s)
      let x ← getD (fr + s)
      let xm ← getD (frm + s)
      let y ← getD (frh + s)
      let ym ← getD (frhm + s)
      setC (W + s) (z * ⟨x - xm, y - ym⟩)
    parD (rng stop1 stop2) fun s => do
      let z ← o.Zetaqm.get (o.m * r0 + s)
      let x ← getD (fr + s)
      let xm ← getD (frm + s)
      let y ← getD (frh + s)
      setC (W + s) (z * ⟨x - xm, y⟩)
    parD (rng stop2 h) fun s => do
      let z ← o.Zetaqm.get (o.m * r0 + s)
      let x ← getD (fr + s)
      let y ← getD (frh + s)
      setC (W + s) (z * ⟨x, y⟩)
    o.ffth.exec W F

/-- convolve.cc:6185-6307 `forward2Many`.  (The serial loop over `c` at 6215-6216 is also a `par`.) -/
noncomputable def forward2Many (f F : Ptr) (r : ℕ) (W? : Option Ptr) : Cmd Unit :=
  let W := W?.getD F
  let fr := dptr f
  let frm := fr + o.Sm
  let Lm := o.L - o.m
  if r = 0 then do
    let Wr := dptr W
    parD (rng2 0 Lm 0 o.C) fun (s, c) => do
      let x ← getD (fr + o.S * s + c)
      let y ← getD (frm + o.S * s + c)
      setD (Wr + o.S * s + c) (x + y)
    parD (rng2 Lm o.m 0 o.C) fun (s, c) => copyD (Wr + o.S * s + c) (fr + o.S * s + c)
    o.rcfftm.r2c W F
  else if 2 * r < o.q then do
    parD (rng 0 o.C) fun c => do
      let z2 ← o.ZetaqmS.get (Lm * r + o.m)
      let x ← getD (fr + c)
      let y ← getD (frm + c)
      setC (W + c) (x + z2 * y)
    parD (rng2 1 Lm 0 o.C) fun (s, c) => do
      let z ← o.Zetaqm.get (o.m * r + s)
      let z2 ← o.ZetaqmS.get (Lm * r + o.m + s)
      let x ← getD (fr + o.S * s + c)
      let y ← getD (frm + o.S * s + c)
      setC (W + o.S * s + c) (z * x + z2 * y)
    parD (rng2 Lm o.m 0 o.C) fun (s, c) => do
      let z ← o.Zetaqm.get (o.m * r + s)
      let x ← getD (fr + o.S * s + c)
      setC (W + o.S * s + c) (z * x)
    o.fftm.exec W F
  else
    let h := o.e - 1
    let frh := fr + o.S * h
    let frhm := frh + o.Sm
    let mh := o.m + h
    let stop1 := if mh < o.L then o.L - mh else 1
    let stop2 := if mh < o.L then h else o.L - o.m
    do
    (if mh < o.L then parD (rng 0 o.C) fun c => do
       let x ← getD (fr + c)
       let xm ← getD (frm + c)
       let y ← getD (frh + c)
       let ym ← getD (frhm + c)
       setC (W + c) ⟨x - xm, y - ym⟩
     else parD (rng 0 o.C) fun c => do
       let x ← getD (fr + c)
       let xm ← getD (frm + c)
       let y ← getD (frh + c)
       setC (W + c) ⟨x - xm, y⟩)
    parD (rng2 1 stop1 0 o.C) fun (s, c) => do
      let z ← o.Zetaqm.get (o.m * r + s)
      let x ← getD (fr + o.S * s + c)
      let xm ← getD (frm + o.S * s + c)
      let y ← getD (frh + o.S * s + c)
      let ym ← getD (frhm + o.S * s + c)
      setC (W + o.S * s + c) (z * ⟨x - xm, y - ym⟩)
    parD (rng2 stop1 stop2 0 o.C) fun (s, c) => do
      let z ← o.Zetaqm.get (o.m * r + s)
      let x ← getD (fr + o.S * s + c)
      let xm ← getD (frm + o.S * s + c)
      let y ← getD (frh + o.S * s + c)
      setC (W + o.S * s + c) (z * ⟨x - xm, y⟩)
    parD (rng2 stop2 h 0 o.C) fun (s, c) => do
      let z ← o.Zetaqm.get (o.m * r + s)
      let x ← getD (fr + o.S * s + c)
      let y ← getD (frh + o.S * s + c)
      setC (W + o.S * s + c) (z * ⟨x, y⟩)
    o.ffth.exec W F

/-- convolve.cc:6743-6756 `backwardExplicit`. -/
noncomputable def backwardExplicit (F f : Ptr) (W? : Option Ptr) : Cmd Unit := do
  let W := W?.getD F
  o.crfftm.c2r F W
  let fr := dptr f
  let Wr := dptr W
  parD (rng 0 o.L) fun s => copyD (fr + s) (Wr + s)

/-- convolve.cc:6758-6775 `backwardExplicitMany`. -/
noncomputable def backwardExplicitMany (F f : Ptr) (W? : Option Ptr) : Cmd Unit := do
  let W := W?.getD F
  o.crfftm.c2r F W
  let fr := dptr f
  let Wr := dptr W
  parD (rng2 0 o.L 0 o.C) fun (s, c) => copyD (fr + o.S * s + c) (Wr + o.S * s + c)

/-- convolve.cc:6777-6841 `backward1`. -/
noncomputable def backward1 (F f : Ptr) (r0 : ℕ) (W? : Option Ptr) : Cmd Unit :=
  let W := W?.getD F
  let fr := dptr f
  let Wr := dptr W
  if r0 = 0 then do
    o.crfftm.c2r F W
    parD (rng 0 o.L) fun s => copyD (fr + s) (Wr + s)
  else if 2 * r0 < o.q then
    let remainder := r0 = 1 ∧ o.D0 ≠ o.D
    let Dstop := if remainder then o.D0 else o.D
    do
    (if remainder then o.ifftm0 else o.ifftm).exec F W
    seqLoop (rng 0 Dstop) fun d => do
      let r := r0 + d
      let U := W + o.m * d
      runD do
        let v ← getC U
        incD fr (2 * v.re)
      parD (rng 1 o.L) fun s => do
        let z ← o.Zetaqm.get (o.m * r + s)
        let v ← getC (U + s)
        incD (fr + s) (2 * realProduct z v)
  else
    let h := o.e - 1
    let frh := fr + h
    let Lmh := if o.L ≤ h then 1 else o.L - h
    let stop := if o.L ≤ h then o.L else h
    do
    o.iffth.exec F W
    (if o.L ≤ h then runD do
       let z ← getC W
       incD fr (2 * z.re)
     else runD do
       let z ← getC W
       incD fr (2 * z.re)
       incD frh (2 * z.im))
    parD (rng 1 Lmh) fun s => do
      let zeta ← o.Zetaqm.get (o.m * r0 + s)
      let v ← getC (W + s)
      let z := 2 * conj zeta * v
      incD (fr + s) z.re
      incD (frh + s) z.im
    parD (rng Lmh stop) fun s => do
      let zeta ← o.Zetaqm.get (o.m * r0 + s)
      let v ← getC (W + s)
      incD (fr + s) (2 * realProduct zeta v)

/-- convolve.cc:6843-6929 `backward1Many`. -/
noncomputable def backward1Many (F f : Ptr) (r : ℕ) (W? : Option Ptr) : Cmd Unit :=
  let W := W?.getD F
  let fr := dptr f
  let Wr := dptr W
  if r = 0 then do
    o.crfftm.c2r F W
    parD (rng2 0 o.L 0 o.C) fun (s, c) => copyD (fr + o.S * s + c) (Wr + o.S * s + c)
  else if 2 * r < o.q then do
    o.ifftm.exec F W
    parD (rng 0 o.C) fun c => do
      let v ← getC (W + c)
      incD (fr + c) (2 * v.re)
    parD (rng2 1 o.L 0 o.C) fun (s, c) => do
      let z ← o.Zetaqm.get (o.m * r + s)
      let v ← getC (W + o.S * s + c)
      incD (fr + o.S * s + c) (realProduct (2 * z) v)
  else
    let h := o.e - 1
    let frh := fr + o.S * h
    let Lmh := if o.L ≤ h then 1 else o.L - h
    let stop := if o.L ≤ h then o.L else h
    do
    o.iffth.exec F W
    (if o.L ≤ h then parD (rng 0 o.C) fun c => do
       let z ← getC (W + c)
       incD (fr + c) (2 * z.re)
     else parD (rng 0 o.C) fun c => do
       let z ← getC (W + c)
       incD (fr + c) (2 * z.re)
       incD (frh + c) (2 * z.im))
    parD (rng2 1 Lmh 0 o.C) fun (s, c) => do
      let zeta ← o.Zetaqm.get (o.m * r + s)
      let v ← getC (W + o.S * s + c)
      let z := 2 * conj zeta * v
      incD (fr + o.S * s + c) z.re
      incD (frh + o.S * s + c) z.im
    parD (rng2 Lmh stop 0 o.C) fun (s, c) => do
      let zeta ← o.Zetaqm.get (o.m * r + s)
      let v ← getC (W + o.S * s + c)
      incD (fr + o.S * s + c) (realProduct (2 * zeta) v)

/-- convolve.cc:6931-7037 `backward2`.  (`Wm=Wr-m`, `Um=U-m`.) -/
noncomputable def backward2 (F f : Ptr) (r0 : ℕ) (W? : Option Ptr) : Cmd Unit :=
  let W := W?.getD F
  let fr := dptr f
  let Wr := dptr W
  let Lm := o.L - o.m
  if r0 = 0 then do
    o.crfftm.c2r F W
    parD (rng 0 o.m) fun s => copyD (fr + s) (Wr + s)
    parD (rng o.m o.L) fun s => copyD (fr + s) (Wr - o.m + s)
  else if 2 * r0 < o.q then
    let remainder := r0 = 1 ∧ o.D0 ≠ o.D
    let Dstop := if remainder then o.D0 else o.D
    do
    (if remainder then o.ifftm0 else o.ifftm).exec F W
    seqLoop (rng 0 Dstop) fun d => do
      let r := r0 + d
      let U := W + o.m * d
      runD do
        let v ← getC U
        incD fr (2 * v.re)
      parD (rng 1 o.m) fun s => do
        let z ← o.Zetaqm.get (o.m * r + s)
        let v ← getC (U + s)
        incD (fr + s) (2 * realProduct z v)
      parD (rng o.m o.L) fun s => do
        let z ← o.ZetaqmS.get (Lm * r + s)
        let v ← getC (U - o.m + s)
        incD (fr + s) (2 * realProduct z v)
  else
    let h := o.e - 1
    let mh := o.m + h
    let frh := fr + h
    let frm := fr + o.m
    let frhm := frh + o.m
    let stop1 := if mh < o.L then o.L - mh else 1
    let stop2 := if mh < o.L then h else o.L - o.m
    do
    o.iffth.exec F W
    runD do
      let v ← getC W
      let z0 := 2 * v
      incD fr z0.re
      incD frm (-z0.re)
      incD frh z0.im
      if mh < o.L then incD frhm (-z0.im) else pure ()
    parD (rng 1 stop1) fun s => do
      let zeta ← o.Zetaqm.get (o.m * r0 + s)
      let v ← getC (W + s)
      let z := 2 * conj zeta * v
      incD (fr + s) z.re
      incD (frh + s) z.im
      incD (frm + s) (-z.re)
      incD (frhm + s) (-z.im)
    parD (rng stop1 stop2) fun s => do
      let zeta ← o.Zetaqm.get (o.m * r0 + s)
      let v ← getC (W + s)
      let z := 2 * conj zeta * v
      incD (fr + s) z.re
      incD (frh + s) z.im
      incD (frm + s) (-z.re)
    parD (rng stop2 h) fun s => do
      let zeta ← o.Zetaqm.get (o.m * r0 + s)
      let v ← getC (W + s)
      let z := 2 * conj zeta * v
      incD (fr + s) z.re
      incD (frh + s) z.im

/-- convolve.cc:7039-7186 `backward2Many`.  (The serial loops over `c` are also `par`s.) -/
noncomputable def backward2Many (F f : Ptr) (r : ℕ) (W? : Option Ptr) : Cmd Unit :=
  let W := W?.getD F
  let fr := dptr f
  let Wr := dptr W
  let Lm := o.L - o.m
  if r = 0 then do
    o.crfftm.c2r F W
    parD (rng2 0 o.m 0 o.C) fun (s, c) => copyD (fr + o.S * s + c) (Wr + o.S * s + c)
    parD (rng2 o.m o.L 0 o.C) fun (s, c) => copyD (fr + o.S * s + c) (Wr - o.Sm + o.S * s + c)
  else if 2 * r < o.q then do
    o.ifftm.exec F W
    parD (rng 0 o.C) fun c => do
      let v ← getC (W + c)
      incD (fr + c) (2 * v.re)
    parD (rng2 1 o.m 0 o.C) fun (s, c) => do
      let z ← o.Zetaqm.get (o.m * r + s)
      let v ← getC (W + o.S * s + c)
      incD (fr + o.S * s + c) (realProduct (2 * z) v)
    parD (rng2 o.m o.L 0 o.C) fun (s, c) => do
      let z ← o.ZetaqmS.get (Lm * r + s)
      let v ← getC (W - o.Sm + o.S * s + c)
      incD (fr + o.S * s + c) (realProduct (2 * z) v)
  else
    let h := o.e - 1
    let mh := o.m + h
    let frh := fr + o.S * h
    let frm := fr + o.Sm
    let frhm := frh + o.Sm
    let stop1 := if mh < o.L then o.L - mh else 1
    let stop2 := if mh < o.L then h else o.L - o.m
    do
    o.iffth.exec F W
    (if mh < o.L then parD (rng 0 o.C) fun c => do
       let v ← getC (W + c)
       let z0 := 2 * v
       incD (fr + c) z0.re
       incD (frm + c) (-z0.re)
       incD (frh + c) z0.im
       incD (frhm + c) (-z0.im)
     else parD (rng 0 o.C) fun c => do
       let v ← getC (W + c)
       let z0 := 2 * v
       incD (fr + c) z0.re
       incD (frm + c) (-z0.re)
       incD (frh + c) z0.im)
    parD (rng2 1 stop1 0 o.C) fun (s, c) => do
      let zeta ← o.Zetaqm.get (o.m * r + s)
      let v ← getC (W + o.S * s + c)
      let z := 2 * conj zeta * v
      incD (fr + o.S * s + c) z.re
      incD (frh + o.S * s + c) z.im
      incD (frm + o.S * s + c) (-z.re)
      incD (frhm + o.S * s + c) (-z.im)
    parD (rng2 stop1 stop2 0 o.C) fun (s, c) => do
      let zeta ← o.Zetaqm.get (o.m * r + s)
      let v ← getC (W + o.S * s + c)
      let z := 2 * conj zeta * v
      incD (fr + o.S * s + c) z.re
      incD (frh + o.S * s + c) z.im
      incD (frm + o.S * s + c) (-z.re)
    parD (rng2 stop2 h 0 o.C) fun (s, c) => do
      let zeta ← o.Zetaqm.get (o.m * r + s)
      let v ← getC (W + o.S * s + c)
      let z := 2 * conj zeta * v
      incD (fr + o.S * s + c) z.re
      incD (frh + o.S * s + c) z.im

/-- convolve.cc:6309-6376 `forwardInner`, case `r0=0`. -/
noncomputable def forwardInnerZero (f F0 W : Ptr) : Cmd Unit := do
  let fr := dptr f
  let Wr := dptr W
  let pm1 := o.p - 1
  let mpm1 := o.m * pm1
  let stop := o.L - mpm1
  let p2 := ceilquotient o.p 2
  let p2m := p2 * o.m
  parD (rng2 0 pm1 0 o.m) fun (t, s) => copyD (Wr + o.m * t + s) (fr + o.m * t + s)
  parD (rng 0 stop) fun s => copyD (Wr + mpm1 + s) (fr + mpm1 + s)
  parD (rng stop o.m) fun s => setD (Wr + mpm1 + s) 0
  o.rcfftp.r2c W W
  par (rng2 1 p2 1 o.m) fun (t, s) => do
    let R := o.n * t
    let v ← load (W + o.m * t + s)
    let z ← o.Zetaqm.get (o.m * R + s)
    store (W + o.m * t + s) (v * conj z)
  o.fftmp2.exec W F0
  if o.p = 2 * p2 then
    let h := o.e - 1
    let Ft := W + p2m
    let Wt := Wr + (2 * p2m : ℕ)
    let Wth := Wt + (2 * h : ℕ)
    do
    runD do
      let x ← getD Wt
      let y ← getD Wth
      setC Ft ⟨x, y⟩
    parD (rng 1 h) fun s => do
      let z ← o.Zetaqm.get (o.m * o.n * p2 + s)
      let s2 := 2 * s
      let x ← getD (Wt + s2)
      let y ← getD (Wth + s2)
      setC (Ft + s) (z * ⟨x, y⟩)
    o.ffthp.exec Ft (F0 + p2m)
  else pure ()

/-- convolve.cc:6381-6423, the body of the loop over `d` in `forwardInner`. -/
noncomputable def forwardInnerOne (f F : Ptr) (r : ℕ) : Cmd Unit := do
  let fr := dptr f
  let pm1 := o.p - 1
  let mpm1 := o.m * pm1
  let stop := o.L - mpm1
  parD (rng 0 o.m) fun s => do
    let v ← getD (fr + s)
    setC (F + s) v
  parD (rng2 1 pm1 0 o.m) fun (t, s) => do
    let Zeta ← o.Zetaqp.get (pm1 * r + t)
    let v ← getD (fr + o.m * t + s)
    setC (F + o.m * t + s) (Zeta * v)
  parD (rng 0 stop) fun s => do
    let Zeta ← o.Zetaqp.get (pm1 * r + pm1)
    let v ← getD (fr + mpm1 + s)
    setC (F + mpm1 + s) (Zeta * v)
  parD (rng stop o.m) fun s => setC (F + mpm1 + s) 0
  o.fftp.exec F F
  par (rng2 0 o.p 1 o.m) fun (t, s) => do
    let R := o.n * t + r
    let v ← load (F + o.m * t + s)
    let z ← o.Zetaqm.get (o.m * R + s)
    store (F + o.m * t + s) (v * z)

/-- convolve.cc:6426-6485 `forwardInner`, case `2*r0=n`. -/
noncomputable def forwardInnerHalf (f F0 W : Ptr) (r0 : ℕ) : Cmd Unit := do
  let fr := dptr f
  let pm1 := o.p - 1
  let mpm1 := o.m * pm1
  let stop := o.L - mpm1
  let p2 := ceilquotient o.p 2
  let p2m := p2 * o.m
  let p2m1 := p2 - 1
  let mp2m1 := o.m * p2m1
  parD (rng 0 o.m) fun s => do
    let x ← getD (fr + s)
    let y ← getD (fr + p2m + s)
    setC (W + s) ⟨x, y⟩
  parD (rng2 1 p2m1 0 o.m) fun (t, s) => do
    let Zeta ← o.Zetaqp.get (pm1 * r0 + t)
    let x ← getD (fr + o.m * t + s)
    let y ← getD (fr + o.m * t + p2m + s)
    setC (W + o.m * t + s) (Zeta * ⟨x, y⟩)
  parD (rng 0 stop) fun s => do
    let Zeta ← o.Zetaqp.get (pm1 * r0 + p2m1)
    let x ← getD (fr + mp2m1 + s)
    let y ← getD (fr + mp2m1 + p2m + s)
    setC (W + mp2m1 + s) (Zeta * ⟨x, y⟩)
  parD (rng stop o.m) fun s => do
    let Zeta ← o.Zetaqp.get (pm1 * r0 + p2m1)
    let x ← getD (fr + mp2m1 + s)
    setC (W + mp2m1 + s) (Zeta * x)
  o.fftp2.exec W W
  par (rng2 0 p2 1 o.m) fun (t, s) => do
    let v ← load (W + o.m * t + s)
    let z ← o.Zetaqm.get (o.m * (2 * o.n * t + r0) + s)
    store (W + o.m * t + s) (v * z)
  o.fftmp2.exec W F0

/-- convolve.cc:6309-6486 `forwardInner`. -/
noncomputable def forwardInner (f F0 : Ptr) (r0 : ℕ) (W? : Option Ptr) : Cmd Unit :=
  let W := W?.getD F0
  let n2 := ceilquotient o.n 2
  if r0 = 0 then o.forwardInnerZero f F0 W
  else if r0 < n2 then
    let remainder := r0 = 1 ∧ o.D0 ≠ o.D
    let Dstop := if remainder then o.D0 else o.D
    do
    seqLoop (rng 0 Dstop) fun d => o.forwardInnerOne f (W + o.b * d) (r0 + d)
    (if remainder then o.fftm0 else o.fftm).exec W F0
  else o.forwardInnerHalf f F0 W r0

/-- convolve.cc:6490, 7375: the work array of the `InnerMany` routines. -/
def workMany (F : Ptr) (r : ℕ) (W? : Option Ptr) : Ptr :=
  W?.getD (if r = 0 then o.V.getD F else F)

/-- convolve.cc:6500-6580 `forwardInnerMany`, case `r=0`. -/
noncomputable def forwardInnerManyZero (f F W : Ptr) : Cmd Unit := do
  let fr := dptr f
  let Wr := dptr W
  let pm1 := o.p - 1
  let stop := o.L - o.m * pm1
  let Smpm1 := o.Sm * pm1
  let p2 := ceilquotient o.p 2
  parD (rng3 0 pm1 0 o.m 0 o.C) fun (t, s, c) => copyD (Wr + o.Cm * t + o.C * s + c) (fr + o.Sm * t + o.S * s + c)
  parD (rng2 0 stop 0 o.C) fun (s, c) => copyD (Wr + o.Cm * pm1 + o.C * s + c) (fr + Smpm1 + o.S * s + c)
  parD (rng2 stop o.m 0 o.C) fun (s, c) => setD (Wr + o.Cm * pm1 + o.C * s + c) 0
  o.rcfftp.r2c W W
  par (rng3 1 p2 1 o.m 0 o.C) fun (t, s, c) => do
    let R := o.n * t
    let z ← o.Zetaqm.get (o.m * R + s)
    let zeta := conj z
    let v ← load (W + o.Cm * t + o.C * s + c)
    store (W + o.Cm * t + o.C * s + c) (v * zeta)
  seqLoop (rng 0 p2) fun t => o.fftmr0.exec (W + o.Cm * t) (F + o.Sm * t)
  if o.p = 2 * p2 then
    let h := o.e - 1
    let p2Cm := p2 * o.Cm
    let Ft := W + p2Cm
    let Wt := Wr + (2 * p2Cm : ℕ)
    let Wth := Wt + (2 * o.C * h : ℕ)
    do
    parD (rng 0 o.C) fun c => do
      let c2 := 2 * c
      let x ← getD (Wt + c2)
      let y ← getD (Wth + c2)
      setC (Ft + c) ⟨x, y⟩
    parD (rng2 1 h 0 o.C) fun (s, c) => do
      let zeta ← o.Zetaqm.get (o.m * o.n * p2 + s)
      let c2 := 2 * c
      let x ← getD (Wt + (2 * o.C * s : ℕ) + c2)
      let y ← getD (Wth + (2 * o.C * s : ℕ) + c2)
      setC (Ft + o.C * s + c) (zeta * ⟨x, y⟩)
    o.ffthp.exec Ft (F + p2 * o.Sm)
  else pure ()

/-- convolve.cc:6628-6632, 6715-6719 and the inverse 7483-7487, 7549-7553: the transforms over the blocks in the `InnerMany` routines. -/
noncomputable def fftpMany (pl : Plan) (W : Ptr) : Cmd Unit :=
  if o.S = o.C then pl.exec W W
  else seqLoop (rng 0 o.m) fun s => pl.exec (W + o.S * s) (W + o.S * s)

/-- convolve.cc:6582-6650 `forwardInnerMany`, case `0<r<n2`. -/
noncomputable def forwardInnerManyOne (f F W : Ptr) (r : ℕ) : Cmd Unit := do
  let fr := dptr f
  let pm1 := o.p - 1
  let stop := o.L - o.m * pm1
  let Smpm1 := o.Sm * pm1
  parD (rng2 0 o.m 0 o.C) fun (s, c) => do
    let v ← getD (fr + o.S * s + c)
    setC (W + o.S * s + c) v
  parD (rng3 1 pm1 0 o.m 0 o.C) fun (t, s, c) => do
    let Zeta ← o.Zetaqp.get (pm1 * r + t)
    let v ← getD (fr + o.Sm * t + o.S * s + c)
    setC (W + o.Sm * t + o.S * s + c) (Zeta * v)
  parD (rng2 0 stop 0 o.C) fun (s, c) => do
    let Zeta ← o.Zetaqp.get (pm1 * r + pm1)
    let v ← getD (fr + Smpm1 + o.S * s + c)
    setC (W + Smpm1 + o.S * s + c) (Zeta * v)
  parD (rng2 stop o.m 0 o.C) fun (s, c) => setC (W + Smpm1 + o.S * s + c) 0
  o.fftpMany o.fftp W
  par (rng3 0 o.p 1 o.m 0 o.C) fun (t, s, c) => do
    let R := o.n * t + r
    let zeta ← o.Zetaqm.get (o.m * R + s)
    let v ← load (W + o.Sm * t + o.S * s + c)
    store (W + o.Sm * t + o.S * s + c) (v * zeta)
  seqLoop (rng 0 o.p) fun t => o.fftm.exec (W + o.Sm * t) (F + o.Sm * t)

/-- convolve.cc:6651-6740 `forwardInnerMany`, case `2*r=n`. -/
noncomputable def forwardInnerManyHalf (f F W : Ptr) (r : ℕ) : Cmd Unit := do
  let fr := dptr f
  let pm1 := o.p - 1
  let stop := o.L - o.m * pm1
  let p2 := ceilquotient o.p 2
  let p2m1 := p2 - 1
  let p2Sm := p2 * o.Sm
  let Smp2m1 := o.Sm * p2m1
  parD (rng2 0 o.m 0 o.C) fun (s, c) => do
    let x ← getD (fr + o.S * s + c)
    let y ← getD (fr + p2Sm + o.S * s + c)
    setC (W + o.S * s + c) ⟨x, y⟩
  parD (rng3 1 p2m1 0 o.m 0 o.C) fun (t, s, c) => do
    let Zeta ← o.Zetaqp.get (pm1 * r + t)
    let x ← getD (fr + o.Sm * t + o.S * s + c)
    let y ← getD (fr + o.Sm * t + p2Sm + o.S * s + c)
    setC (W + o.Sm * t + o.S * s + c) (Zeta * ⟨x, y⟩)
  parD (rng2 0 stop 0 o.C) fun (s, c) => do
    let Zeta ← o.Zetaqp.get (pm1 * r + p2m1)
    let x ← getD (fr + Smp2m1 + o.S * s + c)
    let y ← getD (fr + Smp2m1 + p2Sm + o.S * s + c)
    setC (W + Smp2m1 + o.S * s + c) (Zeta * ⟨x, y⟩)
  parD (rng2 stop o.m 0 o.C) fun (s, c) => do
    let Zeta ← o.Zetaqp.get (pm1 * r + p2m1)
    let x ← getD (fr + Smp2m1 + o.S * s + c)
    setC (W + Smp2m1 + o.S * s + c) (Zeta * x)
  o.fftpMany o.fftp2 W
  par (rng3 0 p2 1 o.m 0 o.C) fun (t, s, c) => do
    let zeta ← o.Zetaqm.get (o.m * (2 * o.n * t + r) + s)
    let v ← load (W + o.Sm * t + o.S * s + c)
    store (W + o.Sm * t + o.S * s + c) (v * zeta)
  seqLoop (rng 0 p2) fun t => o.fftm.exec (W + o.Sm * t) (F + o.Sm * t)

/-- convolve.cc:6488-6741 `forwardInnerMany`. -/
noncomputable def forwardInnerMany (f F : Ptr) (r : ℕ) (W? : Option Ptr) : Cmd Unit :=
  let W := o.workMany F r W?
  let n2 := ceilquotient o.n 2
  if r = 0 then o.forwardInnerManyZero f F W
  else if r < n2 then o.forwardInnerManyOne f F W r
  else o.forwardInnerManyHalf f F W r

/-- convolve.cc:7200-7253 `backwardInner`, case `r0=0`. -/
noncomputable def backwardInnerZero (F0 f W : Ptr) : Cmd Unit := do
  let fr := dptr f
  let Wr := dptr W
  let pm1 := o.p - 1
  let mpm1 := o.m * pm1
  let stop := o.L - mpm1
  let p2 := ceilquotient o.p 2
  let p2m := p2 * o.m
  o.ifftmp2.exec F0 W
  par (rng2 1 p2 1 o.m) fun (t, s) => do
    let R := o.n * t
    let v ← load (W + o.m * t + s)
    let z ← o.Zetaqm.get (o.m * R + s)
    store (W + o.m * t + s) (v * z)
  (if o.p = 2 * p2 then
    let h := o.e - 1
    let Wt := W + p2m
    let Wth := Wt + h
    do
    o.iffthp.exec (F0 + p2m) (W + p2m)
    (do
      let v ← load Wt
      let z := 2 * v
      store Wt (z.re : ℂ)
      store Wth (z.im : ℂ) : Body Unit).run
    par (rng 1 h) fun s => do
      let zeta ← o.Zetaqm.get (o.m * o.n * p2 + s)
      let v ← load (Wt + s)
      let z := 2 * conj zeta * v
      store (Wt + s) (z.re : ℂ)
      store (Wth + s) (z.im : ℂ)
  else pure ())
  o.crfftp.c2r W W
  parD (rng2 0 pm1 0 o.m) fun (t, s) => copyD (fr + o.m * t + s) (Wr + o.m * t + s)
  parD (rng 0 stop) fun s => copyD (fr + mpm1 + s) (Wr + mpm1 + s)

/-- convolve.cc:7265-7304, the body of the loop over `d` in `backwardInner`. -/
noncomputable def backwardInnerOne (F f : Ptr) (r : ℕ) : Cmd Unit := do
  let fr := dptr f
  let pm1 := o.p - 1
  let mpm1 := o.m * pm1
  let stop := o.L - mpm1
  par (rng2 0 o.p 1 o.m) fun (t, s) => do
    let R := o.n * t + r
    let v ← load (F + o.m * t + s)
    let z ← o.Zetaqm.get (o.m * R + s)
    store (F + o.m * t + s) (v * conj z)
  o.ifftp.exec F F
  parD (rng 0 o.m) fun s => do
    let v ← getC (F + s)
    incD (fr + s) (2 * v.re)
  parD (rng2 1 pm1 0 o.m) fun (t, s) => do
    let z ← o.Zetaqp.get (pm1 * r + t)
    let v ← getC (F + o.m * t + s)
    incD (fr + o.m * t + s) (realProduct (2 * z) v)
  parD (rng 0 stop) fun s => do
    let z ← o.Zetaqp.get (pm1 * r + pm1)
    let v ← getC (F + mpm1 + s)
    incD (fr + mpm1 + s) (realProduct (2 * z) v)

/-- convolve.cc:7305-7370 `backwardInner`, case `2*r0=n`. -/
noncomputable def backwardInnerHalf (F0 f W : Ptr) (r0 : ℕ) : Cmd Unit := do
  let fr := dptr f
  let pm1 := o.p - 1
  let mpm1 := o.m * pm1
  let stop := o.L - mpm1
  let p2 := ceilquotient o.p 2
  let p2m1 := p2 - 1
  let p2m := p2 * o.m
  let mp2m1 := o.m * p2m1
  let frp2 := fr + p2m
  o.ifftmp2.exec F0 W
  par (rng2 0 p2 1 o.m) fun (t, s) => do
    let v ← load (W + o.m * t + s)
    let z ← o.Zetaqm.get (o.m * (2 * o.n * t + r0) + s)
    store (W + o.m * t + s) (v * conj z)
  o.ifftp2.exec W W
  parD (rng 0 o.m) fun s => do
    let v ← getC (W + s)
    let Z := 2 * v
    incD (fr + s) Z.re
    incD (frp2 + s) Z.im
  parD (rng2 1 p2m1 0 o.m) fun (t, s) => do
    let z ← o.Zetaqp.get (pm1 * r0 + t)
    let v ← getC (W + o.m * t + s)
    let Z := 2 * conj z * v
    incD (fr + o.m * t + s) Z.re
    incD (frp2 + o.m * t + s) Z.im
  parD (rng 0 stop) fun s => do
    let z ← o.Zetaqp.get (pm1 * r0 + p2m1)
    let v ← getC (W + mp2m1 + s)
    let Z := 2 * conj z * v
    incD (fr + mp2m1 + s) Z.re
    incD (frp2 + mp2m1 + s) Z.im
  parD (rng stop o.m) fun s => do
    let z ← o.Zetaqp.get (pm1 * r0 + p2m1)
    let v ← getC (W + mp2m1 + s)
    let ZetaConj := 2 * conj z
    incD (fr + mp2m1 + s) (ZetaConj.re * v.re - ZetaConj.im * v.im)

/-- convolve.cc:7188-7371 `backwardInner`. -/
noncomputable def backwardInner (F0 f : Ptr) (r0 : ℕ) (W? : Option Ptr) : Cmd Unit :=
  let W := W?.getD F0
  let n2 := ceilquotient o.n 2
  if r0 = 0 then o.backwardInnerZero F0 f W
  else if r0 < n2 then
    let remainder := r0 = 1 ∧ o.D0 ≠ o.D
    let Dstop := if remainder then o.D0 else o.D
    do
    (if remainder then o.ifftm0 else o.ifftm).exec F0 W
    seqLoop (rng 0 Dstop) fun d => o.backwardInnerOne (W + o.b * d) f (r0 + d)
  else o.backwardInnerHalf F0 f W r0

/-- convolve.cc:7385-7461 `backwardInnerMany`, case `r=0`. -/
noncomputable def backwardInnerManyZero (F f W : Ptr) : Cmd Unit := do
  let fr := dptr f
  let Wr := dptr W
  let pm1 := o.p - 1
  let stop := o.L - o.m * pm1
  let Smpm1 := o.Sm * pm1
  let p2 := ceilquotient o.p 2
  seqLoop (rng 0 p2) fun t => o.ifftmr0.exec (F + o.Sm * t) (W + o.Cm * t)
  par (rng3 1 p2 1 o.m 0 o.C) fun (t, s, c) => do
    let R := o.n * t
    let zeta ← o.Zetaqm.get (o.m * R + s)
    let v ← load (W + o.Cm * t + o.C * s + c)
    store (W + o.Cm * t + o.C * s + c) (v * zeta)
  (if o.p = 2 * p2 then
    let h := o.e - 1
    let p2Cm := p2 * o.Cm
    let Wt := W + p2Cm
    let Wth := Wt + o.C * h
    do
    o.iffthp.exec (F + p2 * o.Sm) (W + p2Cm)
    par (rng 0 o.C) fun c => do
      let v ← load (Wt + c)
      let z := 2 * v
      store (Wt + c) (z.re : ℂ)
      store (Wth + c) (z.im : ℂ)
    par (rng2 1 h 0 o.C) fun (s, c) => do
      let zr ← o.Zetaqm.get (o.m * o.n * p2 + s)
      let zeta := 2 * conj zr
      let v ← load (Wt + o.C * s + c)
      let z := zeta * v
      store (Wt + o.C * s + c) (z.re : ℂ)
      store (Wth + o.C * s + c) (z.im : ℂ)
  else pure ())
  o.crfftp.c2r W W
  parD (rng3 0 pm1 0 o.m 0 o.C) fun (t, s, c) => copyD (fr + o.Sm * t + o.S * s + c) (Wr + o.Cm * t + o.C * s + c)
  parD (rng2 0 stop 0 o.C) fun (s, c) => copyD (fr + Smpm1 + o.S * s + c) (Wr + o.Cm * pm1 + o.C * s + c)

/-- convolve.cc:7463-7523 `backwardInnerMany`, case `0<r<n2`. -/
noncomputable def backwardInnerManyOne (F f W : Ptr) (r : ℕ) : Cmd Unit := do
  let fr := dptr f
  let pm1 := o.p - 1
  let stop := o.L - o.m * pm1
  let Smpm1 := o.Sm * pm1
  seqLoop (rng 0 o.p) fun t => o.ifftm.exec (F + o.Sm * t) (W + o.Sm * t)
  par (rng3 0 o.p 1 o.m 0 o.C) fun (t, s, c) => do
    let R := o.n * t + r
    let z ← o.Zetaqm.get (o.m * R + s)
    let zeta := conj z
    let v ← load (W + o.Sm * t + o.S * s + c)
    store (W + o.Sm * t + o.S * s + c) (v * zeta)
  o.fftpMany o.ifftp W
  parD (rng2 0 o.m 0 o.C) fun (s, c) => do
    let v ← getC (W + o.S * s + c)
    incD (fr + o.S * s + c) (2 * v.re)
  parD (rng3 1 pm1 0 o.m 0 o.C) fun (t, s, c) => do
    let z ← o.Zetaqp.get (pm1 * r + t)
    let v ← getC (W + o.Sm * t + o.S * s + c)
    incD (fr + o.Sm * t + o.S * s + c) (realProduct (2 * z) v)
  parD (rng2 0 stop 0 o.C) fun (s, c) => do
    let z ← o.Zetaqp.get (pm1 * r + pm1)
    let v ← getC (W + Smpm1 + o.S * s + c)
    incD (fr + Smpm1 + o.S * s + c) (realProduct (2 * z) v)

/-- convolve.cc:7524-7623 `backwardInnerMany`, case `2*r=n`. -/
noncomputable def backwardInnerManyHalf (F f W : Ptr) (r : ℕ) : Cmd Unit := do
  let fr := dptr f
  let pm1 := o.p - 1
  let stop := o.L - o.m * pm1
  let p2 := ceilquotient o.p 2
  let p2m1 := p2 - 1
  let p2Sm := p2 * o.Sm
  let Smp2m1 := o.Sm * p2m1
  let frp2 := fr + p2Sm
  seqLoop (rng 0 p2) fun t => o.ifftm.exec (F + o.Sm * t) (W + o.Sm * t)
  par (rng3 0 p2 1 o.m 0 o.C) fun (t, s, c) => do
    let z ← o.Zetaqm.get (o.m * (2 * o.n * t + r) + s)
    let zeta := conj z
    let v ← load (W + o.Sm * t + o.S * s + c)
    store (W + o.Sm * t + o.S * s + c) (v * zeta)
  o.fftpMany o.ifftp2 W
  parD (rng2 0 o.m 0 o.C) fun (s, c) => do
    let v ← getC (W + o.S * s + c)
    let Z := 2 * v
    incD (fr + o.S * s + c) Z.re
    incD (frp2 + o.S * s + c) Z.im
  parD (rng3 1 p2m1 0 o.m 0 o.C) fun (t, s, c) => do
    let z ← o.Zetaqp.get (pm1 * r + t)
    let v ← getC (W + o.Sm * t + o.S * s + c)
    let Z := 2 * conj z * v
    incD (fr + o.Sm * t + o.S * s + c) Z.re
    incD (frp2 + o.Sm * t + o.S * s + c) Z.im
  parD (rng2 0 stop 0 o.C) fun (s, c) => do
    let z ← o.Zetaqp.get (pm1 * r + p2m1)
    let v ← getC (W + Smp2m1 + o.S * s + c)
    let Z := 2 * conj z * v
    incD (fr + Smp2m1 + o.S * s + c) Z.re
    incD (frp2 + Smp2m1 + o.S * s + c) Z.im
  parD (rng2 stop o.m 0 o.C) fun (s, c) => do
    let z ← o.Zetaqp.get (pm1 * r + p2m1)
    let v ← getC (W + Smp2m1 + o.S * s + c)
    let ZetaConj := 2 * conj z
    incD (fr + Smp2m1 + o.S * s + c) (ZetaConj.re * v.re - ZetaConj.im * v.im)

/-- convolve.cc:7373-7624 `backwardInnerMany`. -/
noncomputable def backwardInnerMany (F f : Ptr) (r : ℕ) (W? : Option Ptr) : Cmd Unit :=
  let W := o.workMany F r W?
  let n2 := ceilquotient o.n 2
  if r = 0 then o.backwardInnerManyZero F f W
  else if r < n2 then o.backwardInnerManyOne F f W r
  else o.backwardInnerManyHalf F f W r

/-- convolve.h:253-255 `forward(f,F,r,W)`, with the routine chosen at convolve.cc:5604-5713. -/
noncomputable def forward (f F : Ptr) (r : ℕ) (W? : Option Ptr) : Cmd Unit :=
  match o.route with
  | .explicit => o.forwardExplicit f F W?
  | .explicitMany => o.forwardExplicitMany f F W?
  | .one => o.forward1 f F r W?
  | .oneMany => o.forward1Many f F r W?
  | .two => o.forward2 f F r W?
  | .twoMany => o.forward2Many f F r W?
  | .inner => o.forwardInner f F r W?
  | .innerMany => o.forwardInnerMany f F r W?
  | _ => pure ()

/-- convolve.h:257-259 `backward(F,f,r,W)`. -/
noncomputable def backward (F f : Ptr) (r : ℕ) (W? : Option Ptr) : Cmd Unit :=
  match o.route with
  | .explicit => o.backwardExplicit F f W?
  | .explicitMany => o.backwardExplicitMany F f W?
  | .one => o.backward1 F f r W?
  | .oneMany => o.backward1Many F f r W?
  | .two => o.backward2 F f r W?
  | .twoMany => o.backward2Many F f r W?
  | .inner => o.backwardInner F f r W?
  | .innerMany => o.backwardInnerMany F f r W?
  | _ => pure ()

end Re
end Fftwpp
