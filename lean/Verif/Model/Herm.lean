import Verif.Model.Centered

/-!
# The Hermitian-symmetric transforms (fftPadHermitian, convolve.h:699-801, convolve.cc:4448-5588)

The data `f[0],…,f[H-1]`, `H=ceil(L/2)`, are the values at the positions `0,…,H-1`; those at `-1,…,-(H-1)` are the complex
conjugates.  The transforms are real: they are stored as doubles, two per complex word.  The conventions are those of
`Model/FftPad.lean`.  The class `fftPadHermitian` derives from `fftBase`; a `Herm` extends `Fft` (whose members are those of `fftBase`,
together with the plans `fftp`, `ifftp`).
-/

namespace Fftwpp
open Finset

/-- align.h:141-145 `align(n)`, with `sizeof(Complex)=16` and `ALIGNMENT=al`. -/
def align (al n : ℕ) : ℕ := ceilquotient (n * 16) al * al / 16

/-- Double `i` of the array at `p` (C++ `((double *) p)[i]`). -/
noncomputable def Mem.dbl (m : Mem) (p : Ptr) (i : ℕ) : ℝ := if i % 2 = 0 then (m.val (p + i / 2)).re else (m.val (p + i / 2)).im

/-- A batched 1D complex-to-real or real-to-complex plan (`mcrfft1d`, `mrcfft1d`, fftw++.h:1017-1168; `crfft1d`, `rcfft1d`,
fftw++.h:911-968, are `howmany=1`): `howmany` transforms of length `n`; element `s ≤ n/2` of the complex vector `h` is the word
`h*cdist+s*cstride`, element `j < n` of the real vector `h` is the double `h*rdist+j*rstride`.  `junk` gives the words whose values
FFTW does not specify (as a function of everything it could depend on); all theorems hold for every `junk`.
It is assumed that the planner returns a plan (otherwise `noplan()` exits, fftw++.h:249-252). -/
structure RPlan where
  n : ℕ
  howmany : ℕ
  cstride : ℕ
  cdist : ℕ
  rstride : ℕ
  rdist : ℕ
  inplace : Bool
  junk : Mem → Ptr → Ptr → Ptr → ℂ

namespace RPlan
variable (pl : RPlan)

/-- Index (in words) of element `s` of the complex vector `h`. -/
def cidx (h s : ℕ) : ℕ := h * pl.cdist + s * pl.cstride
/-- Index (in doubles) of element `j` of the real vector `h`. -/
def ridx (h j : ℕ) : ℕ := h * pl.rdist + j * pl.rstride

/-- Arguments (complex side `c`, real side `r`) on which executing the plan is defined behaviour: all elements in bounds, the elements of the
output do not overlap, and the two sides are equal or disjoint. -/
def Defined (c r : Ptr) (m : Mem) : Prop :=
  (∀ h < pl.howmany, ∀ s < pl.n / 2 + 1, m.valid (c + pl.cidx h s)) ∧
  (∀ h < pl.howmany, ∀ j < pl.n, m.valid (r + pl.ridx h j / 2)) ∧
  (∀ h < pl.howmany, ∀ s < pl.n / 2 + 1, ∀ h' < pl.howmany, ∀ s' < pl.n / 2 + 1, pl.cidx h s = pl.cidx h' s' → h = h' ∧ s = s') ∧
  (∀ h < pl.howmany, ∀ j < pl.n, ∀ h' < pl.howmany, ∀ j' < pl.n, pl.ridx h j = pl.ridx h' j' → h = h' ∧ j = j') ∧
  (c = r ∨ ∀ h < pl.howmany, ∀ s < pl.n / 2 + 1, ∀ h' < pl.howmany, ∀ j < pl.n, (c + pl.cidx h s : Ptr) ≠ r + pl.ridx h' j / 2)

/-- The full spectrum represented by the half spectrum `X[0],…,X[n/2]`. -/
noncomputable def full (n : ℕ) (X : ℕ → ℂ) (s : ℕ) : ℂ := if s < n / 2 + 1 then X s else (starRingEnd ℂ) (X (n - s))

/-- The half spectrum `X` is one of real data: `X[0]` and, for even `n`, `X[n/2]` are real. -/
def realSpec (n : ℕ) (X : ℕ → ℂ) : Prop := (X 0).im = 0 ∧ (n % 2 = 0 → (X (n / 2)).im = 0)

open Classical in
/-- `crfftm->fft(in,out)` (fftw++.h:281-293, 961-963, 1085-1093, `fftw_execute_dft_c2r`): exits if the call is not of the same kind (in-place or
out-of-place) as the plan; otherwise the doubles of the output are the inverse transforms of the half spectra.  FFTW destroys the
input of a complex-to-real transform; the output is unspecified if the half spectrum is not one of real data. -/
noncomputable def c2r (src dst : Ptr) : Cmd Unit := fun m =>
  if pl.inplace ≠ decide (src = dst) then .error .exit
  else if pl.Defined src dst m then
    let X := fun h s => m.val (src + pl.cidx h s)
    let out := fun h j => (∑ s ∈ range pl.n, full pl.n (X h) s * w pl.n (s * j)).re
    let half := fun (p : Ptr) (par : ℕ) (part : ℂ → ℝ) =>
      if hx : ∃ hj : ℕ × ℕ, hj.1 < pl.howmany ∧ hj.2 < pl.n ∧ p = dst + pl.ridx hj.1 hj.2 / 2 ∧ pl.ridx hj.1 hj.2 % 2 = par then
        if realSpec pl.n (X hx.choose.1) then out hx.choose.1 hx.choose.2 else part (pl.junk m src dst p)
      else if ∃ hs : ℕ × ℕ, hs.1 < pl.howmany ∧ hs.2 < pl.n / 2 + 1 ∧ p = src + pl.cidx hs.1 hs.2 then part (pl.junk m src dst p)
      else part (m.val p)
    .ok ((), Mem.mk m.size fun p => ⟨half p 0 Complex.re, half p 1 Complex.im⟩)
  else .error .ub

open Classical in
/-- `rcfftm->fft(in,out)` (fftw++.h:281-293, 925-927, 987-995, `fftw_execute_dft_r2c`): the half spectra of the real vectors.  In-place, the words of
the input that are not words of the output are unspecified; out-of-place, the input is preserved. -/
noncomputable def r2c (src dst : Ptr) : Cmd Unit := fun m =>
  if pl.inplace ≠ decide (src = dst) then .error .exit
  else if pl.Defined dst src m then
    .ok ((), Mem.mk m.size fun p =>
      if h : ∃ hs : ℕ × ℕ, hs.1 < pl.howmany ∧ hs.2 < pl.n / 2 + 1 ∧ p = dst + pl.cidx hs.1 hs.2 then
        ∑ j ∈ range pl.n, (m.dbl src (pl.ridx h.choose.1 j) : ℂ) * w pl.n (-((h.choose.2 : ℤ) * j))
      else if pl.inplace ∧ ∃ hj : ℕ × ℕ, hj.1 < pl.howmany ∧ hj.2 < pl.n ∧ p = src + pl.ridx hj.1 hj.2 / 2 then pl.junk m src dst p
      else m.val p)
  else .error .ub

/-- A plan that was never created. -/
def null : RPlan := ⟨0, 0, 0, 0, 0, 0, false, fun _ _ _ _ => 0⟩

end RPlan

/-- Data members of `fftPadHermitian` (convolve.h:700-707).  `Bw` is the member `B`, the work block size (`Fft.B` is `app.B`).
`crfftm1/rcfftm1` (used when `q=1` and `C=1`) are stored in `crfftm/rcfftm`. -/
structure Herm extends Fft where
  e : ℕ
  Bw : ℕ
  crfftm : RPlan
  rcfftm : RPlan

/-- convolve.h:719-721 `fftPadHermitian::Opt::valid`. -/
def fftPadHermitianValid (p q D C : ℕ) : Bool := (D = 1 ∧ q = 1) ∨ (D = 2 ∧ p % 2 = 0 ∧ (p = 2 ∨ C = 1))

/-- What FFTW leaves unspecified, for the two kinds of plans. -/
structure Junk where
  c2r : Mem → Ptr → Ptr → Ptr → ℂ
  r2c : Mem → Ptr → Ptr → Ptr → ℂ

/-- convolve.cc:4448-4484 `fftPadHermitian::init`, case `q=1`; `D` keeps the value given to the constructor. -/
def Herm.newExplicit (L : ℕ) (app : App) (C m D p n q : ℕ) (inplace : Bool) (J : Junk) : Herm :=
  let N := m * q
  let e := m / 2 + 1
  { L := L, M := N, C := C, S := C, m := m, p := p, q := q, n := n, R := 1, dr := 1, D := D, D0 := 1
    Cm := C * m, Sm := C * m, l := m, b := C * e, inplace := inplace, centered := true
    overwrite := false, A := app.A, B := app.B, route := if C = 1 then .explicit else .explicitMany, pad := .none
    fftm := .null, ifftm := .null, fftm0 := .null, ifftm0 := .null, fftp := .null, ifftp := .null
    Zetaqm := .null, ZetaqmS := .null, Zetaqp := .null
    e := e, Bw := C * e
    crfftm := if C = 1 then ⟨m, 1, 1, 1, 1, 1, inplace, J.c2r⟩ else ⟨m, C, C, 1, C, 1, inplace, J.c2r⟩
    rcfftm := if C = 1 then ⟨m, 1, 1, 1, 1, 1, inplace, J.r2c⟩ else ⟨m, C, C, 1, C, 1, inplace, J.r2c⟩ }

/-- convolve.cc:4448-4456, 4485-4555 `fftPadHermitian::init`, case `q>1`.  (`Zetaqp[p2*r+t]=expi(2π r t/q)`, `1 ≤ r < n`, `1 ≤ t ≤ p2`, is the
table of `initZetaqp` with `P1=p2+1`.) -/
noncomputable def Herm.newHybrid (L : ℕ) (app : App) (C m D p n q : ℕ) (inplace : Bool) (al : ℕ) (J : Junk) : Herm :=
  let N := m * q
  let e := m / 2 + 1
  let p2 := p / 2
  let B := align al (p2 * (C * e))
  let b := if inplace then B else align al (ceilquotient (p2 * (C * m)) 2)
  let D0 := if n % D = 0 then D else n % D
  { L := L, M := N, C := C, S := C, m := m, p := p, q := q, n := n
    R := residueBlocks p n D true, dr := Dr p D true, D := D, D0 := D0
    Cm := C * m, Sm := C * m, l := m * p2, b := b, inplace := inplace, centered := true
    overwrite := false, A := app.A, B := app.B
    route := if 2 < p then .inner else if C = 1 then .two else .twoMany, pad := .none
    fftm := .null, ifftm := .null, fftm0 := .null, ifftm0 := .null
    fftp := if 2 < p then ⟨p2, 1, C * e, C * e, 1, true⟩ else .null
    ifftp := if 2 < p then ⟨p2, -1, C * e, C * e, 1, true⟩ else .null
    Zetaqm := initZetaqm N (if p = 2 then q / 2 + 1 else q) m
    ZetaqmS := .null
    Zetaqp := if 2 < p then initZetaqp q n (p2 + 1) else .null
    e := e, Bw := B
    crfftm := if C = 1 then ⟨m, p2, 1, e, 1, m, inplace, J.c2r⟩ else ⟨m, C * p2, C, 1, C, 1, inplace, J.c2r⟩
    rcfftm := if C = 1 then ⟨m, p2, 1, e, 1, m, inplace, J.r2c⟩ else ⟨m, C * p2, C, 1, C, 1, inplace, J.r2c⟩ }

/-- The object built by `fftPadHermitian(L,M,app,C,m,D,inplace)` (convolve.h:748-754, fftBase constructor convolve.h:233-240, `checkParameters`
convolve.cc:464-475, `common` convolve.cc:477-493).  `al` is `utils::ALIGNMENT`. -/
noncomputable def Herm.new (L M : ℕ) (app : App) (C m D : ℕ) (inplace : Bool) (al : ℕ) (J : Junk) : Except Err Herm :=
  if M < L then .error .exit
  else if m = 0 ∨ L = 0 then .error .ub   -- division by zero in `parameters`
  else
    let (p, n, q) := parameters L M m true
    if 1 < q ∧ fftPadHermitianValid p q D C = false then .error .exit
    else if q * m < M then .error .exit
    else if q = 1 then .ok (Herm.newExplicit L app C m D p n q inplace J)
    else .ok (Herm.newHybrid L app C m D p n q inplace al J)

namespace Herm
variable (o : Herm)
open Fft (copy1 zero1)
open Cent (mulBy)
local notation "conj" => starRingEnd ℂ

/-- convolve.h:779-781 `inputLength()`. -/
def inputLength : ℕ := ceilquotient o.L 2

/-- convolve.h:784-786 `blocksize(r)`. -/
def blocksize (_r : ℕ) : ℕ := o.m * (if o.q = 1 then 1 else o.p / 2)

/-- convolve.h:789-791 `noutputs(r)`. -/
def noutputs (_r : ℕ) : ℕ := o.blocksize 0

/-- convolve.h:794-796 `span(r)`. -/
def span (_r : ℕ) : ℕ := 2 * o.b

/-- convolve.h:798-800 `workSizeW()`. -/
def workSizeW : ℕ := if o.inplace then 0 else o.Bw * o.D

/-- The assignment `Complex *V=W == F ? G : W+B` with `G=F+b`. -/
def V (F W : Ptr) : Ptr := if W = F then F + o.b else W + o.Bw

/-- convolve.cc:4578-4595 `forwardExplicit`. -/
noncomputable def forwardExplicit (f F : Ptr) (W? : Option Ptr) : Cmd Unit := do
  let W := W?.getD F
  let H := ceilquotient o.L 2
  par (rng 0 H) fun s => copy1 (W + s) (f + s)
  par (rng H o.e) fun s => zero1 (W + s)
  o.crfftm.c2r W F

/-- convolve.cc:4597-4621 `forwardExplicitMany`. -/
noncomputable def forwardExplicitMany (f F : Ptr) (W? : Option Ptr) : Cmd Unit := do
  let W := W?.getD F
  let H := ceilquotient o.L 2
  par (rng2 0 H 0 o.C) fun (s, c) => copy1 (W + o.C * s + c) (f + o.C * s + c)
  par (rng2 H o.e 0 o.C) fun (s, c) => zero1 (W + o.C * s + c)
  o.crfftm.c2r W F

/-- convolve.cc:4623-4636 `backwardExplicit`. -/
noncomputable def backwardExplicit (F f : Ptr) (W? : Option Ptr) : Cmd Unit := do
  let W := W?.getD F
  o.rcfftm.r2c F W
  let H := ceilquotient o.L 2
  par (rng 0 H) fun s => copy1 (f + s) (W + s)

/-- convolve.cc:4638-4654 `backwardExplicitMany`. -/
noncomputable def backwardExplicitMany (F f : Ptr) (W? : Option Ptr) : Cmd Unit := do
  let W := W?.getD F
  o.rcfftm.r2c F W
  let H := ceilquotient o.L 2
  par (rng2 0 H 0 o.C) fun (s, c) => copy1 (f + o.C * s + c) (W + o.C * s + c)

/-- convolve.cc:4656-4748 `forward2`.  (Here and below the elements of the read-only tables used by an iteration are looked up first.) -/
noncomputable def forward2 (f F : Ptr) (r : ℕ) (W? : Option Ptr) : Cmd Unit :=
  let W := W?.getD F
  let fm := f + o.m
  let H := ceilquotient o.L 2
  let mH1 := o.m - H + 1
  if r = 0 then
    let q2 := o.q / 2
    if 2 * q2 < o.q then do
      par (rng 0 mH1) fun s => copy1 (W + s) (f + s)
      par (rng mH1 o.e) fun s => do
        let fs ← load (f + s)
        let fms ← load (fm - s)
        store (W + s) (fs + conj fms)
      o.crfftm.c2r W F
    else do
      let G := F + o.b
      let V := o.V F W
      (do
        let v ← load f
        store W v
        store V v : Body Unit).run
      par (rng 1 mH1) fun s => do
        let z ← o.Zetaqm.get (o.m * q2 + s)
        let fs ← load (f + s)
        store (W + s) fs
        store (V + s) (z * fs)
      par (rng mH1 o.e) fun s => do
        let z ← o.Zetaqm.get (o.m * q2 + s)
        let fs ← load (f + s)
        let fms ← load (fm - s)
        store (W + s) (fs + conj fms)
        store (V + s) (z * (fs - conj fms))
      o.crfftm.c2r W F
      o.crfftm.c2r V G
  else do
    let G := F + o.b
    let V := o.V F W
    (do
      let v ← load f
      store W v
      store V v : Body Unit).run
    par (rng 1 mH1) fun s => do
      let Zeta ← o.Zetaqm.get (o.m * r + s)
      let fs ← load (f + s)
      let A := Zeta ⊙ UNPACKL fs fs
      let B := ZMULTI (Zeta ⊙ UNPACKH fs fs)
      store (W + s) (A + B)
      store (V + s) (CONJ (A - B))
    par (rng mH1 o.e) fun s => do
      let Zeta ← o.Zetaqm.get (o.m * r + s)
      let z ← o.Zetaqm.get (o.m * r + o.m - s)
      let Zetam := CONJ z
      let fs ← load (f + s)
      let fms ← load (fm - s)
      let A := Zeta ⊙ UNPACKL fs fs + Zetam ⊙ UNPACKL fms fms
      let B := ZMULTI (Zeta ⊙ UNPACKH fs fs - Zetam ⊙ UNPACKH fms fms)
      store (W + s) (A + B)
      store (V + s) (CONJ (A - B))
    o.crfftm.c2r W F
    o.crfftm.c2r V G

/-- convolve.cc:4750-4886 `forward2Many`. -/
noncomputable def forward2Many (f F : Ptr) (r : ℕ) (W? : Option Ptr) : Cmd Unit :=
  let W := W?.getD F
  let fm := f + o.Cm
  let H := ceilquotient o.L 2
  let mH1 := o.m - H + 1
  if r = 0 then
    let q2 := o.q / 2
    if 2 * q2 < o.q then do
      par (rng2 0 mH1 0 o.C) fun (s, c) => copy1 (W + o.C * s + c) (f + o.C * s + c)
      par (rng2 mH1 o.e 0 o.C) fun (s, c) => do
        let fs ← load (f + o.C * s + c)
        let fms ← load (fm - o.C * s + c)
        store (W + o.C * s + c) (fs + conj fms)
      o.crfftm.c2r W F
    else do
      let G := F + o.b
      let V := o.V F W
      par (rng 0 o.C) fun c => do
        let v ← load (f + c)
        store (W + c) v
        store (V + c) v
      par (rng2 1 mH1 0 o.C) fun (s, c) => do
        let z ← o.Zetaqm.get (o.m * q2 + s)
        let fs ← load (f + o.C * s + c)
        store (W + o.C * s + c) fs
        store (V + o.C * s + c) (z * fs)
      par (rng2 mH1 o.e 0 o.C) fun (s, c) => do
        let z ← o.Zetaqm.get (o.m * q2 + s)
        let fs ← load (f + o.C * s + c)
        let fms ← load (fm - o.C * s + c)
        store (W + o.C * s + c) (fs + conj fms)
        store (V + o.C * s + c) (z * (fs - conj fms))
      o.crfftm.c2r W F
      o.crfftm.c2r V G
  else do
    let G := F + o.b
    let V := o.V F W
    par (rng 0 o.C) fun c => do
      let v ← load (f + c)
      store (W + c) v
      store (V + c) v
    par (rng2 1 mH1 0 o.C) fun (s, c) => do
      let Zeta ← o.Zetaqm.get (o.m * r + s)
      let fs ← load (f + o.C * s + c)
      let A := Zeta ⊙ UNPACKL fs fs
      let B := ZMULTI (Zeta ⊙ UNPACKH fs fs)
      store (W + o.C * s + c) (A + B)
      store (V + o.C * s + c) (CONJ (A - B))
    par (rng2 mH1 o.e 0 o.C) fun (s, c) => do
      let Zeta ← o.Zetaqm.get (o.m * r + s)
      let z ← o.Zetaqm.get (o.m * r + o.m - s)
      let Zetam := CONJ z
      let fs ← load (f + o.C * s + c)
      let fms ← load (fm - o.C * s + c)
      let A := Zeta ⊙ UNPACKL fs fs + Zetam ⊙ UNPACKL fms fms
      let B := ZMULTI (Zeta ⊙ UNPACKH fs fs - Zetam ⊙ UNPACKH fms fms)
      store (W + o.C * s + c) (A + B)
      store (V + o.C * s + c) (CONJ (A - B))
    o.crfftm.c2r W F
    o.crfftm.c2r V G

/-- convolve.cc:4888-4982 `backward2`.  (`even` is `m == 2*(e-1)`.) -/
noncomputable def backward2 (F f : Ptr) (r : ℕ) (W? : Option Ptr) : Cmd Unit :=
  let W := W?.getD F
  let fm := f + o.m
  let me := o.m - o.e
  let H := ceilquotient o.L 2
  let mH1 := o.m - H + 1
  do
  o.rcfftm.r2c F W
  if r = 0 then
    let q2 := o.q / 2
    if 2 * q2 < o.q then do
      par (rng 0 mH1) fun s => copy1 (f + s) (W + s)
      par (rng mH1 (me + 1)) fun s => do
        let A ← load (W + s)
        store (f + s) A
        store (fm - s) (conj A)
      if o.m = 2 * (o.e - 1) then (copy1 (f + (o.e - 1)) (W + (o.e - 1))).run else pure ()
    else do
      let G := F + o.b
      let V := o.V F W
      o.rcfftm.r2c G V
      (do
        let A ← load W
        let B ← load V
        store f (A + B) : Body Unit).run
      par (rng 1 mH1) fun s => do
        let z ← o.Zetaqm.get (o.m * q2 + s)
        let A ← load (W + s)
        let B ← load (V + s)
        store (f + s) (A + conj z * B)
      par (rng mH1 (me + 1)) fun s => do
        let z ← o.Zetaqm.get (o.m * q2 + s)
        let A ← load (W + s)
        let v ← load (V + s)
        let B := conj z * v
        store (f + s) (A + B)
        store (fm - s) (conj (A - B))
      if o.m = 2 * (o.e - 1) then (do
        let A ← load (W + (o.e - 1))
        let B ← load (V + (o.e - 1))
        store (f + (o.e - 1)) (A - Complex.I * B) : Body Unit).run else pure ()
  else do
    let G := F + o.b
    let V := o.V F W
    o.rcfftm.r2c G V
    (do
      let f0 ← load f
      let A ← load W
      let B ← load V
      store f (f0 + (A + B)) : Body Unit).run
    par (rng 1 mH1) fun s => do
      let z ← o.Zetaqm.get (o.m * r + s)
      let fs ← load (f + s)
      let B ← load (V + s)
      let A ← load (W + s)
      store (f + s) (fs + ZMULT2 z B A)
    par (rng mH1 (me + 1)) fun s => do
      let Zeta ← o.Zetaqm.get (o.m * r + s)
      let Zetam ← o.Zetaqm.get (o.m * r + o.m - s)
      let Ws ← load (W + s)
      let Vs ← load (V + s)
      let fs ← load (f + s)
      store (f + s) (fs + ZMULT2 Zeta Vs Ws)
      let fms ← load (fm - s)
      store (fm - s) (fms + CONJ (ZMULT2 Zetam Ws Vs))
    if o.m = 2 * (o.e - 1) then (do
      let z ← o.Zetaqm.get (o.m * r + (o.e - 1))
      let fe ← load (f + (o.e - 1))
      let B ← load (V + (o.e - 1))
      let A ← load (W + (o.e - 1))
      store (f + (o.e - 1)) (fe + ZMULT2 z B A) : Body Unit).run else pure ()

/-- convolve.cc:4984-5153 `backward2Many`. -/
noncomputable def backward2Many (F f : Ptr) (r : ℕ) (W? : Option Ptr) : Cmd Unit :=
  let W := W?.getD F
  let fm := f + o.Cm
  let me := o.m - o.e
  let H := ceilquotient o.L 2
  let mH1 := o.m - H + 1
  let Ce1 := o.C * (o.e - 1)
  do
  o.rcfftm.r2c F W
  if r = 0 then
    let q2 := o.q / 2
    if 2 * q2 < o.q then do
      par (rng2 0 mH1 0 o.C) fun (s, c) => copy1 (f + o.C * s + c) (W + o.C * s + c)
      par (rng2 mH1 (me + 1) 0 o.C) fun (s, c) => do
        let A ← load (W + o.C * s + c)
        store (f + o.C * s + c) A
        store (fm - o.C * s + c) (conj A)
      if o.m = 2 * (o.e - 1) then par (rng 0 o.C) fun c => copy1 (f + Ce1 + c) (W + Ce1 + c) else pure ()
    else do
      let G := F + o.b
      let V := o.V F W
      o.rcfftm.r2c G V
      par (rng 0 o.C) fun c => do
        let A ← load (W + c)
        let B ← load (V + c)
        store (f + c) (A + B)
      par (rng2 1 mH1 0 o.C) fun (s, c) => do
        let z ← o.Zetaqm.get (o.m * q2 + s)
        let A ← load (W + o.C * s + c)
        let B ← load (V + o.C * s + c)
        store (f + o.C * s + c) (A + conj z * B)
      par (rng2 mH1 (me + 1) 0 o.C) fun (s, c) => do
        let z ← o.Zetaqm.get (o.m * q2 + s)
        let A ← load (W + o.C * s + c)
        let v ← load (V + o.C * s + c)
        let B := conj z * v
        store (f + o.C * s + c) (A + B)
        store (fm - o.C * s + c) (conj (A - B))
      if o.m = 2 * (o.e - 1) then par (rng 0 o.C) fun c => do
        let A ← load (W + Ce1 + c)
        let B ← load (V + Ce1 + c)
        store (f + Ce1 + c) (A - Complex.I * B)
      else pure ()
  else do
    let G := F + o.b
    let V := o.V F W
    o.rcfftm.r2c G V
    par (rng 0 o.C) fun c => do
      let f0 ← load (f + c)
      let A ← load (W + c)
      let B ← load (V + c)
      store (f + c) (f0 + (A + B))
    par (rng2 1 mH1 0 o.C) fun (s, c) => do
      let z ← o.Zetaqm.get (o.m * r + s)
      let fs ← load (f + o.C * s + c)
      let B ← load (V + o.C * s + c)
      let A ← load (W + o.C * s + c)
      store (f + o.C * s + c) (fs + ZMULT2 z B A)
    par (rng2 mH1 (me + 1) 0 o.C) fun (s, c) => do
      let Zeta ← o.Zetaqm.get (o.m * r + s)
      let X := UNPACKL Zeta Zeta
      let Y := UNPACKH Zeta (-Zeta)
      let Zetam ← o.Zetaqm.get (o.m * r + o.m - s)
      let Xm := UNPACKL Zetam (-Zetam)
      let Ym := UNPACKH Zetam Zetam
      let Ws ← load (W + o.C * s + c)
      let Vs ← load (V + o.C * s + c)
      let fs ← load (f + o.C * s + c)
      store (f + o.C * s + c) (fs + ZMULT2xy X Y Vs Ws)
      let fms ← load (fm - o.C * s + c)
      store (fm - o.C * s + c) (fms + ZMULT2xy Xm Ym Ws Vs)
    if o.m = 2 * (o.e - 1) then par (rng 0 o.C) fun c => do
      let Zeta ← o.Zetaqm.get (o.m * r + (o.e - 1))
      let X := UNPACKL Zeta Zeta
      let Y := UNPACKH Zeta (-Zeta)
      let fe ← load (f + Ce1 + c)
      let B ← load (V + Ce1 + c)
      let A ← load (W + Ce1 + c)
      store (f + Ce1 + c) (fe + ZMULT2xy X Y B A)
    else pure ()

/-- convolve.cc:5155-5340 `forwardInner`.  The two inner loops `Wu[s] *= …`, `Vu[s] *= …` over `s` in the last loop over `u` are
one loop over the pairs `(u,s)`. -/
noncomputable def forwardInner (f F : Ptr) (r : ℕ) (W? : Option Ptr) : Cmd Unit :=
  let W := W?.getD F
  let p2 := o.p / 2
  let H := ceilquotient o.L 2
  let p2m := p2 * o.m
  let p2mH := p2m - H
  let m0 := min (p2mH + 1) o.e
  let fm := f + p2m
  if r = 0 then
    let n2 := o.n / 2
    if 2 * n2 < o.n then do
      par (rng 0 m0) fun s => copy1 (W + s) (f + s)
      par (rng m0 o.e) fun s => do
        let fms ← load (fm - s)
        let fs ← load (f + s)
        store (W + s) (conj fms + fs)
      par (rng2 1 p2 0 o.e) fun (t, s) => do
        let fms ← load (fm - t * o.m - s)
        let fs ← load (f + t * o.m + s)
        store (W + t * o.e + s) (conj fms + fs)
      o.fftp.exec W W
      par (rng2 1 p2 1 o.e) fun (u, s) => do
        let z ← o.Zetaqm.get (o.m * o.n * u + s)
        mulBy (W + u * o.e + s) z
      o.crfftm.c2r W F
    else do
      let V := W + o.Bw
      par (rng 0 m0) fun s => do
        let v ← load (f + s)
        store (W + s) v
        store (V + s) v
      par (rng m0 o.e) fun s => do
        let fms ← load (fm - s)
        let fs ← load (f + s)
        store (W + s) (conj fms + fs)
        store (V + s) (-conj fms + fs)
      par (rng2 1 p2 0 o.e) fun (t, s) => do
        let Zeta ← o.Zetaqp.get (p2 * n2 + t)
        let X := UNPACKL Zeta Zeta
        let Y := UNPACKH Zeta (-Zeta)
        let fms ← load (fm - t * o.m - s)
        let fmts := CONJ fms
        let fts ← load (f + t * o.m + s)
        store (W + t * o.e + s) (fmts + fts)
        store (V + t * o.e + s) (ZMULTxy X Y (fts - fmts))
      o.fftp.exec W W
      o.fftp.exec V V
      par (rng 0 o.e) fun s => do
        let z ← o.Zetaqm.get (o.m * n2 + s)
        mulBy (V + s) z
      par (rng2 1 p2 1 o.e) fun (u, s) => do
        let z ← o.Zetaqm.get (o.m * o.n * u + s)
        mulBy (W + u * o.e + s) z
        let z2 ← o.Zetaqm.get (o.m * o.n * u + o.m * n2 + s)
        mulBy (V + u * o.e + s) z2
      o.crfftm.c2r W F
      o.crfftm.c2r V (F + o.b)
  else do
    let G := F + o.b
    let V := o.V F W
    par (rng 0 m0) fun s => do
      let v ← load (f + s)
      store (W + s) v
      store (V + s) v
    par (rng m0 o.e) fun s => do
      let zn ← o.Zetaqp.get (p2 * r + p2)
      let Zetanr := CONJ zn
      let fm' ← load (fm - s)
      let fms := CONJ fm'
      let fs ← load (f + s)
      let A := Zetanr ⊙ UNPACKL fms fms
      let B := ZMULTI (Zetanr ⊙ UNPACKH fms fms)
      store (W + s) (A + B + fs)
      store (V + s) (CONJ (A - B) + fs)
    par (rng2 1 p2 0 o.e) fun (t, s) => do
      let zn ← o.Zetaqp.get (p2 * r + p2)
      let Zetanr := CONJ zn
      let Zeta ← o.Zetaqp.get (p2 * r + t)
      let Zetam := ZMULT Zeta Zetanr
      let fm' ← load (fm - t * o.m - s)
      let fmts := CONJ fm'
      let fts ← load (f + t * o.m + s)
      let A := Zetam ⊙ UNPACKL fmts fmts + Zeta ⊙ UNPACKL fts fts
      let B := ZMULTI (Zetam ⊙ UNPACKH fmts fmts + Zeta ⊙ UNPACKH fts fts)
      store (W + t * o.e + s) (A + B)
      store (V + t * o.e + s) (CONJ (A - B))
    o.fftp.exec W W
    o.fftp.exec V V
    par (rng 1 o.e) fun s => do
      let Zeta ← o.Zetaqm.get (o.m * r + s)
      mulBy (W + s) Zeta
      mulBy (V + s) (conj Zeta)
    par (rng2 1 p2 1 o.e) fun (u, s) => do
      let z1 ← o.Zetaqm.get (o.n * (o.m * u) + o.m * r + s)
      mulBy (W + o.e * u + s) z1
      let z2 ← o.Zetaqm.get (o.n * (o.m * u) - o.m * r + s)
      mulBy (V + o.e * u + s) z2
    o.crfftm.c2r W F
    o.crfftm.c2r V G

/-- convolve.cc:5342-5588 `backwardInner`.  The loops over `s` inside the loops over `t` are flattened: one iteration for each pair
`(t,s)`, the case `s=0` being the statement that precedes the inner loop. -/
noncomputable def backwardInner (F f : Ptr) (r : ℕ) (W? : Option Ptr) : Cmd Unit :=
  let W := W?.getD F
  let p2 := o.p / 2
  let H := ceilquotient o.L 2
  let p2m := p2 * o.m
  let p2mH := p2m - H
  let me := o.m - o.e
  let m0 := min (p2mH + 1) o.e
  let fm := f + p2m
  let e1 := o.e - 1
  if r = 0 then
    let n2 := o.n / 2
    if 2 * n2 < o.n then do
      o.rcfftm.r2c F W
      par (rng2 1 p2 1 o.e) fun (u, s) => do
        let z ← o.Zetaqm.get (o.n * (o.m * u) + s)
        mulBy (W + u * o.e + s) (conj z)
      o.ifftp.exec W W
      par (rng 0 m0) fun s => copy1 (f + s) (W + s)
      par (rng m0 (me + 1)) fun s => do
        let Ws ← load (W + s)
        store (f + s) Ws
        store (fm - s) (conj Ws)
      par (rng2 1 p2 0 (me + 1)) fun (t, s) =>
        if s = 0 then do
          let v ← load (W + t * o.e)
          store (f + t * o.m) v
        else do
          let Wts ← load (W + t * o.e + s)
          store (f + t * o.m + s) Wts
          store (fm - t * o.m - s) (conj Wts)
      if o.m = 2 * (o.e - 1) then par (rng 0 p2) fun t => copy1 (f + e1 + t * o.m) (W + e1 + t * o.e) else pure ()
    else do
      let V := W + o.Bw
      let G := F + o.b
      o.rcfftm.r2c F W
      o.rcfftm.r2c G V
      par (rng 1 o.e) fun s => do
        let z ← o.Zetaqm.get (o.m * n2 + s)
        mulBy (V + s) (conj z)
      par (rng2 1 p2 1 o.e) fun (u, s) => do
        let z ← o.Zetaqm.get (o.m * o.n * u + s)
        mulBy (W + u * o.e + s) (conj z)
        let z2 ← o.Zetaqm.get (o.m * o.n * u + o.m * n2 + s)
        mulBy (V + u * o.e + s) (conj z2)
      o.ifftp.exec W W
      o.ifftp.exec V V
      par (rng 0 m0) fun s => do
        let A ← load (W + s)
        let B ← load (V + s)
        store (f + s) (A + B)
      par (rng m0 (me + 1)) fun s => do
        let Wts ← load (W + s)
        let Vts ← load (V + s)
        store (fm - s) (conj (Wts - Vts))
        store (f + s) (Wts + Vts)
      par (rng2 1 p2 0 (me + 1)) fun (t, s) => do
        let Zeta ← o.Zetaqp.get (p2 * n2 + t)
        let X := UNPACKL Zeta Zeta
        let Y := UNPACKH (-Zeta) Zeta
        if s = 0 then do
          let A ← load (W + t * o.e)
          let B ← load (V + t * o.e)
          store (f + t * o.m) (A + ZMULTxy X Y B)
        else do
          let Wts ← load (W + t * o.e + s)
          let v ← load (V + t * o.e + s)
          let Vts := ZMULTxy X Y v
          store (fm - t * o.m - s) (CONJ (Wts - Vts))
          store (f + t * o.m + s) (Wts + Vts)
      if o.m = 2 * (o.e - 1) then do
        (do
          let A ← load (W + e1)
          let B ← load (V + e1)
          store (f + e1) (A + B) : Body Unit).run
        par (rng 1 p2) fun t => do
          let A ← load (W + e1 + t * o.e)
          let z ← o.Zetaqp.get (p2 * n2 + t)
          let B ← load (V + e1 + t * o.e)
          store (f + e1 + t * o.m) (A + conj z * B)
      else pure ()
  else do
    let V := W + o.Bw
    let G := F + o.b
    o.rcfftm.r2c F W
    o.rcfftm.r2c G V
    par (rng 1 o.e) fun s => do
      let Zeta ← o.Zetaqm.get (o.m * r + s)
      mulBy (W + s) (conj Zeta)
      mulBy (V + s) Zeta
    par (rng2 1 p2 1 o.e) fun (u, s) => do
      let z1 ← o.Zetaqm.get (o.n * o.m * u + o.m * r + s)
      mulBy (W + u * o.e + s) (conj z1)
      let z2 ← o.Zetaqm.get (o.n * o.m * u - o.m * r + s)
      mulBy (V + u * o.e + s) (conj z2)
    o.ifftp.exec W W
    o.ifftp.exec V V
    par (rng 0 m0) fun s => do
      let fs ← load (f + s)
      let A ← load (W + s)
      let B ← load (V + s)
      store (f + s) (fs + (A + B))
    par (rng m0 (me + 1)) fun s => do
      let Zetanr ← o.Zetaqp.get (p2 * r + p2)
      let Xm := UNPACKL Zetanr Zetanr
      let Ym := UNPACKH Zetanr (-Zetanr)
      let Wts ← load (W + s)
      let Vts ← load (V + s)
      let fms ← load (fm - s)
      store (fm - s) (fms + CONJ (ZMULT2xy Xm Ym Wts Vts))
      let fs ← load (f + s)
      store (f + s) (fs + Wts + Vts)
    par (rng2 1 p2 0 (me + 1)) fun (t, s) => do
      let Zetanr ← o.Zetaqp.get (p2 * r + p2)
      let Zeta ← o.Zetaqp.get (p2 * r + t)
      let X := UNPACKL Zeta Zeta
      let Y := UNPACKH Zeta (-Zeta)
      if s = 0 then do
        let ft ← load (f + t * o.m)
        let B ← load (V + t * o.e)
        let A ← load (W + t * o.e)
        store (f + t * o.m) (ft + ZMULT2xy X Y B A)
      else do
        let Zeta2 := ZMULTxy X (-Y) Zetanr
        let Xm := UNPACKL Zeta2 Zeta2
        let Ym := UNPACKH Zeta2 (-Zeta2)
        let Wts ← load (W + t * o.e + s)
        let Vts ← load (V + t * o.e + s)
        let fms ← load (fm - t * o.m - s)
        store (fm - t * o.m - s) (fms + CONJ (ZMULT2xy Xm Ym Wts Vts))
        let fs ← load (f + t * o.m + s)
        store (f + t * o.m + s) (fs + ZMULT2xy X Y Vts Wts)
    if o.m = 2 * (o.e - 1) then do
      (do
        let fe ← load (f + e1)
        let A ← load (W + e1)
        let B ← load (V + e1)
        store (f + e1) (fe + (A + B)) : Body Unit).run
      par (rng 1 p2) fun t => do
        let Zeta ← o.Zetaqp.get (p2 * r + t)
        let X := UNPACKL Zeta Zeta
        let Y := UNPACKH Zeta (-Zeta)
        let fe ← load (f + e1 + t * o.m)
        let B ← load (V + e1 + t * o.e)
        let A ← load (W + e1 + t * o.e)
        store (f + e1 + t * o.m) (fe + ZMULT2xy X Y B A)
    else pure ()

/-- convolve.h:254-256 `forward(f,F,r,W)`: the routine selected by `init` (convolve.cc:4448-4576). -/
noncomputable def forward (f F : Ptr) (r : ℕ) (W? : Option Ptr) : Cmd Unit :=
  match o.route with
  | .explicit => o.forwardExplicit f F W?
  | .explicitMany => o.forwardExplicitMany f F W?
  | .two => o.forward2 f F r W?
  | .twoMany => o.forward2Many f F r W?
  | .inner => o.forwardInner f F r W?
  | _ => fun _ => .error .ub

/-- convolve.h:258-260 `backward(F,f,r,W)`: the routine selected by `init` (convolve.cc:4448-4576). -/
noncomputable def backward (F f : Ptr) (r : ℕ) (W? : Option Ptr) : Cmd Unit :=
  match o.route with
  | .explicit => o.backwardExplicit F f W?
  | .explicitMany => o.backwardExplicitMany F f W?
  | .two => o.backward2 F f r W?
  | .twoMany => o.backward2Many F f r W?
  | .inner => o.backwardInner F f r W?
  | _ => fun _ => .error .ub

end Herm
end Fftwpp
