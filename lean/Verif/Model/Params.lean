import Verif.Model.Mem

/-!
# Parameters of a hybrid dealiased transform (fftBase, fftPad)

`size_t` is modelled by `ℕ` (no overflow).  Only the noncentered class `fftPad` and the parts of `fftBase` shared with
the centered class are here.
-/

namespace Fftwpp

/-- align.h:94-97 `ceilquotient(a,b)=(a+b-1)/b`. -/
def ceilquotient (a b : ℕ) : ℕ := (a + b - 1) / b

/-- convolve.cc:387-394 `fftBase::parameters`: the triple `(p,n,q)`. -/
def parameters (L M m : ℕ) (centered : Bool) : ℕ × ℕ × ℕ :=
  let p := ceilquotient L m
  let P := if (centered ∧ p = 2 * (p / 2)) ∨ p = 2 then p / 2 else p
  let n := ceilquotient M (P * m)
  (p, n, P * n)

/-- The parts of `Application` (convolve.h:84-113) that influence results. -/
structure App where
  A : ℕ
  B : ℕ
  overwrite : Bool

/-- The `Forward`/`Backward` member pointers (convolve.h:136). -/
inductive Routine where
  | explicit | explicitMany
  | one | oneAll | oneMany | oneManyAll
  | two | twoAll | twoMany | twoManyAll
  | inner | innerAll | innerMany | innerManyAll
deriving DecidableEq

/-- The `Pad` member pointer (convolve.h:137). -/
inductive PadKind where
  | none | single | many
deriving DecidableEq

/-- Data members of `fftBase`/`fftPad` (convolve.h:115-145, 465-473).  Tables are read-only after construction; plans are
values.  `fftm1/ifftm1` (used when q=1 and S=1) are stored in `fftm/ifftm`. -/
structure Fft where
  L : ℕ
  M : ℕ
  C : ℕ
  S : ℕ
  m : ℕ
  p : ℕ
  q : ℕ
  n : ℕ
  R : ℕ
  dr : ℕ
  D : ℕ
  D0 : ℕ
  Cm : ℕ
  Sm : ℕ
  l : ℕ
  b : ℕ
  inplace : Bool
  centered : Bool
  overwrite : Bool
  A : ℕ
  B : ℕ
  route : Routine
  pad : PadKind
  fftm : Plan
  ifftm : Plan
  fftm0 : Plan
  ifftm0 : Plan
  fftp : Plan
  ifftp : Plan
  Zetaqm : Table
  ZetaqmS : Table
  Zetaqp : Table

/-- convolve.cc:123-137 `initZetaqm(q,m)`: rows `r=1,…,q-1`, `Zetaqm[m*r+s]=expi(2π r s/M)`; allocated `(q-1)*m`,
shifted by `m`.  (`Zetaqm=Zetaqm0-m` is formed as an out-of-range pointer; we only check the indices used.) -/
noncomputable def initZetaqm (M q m : ℕ) : Table where
  lo := m
  hi := m + (q - 1) * m
  val i := w M (((i / m) * (i % m) : ℕ) : ℤ)

/-- convolve.cc:613-619: `ZetaqmS[Lm*r+s]=expi(2π r s/N)`, `1 ≤ r < q`, `m ≤ s < L`; allocated `(q-1)*Lm`, shifted by
`L`. -/
noncomputable def initZetaqmS (N q m L : ℕ) : Table where
  lo := L
  hi := L + (q - 1) * (L - m)
  val i := w N ((((i - m) / (L - m)) * (m + (i - m) % (L - m)) : ℕ) : ℤ)

/-- convolve.cc:597-601: `Zetaqp[(P1-1)*r+t]=expi(2π r t/q)`, `1 ≤ r < n`, `1 ≤ t < P1`; allocated `(n-1)*(P1-1)`,
shifted by `P1`. -/
noncomputable def initZetaqp (q n P1 : ℕ) : Table where
  lo := P1
  hi := P1 + (n - 1) * (P1 - 1)
  val i := w q ((((i - 1) / (P1 - 1)) * (1 + (i - 1) % (P1 - 1)) : ℕ) : ℤ)

/-- A table that was never allocated. -/
def Table.null : Table := ⟨0, 0, fun _ => 0⟩
/-- A plan that was never created. -/
def Plan.null : Plan := ⟨0, 0, 0, 0, 0, false⟩

/-- convolve.h:476-479 `fftPad::valid`. -/
def fftPadValid (q n D S : ℕ) : Bool :=
  if q = 1 then D = 1 else D = 1 ∨ (S = 1 ∧ ((D < n ∧ D % 2 = 0) ∨ D = n))

/-- convolve.h:378-380 `conjugates()`. -/
def conjugates (p D : ℕ) (centered : Bool) : Bool := 1 < D ∧ (p ≤ 2 ∨ (centered ∧ p % 2 = 0))

/-- convolve.h:382-384 `residueBlocks()`. -/
def residueBlocks (p n D : ℕ) (centered : Bool) : ℕ :=
  if conjugates p D centered then ceilquotient n 2 else n

/-- convolve.h:386 `Dr()`. -/
def Dr (p D : ℕ) (centered : Bool) : ℕ := if conjugates p D centered then D / 2 else D

/-- The choice of routines in `fftPad::init` (convolve.cc:501-528, 566-676), noncentered. -/
def chooseRoute (q p S : ℕ) (overwrite : Bool) : Routine :=
  if q = 1 then (if S = 1 then .explicit else .explicitMany)
  else if 2 < p then
    if S = 1 then (if overwrite then .innerAll else .inner)
    else (if overwrite then .innerManyAll else .innerMany)
  else if p = 2 then
    if S = 1 then (if overwrite then .twoAll else .two)
    else (if overwrite then .twoManyAll else .twoMany)
  else
    if S = 1 then (if overwrite then .oneAll else .one)
    else (if overwrite then .oneManyAll else .oneMany)

/-- convolve.cc:505-528 `fftPad::init`, case `q=1` (explicit padding); `N=m*q`. -/
def Fft.newExplicit (L : ℕ) (app : App) (C S m p n q : ℕ) (inplace : Bool) : Fft :=
  let N := m * q
  { L := L, M := N, C := C, S := S, m := m, p := p, q := q, n := n, R := 1, dr := 1, D := 1, D0 := 1
    Cm := C * m, Sm := S * m, l := N, b := S * N, inplace := inplace, centered := false
    overwrite := false, A := app.A, B := app.B, route := chooseRoute q p S false, pad := .none
    fftm := if S = 1 then ⟨m, 1, 1, 1, 0, inplace⟩ else ⟨m, 1, C, S, 1, inplace⟩
    ifftm := if S = 1 then ⟨m, -1, 1, 1, 0, inplace⟩ else ⟨m, -1, C, S, 1, inplace⟩
    fftm0 := .null, ifftm0 := .null, fftp := .null, ifftp := .null
    Zetaqm := .null, ZetaqmS := .null, Zetaqp := .null }

/-- convolve.cc:529-697 `fftPad::init`, case `q>1` (noncentered); `N=m*q`. -/
noncomputable def Fft.newHybrid (L : ℕ) (app : App) (C S m D p n q : ℕ) (inplace : Bool) : Fft :=
  let N := m * q
  let P := if p = 2 then 1 else p
  let l := m * P
  let b := S * l
  let d := C * D * P
  let ow0 : Bool := inplace ∧ L = p * m ∧ n = p + 1 ∧ D = 1 ∧ app.B ≤ app.A ∧ app.overwrite
  let ow := if 2 < p then false else ow0
  let D0 := if n % D = 0 then D else n % D
  { L := L, M := N, C := C, S := S, m := m, p := p, q := q, n := n
    R := residueBlocks p n D false, dr := Dr p D false, D := D, D0 := D0
    Cm := C * m, Sm := S * m, l := l, b := b, inplace := inplace, centered := false
    overwrite := ow, A := app.A, B := app.B, route := chooseRoute q p S ow
    pad := if p = 1 ∧ inplace = false ∧ L < m then (if S = 1 then .single else .many) else .none
    fftm := if S = 1 then ⟨m, 1, d, 1, m, inplace⟩ else ⟨m, 1, C, S, 1, inplace⟩
    ifftm := if S = 1 then ⟨m, -1, d, 1, m, inplace⟩ else ⟨m, -1, C, S, 1, inplace⟩
    fftm0 := if D0 ≠ D then ⟨m, 1, D0 * P, 1, m, inplace⟩ else .null
    ifftm0 := if D0 ≠ D then ⟨m, -1, D0 * P, 1, m, inplace⟩ else .null
    fftp := if 2 < p then (if S = C then ⟨P, 1, C * m, C * m, 1, true⟩ else ⟨P, 1, C, S * m, 1, true⟩)
      else .null
    ifftp := if 2 < p then (if S = C then ⟨P, -1, C * m, C * m, 1, true⟩ else ⟨P, -1, C, S * m, 1, true⟩)
      else .null
    Zetaqm := initZetaqm N q m
    ZetaqmS := if p = 2 then initZetaqmS N q m L else .null
    Zetaqp := if 2 < p then initZetaqp q n P else .null }

/-- The `fftPad` object built by `fftPad(L,M,app,C,S,m,D,inplace)` (convolve.h:523-530, fftBase constructor
convolve.h:233-240, `checkParameters` convolve.cc:464-475, `common` convolve.cc:477-493, `init` convolve.cc:495-703).
`S=0` means `S=C`.  `exit` and `invalid()` are `Err.exit`. -/
noncomputable def Fft.new (L M : ℕ) (app : App) (C S0 m D : ℕ) (inplace : Bool) : Except Err Fft :=
  let S := if S0 = 0 then C else S0
  if M < L then .error .exit
  else if S < C then .error .exit
  else if m = 0 ∨ L = 0 then .error .ub   -- division by zero in `parameters`
  else
    let (p, n, q) := parameters L M m false
    if 1 < q ∧ fftPadValid q n D S = false then .error .exit
    else if q * m < M then .error .exit
    else if q = 1 then .ok (Fft.newExplicit L app C S m p n q inplace)
    else if D = 0 then .error .ub   -- accepted by `valid` if S=1, then division by zero in `n % D`
    else .ok (Fft.newHybrid L app C S m D p n q inplace)

namespace Fft
variable (o : Fft)

/-- convolve.h:378-380 `conjugates()`. -/
def conj : Bool := conjugates o.p o.D o.centered

/-- convolve.h:388-390 `increment(r)`. -/
def increment (r : ℕ) : ℕ := if 0 < r then o.dr else if o.conj then ceilquotient o.D0 2 else o.D0

/-- convolve.h:419-421 `outputSize()`. -/
def outputSize : ℕ := o.b * o.D

/-- convolve.h:424-426 `blocksize(r)`. -/
def blocksize (_r : ℕ) : ℕ := o.l

/-- convolve.h:429-431 `noutputs(r)`. -/
def noutputs (r : ℕ) : ℕ := o.blocksize r * (if r = 0 then o.D0 else o.D)

/-- convolve.h:434-436 `span(r)`. -/
def span (r : ℕ) : ℕ := o.S * o.noutputs r

/-- convolve.h:443-445 `workSizeW()`. -/
def workSizeW : ℕ := if o.inplace then 0 else o.outputSize

/-- convolve.h:447-449 `repad()`. -/
def repad : Bool := o.inplace = false ∧ o.L < o.m

/-- convolve.h:289-315 `index(r,i)`.  (The C++ `double incr` holds the value of an integer quotient.) -/
def index (r i : ℕ) : ℕ :=
  if o.q = 1 then i else
  let s := i % o.m
  if 1 < o.D ∧ ((o.centered ∧ o.p % 2 = 0) ∨ o.p ≤ 2) then
    let P := ceilquotient o.p 2
    let u := (i / o.m) % P
    let offset := if r = 0 ∧ P * o.m ≤ i ∧ o.D0 % 2 = 1 then 1 else 0
    let incr := (i + P * o.m * offset) / (2 * P * o.m)
    let r1 := r + incr
    if ((i / (P * o.m) : ℕ) : ℤ) - 2 * incr + offset = 1 then
      let s1 := if (o.centered = false ∧ o.p = 2) ∨ (0 < r1 ∧ u = 0) then (if 0 < s then s - 1 else o.m - 1) else s
      if r1 = 0 then o.q * s1 + o.n * u + o.n / 2
      else o.q * s1 + o.n * (if 0 < u then u - 1 else P - 1) + (o.n - r1)
    else o.q * s + o.n * u + r1
  else
    let u := (i / o.m) % o.p
    o.q * s + o.n * u + (r + i / (o.p * o.m))

/-- convolve.h:317-320 `Index(r,I)` (the subtraction may be negative in `size_t` arithmetic, wrapping back). -/
def Index (r I : ℕ) : ℤ := o.S * ((o.index r (I / o.S) : ℤ) - (I / o.S : ℕ)) + I

/-- The residue loop `for(r=0; r < R; r += increment(r))` (e.g. convolve.h:392-397), with fuel: the list of visited `r`. -/
def visited : ℕ → ℕ → List ℕ
  | 0, _ => []
  | fuel + 1, r => if r < o.R then r :: visited fuel (r + o.increment r) else []

/-- convolve.h:392-397 `nloops()`: number of iterations of the loop (`R` iterations suffice as fuel, see C06). -/
def nloops : ℕ := (o.visited (o.R + 1) 0).length

/-- convolve.h:399-401 `loop2()`. -/
def loop2 : Bool := o.nloops = 2 ∧ o.B < o.A ∧ o.overwrite = false

end Fft
end Fftwpp
