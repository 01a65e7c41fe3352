import Verif.Model.FftPad

/-!
# The centered hybrid transforms (fftPadCentered, convolve.cc:2107-4447, convolve.h:592-697)

The data `f[0],…,f[L-1]` are the values at the positions `-(L/2),…,L-1-L/2`.  The conventions are those of `Model/FftPad.lean`.
The class `fftPadCentered` derives from `fftPad`; a `Cent` therefore extends `Fft`.
-/

namespace Fftwpp

/-- Data members of `fftPadCentered` (convolve.h:592-594): those of `fftPad` and `ZetaShift`.  `fast` records which of the explicit
routines `fftPadCentered::init` selected (convolve.cc:2113-2139, `M % 2 == 0`). -/
structure Cent extends Fft where
  ZetaShift : Table
  fast : Bool

/-- convolve.cc:2274-2286 `initShift` (called when `q=1`): `ZetaShift[s]=expi(2π (L/2) s/M)`, `0 ≤ s < M`. -/
noncomputable def initShift (L M : ℕ) : Table where
  lo := 0
  hi := M
  val i := w M (((L / 2) * i : ℕ) : ℤ)

/-- The choice of routines in `fftPad::init` (convolve.cc:501-528, 566-676), centered (with `overwrite` kept for `p>2`). -/
def chooseRouteCentered (q p S : ℕ) (overwrite : Bool) : Routine := chooseRoute q p S overwrite

/-- convolve.cc:505-528 `fftPad::init`, case `q=1`, followed by convolve.cc:2107-2145 `fftPadCentered::init`. -/
noncomputable def Cent.newExplicit (L : ℕ) (app : App) (C S m p n q : ℕ) (inplace : Bool) : Cent :=
  let N := m * q
  { L := L, M := N, C := C, S := S, m := m, p := p, q := q, n := n, R := 1, dr := 1, D := 1, D0 := 1
    Cm := C * m, Sm := S * m, l := N, b := S * N, inplace := inplace, centered := true
    overwrite := false, A := app.A, B := app.B, route := chooseRouteCentered q p S false, pad := .none
    fftm := if S = 1 then ⟨m, 1, 1, 1, 0, inplace⟩ else ⟨m, 1, C, S, 1, inplace⟩
    ifftm := if S = 1 then ⟨m, -1, 1, 1, 0, inplace⟩ else ⟨m, -1, C, S, 1, inplace⟩
    fftm0 := .null, ifftm0 := .null, fftp := .null, ifftp := .null
    Zetaqm := .null, ZetaqmS := .null, Zetaqp := .null
    ZetaShift := if N % 2 = 0 then .null else initShift L N
    fast := N % 2 = 0 }

/-- convolve.cc:529-697 `fftPad::init`, case `q>1`, centered; `N=m*q`. -/
noncomputable def Cent.newHybrid (L : ℕ) (app : App) (C S m D p n q : ℕ) (inplace : Bool) : Cent :=
  let N := m * q
  let P := if p = 2 then 1 else p / 2
  let P1 := if p = 2 then 1 else P + 1
  let l := m * P
  let b := S * l
  let d := C * D * P
  let ow : Bool := inplace ∧ L = p * m ∧ n = 3 ∧ D = 1 ∧ app.B ≤ app.A ∧ app.overwrite
  let D0 := if n % D = 0 then D else n % D
  { L := L, M := N, C := C, S := S, m := m, p := p, q := q, n := n
    R := residueBlocks p n D true, dr := Dr p D true, D := D, D0 := D0
    Cm := C * m, Sm := S * m, l := l, b := b, inplace := inplace, centered := true
    overwrite := ow, A := app.A, B := app.B, route := chooseRouteCentered q p S ow
    pad := if p = 1 ∧ inplace = false ∧ L < m then (if S = 1 then .single else .many) else .none
    fftm := if S = 1 then ⟨m, 1, d, 1, m, inplace⟩ else ⟨m, 1, C, S, 1, inplace⟩
    ifftm := if S = 1 then ⟨m, -1, d, 1, m, inplace⟩ else ⟨m, -1, C, S, 1, inplace⟩
    fftm0 := if D0 ≠ D then ⟨m, 1, D0 * P, 1, m, inplace⟩ else .null
    ifftm0 := if D0 ≠ D then ⟨m, -1, D0 * P, 1, m, inplace⟩ else .null
    fftp := if 2 < p then (if S = C then ⟨P, 1, C * m, C * m, 1, true⟩ else ⟨P, 1, C, S * m, 1, true⟩)
      else .null
    ifftp := if 2 < p then (if S = C then ⟨P, -1, C * m, C * m, 1, true⟩ else ⟨P, -1, C, S * m, 1, true⟩)
      else .null
    Zetaqm := initZetaqm N q (if p = 2 then m + 1 else m)
    ZetaqmS := .null
    Zetaqp := if 2 < p then initZetaqp q n P1 else .null
    ZetaShift := .null
    fast := false }

/-- convolve.h:606-608 `fftPadCentered::Opt::valid`. -/
def fftPadCenteredValid (p q n D S : ℕ) : Bool := (q = 1 ∨ p % 2 = 0) ∧ fftPadValid q n D S

/-- The object built by `fftPadCentered(L,M,app,C,S,m,D,inplace)` (convolve.h:640-649, and the base constructors and checks cited
for `Fft.new`).  `S=0` means `S=C`.  `exit` and `invalid()` are `Err.exit`. -/
noncomputable def Cent.new (L M : ℕ) (app : App) (C S0 m D : ℕ) (inplace : Bool) : Except Err Cent :=
  let S := if S0 = 0 then C else S0
  if M < L then .error .exit
  else if S < C then .error .exit
  else if m = 0 ∨ L = 0 then .error .ub   -- division by zero in `parameters`
  else
    let (p, n, q) := parameters L M m true
    if 1 < q ∧ fftPadCenteredValid p q n D S = false then .error .exit
    else if q * m < M then .error .exit
    else if q = 1 then .ok (Cent.newExplicit L app C S m p n q inplace)
    else if D = 0 then .error .ub   -- accepted by `valid` if S=1, then division by zero in `n % D`
    else .ok (Cent.newHybrid L app C S m D p n q inplace)

namespace Cent
variable (o : Cent)
open Fft (copy1 zero1)

/-- `F[s] *= z`, the body of the twiddling loops. -/
def mulBy (p : Ptr) (z : ℂ) : Body Unit := do
  let v ← load p
  store p (v * z)

/-- convolve.cc:2146-2176 `forwardExplicitFast`.  (`FH=W+S*H` with `S=1`; the loop over odd `s` is `s=2*k+1`.) -/
noncomputable def forwardExplicitFast (f F : Ptr) (W? : Option Ptr) : Cmd Unit := do
  let W := W?.getD F
  let H := ceilquotient (o.M - o.L) 2
  par (rng 0 H) fun s => zero1 (W + s)
  let FH := W + o.S * H
  par (rng 0 o.L) fun s => copy1 (FH + s) (f + s)
  par (rng (H + o.L) o.M) fun s => zero1 (W + s)
  o.fftm.exec W F
  par (rng 0 (o.m / 2)) fun k => mulBy (F + (2 * k + 1)) (-1)

/-- convolve.cc:2178-2198 `backwardExplicitFast`. -/
noncomputable def backwardExplicitFast (F f : Ptr) (W? : Option Ptr) : Cmd Unit := do
  let W := W?.getD F
  par (rng 0 (o.m / 2)) fun k => mulBy (F + (2 * k + 1)) (-1)
  o.ifftm.exec F W
  let H := ceilquotient (o.M - o.L) 2
  let FH := W + o.S * H
  par (rng 0 o.L) fun s => copy1 (f + s) (FH + s)

/-- convolve.cc:2200-2243 `forwardExplicitManyFast`. -/
noncomputable def forwardExplicitManyFast (f F : Ptr) (W? : Option Ptr) : Cmd Unit := do
  let W := W?.getD F
  let H := ceilquotient (o.M - o.L) 2
  par (rng2 0 H 0 o.C) fun (s, c) => zero1 (W + o.S * s + c)
  let FH := W + o.S * H
  par (rng2 0 o.L 0 o.C) fun (s, c) => copy1 (FH + o.S * s + c) (f + o.S * s + c)
  par (rng2 (H + o.L) o.M 0 o.C) fun (s, c) => zero1 (W + o.S * s + c)
  o.fftm.exec W F
  par (rng2 0 (o.m / 2) 0 o.C) fun (k, c) => mulBy (F + o.S * (2 * k + 1) + c) (-1)

/-- convolve.cc:2245-2272 `backwardExplicitManyFast`. -/
noncomputable def backwardExplicitManyFast (F f : Ptr) (W? : Option Ptr) : Cmd Unit := do
  let W := W?.getD F
  par (rng2 0 (o.m / 2) 0 o.C) fun (k, c) => mulBy (F + o.S * (2 * k + 1) + c) (-1)
  o.ifftm.exec F W
  let H := ceilquotient (o.M - o.L) 2
  let FH := W + o.S * H
  par (rng2 0 o.L 0 o.C) fun (s, c) => copy1 (f + o.S * s + c) (FH + o.S * s + c)

/-- convolve.cc:2288-2297 `forwardExplicitSlow`. -/
noncomputable def forwardExplicitSlow (f F : Ptr) (W? : Option Ptr) : Cmd Unit := do
  o.toFft.forwardExplicit f F W?
  par (rng 0 o.m) fun s => do
    let z ← o.ZetaShift.get s
    mulBy (F + s) ((starRingEnd ℂ) z)

/-- convolve.cc:2299-2308 `backwardExplicitSlow`. -/
noncomputable def backwardExplicitSlow (F f : Ptr) (W? : Option Ptr) : Cmd Unit := do
  par (rng 0 o.m) fun s => do
    let z ← o.ZetaShift.get s
    mulBy (F + s) z
  o.toFft.backwardExplicit F f W?

/-- convolve.cc:2310-2322 `forwardExplicitManySlow`. -/
noncomputable def forwardExplicitManySlow (f F : Ptr) (W? : Option Ptr) : Cmd Unit := do
  o.toFft.forwardExplicitMany f F W?
  par (rng2 0 o.m 0 o.C) fun (s, c) => do
    let z ← o.ZetaShift.get s
    mulBy (F + o.S * s + c) ((starRingEnd ℂ) z)

/-- convolve.cc:2324-2336 `backwardExplicitManySlow`. -/
noncomputable def backwardExplicitManySlow (F f : Ptr) (W? : Option Ptr) : Cmd Unit := do
  par (rng2 0 o.m 0 o.C) fun (s, c) => do
    let z ← o.ZetaShift.get s
    mulBy (F + o.S * s + c) z
  o.toFft.backwardExplicitMany F f W?

/-- convolve.cc:2338-2371 `forward2All`. -/
noncomputable def forward2All (f F : Ptr) : Cmd Unit := do
  let g := f + o.m
  let Zr := o.m + 1
  (do
    let V0 ← load f
    let z ← o.Zetaqm.get (Zr + o.m)
    let Zetam := CONJ z
    let A := Zetam ⊙ UNPACKL V0 V0
    let B := ZMULTI (Zetam ⊙ UNPACKH V0 V0)
    let V1 ← load g
    store f (V0 + V1)
    store g (V1 + A + B)
    store F (V1 + CONJ (A - B)) : Body Unit).run
  par (rng 1 o.m) fun s => do
    let Zeta ← o.Zetaqm.get (Zr + s)
    let z ← o.Zetaqm.get (Zr + o.m - s)
    let Zetam := CONJ z
    let V0 ← load (f + s)
    let V1 ← load (g + s)
    let A := Zetam ⊙ UNPACKL V0 V0 + Zeta ⊙ UNPACKL V1 V1
    let B := ZMULTI (Zetam ⊙ UNPACKH V0 V0 + Zeta ⊙ UNPACKH V1 V1)
    store (f + s) (V0 + V1)
    store (g + s) (A + B)
    store (F + s) (CONJ (A - B))
  o.fftm.exec f f
  o.fftm.exec g g
  o.fftm.exec F F

/-- convolve.cc:2465-2509, the body of the loop over `d` in `forward2` (residues `r` and `-r`). -/
noncomputable def forward2Pair (f F : Ptr) (r : ℕ) : Cmd Unit := do
  let H := o.L / 2
  let mH := o.m - H
  let LH := o.L - H
  let fmH := f - mH
  let fH := f + H
  let G := F + o.m
  let Zr := (o.m + 1) * r
  par (rng 0 mH) fun s => do
    let Zeta ← o.Zetaqm.get (Zr + s)
    let fs ← load (fH + s)
    let A := Zeta ⊙ UNPACKL fs fs
    let B := ZMULTI (Zeta ⊙ UNPACKH fs fs)
    store (F + s) (A + B)
    store (G + s) (CONJ (A - B))
  par (rng mH LH) fun s => do
    let Zeta ← o.Zetaqm.get (Zr + s)
    let z ← o.Zetaqm.get (Zr + o.m - s)
    let Zetam := CONJ z
    let fms ← load (fmH + s)
    let fs ← load (fH + s)
    let A := Zetam ⊙ UNPACKL fms fms + Zeta ⊙ UNPACKL fs fs
    let B := ZMULTI (Zetam ⊙ UNPACKH fms fms + Zeta ⊙ UNPACKH fs fs)
    store (F + s) (A + B)
    store (G + s) (CONJ (A - B))
  par (rng LH o.m) fun s => do
    let z ← o.Zetaqm.get (Zr + o.m - s)
    let Zetam := CONJ z
    let fms ← load (fmH + s)
    let A := Zetam ⊙ UNPACKL fms fms
    let B := ZMULTI (Zetam ⊙ UNPACKH fms fms)
    store (F + s) (A + B)
    store (G + s) (CONJ (A - B))

/-- convolve.cc:2438-2511, the part of `forward2` after the treatment of `r0=0`. -/
noncomputable def forward2Rest (f W : Ptr) (r0 dr0 : ℕ) : Cmd Unit :=
  let H := o.L / 2
  let mH := o.m - H
  let LH := o.L - H
  let fmH := f - mH
  let fH := f + H
  if o.D = 1 then
    if 0 < dr0 then do
      let Zr := (o.m + 1) * r0
      par (rng 0 mH) fun s => do
        let z ← o.Zetaqm.get (Zr + s)
        let v ← load (fH + s)
        store (W + s) (z * v)
      par (rng mH LH) fun s => do
        let Zeta ← o.Zetaqm.get (Zr + s)
        let Zetam ← o.Zetaqm.get (Zr + o.m - s)
        let fs ← load (fH + s)
        let fms ← load (fmH + s)
        store (W + s) (ZCMULT Zetam fms + ZMULT Zeta fs)
      par (rng LH o.m) fun s => do
        let z ← o.Zetaqm.get (Zr + o.m - s)
        let v ← load (fmH + s)
        store (W + s) ((starRingEnd ℂ) z * v)
    else pure ()
  else
    seqLoop (rng 0 dr0) fun d => o.forward2Pair f (W + 2 * o.m * d) (r0 + d)

/-- convolve.cc:2373-2514 `forward2`. -/
noncomputable def forward2 (f F0 : Ptr) (r0 : ℕ) (W? : Option Ptr) : Cmd Unit :=
  let W := W?.getD F0
  let H := o.L / 2
  let mH := o.m - H
  let LH := o.L - H
  let fmH := f - mH
  let fH := f + H
  if r0 = 0 then
    let q2 := o.q / 2
    if o.D = 1 ∨ 2 * q2 < o.q then do
      par (rng 0 mH) fun s => copy1 (W + s) (fH + s)
      par (rng mH LH) fun s => do
        let u ← load (fmH + s)
        let v ← load (fH + s)
        store (W + s) (u + v)
      par (rng LH o.m) fun s => copy1 (W + s) (fmH + s)
      o.forward2Rest f (W + 1 * o.m) 1 ((o.D0 - 1) / 2)
      (if o.D0 = o.D then o.fftm else o.fftm0).exec W F0
    else do
      let V := W + o.m
      let Zr := (o.m + 1) * q2
      par (rng 0 mH) fun s => do
        let A ← load (fH + s)
        store (W + s) A
        let z ← o.Zetaqm.get (Zr + s)
        store (V + s) (z * A)
      par (rng mH LH) fun s => do
        let B ← load (fmH + s)
        let A ← load (fH + s)
        store (W + s) (A + B)
        let z ← o.Zetaqm.get (Zr + s)
        store (V + s) (z * (A - B))
      par (rng LH o.m) fun s => do
        let B ← load (fmH + s)
        store (W + s) B
        let z ← o.Zetaqm.get (Zr + s)
        store (V + s) (-z * B)
      o.forward2Rest f (W + 2 * o.m) 1 ((o.D0 - 2) / 2)
      (if o.D0 = o.D then o.fftm else o.fftm0).exec W F0
  else do
    o.forward2Rest f W r0 o.dr
    o.fftm.exec W F0

/-- convolve.cc:2516-2566 `forward2ManyAll`. -/
noncomputable def forward2ManyAll (f F : Ptr) : Cmd Unit := do
  let g := f + o.Sm
  let Zr := o.m + 1
  par (rng 0 o.C) fun c => do
    let z ← o.Zetaqm.get (Zr + o.m)
    let Zetam := CONJ z
    let V0 ← load (f + c)
    let A := Zetam ⊙ UNPACKL V0 V0
    let B := ZMULTI (Zetam ⊙ UNPACKH V0 V0)
    let V1 ← load (g + c)
    store (f + c) (V0 + V1)
    store (g + c) (V1 + A + B)
    store (F + c) (V1 + CONJ (A - B))
  par (rng2 1 o.m 0 o.C) fun (s, c) => do
    let Zeta ← o.Zetaqm.get (Zr + s)
    let Zetam ← o.Zetaqm.get (Zr + o.m - s)
    let X := UNPACKL Zeta Zeta
    let Y := UNPACKH Zeta (-Zeta)
    let Xm := UNPACKL Zetam Zetam
    let Ym := UNPACKH (-Zetam) Zetam
    let V0 ← load (f + o.S * s + c)
    let V1 ← load (g + o.S * s + c)
    let A := Xm ⊙ V0 + X ⊙ V1
    let B := FLIP (Ym ⊙ V0 + Y ⊙ V1)
    store (f + o.S * s + c) (V0 + V1)
    store (g + o.S * s + c) (A + B)
    store (F + o.S * s + c) (A - B)
  o.fftm.exec f f
  o.fftm.exec g g
  o.fftm.exec F F

/-- convolve.cc:2568-2659 `forward2Many`. -/
noncomputable def forward2Many (f F : Ptr) (r : ℕ) (W? : Option Ptr) : Cmd Unit := do
  let W := W?.getD F
  let H := o.L / 2
  let mH := o.m - H
  let LH := o.L - H
  let fH := f + o.S * H
  let fmH := f - o.S * mH
  if r = 0 then do
    par (rng2 0 mH 0 o.C) fun (s, c) => copy1 (W + o.S * s + c) (fH + o.S * s + c)
    par (rng2 mH LH 0 o.C) fun (s, c) => do
      let u ← load (fmH + o.S * s + c)
      let v ← load (fH + o.S * s + c)
      store (W + o.S * s + c) (u + v)
    par (rng2 LH o.m 0 o.C) fun (s, c) => copy1 (W + o.S * s + c) (fmH + o.S * s + c)
  else do
    let Zr := (o.m + 1) * r
    par (rng2 0 mH 0 o.C) fun (s, c) => do
      let Zeta ← o.Zetaqm.get (Zr + s)
      let X := UNPACKL Zeta Zeta
      let Y := UNPACKH Zeta (-Zeta)
      let v ← load (fH + o.S * s + c)
      store (W + o.S * s + c) (ZMULTxy X Y v)
    par (rng2 mH LH 0 o.C) fun (s, c) => do
      let Zeta ← o.Zetaqm.get (Zr + s)
      let Zetam ← o.Zetaqm.get (Zr + o.m - s)
      let X := UNPACKL Zeta Zeta
      let Y := UNPACKH Zeta (-Zeta)
      let Xm := UNPACKL Zetam Zetam
      let Ym := UNPACKH (-Zetam) Zetam
      let u ← load (fmH + o.S * s + c)
      let v ← load (fH + o.S * s + c)
      store (W + o.S * s + c) (ZMULTxy Xm Ym u + ZMULTxy X Y v)
    par (rng2 LH o.m 0 o.C) fun (s, c) => do
      let Zetam ← o.Zetaqm.get (Zr + o.m - s)
      let Xm := UNPACKL Zetam Zetam
      let Ym := UNPACKH (-Zetam) Zetam
      let u ← load (fmH + o.S * s + c)
      store (W + o.S * s + c) (ZMULTxy Xm Ym u)
  o.fftm.exec W F

/-- convolve.cc:2661-2691 `backward2All`. -/
noncomputable def backward2All (F f : Ptr) : Cmd Unit := do
  let g := f + o.m
  o.ifftm.exec f f
  o.ifftm.exec g g
  o.ifftm.exec F F
  let Zr := o.m + 1
  (do
    let V0 ← load f
    let V1 ← load g
    let V2 ← load F
    let z ← o.Zetaqm.get (Zr + o.m)
    store f (V0 + ZMULT2 z V1 V2)
    store g (V0 + V1 + V2) : Body Unit).run
  par (rng 1 o.m) fun s => do
    let V0 ← load (f + s)
    let V1 ← load (g + s)
    let V2 ← load (F + s)
    let zm ← o.Zetaqm.get (Zr + o.m - s)
    store (f + s) (V0 + ZMULT2 zm V1 V2)
    let z ← o.Zetaqm.get (Zr + s)
    store (g + s) (V0 + ZMULT2 z V2 V1)

/-- convolve.cc:2763-2790, the body of the loop over `d` in `backward2`. -/
noncomputable def backward2Pair (U f : Ptr) (r : ℕ) : Cmd Unit := do
  let H := o.L / 2
  let odd := o.L - 2 * H
  let mH := o.m - H
  let fmH := f - mH
  let fH := f + H
  let V := U + o.m
  let Zr := (o.m + 1) * r
  par (rng H o.m) fun s => do
    let v ← load (fmH + s)
    let z ← o.Zetaqm.get (Zr + o.m - s)
    let Us ← load (U + s)
    let Vs ← load (V + s)
    store (fmH + s) (v + ZMULT2 z Us Vs)
  par (rng mH H) fun s => do
    let Us ← load (U + s)
    let Vs ← load (V + s)
    let Zeta ← o.Zetaqm.get (Zr + s)
    let Zetam ← o.Zetaqm.get (Zr + o.m - s)
    let u ← load (fmH + s)
    store (fmH + s) (u + ZMULT2 Zetam Us Vs)
    let v ← load (fH + s)
    store (fH + s) (v + ZMULT2 Zeta Vs Us)
  par (rng 0 mH) fun s => do
    let v ← load (fH + s)
    let z ← o.Zetaqm.get (Zr + s)
    let Vs ← load (V + s)
    let Us ← load (U + s)
    store (fH + s) (v + ZMULT2 z Vs Us)
  if odd ≠ 0 then
    (do
      let v ← load (fH + H)
      let z ← o.Zetaqm.get (Zr + H)
      let Vs ← load (V + H)
      let Us ← load (U + H)
      store (fH + H) (v + ZMULT2 z Vs Us) : Body Unit).run
  else pure ()

/-- convolve.cc:2746-2792, the part of `backward2` after the treatment of `r0=0`. -/
noncomputable def backward2Rest (W f : Ptr) (r0 dr0 : ℕ) : Cmd Unit :=
  let H := o.L / 2
  let mH := o.m - H
  let LH := o.L - H
  let fmH := f - mH
  let fH := f + H
  if o.D = 1 then
    if 0 < dr0 then do
      let Zr := (o.m + 1) * r0
      par (rng mH o.m) fun s => do
        let u ← load (fmH + s)
        let z ← o.Zetaqm.get (Zr + o.m - s)
        let v ← load (W + s)
        store (fmH + s) (u + z * v)
      par (rng 0 LH) fun s => do
        let u ← load (fH + s)
        let z ← o.Zetaqm.get (Zr + s)
        let v ← load (W + s)
        store (fH + s) (u + (starRingEnd ℂ) z * v)
    else pure ()
  else
    seqLoop (rng 0 dr0) fun d => o.backward2Pair (W + 2 * o.m * d) f (r0 + d)

/-- convolve.cc:2693-2792 `backward2`. -/
noncomputable def backward2 (F0 f : Ptr) (r0 : ℕ) (W? : Option Ptr) : Cmd Unit := do
  let W := W?.getD F0
  let H := o.L / 2
  let mH := o.m - H
  let LH := o.L - H
  let fmH := f - mH
  let fH := f + H
  (if 0 < r0 ∨ o.D0 = o.D then o.ifftm else o.ifftm0).exec F0 W
  if r0 = 0 then
    let q2 := o.q / 2
    if o.D = 1 ∨ 2 * q2 < o.q then do
      par (rng mH o.m) fun s => copy1 (fmH + s) (W + s)
      par (rng 0 LH) fun s => copy1 (fH + s) (W + s)
      o.backward2Rest (W + 1 * o.m) f 1 ((o.D0 - 1) / 2)
    else do
      let V := W + o.m
      let Zr := (o.m + 1) * q2
      par (rng mH o.m) fun s => do
        let u ← load (W + s)
        let z ← o.Zetaqm.get (Zr + o.m - s)
        let v ← load (V + s)
        store (fmH + s) (u + z * v)
      par (rng 0 LH) fun s => do
        let u ← load (W + s)
        let z ← o.Zetaqm.get (Zr + s)
        let v ← load (V + s)
        store (fH + s) (u + (starRingEnd ℂ) z * v)
      o.backward2Rest (W + 2 * o.m) f 1 ((o.D0 - 2) / 2)
  else o.backward2Rest W f r0 o.dr

/-- convolve.cc:2794-2843 `backward2ManyAll`. -/
noncomputable def backward2ManyAll (F f : Ptr) : Cmd Unit := do
  let g := f + o.Sm
  o.ifftm.exec f f
  o.ifftm.exec g g
  o.ifftm.exec F F
  let Zr := o.m + 1
  par (rng 0 o.C) fun c => do
    let Zetam ← o.Zetaqm.get (Zr + o.m)
    let Xm := UNPACKL Zetam Zetam
    let Ym := UNPACKH Zetam (-Zetam)
    let V0 ← load (f + c)
    let V1 ← load (g + c)
    let V2 ← load (F + c)
    store (f + c) (V0 + ZMULT2xy Xm Ym V1 V2)
    store (g + c) (V0 + V1 + V2)
  par (rng2 1 o.m 0 o.C) fun (s, c) => do
    let Zetam ← o.Zetaqm.get (Zr + o.m - s)
    let Zeta ← o.Zetaqm.get (Zr + s)
    let Xm := UNPACKL Zetam Zetam
    let Ym := UNPACKH Zetam (-Zetam)
    let X := UNPACKL Zeta Zeta
    let Y := UNPACKH (-Zeta) Zeta
    let V0 ← load (f + o.S * s + c)
    let V1 ← load (g + o.S * s + c)
    let V2 ← load (F + o.S * s + c)
    store (f + o.S * s + c) (V0 + ZMULT2xy Xm Ym V1 V2)
    store (g + o.S * s + c) (V0 + ZMULT2xy X Y V1 V2)

/-- convolve.cc:2845-2960 `backward2Many`. -/
noncomputable def backward2Many (F f : Ptr) (r : ℕ) (W? : Option Ptr) : Cmd Unit := do
  let W := W?.getD F
  o.ifftm.exec F W
  let H := o.L / 2
  let odd := o.L - 2 * H
  let mH := o.m - H
  let fmH := f - o.S * mH
  let fH := f + o.S * H
  if r = 0 then do
    par (rng2 H o.m 0 o.C) fun (s, c) => copy1 (fmH + o.S * s + c) (W + o.S * s + c)
    par (rng2 mH H 0 o.C) fun (s, c) => do
      let v ← load (W + o.S * s + c)
      store (fmH + o.S * s + c) v
      store (fH + o.S * s + c) v
    par (rng2 0 mH 0 o.C) fun (s, c) => copy1 (fH + o.S * s + c) (W + o.S * s + c)
    if odd ≠ 0 then par (rng 0 o.C) fun c => copy1 (fH + o.S * H + c) (W + o.S * H + c) else pure ()
  else do
    let Zr := (o.m + 1) * r
    par (rng2 H o.m 0 o.C) fun (s, c) => do
      let Zetam ← o.Zetaqm.get (Zr + o.m - s)
      let Xm := UNPACKL Zetam Zetam
      let Ym := UNPACKH Zetam (-Zetam)
      let u ← load (fmH + o.S * s + c)
      let v ← load (W + o.S * s + c)
      store (fmH + o.S * s + c) (u + ZMULTxy Xm Ym v)
    par (rng2 mH H 0 o.C) fun (s, c) => do
      let Zetam ← o.Zetaqm.get (Zr + o.m - s)
      let Zeta ← o.Zetaqm.get (Zr + s)
      let Xm := UNPACKL Zetam Zetam
      let Ym := UNPACKH Zetam (-Zetam)
      let X := UNPACKL Zeta Zeta
      let Y := UNPACKH (-Zeta) Zeta
      let Fsc ← load (W + o.S * s + c)
      let u ← load (fmH + o.S * s + c)
      store (fmH + o.S * s + c) (u + ZMULTxy Xm Ym Fsc)
      let v ← load (fH + o.S * s + c)
      store (fH + o.S * s + c) (v + ZMULTxy X Y Fsc)
    par (rng2 0 mH 0 o.C) fun (s, c) => do
      let Zeta ← o.Zetaqm.get (Zr + s)
      let X := UNPACKL Zeta Zeta
      let Y := UNPACKH (-Zeta) Zeta
      let u ← load (fH + o.S * s + c)
      let v ← load (W + o.S * s + c)
      store (fH + o.S * s + c) (u + ZMULTxy X Y v)
    if odd ≠ 0 then
      par (rng 0 o.C) fun c => do
        let Zeta ← o.Zetaqm.get (Zr + H)
        let X := UNPACKL Zeta Zeta
        let Y := UNPACKH (-Zeta) Zeta
        let u ← load (fH + o.S * H + c)
        let v ← load (W + o.S * H + c)
        store (fH + o.S * H + c) (u + ZMULTxy X Y v)
    else pure ()

/-- convolve.cc:2962-3039 `forwardInnerAll`.  (The loops over `u` and `s` are one loop over pairs, each treating the three arrays.) -/
noncomputable def forwardInnerAll (f F : Ptr) : Cmd Unit := do
  let p2 := o.p / 2
  let g := f + o.b
  par (rng 0 o.m) fun s => do
    let z ← o.Zetaqp.get o.p
    let Zetanr := CONJ z
    let V0 ← load (f + s)
    let V1 ← load (g + s)
    let A := Zetanr ⊙ UNPACKL V0 V0
    let B := ZMULTI (Zetanr ⊙ UNPACKH V0 V0)
    store (f + s) (V0 + V1)
    store (g + s) (A + B + V1)
    store (F + s) (CONJ (A - B) + V1)
  par (rng2 1 p2 0 o.m) fun (t, s) => do
    let z ← o.Zetaqp.get o.p
    let Zetanr := CONJ z
    let tm := t * o.m
    let Zeta ← o.Zetaqp.get (p2 + t)
    let Zetam := ZMULT Zeta Zetanr
    let V0 ← load (f + tm + s)
    let V1 ← load (g + tm + s)
    let A := Zetam ⊙ UNPACKL V0 V0 + Zeta ⊙ UNPACKL V1 V1
    let B := ZMULTI (Zetam ⊙ UNPACKH V0 V0 + Zeta ⊙ UNPACKH V1 V1)
    store (f + tm + s) (V0 + V1)
    store (g + tm + s) (A + B)
    store (F + tm + s) (CONJ (A - B))
  o.fftp.exec f f
  o.fftp.exec g g
  o.fftp.exec F F
  par (rng 1 o.m) fun s => do
    let Zeta ← o.Zetaqm.get (o.m + s)
    mulBy (g + s) Zeta
    mulBy (F + s) ((starRingEnd ℂ) Zeta)
  par (rng2 1 p2 1 o.m) fun (u, s) => do
    let mu := o.m * u
    let z0 ← o.Zetaqm.get (o.n * mu + s)
    mulBy (f + mu + s) z0
    let z1 ← o.Zetaqm.get (o.n * mu + o.m + s)
    mulBy (g + mu + s) z1
    let z2 ← o.Zetaqm.get (o.n * mu - o.m + s)
    mulBy (F + mu + s) z2
  o.fftm.exec f f
  o.fftm.exec g g
  o.fftm.exec F F

/-- convolve.cc:3064-3112, residue 0 alone in `forwardInner`.  (The loops over `u` and `s` are one loop over pairs.) -/
noncomputable def forwardInnerZero (f W : Ptr) : Cmd Unit := do
  let p2 := o.p / 2
  let H := o.L / 2
  let p2s1 := p2 - 1
  let p2s1m := p2s1 * o.m
  let m0 := p2 * o.m - H
  let m1 := o.L - H - p2s1m
  let fm0 := f - m0
  let fH := f + H
  par (rng 0 m0) fun s => copy1 (W + s) (fH + s)
  par (rng m0 o.m) fun s => do
    let u ← load (fm0 + s)
    let v ← load (fH + s)
    store (W + s) (u + v)
  par (rng2 1 p2s1 0 o.m) fun (t, s) => do
    let tm := t * o.m
    let u ← load (fm0 + tm + s)
    let v ← load (fH + tm + s)
    store (W + tm + s) (u + v)
  par (rng 0 m1) fun s => do
    let u ← load (fm0 + p2s1m + s)
    let v ← load (fH + p2s1m + s)
    store (W + p2s1m + s) (u + v)
  par (rng m1 o.m) fun s => copy1 (W + p2s1m + s) (fm0 + p2s1m + s)
  o.fftp.exec W W
  par (rng2 1 p2 1 o.m) fun (u, s) => do
    let z ← o.Zetaqm.get (o.m * o.n * u + s)
    mulBy (W + u * o.m + s) z

/-- convolve.cc:3113-3190, residues 0 and n/2 in `forwardInner` (`n` even).  (The loops over `u` and `s` are one loop over pairs,
each treating both arrays.) -/
noncomputable def forwardInnerHalf (f W : Ptr) : Cmd Unit := do
  let p2 := o.p / 2
  let H := o.L / 2
  let p2s1 := p2 - 1
  let p2s1m := p2s1 * o.m
  let m0 := p2 * o.m - H
  let m1 := o.L - H - p2s1m
  let fm0 := f - m0
  let fH := f + H
  let n2 := o.n / 2
  let V := W + o.b
  par (rng 0 m0) fun s => do
    let v ← load (fH + s)
    store (W + s) v
    store (V + s) v
  par (rng m0 o.m) fun s => do
    let fm0s ← load (fm0 + s)
    let fHs ← load (fH + s)
    store (W + s) (fm0s + fHs)
    store (V + s) (-fm0s + fHs)
  par (rng2 1 p2s1 0 o.m) fun (t, s) => do
    let tm := t * o.m
    let Zeta ← o.Zetaqp.get (p2 * n2 + t)
    let fm0ts ← load (fm0 + tm + s)
    let fHts ← load (fH + tm + s)
    store (W + tm + s) (fm0ts + fHts)
    store (V + tm + s) (Zeta * (fHts - fm0ts))
  par (rng 0 m1) fun s => do
    let Zeta ← o.Zetaqp.get (p2 * n2 + p2s1)
    let fm0ts ← load (fm0 + p2s1m + s)
    let fHts ← load (fH + p2s1m + s)
    store (W + p2s1m + s) (fm0ts + fHts)
    store (V + p2s1m + s) (Zeta * (fHts - fm0ts))
  par (rng m1 o.m) fun s => do
    let Zeta ← o.Zetaqp.get (p2 * n2 + p2s1)
    let fm0ts ← load (fm0 + p2s1m + s)
    store (W + p2s1m + s) fm0ts
    store (V + p2s1m + s) (-Zeta * fm0ts)
  o.fftp.exec W W
  o.fftp.exec V V
  par (rng 0 o.m) fun s => do
    let z ← o.Zetaqm.get (o.m * n2 + s)
    mulBy (V + s) z
  par (rng2 1 p2 1 o.m) fun (u, s) => do
    let um := u * o.m
    let z ← o.Zetaqm.get (o.m * o.n * u + s)
    mulBy (W + um + s) z
    let z2 ← o.Zetaqm.get (o.m * o.n * u + o.m * n2 + s)
    mulBy (V + um + s) z2

/-- convolve.cc:3200-3281, one residue `r>0` in `forwardInner` (`D=1`). -/
noncomputable def forwardInnerOne (f W : Ptr) (r : ℕ) : Cmd Unit := do
  let p2 := o.p / 2
  let H := o.L / 2
  let p2s1 := p2 - 1
  let p2s1m := p2s1 * o.m
  let m0 := p2 * o.m - H
  let m1 := o.L - H - p2s1m
  let fm0 := f - m0
  let fH := f + H
  par (rng 0 m0) fun s => copy1 (W + s) (fH + s)
  par (rng m0 o.m) fun s => do
    let z ← o.Zetaqp.get (p2 * r + p2)
    let Zetanr := CONJ z
    let X := UNPACKL Zetanr Zetanr
    let Y := UNPACKH Zetanr (-Zetanr)
    let u ← load (fm0 + s)
    let v ← load (fH + s)
    store (W + s) (ZMULTxy X Y u + v)
  par (rng2 1 p2s1 0 o.m) fun (t, s) => do
    let z ← o.Zetaqp.get (p2 * r + p2)
    let Zetanr := CONJ z
    let tm := t * o.m
    let Zeta ← o.Zetaqp.get (p2 * r + t)
    let Zetam := ZMULT Zeta Zetanr
    let Xm := UNPACKL Zetam Zetam
    let Ym := UNPACKH Zetam (-Zetam)
    let X := UNPACKL Zeta Zeta
    let Y := UNPACKH Zeta (-Zeta)
    let u ← load (fm0 + tm + s)
    let v ← load (fH + tm + s)
    store (W + tm + s) (ZMULTxy Xm Ym u + ZMULTxy X Y v)
  par (rng 0 m1) fun s => do
    let z ← o.Zetaqp.get (p2 * r + p2)
    let Zetanr := CONJ z
    let Zeta ← o.Zetaqp.get (p2 * r + p2s1)
    let Zetam := ZMULT Zeta Zetanr
    let Xm := UNPACKL Zetam Zetam
    let Ym := UNPACKH Zetam (-Zetam)
    let X := UNPACKL Zeta Zeta
    let Y := UNPACKH Zeta (-Zeta)
    let u ← load (fm0 + p2s1m + s)
    let v ← load (fH + p2s1m + s)
    store (W + p2s1m + s) (ZMULTxy Xm Ym u + ZMULTxy X Y v)
  par (rng m1 o.m) fun s => do
    let z ← o.Zetaqp.get (p2 * r + p2)
    let Zetanr := CONJ z
    let Zeta ← o.Zetaqp.get (p2 * r + p2s1)
    let Zetam := ZMULT Zeta Zetanr
    let Xm := UNPACKL Zetam Zetam
    let Ym := UNPACKH Zetam (-Zetam)
    let u ← load (fm0 + p2s1m + s)
    store (W + p2s1m + s) (ZMULTxy Xm Ym u)
  o.fftp.exec W W
  par (rng 1 o.m) fun s => do
    let z ← o.Zetaqm.get (o.m * r + s)
    mulBy (W + s) z
  par (rng2 1 p2 1 o.m) fun (u, s) => do
    let mu := o.m * u
    let z ← o.Zetaqm.get (o.m * r + o.n * mu + s)
    mulBy (W + mu + s) z

/-- convolve.cc:3283-3365, the residues `r` and `-r` in `forwardInner` (`D>1`).  (The loops over `u` and `s` are one loop over
pairs, each treating both arrays.) -/
noncomputable def forwardInnerPair (f F : Ptr) (r : ℕ) : Cmd Unit := do
  let p2 := o.p / 2
  let H := o.L / 2
  let p2s1 := p2 - 1
  let p2s1m := p2s1 * o.m
  let m0 := p2 * o.m - H
  let m1 := o.L - H - p2s1m
  let fm0 := f - m0
  let fH := f + H
  let G := F + o.b
  par (rng 0 m0) fun s => do
    let v ← load (fH + s)
    store (F + s) v
    store (G + s) v
  par (rng m0 o.m) fun s => do
    let z ← o.Zetaqp.get (p2 * r + p2)
    let Zetanr := CONJ z
    let fm0ts ← load (fm0 + s)
    let fHts ← load (fH + s)
    let A := Zetanr ⊙ UNPACKL fm0ts fm0ts
    let B := ZMULTI (Zetanr ⊙ UNPACKH fm0ts fm0ts)
    store (F + s) (A + B + fHts)
    store (G + s) (CONJ (A - B) + fHts)
  par (rng2 1 p2s1 0 o.m) fun (t, s) => do
    let z ← o.Zetaqp.get (p2 * r + p2)
    let Zetanr := CONJ z
    let tm := t * o.m
    let Zeta ← o.Zetaqp.get (p2 * r + t)
    let Zetam := ZMULT Zeta Zetanr
    let fm0ts ← load (fm0 + tm + s)
    let fHts ← load (fH + tm + s)
    let A := Zetam ⊙ UNPACKL fm0ts fm0ts + Zeta ⊙ UNPACKL fHts fHts
    let B := ZMULTI (Zetam ⊙ UNPACKH fm0ts fm0ts + Zeta ⊙ UNPACKH fHts fHts)
    store (F + tm + s) (A + B)
    store (G + tm + s) (CONJ (A - B))
  par (rng 0 m1) fun s => do
    let z ← o.Zetaqp.get (p2 * r + p2)
    let Zetanr := CONJ z
    let Zeta ← o.Zetaqp.get (p2 * r + p2s1)
    let Zetam := ZMULT Zeta Zetanr
    let fm0ts ← load (fm0 + p2s1m + s)
    let fHts ← load (fH + p2s1m + s)
    let A := Zetam ⊙ UNPACKL fm0ts fm0ts + Zeta ⊙ UNPACKL fHts fHts
    let B := ZMULTI (Zetam ⊙ UNPACKH fm0ts fm0ts + Zeta ⊙ UNPACKH fHts fHts)
    store (F + p2s1m + s) (A + B)
    store (G + p2s1m + s) (CONJ (A - B))
  par (rng m1 o.m) fun s => do
    let z ← o.Zetaqp.get (p2 * r + p2)
    let Zetanr := CONJ z
    let Zeta ← o.Zetaqp.get (p2 * r + p2s1)
    let Zetam := ZMULT Zeta Zetanr
    let fm0ts ← load (fm0 + p2s1m + s)
    let A := Zetam ⊙ UNPACKL fm0ts fm0ts
    let B := ZMULTI (Zetam ⊙ UNPACKH fm0ts fm0ts)
    store (F + p2s1m + s) (A + B)
    store (G + p2s1m + s) (CONJ (A - B))
  o.fftp.exec F F
  o.fftp.exec G G
  par (rng 1 o.m) fun s => do
    let Zeta ← o.Zetaqm.get (o.m * r + s)
    mulBy (F + s) Zeta
    mulBy (G + s) ((starRingEnd ℂ) Zeta)
  par (rng2 1 p2 1 o.m) fun (u, s) => do
    let mu := o.m * u
    let z ← o.Zetaqm.get (o.n * mu + o.m * r + s)
    mulBy (F + mu + s) z
    let z2 ← o.Zetaqm.get (o.n * mu - o.m * r + s)
    mulBy (G + mu + s) z2

/-- convolve.cc:3199-3366, the part of `forwardInner` after the treatment of `r0=0`. -/
noncomputable def forwardInnerRest (f W : Ptr) (r0 dr0 : ℕ) : Cmd Unit :=
  if o.D = 1 then
    if 0 < dr0 then o.forwardInnerOne f W r0 else pure ()
  else
    seqLoop (rng 0 dr0) fun d => o.forwardInnerPair f (W + 2 * o.b * d) (r0 + d)

/-- convolve.cc:3041-3369 `forwardInner`. -/
noncomputable def forwardInner (f F0 : Ptr) (r0 : ℕ) (W? : Option Ptr) : Cmd Unit :=
  let W := W?.getD F0
  if r0 = 0 then
    let n2 := o.n / 2
    if o.D = 1 ∨ 2 * n2 < o.n then do
      o.forwardInnerZero f W
      o.forwardInnerRest f (W + 1 * o.b) 1 ((o.D0 - 1) / 2)
      (if o.D0 = o.D then o.fftm else o.fftm0).exec W F0
    else do
      o.forwardInnerHalf f W
      o.forwardInnerRest f (W + 2 * o.b) 1 ((o.D0 - 2) / 2)
      (if o.D0 = o.D then o.fftm else o.fftm0).exec W F0
  else do
    o.forwardInnerRest f W r0 o.dr
    o.fftm.exec W F0

/-- convolve.cc:3370-3485 `forwardInnerManyAll`.  (The loops over `u`, `s` and `c` are one loop over triples, each treating the three
arrays.) -/
noncomputable def forwardInnerManyAll (f F : Ptr) : Cmd Unit := do
  let p2 := o.p / 2
  let g := f + o.b
  par (rng2 0 o.m 0 o.C) fun (s, c) => do
    let z ← o.Zetaqp.get o.p
    let Zetanr := CONJ z
    let V0 ← load (f + o.S * s + c)
    let V1 ← load (g + o.S * s + c)
    let A := Zetanr ⊙ UNPACKL V0 V0
    let B := ZMULTI (Zetanr ⊙ UNPACKH V0 V0)
    store (f + o.S * s + c) (V0 + V1)
    store (g + o.S * s + c) (A + B + V1)
    store (F + o.S * s + c) (CONJ (A - B) + V1)
  par (rng3 1 p2 0 o.m 0 o.C) fun (t, s, c) => do
    let z ← o.Zetaqp.get o.p
    let Zetanr := CONJ z
    let tm := t * o.Sm
    let Zeta ← o.Zetaqp.get (p2 + t)
    let Zetam := ZMULT Zeta Zetanr
    let V0 ← load (f + tm + o.S * s + c)
    let V1 ← load (g + tm + o.S * s + c)
    let A := Zetam ⊙ UNPACKL V0 V0 + Zeta ⊙ UNPACKL V1 V1
    let B := ZMULTI (Zetam ⊙ UNPACKH V0 V0 + Zeta ⊙ UNPACKH V1 V1)
    store (f + tm + o.S * s + c) (V0 + V1)
    store (g + tm + o.S * s + c) (A + B)
    store (F + tm + o.S * s + c) (CONJ (A - B))
  (if o.S = o.C then do
    o.fftp.exec f f
    o.fftp.exec g g
    o.fftp.exec F F
  else
    seqLoop (rng 0 o.m) fun s => do
      o.fftp.exec (f + o.S * s) (f + o.S * s)
      o.fftp.exec (g + o.S * s) (g + o.S * s)
      o.fftp.exec (F + o.S * s) (F + o.S * s))
  par (rng2 1 o.m 0 o.C) fun (s, c) => do
    let Zeta ← o.Zetaqm.get (o.m + s)
    mulBy (g + o.S * s + c) Zeta
    mulBy (F + o.S * s + c) ((starRingEnd ℂ) Zeta)
  par (rng3 1 p2 1 o.m 0 o.C) fun (u, s, c) => do
    let nm := o.n * o.m
    let z0 ← o.Zetaqm.get (nm * u + s)
    mulBy (f + o.Sm * u + o.S * s + c) z0
    let z1 ← o.Zetaqm.get (nm * u + o.m + s)
    mulBy (g + o.Sm * u + o.S * s + c) z1
    let z2 ← o.Zetaqm.get (nm * u - o.m + s)
    mulBy (F + o.Sm * u + o.S * s + c) z2
  seqLoop (rng 0 p2) fun t => do
    o.fftm.exec (f + o.Sm * t) (f + o.Sm * t)
    o.fftm.exec (g + o.Sm * t) (g + o.Sm * t)
    o.fftm.exec (F + o.Sm * t) (F + o.Sm * t)

/-- `if(S == C) pl->fft(W); else for(size_t s=0; s < m; ++s) pl->fft(W+S*s);` (e.g. convolve.cc:3555-3559). -/
noncomputable def fftpMany (pl : Plan) (W : Ptr) : Cmd Unit :=
  if o.S = o.C then pl.exec W W
  else seqLoop (rng 0 o.m) fun s => pl.exec (W + o.S * s) (W + o.S * s)

/-- convolve.cc:3487-3688 `forwardInnerMany`.  (The loops over `u`, `s` and `c` are one loop over triples.) -/
noncomputable def forwardInnerMany (f F : Ptr) (r : ℕ) (W? : Option Ptr) : Cmd Unit := do
  let W := W?.getD F
  let p2 := o.p / 2
  let H := o.L / 2
  let p2s1 := p2 - 1
  let p2s1m := p2s1 * o.m
  let m0 := p2 * o.m - H
  let m1 := o.L - H - p2s1m
  let fm0 := f - o.S * m0
  let fH := f + o.S * H
  let p2s1Sm := o.S * p2s1m
  if r = 0 then do
    par (rng2 0 m0 0 o.C) fun (s, c) => copy1 (W + o.S * s + c) (fH + o.S * s + c)
    par (rng2 m0 o.m 0 o.C) fun (s, c) => do
      let u ← load (fm0 + o.S * s + c)
      let v ← load (fH + o.S * s + c)
      store (W + o.S * s + c) (u + v)
    par (rng3 1 p2s1 0 o.m 0 o.C) fun (t, s, c) => do
      let tm := t * o.Sm
      let u ← load (fm0 + tm + o.S * s + c)
      let v ← load (fH + tm + o.S * s + c)
      store (W + tm + o.S * s + c) (u + v)
    par (rng2 0 m1 0 o.C) fun (s, c) => do
      let u ← load (fm0 + p2s1Sm + o.S * s + c)
      let v ← load (fH + p2s1Sm + o.S * s + c)
      store (W + p2s1Sm + o.S * s + c) (u + v)
    par (rng2 m1 o.m 0 o.C) fun (s, c) => copy1 (W + p2s1Sm + o.S * s + c) (fm0 + p2s1Sm + o.S * s + c)
    o.fftpMany o.fftp W
    par (rng3 1 p2 1 o.m 0 o.C) fun (u, s, c) => do
      let Zeta ← o.Zetaqm.get (o.m * o.n * u + s)
      let X := UNPACKL Zeta Zeta
      let Y := UNPACKH Zeta (-Zeta)
      let v ← load (W + u * o.Sm + o.S * s + c)
      store (W + u * o.Sm + o.S * s + c) (ZMULTxy X Y v)
  else do
    par (rng2 0 m0 0 o.C) fun (s, c) => copy1 (W + o.S * s + c) (fH + o.S * s + c)
    par (rng2 m0 o.m 0 o.C) fun (s, c) => do
      let z ← o.Zetaqp.get (p2 * r + p2)
      let Zetanr := CONJ z
      let X := UNPACKL Zetanr Zetanr
      let Y := UNPACKH Zetanr (-Zetanr)
      let u ← load (fm0 + o.S * s + c)
      let v ← load (fH + o.S * s + c)
      store (W + o.S * s + c) (ZMULTxy X Y u + v)
    par (rng3 1 p2s1 0 o.m 0 o.C) fun (t, s, c) => do
      let z ← o.Zetaqp.get (p2 * r + p2)
      let Zetanr := CONJ z
      let tm := t * o.Sm
      let Zeta ← o.Zetaqp.get (p2 * r + t)
      let Zetam := ZMULT Zeta Zetanr
      let Xm := UNPACKL Zetam Zetam
      let Ym := UNPACKH Zetam (-Zetam)
      let X := UNPACKL Zeta Zeta
      let Y := UNPACKH Zeta (-Zeta)
      let u ← load (fm0 + tm + o.S * s + c)
      let v ← load (fH + tm + o.S * s + c)
      store (W + tm + o.S * s + c) (ZMULTxy Xm Ym u + ZMULTxy X Y v)
    par (rng2 0 m1 0 o.C) fun (s, c) => do
      let z ← o.Zetaqp.get (p2 * r + p2)
      let Zetanr := CONJ z
      let Zeta ← o.Zetaqp.get (p2 * r + p2s1)
      let Zetam := ZMULT Zeta Zetanr
      let Xm := UNPACKL Zetam Zetam
      let Ym := UNPACKH Zetam (-Zetam)
      let X := UNPACKL Zeta Zeta
      let Y := UNPACKH Zeta (-Zeta)
      let u ← load (fm0 + p2s1Sm + o.S * s + c)
      let v ← load (fH + p2s1Sm + o.S * s + c)
      store (W + p2s1Sm + o.S * s + c) (ZMULTxy Xm Ym u + ZMULTxy X Y v)
    par (rng2 m1 o.m 0 o.C) fun (s, c) => do
      let z ← o.Zetaqp.get (p2 * r + p2)
      let Zetanr := CONJ z
      let Zeta ← o.Zetaqp.get (p2 * r + p2s1)
      let Zetam := ZMULT Zeta Zetanr
      let Xm := UNPACKL Zetam Zetam
      let Ym := UNPACKH Zetam (-Zetam)
      let u ← load (fm0 + p2s1Sm + o.S * s + c)
      store (W + p2s1Sm + o.S * s + c) (ZMULTxy Xm Ym u)
    o.fftpMany o.fftp W
    par (rng3 0 p2 1 o.m 0 o.C) fun (u, s, c) => do
      let mu := o.m * u
      let Zetars ← o.Zetaqm.get (o.n * mu + o.m * r + s)
      let X := UNPACKL Zetars Zetars
      let Y := UNPACKH Zetars (-Zetars)
      let v ← load (W + o.S * mu + o.S * s + c)
      store (W + o.S * mu + o.S * s + c) (ZMULTxy X Y v)
  seqLoop (rng 0 p2) fun t => o.fftm.exec (W + o.Sm * t) (F + o.Sm * t)

/-- convolve.cc:3690-3770 `backwardInnerAll`.  (The loops over `u` and `s` are one loop over pairs, each treating the three arrays.) -/
noncomputable def backwardInnerAll (F f : Ptr) : Cmd Unit := do
  let g := f + o.b
  o.ifftm.exec f f
  o.ifftm.exec g g
  o.ifftm.exec F F
  par (rng 1 o.m) fun s => do
    let Zeta ← o.Zetaqm.get (o.m + s)
    mulBy (g + s) ((starRingEnd ℂ) Zeta)
    mulBy (F + s) Zeta
  let p2 := o.p / 2
  par (rng2 1 p2 1 o.m) fun (u, s) => do
    let mu := o.m * u
    let z0 ← o.Zetaqm.get (o.n * mu + s)
    mulBy (f + mu + s) ((starRingEnd ℂ) z0)
    let z1 ← o.Zetaqm.get (o.n * mu + o.m + s)
    mulBy (g + mu + s) ((starRingEnd ℂ) z1)
    let z2 ← o.Zetaqm.get (o.n * mu - o.m + s)
    mulBy (F + mu + s) ((starRingEnd ℂ) z2)
  o.ifftp.exec f f
  o.ifftp.exec g g
  o.ifftp.exec F F
  par (rng 0 o.m) fun s => do
    let Zetanr ← o.Zetaqp.get o.p
    let Xm := UNPACKL Zetanr Zetanr
    let Ym := UNPACKH Zetanr (-Zetanr)
    let V0 ← load (f + s)
    let V1 ← load (g + s)
    let V2 ← load (F + s)
    store (f + s) (V0 + ZMULT2xy Xm Ym V1 V2)
    store (g + s) (V0 + V1 + V2)
  par (rng2 1 p2 0 o.m) fun (t, s) => do
    let Zetanr ← o.Zetaqp.get o.p
    let tm := t * o.m
    let Zeta ← o.Zetaqp.get (p2 + t)
    let X := UNPACKL Zeta Zeta
    let Y := UNPACKH Zeta (-Zeta)
    let Zeta2 := ZMULTxy X (-Y) Zetanr
    let Xm := UNPACKL Zeta2 Zeta2
    let Ym := UNPACKH Zeta2 (-Zeta2)
    let V0 ← load (f + tm + s)
    let V1 ← load (g + tm + s)
    let V2 ← load (F + tm + s)
    store (f + tm + s) (V0 + ZMULT2xy Xm Ym V1 V2)
    store (g + tm + s) (V0 + ZMULT2xy X Y V2 V1)

/-- convolve.cc:3796-3850, residue 0 alone in `backwardInner`.  (The loops over `u` or `t` and `s` are loops over pairs.) -/
noncomputable def backwardInnerZero (f W : Ptr) : Cmd Unit := do
  let p2 := o.p / 2
  let H := o.L / 2
  let p2s1 := p2 - 1
  let p2s1m := p2s1 * o.m
  let m0 := p2 * o.m - H
  let m1 := o.L - H - p2s1m
  let fm0 := f - m0
  let fH := f + H
  par (rng2 1 p2 1 o.m) fun (u, s) => do
    let z ← o.Zetaqm.get (o.m * o.n * u + s)
    mulBy (W + u * o.m + s) ((starRingEnd ℂ) z)
  o.ifftp.exec W W
  par (rng 0 m0) fun s => copy1 (fH + s) (W + s)
  par (rng m0 o.m) fun s => do
    let v ← load (W + s)
    store (fm0 + s) v
    store (fH + s) v
  par (rng2 1 p2s1 0 o.m) fun (t, s) => do
    let tm := t * o.m
    let v ← load (W + tm + s)
    store (fm0 + tm + s) v
    store (fH + tm + s) v
  par (rng 0 m1) fun s => do
    let v ← load (W + p2s1m + s)
    store (fm0 + p2s1m + s) v
    store (fH + p2s1m + s) v
  par (rng m1 o.m) fun s => copy1 (fm0 + p2s1m + s) (W + p2s1m + s)

/-- convolve.cc:3851-3931, residues 0 and n/2 in `backwardInner` (`n` even). -/
noncomputable def backwardInnerHalf (f W : Ptr) : Cmd Unit := do
  let p2 := o.p / 2
  let H := o.L / 2
  let p2s1 := p2 - 1
  let p2s1m := p2s1 * o.m
  let m0 := p2 * o.m - H
  let m1 := o.L - H - p2s1m
  let fm0 := f - m0
  let fH := f + H
  let n2 := o.n / 2
  let V := W + o.b
  par (rng 1 o.m) fun s => do
    let z ← o.Zetaqm.get (o.m * n2 + s)
    mulBy (V + s) ((starRingEnd ℂ) z)
  par (rng2 1 p2 1 o.m) fun (u, s) => do
    let mu := o.m * u
    let z ← o.Zetaqm.get (o.m * o.n * u + s)
    mulBy (W + mu + s) ((starRingEnd ℂ) z)
    let z2 ← o.Zetaqm.get (o.m * o.n * u + o.m * n2 + s)
    mulBy (V + mu + s) ((starRingEnd ℂ) z2)
  o.ifftp.exec W W
  o.ifftp.exec V V
  par (rng 0 m0) fun s => do
    let u ← load (W + s)
    let v ← load (V + s)
    store (fH + s) (u + v)
  par (rng m0 o.m) fun s => do
    let Wts ← load (W + s)
    let Vts ← load (V + s)
    store (fm0 + s) (Wts - Vts)
    store (fH + s) (Wts + Vts)
  par (rng2 1 p2s1 0 o.m) fun (t, s) => do
    let tm := t * o.m
    let z ← o.Zetaqp.get (p2 * n2 + t)
    let Zeta := (starRingEnd ℂ) z
    let Wts ← load (W + tm + s)
    let v ← load (V + tm + s)
    let Vts := Zeta * v
    store (fm0 + tm + s) (Wts - Vts)
    store (fH + tm + s) (Wts + Vts)
  par (rng 0 m1) fun s => do
    let z ← o.Zetaqp.get (p2 * n2 + p2s1)
    let Zeta := (starRingEnd ℂ) z
    let Wts ← load (W + p2s1m + s)
    let v ← load (V + p2s1m + s)
    let Vts := Zeta * v
    store (fm0 + p2s1m + s) (Wts - Vts)
    store (fH + p2s1m + s) (Wts + Vts)
  par (rng m1 o.m) fun s => do
    let z ← o.Zetaqp.get (p2 * n2 + p2s1)
    let Zeta := (starRingEnd ℂ) z
    let Wts ← load (W + p2s1m + s)
    let v ← load (V + p2s1m + s)
    store (fm0 + p2s1m + s) (Wts - Zeta * v)

/-- convolve.cc:3938-4016, one residue `r>0` in `backwardInner` (`D=1`). -/
noncomputable def backwardInnerOne (W f : Ptr) (r : ℕ) : Cmd Unit := do
  let p2 := o.p / 2
  let H := o.L / 2
  let p2s1 := p2 - 1
  let p2s1m := p2s1 * o.m
  let m0 := p2 * o.m - H
  let m1 := o.L - H - p2s1m
  let fm0 := f - m0
  let fH := f + H
  par (rng 1 o.m) fun s => do
    let z ← o.Zetaqm.get (o.m * r + s)
    mulBy (W + s) ((starRingEnd ℂ) z)
  par (rng2 1 p2 1 o.m) fun (u, s) => do
    let mu := o.m * u
    let z ← o.Zetaqm.get (o.m * r + o.n * mu + s)
    mulBy (W + mu + s) ((starRingEnd ℂ) z)
  o.ifftp.exec W W
  par (rng 0 m0) fun s => do
    let u ← load (fH + s)
    let v ← load (W + s)
    store (fH + s) (u + v)
  par (rng m0 o.m) fun s => do
    let Zetanr ← o.Zetaqp.get (p2 * r + p2)
    let Xm := UNPACKL Zetanr Zetanr
    let Ym := UNPACKH Zetanr (-Zetanr)
    let Fts ← load (W + s)
    let u ← load (fm0 + s)
    store (fm0 + s) (u + ZMULTxy Xm Ym Fts)
    let v ← load (fH + s)
    store (fH + s) (v + Fts)
  par (rng2 1 p2s1 0 o.m) fun (t, s) => do
    let Zetanr ← o.Zetaqp.get (p2 * r + p2)
    let tm := t * o.m
    let Zeta ← o.Zetaqp.get (p2 * r + t)
    let X := UNPACKL Zeta Zeta
    let Y := UNPACKH (-Zeta) Zeta
    let Zeta2 := ZMULTxy X Y Zetanr
    let Xm := UNPACKL Zeta2 Zeta2
    let Ym := UNPACKH Zeta2 (-Zeta2)
    let Fts ← load (W + tm + s)
    let u ← load (fm0 + tm + s)
    store (fm0 + tm + s) (u + ZMULTxy Xm Ym Fts)
    let v ← load (fH + tm + s)
    store (fH + tm + s) (v + ZMULTxy X Y Fts)
  par (rng 0 m1) fun s => do
    let Zetanr ← o.Zetaqp.get (p2 * r + p2)
    let Zeta ← o.Zetaqp.get (p2 * r + p2s1)
    let X := UNPACKL Zeta Zeta
    let Y := UNPACKH (-Zeta) Zeta
    let Zeta2 := ZMULTxy X Y Zetanr
    let Xm := UNPACKL Zeta2 Zeta2
    let Ym := UNPACKH Zeta2 (-Zeta2)
    let Fts ← load (W + p2s1m + s)
    let u ← load (fm0 + p2s1m + s)
    store (fm0 + p2s1m + s) (u + ZMULTxy Xm Ym Fts)
    let v ← load (fH + p2s1m + s)
    store (fH + p2s1m + s) (v + ZMULTxy X Y Fts)
  par (rng m1 o.m) fun s => do
    let Zetanr ← o.Zetaqp.get (p2 * r + p2)
    let Zeta ← o.Zetaqp.get (p2 * r + p2s1)
    let X := UNPACKL Zeta Zeta
    let Y := UNPACKH (-Zeta) Zeta
    let Zeta2 := ZMULTxy X Y Zetanr
    let Xm := UNPACKL Zeta2 Zeta2
    let Ym := UNPACKH Zeta2 (-Zeta2)
    let u ← load (fm0 + p2s1m + s)
    let v ← load (W + p2s1m + s)
    store (fm0 + p2s1m + s) (u + ZMULTxy Xm Ym v)

/-- convolve.cc:4018-4104, the residues `r` and `-r` in `backwardInner` (`D>1`). -/
noncomputable def backwardInnerPair (F f : Ptr) (r : ℕ) : Cmd Unit := do
  let p2 := o.p / 2
  let H := o.L / 2
  let p2s1 := p2 - 1
  let p2s1m := p2s1 * o.m
  let m0 := p2 * o.m - H
  let m1 := o.L - H - p2s1m
  let fm0 := f - m0
  let fH := f + H
  let G := F + o.b
  par (rng 1 o.m) fun s => do
    let Zeta ← o.Zetaqm.get (o.m * r + s)
    mulBy (F + s) ((starRingEnd ℂ) Zeta)
    mulBy (G + s) Zeta
  par (rng2 1 p2 1 o.m) fun (u, s) => do
    let mu := o.m * u
    let z ← o.Zetaqm.get (o.n * mu + o.m * r + s)
    mulBy (F + mu + s) ((starRingEnd ℂ) z)
    let z2 ← o.Zetaqm.get (o.n * mu - o.m * r + s)
    mulBy (G + mu + s) ((starRingEnd ℂ) z2)
  o.ifftp.exec F F
  o.ifftp.exec G G
  par (rng 0 m0) fun s => do
    let u ← load (fH + s)
    let Fs ← load (F + s)
    let Gs ← load (G + s)
    store (fH + s) (u + (Fs + Gs))
  par (rng m0 o.m) fun s => do
    let Zetanr ← o.Zetaqp.get (p2 * r + p2)
    let Xm := UNPACKL Zetanr Zetanr
    let Ym := UNPACKH Zetanr (-Zetanr)
    let Fts ← load (F + s)
    let Gts ← load (G + s)
    let u ← load (fm0 + s)
    store (fm0 + s) (u + ZMULT2xy Xm Ym Fts Gts)
    let v ← load (fH + s)
    store (fH + s) (v + Fts + Gts)
  par (rng2 1 p2s1 0 o.m) fun (t, s) => do
    let Zetanr ← o.Zetaqp.get (p2 * r + p2)
    let tm := t * o.m
    let Zeta ← o.Zetaqp.get (p2 * r + t)
    let X := UNPACKL Zeta Zeta
    let Y := UNPACKH Zeta (-Zeta)
    let Zeta2 := ZMULTxy X (-Y) Zetanr
    let Xm := UNPACKL Zeta2 Zeta2
    let Ym := UNPACKH Zeta2 (-Zeta2)
    let Fts ← load (F + tm + s)
    let Gts ← load (G + tm + s)
    let u ← load (fm0 + tm + s)
    store (fm0 + tm + s) (u + ZMULT2xy Xm Ym Fts Gts)
    let v ← load (fH + tm + s)
    store (fH + tm + s) (v + ZMULT2xy X Y Gts Fts)
  par (rng 0 m1) fun s => do
    let Zetanr ← o.Zetaqp.get (p2 * r + p2)
    let Zeta ← o.Zetaqp.get (p2 * r + p2s1)
    let X := UNPACKL Zeta Zeta
    let Y := UNPACKH Zeta (-Zeta)
    let Zeta2 := ZMULTxy X (-Y) Zetanr
    let Xm := UNPACKL Zeta2 Zeta2
    let Ym := UNPACKH Zeta2 (-Zeta2)
    let Fts ← load (F + p2s1m + s)
    let Gts ← load (G + p2s1m + s)
    let u ← load (fm0 + p2s1m + s)
    store (fm0 + p2s1m + s) (u + ZMULT2xy Xm Ym Fts Gts)
    let v ← load (fH + p2s1m + s)
    store (fH + p2s1m + s) (v + ZMULT2xy X Y Gts Fts)
  par (rng m1 o.m) fun s => do
    let Zetanr ← o.Zetaqp.get (p2 * r + p2)
    let Zeta ← o.Zetaqp.get (p2 * r + p2s1)
    let X := UNPACKL Zeta Zeta
    let Y := UNPACKH Zeta (-Zeta)
    let Zeta2 := ZMULTxy X (-Y) Zetanr
    let Xm := UNPACKL Zeta2 Zeta2
    let Ym := UNPACKH Zeta2 (-Zeta2)
    let u ← load (fm0 + p2s1m + s)
    let Fts ← load (F + p2s1m + s)
    let Gts ← load (G + p2s1m + s)
    store (fm0 + p2s1m + s) (u + ZMULT2xy Xm Ym Fts Gts)

/-- convolve.cc:3937-4106, the part of `backwardInner` after the treatment of `r0=0`. -/
noncomputable def backwardInnerRest (W f : Ptr) (r0 dr0 : ℕ) : Cmd Unit :=
  if o.D = 1 then
    if 0 < dr0 then o.backwardInnerOne W f r0 else pure ()
  else
    seqLoop (rng 0 dr0) fun d => o.backwardInnerPair (W + 2 * o.b * d) f (r0 + d)

/-- convolve.cc:3772-4106 `backwardInner`. -/
noncomputable def backwardInner (F0 f : Ptr) (r0 : ℕ) (W? : Option Ptr) : Cmd Unit := do
  let W := W?.getD F0
  (if 0 < r0 ∨ o.D0 = o.D then o.ifftm else o.ifftm0).exec F0 W
  if r0 = 0 then
    let n2 := o.n / 2
    if o.D = 1 ∨ 2 * n2 < o.n then do
      o.backwardInnerZero f W
      o.backwardInnerRest (W + 1 * o.b) f 1 ((o.D0 - 1) / 2)
    else do
      o.backwardInnerHalf f W
      o.backwardInnerRest (W + 2 * o.b) f 1 ((o.D0 - 2) / 2)
  else o.backwardInnerRest W f r0 o.dr

/-- convolve.cc:4108-4229 `backwardInnerManyAll`.  (The loops over `u`, `s` and `c` are one loop over triples, each treating the three
arrays.) -/
noncomputable def backwardInnerManyAll (F f : Ptr) : Cmd Unit := do
  let g := f + o.b
  let p2 := o.p / 2
  seqLoop (rng 0 p2) fun t => do
    o.ifftm.exec (f + o.Sm * t) (f + o.Sm * t)
    o.ifftm.exec (g + o.Sm * t) (g + o.Sm * t)
    o.ifftm.exec (F + o.Sm * t) (F + o.Sm * t)
  par (rng2 1 o.m 0 o.C) fun (s, c) => do
    let Zeta ← o.Zetaqm.get (o.m + s)
    mulBy (g + o.S * s + c) ((starRingEnd ℂ) Zeta)
    mulBy (F + o.S * s + c) Zeta
  par (rng3 1 p2 1 o.m 0 o.C) fun (u, s, c) => do
    let nm := o.n * o.m
    let z0 ← o.Zetaqm.get (nm * u + s)
    mulBy (f + o.Sm * u + o.S * s + c) ((starRingEnd ℂ) z0)
    let z1 ← o.Zetaqm.get (nm * u + o.m + s)
    mulBy (g + o.Sm * u + o.S * s + c) ((starRingEnd ℂ) z1)
    let z2 ← o.Zetaqm.get (nm * u - o.m + s)
    mulBy (F + o.Sm * u + o.S * s + c) ((starRingEnd ℂ) z2)
  (if o.S = o.C then do
    o.ifftp.exec f f
    o.ifftp.exec g g
    o.ifftp.exec F F
  else
    seqLoop (rng 0 o.m) fun s => do
      o.ifftp.exec (f + o.S * s) (f + o.S * s)
      o.ifftp.exec (g + o.S * s) (g + o.S * s)
      o.ifftp.exec (F + o.S * s) (F + o.S * s))
  par (rng2 0 o.m 0 o.C) fun (s, c) => do
    let Zetanr ← o.Zetaqp.get o.p
    let Xm := UNPACKL Zetanr Zetanr
    let Ym := UNPACKH Zetanr (-Zetanr)
    let V0 ← load (f + o.S * s + c)
    let V1 ← load (g + o.S * s + c)
    let V2 ← load (F + o.S * s + c)
    store (f + o.S * s + c) (V0 + ZMULT2xy Xm Ym V1 V2)
    store (g + o.S * s + c) (V0 + V1 + V2)
  par (rng3 1 p2 0 o.m 0 o.C) fun (t, s, c) => do
    let Zetanr ← o.Zetaqp.get o.p
    let tm := t * o.Sm
    let Zeta ← o.Zetaqp.get (p2 + t)
    let X := UNPACKL Zeta Zeta
    let Y := UNPACKH Zeta (-Zeta)
    let Zeta2 := ZMULTxy X (-Y) Zetanr
    let Xm := UNPACKL Zeta2 Zeta2
    let Ym := UNPACKH Zeta2 (-Zeta2)
    let V0 ← load (f + tm + o.S * s + c)
    let V1 ← load (g + tm + o.S * s + c)
    let V2 ← load (F + tm + o.S * s + c)
    store (f + tm + o.S * s + c) (V0 + ZMULT2xy Xm Ym V1 V2)
    store (g + tm + o.S * s + c) (V0 + ZMULT2xy X Y V2 V1)

/-- convolve.cc:4231-4447 `backwardInnerMany`.  (The loops over `u`, `s` and `c` are one loop over triples.) -/
noncomputable def backwardInnerMany (F f : Ptr) (r : ℕ) (W? : Option Ptr) : Cmd Unit := do
  let W := W?.getD F
  let p2 := o.p / 2
  seqLoop (rng 0 p2) fun t => o.ifftm.exec (F + o.Sm * t) (W + o.Sm * t)
  let H := o.L / 2
  let p2s1 := p2 - 1
  let p2s1m := p2s1 * o.m
  let m0 := p2 * o.m - H
  let m1 := o.L - H - p2s1m
  let fm0 := f - o.S * m0
  let fH := f + o.S * H
  let p2s1Sm := o.S * p2s1m
  if r = 0 then do
    par (rng3 1 p2 1 o.m 0 o.C) fun (u, s, c) => do
      let Zeta ← o.Zetaqm.get (o.m * o.n * u + s)
      let X := UNPACKL Zeta Zeta
      let Y := UNPACKH (-Zeta) Zeta
      let v ← load (W + u * o.Sm + o.S * s + c)
      store (W + u * o.Sm + o.S * s + c) (ZMULTxy X Y v)
    o.fftpMany o.ifftp W
    par (rng2 0 m0 0 o.C) fun (s, c) => copy1 (fH + o.S * s + c) (W + o.S * s + c)
    par (rng2 m0 o.m 0 o.C) fun (s, c) => do
      let v ← load (W + o.S * s + c)
      store (fm0 + o.S * s + c) v
      store (fH + o.S * s + c) v
    par (rng3 1 p2s1 0 o.m 0 o.C) fun (t, s, c) => do
      let tm := t * o.Sm
      let v ← load (W + tm + o.S * s + c)
      store (fm0 + tm + o.S * s + c) v
      store (fH + tm + o.S * s + c) v
    par (rng2 0 m1 0 o.C) fun (s, c) => do
      let v ← load (W + p2s1Sm + o.S * s + c)
      store (fm0 + p2s1Sm + o.S * s + c) v
      store (fH + p2s1Sm + o.S * s + c) v
    par (rng2 m1 o.m 0 o.C) fun (s, c) => copy1 (fm0 + p2s1Sm + o.S * s + c) (W + p2s1Sm + o.S * s + c)
  else do
    par (rng3 0 p2 1 o.m 0 o.C) fun (u, s, c) => do
      let mu := o.m * u
      let Zeta ← o.Zetaqm.get (o.m * r + o.n * mu + s)
      let X := UNPACKL Zeta Zeta
      let Y := UNPACKH (-Zeta) Zeta
      let v ← load (W + u * o.Sm + o.S * s + c)
      store (W + u * o.Sm + o.S * s + c) (ZMULTxy X Y v)
    o.fftpMany o.ifftp W
    par (rng2 0 m0 0 o.C) fun (s, c) => do
      let u ← load (fH + o.S * s + c)
      let v ← load (W + o.S * s + c)
      store (fH + o.S * s + c) (u + v)
    par (rng2 m0 o.m 0 o.C) fun (s, c) => do
      let Zetanr ← o.Zetaqp.get (p2 * r + p2)
      let Xm := UNPACKL Zetanr Zetanr
      let Ym := UNPACKH Zetanr (-Zetanr)
      let Ftsc ← load (W + o.S * s + c)
      let u ← load (fm0 + o.S * s + c)
      store (fm0 + o.S * s + c) (u + ZMULTxy Xm Ym Ftsc)
      let v ← load (fH + o.S * s + c)
      store (fH + o.S * s + c) (v + Ftsc)
    par (rng3 1 p2s1 0 o.m 0 o.C) fun (t, s, c) => do
      let Zetanr ← o.Zetaqp.get (p2 * r + p2)
      let tm := t * o.Sm
      let Zeta ← o.Zetaqp.get (p2 * r + t)
      let X := UNPACKL Zeta Zeta
      let Y := UNPACKH (-Zeta) Zeta
      let Zeta2 := ZMULTxy X Y Zetanr
      let Xm := UNPACKL Zeta2 Zeta2
      let Ym := UNPACKH Zeta2 (-Zeta2)
      let Ftsc ← load (W + tm + o.S * s + c)
      let u ← load (fm0 + tm + o.S * s + c)
      store (fm0 + tm + o.S * s + c) (u + ZMULTxy Xm Ym Ftsc)
      let v ← load (fH + tm + o.S * s + c)
      store (fH + tm + o.S * s + c) (v + ZMULTxy X Y Ftsc)
    par (rng2 0 m1 0 o.C) fun (s, c) => do
      let Zetanr ← o.Zetaqp.get (p2 * r + p2)
      let Zeta ← o.Zetaqp.get (p2 * r + p2s1)
      let X := UNPACKL Zeta Zeta
      let Y := UNPACKH (-Zeta) Zeta
      let Zeta2 := ZMULTxy X Y Zetanr
      let Xm := UNPACKL Zeta2 Zeta2
      let Ym := UNPACKH Zeta2 (-Zeta2)
      let Ftsc ← load (W + p2s1Sm + o.S * s + c)
      let u ← load (fm0 + p2s1Sm + o.S * s + c)
      store (fm0 + p2s1Sm + o.S * s + c) (u + ZMULTxy Xm Ym Ftsc)
      let v ← load (fH + p2s1Sm + o.S * s + c)
      store (fH + p2s1Sm + o.S * s + c) (v + ZMULTxy X Y Ftsc)
    par (rng2 m1 o.m 0 o.C) fun (s, c) => do
      let Zetanr ← o.Zetaqp.get (p2 * r + p2)
      let Zeta ← o.Zetaqp.get (p2 * r + p2s1)
      let X := UNPACKL Zeta Zeta
      let Y := UNPACKH (-Zeta) Zeta
      let Zeta2 := ZMULTxy X Y Zetanr
      let Xm := UNPACKL Zeta2 Zeta2
      let Ym := UNPACKH Zeta2 (-Zeta2)
      let u ← load (fm0 + p2s1Sm + o.S * s + c)
      let v ← load (W + p2s1Sm + o.S * s + c)
      store (fm0 + p2s1Sm + o.S * s + c) (u + ZMULTxy Xm Ym v)

/-- convolve.h:254-256 `forward(f,F,r,W)`: calls the routine chosen at construction (`fftPadCentered::init`, convolve.cc:2107-2145, keeps the
choice of `fftPad::init` but for `q=1`).  Since `p` is even when `q>1`, the `p=1` routines are never selected. -/
noncomputable def forward (f F : Ptr) (r : ℕ) (W? : Option Ptr) : Cmd Unit :=
  match o.route with
  | .explicit => if o.fast then o.forwardExplicitFast f F W? else o.forwardExplicitSlow f F W?
  | .explicitMany => if o.fast then o.forwardExplicitManyFast f F W? else o.forwardExplicitManySlow f F W?
  | .two => o.forward2 f F r W?
  | .twoAll => o.forward2All f F
  | .twoMany => o.forward2Many f F r W?
  | .twoManyAll => o.forward2ManyAll f F
  | .inner => o.forwardInner f F r W?
  | .innerMany => o.forwardInnerMany f F r W?
  | .innerAll => o.forwardInnerAll f F
  | .innerManyAll => o.forwardInnerManyAll f F
  | _ => fun _ => .error .ub

/-- convolve.h:258-260 `backward(F,f,r,W)`. -/
noncomputable def backward (F f : Ptr) (r : ℕ) (W? : Option Ptr) : Cmd Unit :=
  match o.route with
  | .explicit => if o.fast then o.backwardExplicitFast F f W? else o.backwardExplicitSlow F f W?
  | .explicitMany => if o.fast then o.backwardExplicitManyFast F f W? else o.backwardExplicitManySlow F f W?
  | .two => o.backward2 F f r W?
  | .twoAll => o.backward2All F f
  | .twoMany => o.backward2Many F f r W?
  | .twoManyAll => o.backward2ManyAll F f
  | .inner => o.backwardInner F f r W?
  | .innerMany => o.backwardInnerMany F f r W?
  | .innerAll => o.backwardInnerAll F f
  | .innerManyAll => o.backwardInnerManyAll F f
  | _ => fun _ => .error .ub

end Cent
end Fftwpp
