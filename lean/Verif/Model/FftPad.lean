import Verif.Model.Params
import Verif.Model.Vec

/-!
# The noncentered hybrid transforms (fftPad, convolve.cc:729-2105)

Each routine is transcribed loop by loop.  Conventions:
* `W? : Option Ptr` is the work pointer argument (`NULL` is `none`; "`if(W == NULL) W=F`").
* `PARALLELIF(cond, for …)` is `par` (the condition only chooses between the serial and the parallel execution).
* A loop nest `for t … for s … for c` is one `par` over index tuples (finer than the parallelism of the code).
* `LOAD`/`STORE` of a `Complex *` are `load`/`store`.
* Statements outside loops are run with `Body.run`.
-/

namespace Fftwpp
namespace Fft
variable (o : Fft)

/-- `dst[i]=src[i]`, the body of the copying loops. -/
def copy1 (dst src : Ptr) : Body Unit := do
  let v ← load src
  store dst v

/-- `dst[i]=0.0`, the body of the padding loops. -/
def zero1 (dst : Ptr) : Body Unit := store dst 0

/-- convolve.cc:729-740 `padSingle`. -/
noncomputable def padSingle (W : Ptr) : Cmd Unit :=
  let mp := o.m * o.p
  seqLoop (rng 0 o.D) fun d =>
    let F := W + o.m * d
    par (rng o.L mp) fun s => zero1 (F + s)

/-- convolve.cc:742-753 `padMany`. -/
noncomputable def padMany (W : Ptr) : Cmd Unit :=
  let mp := o.m * o.p
  par (rng2 o.L mp 0 o.C) fun (s, c) => zero1 (W + o.S * s + c)

/-- convolve.h:249-252 `pad(W)`: calls the routine chosen at construction (nothing if `W` is `NULL`). -/
noncomputable def padW (W? : Option Ptr) : Cmd Unit :=
  match W? with
  | none => pure ()
  | some W =>
    match o.pad with
    | .none => pure ()
    | .single => o.padSingle W
    | .many => o.padMany W

/-- convolve.cc:755-770 `forwardExplicit`. -/
noncomputable def forwardExplicit (f F : Ptr) (W? : Option Ptr) : Cmd Unit := do
  let W := W?.getD F
  par (rng 0 o.L) fun s => copy1 (W + s) (f + s)
  par (rng o.L o.M) fun s => zero1 (W + s)
  o.fftm.exec W F

/-- convolve.cc:772-782 `backwardExplicit`. -/
noncomputable def backwardExplicit (F f : Ptr) (W? : Option Ptr) : Cmd Unit := do
  let W := W?.getD F
  o.ifftm.exec F W
  par (rng 0 o.L) fun s => copy1 (f + s) (W + s)

/-- convolve.cc:784-801 `forwardExplicitMany`. -/
noncomputable def forwardExplicitMany (f F : Ptr) (W? : Option Ptr) : Cmd Unit := do
  let W := W?.getD F
  par (rng2 0 o.L 0 o.C) fun (s, c) => copy1 (W + o.S * s + c) (f + o.S * s + c)
  o.padMany W
  o.fftm.exec W F

/-- convolve.cc:803-818 `backwardExplicitMany`. -/
noncomputable def backwardExplicitMany (F f : Ptr) (W? : Option Ptr) : Cmd Unit := do
  let W := W?.getD F
  o.ifftm.exec F W
  par (rng2 0 o.L 0 o.C) fun (s, c) => copy1 (f + o.S * s + c) (W + o.S * s + c)

/-- convolve.cc:820-831 `forward1All`. -/
noncomputable def forward1All (f F : Ptr) : Cmd Unit := do
  (copy1 F f).run
  par (rng 1 o.m) fun s => do
    let z ← o.Zetaqm.get (o.m + s)
    let v ← load (f + s)
    store (F + s) (z * v)
  o.fftm.exec f f
  o.fftm.exec F F

/-- convolve.cc:907-924, the body of the loop over `d` in `forward1` (residues `r` and `-r`). -/
noncomputable def forward1Pair (f F : Ptr) (r : ℕ) : Cmd Unit := do
  let G := F + o.m
  (do
    let v ← load f
    store G v
    store F v : Body Unit).run
  par (rng 1 o.L) fun s => do
    let Zeta ← o.Zetaqm.get (o.m * r + s)
    let fs ← load (f + s)
    let A := Zeta ⊙ UNPACKL fs fs
    let B := ZMULTI (Zeta ⊙ UNPACKH fs fs)
    store (F + s) (A + B)
    store (G + s) (CONJ (A - B))

/-- convolve.cc:889-939, the part of `forward1` after the treatment of `r0=0`. -/
noncomputable def forward1Rest (f W : Ptr) (r0 dr0 : ℕ) : Cmd Unit :=
  if o.D = 1 then
    if 0 < dr0 then do
      (copy1 W f).run
      par (rng 1 o.L) fun s => do
        let z ← o.Zetaqm.get (o.m * r0 + s)
        let v ← load (f + s)
        store (W + s) (z * v)
      if o.inplace then par (rng o.L o.m) fun s => zero1 (W + s) else pure ()
    else pure ()
  else do
    seqLoop (rng 0 dr0) fun d => o.forward1Pair f (W + 2 * o.m * d) (r0 + d)
    if o.inplace then
      seqLoop (rng 0 dr0) fun d => do
        let F : Ptr := W + 2 * o.m * d
        let G := F + o.m
        par (rng o.L o.m) fun s => zero1 (F + s)
        par (rng o.L o.m) fun s => zero1 (G + s)
    else pure ()

/-- convolve.cc:833-942 `forward1`. -/
noncomputable def forward1 (f F0 : Ptr) (r0 : ℕ) (W? : Option Ptr) : Cmd Unit :=
  let W := W?.getD F0
  if r0 = 0 then
    let q2 := o.q / 2
    if o.D = 1 ∨ 2 * q2 < o.q then
      if o.inplace = false ∧ o.D = 1 ∧ o.m ≤ o.L then o.fftm.exec f F0
      else do
        if W ≠ f then par (rng 0 o.L) fun s => copy1 (W + s) (f + s) else pure ()
        if o.inplace then par (rng o.L o.m) fun s => zero1 (W + s) else pure ()
        o.forward1Rest f (W + 1 * o.m) 1 ((o.D0 - 1) / 2)
        (if o.D0 = o.D then o.fftm else o.fftm0).exec W F0
    else do
      let V := W + o.m
      (do
        let v ← load f
        store W v
        store V v : Body Unit).run
      par (rng 1 o.L) fun s => do
        let fs ← load (f + s)
        store (W + s) fs
        let z ← o.Zetaqm.get (o.m * q2 + s)
        store (V + s) (z * fs)
      if o.inplace then par (rng o.L o.m) fun s => zero1 (V + s) else pure ()
      if o.inplace then par (rng o.L o.m) fun s => zero1 (W + s) else pure ()
      o.forward1Rest f (W + 2 * o.m) 1 ((o.D0 - 2) / 2)
      (if o.D0 = o.D then o.fftm else o.fftm0).exec W F0
  else do
    o.forward1Rest f W r0 o.dr
    o.fftm.exec W F0

/-- convolve.cc:944-966 `forward1ManyAll`. -/
noncomputable def forward1ManyAll (f F : Ptr) : Cmd Unit := do
  par (rng 0 o.C) fun c => copy1 (F + c) (f + c)
  par (rng2 1 o.m 0 o.C) fun (s, c) => do
    let Zeta ← o.Zetaqm.get (o.m + s)
    let X := UNPACKL Zeta Zeta
    let Y := UNPACKH Zeta (-Zeta)
    let v ← load (f + o.S * s + c)
    store (F + o.S * s + c) (ZMULTxy X Y v)
  o.fftm.exec f f
  o.fftm.exec F F

/-- convolve.cc:968-1014 `forward1Many`. -/
noncomputable def forward1Many (f F : Ptr) (r : ℕ) (W? : Option Ptr) : Cmd Unit := do
  let W := W?.getD F
  if o.inplace then par (rng2 o.L o.m 0 o.C) fun (s, c) => zero1 (W + o.S * s + c) else pure ()
  if r = 0 then
    if o.inplace = false ∧ o.m ≤ o.L ∧ o.S = o.C then o.fftm.exec f F
    else do
      par (rng2 0 o.L 0 o.C) fun (s, c) => copy1 (W + o.S * s + c) (f + o.S * s + c)
      o.fftm.exec W F
  else do
    par (rng 0 o.C) fun c => copy1 (W + c) (f + c)
    par (rng2 1 o.L 0 o.C) fun (s, c) => do
      let Zeta ← o.Zetaqm.get (o.m * r + s)
      let X := UNPACKL Zeta Zeta
      let Y := UNPACKH Zeta (-Zeta)
      let v ← load (f + o.S * s + c)
      store (W + o.S * s + c) (ZMULTxy X Y v)
    o.fftm.exec W F

/-- convolve.cc:1016-1047 `forward2All`. -/
noncomputable def forward2All (f F : Ptr) : Cmd Unit := do
  let g := f + o.m
  (do
    let V1 ← load g
    let Zetam ← o.ZetaqmS.get o.L
    let A := Zetam ⊙ UNPACKL V1 V1
    let B := ZMULTI (Zetam ⊙ UNPACKH V1 V1)
    let V0 ← load f
    store f (V0 + V1)
    store g (V0 + A + B)
    store F (V0 + CONJ (A - B)) : Body Unit).run
  par (rng 1 o.m) fun s => do
    let V0 ← load (f + s)
    let V1 ← load (g + s)
    let Zeta ← o.Zetaqm.get (o.m + s)
    let Zetam ← o.ZetaqmS.get (o.L + s)
    let A := Zeta ⊙ UNPACKL V0 V0 + Zetam ⊙ UNPACKL V1 V1
    let B := ZMULTI (Zeta ⊙ UNPACKH V0 V0 + Zetam ⊙ UNPACKH V1 V1)
    store (f + s) (V0 + V1)
    store (g + s) (A + B)
    store (F + s) (CONJ (A - B))
  o.fftm.exec f f
  o.fftm.exec g g
  o.fftm.exec F F

/-- convolve.cc:1127-1177, the body of the loop over `d` in `forward2`. -/
noncomputable def forward2Pair (f F : Ptr) (r : ℕ) : Cmd Unit := do
  let Lm := o.L - o.m
  let G := F + o.m
  let fm := f + o.m
  (do
    let fs ← load f
    let fms ← load fm
    let Zetam ← o.ZetaqmS.get (Lm * r + o.m)
    let A := Zetam ⊙ UNPACKL fms fms
    let B := ZMULTI (Zetam ⊙ UNPACKH fms fms)
    store F (fs + A + B)
    store G (fs + CONJ (A - B)) : Body Unit).run
  par (rng 1 Lm) fun s => do
    let fs ← load (f + s)
    let fms ← load (fm + s)
    let Zeta ← o.Zetaqm.get (o.m * r + s)
    let Zetam ← o.ZetaqmS.get (Lm * r + o.m + s)
    let A := Zeta ⊙ UNPACKL fs fs + Zetam ⊙ UNPACKL fms fms
    let B := ZMULTI (Zeta ⊙ UNPACKH fs fs + Zetam ⊙ UNPACKH fms fms)
    store (F + s) (A + B)
    store (G + s) (CONJ (A - B))
  par (rng Lm o.m) fun s => do
    let fs ← load (f + s)
    let Zeta ← o.Zetaqm.get (o.m * r + s)
    let A := Zeta ⊙ UNPACKL fs fs
    let B := ZMULTI (Zeta ⊙ UNPACKH fs fs)
    store (F + s) (A + B)
    store (G + s) (CONJ (A - B))

/-- convolve.cc:1105-1178, the part of `forward2` after the treatment of `r0=0`. -/
noncomputable def forward2Rest (f W : Ptr) (r0 dr0 : ℕ) : Cmd Unit :=
  let Lm := o.L - o.m
  let fm := f + o.m
  if o.D = 1 then
    if 0 < dr0 then do
      (do
        let v ← load f
        let z2 ← o.ZetaqmS.get (Lm * r0 + o.m)
        let u ← load fm
        store W (v + z2 * u) : Body Unit).run
      par (rng 1 Lm) fun s => do
        let Zeta ← o.Zetaqm.get (o.m * r0 + s)
        let Zeta2 ← o.ZetaqmS.get (Lm * r0 + o.m + s)
        let fs ← load (f + s)
        let fms ← load (fm + s)
        store (W + s) (ZMULT Zeta fs + ZMULT Zeta2 fms)
      par (rng Lm o.m) fun s => do
        let z ← o.Zetaqm.get (o.m * r0 + s)
        let v ← load (f + s)
        store (W + s) (z * v)
    else pure ()
  else
    seqLoop (rng 0 dr0) fun d => o.forward2Pair f (W + 2 * o.m * d) (r0 + d)

/-- convolve.cc:1049-1181 `forward2`. -/
noncomputable def forward2 (f F0 : Ptr) (r0 : ℕ) (W? : Option Ptr) : Cmd Unit :=
  let W := W?.getD F0
  let Lm := o.L - o.m
  let fm := f + o.m
  if r0 = 0 then
    let q2 := o.q / 2
    if o.D = 1 ∨ 2 * q2 < o.q then do
      par (rng 0 Lm) fun s => do
        let v ← load (f + s)
        let u ← load (fm + s)
        store (W + s) (v + u)
      par (rng Lm o.m) fun s => copy1 (W + s) (f + s)
      o.forward2Rest f (W + 1 * o.m) 1 ((o.D0 - 1) / 2)
      (if o.D0 = o.D then o.fftm else o.fftm0).exec W F0
    else do
      let V := W + o.m
      (do
        let f0 ← load f
        let fm0 ← load fm
        store W (f0 + fm0)
        store V (f0 - fm0) : Body Unit).run
      par (rng 1 Lm) fun s => do
        let fs ← load (f + s)
        let fms ← load (fm + s)
        store (W + s) (fs + fms)
        let z ← o.Zetaqm.get (o.m * q2 + s)
        store (V + s) ((starRingEnd ℂ) z * (fs - fms))
      par (rng Lm o.m) fun s => do
        let fs ← load (f + s)
        store (W + s) fs
        let z ← o.Zetaqm.get (o.m * q2 + s)
        store (V + s) ((starRingEnd ℂ) z * fs)
      o.forward2Rest f (W + 2 * o.m) 1 ((o.D0 - 2) / 2)
      (if o.D0 = o.D then o.fftm else o.fftm0).exec W F0
  else do
    o.forward2Rest f W r0 o.dr
    o.fftm.exec W F0

/-- convolve.cc:1183-1226 `forward2ManyAll`. -/
noncomputable def forward2ManyAll (f F : Ptr) : Cmd Unit := do
  let g := f + o.Sm
  par (rng 0 o.C) fun c => do
    let Zetam ← o.ZetaqmS.get o.L
    let V1 ← load (g + c)
    let A := Zetam ⊙ UNPACKL V1 V1
    let B := ZMULTI (Zetam ⊙ UNPACKH V1 V1)
    let V0 ← load (f + c)
    store (f + c) (V0 + V1)
    store (g + c) (V0 + A + B)
    store (F + c) (V0 + CONJ (A - B))
  par (rng2 1 o.m 0 o.C) fun (s, c) => do
    let Zeta ← o.Zetaqm.get (o.m + s)
    let Zetam ← o.ZetaqmS.get (o.L + s)
    let V0 ← load (f + o.S * s + c)
    let V1 ← load (g + o.S * s + c)
    let A := Zeta ⊙ UNPACKL V0 V0 + Zetam ⊙ UNPACKL V1 V1
    let B := ZMULTI (Zeta ⊙ UNPACKH V0 V0 + Zetam ⊙ UNPACKH V1 V1)
    store (f + o.S * s + c) (V0 + V1)
    store (g + o.S * s + c) (A + B)
    store (F + o.S * s + c) (CONJ (A - B))
  o.fftm.exec f f
  o.fftm.exec g g
  o.fftm.exec F F

/-- convolve.cc:1228-1287 `forward2Many`. -/
noncomputable def forward2Many (f F : Ptr) (r : ℕ) (W? : Option Ptr) : Cmd Unit := do
  let W := W?.getD F
  let Lm := o.L - o.m
  if r = 0 then do
    par (rng2 0 Lm 0 o.C) fun (s, c) => do
      let v ← load (f + o.S * s + c)
      let u ← load (f + o.Sm + o.S * s + c)
      store (W + o.S * s + c) (v + u)
    par (rng2 Lm o.m 0 o.C) fun (s, c) => copy1 (W + o.S * s + c) (f + o.S * s + c)
  else do
    let fm := f + o.Sm
    par (rng 0 o.C) fun c => do
      let Zeta2 ← o.ZetaqmS.get (Lm * r + o.m)
      let v ← load (f + c)
      let u ← load (fm + c)
      store (W + c) (v + Zeta2 * u)
    par (rng2 1 Lm 0 o.C) fun (s, c) => do
      let Zetars ← o.Zetaqm.get (o.m * r + s)
      let Zetarms ← o.ZetaqmS.get (Lm * r + o.m + s)
      let v ← load (f + o.S * s + c)
      let u ← load (f + o.Sm + o.S * s + c)
      store (W + o.S * s + c) (Zetars * v + Zetarms * u)
    par (rng2 Lm o.m 0 o.C) fun (s, c) => do
      let Zetars ← o.Zetaqm.get (o.m * r + s)
      let v ← load (f + o.S * s + c)
      store (W + o.S * s + c) (Zetars * v)
  o.fftm.exec W F

/-- convolve.cc:1301-1335 (and, for `r>0`, 1343-1386): one residue `r` of `forwardInner` (block `F` of `b` words): copy with the factors
`Zetaqr`, pad, transform over the `p` blocks, twiddle.  For `r=0` the code has no factors `Zetaqr` and starts the twiddles at
`t=1`. -/
noncomputable def forwardInnerZero (f W : Ptr) : Cmd Unit := do
  let pm1 := o.p - 1
  let mpm1 := o.m * pm1
  let stop := o.L - mpm1
  par (rng2 0 pm1 0 o.m) fun (t, s) => copy1 (W + o.m * t + s) (f + o.m * t + s)
  par (rng 0 stop) fun s => copy1 (W + mpm1 + s) (f + mpm1 + s)
  par (rng stop o.m) fun s => zero1 (W + mpm1 + s)
  o.fftp.exec W W
  par (rng2 1 o.p 1 o.m) fun (t, s) => do
    let R := o.n * t
    let v ← load (W + o.m * t + s)
    let z ← o.Zetaqm.get (o.m * R + s)
    store (W + o.m * t + s) (v * z)

/-- convolve.cc:1343-1386, the body of the loop over `d` in `forwardInner`. -/
noncomputable def forwardInnerOne (f F : Ptr) (r : ℕ) : Cmd Unit := do
  let pm1 := o.p - 1
  let mpm1 := o.m * pm1
  let stop := o.L - mpm1
  par (rng 0 o.m) fun s => copy1 (F + s) (f + s)
  par (rng2 1 pm1 0 o.m) fun (t, s) => do
    let Zeta ← o.Zetaqp.get (pm1 * r + t)
    let v ← load (f + o.m * t + s)
    store (F + o.m * t + s) (Zeta * v)
  par (rng 0 stop) fun s => do
    let Zeta ← o.Zetaqp.get (pm1 * r + pm1)
    let v ← load (f + mpm1 + s)
    store (F + mpm1 + s) (Zeta * v)
  par (rng stop o.m) fun s => zero1 (F + mpm1 + s)
  o.fftp.exec F F
  par (rng2 0 o.p 1 o.m) fun (t, s) => do
    let R := o.n * t + r
    let v ← load (F + o.m * t + s)
    let z ← o.Zetaqm.get (o.m * R + s)
    store (F + o.m * t + s) (v * z)

/-- convolve.cc:1289-1389 `forwardInner`. -/
noncomputable def forwardInner (f F0 : Ptr) (r0 : ℕ) (W? : Option Ptr) : Cmd Unit := do
  let W := W?.getD F0
  if r0 = 0 then do
    o.forwardInnerZero f W
    seqLoop (rng 0 (o.D0 - 1)) fun d => o.forwardInnerOne f (W + o.b + o.b * d) (1 + d)
    (if o.D0 = o.D then o.fftm else o.fftm0).exec W F0
  else do
    seqLoop (rng 0 o.dr) fun d => o.forwardInnerOne f (W + o.b * d) (r0 + d)
    o.fftm.exec W F0

/-- convolve.cc:1434-1438, 1502-1506 and the inverse 2019-2023, 2062-2066: the transform over `p` blocks in the
`InnerMany` routines. -/
noncomputable def fftpMany (pl : Plan) (W : Ptr) : Cmd Unit :=
  if o.S = o.C then pl.exec W W
  else seqLoop (rng 0 o.m) fun s => pl.exec (W + o.S * s) (W + o.S * s)

/-- convolve.cc:1391-1528 `forwardInnerMany`. -/
noncomputable def forwardInnerMany (f F : Ptr) (r : ℕ) (W? : Option Ptr) : Cmd Unit := do
  let W := W?.getD F
  let pm1 := o.p - 1
  let stop := o.L - o.m * pm1
  let Smpm1 := o.Sm * pm1
  if r = 0 then do
    par (rng3 0 pm1 0 o.m 0 o.C) fun (t, s, c) =>
      copy1 (W + o.Sm * t + o.S * s + c) (f + o.Sm * t + o.S * s + c)
    par (rng2 0 stop 0 o.C) fun (s, c) => copy1 (W + Smpm1 + o.S * s + c) (f + Smpm1 + o.S * s + c)
    par (rng2 stop o.m 0 o.C) fun (s, c) => zero1 (W + Smpm1 + o.S * s + c)
    o.fftpMany o.fftp W
    par (rng3 1 o.p 1 o.m 0 o.C) fun (t, s, c) => do
      let R := o.n * t
      let z ← o.Zetaqm.get (o.m * R + s)
      let v ← load (W + o.Sm * t + o.S * s + c)
      store (W + o.Sm * t + o.S * s + c) (v * z)
  else do
    par (rng2 0 o.m 0 o.C) fun (s, c) => copy1 (W + o.S * s + c) (f + o.S * s + c)
    par (rng3 1 pm1 0 o.m 0 o.C) fun (t, s, c) => do
      let Zeta ← o.Zetaqp.get (pm1 * r + t)
      let v ← load (f + o.Sm * t + o.S * s + c)
      store (W + o.Sm * t + o.S * s + c) (Zeta * v)
    par (rng2 0 stop 0 o.C) fun (s, c) => do
      let Zeta ← o.Zetaqp.get (pm1 * r + pm1)
      let X := UNPACKL Zeta Zeta
      let Y := UNPACKH Zeta (-Zeta)
      let v ← load (f + Smpm1 + o.S * s + c)
      store (W + Smpm1 + o.S * s + c) (ZMULTxy X Y v)
    par (rng2 stop o.m 0 o.C) fun (s, c) => zero1 (W + Smpm1 + o.S * s + c)
    o.fftpMany o.fftp W
    par (rng3 0 o.p 1 o.m 0 o.C) fun (t, s, c) => do
      let R := o.n * t + r
      let z ← o.Zetaqm.get (o.m * R + s)
      let X := UNPACKL z z
      let Y := UNPACKH z (-z)
      let v ← load (W + o.Sm * t + o.S * s + c)
      store (W + o.Sm * t + o.S * s + c) (ZMULTxy X Y v)
  seqLoop (rng 0 o.p) fun t => o.fftm.exec (W + o.Sm * t) (F + o.Sm * t)

/-- convolve.cc:1530-1542 `backward1All`. -/
noncomputable def backward1All (F f : Ptr) : Cmd Unit := do
  o.ifftm.exec f f
  o.ifftm.exec F F
  (do
    let v ← load f
    let u ← load F
    store f (v + u) : Body Unit).run
  par (rng 1 o.m) fun s => do
    let v ← load (f + s)
    let z ← o.Zetaqm.get (o.m + s)
    let u ← load (F + s)
    store (f + s) (v + (starRingEnd ℂ) z * u)

/-- convolve.cc:1581-1607, the part of `backward1` after the treatment of `r0=0`. -/
noncomputable def backward1Rest (f W : Ptr) (r0 dr0 : ℕ) : Cmd Unit :=
  if o.D = 1 then
    if 0 < dr0 then do
      (do
        let v ← load f
        let u ← load W
        store f (v + u) : Body Unit).run
      par (rng 1 o.L) fun s => do
        let v ← load (f + s)
        let z ← o.Zetaqm.get (o.m * r0 + s)
        let u ← load (W + s)
        store (f + s) (v + (starRingEnd ℂ) z * u)
    else pure ()
  else
    seqLoop (rng 0 dr0) fun d => do
      let U : Ptr := W + 2 * o.m * d
      let V := U + o.m
      let r := r0 + d
      (do
        let v ← load f
        let u0 ← load U
        let v0 ← load V
        store f (v + (u0 + v0)) : Body Unit).run
      par (rng 1 o.L) fun s => do
        let Zeta ← o.Zetaqm.get (o.m * r + s)
        let Us ← load (U + s)
        let Vs ← load (V + s)
        let v ← load (f + s)
        store (f + s) (v + ZMULT2 Zeta Vs Us)

/-- convolve.cc:1544-1608 `backward1`. -/
noncomputable def backward1 (F0 f : Ptr) (r0 : ℕ) (W? : Option Ptr) : Cmd Unit :=
  let W := W?.getD F0
  if r0 = 0 ∧ o.inplace = false ∧ o.D = 1 ∧ o.m ≤ o.L then o.ifftm.exec F0 f
  else do
    (if 0 < r0 ∨ o.D0 = o.D then o.ifftm else o.ifftm0).exec F0 W
    if r0 = 0 then
      let q2 := o.q / 2
      if o.D = 1 ∨ 2 * q2 < o.q then do
        par (rng 0 o.L) fun s => copy1 (f + s) (W + s)
        o.backward1Rest f (W + 1 * o.m) 1 ((o.D0 - 1) / 2)
      else do
        let V := W + o.m
        (do
          let w0 ← load W
          let v0 ← load V
          store f (w0 + v0) : Body Unit).run
        par (rng 1 o.L) fun s => do
          let ws ← load (W + s)
          let z ← o.Zetaqm.get (o.m * q2 + s)
          let vs ← load (V + s)
          store (f + s) (ws + (starRingEnd ℂ) z * vs)
        o.backward1Rest f (W + 2 * o.m) 1 ((o.D0 - 2) / 2)
    else o.backward1Rest f W r0 o.dr

/-- convolve.cc:1610-1633 `backward1ManyAll`. -/
noncomputable def backward1ManyAll (F f : Ptr) : Cmd Unit := do
  o.ifftm.exec f f
  o.ifftm.exec F F
  par (rng 0 o.C) fun c => do
    let v ← load (f + c)
    let u ← load (F + c)
    store (f + c) (v + u)
  par (rng2 1 o.m 0 o.C) fun (s, c) => do
    let Zeta ← o.Zetaqm.get (o.m + s)
    let X := UNPACKL Zeta Zeta
    let Y := UNPACKH (-Zeta) Zeta
    let v ← load (f + o.S * s + c)
    let u ← load (F + o.S * s + c)
    store (f + o.S * s + c) (v + ZMULTxy X Y u)

/-- convolve.cc:1635-1675 `backward1Many`. -/
noncomputable def backward1Many (F f : Ptr) (r : ℕ) (W? : Option Ptr) : Cmd Unit :=
  let W := W?.getD F
  if r = 0 ∧ o.inplace = false ∧ o.m ≤ o.L then o.ifftm.exec F f
  else do
    o.ifftm.exec F W
    if r = 0 then
      par (rng2 0 o.L 0 o.C) fun (s, c) => copy1 (f + o.S * s + c) (W + o.S * s + c)
    else do
      par (rng 0 o.C) fun c => do
        let v ← load (f + c)
        let u ← load (W + c)
        store (f + c) (v + u)
      par (rng2 1 o.L 0 o.C) fun (s, c) => do
        let Zeta ← o.Zetaqm.get (o.m * r + s)
        let X := UNPACKL Zeta Zeta
        let Y := UNPACKH (-Zeta) Zeta
        let v ← load (f + o.S * s + c)
        let u ← load (W + o.S * s + c)
        store (f + o.S * s + c) (v + ZMULTxy X Y u)

/-- convolve.cc:1677-1704 `backward2All`. -/
noncomputable def backward2All (F f : Ptr) : Cmd Unit := do
  let g := f + o.m
  o.ifftm.exec f f
  o.ifftm.exec g g
  o.ifftm.exec F F
  (do
    let V0 ← load f
    let V1 ← load g
    let V2 ← load F
    store f (V0 + V1 + V2)
    let z ← o.ZetaqmS.get o.L
    store g (V0 + ZMULT2 z V2 V1) : Body Unit).run
  par (rng 1 o.m) fun s => do
    let V0 ← load (f + s)
    let V1 ← load (g + s)
    let V2 ← load (F + s)
    let z ← o.Zetaqm.get (o.m + s)
    store (f + s) (V0 + ZMULT2 z V2 V1)
    let z2 ← o.ZetaqmS.get (o.L + s)
    store (g + s) (V0 + ZMULT2 z2 V2 V1)

/-- convolve.cc:1754-1794, the part of `backward2` after the treatment of `r0=0`. -/
noncomputable def backward2Rest (f W : Ptr) (r0 dr0 : ℕ) : Cmd Unit :=
  let Lm := o.L - o.m
  if o.D = 1 then
    if 0 < dr0 then do
      (do
        let v ← load f
        let u ← load W
        store f (v + u) : Body Unit).run
      par (rng 1 o.m) fun s => do
        let v ← load (f + s)
        let z ← o.Zetaqm.get (o.m * r0 + s)
        let u ← load (W + s)
        store (f + s) (v + (starRingEnd ℂ) z * u)
      let Wm := W - o.m
      par (rng o.m o.L) fun s => do
        let v ← load (f + s)
        let z ← o.ZetaqmS.get (Lm * r0 + s)
        let u ← load (Wm + s)
        store (f + s) (v + (starRingEnd ℂ) z * u)
    else pure ()
  else
    seqLoop (rng 0 dr0) fun d => do
      let U : Ptr := W + 2 * o.m * d
      let V := U + o.m
      let r := r0 + d
      (do
        let v ← load f
        let u0 ← load U
        let v0 ← load V
        store f (v + (u0 + v0)) : Body Unit).run
      par (rng 1 o.m) fun s => do
        let v ← load (f + s)
        let z ← o.Zetaqm.get (o.m * r + s)
        let Vs ← load (V + s)
        let Us ← load (U + s)
        store (f + s) (v + ZMULT2 z Vs Us)
      let Um := U - o.m
      let Vm := V - o.m
      par (rng o.m o.L) fun s => do
        let v ← load (f + s)
        let z ← o.ZetaqmS.get (Lm * r + s)
        let Vs ← load (Vm + s)
        let Us ← load (Um + s)
        store (f + s) (v + ZMULT2 z Vs Us)

/-- convolve.cc:1706-1795 `backward2`. -/
noncomputable def backward2 (F0 f : Ptr) (r0 : ℕ) (W? : Option Ptr) : Cmd Unit := do
  let W := W?.getD F0
  let Lm := o.L - o.m
  (if 0 < r0 ∨ o.D0 = o.D then o.ifftm else o.ifftm0).exec F0 W
  if r0 = 0 then
    let q2 := o.q / 2
    if o.D = 1 ∨ 2 * q2 < o.q then do
      par (rng 0 o.m) fun s => copy1 (f + s) (W + s)
      let Wm := W - o.m
      par (rng o.m o.L) fun s => copy1 (f + s) (Wm + s)
      o.backward2Rest f (W + 1 * o.m) 1 ((o.D0 - 1) / 2)
    else do
      let V := W + o.m
      (do
        let w0 ← load W
        let v0 ← load V
        store f (w0 + v0) : Body Unit).run
      par (rng 1 o.m) fun s => do
        let ws ← load (W + s)
        let z ← o.Zetaqm.get (o.m * q2 + s)
        let vs ← load (V + s)
        store (f + s) (ws + z * vs)
      let Wm := W - o.m
      par (rng o.m o.L) fun s => do
        let ws ← load (Wm + s)
        let z ← o.ZetaqmS.get (Lm * q2 + s)
        let vs ← load (W + s)
        store (f + s) (ws + z * vs)
      o.backward2Rest f (W + 2 * o.m) 1 ((o.D0 - 2) / 2)
  else o.backward2Rest f W r0 o.dr

/-- convolve.cc:1797-1844 `backward2ManyAll`. -/
noncomputable def backward2ManyAll (F f : Ptr) : Cmd Unit := do
  let g := f + o.Sm
  o.ifftm.exec f f
  o.ifftm.exec g g
  o.ifftm.exec F F
  par (rng 0 o.C) fun c => do
    let Zetam ← o.ZetaqmS.get o.L
    let Xm := UNPACKL Zetam Zetam
    let Ym := UNPACKH Zetam (-Zetam)
    let V0 ← load (f + c)
    let V1 ← load (g + c)
    let V2 ← load (F + c)
    store (f + c) (V0 + V1 + V2)
    store (g + c) (V0 + ZMULT2xy Xm Ym V2 V1)
  par (rng2 1 o.m 0 o.C) fun (s, c) => do
    let Zeta ← o.Zetaqm.get (o.m + s)
    let Zetam ← o.ZetaqmS.get (o.L + s)
    let X := UNPACKL Zeta Zeta
    let Y := UNPACKH Zeta (-Zeta)
    let Xm := UNPACKL Zetam Zetam
    let Ym := UNPACKH Zetam (-Zetam)
    let V0 ← load (f + o.S * s + c)
    let V1 ← load (g + o.S * s + c)
    let V2 ← load (F + o.S * s + c)
    store (f + o.S * s + c) (V0 + ZMULT2xy X Y V2 V1)
    store (g + o.S * s + c) (V0 + ZMULT2xy Xm Ym V2 V1)

/-- convolve.cc:1846-1903 `backward2Many`. -/
noncomputable def backward2Many (F f : Ptr) (r : ℕ) (W? : Option Ptr) : Cmd Unit := do
  let W := W?.getD F
  o.ifftm.exec F W
  let WSm := W - o.Sm
  if r = 0 then do
    par (rng2 0 o.m 0 o.C) fun (s, c) => copy1 (f + o.S * s + c) (W + o.S * s + c)
    par (rng2 o.m o.L 0 o.C) fun (s, c) => copy1 (f + o.S * s + c) (WSm + o.S * s + c)
  else do
    let Lm := o.L - o.m
    par (rng 0 o.C) fun c => do
      let v ← load (f + c)
      let u ← load (W + c)
      store (f + c) (v + u)
    par (rng2 1 o.m 0 o.C) fun (s, c) => do
      let z ← o.Zetaqm.get (o.m * r + s)
      let v ← load (f + o.S * s + c)
      let u ← load (W + o.S * s + c)
      store (f + o.S * s + c) (v + (starRingEnd ℂ) z * u)
    par (rng2 o.m o.L 0 o.C) fun (s, c) => do
      let z ← o.ZetaqmS.get (Lm * r + s)
      let v ← load (f + o.S * s + c)
      let u ← load (WSm + o.S * s + c)
      store (f + o.S * s + c) (v + (starRingEnd ℂ) z * u)

/-- convolve.cc:1917-1945, the treatment of `r0=0` in `backwardInner`. -/
noncomputable def backwardInnerZero (f W : Ptr) : Cmd Unit := do
  let pm1 := o.p - 1
  let mpm1 := o.m * pm1
  let stop := o.L - mpm1
  par (rng2 1 o.p 1 o.m) fun (t, s) => do
    let R := o.n * t
    let v ← load (W + o.m * t + s)
    let z ← o.Zetaqm.get (o.m * R + s)
    store (W + o.m * t + s) (v * (starRingEnd ℂ) z)
  o.ifftp.exec W W
  par (rng2 0 pm1 0 o.m) fun (t, s) => copy1 (f + o.m * t + s) (W + o.m * t + s)
  par (rng 0 stop) fun s => copy1 (f + mpm1 + s) (W + mpm1 + s)

/-- convolve.cc:1951-1989, the body of the loop over `d` in `backwardInner`. -/
noncomputable def backwardInnerOne (f F : Ptr) (r : ℕ) : Cmd Unit := do
  let pm1 := o.p - 1
  let mpm1 := o.m * pm1
  let stop := o.L - mpm1
  par (rng2 0 o.p 1 o.m) fun (t, s) => do
    let R := o.n * t + r
    let v ← load (F + o.m * t + s)
    let z ← o.Zetaqm.get (o.m * R + s)
    store (F + o.m * t + s) (v * (starRingEnd ℂ) z)
  o.ifftp.exec F F
  par (rng 0 o.m) fun s => do
    let v ← load (f + s)
    let u ← load (F + s)
    store (f + s) (v + u)
  par (rng2 1 pm1 0 o.m) fun (t, s) => do
    let Zeta ← o.Zetaqp.get (pm1 * r + t)
    let v ← load (f + o.m * t + s)
    let u ← load (F + o.m * t + s)
    store (f + o.m * t + s) (v + (starRingEnd ℂ) Zeta * u)
  par (rng 0 stop) fun s => do
    let Zeta ← o.Zetaqp.get (pm1 * r + pm1)
    let v ← load (f + mpm1 + s)
    let u ← load (F + mpm1 + s)
    store (f + mpm1 + s) (v + (starRingEnd ℂ) Zeta * u)

/-- convolve.cc:1905-1990 `backwardInner`. -/
noncomputable def backwardInner (F0 f : Ptr) (r0 : ℕ) (W? : Option Ptr) : Cmd Unit := do
  let W := W?.getD F0
  (if 0 < r0 ∨ o.D0 = o.D then o.ifftm else o.ifftm0).exec F0 W
  if r0 = 0 then do
    o.backwardInnerZero f W
    seqLoop (rng 0 (o.D0 - 1)) fun d => o.backwardInnerOne f (W + o.b + o.b * d) (1 + d)
  else
    seqLoop (rng 0 o.dr) fun d => o.backwardInnerOne f (W + o.b * d) (r0 + d)

/-- convolve.cc:1992-2105 `backwardInnerMany`. -/
noncomputable def backwardInnerMany (F f : Ptr) (r : ℕ) (W? : Option Ptr) : Cmd Unit := do
  let W := W?.getD F
  seqLoop (rng 0 o.p) fun t => o.ifftm.exec (F + o.Sm * t) (W + o.Sm * t)
  let pm1 := o.p - 1
  let stop := o.L - o.m * pm1
  let Smpm1 := o.Sm * pm1
  if r = 0 then do
    par (rng3 1 o.p 1 o.m 0 o.C) fun (t, s, c) => do
      let R := o.n * t
      let z ← o.Zetaqm.get (o.m * R + s)
      let v ← load (W + o.Sm * t + o.S * s + c)
      store (W + o.Sm * t + o.S * s + c) (v * (starRingEnd ℂ) z)
    o.fftpMany o.ifftp W
    par (rng3 0 pm1 0 o.m 0 o.C) fun (t, s, c) =>
      copy1 (f + o.Sm * t + o.S * s + c) (W + o.Sm * t + o.S * s + c)
    par (rng2 0 stop 0 o.C) fun (s, c) => copy1 (f + Smpm1 + o.S * s + c) (W + Smpm1 + o.S * s + c)
  else do
    par (rng3 0 o.p 1 o.m 0 o.C) fun (t, s, c) => do
      let R := o.n * t + r
      let z ← o.Zetaqm.get (o.m * R + s)
      let v ← load (W + o.Sm * t + o.S * s + c)
      store (W + o.Sm * t + o.S * s + c) (v * (starRingEnd ℂ) z)
    o.fftpMany o.ifftp W
    par (rng2 0 o.m 0 o.C) fun (s, c) => do
      let v ← load (f + o.S * s + c)
      let u ← load (W + o.S * s + c)
      store (f + o.S * s + c) (v + u)
    par (rng3 1 pm1 0 o.m 0 o.C) fun (t, s, c) => do
      let Zeta ← o.Zetaqp.get (pm1 * r + t)
      let v ← load (f + o.Sm * t + o.S * s + c)
      let u ← load (W + o.Sm * t + o.S * s + c)
      store (f + o.Sm * t + o.S * s + c) (v + (starRingEnd ℂ) Zeta * u)
    par (rng2 0 stop 0 o.C) fun (s, c) => do
      let Zeta ← o.Zetaqp.get (pm1 * r + pm1)
      let v ← load (f + Smpm1 + o.S * s + c)
      let u ← load (W + Smpm1 + o.S * s + c)
      store (f + Smpm1 + o.S * s + c) (v + (starRingEnd ℂ) Zeta * u)

/-- convolve.h:254-256 `forward(f,F,r,W)`: calls the routine chosen at construction.  (`forwardInnerAll`, `forwardInnerManyAll`
exist only in the centered class; the noncentered constructor never selects them, convolve.cc:567.) -/
noncomputable def forward (f F : Ptr) (r : ℕ) (W? : Option Ptr) : Cmd Unit :=
  match o.route with
  | .explicit => o.forwardExplicit f F W?
  | .explicitMany => o.forwardExplicitMany f F W?
  | .one => o.forward1 f F r W?
  | .oneAll => o.forward1All f F
  | .oneMany => o.forward1Many f F r W?
  | .oneManyAll => o.forward1ManyAll f F
  | .two => o.forward2 f F r W?
  | .twoAll => o.forward2All f F
  | .twoMany => o.forward2Many f F r W?
  | .twoManyAll => o.forward2ManyAll f F
  | .inner => o.forwardInner f F r W?
  | .innerMany => o.forwardInnerMany f F r W?
  | .innerAll => pure ()
  | .innerManyAll => pure ()

/-- convolve.h:258-260 `backward(F,f,r,W)`. -/
noncomputable def backward (F f : Ptr) (r : ℕ) (W? : Option Ptr) : Cmd Unit :=
  match o.route with
  | .explicit => o.backwardExplicit F f W?
  | .explicitMany => o.backwardExplicitMany F f W?
  | .one => o.backward1 F f r W?
  | .oneAll => o.backward1All F f
  | .oneMany => o.backward1Many F f r W?
  | .oneManyAll => o.backward1ManyAll F f
  | .two => o.backward2 F f r W?
  | .twoAll => o.backward2All F f
  | .twoMany => o.backward2Many F f r W?
  | .twoManyAll => o.backward2ManyAll F f
  | .inner => o.backwardInner F f r W?
  | .innerMany => o.backwardInnerMany F f r W?
  | .innerAll => pure ()
  | .innerManyAll => pure ()

end Fft
end Fftwpp
