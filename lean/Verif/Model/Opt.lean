import Verif.Model.Utils

/-!
# The optimizer (convolve.cc:232-455, convolve.h:156-220 and the `Opt` classes)

Values of type `Option`: `none` is "does not return normally" (does not terminate, calls a null pointer, divides by zero or
exits).  Measured times are supplied by the environment as an arbitrary sequence of rationals (finite doubles); diagnostic
output is not modelled.  Sizes are natural numbers (the sums and products formed here do not overflow for sizes below `2^31`).
-/

namespace Fftwpp.Opt
open Utils

/-- The four transform classes. -/
inductive Kind where
  | pad | centered | hermitian | real
deriving DecidableEq

/-- `centered` argument of `scan` in convolve.h:485-488, 598-601, 714-717, 826-829. -/
def Kind.isCentered : Kind → Bool
  | .pad => false
  | .centered => true
  | .hermitian => true
  | .real => false

/-- convolve.h:490-492 (fftPad), 603-605 (fftPadCentered), 719-721 (fftPadHermitian), 831-834 (fftPadReal) `Opt::valid`. -/
def Kind.valid (k : Kind) (m p q n D S : ℕ) : Bool :=
  match k with
  | .pad => fftPadValid q n D S
  | .centered => (q = 1 ∨ p % 2 = 0) && fftPadValid q n D S
  | .hermitian => (D = 1 ∧ q = 1) ∨ (D = 2 ∧ p % 2 = 0 ∧ (p = 2 ∨ S = 1))
  | .real => (n % 2 = 1 ∨ (p % 2 = 0 ∨ p ≤ 2)) ∧ (q % 2 = 1 ∨ m % 2 = 0) ∧
      (D = 1 ∨ (S = 1 ∧ ((D < (n - 1) / 2 ∧ D % 2 = 0) ∨ D = (n - 1) / 2)))

/-- convolve.h:494-496, 607-609, 723-725, 836-838 `Opt::maxD`. -/
def Kind.maxD (k : Kind) (n : ℕ) : ℕ :=
  match k with
  | .real => if 2 < n then (n - 1) / 2 else 1
  | _ => n

/-- convolve.h:176, 840 `real()`. -/
def Kind.isReal : Kind → Bool
  | .real => true
  | _ => false

/-- User choices in `Application` (convolve.h:84-104): `m` and `D`, 0 if not forced; `I`, `none` for `-1` (not forced). -/
structure OApp where
  m : ℕ
  D : ℕ
  I : Option ℕ

/-- What is fixed during a scan: class, sizes, and the environment: `times k` is the result of the `k`-th timing,
`back` the value read by `mlist.back()` on an empty list (undefined behaviour in C++; we allow any value). -/
structure Cfg where
  kind : Kind
  L : ℕ
  C : ℕ
  S : ℕ
  times : ℕ → ℚ
  back : ℕ

/-- Data members of `OptBase` (convolve.h:158-167), and the list of all timings made so far. -/
structure St where
  counter : ℕ
  m : ℕ
  D : ℕ
  inplace : Bool
  T : ℚ
  mlist : List ℕ
  log : List (ℕ × ℕ × Bool × ℚ)

/-- `DBL_MAX`. -/
def DBL_MAX : ℚ := (2 ^ 53 - 1) * 2 ^ 971

/-- `time(L,M,app,C,S,m,D,inplace)` (convolve.h:498-503, 611-616, 727-731, 842-847): constructs a transform, which exits on
`L > M`, `S < C` (convolve.cc:464-475) or invalid parameters, then measures. -/
def time (c : Cfg) (M m p q n D : ℕ) (s : St) : Option ℚ :=
  if M < c.L ∨ c.S < c.C ∨ (1 < q ∧ c.kind.valid m p q n D c.S = false) then none
  else some (c.times s.log.length)

/-- convolve.cc:352-385 `check`. -/
def check (c : Cfg) (M m p q n D : ℕ) (inplace useTimer : Bool) (s : St) : Option St :=
  if c.kind.valid m p q n D c.S then
    if useTimer then do
      let t ← time c M m p q n D s
      let s := { s with log := s.log ++ [(m, D, inplace, t)] }
      if t < s.T then some { s with m := m, D := D, inplace := inplace, T := t } else some s
    else
      let s := { s with counter := s.counter + 1 }
      let s := if m ≠ (s.mlist.getLast?).getD c.back then { s with mlist := s.mlist ++ [m] } else s
      if s.counter = 1 then some { s with m := m, D := D, inplace := inplace } else some s
  else some s

/-- convolve.cc:271-275: `for(D=Dstart; D < 2*Dstop; D *= 2) {if(D > Dstop) D=Dstop; …}`. -/
def loopD (Dstop : ℕ) (body : ℕ → St → Option St) (D : ℕ) (s : St) : Option St :=
  if D < 2 * Dstop then do
    let D := if Dstop < D then Dstop else D
    let s ← body D s
    loopD Dstop body (2 * D) s
  else some s
partial_fixpoint

/-- convolve.cc:273-274: `for(inplace=Istart; inplace < Istop; ++inplace)`. -/
def loopI (body : Bool → St → Option St) (Istart Istop : ℕ) (s : St) : Option St :=
  (List.range' Istart (Istop - Istart)).foldlM (fun s i => body (i != 0) s) s

/-- convolve.cc:266 `Istart`. -/
def istart (c : Cfg) (app : OApp) : ℕ :=
  match app.I with
  | none => if 1 < c.C ∧ c.kind.isReal = false then 1 else 0
  | some I => I

/-- convolve.cc:268 `Istop`. -/
def istop (app : OApp) : ℕ :=
  match app.I with
  | none => 2
  | some I => I + 1

/-- convolve.cc:261-275: all checks for one value of `m`. -/
def checks (c : Cfg) (app : OApp) (M m p q n : ℕ) (useTimer : Bool) (s : St) : Option St :=
  let DForced := 0 < app.D
  let Dstart := if DForced then app.D else 1
  let Dstop := if DForced then app.D else c.kind.maxD n
  loopD Dstop (fun D s => loopI (fun inplace s => check c M m p q n D inplace useTimer s) (istart c app) (istop app) s) Dstart s

/-- The loop of convolve.cc:245-292 `optloop`; returns the final `m` (a reference parameter). -/
def optwhile (c : Cfg) (app : OApp) (mForced : Bool) (M itmax : ℕ) (useTimer inner : Bool) (nextInner : ℕ → Option ℕ)
    (i m : ℕ) (s : St) : Option (ℕ × St) :=
  if i < itmax then
    if m = 0 ∨ c.L = 0 then none   -- division by zero
    else do
      let pnq := parameters c.L M m c.kind.isCentered
      let p := pnq.1
      let n := pnq.2.1
      let q := pnq.2.2
      let skip ← (if inner then do
        let b ← ispure p
        some (((!b || p == q) && !mForced) || (c.kind.isCentered && p % 2 != 0))
        else some false)
      if skip then do
        let m ← nextInner (m + 1)
        optwhile c app mForced M itmax useTimer inner nextInner m m s
      else do
        let s ← checks c app M m p q n useTimer s
        if mForced then some (m, s)
        else if inner then do
          let m ← nextInner (m + 1)
          optwhile c app mForced M itmax useTimer inner nextInner m m s
        else do
          let b ← ispure m
          if b then do
            let m ← nextfftsize (m + 1)
            some (m, s)
          else do
            let m ← (if i + 1 < itmax then nextfftsize (m + 1) else some m)
            optwhile c app mForced M itmax useTimer inner nextInner (i + 1) m s
  else some (m, s)
partial_fixpoint

/-- The default `NULL` for the function pointer `nextInnerSize`: calling it does not return normally. -/
def null : ℕ → Option ℕ := fun _ => none

/-- convolve.cc:232-293 `optloop`. -/
def optloop (c : Cfg) (app : OApp) (mForced : Bool) (m M itmax : ℕ) (useTimer : Bool) (nextInner : ℕ → Option ℕ) (s : St) : Option (ℕ × St) :=
  if m = 0 then none   -- division by zero
  else
    let inner := 2 < ceilquotient c.L m
    optwhile c app mForced M itmax useTimer inner nextInner (if inner then m else 0) m s

/-- convolve.cc:295-350 `opt`. -/
def opt (c : Cfg) (app : OApp) (mForced : Bool) (M minsize itmax : ℕ) (Explicit useTimer : Bool) (s : St) : Option St :=
  if Explicit = false then
    let nextInner : ℕ → Option ℕ := if ispow2 c.L then fun x => some (ceilpow2 x) else nextpuresize
    let H := ceilquotient c.L 2
    if mForced then
      if H ≤ app.m then do
        let (_, s) ← optloop c app mForced app.m M 1 useTimer null s
        some s
      else do
        let (_, s) ← optloop c app mForced app.m M (app.m + 1) useTimer nextInner s
        some s
    else do
      let m ← nextInner minsize
      let (_, s) ← optloop c app mForced m M H useTimer nextInner s
      let m ← nextfftsize H
      let (m, s) ← optloop c app mForced m M itmax useTimer null s
      let Mhalf := ceilquotient M 2
      let (m, s) ← (if Mhalf < c.L then do
          let m ← nextfftsize (max Mhalf (m + 1))
          let (m, s) ← optloop c app mForced m M itmax useTimer null s
          let m ← nextfftsize (max c.L (m + 1))
          optloop c app mForced m M itmax useTimer null s
        else do
          let m ← nextfftsize (max c.L (m + 1))
          let (m, s) ← optloop c app mForced m M itmax useTimer null s
          let (m, s) ← (if 16 < M ∧ m < 16 then optloop c app mForced 16 M 1 useTimer null s else some (m, s))
          if 32 < M ∧ m < 32 then optloop c app mForced 32 M 1 useTimer null s else some (m, s))
      let m ← nextfftsize (max M m)
      let (m, s) ← optloop c app mForced m M itmax useTimer null s
      let ceilpow2M := ceilpow2 M
      if m < ceilpow2M ∧ c.C = 1 then do
        let (_, s) ← optloop c app mForced ceilpow2M M 1 useTimer null s
        some s
      else some s
  else do
    let m ← nextfftsize M
    let (m, s) ← optloop c app mForced m m itmax useTimer null s
    let ceilpow2M := ceilpow2 M
    if m < ceilpow2M ∧ c.C = 1 then do
      let (_, s) ← optloop c app mForced ceilpow2M M 1 useTimer null s
      some s
    else some s

/-- convolve.cc:397-455 `scan`: the final state, whose `m`, `D`, `inplace` are the choice. -/
def scan (c : Cfg) (app : OApp) (M : ℕ) (Explicit : Bool) : Option St := do
  let s : St := ⟨0, M, 1, false, DBL_MAX, [], []⟩
  let s ← opt c app (1 ≤ app.m) M 2 3 Explicit false s
  if 1 < s.counter then
    s.mlist.reverse.foldlM (fun s r => opt c { app with m := r } true M 2 3 Explicit true s) s
  else some s

end Fftwpp.Opt
