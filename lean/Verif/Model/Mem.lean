import Verif.Spec.Dft

/-!
# Memory, straight-line programs, parallel loops and FFT plans

The execution model shared by all routines.

* `Mem`: finitely sized buffers of complex numbers (C++ `Complex *` allocations made by `ComplexAlign`, align.h:100-118).
* `Ptr`: a C++ pointer, a buffer and an (integer) offset in complex words.
* `Err.ub`: undefined behaviour (out-of-bounds access, data race, overlapping FFT arguments);
  `Err.exit`: the library calls `exit(..)`.
* `Body`: the straight-line body of one loop iteration: loads and stores.
* `Cmd`: a whole routine.
* `par`: an OpenMP loop (`PARALLELIF`, parallel.h:40-62).
* `Plan.exec`: execution of an FFTW plan (`fftw::fft`, fftw++.h:290-293; `Setout`, fftw++.h:281-288).
-/

namespace Fftwpp
open Finset

/-- Abnormal outcomes. -/
inductive Err where
  | ub
  | exit
deriving DecidableEq

/-- A pointer into buffer `buf`, `off` complex words from its start. -/
@[ext] structure Ptr where
  buf : ℕ
  off : ℤ
deriving DecidableEq

/-- Pointer arithmetic `p+i`. -/
instance : HAdd Ptr ℕ Ptr := ⟨fun p i => ⟨p.buf, p.off + i⟩⟩
/-- Pointer arithmetic `p-i`. -/
instance : HSub Ptr ℕ Ptr := ⟨fun p i => ⟨p.buf, p.off - i⟩⟩

@[simp] theorem Ptr.add_buf (p : Ptr) (i : ℕ) : (p + i).buf = p.buf := rfl
@[simp] theorem Ptr.add_off (p : Ptr) (i : ℕ) : (p + i).off = p.off + i := rfl
@[simp] theorem Ptr.sub_buf (p : Ptr) (i : ℕ) : (p - i).buf = p.buf := rfl
@[simp] theorem Ptr.sub_off (p : Ptr) (i : ℕ) : (p - i).off = p.off - i := rfl

/-- Memory: buffer sizes and contents.  (Freshly allocated buffers have arbitrary contents: all theorems
quantify over the initial contents.) -/
@[ext] structure Mem where
  size : ℕ → ℕ
  val : Ptr → ℂ

/-- A pointer may be dereferenced. -/
def Mem.valid (m : Mem) (p : Ptr) : Prop := 0 ≤ p.off ∧ p.off < m.size p.buf

/-- Store. -/
noncomputable def Mem.set (m : Mem) (p : Ptr) (v : ℂ) : Mem :=
  { m with val := fun q => if q = p then v else m.val q }

/-- Perform a list of stores, in order. -/
noncomputable def Mem.setAll (m : Mem) : List (Ptr × ℂ) → Mem
  | [] => m
  | (p, v) :: t => (m.set p v).setAll t

/-- The body of one loop iteration: loads and stores.  `guard P k` is undefined behaviour unless `P` holds (used for
the bounds of read-only tables). -/
inductive Body (α : Type) : Type where
  | ret (a : α)
  | guard (P : Prop) (k : Body α)
  | rd (p : Ptr) (k : ℂ → Body α)
  | wr (p : Ptr) (v : ℂ) (k : Body α)

/-- Sequencing. -/
def Body.bind {α β : Type} : Body α → (α → Body β) → Body β
  | .ret a, g => g a
  | .guard P k, g => .guard P (k.bind g)
  | .rd p k, g => .rd p (fun v => (k v).bind g)
  | .wr p v k, g => .wr p v (k.bind g)

instance : Monad Body where
  pure := Body.ret
  bind := Body.bind

/-- `x = *p`. -/
def load (p : Ptr) : Body ℂ := .rd p .ret
/-- `*p = v`. -/
def store (p : Ptr) (v : ℂ) : Body Unit := .wr p v (.ret ())

open Classical in
/-- Run a body alone, recording the locations read and the stores made (most recent last).  A body sees its own
stores. -/
noncomputable def Body.trace {α : Type} :
    Body α → Mem → Except Err (List Ptr × List (Ptr × ℂ) × α)
  | .ret a, _ => .ok ([], [], a)
  | .guard P k, m => if P then k.trace m else .error .ub
  | .rd p k, m =>
    if m.valid p then
      match (k (m.val p)).trace m with
      | .ok (r, w, a) => .ok (p :: r, w, a)
      | .error e => .error e
    else .error .ub
  | .wr p v k, m =>
    if m.valid p then
      match k.trace (m.set p v) with
      | .ok (r, w, a) => .ok (r, (p, v) :: w, a)
      | .error e => .error e
    else .error .ub

/-- A routine: transforms the memory or ends abnormally. -/
def Cmd (α : Type) := Mem → Except Err (α × Mem)

instance : Monad Cmd where
  pure a := fun m => .ok (a, m)
  bind c k := fun m =>
    match c m with
    | .ok (a, m') => k a m'
    | .error e => .error e

/-- Run a straight-line piece of code as part of a routine. -/
noncomputable def Body.run {α : Type} (b : Body α) : Cmd α := fun m =>
  match b.trace m with
  | .ok (_, w, a) => .ok (a, m.setAll w)
  | .error e => .error e

/-- Serial loop over an index list. -/
noncomputable def seqLoop {ι : Type} : List ι → (ι → Cmd Unit) → Cmd Unit
  | [], _ => fun m => .ok ((), m)
  | i :: l, body => fun m =>
    match body i m with
    | .ok (_, m') => seqLoop l body m'
    | .error e => .error e

/-- Every iteration can be run alone from `m`, and none writes a location that another one reads or writes. -/
def RaceFree {ι : Type} (l : List ι) (body : ι → Body Unit) (m : Mem) : Prop :=
  l.Nodup ∧ (∀ i ∈ l, ∃ r w, (body i).trace m = .ok (r, w, ())) ∧
  ∀ i ∈ l, ∀ j ∈ l, i ≠ j → ∀ ri wi rj wj,
    (body i).trace m = .ok (ri, wi, ()) → (body j).trace m = .ok (rj, wj, ()) →
    ∀ x ∈ wi, x.1 ∉ rj ∧ x.1 ∉ wj.map Prod.fst

open Classical in
/-- `PARALLELIF(cond, for …)` (parallel.h:40-62).  Depending on the run-time threshold and number of threads the
loop is executed serially or by several threads; both must be allowed, so a data race is undefined behaviour and
otherwise the result is that of the serial loop (see `Props/Parallel.lean` for the theorem that every interleaving agrees). -/
noncomputable def par {ι : Type} (l : List ι) (body : ι → Body Unit) : Cmd Unit := fun m =>
  if RaceFree l body m then seqLoop l (fun i => (body i).run) m else .error .ub

/-- Indices of `for(size_t s=a; s < b; ++s)`. -/
def rng (a b : ℕ) : List ℕ := List.range' a (b - a)

/-- Index pairs of two nested loops. -/
def rng2 (a b c d : ℕ) : List (ℕ × ℕ) := (rng a b).product (rng c d)

/-- Index triples of three nested loops. -/
def rng3 (a b c d e f : ℕ) : List (ℕ × ℕ × ℕ) := (rng a b).product (rng2 c d e f)

/-- An FFTW batched 1D complex plan as used in convolve.cc: `howmany` transforms of length `n` with equal input and
output `stride` and `dist` (`mfft1d(n,sign,howmany,stride,dist,in,out)`, fftw++.h:836-845; `fft1d` is `howmany=1`).
`inplace` records whether it was planned with `in == out`. -/
structure Plan where
  n : ℕ
  sign : ℤ
  howmany : ℕ
  stride : ℕ
  dist : ℕ
  inplace : Bool

/-- Address of element `j` of transform `c`. -/
def Plan.addr (pl : Plan) (p : Ptr) (c j : ℕ) : Ptr := p + (c * pl.dist + j * pl.stride)

/-- Arguments on which executing the plan is defined behaviour: all elements in bounds, elements of the batch do not
overlap, and the output is either the input or disjoint from it. -/
def Plan.Defined (pl : Plan) (src dst : Ptr) (m : Mem) : Prop :=
  (∀ c < pl.howmany, ∀ j < pl.n, m.valid (pl.addr src c j) ∧ m.valid (pl.addr dst c j)) ∧
  (∀ c < pl.howmany, ∀ j < pl.n, ∀ c' < pl.howmany, ∀ j' < pl.n,
    pl.addr dst c j = pl.addr dst c' j' → c = c' ∧ j = j') ∧
  (src = dst ∨ ∀ c < pl.howmany, ∀ j < pl.n, ∀ c' < pl.howmany, ∀ j' < pl.n,
    pl.addr src c j ≠ pl.addr dst c' j')

open Classical in
/-- `plan->fft(in,out)` (fftw++.h:281-293 and `fftw_execute_dft`): exits if the call is not of the same kind (in-place or
out-of-place) as the plan; otherwise computes the exact unnormalized DFTs (FFTW's documented contract). -/
noncomputable def Plan.exec (pl : Plan) (src dst : Ptr) : Cmd Unit := fun m =>
  if pl.inplace ≠ decide (src = dst) then .error .exit
  else if pl.Defined src dst m then
    .ok ((), Mem.mk m.size (fun p =>
      if h : ∃ ck : ℕ × ℕ, ck.1 < pl.howmany ∧ ck.2 < pl.n ∧ p = pl.addr dst ck.1 ck.2 then
        ∑ j ∈ range pl.n, m.val (pl.addr src h.choose.1 j) * w pl.n (pl.sign * j * h.choose.2)
      else m.val p))
  else .error .ub

/-- A read-only table (`Zetaqm`, `Zetaqp`, …).  `lo ≤ i < hi` are the valid indices of the (shifted) table pointer. -/
structure Table where
  lo : ℕ
  hi : ℕ
  val : ℕ → ℂ

/-- Bounds-checked table lookup. -/
def Table.get (t : Table) (i : ℕ) : Body ℂ :=
  .guard (t.lo ≤ i ∧ i < t.hi) (.ret (t.val i))

end Fftwpp
