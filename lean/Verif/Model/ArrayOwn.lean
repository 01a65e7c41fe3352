import Mathlib.Data.Nat.Notation
import Mathlib.Logic.Function.Basic

/-!
# Array.h:134-292: ownership of the storage of `array1`

A `World` holds the heap blocks that the array class has allocated and the array objects of a program, by variable number.  Only the
class's own bookkeeping is modelled (`v`, `size`, `state`); the elements are not.
-/

namespace Fftwpp.ArrOwn

/-- A heap block: made by `newAlign` or by `new T[n]`, with `count` elements constructed. -/
structure Block where
  aligned : Bool
  count : ℕ

/-- Array.h:136-141: the members of `array1`; `state` is a set of three flags. -/
structure Obj where
  v : ℕ
  size : ℕ
  allocated : Bool
  temporary : Bool
  aligned : Bool

/-- Heap and a record of memory errors: `badFree`: a pointer to no live block was freed; `mismatch`: a block was freed with the wrong
function (`free` of `new[]` storage or `delete[]` of aligned storage); `badCount`: destructors were called for a number of
elements different from the number constructed. -/
structure Heap where
  block : ℕ → Option Block
  badFree : Bool
  mismatch : Bool
  badCount : Bool

/-- Array.h:117-127 `deleteAlign(v,len)`: destroys `len` elements and frees the block. -/
def Heap.deleteAlign (h : Heap) (v len : ℕ) : Heap :=
  match h.block v with
  | none => { h with badFree := true }
  | some b => { block := Function.update h.block v none, badFree := h.badFree, mismatch := h.mismatch || !b.aligned,
                badCount := h.badCount || (b.count != len) }

/-- `delete [] v`: the run-time library knows the number of elements. -/
def Heap.deleteArray (h : Heap) (v : ℕ) : Heap :=
  match h.block v with
  | none => { h with badFree := true }
  | some b => { h with block := Function.update h.block v none, mismatch := h.mismatch || b.aligned }

/-- Array.h:173-179 `Deallocate()`. -/
def deallocate (h : Heap) (A : Obj) : Heap × Obj :=
  if A.allocated then
    let h := if A.aligned then h.deleteAlign A.v A.size else h.deleteArray A.v
    (h, { A with allocated := false, temporary := false, aligned := false })
  else (h, A)

/-- Array.h:160-168 `Activate(align)`; `a` is the address returned by the allocator. (An allocation failure ends the program.) -/
def activate (h : Heap) (A : Obj) (align : Bool) (a : ℕ) : Heap × Obj :=
  if align then
    ({ h with block := Function.update h.block a (some ⟨true, A.size⟩) }, { A with v := a, allocated := true, aligned := true })
  else
    ({ h with block := Function.update h.block a (some ⟨false, A.size⟩) }, { A with v := a, allocated := true })

/-- Array.h:36, 42, 169-172, 188-190 `__checkActivate`: deallocates first in the checking mode only. -/
def checkActivate (debug : Bool) (h : Heap) (A : Obj) (align : Bool) (a : ℕ) : Heap × Obj :=
  if debug then
    let r := deallocate h A
    activate r.1 r.2 align a
  else activate h A align a

/-- Array.h:192-195 `Allocate(nx0,align)`. -/
def allocate (debug : Bool) (h : Heap) (A : Obj) (n : ℕ) (align : Bool) (a : ℕ) : Heap × Obj :=
  checkActivate debug h { A with size := n } align a

/-- Array.h:197-200 `Reallocate(nx0,align)`. -/
def reallocate (debug : Bool) (h : Heap) (A : Obj) (n : ℕ) (align : Bool) (a : ℕ) : Heap × Obj :=
  let r := deallocate h A
  allocate debug r.1 r.2 n align a

/-- Array.h:216 `Purge()`. -/
def purge (h : Heap) (A : Obj) : Heap × Obj :=
  if A.temporary then
    let r := deallocate h A
    (r.1, { r.2 with allocated := false, temporary := false, aligned := false })
  else (h, A)

structure World where
  heap : Heap
  objs : ℕ → Option Obj

/-- The operations of a program on its array variables.  `a` is the address the allocator would return. -/
inductive Op
  /-- `array1<T> x;` (Array.h:202) -/
  | default (x : ℕ)
  /-- `array1<T> x(n,align);` (Array.h:204-206) -/
  | new (x n : ℕ) (align : Bool) (a : ℕ)
  /-- `array1<T> x(n,p);` (Array.h:207) -/
  | view (x n p : ℕ)
  /-- `array1<T> x(y);` (Array.h:209-210) -/
  | copy (x y : ℕ)
  /-- the destructor (Array.h:212) -/
  | destroy (x : ℕ)
  | allocate (x n : ℕ) (align : Bool) (a : ℕ)
  | reallocate (x n : ℕ) (align : Bool) (a : ℕ)
  | deallocate (x : ℕ)
  /-- `x.Dimension(n)` (Array.h:180) -/
  | dim (x n : ℕ)
  /-- `x.Dimension(n,p)` (Array.h:181-183) -/
  | dimv (x n p : ℕ)
  /-- `x.Dimension(y)` (Array.h:184-186), used by `swaparray` and the shifts (Array.h:364-393) -/
  | dimOf (x y : ℕ)
  /-- Array.h:214 -/
  | freeze (x : ℕ)
  /-- Array.h:215 -/
  | hold (x : ℕ)
  /-- Array.h:216 -/
  | purge (x : ℕ)
  /-- `x.Set(p)` (Array.h:259) -/
  | set (x p : ℕ)
  /-- `x=y` (Array.h:284-292) -/
  | assign (x y a : ℕ)

/-- Storing an updated object. -/
def World.put (w : World) (x : ℕ) (r : Heap × Obj) : World := ⟨r.1, Function.update w.objs x (some r.2)⟩

/-- `a` is an address that the allocator can return: no live block starts there, once the storage of `A` has been released if `free`. -/
def canAlloc (free : Bool) (h : Heap) (A : Obj) (a : ℕ) : Bool :=
  ((if free then (deallocate h A).1 else h).block a).isNone

/-- `y.Purge()`. -/
def World.purgeVar (w : World) (y : ℕ) : World :=
  match w.objs y with
  | some B => w.put y (purge w.heap B)
  | none => w

/-- One operation of a program.  An operation that no program can perform (on a variable that does not exist, the construction of one
that does, or with an address that the allocator cannot return) leaves the world unchanged. -/
def step (debug : Bool) (w : World) : Op → World
  | .default x =>
    match w.objs x with
    | none => w.put x (w.heap, ⟨0, 0, false, false, false⟩)
    | some _ => w
  | .new x n align a =>
    match w.objs x, w.heap.block a with
    | none, none => w.put x (allocate debug w.heap ⟨0, 0, false, false, false⟩ n align a)
    | _, _ => w
  | .view x n p =>
    match w.objs x with
    | none => w.put x (w.heap, ⟨p, n, false, false, false⟩)
    | some _ => w
  | .copy x y =>
    match w.objs x, w.objs y with
    | none, some B => w.put x (w.heap, ⟨B.v, B.size, false, B.temporary, false⟩)
    | _, _ => w
  | .destroy x =>
    match w.objs x with
    | some A => ⟨(deallocate w.heap A).1, Function.update w.objs x none⟩
    | none => w
  | .allocate x n align a =>
    match w.objs x with
    | some A => if canAlloc debug w.heap A a then w.put x (allocate debug w.heap A n align a) else w
    | none => w
  | .reallocate x n align a =>
    match w.objs x with
    | some A => if canAlloc true w.heap A a then w.put x (reallocate debug w.heap A n align a) else w
    | none => w
  | .deallocate x =>
    match w.objs x with
    | some A => w.put x (deallocate w.heap A)
    | none => w
  | .dim x n =>
    match w.objs x with
    | some A => w.put x (w.heap, { A with size := n })
    | none => w
  | .dimv x n p =>
    match w.objs x with
    | some A => w.put x (w.heap, { A with size := n, v := p, allocated := false })
    | none => w
  | .dimOf x y =>
    match w.objs x, w.objs y with
    | some _, some B => w.put x (w.heap, ⟨B.v, B.size, false, B.temporary, false⟩)
    | _, _ => w
  | .freeze x =>
    match w.objs x with
    | some A => w.put x (w.heap, { A with allocated := false, temporary := false, aligned := false })
    | none => w
  | .hold x =>
    match w.objs x with
    | some A => if A.allocated then w.put x (w.heap, { A with allocated := false, temporary := true, aligned := false }) else w
    | none => w
  | .purge x =>
    match w.objs x with
    | some A => w.put x (purge w.heap A)
    | none => w
  | .set x p =>
    match w.objs x with
    | some A => w.put x (w.heap, { A with v := p, allocated := false })
    | none => w
  | .assign x y a =>
    match w.objs x, w.objs y with
    | some A, some B =>
      if A.size = B.size then w.purgeVar y
      else if canAlloc true w.heap A a then
        let r := deallocate w.heap A
        (w.put x (allocate debug r.1 r.2 B.size false a)).purgeVar y
      else w
    | _, _ => w

/-- A program run, from a state without arrays. -/
def run (debug : Bool) (ops : List Op) : World := ops.foldl (step debug) ⟨⟨fun _ => none, false, false, false⟩, fun _ => none⟩

end Fftwpp.ArrOwn
