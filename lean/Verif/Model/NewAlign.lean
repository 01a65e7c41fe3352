import Verif.Model.Align

/-!
# Aligned arrays of objects (align.h:59-85)

The build without `posix_memalign`.  Addresses and sizes are `size_t` (modulo 2^64).
-/

namespace Fftwpp
namespace Align

/-- What happens to the memory that an array of objects uses, in order of time. -/
inductive Event where
  /-- the constructor of `T` is run on an address -/
  | construct (a : BitVec 64)
  /-- the destructor of `T` is run on an address -/
  | destroy (a : BitVec 64)
  /-- `free` is called -/
  | free (a : BitVec 64)
  /-- "Invalid alignment requested" is printed -/
  | invalid
  /-- "Memory limits exceeded" is printed -/
  | nomem
  deriving DecidableEq

/-- `&v[i]` for objects of `sz` bytes. -/
def elt (v sz : BitVec 64) (i : Nat) : BitVec 64 := v + BitVec.ofNat 64 i * sz

/-- align.h:73 `for(size_t i=0; i < len; i++) new(v+i) T;`: the `n` iterations from `i` on. -/
def constructLoop (v sz : BitVec 64) (i : Nat) : Nat → List Event
  | 0 => []
  | n + 1 => .construct (elt v sz i) :: constructLoop v sz (i + 1) n

/-- align.h:79 `for(size_t i=len; i-- > 0;) v[i].~T();`. -/
def destroyLoop (v sz : BitVec 64) : Nat → List Event
  | 0 => []
  | i + 1 => .destroy (elt v sz i) :: destroyLoop v sz i

/-- align.h:59-74 `newAlign(v,len,align)`, `sz=sizeof(T)`: the value of `v`, the memory, the events. -/
def newAlign (malloc : BitVec 64 → BitVec 64) (sz len align : BitVec 64) (w : Words) : BitVec 64 × Words × List Event :=
  match posixMemalign0 malloc align (len * sz) w with
  | .einval => (0, w, .invalid :: constructLoop 0 sz 0 len.toNat)
  | .enomem => (0, w, .nomem :: constructLoop 0 sz 0 len.toNat)
  | .ok p w' => (p, w', constructLoop p sz 0 len.toNat)

/-- align.h:76-85 `deleteAlign(v,len)`: the events. -/
def deleteAlign (sz v len : BitVec 64) (w : Words) : List Event :=
  destroyLoop v sz len.toNat ++ (match free0 v w with
    | some a => [.free a]
    | none => [])

end Align
end Fftwpp
