/-!
# Aligned allocation without `posix_memalign` (align.h:33-54)

Addresses and sizes are `size_t` (modulo 2^64); `sizeof(void *)` is 8.
-/

namespace Fftwpp
namespace Align

/-- The words of the memory that hold pointers, by address. -/
abbrev Words := BitVec 64 → BitVec 64

/-- Results of `posix_memalign0`: `EINVAL`, `ENOMEM`, or 0 with `*memptr` and the memory afterwards. -/
inductive Res where
  | einval
  | enomem
  | ok (p : BitVec 64) (w : Words)

/-- align.h:37-47 `posix_memalign0(memptr,alignment,size)`; `malloc n` is the address returned for `n` bytes, or 0. -/
def posixMemalign0 (malloc : BitVec 64 → BitVec 64) (alignment size : BitVec 64) (w : Words) : Res :=
  if alignment % 8 ≠ 0 ∨ (alignment &&& (alignment - 1)) ≠ 0 then .einval
  else
    let p0 := malloc (size + alignment)
    if p0 = 0 then .enomem
    else
      let p := (p0 + alignment) &&& ~~~(alignment - 1)
      .ok p fun a => if a = p - 8 then p0 else w a

/-- align.h:49-52 `free0(p)`: the argument of `free`, if it is called. -/
def free0 (p : BitVec 64) (w : Words) : Option (BitVec 64) := if p ≠ 0 then some (w (p - 8)) else none

end Align
end Fftwpp
