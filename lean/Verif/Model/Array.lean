import Mathlib.Data.Int.Notation
import Mathlib.Data.Nat.Notation
import Mathlib.Logic.Function.Basic

/-!
# Array.h: multidimensional array classes

Addresses are integers, in units of one element of type `T`.  An access returns `none` when the class calls `ArrayExit`, and
otherwise the address of the element.  The checking mode (`NDEBUG` undefined, so `__NOARRAY2OPT` is defined, Array.h:32-45) is
modelled; `array2.row`, `Array2.row` model the unchecked `[]` of the optimized mode.

Simplification: the products and sums of `size_t` and `ptrdiff_t` values in an address are computed in `ℤ`, without wrapping. The
conversion of a dimension to `ptrdiff_t` in the argument of `Check` is modelled as it is.
-/

namespace Fftwpp.Arr

/-- The conversion of a `size_t` to `ptrdiff_t` (64 bits) when a dimension is passed to `Check` (Array.h:218). -/
def ptrdiff (n : ℕ) : ℤ := if n < 2 ^ 63 then n else n - 2 ^ 64

/-- Array.h:218-232 `Check(i,n,dim,m,o)`: `ArrayExit` (`none`) unless `0 <= i < n`. The message is not modelled. -/
def check (i : ℤ) (n : ℕ) : Option Unit := if i < 0 ∨ i ≥ ptrdiff n then none else some ()

/-- Array.h:134-139 `array1`: the pointer and size. -/
structure array1 where
  v : ℤ
  size : ℕ

/-- Array.h:207 and 181-183: `array1(nx0,v0)`. -/
def array1.new (nx0 : ℕ) (v0 : ℤ) : array1 := ⟨v0, nx0⟩

/-- Array.h:208: `array1(v0)`, of size `SIZE_MAX`. -/
def array1.ofPtr (v0 : ℤ) : array1 := array1.new (2 ^ 64 - 1) v0

/-- Array.h:243: `A[ix]`. -/
def array1.idx (A : array1) (ix : ℤ) : Option ℤ := do
  check ix A.size
  pure (A.v + ix)

/-- Array.h:244: `A(ix)`. -/
def array1.call (A : array1) (ix : ℤ) : Option ℤ := do
  check ix A.size
  pure (A.v + ix)

/-- Array.h:248: `A+i`, the tail of the array. -/
def array1.tail (A : array1) (i : ℕ) : array1 := array1.new (A.size - i) (A.v + i)

/-- Array.h:420-424 `array2`. -/
structure array2 where
  v : ℤ
  size : ℕ
  nx : ℕ
  ny : ℕ

/-- Array.h:427-435, 447: `array2(nx0,ny0,v0)`. -/
def array2.new (nx0 ny0 : ℕ) (v0 : ℤ) : array2 := ⟨v0, nx0 * ny0, nx0, ny0⟩

/-- Array.h:457-460: `A[ix]` with checking. -/
def array2.sub (A : array2) (ix : ℤ) : Option array1 := do
  check ix A.nx
  pure (array1.new A.ny (A.v + ix * A.ny))

/-- Array.h:453-455: `A[ix]` without checking is a pointer. -/
def array2.row (A : array2) (ix : ℤ) : ℤ := A.v + ix * A.ny

/-- Array.h:462-466: `A(ix,iy)`. -/
def array2.call (A : array2) (ix iy : ℤ) : Option ℤ := do
  check ix A.nx
  check iy A.ny
  pure (A.v + (ix * A.ny + iy))

/-- Array.h:467-470: `A(i)`. -/
def array2.lin (A : array2) (i : ℤ) : Option ℤ := do
  check i A.size
  pure (A.v + i)

/-- Array.h:542-548 `array3`. -/
structure array3 where
  v : ℤ
  size : ℕ
  nx : ℕ
  ny : ℕ
  nz : ℕ
  nyz : ℕ

/-- Array.h:551-559, 572-574: `array3(nx0,ny0,nz0,v0)`. -/
def array3.new (nx0 ny0 nz0 : ℕ) (v0 : ℤ) : array3 :=
  let nyz := ny0 * nz0
  ⟨v0, nx0 * nyz, nx0, ny0, nz0, nyz⟩

/-- Array.h:580-583: `A[ix]`. -/
def array3.sub (A : array3) (ix : ℤ) : Option array2 := do
  check ix A.nx
  pure (array2.new A.ny A.nz (A.v + ix * A.nyz))

/-- Array.h:584-589: `A(ix,iy,iz)`. -/
def array3.call (A : array3) (ix iy iz : ℤ) : Option ℤ := do
  check ix A.nx
  check iy A.ny
  check iz A.nz
  pure (A.v + (ix * A.nyz + iy * A.nz + iz))

/-- Array.h:590-593: `A(i)`. -/
def array3.lin (A : array3) (i : ℤ) : Option ℤ := do
  check i A.size
  pure (A.v + i)

/-- Array.h:656-665 `array4` (the member `nyz` is not used). -/
structure array4 where
  v : ℤ
  size : ℕ
  nx : ℕ
  ny : ℕ
  nz : ℕ
  nw : ℕ
  nzw : ℕ
  nyzw : ℕ

/-- Array.h:668-679, 689-692: `array4(nx0,ny0,nz0,nw0,v0)`. -/
def array4.new (nx0 ny0 nz0 nw0 : ℕ) (v0 : ℤ) : array4 :=
  let nzw := nz0 * nw0
  let nyzw := ny0 * nzw
  ⟨v0, nx0 * nyzw, nx0, ny0, nz0, nw0, nzw, nyzw⟩

/-- Array.h:699-702: `A[ix]`. -/
def array4.sub (A : array4) (ix : ℤ) : Option array3 := do
  check ix A.nx
  pure (array3.new A.ny A.nz A.nw (A.v + ix * A.nyzw))

/-- Array.h:703-709: `A(ix,iy,iz,iw)`. -/
def array4.call (A : array4) (ix iy iz iw : ℤ) : Option ℤ := do
  check ix A.nx
  check iy A.ny
  check iz A.nz
  check iw A.nw
  pure (A.v + (ix * A.nyzw + iy * A.nzw + iz * A.nw + iw))

/-- Array.h:710-713: `A(i)`. -/
def array4.lin (A : array4) (i : ℤ) : Option ℤ := do
  check i A.size
  pure (A.v + i)

/-- Array.h:780-790 `array5`. -/
structure array5 where
  v : ℤ
  size : ℕ
  nx : ℕ
  ny : ℕ
  nz : ℕ
  nw : ℕ
  nv : ℕ
  nwv : ℕ
  nzwv : ℕ
  nyzwv : ℕ

/-- Array.h:793-804: `Dimension(nx0,ny0,nz0,nw0,nv0,v0)`. (The constructor Array.h:817-820 passes `nv0` in place of `v0`, which does
not compile when instantiated; an `array5` over given memory can only be made through `Dimension`.) -/
def array5.new (nx0 ny0 nz0 nw0 nv0 : ℕ) (v0 : ℤ) : array5 :=
  let nwv := nw0 * nv0
  let nzwv := nz0 * nwv
  let nyzwv := ny0 * nzwv
  ⟨v0, nx0 * nyzwv, nx0, ny0, nz0, nw0, nv0, nwv, nzwv, nyzwv⟩

/-- Array.h:828-831: `A[ix]`. -/
def array5.sub (A : array5) (ix : ℤ) : Option array4 := do
  check ix A.nx
  pure (array4.new A.ny A.nz A.nw A.nv (A.v + ix * A.nyzwv))

/-- Array.h:832-839: `A(ix,iy,iz,iw,iv)`. -/
def array5.call (A : array5) (ix iy iz iw iv : ℤ) : Option ℤ := do
  check ix A.nx
  check iy A.ny
  check iz A.nz
  check iw A.nw
  check iv A.nv
  pure (A.v + (ix * A.nyzwv + iy * A.nzwv + iz * A.nwv + iw * A.nv + iv))

/-- Array.h:840-843: `A(i)`. -/
def array5.lin (A : array5) (i : ℤ) : Option ℤ := do
  check i A.size
  pure (A.v + i)

/-! ### Classes with index offsets -/

/-- Array.h:922-925 `Array1`. -/
structure Array1 where
  v : ℤ
  size : ℕ
  voff : ℤ
  ox : ℤ

/-- Array.h:937-941, 932-936, 927-929, 963-965: `Array1(nx0,v0,ox0)`. -/
def Array1.new (nx0 : ℕ) (v0 : ℤ) (ox0 : ℤ) : Array1 :=
  ⟨v0, nx0, v0 - ox0, ox0⟩

/-- Array.h:974: `A[ix]`. -/
def Array1.idx (A : Array1) (ix : ℤ) : Option ℤ := do
  check (ix - A.ox) A.size
  pure (A.voff + ix)

/-- Array.h:975: `A(i)`, which ignores the offset. -/
def Array1.lin (A : Array1) (i : ℤ) : Option ℤ := do
  check (i - 0) A.size
  pure (A.v + i)

/-- Array.h:1003-1006 `Array2`. -/
structure Array2 where
  v : ℤ
  size : ℕ
  nx : ℕ
  ny : ℕ
  vtemp : ℤ
  voff : ℤ
  ox : ℤ
  oy : ℤ

/-- Array.h:1008-1025, 1039-1041: `Array2(nx0,ny0,v0,ox0,oy0)`. -/
def Array2.new (nx0 ny0 : ℕ) (v0 : ℤ) (ox0 oy0 : ℤ) : Array2 :=
  let vtemp := v0 - ox0 * ny0
  let voff := vtemp - oy0
  ⟨v0, nx0 * ny0, nx0, ny0, vtemp, voff, ox0, oy0⟩

/-- Array.h:1048-1051: `A[ix]` with checking. -/
def Array2.sub (A : Array2) (ix : ℤ) : Option Array1 := do
  check (ix - A.ox) A.nx
  pure (Array1.new A.ny (A.vtemp + ix * A.ny) A.oy)

/-- Array.h:1044-1046: `A[ix]` without checking is a pointer. -/
def Array2.row (A : Array2) (ix : ℤ) : ℤ := A.voff + ix * A.ny

/-- Array.h:1054-1058: `A(ix,iy)`. -/
def Array2.call (A : Array2) (ix iy : ℤ) : Option ℤ := do
  check (ix - A.ox) A.nx
  check (iy - A.oy) A.ny
  pure (A.voff + (ix * A.ny + iy))

/-- Array.h:1059-1062: `A(i)`. -/
def Array2.lin (A : Array2) (i : ℤ) : Option ℤ := do
  check (i - 0) A.size
  pure (A.v + i)

/-- Array.h:1093-1096 `Array3`. -/
structure Array3 where
  v : ℤ
  size : ℕ
  nx : ℕ
  ny : ℕ
  nz : ℕ
  nyz : ℕ
  vtemp : ℤ
  voff : ℤ
  ox : ℤ
  oy : ℤ
  oz : ℤ

/-- Array.h:1098-1116, 1130-1133: `Array3(nx0,ny0,nz0,v0,ox0,oy0,oz0)`. -/
def Array3.new (nx0 ny0 nz0 : ℕ) (v0 : ℤ) (ox0 oy0 oz0 : ℤ) : Array3 :=
  let nyz := ny0 * nz0
  let vtemp := v0 - ox0 * nyz
  let voff := vtemp - oy0 * nz0 - oz0
  ⟨v0, nx0 * nyz, nx0, ny0, nz0, nyz, vtemp, voff, ox0, oy0, oz0⟩

/-- Array.h:1135-1138: `A[ix]`. -/
def Array3.sub (A : Array3) (ix : ℤ) : Option Array2 := do
  check (ix - A.ox) A.nx
  pure (Array2.new A.ny A.nz (A.vtemp + ix * A.nyz) A.oy A.oz)

/-- Array.h:1139-1144: `A(ix,iy,iz)`. -/
def Array3.call (A : Array3) (ix iy iz : ℤ) : Option ℤ := do
  check (ix - A.ox) A.nx
  check (iy - A.oy) A.ny
  check (iz - A.oz) A.nz
  pure (A.voff + (ix * A.nyz + iy * A.nz + iz))

/-- Array.h:1145-1148: `A(i)`. -/
def Array3.lin (A : Array3) (i : ℤ) : Option ℤ := do
  check (i - 0) A.size
  pure (A.v + i)

/-- Array.h:1184-1187 `Array4`. -/
structure Array4 where
  v : ℤ
  size : ℕ
  nx : ℕ
  ny : ℕ
  nz : ℕ
  nw : ℕ
  nzw : ℕ
  nyzw : ℕ
  vtemp : ℤ
  voff : ℤ
  ox : ℤ
  oy : ℤ
  oz : ℤ
  ow : ℤ

/-- Array.h:1189-1210, 1226-1230: `Array4(nx0,ny0,nz0,nw0,v0,ox0,oy0,oz0,ow0)`. -/
def Array4.new (nx0 ny0 nz0 nw0 : ℕ) (v0 : ℤ) (ox0 oy0 oz0 ow0 : ℤ) : Array4 :=
  let nzw := nz0 * nw0
  let nyzw := ny0 * nzw
  let vtemp := v0 - ox0 * nyzw
  let voff := vtemp - oy0 * nzw - oz0 * nw0 - ow0
  ⟨v0, nx0 * nyzw, nx0, ny0, nz0, nw0, nzw, nyzw, vtemp, voff, ox0, oy0, oz0, ow0⟩

/-- Array.h:1232-1236: `A[ix]`. -/
def Array4.sub (A : Array4) (ix : ℤ) : Option Array3 := do
  check (ix - A.ox) A.nx
  pure (Array3.new A.ny A.nz A.nw (A.vtemp + ix * A.nyzw) A.oy A.oz A.ow)

/-- Array.h:1237-1243: `A(ix,iy,iz,iw)`. -/
def Array4.call (A : Array4) (ix iy iz iw : ℤ) : Option ℤ := do
  check (ix - A.ox) A.nx
  check (iy - A.oy) A.ny
  check (iz - A.oz) A.nz
  check (iw - A.ow) A.nw
  pure (A.voff + (ix * A.nyzw + iy * A.nzw + iz * A.nw + iw))

/-- Array.h:1244-1247: `A(i)`. -/
def Array4.lin (A : Array4) (i : ℤ) : Option ℤ := do
  check (i - 0) A.size
  pure (A.v + i)

/-- Array.h:1292-1295 `Array5`. -/
structure Array5 where
  v : ℤ
  size : ℕ
  nx : ℕ
  ny : ℕ
  nz : ℕ
  nw : ℕ
  nv : ℕ
  nwv : ℕ
  nzwv : ℕ
  nyzwv : ℕ
  vtemp : ℤ
  voff : ℤ
  ox : ℤ
  oy : ℤ
  oz : ℤ
  ow : ℤ
  ov : ℤ

/-- Array.h:1297-1319, 1336-1340: `Array5(nx0,ny0,nz0,nw0,nv0,v0,ox0,oy0,oz0,ow0,ov0)`. -/
def Array5.new (nx0 ny0 nz0 nw0 nv0 : ℕ) (v0 : ℤ) (ox0 oy0 oz0 ow0 ov0 : ℤ) : Array5 :=
  let nwv := nw0 * nv0
  let nzwv := nz0 * nwv
  let nyzwv := ny0 * nzwv
  let vtemp := v0 - ox0 * nyzwv
  let voff := vtemp - oy0 * nzwv - oz0 * nwv - ow0 * nv0 - ov0
  ⟨v0, nx0 * nyzwv, nx0, ny0, nz0, nw0, nv0, nwv, nzwv, nyzwv, vtemp, voff, ox0, oy0, oz0, ow0, ov0⟩

/-- Array.h:1342-1346: `A[ix]`. -/
def Array5.sub (A : Array5) (ix : ℤ) : Option Array4 := do
  check (ix - A.ox) A.nx
  pure (Array4.new A.ny A.nz A.nw A.nv (A.vtemp + ix * A.nyzwv) A.oy A.oz A.ow A.ov)

/-- Array.h:1347-1355: `A(ix,iy,iz,iw,iv)`. -/
def Array5.call (A : Array5) (ix iy iz iw iv : ℤ) : Option ℤ := do
  check (ix - A.ox) A.nx
  check (iy - A.oy) A.ny
  check (iz - A.oz) A.nz
  check (iw - A.ow) A.nw
  check (iv - A.ov) A.nv
  pure (A.voff + (ix * A.nyzwv + iy * A.nzwv + iz * A.nwv + iw * A.nv + iv))

/-- Array.h:1356-1359: `A(i)`. -/
def Array5.lin (A : Array5) (i : ℤ) : Option ℤ := do
  check (i - 0) A.size
  pure (A.v + i)

/-! ### Operations on the diagonal -/

/-- The loop `for(size_t i=start; i < size; i += inc)`, as the list of values of `i` (`inc > 0`). -/
def steps (size inc start : ℕ) : List ℕ :=
  if h : start < size ∧ 0 < inc then start :: steps size inc (start + inc) else []
termination_by size - start

/-- Array.h:513-518 `array2::Identity()` on the contents `m` of the memory at `v`. -/
def identity {T : Type} [Zero T] [One T] (A : array2) (m : ℕ → T) : ℕ → T :=
  let m := (List.range A.size).foldl (fun m i => Function.update m i 0) m
  let inc := A.ny + 1
  (steps A.size inc 0).foldl (fun m i => Function.update m i 1) m

/-- Array.h:495-500, 618-623, 739-744, 870-875: `A += a` for a scalar `a`, with the increment `inc` of the class. -/
def addDiag {T : Type} [Add T] (size inc : ℕ) (a : T) (m : ℕ → T) : ℕ → T :=
  (steps size inc 0).foldl (fun m i => Function.update m i (m i + a)) m

/-- Array.h:497: the increment of `array2`. -/
def array2.inc (A : array2) : ℕ := A.ny + 1
/-- Array.h:620: the increment of `array3`. -/
def array3.inc (A : array3) : ℕ := A.nyz + A.nz + 1
/-- Array.h:741: the increment of `array4`. -/
def array4.inc (A : array4) : ℕ := A.nyzw + A.nzw + A.nw + 1
/-- Array.h:872: the increment of `array5`. -/
def array5.inc (A : array5) : ℕ := A.nyzwv + A.nzwv + A.nwv + A.nv + 1

/-! ### Compatibility checks of the assignment of a plain array to an array with offsets -/

/-- Array.h:146-155 `CheckEqual(a,b,dim,m)`. -/
def checkEqual (a b : ℤ) : Option Unit := if a = b then some () else none

/-- Array.h:1165-1175: the checks of `Array3::operator=(const array3&)`. -/
def Array3.assignChecks (A : Array3) (B : array3) : Option Unit := do
  checkEqual A.nx B.nx
  checkEqual A.ny B.ny
  checkEqual A.nz B.nz
  checkEqual A.ox 0
  checkEqual A.oy 0
  checkEqual A.oz 0

/-- Array.h:1267-1283: the checks of `Array4::operator=(const array4&)`. -/
def Array4.assignChecks (A : Array4) (B : array4) : Option Unit := do
  checkEqual A.nx B.nx
  checkEqual A.ny B.ny
  checkEqual A.nz B.nz
  checkEqual A.nw B.nw
  checkEqual A.nx B.nx
  checkEqual A.ny B.nx
  checkEqual A.nz B.nx
  checkEqual A.nw B.nx
  checkEqual A.ox 0
  checkEqual A.oy 0
  checkEqual A.oz 0
  checkEqual A.ow 0

end Fftwpp.Arr
