import Verif.Model.Net
import Verif.Model.Mpi

/-!
# Gathering a distributed array on rank 0 (mpi/mpiutils.h)

A word of memory is an `unsigned int` or an element of type `ftype`; `sizeof` and byte counts are dropped (all messages consist of
whole words).  `unsigned int` and `int` are modelled by natural numbers (no overflow).
-/

namespace Fftwpp.Net

/-- mpi/mpitranspose.h:74-82 `copyfromblock(src,dest,count,length,stride)` with `copy` (mpi/mpitranspose.h:51-59): the copies made
(destination and source, relative to `dest` and `src`), by nested parallel loops. -/
def copyfromblockL (count length stride : ℕ) : List (ℕ × ℕ) :=
  (List.range count).flatMap fun i => (List.range length).map fun j => (i * stride + j, i * length + j)

/-- mpi/mpitranspose.h:62-71 `copytoblock(src,dest,count,length,stride)`. -/
def copytoblockL (count length stride : ℕ) : List (ℕ × ℕ) :=
  (List.range count).flatMap fun i => (List.range length).map fun j => (i * length + j, i * stride + j)

/-- The copies `l` relative to the pointers `dest` and `src`. -/
def at' (dest src : Loc) (l : List (ℕ × ℕ)) : List (Loc × Loc) := l.map fun x => (dest + x.1, src + x.2)

variable {V α : Type}

/-- mpi/mpitranspose.h:74-82. -/
def copyfromblock (src dest : Loc) (count length stride : ℕ) : Prog V Unit :=
  .call (.moves (at' dest src (copyfromblockL count length stride)))

/-- `MPI_Send(src,n,…,dst,0,comm)`: blocking, standard mode. -/
def send (src : Loc) (n dst : ℕ) : Prog V Unit := do
  .call (.isend (2, 0) 0 dst src n true)
  .call (.wait (2, 0))

/-- `MPI_Recv(dst,n,…,src,0,comm,…)`. -/
def recv (dst : Loc) (n src : ℕ) : Prog V Unit := do
  .call (.irecv (2, 0) 0 src dst n)
  .call (.wait (2, 0))

/-- A word of the `unsigned int` array `dims`. -/
def loadNat (a : Loc) : Prog (ℕ ⊕ α) ℕ :=
  .load a fun v => match v with
    | .inl n => .ret n
    | .inr _ => .fail

/-- The automatic array `unsigned int dims[]` (buffer 2). -/
def dims : Loc := ⟨2, 0⟩
/-- The array `C=new ftype[n]` (buffer 3). -/
def bufC : Loc := ⟨3, 0⟩

/-- mpi/mpigroup.h:72-103 `split(X,Y,communicator)` on the process `rank` of `size`: the members used here. -/
structure Split where
  X : ℕ
  Y : ℕ
  x : ℕ
  y : ℕ
  x0 : ℕ
  y0 : ℕ

/-- mpi/mpigroup.h:81-99, the constructor (the members are `unsigned int`). -/
def mkSplit (X Y rank size : ℕ) : Split :=
  { X, Y
    x := (Mpi.localdimension X rank size).n.toNat
    y := (Mpi.localdimension Y rank size).n.toNat
    x0 := (Mpi.localdimension X rank size).start.toNat
    y0 := (Mpi.localdimension Y rank size).start.toNat }

/-- mpi/mpiutils.h:11-57 `gatherx(part,whole,d,Z,communicator)`. -/
def gatherx (part whole : Loc) (d : Split) (Z size rank : ℕ) : Prog (ℕ ⊕ α) Unit :=
  let Y := d.Y
  if rank = 0 then do
    copyfromblock part (whole + d.x0 * Y * Z) d.x (Y * Z) (Y * Z)
    .loop (List.range' 1 (size - 1)) fun p => do
      .call (.alloc 2 2)
      recv dims 2 p
      let x ← loadNat dims
      let x0 ← loadNat (dims + 1)
      let n := Z * x * Y
      if n > 0 then do
        .call (.alloc 3 n)
        recv bufC n p
        copyfromblock bufC (whole + x0 * Y * Z) x (Y * Z) (Y * Z)
        .call (.free 3)
        .call (.free 2)
      else .call (.free 2)
  else do
    .call (.alloc 2 2)
    .call (.store dims (.inl d.x))
    .call (.store (dims + 1) (.inl d.x0))
    send dims 2 0
    let n := Z * d.x * Y
    if n > 0 then do
      send part n 0
      .call (.free 2)
    else .call (.free 2)

/-- mpi/mpiutils.h:62-109 `gathery(part,whole,d,Z,communicator)`. -/
def gathery (part whole : Loc) (d : Split) (Z size rank : ℕ) : Prog (ℕ ⊕ α) Unit :=
  let X := d.X
  let Y := d.Y
  if rank = 0 then do
    copyfromblock part (whole + d.y0 * Z) X (d.y * Z) (Y * Z)
    .loop (List.range' 1 (size - 1)) fun p => do
      .call (.alloc 2 2)
      recv dims 2 p
      let y ← loadNat dims
      let y0 ← loadNat (dims + 1)
      let n := Z * X * y
      if n > 0 then do
        .call (.alloc 3 n)
        recv bufC n p
        copyfromblock bufC (whole + y0 * Z) X (y * Z) (Y * Z)
        .call (.free 3)
        .call (.free 2)
      else .call (.free 2)
  else do
    .call (.alloc 2 2)
    .call (.store dims (.inl d.y))
    .call (.store (dims + 1) (.inl d.y0))
    send dims 2 0
    let n := Z * X * d.y
    if n > 0 then do
      send part n 0
      .call (.free 2)
    else .call (.free 2)

/-- mpi/mpigroup.h:112-137 `split3`: the two 2D splits and the dimensions (`Y2=Y`). -/
structure Split3 where
  X : ℕ
  Y : ℕ
  Z : ℕ
  xy : Split
  yz : Split

/-- mpi/mpigroup.h:123-141, `init` with `x=xy.x`, `x0=xy.x0`, `z=yz.y`, `z0=yz.y0`; `q` of `sizex`: the rank in `group.communicator`,
`p` of `sizey`: the rank in `group.communicator2`. -/
def mkSplit3 (X Y Z q sizex p sizey : ℕ) : Split3 := ⟨X, Y, Z, mkSplit X Y q sizex, mkSplit Y Z p sizey⟩

/-- mpi/mpigroup.h:33-51, 123-148: `split3(X,Y,Z,group)` on the active process `r` of `group=MPIgroup(comm,GX,GY,allowPencil)`, where
`comm` has `N` processes: the two splits use the two communicators of the group. -/
def groupSplit3 (X Y Z GX GY N : ℕ) (pencil : Bool) (r : ℕ) : Split3 :=
  let size := Mpi.groupSize2 GX GY N pencil
  let major := Mpi.groupMajor GX GY N pencil
  mkSplit3 X Y Z (Mpi.splitRank size (· % major) (· / major) r) (Mpi.splitSize size (· % major) r)
    (Mpi.splitRank size (· / major) (· % major) r) (Mpi.splitSize size (· / major) r)

/-- mpi/mpiutils.h:114-170 `gatheryz(part,whole,d,communicator)`. -/
def gatheryz (part whole : Loc) (d : Split3) (size rank : ℕ) : Prog (ℕ ⊕ α) Unit :=
  let X := d.X
  let Y := d.Y
  let Z := d.Z
  let place (src : Loc) (y z y0 z0 : ℕ) : Prog (ℕ ⊕ α) Unit :=
    .loop (List.range X) fun i => copyfromblock (src + i * y * z) (whole + (i * Y * Z + y0 * Z + z0)) y z Z
  if rank = 0 then do
    place part d.xy.y d.yz.y d.xy.y0 d.yz.y0
    .loop (List.range' 1 (size - 1)) fun p => do
      .call (.alloc 2 4)
      recv dims 4 p
      let y ← loadNat dims
      let z ← loadNat (dims + 1)
      let y0 ← loadNat (dims + 2)
      let z0 ← loadNat (dims + 3)
      let n := X * y * z
      if n > 0 then do
        .call (.alloc 3 n)
        recv bufC n p
        place bufC y z y0 z0
        .call (.free 3)
        .call (.free 2)
      else .call (.free 2)
  else do
    .call (.alloc 2 4)
    .call (.store dims (.inl d.xy.y))
    .call (.store (dims + 1) (.inl d.yz.y))
    .call (.store (dims + 2) (.inl d.xy.y0))
    .call (.store (dims + 3) (.inl d.yz.y0))
    send dims 4 0
    let n := X * d.xy.y * d.yz.y
    if n > 0 then do
      send part n 0
      .call (.free 2)
    else .call (.free 2)

/-- mpi/mpiutils.h:175-237 `gatherxy(part,whole,d,communicator)`. -/
def gatherxy (part whole : Loc) (d : Split3) (size rank : ℕ) : Prog (ℕ ⊕ α) Unit :=
  let Y := d.Y
  let Z := d.Z
  let place (src : Loc) (x y x0 y0 : ℕ) : Prog (ℕ ⊕ α) Unit :=
    .loop (List.range x) fun i => copyfromblock (src + i * y * Z) (whole + ((x0 + i) * Y * Z + y0 * Z)) y Z Z
  if rank = 0 then do
    place part d.xy.x d.yz.x d.xy.x0 d.yz.x0
    .loop (List.range' 1 (size - 1)) fun p => do
      .call (.alloc 2 4)
      recv dims 4 p
      let x ← loadNat dims
      let y ← loadNat (dims + 1)
      let x0 ← loadNat (dims + 2)
      let y0 ← loadNat (dims + 3)
      let n := x * y * Z
      if n > 0 then do
        .call (.alloc 3 n)
        recv bufC n p
        place bufC x y x0 y0
        .call (.free 3)
        .call (.free 2)
      else .call (.free 2)
  else do
    .call (.alloc 2 4)
    .call (.store dims (.inl d.xy.x))
    .call (.store (dims + 1) (.inl d.yz.x))
    .call (.store (dims + 2) (.inl d.xy.x0))
    .call (.store (dims + 3) (.inl d.yz.x0))
    send dims 4 0
    let n := d.xy.x * d.yz.x * Z
    if n > 0 then do
      send part n 0
      .call (.free 2)
    else .call (.free 2)

end Fftwpp.Net
