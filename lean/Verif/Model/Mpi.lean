import Verif.Model.Params
import Mathlib.Data.Finset.Card
import Mathlib.Data.Fintype.Basic

/-!
# Distribution of data over MPI processes (mpi/mpitranspose.h, mpi/mpigroup.h, mpi/mpitranspose.cc)

`int` and `unsigned int` values are modelled without overflow (`ℤ` where the C++ value can be negative).
-/

namespace Fftwpp.Mpi

/-- mpi/mpitranspose.h:118-131 `localdimension(N,rank,size)`: members `n` and `start`. -/
structure LocalDim where
  n : ℤ
  start : ℤ

/-- mpi/mpitranspose.h:123-130, the constructor. -/
def localdimension (N rank size : ℕ) : LocalDim :=
  let n : ℤ := ceilquotient N size
  let start : ℤ := n * rank
  let extra : ℤ := N - start
  let extra := if extra < 0 then 0 else extra
  let n := if n > extra then extra else n
  ⟨n, start⟩

/-- mpi/mpigroup.h:24-30: number of active processes after `MPIgroup(comm,X)`, `size` being the size of `comm`. -/
def groupSize1 (X size : ℕ) : ℕ :=
  let xblock := ceilquotient X size
  ceilquotient X xblock

/-- mpi/mpigroup.h:33-51 `MPIgroup(comm,X,Y,allowPencil)`: the number of active processes. -/
def groupSize2 (X Y size : ℕ) (allowPencil : Bool) : ℕ :=
  let x := ceilquotient X size
  let y := if allowPencil then ceilquotient Y (size * x / X) else Y
  ceilquotient X x * ceilquotient Y y

/-- mpi/mpigroup.h:42 `major`. -/
def groupMajor (X Y size : ℕ) (allowPencil : Bool) : ℕ := ceilquotient (groupSize2 X Y size allowPencil) X

/-- `MPI_Comm_split(comm,color,key,&newcomm)` for a communicator of `size` processes (MPI standard 6.4.2): the size of the new
communicator containing process `r`. -/
def splitSize (size : ℕ) (color : ℕ → ℕ) (r : ℕ) : ℕ := ((Finset.range size).filter fun s => color s = color r).card

/-- `MPI_Comm_split`: the rank of process `r` in its new communicator; processes are ordered by key, ties by old rank. -/
def splitRank (size : ℕ) (color key : ℕ → ℕ) (r : ℕ) : ℕ :=
  ((Finset.range size).filter fun s => color s = color r ∧ (key s < key r ∨ (key s = key r ∧ s < r))).card

/-- mpi/mpitranspose.cc:38-57, the body of the loop over `pe`: the values stored by `sched[s++]=…`, in order. -/
def schedStep (which_pe npes n pe : ℕ) : List ℤ :=
  (if npes % 2 = 0 then
    if pe = which_pe then [(npes : ℤ) - 1] else if (npes : ℤ) - 1 = which_pe then [(pe : ℤ)] else []
  else if pe = which_pe then [(pe : ℤ)] else []) ++
  (if pe ≠ which_pe ∧ (which_pe : ℤ) < n - 1 then
    let i : ℤ := ((pe : ℤ) - which_pe + (n - 1)).tmod (n - 1)
    let i' : ℤ := ((which_pe : ℤ) - pe + (n - 1)).tmod (n - 1)
    (if i < (n : ℤ) / 2 then [((pe : ℤ) + i).tmod (n - 1)] else []) ++
    (if i' < (n : ℤ) / 2 then [((pe : ℤ) - i' + (n - 1)).tmod (n - 1)] else [])
  else [])

/-- mpi/mpitranspose.cc:30-59 `fill1_comm_sched(sched,which_pe,npes)`: the values stored in `sched[0],sched[1],…`. -/
def fillCommSched (which_pe npes : ℕ) : List ℤ :=
  let n := if npes % 2 = 0 then npes else npes + 1
  (if npes % 2 = 0 then [(which_pe : ℤ)] else []) ++ (List.range (n - 1)).flatMap (schedStep which_pe npes n)

end Fftwpp.Mpi
