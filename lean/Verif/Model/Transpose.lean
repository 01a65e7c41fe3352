import Verif.Model.Gather

/-!
# The distributed transpose (mpi/mpitranspose.h)

Messages and buffers are counted in words of type `T` instead of bytes; `int` and `unsigned int` are natural numbers without
overflow.  The timings made by `setup` are not modelled: the values `a` and `alltoall` it settles on (and broadcasts to all
processes) are arbitrary parameters.  Each process runs one thread or several: a parallel copy loop is one `Op.moves`, which is stuck
if two iterations conflict.
-/

namespace Fftwpp.Net
variable {V : Type}

/-- The members of `mpitranspose` used below (mpi/mpitranspose.h:159-196), on one process. -/
structure MT where
  N : ℕ
  M : ℕ
  L : ℕ
  n : ℕ
  m : ℕ
  rank : ℕ
  size : ℕ
  n0 : ℕ
  nlast : ℕ
  np : ℕ
  m0 : ℕ
  mlast : ℕ
  mp : ℕ
  a : ℕ
  b : ℕ
  last : ℕ
  uniform : Bool
  subblock : Bool
  compact : Bool
  schedule : Bool

/-- mpi/mpitranspose.h:202-205 `divisible`. -/
def divisible (size M N : ℕ) : Bool := decide (size ≤ N ∧ size ≤ M ∧ N % size = 0 ∧ M % size = 0)

/-- mpi/mpitranspose.h:253-379 `setup` and 440-507 `init`, on process `rank` of a communicator of `size0` processes; `optA` and
`alltoall` are the values of `options.a` and `options.alltoall` at line 368.  `n` and `m` are the local dimensions, as computed by
`split` (mpi/mpigroup.h:81-99). -/
def MT.mk' (N M L size0 rank optA alltoall : ℕ) : MT :=
  let n := (Mpi.localdimension N rank size0).n.toNat
  let m := (Mpi.localdimension M rank size0).n.toNat
  let n0 := (Mpi.localdimension N 0 size0).n.toNat
  let nlast := min (ceilquotient N n0) size0 - 1
  let np := (Mpi.localdimension N nlast size0).n.toNat
  let m0 := (Mpi.localdimension M 0 size0).n.toNat
  let mlast := min (ceilquotient M m0) size0 - 1
  let mp := (Mpi.localdimension M mlast size0).n.toNat
  let last := min nlast mlast
  if size0 = 1 then
    { N, M, L, n, m, rank, size := 1, n0, nlast, np, m0, mlast, mp, a := 1, b := 1, last, uniform := false, subblock := false,
      compact := false, schedule := false }
  else
    let Pbar := min (nlast + if n0 = np then 1 else 0) (mlast + if m0 = mp then 1 else 0)
    let size := max (nlast + 1) (mlast + 1)
    let Uniform := divisible size M N
    let a := optA
    let b := if a > 1 ∨ Uniform = true then Pbar / a else Pbar + 1
    let ab := if b = 1 then (1, a) else (a, b)
    let a := ab.1
    let b := ab.2
    let uniform := Uniform && decide (a * b = size)
    { N, M, L, n, m, rank, size, n0, nlast, np, m0, mlast, mp, a, b, last, uniform
      subblock := decide (a > 1 ∧ rank < a * b)
      compact := uniform && decide (alltoall = 2)
      schedule := decide (alltoall = 0) || (!uniform && decide (a > 1)) }

/-- `MPI_Comm_split` with equal keys (MPI standard 6.4.2): the new communicator, listed in rank order. -/
def commSplit (procs : List ℕ) (color : ℕ → ℕ) (r : ℕ) : List ℕ := procs.filter fun s => color s = color r

/-- mpi/mpitranspose.h:260 `MPI_Comm_split(Communicator,rank < size,0,&communicator)`. -/
def MT.communicator (t : MT) : List ℕ := List.range t.size
/-- mpi/mpitranspose.h:481 `block`. -/
def MT.block (t : MT) : List ℕ := commSplit t.communicator (fun s => if s < t.a * t.b then 1 else 0) t.rank
/-- mpi/mpitranspose.h:476-494 `split`. -/
def MT.split (t : MT) : List ℕ := if t.a = 1 then t.communicator else commSplit t.block (· / t.b) t.rank
/-- mpi/mpitranspose.h:476-494 `split2`. -/
def MT.split2 (t : MT) : List ℕ := if t.a = 1 then t.communicator else commSplit t.block (· % t.b) t.rank
/-- mpi/mpitranspose.h:469-474 `splitv`. -/
def MT.splitv (t : MT) : List ℕ := commSplit t.communicator (fun s => if s < t.last then 1 else 0) t.rank

/-- mpi/mpitranspose.cc:30-59: the schedule of the process of rank `rank` in a communicator of `size` processes. -/
def sched (rank size : ℕ) : List ℕ := (Mpi.fillCommSched rank size).map Int.toNat

/-- A list of calls. -/
def Prog.calls (l : List (Op V)) : Prog V Unit :=
  match l with
  | [] => .ret ()
  | o :: t => (Prog.call o).bind fun _ => Prog.calls t

/-- mpi/mpitranspose.h:51-59 `copy(from,to,length,threads)`. -/
def copy (src dst : Loc) (length : ℕ) : Prog V Unit := .call (.moves (at' dst src ((List.range length).map fun i => (i, i))))

/-- mpi/mpitranspose.h:133-158 `Ialltoall(sendbuf,count,recvbuf,comm,request,sched)`; `arr`: the request array.
Without `sched`: `MPI_Ialltoall`, defined by the MPI standard (5.8) as a send to and a receive from every process of the
communicator, in a context of its own (`ctx+10`); its request stands for all of these (table `arr+10`).  With equal buffers
(`MPI_IN_PLACE`) the data are taken from the receive buffer. -/
def ialltoall (sendbuf : Loc) (count : ℕ) (recvbuf : Loc) (comm : List ℕ) (ctx me arr : ℕ) (scheduled : Bool) : Prog V Unit :=
  let size := comm.length
  let rank := comm.idxOf me
  if scheduled = false then do
    .calls ((List.range size).flatMap fun P =>
      if P ≠ rank then
        if sendbuf = recvbuf then
          [.isend (arr + 10, size + P) (ctx + 10) (comm.getD P 0) (sendbuf + P * count) count false,
            .irecv (arr + 10, P) (ctx + 10) (comm.getD P 0) (recvbuf + P * count) count]
        else
          [.irecv (arr + 10, P) (ctx + 10) (comm.getD P 0) (recvbuf + P * count) count,
            .isend (arr + 10, size + P) (ctx + 10) (comm.getD P 0) (sendbuf + P * count) count true]
      else [])
    if sendbuf = recvbuf then .ret () else copy (sendbuf + rank * count) (recvbuf + rank * count) count
  else do
    .calls ((sched rank size).flatMap fun P =>
      if P ≠ rank then
        let index := if P < rank then P else P - 1
        [.irecv (arr, index) ctx (comm.getD P 0) (recvbuf + P * count) count,
          .isend (arr, size - 1 + index) ctx (comm.getD P 0) (sendbuf + P * count) count true]
      else [])
    copy (sendbuf + rank * count) (recvbuf + rank * count) count

/-- `MPI_Waitall(count,request+start,…)` on the request array `arr`. -/
def waitall (arr count : ℕ) : Prog V Unit := .calls ((List.range count).map fun j => .wait (arr, j))

/-- mpi/mpitranspose.h:100-112 `Wait(count,request,schedule)` (MPI 3) after an `Ialltoall` on a communicator of `size` processes:
without schedule a wait for the `MPI_Ialltoall`. -/
def Wait (arr size : ℕ) (schedule : Bool) : Prog V Unit :=
  if schedule = true then waitall arr (2 * (size - 1)) else waitall (arr + 10) (2 * size)

/-- mpi/mpitranspose.h:438 `Size(start)`. -/
def MT.Size (t : MT) (start : ℕ) : ℕ := t.size - (if t.rank ≥ start then 1 else start)

/-- mpi/mpitranspose.h:556 `ni`. -/
def MT.ni (t : MT) (P : ℕ) : ℕ := if P < t.nlast then t.n0 else if P = t.nlast then t.np else 0
/-- mpi/mpitranspose.h:557 `mi`. -/
def MT.mi (t : MT) (P : ℕ) : ℕ := if P < t.mlast then t.m0 else if P = t.mlast then t.mp else 0

/-- mpi/mpitranspose.h:559-587 `Ialltoallout(sendbuf,recvbuf,start,threads)` (`request`: table 0). -/
def MT.ialltoallout (t : MT) (sendbuf recvbuf : Loc) (start : ℕ) : Prog V Unit := do
  let nS := t.n * t.L
  let mS := t.m * t.L
  let nm0 := nS * t.m0
  let mn0 := mS * t.n0
  .calls ((sched t.rank t.size).flatMap fun P =>
    if P ≠ t.rank ∧ (t.rank ≥ start ∨ P ≥ start) then
      let index := if t.rank ≥ start then (if P < t.rank then P else P - 1) else P - start
      (if mS * t.ni P > 0 then [.irecv (0, index) 0 P (recvbuf + mn0 * P) (mS * t.ni P)] else []) ++
      (if nS * t.mi P > 0 then [.isend (0, t.Size start + index) 0 P (sendbuf + nm0 * P) (nS * t.mi P) true] else [])
    else [])
  if t.rank ≥ start then copy (sendbuf + nm0 * t.rank) (recvbuf + mn0 * t.rank) (nS * t.mi t.rank) else .ret ()

/-- mpi/mpitranspose.h:589-617 `Ialltoallin(sendbuf,recvbuf,start,threads)`. -/
def MT.ialltoallin (t : MT) (sendbuf recvbuf : Loc) (start : ℕ) : Prog V Unit := do
  let nS := t.n * t.L
  let mS := t.m * t.L
  let nm0 := nS * t.m0
  let mn0 := mS * t.n0
  .calls ((sched t.rank t.size).flatMap fun P =>
    if P ≠ t.rank ∧ (t.rank ≥ start ∨ P ≥ start) then
      let index := if t.rank ≥ start then (if P < t.rank then P else P - 1) else P - start
      (if nS * t.mi P > 0 then [.irecv (0, index) 0 P (recvbuf + nm0 * P) (nS * t.mi P)] else []) ++
      (if mS * t.ni P > 0 then [.isend (0, t.Size start + index) 0 P (sendbuf + mn0 * P) (mS * t.ni P) true] else [])
    else [])
  if t.rank ≥ start then copy (sendbuf + mn0 * t.rank) (recvbuf + nm0 * t.rank) (mS * t.ni t.rank) else .ret ()

/-- fftw++.h:430-490 `Transpose(rows,cols,length,…)`: the copies made by the FFTW plan of rank 0 (relative offsets). -/
def transposeL (rows cols length : ℕ) : List (ℕ × ℕ) :=
  (List.range rows).flatMap fun r => (List.range cols).flatMap fun c => (List.range length).map fun k =>
    ((c * rows + r) * length + k, (r * cols + c) * length + k)

/-- fftw++.h:480-489 `transpose(in,out)`; `inplace`: the constructor was given equal pointers.  It exits if the call is in place and
the constructor was not, or conversely. -/
def transpose (rows cols length : ℕ) (inplace : Bool) (inp out : Loc) : Prog V Unit :=
  if rows = 0 ∨ cols = 0 then .ret ()
  else if inplace = true then
    if out = inp then .call (.shuffle (at' out inp (transposeL rows cols length))) else .fail
  else if out = inp then .fail else .call (.moves (at' out inp (transposeL rows cols length)))

/-- mpi/mpitranspose.h:722-732: the copies of the loop (relative to `work` and `input`). -/
def MT.packL1 (t : MT) : List (ℕ × ℕ) :=
  let block := t.m0 * t.L
  let cols := t.n * t.a
  let istride := cols * block
  let ostride := t.b * block
  let extra := (t.M - t.m0 * t.a * t.b) * t.L
  (List.range t.n).flatMap fun i => (List.range t.a).flatMap fun j =>
    (copyfromblockL t.b block istride).map fun x => (t.a * i * block + j * block + x.1, t.a * i * ostride + i * extra + j * ostride + x.2)

/-- mpi/mpitranspose.h:742-748. -/
def MT.packL2 (t : MT) : List (ℕ × ℕ) :=
  let block := t.m0 * t.L
  let lastblock := t.mp * t.L
  let istride := t.n * block
  let ostride := t.mlast * block + lastblock
  let ab := t.a * t.b
  (List.range t.n).flatMap fun j => (copyfromblockL (t.mlast - ab) block istride).map fun x =>
    (ab * istride + j * block + x.1, ab * block + j * ostride + x.2)

/-- mpi/mpitranspose.h:750-755. -/
def MT.packL3 (t : MT) : List (ℕ × ℕ) :=
  let block := t.m0 * t.L
  let lastblock := t.mp * t.L
  let istride := t.n * block
  let ostride := t.mlast * block + lastblock
  (List.range t.n).flatMap fun j => (List.range lastblock).map fun k =>
    (t.mlast * istride + j * lastblock + k, t.mlast * block + j * ostride + k)

/-- mpi/mpitranspose.h:758-770. -/
def MT.packL (t : MT) : List (ℕ × ℕ) :=
  let lastblock := t.mp * t.L
  let block := t.m0 * t.L
  let istride := t.n * block
  let ostride := t.mlast * block + lastblock
  let mlastblock := t.mlast * block
  (List.range t.n).flatMap fun j =>
    ((copyfromblockL t.mlast block istride).map fun x => (j * block + x.1, j * ostride + x.2)) ++
    (List.range lastblock).map fun k => (t.mlast * istride + j * lastblock + k, j * ostride + mlastblock + k)

/-- Exchange destination and source. -/
def swapL (l : List (ℕ × ℕ)) : List (ℕ × ℕ) := l.map fun x => (x.2, x.1)

/-- mpi/mpitranspose.h:785-802 `outphase`. -/
def MT.outphase (t : MT) (output work : Loc) : Prog V Unit :=
  if t.size = 1 ∨ t.rank ≥ t.size then .ret () else do
  (if t.subblock = true then transpose (t.n * t.b) t.a (t.m * t.L) t.compact output work else .ret ())
  (if t.uniform = false then
    if t.schedule = true then t.ialltoallout work output (if t.a > 1 then t.a * t.b else 0)
    else do
      (if t.rank < t.last then ialltoall work (t.n * t.m * t.L) output t.splitv 3 t.rank 2 false else .ret ())
      t.ialltoallout work output t.last
  else .ret ())
  if t.uniform = true ∨ t.subblock = true then
    ialltoall work (t.n * t.m * (if t.a > 1 then t.b else t.a) * t.L) output t.split2 2 t.rank 1 t.schedule
  else .ret ()

/-- mpi/mpitranspose.h:707-777 `outphase0` (`work` already replaced by `output` in the compact case). -/
def MT.outphase0 (t : MT) (input output work : Loc) : Prog V Unit :=
  if t.rank ≥ t.size then .ret () else
  if t.size = 1 then (if input ≠ output then copy input output (t.n * t.M * t.L) else .ret ()) else do
  (if t.uniform = true then transpose (t.n * t.a) t.b (t.m * t.L) t.compact input work
  else if t.subblock = true then do
    .call (.moves (at' work input t.packL1))
    (if (t.M - t.m0 * t.a * t.b) * t.L > 0 then do
      (if t.mlast - t.a * t.b > 0 then .call (.moves (at' work input t.packL2)) else .ret ())
      .call (.moves (at' work input t.packL3))
    else .ret ())
  else .call (.moves (at' work input t.packL)))
  if t.subblock = true then ialltoall work (t.n * t.m * t.a * t.L) output t.split 1 t.rank 1 t.schedule
  else t.outphase output work

/-- mpi/mpitranspose.h:808-818 `outsync`. -/
def MT.outsync (t : MT) : Prog V Unit :=
  if t.size = 1 ∨ t.rank ≥ t.size then .ret () else do
  (if t.uniform = false then
    if t.schedule = true then waitall 0 (2 * t.Size (if t.a > 1 then t.a * t.b else 0))
    else do
      waitall 0 (2 * t.Size t.last)
      if t.rank < t.last then waitall 12 (2 * t.splitv.length) else .ret ()
  else .ret ())
  if t.uniform = true ∨ t.subblock = true then Wait 1 t.split2.length t.schedule else .ret ()

/-- mpi/mpitranspose.h:779-783 `outsync0`. -/
def MT.outsync0 (t : MT) : Prog V Unit :=
  if t.rank ≥ t.size then .ret () else
  if t.subblock = true then Wait 1 t.split.length t.schedule else t.outsync

/-- mpi/mpitranspose.h:804-806, 820-822, 876-901: `localize0(in,out)`: `outphase0`, then `Wait0` and `Wait1`. -/
def MT.localize0 (t : MT) (input output work : Loc) : Prog V Unit := do
  let work := if t.compact = true then output else work
  t.outphase0 input output work
  t.outsync0
  (if t.subblock = true then t.outphase output work else .ret ())
  if t.subblock = true then t.outsync else .ret ()

/-- mpi/mpitranspose.h:620-638 `inphase0`. -/
def MT.inphase0 (t : MT) (input output work : Loc) : Prog V Unit :=
  if t.rank ≥ t.size then .ret () else
  if t.size = 1 then (if input ≠ output then copy input output (t.N * t.m * t.L) else .ret ()) else do
  (if t.uniform = true ∨ t.subblock = true then
    ialltoall input (t.n * t.m * (if t.a > 1 then t.b else t.a) * t.L) work t.split2 2 t.rank 1 t.schedule
  else .ret ())
  if t.uniform = false then
    if t.schedule = true then t.ialltoallin input work (if t.a > 1 then t.a * t.b else 0)
    else do
      (if t.rank < t.last then ialltoall input (t.n * t.m * t.L) work t.splitv 3 t.rank 2 false else .ret ())
      t.ialltoallin input work t.last
  else .ret ()

/-- mpi/mpitranspose.h:640-650 `insync0`. -/
def MT.insync0 (t : MT) : Prog V Unit :=
  if t.size = 1 ∨ t.rank ≥ t.size then .ret () else do
  (if t.uniform = true ∨ t.subblock = true then Wait 1 t.split2.length t.schedule else .ret ())
  if t.uniform = false then
    if t.schedule = true then waitall 0 (2 * t.Size (if t.a > 1 then t.a * t.b else 0))
    else do
      waitall 0 (2 * t.Size t.last)
      if t.rank < t.last then waitall 12 (2 * t.splitv.length) else .ret ()
  else .ret ()

/-- mpi/mpitranspose.h:652-658 `inphase1`. -/
def MT.inphase1 (t : MT) (output work : Loc) : Prog V Unit :=
  if t.rank ≥ t.size then .ret () else
  if t.subblock = true then do
    transpose t.a (t.n * t.b) (t.m * t.L) t.compact work output
    ialltoall output (t.n * t.m * t.a * t.L) work t.split 1 t.rank 1 t.schedule
  else .ret ()

/-- mpi/mpitranspose.h:660-664 `insync1`. -/
def MT.insync1 (t : MT) : Prog V Unit :=
  if t.rank ≥ t.size then .ret () else
  if t.subblock = true then Wait 1 t.split.length t.schedule else .ret ()

/-- mpi/mpitranspose.h:666-704 `inpost`: the loops copy the words that `outphase0` packs, in the other direction. -/
def MT.inpost (t : MT) (output work : Loc) : Prog V Unit :=
  if t.size = 1 ∨ t.rank ≥ t.size then .ret () else
  if t.uniform = true then transpose t.b (t.n * t.a) (t.m * t.L) t.compact work output
  else if t.subblock = true then do
    .call (.moves (at' output work (swapL t.packL1)))
    (if (t.M - t.m0 * t.a * t.b) * t.L > 0 then do
      (if t.mlast - t.a * t.b > 0 then .call (.moves (at' output work (swapL t.packL2))) else .ret ())
      .call (.moves (at' output work (swapL t.packL3)))
    else .ret ())
  else .call (.moves (at' output work (swapL t.packL)))

/-- mpi/mpitranspose.h:840-852, 903-917: `localize1(in,out)`: `inphase0`, then `Wait0` (`insync0`, `inphase1`) and `Wait1` (`insync1`,
`inpost`). -/
def MT.localize1 (t : MT) (input output work : Loc) : Prog V Unit := do
  let work := if t.compact = true then output else work
  t.inphase0 input output work
  t.insync0
  t.inphase1 output work
  t.insync1
  t.inpost output work

end Fftwpp.Net
