import Mathlib.Logic.Function.Basic
import Mathlib.Data.List.Nodup
import Mathlib.Data.List.Range
import Mathlib.Tactic.Common

/-!
# Message-passing processes

The execution model of the MPI code (mpi/mpiutils.h, mpi/mpitranspose.h): finitely many processes with private memories, the
nonblocking point-to-point calls of MPI (`MPI_Isend`, `MPI_Irecv`, `MPI_Waitall`), from which the blocking calls and
`MPI_Ialltoall` are built, and every interleaving of the processes.

What is assumed of the MPI library (MPI standard 3.5, 3.7, 5.8):

* messages between a pair of processes on one communicator are matched in the order in which they are posted;
* a receive completes once the matching send is posted; a send completes once the matching receive is posted or, if the library
  chose to buffer that message (`Eager`, an arbitrary choice made per message), at once;
* between posting and waiting a send buffer may not be written and a receive buffer may not be accessed.  A program that does so is
  stuck in the model, so the moment at which the library reads or writes a buffer cannot be observed: the model reads a send
  buffer when the send is posted and fills a receive buffer when the receive is waited for;
* a receive may not be shorter than the matching message.

An operation whose preconditions fail (out-of-bounds access, racing parallel loop, use of a buffer in transit) is never executed:
the process is stuck for ever and never reaches `Prog.ret`.
-/

namespace Fftwpp.Net

/-- A memory word of one process: word `off` of buffer `buf`. -/
@[ext] structure Loc where
  buf : ℕ
  off : ℕ
deriving DecidableEq

/-- Pointer arithmetic `p+i`. -/
instance : HAdd Loc ℕ Loc := ⟨fun p i => ⟨p.buf, p.off + i⟩⟩

@[simp] theorem Loc.add_buf (p : Loc) (i : ℕ) : (p + i).buf = p.buf := rfl
@[simp] theorem Loc.add_off (p : Loc) (i : ℕ) : (p + i).off = p.off + i := rfl

/-- The words `base,…,base+len-1`. -/
structure Region where
  base : Loc
  len : ℕ

/-- `a` is a word of the region. -/
def Region.has (r : Region) (a : Loc) : Prop := a.buf = r.base.buf ∧ r.base.off ≤ a.off ∧ a.off < r.base.off + r.len

/-- A nonblocking operation that has not been waited for.  `peer`, `ctx`: the other process and the communicator; `k`: it is the
`k`-th message between the two processes (in that direction) on that communicator. -/
inductive Req where
  | send (peer ctx k : ℕ) (buffered : Bool) (reg : Region)
  | recv (peer ctx k : ℕ) (reg : Region)

/-- The buffer of a pending operation. -/
def Req.reg : Req → Region
  | .send _ _ _ _ r => r
  | .recv _ _ _ r => r

/-- Is it a receive? -/
def Req.isRecv : Req → Prop
  | .send .. => False
  | .recv .. => True

/-- The private state of a process: buffer sizes, memory, the request table (`none`: `MPI_REQUEST_NULL`), and, for each peer and
communicator, the messages it has sent and the number of receives it has posted; `nsend` counts all its sends. -/
structure Local (V : Type) where
  size : ℕ → ℕ
  mem : Loc → V
  req : ℕ × ℕ → Option Req
  sent : ℕ × ℕ → List (List V)
  rcvd : ℕ × ℕ → ℕ
  nsend : ℕ

/-- The choice of the MPI library: is the `k`-th message sent by process `i` buffered? -/
abbrev Eager := ℕ → ℕ → Bool

/-- The calls a process makes. -/
inductive Op (V : Type) where
  /-- A (parallel) loop of copies `*d=*s`. -/
  | moves (l : List (Loc × Loc))
  /-- An (in-place) rearrangement: all sources are read before any destination is written. -/
  | shuffle (l : List (Loc × Loc))
  /-- `*a=v`. -/
  | store (a : Loc) (v : V)
  /-- `new T[n]`, called buffer `b`. -/
  | alloc (b n : ℕ)
  /-- `delete [] b`. -/
  | free (b : ℕ)
  /-- A computation on the private memory that makes no MPI call (`none`: it does not end properly), made while no request of the
  process is pending. -/
  | comp (c : (ℕ → ℕ) → (Loc → V) → Option (Loc → V))
  /-- `MPI_Isend(src,n,…,dst,…,ctx,id)`.  `hold`: the buffer is reserved until the wait (false only inside an in-place collective,
  where the receive from the same process reserves it). -/
  | isend (id : ℕ × ℕ) (ctx dst : ℕ) (src : Loc) (n : ℕ) (hold : Bool)
  /-- `MPI_Irecv(dst,n,…,src,…,ctx,id)`. -/
  | irecv (id : ℕ × ℕ) (ctx src : ℕ) (dst : Loc) (n : ℕ)
  /-- `MPI_Wait(id)`. -/
  | wait (id : ℕ × ℕ)

/-- Programs. -/
inductive Prog (V : Type) (α : Type) where
  | ret (a : α)
  | fail
  | op (o : Op V) (k : Prog V α)
  | load (a : Loc) (k : V → Prog V α)

variable {V α β : Type}

/-- Sequencing. -/
def Prog.bind : Prog V α → (α → Prog V β) → Prog V β
  | .ret a, f => f a
  | .fail, _ => .fail
  | .op o k, f => .op o (k.bind f)
  | .load a k, f => .load a fun v => (k v).bind f

instance : Monad (Prog V) where
  pure := .ret
  bind := .bind

/-- A single call. -/
def Prog.call (o : Op V) : Prog V Unit := .op o (.ret ())

/-- `for(i in l) body(i)`. -/
def Prog.loop (l : List ℕ) (body : ℕ → Prog V Unit) : Prog V Unit :=
  match l with
  | [] => .ret ()
  | i :: t => (body i).bind fun _ => Prog.loop t body

/-- The word may be dereferenced. -/
def Local.inBounds (σ : Local V) (a : Loc) : Prop := a.off < σ.size a.buf

/-- The word may be read: it is in bounds and not part of a pending receive buffer. -/
def Local.readable (σ : Local V) (a : Loc) : Prop := σ.inBounds a ∧ ∀ id q, σ.req id = some q → q.isRecv → ¬ q.reg.has a

/-- The word may be written: it is in bounds and not part of a pending buffer. -/
def Local.writable (σ : Local V) (a : Loc) : Prop := σ.inBounds a ∧ ∀ id q, σ.req id = some q → ¬ q.reg.has a

/-- The simultaneous copy of the words `l` (destination, source). -/
def moveMem (m : Loc → V) (l : List (Loc × Loc)) (a : Loc) : V :=
  match l.find? (fun x => x.1 = a) with
  | some x => m x.2
  | none => m a

/-- Store the list at consecutive words. -/
def fillMem (m : Loc → V) (base : Loc) (data : List V) (a : Loc) : V :=
  if a.buf = base.buf ∧ base.off ≤ a.off then (data[a.off - base.off]?).getD (m a) else m a

/-- The words of a region. -/
def readMem (m : Loc → V) (base : Loc) (n : ℕ) : List V := (List.range n).map fun i => m (base + i)

open Classical in
/-- Execution of a call by process `i` when the other processes are in the states `env`; `none`: blocked or erroneous. -/
noncomputable def Op.exec (e : Eager) (i : ℕ) (env : ℕ → Local V) (σ : Local V) : Op V → Option (Local V)
  | .moves l =>
    if (l.map (·.1)).Nodup ∧ (∀ x ∈ l, ∀ y ∈ l, x.2 ≠ y.1) ∧ (∀ x ∈ l, σ.writable x.1 ∧ σ.readable x.2) then
      some { σ with mem := moveMem σ.mem l } else none
  | .shuffle l =>
    if (l.map (·.1)).Nodup ∧ (∀ x ∈ l, σ.writable x.1 ∧ σ.readable x.2) then
      some { σ with mem := moveMem σ.mem l } else none
  | .store a v =>
    if σ.writable a then some { σ with mem := fun b => if b = a then v else σ.mem b } else none
  | .alloc b n =>
    if σ.size b = 0 then some { σ with size := Function.update σ.size b n } else none
  | .free b =>
    if ∀ id q, σ.req id = some q → q.reg.base.buf ≠ b then
      some { σ with size := Function.update σ.size b 0 } else none
  | .comp c => if ∀ id, σ.req id = none then (c σ.size σ.mem).map fun m => { σ with mem := m } else none
  | .isend id ctx dst src n hold =>
    if σ.req id = none ∧ ∀ j < n, σ.readable (src + j) then
      some { σ with
        req := Function.update σ.req id
          (some (.send dst ctx (σ.sent (dst, ctx)).length (e i σ.nsend) ⟨src, if hold then n else 0⟩))
        sent := Function.update σ.sent (dst, ctx) (σ.sent (dst, ctx) ++ [readMem σ.mem src n])
        nsend := σ.nsend + 1 }
    else none
  | .irecv id ctx src dst n =>
    if σ.req id = none ∧ ∀ j < n, σ.writable (dst + j) then
      some { σ with
        req := Function.update σ.req id (some (.recv src ctx (σ.rcvd (src, ctx)) ⟨dst, n⟩))
        rcvd := Function.update σ.rcvd (src, ctx) (σ.rcvd (src, ctx) + 1) }
    else none
  | .wait id =>
    match σ.req id with
    | none => some σ
    | some (.send peer ctx k buffered _) =>
      if buffered = true ∨ k < (env peer).rcvd (i, ctx) then some { σ with req := Function.update σ.req id none } else none
    | some (.recv peer ctx k reg) =>
      match ((env peer).sent (i, ctx))[k]? with
      | none => none
      | some data =>
        if data.length ≤ reg.len then
          some { σ with req := Function.update σ.req id none, mem := fillMem σ.mem reg.base data } else none

/-- A process: what remains of its program, and its state. -/
structure Proc (V : Type) where
  prog : Prog V Unit
  loc : Local V

/-- A state of the parallel program. -/
abbrev St (V : Type) := ℕ → Proc V

open Classical in
/-- The next step of process `i`. -/
noncomputable def Proc.step (e : Eager) (i : ℕ) (env : ℕ → Local V) (p : Proc V) : Option (Proc V) :=
  match p.prog with
  | .ret _ => none
  | .fail => none
  | .op o k => (o.exec e i env p.loc).map fun σ => ⟨k, σ⟩
  | .load a k => if p.loc.readable a then some ⟨k (p.loc.mem a), p.loc⟩ else none

/-- A step of the parallel program: some process makes its next step. -/
def Step (e : Eager) (s t : St V) : Prop :=
  ∃ i p, (s i).step e i (fun j => (s j).loc) = some p ∧ t = Function.update s i p

/-- `k` steps. -/
inductive StepN (e : Eager) : ℕ → St V → St V → Prop where
  | zero (s : St V) : StepN e 0 s s
  | succ {k : ℕ} {s t u : St V} : Step e s t → StepN e k t u → StepN e (k + 1) s u

/-- Every run from `s` is finite, and each one that cannot be continued ends in a state satisfying `Q`. -/
def AllRuns (e : Eager) (s : St V) (Q : St V → Prop) : Prop :=
  (∃ n, ∀ k t, StepN e k s t → k ≤ n) ∧ ∀ k t, StepN e k s t → (∀ u, ¬ Step e t u) → Q t

/-- A proper end: every one of the `P` processes has finished, has no pending request, and every message sent was received. -/
def Finished (P : ℕ) (s : St V) : Prop :=
  (∀ i < P, (s i).prog = .ret () ∧ ∀ id, (s i).loc.req id = none) ∧
  ∀ i < P, ∀ j < P, ∀ ctx, ((s i).loc.sent (j, ctx)).length = (s j).loc.rcvd (i, ctx)

end Fftwpp.Net
