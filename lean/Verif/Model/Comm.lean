import Verif.Model.Net

/-!
# Communicators

A program written in terms of the ranks of a communicator, run by processes that are numbered otherwise.
-/

namespace Fftwpp.Net
variable {V α : Type}

/-- The call `o`, made on a communicator whose rank `r` is process `f r`; its contexts `c` are `cx c`. -/
def Op.on (f cx : ℕ → ℕ) : Op V → Op V
  | .isend id ctx dst src n hold => .isend id (cx ctx) (f dst) src n hold
  | .irecv id ctx src dst n => .irecv id (cx ctx) (f src) dst n
  | .moves l => .moves l
  | .shuffle l => .shuffle l
  | .store a v => .store a v
  | .alloc b n => .alloc b n
  | .free b => .free b
  | .comp c => .comp c
  | .wait id => .wait id

/-- The program, on a communicator. -/
def Prog.on (f cx : ℕ → ℕ) : Prog V α → Prog V α
  | .ret a => .ret a
  | .fail => .fail
  | .op o k => .op (o.on f cx) (k.on f cx)
  | .load a k => .load a fun v => (k v).on f cx

/-- Rank `r` of a communicator that lists the processes `f 0, …, f (size-1)` of `world` processes; other ranks are not processes. -/
def rankOf (world size : ℕ) (f : ℕ → ℕ) (r : ℕ) : ℕ := if r < size then f r else world + r

end Fftwpp.Net
