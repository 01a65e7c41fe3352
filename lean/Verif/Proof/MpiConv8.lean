import Verif.Proof.MpiConv7
import Verif.Props.MpiRcfft

/-!
# Histories of calls of the distributed convolution
-/

namespace Fftwpp
open Finset Net

namespace Conv2MPI

/-- The buffers of the work arrays of a process' object. -/
def Bufs (o : Conv2MPI) (k : ℕ) : Prop := o.c.Bufs k ∨ ∃ a < max o.c.x.fft.A o.c.x.fft.B, k = (o.wrk a).buf

/-- For every residue, `subconvolution` runs the inner convolution of every row of the process exactly once, each in an existing thread. -/
def LegalS (o : Conv2MPI) (s : ℕ → Sch) : Prop := ∀ rx ∈ o.c.x.fft.residues, (s rx).Legal o.x o.c.threads

/-- The arguments of `convolve`: the arrays exist, do not overlap and are none of the work arrays. -/
structure Inputs (o : Conv2MPI) (mem : Mem) (f : PtrArr) (off : ℕ) : Prop where
  n : o.c.x.fft.A ≤ f.n
  bf : ∀ a < o.c.x.fft.A, mem.block (f.at_ a + off) (o.c.x.fft.S * o.c.x.fft.L)
  apart : o.c.x.fft.Apart f off o.c.x.fft.A
  buf : ∀ a < o.c.x.fft.A, ¬ o.Bufs (f.at_ a).buf

theorem Inputs.size {o : Conv2MPI} {m m' : Mem} {f : PtrArr} {off : ℕ} (h : o.Inputs m f off) (hs : m'.size = m.size) : o.Inputs m' f off :=
  ⟨h.n, fun a ha => FftBase.block_size hs (h.bf a ha), h.apart, h.buf⟩

/-- What the user does between constructing the objects and the call in question: process `r` writes a word of its memory, or all processes
call `convolve`. -/
inductive Step where
  | write (r : ℕ) (p : Ptr) (v : ℂ)
  | call (s : ℕ → ℕ → Sch) (f : ℕ → PtrArr) (off : ℕ → ℕ)

/-- A step, in process `r` (a write by another process is an empty computation). -/
noncomputable def stepProg (M : ℕ → Conv2MPI) (r : ℕ) : Step → Prog ℂ Unit
  | .write q p v => runCmd (if r = q then (store p v).run else pure ())
  | .call s f off => (M r).convolve (s r) (f r) (off r)

/-- A history of steps, in process `r`. -/
noncomputable def stepsProg (M : ℕ → Conv2MPI) (r : ℕ) : List Step → Prog ℂ Unit
  | [] => .ret ()
  | s :: l => (stepProg M r s).bind fun _ => stepsProg M r l

/-- The user writes outside the work arrays of the objects. -/
def Allowed (P : ℕ) (M : ℕ → Conv2MPI) (mem : ℕ → Mem) : Step → Prop
  | .write q p _ => q < P ∧ (mem q).valid p ∧ ¬ (M q).Bufs p.buf
  | .call s f off => ∀ r < P, (M r).LegalS (s r) ∧ (M r).Inputs (mem r) (f r) (off r)

end Conv2MPI

namespace DConv

variable {P X Y optA alltoall : ℕ} {M : ℕ → Conv2MPI} {x0 : ℤ} {pdx : ℕ → Mem → Ptr → Prop} {L N A B : ℕ} {res : List ℕ} {ix : ℕ → ℕ → ℕ}
  {e : Eager} {g : ℕ → Mem} {Φ : ℕ → ℕ → (ℕ → ℕ → ℂ) → ℕ → ℂ} {T : ℕ → ℕ → Prop} {Inv : ℕ → Mem → Prop}
  {Dm : (ℕ → ℕ → ℂ) → Prop}

/-- Some global data are held. -/
theorem holds_exists (hP : 0 < P) (g : ℕ → Mem) (f : ℕ → PtrArr) (off : ℕ → ℕ) : ∃ D : ℕ → ℕ → ℕ → ℂ, ∀ a, Holds P Y L g f off D a := by
  classical
  refine ⟨fun a j c => if h : c < Y then (g (owner hP h).choose).val ((f (owner hP h).choose).at_ a + off (owner hP h).choose +
    (part Y P (owner hP h).choose * j + (c - first Y P (owner hP h).choose))) else 0, ?_⟩
  intro a r hr j hj c hc
  have hlt : first Y P r + c < Y := first_lt hP hr hc
  beta_reduce
  rw [dif_pos hlt]
  obtain ⟨h1, h2, h3⟩ := (owner hP hlt).choose_spec
  have he : (owner hP hlt).choose = r := (ld_has Y P hP).2.2.1 _ h1 r hr _ h2 h3 (Nat.le_add_right _ _) (by show _ < first Y P r + part Y P r; omega)
  rw [he, Nat.add_sub_cancel_left]

/-- Everything about the objects that does not change. -/
structure Obj (P X Y optA alltoall : ℕ) (M : ℕ → Conv2MPI) (x0 : ℤ) (pdx : ℕ → Mem → Ptr → Prop) (L N A B : ℕ) (res : List ℕ)
    (ix : ℕ → ℕ → ℕ) (Φ : ℕ → ℕ → (ℕ → ℕ → ℂ) → ℕ → ℂ) (T : ℕ → ℕ → Prop) (Inv : ℕ → Mem → Prop) (Dm : (ℕ → ℕ → ℂ) → Prop) (l2 : Bool) (Ny : ℕ) : Prop where
  d : DConv P X Y optA alltoall M x0 pdx L N A B res ix
  sub : ∀ s : ℕ → ℕ → Sch, (∀ r < P, (M r).LegalS (s r)) → SubSpec P X Y M A B res ix s Φ T Inv Dm
  inv : ∀ r < P, ∀ m m' : Mem, Inv r m → m'.size = m.size → (∀ p : Ptr, T r p.buf → m'.val p = m.val p) → Inv r m'
  sc : ∀ r < P, Outer.Sched (M r).c.x.fft x0
  l2 : ∀ r < P, (M r).c.x.fft.loop2 = l2
  Ny : ∀ r < P, (M r).c.ffty.N = Ny
  ob : ∀ r < P, ∀ k, OB A B M T r k → (M r).Bufs k

variable {l2 : Bool} {Ny : ℕ}

theorem Obj.inputs (h : Obj P X Y optA alltoall M x0 pdx L N A B res ix Φ T Inv Dm l2 Ny) {f : ℕ → PtrArr} {off : ℕ → ℕ}
    (hi : ∀ r < P, (M r).Inputs (g r) (f r) (off r)) : DInputs P M A B T g f off := by
  refine ⟨fun r hr => ?_, fun r hr a ha => ?_, fun r hr => ?_, fun r hr a ha => ?_⟩
  · have := (hi r hr).n; rwa [h.d.A r hr] at this
  · exact (hi r hr).bf a (by rw [h.d.A r hr]; exact ha)
  · have := (hi r hr).apart; rwa [h.d.A r hr] at this
  · exact fun hb => (hi r hr).buf a (by rw [h.d.A r hr]; exact ha) (h.ob r hr _ hb)

theorem Obj.call_ok (h : Obj P X Y optA alltoall M x0 pdx L N A B res ix Φ T Inv Dm l2 Ny) {s : ℕ → ℕ → Sch} (hs : ∀ r < P, (M r).LegalS (s r))
    {f : ℕ → PtrArr} {off : ℕ → ℕ} (hr : DReady P X Y M A B pdx T Inv g) (hi : ∀ r < P, (M r).Inputs (g r) (f r) (off r))
    {D : ℕ → ℕ → ℕ → ℂ} (hD : ∀ a < A, Holds P Y L g f off D a) :
    NOk e P (fun r => (M r).convolve (s r) (f r) (off r)) g fun g' =>
      DReady P X Y M A B pdx T Inv g' ∧
      (∀ r < P, (g r).Upd (g' r) fun p => (M r).Bufs p.buf ∨ ∃ b < B, (M r).c.x.fft.Data ((f r).at_ b + off r) p) ∧
      (GoodD Dm L N x0 D → ∀ r < P, ∀ b < B, ∀ j < L, ∀ c < part Y P r, (g' r).val ((f r).at_ b + off r + (part Y P r * j + c)) =
        valD L N x0 Φ D b j (first Y P r + c) * (1 / ((N : ℂ) * (Ny : ℂ)))) := by
  refine (h.d.convolve_ok (h.sub s hs) h.sc h.l2 h.Ny hr (h.inputs hi) hD).mono ?_
  rintro g' ⟨r1, u1, e1⟩
  refine ⟨r1, fun r hr => (u1 r hr).mono ?_, e1⟩
  rintro p (hp | hp)
  · exact Or.inl (h.ob r hr _ hp)
  · exact Or.inr hp

/-- Histories. -/
theorem Obj.history_ok (h : Obj P X Y optA alltoall M x0 pdx L N A B res ix Φ T Inv Dm l2 Ny) (steps : List Conv2MPI.Step) {g : ℕ → Mem}
    (hr : DReady P X Y M A B pdx T Inv g) (hst : ∀ s ∈ steps, Conv2MPI.Allowed P M g s) :
    NOk e P (fun r => Conv2MPI.stepsProg M r steps) g fun g' => DReady P X Y M A B pdx T Inv g' ∧ ∀ r < P, (g' r).size = (g r).size := by
  induction steps generalizing g with
  | nil => exact NOk.ret ⟨hr, fun _ _ => rfl⟩
  | cons s l ih =>
    refine NOk.bind (Q1 := fun g' => DReady P X Y M A B pdx T Inv g' ∧ ∀ r < P, (g' r).size = (g r).size) ?_ ?_
    · have ha := hst s (by simp)
      cases s with
      | write q p v =>
        obtain ⟨hq, hv, hb⟩ := ha
        refine NOk.cmd (R := fun r m' => m'.size = (g r).size ∧ ∀ p' : Ptr, (M r).Bufs p'.buf → m'.val p' = (g r).val p') ?_ ?_
        · intro r hrP
          by_cases hrq : r = q
          · subst hrq
            rw [if_pos rfl]
            refine run_map1 (body := store p v) p v ?_ ?_ ?_
            · body_simp
              exact hv
            · body_simp
            intro m2 u2 e2
            refine ⟨u2.size, u2.size, ?_⟩
            intro p' hp'
            refine u2.frame _ ?_
            rintro rfl
            exact hb hp'
          · rw [if_neg hrq]
            exact Cmd.Ok.pure ⟨rfl, rfl, fun _ _ => rfl⟩
        · intro g' hg'
          exact ⟨hr.bufs h.d h.inv (fun r hrP => (hg' r hrP).1) fun r hrP p' hp' => (hg' r hrP).2 p' (h.ob r hrP _ hp'),
            fun r hrP => (hg' r hrP).1⟩
      | call s f off =>
        obtain ⟨D, hD⟩ := holds_exists (Y := Y) (L := L) h.d.P_pos g f off
        refine (h.call_ok (fun r hrP => (ha r hrP).1) hr (fun r hrP => (ha r hrP).2) fun a _ => hD a).mono ?_
        rintro g' ⟨r1, u1, _⟩
        exact ⟨r1, fun r hrP => (u1 r hrP).size⟩
    · rintro g' ⟨r1, s1⟩
      refine (ih r1 fun st hstm => ?_).mono ?_
      · have := hst st (by simp [hstm])
        cases st with
        | write q p v => exact ⟨this.1, Mem.valid_of_size (s1 q this.1) this.2.1, this.2.2⟩
        | call s f off => exact fun r hrP => ⟨(this r hrP).1, (this r hrP).2.size (s1 r hrP)⟩
      · rintro g2 ⟨r2, s2⟩
        exact ⟨r2, fun r hrP => by rw [s2 r hrP, s1 r hrP]⟩

end DConv

/-- How the transforms of the processes and the inner convolution fit together. -/
structure DFits (P X optA : ℕ) (fx : ℕ → FftBase) (ffty : FftBase) (mult : Multiplier) (x0 : ℤ) (pdx : ℕ → Mem → Ptr → Prop) (L N A B : ℕ)
    (res : List ℕ) (ix : ℕ → ℕ → ℕ) (l2 : Bool) (Ψ : List ℕ → ℕ → (ℕ → ℕ → ℂ) → ℕ → ℂ) (κ : ℕ → ℕ) (Dm : (ℕ → ℕ → ℂ) → Prop) (Rd : Conv → Mem → Prop)
    (BufY : Mem → Alloc → Prop) : Prop where
  P_pos : 0 < P
  X_pos : 0 < X
  oA : 1 ≤ optA
  y_pos : ∀ r < P, 0 < part ffty.L P r
  lX : ∀ r < P, (fx r).l = X
  nout : ∀ r < P, ∀ rx ∈ res, (fx r).noutputs rx = X
  BA : B ≤ A
  sp : ∀ r < P, (fx r).Spec x0 (pdx r)
  fL : ∀ r < P, (fx r).L = L
  fN : ∀ r < P, (fx r).N = N
  fA : ∀ r < P, (fx r).A = A
  fB : ∀ r < P, (fx r).B = B
  fres : ∀ r < P, (fx r).residues = res
  fix : ∀ r < P, (fx r).index = ix
  fC : ∀ r < P, (fx r).C = part ffty.L P r
  fS : ∀ r < P, (fx r).S = part ffty.L P r
  fcol : ∀ r < P, ∀ c, (fx r).col c = c
  fow : ∀ r < P, (fx r).overwrite = false
  sch : ∀ r < P, Outer.Sched (fx r) x0
  fl2 : ∀ r < P, (fx r).loop2 = l2
  new : ∀ {m : Mem} {al : Alloc}, BufY m al → (Conv.new ffty mult none none none al).Ok m fun c m' => c.fft = ffty ∧ c.mult = mult ∧
    c.F = Conv.newF ffty none al ∧ c.V = Conv.newV ffty none al ∧ c.W = Conv.newW ffty al ∧ Rd c m' ∧ m.Upd m' (fun p => ∃ W, c.W = some W ∧ p.buf = W.buf)
  size : ∀ {m m' : Mem} {al : Alloc}, BufY m al → m'.size = m.size → BufY m' al
  inn : ∀ c : Conv, c.fft = ffty → c.mult = mult → Inner A B ffty.L ffty.L (fun j => j) c.convolveRawOffset Ψ c.Bufs (Rd c) Dm
  ind : ∀ rx ∈ res, ∀ r < P, ∀ i < part X P r, Ψ [ix rx i] = Ψ [κ (ix rx (first X P r + i))]
  cong : ∀ idx b X' Y', (∀ a < A, ∀ c < ffty.L, X' a c = Y' a c) → ∀ c < ffty.L, Ψ idx b X' c = Ψ idx b Y' c
  dom : ∀ X' Y', (∀ a < A, ∀ c < ffty.L, X' a c = Y' a c) → Dm X' → Dm Y'

/-- The work arrays: those of the base classes have the documented sizes and are distinct; the arrays `F[a]`, given to the constructor
(mpi/mpiconvolve.h:80-88, `AllocateF`), have room for the transpose in place; so have the work arrays `wrk a` of the transposes, which are
separate. -/
structure DBuffers (P X : ℕ) (fx : ℕ → FftBase) (ffty : FftBase) (BufY : Mem → Alloc → Prop) (th : ℕ → ℕ) (mem : ℕ → Mem) (Fu : ℕ → PtrArr)
    (Vu : ℕ → Option Ptr) (al : ℕ → Alloc2) (wrk : ℕ → ℕ → Ptr) : Prop where
  buf : ∀ r < P, Conv2.GBuffers (fx r) ffty BufY (th r) (mem r) (some (Fu r)) (Vu r) (al r)
  F0 : ∀ r < P, ∀ a < max (fx r).A (fx r).B, 0 ≤ ((Fu r).at_ a).off ∧
    ((Fu r).at_ a).off + (max (X * part ffty.L P r) (part X P r * ffty.L) : ℕ) ≤ (mem r).size ((Fu r).at_ a).buf
  wk : ∀ r < P, ∀ a < max (fx r).A (fx r).B, 0 ≤ (wrk r a).off ∧ (wrk r a).off + (part X P r * ffty.L : ℕ) ≤ (mem r).size (wrk r a).buf
  sep : ∀ r < P, ∀ a < max (fx r).A (fx r).B, ¬ Conv2.NewBufs (fx r) ffty (th r) (some (Fu r)) (Vu r) (al r) (wrk r a).buf

namespace DFits

variable {P X optA alltoall : ℕ} {fx : ℕ → FftBase} {ffty : FftBase} {mult : Multiplier} {x0 : ℤ} {pdx : ℕ → Mem → Ptr → Prop} {L N A B : ℕ}
  {res : List ℕ} {ix : ℕ → ℕ → ℕ} {l2 : Bool} {Ψ : List ℕ → ℕ → (ℕ → ℕ → ℂ) → ℕ → ℂ} {κ : ℕ → ℕ} {Dm : (ℕ → ℕ → ℂ) → Prop} {Rd : Conv → Mem → Prop}
  {BufY : Mem → Alloc → Prop} {th : ℕ → ℕ} {mem : ℕ → Mem} {Fu : ℕ → PtrArr} {Vu : ℕ → Option Ptr} {al : ℕ → Alloc2} {wrk : ℕ → ℕ → Ptr}

/-- The work arrays of the inner convolutions. -/
def Tb (c : ℕ → Conv2) (r k : ℕ) : Prop := ∃ t < (c r).threads, ((c r).convy t).Bufs k

/-- Their state. -/
def Ib (Rd : Conv → Mem → Prop) (c : ℕ → Conv2) (r : ℕ) (m : Mem) : Prop := ∀ t < (c r).threads, Rd ((c r).convy t) m

theorem new_ok (h : DFits P X optA fx ffty mult x0 pdx L N A B res ix l2 Ψ κ Dm Rd BufY) (hb : DBuffers P X fx ffty BufY th mem Fu Vu al wrk) :
    ∃ (c : ℕ → Conv2) (mem1 : ℕ → Mem), (∀ r < P, Conv2.new (fx r) ffty mult (th r) (some (Fu r)) none (Vu r) (al r) (mem r) = .ok (c r, mem1 r)) ∧
      (∀ r < P, (mem r).Upd (mem1 r) fun p => Conv2.NewBufs (fx r) ffty (th r) (some (Fu r)) (Vu r) (al r) p.buf) ∧
      (∀ r < P, (c r).x.fft = fx r ∧ (c r).ffty = ffty ∧ (c r).threads = Conv2.newThreads (fx r) (th r) ∧
        ∀ k, (c r).Bufs k → Conv2.NewBufs (fx r) ffty (th r) (some (Fu r)) (Vu r) (al r) k) ∧
      DConv.Obj P X ffty.L optA alltoall (fun r => Conv2MPI.new (c r) 1 P r optA alltoall (wrk r)) x0 pdx L N A B res ix (fun e' b X' k => Ψ [κ e'] b X' k)
        (Tb c) (Ib Rd c) Dm l2 ffty.N ∧
      DConv.DReady P X ffty.L (fun r => Conv2MPI.new (c r) 1 P r optA alltoall (wrk r)) A B pdx (Tb c) (Ib Rd c) mem1 := by
  have hex : ∀ r : ℕ, ∃ x : Conv2 × Mem, r < P → Conv2.new (fx r) ffty mult (th r) (some (Fu r)) none (Vu r) (al r) (mem r) = .ok x ∧
      Conv2.Parts (fx r) ffty mult (th r) (some (Fu r)) (Vu r) (al r) (pdx r) Rd x.1 x.2 ∧
      (mem r).Upd x.2 (fun p => Conv2.NewBufs (fx r) ffty (th r) (some (Fu r)) (Vu r) (al r) p.buf) := by
    intro r
    by_cases hr : r < P
    · obtain ⟨c, m1, e1, p1, u1⟩ := Conv2.newParts_ok (h.sp r hr) (h.sch r hr) h.new h.size (fun c h1 h2 {_ _} => (h.inn c h1 h2).inv) (hb.buf r hr)
      exact ⟨(c, m1), fun _ => ⟨e1, p1, u1⟩⟩
    · obtain ⟨c, m1, _⟩ := Conv2.newParts_ok (h.sp 0 h.P_pos) (h.sch 0 h.P_pos) h.new h.size (fun c h1 h2 {_ _} => (h.inn c h1 h2).inv) (hb.buf 0 h.P_pos)
      exact ⟨(c, m1), fun h => absurd h hr⟩
  choose x hx using hex
  refine ⟨fun r => (x r).1, fun r => (x r).2, fun r hr => (hx r hr).1, fun r hr => (hx r hr).2.2, fun r hr => ?_, ?_, ?_⟩
  · have p := (hx r hr).2.1
    exact ⟨p.fx, p.fy, p.thr, p.bufs⟩
  · have hd : DConv P X ffty.L optA alltoall (fun r => Conv2MPI.new (x r).1 1 P r optA alltoall (wrk r)) x0 pdx L N A B res ix := by
      have hf : ∀ r < P, (Conv2MPI.new (x r).1 1 P r optA alltoall (wrk r)).c.x.fft = fx r := fun r hr => (hx r hr).2.1.fx
      have hy : ∀ r < P, (x r).1.ffty = ffty := fun r hr => (hx r hr).2.1.fy
      refine ⟨h.P_pos, h.X_pos, h.oA, h.y_pos, fun r hr => ?_, h.BA, fun r hr => ?_, fun r hr => ?_, fun r hr => ?_, fun r hr => ?_, fun r hr => ?_,
        fun r hr => ?_, fun r hr => ?_, fun r hr => ?_, fun r hr => ?_, fun r hr => ?_, fun r hr => ?_, fun r hr => ?_, fun r hr => ?_, fun r hr => ?_, fun r hr => ?_⟩
      · beta_reduce; rw [hf r hr]; exact h.nout r hr
      · beta_reduce; rw [hf r hr]; exact h.sp r hr
      · beta_reduce; rw [hf r hr]; exact h.fL r hr
      · beta_reduce; rw [hf r hr]; exact h.fN r hr
      · beta_reduce; rw [hf r hr]; exact h.fA r hr
      · beta_reduce; rw [hf r hr]; exact h.fB r hr
      · beta_reduce; rw [hf r hr]; exact h.fres r hr
      · beta_reduce; rw [hf r hr]; exact h.fix r hr
      · beta_reduce; rw [hf r hr]; exact h.fC r hr
      · beta_reduce; rw [hf r hr]; exact h.fS r hr
      · beta_reduce; rw [hf r hr]; exact h.fcol r hr
      · beta_reduce; rw [hf r hr]; exact h.fow r hr
      · show (x r).1.ffty.L = _; rw [hy r hr]
      · show part (x r).1.ffty.L P r = _; rw [hy r hr]
      · show (if (x r).1.x.fft.overwrite = true then _ else 0) = 0
        rw [if_neg]
        rw [show (x r).1.x.fft = fx r from hf r hr, h.fow r hr]; simp
      · show (if part (x r).1.ffty.L P r < (x r).1.ffty.L then some (MT.mk' ((x r).1.x.fft.l * 1) (x r).1.ffty.L 1 P r optA alltoall) else none) = _
        rw [hy r hr, show (x r).1.x.fft = fx r from hf r hr, h.lX r hr, Nat.mul_one]
    have hxr : ∀ r < P, (Conv2MPI.new (x r).1 1 P r optA alltoall (wrk r)).x = part X P r := by
      intro r hr
      show part ((x r).1.x.fft.l * 1) P r = _
      rw [(hx r hr).2.1.fx, h.lX r hr, Nat.mul_one]
    refine ⟨hd, ?_, ?_, ?_, ?_, ?_, ?_⟩
    · intro s hs
      refine DConv.SubSpec.of_inner (Tt := fun r t => ((x r).1.convy t).Bufs) (It := fun r t => Rd ((x r).1.convy t)) (Ψ := Ψ) h.BA
        (fun r hr => ?_) ?_ hd.ix h.ind h.cong h.dom ?_ ?_
      · show (x r).1.ffty.L = _; rw [(hx r hr).2.1.fy]
      · intro r hr t ht
        have := (hx r hr).2.1.cy t ht
        exact h.inn _ this.1 this.2
      · intro r hr
        exact (hx r hr).2.1.sepT
      · intro r hr rx hrx
        have := hs r hr rx (by rw [hd.res r hr]; exact hrx)
        beta_reduce at this
        rwa [hxr r hr] at this
    · intro r hr m m' hI hsz hv t ht
      have := (hx r hr).2.1.cy t ht
      exact (h.inn _ this.1 this.2).inv (hI t ht) hsz fun p hp => hv p ⟨t, ht, hp⟩
    · intro r hr
      show Outer.Sched (x r).1.x.fft x0
      rw [(hx r hr).2.1.fx]; exact h.sch r hr
    · intro r hr
      show (x r).1.x.fft.loop2 = l2
      rw [(hx r hr).2.1.fx]; exact h.fl2 r hr
    · intro r hr
      show (x r).1.ffty.N = _
      rw [(hx r hr).2.1.fy]
    · intro r hr k hk
      have hA : (x r).1.x.fft.A = A := by rw [(hx r hr).2.1.fx]; exact h.fA r hr
      have hB : (x r).1.x.fft.B = B := by rw [(hx r hr).2.1.fx]; exact h.fB r hr
      have hAB : max (x r).1.x.fft.A (x r).1.x.fft.B = max A B := by rw [hA, hB]
      show (x r).1.Bufs k ∨ ∃ a < max (x r).1.x.fft.A (x r).1.x.fft.B, k = (wrk r a).buf
      rcases hk with (hk | ⟨a, ha, hk | hk⟩ | ⟨W, hW, hk⟩) | ⟨hV, b, hb', hk⟩
      · exact Or.inl (Or.inr hk)
      · exact Or.inl (Or.inl (Or.inl ⟨a, by rw [hAB]; exact ha, hk⟩))
      · exact Or.inr ⟨a, by rw [hAB]; exact ha, hk⟩
      · exact Or.inl (Or.inl (Or.inr (Or.inl ⟨W, hW, hk⟩)))
      · exact Or.inl (Or.inl (Or.inr (Or.inr ⟨hV, b, by rw [hB]; exact hb', hk⟩)))
  · have hAB : ∀ r < P, max (fx r).A (fx r).B = max A B := fun r hr => by rw [h.fA r hr, h.fB r hr]
    have hxx : ∀ r < P, (x r).1.x.Bufs = _ := fun r hr => rfl
    have hF : ∀ r < P, (x r).1.x.F = Fu r := fun r hr => (hx r hr).2.1.F
    have hsz : ∀ r < P, (x r).2.size = (mem r).size := fun r hr => (hx r hr).2.2.size
    have hABx : ∀ r < P, max (x r).1.x.fft.A (x r).1.x.fft.B = max A B := fun r hr => by rw [(hx r hr).2.1.fx]; exact hAB r hr
    have hFb : ∀ r < P, ∀ a < max A B, (x r).1.x.Bufs (((x r).1.x.F).at_ a).buf := fun r hr a ha =>
      Or.inl ⟨a, by rw [hABx r hr]; exact ha, rfl⟩
    have hwk : ∀ r < P, ∀ a < max A B, ¬ (x r).1.Bufs (wrk r a).buf := fun r hr a ha hk =>
      hb.sep r hr a (by rw [hAB r hr]; exact ha) ((hx r hr).2.1.bufs _ hk)
    have hsX : ∀ r < P, ∀ k, (x r).1.x.Bufs k → ¬ Tb (fun r => (x r).1) r k := by
      rintro r hr k hk ⟨t, ht, hT⟩
      exact (hx r hr).2.1.sepX t ht k hk hT
    refine ⟨⟨fun r hr => ?_, fun a ha => ⟨fun r hr => ?_, fun r hr => ?_, fun r hr => ?_, fun r hr => ?_, fun r hr => ?_⟩, fun r hr a ha a' ha' => ?_,
      fun r hr a ha W hW => ?_⟩, ⟨fun r hr a ha => ?_, fun r hr a ha => ?_, fun r hr W hW => ?_⟩, fun r hr => ?_, fun r hr hV b hb' => ?_, fun r hr => ?_⟩
    · have := (hx r hr).2.1.rd.1.work
      rwa [hABx r hr] at this
    · show 0 ≤ (((x r).1.x.F).at_ a).off
      rw [hF r hr]; exact (hb.F0 r hr a (by rw [hAB r hr]; exact ha)).1
    · show (((x r).1.x.F).at_ a).off + (room2 X ffty.L P r : ℕ) ≤ (x r).2.size (((x r).1.x.F).at_ a).buf
      rw [hF r hr, hsz r hr]; exact (hb.F0 r hr a (by rw [hAB r hr]; exact ha)).2
    · exact (hb.wk r hr a (by rw [hAB r hr]; exact ha)).1
    · beta_reduce
      rw [hsz r hr]; exact (hb.wk r hr a (by rw [hAB r hr]; exact ha)).2
    · intro e1
      refine hwk r hr a ha ?_
      rw [← show _ = (wrk r a).buf from e1]
      exact Or.inl (hFb r hr a ha)
    · intro e1
      refine hwk r hr a ha ?_
      rw [show (wrk r a).buf = _ from e1]
      exact Or.inl (hFb r hr a' ha')
    · intro e1
      refine hwk r hr a ha ?_
      rw [show (wrk r a).buf = _ from e1]
      exact Or.inl (Or.inr (Or.inl ⟨W, hW, rfl⟩))
    · exact hsX r hr _ (hFb r hr a ha)
    · intro hT
      exact hwk r hr a ha (Or.inr hT)
    · exact hsX r hr _ (Or.inr (Or.inl ⟨W, hW, rfl⟩))
    · exact (hx r hr).2.1.rd.1
    · have hB : (x r).1.x.fft.B = B := by rw [(hx r hr).2.1.fx]; exact h.fB r hr
      have hbb : (x r).1.x.Bufs (((x r).1.x.V).at_ b).buf := Or.inr (Or.inr ⟨hV, b, by rw [hB]; exact hb', rfl⟩)
      obtain ⟨hdV, _⟩ := (hx r hr).2.1.rd.1.V hV
      rintro (hT | ⟨a, ha, hk | hk⟩ | ⟨W, hW, hk⟩)
      · exact hsX r hr _ hbb hT
      · exact hdV.fF b (by rw [hB]; exact hb') a (by rw [hABx r hr]; exact ha) hk
      · refine hwk r hr a ha ?_
        rw [← show _ = (wrk r a).buf from hk]
        exact Or.inl hbb
      · exact hdV.fW b (by rw [hB]; exact hb') W hW hk.symm
    · exact (hx r hr).2.1.rd.2

end DFits
end Fftwpp
