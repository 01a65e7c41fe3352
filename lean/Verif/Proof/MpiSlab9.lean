import Verif.Proof.MpiSlab8

/-!
# Construction and histories of the distributed three-dimensional convolution
-/

namespace Fftwpp
open Finset Net

/-- How the transforms of the processes and the inner convolution fit together.  `ffty` and `fftz` are those of the inner `Convolution2`; a process holds
`part ffty.L P r` planes of `ffty.C` words. -/
structure DFits3 (P X optA : ℕ) (fx : ℕ → FftBase) (ffty fftz : FftBase) (mult : Multiplier) (x0 y0 : ℤ) (pdx : ℕ → Mem → Ptr → Prop) (pdy : Mem → Ptr → Prop)
    (L N A B : ℕ) (res : List ℕ) (ix : ℕ → ℕ → ℕ) (l2 : Bool) (Ψ : List ℕ → ℕ → (ℕ → ℕ → ℂ) → ℕ → ℂ) (κ : ℕ → ℕ) (Dm : (ℕ → ℕ → ℂ) → Prop)
    (Rd : Conv → Mem → Prop) (BufY : Mem → Alloc → Prop) : Prop where
  P_pos : 0 < P
  X_pos : 0 < X
  oA : 1 ≤ optA
  y_pos : ∀ r < P, 0 < part ffty.L P r
  lX : ∀ r < P, (fx r).l = X
  nout : ∀ r < P, ∀ rx ∈ res, (fx r).noutputs rx = X
  BA : B ≤ A
  sp : ∀ r < P, (fx r).Spec x0 (pdx r)
  fL : ∀ r < P, (fx r).L = L
  fN : ∀ r < P, (fx r).N = N
  fA : ∀ r < P, (fx r).A = A
  fB : ∀ r < P, (fx r).B = B
  fres : ∀ r < P, (fx r).residues = res
  fix : ∀ r < P, (fx r).index = ix
  fC : ∀ r < P, (fx r).C = part ffty.L P r * ffty.C
  fS : ∀ r < P, (fx r).S = part ffty.L P r * ffty.C
  fcol : ∀ r < P, ∀ c, (fx r).col c = c
  fow : ∀ r < P, (fx r).overwrite = false
  sch : ∀ r < P, Outer.Sched (fx r) x0
  fl2 : ∀ r < P, (fx r).loop2 = l2
  yz : Conv2.GFits ffty fftz mult y0 pdy Ψ Dm Rd BufY
  yS : ffty.S = ffty.C
  yA : ffty.A = A
  yB : ffty.B = B
  ind : ∀ rx ∈ res, ∀ r < P, ∀ i < part X P r, ffty.valG y0 Ψ [ix rx i] = ffty.valG y0 Ψ [κ (ix rx (first X P r + i))]

/-- The work arrays: those of the base classes have the documented sizes and are distinct; the arrays `F[a]`, given to the constructor
(mpi/mpiconvolve.h:215-224, `AllocateF`), have room for the transpose in place; so have the work arrays `wrk a` of the transposes, which are
separate. -/
structure DBuffers3 (P X : ℕ) (fx : ℕ → FftBase) (ffty fftz : FftBase) (BufY : Mem → Alloc → Prop) (th thy : ℕ → ℕ) (mem : ℕ → Mem) (Fu : ℕ → PtrArr)
    (Vu : ℕ → Option Ptr) (al : ℕ → Alloc3) (wrk : ℕ → ℕ → Ptr) : Prop where
  buf : ∀ r < P, Conv3MPI.BBuffers (fx r) ffty fftz BufY (th r) (thy r) (mem r) (some (Fu r)) (Vu r) (al r)
  F0 : ∀ r < P, ∀ a < max (fx r).A (fx r).B, 0 ≤ ((Fu r).at_ a).off ∧
    ((Fu r).at_ a).off + (max (X * (part ffty.L P r * ffty.C)) (part X P r * (ffty.L * ffty.C)) : ℕ) ≤ (mem r).size ((Fu r).at_ a).buf
  wk : ∀ r < P, ∀ a < max (fx r).A (fx r).B, 0 ≤ (wrk r a).off ∧ (wrk r a).off + (part X P r * (ffty.L * ffty.C) : ℕ) ≤ (mem r).size (wrk r a).buf
  sep : ∀ r < P, ∀ a < max (fx r).A (fx r).B, ¬ Conv3MPI.NewBufs (fx r) ffty fftz (th r) (thy r) (some (Fu r)) (Vu r) (al r) (wrk r a).buf

namespace DFits3

variable {P X optA alltoall : ℕ} {fx : ℕ → FftBase} {ffty fftz : FftBase} {mult : Multiplier} {x0 y0 : ℤ} {pdx : ℕ → Mem → Ptr → Prop} {pdy : Mem → Ptr → Prop}
  {L N A B : ℕ} {res : List ℕ} {ix : ℕ → ℕ → ℕ} {l2 : Bool} {Ψ : List ℕ → ℕ → (ℕ → ℕ → ℂ) → ℕ → ℂ} {κ : ℕ → ℕ} {Dm : (ℕ → ℕ → ℂ) → Prop} {Rd : Conv → Mem → Prop}
  {BufY : Mem → Alloc → Prop} {th thy : ℕ → ℕ} {mem : ℕ → Mem} {Fu : ℕ → PtrArr} {Vu : ℕ → Option Ptr} {al : ℕ → Alloc3} {wrk : ℕ → ℕ → Ptr}

/-- The work arrays of the inner convolutions. -/
def Tb (c : ℕ → Conv3) (r k : ℕ) : Prop := ∃ t < (c r).threads, ((c r).convyz t).Bufs k

/-- Their state. -/
def Ib (pdy : Mem → Ptr → Prop) (Rd : Conv → Mem → Prop) (c : ℕ → Conv3) (r : ℕ) (m : Mem) : Prop := ∀ t < (c r).threads, ((c r).convyz t).ReadyG pdy Rd m

/-- The dependence of the results on the inputs. -/
theorem yz_cong (h : DFits3 P X optA fx ffty fftz mult x0 y0 pdx pdy L N A B res ix l2 Ψ κ Dm Rd BufY)
    {X Y : ℕ → ℕ → ℂ} (hXY : ∀ a < A, ∀ c < ffty.L * ffty.C, X a c = Y a c) :
    (∀ idx b k, ffty.valG y0 Ψ idx b X k = ffty.valG y0 Ψ idx b Y k) ∧ (ffty.domG y0 Dm X → ffty.domG y0 Dm Y) := by
  have key : ∀ e : ℕ, ∀ a < ffty.A, ∀ c < ffty.C, ffty.dft y0 (fun j => X a (ffty.C * j + c)) e = ffty.dft y0 (fun j => Y a (ffty.C * j + c)) e := by
    intro e a ha c hc
    unfold FftBase.dft
    refine sum_congr rfl fun j hj => ?_
    simp only
    rw [hXY a (by rw [← h.yA]; exact ha) _ (by rw [Nat.mul_comm ffty.L]; exact radix_lt hc (mem_range.1 hj))]
  constructor
  · intro idx b k
    unfold FftBase.valG
    refine sum_congr rfl fun e _ => ?_
    congr 1
    exact h.yz.cong _ _ _ _ (key e) _ (Nat.mod_lt _ h.yz.spx.C_pos)
  · intro hX e
    exact h.yz.dom _ _ (key e) (hX e)

theorem inner (h : DFits3 P X optA fx ffty fftz mult x0 y0 pdx pdy L N A B res ix l2 Ψ κ Dm Rd BufY) {c : Conv2} (hf : c.x.fft = ffty)
    (hg : c.Gen y0 pdy Ψ Dm Rd) {s2 : ℕ → Sch} (hs2 : c.LegalS s2) :
    Inner A B (ffty.L * ffty.C) (ffty.L * ffty.C) (fun j => j) (c.convolveRaw s2) (ffty.valG y0 Ψ) c.Bufs (c.ReadyG pdy Rd) (ffty.domG y0 Dm) := by
  have := hg.inner hs2
  rw [hf, h.yA, h.yB, h.yS] at this
  simp only [Nat.div_add_mod] at this
  rw [Nat.mul_comm ffty.C] at this
  exact this

theorem new_ok (h : DFits3 P X optA fx ffty fftz mult x0 y0 pdx pdy L N A B res ix l2 Ψ κ Dm Rd BufY) (hb : DBuffers3 P X fx ffty fftz BufY th thy mem Fu Vu al wrk) :
    ∃ (c : ℕ → Conv3) (mem1 : ℕ → Mem), (∀ r < P, Conv3MPI.newBase (fx r) ffty fftz mult (th r) (thy r) (some (Fu r)) none (Vu r) (al r) (mem r) = .ok (c r, mem1 r)) ∧
      (∀ r < P, (mem r).Upd (mem1 r) fun p => Conv3MPI.NewBufs (fx r) ffty fftz (th r) (thy r) (some (Fu r)) (Vu r) (al r) p.buf) ∧
      (∀ r < P, (c r).x.fft = fx r ∧ (c r).ffty = ffty ∧ (c r).fftz = fftz ∧ (c r).threads = Conv2.newThreads (fx r) (th r) ∧
        (∀ t < (c r).threads, ((c r).convyz t).x.fft = ffty ∧ ((c r).convyz t).threads = Conv2.newThreads ffty (Conv3.newThreadsY (fx r) (th r) (thy r))) ∧
        ∀ k, (c r).Bufs k → Conv3MPI.NewBufs (fx r) ffty fftz (th r) (thy r) (some (Fu r)) (Vu r) (al r) k) ∧
      DConv3.Obj P X (ffty.L * ffty.C) ffty.L ffty.C optA alltoall (fun r => Conv3MPI.new (c r) 1 P r optA alltoall (wrk r)) x0 pdx L N A B res ix (fun e' b X' k => ffty.valG y0 Ψ [κ e'] b X' k)
        (Tb c) (Ib pdy Rd c) (ffty.domG y0 Dm) l2 ffty.N fftz.N ∧
      DConv3.DReady P X (ffty.L * ffty.C) ffty.L ffty.C (fun r => Conv3MPI.new (c r) 1 P r optA alltoall (wrk r)) A B pdx (Tb c) (Ib pdy Rd c) mem1 := by
  have hex : ∀ r : ℕ, ∃ x : Conv3 × Mem, r < P → Conv3MPI.newBase (fx r) ffty fftz mult (th r) (thy r) (some (Fu r)) none (Vu r) (al r) (mem r) = .ok x ∧
      Conv3MPI.Parts (fx r) ffty fftz (th r) (thy r) (some (Fu r)) (Vu r) (al r) y0 (pdx r) pdy Ψ Dm Rd x.1 x.2 ∧
      (mem r).Upd x.2 (fun p => Conv3MPI.NewBufs (fx r) ffty fftz (th r) (thy r) (some (Fu r)) (Vu r) (al r) p.buf) := by
    intro r
    by_cases hr : r < P
    · obtain ⟨c, m1, e1, p1, u1⟩ := Conv3MPI.newParts_ok (h.sp r hr) (h.sch r hr) h.yz (hb.buf r hr)
      exact ⟨(c, m1), fun _ => ⟨e1, p1, u1⟩⟩
    · obtain ⟨c, m1, _⟩ := Conv3MPI.newParts_ok (h.sp 0 h.P_pos) (h.sch 0 h.P_pos) h.yz (hb.buf 0 h.P_pos)
      exact ⟨(c, m1), fun h => absurd h hr⟩
  choose x hx using hex
  refine ⟨fun r => (x r).1, fun r => (x r).2, fun r hr => (hx r hr).1, fun r hr => (hx r hr).2.2, fun r hr => ?_, ?_, ?_⟩
  · have p := (hx r hr).2.1
    exact ⟨p.fx, p.fy, p.fz, p.thr, fun t ht => ⟨(p.cyz t ht).1, (p.cyz t ht).2.2.1⟩, p.bufs⟩
  · have hd : DConv3 P X (ffty.L * ffty.C) ffty.L ffty.C optA alltoall (fun r => Conv3MPI.new (x r).1 1 P r optA alltoall (wrk r)) x0 pdx L N A B res ix := by
      have hf : ∀ r < P, (Conv3MPI.new (x r).1 1 P r optA alltoall (wrk r)).c.x.fft = fx r := fun r hr => (hx r hr).2.1.fx
      have hy : ∀ r < P, (x r).1.ffty = ffty := fun r hr => (hx r hr).2.1.fy
      have hz : ∀ r < P, (x r).1.fftz.L = ffty.C := fun r hr => by rw [(hx r hr).2.1.fz]; exact h.yz.C
      have hCz := h.yz.spx.C_pos
      refine ⟨h.P_pos, h.X_pos, h.oA, rfl, fun r hr => Nat.mul_pos (h.y_pos r hr) hCz, fun r hr => ?_, h.BA, fun r hr => ?_, fun r hr => ?_, fun r hr => ?_, fun r hr => ?_, fun r hr => ?_,
        fun r hr => ?_, fun r hr => ?_, fun r hr => ?_, fun r hr => ?_, fun r hr => ?_, fun r hr => ?_, fun r hr => ?_, fun r hr => ?_, fun r hr => ?_, fun r hr => ?_, fun r hr => ?_, fun r hr => ?_⟩
      · beta_reduce; rw [hf r hr]; exact h.nout r hr
      · beta_reduce; rw [hf r hr]; exact h.sp r hr
      · beta_reduce; rw [hf r hr]; exact h.fL r hr
      · beta_reduce; rw [hf r hr]; exact h.fN r hr
      · beta_reduce; rw [hf r hr]; exact h.fA r hr
      · beta_reduce; rw [hf r hr]; exact h.fB r hr
      · beta_reduce; rw [hf r hr]; exact h.fres r hr
      · beta_reduce; rw [hf r hr]; exact h.fix r hr
      · beta_reduce; rw [hf r hr]; exact h.fC r hr
      · beta_reduce; rw [hf r hr]; exact h.fS r hr
      · beta_reduce; rw [hf r hr]; exact h.fcol r hr
      · beta_reduce; rw [hf r hr]; exact h.fow r hr
      · show (x r).1.ffty.L * (x r).1.fftz.L = _; rw [hy r hr, hz r hr]
      · show part (x r).1.ffty.L P r * (x r).1.fftz.L = _; rw [hy r hr, hz r hr]; rfl
      · show (x r).1.fftz.L = _; rw [hz r hr]
      · show (x r).1.ffty.S = _; rw [hy r hr, h.yS]
      · show (if (x r).1.x.fft.overwrite = true then _ else 0) = 0
        rw [if_neg]
        rw [show (x r).1.x.fft = fx r from hf r hr, h.fow r hr]; simp
      · show (if part (x r).1.ffty.L P r < (x r).1.ffty.L then some (MT.mk' ((x r).1.x.fft.l * 1) (x r).1.ffty.L (x r).1.fftz.L P r optA alltoall) else none) = _
        rw [hy r hr, hz r hr, show (x r).1.x.fft = fx r from hf r hr, h.lX r hr, Nat.mul_one]
    have hxr : ∀ r < P, (Conv3MPI.new (x r).1 1 P r optA alltoall (wrk r)).x = part X P r := by
      intro r hr
      show part ((x r).1.x.fft.l * 1) P r = _
      rw [(hx r hr).2.1.fx, h.lX r hr, Nat.mul_one]
    refine ⟨hd, ?_, ?_, ?_, ?_, ?_, ?_, ?_⟩
    · intro s hs
      have hsl : ∀ r < P, ∀ rx ∈ res, (s r rx).row.Legal (part X P r) (x r).1.threads ∧
          ∀ i < part X P r, ∀ t < (x r).1.threads, ((x r).1.convyz t).LegalS ((s r rx).inner i) := by
        intro r hr rx hrx
        have := hs r hr rx (by rw [hd.res r hr]; exact hrx)
        beta_reduce at this
        rwa [hxr r hr] at this
      refine DConv3.SubSpec.of_inner (Tt := fun r t => ((x r).1.convyz t).Bufs) (It := fun r t => ((x r).1.convyz t).ReadyG pdy Rd) (Ψ := ffty.valG y0 Ψ) h.BA
        hd.Yv ?_ ?_ hd.ix h.ind (fun idx b X' Y' hXY c _ => (h.yz_cong hXY).1 idx b c) (fun X' Y' hXY => (h.yz_cong hXY).2) ?_
        (fun r hr rx hrx => (hsl r hr rx hrx).1) (fun r hr rx hrx => (hsl r hr rx hrx).2)
      · intro r hr t ht s2 hs2
        have := (hx r hr).2.1.cyz t ht
        exact h.inner this.1 this.2.2.2 hs2
      · intro r hr t ht m m' hI hsz hv
        have := (hx r hr).2.1.cyz t ht
        exact Conv2.ReadyG.bufs this.2.2.2 hI hsz hv
      · intro r hr
        exact (hx r hr).2.1.sepT
    · intro r hr m m' hI hsz hv t ht
      have := (hx r hr).2.1.cyz t ht
      exact Conv2.ReadyG.bufs this.2.2.2 (hI t ht) hsz fun p hp => hv p ⟨t, ht, hp⟩
    · intro r hr
      show Outer.Sched (x r).1.x.fft x0
      rw [(hx r hr).2.1.fx]; exact h.sch r hr
    · intro r hr
      show (x r).1.x.fft.loop2 = l2
      rw [(hx r hr).2.1.fx]; exact h.fl2 r hr
    · intro r hr
      show (x r).1.ffty.N = _
      rw [(hx r hr).2.1.fy]
    · intro r hr
      show (x r).1.fftz.N = _
      rw [(hx r hr).2.1.fz]
    · intro r hr k hk
      have hA : (x r).1.x.fft.A = A := by rw [(hx r hr).2.1.fx]; exact h.fA r hr
      have hB : (x r).1.x.fft.B = B := by rw [(hx r hr).2.1.fx]; exact h.fB r hr
      have hAB : max (x r).1.x.fft.A (x r).1.x.fft.B = max A B := by rw [hA, hB]
      show (x r).1.Bufs k ∨ ∃ a < max (x r).1.x.fft.A (x r).1.x.fft.B, k = (wrk r a).buf
      rcases hk with (hk | ⟨a, ha, hk | hk⟩ | ⟨W, hW, hk⟩) | ⟨hV, b, hb', hk⟩
      · exact Or.inl (Or.inr hk)
      · exact Or.inl (Or.inl (Or.inl ⟨a, by rw [hAB]; exact ha, hk⟩))
      · exact Or.inr ⟨a, by rw [hAB]; exact ha, hk⟩
      · exact Or.inl (Or.inl (Or.inr (Or.inl ⟨W, hW, hk⟩)))
      · exact Or.inl (Or.inl (Or.inr (Or.inr ⟨hV, b, by rw [hB]; exact hb', hk⟩)))
  · have hAB : ∀ r < P, max (fx r).A (fx r).B = max A B := fun r hr => by rw [h.fA r hr, h.fB r hr]
    have hxx : ∀ r < P, (x r).1.x.Bufs = _ := fun r hr => rfl
    have hF : ∀ r < P, (x r).1.x.F = Fu r := fun r hr => (hx r hr).2.1.F
    have hsz : ∀ r < P, (x r).2.size = (mem r).size := fun r hr => (hx r hr).2.2.size
    have hABx : ∀ r < P, max (x r).1.x.fft.A (x r).1.x.fft.B = max A B := fun r hr => by rw [(hx r hr).2.1.fx]; exact hAB r hr
    have hFb : ∀ r < P, ∀ a < max A B, (x r).1.x.Bufs (((x r).1.x.F).at_ a).buf := fun r hr a ha =>
      Or.inl ⟨a, by rw [hABx r hr]; exact ha, rfl⟩
    have hwk : ∀ r < P, ∀ a < max A B, ¬ (x r).1.Bufs (wrk r a).buf := fun r hr a ha hk =>
      hb.sep r hr a (by rw [hAB r hr]; exact ha) ((hx r hr).2.1.bufs _ hk)
    have hsX : ∀ r < P, ∀ k, (x r).1.x.Bufs k → ¬ Tb (fun r => (x r).1) r k := by
      rintro r hr k hk ⟨t, ht, hT⟩
      exact (hx r hr).2.1.sepX t ht k hk hT
    refine ⟨⟨fun r hr => ?_, fun a ha => ⟨fun r hr => ?_, fun r hr => ?_, fun r hr => ?_, fun r hr => ?_, fun r hr => ?_⟩, fun r hr a ha a' ha' => ?_,
      fun r hr a ha W hW => ?_⟩, ⟨fun r hr a ha => ?_, fun r hr a ha => ?_, fun r hr W hW => ?_⟩, fun r hr => ?_, fun r hr hV b hb' => ?_, fun r hr => ?_⟩
    · have := (hx r hr).2.1.rd.1.work
      rwa [hABx r hr] at this
    · show 0 ≤ (((x r).1.x.F).at_ a).off
      rw [hF r hr]; exact (hb.F0 r hr a (by rw [hAB r hr]; exact ha)).1
    · show (((x r).1.x.F).at_ a).off + (room3 X (ffty.L * ffty.C) ffty.L ffty.C P r : ℕ) ≤ (x r).2.size (((x r).1.x.F).at_ a).buf
      rw [hF r hr, hsz r hr]; exact (hb.F0 r hr a (by rw [hAB r hr]; exact ha)).2
    · exact (hb.wk r hr a (by rw [hAB r hr]; exact ha)).1
    · beta_reduce
      rw [hsz r hr]; exact (hb.wk r hr a (by rw [hAB r hr]; exact ha)).2
    · intro e1
      refine hwk r hr a ha ?_
      rw [← show _ = (wrk r a).buf from e1]
      exact Or.inl (hFb r hr a ha)
    · intro e1
      refine hwk r hr a ha ?_
      rw [show (wrk r a).buf = _ from e1]
      exact Or.inl (hFb r hr a' ha')
    · intro e1
      refine hwk r hr a ha ?_
      rw [show (wrk r a).buf = _ from e1]
      exact Or.inl (Or.inr (Or.inl ⟨W, hW, rfl⟩))
    · exact hsX r hr _ (hFb r hr a ha)
    · intro hT
      exact hwk r hr a ha (Or.inr hT)
    · exact hsX r hr _ (Or.inr (Or.inl ⟨W, hW, rfl⟩))
    · exact (hx r hr).2.1.rd.1
    · have hB : (x r).1.x.fft.B = B := by rw [(hx r hr).2.1.fx]; exact h.fB r hr
      have hbb : (x r).1.x.Bufs (((x r).1.x.V).at_ b).buf := Or.inr (Or.inr ⟨hV, b, by rw [hB]; exact hb', rfl⟩)
      obtain ⟨hdV, _⟩ := (hx r hr).2.1.rd.1.V hV
      rintro (hT | ⟨a, ha, hk | hk⟩ | ⟨W, hW, hk⟩)
      · exact hsX r hr _ hbb hT
      · exact hdV.fF b (by rw [hB]; exact hb') a (by rw [hABx r hr]; exact ha) hk
      · refine hwk r hr a ha ?_
        rw [← show _ = (wrk r a).buf from hk]
        exact Or.inl hbb
      · exact hdV.fW b (by rw [hB]; exact hb') W hW hk.symm
    · exact (hx r hr).2.1.rd.2

end DFits3
end Fftwpp
