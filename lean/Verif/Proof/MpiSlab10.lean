import Verif.Proof.MpiSlab9
import Verif.Proof.MpiConv9

/-!
# All runs of the distributed three-dimensional convolution
-/

namespace Fftwpp
open Finset Net

namespace DFits3

variable {P X optA alltoall : ℕ} {fx : ℕ → FftBase} {ffty fftz : FftBase} {mult : Multiplier} {x0 y0 : ℤ} {pdx : ℕ → Mem → Ptr → Prop} {pdy : Mem → Ptr → Prop} {L N A B : ℕ}
  {res : List ℕ} {ix : ℕ → ℕ → ℕ} {l2 : Bool} {Ψ : List ℕ → ℕ → (ℕ → ℕ → ℂ) → ℕ → ℂ} {κ : ℕ → ℕ} {Dm : (ℕ → ℕ → ℂ) → Prop} {Rd : Conv → Mem → Prop}
  {BufY : Mem → Alloc → Prop} {th thy : ℕ → ℕ} {mem : ℕ → Mem} {Fu : ℕ → PtrArr} {Vu : ℕ → Option Ptr} {al : ℕ → Alloc3} {wrk : ℕ → ℕ → Ptr}

/-- Construction, any history, and a call. -/
theorem history (h : DFits3 P X optA fx ffty fftz mult x0 y0 pdx pdy L N A B res ix l2 Ψ κ Dm Rd BufY) (hb : DBuffers3 P X fx ffty fftz BufY th thy mem Fu Vu al wrk) :
    ∃ (c : ℕ → Conv3) (mem1 : ℕ → Mem), (∀ r < P, Conv3MPI.newBase (fx r) ffty fftz mult (th r) (thy r) (some (Fu r)) none (Vu r) (al r) (mem r) = .ok (c r, mem1 r)) ∧
      (∀ r < P, (mem r).Upd (mem1 r) fun p => Conv3MPI.NewBufs (fx r) ffty fftz (th r) (thy r) (some (Fu r)) (Vu r) (al r) p.buf) ∧
      (∀ r < P, (c r).x.fft = fx r ∧ (c r).ffty = ffty ∧ (c r).fftz = fftz ∧ (c r).threads = Conv2.newThreads (fx r) (th r) ∧
        (∀ t < (c r).threads, ((c r).convyz t).x.fft = ffty ∧ ((c r).convyz t).threads = Conv2.newThreads ffty (Conv3.newThreadsY (fx r) (th r) (thy r))) ∧
        ∀ k, (c r).Bufs k → Conv3MPI.NewBufs (fx r) ffty fftz (th r) (thy r) (some (Fu r)) (Vu r) (al r) k) ∧
      ∀ M : ℕ → Conv3MPI, (M = fun r => Conv3MPI.new (c r) 1 P r optA alltoall (wrk r)) →
      ∀ steps : List Conv3MPI.Step, (∀ s ∈ steps, Conv3MPI.Allowed P M mem s) →
      ∀ (e : Eager) (σ : ℕ → Local ℂ), (∀ r < P, mmem (σ r) = mem1 r) → (∀ r < P, ∀ id, (σ r).req id = none) → Balanced P σ →
      AllRuns e (start P (fun r => Conv3MPI.stepsProg M r steps) σ) fun f2 => Finished P f2 ∧
        ∀ (s : ℕ → ℕ → Conv3MPI.Sch3) (f : ℕ → PtrArr) (off : ℕ → ℕ), (∀ r < P, (M r).LegalS (s r) ∧ (M r).Inputs (mem r) (f r) (off r)) →
        ∀ D : ℕ → ℕ → ℕ → ℂ, (∀ a < A, DConv3.Holds P ffty.L ffty.C L (fun r => mmem (f2 r).loc) f off D a) →
        AllRuns e (start P (fun r => (M r).convolve (s r) (f r) (off r)) fun r => (f2 r).loc) fun f3 => Finished P f3 ∧
          (GoodD (ffty.domG y0 Dm) L N x0 D → ∀ r < P, ∀ b < B, ∀ j < L, ∀ k < wd ffty.L ffty.C P r,
            (mmem (f3 r).loc).val ((f r).at_ b + off r + (wd ffty.L ffty.C P r * j + k)) =
              DConv.valD L N x0 (fun e' b X' k => ffty.valG y0 Ψ [κ e'] b X' k) D b j (st ffty.L ffty.C P r + k) * (1 / ((N : ℂ) * ((ffty.N : ℂ) * (fftz.N : ℂ))))) ∧
          ∀ r < P, (mmem (f3 r).loc).size = (mmem (f2 r).loc).size ∧ ∀ p, ¬ (M r).Bufs p.buf →
            (∀ b < B, ∀ j < L, ∀ k < wd ffty.L ffty.C P r, p ≠ (f r).at_ b + off r + (wd ffty.L ffty.C P r * j + k)) →
            (mmem (f3 r).loc).val p = (mmem (f2 r).loc).val p := by
  obtain ⟨c, mem1, e1, hu1, hc, ho, hr⟩ := h.new_ok (alltoall := alltoall) hb
  have hs1 : ∀ r < P, (mem1 r).size = (mem r).size := fun r hr => (hu1 r hr).size
  refine ⟨c, mem1, e1, hu1, hc, ?_⟩
  rintro M rfl steps hst e σ hσ hreq hbal
  have hst1 : ∀ s ∈ steps, Conv3MPI.Allowed P (fun r => Conv3MPI.new (c r) 1 P r optA alltoall (wrk r)) mem1 s := by
    intro s hs
    have := hst s hs
    cases s with
    | write q p v => exact ⟨this.1, Mem.valid_of_size (hs1 q this.1) this.2.1, this.2.2⟩
    | call s f off => exact fun r hrP => ⟨(this r hrP).1, (this r hrP).2.size (hs1 r hrP)⟩
  refine ((ho.history_ok steps hr hst1).allRuns hσ hreq hbal).mono ?_
  rintro f2 ⟨fin2, g2, hg2, r2, s2⟩
  refine ⟨fin2, ?_⟩
  intro s f off hsf D hD
  have hD' : ∀ a < A, DConv3.Holds P ffty.L ffty.C L g2 f off D a := by
    intro a ha r hrP j hj k hk
    rw [← hg2 r hrP]; exact hD a ha r hrP j hj k hk
  refine ((ho.call_ok (fun r hrP => (hsf r hrP).1) r2 (fun r hrP => (hsf r hrP).2.size ((s2 r hrP).trans (hs1 r hrP))) hD').allRuns
    (σ := fun r => (f2 r).loc) hg2 fin2.req fin2.bal).mono ?_
  rintro f3 ⟨fin3, g3, hg3, _, u3, v3⟩
  refine ⟨fin3, ?_, ?_⟩
  · intro hG r hrP b hb' j hj k hk
    rw [hg3 r hrP]; exact v3 hG r hrP b hb' j hj k hk
  · intro r hrP
    rw [hg3 r hrP, hg2 r hrP]
    refine ⟨(u3 r hrP).size, fun p hp hpf => (u3 r hrP).frame p ?_⟩
    rintro (h1 | ⟨b, hb', j, hj, k, hk, rfl⟩)
    · exact hp h1
    · rw [ho.d.L r hrP] at hj
      rw [ho.d.C r hrP] at hk
      refine hpf b hb' j hj k hk ?_
      rw [ho.d.S r hrP, ho.d.col r hrP]

end DFits3

/-- The outer transforms of the processes. -/
theorem DFits3.ofTr {P optA : ℕ} {cx : Bool} {Lx Mx A B : ℕ} {owx ipx : Bool} {Sx : ℕ → ℕ} {mx Dx : ℕ} {tx : ℕ → Tr} {ffty fftz : FftBase} {mult : Multiplier}
    {y0 : ℤ} {pdy : Mem → Ptr → Prop}
    {Ψ : List ℕ → ℕ → (ℕ → ℕ → ℂ) → ℕ → ℂ} {κ : ℕ → ℕ} {Dm : (ℕ → ℕ → ℂ) → Prop} {Rd : Conv → Mem → Prop} {BufY : Mem → Alloc → Prop}
    (hP : 0 < P) (hoA : 1 ≤ optA) (hy : ∀ r < P, 0 < part ffty.L P r)
    (hx : ∀ r < P, Tr.new cx Lx Mx ⟨A, B, owx⟩ (part ffty.L P r * ffty.C) (Sx r) mx Dx ipx = .ok (tx r)) (hS : ∀ r < P, (tx r).fft.S = part ffty.L P r * ffty.C)
    (hBA : B ≤ A) (hD : (tx 0).fft.D = 1) (how : (tx 0).fft.overwrite = false) (hlx : (tx 0).fft.nloops = 2 → B < A → A = B + 1)
    (yz : Conv2.GFits ffty fftz mult y0 pdy Ψ Dm Rd BufY) (yS : ffty.S = ffty.C) (yA : ffty.A = A) (yB : ffty.B = B)
    (ind : ∀ rx ∈ (tx 0).base.residues, ∀ r < P, ∀ i < part (tx 0).base.l P r,
      ffty.valG y0 Ψ [(tx 0).base.index rx i] = ffty.valG y0 Ψ [κ ((tx 0).base.index rx (first (tx 0).base.l P r + i))]) :
    DFits3 P (tx 0).base.l optA (fun r => (tx r).base) ffty fftz mult (if cx then Lx / 2 else 0 : ℕ) y0 (fun r => (tx r).Padded) pdy Lx (mx * (tx 0).fft.q) A B
      (tx 0).base.residues (tx 0).base.index (tx 0).base.loop2 Ψ κ Dm Rd BufY := by
  have hC := yz.spx.C_pos
  have hs : ∀ r < P, Fft.Same (tx 0).fft (tx r).fft := fun r hr => Tr.same (hx 0 hP) (hx r hr)
  have hf : ∀ r < P, (tx r).Facts cx Lx Mx ⟨A, B, owx⟩ (part ffty.L P r * ffty.C) mx := fun r hr => Tr.facts (Nat.mul_pos (hy r hr) hC) (hx r hr)
  have hb := fun r => (tx r).base_eq
  have hl : ∀ r < P, (tx r).base.l = (tx 0).base.l := fun r hr => by rw [(hb r).2.1, (hb 0).2.1]; exact (hs r hr).l
  refine ⟨hP, Tr.l_pos (Nat.mul_pos (hy 0 hP) hC) (hx 0 hP), hoA, hy, hl, fun r hr rx _ => ?_, hBA, fun r hr => (hf r hr).spec, fun r hr => (hf r hr).bL, fun r hr => ?_,
    fun r hr => (hf r hr).bA, fun r hr => (hf r hr).bB, fun r hr => ?_, fun r hr => ?_, fun r hr => (hf r hr).bC, fun r hr => ?_,
    fun r hr => (hf r hr).bcol, fun r hr => ?_, fun r hr => ?_, fun r hr => ?_, yz, yS, yA, yB, ind⟩
  · beta_reduce
    rw [(hf r hr).bs (by rw [(hs r hr).D]; exact hD), Tr.blocksize_eq, hl r hr]
  · beta_reduce
    rw [(hf r hr).bN, (hs r hr).q]
  · beta_reduce
    rw [(hb r).2.2.1, (hb 0).2.2.1]; exact (hs r hr).res
  · beta_reduce
    rw [(hb r).2.2.2.1, (hb 0).2.2.2.1]; exact (hs r hr).ix
  · beta_reduce
    rw [(hf r hr).bS]; exact hS r hr
  · beta_reduce
    rw [(hf r hr).bow, (hs r hr).ow]; exact how
  · exact (hf r hr).outer hBA fun _ h2 h3 => hlx (by rw [← (hs r hr).nl]; exact h2) h3
  · beta_reduce
    rw [(hb r).2.2.2.2.1, (hb 0).2.2.2.2.1]; exact (hs r hr).l2

end Fftwpp
