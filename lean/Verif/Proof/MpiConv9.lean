import Verif.Proof.MpiConv8

/-!
# All runs of the distributed convolution
-/

namespace Fftwpp
open Finset Net

theorem Net.NOk.allRuns {e : Eager} {P : ℕ} {x : ℕ → Prog ℂ Unit} {g : ℕ → Mem} {Q : (ℕ → Mem) → Prop} (h : NOk e P x g Q) {σ : ℕ → Local ℂ}
    (hg : ∀ r < P, mmem (σ r) = g r) (hr : ∀ r < P, ∀ id, (σ r).req id = none) (hb : Balanced P σ) :
    AllRuns e (start P x σ) fun f => Finished P f ∧ ∃ g', (∀ r < P, mmem (f r).loc = g' r) ∧ Q g' := by
  obtain ⟨t, t1, t2, _, g', t4, t5⟩ := h (start P x σ) (fun _ => .ret ()) (Quiet.bindRet' (quiet_start hr hb x)) hg
  obtain ⟨f1, f2⟩ := t2.fin
  exact Net.allRuns t1 f1 ⟨f2, g', t4, t5⟩

theorem Net.Finished.req {V : Type} {P : ℕ} {s : St V} (h : Finished P s) : ∀ r < P, ∀ id, (s r).loc.req id = none := fun r hr => (h.1 r hr).2

theorem Net.Finished.bal {V : Type} {P : ℕ} {s : St V} (h : Finished P s) : Balanced P fun r => (s r).loc := h.2

namespace DFits

variable {P X optA alltoall : ℕ} {fx : ℕ → FftBase} {ffty : FftBase} {mult : Multiplier} {x0 : ℤ} {pdx : ℕ → Mem → Ptr → Prop} {L N A B : ℕ}
  {res : List ℕ} {ix : ℕ → ℕ → ℕ} {l2 : Bool} {Ψ : List ℕ → ℕ → (ℕ → ℕ → ℂ) → ℕ → ℂ} {κ : ℕ → ℕ} {Dm : (ℕ → ℕ → ℂ) → Prop} {Rd : Conv → Mem → Prop}
  {BufY : Mem → Alloc → Prop} {th : ℕ → ℕ} {mem : ℕ → Mem} {Fu : ℕ → PtrArr} {Vu : ℕ → Option Ptr} {al : ℕ → Alloc2} {wrk : ℕ → ℕ → Ptr}

/-- Construction, any history, and a call. -/
theorem history (h : DFits P X optA fx ffty mult x0 pdx L N A B res ix l2 Ψ κ Dm Rd BufY) (hb : DBuffers P X fx ffty BufY th mem Fu Vu al wrk) :
    ∃ (c : ℕ → Conv2) (mem1 : ℕ → Mem), (∀ r < P, Conv2.new (fx r) ffty mult (th r) (some (Fu r)) none (Vu r) (al r) (mem r) = .ok (c r, mem1 r)) ∧
      (∀ r < P, (mem r).Upd (mem1 r) fun p => Conv2.NewBufs (fx r) ffty (th r) (some (Fu r)) (Vu r) (al r) p.buf) ∧
      (∀ r < P, (c r).x.fft = fx r ∧ (c r).ffty = ffty ∧ (c r).threads = Conv2.newThreads (fx r) (th r) ∧
        ∀ k, (c r).Bufs k → Conv2.NewBufs (fx r) ffty (th r) (some (Fu r)) (Vu r) (al r) k) ∧
      ∀ M : ℕ → Conv2MPI, (M = fun r => Conv2MPI.new (c r) 1 P r optA alltoall (wrk r)) →
      ∀ steps : List Conv2MPI.Step, (∀ s ∈ steps, Conv2MPI.Allowed P M mem s) →
      ∀ (e : Eager) (σ : ℕ → Local ℂ), (∀ r < P, mmem (σ r) = mem1 r) → (∀ r < P, ∀ id, (σ r).req id = none) → Balanced P σ →
      AllRuns e (start P (fun r => Conv2MPI.stepsProg M r steps) σ) fun f2 => Finished P f2 ∧
        ∀ (s : ℕ → ℕ → Sch) (f : ℕ → PtrArr) (off : ℕ → ℕ), (∀ r < P, (M r).LegalS (s r) ∧ (M r).Inputs (mem r) (f r) (off r)) →
        ∀ D : ℕ → ℕ → ℕ → ℂ, (∀ a < A, DConv.Holds P ffty.L L (fun r => mmem (f2 r).loc) f off D a) →
        AllRuns e (start P (fun r => (M r).convolve (s r) (f r) (off r)) fun r => (f2 r).loc) fun f3 => Finished P f3 ∧
          (GoodD Dm L N x0 D → ∀ r < P, ∀ b < B, ∀ j < L, ∀ k < part ffty.L P r,
            (mmem (f3 r).loc).val ((f r).at_ b + off r + (part ffty.L P r * j + k)) =
              DConv.valD L N x0 (fun e' b X' k => Ψ [κ e'] b X' k) D b j (first ffty.L P r + k) * (1 / ((N : ℂ) * (ffty.N : ℂ)))) ∧
          ∀ r < P, (mmem (f3 r).loc).size = (mmem (f2 r).loc).size ∧ ∀ p, ¬ (M r).Bufs p.buf →
            (∀ b < B, ∀ j < L, ∀ k < part ffty.L P r, p ≠ (f r).at_ b + off r + (part ffty.L P r * j + k)) →
            (mmem (f3 r).loc).val p = (mmem (f2 r).loc).val p := by
  obtain ⟨c, mem1, e1, hu1, hc, ho, hr⟩ := h.new_ok (alltoall := alltoall) hb
  have hs1 : ∀ r < P, (mem1 r).size = (mem r).size := fun r hr => (hu1 r hr).size
  refine ⟨c, mem1, e1, hu1, hc, ?_⟩
  rintro M rfl steps hst e σ hσ hreq hbal
  have hst1 : ∀ s ∈ steps, Conv2MPI.Allowed P (fun r => Conv2MPI.new (c r) 1 P r optA alltoall (wrk r)) mem1 s := by
    intro s hs
    have := hst s hs
    cases s with
    | write q p v => exact ⟨this.1, Mem.valid_of_size (hs1 q this.1) this.2.1, this.2.2⟩
    | call s f off => exact fun r hrP => ⟨(this r hrP).1, (this r hrP).2.size (hs1 r hrP)⟩
  refine ((ho.history_ok steps hr hst1).allRuns hσ hreq hbal).mono ?_
  rintro f2 ⟨fin2, g2, hg2, r2, s2⟩
  refine ⟨fin2, ?_⟩
  intro s f off hsf D hD
  have hD' : ∀ a < A, DConv.Holds P ffty.L L g2 f off D a := by
    intro a ha r hrP j hj k hk
    rw [← hg2 r hrP]; exact hD a ha r hrP j hj k hk
  refine ((ho.call_ok (fun r hrP => (hsf r hrP).1) r2 (fun r hrP => (hsf r hrP).2.size ((s2 r hrP).trans (hs1 r hrP))) hD').allRuns
    (σ := fun r => (f2 r).loc) hg2 fin2.req fin2.bal).mono ?_
  rintro f3 ⟨fin3, g3, hg3, _, u3, v3⟩
  refine ⟨fin3, ?_, ?_⟩
  · intro hG r hrP b hb' j hj k hk
    rw [hg3 r hrP]; exact v3 hG r hrP b hb' j hj k hk
  · intro r hrP
    rw [hg3 r hrP, hg2 r hrP]
    refine ⟨(u3 r hrP).size, fun p hp hpf => (u3 r hrP).frame p ?_⟩
    rintro (h1 | ⟨b, hb', j, hj, k, hk, rfl⟩)
    · exact hp h1
    · rw [ho.d.L r hrP] at hj
      rw [ho.d.C r hrP] at hk
      refine hpf b hb' j hj k hk ?_
      rw [ho.d.S r hrP, ho.d.col r hrP]

end DFits

theorem Tr.l_pos {cen : Bool} {L M : ℕ} {app : App} {C S0 m D : ℕ} {inplace : Bool} {t : Tr} (hC : 0 < C)
    (h : Tr.new cen L M app C S0 m D inplace = .ok t) : 0 < t.base.l := by
  unfold Tr.new at h
  cases cen with
  | false =>
    simp only [Bool.false_eq_true, if_false] at h
    cases hn : Fft.new L M app C S0 m D inplace with
    | error e => rw [hn] at h; simp [Except.map] at h
    | ok o =>
      rw [hn] at h
      simp only [Except.map, Except.ok.injEq] at h
      subst h
      have hw := Fft.WF.of_new hC hn
      show 0 < o.l
      rw [hw.l_eq]
      have := hw.q_pos
      rw [hw.q_eq] at this
      exact Nat.mul_pos hw.m_pos (Nat.pos_of_mul_pos_right this)
  | true =>
    simp only [if_true] at h
    cases hn : Cent.new L M app C S0 m D inplace with
    | error e => rw [hn] at h; simp [Except.map] at h
    | ok o =>
      rw [hn] at h
      simp only [Except.map, Except.ok.injEq] at h
      subst h
      have hw := Cent.WF.of_new hC hn
      show 0 < o.l
      rw [hw.l_eq]
      have := hw.q_pos
      rw [hw.q_eq] at this
      exact Nat.mul_pos hw.m_pos (Nat.pos_of_mul_pos_right this)

theorem Tr.blocksize_eq (t : Tr) (r : ℕ) : t.base.blocksize r = t.base.l := by cases t <;> rfl

/-- The outer transforms of the processes. -/
theorem DFits.ofTr {P optA : ℕ} {cx : Bool} {Lx Mx A B Y : ℕ} {owx ipx : Bool} {Sx : ℕ → ℕ} {mx Dx : ℕ} {tx : ℕ → Tr} {ffty : FftBase} {mult : Multiplier}
    {Ψ : List ℕ → ℕ → (ℕ → ℕ → ℂ) → ℕ → ℂ} {κ : ℕ → ℕ} {Dm : (ℕ → ℕ → ℂ) → Prop} {Rd : Conv → Mem → Prop} {BufY : Mem → Alloc → Prop}
    (hP : 0 < P) (hoA : 1 ≤ optA) (hY : ffty.L = Y) (hy : ∀ r < P, 0 < part Y P r)
    (hx : ∀ r < P, Tr.new cx Lx Mx ⟨A, B, owx⟩ (part Y P r) (Sx r) mx Dx ipx = .ok (tx r)) (hS : ∀ r < P, (tx r).fft.S = part Y P r)
    (hBA : B ≤ A) (hD : (tx 0).fft.D = 1) (how : (tx 0).fft.overwrite = false) (hlx : (tx 0).fft.nloops = 2 → B < A → A = B + 1)
    (new : ∀ {m : Mem} {al : Alloc}, BufY m al → (Conv.new ffty mult none none none al).Ok m fun c m' => c.fft = ffty ∧ c.mult = mult ∧
      c.F = Conv.newF ffty none al ∧ c.V = Conv.newV ffty none al ∧ c.W = Conv.newW ffty al ∧ Rd c m' ∧ m.Upd m' (fun p => ∃ W, c.W = some W ∧ p.buf = W.buf))
    (size : ∀ {m m' : Mem} {al : Alloc}, BufY m al → m'.size = m.size → BufY m' al)
    (inn : ∀ c : Conv, c.fft = ffty → c.mult = mult → Inner A B ffty.L ffty.L (fun j => j) c.convolveRawOffset Ψ c.Bufs (Rd c) Dm)
    (ind : ∀ rx ∈ (tx 0).base.residues, ∀ r < P, ∀ i < part (tx 0).base.l P r,
      Ψ [(tx 0).base.index rx i] = Ψ [κ ((tx 0).base.index rx (first (tx 0).base.l P r + i))])
    (cong : ∀ idx b X' Y', (∀ a < A, ∀ c < ffty.L, X' a c = Y' a c) → ∀ c < ffty.L, Ψ idx b X' c = Ψ idx b Y' c)
    (dom : ∀ X' Y', (∀ a < A, ∀ c < ffty.L, X' a c = Y' a c) → Dm X' → Dm Y') :
    DFits P (tx 0).base.l optA (fun r => (tx r).base) ffty mult (if cx then Lx / 2 else 0 : ℕ) (fun r => (tx r).Padded) Lx (mx * (tx 0).fft.q) A B
      (tx 0).base.residues (tx 0).base.index (tx 0).base.loop2 Ψ κ Dm Rd BufY := by
  subst hY
  have hs : ∀ r < P, Fft.Same (tx 0).fft (tx r).fft := fun r hr => Tr.same (hx 0 hP) (hx r hr)
  have hf : ∀ r < P, (tx r).Facts cx Lx Mx ⟨A, B, owx⟩ (part ffty.L P r) mx := fun r hr => Tr.facts (hy r hr) (hx r hr)
  have hb := fun r => (tx r).base_eq
  have hl : ∀ r < P, (tx r).base.l = (tx 0).base.l := fun r hr => by rw [(hb r).2.1, (hb 0).2.1]; exact (hs r hr).l
  refine ⟨hP, Tr.l_pos (hy 0 hP) (hx 0 hP), hoA, hy, hl, fun r hr rx _ => ?_, hBA, fun r hr => (hf r hr).spec, fun r hr => (hf r hr).bL, fun r hr => ?_,
    fun r hr => (hf r hr).bA, fun r hr => (hf r hr).bB, fun r hr => ?_, fun r hr => ?_, fun r hr => (hf r hr).bC, fun r hr => ?_,
    fun r hr => (hf r hr).bcol, fun r hr => ?_, fun r hr => ?_, fun r hr => ?_, new, size, inn, ind, cong, dom⟩
  · beta_reduce
    rw [(hf r hr).bs (by rw [(hs r hr).D]; exact hD), Tr.blocksize_eq, hl r hr]
  · beta_reduce
    rw [(hf r hr).bN, (hs r hr).q]
  · beta_reduce
    rw [(hb r).2.2.1, (hb 0).2.2.1]; exact (hs r hr).res
  · beta_reduce
    rw [(hb r).2.2.2.1, (hb 0).2.2.2.1]; exact (hs r hr).ix
  · beta_reduce
    rw [(hf r hr).bS]; exact hS r hr
  · beta_reduce
    rw [(hf r hr).bow, (hs r hr).ow]; exact how
  · exact (hf r hr).outer hBA fun _ h2 h3 => hlx (by rw [← (hs r hr).nl]; exact h2) h3
  · beta_reduce
    rw [(hb r).2.2.2.2.1, (hb 0).2.2.2.2.1]; exact (hs r hr).l2

end Fftwpp
