import Verif.Proof.MpiConv9
import Verif.Props.CenteredConv

/-!
# C53: the distributed two-dimensional convolution `Convolution2MPI`
-/

namespace Fftwpp
open Finset Net

/-- The object of each process: process `r` of `P`, with base class object `c r` and transpose work arrays `wrk r`; the transposes use the
algorithm selected by `optA` and `alltoall`. -/
def objects (P optA alltoall : ℕ) (c : ℕ → Conv2) (wrk : ℕ → ℕ → Ptr) : ℕ → Conv2MPI := fun r => Conv2MPI.new (c r) 1 P r optA alltoall (wrk r)

/-- **C53**, general form, with the analogues of C12, C13 and C15.  `P` processes, each of which constructs the transforms as in
mpi/tests/hybridconv2.cc: in `x` of length `Lx` on its `d.y` columns, contiguous (`C=S=d.y`), and in `y` of length `Ly`; each of the two may be centered
or not; parameters valid, `D=1` and no overwriting in `x`; `P ≤ Ly` in the sense that every process has a column.  For every operation `φ` performed by the
multiplier, any number of threads and any schedule of the inner convolutions in every process, every
algorithm of the transpose, any contents of the work arrays, and any history of collective calls and of writes by the processes: all orders of
execution of the processes and all choices of the MPI library end, with every process finished and no message in transit, and so does the call of
`convolve` that follows.  If the processes then held their columns of the global arrays `D a`, the call leaves in the outputs the columns of the
inverse transform of `φ` applied to the transforms of the `D a`.  Here the multiplier is told the frequency `κ e` instead of the frequency `e` in `x`: row `i`
of process `r` is row `first + i` of the block, but the code passes it the index of row `i` (`hκ`).  If `φ` does not depend on the frequency in `x`, or `P=1`, then
`κ` may be the identity; `C53_frequency_refuted` is about the other cases.  Nothing but the outputs and the work arrays is changed in any process. -/
theorem C53_history {P optA alltoall : ℕ} {cx cy : Bool} {Lx Mx Ly My A B : ℕ} {owx owy ipx ipy : Bool} {Sx : ℕ → ℕ} {mx Dx Sy my Dy : ℕ}
    {tx : ℕ → Tr} {ty : Tr} (hP : 0 < P) (hoA : 1 ≤ optA) (hcol : ∀ r < P, 0 < part Ly P r)
    (hx : ∀ r < P, Tr.new cx Lx Mx ⟨A, B, owx⟩ (part Ly P r) (Sx r) mx Dx ipx = .ok (tx r)) (hSx : ∀ r < P, (tx r).fft.S = part Ly P r)
    (hy : Tr.new cy Ly My ⟨A, B, owy⟩ 1 Sy my Dy ipy = .ok ty) (hSy : ty.fft.S = 1)
    (hBA : B ≤ A) (hDx : (tx 0).fft.D = 1) (how : (tx 0).fft.overwrite = false) (hlx : (tx 0).fft.nloops = 2 → B < A → A = B + 1)
    (hly : ty.fft.q ≠ 1 → ty.fft.overwrite = false → ty.fft.nloops = 2 → B < A → (A - B) ∣ B)
    {mult : Multiplier} {φ : List ℕ → ℕ → (ℕ → ℂ) → ℂ} (hm : MultSpec A B ty.fft.index mult φ)
    (hfreq : (ty.fft.D0 = 1 ∧ (ty.fft.overwrite = true → ty.fft.n = 2)) ∨ ∀ e e' idx, φ (e :: idx) = φ (e' :: idx))
    {κ : ℕ → ℕ} (hκ : ∀ rx ∈ (tx 0).base.residues, ∀ r < P, ∀ i < part (tx 0).base.l P r, ∀ ey,
      φ [ey, (tx 0).base.index rx i] = φ [ey, κ ((tx 0).base.index rx (first (tx 0).base.l P r + i))])
    {th : ℕ → ℕ} {mem0 : ℕ → Mem} {Fu : ℕ → PtrArr} {Vu : ℕ → Option Ptr} {al : ℕ → Alloc2} {wrk : ℕ → ℕ → Ptr}
    (hbuf : DBuffers P (tx 0).base.l (fun r => (tx r).base) ty.base (fun m al => Conv.Buffers ty.base m none none al) th mem0 Fu Vu al wrk) :
    ∃ (c : ℕ → Conv2) (mem1 : ℕ → Mem),
      (∀ r < P, Conv2.new (tx r).base ty.base mult (th r) (some (Fu r)) none (Vu r) (al r) (mem0 r) = .ok (c r, mem1 r)) ∧
      (∀ r < P, (c r).x.fft = (tx r).base ∧ (c r).ffty = ty.base ∧ (c r).threads = Conv2.newThreads (tx r).base (th r) ∧
        ∀ k, (c r).Bufs k → Conv2.NewBufs (tx r).base ty.base (th r) (some (Fu r)) (Vu r) (al r) k) ∧
      (∀ r < P, (mem1 r).size = (mem0 r).size ∧
        ∀ p, ¬ Conv2.NewBufs (tx r).base ty.base (th r) (some (Fu r)) (Vu r) (al r) p.buf → (mem1 r).val p = (mem0 r).val p) ∧
      ∀ M, M = objects P optA alltoall c wrk →
      ∀ steps : List Conv2MPI.Step, (∀ s ∈ steps, Conv2MPI.Allowed P M mem0 s) →
      ∀ (e : Eager) (σ : ℕ → Local ℂ), (∀ r < P, mmem (σ r) = mem1 r) → (∀ r < P, ∀ id, (σ r).req id = none) → Balanced P σ →
      AllRuns e (start P (fun r => Conv2MPI.stepsProg M r steps) σ) fun f2 => Finished P f2 ∧
        ∀ (s : ℕ → ℕ → Sch) (f : ℕ → PtrArr) (off : ℕ → ℕ), (∀ r < P, (M r).LegalS (s r) ∧ (M r).Inputs (mem0 r) (f r) (off r)) →
        ∀ D : ℕ → ℕ → ℕ → ℂ,
          (∀ r < P, ∀ a < A, ∀ i < Lx, ∀ j < part Ly P r,
            (mmem (f2 r).loc).val ((f r).at_ a + off r + (part Ly P r * i + j)) = D a i (first Ly P r + j)) →
        AllRuns e (start P (fun r => (M r).convolve (s r) (f r) (off r)) fun r => (f2 r).loc) fun f3 => Finished P f3 ∧
          (∀ r < P, ∀ b < B, ∀ i < Lx, ∀ j < part Ly P r, (mmem (f3 r).loc).val ((f r).at_ b + off r + (part Ly P r * i + j)) =
            convResultC2 (mx * (tx 0).fft.q) Lx (origin cx Lx) (my * ty.fft.q) Ly (origin cy Ly) (fun kx ky => φ [ky, κ kx]) D b i (first Ly P r + j)) ∧
          ∀ r < P, (mmem (f3 r).loc).size = (mmem (f2 r).loc).size ∧ ∀ p, ¬ (M r).Bufs p.buf →
            (∀ b < B, ∀ i < Lx, ∀ j < part Ly P r, p ≠ (f r).at_ b + off r + (part Ly P r * i + j)) →
            (mmem (f3 r).loc).val p = (mmem (f2 r).loc).val p := by
  have g' := Tr.facts (by omega) hy
  have bLy := g'.bL
  have bNy := g'.bN
  have hm' : MultSpec ty.base.A ty.base.B ty.base.index mult φ := by rw [g'.bA, g'.bB, g'.bindex]; exact hm
  have hf' : ty.base.FreqOK ty.fft.K φ := by
    rcases hfreq with h1 | h1
    · left; unfold Fft.K; rw [if_pos rfl, g'.bow, g'.bn]; exact h1
    · right; exact h1
  have hcong : ∀ idx b X' Y', (∀ a < A, ∀ c < ty.base.L, X' a c = Y' a c) → ∀ c < ty.base.L,
      ty.base.innerVal (if cy then Ly / 2 else 0 : ℕ) φ idx b X' c = ty.base.innerVal (if cy then Ly / 2 else 0 : ℕ) φ idx b Y' c := by
    intro idx b X' Y' hXY c _
    unfold FftBase.innerVal
    refine sum_congr rfl fun e _ => ?_
    congr 1
    refine hm.congr _ _ _ _ fun a ha => ?_
    unfold FftBase.dft
    refine sum_congr rfl fun i hi => ?_
    rw [hXY a ha i (mem_range.1 hi)]
  have hfit := DFits.ofTr (P := P) (optA := optA) (Y := Ly) (ffty := ty.base) (mult := mult) (Dm := fun _ => True)
    (Rd := fun c => c.Ready ty.Padded) (BufY := fun m al => Conv.Buffers ty.base m none none al)
    (Ψ := ty.base.innerVal (if cy then Ly / 2 else 0 : ℕ) φ) hP hoA bLy hcol hx hSx hBA hDx how hlx
    (fun {m al} hb => (Conv.new_ok g'.spec (by rw [g'.bq]; exact g'.q_pos) mult hb).mono (by
      rintro c m' ⟨h1, h2, h3, h4, h5, h6, u⟩
      refine ⟨h1, h2, h3, h4, h5, h6, u.mono ?_⟩
      rintro p ⟨W, hW, hp⟩
      exact ⟨W, hW, FftBase.inArr_buf hp⟩))
    (fun {m m' al} hb hs => ⟨hb.work.size hs, fun h1 h2 h3 => ⟨(hb.V h1 h2 h3).1.size hs, (hb.V h1 h2 h3).2⟩⟩)
    (fun c h1 h2 => by
      have := Conv.inner (c := c) (by rw [h1]; exact g'.spec) (by rw [h1]; exact g'.flat rfl hSy) (by rw [h1]; exact g'.sched hly (Or.inl hBA))
        (φ := φ) (by rw [h1, h2]; exact hm') (by rw [h1]; exact hf') (by rw [h1, g'.bA, g'.bB]; exact hBA)
      rw [h1, g'.bA, g'.bB] at this
      exact this)
    (fun rx hrx r hr i hi => by
      funext b X' k
      unfold FftBase.innerVal
      refine sum_congr rfl fun ey _ => ?_
      rw [hκ rx hrx r hr i hi ey])
    hcong (fun _ _ _ _ => trivial)
  obtain ⟨c, mem1, e1, hu1, hc, H⟩ := hfit.history (alltoall := alltoall) hbuf
  refine ⟨c, mem1, e1, hc, fun r hr => ⟨(hu1 r hr).size, (hu1 r hr).frame⟩, ?_⟩
  intro M hM steps hst e σ h1 h2 h3
  refine (H M hM steps hst e σ h1 h2 h3).mono ?_
  rintro f2 ⟨fin2, H2⟩
  refine ⟨fin2, ?_⟩
  intro s f off hsf D hD
  have hD' : ∀ a < A, DConv.Holds P ty.base.L Lx (fun r => mmem (f2 r).loc) f off D a := by
    intro a ha r hr i hi j hj
    rw [bLy] at hj ⊢
    exact hD r hr a ha i hi j hj
  refine (H2 s f off hsf D hD').mono ?_
  rintro f3 ⟨fin3, v3, u3⟩
  rw [bLy] at v3 u3
  refine ⟨fin3, ?_, u3⟩
  intro r hr b hb i hi j hj
  rw [v3 (fun _ => trivial) r hr b hb i hi j hj, bNy, convResultC2_eq]
  unfold DConv.valD FftBase.innerVal convResultC hatD
  rw [← one_div_mul_one_div]
  simp only [FftBase.dft_cdft bNy bLy, bNy]
  rw [mul_comm, mul_assoc]
  congr 1
  rw [mul_sum]
  refine sum_congr rfl fun e _ => ?_
  unfold cdft origin
  ring

/-- **C53**: `multBinary`, `A=2`, `B=1`: every process ends with its columns of the cyclic 2D convolution, with respect to the origins, of the
global arrays `D 0`, `D 1`, and of the linear one for sufficiently large requested sizes. -/
theorem C53_convolve {P optA alltoall : ℕ} {cx cy : Bool} {Lx Mx Ly My : ℕ} {owx owy ipx ipy : Bool} {Sx : ℕ → ℕ} {mx Dx Sy my Dy : ℕ}
    {tx : ℕ → Tr} {ty : Tr} (hP : 0 < P) (hoA : 1 ≤ optA) (hcol : ∀ r < P, 0 < part Ly P r)
    (hx : ∀ r < P, Tr.new cx Lx Mx ⟨2, 1, owx⟩ (part Ly P r) (Sx r) mx Dx ipx = .ok (tx r)) (hSx : ∀ r < P, (tx r).fft.S = part Ly P r)
    (hy : Tr.new cy Ly My ⟨2, 1, owy⟩ 1 Sy my Dy ipy = .ok ty) (hSy : ty.fft.S = 1)
    (hDx : (tx 0).fft.D = 1) (how : (tx 0).fft.overwrite = false)
    {th : ℕ → ℕ} {mem0 : ℕ → Mem} {Fu : ℕ → PtrArr} {Vu : ℕ → Option Ptr} {al : ℕ → Alloc2} {wrk : ℕ → ℕ → Ptr}
    (hbuf : DBuffers P (tx 0).base.l (fun r => (tx r).base) ty.base (fun m al => Conv.Buffers ty.base m none none al) th mem0 Fu Vu al wrk) :
    ∃ (c : ℕ → Conv2) (mem1 : ℕ → Mem),
      (∀ r < P, Conv2.new (tx r).base ty.base multBinary (th r) (some (Fu r)) none (Vu r) (al r) (mem0 r) = .ok (c r, mem1 r)) ∧
      ∀ M, M = objects P optA alltoall c wrk →
      ∀ steps : List Conv2MPI.Step, (∀ s ∈ steps, Conv2MPI.Allowed P M mem0 s) →
      ∀ (e : Eager) (σ : ℕ → Local ℂ), (∀ r < P, mmem (σ r) = mem1 r) → (∀ r < P, ∀ id, (σ r).req id = none) → Balanced P σ →
      AllRuns e (start P (fun r => Conv2MPI.stepsProg M r steps) σ) fun f2 => Finished P f2 ∧
        ∀ (s : ℕ → ℕ → Sch) (f : ℕ → PtrArr) (off : ℕ → ℕ), (∀ r < P, (M r).LegalS (s r) ∧ (M r).Inputs (mem0 r) (f r) (off r)) →
        ∀ D : ℕ → ℕ → ℕ → ℂ,
          (∀ r < P, ∀ a < 2, ∀ i < Lx, ∀ j < part Ly P r,
            (mmem (f2 r).loc).val ((f r).at_ a + off r + (part Ly P r * i + j)) = D a i (first Ly P r + j)) →
        AllRuns e (start P (fun r => (M r).convolve (s r) (f r) (off r)) fun r => (f2 r).loc) fun f3 => Finished P f3 ∧
          ∀ r < P, ∀ i < Lx, ∀ j < part Ly P r,
            (mmem (f3 r).loc).val ((f r).at_ 0 + off r + (part Ly P r * i + j)) =
              cyclicConvC2 (mx * (tx 0).fft.q) Lx (origin cx Lx) (my * ty.fft.q) Ly (origin cy Ly) (D 0) (D 1) i (first Ly P r + j) ∧
            (linearSize cx Lx ≤ Mx → linearSize cy Ly ≤ My → (mmem (f3 r).loc).val ((f r).at_ 0 + off r + (part Ly P r * i + j)) =
              linearConvC2 Lx (origin cx Lx) Ly (origin cy Ly) (D 0) (D 1) i (first Ly P r + j)) := by
  have g := Tr.facts (hcol 0 hP) (hx 0 hP)
  have g' := Tr.facts (by omega) hy
  have hN : mx * (tx 0).fft.q ≠ 0 := (Nat.mul_pos g.m_pos g.q_pos).ne'
  have hN' : my * ty.fft.q ≠ 0 := (Nat.mul_pos g'.m_pos g'.q_pos).ne'
  obtain ⟨c, mem1, e1, _, _, H⟩ := C53_history (alltoall := alltoall) hP hoA hcol hx hSx hy hSy (by omega) hDx how (fun _ _ => rfl) (fun _ _ _ _ => by simp)
    multBinary_spec (Or.inr fun _ _ _ => rfl) (κ := id) (fun _ _ _ _ _ _ _ => rfl) hbuf
  refine ⟨c, mem1, e1, ?_⟩
  intro M hM steps hst e σ h1 h2 h3
  refine (H M hM steps hst e σ h1 h2 h3).mono ?_
  rintro f2 ⟨fin2, H2⟩
  refine ⟨fin2, ?_⟩
  intro s f off hsf D hD
  refine (H2 s f off hsf D hD).mono ?_
  rintro f3 ⟨fin3, v3, _⟩
  refine ⟨fin3, ?_⟩
  intro r hr i hi j hj
  have := (v3 r hr 0 (by omega) i hi j hj).trans (convResultC2_binary hN hN' _ i _)
  refine ⟨this, fun k1 k2 => ?_⟩
  rw [this]
  obtain ⟨a1, a2⟩ := linearSize_le g.L_pos (k1.trans g.size)
  obtain ⟨b1, b2⟩ := linearSize_le g'.L_pos (k2.trans g'.size)
  exact cyclicConvC2_linear a1 a2 b1 b2 _ _ hi (first_lt hP hr hj)

/-- Whatever the memories contain, the processes hold some global arrays. -/
theorem C53_data_exist {P Lx Ly : ℕ} (hP : 0 < P) (mem : ℕ → Mem) (f : ℕ → PtrArr) (off : ℕ → ℕ) : ∃ D : ℕ → ℕ → ℕ → ℂ,
    ∀ r < P, ∀ a, ∀ i < Lx, ∀ j < part Ly P r, (mem r).val ((f r).at_ a + off r + (part Ly P r * i + j)) = D a i (first Ly P r + j) := by
  obtain ⟨D, hD⟩ := DConv.holds_exists (Y := Ly) (L := Lx) hP mem f off
  exact ⟨D, fun r hr a i hi j hj => hD a r hr i hi j hj⟩

/-! ## Examples -/

/-- The work arrays of the example. -/
theorem exDBuffers {P X : ℕ} {fx : ℕ → FftBase} {oy : FftBase} {th : ℕ → ℕ} (hA : ∀ r < P, max (fx r).A (fx r).B ≤ 2)
    (hos : ∀ r < P, (fx r).outputSize ≤ 100) (hL : ∀ r < P, (fx r).S * (fx r).L ≤ 100)
    (hA' : max oy.A oy.B ≤ 5) (hos' : oy.outputSize ≤ 100) (hL' : oy.S * oy.L ≤ 100)
    (hroom : ∀ r < P, X * part oy.L P r ≤ 100 ∧ part X P r * oy.L ≤ 100) :
    DBuffers P X fx oy (fun m al => Conv.Buffers oy m none none al) th (fun _ => Fft.exMem 100) (fun r => Conv.newF (fx r) none (exAllocK 0))
      (fun _ => none) (fun _ => exAlloc2 0) (fun _ a => ⟨5 + a, 0⟩) := by
  have hb : ∀ r < P, Conv2.Buffers (fx r) oy (th r) (Fft.exMem 100) none none (exAlloc2 0) := fun r hr =>
    exBuffers2 ((hA r hr).trans (by omega)) (hos r hr) (hL r hr) hA' hos' hL'
  refine ⟨fun r hr => ⟨⟨(hb r hr).x.work, (hb r hr).x.V⟩, (hb r hr).y, (hb r hr).sepT, (hb r hr).sepX⟩, fun r hr a ha => ?_, fun r hr a ha => ?_, fun r hr a ha hk => ?_⟩
  · refine ⟨le_rfl, ?_⟩
    show (0 : ℤ) + _ ≤ ((100 : ℕ) : ℤ)
    have := hroom r hr
    have h2 : max (X * part oy.L P r) (part X P r * oy.L) ≤ 100 := max_le this.1 this.2
    omega
  · refine ⟨le_rfl, ?_⟩
    show (0 : ℤ) + _ ≤ ((100 : ℕ) : ℤ)
    have := (hroom r hr).2
    omega
  · have h1 : Conv2.NewBufs (fx r) oy (th r) none none (exAlloc2 0) (5 + a) := hk
    have := exNewBufs2 ((hA r hr).trans (by omega)) hA' h1
    have := hA r hr
    beta_reduce at ha
    omega

/-- A state of the processes with the given memories. -/
noncomputable def exState (mem : ℕ → Mem) (r : ℕ) : Local ℂ := ⟨fun b => (mem r).size (b / 2), fun a => (mem r).val a.ptr, fun _ => none, fun _ => [], fun _ => 0, 0⟩

theorem exState_mem (mem : ℕ → Mem) (r : ℕ) : mmem (exState mem r) = mem r := by
  unfold exState mmem toMem
  ext p
  · simp
  · simp only [Ptr.loc_ptr]

/-- The hypotheses of C53 are met: two processes; `Lx=3`, `Mx=5`, `mx=2` (three residue blocks, out of place), `Ly=3` (2 columns on process 0, one on
process 1), `My=6`, centered in `y`; two threads on process 0; and so are those on the state of the processes and on the arguments of `convolve`. -/
example : ∃ (tx : ℕ → Tr) (ty : Tr), (∀ r < 2, Tr.new false 3 5 ⟨2, 1, true⟩ (part 3 2 r) (part 3 2 r) 2 1 false = .ok (tx r)) ∧
    (∀ r < 2, (tx r).fft.S = part 3 2 r) ∧ Tr.new true 3 6 ⟨2, 1, false⟩ 1 1 2 1 true = .ok ty ∧ ty.fft.S = 1 ∧
    (∀ r < 2, 0 < part 3 2 r) ∧ part 3 2 0 = 2 ∧ part 3 2 1 = 1 ∧ (tx 0).fft.D = 1 ∧ (tx 0).fft.overwrite = false ∧ (tx 0).fft.nloops = 3 ∧
    linearSize false 3 ≤ 5 ∧ linearSize true 3 ≤ 6 ∧
    DBuffers 2 (tx 0).base.l (fun r => (tx r).base) ty.base (fun m al => Conv.Buffers ty.base m none none al) (fun r => 2 - r) (fun _ => Fft.exMem 100)
      (fun r => Conv.newF (tx r).base none (exAllocK 0)) (fun _ => none) (fun _ => exAlloc2 0) (fun _ a => ⟨5 + a, 0⟩) ∧
    ∃ (c : ℕ → Conv2) (mem1 : ℕ → Mem), (∀ r < 2, Conv2.new (tx r).base ty.base multBinary (2 - r) (some (Conv.newF (tx r).base none (exAllocK 0))) none none
        (exAlloc2 0) (Fft.exMem 100) = .ok (c r, mem1 r)) ∧ (c 0).threads = 2 ∧
      (∀ r < 2, mmem (exState mem1 r) = mem1 r) ∧ (∀ r < 2, ∀ id, (exState mem1 r).req id = none) ∧ Balanced 2 (exState mem1) ∧
      ∀ r < 2, (objects 2 1 0 c (fun _ a => ⟨5 + a, 0⟩) r).LegalS (fun _ => [(0, 0)]) ∧
        (objects 2 1 0 c (fun _ a => ⟨5 + a, 0⟩) r).Inputs (Fft.exMem 100) (exArr 5) 3 := by
  obtain ⟨tx, hx, hos, hS, hD, how, hl, hn⟩ : ∃ tx : ℕ → Tr, (∀ r < 2, Tr.new false 3 5 ⟨2, 1, true⟩ (part 3 2 r) (part 3 2 r) 2 1 false = .ok (tx r)) ∧
      (∀ r < 2, (tx r).base.outputSize ≤ 100) ∧ (∀ r < 2, (tx r).fft.S = part 3 2 r) ∧ (tx 0).fft.D = 1 ∧ (tx 0).fft.overwrite = false ∧
      (∀ r < 2, (tx r).base.l = 2) ∧ (tx 0).fft.nloops = 3 := by
    obtain ⟨t0, h0⟩ : ∃ t, Tr.new false 3 5 ⟨2, 1, true⟩ 2 2 2 1 false = .ok t ∧ t.base.outputSize ≤ 100 ∧ t.fft.S = 2 ∧ t.fft.D = 1 ∧
        t.fft.overwrite = false ∧ t.base.l = 2 ∧ t.fft.nloops = 3 := ⟨_, rfl, by show (Fft.outputSize _) ≤ 100; decide, rfl, rfl, by decide, rfl, by decide⟩
    obtain ⟨t1, h1⟩ : ∃ t, Tr.new false 3 5 ⟨2, 1, true⟩ 1 1 2 1 false = .ok t ∧ t.base.outputSize ≤ 100 ∧ t.fft.S = 1 ∧ t.base.l = 2 :=
      ⟨_, rfl, by show (Fft.outputSize _) ≤ 100; decide, rfl, rfl⟩
    refine ⟨fun r => if r = 0 then t0 else t1, ?_, ?_, ?_, h0.2.2.2.1, h0.2.2.2.2.1, ?_, h0.2.2.2.2.2.2⟩
    · intro r hr
      interval_cases r
      · exact h0.1
      · exact h1.1
    · intro r hr
      interval_cases r
      · exact h0.2.1
      · exact h1.2.1
    · intro r hr
      interval_cases r
      · exact h0.2.2.1
      · exact h1.2.2.1
    · intro r hr
      interval_cases r
      · exact h0.2.2.2.2.2.1
      · exact h1.2.2.2
  obtain ⟨ty, hy, hoy, hSy⟩ : ∃ t, Tr.new true 3 6 ⟨2, 1, false⟩ 1 1 2 1 true = .ok t ∧ t.base.outputSize ≤ 100 ∧ t.fft.S = 1 :=
    ⟨_, rfl, by show (Fft.outputSize _) ≤ 100; decide, rfl⟩
  have p0 : part 3 2 0 = 2 := rfl
  have p1 : part 3 2 1 = 1 := rfl
  have hpos : ∀ r < 2, 0 < part 3 2 r := by intro r hr; interval_cases r <;> decide
  have hple : ∀ r < 2, part 3 2 r ≤ 2 := by intro r hr; interval_cases r <;> decide
  have f := fun r hr => Tr.facts (hpos r hr) (hx r hr)
  have f' := Tr.facts (by omega) hy
  have hA : ∀ r < 2, max (tx r).base.A (tx r).base.B ≤ 2 := fun r hr => by rw [(f r hr).bA, (f r hr).bB]; decide
  have hA' : max ty.base.A ty.base.B ≤ 5 := by rw [f'.bA, f'.bB]; decide
  have hb := exDBuffers (P := 2) (X := (tx 0).base.l) (fx := fun r => (tx r).base) (oy := ty.base) (th := fun r => 2 - r) hA hos
    (fun r hr => by beta_reduce; rw [(f r hr).bS, (f r hr).bL, hS r hr]; have := hple r hr; omega) hA' hoy (by rw [f'.bS, f'.bL, hSy]; decide)
    (fun r hr => by
      rw [f'.bL, hl 0 (by omega)]
      have := hple r hr
      have h2 : part 2 2 r = 1 := by interval_cases r <;> rfl
      rw [h2]; omega)
  refine ⟨tx, ty, hx, hS, hy, hSy, hpos, rfl, rfl, hD, how, hn, by decide, by decide, hb, ?_⟩
  obtain ⟨c, mem1, e1, hc, _⟩ := C53_history (optA := 1) (alltoall := 0) (by omega) (by omega) hpos hx hS hy hSy (by omega) hD how (fun _ _ => rfl)
    (fun _ _ _ _ => by simp) multBinary_spec (Or.inr fun _ _ _ => rfl) (κ := id) (fun _ _ _ _ _ _ _ => rfl) hb
  refine ⟨c, mem1, e1, ?_, fun r _ => exState_mem _ _, fun _ _ _ => rfl, fun _ _ _ _ _ => rfl, fun r hr => ⟨?_, ?_⟩⟩
  · rw [(hc 0 (by omega)).2.2.1]
    unfold Conv2.newThreads
    rw [if_neg]
    rw [hl 0 (by omega)]; omega
  · intro rx _
    show Sch.Legal _ (part ((c r).x.fft.l * 1) 2 r) (c r).threads
    rw [(hc r hr).1, hl r hr, (hc r hr).2.2.1]
    have h2 : part (2 * 1) 2 r = 1 := by interval_cases r <;> rfl
    have h3 : 0 < Conv2.newThreads (tx r).base (2 - r) := by
      unfold Conv2.newThreads
      split_ifs <;> omega
    rw [h2]
    refine ⟨by beta_reduce; decide, ?_⟩
    simp
    exact h3
  · have hxf := (hc r hr).1
    refine ⟨?_, ?_, ?_, ?_⟩
    · show (c r).x.fft.A ≤ _
      rw [hxf, (f r hr).bA]; decide
    · intro a _ i hi
      have hi : i < (c r).x.fft.S * (c r).x.fft.L := hi
      rw [hxf, (f r hr).bS, (f r hr).bL, hS r hr] at hi
      have := hple r hr
      constructor
      · show (0 : ℤ) ≤ 0 + (3 : ℕ) + i
        omega
      · show (0 : ℤ) + (3 : ℕ) + i < (100 : ℕ)
        omega
    · intro a _ a' _ hne p h1 h2
      have e1 := FftBase.data_buf h1
      have e2 := FftBase.data_buf h2
      exact hne (e1.symm.trans e2)
    · intro a ha hB
      have ha : a < (c r).x.fft.A := ha
      rw [hxf, (f r hr).bA] at ha
      have ha : a < 2 := ha
      rcases hB with hB | ⟨a', ha', hB⟩
      · have h1 : Conv2.NewBufs (tx r).base ty.base (2 - r) none none (exAlloc2 0) a := (hc r hr).2.2.2 _ hB
        have := exNewBufs2 ((hA r hr).trans (by omega)) hA' h1
        omega
      · have hB : a = 5 + a' := hB
        omega

end Fftwpp
