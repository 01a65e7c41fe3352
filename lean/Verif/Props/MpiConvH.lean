import Verif.Props.MpiConv
import Verif.Props.HermConv2

/-!
# C54: the distributed two-dimensional convolution of Hermitian-symmetric data
-/

namespace Fftwpp
open Finset Net

/-- **C54**, general form, with the analogues of C12, C13 and C15.  `P` processes, each of which constructs the transforms as in
mpi/tests/hybridconvh2.cc: a centered one in `x` of length `Lx` on its `d.y` of the `H=⌈Ly/2⌉` stored columns, contiguous, and a Hermitian one
in `y` of length `Ly`; parameters valid, `D=1` and no overwriting in `x`; every process has a column.  For every real operation `φ` performed by the
multiplier (which is told the frequency `κ e` for `e` in `x`, see C53), any number of threads and any schedule of the inner convolutions in every process, every
algorithm of the transpose, any contents of the work arrays, and any history of collective calls and of writes by the processes: all orders of
execution of the processes and all choices of the MPI library end, with every process finished and no message in transit, and so does the call of
`convolve` that follows.  If the processes then held their columns of global arrays `D a` that are Hermitian symmetric in the line `j=0`, the call
leaves in the outputs the columns of the inverse transform of `φ` applied to the transforms of the arrays represented by the `D a`; they are again
Hermitian symmetric in the line `j=0` up to the unpaired row of an even `Lx`.  Nothing but the outputs and the work arrays is changed in any
process. -/
theorem C54_history {P optA alltoall : ℕ} {Lx Mx Ly My A B H : ℕ} {owx owy ipx ipy : Bool} {Sx : ℕ → ℕ} {mx Dx my Dy align : ℕ} {J : Junk}
    {tx : ℕ → Tr} {o : Herm} (hal : 0 < align) (hDy : 0 < Dy) (hH : H = ceilquotient Ly 2) (hP : 0 < P) (hoA : 1 ≤ optA)
    (hcol : ∀ r < P, 0 < part H P r)
    (hx : ∀ r < P, Tr.new true Lx Mx ⟨A, B, owx⟩ (part H P r) (Sx r) mx Dx ipx = .ok (tx r)) (hSx : ∀ r < P, (tx r).fft.S = part H P r)
    (hy : Herm.new Ly My ⟨A, B, owy⟩ 1 my Dy ipy align J = .ok o)
    (hBA : B ≤ A) (hDx : (tx 0).fft.D = 1) (how : (tx 0).fft.overwrite = false) (hlx : (tx 0).fft.nloops = 2 → B < A → A = B + 1)
    (hly : o.q ≠ 1 → o.nloops = 2 → B < A → (A - B) ∣ B)
    {mult : Multiplier} {φ : List ℕ → ℕ → (ℕ → ℝ) → ℝ} (hm : RMultSpec A B o.index mult φ)
    {κ : ℕ → ℕ} (hκ : ∀ rx ∈ (tx 0).base.residues, ∀ r < P, ∀ i < part (tx 0).base.l P r, ∀ ey,
      φ [ey, (tx 0).base.index rx i] = φ [ey, κ ((tx 0).base.index rx (first (tx 0).base.l P r + i))])
    {th : ℕ → ℕ} {mem0 : ℕ → Mem} {Fu : ℕ → PtrArr} {Vu : ℕ → Option Ptr} {al : ℕ → Alloc2} {wrk : ℕ → ℕ → Ptr}
    (hbuf : DBuffers P (tx 0).base.l (fun r => (tx r).base) o.base (fun m al => o.view.Buffers o.base m none none al) th mem0 Fu Vu al wrk) :
    ∃ (c : ℕ → Conv2) (mem1 : ℕ → Mem),
      (∀ r < P, Conv2.new (tx r).base o.base mult (th r) (some (Fu r)) none (Vu r) (al r) (mem0 r) = .ok (c r, mem1 r)) ∧
      (∀ r < P, (c r).x.fft = (tx r).base ∧ (c r).ffty = o.base ∧ (c r).threads = Conv2.newThreads (tx r).base (th r) ∧
        ∀ k, (c r).Bufs k → Conv2.NewBufs (tx r).base o.base (th r) (some (Fu r)) (Vu r) (al r) k) ∧
      (∀ r < P, (mem1 r).size = (mem0 r).size ∧
        ∀ p, ¬ Conv2.NewBufs (tx r).base o.base (th r) (some (Fu r)) (Vu r) (al r) p.buf → (mem1 r).val p = (mem0 r).val p) ∧
      ∀ M, M = objects P optA alltoall c wrk →
      ∀ steps : List Conv2MPI.Step, (∀ s ∈ steps, Conv2MPI.Allowed P M mem0 s) →
      ∀ (e : Eager) (σ : ℕ → Local ℂ), (∀ r < P, mmem (σ r) = mem1 r) → (∀ r < P, ∀ id, (σ r).req id = none) → Balanced P σ →
      AllRuns e (start P (fun r => Conv2MPI.stepsProg M r steps) σ) fun f2 => Finished P f2 ∧
        ∀ (s : ℕ → ℕ → Sch) (f : ℕ → PtrArr) (off : ℕ → ℕ), (∀ r < P, (M r).LegalS (s r) ∧ (M r).Inputs (mem0 r) (f r) (off r)) →
        ∀ D : ℕ → ℕ → ℕ → ℂ,
          (∀ r < P, ∀ a < A, ∀ i < Lx, ∀ j < part H P r,
            (mmem (f2 r).loc).val ((f r).at_ a + off r + (part H P r * i + j)) = D a i (first H P r + j)) →
        AllRuns e (start P (fun r => (M r).convolve (s r) (f r) (off r)) fun r => (f2 r).loc) fun f3 => Finished P f3 ∧
          ((∀ a < A, HermData2 Lx (Lx / 2) (D a)) →
            (∀ r < P, ∀ b < B, ∀ i < Lx, ∀ j < part H P r, (mmem (f3 r).loc).val ((f r).at_ b + off r + (part H P r * i + j)) =
              hermResult2 (mx * (tx 0).fft.q) Lx (Lx / 2) (my * o.q) H (fun kx ky => φ [ky, κ kx]) D b ((i : ℤ) - (Lx / 2 : ℕ)) (first H P r + j : ℕ)) ∧
            (∀ r < P, first H P r = 0 → ∀ b < B, ∀ i < Lx, ∀ i' < Lx, (i : ℤ) - (Lx / 2 : ℕ) = -((i' : ℤ) - (Lx / 2 : ℕ)) →
              (mmem (f3 r).loc).val ((f r).at_ b + off r + (part H P r * i + 0)) =
                (starRingEnd ℂ) ((mmem (f3 r).loc).val ((f r).at_ b + off r + (part H P r * i' + 0))))) ∧
          ∀ r < P, (mmem (f3 r).loc).size = (mmem (f2 r).loc).size ∧ ∀ p, ¬ (M r).Bufs p.buf →
            (∀ b < B, ∀ i < Lx, ∀ j < part H P r, p ≠ (f r).at_ b + off r + (part H P r * i + j)) →
            (mmem (f3 r).loc).val p = (mmem (f2 r).loc).val p := by
  have h := Herm.WF.of_new (by omega) hal hy
  obtain ⟨hL, hmm, hCC, _, _, hA, hB, hDD, _⟩ := Herm.new_fields hy
  have hA : o.A = A := hA
  have hB : o.B = B := hB
  have hoH : o.H = H := by rw [hH, ← hL]; rfl
  have hH0 : 0 < H := by rw [← hoH]; exact h.H_facts.1
  have hD0 : 0 < o.D := by omega
  have hoM : o.M = my * o.q := by rw [h.M_eq, hmm]
  have bLy : o.base.L = H := hoH
  have bNy : o.base.N = my * o.q := hoM
  have g := Tr.facts (hcol 0 hP) (hx 0 hP)
  have hx0 : Lx / 2 < Lx := by have := g.L_pos; omega
  have hfit := DFits.ofTr (P := P) (optA := optA) (Y := H) (ffty := o.base) (mult := mult) (Dm := RealRows o.A)
    (Rd := fun c => o.view.Ready c (fun _ _ => True)) (BufY := fun m al => o.view.Buffers o.base m none none al)
    (Ψ := hval o.M o.H φ) hP hoA bLy hcol hx hSx hBA hDx how hlx
    (fun {m al} hb => (View.new_ok (Herm.view_spec h hD0) h.q_pos mult hb).mono (by
      rintro c m' ⟨h1, h2, h3, h4, h5, h6, u⟩
      refine ⟨h1, h2, h3, h4, h5, h6, u.mono ?_⟩
      rintro p ⟨W, hW, hp⟩
      exact ⟨W, hW, FftBase.inArr_buf hp⟩))
    (fun {m m' al} hb hs => hb.size hs)
    (fun c hc hmu => by
      have := Herm.inner h hD0 hCC (by rw [hA, hB]; exact hBA) (by rw [hA, hB]; exact hly) hc (φ := φ) (by rw [hmu, hA, hB]; exact hm)
      rw [hA, hB] at this
      rw [bLy, ← hoH, hA]
      exact this)
    (fun rx hrx r hr i hi => by
      unfold hval
      funext b X j
      refine sum_congr rfl fun ey _ => ?_
      rw [hκ rx hrx r hr i hi ey])
    (fun idx b X' Y' hXY j _ => by
      rw [bLy, ← hoH] at hXY
      exact hval_congr hm.congr hXY j)
    (fun X' Y' hXY hX a ha => by
      rw [bLy] at hXY
      rw [← hXY a (by omega) 0 hH0]
      exact hX a ha)
  obtain ⟨c, mem1, e1, hu1, hc, Hh⟩ := hfit.history (alltoall := alltoall) hbuf
  refine ⟨c, mem1, e1, hc, fun r hr => ⟨(hu1 r hr).size, (hu1 r hr).frame⟩, ?_⟩
  intro M hM steps hst e σ h1 h2 h3
  refine (Hh M hM steps hst e σ h1 h2 h3).mono ?_
  rintro f2 ⟨fin2, H2⟩
  refine ⟨fin2, ?_⟩
  intro s f off hsf D hD
  have hD' : ∀ a < A, DConv.Holds P o.base.L Lx (fun r => mmem (f2 r).loc) f off D a := by
    intro a ha r hr i hi j hj
    rw [bLy] at hj ⊢
    exact hD r hr a ha i hi j hj
  refine (H2 s f off hsf D hD').mono ?_
  rintro f3 ⟨fin3, v3, u3⟩
  rw [bLy] at v3 u3
  refine ⟨fin3, ?_, u3⟩
  intro hd
  have hv : ∀ r < P, ∀ b < B, ∀ i < Lx, ∀ j < part H P r, (mmem (f3 r).loc).val ((f r).at_ b + off r + (part H P r * i + j)) =
      hermResult2 (mx * (tx 0).fft.q) Lx (Lx / 2) (my * o.q) H (fun kx ky => φ [ky, κ kx]) D b ((i : ℤ) - (Lx / 2 : ℕ)) (first H P r + j : ℕ) := by
    intro r hr b hb i hi j hj
    rw [v3 ?_ r hr b hb i hi j hj, bNy, hermResult2_eq hx0]
    · unfold DConv.valD hval hermResult hatD
      rw [hoM, hoH, ← one_div_mul_one_div, if_pos rfl]
      rw [mul_comm, mul_assoc]
      congr 1
      rw [mul_sum]
      refine sum_congr rfl fun e _ => ?_
      unfold cdft
      ring
    · intro e a ha
      rw [if_pos rfl]
      exact (hd a (by omega)).real hx0 e
  refine ⟨hv, ?_⟩
  intro r hr h0 b hb i hi i' hi' hii
  have := hcol r hr
  rw [hv r hr b hb i hi 0 this, hv r hr b hb i' hi' 0 this, hii, h0]
  exact hermResult2_real hx0 _

/-- **C54**: `realMultBinary`, `A=2`, `B=1`: every process ends with its columns of the cyclic convolution of the arrays represented by the Hermitian
global arrays `D 0`, `D 1`, and of the linear one if `3⌈Ly/2⌉-2 ≤ My`, `2(⌈Lx/2⌉-1)+⌊Lx/2⌋ < Mx` and, for even `Lx`, the unpaired row of each input
is zero. -/
theorem C54_convolve {P optA alltoall : ℕ} {Lx Mx Ly My H : ℕ} {owx owy ipx ipy : Bool} {Sx : ℕ → ℕ} {mx Dx my Dy align : ℕ} {J : Junk}
    {tx : ℕ → Tr} {o : Herm} (hal : 0 < align) (hDy : 0 < Dy) (hH : H = ceilquotient Ly 2) (hP : 0 < P) (hoA : 1 ≤ optA)
    (hcol : ∀ r < P, 0 < part H P r)
    (hx : ∀ r < P, Tr.new true Lx Mx ⟨2, 1, owx⟩ (part H P r) (Sx r) mx Dx ipx = .ok (tx r)) (hSx : ∀ r < P, (tx r).fft.S = part H P r)
    (hy : Herm.new Ly My ⟨2, 1, owy⟩ 1 my Dy ipy align J = .ok o)
    (hDx : (tx 0).fft.D = 1) (how : (tx 0).fft.overwrite = false)
    {th : ℕ → ℕ} {mem0 : ℕ → Mem} {Fu : ℕ → PtrArr} {Vu : ℕ → Option Ptr} {al : ℕ → Alloc2} {wrk : ℕ → ℕ → Ptr}
    (hbuf : DBuffers P (tx 0).base.l (fun r => (tx r).base) o.base (fun m al => o.view.Buffers o.base m none none al) th mem0 Fu Vu al wrk) :
    ∃ (c : ℕ → Conv2) (mem1 : ℕ → Mem),
      (∀ r < P, Conv2.new (tx r).base o.base realMultBinary (th r) (some (Fu r)) none (Vu r) (al r) (mem0 r) = .ok (c r, mem1 r)) ∧
      ∀ M, M = objects P optA alltoall c wrk →
      ∀ steps : List Conv2MPI.Step, (∀ s ∈ steps, Conv2MPI.Allowed P M mem0 s) →
      ∀ (e : Eager) (σ : ℕ → Local ℂ), (∀ r < P, mmem (σ r) = mem1 r) → (∀ r < P, ∀ id, (σ r).req id = none) → Balanced P σ →
      AllRuns e (start P (fun r => Conv2MPI.stepsProg M r steps) σ) fun f2 => Finished P f2 ∧
        ∀ (s : ℕ → ℕ → Sch) (f : ℕ → PtrArr) (off : ℕ → ℕ), (∀ r < P, (M r).LegalS (s r) ∧ (M r).Inputs (mem0 r) (f r) (off r)) →
        ∀ D : ℕ → ℕ → ℕ → ℂ,
          (∀ r < P, ∀ a < 2, ∀ i < Lx, ∀ j < part H P r,
            (mmem (f2 r).loc).val ((f r).at_ a + off r + (part H P r * i + j)) = D a i (first H P r + j)) →
          (∀ a < 2, HermData2 Lx (Lx / 2) (D a)) →
        AllRuns e (start P (fun r => (M r).convolve (s r) (f r) (off r)) fun r => (f2 r).loc) fun f3 => Finished P f3 ∧
          ∀ r < P, ∀ i < Lx, ∀ j < part H P r,
            (mmem (f3 r).loc).val ((f r).at_ 0 + off r + (part H P r * i + j)) =
              hermConv2 (mx * (tx 0).fft.q) Lx (Lx / 2) (my * o.q) H (D 0) (D 1) ((i : ℤ) - (Lx / 2 : ℕ)) (first H P r + j : ℕ) ∧
            ((Lx % 2 = 0 → ∀ a < 2, ∀ j < H, D a 0 j = 0) → 2 * ((Lx + 1) / 2 - 1) + Lx / 2 < Mx → 3 * H ≤ My + 2 →
              (mmem (f3 r).loc).val ((f r).at_ 0 + off r + (part H P r * i + j)) =
              hermLin2 Lx (Lx / 2) H (D 0) (D 1) ((i : ℤ) - (Lx / 2 : ℕ)) (first H P r + j : ℕ)) := by
  have h := Herm.WF.of_new (by omega) hal hy
  obtain ⟨hL, hmm, _⟩ := Herm.new_fields hy
  have g := Tr.facts (hcol 0 hP) (hx 0 hP)
  have hLx := g.L_pos
  have hx0 : Lx / 2 < Lx := by omega
  have hN : mx * (tx 0).fft.q ≠ 0 := (Nat.mul_pos g.m_pos g.q_pos).ne'
  have hN' : my * o.q ≠ 0 := by
    have h1 := h.L_pos
    have h2 := h.L_le_M
    rw [← hmm, ← h.M_eq]
    omega
  obtain ⟨c, mem1, e1, _, _, Hh⟩ := C54_history (alltoall := alltoall) hal hDy hH hP hoA hcol hx hSx hy (by omega) hDx how (fun _ _ => rfl) (fun _ _ _ => by simp)
    realMultBinary_spec (κ := id) (fun _ _ _ _ _ _ _ => rfl) hbuf
  refine ⟨c, mem1, e1, ?_⟩
  intro M hM steps hst e σ h1 h2 h3
  refine (Hh M hM steps hst e σ h1 h2 h3).mono ?_
  rintro f2 ⟨fin2, H2⟩
  refine ⟨fin2, ?_⟩
  intro s f off hsf D hD hd
  refine (H2 s f off hsf D hD).mono ?_
  rintro f3 ⟨fin3, v3, _⟩
  refine ⟨fin3, ?_⟩
  intro r hr i hi j hj
  have := ((v3 hd).1 r hr 0 (by omega) i hi j hj).trans (hermResult2_binary hx0 hN hN' _ (hd 0 (by omega)) (hd 1 (by omega)) _)
  refine ⟨this, fun hz k1 k2 => ?_⟩
  rw [this]
  refine hermConv2_linear (fun he => hz he 0 (by omega)) (fun he => hz he 1 (by omega)) ?_ ?_ hi (first_lt hP hr hj)
  · exact lt_of_lt_of_le k1 g.size
  · have := Herm.new_size hy
    omega

/-- `HermitianSymmetrizeX(d,f)`, called by every process with its columns, establishes what C54 requires of the inputs: afterwards the processes hold the
columns of an array that is Hermitian symmetric in the line `j=0` and, for even `Lx`, has zeros in the unpaired row; it has the given values in the columns
`j > 0` (but for that row) and at the positions `x > 0` of column 0.  No process changes anything else. -/
theorem C54_symmetrized {P Lx H : ℕ} (hP : 0 < P) (hL : 0 < Lx) (hcol : ∀ r < P, 0 < part H P r) {f : ℕ → Ptr} {m : ℕ → Mem}
    (hb : ∀ r < P, (m r).block (f r) (part H P r * Lx)) {D : ℕ → ℕ → ℂ}
    (hD : ∀ r < P, ∀ i < Lx, ∀ j < part H P r, (m r).val (f r + (part H P r * i + j)) = D i (first H P r + j)) :
    ∃ (m' : ℕ → Mem) (D' : ℕ → ℕ → ℂ), (∀ r < P, hermitianSymmetrizeXd Lx (part H P r) (first H P r) (f r) (m r) = .ok ((), m' r)) ∧
      (∀ r < P, ∀ i < Lx, ∀ j < part H P r, (m' r).val (f r + (part H P r * i + j)) = D' i (first H P r + j)) ∧
      HermData2 Lx (Lx / 2) D' ∧ (Lx % 2 = 0 → ∀ j < H, D' 0 j = 0) ∧
      (∀ i < Lx, ∀ j < H, 0 < j → (Lx % 2 = 0 → 0 < i) → D' i j = D i j) ∧ (∀ i < Lx, Lx / 2 < i → D' i 0 = D i 0) ∧
      D' (Lx / 2) 0 = ((D (Lx / 2) 0).re : ℂ) ∧
      ∀ r < P, (m' r).size = (m r).size ∧ ∀ p, (∀ i < Lx, ∀ j < part H P r, p ≠ f r + (part H P r * i + j)) → (m' r).val p = (m r).val p := by
  have hc : ceilquotient Lx 2 = (Lx + 1) / 2 := by unfold ceilquotient; omega
  have hH : 0 < H := by
    have := hcol 0 hP
    have := (ld_has H P hP).2.2.2 0 hP
    have : part H P 0 ≤ H := this
    omega
  have key : ∀ r < P, ∃ m' : Mem, hermitianSymmetrizeXd Lx (part H P r) (first H P r) (f r) (m r) = .ok ((), m') ∧ m'.size = (m r).size ∧
      (first H P r = 0 → HermData2 Lx (Lx / 2) (fun i j => m'.val (f r + (part H P r * i + j))) ∧
        (∀ i < Lx, Lx / 2 < i → m'.val (f r + (part H P r * i + 0)) = (m r).val (f r + (part H P r * i + 0))) ∧
        m'.val (f r + (part H P r * (Lx / 2) + 0)) = (((m r).val (f r + (part H P r * (Lx / 2) + 0))).re : ℂ)) ∧
      (Lx % 2 = 0 → ∀ j < part H P r, m'.val (f r + (part H P r * 0 + j)) = 0) ∧
      (∀ i < Lx, ∀ j < part H P r, 0 < first H P r + j → (Lx % 2 = 0 → 0 < i) → m'.val (f r + (part H P r * i + j)) = (m r).val (f r + (part H P r * i + j))) ∧
      ∀ p, (∀ i < Lx, ∀ j < part H P r, p ≠ f r + (part H P r * i + j)) → m'.val p = (m r).val p := by
    intro r hr
    have hy := hcol r hr
    have hbl := hb r hr
    generalize part H P r = y at *
    have hbl' : (m r).block (f r) (y * (Lx / 2 + (Lx + 1) / 2 - 1) + y) := by
      have e : Lx / 2 + (Lx + 1) / 2 - 1 = Lx - 1 := by omega
      rw [e, ← Nat.mul_succ, Nat.succ_eq_add_one, Nat.sub_add_cancel (by omega)]
      exact hbl
    have inj : ∀ {i j i' j' : ℕ}, j < y → j' < y → f r + (y * i + j) = f r + (y * i' + j') → i = i' ∧ j = j' := by
      intro i j i' j' h1 h2 h3
      rw [Ptr.add_inj] at h3
      exact radix_inj h1 h2 h3
    unfold hermitianSymmetrizeXd
    rw [hc]
    by_cases h0 : first H P r = 0
    · rw [if_pos h0]
      obtain ⟨m', e, h1, _⟩ := C44_symmetrized (m := m r) (f := f r) hL hy le_rfl (by
        rw [← Nat.mul_succ, Nat.succ_eq_add_one, Nat.sub_add_cancel (by omega)]; exact hbl)
      obtain ⟨m'', e2, s2, _, v2, w2, z2, u2, _⟩ := C21_symmetrizeX (Hx := (Lx + 1) / 2) (Hy := y) (x0 := Lx / 2) (Sx := y) (f := f r) (m := m r)
        (by omega) (by omega) (by omega) le_rfl hbl'
      rw [hc] at e
      obtain rfl : m' = m'' := by
        have := e.symm.trans e2
        simpa using this
      refine ⟨m', e2, s2, fun _ => ⟨h1, ?_, ?_⟩, ?_, ?_, ?_⟩
      · intro i hi hi'
        have := v2 (i - Lx / 2) (by omega) (by omega)
        rw [show Lx / 2 + (i - Lx / 2) = i by omega] at this
        simpa using this
      · simpa using w2
      · intro he j hj
        simpa using z2 (by omega) j hj
      · intro i hi j hj hj0 hi0
        refine u2 _ ?_ ?_
        · intro s hs h3
          have := inj (i' := Lx / 2 - s) (j' := 0) hj hy (by simpa using h3)
          omega
        · intro he j' hj' h3
          have := inj (i' := 0) (j' := j') hj hj' (by simpa using h3)
          have := hi0 (by omega)
          omega
      · intro p hp
        refine u2 _ ?_ ?_
        · intro s hs h3
          exact hp (Lx / 2 - s) (by omega) 0 hy (by simpa using h3)
        · intro he j' hj' h3
          exact hp 0 hL j' hj' (by simpa using h3)
    · rw [if_neg h0]
      by_cases he : Lx / 2 = (Lx + 1) / 2
      · rw [if_pos he]
        suffices h : (par (rng 0 y) fun j => store (f r + j) 0).Ok (m r) fun _ m' => m'.size = (m r).size ∧
            (∀ j < y, m'.val (f r + j) = 0) ∧ ∀ p, (∀ j < y, p ≠ f r + j) → m'.val p = (m r).val p by
          obtain ⟨⟨⟩, m', e, s, z, u⟩ := h
          refine ⟨m', e, s, fun h => absurd h h0, ?_, ?_, ?_⟩
          · intro _ j hj
            simpa using z j hj
          · intro i hi j hj _ hi0
            refine u _ fun j' hj' h3 => ?_
            have := inj (i' := 0) (j' := j') hj hj' (by simpa using h3)
            have := hi0 (by omega)
            omega
          · intro p hp
            refine u _ fun j' hj' h3 => ?_
            exact hp 0 hL j' hj' (by simpa using h3)
        refine par_map1 (fun j => f r + j) (fun _ => 0) (rng_nodup ..) ?_ ?_ ?_ ?_ ?_
        · intro j hj
          rw [mem_rng] at hj
          body_simp
          refine hbl j ?_
          have := Nat.mul_le_mul_left y hL
          omega
        · intro j _
          body_simp
        · intro i _ j _ h
          exact (Ptr.add_inj ..).1 h
        · intro i _ j _ _
          body_simp
        intro m2 u2 v2
        refine ⟨u2.size, fun j hj => v2 j (mem_rng.2 ⟨by omega, hj⟩), fun p hp => u2.frame _ ?_⟩
        rintro ⟨j, hj, h3⟩
        exact hp j (mem_rng.1 hj).2 h3
      · rw [if_neg he]
        refine ⟨m r, rfl, rfl, fun h => absurd h h0, fun h => ?_, fun _ _ _ _ _ _ => rfl, fun _ _ => rfl⟩
        omega
  have : Nonempty Mem := ⟨m 0⟩
  choose! m' e1 e2 e3 e4 e5 e6 using key
  obtain ⟨D', hD'⟩ := C53_data_exist (Lx := Lx) (Ly := H) hP m' (fun r => ⟨0, fun _ => f r⟩) (fun _ => 0)
  have hD' : ∀ r < P, ∀ i < Lx, ∀ j < part H P r, (m' r).val (f r + (part H P r * i + j)) = D' 0 i (first H P r + j) := by
    intro r hr i hi j hj
    have := hD' r hr 0 i hi j hj
    simpa [Conv.Ptr.add0] using this
  have hown : ∀ j < H, ∃ r < P, ∃ k < part H P r, j = first H P r + k := by
    intro j hj
    obtain ⟨r, hr, h1, h2⟩ := owner hP hj
    exact ⟨r, hr, j - first H P r, by omega, by omega⟩
  obtain ⟨r0, hr0, k0, hk0, h0⟩ := hown 0 hH
  have hf0 : first H P r0 = 0 := by omega
  obtain rfl : k0 = 0 := by omega
  obtain ⟨s1, s2, s3⟩ := e3 r0 hr0 hf0
  have at0 : ∀ i < Lx, (m' r0).val (f r0 + (part H P r0 * i + 0)) = D' 0 i 0 := fun i hi => by
    have := hD' r0 hr0 i hi 0 hk0
    rwa [hf0] at this
  have at0' : ∀ i < Lx, (m r0).val (f r0 + (part H P r0 * i + 0)) = D i 0 := fun i hi => by
    have := hD r0 hr0 i hi 0 hk0
    rwa [hf0] at this
  refine ⟨m', D' 0, e1, hD', ?_, ?_, ?_, ?_, ?_, fun r hr => ⟨e2 r hr, e6 r hr⟩⟩
  · have hce : ∀ i : ℤ, cext Lx (Lx / 2) (fun a => D' 0 a 0) i = cext Lx (Lx / 2) (fun a => (m' r0).val (f r0 + (part H P r0 * a + 0))) i := by
      intro i
      unfold cext
      split_ifs
      · exact (at0 _ (by omega)).symm
      · rfl
    intro i
    rw [hce, hce]
    exact s1 i
  · intro he j hj
    obtain ⟨r, hr, k, hk, rfl⟩ := hown j hj
    rw [← hD' r hr 0 hL k hk]
    exact e4 r hr he k hk
  · intro i hi j hj hj0 hi0
    obtain ⟨r, hr, k, hk, rfl⟩ := hown j hj
    rw [← hD' r hr i hi k hk, e5 r hr i hi k hk hj0 hi0, hD r hr i hi k hk]
  · intro i hi hi'
    rw [← at0 i hi, s2 i hi hi', at0' i hi]
  · rw [← at0 _ (by omega), s3, at0' _ (by omega)]

/-! ## Examples -/

/-- The work arrays of the example. -/
theorem exDBuffersH {P X : ℕ} {v : View} {fx : ℕ → FftBase} {oy : FftBase} {th : ℕ → ℕ} (hA : ∀ r < P, max (fx r).A (fx r).B ≤ 2)
    (hos : ∀ r < P, (fx r).outputSize ≤ 100) (hL : ∀ r < P, (fx r).S * (fx r).L ≤ 100)
    (hD : ∀ f p, v.D f p → InArr f 100 p) (hA' : max oy.A oy.B ≤ 5) (hos' : oy.outputSize ≤ 100) (hws' : oy.workSizeW ≤ 100)
    (hroom : ∀ r < P, X * part oy.L P r ≤ 100 ∧ part X P r * oy.L ≤ 100) :
    DBuffers P X fx oy (fun m al => v.Buffers oy m none none al) th (fun _ => Fft.exMem 100) (fun r => Conv.newF (fx r) none (exAllocK 0))
      (fun _ => none) (fun _ => exAlloc2 0) (fun _ a => ⟨5 + a, 0⟩) := by
  have hb : ∀ r < P, Conv2.GBuffers (fx r) oy (fun m al => v.Buffers oy m none none al) (th r) (Fft.exMem 100) none none (exAlloc2 0) := fun r hr =>
    exGBuffers2 ((hA r hr).trans (by omega)) (hos r hr) (hL r hr) hD hA' hos' hws'
  refine ⟨fun r hr => ⟨⟨(hb r hr).x.work, (hb r hr).x.V⟩, (hb r hr).y, (hb r hr).sepT, (hb r hr).sepX⟩, fun r hr a ha => ?_, fun r hr a ha => ?_, fun r hr a ha hk => ?_⟩
  · refine ⟨le_rfl, ?_⟩
    show (0 : ℤ) + _ ≤ ((100 : ℕ) : ℤ)
    have := hroom r hr
    have h2 : max (X * part oy.L P r) (part X P r * oy.L) ≤ 100 := max_le this.1 this.2
    omega
  · refine ⟨le_rfl, ?_⟩
    show (0 : ℤ) + _ ≤ ((100 : ℕ) : ℤ)
    have := (hroom r hr).2
    omega
  · have h1 : Conv2.NewBufs (fx r) oy (th r) none none (exAlloc2 0) (5 + a) := hk
    have := exNewBufs2 ((hA r hr).trans (by omega)) hA' h1
    have := hA r hr
    beta_reduce at ha
    omega

set_option maxHeartbeats 1000000 in
/-- The hypotheses of C54 are met: two processes with two columns each; `Lx=4`, `Mx=6`, `mx=2` (out of place), `Ly=7` (four stored columns), `My=20`,
`my=4`, three residue blocks; two threads on process 0; and so are those on the state of the processes and on the arguments of `convolve`; for the
data see `C54_symmetrized`. -/
example (J : Junk) : ∃ (t : Tr) (o : Herm), (∀ r < 2, Tr.new true 4 6 ⟨2, 1, false⟩ (part 4 2 r) 2 2 1 false = .ok t) ∧
    (∀ r < 2, t.fft.S = part 4 2 r) ∧ Herm.new 7 20 ⟨2, 1, true⟩ 1 4 2 false 16 J = .ok o ∧ ceilquotient 7 2 = 4 ∧
    (∀ r < 2, 0 < part 4 2 r) ∧ t.fft.D = 1 ∧ t.fft.overwrite = false ∧ o.nloops = 3 ∧ 2 * ((4 + 1) / 2 - 1) + 4 / 2 < 6 ∧ 3 * 4 ≤ 20 + 2 ∧
    DBuffers 2 t.base.l (fun _ => t.base) o.base (fun m al => o.view.Buffers o.base m none none al) (fun r => 2 - r) (fun _ => Fft.exMem 100)
      (fun _ => Conv.newF t.base none (exAllocK 0)) (fun _ => none) (fun _ => exAlloc2 0) (fun _ a => ⟨5 + a, 0⟩) ∧
    ∃ (c : ℕ → Conv2) (mem1 : ℕ → Mem), (∀ r < 2, Conv2.new t.base o.base realMultBinary (2 - r) (some (Conv.newF t.base none (exAllocK 0))) none none
        (exAlloc2 0) (Fft.exMem 100) = .ok (c r, mem1 r)) ∧ (c 0).threads = 2 ∧
      (∀ r < 2, mmem (exState mem1 r) = mem1 r) ∧ (∀ r < 2, ∀ id, (exState mem1 r).req id = none) ∧ Balanced 2 (exState mem1) ∧
      ∀ r < 2, (objects 2 1 0 c (fun _ a => ⟨5 + a, 0⟩) r).LegalS (fun _ => [(0, 0)]) ∧
        (objects 2 1 0 c (fun _ a => ⟨5 + a, 0⟩) r).Inputs (Fft.exMem 100) (exArr 5) 3 ∧ (Fft.exMem 100).block ((exArr 5).at_ 0 + 3) (part 4 2 r * 4) := by
  obtain ⟨t, hx, hos, hS, hDx, how, hl⟩ : ∃ t, Tr.new true 4 6 ⟨2, 1, false⟩ 2 2 2 1 false = .ok t ∧ t.base.outputSize ≤ 100 ∧ t.fft.S = 2 ∧
      t.fft.D = 1 ∧ t.fft.overwrite = false ∧ t.base.l = 2 := ⟨_, rfl, by show (Fft.outputSize _) ≤ 100; decide, rfl, rfl, by decide, rfl⟩
  obtain ⟨o, hy, hq, hn, hA, hB, hC, hD, hos', hws, hil⟩ : ∃ o, Herm.new 7 20 ⟨2, 1, true⟩ 1 4 2 false 16 J = .ok o ∧ o.q = 5 ∧ o.R = 3 ∧ o.A = 2 ∧
      o.B = 1 ∧ o.C = 1 ∧ o.D = 2 ∧ o.outputSize ≤ 100 ∧ o.workSizeW ≤ 100 ∧ o.inputLength ≤ 100 := by
    refine ⟨Herm.newHybrid 7 ⟨2, 1, true⟩ 1 4 2 2 5 5 false 16 J, rfl, rfl, rfl, rfl, rfl, rfl, rfl, ?_, ?_, ?_⟩ <;>
      simp [Herm.inputLength, Herm.newHybrid, Fft.outputSize, Herm.workSizeW, align, ceilquotient]
  have hH : o.H = 4 := by
    obtain ⟨hL, _⟩ := Herm.new_fields hy
    have : o.H = ceilquotient o.L 2 := rfl
    rw [this, hL]; rfl
  have hpe : ∀ r < 2, part 4 2 r = 2 := by intro r hr; interval_cases r <;> rfl
  have hxr : ∀ r < 2, Tr.new true 4 6 ⟨2, 1, false⟩ (part 4 2 r) 2 2 1 false = .ok t := fun r hr => by rw [hpe r hr]; exact hx
  have hSr : ∀ r < 2, t.fft.S = part 4 2 r := fun r hr => by rw [hpe r hr]; exact hS
  have hpos : ∀ r < 2, 0 < part 4 2 r := fun r hr => by rw [hpe r hr]; omega
  have f := Tr.facts (by omega) hx
  have h := Herm.WF.of_new (by decide) (by decide) hy
  have hA2 : max t.base.A t.base.B ≤ 2 := by rw [f.bA, f.bB]; decide
  have hAB : max o.base.A o.base.B ≤ 5 := by
    show max o.A o.B ≤ 5
    rw [hA, hB]; decide
  have hDD : ∀ f p, o.view.D f p → InArr f 100 p := by
    rintro f p ⟨i, hi, rfl⟩
    rw [hC, Nat.one_mul] at hi
    exact ⟨i, by omega, rfl⟩
  have hb := exDBuffersH (P := 2) (X := t.base.l) (v := o.view) (fx := fun _ => t.base) (oy := o.base) (th := fun r => 2 - r) (fun _ _ => hA2) (fun _ _ => hos)
    (fun r hr => by beta_reduce; rw [f.bS, f.bL, hS]; omega) hDD hAB hos' hws
    (fun r hr => by
      show t.base.l * part o.H 2 r ≤ 100 ∧ part t.base.l 2 r * o.H ≤ 100
      rw [hH, hl, hpe r hr]
      have h2 : part 2 2 r = 1 := by interval_cases r <;> rfl
      rw [h2]; omega)
  refine ⟨t, o, hxr, hSr, hy, rfl, hpos, hDx, how, by rw [h.nloops_eq, hn], by decide, by decide, hb, ?_⟩
  obtain ⟨c, mem1, e1, hc, _⟩ := C54_history (P := 2) (H := 4) (Ly := 7) (tx := fun _ => t) (optA := 1) (alltoall := 0) (by decide) (by decide) rfl (by omega) (by omega) hpos hxr hSr hy (by omega) hDx how
    (fun _ _ => rfl) (fun _ _ _ => by simp) realMultBinary_spec (κ := id) (fun _ _ _ _ _ _ _ => rfl) hb
  refine ⟨c, mem1, e1, ?_, fun r _ => exState_mem _ _, fun _ _ _ => rfl, fun _ _ _ _ _ => rfl, fun r hr => ⟨?_, ?_, ?_⟩⟩
  · rw [(hc 0 (by omega)).2.2.1]
    unfold Conv2.newThreads
    rw [if_neg]
    rw [hl]; omega
  · intro rx _
    show Sch.Legal _ (part ((c r).x.fft.l * 1) 2 r) (c r).threads
    rw [(hc r hr).1, hl, (hc r hr).2.2.1]
    have h2 : part (2 * 1) 2 r = 1 := by interval_cases r <;> rfl
    have h3 : 0 < Conv2.newThreads t.base (2 - r) := by
      unfold Conv2.newThreads
      split_ifs <;> omega
    rw [h2]
    refine ⟨by beta_reduce; decide, ?_⟩
    simp
    exact h3
  · have hxf := (hc r hr).1
    refine ⟨?_, ?_, ?_, ?_⟩
    · show (c r).x.fft.A ≤ _
      rw [hxf, f.bA]; decide
    · intro a _ i hi
      have hi : i < (c r).x.fft.S * (c r).x.fft.L := hi
      rw [hxf, f.bS, f.bL, hS] at hi
      constructor
      · show (0 : ℤ) ≤ 0 + (3 : ℕ) + i
        omega
      · show (0 : ℤ) + (3 : ℕ) + i < (100 : ℕ)
        omega
    · intro a _ a' _ hne p h1 h2
      have e1 := FftBase.data_buf h1
      have e2 := FftBase.data_buf h2
      exact hne (e1.symm.trans e2)
    · intro a ha hB
      have ha : a < (c r).x.fft.A := ha
      rw [hxf, f.bA] at ha
      have ha : a < 2 := ha
      rcases hB with hB | ⟨a', ha', hB⟩
      · have h1 : Conv2.NewBufs t.base o.base (2 - r) none none (exAlloc2 0) a := (hc r hr).2.2.2 _ hB
        have := exNewBufs2 (hA2.trans (by omega)) hAB h1
        omega
      · have hB : a = 5 + a' := hB
        omega
  · intro i hi
    rw [hpe r hr] at hi
    constructor
    · show (0 : ℤ) ≤ 0 + (3 : ℕ) + i
      omega
    · show (0 : ℤ) + (3 : ℕ) + i < (100 : ℕ)
      omega

end Fftwpp
