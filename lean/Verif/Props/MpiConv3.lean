import Verif.Proof.MpiSlab10
import Verif.Props.MpiConv

/-!
# C55: the distributed three-dimensional convolution `Convolution3MPI`, slab decomposition
-/

namespace Fftwpp
open Finset Net

/-- The object of each process: process `r` of `P`, with base class object `c r` and transpose work arrays `wrk r`; the transposes use the
algorithm selected by `optA` and `alltoall`. -/
def objects3 (P optA alltoall : ℕ) (c : ℕ → Conv3) (wrk : ℕ → ℕ → Ptr) : ℕ → Conv3MPI := fun r => Conv3MPI.new (c r) 1 P r optA alltoall (wrk r)

/-- The inner transforms fit together. -/
theorem Conv2.gfitsTr {cx cy : Bool} {Lx Mx Ly My A B : ℕ} {owx owy ipx ipy : Bool} {Sx mx Dx Sy my Dy : ℕ} {tx ty : Tr} (hLy : 0 < Ly)
    (hx : Tr.new cx Lx Mx ⟨A, B, owx⟩ Ly Sx mx Dx ipx = .ok tx) (hy : Tr.new cy Ly My ⟨A, B, owy⟩ 1 Sy my Dy ipy = .ok ty)
    (hSy : ty.fft.S = 1) (hBA : B ≤ A) (hDx : tx.fft.D = 1)
    (hlx : tx.fft.overwrite = false → tx.fft.nloops = 2 → B < A → A = B + 1)
    (hly : ty.fft.q ≠ 1 → ty.fft.overwrite = false → ty.fft.nloops = 2 → B < A → (A - B) ∣ B)
    {mult : Multiplier} {φ : List ℕ → ℕ → (ℕ → ℂ) → ℂ} (hm : MultSpec A B ty.fft.index mult φ)
    (hfreq : (ty.fft.D0 = 1 ∧ (ty.fft.overwrite = true → ty.fft.n = 2)) ∨ ∀ e e' idx, φ (e :: idx) = φ (e' :: idx))
    (hfreqx : tx.fft.overwrite = true → tx.fft.n = 2 ∨ ∀ ey e e' idx, φ (ey :: e :: idx) = φ (ey :: e' :: idx)) :
    Conv2.GFits tx.base ty.base mult (origin cx Lx : ℕ) tx.Padded (ty.base.innerVal (origin cy Ly : ℕ) φ) (fun _ => True)
      (fun c => c.Ready ty.Padded) (fun m al => Conv.Buffers ty.base m none none al) := by
  have f := Tr.facts hLy hx
  have g' := Tr.facts (by omega) hy
  have bLy := g'.bL
  have hm' : MultSpec ty.base.A ty.base.B ty.base.index mult φ := by rw [g'.bA, g'.bB, g'.bindex]; exact hm
  have hf' : ty.base.FreqOK ty.fft.K φ := by
    rcases hfreq with h1 | h1
    · left; unfold Fft.K; rw [if_pos rfl, g'.bow, g'.bn]; exact h1
    · right; exact h1
  refine ⟨f.spec, f.outer hBA hlx, ?_, ?_, ?_, ?_, fun _ _ _ _ => trivial, ?_, by rw [f.bC, bLy], f.bcol, fun r _ => f.bs hDx r⟩
  · intro m al hb
    refine (Conv.new_ok g'.spec (by rw [g'.bq]; exact g'.q_pos) mult hb).mono ?_
    rintro c m' ⟨h1, h2, h3, h4, h5, h6, u⟩
    refine ⟨h1, h2, h3, h4, h5, h6, u.mono ?_⟩
    rintro p ⟨W, hW, hp⟩
    exact ⟨W, hW, FftBase.inArr_buf hp⟩
  · intro m m' al hb hs
    exact ⟨hb.work.size hs, fun h1 h2 h3 => ⟨(hb.V h1 h2 h3).1.size hs, (hb.V h1 h2 h3).2⟩⟩
  · intro c h1 h2
    have := Conv.inner (c := c) (by rw [h1]; exact g'.spec) (by rw [h1]; exact g'.flat rfl hSy) (by rw [h1]; exact g'.sched hly (Or.inl hBA))
      (φ := φ) (by rw [h1, h2]; exact hm') (by rw [h1]; exact hf') (by rw [h1, g'.bA, g'.bB]; exact hBA)
    rw [h1, g'.bA, g'.bB, bLy] at this
    rw [f.bA, f.bB, f.bC, show tx.base.col = fun j => j from funext f.bcol]
    exact this
  · intro idx b X' Y' hXY c _
    rw [f.bC, f.bA] at hXY
    unfold FftBase.innerVal
    refine sum_congr rfl fun e _ => ?_
    congr 1
    refine hm.congr _ _ _ _ fun a ha => ?_
    unfold FftBase.dft
    refine sum_congr rfl fun i hi => ?_
    rw [hXY a ha i (by rw [← bLy]; exact mem_range.1 hi)]
  · intro how
    unfold FftBase.FreqX
    rw [f.bn]
    rcases hfreqx (by rw [← f.bow]; exact how) with h1 | h1
    · exact Or.inl h1
    · right
      intro e e' idx
      funext b X k
      unfold FftBase.innerVal
      refine sum_congr rfl fun ey _ => ?_
      rw [h1 ey e e']

/-- Local and global addresses in a slab of planes of `Z` words. -/
theorem slab_addr {H Z P r j k : ℕ} (hk : k < Z) (hj : j < part H P r) : Z * j + k < wd H Z P r ∧ (st H Z P r + (Z * j + k)) / Z = first H P r + j ∧
    (st H Z P r + (Z * j + k)) % Z = k := by
  have hZ : 0 < Z := by omega
  have e1 : st H Z P r + (Z * j + k) = Z * (first H P r + j) + k := by unfold st; ring
  refine ⟨?_, ?_, ?_⟩
  · unfold wd; rw [Nat.mul_comm (part H P r)]; exact radix_lt hk hj
  · rw [e1, Nat.mul_add_div hZ, Nat.div_eq_of_lt hk, Nat.add_zero]
  · rw [e1, Nat.mul_add_mod, Nat.mod_eq_of_lt hk]

/-- Words of a slab. -/
theorem slab_word {H Z P r c : ℕ} (hc : c < wd H Z P r) : c % Z < Z ∧ c / Z < part H P r ∧ c = Z * (c / Z) + c % Z := by
  have hZ : 0 < Z := by
    rcases Nat.eq_zero_or_pos Z with rfl | h
    · simp [wd] at hc
    · exact h
  exact ⟨Nat.mod_lt _ hZ, Nat.div_lt_of_lt_mul (by rw [Nat.mul_comm]; exact hc), (Nat.div_add_mod _ _).symm⟩

/-- **C55**, general form, with the analogues of C12, C13 and C15.  `P` processes, each of which constructs the transforms as in
mpi/tests/hybridconv3.cc with a slab decomposition: in `x` of length `Lx` on its `d.y` planes of `Lz` words, contiguous (`C=S=d.y*Lz`), in `y` of length `Ly` on
`Lz` words, contiguous, and in `z` of length `Lz`; each of the three may be centered or not; parameters valid, `D=1` and no overwriting in `x`; every process has
a plane.  For every operation `φ` performed by the multiplier, any numbers of threads and any schedules of the inner convolutions in
every process, every algorithm of the transpose, any contents of the work arrays, and any history of collective calls and of writes by the processes: all
orders of execution of the processes and all choices of the MPI library end, with every process finished and no message in transit, and so
does the call of `convolve` that follows.  If the processes then held their slabs of the global arrays `D a`, the call leaves in the outputs the slabs of the
inverse transform of `φ` applied to the transforms of the `D a`.  Here the multiplier is told the frequency `κ e` instead of the frequency `e` in `x`: row `i`
of process `r` is row `first + i` of the block, but the code passes it the index of row `i` (`hκ`).  If `φ` does not depend on the frequency in `x`, or `P=1`, then
`κ` may be the identity; see `C53_frequency_refuted` for the other cases.  Nothing but the outputs and the work arrays is changed in any process. -/
theorem C55_history {P optA alltoall : ℕ} {cx cy cz : Bool} {Lx Mx Ly My Lz Mz A B : ℕ} {owx owy owz ipx ipy ipz : Bool} {Sx : ℕ → ℕ}
    {mx Dx Sy my Dy Sz mz Dz : ℕ} {tx : ℕ → Tr} {ty tz : Tr} (hP : 0 < P) (hoA : 1 ≤ optA) (hLz : 0 < Lz) (hcol : ∀ r < P, 0 < part Ly P r)
    (hx : ∀ r < P, Tr.new cx Lx Mx ⟨A, B, owx⟩ (part Ly P r * Lz) (Sx r) mx Dx ipx = .ok (tx r)) (hSx : ∀ r < P, (tx r).fft.S = part Ly P r * Lz)
    (hy : Tr.new cy Ly My ⟨A, B, owy⟩ Lz Sy my Dy ipy = .ok ty) (hSy : ty.fft.S = Lz)
    (hz : Tr.new cz Lz Mz ⟨A, B, owz⟩ 1 Sz mz Dz ipz = .ok tz) (hSz : tz.fft.S = 1)
    (hBA : B ≤ A) (hDx : (tx 0).fft.D = 1) (hDy : ty.fft.D = 1) (how : (tx 0).fft.overwrite = false)
    (hlx : (tx 0).fft.nloops = 2 → B < A → A = B + 1)
    (hly : ty.fft.overwrite = false → ty.fft.nloops = 2 → B < A → A = B + 1)
    (hlz : tz.fft.q ≠ 1 → tz.fft.overwrite = false → tz.fft.nloops = 2 → B < A → (A - B) ∣ B)
    {mult : Multiplier} {φ : List ℕ → ℕ → (ℕ → ℂ) → ℂ} (hm : MultSpec A B tz.fft.index mult φ)
    (hfreq : (tz.fft.D0 = 1 ∧ (tz.fft.overwrite = true → tz.fft.n = 2)) ∨ ∀ e e' idx, φ (e :: idx) = φ (e' :: idx))
    (hfreqy : ty.fft.overwrite = true → ty.fft.n = 2 ∨ ∀ ez e e' idx, φ (ez :: e :: idx) = φ (ez :: e' :: idx))
    {κ : ℕ → ℕ} (hκ : ∀ rx ∈ (tx 0).base.residues, ∀ r < P, ∀ i < part (tx 0).base.l P r, ∀ ez ey,
      φ [ez, ey, (tx 0).base.index rx i] = φ [ez, ey, κ ((tx 0).base.index rx (first (tx 0).base.l P r + i))])
    {th thy : ℕ → ℕ} {mem0 : ℕ → Mem} {Fu : ℕ → PtrArr} {Vu : ℕ → Option Ptr} {al : ℕ → Alloc3} {wrk : ℕ → ℕ → Ptr}
    (hbuf : DBuffers3 P (tx 0).base.l (fun r => (tx r).base) ty.base tz.base (fun m al => Conv.Buffers tz.base m none none al) th thy mem0 Fu Vu al wrk) :
    ∃ (c : ℕ → Conv3) (mem1 : ℕ → Mem),
      (∀ r < P, Conv3MPI.newBase (tx r).base ty.base tz.base mult (th r) (thy r) (some (Fu r)) none (Vu r) (al r) (mem0 r) = .ok (c r, mem1 r)) ∧
      (∀ r < P, (c r).x.fft = (tx r).base ∧ (c r).ffty = ty.base ∧ (c r).fftz = tz.base ∧ (c r).threads = Conv2.newThreads (tx r).base (th r) ∧
        (∀ t < (c r).threads, ((c r).convyz t).x.fft = ty.base ∧
          ((c r).convyz t).threads = Conv2.newThreads ty.base (Conv3.newThreadsY (tx r).base (th r) (thy r))) ∧
        ∀ k, (c r).Bufs k → Conv3MPI.NewBufs (tx r).base ty.base tz.base (th r) (thy r) (some (Fu r)) (Vu r) (al r) k) ∧
      (∀ r < P, (mem1 r).size = (mem0 r).size ∧
        ∀ p, ¬ Conv3MPI.NewBufs (tx r).base ty.base tz.base (th r) (thy r) (some (Fu r)) (Vu r) (al r) p.buf → (mem1 r).val p = (mem0 r).val p) ∧
      ∀ M, M = objects3 P optA alltoall c wrk →
      ∀ steps : List Conv3MPI.Step, (∀ s ∈ steps, Conv3MPI.Allowed P M mem0 s) →
      ∀ (e : Eager) (σ : ℕ → Local ℂ), (∀ r < P, mmem (σ r) = mem1 r) → (∀ r < P, ∀ id, (σ r).req id = none) → Balanced P σ →
      AllRuns e (start P (fun r => Conv3MPI.stepsProg M r steps) σ) fun f2 => Finished P f2 ∧
        ∀ (s : ℕ → ℕ → Conv3MPI.Sch3) (f : ℕ → PtrArr) (off : ℕ → ℕ), (∀ r < P, (M r).LegalS (s r) ∧ (M r).Inputs (mem0 r) (f r) (off r)) →
        ∀ D : ℕ → ℕ → ℕ → ℕ → ℂ,
          (∀ r < P, ∀ a < A, ∀ i < Lx, ∀ j < part Ly P r, ∀ k < Lz,
            (mmem (f2 r).loc).val ((f r).at_ a + off r + (part Ly P r * Lz * i + (Lz * j + k))) = D a i (first Ly P r + j) k) →
        AllRuns e (start P (fun r => (M r).convolve (s r) (f r) (off r)) fun r => (f2 r).loc) fun f3 => Finished P f3 ∧
          (∀ r < P, ∀ b < B, ∀ i < Lx, ∀ j < part Ly P r, ∀ k < Lz,
            (mmem (f3 r).loc).val ((f r).at_ b + off r + (part Ly P r * Lz * i + (Lz * j + k))) =
            convResultC3 (mx * (tx 0).fft.q) Lx (origin cx Lx) (my * ty.fft.q) Ly (origin cy Ly) (mz * tz.fft.q) Lz (origin cz Lz)
              (fun kx ky kz => φ [kz, ky, κ kx]) D b i (first Ly P r + j) k) ∧
          ∀ r < P, (mmem (f3 r).loc).size = (mmem (f2 r).loc).size ∧ ∀ p, ¬ (M r).Bufs p.buf →
            (∀ b < B, ∀ i < Lx, ∀ j < part Ly P r, ∀ k < Lz, p ≠ (f r).at_ b + off r + (part Ly P r * Lz * i + (Lz * j + k))) →
            (mmem (f3 r).loc).val p = (mmem (f2 r).loc).val p := by
  have f' := Tr.facts hLz hy
  have f'' := Tr.facts (by omega) hz
  have bLy : ty.base.L = Ly := f'.bL
  have bCy : ty.base.C = Lz := f'.bC
  have bNy : ty.base.N = my * ty.fft.q := f'.bN
  have bLz : tz.base.L = Lz := f''.bL
  have bNz : tz.base.N = mz * tz.fft.q := f''.bN
  have hyz := Conv2.gfitsTr hLz hy hz hSz hBA hDy hly hlz hm hfreq hfreqy
  have hfit := DFits3.ofTr (P := P) (optA := optA) (cx := cx) (Lx := Lx) (Mx := Mx) (owx := owx) (ipx := ipx) (Sx := Sx) (mx := mx) (Dx := Dx) (tx := tx) (κ := κ)
    hP hoA (by rw [bLy]; exact hcol) (by rw [bLy, bCy]; exact hx) (by rw [bLy, bCy]; exact hSx) hBA hDx how hlx hyz (by rw [f'.bS, bCy]; exact hSy)
    f'.bA f'.bB (fun rx hrx r hr i hi => by
      funext b X' k
      unfold FftBase.valG FftBase.innerVal
      refine sum_congr rfl fun ey _ => ?_
      congr 1
      refine sum_congr rfl fun ez _ => ?_
      rw [hκ rx hrx r hr i hi ez ey])
  obtain ⟨c, mem1, e1, hu1, hc, H⟩ := hfit.history (alltoall := alltoall) hbuf
  refine ⟨c, mem1, e1, hc, fun r hr => ⟨(hu1 r hr).size, (hu1 r hr).frame⟩, ?_⟩
  intro M hM steps hst e σ h1 h2 h3
  refine (H M hM steps hst e σ h1 h2 h3).mono ?_
  rintro f2 ⟨fin2, H2⟩
  refine ⟨fin2, ?_⟩
  intro s f off hsf D hD
  rw [bLy, bCy] at H2
  have hD' : ∀ a < A, DConv3.Holds P Ly Lz Lx (fun r => mmem (f2 r).loc) f off (fun a i c => D a i (c / Lz) (c % Lz)) a := by
    intro a ha r hr i hi c hc
    obtain ⟨c1, c2, c3⟩ := slab_word hc
    obtain ⟨_, d1, d2⟩ := slab_addr (H := Ly) (P := P) (r := r) c1 c2
    rw [← c3] at d1 d2
    beta_reduce
    rw [d1, d2, ← hD r hr a ha i hi _ c2 _ c1, ← c3]
    rfl
  refine (H2 s f off hsf _ hD').mono ?_
  rintro f3 ⟨fin3, v3, u3⟩
  refine ⟨fin3, ?_, fun r hr => ⟨(u3 r hr).1, fun p hp hpf => (u3 r hr).2 p hp ?_⟩⟩
  · intro r hr b hb i hi j hj k hk
    obtain ⟨d0, d1, d2⟩ := slab_addr (H := Ly) (P := P) (r := r) hk hj
    have := v3 (fun _ _ => trivial) r hr b hb i hi _ d0
    rw [show wd Ly Lz P r = part Ly P r * Lz from rfl] at this
    rw [this, bNy, bNz, convResultC3_eq]
    simp only [convResultC2_eq]
    unfold DConv.valD FftBase.valG FftBase.innerVal convResultC hatD
    rw [bNy, bNz, bCy, ← one_div_mul_one_div]
    simp only [FftBase.dft_cdft bNy bLy, FftBase.dft_cdft bNz bLz, d1, d2]
    rw [mul_comm, mul_assoc]
    congr 1
    rw [mul_sum]
    refine sum_congr rfl fun ex _ => ?_
    rw [← mul_assoc, ← one_div_mul_one_div, mul_assoc (1 / _), mul_sum]
    congr 2
    refine sum_congr rfl fun ey _ => ?_
    rw [← mul_assoc]
    congr 2
    refine sum_congr rfl fun ez _ => ?_
    congr 1
    refine hm.congr _ _ _ _ fun a _ => ?_
    unfold cdft
    refine sum_congr rfl fun k' hk' => ?_
    congr 1
    refine sum_congr rfl fun j' _ => ?_
    congr 1
    refine sum_congr rfl fun i' _ => ?_
    rw [Nat.mul_add_div hLz, Nat.mul_add_mod, Nat.div_eq_of_lt (mem_range.1 hk'), Nat.mod_eq_of_lt (mem_range.1 hk'), Nat.add_zero]
    rfl
  · intro b hb i hi c hc
    obtain ⟨c1, c2, c3⟩ := slab_word hc
    rw [c3]
    exact hpf b hb i hi _ c2 _ c1

/-- **C55**: `multBinary`, `A=2`, `B=1`: every process ends with its slab of the cyclic 3D convolution, with respect to the origins, of the
global arrays `D 0`, `D 1`, and of the linear one for sufficiently large requested sizes. -/
theorem C55_convolve {P optA alltoall : ℕ} {cx cy cz : Bool} {Lx Mx Ly My Lz Mz : ℕ} {owx owy owz ipx ipy ipz : Bool} {Sx : ℕ → ℕ}
    {mx Dx Sy my Dy Sz mz Dz : ℕ} {tx : ℕ → Tr} {ty tz : Tr} (hP : 0 < P) (hoA : 1 ≤ optA) (hLz : 0 < Lz) (hcol : ∀ r < P, 0 < part Ly P r)
    (hx : ∀ r < P, Tr.new cx Lx Mx ⟨2, 1, owx⟩ (part Ly P r * Lz) (Sx r) mx Dx ipx = .ok (tx r)) (hSx : ∀ r < P, (tx r).fft.S = part Ly P r * Lz)
    (hy : Tr.new cy Ly My ⟨2, 1, owy⟩ Lz Sy my Dy ipy = .ok ty) (hSy : ty.fft.S = Lz)
    (hz : Tr.new cz Lz Mz ⟨2, 1, owz⟩ 1 Sz mz Dz ipz = .ok tz) (hSz : tz.fft.S = 1)
    (hDx : (tx 0).fft.D = 1) (hDy : ty.fft.D = 1) (how : (tx 0).fft.overwrite = false)
    {th thy : ℕ → ℕ} {mem0 : ℕ → Mem} {Fu : ℕ → PtrArr} {Vu : ℕ → Option Ptr} {al : ℕ → Alloc3} {wrk : ℕ → ℕ → Ptr}
    (hbuf : DBuffers3 P (tx 0).base.l (fun r => (tx r).base) ty.base tz.base (fun m al => Conv.Buffers tz.base m none none al) th thy mem0 Fu Vu al wrk) :
    ∃ (c : ℕ → Conv3) (mem1 : ℕ → Mem),
      (∀ r < P, Conv3MPI.newBase (tx r).base ty.base tz.base multBinary (th r) (thy r) (some (Fu r)) none (Vu r) (al r) (mem0 r) = .ok (c r, mem1 r)) ∧
      ∀ M, M = objects3 P optA alltoall c wrk →
      ∀ steps : List Conv3MPI.Step, (∀ s ∈ steps, Conv3MPI.Allowed P M mem0 s) →
      ∀ (e : Eager) (σ : ℕ → Local ℂ), (∀ r < P, mmem (σ r) = mem1 r) → (∀ r < P, ∀ id, (σ r).req id = none) → Balanced P σ →
      AllRuns e (start P (fun r => Conv3MPI.stepsProg M r steps) σ) fun f2 => Finished P f2 ∧
        ∀ (s : ℕ → ℕ → Conv3MPI.Sch3) (f : ℕ → PtrArr) (off : ℕ → ℕ), (∀ r < P, (M r).LegalS (s r) ∧ (M r).Inputs (mem0 r) (f r) (off r)) →
        ∀ D : ℕ → ℕ → ℕ → ℕ → ℂ,
          (∀ r < P, ∀ a < 2, ∀ i < Lx, ∀ j < part Ly P r, ∀ k < Lz,
            (mmem (f2 r).loc).val ((f r).at_ a + off r + (part Ly P r * Lz * i + (Lz * j + k))) = D a i (first Ly P r + j) k) →
        AllRuns e (start P (fun r => (M r).convolve (s r) (f r) (off r)) fun r => (f2 r).loc) fun f3 => Finished P f3 ∧
          ∀ r < P, ∀ i < Lx, ∀ j < part Ly P r, ∀ k < Lz,
            (mmem (f3 r).loc).val ((f r).at_ 0 + off r + (part Ly P r * Lz * i + (Lz * j + k))) =
              cyclicConvC3 (mx * (tx 0).fft.q) Lx (origin cx Lx) (my * ty.fft.q) Ly (origin cy Ly) (mz * tz.fft.q) Lz (origin cz Lz) (D 0) (D 1)
                i (first Ly P r + j) k ∧
            (linearSize cx Lx ≤ Mx → linearSize cy Ly ≤ My → linearSize cz Lz ≤ Mz →
              (mmem (f3 r).loc).val ((f r).at_ 0 + off r + (part Ly P r * Lz * i + (Lz * j + k))) =
              linearConvC3 Lx (origin cx Lx) Ly (origin cy Ly) Lz (origin cz Lz) (D 0) (D 1) i (first Ly P r + j) k) := by
  have g := Tr.facts (Nat.mul_pos (hcol 0 hP) hLz) (hx 0 hP)
  have g' := Tr.facts hLz hy
  have g'' := Tr.facts (by omega) hz
  have hN : mx * (tx 0).fft.q ≠ 0 := (Nat.mul_pos g.m_pos g.q_pos).ne'
  have hN' : my * ty.fft.q ≠ 0 := (Nat.mul_pos g'.m_pos g'.q_pos).ne'
  have hN'' : mz * tz.fft.q ≠ 0 := (Nat.mul_pos g''.m_pos g''.q_pos).ne'
  obtain ⟨c, mem1, e1, _, _, H⟩ := C55_history (alltoall := alltoall) hP hoA hLz hcol hx hSx hy hSy hz hSz (by omega) hDx hDy how (fun _ _ => rfl)
    (fun _ _ _ => rfl) (fun _ _ _ _ => by simp)
    multBinary_spec (Or.inr fun _ _ _ => rfl) (fun _ => Or.inr fun _ _ _ _ => rfl) (κ := id) (fun _ _ _ _ _ _ _ _ => rfl) hbuf
  refine ⟨c, mem1, e1, ?_⟩
  intro M hM steps hst e σ h1 h2 h3
  refine (H M hM steps hst e σ h1 h2 h3).mono ?_
  rintro f2 ⟨fin2, H2⟩
  refine ⟨fin2, ?_⟩
  intro s f off hsf D hD
  refine (H2 s f off hsf D hD).mono ?_
  rintro f3 ⟨fin3, v3, _⟩
  refine ⟨fin3, ?_⟩
  intro r hr i hi j hj k hk
  have := (v3 r hr 0 (by omega) i hi j hj k hk).trans (convResultC3_binary hN hN' hN'' _ i _ k)
  refine ⟨this, fun k1 k2 k3 => ?_⟩
  rw [this]
  obtain ⟨a1, a2⟩ := linearSize_le g.L_pos (k1.trans g.size)
  obtain ⟨b1, b2⟩ := linearSize_le g'.L_pos (k2.trans g'.size)
  obtain ⟨c1, c2⟩ := linearSize_le g''.L_pos (k3.trans g''.size)
  exact cyclicConvC3_linear a1 a2 b1 b2 c1 c2 _ _ hi (first_lt hP hr hj) hk

/-- Whatever the memories contain, the processes hold some global arrays. -/
theorem C55_data_exist {P Lx Ly Lz : ℕ} (hP : 0 < P) (mem : ℕ → Mem) (f : ℕ → PtrArr) (off : ℕ → ℕ) : ∃ D : ℕ → ℕ → ℕ → ℕ → ℂ,
    ∀ r < P, ∀ a, ∀ i < Lx, ∀ j < part Ly P r, ∀ k < Lz,
      (mem r).val ((f r).at_ a + off r + (part Ly P r * Lz * i + (Lz * j + k))) = D a i (first Ly P r + j) k := by
  obtain ⟨D, hD⟩ := DConv3.holds_exists (H := Ly) (Z := Lz) (L := Lx) hP mem f off
  refine ⟨fun a i j k => D a i (Lz * j + k), fun r hr a i hi j hj k hk => ?_⟩
  have := hD a r hr i hi _ (slab_addr hk hj).1
  rw [show wd Ly Lz P r = part Ly P r * Lz from rfl] at this
  rw [this]
  beta_reduce
  congr 1
  unfold st; ring

/-! ## Examples -/

/-- The work arrays of the example. -/
theorem exDBuffers3 {P X : ℕ} {fx : ℕ → FftBase} {oy oz : FftBase} {BufY : Mem → Alloc → Prop} {th thy : ℕ → ℕ} (hA : ∀ r < P, max (fx r).A (fx r).B ≤ 2)
    (hos : ∀ r < P, (fx r).outputSize ≤ 100) (hL : ∀ r < P, (fx r).S * (fx r).L ≤ 100)
    (hA' : max oy.A oy.B ≤ 5) (hA'' : max oz.A oz.B ≤ 5)
    (hyz : ∀ k t, Conv2.GBuffers oy oz BufY t (Fft.exMem 100) none none (exAlloc2 k))
    (hth : ∀ r < P, Conv2.newThreads oy (Conv3.newThreadsY (fx r) (th r) (thy r)) ≤ 8)
    (hroom : ∀ r < P, X * (part oy.L P r * oy.C) ≤ 100 ∧ part X P r * (oy.L * oy.C) ≤ 100) :
    DBuffers3 P X fx oy oz BufY th thy (fun _ => Fft.exMem 100) (fun r => Conv.newF (fx r) none (exAllocK 0))
      (fun _ => none) (fun _ => exAlloc3) (fun _ a => ⟨5 + a, 0⟩) := by
  have hb : ∀ r < P, Outer.Buffers (fx r) (Fft.exMem 100) none none (exAllocK 0) := fun r hr =>
    exOuterBuffers ((hA r hr).trans (by omega)) (hos r hr) (hL r hr)
  refine ⟨fun r hr => ⟨⟨(hb r hr).work, (hb r hr).V⟩, fun t _ => hyz _ _, ?_, ?_⟩, fun r hr a ha => ?_, fun r hr a ha => ?_, fun r hr a ha hk => ?_⟩
  · intro t _ t' _ hne i h1 h2
    have h1 := exNewBufs2 hA' hA'' h1
    have h2 := exNewBufs2 hA' hA'' h2
    have := hth r hr
    omega
  · intro t _ i h1 h2
    have h1 : Conv.NewBufs (fx r) none none (exAllocK 0) i := h1
    have h1 := exNewBufs ((hA r hr).trans (by omega)) h1
    have h2 := exNewBufs2 hA' hA'' h2
    omega
  · refine ⟨le_rfl, ?_⟩
    show (0 : ℤ) + _ ≤ ((100 : ℕ) : ℤ)
    have := hroom r hr
    have h2 : max (X * (part oy.L P r * oy.C)) (part X P r * (oy.L * oy.C)) ≤ 100 := max_le this.1 this.2
    omega
  · refine ⟨le_rfl, ?_⟩
    show (0 : ℤ) + _ ≤ ((100 : ℕ) : ℤ)
    have := (hroom r hr).2
    omega
  · have := hA r hr
    beta_reduce at ha
    rcases hk with hk | ⟨t, _, hk⟩
    · have h1 : Conv.NewBufs (fx r) none none (exAllocK 0) (5 + a) := hk
      have := exNewBufs ((hA r hr).trans (by omega)) h1
      omega
    · have h1 : Conv2.NewBufs oy oz _ none none (exAlloc2 (1000 * (t + 1))) (5 + a) := hk
      have := exNewBufs2 hA' hA'' h1
      omega

/-- The hypotheses of C55 are met: two processes; `Lx=3`, `Mx=5`, `mx=2` (three residue blocks, out of place), `Ly=3` (2 planes on process 0, one on
process 1), `My=6`, centered in `y`, `Lz=2`, `Mz=3`; two threads on process 0; and so are those on the state of the processes and on the arguments of `convolve`. -/
example : ∃ (tx : ℕ → Tr) (ty tz : Tr), (∀ r < 2, Tr.new false 3 5 ⟨2, 1, true⟩ (part 3 2 r * 2) (part 3 2 r * 2) 2 1 false = .ok (tx r)) ∧
    (∀ r < 2, (tx r).fft.S = part 3 2 r * 2) ∧ Tr.new true 3 6 ⟨2, 1, false⟩ 2 2 2 1 false = .ok ty ∧ ty.fft.S = 2 ∧
    Tr.new false 2 3 ⟨2, 1, false⟩ 1 1 2 1 true = .ok tz ∧ tz.fft.S = 1 ∧
    (∀ r < 2, 0 < part 3 2 r) ∧ part 3 2 0 = 2 ∧ part 3 2 1 = 1 ∧ (tx 0).fft.D = 1 ∧ ty.fft.D = 1 ∧ (tx 0).fft.overwrite = false ∧ (tx 0).fft.nloops = 3 ∧
    linearSize false 3 ≤ 5 ∧ linearSize true 3 ≤ 6 ∧ linearSize false 2 ≤ 3 ∧
    DBuffers3 2 (tx 0).base.l (fun r => (tx r).base) ty.base tz.base (fun m al => Conv.Buffers tz.base m none none al) (fun r => 2 - r) (fun _ => 1)
      (fun _ => Fft.exMem 100) (fun r => Conv.newF (tx r).base none (exAllocK 0)) (fun _ => none) (fun _ => exAlloc3) (fun _ a => ⟨5 + a, 0⟩) ∧
    ∃ (c : ℕ → Conv3) (mem1 : ℕ → Mem), (∀ r < 2, Conv3MPI.newBase (tx r).base ty.base tz.base multBinary (2 - r) 1
        (some (Conv.newF (tx r).base none (exAllocK 0))) none none exAlloc3 (Fft.exMem 100) = .ok (c r, mem1 r)) ∧ (c 0).threads = 2 ∧
      (∀ r < 2, mmem (exState mem1 r) = mem1 r) ∧ (∀ r < 2, ∀ id, (exState mem1 r).req id = none) ∧ Balanced 2 (exState mem1) ∧
      ∀ r < 2, (objects3 2 1 0 c (fun _ a => ⟨5 + a, 0⟩) r).LegalS (fun _ => ⟨[(0, 0)], fun _ _ => [(1, 0), (0, 0)]⟩) ∧
        (objects3 2 1 0 c (fun _ a => ⟨5 + a, 0⟩) r).Inputs (Fft.exMem 100) (exArr 5) 3 := by
  obtain ⟨tx, hx, hos, hS, hD, how, hl, hn⟩ : ∃ tx : ℕ → Tr, (∀ r < 2, Tr.new false 3 5 ⟨2, 1, true⟩ (part 3 2 r * 2) (part 3 2 r * 2) 2 1 false = .ok (tx r)) ∧
      (∀ r < 2, (tx r).base.outputSize ≤ 100) ∧ (∀ r < 2, (tx r).fft.S = part 3 2 r * 2) ∧ (tx 0).fft.D = 1 ∧ (tx 0).fft.overwrite = false ∧
      (∀ r < 2, (tx r).base.l = 2) ∧ (tx 0).fft.nloops = 3 := by
    obtain ⟨t0, h0⟩ : ∃ t, Tr.new false 3 5 ⟨2, 1, true⟩ 4 4 2 1 false = .ok t ∧ t.base.outputSize ≤ 100 ∧ t.fft.S = 4 ∧ t.fft.D = 1 ∧
        t.fft.overwrite = false ∧ t.base.l = 2 ∧ t.fft.nloops = 3 := ⟨_, rfl, by show (Fft.outputSize _) ≤ 100; decide, rfl, rfl, by decide, rfl, by decide⟩
    obtain ⟨t1, h1⟩ : ∃ t, Tr.new false 3 5 ⟨2, 1, true⟩ 2 2 2 1 false = .ok t ∧ t.base.outputSize ≤ 100 ∧ t.fft.S = 2 ∧ t.base.l = 2 :=
      ⟨_, rfl, by show (Fft.outputSize _) ≤ 100; decide, rfl, rfl⟩
    refine ⟨fun r => if r = 0 then t0 else t1, ?_, ?_, ?_, h0.2.2.2.1, h0.2.2.2.2.1, ?_, h0.2.2.2.2.2.2⟩
    · intro r hr
      interval_cases r
      · exact h0.1
      · exact h1.1
    · intro r hr
      interval_cases r
      · exact h0.2.1
      · exact h1.2.1
    · intro r hr
      interval_cases r
      · exact h0.2.2.1
      · exact h1.2.2.1
    · intro r hr
      interval_cases r
      · exact h0.2.2.2.2.2.1
      · exact h1.2.2.2
  obtain ⟨ty, hy, hoy, hSy, hDy, hbsy, hly⟩ : ∃ t, Tr.new true 3 6 ⟨2, 1, false⟩ 2 2 2 1 false = .ok t ∧ t.base.outputSize ≤ 100 ∧ t.fft.S = 2 ∧
      t.fft.D = 1 ∧ (∀ r, t.base.blocksize r = 2) ∧ t.base.l = 2 :=
    ⟨_, rfl, by show (Fft.outputSize _) ≤ 100; decide, rfl, rfl, fun _ => rfl, rfl⟩
  obtain ⟨tz, hz, hoz, hSz⟩ : ∃ t, Tr.new false 2 3 ⟨2, 1, false⟩ 1 1 2 1 true = .ok t ∧ t.base.outputSize ≤ 100 ∧ t.fft.S = 1 :=
    ⟨_, rfl, by show (Fft.outputSize _) ≤ 100; decide, rfl⟩
  have p0 : part 3 2 0 = 2 := rfl
  have p1 : part 3 2 1 = 1 := rfl
  have hpos : ∀ r < 2, 0 < part 3 2 r := by intro r hr; interval_cases r <;> decide
  have hple : ∀ r < 2, part 3 2 r ≤ 2 := by intro r hr; interval_cases r <;> decide
  have f := fun r hr => Tr.facts (Nat.mul_pos (hpos r hr) (by omega)) (hx r hr)
  have f' := Tr.facts (by omega) hy
  have f'' := Tr.facts (by omega) hz
  have hA : ∀ r < 2, max (tx r).base.A (tx r).base.B ≤ 2 := fun r hr => by rw [(f r hr).bA, (f r hr).bB]; decide
  have hA' : max ty.base.A ty.base.B ≤ 5 := by rw [f'.bA, f'.bB]; decide
  have hA'' : max tz.base.A tz.base.B ≤ 5 := by rw [f''.bA, f''.bB]; decide
  have hthY : ∀ r < 2, Conv3.newThreadsY (tx r).base (2 - r) 1 = 1 := by
    intro r hr
    unfold Conv3.newThreadsY
    rw [if_neg]
    rw [hl r hr]; omega
  have hth1 : Conv2.newThreads ty.base 1 = 1 := by unfold Conv2.newThreads; split_ifs <;> rfl
  have hb := exDBuffers3 (P := 2) (X := (tx 0).base.l) (fx := fun r => (tx r).base) (oy := ty.base) (oz := tz.base)
    (BufY := fun m al => Conv.Buffers tz.base m none none al) (th := fun r => 2 - r) (thy := fun _ => 1) hA hos
    (fun r hr => by beta_reduce; rw [(f r hr).bS, (f r hr).bL, hS r hr]; have := hple r hr; omega) hA' hA''
    (fun k t => by
      have := exBuffers2 (k := k) (th := t) hA' hoy (by rw [f'.bS, f'.bL, hSy]; decide) hA'' hoz (by rw [f''.bS, f''.bL, hSz]; decide)
      exact ⟨this.x, this.y, this.sepT, this.sepX⟩)
    (fun r hr => by beta_reduce; rw [hthY r hr, hth1]; omega)
    (fun r hr => by
      rw [f'.bL, f'.bC, hl 0 (by omega)]
      have := hple r hr
      have h2 : part 2 2 r = 1 := by interval_cases r <;> rfl
      rw [h2]; omega)
  refine ⟨tx, ty, tz, hx, hS, hy, hSy, hz, hSz, hpos, rfl, rfl, hD, hDy, how, hn, by decide, by decide, by decide, hb, ?_⟩
  obtain ⟨c, mem1, e1, hc, _⟩ := C55_history (optA := 1) (alltoall := 0) (by omega) (by omega) (by omega) hpos hx hS hy hSy hz hSz (by omega) hD hDy how
    (fun _ _ => rfl) (fun _ _ _ => rfl) (fun _ _ _ _ => by simp) multBinary_spec (Or.inr fun _ _ _ => rfl) (fun _ => Or.inr fun _ _ _ _ => rfl)
    (κ := id) (fun _ _ _ _ _ _ _ _ => rfl) hb
  refine ⟨c, mem1, e1, ?_, fun r _ => exState_mem _ _, fun _ _ _ => rfl, fun _ _ _ _ _ => rfl, fun r hr => ⟨?_, ?_⟩⟩
  · rw [(hc 0 (by omega)).2.2.2.1]
    unfold Conv2.newThreads
    rw [if_neg]
    rw [hl 0 (by omega)]; omega
  · intro rx _
    have h2 : part (2 * 1) 2 r = 1 := by interval_cases r <;> rfl
    have h3 : 0 < Conv2.newThreads (tx r).base (2 - r) := by
      unfold Conv2.newThreads
      split_ifs <;> omega
    refine ⟨?_, ?_⟩
    · show Sch.Legal _ (part ((c r).x.fft.l * 1) 2 r) (c r).threads
      rw [(hc r hr).1, hl r hr, (hc r hr).2.2.2.1, h2]
      refine ⟨by beta_reduce; decide, ?_⟩
      simp
      exact h3
    · intro i _ t ht ry _
      have ht : t < (c r).threads := ht
      obtain ⟨hf1, hf2⟩ := (hc r hr).2.2.2.2.1 t ht
      show Sch.Legal _ (((c r).convyz t).x.fft.blocksize ry) ((c r).convyz t).threads
      rw [hf1, hf2, hbsy, hthY r hr, hth1]
      show Sch.Legal [(1, 0), (0, 0)] 2 1
      exact ⟨by decide, by decide⟩
  · have hxf := (hc r hr).1
    refine ⟨?_, ?_, ?_, ?_⟩
    · show (c r).x.fft.A ≤ _
      rw [hxf, (f r hr).bA]; decide
    · intro a _ i hi
      have hi : i < (c r).x.fft.S * (c r).x.fft.L := hi
      rw [hxf, (f r hr).bS, (f r hr).bL, hS r hr] at hi
      have := hple r hr
      constructor
      · show (0 : ℤ) ≤ 0 + (3 : ℕ) + i
        omega
      · show (0 : ℤ) + (3 : ℕ) + i < (100 : ℕ)
        omega
    · intro a _ a' _ hne p h1 h2
      have e1 := FftBase.data_buf h1
      have e2 := FftBase.data_buf h2
      exact hne (e1.symm.trans e2)
    · intro a ha hB
      have ha : a < (c r).x.fft.A := ha
      rw [hxf, (f r hr).bA] at ha
      have ha : a < 2 := ha
      rcases hB with hB | ⟨a', ha', hB⟩
      · have h1 := (hc r hr).2.2.2.2.2 _ hB
        rcases h1 with h1 | ⟨t, _, h1⟩
        · have h1 : Conv.NewBufs (tx r).base none none (exAllocK 0) a := h1
          have := exNewBufs ((hA r hr).trans (by omega)) h1
          omega
        · have h1 : Conv2.NewBufs ty.base tz.base _ none none (exAlloc2 (1000 * (t + 1))) a := h1
          have := exNewBufs2 hA' hA'' h1
          omega
      · have hB : a = 5 + a' := hB
        omega

end Fftwpp
