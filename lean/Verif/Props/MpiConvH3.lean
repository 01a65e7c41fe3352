import Verif.Props.MpiConv3
import Verif.Props.HermConv3

/-!
# C56: the distributed three-dimensional convolution of Hermitian-symmetric data, slab decomposition
-/

namespace Fftwpp
open Finset Net

/-- **C56**, general form, with the analogues of C12, C13 and C15.  `P` processes, each of which constructs the transforms as in
mpi/tests/hybridconvh3.cc with a slab decomposition: a centered one in `x` of length `Lx` on its `d.y` planes of the `H=⌈Lz/2⌉` stored words, contiguous, a
centered one in `y` of length `Ly` on `H` words, contiguous, and a Hermitian one in `z` of length `Lz`; parameters valid, `D=1` and no overwriting in `x`; every
process has a plane.  For every real operation `φ` performed by the multiplier (which is told the frequency `κ e` for `e` in `x`, see C53), any numbers of threads and
any schedules of the inner convolutions in every process, every algorithm of the transpose, any contents of the work arrays, and any history of collective
calls and of writes by the processes: all orders of execution of the processes and all choices of the MPI library end, with every process finished
and no message in transit, and so does the call of `convolve` that follows.  If the processes then held their slabs of global arrays `D a` that are
Hermitian symmetric in the plane `k=0`, the call leaves in the outputs the slabs of the inverse transform of `φ` applied to the transforms of
the arrays represented by the `D a`; and the result is Hermitian symmetric in the plane `k=0` (of two positions opposite to each other, each in some process).
Nothing but the outputs and the work arrays is changed in any process. -/
theorem C56_history {P optA alltoall : ℕ} {Lx Mx Ly My Lz Mz A B H : ℕ} {owx owy owz ipx ipy ipz : Bool} {Sx : ℕ → ℕ}
    {mx Dx Sy my Dy mz Dz align : ℕ} {J : Junk} {tx : ℕ → Tr} {ty : Tr} {o : Herm} (hal : 0 < align) (hDz : 0 < Dz) (hH : H = ceilquotient Lz 2)
    (hP : 0 < P) (hoA : 1 ≤ optA) (hcol : ∀ r < P, 0 < part Ly P r)
    (hx : ∀ r < P, Tr.new true Lx Mx ⟨A, B, owx⟩ (part Ly P r * H) (Sx r) mx Dx ipx = .ok (tx r)) (hSx : ∀ r < P, (tx r).fft.S = part Ly P r * H)
    (hy : Tr.new true Ly My ⟨A, B, owy⟩ H Sy my Dy ipy = .ok ty) (hSy : ty.fft.S = H)
    (hz : Herm.new Lz Mz ⟨A, B, owz⟩ 1 mz Dz ipz align J = .ok o)
    (hBA : B ≤ A) (hDx : (tx 0).fft.D = 1) (hDy : ty.fft.D = 1) (how : (tx 0).fft.overwrite = false)
    (hlx : (tx 0).fft.nloops = 2 → B < A → A = B + 1)
    (hly : ty.fft.overwrite = false → ty.fft.nloops = 2 → B < A → A = B + 1)
    (hlz : o.q ≠ 1 → o.nloops = 2 → B < A → (A - B) ∣ B)
    {mult : Multiplier} {φ : List ℕ → ℕ → (ℕ → ℝ) → ℝ} (hm : RMultSpec A B o.index mult φ)
    (hfreqy : ty.fft.overwrite = true → ty.fft.n = 2 ∨ ∀ ez e e' idx, φ (ez :: e :: idx) = φ (ez :: e' :: idx))
    {κ : ℕ → ℕ} (hκ : ∀ rx ∈ (tx 0).base.residues, ∀ r < P, ∀ i < part (tx 0).base.l P r, ∀ ez ey,
      φ [ez, ey, (tx 0).base.index rx i] = φ [ez, ey, κ ((tx 0).base.index rx (first (tx 0).base.l P r + i))])
    {th thy : ℕ → ℕ} {mem0 : ℕ → Mem} {Fu : ℕ → PtrArr} {Vu : ℕ → Option Ptr} {al : ℕ → Alloc3} {wrk : ℕ → ℕ → Ptr}
    (hbuf : DBuffers3 P (tx 0).base.l (fun r => (tx r).base) ty.base o.base (fun m al => o.view.Buffers o.base m none none al) th thy mem0 Fu Vu al wrk) :
    ∃ (c : ℕ → Conv3) (mem1 : ℕ → Mem),
      (∀ r < P, Conv3MPI.newBase (tx r).base ty.base o.base mult (th r) (thy r) (some (Fu r)) none (Vu r) (al r) (mem0 r) = .ok (c r, mem1 r)) ∧
      (∀ r < P, (c r).x.fft = (tx r).base ∧ (c r).ffty = ty.base ∧ (c r).fftz = o.base ∧ (c r).threads = Conv2.newThreads (tx r).base (th r) ∧
        (∀ t < (c r).threads, ((c r).convyz t).x.fft = ty.base ∧
          ((c r).convyz t).threads = Conv2.newThreads ty.base (Conv3.newThreadsY (tx r).base (th r) (thy r))) ∧
        ∀ k, (c r).Bufs k → Conv3MPI.NewBufs (tx r).base ty.base o.base (th r) (thy r) (some (Fu r)) (Vu r) (al r) k) ∧
      (∀ r < P, (mem1 r).size = (mem0 r).size ∧
        ∀ p, ¬ Conv3MPI.NewBufs (tx r).base ty.base o.base (th r) (thy r) (some (Fu r)) (Vu r) (al r) p.buf → (mem1 r).val p = (mem0 r).val p) ∧
      ∀ M, M = objects3 P optA alltoall c wrk →
      ∀ steps : List Conv3MPI.Step, (∀ s ∈ steps, Conv3MPI.Allowed P M mem0 s) →
      ∀ (e : Eager) (σ : ℕ → Local ℂ), (∀ r < P, mmem (σ r) = mem1 r) → (∀ r < P, ∀ id, (σ r).req id = none) → Balanced P σ →
      AllRuns e (start P (fun r => Conv3MPI.stepsProg M r steps) σ) fun f2 => Finished P f2 ∧
        ∀ (s : ℕ → ℕ → Conv3MPI.Sch3) (f : ℕ → PtrArr) (off : ℕ → ℕ), (∀ r < P, (M r).LegalS (s r) ∧ (M r).Inputs (mem0 r) (f r) (off r)) →
        ∀ D : ℕ → ℕ → ℕ → ℕ → ℂ,
          (∀ r < P, ∀ a < A, ∀ i < Lx, ∀ j < part Ly P r, ∀ k < H,
            (mmem (f2 r).loc).val ((f r).at_ a + off r + (part Ly P r * H * i + (H * j + k))) = D a i (first Ly P r + j) k) →
        AllRuns e (start P (fun r => (M r).convolve (s r) (f r) (off r)) fun r => (f2 r).loc) fun f3 => Finished P f3 ∧
          ((∀ a < A, HermData3 Lx (Lx / 2) Ly (Ly / 2) (D a)) →
            (∀ r < P, ∀ b < B, ∀ i < Lx, ∀ j < part Ly P r, ∀ k < H,
              (mmem (f3 r).loc).val ((f r).at_ b + off r + (part Ly P r * H * i + (H * j + k))) =
              hermResult3 (mx * (tx 0).fft.q) Lx (Lx / 2) (my * ty.fft.q) Ly (Ly / 2) (mz * o.q) H (fun kx ky kz => φ [kz, ky, κ kx]) D b
                ((i : ℤ) - (Lx / 2 : ℕ)) ((first Ly P r + j : ℕ) - (Ly / 2 : ℕ)) k) ∧
            (∀ r < P, ∀ r' < P, ∀ b < B, ∀ i < Lx, ∀ i' < Lx, ∀ j < part Ly P r, ∀ j' < part Ly P r', (i : ℤ) - (Lx / 2 : ℕ) = -((i' : ℤ) - (Lx / 2 : ℕ)) →
              ((first Ly P r + j : ℕ) : ℤ) - (Ly / 2 : ℕ) = -(((first Ly P r' + j' : ℕ) : ℤ) - (Ly / 2 : ℕ)) →
              (mmem (f3 r).loc).val ((f r).at_ b + off r + (part Ly P r * H * i + (H * j + 0))) =
                (starRingEnd ℂ) ((mmem (f3 r').loc).val ((f r').at_ b + off r' + (part Ly P r' * H * i' + (H * j' + 0)))))) ∧
          ∀ r < P, (mmem (f3 r).loc).size = (mmem (f2 r).loc).size ∧ ∀ p, ¬ (M r).Bufs p.buf →
            (∀ b < B, ∀ i < Lx, ∀ j < part Ly P r, ∀ k < H, p ≠ (f r).at_ b + off r + (part Ly P r * H * i + (H * j + k))) →
            (mmem (f3 r).loc).val p = (mmem (f2 r).loc).val p := by
  have h := Herm.WF.of_new (by omega) hal hz
  obtain ⟨hL, hmm, hCC, _, _, hA, hB, hDD, _⟩ := Herm.new_fields hz
  have hA : o.A = A := hA
  have hoH : o.H = H := by rw [hH, ← hL]; rfl
  have hH0 : 0 < H := by rw [← hoH]; exact h.H_facts.1
  have f' := Tr.facts hH0 hy
  have f := Tr.facts (Nat.mul_pos (hcol 0 hP) hH0) (hx 0 hP)
  have bLy : ty.base.L = Ly := f'.bL
  have bCy : ty.base.C = H := f'.bC
  have bNy : ty.base.N = my * ty.fft.q := f'.bN
  have hoM : o.M = mz * o.q := by rw [h.M_eq, hmm]
  have bNz : o.base.N = mz * o.q := hoM
  have hLx := f.L_pos
  have hLy := f'.L_pos
  have hx0 : Lx / 2 < Lx := by omega
  have hy0 : Ly / 2 < Ly := by omega
  have hyz := Conv2.gfitsH hal hDz hH hy hz hBA hDy hly hlz hm hfreqy
  have hfit := DFits3.ofTr (P := P) (optA := optA) (cx := true) (Lx := Lx) (Mx := Mx) (owx := owx) (ipx := ipx) (Sx := Sx) (mx := mx) (Dx := Dx) (tx := tx) (κ := κ)
    hP hoA (by rw [bLy]; exact hcol) (by rw [bLy, bCy]; exact hx) (by rw [bLy, bCy]; exact hSx) hBA hDx how hlx hyz (by rw [f'.bS, bCy]; exact hSy)
    f'.bA f'.bB (fun rx hrx r hr i hi => by
      funext b X' k
      unfold FftBase.valG hval
      refine sum_congr rfl fun ey _ => ?_
      congr 1
      refine sum_congr rfl fun ez _ => ?_
      rw [hκ rx hrx r hr i hi ez ey])
  obtain ⟨c, mem1, e1, hu1, hc, Hh⟩ := hfit.history (alltoall := alltoall) hbuf
  refine ⟨c, mem1, e1, hc, fun r hr => ⟨(hu1 r hr).size, (hu1 r hr).frame⟩, ?_⟩
  intro M hM steps hst e σ h1 h2 h3
  refine (Hh M hM steps hst e σ h1 h2 h3).mono ?_
  rintro f2 ⟨fin2, H2⟩
  refine ⟨fin2, ?_⟩
  intro s f off hsf D hD
  rw [bLy, bCy] at H2
  have hD' : ∀ a < A, DConv3.Holds P Ly H Lx (fun r => mmem (f2 r).loc) f off (fun a i c => D a i (c / H) (c % H)) a := by
    intro a ha r hr i hi c hc
    obtain ⟨c1, c2, c3⟩ := slab_word hc
    obtain ⟨_, d1, d2⟩ := slab_addr (H := Ly) (P := P) (r := r) c1 c2
    rw [← c3] at d1 d2
    beta_reduce
    rw [d1, d2, ← hD r hr a ha i hi _ c2 _ c1, ← c3]
    rfl
  refine (H2 s f off hsf _ hD').mono ?_
  rintro f3 ⟨fin3, v3, u3⟩
  refine ⟨fin3, ?_, fun r hr => ⟨(u3 r hr).1, fun p hp hpf => (u3 r hr).2 p hp ?_⟩⟩
  · intro hd
    have hG : GoodD (ty.base.domG (origin true Ly : ℕ) (RealRows o.A)) Lx (mx * (tx 0).fft.q) (if true then Lx / 2 else 0 : ℕ) (fun a i c => D a i (c / H) (c % H)) := by
      intro e e' a ha
      rw [if_pos rfl]
      unfold hatD
      simp only [FftBase.dft_cdft bNy bLy, bCy]
      have := (HermData3.data2 (Nx := mx * (tx 0).fft.q) hx0 (hd a (by omega)) e).real (Nx := my * ty.fft.q) hy0 e'
      rw [show (fun j => ∑ i ∈ range Lx, D a i ((H * j + 0) / H) ((H * j + 0) % H) * w (mx * (tx 0).fft.q) (((i : ℤ) - (Lx / 2 : ℕ)) * (e : ℤ))) =
        (fun j => (fun b c => cdft (mx * (tx 0).fft.q) Lx (Lx / 2) (fun i => D a i b c) (e : ℤ)) j 0) from funext fun j => by
          rw [Nat.mul_add_div hH0, Nat.mul_add_mod, Nat.zero_div, Nat.zero_mod, Nat.add_zero]; rfl]
      exact this
    have hv : ∀ r < P, ∀ b < B, ∀ i < Lx, ∀ j < part Ly P r, ∀ k < H,
        (mmem (f3 r).loc).val ((f r).at_ b + off r + (part Ly P r * H * i + (H * j + k))) =
        hermResult3 (mx * (tx 0).fft.q) Lx (Lx / 2) (my * ty.fft.q) Ly (Ly / 2) (mz * o.q) H (fun kx ky kz => φ [kz, ky, κ kx]) D b
          ((i : ℤ) - (Lx / 2 : ℕ)) ((first Ly P r + j : ℕ) - (Ly / 2 : ℕ)) k := by
      intro r hr b hb i hi j hj k hk
      obtain ⟨d0, d1, d2⟩ := slab_addr (H := Ly) (P := P) (r := r) hk hj
      have := v3 hG r hr b hb i hi _ d0
      rw [show wd Ly H P r = part Ly P r * H from rfl] at this
      rw [this, bNy, bNz, hermResult3_eq hx0]
      simp only [hermResult2_eq hy0]
      unfold DConv.valD FftBase.valG hermResult hatD hval
      rw [bNy, hoM, hoH, bCy, ← one_div_mul_one_div]
      simp only [FftBase.dft_cdft bNy bLy, d1, d2, if_true]
      rw [mul_comm, mul_assoc]
      congr 1
      rw [mul_sum]
      refine sum_congr rfl fun ex _ => ?_
      rw [← mul_assoc, ← one_div_mul_one_div, mul_assoc (1 / _), mul_sum]
      congr 2
      refine sum_congr rfl fun ey _ => ?_
      rw [← mul_assoc]
      congr 2
      refine sum_congr rfl fun ez _ => ?_
      congr 2
      refine hm.congr _ _ _ _ fun a _ => ?_
      refine congrArg Complex.re (hdft_congr (fun k' hk' => ?_) ez)
      unfold cdft
      refine sum_congr rfl fun j' _ => ?_
      congr 1
      refine sum_congr rfl fun i' _ => ?_
      rw [Nat.mul_add_div hH0, Nat.mul_add_mod, Nat.div_eq_of_lt hk', Nat.mod_eq_of_lt hk', Nat.add_zero]
    refine ⟨hv, ?_⟩
    intro r hr r' hr' b hb i hi i' hi' j hj j' hj' hii hjj
    rw [hv r hr b hb i hi j hj 0 hH0, hv r' hr' b hb i' hi' j' hj' 0 hH0, hii, hjj]
    exact hermResult3_real _ _
  · intro b hb i hi c hc
    obtain ⟨c1, c2, c3⟩ := slab_word hc
    rw [c3]
    exact hpf b hb i hi _ c2 _ c1

/-- **C56**: with the default multiplication of two inputs (`realMultBinary`), the processes compute the slabs of the convolution of the Hermitian arrays
represented by `D 0` and `D 1`, cyclic with the padded sizes; which is the linear convolution if the padded sizes are large enough for dealiasing and (for even
`Lx` or `Ly`) the unpaired planes of the inputs are zero. -/
theorem C56_convolve {P optA alltoall : ℕ} {Lx Mx Ly My Lz Mz H : ℕ} {owx owy owz ipx ipy ipz : Bool} {Sx : ℕ → ℕ}
    {mx Dx Sy my Dy mz Dz align : ℕ} {J : Junk} {tx : ℕ → Tr} {ty : Tr} {o : Herm} (hal : 0 < align) (hDz : 0 < Dz) (hH : H = ceilquotient Lz 2)
    (hP : 0 < P) (hoA : 1 ≤ optA) (hcol : ∀ r < P, 0 < part Ly P r)
    (hx : ∀ r < P, Tr.new true Lx Mx ⟨2, 1, owx⟩ (part Ly P r * H) (Sx r) mx Dx ipx = .ok (tx r)) (hSx : ∀ r < P, (tx r).fft.S = part Ly P r * H)
    (hy : Tr.new true Ly My ⟨2, 1, owy⟩ H Sy my Dy ipy = .ok ty) (hSy : ty.fft.S = H)
    (hz : Herm.new Lz Mz ⟨2, 1, owz⟩ 1 mz Dz ipz align J = .ok o)
    (hDx : (tx 0).fft.D = 1) (hDy : ty.fft.D = 1) (how : (tx 0).fft.overwrite = false)
    {th thy : ℕ → ℕ} {mem0 : ℕ → Mem} {Fu : ℕ → PtrArr} {Vu : ℕ → Option Ptr} {al : ℕ → Alloc3} {wrk : ℕ → ℕ → Ptr}
    (hbuf : DBuffers3 P (tx 0).base.l (fun r => (tx r).base) ty.base o.base (fun m al => o.view.Buffers o.base m none none al) th thy mem0 Fu Vu al wrk) :
    ∃ (c : ℕ → Conv3) (mem1 : ℕ → Mem),
      (∀ r < P, Conv3MPI.newBase (tx r).base ty.base o.base realMultBinary (th r) (thy r) (some (Fu r)) none (Vu r) (al r) (mem0 r) = .ok (c r, mem1 r)) ∧
      ∀ M, M = objects3 P optA alltoall c wrk →
      ∀ steps : List Conv3MPI.Step, (∀ s ∈ steps, Conv3MPI.Allowed P M mem0 s) →
      ∀ (e : Eager) (σ : ℕ → Local ℂ), (∀ r < P, mmem (σ r) = mem1 r) → (∀ r < P, ∀ id, (σ r).req id = none) → Balanced P σ →
      AllRuns e (start P (fun r => Conv3MPI.stepsProg M r steps) σ) fun f2 => Finished P f2 ∧
        ∀ (s : ℕ → ℕ → Conv3MPI.Sch3) (f : ℕ → PtrArr) (off : ℕ → ℕ), (∀ r < P, (M r).LegalS (s r) ∧ (M r).Inputs (mem0 r) (f r) (off r)) →
        ∀ D : ℕ → ℕ → ℕ → ℕ → ℂ,
          (∀ r < P, ∀ a < 2, ∀ i < Lx, ∀ j < part Ly P r, ∀ k < H,
            (mmem (f2 r).loc).val ((f r).at_ a + off r + (part Ly P r * H * i + (H * j + k))) = D a i (first Ly P r + j) k) →
          (∀ a < 2, HermData3 Lx (Lx / 2) Ly (Ly / 2) (D a)) →
        AllRuns e (start P (fun r => (M r).convolve (s r) (f r) (off r)) fun r => (f2 r).loc) fun f3 => Finished P f3 ∧
          ∀ r < P, ∀ i < Lx, ∀ j < part Ly P r, ∀ k < H,
            (mmem (f3 r).loc).val ((f r).at_ 0 + off r + (part Ly P r * H * i + (H * j + k))) =
              hermConv3 (mx * (tx 0).fft.q) Lx (Lx / 2) (my * ty.fft.q) Ly (Ly / 2) (mz * o.q) H (D 0) (D 1)
                ((i : ℤ) - (Lx / 2 : ℕ)) ((first Ly P r + j : ℕ) - (Ly / 2 : ℕ)) k ∧
            ((Lx % 2 = 0 → ∀ a < 2, ∀ j < Ly, ∀ k < H, D a 0 j k = 0) → (Ly % 2 = 0 → ∀ a < 2, ∀ i < Lx, ∀ k < H, D a i 0 k = 0) →
              2 * ((Lx + 1) / 2 - 1) + Lx / 2 < Mx → 2 * ((Ly + 1) / 2 - 1) + Ly / 2 < My → 3 * H ≤ Mz + 2 →
              (mmem (f3 r).loc).val ((f r).at_ 0 + off r + (part Ly P r * H * i + (H * j + k))) =
              hermLin3 Lx (Lx / 2) Ly (Ly / 2) H (D 0) (D 1) ((i : ℤ) - (Lx / 2 : ℕ)) ((first Ly P r + j : ℕ) - (Ly / 2 : ℕ)) k) := by
  have h := Herm.WF.of_new (by omega) hal hz
  obtain ⟨hL, hmm, _⟩ := Herm.new_fields hz
  have hoH : o.H = H := by rw [hH, ← hL]; rfl
  have hH0 : 0 < H := by rw [← hoH]; exact h.H_facts.1
  have g := Tr.facts (Nat.mul_pos (hcol 0 hP) hH0) (hx 0 hP)
  have g' := Tr.facts hH0 hy
  have hLx := g.L_pos
  have hLy := g'.L_pos
  have hx0 : Lx / 2 < Lx := by omega
  have hy0 : Ly / 2 < Ly := by omega
  have hN : mx * (tx 0).fft.q ≠ 0 := (Nat.mul_pos g.m_pos g.q_pos).ne'
  have hN' : my * ty.fft.q ≠ 0 := (Nat.mul_pos g'.m_pos g'.q_pos).ne'
  have hN'' : mz * o.q ≠ 0 := by
    have h1 := h.L_pos
    have h2 := h.L_le_M
    rw [← hmm, ← h.M_eq]
    omega
  obtain ⟨c, mem1, e1, _, _, Hh⟩ := C56_history (alltoall := alltoall) hal hDz hH hP hoA hcol hx hSx hy hSy hz (by omega) hDx hDy how (fun _ _ => rfl)
    (fun _ _ _ => rfl) (fun _ _ _ => by simp) realMultBinary_spec (fun _ => Or.inr fun _ _ _ _ => rfl) (κ := id) (fun _ _ _ _ _ _ _ _ => rfl) hbuf
  refine ⟨c, mem1, e1, ?_⟩
  intro M hM steps hst e σ h1 h2 h3
  refine (Hh M hM steps hst e σ h1 h2 h3).mono ?_
  rintro f2 ⟨fin2, H2⟩
  refine ⟨fin2, ?_⟩
  intro s f off hsf D hD hd
  refine (H2 s f off hsf D hD).mono ?_
  rintro f3 ⟨fin3, v3, _⟩
  refine ⟨fin3, ?_⟩
  intro r hr i hi j hj k hk
  have := ((v3 hd).1 r hr 0 (by omega) i hi j hj k hk).trans (hermResult3_binary hx0 hy0 hN hN' hN'' _ (hd 0 (by omega)) (hd 1 (by omega)) k)
  refine ⟨this, fun hz1 hz2 h1 h2 h3 => ?_⟩
  rw [this]
  refine hermConv3_linear (fun he => hz1 he 0 (by omega)) (fun he => hz2 he 0 (by omega)) (fun he => hz1 he 1 (by omega))
    (fun he => hz2 he 1 (by omega)) ?_ ?_ ?_ hi (first_lt hP hr hj) hk
  · exact lt_of_lt_of_le h1 g.size
  · exact lt_of_lt_of_le h2 g'.size
  · have := Herm.new_size hz
    omega

/-! ## Example -/

set_option maxHeartbeats 1000000 in
/-- The hypotheses of C56 are met: two processes; `Lx=3`, `Mx=5`, `mx=2` (three residue blocks, out of place), `Ly=3` (2 planes on process 0, one on
process 1), `My=6`, `Lz=3` (two stored words), `Mz=4`; two threads on process 0; and so are those on the state of the processes and on the arguments of `convolve`. -/
example (J : Junk) : ∃ (tx : ℕ → Tr) (ty : Tr) (o : Herm), (∀ r < 2, Tr.new true 3 5 ⟨2, 1, true⟩ (part 3 2 r * 2) (part 3 2 r * 2) 2 1 false = .ok (tx r)) ∧
    (∀ r < 2, (tx r).fft.S = part 3 2 r * 2) ∧ Tr.new true 3 6 ⟨2, 1, false⟩ 2 2 2 1 false = .ok ty ∧ ty.fft.S = 2 ∧
    Herm.new 3 4 ⟨2, 1, true⟩ 1 2 2 true 16 J = .ok o ∧ ceilquotient 3 2 = 2 ∧
    (∀ r < 2, 0 < part 3 2 r) ∧ part 3 2 0 = 2 ∧ part 3 2 1 = 1 ∧ (tx 0).fft.D = 1 ∧ ty.fft.D = 1 ∧ (tx 0).fft.overwrite = false ∧ (tx 0).fft.nloops = 3 ∧
    2 * ((3 + 1) / 2 - 1) + 3 / 2 < 5 ∧ 2 * ((3 + 1) / 2 - 1) + 3 / 2 < 6 ∧ 3 * 2 ≤ 4 + 2 ∧
    DBuffers3 2 (tx 0).base.l (fun r => (tx r).base) ty.base o.base (fun m al => o.view.Buffers o.base m none none al) (fun r => 2 - r) (fun _ => 1)
      (fun _ => Fft.exMem 100) (fun r => Conv.newF (tx r).base none (exAllocK 0)) (fun _ => none) (fun _ => exAlloc3) (fun _ a => ⟨5 + a, 0⟩) ∧
    ∃ (c : ℕ → Conv3) (mem1 : ℕ → Mem), (∀ r < 2, Conv3MPI.newBase (tx r).base ty.base o.base realMultBinary (2 - r) 1
        (some (Conv.newF (tx r).base none (exAllocK 0))) none none exAlloc3 (Fft.exMem 100) = .ok (c r, mem1 r)) ∧ (c 0).threads = 2 ∧
      (∀ r < 2, mmem (exState mem1 r) = mem1 r) ∧ (∀ r < 2, ∀ id, (exState mem1 r).req id = none) ∧ Balanced 2 (exState mem1) ∧
      ∀ r < 2, (objects3 2 1 0 c (fun _ a => ⟨5 + a, 0⟩) r).LegalS (fun _ => ⟨[(0, 0)], fun _ _ => [(1, 0), (0, 0)]⟩) ∧
        (objects3 2 1 0 c (fun _ a => ⟨5 + a, 0⟩) r).Inputs (Fft.exMem 100) (exArr 5) 3 := by
  obtain ⟨tx, hx, hos, hS, hD, how, hl, hn⟩ : ∃ tx : ℕ → Tr, (∀ r < 2, Tr.new true 3 5 ⟨2, 1, true⟩ (part 3 2 r * 2) (part 3 2 r * 2) 2 1 false = .ok (tx r)) ∧
      (∀ r < 2, (tx r).base.outputSize ≤ 100) ∧ (∀ r < 2, (tx r).fft.S = part 3 2 r * 2) ∧ (tx 0).fft.D = 1 ∧ (tx 0).fft.overwrite = false ∧
      (∀ r < 2, (tx r).base.l = 2) ∧ (tx 0).fft.nloops = 3 := by
    obtain ⟨t0, h0⟩ : ∃ t, Tr.new true 3 5 ⟨2, 1, true⟩ 4 4 2 1 false = .ok t ∧ t.base.outputSize ≤ 100 ∧ t.fft.S = 4 ∧ t.fft.D = 1 ∧
        t.fft.overwrite = false ∧ t.base.l = 2 ∧ t.fft.nloops = 3 := ⟨_, rfl, by show (Fft.outputSize _) ≤ 100; decide, rfl, rfl, by decide, rfl, by decide⟩
    obtain ⟨t1, h1⟩ : ∃ t, Tr.new true 3 5 ⟨2, 1, true⟩ 2 2 2 1 false = .ok t ∧ t.base.outputSize ≤ 100 ∧ t.fft.S = 2 ∧ t.base.l = 2 :=
      ⟨_, rfl, by show (Fft.outputSize _) ≤ 100; decide, rfl, rfl⟩
    refine ⟨fun r => if r = 0 then t0 else t1, ?_, ?_, ?_, h0.2.2.2.1, h0.2.2.2.2.1, ?_, h0.2.2.2.2.2.2⟩
    · intro r hr
      interval_cases r
      · exact h0.1
      · exact h1.1
    · intro r hr
      interval_cases r
      · exact h0.2.1
      · exact h1.2.1
    · intro r hr
      interval_cases r
      · exact h0.2.2.1
      · exact h1.2.2.1
    · intro r hr
      interval_cases r
      · exact h0.2.2.2.2.2.1
      · exact h1.2.2.2
  obtain ⟨ty, hy, hoy, hSy, hDy, hbsy, hly⟩ : ∃ t, Tr.new true 3 6 ⟨2, 1, false⟩ 2 2 2 1 false = .ok t ∧ t.base.outputSize ≤ 100 ∧ t.fft.S = 2 ∧
      t.fft.D = 1 ∧ (∀ r, t.base.blocksize r = 2) ∧ t.base.l = 2 :=
    ⟨_, rfl, by show (Fft.outputSize _) ≤ 100; decide, rfl, rfl, fun _ => rfl, rfl⟩
  obtain ⟨o, hz, hAz, hBz, hCz, hDz, hos'', hws, hil⟩ : ∃ o, Herm.new 3 4 ⟨2, 1, true⟩ 1 2 2 true 16 J = .ok o ∧ o.A = 2 ∧
      o.B = 1 ∧ o.C = 1 ∧ o.D = 2 ∧ o.outputSize ≤ 100 ∧ o.workSizeW ≤ 100 ∧ o.inputLength ≤ 100 := by
    refine ⟨Herm.newHybrid 3 ⟨2, 1, true⟩ 1 2 2 2 2 2 true 16 J, rfl, rfl, rfl, rfl, rfl, ?_, ?_, ?_⟩ <;>
      simp [Herm.inputLength, Herm.newHybrid, Fft.outputSize, Herm.workSizeW, align, ceilquotient]
  have hDD : ∀ f p, o.view.D f p → InArr f 100 p := by
    rintro f p ⟨i, hi, rfl⟩
    rw [hCz, Nat.one_mul] at hi
    exact ⟨i, by omega, rfl⟩
  have p0 : part 3 2 0 = 2 := rfl
  have p1 : part 3 2 1 = 1 := rfl
  have hpos : ∀ r < 2, 0 < part 3 2 r := by intro r hr; interval_cases r <;> decide
  have hple : ∀ r < 2, part 3 2 r ≤ 2 := by intro r hr; interval_cases r <;> decide
  have f := fun r hr => Tr.facts (Nat.mul_pos (hpos r hr) (by omega)) (hx r hr)
  have f' := Tr.facts (by omega) hy
  have hA : ∀ r < 2, max (tx r).base.A (tx r).base.B ≤ 2 := fun r hr => by rw [(f r hr).bA, (f r hr).bB]; decide
  have hA' : max ty.base.A ty.base.B ≤ 5 := by rw [f'.bA, f'.bB]; decide
  have hA'' : max o.base.A o.base.B ≤ 5 := by
    show max o.A o.B ≤ 5
    rw [hAz, hBz]; decide
  have hthY : ∀ r < 2, Conv3.newThreadsY (tx r).base (2 - r) 1 = 1 := by
    intro r hr
    unfold Conv3.newThreadsY
    rw [if_neg]
    rw [hl r hr]; omega
  have hth1 : Conv2.newThreads ty.base 1 = 1 := by unfold Conv2.newThreads; split_ifs <;> rfl
  have hb := exDBuffers3 (P := 2) (X := (tx 0).base.l) (fx := fun r => (tx r).base) (oy := ty.base) (oz := o.base)
    (BufY := fun m al => o.view.Buffers o.base m none none al) (th := fun r => 2 - r) (thy := fun _ => 1) hA hos
    (fun r hr => by beta_reduce; rw [(f r hr).bS, (f r hr).bL, hS r hr]; have := hple r hr; omega) hA' hA''
    (fun k t => exGBuffers2 hA' hoy (by rw [f'.bS, f'.bL, hSy]; decide) hDD hA'' hos'' hws)
    (fun r hr => by beta_reduce; rw [hthY r hr, hth1]; omega)
    (fun r hr => by
      rw [f'.bL, f'.bC, hl 0 (by omega)]
      have := hple r hr
      have h2 : part 2 2 r = 1 := by interval_cases r <;> rfl
      rw [h2]; omega)
  refine ⟨tx, ty, o, hx, hS, hy, hSy, hz, rfl, hpos, rfl, rfl, hD, hDy, how, hn, by decide, by decide, by decide, hb, ?_⟩
  obtain ⟨c, mem1, e1, hc, _⟩ := C56_history (optA := 1) (alltoall := 0) (by decide) (by decide) rfl (by omega) (by omega) hpos hx hS hy hSy hz (by omega) hD hDy how
    (fun _ _ => rfl) (fun _ _ _ => rfl) (fun _ _ _ => by simp) realMultBinary_spec (fun _ => Or.inr fun _ _ _ _ => rfl)
    (κ := id) (fun _ _ _ _ _ _ _ _ => rfl) hb
  refine ⟨c, mem1, e1, ?_, fun r _ => exState_mem _ _, fun _ _ _ => rfl, fun _ _ _ _ _ => rfl, fun r hr => ⟨?_, ?_⟩⟩
  · rw [(hc 0 (by omega)).2.2.2.1]
    unfold Conv2.newThreads
    rw [if_neg]
    rw [hl 0 (by omega)]; omega
  · intro rx _
    have h2 : part (2 * 1) 2 r = 1 := by interval_cases r <;> rfl
    have h3 : 0 < Conv2.newThreads (tx r).base (2 - r) := by
      unfold Conv2.newThreads
      split_ifs <;> omega
    refine ⟨?_, ?_⟩
    · show Sch.Legal _ (part ((c r).x.fft.l * 1) 2 r) (c r).threads
      rw [(hc r hr).1, hl r hr, (hc r hr).2.2.2.1, h2]
      refine ⟨by beta_reduce; decide, ?_⟩
      simp
      exact h3
    · intro i _ t ht ry _
      have ht : t < (c r).threads := ht
      obtain ⟨hf1, hf2⟩ := (hc r hr).2.2.2.2.1 t ht
      show Sch.Legal _ (((c r).convyz t).x.fft.blocksize ry) ((c r).convyz t).threads
      rw [hf1, hf2, hbsy, hthY r hr, hth1]
      show Sch.Legal [(1, 0), (0, 0)] 2 1
      exact ⟨by decide, by decide⟩
  · have hxf := (hc r hr).1
    refine ⟨?_, ?_, ?_, ?_⟩
    · show (c r).x.fft.A ≤ _
      rw [hxf, (f r hr).bA]; decide
    · intro a _ i hi
      have hi : i < (c r).x.fft.S * (c r).x.fft.L := hi
      rw [hxf, (f r hr).bS, (f r hr).bL, hS r hr] at hi
      have := hple r hr
      constructor
      · show (0 : ℤ) ≤ 0 + (3 : ℕ) + i
        omega
      · show (0 : ℤ) + (3 : ℕ) + i < (100 : ℕ)
        omega
    · intro a _ a' _ hne p h1 h2
      have e1 := FftBase.data_buf h1
      have e2 := FftBase.data_buf h2
      exact hne (e1.symm.trans e2)
    · intro a ha hB
      have ha : a < (c r).x.fft.A := ha
      rw [hxf, (f r hr).bA] at ha
      have ha : a < 2 := ha
      rcases hB with hB | ⟨a', ha', hB⟩
      · have h1 := (hc r hr).2.2.2.2.2 _ hB
        rcases h1 with h1 | ⟨t, _, h1⟩
        · have h1 : Conv.NewBufs (tx r).base none none (exAllocK 0) a := h1
          have := exNewBufs ((hA r hr).trans (by omega)) h1
          omega
        · have h1 : Conv2.NewBufs ty.base o.base _ none none (exAlloc2 (1000 * (t + 1))) a := h1
          have := exNewBufs2 hA' hA'' h1
          omega
      · have hB : a = 5 + a' := hB
        omega

end Fftwpp
