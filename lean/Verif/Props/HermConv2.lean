import Verif.Proof.HGen
import Verif.Proof.HConvMath2
import Verif.Props.CenteredConv
import Verif.Props.Hermitian

/-!
# C44: two-dimensional convolutions of Hermitian-symmetric data
-/

namespace Fftwpp
open Finset

/-- The transforms in the two directions fit together. -/
theorem Conv2.gfitsH {Lx Mx Ly My A B H : ℕ} {owx owy ipx ipy : Bool} {Sx mx Dx my Dy : ℕ} {align : ℕ} {J : Junk} {tx : Tr} {o : Herm}
    (hal : 0 < align) (hDy : 0 < Dy) (hH : H = ceilquotient Ly 2)
    (hx : Tr.new true Lx Mx ⟨A, B, owx⟩ H Sx mx Dx ipx = .ok tx) (hy : Herm.new Ly My ⟨A, B, owy⟩ 1 my Dy ipy align J = .ok o)
    (hBA : B ≤ A) (hDx : tx.fft.D = 1)
    (hlx : tx.fft.overwrite = false → tx.fft.nloops = 2 → B < A → A = B + 1)
    (hly : o.q ≠ 1 → o.nloops = 2 → B < A → (A - B) ∣ B)
    {mult : Multiplier} {φ : List ℕ → ℕ → (ℕ → ℝ) → ℝ} (hm : RMultSpec A B o.index mult φ)
    (hfreqx : tx.fft.overwrite = true → tx.fft.n = 2 ∨ ∀ ey e e' idx, φ (ey :: e :: idx) = φ (ey :: e' :: idx)) :
    Conv2.GFits tx.base o.base mult (origin true Lx : ℕ) tx.Padded (hval o.M o.H φ) (RealRows o.A) (fun c => o.view.Ready c (fun _ _ => True))
      (fun m al => o.view.Buffers o.base m none none al) := by
  have h := Herm.WF.of_new (by omega) hal hy
  obtain ⟨hL, hmm, hCC, _, _, hA, hB, hDD, _⟩ := Herm.new_fields hy
  have hoH : o.H = H := by rw [hH, ← hL]; rfl
  have f := Tr.facts (by rw [← hoH]; exact h.H_facts.1) hx
  refine Herm.gfits2 h (by omega) hCC (by rw [hA, hB]; exact hly) (by rw [hA, hB]; exact hm) f.spec (f.outer hBA hlx) ?_ ?_ ?_ f.bcol
    (fun r _ => f.bs hDx r) ?_
  · rw [f.bA, hA]
  · rw [f.bB, hB]
  · rw [f.bC, hoH]
  · rw [f.bow, f.bn]; exact hfreqx

/-- **C44**, general form, with the analogues of C12, C13 and C15.  A `Convolution2` from a centered transform in `x` (`Lx` rows of `H=⌈Ly/2⌉` stored
columns) and a Hermitian one in `y`, with any valid parameters, any number of threads, any schedule of the inner convolutions, any real operation `φ`
performed by the multiplier, any contents of the work arrays and any history of calls and of writes by the user: `convolve(f,off)` terminates without
out-of-bounds access or data race.  If the stored data of each input are Hermitian symmetric in the line `j=0`, it leaves in the outputs the inverse
transform of `φ` applied to the transforms of the represented arrays; the outputs are Hermitian symmetric in the line `j=0` up to the unpaired row of an
even `Lx`.  Nothing but the outputs and the work arrays is changed. -/
theorem C44_history2 {Lx Mx Ly My A B H : ℕ} {owx owy ipx ipy : Bool} {Sx mx Dx my Dy : ℕ} {align : ℕ} {J : Junk} {tx : Tr} {o : Herm}
    (hal : 0 < align) (hDy : 0 < Dy) (hH : H = ceilquotient Ly 2)
    (hx : Tr.new true Lx Mx ⟨A, B, owx⟩ H Sx mx Dx ipx = .ok tx) (hy : Herm.new Ly My ⟨A, B, owy⟩ 1 my Dy ipy align J = .ok o)
    (hBA : B ≤ A) (hDx : tx.fft.D = 1)
    (hlx : tx.fft.overwrite = false → tx.fft.nloops = 2 → B < A → A = B + 1)
    (hly : o.q ≠ 1 → o.nloops = 2 → B < A → (A - B) ∣ B)
    {mult : Multiplier} {φ : List ℕ → ℕ → (ℕ → ℝ) → ℝ} (hm : RMultSpec A B o.index mult φ)
    (hfreqx : tx.fft.overwrite = true → tx.fft.n = 2 ∨ ∀ ey e e' idx, φ (ey :: e :: idx) = φ (ey :: e' :: idx))
    {th : ℕ} {mem0 : Mem} {Fu : Option PtrArr} {Vu : Option Ptr} {al : Alloc2}
    (hbuf : Conv2.GBuffers tx.base o.base (fun m al => o.view.Buffers o.base m none none al) th mem0 Fu Vu al) :
    ∃ c mem1, Conv2.new tx.base o.base mult th Fu none Vu al mem0 = .ok (c, mem1) ∧
      (∀ k, c.Bufs k → Conv2.NewBufs tx.base o.base th Fu Vu al k) ∧
      ∀ steps : List Conv2.Step, (∀ s ∈ steps, c.Allowed mem0 s) →
      ∃ mem2, seqLoop steps c.step mem1 = .ok ((), mem2) ∧
      ∀ (s : ℕ → Sch) (f : PtrArr) (off : ℕ), c.LegalS s → c.Inputs mem0 f off → (c.convolve s f off).Ok mem2 fun _ mem3 =>
        ((∀ a < A, HermData2 Lx (Lx / 2) (fun i j => mem2.val (f.at_ a + off + (tx.fft.S * i + j)))) →
          (∀ b < B, ∀ i < Lx, ∀ j < H, mem3.val (f.at_ b + off + (tx.fft.S * i + j)) =
            hermResult2 (mx * tx.fft.q) Lx (Lx / 2) (my * o.q) H (fun kx ky => φ [ky, kx])
              (fun a i j => mem2.val (f.at_ a + off + (tx.fft.S * i + j))) b ((i : ℤ) - (Lx / 2 : ℕ)) j) ∧
          (∀ b < B, ∀ i < Lx, ∀ i' < Lx, (i : ℤ) - (Lx / 2 : ℕ) = -((i' : ℤ) - (Lx / 2 : ℕ)) →
            mem3.val (f.at_ b + off + (tx.fft.S * i + 0)) = (starRingEnd ℂ) (mem3.val (f.at_ b + off + (tx.fft.S * i' + 0))))) ∧
        (∀ p, ¬ c.Bufs p.buf → (∀ b < (if tx.fft.overwrite = true then A else B), ∀ i < Lx, ∀ j < H,
          p ≠ f.at_ b + off + (tx.fft.S * i + j)) → mem3.val p = mem2.val p) ∧
        mem3.size = mem2.size := by
  have hfit := Conv2.gfitsH hal hDy hH hx hy hBA hDx hlx hly hm hfreqx
  have h := Herm.WF.of_new (by omega) hal hy
  obtain ⟨hL, hmm, hCC, _, _, hA, hB, hDD, _⟩ := Herm.new_fields hy
  have hoH : o.H = H := by rw [hH, ← hL]; rfl
  have hH0 : 0 < H := by rw [← hoH]; exact h.H_facts.1
  have g := Tr.facts hH0 hx
  obtain ⟨c, mem1, e1, hfx, hfy, hth, hset, hr, hbn, hu⟩ := Conv2.newG_ok hfit hbuf
  refine ⟨c, mem1, e1, hbn, ?_⟩
  intro steps hst
  have hal : ∀ s ∈ steps, c.Allowed mem1 s := by
    intro s hsm
    have := hst s hsm
    cases s with
    | write p v => exact ⟨Mem.valid_of_size hu.size this.1, this.2⟩
    | call s g off => exact ⟨this.1, this.2.size hu.size⟩
  obtain ⟨_, mem2, e2, hr2, hs2⟩ := hset.history_ok hr steps hal
  refine ⟨mem2, e2, ?_⟩
  intro s f off hs hf
  refine (hset.convolve_ok hs hr2 (hf.size (hs2.trans hu.size))).mono ?_
  rintro _ mem3 ⟨u3, _, e3⟩
  have bB : c.x.fft.B = B := by rw [hfx]; exact g.bB
  have bO : c.x.fft.outs = if tx.fft.overwrite = true then A else B := by
    unfold FftBase.outs; rw [hfx, g.bow, g.bA, g.bB]
  have bL : c.x.fft.L = Lx := by rw [hfx]; exact g.bL
  have bC : c.x.fft.C = H := by rw [hfx]; exact g.bC
  have bS : c.x.fft.S = tx.fft.S := by rw [hfx]; exact g.bS
  have bN : c.x.fft.N = mx * tx.fft.q := by rw [hfx]; exact g.bN
  have bNy : c.ffty.N = my * o.q := by rw [hfy]; show o.M = _; rw [h.M_eq, hmm]
  have hoM : o.M = my * o.q := by rw [h.M_eq, hmm]
  have hLx := g.L_pos
  have hx0 : Lx / 2 < Lx := by omega
  have horig : origin true Lx = Lx / 2 := rfl
  refine ⟨?_, ?_, u3.size⟩
  · intro hd
    have hG : c.x.fft.Good (origin true Lx : ℕ) (RealRows o.A) mem2 f off := by
      intro e a ha
      unfold FftBase.hat
      rw [FftBase.dft_cdft bN bL, horig]
      simp only [hset.col, bS]
      exact (hd a (by rw [← show o.A = A from hA]; exact ha)).real hx0 e
    have hv : ∀ b < B, ∀ i < Lx, ∀ j < H, mem3.val (f.at_ b + off + (tx.fft.S * i + j)) =
            hermResult2 (mx * tx.fft.q) Lx (Lx / 2) (my * o.q) H (fun kx ky => φ [ky, kx])
              (fun a i j => mem2.val (f.at_ a + off + (tx.fft.S * i + j))) b ((i : ℤ) - (Lx / 2 : ℕ)) j := by
      intro b hb i hi j hj
      have := e3 hG b (by omega) i (by omega) j (by omega)
      rw [bS] at this
      rw [this, hermResult2_eq hx0, bN, bNy]
      unfold FftBase.result hermResult hval FftBase.hat
      rw [bN, hoM, hoH, ← one_div_mul_one_div]
      simp only [FftBase.dft_cdft bN bL, hset.col, bS, horig]
      rw [mul_comm, mul_assoc]
      congr 1
      rw [mul_sum]
      refine sum_congr rfl fun e _ => ?_
      ring
    refine ⟨hv, ?_⟩
    intro b hb i hi i' hi' hii
    rw [hv b hb i hi 0 hH0, hv b hb i' hi' 0 hH0, hii]
    exact hermResult2_real hx0 _
  · intro p hp hpf
    refine u3.frame p ?_
    rintro (hp' | ⟨b, hb, i, hi, k, hk, rfl⟩)
    · exact hp hp'
    · refine hpf b (by rw [← bO]; exact hb) i (by omega) k (by omega) ?_
      rw [hset.col, bS]

/-- **C44**: `realMultBinary`, `A=2`, `B=1`: `convolve(f,off)` leaves in output 0 the cyclic convolution, with periods `Nx=mx*qx`, `Ny=my*qy`, of the
represented Hermitian arrays, and the linear one if `3⌈Ly/2⌉-2 ≤ My`, `2(⌈Lx/2⌉-1)+⌊Lx/2⌋ < Mx` and, for even `Lx`, the unpaired row of each input
(position `-Lx/2`) is zero. -/
theorem C44_convolve2 {Lx Mx Ly My H : ℕ} {owx owy ipx ipy : Bool} {Sx mx Dx my Dy : ℕ} {align : ℕ} {J : Junk} {tx : Tr} {o : Herm}
    (hal : 0 < align) (hDy : 0 < Dy) (hH : H = ceilquotient Ly 2)
    (hx : Tr.new true Lx Mx ⟨2, 1, owx⟩ H Sx mx Dx ipx = .ok tx) (hy : Herm.new Ly My ⟨2, 1, owy⟩ 1 my Dy ipy align J = .ok o)
    (hDx : tx.fft.D = 1)
    {th : ℕ} {mem0 : Mem} {Fu : Option PtrArr} {Vu : Option Ptr} {al : Alloc2}
    (hbuf : Conv2.GBuffers tx.base o.base (fun m al => o.view.Buffers o.base m none none al) th mem0 Fu Vu al) :
    ∃ c mem1, Conv2.new tx.base o.base realMultBinary th Fu none Vu al mem0 = .ok (c, mem1) ∧
      ∀ steps : List Conv2.Step, (∀ s ∈ steps, c.Allowed mem0 s) →
      ∃ mem2, seqLoop steps c.step mem1 = .ok ((), mem2) ∧
      ∀ (s : ℕ → Sch) (f : PtrArr) (off : ℕ), c.LegalS s → c.Inputs mem0 f off →
        (∀ a < 2, HermData2 Lx (Lx / 2) (fun i j => mem2.val (f.at_ a + off + (tx.fft.S * i + j)))) →
        (c.convolve s f off).Ok mem2 fun _ mem3 => ∀ i < Lx, ∀ j < H,
          mem3.val (f.at_ 0 + off + (tx.fft.S * i + j)) =
            hermConv2 (mx * tx.fft.q) Lx (Lx / 2) (my * o.q) H
            (fun i j => mem2.val (f.at_ 0 + off + (tx.fft.S * i + j))) (fun i j => mem2.val (f.at_ 1 + off + (tx.fft.S * i + j)))
            ((i : ℤ) - (Lx / 2 : ℕ)) j ∧
          ((Lx % 2 = 0 → ∀ a < 2, ∀ j < H, mem2.val (f.at_ a + off + (tx.fft.S * 0 + j)) = 0) →
            2 * ((Lx + 1) / 2 - 1) + Lx / 2 < Mx → 3 * H ≤ My + 2 → mem3.val (f.at_ 0 + off + (tx.fft.S * i + j)) =
            hermLin2 Lx (Lx / 2) H
            (fun i j => mem2.val (f.at_ 0 + off + (tx.fft.S * i + j))) (fun i j => mem2.val (f.at_ 1 + off + (tx.fft.S * i + j)))
            ((i : ℤ) - (Lx / 2 : ℕ)) j) := by
  have h := Herm.WF.of_new (by omega) hal hy
  obtain ⟨hL, hmm, _⟩ := Herm.new_fields hy
  have hoH : o.H = H := by rw [hH, ← hL]; rfl
  have g := Tr.facts (by rw [← hoH]; exact h.H_facts.1) hx
  have hLx := g.L_pos
  have hx0 : Lx / 2 < Lx := by omega
  have hN : mx * tx.fft.q ≠ 0 := (Nat.mul_pos g.m_pos g.q_pos).ne'
  have hN' : my * o.q ≠ 0 := by
    have h1 := h.L_pos
    have h2 := h.L_le_M
    rw [← hmm, ← h.M_eq]
    omega
  obtain ⟨c, mem1, e1, _, hc⟩ := C44_history2 hal hDy hH hx hy (by omega) hDx (fun _ _ _ => rfl) (fun _ _ _ => by simp)
    realMultBinary_spec (fun _ => Or.inr fun _ _ _ _ => rfl) hbuf
  refine ⟨c, mem1, e1, fun steps hst => ?_⟩
  obtain ⟨mem2, e2, hc2⟩ := hc steps hst
  refine ⟨mem2, e2, fun s f off hs hf hd => (hc2 s f off hs hf).mono ?_⟩
  rintro _ mem3 ⟨e3, _, _⟩ i hi j hj
  have := ((e3 hd).1 0 (by omega) i hi j hj).trans (hermResult2_binary hx0 hN hN' _ (hd 0 (by omega)) (hd 1 (by omega)) j)
  refine ⟨this, fun hz h1 h2 => ?_⟩
  rw [this]
  refine hermConv2_linear (fun he => hz he 0 (by omega)) (fun he => hz he 1 (by omega)) ?_ ?_ hi hj
  · exact lt_of_lt_of_le h1 g.size
  · have := Herm.new_size hy
    omega

/-- `HermitianSymmetrizeX` establishes what `C44_history2` and `C44_convolve2` require of the inputs: afterwards the stored data are Hermitian symmetric
in the line `j=0` and the unpaired row of an even `Lx` is zero. -/
theorem C44_symmetrized {Lx H S : ℕ} {f : Ptr} {m : Mem} (hL : 0 < Lx) (hH : 0 < H) (hS : H ≤ S) (hb : m.block f (S * (Lx - 1) + H)) :
    ∃ m', hermitianSymmetrizeX (ceilquotient Lx 2) H (Lx / 2) f S m = .ok ((), m') ∧
      HermData2 Lx (Lx / 2) (fun i j => m'.val (f + (S * i + j))) ∧ (Lx % 2 = 0 → ∀ j < H, m'.val (f + (S * 0 + j)) = 0) := by
  have hc : ceilquotient Lx 2 = (Lx + 1) / 2 := by unfold ceilquotient; omega
  rw [hc]
  have hsum : Lx / 2 + (Lx + 1) / 2 = Lx := by omega
  obtain ⟨m', e, _, h1, _, _, h2, _⟩ := C21_symmetrizeX (Hx := (Lx + 1) / 2) (Hy := H) (x0 := Lx / 2) (Sx := S) (f := f) (m := m) (by omega) (by omega)
    (by omega) hS (by rw [hsum]; exact hb)
  have hz : Lx % 2 = 0 → ∀ j < H, m'.val (f + (S * 0 + j)) = 0 := by
    intro he j hj
    rw [Nat.mul_zero, Nat.zero_add]
    exact h2 (by omega) j hj
  refine ⟨m', e, ?_, hz⟩
  have key : ∀ s : ℕ, cext Lx (Lx / 2) (fun a => m'.val (f + (S * a + 0))) (-(s : ℤ)) =
      (starRingEnd ℂ) (cext Lx (Lx / 2) (fun a => m'.val (f + (S * a + 0))) s) := by
    intro s
    unfold cext
    by_cases hs : s < (Lx + 1) / 2
    · rw [if_pos (by omega), if_pos (by omega)]
      have a1 : (-(s : ℤ) + (Lx / 2 : ℕ)).toNat = Lx / 2 - s := by omega
      have a2 : ((s : ℤ) + (Lx / 2 : ℕ)).toNat = Lx / 2 + s := by omega
      rw [a1, a2]
      exact h1 s hs
    · rw [if_neg (by omega : ¬ (-((Lx / 2 : ℕ) : ℤ) ≤ (s : ℤ) ∧ (s : ℤ) < Lx - (Lx / 2 : ℕ))), map_zero]
      split_ifs with h
      · have a1 : (-(s : ℤ) + (Lx / 2 : ℕ)).toNat = 0 := by omega
        rw [a1]
        exact hz (by omega) 0 hH
      · rfl
  intro i
  obtain ⟨s, rfl | rfl⟩ := i.eq_nat_or_neg
  · exact key s
  · have := congrArg (starRingEnd ℂ) (key s)
    rw [Complex.conj_conj] at this
    rw [neg_neg, this]

open Fft (exMem)

/-- Work arrays as needed by small examples. -/
theorem View.exBuffersK {v : View} {o : FftBase} {k : ℕ} (hD : ∀ f p, v.D f p → InArr f 100 p) (hAB : max o.A o.B ≤ 5) (hos : o.outputSize ≤ 100)
    (hws : o.workSizeW ≤ 100) : v.Buffers o (exMem 100) none none (exAllocK k) := by
  have hFb : ∀ a, ((Conv.newF o none (exAllocK k)).at_ a) = ⟨k + 10 + a, 0⟩ := fun a => rfl
  have hVb : ∀ a, ((Conv.newV o none (exAllocK k)).at_ a) = ⟨k + 20 + a, 0⟩ := fun a => rfl
  refine ⟨⟨le_rfl, ?_, ?_, ?_⟩, ?_⟩
  · intro a ha a' ha' hne
    rw [hFb, hFb]; show k + 10 + a ≠ k + 10 + a'; omega
  · intro a ha; rw [hFb]; exact exMem_block _ _ hos
  · unfold Conv.newW
    split_ifs
    · rfl
    · refine ⟨_, rfl, ?_, exMem_block _ _ hws⟩
      intro a ha; rw [hFb]; show k + 7 ≠ k + 10 + a; omega
  · intro _ _ _
    refine ⟨⟨le_rfl, ?_, ?_, ?_⟩, ?_⟩
    · intro a ha p hp
      rw [hVb, Conv.Ptr.add0] at hp
      obtain ⟨i, hi, rfl⟩ := hD _ _ hp
      exact exMem_block _ _ le_rfl i hi
    · intro a ha a' ha'; rw [hVb, hFb]; show k + 20 + a ≠ k + 10 + a'
      omega
    · intro a ha W hW
      rw [hVb]
      unfold Conv.newW at hW
      split_ifs at hW
      obtain rfl : (exAllocK k).W = W := by simpa using hW
      show k + 7 ≠ k + 20 + a; omega
    · intro a ha a' ha' hne p h1 h2
      rw [hVb] at h1 h2
      obtain ⟨i, hi, rfl⟩ := hD _ _ h1
      obtain ⟨j, hj, h3⟩ := hD _ _ h2
      have : k + 20 + a = k + 20 + a' := congrArg Ptr.buf h3
      omega

theorem exGBuffers2 {v : View} {ox oy : FftBase} {k th : ℕ} (hA : max ox.A ox.B ≤ 5) (hos : ox.outputSize ≤ 100) (hL : ox.S * ox.L ≤ 100)
    (hD : ∀ f p, v.D f p → InArr f 100 p) (hA' : max oy.A oy.B ≤ 5) (hos' : oy.outputSize ≤ 100) (hws' : oy.workSizeW ≤ 100) :
    Conv2.GBuffers ox oy (fun m al => v.Buffers oy m none none al) th (exMem 100) none none (exAlloc2 k) := by
  refine ⟨exOuterBuffers hA hos hL, fun t _ => View.exBuffersK hD hA' hos' hws', ?_, ?_⟩
  · intro t _ t' _ hne i h1 h2
    have := exNewBufs hA' h1
    have := exNewBufs hA' h2
    omega
  · intro t _ i h1 h2
    have := exNewBufs hA h1
    have := exNewBufs hA' h2
    omega

/-- The hypotheses of C44 are met: `Lx=4`, `Mx=6`, `mx=2`, in place and overwriting, two threads, `Sx=5`; `Ly=7` (four stored columns), `My=20`, `my=4`, out of
place, three residue blocks; and so are those on the arguments of `convolve` (with `C44_symmetrized` for the data). -/
example (J : Junk) : ∃ tx o, Tr.new true 4 6 ⟨2, 1, true⟩ 4 5 2 1 true = .ok tx ∧ Herm.new 7 20 ⟨2, 1, true⟩ 1 4 2 false 16 J = .ok o ∧
    ceilquotient 7 2 = 4 ∧ tx.fft.D = 1 ∧ tx.fft.overwrite = true ∧ o.nloops = 3 ∧ 2 * ((4 + 1) / 2 - 1) + 4 / 2 < 6 ∧ 3 * 4 ≤ 20 + 2 ∧
    Conv2.GBuffers tx.base o.base (fun m al => o.view.Buffers o.base m none none al) 2 (exMem 100) none none (exAlloc2 0) ∧
    ∃ c mem1, Conv2.new tx.base o.base realMultBinary 2 none none none (exAlloc2 0) (exMem 100) = .ok (c, mem1) ∧
      c.threads = 2 ∧ c.Inputs (exMem 100) (exArr 5) 3 ∧ c.LegalS (fun _ => [(1, 0), (0, 1)]) ∧ (exMem 100).block ((exArr 5).at_ 0 + 3) (5 * (4 - 1) + 4) := by
  obtain ⟨tx, hx, hox, hSx, hDx, hlx, hbs, howx⟩ : ∃ t, Tr.new true 4 6 ⟨2, 1, true⟩ 4 5 2 1 true = .ok t ∧ t.base.outputSize ≤ 100 ∧
      t.fft.S = 5 ∧ t.fft.D = 1 ∧ t.base.l = 2 ∧ (∀ r, t.base.blocksize r = 2) ∧ t.fft.overwrite = true :=
    ⟨_, rfl, by show (Fft.outputSize _) ≤ 100; decide, rfl, rfl, rfl, fun _ => rfl, by decide⟩
  obtain ⟨o, hy, hq, hn, hA, hB, hC, hD, hos, hws, hil⟩ : ∃ o, Herm.new 7 20 ⟨2, 1, true⟩ 1 4 2 false 16 J = .ok o ∧ o.q = 5 ∧ o.R = 3 ∧ o.A = 2 ∧
      o.B = 1 ∧ o.C = 1 ∧ o.D = 2 ∧ o.outputSize ≤ 100 ∧ o.workSizeW ≤ 100 ∧ o.inputLength ≤ 100 := by
    refine ⟨Herm.newHybrid 7 ⟨2, 1, true⟩ 1 4 2 2 5 5 false 16 J, rfl, rfl, rfl, rfl, rfl, rfl, rfl, ?_, ?_, ?_⟩ <;>
      simp [Herm.inputLength, Herm.newHybrid, Fft.outputSize, Herm.workSizeW, align, ceilquotient]
  have f := Tr.facts (by omega) hx
  have h := Herm.WF.of_new (by decide) (by decide) hy
  have hAx : max tx.base.A tx.base.B ≤ 5 := by rw [f.bA, f.bB]; decide
  have hAB : max o.base.A o.base.B ≤ 5 := by
    show max o.A o.B ≤ 5
    rw [hA, hB]; decide
  have hDD : ∀ f p, o.view.D f p → InArr f 100 p := by
    rintro f p ⟨i, hi, rfl⟩
    rw [hC, Nat.one_mul] at hi
    exact ⟨i, by omega, rfl⟩
  have hb : Conv2.GBuffers tx.base o.base (fun m al => o.view.Buffers o.base m none none al) 2 (exMem 100) none none (exAlloc2 0) :=
    exGBuffers2 hAx hox (by rw [f.bS, f.bL, hSx]; decide) hDD hAB hos hws
  refine ⟨tx, o, hx, hy, rfl, hDx, howx, by rw [h.nloops_eq, hn], by decide, by decide, hb, ?_⟩
  have hfit := Conv2.gfitsH (by decide) (by decide) rfl hx hy (by omega) hDx (fun _ _ _ => rfl) (fun _ _ _ => by simp) realMultBinary_spec
    (fun _ => Or.inr fun _ _ _ _ => rfl)
  obtain ⟨c, mem1, e1, hfx, hfy, hth, _, _, hbn, _⟩ := Conv2.newG_ok hfit hb
  have hth2 : Conv2.newThreads tx.base 2 = 2 := by
    unfold Conv2.newThreads
    rw [if_neg]
    omega
  refine ⟨c, mem1, e1, by rw [hth, hth2], ⟨?_, ?_, ?_, ?_, fun _ a _ a' _ hne => hne⟩, ?_, ?_⟩
  · rw [hfx, f.bA]; decide
  · intro a _ i hi
    rw [hfx, f.bS, f.bL, hSx] at hi
    constructor
    · show (0 : ℤ) ≤ 0 + (3 : ℕ) + i
      omega
    · show (0 : ℤ) + (3 : ℕ) + i < (100 : ℕ)
      omega
  · intro a _ a' _ hne p h1 h2
    have e1 := FftBase.data_buf h1
    have e2 := FftBase.data_buf h2
    exact hne (e1.symm.trans e2)
  · intro a ha hB
    rw [hfx, f.bA] at ha
    have ha : a < 2 := ha
    have := exNewBufs2 hAx hAB (hbn _ hB)
    have h2 : 0 + 7 ≤ a := this.1
    omega
  · intro r _
    rw [hfx, hbs, hth, hth2]
    exact ⟨by beta_reduce; decide, by beta_reduce; decide⟩
  · intro i hi
    constructor
    · show (0 : ℤ) ≤ 0 + (3 : ℕ) + i
      omega
    · show (0 : ℤ) + (3 : ℕ) + i < (100 : ℕ)
      omega

end Fftwpp
