import Verif.Props.Wrapper

/-!
# The hypotheses of C59 are met

For every behaviour of the clock, and with it every plan that the optimizer may choose, there is a memory in which the objects are built and called.
-/

namespace Fftwpp

open Fft (exMem)

theorem exMemN_block {N : ℕ} (k n : ℕ) (hn : n ≤ N) : (exMem N).block ⟨k, 0⟩ n := by
  intro i hi
  constructor
  · show (0 : ℤ) ≤ 0 + i
    omega
  · show (0 : ℤ) + i < (N : ℕ)
    omega

theorem exBuffersN {N : ℕ} {o : FftBase} (hAB : max o.A o.B ≤ 5) (hos : o.outputSize ≤ N) (hL : o.S * o.L ≤ N) :
    Conv.Buffers o (exMem N) none none exAlloc := by
  have hFb : ∀ a, ((Conv.newF o none exAlloc).at_ a) = ⟨10 + a, 0⟩ := fun a => rfl
  have hVb : ∀ a, ((Conv.newV o none exAlloc).at_ a) = ⟨20 + a, 0⟩ := fun a => rfl
  refine ⟨⟨le_rfl, ?_, ?_, ?_⟩, ?_⟩
  · intro a ha a' ha' hne
    rw [hFb, hFb]; show 10 + a ≠ 10 + a'; omega
  · intro a ha; rw [hFb]; exact exMemN_block _ _ hos
  · unfold Conv.newW
    split_ifs
    · rfl
    · refine ⟨_, rfl, ?_, exMemN_block _ _ hos⟩
      intro a ha; rw [hFb]; show 7 ≠ 10 + a; omega
  · intro _ _ _
    refine ⟨⟨le_rfl, ?_, ?_, ?_⟩, ?_⟩
    · intro a ha; rw [hVb, Conv.Ptr.add0]; exact exMemN_block _ _ hL
    · intro a ha a' ha'; rw [hVb, hFb]; show 20 + a ≠ 10 + a'
      omega
    · intro a ha W hW
      rw [hVb]
      unfold Conv.newW at hW
      split_ifs at hW
      obtain rfl : exAlloc.W = W := by simpa using hW
      show 7 ≠ 20 + a; omega
    · intro a ha a' ha' hne p h1 h2
      have e1 := FftBase.data_buf h1
      have e2 := FftBase.data_buf h2
      rw [hVb] at e1 e2
      rw [e1] at e2
      have : 20 + a = 20 + a' := e2
      omega
theorem exOuterBuffersN {N : ℕ} {o : FftBase} {k : ℕ} (hAB : max o.A o.B ≤ 5) (hos : o.outputSize ≤ N) (hL : o.S * o.L ≤ N) :
    Outer.Buffers o (exMem N) none none (exAllocK k) := by
  have hFb : ∀ a, ((Conv.newF o none (exAllocK k)).at_ a) = ⟨k + 10 + a, 0⟩ := fun a => rfl
  have hVb : ∀ a, ((Conv.newV o none (exAllocK k)).at_ a) = ⟨k + 20 + a, 0⟩ := fun a => rfl
  refine ⟨⟨le_rfl, ?_, ?_, ?_⟩, ?_⟩
  · intro a ha a' ha' hne
    rw [hFb, hFb]; show k + 10 + a ≠ k + 10 + a'; omega
  · intro a ha; rw [hFb]; exact exMemN_block _ _ hos
  · unfold Conv.newW
    split_ifs
    · rfl
    · refine ⟨_, rfl, ?_, exMemN_block _ _ hos⟩
      intro a ha; rw [hFb]; show k + 7 ≠ k + 10 + a; omega
  · intro _ _
    refine ⟨⟨le_rfl, ?_, ?_, ?_⟩, ?_⟩
    · intro a ha; rw [hVb, Conv.Ptr.add0]; exact exMemN_block _ _ hL
    · intro a ha a' ha'; rw [hVb, hFb]; show k + 20 + a ≠ k + 10 + a'
      omega
    · intro a ha W hW
      rw [hVb]
      unfold Conv.newW at hW
      split_ifs at hW
      obtain rfl : (exAllocK k).W = W := by simpa using hW
      show k + 7 ≠ k + 20 + a; omega
    · intro a ha a' ha' hne p h1 h2
      have e1 := FftBase.data_buf h1
      have e2 := FftBase.data_buf h2
      rw [hVb] at e1 e2
      rw [e1] at e2
      have : k + 20 + a = k + 20 + a' := e2
      omega
theorem exBuffers2N {N : ℕ} {ox oy : FftBase} {k th : ℕ} (hA : max ox.A ox.B ≤ 5) (hos : ox.outputSize ≤ N) (hL : ox.S * ox.L ≤ N)
    (hA' : max oy.A oy.B ≤ 5) (hos' : oy.outputSize ≤ N) (hL' : oy.S * oy.L ≤ N) :
    Conv2.Buffers ox oy th (exMem N) none none (exAlloc2 k) := by
  refine ⟨exOuterBuffersN hA hos hL, ?_, ?_, ?_⟩
  · intro t _
    have h : Outer.Buffers oy (exMem N) none none (exAllocK (k + 100 * (t + 1))) := exOuterBuffersN hA' hos' hL'
    exact ⟨h.work, fun _ h1 h2 => h.V h1 h2⟩
  · intro t _ t' _ hne i h1 h2
    have := exNewBufs hA' h1
    have := exNewBufs hA' h2
    omega
  · intro t _ i h1 h2
    have := exNewBufs hA h1
    have := exNewBufs hA' h2
    omega
theorem View.exBuffersN {N : ℕ} {v : View} {o : FftBase} (hD : ∀ f p, v.D f p → InArr f N p) (hAB : max o.A o.B ≤ 5) (hos : o.outputSize ≤ N)
    (hws : o.workSizeW ≤ N) : v.Buffers o (exMem N) none none exAlloc := by
  have hFb : ∀ a, ((Conv.newF o none exAlloc).at_ a) = ⟨10 + a, 0⟩ := fun a => rfl
  have hVb : ∀ a, ((Conv.newV o none exAlloc).at_ a) = ⟨20 + a, 0⟩ := fun a => rfl
  refine ⟨⟨le_rfl, ?_, ?_, ?_⟩, ?_⟩
  · intro a ha a' ha' hne
    rw [hFb, hFb]; show 10 + a ≠ 10 + a'; omega
  · intro a ha; rw [hFb]; exact exMemN_block _ _ hos
  · unfold Conv.newW
    split_ifs
    · rfl
    · refine ⟨_, rfl, ?_, exMemN_block _ _ hws⟩
      intro a ha; rw [hFb]; show 7 ≠ 10 + a; omega
  · intro _ _ _
    refine ⟨⟨le_rfl, ?_, ?_, ?_⟩, ?_⟩
    · intro a ha p hp
      rw [hVb, Conv.Ptr.add0] at hp
      obtain ⟨i, hi, rfl⟩ := hD _ _ hp
      exact exMemN_block _ _ le_rfl i hi
    · intro a ha a' ha'; rw [hVb, hFb]; show 20 + a ≠ 10 + a'
      omega
    · intro a ha W hW
      rw [hVb]
      unfold Conv.newW at hW
      split_ifs at hW
      obtain rfl : exAlloc.W = W := by simpa using hW
      show 7 ≠ 20 + a; omega
    · intro a ha a' ha' hne p h1 h2
      rw [hVb] at h1 h2
      obtain ⟨i, hi, rfl⟩ := hD _ _ h1
      obtain ⟨j, hj, h3⟩ := hD _ _ h2
      have : 20 + a = 20 + a' := congrArg Ptr.buf h3
      omega
theorem View.exBuffersKN {N : ℕ} {v : View} {o : FftBase} {k : ℕ} (hD : ∀ f p, v.D f p → InArr f N p) (hAB : max o.A o.B ≤ 5) (hos : o.outputSize ≤ N)
    (hws : o.workSizeW ≤ N) : v.Buffers o (exMem N) none none (exAllocK k) := by
  have hFb : ∀ a, ((Conv.newF o none (exAllocK k)).at_ a) = ⟨k + 10 + a, 0⟩ := fun a => rfl
  have hVb : ∀ a, ((Conv.newV o none (exAllocK k)).at_ a) = ⟨k + 20 + a, 0⟩ := fun a => rfl
  refine ⟨⟨le_rfl, ?_, ?_, ?_⟩, ?_⟩
  · intro a ha a' ha' hne
    rw [hFb, hFb]; show k + 10 + a ≠ k + 10 + a'; omega
  · intro a ha; rw [hFb]; exact exMemN_block _ _ hos
  · unfold Conv.newW
    split_ifs
    · rfl
    · refine ⟨_, rfl, ?_, exMemN_block _ _ hws⟩
      intro a ha; rw [hFb]; show k + 7 ≠ k + 10 + a; omega
  · intro _ _ _
    refine ⟨⟨le_rfl, ?_, ?_, ?_⟩, ?_⟩
    · intro a ha p hp
      rw [hVb, Conv.Ptr.add0] at hp
      obtain ⟨i, hi, rfl⟩ := hD _ _ hp
      exact exMemN_block _ _ le_rfl i hi
    · intro a ha a' ha'; rw [hVb, hFb]; show k + 20 + a ≠ k + 10 + a'
      omega
    · intro a ha W hW
      rw [hVb]
      unfold Conv.newW at hW
      split_ifs at hW
      obtain rfl : (exAllocK k).W = W := by simpa using hW
      show k + 7 ≠ k + 20 + a; omega
    · intro a ha a' ha' hne p h1 h2
      rw [hVb] at h1 h2
      obtain ⟨i, hi, rfl⟩ := hD _ _ h1
      obtain ⟨j, hj, h3⟩ := hD _ _ h2
      have : k + 20 + a = k + 20 + a' := congrArg Ptr.buf h3
      omega

theorem exGBuffers2N {N : ℕ} {v : View} {ox oy : FftBase} {k th : ℕ} (hA : max ox.A ox.B ≤ 5) (hos : ox.outputSize ≤ N) (hL : ox.S * ox.L ≤ N)
    (hD : ∀ f p, v.D f p → InArr f N p) (hA' : max oy.A oy.B ≤ 5) (hos' : oy.outputSize ≤ N) (hws' : oy.workSizeW ≤ N) :
    Conv2.GBuffers ox oy (fun m al => v.Buffers oy m none none al) th (exMem N) none none (exAlloc2 k) := by
  refine ⟨exOuterBuffersN hA hos hL, fun t _ => View.exBuffersKN hD hA' hos' hws', ?_, ?_⟩
  · intro t _ t' _ hne i h1 h2
    have := exNewBufs hA' h1
    have := exNewBufs hA' h2
    omega
  · intro t _ i h1 h2
    have := exNewBufs hA h1
    have := exNewBufs hA' h2
    omega

theorem twoArr_at (a : ℕ) (ha : a < 2) : (twoArr ⟨0, 0⟩ ⟨1, 0⟩).at_ a = ⟨a, 0⟩ := by
  obtain rfl | rfl : a = 0 ∨ a = 1 := by omega
  · rfl
  · rfl

/-- The hypotheses of `C59_conv1d` are met, whatever the clock shows: `L=100`. -/
example (k : Clock) : ∃ o N, Fft.opt k 100 (2 * 100 - 1) ⟨2, 1, true⟩ 1 = .ok o ∧ Conv.Buffers o.base (exMem N) none none exAlloc ∧
    ∃ c mem1, Cwrap.create_conv1d k 100 exAlloc (exMem N) = .ok (c, mem1) ∧ c.Inputs (exMem N) (twoArr ⟨0, 0⟩ ⟨1, 0⟩) := by
  obtain ⟨m, D, ip, o, e, hnew, hS, -⟩ := Fft.opt_ok k (L := 100) (M := 2 * 100 - 1) (C := 1) ⟨2, 1, true⟩ (by omega) (by omega) (by norm_num) le_rfl
  have h := Fft.WF.of_new (by omega) hnew
  obtain ⟨f, hA2⟩ : Tr.Facts (.pad o) false 100 (2 * 100 - 1) ⟨2, 1, true⟩ 1 m ∧ o.base.A = 2 := by
    have hx : Tr.new false 100 (2 * 100 - 1) ⟨2, 1, true⟩ 1 1 m D ip = .ok (.pad o) := by
      unfold Tr.new
      rw [if_neg (by simp), hnew]
      rfl
    have := Tr.facts (by omega) hx
    exact ⟨this, this.bA⟩
  have hB1 : o.base.B = 1 := f.bB
  have hAB : max o.base.A o.base.B = 2 := by rw [hA2, hB1]; rfl
  have hAB5 : max o.base.A o.base.B ≤ 5 := by omega
  let N := o.base.outputSize + o.base.S * o.base.L
  have hb : Conv.Buffers o.base (exMem N) none none exAlloc := exBuffersN hAB5 (Nat.le_add_right _ _) (Nat.le_add_left _ _)
  obtain ⟨c, mem1, e1, hfft, _, hF, hV, hW, _⟩ := Conv.new_ok h.base_spec (by show 0 < o.q; exact h.q_pos) multBinary hb
  refine ⟨o, N, e, hb, c, mem1, ?_, ?_⟩
  · unfold Cwrap.create_conv1d HybridConvolution.new wrapSize withObj
    simp only [if_true]
    rw [show 2 * 100 - 2 + 1 = 2 * 100 - 1 by omega, e]
    exact e1
  have hab : max c.fft.A c.fft.B = 2 := by rw [hfft, hAB]
  have hFb : ∀ a, (c.F.at_ a) = ⟨10 + a, 0⟩ := fun a => by rw [hF]; rfl
  have hVb : ∀ a, (c.V.at_ a) = ⟨20 + a, 0⟩ := fun a => by rw [hV]; rfl
  refine ⟨⟨by rw [hab]; exact le_rfl, ?_, ?_, ?_⟩, ?_, ?_, fun _ a ha a' ha' hne => ?_⟩
  · intro a ha
    rw [hab] at ha
    rw [twoArr_at a ha, Conv.Ptr.add0]; exact exMemN_block _ _ (by rw [hfft]; exact Nat.le_add_left _ _)
  · intro a ha a' ha'
    rw [hab] at ha
    rw [hFb, twoArr_at a ha]; show a ≠ 10 + a'; omega
  · intro a ha W hW'
    rw [hab] at ha
    rw [hW] at hW'
    unfold Conv.newW at hW'
    split_ifs at hW'
    obtain rfl : exAlloc.W = W := by simpa using hW'
    rw [twoArr_at a ha]; show 7 ≠ a; omega
  · intro a ha a' ha' hne p h1 h2
    rw [hab] at ha ha'
    have e1 := FftBase.data_buf h1
    have e2 := FftBase.data_buf h2
    rw [twoArr_at a ha] at e1
    rw [twoArr_at a' ha'] at e2
    rw [e1] at e2
    exact hne e2
  · intro _ a ha b hb
    rw [hab] at ha
    rw [twoArr_at a ha, hVb]; show a ≠ 20 + b; omega
  · have hA : c.fft.A = 2 := by rw [hfft, hA2]
    rw [hA] at ha ha'
    rw [twoArr_at a ha, twoArr_at a' ha']; exact hne

/-- The hypotheses of `C59_hconv1d` and `C59_py1` are met, whatever the clock shows: 50 stored words. -/
example (k : Clock) (J : Junk) : ∃ o N, Herm.opt k (2 * 50 - 1) (3 * ceilquotient (2 * 50 - 1) 2 - 2 * ((2 * 50 - 1) % 2)) ⟨2, 1, true⟩ 16 J = .ok o ∧
    o.view.Buffers o.base (exMem N) none none exAlloc ∧
    ∃ c mem1, Py.HConvolution1.init k 50 16 J exAlloc (exMem N) = .ok (c, mem1) ∧ o.view.Inputs c (exMem N) (twoArr ⟨0, 0⟩ ⟨1, 0⟩) := by
  obtain ⟨m, D, ip, o, e, hnew, hD⟩ := Herm.opt_ok k (L := 2 * 50 - 1) (M := 3 * ceilquotient (2 * 50 - 1) 2 - 2 * ((2 * 50 - 1) % 2)) ⟨2, 1, true⟩ 16 J
    (by decide) (by decide) (by decide)
  have h := Herm.WF.of_new (by decide) (by decide) hnew
  obtain ⟨hL, hmm, hCC, _, _, hA, hB, hDD, _⟩ := Herm.new_fields hnew
  have hA2 : o.base.A = 2 := hA
  have hB1 : o.base.B = 1 := hB
  have hAB : max o.base.A o.base.B = 2 := by rw [hA2, hB1]; rfl
  have hAB5 : max o.base.A o.base.B ≤ 5 := by omega
  let N := o.base.outputSize + o.base.workSizeW + o.C * o.inputLength
  have hDD : ∀ f p, o.view.D f p → InArr f N p := by
    rintro f p ⟨i, hi, rfl⟩
    exact ⟨i, lt_of_lt_of_le hi (Nat.le_add_left _ _), rfl⟩
  have hb : o.view.Buffers o.base (exMem N) none none exAlloc :=
    View.exBuffersN hDD hAB5 (le_trans (Nat.le_add_right _ _) (Nat.le_add_right _ _)) (le_trans (Nat.le_add_left _ _) (Nat.le_add_right _ _))
  obtain ⟨c, mem1, e1, hfft, _, hF, hV, hW, _⟩ := View.new_ok (Herm.view_spec h (by omega)) h.q_pos realMultBinary hb
  refine ⟨o, N, e, hb, c, mem1, ?_, ?_⟩
  · unfold Py.HConvolution1.init Cwrap.create_hconv1d HybridConvolutionHermitian.new wrapSizeH withObj
    simp only [if_true]
    rw [e]
    exact e1
  have hab : max c.fft.A c.fft.B = 2 := by rw [hfft, hAB]
  have hFb : ∀ a, (c.F.at_ a) = ⟨10 + a, 0⟩ := fun a => by rw [hF]; rfl
  have hVb : ∀ a, (c.V.at_ a) = ⟨20 + a, 0⟩ := fun a => by rw [hV]; rfl
  refine ⟨⟨by rw [hab]; exact le_rfl, ?_, ?_, ?_⟩, ?_, ?_⟩
  · intro a ha p hp
    rw [hab] at ha
    rw [twoArr_at a ha, Conv.Ptr.add0] at hp
    obtain ⟨i, hi, rfl⟩ := hDD _ _ hp
    exact exMemN_block _ _ le_rfl i hi
  · intro a ha a' ha'
    rw [hab] at ha
    rw [hFb, twoArr_at a ha]; show a ≠ 10 + a'; omega
  · intro a ha W hW'
    rw [hab] at ha
    rw [hW] at hW'
    unfold Conv.newW at hW'
    split_ifs at hW'
    obtain rfl : exAlloc.W = W := by simpa using hW'
    rw [twoArr_at a ha]; show 7 ≠ a; omega
  · intro a ha a' ha' hne p h1 h2
    rw [hab] at ha ha'
    rw [twoArr_at a ha] at h1
    rw [twoArr_at a' ha'] at h2
    obtain ⟨i, hi, rfl⟩ := hDD _ _ h1
    obtain ⟨j, hj, h3⟩ := hDD _ _ h2
    have : a = a' := congrArg Ptr.buf h3
    exact hne this
  · intro _ a ha b hb
    rw [hab] at ha
    rw [twoArr_at a ha, hVb]; show a ≠ 20 + b; omega

/-- All rows by one thread. -/
theorem seqSch_legal {n threads : ℕ} (h : 0 < threads) : Sch.Legal ((List.range n).map fun i => (i, 0)) n threads := by
  refine ⟨?_, ?_⟩
  · simp [List.map_map, Function.comp_def]
  · intro x hx
    obtain ⟨i, _, rfl⟩ := List.mem_map.mp hx
    exact h

/-- The hypotheses of `C59_hconv2d` and `C59_py2` are met, whatever the clocks show: arrays of shape `(40,30)`, two threads. -/
example (kx ky : Clock) (J : Junk) : ∃ tx o N, Tr.optCentered kx 40 (3 * ceilquotient 40 2 - 2 * (40 % 2)) ⟨2, 1, true⟩ 30 = .ok tx ∧
    Herm.opt ky (2 * 30 - 1) (3 * 30 - 2) ⟨2, 1, true⟩ 16 J = .ok o ∧
    Conv2.GBuffers tx.base o.base (fun m al => o.view.Buffers o.base m none none al) 2 (exMem N) none none (exAlloc2 0) ∧
    ∃ c mem1, Py.HConvolution2.init kx ky 40 30 2 16 J (exAlloc2 0) (exMem N) = .ok (c, mem1) ∧
      c.Inputs (exMem N) (twoArr ⟨0, 0⟩ ⟨1, 0⟩) 0 ∧ ∃ s, c.LegalS s := by
  obtain ⟨mx, Dx, ipx, tx, ex, hx, hSx, hDx⟩ := Tr.opt_ok kx (L := 40) (M := 3 * ceilquotient 40 2 - 2 * (40 % 2)) (C := 30) ⟨2, 1, true⟩
    (by omega) (by decide) (by decide) (by omega)
  obtain ⟨my, Dy, ipy, o, ey, hy, hDy⟩ := Herm.opt_ok ky (L := 2 * 30 - 1) (M := 3 * 30 - 2) ⟨2, 1, true⟩ 16 J (by decide) (by decide) (by decide)
  have f := Tr.facts (by omega) hx
  have h := Herm.WF.of_new (by decide) (by decide) hy
  obtain ⟨hL, hmm, hCC, _, _, hA, hB, hDD, _⟩ := Herm.new_fields hy
  have hA2 : o.base.A = 2 := hA
  have hB1 : o.base.B = 1 := hB
  have hAx2 : tx.base.A = 2 := f.bA
  have hBx1 : tx.base.B = 1 := f.bB
  have hAx : max tx.base.A tx.base.B ≤ 5 := by rw [hAx2, hBx1]; decide
  have hAB : max o.base.A o.base.B ≤ 5 := by rw [hA2, hB1]; decide
  obtain ⟨N, n1, n2, n3, n4, n5⟩ : ∃ N, tx.base.outputSize ≤ N ∧ tx.base.S * tx.base.L ≤ N ∧ o.base.outputSize ≤ N ∧ o.base.workSizeW ≤ N ∧
      o.C * o.inputLength ≤ N := ⟨tx.base.outputSize + tx.base.S * tx.base.L + o.base.outputSize + o.base.workSizeW + o.C * o.inputLength,
        by omega, by omega, by omega, by omega, by omega⟩
  have hDD : ∀ f p, o.view.D f p → InArr f N p := by
    rintro f p ⟨i, hi, rfl⟩
    exact ⟨i, lt_of_lt_of_le hi n5, rfl⟩
  have hb : Conv2.GBuffers tx.base o.base (fun m al => o.view.Buffers o.base m none none al) 2 (exMem N) none none (exAlloc2 0) :=
    exGBuffers2N hAx n1 n2 hDD hAB n3 n4
  have hD1 : tx.fft.D = 1 := hDx (by omega)
  have hfit := Conv2.gfitsH (H := 30) (by decide) hDy rfl hx hy (by omega) hD1 (fun _ _ _ => rfl) (fun _ _ _ => by simp) realMultBinary_spec
    (fun _ => Or.inr fun _ _ _ _ => rfl)
  obtain ⟨c, mem1, e1, hfx, hfy, hth, _, _, hbn, _⟩ := Conv2.newG_ok hfit hb
  refine ⟨tx, o, N, ex, ey, hb, c, mem1, ?_, ⟨?_, ?_, ?_, ?_, fun _ a ha a' ha' hne => ?_⟩, ?_⟩
  · unfold Py.HConvolution2.init Cwrap.create_hconv2d HybridConvolutionHermitian2.new wrapSizeH withObj
    simp only [if_true, show ceilquotient (2 * 30 - 1) 2 = 30 from rfl, show 3 * 30 - 2 * ((2 * 30 - 1) % 2) = 3 * 30 - 2 from rfl]
    rw [ex, ey]
    exact e1
  · rw [hfx, hAx2]; exact le_rfl
  · intro a ha
    rw [hfx, hAx2] at ha
    rw [twoArr_at a ha, Conv.Ptr.add0, hfx]
    exact exMemN_block _ _ n2
  · intro a ha a' ha' hne p h1 h2
    rw [hfx, hAx2] at ha ha'
    have e1 := FftBase.data_buf h1
    have e2 := FftBase.data_buf h2
    simp only [Conv.Ptr.add0] at e1 e2
    rw [twoArr_at a ha] at e1
    rw [twoArr_at a' ha'] at e2
    exact hne (e1.symm.trans e2)
  · intro a ha hB
    rw [hfx, hAx2] at ha
    rw [twoArr_at a ha] at hB
    have := exNewBufs2 hAx hAB (hbn _ hB)
    have h2 : 0 + 7 ≤ a := this.1
    omega
  · rw [hfx, hAx2] at ha ha'
    rw [twoArr_at a ha, twoArr_at a' ha']; exact hne
  · refine ⟨fun r => (List.range (c.x.fft.blocksize r)).map fun i => (i, 0), fun r _ => seqSch_legal ?_⟩
    rw [hth]
    unfold Conv2.newThreads
    split_ifs <;> omega

end Fftwpp
