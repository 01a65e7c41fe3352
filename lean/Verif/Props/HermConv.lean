import Verif.Proof.HOper
import Verif.Props.Conv

/-!
# C43: convolutions of Hermitian-symmetric data
-/

namespace Fftwpp
open Finset
namespace Herm

/-- The unnormalized result of the driver is the sum over all frequencies. -/
theorem result_eq {o : Herm} (h : o.WF) {φ : List ℕ → ℕ → (ℕ → ℝ) → ℝ} {idx : List ℕ}
    {mem : Mem} {g : PtrArr} {off b j c : ℕ} :
    o.view.result o.base (o.opΦ φ idx) mem g off b j c = ∑ e ∈ range o.M,
      (φ (e :: idx) b (fun a => (hdft o.M o.H (fun j => mem.val (g.at_ a + off + (o.C * j + c))) e).re) : ℂ) * w o.M (-((j : ℤ) * e)) := by
  rw [← h.sum_index (fun e => (φ (e :: idx) b (fun a => (hdft o.M o.H (fun j => mem.val (g.at_ a + off + (o.C * j + c))) e).re) : ℂ) *
    w o.M (-((j : ℤ) * e)))]
  unfold View.result
  rw [show o.base.residues = rng 0 o.R from h.starts, rng, Nat.sub_zero, ← List.range_eq_range', ← List.sum_toFinset _ List.nodup_range, List.toFinset_range]
  rfl

/-- The constructor ensures the requested size (convolve.cc:464-475). -/
theorem new_size {L M : ℕ} {app : App} {C m D : ℕ} {inplace : Bool} {al : ℕ} {J : Junk} {o : Herm} (hnew : Herm.new L M app C m D inplace al J = .ok o) :
    M ≤ m * o.q := by
  unfold Herm.new at hnew
  split_ifs at hnew with h1 h2
  revert hnew
  generalize parameters L M m true = t
  obtain ⟨p, n, q⟩ := t
  simp only
  intro hnew
  rw [Nat.mul_comm]
  split_ifs at hnew with h3 h4 h5
  · cases hnew; exact not_lt.1 h4
  · cases hnew; exact not_lt.1 h4

end Herm

/-- **C43**, general form, with the analogues of C12, C13 and C15.  For every Hermitian transform (one copy, any valid parameters), every real operation `φ`
performed by the multiplier (which may depend on the frequency), any contents of the work arrays and any history of calls of `convolve` and of writes
by the user, `convolve(g)` terminates without out-of-bounds access or data race.  If element 0 of each input is real, it leaves in `g[b][j]`, `b < B`,
`j < ⌈L/2⌉`, the value at `j` of the inverse transform of `φ` applied to the transforms of the Hermitian sequences `g[0],…,g[A-1]`; element 0 of each output
is real again.  Nothing but the outputs and the work arrays is changed. -/
theorem C43_history {L M : ℕ} {app : App} {m D : ℕ} {inplace : Bool} {align : ℕ} {J : Junk} {o : Herm} (hal : 0 < align) (hD : 0 < D)
    (hnew : Herm.new L M app 1 m D inplace align J = .ok o)
    (hdvd : o.q ≠ 1 → o.nloops = 2 → app.B < app.A → (app.A - app.B) ∣ app.B) (hBA : o.q = 1 ∨ app.B ≤ app.A)
    {mult : Multiplier} {φ : List ℕ → ℕ → (ℕ → ℝ) → ℝ} (hm : RMultSpec app.A app.B o.index mult φ)
    {mem0 : Mem} {Fu : Option PtrArr} {Vu : Option Ptr} {al : Alloc} (hbuf : o.view.Buffers o.base mem0 Fu Vu al) :
    ∃ c mem1, Conv.new o.base mult Fu none Vu al mem0 = .ok (c, mem1) ∧
      ∀ steps : List Conv.Step, (∀ s ∈ steps, o.view.Allowed c mem0 s) →
      ∃ mem2, seqLoop steps c.step mem1 = .ok ((), mem2) ∧
      ∀ g : PtrArr, o.view.Inputs c mem0 g → (c.convolve g).Ok mem2 fun _ mem3 =>
        ((∀ a < app.A, (mem2.val (g.at_ a)).im = 0) → ∀ b < app.B, ∀ j < ceilquotient L 2,
          mem3.val (g.at_ b + j) = hermResult (m * o.q) (ceilquotient L 2) (fun e => φ [e]) (fun a j => mem2.val (g.at_ a + j)) b j ∧
          (mem3.val (g.at_ b)).im = 0) ∧
        (∀ p, ¬ o.view.WorkWord c p → (∀ b < app.B, ∀ j < ceilquotient L 2, p ≠ g.at_ b + j) → mem3.val p = mem2.val p) ∧
        mem3.size = mem2.size := by
  have h := Herm.WF.of_new (by omega) hal hnew
  obtain ⟨hL, hmm, hCC, _, _, hA, hB, hDD, _⟩ := Herm.new_fields hnew
  subst hL hmm hDD
  have hsp := Herm.view_spec h hD
  have fl := Herm.view_flat h hCC
  have hl2 := Herm.view_L2 h (by rw [hA, hB]; exact hdvd)
  obtain ⟨c, mem1, e1, hfft, hmult, hF, hV, hW, hr, hu⟩ := View.new_ok hsp h.q_pos mult hbuf
  refine ⟨c, mem1, e1, ?_⟩
  intro steps hst
  have hops := Herm.ops h hD hCC (by rw [hA, hB]; exact hBA) hfft (by rw [hA, hB, hmult]; exact hm) []
  rw [← hfft] at hsp fl hl2
  have hal : ∀ s ∈ steps, o.view.Allowed c mem1 s := by
    intro s hsm
    have := hst s hsm
    cases s with
    | write p v => exact ⟨Mem.valid_of_size hu.size this.1, this.2⟩
    | call g => exact View.Inputs.size this hu.size
  obtain ⟨_, mem2, e2, hr2, hs2⟩ := View.history_ok hsp fl hl2 hops hr steps hal
  refine ⟨mem2, e2, ?_⟩
  intro g hg
  refine (View.convolve_ok hsp fl hl2 hops hr2 (hg.size (hs2.trans hu.size))).mono ?_
  rintro _ mem3 ⟨u3, _, e3⟩
  refine ⟨?_, ?_, u3.size⟩
  · intro h0 b hb j hj
    have hgood : o.view.Good c.fft (o.opΦ φ []) (fun _ _ _ => True) mem2 g 0 := by
      refine ⟨fun a ha c' hc' => ?_, fun _ _ _ _ => trivial, fun _ _ _ _ _ _ => trivial⟩
      rw [hfft] at ha hc'
      have hc' : c' < o.C := hc'
      obtain rfl : c' = 0 := by omega
      have := h0 a (by rw [← hA]; exact ha)
      show (mem2.val (g.at_ a + 0 + (o.C * 0 + 0))).im = 0
      simpa [Conv.Ptr.add0] using this
    have hval : ∀ j < ceilquotient o.L 2, mem3.val (g.at_ b + j) = hermResult (o.m * o.q) (ceilquotient o.L 2) (fun e => φ [e])
        (fun a j => mem2.val (g.at_ a + j)) b j := by
      intro j hj
      have := e3 hgood b (by rw [hfft]; show b < o.B; rw [hB]; exact hb) j (by rw [hfft]; exact hj)
      rw [this, hfft, Herm.result_eq h, hermResult, mul_comm, ← h.M_eq]
      simp only [hCC, one_mul, add_zero, Conv.Ptr.add0]
      rfl
    refine ⟨hval j hj, ?_⟩
    have hH := h.H_facts.1
    have := hval 0 hH
    rw [show ((0 : ℕ)) = 0 from rfl, Conv.Ptr.add0] at this
    rw [this]
    exact hermResult_real
  · intro p hp hpg
    refine u3.frame p ?_
    rintro (hp' | ⟨b, hb, hp'⟩)
    · exact hp hp'
    · rw [hfft] at hb
      obtain ⟨j, hj, rfl⟩ := hp'
      refine hpg b (by rw [← hB]; exact hb) j ?_ rfl
      rw [hCC, Nat.one_mul] at hj
      exact hj

/-- **C43**: with `A=2`, `B=1`, `realMultBinary` and any valid parameters, after any history, `convolve(g)` leaves in `g[0][k]`, `0 ≤ k < H=⌈L/2⌉`, the
cyclic convolution of period `N=m*q` of the Hermitian sequences `g[0]`, `g[1]` (extended to `-H < j < H` by `x_{-j} = conj x_j`), and the linear one if the
requested size is `M ≥ 3H-2`. -/
theorem C43_convolve {L M : ℕ} {ow : Bool} {m D : ℕ} {inplace : Bool} {align : ℕ} {J : Junk} {o : Herm} (hal : 0 < align) (hD : 0 < D)
    (hnew : Herm.new L M ⟨2, 1, ow⟩ 1 m D inplace align J = .ok o)
    {mem0 : Mem} {Fu : Option PtrArr} {Vu : Option Ptr} {al : Alloc} (hbuf : o.view.Buffers o.base mem0 Fu Vu al) :
    ∃ c mem1, Conv.new o.base realMultBinary Fu none Vu al mem0 = .ok (c, mem1) ∧
      ∀ steps : List Conv.Step, (∀ s ∈ steps, o.view.Allowed c mem0 s) →
      ∃ mem2, seqLoop steps c.step mem1 = .ok ((), mem2) ∧
      ∀ g : PtrArr, o.view.Inputs c mem0 g → (mem2.val (g.at_ 0)).im = 0 → (mem2.val (g.at_ 1)).im = 0 →
        (c.convolve g).Ok mem2 fun _ mem3 => ∀ k < ceilquotient L 2,
        mem3.val (g.at_ 0 + k) =
          hermConv (m * o.q) (ceilquotient L 2) (fun i => mem2.val (g.at_ 0 + i)) (fun j => mem2.val (g.at_ 1 + j)) k ∧
        (3 * ceilquotient L 2 ≤ M + 2 → mem3.val (g.at_ 0 + k) =
          hermLin (ceilquotient L 2) (fun i => mem2.val (g.at_ 0 + i)) (fun j => mem2.val (g.at_ 1 + j)) k) := by
  have h := Herm.WF.of_new (by omega) hal hnew
  obtain ⟨c, mem1, e1, hc⟩ := C43_history hal hD hnew (fun _ _ _ => by simp) (Or.inr (by simp)) realMultBinary_spec hbuf
  refine ⟨c, mem1, e1, fun steps hst => ?_⟩
  obtain ⟨mem2, e2, hc2⟩ := hc steps hst
  refine ⟨mem2, e2, fun g hg h0 h1 => (hc2 g hg).mono ?_⟩
  rintro _ mem3 ⟨e3, _, _⟩ k hk
  have hin : ∀ a < 2, (mem2.val (g.at_ a)).im = 0 := by
    intro a ha
    obtain rfl | rfl : a = 0 ∨ a = 1 := by omega
    · exact h0
    · exact h1
  have hN : o.M = m * o.q := by rw [h.M_eq, (Herm.new_fields hnew).2.1]
  have hN0 : m * o.q ≠ 0 := by
    have := h.L_pos
    have := h.L_le_M
    omega
  have : mem3.val (g.at_ 0 + k) =
      hermConv (m * o.q) (ceilquotient L 2) (fun i => mem2.val (g.at_ 0 + i)) (fun j => mem2.val (g.at_ 1 + j)) k := by
    rw [(e3 hin 0 (by simp) k hk).1]
    refine hermResult_binary hN0 _ ?_ ?_ k
    · simpa [Conv.Ptr.add0] using h0
    · simpa [Conv.Ptr.add0] using h1
  refine ⟨this, fun hM => ?_⟩
  rw [this]
  refine hermConv_linear ?_ _ _ hk
  have := Herm.new_size hnew
  omega

open Fft (exMem)

/-- Work arrays as needed by small examples. -/
theorem View.exBuffers {v : View} {o : FftBase} (hD : ∀ f p, v.D f p → InArr f 100 p) (hAB : max o.A o.B ≤ 5) (hos : o.outputSize ≤ 100)
    (hws : o.workSizeW ≤ 100) : v.Buffers o (exMem 100) none none exAlloc := by
  have hFb : ∀ a, ((Conv.newF o none exAlloc).at_ a) = ⟨10 + a, 0⟩ := fun a => rfl
  have hVb : ∀ a, ((Conv.newV o none exAlloc).at_ a) = ⟨20 + a, 0⟩ := fun a => rfl
  refine ⟨⟨le_rfl, ?_, ?_, ?_⟩, ?_⟩
  · intro a ha a' ha' hne
    rw [hFb, hFb]; show 10 + a ≠ 10 + a'; omega
  · intro a ha; rw [hFb]; exact exMem_block _ _ hos
  · unfold Conv.newW
    split_ifs
    · rfl
    · refine ⟨_, rfl, ?_, exMem_block _ _ hws⟩
      intro a ha; rw [hFb]; show 7 ≠ 10 + a; omega
  · intro _ _ _
    refine ⟨⟨le_rfl, ?_, ?_, ?_⟩, ?_⟩
    · intro a ha p hp
      rw [hVb, Conv.Ptr.add0] at hp
      obtain ⟨i, hi, rfl⟩ := hD _ _ hp
      exact exMem_block _ _ le_rfl i hi
    · intro a ha a' ha'; rw [hVb, hFb]; show 20 + a ≠ 10 + a'
      omega
    · intro a ha W hW
      rw [hVb]
      unfold Conv.newW at hW
      split_ifs at hW
      obtain rfl : exAlloc.W = W := by simpa using hW
      show 7 ≠ 20 + a; omega
    · intro a ha a' ha' hne p h1 h2
      rw [hVb] at h1 h2
      obtain ⟨i, hi, rfl⟩ := hD _ _ h1
      obtain ⟨j, hj, h3⟩ := hD _ _ h2
      have : 20 + a = 20 + a' := congrArg Ptr.buf h3
      omega

theorem View.exInputs {v : View} {c : Conv} (hD : ∀ f p, v.D f p → InArr f 100 p) (hF : c.F = Conv.newF c.fft none exAlloc)
    (hV : c.V = Conv.newV c.fft none exAlloc) (hW : c.W = Conv.newW c.fft exAlloc) (hAB : max c.fft.A c.fft.B ≤ 5) :
    v.Inputs c (exMem 100) (exArr 5) := by
  have hFb : ∀ a, (c.F.at_ a) = ⟨10 + a, 0⟩ := fun a => by rw [hF]; rfl
  have hVb : ∀ a, (c.V.at_ a) = ⟨20 + a, 0⟩ := fun a => by rw [hV]; rfl
  have hgb : ∀ a, ((exArr 5).at_ a) = ⟨a, 0⟩ := fun a => rfl
  refine ⟨⟨hAB, ?_, ?_, ?_⟩, ?_, ?_⟩
  · intro a ha p hp
    rw [hgb, Conv.Ptr.add0] at hp
    obtain ⟨i, hi, rfl⟩ := hD _ _ hp
    exact exMem_block _ _ le_rfl i hi
  · intro a ha a' ha'; rw [hFb, hgb]; show a ≠ 10 + a'; omega
  · intro a ha W hW'
    rw [hW] at hW'
    unfold Conv.newW at hW'
    split_ifs at hW'
    obtain rfl : exAlloc.W = W := by simpa using hW'
    rw [hgb]; show 7 ≠ a; omega
  · intro a ha a' ha' hne p h1 h2
    rw [hgb] at h1 h2
    obtain ⟨i, hi, rfl⟩ := hD _ _ h1
    obtain ⟨j, hj, h3⟩ := hD _ _ h2
    have : a = a' := congrArg Ptr.buf h3
    exact hne this
  · intro _ a ha b hb
    rw [hgb, hVb]; show a ≠ 20 + b; omega

/-- The hypotheses of the theorems above can be met: `L=7`, `M=20` (enough for the linear convolution), `m=4`, out of place, three
residue blocks. -/
example (J : Junk) : ∃ o, Herm.new 7 20 ⟨2, 1, true⟩ 1 4 2 false 16 J = .ok o ∧ 3 * ceilquotient 7 2 ≤ 20 + 2 ∧ o.q = 5 ∧ o.nloops = 3 ∧
    o.view.Buffers o.base (exMem 100) none none exAlloc ∧
    ∃ c mem1, Conv.new o.base realMultBinary none none none exAlloc (exMem 100) = .ok (c, mem1) ∧ o.view.Inputs c (exMem 100) (exArr 5) ∧
      o.view.Allowed c (exMem 100) (.write ((exArr 5).at_ 0 + 1) Complex.I) ∧ o.view.Allowed c (exMem 100) (.call (exArr 5)) := by
  obtain ⟨o, hnew, hq, hn, hA, hB, hC, hD, hos, hws, hil⟩ : ∃ o, Herm.new 7 20 ⟨2, 1, true⟩ 1 4 2 false 16 J = .ok o ∧ o.q = 5 ∧ o.R = 3 ∧ o.A = 2 ∧
      o.B = 1 ∧ o.C = 1 ∧ o.D = 2 ∧ o.outputSize ≤ 100 ∧ o.workSizeW ≤ 100 ∧ o.inputLength ≤ 100 := by
    refine ⟨Herm.newHybrid 7 ⟨2, 1, true⟩ 1 4 2 2 5 5 false 16 J, rfl, rfl, rfl, rfl, rfl, rfl, rfl, ?_, ?_, ?_⟩ <;>
      simp [Herm.inputLength, Herm.newHybrid, Fft.outputSize, Herm.workSizeW, align, ceilquotient]
  have h := Herm.WF.of_new (by decide) (by decide) hnew
  have hAB : max o.base.A o.base.B ≤ 5 := by
    show max o.A o.B ≤ 5
    rw [hA, hB]; decide
  have hDD : ∀ f p, o.view.D f p → InArr f 100 p := by
    rintro f p ⟨i, hi, rfl⟩
    rw [hC, Nat.one_mul] at hi
    exact ⟨i, by omega, rfl⟩
  have hb := View.exBuffers (o := o.base) hDD hAB hos hws
  refine ⟨o, hnew, by decide, hq, by rw [h.nloops_eq, hn], hb, ?_⟩
  obtain ⟨c, mem1, e1, hfft, _, hF, hV, hW, _⟩ := View.new_ok (Herm.view_spec h (by omega)) h.q_pos realMultBinary hb
  have hin : o.view.Inputs c (exMem 100) (exArr 5) :=
    View.exInputs hDD (by rw [hF, hfft]) (by rw [hV, hfft]) (by rw [hW, hfft]) (by rw [hfft]; exact hAB)
  refine ⟨c, mem1, e1, hin, ⟨exMem_block 0 100 le_rfl 1 (by omega), ?_⟩, hin⟩
  rintro ⟨W, hW', i, hi, h3⟩
  rw [hW] at hW'
  unfold Conv.newW at hW'
  split_ifs at hW'
  obtain rfl : exAlloc.W = W := by simpa using hW'
  have : 0 = 7 := congrArg Ptr.buf h3
  omega

end Fftwpp
