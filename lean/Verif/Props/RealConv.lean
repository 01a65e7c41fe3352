import Verif.Proof.RConv
import Verif.Props.Conv
import Verif.Props.HermConv

/-!
# C46: convolutions of real data
-/

namespace Fftwpp
open Finset
local notation "conj" => starRingEnd ℂ

/-- The operation commutes with complex conjugation, as needed for the results to be real. -/
def ConjOp (A : ℕ) (φ : ℕ → (ℕ → ℂ) → ℂ) : Prop := ∀ b X Y, (∀ a < A, Y a = conj (X a)) → φ b Y = conj (φ b X)

namespace Re
variable {o : Re}

/-- A sum over a period of values with `F (-k) = conj (F k)` is real. -/
theorem sum_conj_real {N : ℕ} {F : ℤ → ℂ} (hp : ∀ k, F (k + N) = F k) (hc : ∀ k, F (-k) = conj (F k)) :
    ((∑ k ∈ range N, (F k).re : ℝ) : ℂ) = ∑ k ∈ range N, F k := by
  have h1 := sum_neg_per (m := N) (f := fun k => (F k).im) fun k => by rw [hp]
  have h2 : ∑ l ∈ range N, (F (-(l : ℤ))).im = - ∑ l ∈ range N, (F l).im := by
    rw [← sum_neg_distrib]
    refine sum_congr rfl fun l _ => ?_
    rw [hc, Complex.conj_im]
  have h3 : ∑ l ∈ range N, (F l).im = 0 := by
    have : ∑ l ∈ range N, (F (-(l : ℤ))).im = ∑ l ∈ range N, (F l).im := h1
    rw [h2] at this; linarith
  apply Complex.ext
  · rw [Complex.ofReal_re, Complex.re_sum]
  · rw [Complex.ofReal_im, Complex.im_sum, h3]

theorem dft_per {N L : ℕ} (x : ℕ → ℂ) (k : ℤ) : paddedDFT N L x (k + N) = paddedDFT N L x k := by
  unfold paddedDFT
  refine sum_congr rfl fun j _ => ?_
  congr 1
  exact w_congr ⟨(j : ℤ), by ring⟩

/-- The result of the driver is the inverse transform of `φ` of the transforms. -/
theorem result_eq (w' : o.WF) {φ : ℕ → (ℕ → ℂ) → ℂ} (hcj : ConjOp o.A φ) (hS : o.S = 1)
    {mem : Mem} {g : PtrArr} (b j : ℕ) :
    o.view.result o.base (opΦ φ) mem g 0 b j 0 * (1 / (o.base.N : ℂ)) =
      convResult o.M o.L (fun _ => φ) (fun a j => (mem.dbl (g.at_ a) j : ℂ)) b j := by
  let xa : ℕ → ℕ → ℂ := fun a j => (mem.dbl (g.at_ a) j : ℂ)
  let F : ℤ → ℂ := fun k => φ b (fun a => paddedDFT o.M o.L (xa a) k) * w o.M (-((j : ℤ) * k))
  have hp : ∀ k, F (k + o.M) = F k := by
    intro k
    show φ b (fun a => paddedDFT o.M o.L (xa a) (k + o.M)) * w o.M (-((j : ℤ) * (k + o.M))) = _
    simp only [dft_per]
    congr 1
    exact w_congr ⟨-(j : ℤ), by ring⟩
  have hc : ∀ k, F (-k) = conj (F k) := by
    intro k
    show _ = conj (φ b _ * w o.M _)
    rw [map_mul, w_conj, ← hcj b (fun a => paddedDFT o.M o.L (xa a) k) (fun a => paddedDFT o.M o.L (xa a) (-k)) fun a _ => paddedDFT_real _ k]
    show _ * w o.M _ = _
    rw [mul_neg]
  have hE : EvenPer o.M (fun k => (F k).re) := ⟨fun k => by rw [hp], fun k => by rw [hc, Complex.conj_re]⟩
  have h1 := w'.sum_blocks hE
  have h2 : o.view.result o.base (opΦ φ) mem g 0 b j 0 = ((∑ k ∈ range o.M, (F k).re : ℝ) : ℂ) := by
    rw [← h1]
    unfold View.result
    rw [show o.base.residues = o.visited o.R 0 from rfl]
    have h3 : ∀ l : List ℕ, (l.map fun r => o.view.part (opΦ φ) mem g 0 r b j 0).sum =
        (((l.map fun r => ∑ i ∈ range (o.noutputs r), o.weight r i * (F (o.freq r i)).re).sum : ℝ) : ℂ) := by
      intro l
      induction l with
      | nil => simp
      | cons r l ih =>
        rw [List.map_cons, List.sum_cons, List.map_cons, List.sum_cons, ih]
        rw [Complex.ofReal_add]
        congr 1
        show ((∑ i ∈ range (o.noutputs r), _ : ℝ) : ℂ) = _
        congr 1
        refine sum_congr rfl fun i _ => ?_
        congr 2
        show φ b (fun a => paddedDFT o.M o.L (fun j => (mem.dbl (g.at_ a + 0) (o.S * j + 0) : ℂ)) (o.freq r i)) * _ = F _
        simp only [hS, Nat.one_mul, Nat.add_zero, Conv.Ptr.add0]
        rfl
    exact h3 _
  rw [h2, sum_conj_real hp hc, mul_comm]
  rfl

theorem good (w' : o.WF) {φ : ℕ → (ℕ → ℂ) → ℂ} (hcj : ConjOp o.A φ) {mem : Mem} {g : PtrArr} :
    o.view.Good o.base (opΦ φ) (fun _ _ _ => True) mem g 0 := by
  refine ⟨fun _ _ _ _ => trivial, fun _ _ _ _ => trivial, ?_⟩
  intro r _ b _ c _ i hi i' hi' hop
  show φ b _ = conj (φ b _)
  refine hcj b _ _ fun a _ => ?_
  exact paddedDFT_consistent w' (fun j => mem.dbl (g.at_ a + 0) (o.S * j + c)) i hi i' hi' hop

theorem view_flat (w' : o.WF) (hC : o.C = 1) (hS : o.S = 1) (how : o.overwrite = false) : o.view.FlatD o.base where
  C := hC
  D := by
    intro f p
    show InArr f ((o.S * o.L + 1) / 2) p ↔ InArr f ((o.L + 1) / 2) p
    rw [hS, Nat.one_mul]
  x := by
    intro m f j _
    show ((m.dbl f (o.S * j + 0) : ℝ) : ℂ) = _
    rw [hS, Nat.one_mul]; rfl
  q1 := (view_single w' hC how).q1
  ow := how

theorem V_one (w' : o.WF) (hS : o.S = 1) : o.V = none := by
  have := w'.V_eq
  rw [hS] at this
  simpa using this

end Re

/-- **C46**, general form, with the analogues of C12, C13 and C15.  For every transform of real data (one copy, any valid parameters), every operation `φ`
performed by the multiplier that commutes with complex conjugation, any contents of the work arrays and any history of calls of `convolve` and of writes
by the user, `convolve(g)` terminates without out-of-bounds access or data race and leaves in the double `g[b][j]`, `b < B`, `j < L`, the value at `j` of
the inverse DFT of `φ` of the DFTs of the doubles `g[0],…,g[A-1]` padded with zeros to length `N=m*q`.  Nothing but the words of the outputs and of the work
arrays is changed. -/
theorem C46_history {L M : ℕ} {app : App} {S0 m D : ℕ} {inplace : Bool} {J : Junk} {Vp : Ptr} {o : Re} (hD : 0 < D)
    (hnew : Re.new L M app 1 S0 m D inplace J Vp = .ok o) (hS : S0 ≤ 1)
    (hdvd : o.q ≠ 1 → o.nloops = 2 → app.B < app.A → (app.A - app.B) ∣ app.B) (hBA : o.q = 1 ∨ app.B ≤ app.A)
    {mult : Multiplier} {φ : ℕ → (ℕ → ℂ) → ℂ} (hm : MultSpec app.A app.B o.index mult (fun _ => φ)) (hcj : ConjOp app.A φ)
    {mem0 : Mem} {Fu : Option PtrArr} {Vu : Option Ptr} {al : Alloc} (hbuf : o.view.Buffers o.base mem0 Fu Vu al) :
    ∃ c mem1, Conv.new o.base mult Fu none Vu al mem0 = .ok (c, mem1) ∧
      ∀ steps : List Conv.StepD, (∀ s ∈ steps, o.view.AllowedD c mem0 s) →
      ∃ mem2, seqLoop steps c.stepD mem1 = .ok ((), mem2) ∧
      ∀ g : PtrArr, o.view.Inputs c mem0 g → (c.convolveD g).Ok mem2 fun _ mem3 =>
        (∀ b < app.B, ∀ j < L, (mem3.dbl (g.at_ b) j : ℂ) =
          convResult (m * o.q) L (fun _ => φ) (fun a j => (mem2.dbl (g.at_ a) j : ℂ)) b j) ∧
        (∀ p, ¬ o.view.WorkWord c p → (∀ b < app.B, ∀ j < L, p ≠ g.at_ b + (j / 2 : ℕ)) → mem3.val p = mem2.val p) ∧
        mem3.size = mem2.size := by
  have w' := Re.WF.of_new (by omega) hD hnew
  obtain ⟨hL, hmm, hCC⟩ := Re.new_fields hnew
  obtain ⟨how, hA, hB, hSS, _⟩ := Re.new_ow hnew
  have hS1 : o.S = 1 := by rw [hSS]; split_ifs <;> omega
  have hM : o.M = m * o.q := by rw [w'.M_eq, hmm]
  have hsp := Re.view_spec w' (Re.V_one w' hS1)
  have fl := Re.view_flat w' hCC hS1 how
  have hl2 := Re.view_L2 w' (by rw [hA, hB]; exact hdvd)
  obtain ⟨c, mem1, e1, hfft, hmult, hF, hV, hW, hr, hu⟩ := View.new_ok hsp w'.q_pos mult hbuf
  refine ⟨c, mem1, e1, ?_⟩
  intro steps hst
  have hops := Re.ops w' hS1 hCC (by rw [hA, hB]; exact hBA) hfft (by rw [hA, hB, hmult]; exact hm) []
  rw [← hfft] at hsp fl hl2
  have hal : ∀ s ∈ steps, o.view.AllowedD c mem1 s := by
    intro s hsm
    have := hst s hsm
    cases s with
    | write p i x => exact ⟨Mem.valid_of_size hu.size this.1, this.2⟩
    | call g => exact View.Inputs.size this hu.size
  obtain ⟨_, mem2, e2, hr2, hs2⟩ := View.historyD_ok hsp fl hl2 hops hr steps hal
  refine ⟨mem2, e2, ?_⟩
  intro g hg
  refine (View.convolveD_ok hsp fl hl2 hops hr2 (hg.size (hs2.trans hu.size))).mono ?_
  rintro _ mem3 ⟨u3, _, e3⟩
  rw [← hA] at hcj
  refine ⟨?_, ?_, u3.size⟩
  · intro b hb j hj
    have := e3 (by rw [hfft]; exact Re.good w' hcj) b (by rw [hfft]; show b < o.B; rw [hB]; exact hb) j (by rw [hfft]; show j < o.L; rw [hL]; exact hj)
    rw [this, hfft, Re.result_eq w' hcj hS1, hM, hL]
  · intro p hp hpg
    refine u3.frame p ?_
    rintro (hp' | ⟨b, hb, hp'⟩)
    · exact hp hp'
    · rw [hfft] at hb
      have hb : b < o.B := hb
      rw [fl.D, hfft] at hp'
      obtain ⟨k, hk, rfl⟩ := hp'
      have hk : k < (o.L + 1) / 2 := hk
      refine hpg b (by omega) (2 * k) (by omega) ?_
      rw [Nat.mul_div_cancel_left _ (by omega)]

/-- **C46**: with `A=2`, `B=1`, `multBinary` and any valid parameters, after any history, `convolve(g)` leaves in the double `g[0][k]`, `k < L`, the cyclic
convolution of period `N=m*q` of the doubles `g[0]`, `g[1]`, and the linear one if the requested size is `M ≥ 2L-1`. -/
theorem C46_convolve {L M : ℕ} {ow : Bool} {S0 m D : ℕ} {inplace : Bool} {J : Junk} {Vp : Ptr} {o : Re} (hD : 0 < D)
    (hnew : Re.new L M ⟨2, 1, ow⟩ 1 S0 m D inplace J Vp = .ok o) (hS : S0 ≤ 1)
    {mem0 : Mem} {Fu : Option PtrArr} {Vu : Option Ptr} {al : Alloc} (hbuf : o.view.Buffers o.base mem0 Fu Vu al) :
    ∃ c mem1, Conv.new o.base multBinary Fu none Vu al mem0 = .ok (c, mem1) ∧
      ∀ steps : List Conv.StepD, (∀ s ∈ steps, o.view.AllowedD c mem0 s) →
      ∃ mem2, seqLoop steps c.stepD mem1 = .ok ((), mem2) ∧
      ∀ g : PtrArr, o.view.Inputs c mem0 g → (c.convolveD g).Ok mem2 fun _ mem3 => ∀ k < L,
        mem3.dbl (g.at_ 0) k =
          ∑ i ∈ range L, ∑ j ∈ range L, (if (i + j) % (m * o.q) = k % (m * o.q) then mem2.dbl (g.at_ 0) i * mem2.dbl (g.at_ 1) j else 0) ∧
        (2 * L - 1 ≤ M → mem3.dbl (g.at_ 0) k =
          ∑ i ∈ range L, ∑ j ∈ range L, if i + j = k then mem2.dbl (g.at_ 0) i * mem2.dbl (g.at_ 1) j else 0) := by
  have w' := Re.WF.of_new (by omega) hD hnew
  obtain ⟨hL, hmm, hCC⟩ := Re.new_fields hnew
  obtain ⟨_, _, _, _, hMN⟩ := Re.new_ow hnew
  have hN0 : m * o.q ≠ 0 := by
    have := w'.L_pos; have := w'.L_le_M; have := w'.M_eq; rw [hmm] at this; omega
  obtain ⟨c, mem1, e1, hc⟩ := C46_history hD hnew hS (fun _ _ _ => by simp) (Or.inr (by simp)) (φ := fun _ Y => Y 0 * Y 1) multBinary_spec (by
    intro b X Y h
    simp only at h ⊢
    rw [h 0 (by omega), h 1 (by omega), map_mul]) hbuf
  refine ⟨c, mem1, e1, fun steps hst => ?_⟩
  obtain ⟨mem2, e2, hc2⟩ := hc steps hst
  refine ⟨mem2, e2, fun g hg => (hc2 g hg).mono ?_⟩
  rintro _ mem3 ⟨e3, _, _⟩ k hk
  have h1 := e3 0 (by simp) k hk
  rw [convResult_binary hN0] at h1
  refine ⟨?_, fun hM => ?_⟩
  · have h2 := h1
    unfold cyclicConv at h2
    have : ((mem3.dbl (g.at_ 0) k : ℝ) : ℂ) = ((∑ i ∈ range L, ∑ j ∈ range L,
        (if (i + j) % (m * o.q) = k % (m * o.q) then mem2.dbl (g.at_ 0) i * mem2.dbl (g.at_ 1) j else 0) : ℝ) : ℂ) := by
      rw [h2]
      push_cast
      refine sum_congr rfl fun i _ => sum_congr rfl fun j _ => ?_
      split_ifs <;> simp
    exact_mod_cast this
  · rw [cyclicConv_linear (by omega) _ _ hk] at h1
    unfold linearConv at h1
    have : ((mem3.dbl (g.at_ 0) k : ℝ) : ℂ) = ((∑ i ∈ range L, ∑ j ∈ range L,
        (if i + j = k then mem2.dbl (g.at_ 0) i * mem2.dbl (g.at_ 1) j else 0) : ℝ) : ℂ) := by
      rw [h1]
      push_cast
      refine sum_congr rfl fun i _ => sum_congr rfl fun j _ => ?_
      split_ifs <;> simp
    exact_mod_cast this

/-- `multcorrelation` gives the cyclic correlation. -/
theorem C46_correlation {L M : ℕ} {ow : Bool} {S0 m D : ℕ} {inplace : Bool} {J : Junk} {Vp : Ptr} {o : Re} (hD : 0 < D)
    (hnew : Re.new L M ⟨2, 1, ow⟩ 1 S0 m D inplace J Vp = .ok o) (hS : S0 ≤ 1)
    {mem0 : Mem} {Fu : Option PtrArr} {Vu : Option Ptr} {al : Alloc} (hbuf : o.view.Buffers o.base mem0 Fu Vu al) :
    ∃ c mem1, Conv.new o.base multcorrelation Fu none Vu al mem0 = .ok (c, mem1) ∧
      ∀ steps : List Conv.StepD, (∀ s ∈ steps, o.view.AllowedD c mem0 s) →
      ∃ mem2, seqLoop steps c.stepD mem1 = .ok ((), mem2) ∧
      ∀ g : PtrArr, o.view.Inputs c mem0 g → (c.convolveD g).Ok mem2 fun _ mem3 => ∀ k < L,
        mem3.dbl (g.at_ 0) k =
          ∑ i ∈ range L, ∑ j ∈ range L, (if ((m * o.q : ℕ) : ℤ) ∣ (i : ℤ) - j - k then mem2.dbl (g.at_ 0) i * mem2.dbl (g.at_ 1) j else 0) := by
  have w' := Re.WF.of_new (by omega) hD hnew
  obtain ⟨hL, hmm, hCC⟩ := Re.new_fields hnew
  have hN0 : m * o.q ≠ 0 := by
    have := w'.L_pos; have := w'.L_le_M; have := w'.M_eq; rw [hmm] at this; omega
  obtain ⟨c, mem1, e1, hc⟩ := C46_history hD hnew hS (fun _ _ _ => by simp) (Or.inr (by simp)) (φ := fun _ Y => Y 0 * conj (Y 1)) multcorrelation_spec (by
    intro b X Y h
    simp only at h ⊢
    rw [h 0 (by omega), h 1 (by omega), map_mul]) hbuf
  refine ⟨c, mem1, e1, fun steps hst => ?_⟩
  obtain ⟨mem2, e2, hc2⟩ := hc steps hst
  refine ⟨mem2, e2, fun g hg => (hc2 g hg).mono ?_⟩
  rintro _ mem3 ⟨e3, _, _⟩ k hk
  have h1 := e3 0 (by simp) k hk
  rw [convResult_corr hN0] at h1
  unfold cyclicCorr at h1
  have : ((mem3.dbl (g.at_ 0) k : ℝ) : ℂ) = ((∑ i ∈ range L, ∑ j ∈ range L,
      (if ((m * o.q : ℕ) : ℤ) ∣ (i : ℤ) - j - k then mem2.dbl (g.at_ 0) i * mem2.dbl (g.at_ 1) j else 0) : ℝ) : ℂ) := by
    rw [h1]
    push_cast
    refine sum_congr rfl fun i _ => sum_congr rfl fun j _ => ?_
    split_ifs <;> simp
  exact_mod_cast this

open Fft (exMem)

/-- The hypotheses of the theorems above can be met: `L=7`, `M=13` (enough for the linear convolution), `m=4`, out of place, `n=2` residue blocks
`r=0` and `r=1`. -/
example (J : Junk) (Vp : Ptr) : ∃ o, Re.new 7 13 ⟨2, 1, false⟩ 1 1 4 1 false J Vp = .ok o ∧ o.q = 4 ∧
    o.view.Buffers o.base (exMem 100) none none exAlloc ∧
    ∃ c mem1, Conv.new o.base multBinary none none none exAlloc (exMem 100) = .ok (c, mem1) ∧ o.view.Inputs c (exMem 100) (exArr 5) ∧
      o.view.AllowedD c (exMem 100) (.write ((exArr 5).at_ 0) 3 (5/2)) ∧ o.view.AllowedD c (exMem 100) (.call (exArr 5)) := by
  obtain ⟨o, hnew, hq, hA, hB, hC, hS, hL, hos⟩ : ∃ o, Re.new 7 13 ⟨2, 1, false⟩ 1 1 4 1 false J Vp = .ok o ∧ o.q = 4 ∧ o.A = 2 ∧
      o.B = 1 ∧ o.C = 1 ∧ o.S = 1 ∧ o.L = 7 ∧ o.outputSize ≤ 100 := by
    refine ⟨Re.newHybrid 7 ⟨2, 1, false⟩ 1 1 4 1 2 4 4 false J Vp, rfl, rfl, rfl, rfl, rfl, rfl, rfl, ?_⟩
    simp [Re.newHybrid, Re.outputSize]
  have w' := Re.WF.of_new (by decide) (by decide) hnew
  have hws : o.workSizeW ≤ 100 := by unfold Re.workSizeW; split_ifs <;> omega
  have hAB : max o.base.A o.base.B ≤ 5 := by
    show max o.A o.B ≤ 5
    rw [hA, hB]; decide
  have hDD : ∀ f p, o.view.D f p → InArr f 100 p := by
    rintro f p ⟨i, hi, rfl⟩
    rw [hS, hL] at hi
    exact ⟨i, by omega, rfl⟩
  have hb := View.exBuffers (o := o.base) hDD hAB hos hws
  refine ⟨o, hnew, hq, hb, ?_⟩
  obtain ⟨c, mem1, e1, hfft, _, hF, hV, hW, _⟩ := View.new_ok (Re.view_spec w' (Re.V_one w' hS)) w'.q_pos multBinary hb
  have hin : o.view.Inputs c (exMem 100) (exArr 5) :=
    View.exInputs hDD (by rw [hF, hfft]) (by rw [hV, hfft]) (by rw [hW, hfft]) (by rw [hfft]; exact hAB)
  refine ⟨c, mem1, e1, hin, ⟨exMem_block 0 100 le_rfl 1 (by omega), ?_⟩, hin⟩
  rintro ⟨W, hW', i, hi, h3⟩
  rw [hW] at hW'
  unfold Conv.newW at hW'
  split_ifs at hW'
  obtain rfl : exAlloc.W = W := by simpa using hW'
  have : 0 = 7 := congrArg Ptr.buf h3
  omega

end Fftwpp
