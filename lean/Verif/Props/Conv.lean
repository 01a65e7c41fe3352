import Verif.Proof.Conv3
import Verif.Proof.ConvMath
import Verif.Proof.Ow3
import Verif.Props.Batch

/-!
# Properties of `Convolution` (C10-C13, C15, C16, C32, C33)
-/

namespace Fftwpp
open Finset

/-! ## Multipliers -/

theorem multBinary_spec {index : ℕ → ℕ → ℕ} : MultSpec 2 1 index multBinary (fun _ _ Y => Y 0 * Y 1) := by
  refine ⟨fun e b X Y h => by rw [h 0 (by omega), h 1 (by omega)], ?_⟩
  intro m F n idx r offset hn hb hsep
  unfold multBinary
  rw [PtrArr.get_bind (by simp at hn; omega), PtrArr.get_bind (by simp at hn; omega)]
  have h01 : (F.at_ 0).buf ≠ (F.at_ 1).buf := hsep 0 (by simp) 1 (by simp) (by omega)
  refine par_map1 (fun j => F.at_ 0 + j) (fun j => m.val (F.at_ 0 + j) * m.val (F.at_ 1 + j)) (rng_nodup _ _) ?_ ?_ ?_ ?_ ?_
  · intro j hj
    rw [mem_rng] at hj
    body_simp
    have h0 := hb 0 (by simp) j hj.2
    have h1 := hb 1 (by simp) j hj.2
    exact ⟨h0, h1, h0⟩
  · intro j hj; body_simp
  · ptr
  · body_simp <;> ptr
  · intro m' u e
    refine ⟨u.mono ?_, ?_⟩
    · rintro p ⟨j, hj, rfl⟩
      exact ⟨0, by simp, j, (mem_rng.1 hj).2, rfl⟩
    · intro b hb j hj
      obtain rfl : b = 0 := by omega
      exact e j (mem_rng.2 ⟨Nat.zero_le _, hj⟩)

theorem multcorrelation_spec {index : ℕ → ℕ → ℕ} :
    MultSpec 2 1 index multcorrelation (fun _ _ Y => Y 0 * (starRingEnd ℂ) (Y 1)) := by
  refine ⟨fun e b X Y h => by rw [h 0 (by omega), h 1 (by omega)], ?_⟩
  intro m F n idx r offset hn hb hsep
  unfold multcorrelation
  rw [PtrArr.get_bind (by simp at hn; omega), PtrArr.get_bind (by simp at hn; omega)]
  have h01 : (F.at_ 0).buf ≠ (F.at_ 1).buf := hsep 0 (by simp) 1 (by simp) (by omega)
  refine par_map1 (fun j => F.at_ 0 + j) (fun j => m.val (F.at_ 0 + j) * (starRingEnd ℂ) (m.val (F.at_ 1 + j)))
    (rng_nodup _ _) ?_ ?_ ?_ ?_ ?_
  · intro j hj
    rw [mem_rng] at hj
    body_simp
    have h0 := hb 0 (by simp) j hj.2
    have h1 := hb 1 (by simp) j hj.2
    exact ⟨h0, h1, h0⟩
  · intro j hj; body_simp
  · ptr
  · body_simp <;> ptr
  · intro m' u e
    refine ⟨u.mono ?_, ?_⟩
    · rintro p ⟨j, hj, rfl⟩
      exact ⟨0, by simp, j, (mem_rng.1 hj).2, rfl⟩
    · intro b hb j hj
      obtain rfl : b = 0 := by omega
      exact e j (mem_rng.2 ⟨Nat.zero_le _, hj⟩)

namespace Fft
variable {o : Fft}

/-- The padded length is at least the requested one (C05). -/
theorem C10_size {L M : ℕ} {app : App} {C S0 m D : ℕ} {inplace : Bool} (hnew : Fft.new L M app C S0 m D inplace = .ok o) :
    M ≤ m * o.q := by
  obtain ⟨_, _, _, _, hp, _, _, _, _, h1, h2, h3⟩ := Fft.new_fields hnew
  exact (C05_parameters h2 h1 h3 hp.symm).2.1

/-- Number of blocks per pass. -/
def K (o : Fft) (r : ℕ) : ℕ := if r = 0 then o.D0 else o.D

theorem WF.flat (h : o.WF) (hC : o.C = 1) (hS : o.S = 1) : o.base.Flat o.K := by
  refine ⟨hC, hS, fun _ => rfl, ?_, ?_, fun r => rfl, fun r => rfl, ?_, ?_, ?_⟩
  · show 0 < o.l
    rw [h.l_eq]
    exact Nat.mul_pos h.m_pos h.P_pos
  · show o.b = o.l
    rw [h.b_eq, hS, one_mul]
  · intro r
    show o.S * o.noutputs r = o.l * o.K r
    rw [hS, one_mul]; rfl
  · intro r
    unfold K
    split_ifs
    · exact h.D0_pos
    · exact h.D_pos
  · intro hq
    have hq' : o.q = 1 := hq
    have hn : o.n = 1 := by
      have := h.q_eq
      rw [hq'] at this
      exact Nat.eq_one_of_mul_eq_one_left this.symm
    obtain ⟨t, h1, _, h3⟩ := h.starts_eq
    have hD0 := h.D0_pos
    have hD := h.D_pos
    have ht : t = 0 := by
      rcases Nat.eq_zero_or_pos t with h | h
      · exact h
      · have : 1 * 1 ≤ t * o.D := Nat.mul_le_mul h hD
        omega
    subst ht
    refine ⟨h3, ?_⟩
    unfold K
    rw [if_pos rfl]
    omega

theorem WF.sched (h : o.WF) (hdvd : o.q ≠ 1 → o.overwrite = false → o.nloops = 2 → o.B < o.A → (o.A - o.B) ∣ o.B)
    (hBA : o.B ≤ o.A ∨ o.D = 1) : Conv.Sched o.base 0 o.K := by
  refine ⟨fun how => ⟨_, Ow.spec ⟨h, how⟩⟩, ?_, ?_⟩
  · intro hq hl
    have hl' : o.nloops = 2 ∧ o.B < o.A ∧ o.overwrite = false := by
      have : o.loop2 = true := hl
      unfold loop2 at this
      simpa using this
    refine ⟨hl'.2.1, hdvd hq hl'.2.2 hl'.1 hl'.2.1, ?_⟩
    obtain ⟨t, _, _, h3⟩ := h.starts_eq
    have hlen : o.starts.length = 2 := hl'.1
    rw [h3] at hlen
    simp at hlen
    subst hlen
    show o.starts = [0, o.increment 0]
    rw [h3]; simp
  · rcases hBA with h1 | h1
    · exact Or.inl h1
    · refine Or.inr fun r _ => ?_
      unfold K
      split_ifs
      · exact h.D0_eq_one h1
      · exact h1

theorem result_eq (h : o.WF) {φ : List ℕ → ℕ → (ℕ → ℂ) → ℂ} {mem : Mem} {g : PtrArr} (hS : o.S = 1) (b j : ℕ) :
    o.base.result 0 (fun e b X c => φ [e] b (fun a => X a c)) mem g 0 b j 0 * (1 / (o.base.N : ℂ)) =
      convResult o.M o.L (fun e => φ [e]) (fun a j => mem.val (g.at_ a + j)) b j := by
  unfold FftBase.result convResult FftBase.hat FftBase.dft paddedDFT
  rw [mul_comm]
  have hb1 : o.base.N = o.M := rfl
  have hb2 : o.base.L = o.L := rfl
  have hb3 : o.base.S = 1 := hS
  have hb4 : ∀ c, o.base.col c = c := fun _ => rfl
  rw [hb1, hb2, hb3]
  simp only [hb4, sub_zero, one_mul, add_zero, Conv.Ptr.add0]

end Fft

open Fft in
/-- **C12**, with **C13** and **C15** for `Convolution`.  For every constructed noncentered 1D transform (overwriting its input
or not), every multiplier acting pointwise (`φ`, possibly depending on the frequency), every work array
arrangement (allocated or supplied `F` and `V`) and every initial contents of memory:
the constructor succeeds, and after **any** sequence of `convolve` calls on any arrays and of writes by the user to any words
not in `W` (even of `F` and `V`), calling `convolve(g)`
* runs to completion (no out-of-bounds access, no data race);
* leaves in `g[b][j]`, `b < B`, `j < L`, the inverse DFT of length `N=m*q`, divided by `N`, of `φ` of the DFTs of the inputs
  in `g` at that time — the same as a fresh object;
* changes nothing else except words of `F`, `W` and `V`, and, if the transform overwrites its inputs, of `g[a][j]`, `a < A`, `j < L`.
If the transform overwrites its inputs and `φ` depends on the frequency, `n` must be `2` (i.e. `p=1`).
If the two-pass schedule is used (`nloops()=2`, `A > B`), `A-B` must divide `B` (see C16). -/
theorem C12_history {L M : ℕ} {app : App} {S0 m D : ℕ} {inplace : Bool} {o : Fft}
    (hnew : Fft.new L M app 1 S0 m D inplace = .ok o) (hS : o.S = 1)
    (hdvd : o.q ≠ 1 → o.overwrite = false → o.nloops = 2 → app.B < app.A → (app.A - app.B) ∣ app.B) (hBA : app.B ≤ app.A ∨ o.D = 1)
    {mult : Multiplier} {φ : List ℕ → ℕ → (ℕ → ℂ) → ℂ} (hm : MultSpec app.A app.B o.index mult φ)
    (hfreq : (o.D0 = 1 ∧ (o.overwrite = true → o.n = 2)) ∨ ∀ e e' idx, φ (e :: idx) = φ (e' :: idx))
    {mem0 : Mem} {Fu : Option PtrArr} {Vu : Option Ptr} {al : Alloc} (hbuf : Conv.Buffers o.base mem0 Fu Vu al) :
    ∃ c mem1, Conv.new o.base mult Fu none Vu al mem0 = .ok (c, mem1) ∧
      ∀ steps : List Conv.Step, (∀ s ∈ steps, c.Allowed mem0 s) →
      ∃ mem2, seqLoop steps c.step mem1 = .ok ((), mem2) ∧
      ∀ g : PtrArr, c.Inputs mem0 g → (c.convolve g).Ok mem2 fun _ mem3 =>
        (∀ b < app.B, ∀ j < L, mem3.val (g.at_ b + j) =
          convResult (m * o.q) L (fun e => φ [e]) (fun a j => mem2.val (g.at_ a + j)) b j) ∧
        (∀ p, ¬ c.WorkWord p → (∀ b < (if o.overwrite = true then app.A else app.B), ∀ j < L, p ≠ g.at_ b + j) → mem3.val p = mem2.val p) ∧ mem3.size = mem2.size := by
  have h := Fft.WF.of_new (by omega) hnew
  obtain ⟨hL, hmm, hC, _, _, _, hA, hB, _⟩ := Fft.new_fields hnew
  have hsp := h.base_spec
  have fl := h.flat hC hS
  have hs := h.sched (by rw [hA, hB]; exact hdvd) (by rw [hA, hB]; exact hBA)
  have hN : o.M = m * o.q := by rw [h.M_eq, hmm]
  obtain ⟨c, mem1, e1, hfft, hmult, hF, hV, hW, hr, hu⟩ := Conv.new_ok hsp (by
    show 0 < o.q
    exact h.q_pos) mult hbuf
  refine ⟨c, mem1, e1, ?_⟩
  intro steps hst
  have hm' : MultSpec c.fft.A c.fft.B c.fft.index c.mult φ := by
    rw [hfft, hmult]
    show MultSpec o.A o.B o.index mult φ
    rw [hA, hB]; exact hm
  have hf' : c.fft.FreqOK o.K φ := by
    rcases hfreq with h1 | h1
    · left; unfold K; rw [if_pos rfl]; rw [hfft]; exact h1
    · right; exact h1
  have hsp' : c.fft.Spec 0 o.Padded := by rw [hfft]; exact hsp
  have fl' : c.fft.Flat o.K := by rw [hfft]; exact fl
  have hs' : Conv.Sched c.fft 0 o.K := by rw [hfft]; exact hs
  have hal : ∀ s ∈ steps, c.Allowed mem1 s := by
    intro s hsm
    have := hst s hsm
    cases s with
    | write p v => exact ⟨Mem.valid_of_size hu.size this.1, this.2⟩
    | call g => exact Conv.Inputs.size this hu.size
  obtain ⟨_, mem2, e2, hr2, hs2⟩ := Conv.history_ok hsp' fl' hs' hm' hf' hr steps hal
  refine ⟨mem2, e2, ?_⟩
  intro g hg
  refine (Conv.convolve_ok hsp' fl' hs' hm' hf' hr2 (hg.size (hs2.trans hu.size))).mono ?_
  rintro _ mem3 ⟨u3, _, e3⟩
  refine ⟨?_, ?_, u3.size⟩
  · intro b hb j hj
    have hB' : c.fft.B = app.B := by rw [hfft]; exact hB
    have hL' : c.fft.L = L := by rw [hfft]; exact hL
    rw [e3 b (by rw [hB']; exact hb) j (by rw [hL']; exact hj), hfft, result_eq h hS, hN, hL]
  · intro p hp hpg
    refine u3.frame p ?_
    rintro (hp' | ⟨b, hb, hp'⟩)
    · exact hp hp'
    · rw [Conv.flat_data fl'] at hp'
      obtain ⟨j, hj, rfl⟩ := hp'
      refine hpg b ?_ j ?_ rfl
      · rw [hfft] at hb
        have e : o.base.outs = if o.overwrite = true then app.A else app.B := by
          show (if o.overwrite = true then o.A else o.B) = _
          rw [hA, hB]
        exact lt_of_lt_of_eq hb e
      · rw [hfft] at hj; exact lt_of_lt_of_eq hj hL

open Fft in
/-- **C10.** With `A=2`, `B=1`, `multBinary` and any valid parameters (overwriting or not), after any history, `convolve(g)` leaves in
`g[0][k]`, `k < L`, the cyclic convolution of period `N=m*q` of the inputs, and the linear convolution if `N ≥ 2L-1` (in particular
if the requested size is `M ≥ 2L-1`, as `N ≥ M`, C05). -/
theorem C10_convolve {L M : ℕ} {ow : Bool} {S0 m D : ℕ} {inplace : Bool} {o : Fft}
    (hnew : Fft.new L M ⟨2, 1, ow⟩ 1 S0 m D inplace = .ok o) (hS : o.S = 1)
    {mem0 : Mem} {Fu : Option PtrArr} {Vu : Option Ptr} {al : Alloc} (hbuf : Conv.Buffers o.base mem0 Fu Vu al) :
    ∃ c mem1, Conv.new o.base multBinary Fu none Vu al mem0 = .ok (c, mem1) ∧
      ∀ steps : List Conv.Step, (∀ s ∈ steps, c.Allowed mem0 s) →
      ∃ mem2, seqLoop steps c.step mem1 = .ok ((), mem2) ∧
      ∀ g : PtrArr, c.Inputs mem0 g → (c.convolve g).Ok mem2 fun _ mem3 => ∀ k < L,
        mem3.val (g.at_ 0 + k) =
          cyclicConv (m * o.q) L (fun i => mem2.val (g.at_ 0 + i)) (fun j => mem2.val (g.at_ 1 + j)) k ∧
        (2 * L - 1 ≤ M → mem3.val (g.at_ 0 + k) = linearConv L (fun i => mem2.val (g.at_ 0 + i)) (fun j => mem2.val (g.at_ 1 + j)) k) := by
  have h := Fft.WF.of_new (by omega) hnew
  have hN : o.M = m * o.q := by rw [h.M_eq, (Fft.new_fields hnew).2.1]
  have hN0 : m * o.q ≠ 0 := by have := h.M_pos; omega
  have hMN : M ≤ m * o.q := C10_size hnew
  obtain ⟨c, mem1, e1, hc⟩ := C12_history hnew hS (fun _ _ _ _ => by simp) (Or.inl (by simp)) multBinary_spec
    (Or.inr fun _ _ _ => rfl) hbuf
  refine ⟨c, mem1, e1, fun steps hst => ?_⟩
  obtain ⟨mem2, e2, hc2⟩ := hc steps hst
  refine ⟨mem2, e2, fun g hg => (hc2 g hg).mono ?_⟩
  rintro _ mem3 ⟨e3, _, _⟩ k hk
  have : mem3.val (g.at_ 0 + k) =
      cyclicConv (m * o.q) L (fun i => mem2.val (g.at_ 0 + i)) (fun j => mem2.val (g.at_ 1 + j)) k := by
    rw [e3 0 (by simp) k hk]
    exact convResult_binary hN0 _ k
  refine ⟨this, fun hM => ?_⟩
  rw [this]
  exact cyclicConv_linear (by omega) _ _ hk

open Fft in
/-- **C11.** Two objects constructed with any valid parameters (`m`, `D`, in-place or not, overwriting or not) whose padded lengths are at least
`2L-1`, used on equal inputs (in any memory, after any history), give the same convolution. -/
theorem C11_choice {L M M' : ℕ} {ow ow' : Bool} {S0 S0' m m' D D' : ℕ} {inplace inplace' : Bool} {o o' : Fft}
    (hnew : Fft.new L M ⟨2, 1, ow⟩ 1 S0 m D inplace = .ok o) (hS : o.S = 1)
    (hnew' : Fft.new L M' ⟨2, 1, ow'⟩ 1 S0' m' D' inplace' = .ok o') (hS' : o'.S = 1)
    (hN : 2 * L - 1 ≤ m * o.q) (hN' : 2 * L - 1 ≤ m' * o'.q)
    {mem0 mem0' : Mem} {Fu Fu' : Option PtrArr} {Vu Vu' : Option Ptr} {al al' : Alloc}
    (hbuf : Conv.Buffers o.base mem0 Fu Vu al) (hbuf' : Conv.Buffers o'.base mem0' Fu' Vu' al') :
    ∃ c mem1 c' mem1', Conv.new o.base multBinary Fu none Vu al mem0 = .ok (c, mem1) ∧
      Conv.new o'.base multBinary Fu' none Vu' al' mem0' = .ok (c', mem1') ∧
      ∀ steps steps' : List Conv.Step, (∀ s ∈ steps, c.Allowed mem0 s) → (∀ s ∈ steps', c'.Allowed mem0' s) →
      ∃ mem2 mem2', seqLoop steps c.step mem1 = .ok ((), mem2) ∧ seqLoop steps' c'.step mem1' = .ok ((), mem2') ∧
      ∀ g g' : PtrArr, c.Inputs mem0 g → c'.Inputs mem0' g' →
        (∀ a < 2, ∀ j < L, mem2.val (g.at_ a + j) = mem2'.val (g'.at_ a + j)) →
        ∃ mem3 mem3', c.convolve g mem2 = .ok ((), mem3) ∧ c'.convolve g' mem2' = .ok ((), mem3') ∧
          ∀ k < L, mem3.val (g.at_ 0 + k) = mem3'.val (g'.at_ 0 + k) := by
  obtain ⟨c, mem1, e1, hc⟩ := C10_convolve hnew hS hbuf
  obtain ⟨c', mem1', e1', hc'⟩ := C10_convolve hnew' hS' hbuf'
  refine ⟨c, mem1, c', mem1', e1, e1', fun steps steps' hst hst' => ?_⟩
  obtain ⟨mem2, e2, hc2⟩ := hc steps hst
  obtain ⟨mem2', e2', hc2'⟩ := hc' steps' hst'
  refine ⟨mem2, mem2', e2, e2', fun g g' hg hg' heq => ?_⟩
  obtain ⟨_, mem3, e3, h3⟩ := hc2 g hg
  obtain ⟨_, mem3', e3', h3'⟩ := hc2' g' hg'
  refine ⟨mem3, mem3', e3, e3', fun k hk => ?_⟩
  rw [(h3 k hk).1, (h3' k hk).1, cyclicConv_linear hN _ _ hk, cyclicConv_linear hN' _ _ hk]
  unfold linearConv
  refine sum_congr rfl fun i hi => sum_congr rfl fun j hj => ?_
  rw [mem_range] at hi hj
  simp only
  rw [heq 0 (by omega) i hi, heq 1 (by omega) j hj]

open Fft in
/-- **C32.** `multcorrelation` gives the cyclic correlation. -/
theorem C32_correlation {L M : ℕ} {ow : Bool} {S0 m D : ℕ} {inplace : Bool} {o : Fft}
    (hnew : Fft.new L M ⟨2, 1, ow⟩ 1 S0 m D inplace = .ok o) (hS : o.S = 1)
    {mem0 : Mem} {Fu : Option PtrArr} {Vu : Option Ptr} {al : Alloc} (hbuf : Conv.Buffers o.base mem0 Fu Vu al) :
    ∃ c mem1, Conv.new o.base multcorrelation Fu none Vu al mem0 = .ok (c, mem1) ∧
      ∀ steps : List Conv.Step, (∀ s ∈ steps, c.Allowed mem0 s) →
      ∃ mem2, seqLoop steps c.step mem1 = .ok ((), mem2) ∧
      ∀ g : PtrArr, c.Inputs mem0 g → (c.convolve g).Ok mem2 fun _ mem3 => ∀ k < L,
        mem3.val (g.at_ 0 + k) =
          cyclicCorr (m * o.q) L (fun i => mem2.val (g.at_ 0 + i)) (fun j => mem2.val (g.at_ 1 + j)) k := by
  have h := Fft.WF.of_new (by omega) hnew
  have hN : o.M = m * o.q := by rw [h.M_eq, (Fft.new_fields hnew).2.1]
  have hN0 : m * o.q ≠ 0 := by have := h.M_pos; omega
  obtain ⟨c, mem1, e1, hc⟩ := C12_history hnew hS (fun _ _ _ _ => by simp) (Or.inl (by simp)) multcorrelation_spec
    (Or.inr fun _ _ _ => rfl) hbuf
  refine ⟨c, mem1, e1, fun steps hst => ?_⟩
  obtain ⟨mem2, e2, hc2⟩ := hc steps hst
  refine ⟨mem2, e2, fun g hg => (hc2 g hg).mono ?_⟩
  rintro _ mem3 ⟨e3, _, _⟩ k hk
  rw [e3 0 (by simp) k hk]
  exact convResult_corr hN0 _ k

/-! ## C16: the two-pass schedule -/

namespace Conv

/-- The same transform, but with the general residue loop. -/
noncomputable def noLoop2 (o : FftBase) : FftBase := { o with loop2 := false }

end Conv

open Fft in
/-- **C16.** When `nloops()=2` and `A > B` the constructor selects the two-pass schedule with rotated work arrays.  If `A-B`
divides `B` it leaves the same results as an object using the general residue loop (with its accumulation arrays `V`) on the
same inputs, for every multiplier, work array arrangement, history and contents of memory. -/
theorem C16_loop2 {L M : ℕ} {app : App} {S0 m D : ℕ} {inplace : Bool} {o : Fft}
    (hnew : Fft.new L M app 1 S0 m D inplace = .ok o) (hS : o.S = 1) (how : o.overwrite = false)
    (hn : o.nloops = 2) (hBA : app.B < app.A) (hdvd : (app.A - app.B) ∣ app.B)
    {mult : Multiplier} {φ : List ℕ → ℕ → (ℕ → ℂ) → ℂ} (hm : MultSpec app.A app.B o.index mult φ)
    (hfreq : o.D0 = 1 ∨ ∀ e e' idx, φ (e :: idx) = φ (e' :: idx))
    {mem0 : Mem} {Fu : Option PtrArr} {Vu : Option Ptr} {al : Alloc} (hbuf : Conv.Buffers o.base mem0 Fu Vu al)
    {mem0' : Mem} {Fu' : Option PtrArr} {Vu' : Option Ptr} {al' : Alloc}
    (hbuf' : Conv.Buffers (Conv.noLoop2 o.base) mem0' Fu' Vu' al') :
    o.base.loop2 = true ∧
    ∃ c mem1 c' mem1', Conv.new o.base mult Fu none Vu al mem0 = .ok (c, mem1) ∧
      Conv.new (Conv.noLoop2 o.base) mult Fu' none Vu' al' mem0' = .ok (c', mem1') ∧
      ∀ g g' : PtrArr, c.Inputs mem0 g → c'.Inputs mem0' g' →
        (∀ a < app.A, ∀ j < L, mem1.val (g.at_ a + j) = mem1'.val (g'.at_ a + j)) →
        ∃ mem2 mem2', c.convolve g mem1 = .ok ((), mem2) ∧ c'.convolve g' mem1' = .ok ((), mem2') ∧
          ∀ b < app.B, ∀ j < L, mem2.val (g.at_ b + j) = mem2'.val (g'.at_ b + j) := by
  have h := Fft.WF.of_new (by omega) hnew
  obtain ⟨hL, hmm, hC, _, _, _, hA, hB, _⟩ := Fft.new_fields hnew
  have hl2 : o.base.loop2 = true := by
    show o.loop2 = true
    unfold loop2
    simp only [decide_eq_true_eq]
    exact ⟨hn, by rw [hA, hB]; exact hBA, how⟩
  refine ⟨hl2, ?_⟩
  have hsp := h.base_spec
  have fl := h.flat hC hS
  have hs := h.sched (by rw [hA, hB]; exact fun _ _ _ _ => hdvd) (by rw [hA, hB]; exact Or.inl hBA.le)
  have hspN : (Conv.noLoop2 o.base).Spec 0 o.Padded :=
    ⟨hsp.C_pos, hsp.col_lt, hsp.N_pos, hsp.res0, hsp.nl, hsp.nout, hsp.wsW, hsp.sum, hsp.pad_in, hsp.pad_frame, hsp.pad_none,
      hsp.padNone_in, hsp.pad_q1, hsp.padOk, fun how _ _ _ _ _ hr a hp => hsp.fwd how hr ⟨a.fF, a.bf, a.bF, a.bW⟩ hp,
      fun how _ _ _ _ _ hr a => hsp.bwd how hr ⟨a.fF, a.bf, a.bF, a.bW⟩⟩
  have flN : (Conv.noLoop2 o.base).Flat o.K := ⟨fl.C, fl.S, fl.col, fl.l_pos, fl.b, fl.bs, fl.nout, fl.span, fl.K_pos, fl.q1⟩
  have hsN : Conv.Sched (Conv.noLoop2 o.base) 0 o.K := ⟨fun ho => by
      have ho : o.overwrite = true := ho
      simp [how] at ho, fun _ hf => by simp [Conv.noLoop2] at hf, hs.BA⟩
  obtain ⟨c, mem1, e1, hfft, hmult, _, _, _, hr, hu⟩ := Conv.new_ok hsp (by show 0 < o.q; exact h.q_pos) mult hbuf
  obtain ⟨c', mem1', e1', hfft', hmult', _, _, _, hr', hu'⟩ := Conv.new_ok hspN (by show 0 < o.q; exact h.q_pos) mult hbuf'
  refine ⟨c, mem1, c', mem1', e1, e1', fun g g' hg hg' heq => ?_⟩
  have hm1 : MultSpec c.fft.A c.fft.B c.fft.index c.mult φ := by
    rw [hfft, hmult]; show MultSpec o.A o.B o.index mult φ; rw [hA, hB]; exact hm
  have hm2 : MultSpec c'.fft.A c'.fft.B c'.fft.index c'.mult φ := by
    rw [hfft', hmult']; show MultSpec o.A o.B o.index mult φ; rw [hA, hB]; exact hm
  have hf' : ∀ b : FftBase, b.overwrite = false → b.FreqOK o.K φ := by
    intro b hb
    rcases hfreq with h1 | h1
    · left; unfold K; rw [if_pos rfl]; exact ⟨h1, fun h2 => by simp [hb] at h2⟩
    · right; exact h1
  obtain ⟨_, mem2, e2, _, _, v2⟩ := Conv.convolve_ok (c := c) (by rw [hfft]; exact hsp) (by rw [hfft]; exact fl) (by rw [hfft]; exact hs)
    hm1 (hf' _ (by rw [hfft]; exact how)) hr (hg.size hu.size)
  obtain ⟨_, mem2', e2', _, _, v2'⟩ := Conv.convolve_ok (c := c') (by rw [hfft']; exact hspN) (by rw [hfft']; exact flN)
    (by rw [hfft']; exact hsN) hm2 (hf' _ (by rw [hfft']; exact how)) hr' (hg'.size hu'.size)
  refine ⟨mem2, mem2', e2, e2', fun b hb j hj => ?_⟩
  rw [v2 b (by rw [hfft]; exact lt_of_lt_of_eq hb hB.symm) j (by rw [hfft]; exact lt_of_lt_of_eq hj hL.symm),
    v2' b (by rw [hfft']; exact lt_of_lt_of_eq hb hB.symm) j (by rw [hfft']; exact lt_of_lt_of_eq hj hL.symm), hfft, hfft']
  show o.base.result 0 (fun e b X c => φ [e] b (fun a => X a c)) mem1 g 0 b j 0 * (1 / (o.base.N : ℂ)) =
    o.base.result 0 (fun e b X c => φ [e] b (fun a => X a c)) mem1' g' 0 b j 0 * (1 / (o.base.N : ℂ))
  rw [result_eq h hS, result_eq h hS]
  refine convResult_congr (fun e => hm.congr [e]) ?_ b j
  rw [hL]
  exact heq

namespace Conv
variable {c : Conv} {x0 : ℤ} {padded : Mem → Ptr → Prop} {K : ℕ → ℕ}

/-- What the two-pass schedule does when `B < A-B`: the block `r=0` is lost and the inputs are added to the results. -/
theorem loop2_wrong (h : c.fft.Spec x0 padded) (fl : c.fft.Flat K) (how : c.fft.overwrite = false) (hq : c.fft.q ≠ 1)
    (hl2 : c.fft.loop2 = true) (hBA : c.fft.B < c.fft.A - c.fft.B)
    (hres : c.fft.residues = [0, c.fft.incr0]) {φ}
    (hm : MultSpec c.fft.A c.fft.B c.fft.index c.mult φ)
    (hf : c.fft.FreqOK K φ) {mem : Mem} {g : PtrArr} (hr : c.Ready padded mem) (hi : c.Inputs mem g)
    (idx : List ℕ) : (c.convolveRaw idx g).Ok mem fun _ m' => m'.size = mem.size ∧ ∀ b < c.fft.B, ∀ j < c.fft.L, m'.val (g.at_ b + j) =
      mem.val (g.at_ b + j) + c.fft.part x0 (fun e b X c => φ (e :: idx) b (fun a => X a c)) mem g 0 c.fft.incr0 b j 0 := by
  have hop := FftBase.operate_spec h fl rfl hm (Or.inl (by omega)) hf idx
  obtain ⟨hW0, hrp, hFpn, hFp⟩ := hr.l2 hq hl2
  have hmax : max c.fft.A c.fft.B = c.fft.A := max_eq_left (by omega)
  have hwk := hr.work
  have hd := hi.dat
  have hap := hi.apart
  rw [hmax] at hwk hd hap
  have hr0 : c.fft.incr0 ≠ 0 := by
    obtain ⟨rest, e1, e2⟩ := h.res0
    rw [hres] at e1
    obtain rfl : [c.fft.incr0] = rest := by simpa using e1
    simpa using Ne.symm (by simpa using e2 : ¬ 0 = c.fft.incr0)
  have h0s : 0 ∈ c.fft.residues := by rw [hres]; simp
  have hrs : c.fft.incr0 ∈ c.fft.residues := by rw [hres]; simp
  let σ : ℕ → ℕ := fun i => if i < c.fft.A - c.fft.B then c.fft.B + i else i - (c.fft.A - c.fft.B)
  have hFσ : ∀ i < c.fft.A, c.Fp.at_ i = c.F.at_ (σ i) := by
    intro i hi; rw [hFp i hi]; simp only [σ]; split_ifs <;> rfl
  have hσlt : ∀ i < c.fft.A, σ i < c.fft.A := by intro i hi; simp only [σ]; split_ifs <;> omega
  have hσinj : ∀ i < c.fft.A, ∀ j < c.fft.A, σ i = σ j → i = j := by
    intro i hi j hj; simp only [σ]; split_ifs <;> omega
  have hwp : c.fft.Work mem c.Fp c.fft.A c.W := by
    refine ⟨hFpn, ?_, ?_, ?_⟩
    · intro a ha a' ha' hne
      rw [hFσ a ha, hFσ a' ha']
      exact hwk.sep _ (hσlt a ha) _ (hσlt a' ha') (fun e => hne (hσinj a ha a' ha' e))
    · intro a ha; rw [hFσ a ha]; exact hwk.bF _ (hσlt a ha)
    · have := hwk.bW
      split_ifs at this ⊢
      · exact this
      · obtain ⟨W, e1, e2, e3⟩ := this
        exact ⟨W, e1, fun a ha => by rw [hFσ a ha]; exact e2 _ (hσlt a ha), e3⟩
  have hdp : c.fft.Dat mem g 0 c.fft.A c.Fp c.fft.A c.W :=
    ⟨hd.n, hd.bf, fun a ha a' ha' => by rw [hFσ a' ha']; exact hd.fF a ha _ (hσlt a' ha'), hd.fW⟩
  have htsp : c.fft.TSep c.Fp c.W (fun _ => False) := ⟨fun _ _ h => h, fun _ _ h => h⟩
  have hts : c.fft.TSep c.F c.W (fun _ => False) := ⟨fun _ _ h => h, fun _ _ h => h⟩
  have hbFp : c.fft.BackW c.Fp c.W c.W c.rp := Or.inl ⟨rfl, hrp⟩
  unfold convolveRaw
  rw [if_neg hq, how, if_neg (by simp), if_pos hl2]
  unfold rawLoop2 backwardPad
  simp only [rp_cond]
  rw [hW0, Nat.div_eq_of_lt hBA, Nat.mul_zero]
  refine Cmd.Ok.seq2 (FftBase.fwdOp_ok h how hop hr.work (hi.dat.mono (le_max_left _ _) le_rfl) hts hr.pd trivial h0s) ?_
  rintro m1 ⟨u1, p1, _, _⟩
  refine Cmd.Ok.bind (Fft.seqLoop_rng (fun _ m' => m' = m1) rfl (fun s _ hs => absurd hs (by omega)) ?_)
  rintro m' (hm' : m' = m1)
  rw [hm']
  have hkeep : ∀ a < c.fft.A, ∀ p, c.fft.Data (g.at_ a + 0) p → m1.val p = mem.val p := fun a ha p hp =>
    u1.frame p (FftBase.data_not_wk (hi.dat.mono (le_max_left _ _) le_rfl) (fun _ _ h => h) ha hp)
  have hwp1 : c.fft.Work m1 c.Fp (max c.fft.A c.fft.B) c.W := by rw [hmax]; exact hwp.size u1.size
  have hdp1 : c.fft.Dat m1 g 0 c.fft.A c.Fp (max c.fft.A c.fft.B) c.W := by rw [hmax]; exact hdp.size u1.size
  refine Cmd.Ok.seq2 (FftBase.fwdOp_ok h how hop hwp1 hdp1 htsp p1 trivial hrs) ?_
  rintro m2 ⟨u2, p2, _, e2⟩
  refine (FftBase.bwdPad_ok h how hop.inv (hwp1.size u2.size) ((hdp1.mono (by omega) le_rfl).size u2.size)
    (fun a ha a' ha' => hap a (by omega) a' (by omega)) htsp (fun _ _ h => h) hbFp p2 trivial hrs (Nat.zero_le _) le_rfl).mono ?_
  rintro _ m3 ⟨u3, _, _, e3⟩
  refine ⟨u3.size.trans (u2.size.trans u1.size), fun b hb j hj => ?_⟩
  have hc0 : 0 < c.fft.C := by rw [fl.C]; omega
  have := e3 b (Nat.zero_le _) hb j hj 0 hc0
  simp only [if_neg hr0, fl.S, fl.col] at this
  have hdat : c.fft.Data (g.at_ b + 0) (g.at_ b + 0 + (c.fft.S * j + c.fft.col 0)) := ⟨j, hj, 0, hc0, rfl⟩
  simp only [fl.S, fl.col] at hdat
  simp only [Ptr.add0, one_mul, add_zero] at this hdat
  rw [this]
  congr 1
  · rw [u2.frame _ (FftBase.data_not_wk (a := b) hdp1 (fun _ _ h => h) (by omega) (by rw [Ptr.add0]; exact hdat)),
      hkeep b (by omega) _ (by rw [Ptr.add0]; exact hdat)]
  · rw [← FftBase.part_congr hop hkeep hc0]
    unfold FftBase.part
    refine sum_congr rfl fun i hi' => ?_
    have := e2 b hb i (mem_range.1 hi') trivial 0 hc0
    simp only [fl.S, fl.col] at this
    simp only [one_mul, add_zero] at this
    rw [this]

end Conv

open Fft (exMem)

/-- A multiplier whose only output is zero. -/
noncomputable def multZero : Multiplier := fun F n _ _ _ => do
  let F0 ← F.get 0
  par (rng 0 n) fun j => store (F0 + j) 0

theorem multZero_spec {index : ℕ → ℕ → ℕ} : MultSpec 3 1 index multZero (fun _ _ _ => 0) := by
  refine ⟨fun e b X Y h => rfl, ?_⟩
  intro m F n idx r offset hn hb hsep
  unfold multZero
  rw [PtrArr.get_bind (by simp at hn; omega)]
  refine par_map1 (fun j => F.at_ 0 + j) (fun j => 0) (rng_nodup _ _) ?_ ?_ ?_ ?_ ?_
  · intro j hj
    rw [mem_rng] at hj
    body_simp
    exact hb 0 (by simp) j hj.2
  · intro j hj; body_simp
  · ptr
  · body_simp <;> ptr
  · intro m' u e
    refine ⟨u.mono ?_, ?_⟩
    · rintro p ⟨j, hj, rfl⟩
      exact ⟨0, by simp, j, (mem_rng.1 hj).2, rfl⟩
    · intro b hb j hj
      obtain rfl : b = 0 := by omega
      exact e j (mem_rng.2 ⟨Nat.zero_le _, hj⟩)

/-- Work arrays in separate buffers (for examples). -/
def exAlloc : Alloc := ⟨fun a => ⟨10 + a, 0⟩, ⟨7, 0⟩, fun b => ⟨20 + b, 0⟩⟩

/-- Input arrays in separate buffers (for examples). -/
def exArr (k : ℕ) : PtrArr := ⟨k, fun a => ⟨a, 0⟩⟩

theorem exMem_block (k n : ℕ) (hn : n ≤ 100) : (exMem 100).block ⟨k, 0⟩ n := by
  intro i hi
  constructor
  · show (0 : ℤ) ≤ 0 + i
    omega
  · show (0 : ℤ) + i < (100 : ℕ)
    omega

/-- Work arrays as needed by small examples. -/
theorem exBuffers {o : FftBase} (hAB : max o.A o.B ≤ 5) (hos : o.outputSize ≤ 100) (hL : o.S * o.L ≤ 100) :
    Conv.Buffers o (exMem 100) none none exAlloc := by
  have hFb : ∀ a, ((Conv.newF o none exAlloc).at_ a) = ⟨10 + a, 0⟩ := fun a => rfl
  have hVb : ∀ a, ((Conv.newV o none exAlloc).at_ a) = ⟨20 + a, 0⟩ := fun a => rfl
  refine ⟨⟨le_rfl, ?_, ?_, ?_⟩, ?_⟩
  · intro a ha a' ha' hne
    rw [hFb, hFb]; show 10 + a ≠ 10 + a'; omega
  · intro a ha; rw [hFb]; exact exMem_block _ _ hos
  · unfold Conv.newW
    split_ifs
    · rfl
    · refine ⟨_, rfl, ?_, exMem_block _ _ hos⟩
      intro a ha; rw [hFb]; show 7 ≠ 10 + a; omega
  · intro _ _ _
    refine ⟨⟨le_rfl, ?_, ?_, ?_⟩, ?_⟩
    · intro a ha; rw [hVb, Conv.Ptr.add0]; exact exMem_block _ _ hL
    · intro a ha a' ha'; rw [hVb, hFb]; show 20 + a ≠ 10 + a'
      omega
    · intro a ha W hW
      rw [hVb]
      unfold Conv.newW at hW
      split_ifs at hW
      obtain rfl : exAlloc.W = W := by simpa using hW
      show 7 ≠ 20 + a; omega
    · intro a ha a' ha' hne p h1 h2
      have e1 := FftBase.data_buf h1
      have e2 := FftBase.data_buf h2
      rw [hVb] at e1 e2
      rw [e1] at e2
      have : 20 + a = 20 + a' := e2
      omega

theorem exInputs {c : Conv} (hF : c.F = Conv.newF c.fft none exAlloc) (hV : c.V = Conv.newV c.fft none exAlloc)
    (hW : c.W = Conv.newW c.fft exAlloc) (hAB : max c.fft.A c.fft.B ≤ 5) (hL : c.fft.S * c.fft.L ≤ 100) :
    c.Inputs (exMem 100) (exArr 5) := by
  have hFb : ∀ a, (c.F.at_ a) = ⟨10 + a, 0⟩ := fun a => by rw [hF]; rfl
  have hVb : ∀ a, (c.V.at_ a) = ⟨20 + a, 0⟩ := fun a => by rw [hV]; rfl
  have hgb : ∀ a, ((exArr 5).at_ a) = ⟨a, 0⟩ := fun a => rfl
  refine ⟨⟨hAB, ?_, ?_, ?_⟩, ?_, ?_, fun _ a _ a' _ hne => by rw [hgb, hgb]; exact hne⟩
  · intro a ha; rw [hgb, Conv.Ptr.add0]; exact exMem_block _ _ hL
  · intro a ha a' ha'; rw [hFb, hgb]; show a ≠ 10 + a'; omega
  · intro a ha W hW'
    rw [hW] at hW'
    unfold Conv.newW at hW'
    split_ifs at hW'
    obtain rfl : exAlloc.W = W := by simpa using hW'
    rw [hgb]; show 7 ≠ a; omega
  · intro a ha a' ha' hne p h1 h2
    have e1 := FftBase.data_buf h1
    have e2 := FftBase.data_buf h2
    rw [hgb] at e1 e2
    rw [e1] at e2
    exact hne e2
  · intro _ a ha b hb
    rw [hgb, hVb]; show a ≠ 20 + b; omega

/-- **C16** is false when `A-B` does not divide `B`: with `A=3`, `B=1`, `L=2`, `M=4`, `m=2` (so `nloops()=2`), in place, an object is
constructed and `convolve` runs, but leaves `1/4` instead of the right result `0` for a multiplier with output zero. -/
theorem C16_loop2_refuted : ∃ o, Fft.new 2 4 ⟨3, 1, false⟩ 1 1 2 1 true = .ok o ∧ o.overwrite = false ∧ o.nloops = 2 ∧
    ∃ c mem1, Conv.new o.base multZero none none none exAlloc (exMem 100) = .ok (c, mem1) ∧ c.Inputs (exMem 100) (exArr 5) ∧
    ∃ mem2, c.convolve (exArr 5) mem1 = .ok ((), mem2) ∧ mem2.val ((exArr 5).at_ 0 + 0) = 1 / 4 ∧
      convResult 4 2 (fun _ _ _ => 0) (fun a j => mem1.val ((exArr 5).at_ a + j)) 0 0 = 0 := by
  obtain ⟨o, hnew, how, hn, hq, hA, hB, hos, hinc⟩ : ∃ o, Fft.new 2 4 ⟨3, 1, false⟩ 1 1 2 1 true = .ok o ∧ o.overwrite = false ∧
      o.nloops = 2 ∧ o.q ≠ 1 ∧ o.A = 3 ∧ o.B = 1 ∧ o.outputSize ≤ 100 ∧ o.starts = [0, o.increment 0] :=
    ⟨_, rfl, rfl, rfl, by decide, rfl, rfl, by decide, rfl⟩
  refine ⟨o, hnew, how, hn, ?_⟩
  have h := Fft.WF.of_new (by omega) hnew
  obtain ⟨hL, hmm, hC, hS, _, _, _, _, _⟩ := Fft.new_fields hnew
  have hS : o.S = 1 := by rw [hS]; rfl
  have hsp := h.base_spec
  have fl := h.flat hC hS
  have hl2 : o.base.loop2 = true := by
    show o.loop2 = true
    unfold Fft.loop2
    simp only [decide_eq_true_eq]
    exact ⟨hn, by omega, how⟩
  have hAB : max o.base.A o.base.B ≤ 5 := by show max o.A o.B ≤ 5; rw [hA, hB]; decide
  have hSL : o.base.S * o.base.L ≤ 100 := by show o.S * o.L ≤ 100; rw [hS, hL]; decide
  obtain ⟨c, mem1, e1, hfft, hmult, hF, hV, hW, hr, hu⟩ := Conv.new_ok hsp (by show 0 < o.q; exact h.q_pos) multZero
    (exBuffers hAB hos hSL)
  have hin : c.Inputs (exMem 100) (exArr 5) :=
    exInputs (by rw [hF, hfft]) (by rw [hV, hfft]) (by rw [hW, hfft]) (by rw [hfft]; exact hAB) (by rw [hfft]; exact hSL)
  refine ⟨c, mem1, e1, hin, ?_⟩
  have hm' : MultSpec c.fft.A c.fft.B c.fft.index c.mult (fun _ _ _ => 0) := by
    rw [hfft, hmult]; show MultSpec o.A o.B o.index multZero _; rw [hA, hB]; exact multZero_spec
  have hcA : c.fft.A = 3 := by rw [hfft]; exact hA
  have hcB : c.fft.B = 1 := by rw [hfft]; exact hB
  have hcL : c.fft.L = 2 := by rw [hfft]; exact hL
  have hcN : c.fft.N = 4 := by
    rw [hfft]; show o.M = 4
    have hq2 : o.q = 2 := by
      have := (Fft.new_fields hnew).2.2.2.2.1
      have h2 : parameters 2 4 2 false = (1, 2, 2) := by decide
      rw [h2] at this
      simp only [Prod.mk.injEq] at this
      exact this.2.2
    rw [h.M_eq, hmm, hq2]
  have hfl : c.fft.Flat o.K := by rw [hfft]; exact fl
  obtain ⟨_, mem2, e2, s2, v2⟩ := Conv.loop2_wrong (c := c) (idx := []) (by rw [hfft]; exact hsp) hfl (by rw [hfft]; exact how)
    (by rw [hfft]; exact hq) (by rw [hfft]; exact hl2) (by rw [hcA, hcB]; decide) (by rw [hfft]; exact hinc) hm'
    (Or.inr fun _ _ _ => rfl) hr (hin.size hu.size)
  have hin2 := hin.size (s2.trans hu.size)
  have hdB := hin2.dat.mono (le_max_right c.fft.A c.fft.B) le_rfl
  obtain ⟨_, mem3, e3, u3, v3⟩ := Conv.normalize_ok (c := c) rfl hfl (mem := mem2) (g := exArr 5) (offset := 0) hdB.n
    (fun b hb => by have := hdB.bf b hb; rwa [hfl.S, one_mul] at this)
    (fun b hb b' hb' hne p h1 h2 => hin2.apart b (lt_of_lt_of_le hb (le_max_right _ _)) b' (lt_of_lt_of_le hb' (le_max_right _ _))
      hne p ((Conv.flat_data hfl).2 h1) ((Conv.flat_data hfl).2 h2))
  refine ⟨mem3, (Cmd.bind_run (c := c.convolveRaw [] (exArr 5)) e2).trans e3, ?_, ?_⟩
  · have h3 := v3 0 (by rw [hcB]; omega) 0 (by rw [hcL]; omega)
    have h2 := v2 0 (by rw [hcB]; omega) 0 (by rw [hcL]; omega)
    rw [Conv.Ptr.add0] at h3
    rw [h3, h2, hcN]
    have hp : c.fft.part 0 (fun e b X c => 0) mem1 (exArr 5) 0 c.fft.incr0 0 0 0 = 0 := by
      unfold FftBase.part; simp
    rw [hp, hu.frame]
    · show (1 + 0 : ℂ) * (1 / ((4 : ℕ) : ℂ)) = 1 / 4
      norm_num
    · rintro ⟨W, hW', _⟩
      rw [hW] at hW'
      have hip : o.base.inplace = true := (Fft.new_fields hnew).2.2.2.2.2.1
      unfold Conv.newW at hW'
      rw [if_pos hip] at hW'
      simp at hW'
  · unfold convResult
    simp

/-- The hypotheses of C10, C11, C12, C13, C15 and C32 are met: `L=5`, `M=9`, `m=4` (`p=2`, `q=3`, `n=3`, three residue blocks), out of
place, separate work arrays; and the inputs satisfy `Inputs`, so the conclusions are not vacuous either. -/
example : ∃ o, Fft.new 5 9 ⟨2, 1, true⟩ 1 1 4 1 false = .ok o ∧ o.S = 1 ∧ o.overwrite = false ∧ o.nloops = 3 ∧
    Conv.Buffers o.base (exMem 100) none none exAlloc ∧
    ∃ c mem1, Conv.new o.base multBinary none none none exAlloc (exMem 100) = .ok (c, mem1) ∧ c.Inputs (exMem 100) (exArr 5) ∧
      c.Allowed (exMem 100) (.write ⟨0, 3⟩ 5) ∧ c.Allowed (exMem 100) (.call (exArr 5)) := by
  obtain ⟨o, hnew, how, hn, hA, hB, hos⟩ : ∃ o, Fft.new 5 9 ⟨2, 1, true⟩ 1 1 4 1 false = .ok o ∧ o.overwrite = false ∧
      o.nloops = 3 ∧ o.A = 2 ∧ o.B = 1 ∧ o.outputSize ≤ 100 :=
    ⟨_, rfl, rfl, by decide, rfl, rfl, by decide⟩
  have h := Fft.WF.of_new (by omega) hnew
  obtain ⟨hL, _, hC, hS, _, hip, _⟩ := Fft.new_fields hnew
  have hS : o.S = 1 := by rw [hS]; rfl
  have hAB : max o.base.A o.base.B ≤ 5 := by show max o.A o.B ≤ 5; rw [hA, hB]; decide
  have hSL : o.base.S * o.base.L ≤ 100 := by show o.S * o.L ≤ 100; rw [hS, hL]; decide
  refine ⟨o, hnew, hS, how, hn, exBuffers hAB hos hSL, ?_⟩
  obtain ⟨c, mem1, e1, hfft, _, hF, hV, hW, _⟩ := Conv.new_ok h.base_spec (by show 0 < o.q; exact h.q_pos) multBinary
    (exBuffers hAB hos hSL)
  have hin : c.Inputs (exMem 100) (exArr 5) :=
    exInputs (by rw [hF, hfft]) (by rw [hV, hfft]) (by rw [hW, hfft]) (by rw [hfft]; exact hAB) (by rw [hfft]; exact hSL)
  refine ⟨c, mem1, e1, hin, ⟨⟨by decide, by decide⟩, ?_⟩, hin⟩
  rintro ⟨W, hW', hp⟩
  have hb := FftBase.inArr_buf hp
  rw [hW] at hW'
  have hip' : o.base.inplace = false := hip
  unfold Conv.newW at hW'
  rw [if_neg (by rw [hip']; simp)] at hW'
  obtain rfl : exAlloc.W = W := by simpa using hW'
  exact absurd hb (by decide)

/-- The hypotheses of C16 are met: `A=2`, `B=1`, `L=5`, `M=9`, `m=9/2→5` (two residue blocks). -/
example : ∃ o, Fft.new 5 9 ⟨2, 1, false⟩ 1 1 5 1 true = .ok o ∧ o.S = 1 ∧ o.overwrite = false ∧ o.nloops = 2 ∧
    Conv.Buffers o.base (exMem 100) none none exAlloc ∧ Conv.Buffers (Conv.noLoop2 o.base) (exMem 100) none none exAlloc := by
  obtain ⟨o, hnew, how, hn, hA, hB, hos⟩ : ∃ o, Fft.new 5 9 ⟨2, 1, false⟩ 1 1 5 1 true = .ok o ∧ o.overwrite = false ∧
      o.nloops = 2 ∧ o.A = 2 ∧ o.B = 1 ∧ o.outputSize ≤ 100 :=
    ⟨_, rfl, rfl, by decide, rfl, rfl, by decide⟩
  obtain ⟨hL, _, hC, hS, _, hip, _⟩ := Fft.new_fields hnew
  have hS : o.S = 1 := by rw [hS]; rfl
  have hAB : max o.base.A o.base.B ≤ 5 := by show max o.A o.B ≤ 5; rw [hA, hB]; decide
  have hSL : o.base.S * o.base.L ≤ 100 := by show o.S * o.L ≤ 100; rw [hS, hL]; decide
  exact ⟨o, hnew, hS, how, hn, exBuffers hAB hos hSL, exBuffers (o := Conv.noLoop2 o.base) hAB hos hSL⟩

/-! ## C33: a user-supplied `W` -/

/-- **C33**, in-place transforms: supplying `W` makes no difference (no work array is needed). -/
theorem C33_inplace {o : FftBase} (hi : o.inplace = true) (mult : Multiplier) (Fu : Option PtrArr) (W : Ptr) (Vu : Option Ptr)
    (al : Alloc) : Conv.new o mult Fu (some W) Vu al = Conv.new o mult Fu none Vu al := by
  unfold Conv.new
  simp [hi]

/-- **C33** is false for out-of-place transforms: the constructor overwrites the member `W` with `NULL` when the user supplies
one (convolve.h:1024).  For every explicitly padded (`q=1`) out-of-place transform, every multiplier, `A ≥ 1` and all valid
arguments, `convolve` then ends in `exit` (an out-of-place FFT plan is called in place), although the same call with `W` not
supplied succeeds (C12). -/
theorem C33_user_W_refuted {L M : ℕ} {app : App} {S0 m D : ℕ} {o : Fft}
    (hnew : Fft.new L M app 1 S0 m D false = .ok o) (hS : o.S = 1) (hq : o.q = 1) (hA : 0 < app.A) (mult : Multiplier)
    {mem0 : Mem} {Fu : Option PtrArr} {Vu : Option Ptr} {al : Alloc} (hbuf : Conv.Buffers o.base mem0 Fu Vu al) (W : Ptr)
    {g : PtrArr} (hn : 0 < g.n) (hg : mem0.block (g.at_ 0) L) (hgF : (g.at_ 0).buf ≠ ((Conv.newF o.base Fu al).at_ 0).buf) :
    ∃ c, Conv.new o.base mult Fu (some W) Vu al mem0 = .ok (c, mem0) ∧ c.convolve g mem0 = .error .exit := by
  have h := Fft.WF.of_new (by omega) hnew
  obtain ⟨hL, hmm, hC, _, _, hip, hA', hB', _⟩ := Fft.new_fields hnew
  have hWn : (if decide ((some W : Option Ptr) = none ∧ o.base.inplace = false) = true then some al.W else none) = none := by simp
  have hnq : ¬ 1 < o.base.q := by
    show ¬ 1 < o.q
    omega
  refine ⟨⟨o.base, mult, Conv.newF o.base Fu al, Conv.newF o.base Fu al, Conv.newV o.base Vu al, none, none, true⟩, ?_, ?_⟩
  · unfold Conv.new
    rw [if_neg hnq, hWn]
    rfl
  generalize hF0 : (Conv.newF o.base Fu al).at_ 0 = F0 at hgF
  have hwk := hbuf.work
  have hbF : mem0.block F0 o.M := by
    have h1 := hwk.bF 0 (lt_of_lt_of_le (by show 0 < o.A; omega) (le_max_left _ _))
    rw [hF0] at h1
    have h2 : o.M ≤ o.base.outputSize := by
      show o.M ≤ o.b * o.D
      have hfl := h.flat hC hS
      have hD := h.D_pos
      rw [h.M_eq, hq, h.b_eq, hS, h.l_eq, one_mul]
      exact (Nat.mul_le_mul (Nat.mul_le_mul_left o.m h.P_pos) hD).trans' (by simp)
    intro i hi
    exact h1 i (by omega)
  -- the first forward transform exits
  have hfwd : o.forward (g.at_ 0) F0 0 none mem0 = .error .exit := by
    have hroute : o.route = .explicit := by
      rw [h.route_eq]; unfold chooseRoute; rw [if_pos hq, if_pos hS]
    unfold Fft.forward
    rw [hroute]
    unfold Fft.forwardExplicit
    simp only [Option.getD_none]
    obtain ⟨_, m1, e1, u1⟩ := par_map1 (l := rng 0 o.L) (body := fun s => Fft.copy1 (F0 + s) (g.at_ 0 + s)) (m := mem0)
      (Q := fun _ m' => m'.size = mem0.size) (fun s => F0 + s) (fun s => mem0.val (g.at_ 0 + s)) (rng_nodup _ _) (by
        intro s hs
        rw [mem_rng] at hs
        unfold Fft.copy1
        body_simp
        exact ⟨hg s (by omega), hbF s (by have := h.L_le_M; omega)⟩) (by
        intro s hs
        unfold Fft.copy1
        body_simp) (by ptr) (by
        unfold Fft.copy1
        body_simp <;> ptr) (fun m' u _ => u.size)
    obtain ⟨_, m2, e2, u2⟩ := Fft.zeroRow_ok (a := o.L) (b := o.M) (W := F0) (mem := m1)
      (fun s _ hs => Mem.valid_of_size u1 (hbF s hs)) (Q := fun _ m' => True) (fun _ _ _ => trivial)
    refine (Cmd.bind_run (c := par _ _) e1).trans ((Cmd.bind_run (c := par _ _) e2).trans ?_)
    unfold Plan.exec
    rw [if_pos]
    rw [(h.fftm_1 hq hS).1]
    simp [hip]
  have hall : fwdAll o.base none g (Conv.newF o.base Fu al) 0 0 o.base.A 0 mem0 = .error .exit := by
    unfold fwdAll
    obtain ⟨k, hk⟩ : ∃ k, o.base.A = k + 1 := ⟨o.base.A - 1, by have : o.base.A = app.A := hA'; omega⟩
    rw [hk]
    have hr : rng 0 (k + 1) = 0 :: rng 1 (k + 1) := by
      unfold rng
      simp [List.range'_succ]
    rw [hr]
    simp only [seqLoop]
    rw [PtrArr.get_bind hn, PtrArr.get_bind (by
      have := hwk.n
      have h3 : o.base.A ≤ max o.base.A o.base.B := le_max_left _ _
      omega), hF0]
    have : o.base.forward (g.at_ 0 + 0) F0 0 none mem0 = .error .exit := by
      rw [Conv.Ptr.add0]; exact hfwd
    rw [this]
  unfold Conv.convolve Conv.convolveRaw Conv.rawExplicit
  have hq' : o.base.q = 1 := hq
  rw [if_pos hq']
  rw [Cmd.bind_apply, Cmd.bind_apply, hall]

/-- The hypotheses of `C33_user_W_refuted` are met: `L=3`, `M=m=5`. -/
example : ∃ o, Fft.new 3 5 ⟨2, 1, false⟩ 1 1 5 1 false = .ok o ∧ o.S = 1 ∧ o.q = 1 ∧
    Conv.Buffers o.base (exMem 100) none none exAlloc ∧ (exMem 100).block ((exArr 5).at_ 0) 3 ∧
    ((exArr 5).at_ 0).buf ≠ ((Conv.newF o.base none exAlloc).at_ 0).buf := by
  obtain ⟨o, hnew, hq, hA, hB, hos⟩ : ∃ o, Fft.new 3 5 ⟨2, 1, false⟩ 1 1 5 1 false = .ok o ∧ o.q = 1 ∧ o.A = 2 ∧ o.B = 1 ∧
      o.outputSize ≤ 100 := ⟨_, rfl, rfl, rfl, rfl, by decide⟩
  obtain ⟨hL, _, hC, hS, _, hip, _⟩ := Fft.new_fields hnew
  have hS : o.S = 1 := by rw [hS]; rfl
  have hAB : max o.base.A o.base.B ≤ 5 := by show max o.A o.B ≤ 5; rw [hA, hB]; decide
  have hSL : o.base.S * o.base.L ≤ 100 := by show o.S * o.L ≤ 100; rw [hS, hL]; decide
  exact ⟨o, hnew, hS, hq, exBuffers hAB hos hSL, exMem_block _ _ (by decide), by show (0 : ℕ) ≠ 10 + 0; decide⟩

end Fftwpp
