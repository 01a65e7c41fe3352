import Verif.Props.Conv2D

/-!
# Overwriting transforms (C35)

When `inplace`, `L=p*m`, `n=p+1`, `D=1` and `A ≥ B` (and the application allows it) the transforms work inside the input array: all
residue blocks are computed at once, the first `p` of them in the input array and the last one in the work array.
-/

namespace Fftwpp
open Finset

namespace Fft
variable {o : Fft}

/-- Residue (modulo `q`) of the block left in the work array. -/
def lastResidue (o : Fft) : ℤ := if o.p = 1 then 1 else -1

theorem Ow.last (h : o.Ow) : owRes o.p = o.lastResidue := by
  unfold owRes lastResidue
  rcases h.p12 with h1 | h1 <;> rw [h1] <;> simp

theorem owPre_of_blocks (h : o.Ow) {mem : Mem} {f F : Ptr} (hfF : f.buf ≠ F.buf) (bf : mem.block f (o.S * o.L)) (bF : mem.block F (o.S * o.m)) :
    o.OwPre mem f F := by
  have hCS := h.wf.C_le_S
  refine ⟨hfF, ?_, ?_⟩
  · intro r hr s hs c hc
    refine bf _ ?_
    have h1 : o.m * r + s < o.L := by rw [h.L_eq, Nat.mul_comm o.p]; exact radix_lt hs hr
    exact radix_lt (by omega) h1
  · intro s hs c hc
    exact bF _ (radix_lt (by omega) hs)

/-- **C35**, forward transform.  For every constructed overwriting transform (then `p` is 1 or 2 and `q=p+1`), every input, every number
of copies and stride: `forward` runs to completion (no out-of-bounds access, no data race) and leaves in `f[S*(m*r+i)+c]`, `r < p`,
`i < m`, the DFT of length `N=m*q` of copy `c`, zero padded, at the frequency `q*i+r`; and in `F[S*i+c]` that at frequency `q*i+1` (`p=1`)
or `q*i-1` (`p=2`).  Nothing else is changed. -/
theorem C35_forward {L M : ℕ} {app : App} {C S0 m D : ℕ} {inplace : Bool} (hC : 0 < C)
    (hnew : Fft.new L M app C S0 m D inplace = .ok o) (how : o.overwrite = true)
    {mem : Mem} {f F : Ptr} (hfF : f.buf ≠ F.buf) (bf : mem.block f (o.S * L)) (bF : mem.block F (o.S * m)) (r0 : ℕ) (W? : Option Ptr) :
    (o.p = 1 ∨ o.p = 2) ∧ o.q = o.p + 1 ∧
    (o.forward f F r0 W?).Ok mem fun _ m' =>
      (∀ r < o.p, ∀ i < m, ∀ c < C, m'.val (f + (o.S * (m * r + i) + c)) =
        paddedDFT (m * o.q) L (fun j => mem.val (f + (o.S * j + c))) (o.q * i + r)) ∧
      (∀ i < m, ∀ c < C, m'.val (F + (o.S * i + c)) =
        paddedDFT (m * o.q) L (fun j => mem.val (f + (o.S * j + c))) (o.q * i + o.lastResidue)) ∧
      (∀ p, (∀ j < L, ∀ c < C, p ≠ f + (o.S * j + c)) → (∀ i < m, ∀ c < C, p ≠ F + (o.S * i + c)) → m'.val p = mem.val p) ∧
      m'.size = mem.size := by
  have h : o.Ow := ⟨Fft.WF.of_new hC hnew, how⟩
  obtain ⟨hL, hm, hCC, _⟩ := Fft.new_fields hnew
  subst hL hm hCC
  have hM : o.m * o.q = o.M := h.wf.M_eq.symm
  refine ⟨h.p12, h.q_eq, ?_⟩
  refine (owForward_ok h (owPre_of_blocks h hfF bf bF) r0 W?).mono ?_
  rintro _ m' post
  rw [hM, ← h.last]
  refine ⟨?_, post.eF, ?_, post.upd.size⟩
  · intro r hr i hi c hc
    rw [post.ef r hr i hi c hc]
    have : owRes r = r := by
      unfold owRes
      rw [if_neg (by rcases h.p12 with h1 | h1 <;> omega)]
    rw [this]
  · intro p h1 h2
    refine post.upd.frame p ?_
    rintro (⟨r, hr, s, hs, c, hc, rfl⟩ | ⟨s, hs, c, hc, rfl⟩)
    · exact h1 _ (by rw [h.L_eq, Nat.mul_comm o.p]; exact radix_lt hs hr) c hc rfl
    · exact h2 s hs c hc rfl

/-- **C35**, backward transform: `backward` sets `f[S*j+c]`, `j < L`, to the unnormalized inverse DFT of the values at the `N` frequencies
held in `f` and `F` as left by `forward`; nothing else but `F[S*i+c]` changes. -/
theorem C35_backward {L M : ℕ} {app : App} {C S0 m D : ℕ} {inplace : Bool} (hC : 0 < C)
    (hnew : Fft.new L M app C S0 m D inplace = .ok o) (how : o.overwrite = true)
    {mem : Mem} {f F : Ptr} (hfF : f.buf ≠ F.buf) (bf : mem.block f (o.S * L)) (bF : mem.block F (o.S * m)) (r0 : ℕ) (W? : Option Ptr)
    {Y : ℤ → ℕ → ℂ} (hY : ∀ e e' : ℤ, ((m * o.q : ℕ) : ℤ) ∣ e - e' → Y e = Y e')
    (hf : ∀ r < o.p, ∀ i < m, ∀ c < C, mem.val (f + (o.S * (m * r + i) + c)) = Y (o.q * i + r) c)
    (hF : ∀ i < m, ∀ c < C, mem.val (F + (o.S * i + c)) = Y (o.q * i + o.lastResidue) c) :
    (o.backward F f r0 W?).Ok mem fun _ m' =>
      (∀ j < L, ∀ c < C, m'.val (f + (o.S * j + c)) = ∑ e ∈ range (m * o.q), Y e c * w (m * o.q) (-((j : ℤ) * e))) ∧
      (∀ p, (∀ j < L, ∀ c < C, p ≠ f + (o.S * j + c)) → (∀ i < m, ∀ c < C, p ≠ F + (o.S * i + c)) → m'.val p = mem.val p) ∧
      m'.size = mem.size := by
  have h : o.Ow := ⟨Fft.WF.of_new hC hnew, how⟩
  obtain ⟨hL, hm, hCC, _⟩ := Fft.new_fields hnew
  subst hL hm hCC
  have hM : o.m * o.q = o.M := h.wf.M_eq.symm
  rw [hM] at hY
  refine (owBackward_ok h (owPre_of_blocks h hfF bf bF) r0 W?).mono ?_
  rintro _ m' post
  rw [hM]
  refine ⟨?_, ?_, post.upd.size⟩
  · intro j hj c hc
    rw [post.e j hj c hc, ← owFreq_sum h (fun e => Y e c * w o.M (-((j : ℤ) * e)))]
    congr 1
    · refine sum_congr rfl fun r hr => sum_congr rfl fun i hi => ?_
      rw [mem_range] at hr hi
      have hr' : owRes r = r := by
        unfold owRes
        rw [if_neg (by rcases h.p12 with h1 | h1 <;> omega)]
      have e1 : Y (o.q * i + r) c = Y (o.owFreq r i : ℕ) c := by
        rw [← hr']
        exact congrFun (hY _ _ (owFreq_dvd h r i)) c
      rw [owFreq_w h, hf r hr i hi c hc, e1]
    · refine sum_congr rfl fun i hi => ?_
      rw [mem_range] at hi
      have e1 : Y (o.q * i + o.lastResidue) c = Y (o.owFreq o.p i : ℕ) c := by
        rw [← h.last]
        exact congrFun (hY _ _ (owFreq_dvd h o.p i)) c
      rw [owFreq_w h, hF i hi c hc, e1]
  · intro p h1 h2
    refine post.upd.frame p ?_
    rintro (⟨r, hr, s, hs, c, hc, rfl⟩ | ⟨s, hs, c, hc, rfl⟩)
    · exact h1 _ (by rw [h.L_eq, Nat.mul_comm o.p]; exact radix_lt hs hr) c hc rfl
    · exact h2 s hs c hc rfl

/-- **C35**, round trip: `forward(f,F,0)` and then `backward(F,f,0)` multiply `f[S*j+c]` by `normalization()`. -/
theorem C35_roundtrip {L M : ℕ} {app : App} {C S0 m D : ℕ} {inplace : Bool} (hC : 0 < C)
    (hnew : Fft.new L M app C S0 m D inplace = .ok o) (how : o.overwrite = true)
    {mem : Mem} {f F : Ptr} (hfF : f.buf ≠ F.buf) (bf : mem.block f (o.S * L)) (bF : mem.block F (o.S * m)) (W? : Option Ptr) :
    (do o.forward f F 0 W?
        o.backward F f 0 W? : Cmd Unit).Ok mem fun _ m' =>
      ∀ j < L, ∀ c < C, m'.val (f + (o.S * j + c)) = (m * o.q : ℕ) * mem.val (f + (o.S * j + c)) := by
  have h := Fft.WF.of_new hC hnew
  obtain ⟨hL, hm, _⟩ := Fft.new_fields hnew
  have hM : m * o.q = o.M := by rw [h.M_eq, hm]
  refine Cmd.Ok.bind ((C35_forward hC hnew how hfF bf bF 0 W?).2.2.mono ?_)
  rintro _ m1 ⟨e1, d1, _, s1⟩
  refine (C35_backward hC hnew how hfF (FftBase.block_size s1 bf) (FftBase.block_size s1 bF) 0 W?
    (Y := fun e c => paddedDFT (m * o.q) L (fun j => mem.val (f + (o.S * j + c))) e) ?_ e1 d1).mono ?_
  · intro e e' hd
    funext c
    exact paddedDFT_congr hd
  · rintro _ m2 ⟨e2, _⟩ j hj c hc
    rw [e2 j hj c hc]
    have hLM : L ≤ m * o.q := by rw [hM, ← hL]; exact h.L_le_M
    exact dft_inversion (by rw [hM]; have := h.M_pos; omega) hLM (fun j => mem.val (f + (o.S * j + c))) hj

/-- **C35**: the index reported for the last block is wrong for `p=2` (`L=4`, `m=2`, `M=6`): on the input `0,1,0,0`, `forward` leaves in
`F[0]` a value different from the DFT at frequency `index(2,0)`. -/
theorem C35_index_refuted : ∃ o, Fft.new 4 6 ⟨2, 1, true⟩ 1 1 2 1 true = .ok o ∧ o.overwrite = true ∧ o.n = 3 ∧
    ∃ mem m' : Mem, o.forward ⟨0, 0⟩ ⟨1, 0⟩ 0 none mem = .ok ((), m') ∧
      m'.val ⟨1, 0⟩ ≠ paddedDFT 6 4 (fun j => mem.val ((⟨0, 0⟩ : Ptr) + j)) (o.index 2 0) := by
  obtain ⟨o, hnew, how, hn, hp, hq, hidx, hS⟩ : ∃ o, Fft.new 4 6 ⟨2, 1, true⟩ 1 1 2 1 true = .ok o ∧ o.overwrite = true ∧ o.n = 3 ∧ o.p = 2 ∧
      o.q = 3 ∧ o.index 2 0 = 2 ∧ o.S = 1 := ⟨_, rfl, rfl, rfl, rfl, rfl, rfl, rfl⟩
  refine ⟨o, hnew, how, hn, ⟨fun _ => 100, fun p => if p.off = 1 then 1 else 0⟩, ?_⟩
  have hb : ∀ k n, n ≤ 100 → (⟨fun _ => 100, fun p => if p.off = 1 then 1 else 0⟩ : Mem).block ⟨k, 0⟩ n := by
    intro k n hn i hi
    constructor
    · show (0 : ℤ) ≤ 0 + i
      omega
    · show (0 : ℤ) + i < (100 : ℕ)
      omega
  obtain ⟨_, _, _, m', e, _, d, _⟩ := C35_forward (by omega) hnew how (f := ⟨0, 0⟩) (F := ⟨1, 0⟩) (by decide)
    (hb 0 _ (by rw [hS]; decide)) (hb 1 _ (by rw [hS]; decide)) 0 none
  refine ⟨m', e, ?_⟩
  have hd := d 0 (by omega) 0 (by omega)
  have hlr : o.lastResidue = -1 := by unfold lastResidue; rw [if_neg (by omega)]
  rw [hq, hlr, hS] at hd
  have h0 : ((⟨1, 0⟩ : Ptr) + (1 * 0 + 0)) = ⟨1, 0⟩ := by ext <;> simp
  rw [h0] at hd
  rw [hd, hidx]
  have hx : ∀ e : ℤ, paddedDFT 6 4 (fun j : ℕ => if (((⟨0, 0⟩ : Ptr) + j).off = 1) then (1 : ℂ) else 0) e = w 6 e := by
    intro e
    unfold paddedDFT
    rw [sum_eq_single 1]
    · simp
    · intro j _ hj
      have : ((⟨0, 0⟩ : Ptr) + j).off ≠ 1 := by
        show (0 : ℤ) + (j : ℤ) ≠ 1
        omega
      beta_reduce
      rw [if_neg this, zero_mul]
    · simp
  have hx1 := hx (((3 : ℕ) : ℤ) * (0 : ℕ) + -1)
  have hx2 := hx ((2 : ℕ) : ℤ)
  simp only [one_mul, add_zero]
  intro hc
  have hw : w 6 (((3 : ℕ) : ℤ) * (0 : ℕ) + -1) = w 6 ((2 : ℕ) : ℤ) := by rw [← hx1, ← hx2]; exact hc
  have h3 : w 6 3 = 1 := by
    have h4 : w 6 3 * w 6 (((3 : ℕ) : ℤ) * (0 : ℕ) + -1) = w 6 ((2 : ℕ) : ℤ) := by
      rw [← w_add]; norm_num
    rw [hw] at h4
    exact mul_right_cancel₀ (w_ne_zero 6 _) (by rw [h4, one_mul])
  rw [w_eq_one_iff 6 (by omega)] at h3
  omega

end Fft

theorem Fft.new_noOverwrite {L M A B : ℕ} {C S0 m D : ℕ} {inplace : Bool} {o : Fft}
    (h : Fft.new L M ⟨A, B, false⟩ C S0 m D inplace = .ok o) : o.overwrite = false := by
  unfold Fft.new at h
  generalize hpar : parameters L M m false = x at h
  obtain ⟨p, n, q⟩ := x
  simp only at h
  generalize (if S0 = 0 then C else S0) = S at h
  split_ifs at h with h1 h2 h3 h4 h5 h6 h7
  · simp only [Except.ok.injEq] at h
    subst h
    simp [Fft.newExplicit]
  · simp only [Except.ok.injEq] at h
    subst h
    simp [Fft.newHybrid]

open Fft in
/-- **C35**, convolutions.  An overwriting object and one constructed with the same parameters but not allowed to overwrite, with
multipliers of the same action (`φ`; it may depend on the frequency if `n=2`, and otherwise must not), any work arrays, each after any history of calls and
writes, give the same first `B` results on equal inputs; both are the inverse DFT of `φ` of the DFTs.  If `A-B` does not divide `B`
the statement is restricted to `n ≠ 2`, as then the object not overwriting uses the two-pass schedule (C16). -/
theorem C35_agree {L M A B : ℕ} {S0 m D : ℕ} {inplace : Bool} {o o' : Fft}
    (hnew : Fft.new L M ⟨A, B, true⟩ 1 S0 m D inplace = .ok o) (how : o.overwrite = true) (hS : o.S = 1)
    (hnew' : Fft.new L M ⟨A, B, false⟩ 1 S0 m D inplace = .ok o')
    (hdvd : o'.nloops = 2 → B < A → (A - B) ∣ B)
    {mult mult' : Multiplier} {φ : List ℕ → ℕ → (ℕ → ℂ) → ℂ} (hm : MultSpec A B o.index mult φ) (hm' : MultSpec A B o'.index mult' φ)
    (hfreq : o.n = 2 ∨ ∀ e e' idx, φ (e :: idx) = φ (e' :: idx))
    {mem0 mem0' : Mem} {Fu Fu' : Option PtrArr} {Vu Vu' : Option Ptr} {al al' : Alloc}
    (hbuf : Conv.Buffers o.base mem0 Fu Vu al) (hbuf' : Conv.Buffers o'.base mem0' Fu' Vu' al') :
    o'.overwrite = false ∧
    ∃ c mem1 c' mem1', Conv.new o.base mult Fu none Vu al mem0 = .ok (c, mem1) ∧
      Conv.new o'.base mult' Fu' none Vu' al' mem0' = .ok (c', mem1') ∧
      ∀ steps steps' : List Conv.Step, (∀ s ∈ steps, c.Allowed mem0 s) → (∀ s ∈ steps', c'.Allowed mem0' s) →
      ∃ mem2 mem2', seqLoop steps c.step mem1 = .ok ((), mem2) ∧ seqLoop steps' c'.step mem1' = .ok ((), mem2') ∧
      ∀ g g' : PtrArr, c.Inputs mem0 g → c'.Inputs mem0' g' →
        (∀ a < A, ∀ j < L, mem2.val (g.at_ a + j) = mem2'.val (g'.at_ a + j)) →
        ∃ mem3 mem3', c.convolve g mem2 = .ok ((), mem3) ∧ c'.convolve g' mem2' = .ok ((), mem3') ∧
          ∀ b < B, ∀ j < L, mem3.val (g.at_ b + j) = mem3'.val (g'.at_ b + j) ∧
            mem3.val (g.at_ b + j) = convResult (m * o.q) L (fun e => φ [e]) (fun a j => mem2.val (g.at_ a + j)) b j := by
  have h : o.Ow := ⟨Fft.WF.of_new (by omega) hnew, how⟩
  have h' := Fft.WF.of_new (by omega) hnew'
  obtain ⟨hL, hmm, hC, hS1, hp, hip, hA, hB, _⟩ := Fft.new_fields hnew
  obtain ⟨hL', hmm', hC', hS1', hp', hip', hA', hB', _⟩ := Fft.new_fields hnew'
  have hS' : o'.S = 1 := by rw [hS1', ← hS1, hS]
  have hpe := hp.trans hp'.symm
  simp only [Prod.mk.injEq] at hpe
  have hqq : o'.q = o.q := hpe.2.2.symm
  have how' : o'.overwrite = false := new_noOverwrite hnew'
  refine ⟨how', ?_⟩
  have hD0 : o.D0 = 1 := h.wf.D0_eq_one h.D_eq
  have hD : o'.D = 1 := by
    obtain ⟨_, _, _, _, _, _, _, _, hD1, _⟩ := Fft.new_fields hnew
    obtain ⟨_, _, _, _, _, _, _, _, hD2, _⟩ := Fft.new_fields hnew'
    rw [hD2, hqq, ← hD1, h.D_eq]
  obtain ⟨c, mem1, e1, hc⟩ := C12_history hnew hS (fun _ hf => by simp [how] at hf) (Or.inr h.D_eq) hm
    (hfreq.imp (fun h1 => ⟨hD0, fun _ => h1⟩) id) hbuf
  obtain ⟨c', mem1', e1', hc'⟩ := C12_history hnew' hS' (fun _ _ => hdvd) (Or.inr hD) hm'
    (Or.inl ⟨h'.D0_eq_one hD, fun hf => by simp [how'] at hf⟩) hbuf'
  refine ⟨c, mem1, c', mem1', e1, e1', fun steps steps' hst hst' => ?_⟩
  obtain ⟨mem2, e2, hc2⟩ := hc steps hst
  obtain ⟨mem2', e2', hc2'⟩ := hc' steps' hst'
  refine ⟨mem2, mem2', e2, e2', fun g g' hg hg' heq => ?_⟩
  obtain ⟨_, mem3, e3, h3, _⟩ := hc2 g hg
  obtain ⟨_, mem3', e3', h3', _⟩ := hc2' g' hg'
  refine ⟨mem3, mem3', e3, e3', fun b hb j hj => ⟨?_, h3 b hb j hj⟩⟩
  rw [h3 b hb j hj, h3' b hb j hj, hqq]
  exact convResult_congr (fun e => hm.congr [e]) heq b j

/-- The hypotheses of C35 are met: `L=4`, `m=4`, `M=8` (`p=1`, two blocks) and `L=8`, `m=4`, `M=12` (`p=2`, three blocks), in place. -/
example : (∃ o, Fft.new 4 8 ⟨2, 1, true⟩ 1 1 4 1 true = .ok o ∧ o.overwrite = true ∧ o.S = 1 ∧ o.n = 2) ∧
    ∃ o o', Fft.new 8 12 ⟨2, 1, true⟩ 1 1 4 1 true = .ok o ∧ o.overwrite = true ∧ o.S = 1 ∧ o.n = 3 ∧
      Fft.new 8 12 ⟨2, 1, false⟩ 1 1 4 1 true = .ok o' ∧
      Conv.Buffers o.base (Fft.exMem 100) none none exAlloc ∧ Conv.Buffers o'.base (Fft.exMem 100) none none exAlloc ∧
      ∃ c mem1, Conv.new o.base multBinary none none none exAlloc (Fft.exMem 100) = .ok (c, mem1) ∧ c.Inputs (Fft.exMem 100) (exArr 5) := by
  refine ⟨⟨_, rfl, rfl, rfl, rfl⟩, ?_⟩
  obtain ⟨o, hnew, how, hS, hn, hA, hB, hos⟩ : ∃ o, Fft.new 8 12 ⟨2, 1, true⟩ 1 1 4 1 true = .ok o ∧ o.overwrite = true ∧ o.S = 1 ∧
      o.n = 3 ∧ o.A = 2 ∧ o.B = 1 ∧ o.outputSize ≤ 100 := ⟨_, rfl, rfl, rfl, rfl, rfl, rfl, by decide⟩
  obtain ⟨o', hnew', hS', hA', hB', hos'⟩ : ∃ o, Fft.new 8 12 ⟨2, 1, false⟩ 1 1 4 1 true = .ok o ∧ o.S = 1 ∧
      o.A = 2 ∧ o.B = 1 ∧ o.outputSize ≤ 100 := ⟨_, rfl, rfl, rfl, rfl, by decide⟩
  have h := Fft.WF.of_new (by omega) hnew
  have hL := (Fft.new_fields hnew).1
  have hL' := (Fft.new_fields hnew').1
  have hAB : max o.base.A o.base.B ≤ 5 := by show max o.A o.B ≤ 5; rw [hA, hB]; decide
  have hSL : o.base.S * o.base.L ≤ 100 := by show o.S * o.L ≤ 100; rw [hS, hL]; decide
  have hAB' : max o'.base.A o'.base.B ≤ 5 := by show max o'.A o'.B ≤ 5; rw [hA', hB']; decide
  have hSL' : o'.base.S * o'.base.L ≤ 100 := by show o'.S * o'.L ≤ 100; rw [hS', hL']; decide
  refine ⟨o, o', hnew, how, hS, hn, hnew', exBuffers hAB hos hSL, exBuffers hAB' hos' hSL', ?_⟩
  obtain ⟨c, mem1, e1, hfft, _, hF, hV, hW, _⟩ := Conv.new_ok h.base_spec (by show 0 < o.q; exact h.q_pos) multBinary
    (exBuffers hAB hos hSL)
  exact ⟨c, mem1, e1, exInputs (by rw [hF, hfft]) (by rw [hV, hfft]) (by rw [hW, hfft]) (by rw [hfft]; exact hAB) (by rw [hfft]; exact hSL)⟩

/-- The hypotheses of C17 are met with both transforms overwriting their inputs: `Lx=4`, `mx=2` (`p=2`), `Ly=2`, `my=2` (`p=1`). -/
example : ∃ ox oy, Fft.new 4 6 ⟨2, 1, true⟩ 2 3 2 1 true = .ok ox ∧ Fft.new 2 4 ⟨2, 1, true⟩ 1 1 2 1 true = .ok oy ∧ oy.S = 1 ∧
    ox.overwrite = true ∧ oy.overwrite = true ∧ ox.D = 1 ∧
    Conv2.Buffers ox.base oy.base 2 (Fft.exMem 100) none none (exAlloc2 0) := by
  obtain ⟨ox, hx, howx, hAx, hBx, hosx, hDx⟩ : ∃ o, Fft.new 4 6 ⟨2, 1, true⟩ 2 3 2 1 true = .ok o ∧ o.overwrite = true ∧
      o.A = 2 ∧ o.B = 1 ∧ o.outputSize ≤ 100 ∧ o.D = 1 := ⟨_, rfl, rfl, rfl, rfl, by decide, rfl⟩
  obtain ⟨oy, hy, howy, hAy, hBy, hosy⟩ : ∃ o, Fft.new 2 4 ⟨2, 1, true⟩ 1 1 2 1 true = .ok o ∧ o.overwrite = true ∧
      o.A = 2 ∧ o.B = 1 ∧ o.outputSize ≤ 100 := ⟨_, rfl, rfl, rfl, rfl, by decide⟩
  obtain ⟨hL, _, hC, hS, _⟩ := Fft.new_fields hx
  obtain ⟨hL', _, hC', hS', _⟩ := Fft.new_fields hy
  have hS : ox.S = 3 := by rw [hS]; rfl
  have hS' : oy.S = 1 := by rw [hS']; rfl
  exact ⟨ox, oy, hx, hy, hS', howx, howy, hDx, exBuffers2 (by show max ox.A ox.B ≤ 5; rw [hAx, hBx]; decide) hosx
    (by show ox.S * ox.L ≤ 100; rw [hS, hL]; decide) (by show max oy.A oy.B ≤ 5; rw [hAy, hBy]; decide) hosy
    (by show oy.S * oy.L ≤ 100; rw [hS', hL']; decide)⟩

end Fftwpp
