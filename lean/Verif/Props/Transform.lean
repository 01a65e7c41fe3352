import Verif.Proof.Blocks

/-! # C08, C09, C13, C18: forward and backward transforms of the noncentered class -/

namespace Fftwpp
open Finset

/-- The `n` words from `p` on may be accessed. -/
def Mem.block (m : Mem) (p : Ptr) (n : ℕ) : Prop := ∀ i < n, m.valid (p + i)

/-- The documented way of calling `forward`/`backward`: `f` is an array of `S*inputLength()` words, `F` an array of
`outputSize()` words, and `W` is `NULL` for an in-place transform and otherwise an array of `workSizeW()` words; they are
different arrays.  (tests/hybrid.cc:61-64.) -/
structure Fft.Args (o : Fft) (mem : Mem) (f F : Ptr) (W? : Option Ptr) : Prop where
  fF : f.buf ≠ F.buf
  bf : mem.block f (o.S * o.L)
  bF : mem.block F o.outputSize
  bW : if o.inplace then W? = none else ∃ W, W? = some W ∧ W.buf ≠ F.buf ∧ W.buf ≠ f.buf ∧ mem.block W o.workSizeW

namespace Fft
variable {o : Fft}

theorem Args.pre (h : o.WF) {mem : Mem} {f F : Ptr} {W? : Option Ptr} (a : o.Args mem f F W?) :
    o.Pre mem f F (W?.getD F) := by
  have hCS := h.C_le_S
  have hF : ∀ i < o.m * (o.P * o.D), ∀ c < o.C, o.S * i + c < o.outputSize := by
    intro i hi c hc
    unfold outputSize
    rw [h.b_D]
    exact radix_lt (by omega) hi
  have hW := a.bW
  by_cases hi : o.inplace = true
  · rw [if_pos hi] at hW
    subst hW
    refine ⟨a.fF, a.fF, Or.inl ⟨hi, rfl⟩, ?_, ?_, ?_⟩
    · intro j hj c hc; exact a.bf _ (radix_lt (by omega) hj)
    · intro i hi' c hc; exact a.bF _ (hF i hi' c hc)
    · intro i hi' c hc; exact a.bF _ (hF i hi' c hc)
  · rw [if_neg hi] at hW
    obtain ⟨W, rfl, h1, h2, h3⟩ := hW
    have hi' : o.inplace = false := by simpa using hi
    unfold workSizeW at h3
    rw [if_neg hi] at h3
    refine ⟨a.fF, h2.symm, Or.inr ⟨hi', h1⟩, ?_, ?_, ?_⟩
    · intro j hj c hc; exact a.bf _ (radix_lt (by omega) hj)
    · intro i hi' c hc; exact a.bF _ (hF i hi' c hc)
    · intro i hi' c hc; exact h3 _ (hF i hi' c hc)

theorem Args.size {mem m' : Mem} {f F : Ptr} {W? : Option Ptr} (a : o.Args mem f F W?) (hs : m'.size = mem.size) :
    o.Args m' f F W? := by
  have hb : ∀ p n, mem.block p n → m'.block p n := fun p n hp i hi => Mem.valid_of_size hs (hp i hi)
  refine ⟨a.fF, hb _ _ a.bf, hb _ _ a.bF, ?_⟩
  have hW := a.bW
  split_ifs at hW ⊢
  · exact hW
  · obtain ⟨W, h1, h2, h3, h4⟩ := hW
    exact ⟨W, h1, h2, h3, hb _ _ h4⟩

/-- `pad(W)` as called through the API. -/
theorem pad_ok (h : o.WF) {mem : Mem} {f F : Ptr} {W? : Option Ptr} (a : o.Args mem f F W?) :
    (o.padW W?).Ok mem (fun _ m' => mem.Upd m' (fun p => ∃ W, W? = some W ∧ o.Reg W (o.P * o.D) p) ∧ o.Padded m' (W?.getD F)) := by
  have hW := a.bW
  by_cases hi : o.inplace = true
  · rw [if_pos hi] at hW
    subst hW
    refine ⟨(), mem, rfl, Mem.Upd.refl _ _, ?_⟩
    intro hi'; rw [hi] at hi'; simp at hi'
  · have pre := a.pre h
    rw [if_neg hi] at hW
    obtain ⟨W, rfl, h1, h2, h3⟩ := hW
    refine (padW_ok h pre.vW).mono ?_
    rintro _ m' ⟨u, hp⟩
    exact ⟨u.mono (fun p hp => ⟨W, rfl, hp⟩), hp⟩

/-- The words a transform may write: rows of `C` words at stride `S` of `F` and `W`. -/
def TouchFW (o : Fft) (F : Ptr) (W? : Option Ptr) (p : Ptr) : Prop :=
  ∃ i c, c < o.C ∧ o.S * i + c < o.outputSize ∧ (p = F + (o.S * i + c) ∨ ∃ W, W? = some W ∧ p = W + (o.S * i + c))

theorem touch_of_reg (h : o.WF) {F : Ptr} {W? : Option Ptr} {p : Ptr}
    (hp : o.Reg F (o.P * o.D) p ∨ o.Reg (W?.getD F) (o.P * o.D) p) : o.TouchFW F W? p := by
  have hCS := h.C_le_S
  have hF : ∀ i < o.m * (o.P * o.D), ∀ c < o.C, o.S * i + c < o.outputSize := by
    intro i hi c hc
    unfold outputSize
    rw [h.b_D]
    exact radix_lt (by omega) hi
  rcases hp with ⟨i, hi, c, hc, rfl⟩ | ⟨i, hi, c, hc, rfl⟩
  · exact ⟨i, c, hc, hF i hi c hc, Or.inl rfl⟩
  · cases W? with
    | none => exact ⟨i, c, hc, hF i hi c hc, Or.inl rfl⟩
    | some W => exact ⟨i, c, hc, hF i hi c hc, Or.inr ⟨W, rfl, rfl⟩⟩

theorem args_f_touch {mem : Mem} {f F : Ptr} {W? : Option Ptr} (a : o.Args mem f F W?) {j : ℕ} : ¬ o.TouchFW F W? (f + j) := by
  rintro ⟨i, c, _, _, h3 | ⟨W, h3, h4⟩⟩
  · exact a.fF (by simpa using congrArg Ptr.buf h3)
  · have hW := a.bW
    split_ifs at hW
    · rw [hW] at h3; simp at h3
    · obtain ⟨W', h5, _, h6, _⟩ := hW
      rw [h3] at h5
      simp only [Option.some.injEq] at h5
      subst h5
      exact h6 (by simpa using (congrArg Ptr.buf h4).symm)

/-- **C08** (with **C13**, **C18** for `forward`).  For every constructed noncentered transform that does not overwrite
its input, every input, every initial contents of `F` and `W`: after `pad(W)` and any sequence of earlier `forward`
calls, `forward(f,F,r,W)` runs to completion without out-of-bounds access or data race and leaves in `F[S*i+c]`,
`i < noutputs(r)`, `c < C`, the DFT of length `N=m*q` of copy `c` of `f`, zero padded, at frequency `index(r,i)`.  The
only words modified are words `S*i+c` with `c < C` of `F` and `W`; in particular `f` and the stride gaps `c ≥ C` are not. -/
theorem C08_forward {L M : ℕ} {app : App} {C S0 m D : ℕ} {inplace : Bool} (hC : 0 < C)
    (hnew : Fft.new L M app C S0 m D inplace = .ok o) (how : o.overwrite = false)
    {mem : Mem} {f F : Ptr} {W? : Option Ptr} (a : o.Args mem f F W?)
    {history : List ℕ} (hh : ∀ r ∈ history, r ∈ o.visited o.nloops 0) {r : ℕ} (hr : r ∈ o.visited o.nloops 0) :
    (do o.padW W?
        seqLoop history fun r => o.forward f F r W?
        o.forward f F r W? : Cmd Unit).Ok mem fun _ m' =>
      (∀ i < o.noutputs r, ∀ c < C, m'.val (F + (o.S * i + c)) =
        paddedDFT (m * o.q) L (fun j => mem.val (f + (o.S * j + c))) (o.index r i)) ∧
      (∀ p, ¬ o.TouchFW F W? p → m'.val p = mem.val p) ∧ (∀ j, m'.val (f + (j : ℕ)) = mem.val (f + j)) ∧ m'.size = mem.size := by
  have h := Fft.WF.of_new hC hnew
  have hfld := Fft.new_fields hnew
  rw [h.visited_starts] at hr hh
  have hv := h.mem_starts.1 hr
  have hM : m * o.q = o.M := by rw [h.M_eq, hfld.2.1]
  refine Cmd.Ok.bind ((pad_ok h a).mono ?_)
  rintro _ m1 ⟨u1, p1⟩
  have a1 := a.size u1.size
  have u1' : mem.Upd m1 (o.TouchFW F W?) := u1.mono (by
    rintro p ⟨W, hW, hp⟩
    subst hW
    exact touch_of_reg h (Or.inr hp))
  refine Cmd.Ok.bind (seqLoop_list (fun _ m2 => mem.Upd m2 (o.TouchFW F W?) ∧ o.Padded m2 (W?.getD F)) ⟨u1', p1⟩ ?_ ?_)
  · rintro _ r' m2 hr' ⟨u2, p2⟩
    refine (forward_ok h how rfl ((a.size u2.size).pre h) p2 (h.mem_starts.1 (hh r' hr'))).mono ?_
    rintro _ m3 post
    exact ⟨u2.trans post.upd (fun _ h => h) (fun p hp => touch_of_reg h hp), post.pad⟩
  · rintro m2 ⟨u2, p2⟩
    refine (forward_ok h how rfl ((a.size u2.size).pre h) p2 hv).mono ?_
    rintro _ m3 post
    have u3 : mem.Upd m3 (o.TouchFW F W?) := u2.trans post.upd (fun _ h => h) (fun p hp => touch_of_reg h hp)
    refine ⟨?_, u3.frame, fun j => u3.frame _ (args_f_touch a), u3.size⟩
    intro i hi c hc
    rw [post.index h hv i hi c (by rw [hfld.2.2.1]; exact hc), hM, ← hfld.1]
    apply paddedDFT_ext
    intro j _
    exact u2.frame _ (args_f_touch a)

/-- **C09**, one call (with **C13**, **C18** for `backward`): `backward(F,f,r,W)` runs to completion without
out-of-bounds access or data race and sets (`r=0`) or increments (`r>0`) `f[S*j+c]` by the contribution
`Σ_i F[S*i+c] exp(-2πi j index(r,i)/N)` of block `r`.  Apart from `f[S*j+c]`, `c < C`, only words of `F` and `W` change. -/
theorem C09_backward_block {L M : ℕ} {app : App} {C S0 m D : ℕ} {inplace : Bool} (hC : 0 < C)
    (hnew : Fft.new L M app C S0 m D inplace = .ok o) (how : o.overwrite = false)
    {mem : Mem} {f F : Ptr} {W? : Option Ptr} (a : o.Args mem f F W?) {r : ℕ} (hr : r ∈ o.visited o.nloops 0) :
    (o.backward F f r W?).Ok mem fun _ m' =>
      (∀ j < L, ∀ c < C, m'.val (f + (o.S * j + c)) = (if r = 0 then 0 else mem.val (f + (o.S * j + c))) +
        ∑ i ∈ range (o.noutputs r), mem.val (F + (o.S * i + c)) * w (m * o.q) (-((j : ℤ) * (o.index r i : ℤ)))) ∧
      (∀ p, ¬ o.TouchFW F W? p → (∀ j < L, ∀ c < C, p ≠ f + (o.S * j + c)) → m'.val p = mem.val p) ∧ m'.size = mem.size := by
  have h := Fft.WF.of_new hC hnew
  have hfld := Fft.new_fields hnew
  rw [h.visited_starts] at hr
  have hv := h.mem_starts.1 hr
  have hM : m * o.q = o.M := by rw [h.M_eq, hfld.2.1]
  refine (backward_ok h how rfl (a.pre h) hv).mono ?_
  rintro _ m' post
  refine ⟨?_, ?_, post.upd.size⟩
  · rw [hM, ← hfld.1, ← hfld.2.2.1]
    exact post.index h hv
  · intro p hp hpf
    refine post.upd.frame p ?_
    rintro (⟨j, hj, c, hc, rfl⟩ | h2)
    · exact hpf j (by rw [← hfld.1]; exact hj) c (by rw [← hfld.2.2.1]; exact hc) rfl
    · exact hp (touch_of_reg h h2)

/-- **C09.** For every constructed noncentered transform (not overwriting), every input `f` and every initial contents of
the accumulation array `h` and of the buffers `F` and `W`: the loop over all residue blocks of `pad(W)`, `forward(f,F,r,W)`,
`backward(F,h,r,W)` runs to completion and leaves `h[S*j+c] = N f[S*j+c]` for all `j < L`, `c < C`, where `N=m*q` is
`normalization()`; `f` is unchanged. -/
theorem C09_roundtrip {L M : ℕ} {app : App} {C S0 m D : ℕ} {inplace : Bool} (hC : 0 < C)
    (hnew : Fft.new L M app C S0 m D inplace = .ok o) (how : o.overwrite = false)
    {mem : Mem} {f h F : Ptr} {W? : Option Ptr} (a : o.Args mem f F W?) (b : o.Args mem h F W?) (hfh : f.buf ≠ h.buf) :
    (seqLoop (o.visited o.nloops 0) fun r => do
        o.padW W?
        o.forward f F r W?
        o.backward F h r W?).Ok mem fun _ m' =>
      (∀ j < L, ∀ c < C, m'.val (h + (o.S * j + c)) = (m * o.q : ℕ) * mem.val (f + (o.S * j + c))) ∧
      (∀ j, m'.val (f + (j : ℕ)) = mem.val (f + j)) := by
  have hwf := Fft.WF.of_new hC hnew
  have hfld := Fft.new_fields hnew
  have hM : m * o.q = o.M := by rw [hwf.M_eq, hfld.2.1]
  have hM0 : o.M ≠ 0 := by have := hwf.M_pos; omega
  -- frequency content of copy c
  let X : ℕ → ℕ → ℂ := fun c j => mem.val (f + (o.S * j + c))
  let T : Ptr → Prop := fun p => o.TouchFW F W? p ∨ o.RegL h p
  have hfT : ∀ j : ℕ, ¬ T (f + j) := by
    rintro j (h1 | ⟨_, _, _, _, h1⟩)
    · exact args_f_touch a h1
    · exact hfh (by simpa using congrArg Ptr.buf h1)
  rw [hwf.visited_starts]
  -- the invariant needs to know that the loop starts at r=0 and that 0 is not visited again
  obtain ⟨t, _, _, hst⟩ := hwf.starts_eq
  have hnd := hwf.starts_nodup
  let I : List ℕ → Mem → Prop := fun done m1 => mem.Upd m1 T ∧ (done ≠ [] → ∀ j < o.L, ∀ c < o.C,
      m1.val (h + (o.S * j + c)) = (done.map fun r => ∑ i ∈ range (o.noutputs r),
        paddedDFT o.M o.L (X c) (o.index r i) * w o.M (-((j : ℤ) * (o.index r i : ℤ)))).sum)
  have step : ∀ (done : List ℕ) r m1, r ∈ o.starts → (done = [] → r = 0) → (done ≠ [] → r ≠ 0) → I done m1 →
      (do o.padW W?
          o.forward f F r W?
          o.backward F h r W? : Cmd Unit).Ok m1 (fun _ m' => I (done ++ [r]) m') := by
    rintro done r m1 hr hd0 hd1 ⟨u1, e1⟩
    have hv := hwf.mem_starts.1 hr
    refine Cmd.Ok.bind ((pad_ok hwf (a.size u1.size)).mono ?_)
    rintro _ m2 ⟨u2, p2⟩
    have hs2 := u2.size.trans u1.size
    refine Cmd.Ok.bind ((forward_ok hwf how rfl ((a.size hs2).pre hwf) p2 hv).mono ?_)
    rintro _ m3 post3
    have hs3 := post3.upd.size.trans hs2
    refine (backward_ok hwf how rfl ((b.size hs3).pre hwf) hv).mono ?_
    rintro _ m4 post4
    have t12 : m1.Upd m2 (o.TouchFW F W?) := u2.mono (by
      rintro p ⟨W, hW, hp⟩
      subst hW
      exact touch_of_reg hwf (Or.inr hp))
    have t13 : m1.Upd m3 (o.TouchFW F W?) := t12.trans post3.upd (fun _ h => h) (fun p hp => touch_of_reg hwf hp)
    have t14 : m1.Upd m4 T := t13.trans post4.upd (fun p hp => Or.inl hp) (by
      rintro p (hp | hp)
      · exact Or.inr hp
      · exact Or.inl (touch_of_reg hwf hp))
    refine ⟨u1.trans t14 (fun _ h => h) (fun _ h => h), ?_⟩
    intro _ j hj c hc
    rw [post4.index hwf hv j hj c hc, List.map_append, List.sum_append]
    have hx : ∀ i < o.noutputs r, m3.val (F + (o.S * i + c)) = paddedDFT o.M o.L (X c) (o.index r i) := by
      intro i hi
      rw [post3.index hwf hv i hi c hc]
      apply paddedDFT_ext
      intro j' _
      show m2.val _ = mem.val _
      rw [t12.frame _ (args_f_touch a), u1.frame _ (hfT _)]
    congr 1
    · by_cases hr0 : r = 0
      · rw [if_pos hr0]
        have : done = [] := by
          by_contra hne
          exact hd1 hne hr0
        rw [this]; simp
      · rw [if_neg hr0, t13.frame _ (args_f_touch b)]
        exact e1 (fun hd => hr0 (hd0 hd)) j hj c hc
    · simp only [List.map_cons, List.map_nil, List.sum_cons, List.sum_nil, add_zero]
      refine sum_congr rfl fun i hi => ?_
      rw [hx i (mem_range.1 hi)]
  rw [hst] at hnd ⊢
  have h0s : (0 : ℕ) ∈ o.starts := by rw [hst]; simp
  obtain ⟨_, m1, hm1, hI1⟩ := step [] 0 mem h0s (fun _ => rfl) (fun h => absurd rfl h) ⟨Mem.Upd.refl _ _, fun h => absurd rfl h⟩
  have hrest : (seqLoop ((List.range t).map fun k => o.increment 0 + k * o.dr) fun r => (do
        o.padW W?
        o.forward f F r W?
        o.backward F h r W?)).Ok m1 (fun _ m' => I ([0] ++ (List.range t).map fun k => o.increment 0 + k * o.dr) m') := by
    refine seqLoop_list (fun done m' => I ([0] ++ done) m') hI1 ?_ (fun _ h => h)
    intro l1 r m2 hr hI2
    have := step ([0] ++ l1) r m2 (by rw [hst]; exact List.mem_cons_of_mem _ hr) (fun hne => by simp at hne)
      (fun _ h0 => (List.nodup_cons.1 hnd).1 (h0 ▸ hr)) hI2
    rwa [List.append_assoc] at this
  obtain ⟨_, m2, hm2, hI2⟩ := hrest
  refine ⟨(), m2, ?_, ?_, ?_⟩
  · simp only [seqLoop, hm1]; exact hm2
  · intro j hj c hc
    have := hI2.2 (by simp) j (by rw [hfld.1]; exact hj) c (by rw [hfld.2.2.1]; exact hc)
    rw [this, show [0] ++ (List.range t).map (fun k => o.increment 0 + k * o.dr) = o.starts from hst.symm,
      hwf.sum_blocks (fun e => paddedDFT o.M o.L (X c) e * w o.M (-((j : ℤ) * e))),
      dft_inversion hM0 hwf.L_le_M _ (by rw [hfld.1]; exact hj), hM]
  · intro j
    exact hI2.1.frame _ (hfT j)

/-- Memory with `k` buffers of `n` words (for examples). -/
noncomputable def exMem (n : ℕ) : Mem := ⟨fun _ => n, fun _ => 1⟩

/-- The hypotheses of C08 and C09 are met by a concrete case: `L=5`, `M=9`, `m=4` (two blocks `p=2`, `q=3`), one copy,
out of place. -/
example : ∃ o, Fft.new 5 9 ⟨2, 1, true⟩ 1 1 4 1 false = .ok o ∧ o.overwrite = false ∧ 1 ∈ o.visited o.nloops 0 ∧
    o.Args (exMem 100) ⟨0, 0⟩ ⟨1, 0⟩ (some ⟨2, 0⟩) := by
  refine ⟨_, rfl, rfl, by decide, ?_⟩
  have hb : ∀ k n, n ≤ 100 → (exMem 100).block ⟨k, 0⟩ n := by
    intro k n hn i hi
    constructor
    · show (0 : ℤ) ≤ 0 + i
      omega
    · show (0 : ℤ) + i < (100 : ℕ)
      omega
  exact ⟨by simp, hb _ _ (by decide), hb _ _ (by decide), ⟨_, rfl, by simp, by simp, hb _ _ (by decide)⟩⟩

end Fft
end Fftwpp
