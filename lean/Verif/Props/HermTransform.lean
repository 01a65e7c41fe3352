import Verif.Proof.HDisp

/-! # C37: transforms of the Hermitian class -/

namespace Fftwpp
open Finset

/-- The documented way of calling `forward`/`backward` (tests/hybridh.cc): `f` is an array of `C*inputLength()` words, `F` one of
`outputSize()` words, and `W` is `NULL` for an in-place transform and otherwise an array of `workSizeW()` words; they are different arrays. -/
structure Herm.Args (o : Herm) (mem : Mem) (f F : Ptr) (W? : Option Ptr) : Prop where
  fF : f.buf ≠ F.buf
  bf : mem.block f (o.C * o.inputLength)
  bF : mem.block F o.outputSize
  bW : if o.inplace then W? = none else ∃ W, W? = some W ∧ W.buf ≠ F.buf ∧ W.buf ≠ f.buf ∧ mem.block W o.workSizeW

/-- The words `forward` may write: those of `F` and `W`. -/
def Herm.TouchFW (o : Herm) (F : Ptr) (W? : Option Ptr) (p : Ptr) : Prop :=
  (∃ i < o.outputSize, p = F + (i : ℕ)) ∨ ∃ W, W? = some W ∧ ∃ i < o.workSizeW, p = W + (i : ℕ)

/-- Number of residues treated by the call with argument `r`. -/
def Herm.residuesPerCall (o : Herm) (r : ℕ) : ℕ := if r = 0 then o.D0 else o.D

/-- What the constructor stores. -/
theorem Herm.new_fields {L M : ℕ} {app : App} {C m D : ℕ} {inplace : Bool} {al : ℕ} {J : Junk} {o : Herm}
    (h : Herm.new L M app C m D inplace al J = .ok o) :
    o.L = L ∧ o.m = m ∧ o.C = C ∧ (o.p, o.n, o.q) = parameters L M m true ∧ o.inplace = inplace ∧ o.A = app.A ∧ o.B = app.B ∧
    o.D = D ∧ L ≤ M ∧ 0 < L ∧ 0 < m := by
  unfold Herm.new at h
  generalize hpar : parameters L M m true = x at h ⊢
  obtain ⟨p, n, q⟩ := x
  simp only at h ⊢
  split_ifs at h with h1 h2 h3 h4 h5
  · simp only [Except.ok.injEq] at h
    subst h
    simp [Herm.newExplicit, h5]; omega
  · simp only [Except.ok.injEq] at h
    subst h
    simp [Herm.newHybrid]; omega

namespace Herm
variable {o : Herm} {mem : Mem} {f F : Ptr} {W? : Option Ptr} {r : ℕ}

theorem Args.size {m' : Mem} (a : o.Args mem f F W?) (hs : m'.size = mem.size) : o.Args m' f F W? := by
  have hb : ∀ p n, mem.block p n → m'.block p n := fun p n hp i hi => Mem.valid_of_size hs (hp i hi)
  refine ⟨a.fF, hb _ _ a.bf, hb _ _ a.bF, ?_⟩
  have hW := a.bW
  split_ifs at hW ⊢
  · exact hW
  · obtain ⟨W, h1, h2, h3, h4⟩ := hW
    exact ⟨W, h1, h2, h3, hb _ _ h4⟩

theorem WF.nd_eq (h : o.WF) (hr : o.Visit r) : o.residuesPerCall r = o.nd r := by
  unfold residuesPerCall nd
  split_ifs with h0
  · rfl
  · rcases h.cases with h3 | h3
    · exact absurd (hr.q1 h3.1) h0
    · exact h3.2.1

theorem Args.pre (h : o.WF) (hD : 0 < o.D) (a : o.Args mem f F W?) (hr : o.Visit r) : o.Pre mem f F (W?.getD F) r := by
  have hnd := h.nd_D hD r hr
  have hb : o.b * o.nd r ≤ o.b * o.D := Nat.mul_le_mul_left _ hnd
  have hB : o.Bw * o.nd r ≤ o.Bw * o.D := Nat.mul_le_mul_left _ hnd
  have hf : ∀ j < o.H, ∀ c < o.C, mem.valid (f + (o.C * j + c)) := fun j hj c hc => a.bf _ (radix_lt hc hj)
  have hF : ∀ i < o.b * o.nd r, mem.valid (F + i) := fun i hi => a.bF _ (lt_of_lt_of_le hi hb)
  have hW := a.bW
  by_cases hi : o.inplace = true
  · rw [if_pos hi] at hW
    subst hW
    refine ⟨a.fF, a.fF, Or.inl ⟨hi, rfl⟩, hf, hF, ?_⟩
    rw [← h.b_Bw hi]; exact hF
  · rw [if_neg hi] at hW
    obtain ⟨W, rfl, h1, h2, h3⟩ := hW
    refine ⟨a.fF, h2.symm, Or.inr ⟨by simpa using hi, h1⟩, hf, hF, fun i hi' => h3 _ ?_⟩
    unfold workSizeW
    rw [if_neg hi]; omega

theorem touch (h : o.WF) (hD : 0 < o.D) (a : o.Args mem f F W?) (hr : o.Visit r) {p : Ptr}
    (hp : InArr F (o.b * o.nd r) p ∨ InArr (W?.getD F) (o.Bw * o.nd r) p) : o.TouchFW F W? p := by
  have hnd := h.nd_D hD r hr
  have hb : o.b * o.nd r ≤ o.b * o.D := Nat.mul_le_mul_left _ hnd
  have hB : o.Bw * o.nd r ≤ o.Bw * o.D := Nat.mul_le_mul_left _ hnd
  rcases hp with ⟨i, hi, rfl⟩ | ⟨i, hi, rfl⟩
  · exact Or.inl ⟨i, lt_of_lt_of_le hi hb, rfl⟩
  · have hW := a.bW
    by_cases hi' : o.inplace = true
    · rw [if_pos hi'] at hW
      subst hW
      rw [← h.b_Bw hi'] at hi
      exact Or.inl ⟨i, lt_of_lt_of_le hi hb, rfl⟩
    · rw [if_neg hi'] at hW
      obtain ⟨W, rfl, _⟩ := hW
      refine Or.inr ⟨W, rfl, i, ?_, rfl⟩
      unfold workSizeW
      rw [if_neg hi']; omega

theorem touch_f (a : o.Args mem f F W?) {j : ℕ} : ¬ o.TouchFW F W? (f + j) := by
  rintro (⟨i, _, h3⟩ | ⟨W, h3, i, _, h4⟩)
  · exact a.fF (by simpa using congrArg Ptr.buf h3)
  · have hW := a.bW
    split_ifs at hW
    · rw [hW] at h3; simp at h3
    · obtain ⟨W', h5, _, h6, _⟩ := hW
      rw [h3] at h5
      simp only [Option.some.injEq] at h5
      subst h5
      exact h6 (by simpa using (congrArg Ptr.buf h4).symm)

theorem hdft_congr {N H : ℕ} {x : ℕ → ℂ} {k k' : ℤ} (h : (N : ℤ) ∣ k - k') : hdft N H x k = hdft N H x k' := by
  obtain ⟨t, ht⟩ := h
  have hk : k = k' + N * t := by rw [← ht]; ring
  unfold hdft
  congr 1
  · refine sum_congr rfl fun j _ => ?_
    congr 1
    refine w_congr ⟨j * t, ?_⟩
    rw [hk]; ring
  · refine sum_congr rfl fun j _ => ?_
    congr 1
    refine w_congr ⟨-(j * t), ?_⟩
    rw [hk]; ring

theorem WF.blocksize_eq (_h : o.WF) (r : ℕ) : o.blocksize r = o.m * o.P := rfl

theorem WF.mem_visited (h : o.WF) (hr : r ∈ o.visited o.nloops 0) : o.Visit r := by
  rw [h.nloops_eq, h.visited_eq _ _ (by omega)] at hr
  exact h.visit (mem_rng.1 hr).2

theorem WF.visited_mem (h : o.WF) (hr : r < o.R) : r ∈ o.visited o.nloops 0 := by
  rw [h.nloops_eq, h.visited_eq _ _ (by omega)]
  exact mem_rng.2 ⟨Nat.zero_le _, hr⟩

/-- **C37**, forward transform.  For every constructed Hermitian transform, every input whose element 0 is real in each copy, and every initial
contents of `F` and `W`, `forward(f,F,r,W)` runs to completion without out-of-bounds access or data race; afterwards real number `C*i+c`,
`i < blocksize(r)`, `c < C`, of residue block `d` (which starts at `F+b*d`) is the DFT of length `N=m*q` of the Hermitian sequence given by copy `c` of
`f`, at the frequency `index(r,noutputs(0)*d+i)`.  Only words of `F` and `W` are changed. -/
theorem C37_forward {L M : ℕ} {app : App} {C m D : ℕ} {inplace : Bool} {al : ℕ} {J : Junk} (hC : 0 < C) (hal : 0 < al) (hD : 0 < D)
    (hnew : Herm.new L M app C m D inplace al J = .ok o) (a : o.Args mem f F W?) (hr : r ∈ o.visited o.nloops 0) :
    (o.forward f F r W?).Ok mem fun _ m' =>
      (∀ d < o.residuesPerCall r, ∀ i < o.blocksize r, ∀ c < C, (mem.val (f + c)).im = 0 →
        ((m'.dbl (F + o.b * d) (C * i + c) : ℝ) : ℂ) =
          hdft (m * o.q) (ceilquotient L 2) (fun j => mem.val (f + (C * j + c))) (o.index r (o.noutputs 0 * d + i))) ∧
      (∀ p, ¬ o.TouchFW F W? p → m'.val p = mem.val p) ∧ (∀ j, m'.val (f + (j : ℕ)) = mem.val (f + j)) ∧ m'.size = mem.size := by
  have h := Herm.WF.of_new hC hal hnew
  obtain ⟨hL, hm, hCC, _, _, _, _, hDD, _⟩ := Herm.new_fields hnew
  subst hL hm hCC hDD
  have hv := h.mem_visited hr
  refine (forward_ok h rfl (a.pre h hD hv) hv).mono ?_
  rintro _ m' ⟨u, e⟩
  refine ⟨?_, fun p hp => u.frame p fun hp' => hp (touch h hD a hv hp'), fun j => u.frame _ fun hp' => touch_f a (touch h hD a hv hp'), u.size⟩
  intro d hd i hi c hc h0
  rw [h.nd_eq hv] at hd
  rw [h.blocksize_eq] at hi
  have hl := Nat.mod_lt i h.m_pos
  have hu := Nat.div_lt_of_lt_mul hi
  have := e d hd (i / o.m) hu (i % o.m) hl c hc h0
  rw [Nat.div_add_mod] at this
  rw [this, ← h.M_eq]
  refine (hdft_congr ?_).symm
  have := h.index_dvd hv hd hu hl
  rw [Nat.div_add_mod] at this
  rw [show o.noutputs 0 = o.P * o.m from Nat.mul_comm _ _]
  exact this

theorem sum_block (h : o.WF) (hv : o.Visit r) {g : ℕ → ℂ} {k : ℤ} {d : ℕ} (hd : d < o.nd r) :
    ∑ u ∈ range o.P, ∑ l ∈ range o.m, g (o.m * u + l) * w o.M (-(k * (o.q * l + (o.n * u + o.kd r d)))) =
      ∑ i ∈ range (o.blocksize r), g i * w o.M (-(k * (o.index r (o.noutputs 0 * d + i) : ℤ))) := by
  rw [h.blocksize_eq, sum_split, sum_comm]
  refine sum_congr rfl fun l hl => sum_congr rfl fun u hu => ?_
  rw [Nat.add_comm l]
  congr 1
  refine w_congr ?_
  obtain ⟨t, ht⟩ := h.index_dvd hv hd (mem_range.1 hu) (mem_range.1 hl)
  refine ⟨k * t, ?_⟩
  rw [show o.noutputs 0 = o.P * o.m from Nat.mul_comm _ _, mul_left_comm, ← ht]
  ring

/-- **C37**, one call of `backward`: it sets (`r=0`) or increments (`r>0`) `f[C*j+c]` by the contribution
`Σ_d Σ_i F_d[C*i+c] exp(-2πi j index(r,noutputs(0)*d+i)/N)` of the residue blocks `d`, where `F_d[k]` is real number `k` of the block at `F+b*d`. -/
theorem C37_backward_block {L M : ℕ} {app : App} {C m D : ℕ} {inplace : Bool} {al : ℕ} {J : Junk} (hC : 0 < C) (hal : 0 < al) (hD : 0 < D)
    (hnew : Herm.new L M app C m D inplace al J = .ok o) (a : o.Args mem f F W?) (hr : r ∈ o.visited o.nloops 0) :
    (o.backward F f r W?).Ok mem fun _ m' =>
      (∀ j < ceilquotient L 2, ∀ c < C, m'.val (f + (C * j + c)) = (if r = 0 then 0 else mem.val (f + (C * j + c))) +
        ∑ d ∈ range (o.residuesPerCall r), ∑ i ∈ range (o.blocksize r), ((mem.dbl (F + o.b * d) (C * i + c) : ℝ) : ℂ) *
          w (m * o.q) (-((j : ℤ) * (o.index r (o.noutputs 0 * d + i) : ℤ)))) ∧
      (∀ p, ¬ o.TouchFW F W? p → (∀ j < ceilquotient L 2, ∀ c < C, p ≠ f + (C * j + c)) → m'.val p = mem.val p) ∧ m'.size = mem.size := by
  have h := Herm.WF.of_new hC hal hnew
  obtain ⟨hL, hm, hCC, _, _, _, _, hDD, _⟩ := Herm.new_fields hnew
  subst hL hm hCC hDD
  have hv := h.mem_visited hr
  refine (backward_ok h rfl (a.pre h hD hv) hv).mono ?_
  rintro _ m' ⟨u, e⟩
  rw [h.nd_eq hv, ← h.M_eq]
  refine ⟨?_, fun p hp hpf => u.frame p ?_, u.size⟩
  · intro j hj c hc
    rw [e j hj c hc]
    congr 1
    refine sum_congr rfl fun d hd => ?_
    exact sum_block h hv (g := fun i => ((mem.dbl (F + o.b * d) (o.C * i + c) : ℝ) : ℂ)) (mem_range.1 hd)
  · rintro (⟨i, hi, rfl⟩ | hp')
    · refine hpf (i / o.C) (Nat.div_lt_of_lt_mul hi) (i % o.C) (Nat.mod_lt _ hC) ?_
      rw [Nat.div_add_mod]
    · exact hp (touch h hD a hv hp')

/-- **C37**, round trip: the loop over all residues of `forward(f,F,r,W)`, `backward(F,h,r,W)` runs to completion and leaves
`h[C*j+c] = N f[C*j+c]`, whatever was in `h`, `F` and `W`; `f` is unchanged. -/
theorem C37_roundtrip {L M : ℕ} {app : App} {C m D : ℕ} {inplace : Bool} {al : ℕ} {J : Junk} (hC : 0 < C) (hal : 0 < al) (hD : 0 < D)
    (hnew : Herm.new L M app C m D inplace al J = .ok o) {g : Ptr} (a : o.Args mem f F W?) (b : o.Args mem g F W?) (hfg : f.buf ≠ g.buf)
    (h0 : ∀ c < C, (mem.val (f + c)).im = 0) :
    (seqLoop (o.visited o.nloops 0) fun r => do
        o.forward f F r W?
        o.backward F g r W?).Ok mem fun _ m' =>
      (∀ j < ceilquotient L 2, ∀ c < C, m'.val (g + (C * j + c)) = (m * o.q : ℕ) * mem.val (f + (C * j + c))) ∧
      (∀ j, m'.val (f + (j : ℕ)) = mem.val (f + j)) := by
  have hwf := Herm.WF.of_new hC hal hnew
  have hnf := Herm.new_fields hnew
  have hvs : o.visited o.nloops 0 = rng 0 o.R := by rw [hwf.nloops_eq, hwf.visited_eq _ _ (by omega)]
  let X : ℕ → ℕ → ℂ := fun c j => mem.val (f + (C * j + c))
  let T : Ptr → Prop := fun p => o.TouchFW F W? p ∨ ∃ j < ceilquotient L 2, ∃ c < C, p = g + (C * j + c)
  have hfT : ∀ j : ℕ, ¬ T (f + j) := by
    rintro j (h1 | ⟨_, _, _, _, h1⟩)
    · exact touch_f a h1
    · exact hfg (by simpa using congrArg Ptr.buf h1)
  let S : ℕ → ℕ → ℕ → ℂ := fun r c j => ∑ d ∈ range (o.residuesPerCall r), ∑ i ∈ range (o.blocksize r),
    hdft (m * o.q) (ceilquotient L 2) (X c) (o.index r (o.noutputs 0 * d + i)) * w (m * o.q) (-((j : ℤ) * (o.index r (o.noutputs 0 * d + i) : ℤ)))
  have key : (seqLoop (rng 0 o.R) fun r => do
        o.forward f F r W?
        o.backward F g r W?).Ok mem fun _ m' => mem.Upd m' T ∧ (0 < o.R → ∀ j < ceilquotient L 2, ∀ c < C,
          m'.val (g + (C * j + c)) = ∑ r ∈ range o.R, S r c j) := by
    refine Fft.seqLoop_rng (fun k m1 => mem.Upd m1 T ∧ (0 < k → ∀ j < ceilquotient L 2, ∀ c < C,
          m1.val (g + (C * j + c)) = ∑ r ∈ range k, S r c j)) ⟨Mem.Upd.refl _ _, fun h => absurd h (by omega)⟩ ?_ ?_
    · rintro r m1 hr ⟨u1, e1⟩
      have hr' : r ∈ o.visited o.nloops 0 := by rw [hvs]; exact mem_rng.2 ⟨Nat.zero_le _, hr⟩
      refine Cmd.Ok.bind ((C37_forward hC hal hD hnew (a.size u1.size) hr').mono ?_)
      rintro _ m2 ⟨e2, fr2, ff2, s2⟩
      refine (C37_backward_block hC hal hD hnew (b.size (s2.trans u1.size)) hr').mono ?_
      rintro _ m3 ⟨e3, fr3, s3⟩
      have u13 : m1.Upd m3 T := by
        refine ⟨s3.trans s2, fun p hp => ?_⟩
        rw [fr3 p (fun hp' => hp (Or.inl hp')) (fun j hj c hc he => hp (Or.inr ⟨j, hj, c, hc, he⟩)), fr2 p (fun hp' => hp (Or.inl hp'))]
      refine ⟨u1.trans u13 (fun _ h => h) (fun _ h => h), ?_⟩
      intro _ j hj c hc
      rw [e3 j hj c hc, Finset.sum_range_succ]
      congr 1
      · by_cases hr0 : r = 0
        · rw [if_pos hr0, hr0]; simp
        · rw [if_neg hr0, fr2 _ (touch_f b)]
          exact e1 (by omega) j hj c hc
      · refine sum_congr rfl fun d hd => sum_congr rfl fun i hi => ?_
        rw [e2 d (mem_range.1 hd) i (mem_range.1 hi) c hc (by rw [u1.frame _ (hfT _)]; exact h0 c hc)]
        congr 2
        funext j'
        exact u1.frame _ (hfT _)
    · exact fun m' h => h
  rw [hvs]
  refine key.mono ?_
  rintro _ m' ⟨u, e⟩
  refine ⟨?_, fun j => u.frame _ (hfT j)⟩
  intro j hj c hc
  rw [e hwf.R_pos j hj c hc]
  obtain ⟨hL, hm, hCC, _, _, _, _, hDD, _⟩ := hnf
  have hM : m * o.q = o.M := by rw [hwf.M_eq, hm]
  have hH : ceilquotient L 2 = o.H := by rw [← hL]; rfl
  have hHf := hwf.H_facts
  have hLM := hwf.L_le_M
  rw [hM, ← hdft_inversion hHf.1 (by omega) (X c) (by rw [← hH]; exact hj),
    ← hwf.sum_freq (g := fun k => hdft o.M o.H (X c) k * w o.M (-((j : ℤ) * k)))]
  · refine sum_congr rfl fun r hr => ?_
    have hv := hwf.visit (mem_range.1 hr)
    show ∑ d ∈ range (o.residuesPerCall r), _ = _
    rw [hwf.nd_eq hv, hM, hH]
    refine sum_congr rfl fun d hd => ?_
    rw [hwf.blocksize_eq, sum_split, sum_comm]
    refine sum_congr rfl fun u hu => sum_congr rfl fun l hl => ?_
    have hd' := hwf.index_dvd hv (mem_range.1 hd) (mem_range.1 hu) (mem_range.1 hl)
    rw [show o.noutputs 0 = o.P * o.m from Nat.mul_comm _ _, Nat.add_comm l]
    congr 1
    · exact hdft_congr hd'
    · obtain ⟨t, ht⟩ := hd'
      refine w_congr ⟨-((j : ℤ) * t), ?_⟩
      rw [mul_neg, mul_left_comm, ← ht]; ring
  · intro x y hxy
    congr 1
    · exact hdft_congr hxy
    · obtain ⟨t, ht⟩ := hxy
      refine w_congr ⟨-((j : ℤ) * t), ?_⟩
      rw [mul_neg, mul_left_comm, ← ht]; ring

/-- The transform is real. -/
theorem C37_real {N H : ℕ} {x : ℕ → ℂ} (h0 : (x 0).im = 0) (k : ℤ) : (hdft N H x k).im = 0 := hdft_real h0 k

/-- The hypotheses are met by concrete cases, with `p=2` and three copies, `p=4`, and explicit padding of odd size. -/
example (J : Junk) : (∃ o, Herm.new 7 12 ⟨2, 1, true⟩ 3 4 2 false 16 J = .ok o ∧ o.p = 2 ∧ 1 ∈ o.visited o.nloops 0 ∧ o.residuesPerCall 1 = 2 ∧
      o.Args (Fft.exMem 100) ⟨0, 0⟩ ⟨1, 0⟩ (some ⟨2, 0⟩) ∧ o.Args (Fft.exMem 100) ⟨3, 0⟩ ⟨1, 0⟩ (some ⟨2, 0⟩)) ∧
    (∃ o, Herm.new 13 24 ⟨2, 1, true⟩ 1 4 2 true 16 J = .ok o ∧ o.p = 4 ∧ 1 ∈ o.visited o.nloops 0 ∧
      o.Args (Fft.exMem 100) ⟨0, 0⟩ ⟨1, 0⟩ none) ∧
    (∃ o, Herm.new 5 7 ⟨2, 1, true⟩ 2 7 1 true 16 J = .ok o ∧ o.q = 1 ∧ 0 ∈ o.visited o.nloops 0 ∧
      o.Args (Fft.exMem 100) ⟨0, 0⟩ ⟨1, 0⟩ none) ∧ (∀ c < 3, ((Fft.exMem 100).val ((⟨0, 0⟩ : Ptr) + c)).im = 0) := by
  have hb : ∀ k n, n ≤ 100 → (Fft.exMem 100).block ⟨k, 0⟩ n := by
    intro k n hn i hi
    constructor
    · show (0 : ℤ) ≤ 0 + i
      omega
    · show (0 : ℤ) + i < (100 : ℕ)
      omega
  refine ⟨⟨_, rfl, rfl, (WF.of_new (by decide) (by decide) (rfl : Herm.new 7 12 ⟨2, 1, true⟩ 3 4 2 false 16 J = .ok _)).visited_mem (Nat.le_of_ble_eq_true rfl), rfl, ?_, ?_⟩,
    ⟨_, rfl, rfl, (WF.of_new (by decide) (by decide) (rfl : Herm.new 13 24 ⟨2, 1, true⟩ 1 4 2 true 16 J = .ok _)).visited_mem (Nat.le_of_ble_eq_true rfl), ?_⟩,
    ⟨_, rfl, rfl, (WF.of_new (by decide) (by decide) (rfl : Herm.new 5 7 ⟨2, 1, true⟩ 2 7 1 true 16 J = .ok _)).visited_mem (Nat.le_of_ble_eq_true rfl), ?_⟩, ?_⟩
  · refine ⟨by simp, hb _ _ ?_, hb _ _ ?_, ⟨_, rfl, by simp, by simp, hb _ _ ?_⟩⟩ <;> simp [inputLength, newHybrid, newExplicit, Fft.outputSize, workSizeW, align, ceilquotient]
  · refine ⟨by simp, hb _ _ ?_, hb _ _ ?_, ⟨_, rfl, by simp, by simp, hb _ _ ?_⟩⟩ <;> simp [inputLength, newHybrid, newExplicit, Fft.outputSize, workSizeW, align, ceilquotient]
  · refine ⟨by simp, hb _ _ ?_, hb _ _ ?_, rfl⟩ <;> simp [inputLength, newHybrid, newExplicit, Fft.outputSize, workSizeW, align, ceilquotient]
  · refine ⟨by simp, hb _ _ ?_, hb _ _ ?_, rfl⟩ <;> simp [inputLength, newHybrid, newExplicit, Fft.outputSize, workSizeW, align, ceilquotient]
  · intro c _; simp [Fft.exMem]

end Herm
end Fftwpp
