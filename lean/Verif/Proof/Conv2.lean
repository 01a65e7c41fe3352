import Verif.Proof.Conv

/-! `Convolution`: the state of an object between calls, one call of `convolve`. -/

namespace Fftwpp
open Finset

namespace Conv

/-- The value of the condition of `backwardPad`. -/
def rp (c : Conv) : Bool := decide (c.W ≠ none ∧ c.W = c.W0 ∧ c.padOn)

/-- `V` is used. -/
def UsesV (c : Conv) : Prop := c.fft.q ≠ 1 ∧ 1 < c.fft.nloops ∧ c.fft.loop2 = false

/-- The state of a `Convolution` object between calls. -/
structure Ready (c : Conv) (padded : Mem → Ptr → Prop) (mem : Mem) : Prop where
  work : c.fft.Work mem c.F (max c.fft.A c.fft.B) c.W
  pd : FftBase.Pd padded c.W mem
  bw : c.fft.q ≠ 1 → c.fft.loop2 = false → c.fft.BackW c.F c.W c.W0 c.rp
  l2 : c.fft.q ≠ 1 → c.fft.loop2 = true → c.W0 = c.W ∧ c.rp = c.W.isSome ∧ c.fft.A ≤ c.Fp.n ∧
    ∀ i < c.fft.A, c.Fp.at_ i = if i < c.fft.A - c.fft.B then c.F.at_ (c.fft.B + i) else c.F.at_ (i - (c.fft.A - c.fft.B))
  V : c.UsesV → c.fft.Dat mem c.V 0 c.fft.B c.F (max c.fft.A c.fft.B) c.W ∧ c.fft.Apart c.V 0 c.fft.B

/-- The arguments of `convolve`: `max(A,B)` distinct data blocks, not in the work arrays. -/
structure Inputs (c : Conv) (mem : Mem) (g : PtrArr) : Prop where
  dat : c.fft.Dat mem g 0 (max c.fft.A c.fft.B) c.F (max c.fft.A c.fft.B) c.W
  apart : c.fft.Apart g 0 (max c.fft.A c.fft.B)
  V : c.UsesV → ∀ a < max c.fft.A c.fft.B, ∀ b < c.fft.B, (g.at_ a).buf ≠ (c.V.at_ b).buf
  ow : c.fft.overwrite = true → ∀ a < c.fft.A, ∀ a' < c.fft.A, a ≠ a' → (g.at_ a).buf ≠ (g.at_ a').buf

/-- The words of the work arrays of the object. -/
def WorkWord (c : Conv) (p : Ptr) : Prop :=
  (∃ a < max c.fft.A c.fft.B, InArr (c.F.at_ a) c.fft.outputSize p) ∨ c.fft.InW c.W p ∨
    c.UsesV ∧ ∃ b < c.fft.B, c.fft.Data (c.V.at_ b) p

variable {c : Conv} {x0 : ℤ} {padded : Mem → Ptr → Prop} {K : ℕ → ℕ}

theorem Ptr.add0 (p : Ptr) : p + 0 = p := by ext <;> simp

theorem Inputs.size {mem m' : Mem} {g : PtrArr} (h : c.Inputs mem g) (hs : m'.size = mem.size) : c.Inputs m' g :=
  ⟨h.dat.size hs, h.apart, h.V, h.ow⟩

theorem Ready.size {mem m' : Mem} (h : c.Ready padded mem) (hs : m'.size = mem.size) (hp : FftBase.Pd padded c.W m') :
    c.Ready padded m' :=
  ⟨h.work.size hs, hp, h.bw, h.l2, fun hu => ⟨(h.V hu).1.size hs, (h.V hu).2⟩⟩

/-- Writes outside `W` keep the object ready. -/
theorem Ready.frame (hsp : c.fft.Spec x0 padded) {mem m' : Mem} (h : c.Ready padded mem) {R : Ptr → Prop} (u : mem.Upd m' R)
    (hR : ∀ p, R p → ¬ c.fft.InW c.W p) : c.Ready padded m' := by
  refine h.size u.size ?_
  intro W hW
  refine hsp.pad_frame ?_ (h.pd W hW)
  intro i hi
  refine u.frame _ fun hp => hR _ hp ⟨W, hW, i, hi, rfl⟩

/-- A loop copying or scaling `L` words. -/
theorem map_loop {L : ℕ} {dst src : Ptr} {body : ℕ → Body Unit} {v : ℕ → ℂ → ℂ} {mem : Mem}
    (hg : ∀ i < L, ∀ m : Mem, m.size = mem.size → (body i).Good m)
    (hw : ∀ i < L, ∀ m : Mem, (body i).wrs m = [(dst + i, v i (m.val (src + i)))])
    (hsd : dst = src ∨ ∀ i < L, ∀ j < L, src + i ≠ dst + j) :
    (seqLoop (rng 0 L) fun i => (body i).run).Ok mem fun _ m' => mem.Upd m' (InArr dst L) ∧
      ∀ i < L, m'.val (dst + i) = v i (mem.val (src + i)) := by
  have hne : ∀ i j : ℕ, i ≠ j → ∀ p : Ptr, p + i ≠ p + j := by
    intro i j hij p e
    have : p.off + (i : ℤ) = p.off + (j : ℤ) := by simpa using congrArg Ptr.off e
    omega
  refine Fft.seqLoop_rng (fun k m1 => mem.Upd m1 (InArr dst L) ∧ (∀ i < k, m1.val (dst + i) = v i (mem.val (src + i))) ∧
    ∀ i < L, k ≤ i → m1.val (src + i) = mem.val (src + i)) ⟨Mem.Upd.refl _ _, fun _ h => absurd h (by omega), fun _ _ _ => rfl⟩ ?_ ?_
  · rintro k m1 hk ⟨u1, e1, s1⟩
    refine run_map1 _ _ (hg k hk m1 u1.size) (hw k hk m1) ?_
    intro m2 u2 e2
    refine ⟨u1.trans u2 (fun _ h => h) (fun p hp => ⟨k, hk, hp⟩), ?_, ?_⟩
    · intro i hi
      by_cases hik : i = k
      · subst hik; rw [e2, s1 i hk le_rfl]
      · rw [u2.frame _ (hne i k hik dst), e1 i (by omega)]
    · intro i hi hki
      rw [u2.frame, s1 i hi (by omega)]
      rcases hsd with rfl | hsd
      · exact hne i k (by omega) _
      · exact hsd i hi k hk
  · rintro m ⟨u, e, _⟩
    exact ⟨u, e⟩

theorem flat_data {o : FftBase} (fl : o.Flat K) {f p : Ptr} : o.Data f p ↔ InArr f o.L p := by
  unfold FftBase.Data InArr
  rw [fl.C, fl.S]
  simp only [fl.col]
  constructor
  · rintro ⟨j, hj, c, hc, rfl⟩
    exact ⟨j, hj, by rw [Nat.one_mul]; congr 1; omega⟩
  · rintro ⟨j, hj, rfl⟩
    exact ⟨j, hj, 0, by omega, by rw [Nat.one_mul]; simp⟩

/-- Copying the results back. -/
theorem copyBack_ok {o : FftBase} (fl : o.Flat K) {mem : Mem} {g h : PtrArr} (hgn : o.B ≤ g.n) (hhn : o.B ≤ h.n)
    (hbg : ∀ b < o.B, mem.block (g.at_ b) o.L) (hbh : ∀ b < o.B, mem.block (h.at_ b) o.L)
    (hgh : ∀ b < o.B, ∀ b' < o.B, (g.at_ b).buf ≠ (h.at_ b').buf)
    (hap : ∀ b < o.B, ∀ b' < o.B, b ≠ b' → ∀ p, InArr (g.at_ b) o.L p → ¬ InArr (g.at_ b') o.L p) :
    (copyBack o.L o.B g h).Ok mem fun _ m' => mem.Upd m' (fun p => ∃ b < o.B, InArr (g.at_ b) o.L p) ∧
      ∀ b < o.B, ∀ j < o.L, m'.val (g.at_ b + j) = mem.val (h.at_ b + j) := by
  unfold copyBack
  refine Fft.seqLoop_rng (fun k m1 => mem.Upd m1 (fun p => ∃ b < o.B, InArr (g.at_ b) o.L p) ∧
    ∀ b < k, ∀ j < o.L, m1.val (g.at_ b + j) = mem.val (h.at_ b + j)) ⟨Mem.Upd.refl _ _, fun _ h => absurd h (by omega)⟩ ?_
    (fun _ h => h)
  rintro k m1 hk ⟨u1, e1⟩
  rw [PtrArr.get_bind (by omega), PtrArr.get_bind (by omega)]
  have hsd : ∀ i j : ℕ, h.at_ k + i ≠ g.at_ k + j := fun i j e => hgh k hk k hk (by simpa using (congrArg Ptr.buf e).symm)
  refine (map_loop (dst := g.at_ k) (src := h.at_ k) (v := fun _ x => x) ?_ ?_ (Or.inr fun i _ j _ => hsd i j)).mono ?_
  · intro i hi m hs
    have hs := hs.trans u1.size
    unfold Fft.copy1
    body_simp
    exact ⟨Mem.valid_of_size hs (hbh k hk i hi), Mem.valid_of_size hs (hbg k hk i hi)⟩
  · intro i hi m
    unfold Fft.copy1
    body_simp
  rintro _ m2 ⟨u2, e2⟩
  refine ⟨u1.trans u2 (fun _ h => h) (fun p hp => ⟨k, hk, hp⟩), ?_⟩
  intro b hb j hj
  by_cases hbk : b = k
  · subst hbk
    rw [e2 j hj, u1.frame]
    rintro ⟨b', hb', hp⟩
    exact hgh b' hb' b hk (by simpa using (FftBase.inArr_buf hp).symm)
  · rw [u2.frame, e1 b (by omega) j hj]
    exact hap b (by omega) k hk hbk _ ⟨j, hj, rfl⟩

/-- `normalize`. -/
theorem normalize_ok {o : FftBase} (hco : c.fft = o) (fl : o.Flat K) {mem : Mem} {g : PtrArr} {offset : ℕ} (hgn : o.B ≤ g.n)
    (hbg : ∀ b < o.B, mem.block (g.at_ b + offset) o.L)
    (hap : ∀ b < o.B, ∀ b' < o.B, b ≠ b' → ∀ p, InArr (g.at_ b + offset) o.L p → ¬ InArr (g.at_ b' + offset) o.L p) :
    (c.normalize g offset).Ok mem fun _ m' => mem.Upd m' (fun p => ∃ b < o.B, InArr (g.at_ b + offset) o.L p) ∧
      ∀ b < o.B, ∀ j < o.L, m'.val (g.at_ b + offset + j) = mem.val (g.at_ b + offset + j) * (1 / (o.N : ℂ)) := by
  unfold normalize
  rw [hco]
  refine Fft.seqLoop_rng (fun k m1 => mem.Upd m1 (fun p => ∃ b < k, InArr (g.at_ b + offset) o.L p) ∧
    ∀ b < k, ∀ j < o.L, m1.val (g.at_ b + offset + j) = mem.val (g.at_ b + offset + j) * (1 / (o.N : ℂ)))
    ⟨Mem.Upd.refl _ _, fun _ h => absurd h (by omega)⟩ ?_ (fun _ h => h)
  rintro k m1 hk ⟨u1, e1⟩
  rw [PtrArr.get_bind (by omega)]
  refine (map_loop (dst := g.at_ k + offset) (src := g.at_ k + offset) (v := fun _ x => x * (1 / (o.N : ℂ))) ?_ ?_ (Or.inl rfl)).mono ?_
  · intro i hi m hs
    have hs := hs.trans u1.size
    body_simp
    have hv : m.valid (g.at_ k + (offset + i)) := by
      have := Mem.valid_of_size hs (hbg k hk i hi)
      have e : g.at_ k + (offset + i) = g.at_ k + offset + i := by ext <;> simp; ring
      rw [e]; exact this
    exact ⟨hv, hv⟩
  · intro i hi m
    body_simp
  rintro _ m2 ⟨u2, e2⟩
  refine ⟨u1.trans u2 (fun p ⟨b, hb, hp⟩ => ⟨b, by omega, hp⟩) (fun p hp => ⟨k, by omega, hp⟩), ?_⟩
  intro b hb j hj
  by_cases hbk : b = k
  · subst hbk
    rw [e2 j hj, u1.frame]
    rintro ⟨b', hb', hp⟩
    exact hap b hk b' (by omega) (by omega) _ ⟨j, hj, rfl⟩ hp
  · rw [u2.frame, e1 b (by omega) j hj]
    exact hap b (by omega) k hk hbk _ ⟨j, hj, rfl⟩

/-- What one call of `convolveRaw` does. -/
def RawPost (c : Conv) (x0 : ℤ) (padded : Mem → Ptr → Prop) (φ : List ℕ → ℕ → (ℕ → ℂ) → ℂ) (idx : List ℕ) (g : PtrArr) (mem m' : Mem) : Prop :=
  mem.Upd m' (fun p => c.WorkWord p ∨ ∃ b < c.fft.outs, c.fft.Data (g.at_ b) p) ∧ c.Ready padded m' ∧
    ∀ b < c.fft.B, ∀ j < c.fft.L, m'.val (g.at_ b + j) =
      c.fft.result x0 (fun e b X c => φ (e :: idx) b (fun a => X a c)) mem g 0 b j 0

theorem outs_eq (how : c.fft.overwrite = false) : c.fft.outs = c.fft.B := by
  unfold FftBase.outs; rw [how]; rfl

theorem explicit_ok (h : c.fft.Spec x0 padded) (fl : c.fft.Flat K) (how : c.fft.overwrite = false) (hq : c.fft.q = 1) {φ}
    (hm : MultSpec c.fft.A c.fft.B c.fft.index c.mult φ) {mem : Mem} {g : PtrArr} (hr : c.Ready padded mem) (hi : c.Inputs mem g)
    (idx : List ℕ) : (c.rawExplicit idx g).Ok mem fun _ m' => c.RawPost x0 padded φ idx g mem m' := by
  unfold RawPost
  rw [outs_eq how]
  obtain ⟨hres, hK⟩ := fl.q1 hq
  have hop : c.fft.OpSpec (fun F _ => c.mult F (c.fft.blocksize 0) idx 0 0) (fun e b X c => φ (e :: idx) b (fun a => X a c))
      (fun _ => False) (fun _ => True) := by
    refine ⟨fun e b X Y hXY c hc => hm.congr _ _ _ _ fun a ha => hXY a ha c hc, fun _ _ _ _ => trivial, fun _ _ _ => trivial, ?_⟩
    intro m F r hr _ hn hb hsep _
    obtain rfl : r = 0 := by rw [hres] at hr; simpa using hr
    have hout : c.fft.l ≤ c.fft.outputSize := by
      have := h.nout 0 hr
      rwa [fl.S, fl.nout, hK, one_mul, mul_one] at this
    rw [fl.bs]
    refine (hm.ok hn (fun a ha i hi => hb a ha i (by omega)) hsep).mono ?_
    rintro _ m' ⟨u, e⟩
    refine ⟨trivial, u.mono ?_, ?_⟩
    · rintro p ⟨a, ha, i, hi, rfl⟩
      exact Or.inr ⟨a, ha, i, by omega, rfl⟩
    · intro b hb' i hi _ c' hc'
      rw [fl.nout, hK, mul_one] at hi
      obtain rfl : c' = 0 := by rw [fl.C] at hc'; omega
      rw [fl.S]
      simpa [fl.col] using e b hb' i hi
  have h0 : 0 ∈ c.fft.residues := by rw [hres]; simp
  have hts : c.fft.TSep c.F c.W (fun _ => False) := ⟨fun _ _ h => h, fun _ _ h => h⟩
  have hdA := hi.dat.mono (le_max_left _ _) le_rfl
  unfold rawExplicit
  refine Cmd.Ok.seq2 (FftBase.fwdOp_ok h how hop hr.work hdA hts hr.pd trivial h0) ?_
  rintro m1 ⟨u1, p1, _, e1⟩
  have hdB : c.fft.Dat m1 g 0 c.fft.B c.F c.fft.B c.W := (hi.dat.mono (le_max_right _ _) (le_max_right _ _)).size u1.size
  have hapB : c.fft.Apart g 0 c.fft.B := fun a ha a' ha' =>
    hi.apart a (lt_of_lt_of_le ha (le_max_right _ _)) a' (lt_of_lt_of_le ha' (le_max_right _ _))
  refine (FftBase.bwdAll_ok h how h0 (Nat.zero_le _) ((hr.work.mono (le_max_right _ _)).size u1.size) hdB hapB le_rfl).mono ?_
  rintro _ m2 ⟨u2, e2⟩
  have uu : mem.Upd m2 (fun p => c.WorkWord p ∨ ∃ b < c.fft.B, c.fft.Data (g.at_ b) p) := by
    refine u1.trans u2 ?_ ?_
    · rintro p (hp | hp | hp)
      · exact absurd hp id
      · exact Or.inl (Or.inl hp)
      · exact Or.inl (Or.inr (Or.inl hp))
    · rintro p (⟨a, _, ha, hp | hp⟩ | hp)
      · exact Or.inr ⟨a, ha, by simpa [Ptr.add0] using hp⟩
      · exact Or.inl (Or.inl ⟨a, lt_of_lt_of_le ha (le_max_right _ _), hp⟩)
      · exact Or.inl (Or.inr (Or.inl hp))
  refine ⟨uu, hr.size uu.size fun W _ => h.pad_q1 hq _ _, ?_⟩
  intro b hb j hj
  have := e2 b (Nat.zero_le _) hb j hj 0 (by rw [fl.C]; omega)
  simp only [fl.S, fl.col] at this
  simp only [Ptr.add0, one_mul, add_zero, if_true, zero_add] at this
  rw [this, ← FftBase.sum_part h, hres]
  simp only [List.map_cons, List.map_nil, List.sum_cons, List.sum_nil, add_zero]
  unfold FftBase.part
  refine sum_congr rfl fun i hi' => ?_
  have := e1 b hb i (mem_range.1 hi') trivial 0 (by rw [fl.C]; omega)
  simp only [fl.S, fl.col] at this
  simp only [one_mul, add_zero] at this
  rw [this]

theorem rp_cond (c : Conv) {α : Type} (x y : Cmd α) : (if c.W ≠ none ∧ c.W = c.W0 ∧ c.padOn then x else y) = if c.rp then x else y := by
  unfold rp
  by_cases hc : c.W ≠ none ∧ c.W = c.W0 ∧ c.padOn = true
  · rw [if_pos hc, if_pos (by simpa using hc)]
  · rw [if_neg hc, if_neg (by simpa using hc)]

theorem generic_ok (h : c.fft.Spec x0 padded) (fl : c.fft.Flat K) (how : c.fft.overwrite = false) (hq : c.fft.q ≠ 1)
    (hl2 : c.fft.loop2 = false) {φ}
    (hm : MultSpec c.fft.A c.fft.B c.fft.index c.mult φ) (hBA : c.fft.B ≤ c.fft.A ∨ ∀ r ∈ c.fft.residues, K r = 1)
    (hf : c.fft.FreqOK K φ) {mem : Mem} {g : PtrArr} (hr : c.Ready padded mem) (hi : c.Inputs mem g)
    (idx : List ℕ) : (c.rawGeneric idx g).Ok mem fun _ m' => c.RawPost x0 padded φ idx g mem m' := by
  unfold RawPost
  rw [outs_eq how]
  have hop := FftBase.operate_spec h fl rfl hm hBA hf idx
  have hts : c.fft.TSep c.F c.W (fun _ => False) := ⟨fun _ _ h => h, fun _ _ h => h⟩
  have hdA := hi.dat.mono (le_max_left c.fft.A c.fft.B) le_rfl
  have hdB := hi.dat.mono (le_max_right c.fft.A c.fft.B) le_rfl
  have hapB : c.fft.Apart g 0 c.fft.B := fun a ha a' ha' =>
    hi.apart a (lt_of_lt_of_le ha (le_max_right _ _)) a' (lt_of_lt_of_le ha' (le_max_right _ _))
  have hbw := hr.bw hq hl2
  unfold rawGeneric backwardPad
  simp only [rp_cond]
  by_cases hnl : 1 < c.fft.nloops
  · simp only [if_pos hnl]
    have hV : c.UsesV := ⟨hq, hnl, hl2⟩
    obtain ⟨hdV, haV⟩ := hr.V hV
    have hgV := hi.V hV
    refine Cmd.Ok.bind ((FftBase.loop_ok h how hop hr.work hdA hdV haV hts (fun _ _ h => h) (fun _ _ h => h) hbw (Or.inr ?_)
      hr.pd trivial).mono ?_)
    · intro a ha b hb p h1 h2
      refine hgV a (lt_of_lt_of_le ha (le_max_left _ _)) b hb ?_
      have e1 := FftBase.data_buf h1
      have e2 := FftBase.data_buf h2
      simp only [Ptr.add_buf] at e1 e2
      rw [← e1, e2]
    rintro _ m1 ⟨u1, p1, _, e1⟩
    refine (copyBack_ok fl (hdB.n) hdV.n ?_ ?_ ?_ ?_).mono ?_
    · intro b hb
      have := hdB.bf b hb
      rw [fl.S, one_mul, Ptr.add0] at this
      exact FftBase.block_size u1.size this
    · intro b hb
      have := hdV.bf b hb
      rw [fl.S, one_mul, Ptr.add0] at this
      exact FftBase.block_size u1.size this
    · intro b hb b' hb'
      exact hgV b (lt_of_lt_of_le hb (le_max_right _ _)) b' hb'
    · intro b hb b' hb' hne p h1 h2
      refine hapB b hb b' hb' hne p ?_ ?_
      · rw [Ptr.add0, flat_data fl]; exact h1
      · rw [Ptr.add0, flat_data fl]; exact h2
    rintro _ m2 ⟨u2, e2⟩
    have uu : mem.Upd m2 (fun p => c.WorkWord p ∨ ∃ b < c.fft.B, c.fft.Data (g.at_ b) p) := by
      refine u1.trans u2 ?_ ?_
      · rintro p ((hp | hp | hp) | ⟨b, hb, hp⟩)
        · exact absurd hp id
        · exact Or.inl (Or.inl hp)
        · exact Or.inl (Or.inr (Or.inl hp))
        · exact Or.inl (Or.inr (Or.inr ⟨hV, b, hb, by simpa [Ptr.add0] using hp⟩))
      · rintro p ⟨b, hb, hp⟩
        exact Or.inr ⟨b, hb, (flat_data fl).2 hp⟩
    refine ⟨uu, ?_, ?_⟩
    · refine (hr.size u1.size p1).frame h u2 ?_
      rintro p ⟨b, hb, hp⟩ ⟨W, hW, hp2⟩
      refine hdB.fW b hb W hW ?_
      rw [← FftBase.inArr_buf hp, FftBase.inArr_buf hp2]
    · intro b hb j hj
      have := e1 (fun _ => trivial) b hb j hj 0 (by rw [fl.C]; omega)
      simp only [fl.S, fl.col] at this
      simp only [Ptr.add0, one_mul, add_zero] at this
      rw [e2 b hb j hj, this]
  · simp only [if_neg hnl]
    have hres : c.fft.residues = [0] := by
      obtain ⟨rest, e, _⟩ := h.res0
      have := h.nl
      rw [e] at this
      simp at this
      have : rest = [] := by
        cases rest with
        | nil => rfl
        | cons a l => simp at this; omega
      rw [e, this]
    refine Cmd.Ok.bind ((FftBase.loop_ok h how hop hr.work hdA hdB hapB hts (fun _ _ h => h) (fun _ _ h => h) hbw (Or.inl hres)
      hr.pd trivial).mono ?_)
    rintro _ m1 ⟨u1, p1, _, e1⟩
    refine Cmd.Ok.pure ⟨u1.mono ?_, hr.size u1.size p1, ?_⟩
    · rintro p ((hp | hp | hp) | ⟨b, hb, hp⟩)
      · exact absurd hp id
      · exact Or.inl (Or.inl hp)
      · exact Or.inl (Or.inr (Or.inl hp))
      · exact Or.inr ⟨b, hb, by simpa [Ptr.add0] using hp⟩
    · intro b hb j hj
      have := e1 (fun _ => trivial) b hb j hj 0 (by rw [fl.C]; omega)
      simp only [fl.S, fl.col] at this
      simpa only [Ptr.add0, one_mul, add_zero] using this

theorem loop2_raw_ok (h : c.fft.Spec x0 padded) (fl : c.fft.Flat K) (how : c.fft.overwrite = false) (hq : c.fft.q ≠ 1)
    (hl2 : c.fft.loop2 = true) (hBA : c.fft.B < c.fft.A) (hdvd : (c.fft.A - c.fft.B) ∣ c.fft.B)
    (hres : c.fft.residues = [0, c.fft.incr0]) {φ}
    (hm : MultSpec c.fft.A c.fft.B c.fft.index c.mult φ)
    (hf : c.fft.FreqOK K φ) {mem : Mem} {g : PtrArr} (hr : c.Ready padded mem) (hi : c.Inputs mem g)
    (idx : List ℕ) : (c.rawLoop2 idx g).Ok mem fun _ m' => c.RawPost x0 padded φ idx g mem m' := by
  unfold RawPost
  rw [outs_eq how]
  have hop := FftBase.operate_spec h fl rfl hm (Or.inl hBA.le) hf idx
  have hts : c.fft.TSep c.F c.W (fun _ => False) := ⟨fun _ _ h => h, fun _ _ h => h⟩
  obtain ⟨hW0, hrp, hFpn, hFp⟩ := hr.l2 hq hl2
  have hmax : max c.fft.A c.fft.B = c.fft.A := max_eq_left hBA.le
  have hwk := hr.work
  have hd := hi.dat
  have hap := hi.apart
  rw [hmax] at hwk hd hap
  unfold rawLoop2 backwardPad
  simp only [rp_cond]
  rw [hW0]
  refine (FftBase.loop2_ok h how hop hrp hBA hdvd hres hFpn hFp hwk hd hap hts (fun _ _ h => h) hr.pd trivial).mono ?_
  rintro _ m1 ⟨u1, p1, _, e1⟩
  refine ⟨u1.mono ?_, hr.size u1.size p1, ?_⟩
  · rintro p ((hp | hp | hp) | ⟨b, hb, hp⟩)
    · exact absurd hp id
    · exact Or.inl (Or.inl hp)
    · exact Or.inl (Or.inr (Or.inl hp))
    · exact Or.inr ⟨b, hb, by simpa [Ptr.add0] using hp⟩
  · intro b hb j hj
    have := e1 (fun _ => trivial) b hb j hj 0 (by rw [fl.C]; omega)
    simp only [fl.S, fl.col] at this
    simpa only [Ptr.add0, one_mul, add_zero] using this

theorem overwrite_ok {freq : ℕ → ℕ → ℕ} (h : c.fft.OwSpec x0 freq) (fl : c.fft.Flat K) (how : c.fft.overwrite = true) {φ}
    (hm : MultSpec c.fft.A c.fft.B c.fft.index c.mult φ) (hf : c.fft.FreqOK K φ) {mem : Mem} {g : PtrArr} (hr : c.Ready padded mem)
    (hpad : ∀ m p, padded m p) (hi : c.Inputs mem g)
    (idx : List ℕ) : (c.rawOverwrite idx g).Ok mem fun _ m' => c.RawPost x0 padded φ idx g mem m' := by
  have hmax : max c.fft.A c.fft.B = c.fft.A := max_eq_left h.BA
  have hwk := hr.work
  have hd := hi.dat
  have hap := hi.apart
  rw [hmax] at hwk hd hap
  have hgg := hi.ow how
  have hl : c.fft.outputSize = c.fft.l := by rw [h.out, fl.S, one_mul]
  have hargs : c.fft.OwArgs mem g 0 c.F := by
    refine ⟨hd.n, hwk.n, ?_, ?_, hd.fF, hwk.sep, hap⟩
    · rintro a ha p ⟨j, hj, c', hc', rfl⟩
      have hc0 : c' = 0 := by rw [fl.C] at hc'; omega
      subst hc0
      refine hd.bf a ha _ ?_
      rw [fl.S, fl.col]; omega
    · intro a ha p hp
      obtain ⟨i, hi', rfl⟩ := hp.inArr h.col_lt
      exact hwk.bF a ha i hi'
  have hidx : ∀ r < c.fft.n, ∀ i < c.fft.l, ∀ b, φ (c.fft.index r i :: idx) b = φ (freq r i :: idx) b := by
    intro r hr' i hi' b
    rcases hf with ⟨_, h2⟩ | h2
    · rw [h.idx (h2 how) r (by have := h2 how; omega) i hi']
    · rw [h2]
  have hadd : ∀ a r i : ℕ, g.at_ a + r * c.fft.l + i = g.at_ a + 0 + (c.fft.l * r + i) := by
    intro a r i; ext <;> simp; ring
  unfold rawOverwrite
  simp only [h.bs]
  refine (FftBase.owRaw_ok h hargs 0 0 c.W none (Φ := fun e b X c => φ (e :: idx) b (fun a => X a c)) (T := fun _ => False) (Inv := fun _ => True) (P := fun _ => True)
    ?_ (fun _ _ _ _ => trivial) (fun _ _ _ => trivial) (fun _ _ h => h) (fun _ _ h => h) ?_ ?_ trivial).mono ?_
  · intro e b X Y hXY c' hc'
    exact hm.congr _ _ _ _ fun a ha => hXY a ha c' hc'
  · intro r hr'
    refine ⟨?_⟩
    intro m hs _
    refine (hm.ok (by simp [hmax]) ?_ ?_).mono ?_
    · rw [hmax]
      intro a ha i hi'
      show m.valid (g.at_ a + r * c.fft.l + i)
      rw [hadd]
      have := h.data (f := g.at_ a + 0) hr' hi' (show 0 < c.fft.C by rw [fl.C]; omega)
      rw [fl.S, fl.col, one_mul, add_zero] at this
      exact Mem.valid_of_size hs (hargs.bg a ha _ this)
    · rw [hmax]
      intro a ha a' ha' hne
      exact hgg a ha a' ha' hne
    · rintro _ m' ⟨u, e⟩
      refine ⟨trivial, u.mono ?_, ?_⟩
      · rw [hmax]
        rintro p ⟨a, ha, i, hi', rfl⟩
        refine Or.inr ⟨a, ha, i, hi', 0, by rw [fl.C]; omega, ?_⟩
        rw [fl.S, fl.col, one_mul, add_zero, ← hadd]
      · intro b hb i hi' _ c' hc'
        obtain rfl : c' = 0 := by rw [fl.C] at hc'; omega
        have := e b hb i hi'
        simp only [hadd, zero_add] at this
        simp only [fl.S, fl.col, one_mul, add_zero]
        rw [this, hidx r (by omega) i hi']
  · refine ⟨?_⟩
    intro m hs _
    refine (hm.ok (by rw [hmax]; exact hargs.Fn) ?_ ?_).mono ?_
    · rw [hmax]
      intro a ha i hi'
      exact Mem.valid_of_size hs (hwk.bF a ha i (by omega))
    · rw [hmax]; exact hwk.sep
    · rintro _ m' ⟨u, e⟩
      refine ⟨trivial, u.mono ?_, ?_⟩
      · rw [hmax]
        rintro p ⟨a, ha, i, hi', rfl⟩
        exact Or.inr ⟨a, ha, i, by omega, rfl⟩
      · intro b hb i hi' _ c' hc'
        obtain rfl : c' = 0 := by rw [fl.C] at hc'; omega
        have := e b hb i hi'
        simp only [zero_add] at this
        simp only [fl.S, fl.col, one_mul, add_zero]
        rw [this, hidx _ ?_ i hi']
        have := h.n_pos
        omega
  · rintro _ m' ⟨u, _, e⟩
    refine ⟨u.mono ?_, hr.size u.size fun W _ => hpad _ _, ?_⟩
    · rintro p (hp | ⟨a, ha, hp | hp⟩)
      · exact absurd hp id
      · refine Or.inr ⟨a, ?_, by simpa [Ptr.add0] using hp⟩
        unfold FftBase.outs
        rw [how]; exact ha
      · exact Or.inl (Or.inl ⟨a, by rw [hmax]; exact ha, hp⟩)
    · intro b hb j hj
      have := e (fun _ => trivial) b hb j hj 0 (by rw [fl.C]; omega)
      simp only [fl.S, fl.col] at this
      simpa only [Ptr.add0, one_mul, add_zero] using this

end Conv
end Fftwpp
