import Verif.Model.Driver
import Verif.Props.Transform

/-! The interface specification of a transform class, and lemmas on the loops of the drivers. -/

namespace Fftwpp
open Finset

/-- Word `i < n` of the array at `F`. -/
def InArr (F : Ptr) (n : ℕ) (p : Ptr) : Prop := ∃ i < n, p = F + (i : ℕ)

/-- The data words of an input array. -/
def FftBase.Data (o : FftBase) (f p : Ptr) : Prop := ∃ j < o.L, ∃ c < o.C, p = f + (o.S * j + o.col c)

/-- The words of the copies in the rows of a work array. -/
def FftBase.Cols (o : FftBase) (F p : Ptr) : Prop := ∃ i, o.S * (i + 1) ≤ o.outputSize ∧ ∃ c < o.C, p = F + (o.S * i + o.col c)

/-- Arguments of a call of `forward` or `backward`. -/
structure FftBase.Args (o : FftBase) (mem : Mem) (f F : Ptr) (W? : Option Ptr) : Prop where
  fF : f.buf ≠ F.buf
  bf : ∀ p, o.Data f p → mem.valid p
  bF : ∀ p, o.Cols F p → mem.valid p
  bW : if o.inplace then W? = none else ∃ W, W? = some W ∧ W.buf ≠ F.buf ∧ W.buf ≠ f.buf ∧ mem.block W o.outputSize

/-- The words a call may write besides `f`. -/
def FftBase.Touch (o : FftBase) (F : Ptr) (W? : Option Ptr) (p : Ptr) : Prop :=
  o.Cols F p ∨ ∃ W, W? = some W ∧ InArr W o.outputSize p

theorem FftBase.Cols.inArr {o : FftBase} (hc : ∀ c < o.C, o.col c < o.S) {F p : Ptr} (h : o.Cols F p) : InArr F o.outputSize p := by
  obtain ⟨i, hi, c, h1, rfl⟩ := h
  have := hc c h1
  refine ⟨_, ?_, rfl⟩
  rw [Nat.mul_succ] at hi
  omega

theorem FftBase.Cols.buf {o : FftBase} {F p : Ptr} (h : o.Cols F p) : p.buf = F.buf := by
  obtain ⟨i, hi, c, h1, rfl⟩ := h
  rfl

/-- The Fourier kernel about the origin `x0` (0, or the centre). -/
noncomputable def FftBase.dft (o : FftBase) (x0 : ℤ) (x : ℕ → ℂ) (e : ℤ) : ℂ := ∑ j ∈ range o.L, x j * w o.N ((j - x0) * e)

/-- What the drivers rely on. -/
structure FftBase.Spec (o : FftBase) (x0 : ℤ) (padded : Mem → Ptr → Prop) : Prop where
  C_pos : 0 < o.C
  col_lt : ∀ c < o.C, o.col c < o.S
  N_pos : 0 < o.N
  res0 : ∃ rest, o.residues = 0 :: rest ∧ 0 ∉ rest
  nl : o.nloops = o.residues.length
  nout : ∀ r ∈ o.residues, o.S * o.noutputs r ≤ o.outputSize
  wsW : o.workSizeW = if o.inplace then 0 else o.outputSize
  sum : ∀ g : ℕ → ℂ, (o.residues.map fun r => ∑ i ∈ range (o.noutputs r), g (o.index r i)).sum = ∑ e ∈ range o.N, g e
  pad_in : o.inplace = true → ∀ m p, padded m p
  pad_frame : ∀ {m m' : Mem} {W : Ptr}, (∀ i < o.outputSize, m'.val (W + (i : ℕ)) = m.val (W + i)) → padded m W → padded m' W
  pad_none : o.padNone = true → ∀ m p, padded m p
  padNone_in : o.inplace = true → o.padNone = true
  pad_q1 : o.q = 1 → ∀ m p, padded m p
  padOk : ∀ {m : Mem} {W : Ptr}, o.inplace = false → m.block W o.outputSize →
    (o.pad W).Ok m fun _ m' => m.Upd m' (InArr W o.outputSize) ∧ padded m' W
  fwd : o.overwrite = false → ∀ {m : Mem} {f F : Ptr} {W? : Option Ptr} {r : ℕ}, r ∈ o.residues → o.Args m f F W? → padded m (W?.getD F) →
    (o.forward f F r W?).Ok m fun _ m' => m.Upd m' (o.Touch F W?) ∧ padded m' (W?.getD F) ∧
      ∀ i < o.noutputs r, ∀ c < o.C, m'.val (F + (o.S * i + o.col c)) = o.dft x0 (fun j => m.val (f + (o.S * j + o.col c))) (o.index r i)
  bwd : o.overwrite = false → ∀ {m : Mem} {f F : Ptr} {W? : Option Ptr} {r : ℕ}, r ∈ o.residues → o.Args m f F W? →
    (o.backward F f r W?).Ok m fun _ m' => m.Upd m' (fun p => o.Data f p ∨ o.Touch F W? p) ∧
      ∀ j < o.L, ∀ c < o.C, m'.val (f + (o.S * j + o.col c)) = (if r = 0 then 0 else m.val (f + (o.S * j + o.col c))) +
        ∑ i ∈ range (o.noutputs r), m.val (F + (o.S * i + o.col c)) * w o.N (-(((j : ℤ) - x0) * (o.index r i : ℤ)))

/-- The noncentered class satisfies the interface specification. -/
theorem Fft.WF.base_spec {o : Fft} (h : o.WF) : o.base.Spec 0 o.Padded := by
  have hreg : ∀ F p, o.Reg F (o.P * o.D) p → InArr F o.outputSize p := by
    rintro F p ⟨i, hi, c, hc, rfl⟩
    refine ⟨o.S * i + c, ?_, rfl⟩
    have := h.C_le_S
    unfold Fft.outputSize
    rw [h.b_D]
    exact radix_lt (by omega) hi
  have hcols : ∀ F p, o.Reg F (o.P * o.D) p → o.base.Cols F p := by
    rintro F p ⟨i, hi, c, hc, rfl⟩
    refine ⟨i, ?_, c, hc, rfl⟩
    show o.S * (i + 1) ≤ o.outputSize
    unfold Fft.outputSize
    rw [h.b_D]
    exact Nat.mul_le_mul_left _ hi
  have hargs : ∀ {m f F W?}, o.base.Args m f F W? → Pre o m f F (W?.getD F) := by
    rintro m f F W? ⟨h1, h2, h3, h4⟩
    have vF : ∀ i < o.m * (o.P * o.D), ∀ c < o.C, m.valid (F + (o.S * i + c)) := fun i hi c hc =>
      h3 _ (hcols _ _ ⟨i, hi, c, hc, rfl⟩)
    have vf : ∀ j < o.L, ∀ c < o.C, m.valid (f + (o.S * j + c)) := fun j hj c hc => h2 _ ⟨j, hj, c, hc, rfl⟩
    by_cases hi : o.inplace = true
    · have hi' : o.base.inplace = true := hi
      rw [if_pos hi'] at h4
      subst h4
      refine ⟨h1, h1, ?_, vf, vF, vF⟩
      exact Or.inl ⟨hi, rfl⟩
    · have hi' : ¬ o.base.inplace = true := hi
      rw [if_neg hi'] at h4
      obtain ⟨W, rfl, e2, e3, e4⟩ := h4
      refine ⟨h1, e3.symm, ?_, vf, vF, ?_⟩
      · exact Or.inr ⟨by simpa using hi, e2⟩
      · intro i hi c hc
        obtain ⟨k, hk, e⟩ := hreg W _ ⟨i, hi, c, hc, rfl⟩
        show m.valid (W + (o.S * i + c))
        rw [e]; exact e4 k hk
  have htouch : ∀ {F W? p}, (o.Reg F (o.P * o.D) p ∨ o.Reg (W?.getD F) (o.P * o.D) p) → o.base.Touch F W? p := by
    rintro F W? p (hp | hp)
    · exact Or.inl (hcols _ _ hp)
    · cases W? with
      | none => exact Or.inl (hcols _ _ hp)
      | some W => exact Or.inr ⟨W, rfl, hreg _ _ hp⟩
  refine ⟨h.C_pos, fun c hc => lt_of_lt_of_le hc h.C_le_S, h.M_pos, ?_, rfl, ?_, rfl, ?_, ?_, ?_, ?_, ?_, ?_, ?_, ?_, ?_⟩
  · obtain ⟨t, _, _, hst⟩ := h.starts_eq
    refine ⟨_, hst, ?_⟩
    have := h.starts_nodup
    rw [hst] at this
    exact (List.nodup_cons.1 this).1
  · intro r _
    show o.S * o.noutputs r ≤ o.outputSize
    unfold Fft.outputSize
    rw [h.b_D, h.noutputs_eq]
    exact Nat.mul_le_mul_left _ (Nat.mul_le_mul_left _ (h.rows_le r))
  · intro g; exact h.sum_blocks g
  · intro hi m p hi'
    have : o.inplace = true := hi
    rw [this] at hi'; simp at hi'
  · intro m m' W hv hp hi hq hp1 t ht s hs hLs c hc
    have : o.S * (o.m * t + s) + c < o.outputSize := by
      have := h.C_le_S
      unfold Fft.outputSize
      rw [h.b_D]
      refine radix_lt (by omega) (radix_lt hs ?_)
      have : 1 * o.D ≤ o.P * o.D := Nat.mul_le_mul_right _ (by unfold Fft.P; split_ifs <;> omega)
      omega
    rw [hv _ this]
    exact hp hi hq hp1 t ht s hs hLs c hc
  · intro hn m p hi hq hp1 t ht s hs hLs c hc
    have hn' : o.pad = .none := by
      have : decide (o.pad = .none) = true := hn
      simpa using this
    rw [h.pad_eq, if_pos ⟨hq, hp1, hi, by omega⟩] at hn'
    split_ifs at hn'
  · intro hi
    show decide (o.pad = .none) = true
    rw [decide_eq_true_eq, h.pad_eq]
    have hi' : o.inplace = true := hi
    rw [hi']
    simp
  · intro hq m p hi hq'
    exact absurd hq hq'
  · intro m W hi hb
    refine (padW_ok h (W := W) (mem := m) ?_).mono ?_
    · intro i hi' c hc
      obtain ⟨k, hk, e⟩ := hreg W _ ⟨i, hi', c, hc, rfl⟩
      rw [e]; exact hb k hk
    · rintro _ m' ⟨u, hp⟩
      exact ⟨u.mono (fun p hp => hreg _ _ hp), hp⟩
  · intro how m f F W? r hr a hp
    have hv := h.mem_starts.1 hr
    refine (forward_ok h how rfl (hargs a) hp hv).mono ?_
    rintro _ m' post
    refine ⟨post.upd.mono (fun p hp => htouch hp), post.pad, ?_⟩
    intro i hi c hc
    have := post.index h hv i hi c hc
    refine this.trans ?_
    unfold paddedDFT FftBase.dft
    simp only [sub_zero]; rfl
  · intro how m f F W? r hr a
    have hv := h.mem_starts.1 hr
    refine (backward_ok h how rfl (hargs a) hv).mono ?_
    rintro _ m' post
    refine ⟨post.upd.mono ?_, ?_⟩
    · rintro p (hp | hp)
      · exact Or.inl hp
      · exact Or.inr (htouch hp)
    · intro j hj c hc
      have := post.index h hv j hj c hc
      simp only [sub_zero]
      exact this

end Fftwpp

namespace Fftwpp
open Finset

theorem seqLoop_rngab {body : ℕ → Cmd Unit} {a b : ℕ} (hab : a ≤ b) {mem : Mem} {Q : Unit → Mem → Prop} (I : ℕ → Mem → Prop)
    (h0 : I a mem) (hs : ∀ s m, a ≤ s → s < b → I s m → (body s).Ok m (fun _ m' => I (s + 1) m'))
    (hQ : ∀ m, I b m → Q () m) : (seqLoop (rng a b) body).Ok mem Q := by
  unfold rng
  have := seqLoop_range' (body := body) (n := b - a) I a mem h0 (fun s m h1 h2 h3 => hs s m (by omega) (by omega) h3)
  refine this.mono ?_
  intro _ m' hm
  rw [show a + (b - a) = b by omega] at hm
  exact hQ m' hm

theorem PtrArr.get_bind {F : PtrArr} {i : ℕ} (hi : i < F.n) {β : Type} (k : Ptr → Cmd β) : (F.get i >>= k) = k (F.at_ i) := by
  unfold PtrArr.get
  rw [if_pos hi]
  rfl

namespace FftBase
variable {o : FftBase} {x0 : ℤ} {padded : Mem → Ptr → Prop}

/-- Work arrays `F[0..k)` and `W`. -/
structure Work (o : FftBase) (mem : Mem) (F : PtrArr) (k : ℕ) (W? : Option Ptr) : Prop where
  n : k ≤ F.n
  sep : ∀ a < k, ∀ a' < k, a ≠ a' → (F.at_ a).buf ≠ (F.at_ a').buf
  bF : ∀ a < k, mem.block (F.at_ a) o.outputSize
  bW : if o.inplace then W? = none else ∃ W, W? = some W ∧ (∀ a < k, W.buf ≠ (F.at_ a).buf) ∧ mem.block W o.outputSize

/-- Data arrays `f[0..k)` (shifted by `off`), in buffers different from those of `F[0..K)` and `W`. -/
structure Dat (o : FftBase) (mem : Mem) (f : PtrArr) (off k : ℕ) (F : PtrArr) (K : ℕ) (W? : Option Ptr) : Prop where
  n : k ≤ f.n
  bf : ∀ a < k, mem.block (f.at_ a + off) (o.S * o.L)
  fF : ∀ a < k, ∀ a' < K, (f.at_ a).buf ≠ (F.at_ a').buf
  fW : ∀ a < k, ∀ W, W? = some W → W.buf ≠ (f.at_ a).buf

/-- The data words of different arrays are different. -/
def Apart (o : FftBase) (f : PtrArr) (off k : ℕ) : Prop :=
  ∀ a < k, ∀ a' < k, a ≠ a' → ∀ p, o.Data (f.at_ a + off) p → ¬ o.Data (f.at_ a' + off) p

theorem block_size {m m' : Mem} {p : Ptr} {n : ℕ} (hs : m'.size = m.size) (h : m.block p n) : m'.block p n :=
  fun i hi => Mem.valid_of_size hs (h i hi)

theorem Work.size {mem m' : Mem} {F : PtrArr} {k : ℕ} {W? : Option Ptr} (h : o.Work mem F k W?) (hs : m'.size = mem.size) :
    o.Work m' F k W? := by
  refine ⟨h.n, h.sep, fun a ha => block_size hs (h.bF a ha), ?_⟩
  have := h.bW
  split_ifs at this ⊢
  · exact this
  · obtain ⟨W, h1, h2, h3⟩ := this
    exact ⟨W, h1, h2, block_size hs h3⟩

theorem Dat.size {mem m' : Mem} {f F : PtrArr} {off k K : ℕ} {W? : Option Ptr} (h : o.Dat mem f off k F K W?)
    (hs : m'.size = mem.size) : o.Dat m' f off k F K W? :=
  ⟨h.n, fun a ha => block_size hs (h.bf a ha), h.fF, h.fW⟩

theorem args_of {mem : Mem} {f F : PtrArr} {off k K : ℕ} {W? : Option Ptr} (hw : o.Work mem F K W?)
    (hd : o.Dat mem f off k F K W?) (hcol : ∀ c < o.C, o.col c < o.S) {a a' : ℕ} (ha : a < k) (ha' : a' < K) :
    o.Args mem (f.at_ a + off) (F.at_ a') W? := by
  refine ⟨by simpa using hd.fF a ha a' ha', ?_, ?_, ?_⟩
  · rintro p ⟨j, hj, c, hc, rfl⟩
    exact hd.bf a ha _ (radix_lt (hcol c hc) hj)
  · intro p hp
    obtain ⟨i, hi, rfl⟩ := hp.inArr hcol
    exact hw.bF a' ha' i hi
  have := hw.bW
  split_ifs at this ⊢
  · exact this
  · obtain ⟨W, h1, h2, h3⟩ := this
    exact ⟨W, h1, h2 a' ha', by simpa using hd.fW a ha W h1, h3⟩

/-- The padding of the work array is in place. -/
def Pd (padded : Mem → Ptr → Prop) (W? : Option Ptr) (m : Mem) : Prop := ∀ W, W? = some W → padded m W

theorem Pd.getD (h : o.Spec x0 padded) {mem : Mem} {F : PtrArr} {K : ℕ} {W? : Option Ptr} (hw : o.Work mem F K W?) {m : Mem}
    (hp : Pd padded W? m) (p : Ptr) : padded m (W?.getD p) := by
  have := hw.bW
  by_cases hi : o.inplace = true
  · exact h.pad_in hi _ _
  · rw [if_neg hi] at this
    obtain ⟨W, rfl, _⟩ := this
    exact hp W rfl

/-- Words of `W`. -/
def InW (o : FftBase) (W? : Option Ptr) (p : Ptr) : Prop := ∃ W, W? = some W ∧ InArr W o.outputSize p

theorem inArr_buf {F : Ptr} {n : ℕ} {p : Ptr} (h : InArr F n p) : p.buf = F.buf := by
  obtain ⟨i, _, rfl⟩ := h; simp

theorem data_buf {f : Ptr} {p : Ptr} (h : o.Data f p) : p.buf = f.buf := by
  obtain ⟨j, _, c, _, rfl⟩ := h; simp

/-- `Convolution::forward`. -/
theorem fwdAll_ok (h : o.Spec x0 padded) (how : o.overwrite = false) {mem : Mem} {f F : PtrArr} {off k K : ℕ} {W? : Option Ptr}
    (hw : o.Work mem F K W?) (hd : o.Dat mem f off k F K W?) (hp : Pd padded W? mem) {r : ℕ} (hr : r ∈ o.residues)
    {start stop : ℕ} (hss : start ≤ stop) (hk : stop ≤ k) (hK : stop ≤ K) :
    (fwdAll o W? f F r start stop off).Ok mem fun _ m' =>
      mem.Upd m' (fun p => (∃ a, start ≤ a ∧ a < stop ∧ InArr (F.at_ a) o.outputSize p) ∨ o.InW W? p) ∧ Pd padded W? m' ∧
      ∀ a, start ≤ a → a < stop → ∀ i < o.noutputs r, ∀ c < o.C, m'.val (F.at_ a + (o.S * i + o.col c)) =
        o.dft x0 (fun j => mem.val (f.at_ a + off + (o.S * j + o.col c))) (o.index r i) := by
  refine seqLoop_rngab hss (fun s m' =>
      mem.Upd m' (fun p => (∃ a, start ≤ a ∧ a < s ∧ InArr (F.at_ a) o.outputSize p) ∨ o.InW W? p) ∧ Pd padded W? m' ∧
      ∀ a, start ≤ a → a < s → ∀ i < o.noutputs r, ∀ c < o.C, m'.val (F.at_ a + (o.S * i + o.col c)) =
        o.dft x0 (fun j => mem.val (f.at_ a + off + (o.S * j + o.col c))) (o.index r i))
    ⟨Mem.Upd.refl _ _, hp, fun a h1 h2 => absurd h1 (by omega)⟩ ?_ (fun m hm => hm)
  rintro s m1 h1 h2 ⟨u1, p1, e1⟩
  rw [PtrArr.get_bind (by have := hd.n; omega), PtrArr.get_bind (by have := hw.n; omega)]
  have hw1 := hw.size u1.size
  have hd1 := hd.size u1.size
  have ha := args_of hw1 hd1 h.col_lt (a := s) (a' := s) (by omega) (by omega)
  refine (h.fwd how hr ha (Pd.getD h hw1 p1 _)).mono ?_
  rintro _ m2 ⟨u2, p2, e2⟩
  replace u2 := u2.mono (R := fun p => InArr (F.at_ s) o.outputSize p ∨ ∃ W, W? = some W ∧ InArr W o.outputSize p)
    (fun p hp => hp.imp_left (·.inArr h.col_lt))
  refine ⟨u1.trans u2 ?_ ?_, ?_, ?_⟩
  · rintro p (⟨a, g1, g2, g3⟩ | hp)
    · exact Or.inl ⟨a, g1, by omega, g3⟩
    · exact Or.inr hp
  · rintro p (hp | hp)
    · exact Or.inl ⟨s, h1, by omega, hp⟩
    · exact Or.inr hp
  · rintro W rfl
    exact p2
  · intro a ha1 ha2 i hi c hc
    have hcol := h.col_lt c hc
    have hin : ∀ a, InArr (F.at_ a) o.outputSize (F.at_ a + (o.S * i + o.col c)) := fun a =>
      ⟨_, lt_of_lt_of_le (radix_lt hcol hi) (h.nout r hr), rfl⟩
    by_cases has : a = s
    · subst has
      rw [e2 i hi c hc]
      congr 1
      funext j
      refine u1.frame _ ?_
      rintro (⟨a', g1, g2, g3⟩ | ⟨W, hW, g3⟩)
      · exact hd.fF a (by omega) a' (by omega) (by simpa using inArr_buf g3)
      · exact hd.fW a (by omega) W hW (by simpa using (inArr_buf g3).symm)
    · rw [u2.frame, e1 a ha1 (by omega) i hi c hc]
      rintro (g3 | ⟨W, hW, g3⟩)
      · exact hw.sep a (by omega) s (by omega) has (by simpa using inArr_buf g3)
      · have := hw.bW
        split_ifs at this
        · rw [this] at hW; simp at hW
        · obtain ⟨W', e, g4, _⟩ := this
          rw [hW] at e
          obtain rfl : W = W' := by simpa using e
          exact g4 a (by omega) (by simpa using (inArr_buf g3).symm)

/-- `Convolution::backward`. -/
theorem bwdAll_ok (h : o.Spec x0 padded) (how : o.overwrite = false) {mem : Mem} {f F : PtrArr} {off k : ℕ} {W? : Option Ptr}
    {r : ℕ} (hr : r ∈ o.residues) {start stop : ℕ} (hss : start ≤ stop) (hw : o.Work mem F stop W?)
    (hd : o.Dat mem f off k F stop W?) (hap : o.Apart f off k) (hk : stop ≤ k) :
    (bwdAll o W? F f r start stop off).Ok mem fun _ m' =>
      mem.Upd m' (fun p => (∃ a, start ≤ a ∧ a < stop ∧ (o.Data (f.at_ a + off) p ∨ InArr (F.at_ a) o.outputSize p)) ∨ o.InW W? p) ∧
      ∀ a, start ≤ a → a < stop → ∀ j < o.L, ∀ c < o.C, m'.val (f.at_ a + off + (o.S * j + o.col c)) =
        (if r = 0 then 0 else mem.val (f.at_ a + off + (o.S * j + o.col c))) +
        ∑ i ∈ range (o.noutputs r), mem.val (F.at_ a + (o.S * i + o.col c)) * w o.N (-(((j : ℤ) - x0) * (o.index r i : ℤ))) := by
  refine seqLoop_rngab hss (fun s m' =>
      mem.Upd m' (fun p => (∃ a, start ≤ a ∧ a < s ∧ (o.Data (f.at_ a + off) p ∨ InArr (F.at_ a) o.outputSize p)) ∨ o.InW W? p) ∧
      ∀ a, start ≤ a → a < s → ∀ j < o.L, ∀ c < o.C, m'.val (f.at_ a + off + (o.S * j + o.col c)) =
        (if r = 0 then 0 else mem.val (f.at_ a + off + (o.S * j + o.col c))) +
        ∑ i ∈ range (o.noutputs r), mem.val (F.at_ a + (o.S * i + o.col c)) * w o.N (-(((j : ℤ) - x0) * (o.index r i : ℤ))))
    ⟨Mem.Upd.refl _ _, fun a h1 h2 => absurd h1 (by omega)⟩ ?_ (fun m hm => hm)
  rintro s m1 h1 h2 ⟨u1, e1⟩
  rw [PtrArr.get_bind (by have := hw.n; omega), PtrArr.get_bind (by have := hd.n; omega)]
  have hw1 := hw.size u1.size
  have hd1 := hd.size u1.size
  have ha := args_of hw1 hd1 h.col_lt (a := s) (a' := s) (by omega) (by omega)
  have hWF : ∀ W, W? = some W → ∀ a < stop, W.buf ≠ (F.at_ a).buf := by
    intro W hW a ha
    have := hw.bW
    split_ifs at this
    · rw [this] at hW; simp at hW
    · obtain ⟨W', e, g4, _⟩ := this
      rw [hW] at e
      obtain rfl : W = W' := by simpa using e
      exact g4 a ha
  refine (h.bwd how hr ha).mono ?_
  rintro _ m2 ⟨u2, e2⟩
  replace u2 := u2.mono (R := fun p => o.Data (f.at_ s + off) p ∨ InArr (F.at_ s) o.outputSize p ∨ ∃ W, W? = some W ∧ InArr W o.outputSize p)
    (fun p hp => hp.imp_right fun hp => hp.imp_left (·.inArr h.col_lt))
  refine ⟨u1.trans u2 ?_ ?_, ?_⟩
  · rintro p (⟨a, g1, g2, g3⟩ | hp)
    · exact Or.inl ⟨a, g1, by omega, g3⟩
    · exact Or.inr hp
  · rintro p (hp | hp | hp)
    · exact Or.inl ⟨s, h1, by omega, Or.inl hp⟩
    · exact Or.inl ⟨s, h1, by omega, Or.inr hp⟩
    · exact Or.inr hp
  · intro a ha1 ha2 j hj c hc
    have hdat : ∀ a, o.Data (f.at_ a + off) (f.at_ a + off + (o.S * j + o.col c)) := fun a => ⟨j, hj, c, hc, rfl⟩
    by_cases has : a = s
    · subst has
      rw [e2 j hj c hc]
      congr 1
      · split_ifs
        · rfl
        · refine u1.frame _ ?_
          rintro (⟨a', g1, g2, g3 | g3⟩ | ⟨W, hW, g3⟩)
          · exact hap a (by omega) a' (by omega) (by omega) _ (hdat a) g3
          · exact hd.fF a (by omega) a' (by omega) (by simpa using inArr_buf g3)
          · exact hd.fW a (by omega) W hW (by simpa using (inArr_buf g3).symm)
      · refine sum_congr rfl fun i _ => ?_
        congr 1
        refine u1.frame _ ?_
        rintro (⟨a', g1, g2, g3 | g3⟩ | ⟨W, hW, g3⟩)
        · exact hd.fF a' (by omega) a (by omega) (by simpa using (data_buf g3).symm)
        · exact hw.sep a (by omega) a' (by omega) (by omega) (by simpa using inArr_buf g3)
        · exact hWF W hW a (by omega) (by simpa using (inArr_buf g3).symm)
    · rw [u2.frame, e1 a ha1 (by omega) j hj c hc]
      rintro (g3 | g3 | ⟨W, hW, g3⟩)
      · exact hap a (by omega) s (by omega) has _ (hdat a) g3
      · exact hd.fF a (by omega) s (by omega) (by simpa using inArr_buf g3)
      · exact hd.fW a (by omega) W hW (by simpa using (inArr_buf g3).symm)

end FftBase
end Fftwpp
