import Verif.Proof.Driver3

/-! The schedules of the drivers over an abstract way of reading the arrays (words or doubles).  Used for the Hermitian class, whose transforms are
real numbers stored as doubles, and for two-dimensional Hermitian convolutions. -/

namespace Fftwpp
open Finset

/-- How the arrays of a transform class are read, and what its transforms compute. -/
structure View where
  /-- datum `j` of copy `c` of the array at `f` -/
  x : Mem → Ptr → ℕ → ℕ → ℂ
  /-- output `i` of copy `c` of residue block `r` in the work array at `F` -/
  X : Mem → Ptr → ℕ → ℕ → ℕ → ℂ
  /-- the words of the data array at `f` -/
  D : Ptr → Ptr → Prop
  /-- number of outputs of residue block `r` -/
  cnt : ℕ → ℕ
  /-- the forward transform: output `i` of block `r` -/
  T : ℕ → ℕ → (ℕ → ℂ) → ℂ
  /-- the backward transform: contribution of block `r` to datum `j` -/
  K : ℕ → ℕ → (ℕ → ℂ) → ℂ
  /-- the data for which the forward transform is specified -/
  dom : (ℕ → ℂ) → Prop
  /-- the blocks for which the backward transform is specified -/
  kdom : ℕ → (ℕ → ℂ) → Prop := fun _ _ => True

namespace View

/-- Arguments of a call of `forward` or `backward`. -/
structure Args (v : View) (o : FftBase) (mem : Mem) (f F : Ptr) (W? : Option Ptr) : Prop where
  fF : f.buf ≠ F.buf
  bf : ∀ p, v.D f p → mem.valid p
  bF : mem.block F o.outputSize
  bW : if o.inplace then W? = none else ∃ W, W? = some W ∧ W.buf ≠ F.buf ∧ W.buf ≠ f.buf ∧ mem.block W o.workSizeW

/-- Words of `W`. -/
def InW (o : FftBase) (W? : Option Ptr) (p : Ptr) : Prop := ∃ W, W? = some W ∧ InArr W o.workSizeW p

/-- What the drivers rely on. -/
structure Spec (v : View) (o : FftBase) (padded : Mem → Ptr → Prop) : Prop where
  D_buf : ∀ {f p}, v.D f p → p.buf = f.buf
  x_congr : ∀ {m m' : Mem} {f : Ptr}, (∀ p, v.D f p → m'.val p = m.val p) → ∀ j < o.L, ∀ c < o.C, v.x m' f j c = v.x m f j c
  X_congr : ∀ {m m' : Mem} {F : Ptr} {r : ℕ}, r ∈ o.residues → (∀ i < o.outputSize, m'.val (F + (i : ℕ)) = m.val (F + i)) →
    ∀ i < v.cnt r, ∀ c < o.C, v.X m' F r i c = v.X m F r i c
  T_congr : ∀ {r i x y}, (∀ j < o.L, x j = y j) → v.T r i x = v.T r i y
  K_congr : ∀ {r j X Y}, (∀ i < v.cnt r, X i = Y i) → v.K r j X = v.K r j Y
  dom_congr : ∀ {x y}, (∀ j < o.L, x j = y j) → v.dom x → v.dom y
  kdom_congr : ∀ {r X Y}, (∀ i < v.cnt r, X i = Y i) → v.kdom r X → v.kdom r Y
  res0 : ∃ rest, o.residues = 0 :: rest ∧ 0 ∉ rest
  nl : o.nloops = o.residues.length
  pad_in : o.inplace = true → ∀ m p, padded m p
  pad_frame : ∀ {m m' : Mem} {W : Ptr}, (∀ i < o.workSizeW, m'.val (W + (i : ℕ)) = m.val (W + i)) → padded m W → padded m' W
  pad_none : o.padNone = true → ∀ m p, padded m p
  padNone_in : o.inplace = true → o.padNone = true
  pad_q1 : o.q = 1 → ∀ m p, padded m p
  padOk : ∀ {m : Mem} {W : Ptr}, o.inplace = false → m.block W o.workSizeW →
    (o.pad W).Ok m fun _ m' => m.Upd m' (InArr W o.workSizeW) ∧ padded m' W
  fwd : ∀ {m : Mem} {f F : Ptr} {W? : Option Ptr} {r : ℕ}, r ∈ o.residues → v.Args o m f F W? → padded m (W?.getD F) →
    (o.forward f F r W?).Ok m fun _ m' => m.Upd m' (fun p => InArr F o.outputSize p ∨ InW o W? p) ∧ padded m' (W?.getD F) ∧
      ∀ c < o.C, v.dom (fun j => v.x m f j c) → ∀ i < v.cnt r, v.X m' F r i c = v.T r i (fun j => v.x m f j c)
  bwd : ∀ {m : Mem} {f F : Ptr} {W? : Option Ptr} {r : ℕ}, r ∈ o.residues → v.Args o m f F W? →
    (o.backward F f r W?).Ok m fun _ m' => m.Upd m' (fun p => v.D f p ∨ InArr F o.outputSize p ∨ InW o W? p) ∧
      ∀ j < o.L, ∀ c < o.C, v.kdom r (fun i => v.X m F r i c) →
        v.x m' f j c = (if r = 0 then 0 else v.x m f j c) + v.K r j (fun i => v.X m F r i c)

variable {v : View} {o : FftBase} {padded : Mem → Ptr → Prop}

/-- Work arrays `F[0..k)` and `W`. -/
structure Work (o : FftBase) (mem : Mem) (F : PtrArr) (k : ℕ) (W? : Option Ptr) : Prop where
  n : k ≤ F.n
  sep : ∀ a < k, ∀ a' < k, a ≠ a' → (F.at_ a).buf ≠ (F.at_ a').buf
  bF : ∀ a < k, mem.block (F.at_ a) o.outputSize
  bW : if o.inplace then W? = none else ∃ W, W? = some W ∧ (∀ a < k, W.buf ≠ (F.at_ a).buf) ∧ mem.block W o.workSizeW

/-- Data arrays `f[0..k)` (shifted by `off`), in buffers different from those of `F[0..K)` and `W`. -/
structure Dat (v : View) (mem : Mem) (f : PtrArr) (off k : ℕ) (F : PtrArr) (K : ℕ) (W? : Option Ptr) : Prop where
  n : k ≤ f.n
  bf : ∀ a < k, ∀ p, v.D (f.at_ a + off) p → mem.valid p
  fF : ∀ a < k, ∀ a' < K, (f.at_ a).buf ≠ (F.at_ a').buf
  fW : ∀ a < k, ∀ W, W? = some W → W.buf ≠ (f.at_ a).buf

/-- The data words of different arrays are different. -/
def Apart (v : View) (f : PtrArr) (off k : ℕ) : Prop :=
  ∀ a < k, ∀ a' < k, a ≠ a' → ∀ p, v.D (f.at_ a + off) p → ¬ v.D (f.at_ a' + off) p

theorem Work.size {mem m' : Mem} {F : PtrArr} {k : ℕ} {W? : Option Ptr} (h : Work o mem F k W?) (hs : m'.size = mem.size) :
    Work o m' F k W? := by
  refine ⟨h.n, h.sep, fun a ha => FftBase.block_size hs (h.bF a ha), ?_⟩
  have := h.bW
  split_ifs at this ⊢
  · exact this
  · obtain ⟨W, h1, h2, h3⟩ := this
    exact ⟨W, h1, h2, FftBase.block_size hs h3⟩

theorem Dat.size {mem m' : Mem} {f F : PtrArr} {off k K : ℕ} {W? : Option Ptr} (h : v.Dat mem f off k F K W?)
    (hs : m'.size = mem.size) : v.Dat m' f off k F K W? :=
  ⟨h.n, fun a ha p hp => Mem.valid_of_size hs (h.bf a ha p hp), h.fF, h.fW⟩

theorem args_of {mem : Mem} {f F : PtrArr} {off k K : ℕ} {W? : Option Ptr} (hw : Work o mem F K W?)
    (hd : v.Dat mem f off k F K W?) {a a' : ℕ} (ha : a < k) (ha' : a' < K) :
    v.Args o mem (f.at_ a + off) (F.at_ a') W? := by
  refine ⟨by simpa using hd.fF a ha a' ha', hd.bf a ha, hw.bF a' ha', ?_⟩
  have := hw.bW
  split_ifs at this ⊢
  · exact this
  · obtain ⟨W, h1, h2, h3⟩ := this
    exact ⟨W, h1, h2 a' ha', by simpa using hd.fW a ha W h1, h3⟩

theorem Work.W_buf {mem : Mem} {F : PtrArr} {k : ℕ} {W? : Option Ptr} (hw : Work o mem F k W?) :
    ∀ W, W? = some W → ∀ a < k, W.buf ≠ (F.at_ a).buf := by
  intro W hW a ha
  have := hw.bW
  split_ifs at this
  · rw [this] at hW; simp at hW
  · obtain ⟨W', e, g4, _⟩ := this
    rw [hW] at e
    obtain rfl : W = W' := by simpa using e
    exact g4 a ha

theorem Work.mono {mem : Mem} {F : PtrArr} {k k' : ℕ} {W? : Option Ptr} (hw : Work o mem F k W?) (hk : k' ≤ k) :
    Work o mem F k' W? := by
  refine ⟨hk.trans hw.n, fun a ha a' ha' => hw.sep a (by omega) a' (by omega), fun a ha => hw.bF a (by omega), ?_⟩
  have := hw.bW
  split_ifs at this ⊢
  · exact this
  · obtain ⟨W, h1, h2, h3⟩ := this
    exact ⟨W, h1, fun a ha => h2 a (by omega), h3⟩

theorem Dat.mono {mem : Mem} {f F : PtrArr} {off k k' K K' : ℕ} {W? : Option Ptr} (hd : v.Dat mem f off k F K W?) (hk : k' ≤ k)
    (hK : K' ≤ K) : v.Dat mem f off k' F K' W? :=
  ⟨hk.trans hd.n, fun a ha => hd.bf a (by omega), fun a ha a' ha' => hd.fF a (by omega) a' (by omega),
    fun a ha => hd.fW a (by omega)⟩

theorem Pd.getD (h : v.Spec o padded) {mem : Mem} {F : PtrArr} {K : ℕ} {W? : Option Ptr} (hw : Work o mem F K W?) {m : Mem}
    (hp : FftBase.Pd padded W? m) (p : Ptr) : padded m (W?.getD p) := by
  have := hw.bW
  by_cases hi : o.inplace = true
  · exact h.pad_in hi _ _
  · rw [if_neg hi] at this
    obtain ⟨W, rfl, _⟩ := this
    exact hp W rfl

/-- Outputs in work array `F` are unaffected by updates elsewhere. -/
theorem Spec.X_frame (h : v.Spec o padded) {m m' : Mem} {R : Ptr → Prop} (u : m.Upd m' R) {F : Ptr}
    (hR : ∀ p, InArr F o.outputSize p → ¬ R p) {r : ℕ} (hr : r ∈ o.residues) {i c : ℕ} (hi : i < v.cnt r) (hc : c < o.C) :
    v.X m' F r i c = v.X m F r i c :=
  h.X_congr hr (fun k hk => u.frame _ (hR _ ⟨k, hk, rfl⟩)) i hi c hc

/-- Data at `f` are unaffected by updates elsewhere. -/
theorem Spec.x_frame (h : v.Spec o padded) {m m' : Mem} {R : Ptr → Prop} (u : m.Upd m' R) {f : Ptr}
    (hR : ∀ p, v.D f p → ¬ R p) {j c : ℕ} (hj : j < o.L) (hc : c < o.C) : v.x m' f j c = v.x m f j c :=
  h.x_congr (fun p hp => u.frame p (hR p hp)) j hj c hc

/-- The transforms of the inputs. -/
noncomputable def hat (v : View) (mem : Mem) (f : PtrArr) (off : ℕ) (r i : ℕ) : ℕ → ℕ → ℂ :=
  fun a c => v.T r i (fun j => v.x mem (f.at_ a + off) j c)

/-- `Convolution::forward`. -/
theorem fwdAll_ok (h : v.Spec o padded) {mem : Mem} {f F : PtrArr} {off k K : ℕ} {W? : Option Ptr}
    (hw : Work o mem F K W?) (hd : v.Dat mem f off k F K W?) (hp : FftBase.Pd padded W? mem) {r : ℕ} (hr : r ∈ o.residues)
    {start stop : ℕ} (hss : start ≤ stop) (hk : stop ≤ k) (hK : stop ≤ K) {G : Prop}
    (hG : G → ∀ a, start ≤ a → a < stop → ∀ c < o.C, v.dom (fun j => v.x mem (f.at_ a + off) j c)) :
    (fwdAll o W? f F r start stop off).Ok mem fun _ m' =>
      mem.Upd m' (fun p => (∃ a, start ≤ a ∧ a < stop ∧ InArr (F.at_ a) o.outputSize p) ∨ InW o W? p) ∧ FftBase.Pd padded W? m' ∧
      (G → ∀ a, start ≤ a → a < stop → ∀ i < v.cnt r, ∀ c < o.C, v.X m' (F.at_ a) r i c = v.hat mem f off r i a c) := by
  refine seqLoop_rngab hss (fun s m' =>
      mem.Upd m' (fun p => (∃ a, start ≤ a ∧ a < s ∧ InArr (F.at_ a) o.outputSize p) ∨ InW o W? p) ∧ FftBase.Pd padded W? m' ∧
      (G → ∀ a, start ≤ a → a < s → ∀ i < v.cnt r, ∀ c < o.C, v.X m' (F.at_ a) r i c = v.hat mem f off r i a c))
    ⟨Mem.Upd.refl _ _, hp, fun _ a h1 h2 => absurd h1 (by omega)⟩ ?_ (fun m hm => hm)
  rintro s m1 h1 h2 ⟨u1, p1, e1⟩
  rw [PtrArr.get_bind (by have := hd.n; omega), PtrArr.get_bind (by have := hw.n; omega)]
  have hw1 := hw.size u1.size
  have hd1 := hd.size u1.size
  have ha := args_of hw1 hd1 (a := s) (a' := s) (by omega) (by omega)
  refine (h.fwd hr ha (Pd.getD h hw1 p1 _)).mono ?_
  rintro _ m2 ⟨u2, p2, e2⟩
  refine ⟨u1.trans u2 ?_ ?_, ?_, ?_⟩
  · rintro p (⟨a, g1, g2, g3⟩ | hp)
    · exact Or.inl ⟨a, g1, by omega, g3⟩
    · exact Or.inr hp
  · rintro p (hp | hp)
    · exact Or.inl ⟨s, h1, by omega, hp⟩
    · exact Or.inr hp
  · rintro W rfl
    exact p2
  · intro g a ha1 ha2 i hi c hc
    by_cases has : a = s
    · subst has
      have hx : ∀ j < o.L, v.x m1 (f.at_ a + off) j c = v.x mem (f.at_ a + off) j c := by
        intro j hj
        refine h.x_frame u1 ?_ hj hc
        intro p hp
        have hpb := h.D_buf hp
        rw [Ptr.add_buf] at hpb
        rintro (⟨a', g1, g2, g3⟩ | ⟨W, hW, g3⟩)
        · exact hd.fF a (by omega) a' (by omega) (by rw [← hpb, FftBase.inArr_buf g3])
        · exact hd.fW a (by omega) W hW (by rw [← hpb, FftBase.inArr_buf g3])
      rw [e2 c hc (h.dom_congr (fun j hj => (hx j hj).symm) (hG g a ha1 h2 c hc)) i hi]
      exact h.T_congr hx
    · rw [h.X_frame u2 ?_ hr hi hc, e1 g a ha1 (by omega) i hi c hc]
      rintro p g2 (g3 | ⟨W, hW, g3⟩)
      · exact hw.sep a (by omega) s (by omega) has (by rw [← FftBase.inArr_buf g2, FftBase.inArr_buf g3])
      · exact hw.W_buf W hW a (by omega) (by rw [← FftBase.inArr_buf g2, FftBase.inArr_buf g3])

/-- `Convolution::backward`. -/
theorem bwdAll_ok (h : v.Spec o padded) {mem : Mem} {f F : PtrArr} {off k : ℕ} {W? : Option Ptr}
    {r : ℕ} (hr : r ∈ o.residues) {start stop : ℕ} (hss : start ≤ stop) (hw : Work o mem F stop W?)
    (hd : v.Dat mem f off k F stop W?) (hap : v.Apart f off k) (hk : stop ≤ k) :
    (bwdAll o W? F f r start stop off).Ok mem fun _ m' =>
      mem.Upd m' (fun p => (∃ a, start ≤ a ∧ a < stop ∧ (v.D (f.at_ a + off) p ∨ InArr (F.at_ a) o.outputSize p)) ∨ InW o W? p) ∧
      ∀ a, start ≤ a → a < stop → ∀ j < o.L, ∀ c < o.C, v.kdom r (fun i => v.X mem (F.at_ a) r i c) → v.x m' (f.at_ a + off) j c =
        (if r = 0 then 0 else v.x mem (f.at_ a + off) j c) + v.K r j (fun i => v.X mem (F.at_ a) r i c) := by
  refine seqLoop_rngab hss (fun s m' =>
      mem.Upd m' (fun p => (∃ a, start ≤ a ∧ a < s ∧ (v.D (f.at_ a + off) p ∨ InArr (F.at_ a) o.outputSize p)) ∨ InW o W? p) ∧
      ∀ a, start ≤ a → a < s → ∀ j < o.L, ∀ c < o.C, v.kdom r (fun i => v.X mem (F.at_ a) r i c) → v.x m' (f.at_ a + off) j c =
        (if r = 0 then 0 else v.x mem (f.at_ a + off) j c) + v.K r j (fun i => v.X mem (F.at_ a) r i c))
    ⟨Mem.Upd.refl _ _, fun a h1 h2 => absurd h1 (by omega)⟩ ?_ (fun m hm => hm)
  rintro s m1 h1 h2 ⟨u1, e1⟩
  rw [PtrArr.get_bind (by have := hw.n; omega), PtrArr.get_bind (by have := hd.n; omega)]
  have hw1 := hw.size u1.size
  have hd1 := hd.size u1.size
  have ha := args_of hw1 hd1 (a := s) (a' := s) (by omega) (by omega)
  have hDb : ∀ {a p}, v.D (f.at_ a + off) p → p.buf = (f.at_ a).buf := fun hp => by simpa using h.D_buf hp
  have hDF : ∀ a < k, ∀ a' < stop, ∀ p, v.D (f.at_ a + off) p → ¬ InArr (F.at_ a') o.outputSize p := fun a h3 a' h4 p h5 h6 =>
    hd.fF a h3 a' h4 (by rw [← hDb h5, FftBase.inArr_buf h6])
  have hDW : ∀ a < k, ∀ p, v.D (f.at_ a + off) p → ¬ InW o W? p := by
    rintro a h3 p h5 ⟨W, hW, h6⟩
    exact hd.fW a h3 W hW (by rw [← hDb h5, FftBase.inArr_buf h6])
  refine (h.bwd hr ha).mono ?_
  rintro _ m2 ⟨u2, e2⟩
  refine ⟨u1.trans u2 ?_ ?_, ?_⟩
  · rintro p (⟨a, g1, g2, g3⟩ | hp)
    · exact Or.inl ⟨a, g1, by omega, g3⟩
    · exact Or.inr hp
  · rintro p (hp | hp | hp)
    · exact Or.inl ⟨s, h1, by omega, Or.inl hp⟩
    · exact Or.inl ⟨s, h1, by omega, Or.inr hp⟩
    · exact Or.inr hp
  · intro a ha1 ha2 j hj c hc hkd
    by_cases has : a = s
    · subst has
      have hXX : ∀ i < v.cnt r, v.X m1 (F.at_ a) r i c = v.X mem (F.at_ a) r i c := by
        intro i hi
        refine h.X_frame u1 ?_ hr hi hc
        rintro p g4 (⟨a', g1, g2, g3 | g3⟩ | ⟨W, hW, g3⟩)
        · exact hDF a' (by omega) a (by omega) p g3 g4
        · exact hw.sep a (by omega) a' (by omega) (by omega) (by rw [← FftBase.inArr_buf g4, FftBase.inArr_buf g3])
        · exact hw.W_buf W hW a (by omega) (by rw [← FftBase.inArr_buf g4, FftBase.inArr_buf g3])
      rw [e2 j hj c hc (h.kdom_congr (fun i hi => (hXX i hi).symm) hkd)]
      congr 1
      · split_ifs
        · rfl
        · refine h.x_frame u1 ?_ hj hc
          rintro p g4 (⟨a', g1, g2, g3 | g3⟩ | g3)
          · exact hap a (by omega) a' (by omega) (by omega) _ g4 g3
          · exact hDF a (by omega) a' (by omega) p g4 g3
          · exact hDW a (by omega) p g4 g3
      · exact h.K_congr hXX
    · rw [h.x_frame u2 ?_ hj hc, e1 a ha1 (by omega) j hj c hc hkd]
      rintro p g4 (g3 | g3 | g3)
      · exact hap a (by omega) s (by omega) has _ g4 g3
      · exact hDF a (by omega) s (by omega) p g4 g3
      · exact hDW a (by omega) p g4 g3

/-- The operation applied to the transformed arrays: output `i` of the results is `Φ` of output `i` of the inputs, if these satisfy `P`. -/
structure OpSpec (v : View) (o : FftBase) (op : PtrArr → ℕ → Cmd Unit) (Φ : ℕ → ℕ → ℕ → (ℕ → ℕ → ℂ) → ℕ → ℂ) (P : ℕ → ℕ → (ℕ → ℕ → ℂ) → Prop)
    (T : ℕ → Prop) (Inv : Mem → Prop) : Prop where
  congr : ∀ r i b X Y, (∀ a < o.A, ∀ c < o.C, X a c = Y a c) → ∀ c < o.C, Φ r i b X c = Φ r i b Y c
  pcongr : ∀ r i X Y, (∀ a < o.A, ∀ c < o.C, X a c = Y a c) → P r i X → P r i Y
  inv : ∀ {m m' : Mem}, Inv m → m'.size = m.size → (∀ p : Ptr, T p.buf → m'.val p = m.val p) → Inv m'
  ok : ∀ {m : Mem} {F : PtrArr} {r : ℕ}, r ∈ o.residues → Inv m → max o.A o.B ≤ F.n →
    (∀ a < max o.A o.B, m.block (F.at_ a) o.outputSize) →
    (∀ a < max o.A o.B, ∀ a' < max o.A o.B, a ≠ a' → (F.at_ a).buf ≠ (F.at_ a').buf) →
    (∀ a < max o.A o.B, ¬ T (F.at_ a).buf) →
    (op F r).Ok m fun _ m' => Inv m' ∧
      m.Upd m' (fun p => T p.buf ∨ ∃ a < max o.A o.B, InArr (F.at_ a) o.outputSize p) ∧
      ((∀ i < v.cnt r, P r i (fun a c => v.X m (F.at_ a) r i c)) → ∀ b < o.B, ∀ i < v.cnt r, ∀ c < o.C, v.X m' (F.at_ b) r i c =
        Φ r i b (fun a c => v.X m (F.at_ a) r i c) c)

/-- The part of the result due to block `r`. -/
noncomputable def part (v : View) (Φ : ℕ → ℕ → ℕ → (ℕ → ℕ → ℂ) → ℕ → ℂ) (mem : Mem) (f : PtrArr) (off : ℕ)
    (r b j c : ℕ) : ℂ := v.K r j (fun i => Φ r i b (v.hat mem f off r i) c)

/-- The unnormalized result. -/
noncomputable def result (v : View) (o : FftBase) (Φ : ℕ → ℕ → ℕ → (ℕ → ℕ → ℂ) → ℕ → ℂ) (mem : Mem) (f : PtrArr) (off : ℕ)
    (b j c : ℕ) : ℂ := (o.residues.map fun r => v.part Φ mem f off r b j c).sum

/-- The data are ones for which the results are specified. -/
structure Good (v : View) (o : FftBase) (Φ : ℕ → ℕ → ℕ → (ℕ → ℕ → ℂ) → ℕ → ℂ) (P : ℕ → ℕ → (ℕ → ℕ → ℂ) → Prop) (mem : Mem) (f : PtrArr)
    (off : ℕ) : Prop where
  dom : ∀ a < o.A, ∀ c < o.C, v.dom (fun j => v.x mem (f.at_ a + off) j c)
  P : ∀ r ∈ o.residues, ∀ i < v.cnt r, P r i (v.hat mem f off r i)
  kdom : ∀ r ∈ o.residues, ∀ b < o.B, ∀ c < o.C, v.kdom r (fun i => Φ r i b (v.hat mem f off r i) c)

variable {op : PtrArr → ℕ → Cmd Unit} {Φ : ℕ → ℕ → ℕ → (ℕ → ℕ → ℂ) → ℕ → ℂ} {P : ℕ → ℕ → (ℕ → ℕ → ℂ) → Prop} {T : ℕ → Prop} {Inv : Mem → Prop}

theorem hat_congr (h : v.Spec o padded) {m m' : Mem} {f : PtrArr} {off r i : ℕ}
    (hv : ∀ a < o.A, ∀ p, v.D (f.at_ a + off) p → m'.val p = m.val p) :
    ∀ a < o.A, ∀ c < o.C, v.hat m' f off r i a c = v.hat m f off r i a c := by
  intro a ha c hc
  exact h.T_congr fun j hj => h.x_congr (hv a ha) j hj c hc

theorem part_congr (h : v.Spec o padded) (hop : v.OpSpec o op Φ P T Inv) {m m' : Mem} {f : PtrArr} {off : ℕ}
    (hv : ∀ a < o.A, ∀ p, v.D (f.at_ a + off) p → m'.val p = m.val p) {r b j c : ℕ} (hc : c < o.C) :
    v.part Φ m' f off r b j c = v.part Φ m f off r b j c :=
  h.K_congr fun i _ => hop.congr _ _ _ _ _ (hat_congr h hv) c hc

theorem Good.congr (h : v.Spec o padded) (hop : v.OpSpec o op Φ P T Inv) {m m' : Mem} {f : PtrArr} {off : ℕ}
    (hv : ∀ a < o.A, ∀ p, v.D (f.at_ a + off) p → m'.val p = m.val p) (hg : v.Good o Φ P m f off) : v.Good o Φ P m' f off := by
  refine ⟨fun a ha c hc => ?_, fun r hr i hi => ?_, fun r hr b hb c hc => ?_⟩
  · exact h.dom_congr (fun j hj => (h.x_congr (hv a ha) j hj c hc).symm) (hg.1 a ha c hc)
  · exact hop.pcongr _ _ _ _ (fun a ha c hc => (hat_congr h hv a ha c hc).symm) (hg.2 r hr i hi)
  · exact h.kdom_congr (fun i hi => hop.congr _ _ _ _ _ (fun a ha c hc => (hat_congr h hv a ha c hc).symm) c hc) (hg.3 r hr b hb c hc)

/-- The work words of a driver. -/
def Wk (o : FftBase) (F : PtrArr) (W? : Option Ptr) (T : ℕ → Prop) (p : Ptr) : Prop :=
  T p.buf ∨ (∃ a < max o.A o.B, InArr (F.at_ a) o.outputSize p) ∨ InW o W? p

/-- Data words are not work words. -/
theorem data_not_wk (h : v.Spec o padded) {mem : Mem} {f F : PtrArr} {off k : ℕ} {W? : Option Ptr} {T : ℕ → Prop}
    (hd : v.Dat mem f off k F (max o.A o.B) W?) (hT : ∀ a < k, ¬ T (f.at_ a).buf) {a : ℕ} (ha : a < k) {p : Ptr}
    (hp : v.D (f.at_ a + off) p) : ¬ Wk o F W? T p := by
  have hb : p.buf = (f.at_ a).buf := by simpa using h.D_buf hp
  rintro (h1 | ⟨a', ha', h1⟩ | ⟨W, hW, h1⟩)
  · rw [hb] at h1; exact hT a ha h1
  · have := FftBase.inArr_buf h1
    exact hd.fF a ha a' ha' (by rw [← hb, this])
  · have := FftBase.inArr_buf h1
    exact hd.fW a ha W hW (by rw [← hb, this])

/-- `forward` of all inputs, then the operation. -/
theorem fwdOp_ok (h : v.Spec o padded) (hop : v.OpSpec o op Φ P T Inv)
    {mem : Mem} {f F : PtrArr} {off : ℕ} {W? : Option Ptr}
    (hw : Work o mem F (max o.A o.B) W?) (hd : v.Dat mem f off o.A F (max o.A o.B) W?) (hts : o.TSep F W? T)
    (hp : FftBase.Pd padded W? mem) (hI : Inv mem) {r : ℕ} (hr : r ∈ o.residues) {G : Prop} (hG : G → v.Good o Φ P mem f off) :
    (do fwdAll o W? f F r 0 o.A off
        op F r : Cmd Unit).Ok mem fun _ m' =>
      mem.Upd m' (Wk o F W? T) ∧ FftBase.Pd padded W? m' ∧ Inv m' ∧
      (G → ∀ b < o.B, ∀ i < v.cnt r, ∀ c < o.C, v.X m' (F.at_ b) r i c = Φ r i b (v.hat mem f off r i) c) := by
  refine Cmd.Ok.bind ((fwdAll_ok h hw hd hp hr (Nat.zero_le _) le_rfl (le_max_left _ _) (fun g a _ ha => (hG g).1 a ha)).mono ?_)
  rintro _ m1 ⟨u1, p1, e1⟩
  have hw1 := hw.size u1.size
  have hI1 : Inv m1 := by
    refine hop.inv hI u1.size fun p hp => u1.frame p ?_
    rintro (⟨a, _, h2, h3⟩ | ⟨W, hW, h3⟩)
    · exact hts.F a (lt_of_lt_of_le h2 (le_max_left _ _)) (FftBase.inArr_buf h3 ▸ hp)
    · exact hts.W W hW (FftBase.inArr_buf h3 ▸ hp)
  refine (hop.ok hr hI1 hw1.n hw1.bF hw1.sep hts.F).mono ?_
  rintro _ m2 ⟨hI2, u2, e2⟩
  refine ⟨u1.trans u2 ?_ ?_, ?_, hI2, ?_⟩
  · rintro p (⟨a, _, h2, h3⟩ | h3)
    · exact Or.inr (Or.inl ⟨a, lt_of_lt_of_le h2 (le_max_left _ _), h3⟩)
    · exact Or.inr (Or.inr h3)
  · rintro p (h3 | h3)
    · exact Or.inl h3
    · exact Or.inr (Or.inl h3)
  · intro W hW
    refine h.pad_frame ?_ (p1 W hW)
    intro i _
    refine u2.frame _ ?_
    rintro (h3 | ⟨a, ha, h3⟩)
    · exact hts.W W hW (by simpa using h3)
    · exact hw.W_buf W hW a ha (by simpa using FftBase.inArr_buf h3)
  · intro g b hb i hi c hc
    have e1' := fun i hi => fun a ha c hc => e1 g a (Nat.zero_le _) ha i hi c hc
    rw [e2 (fun i hi => hop.pcongr _ _ _ _ (fun a ha c hc => (e1' i hi a ha c hc).symm) ((hG g).2 r hr i hi)) b hb i hi c hc]
    exact hop.congr _ _ _ _ _ (e1' i hi) c hc

/-- The work pointer passed to `backward`, and whether `pad` is called afterwards. -/
def BackW (o : FftBase) (F : PtrArr) (W? Wb : Option Ptr) (rp : Bool) : Prop :=
  (Wb = W? ∧ rp = W?.isSome) ∨ (Wb = some (F.at_ o.B) ∧ o.B < o.A ∧ o.inplace = false ∧ rp = false ∧ o.workSizeW ≤ o.outputSize)

theorem BackW.work {mem : Mem} {F : PtrArr} {W? Wb : Option Ptr} {rp : Bool} (hb : BackW o F W? Wb rp)
    (hw : Work o mem F (max o.A o.B) W?) : Work o mem F o.B Wb := by
  rcases hb with ⟨rfl, _⟩ | ⟨rfl, h1, h2, _, h3⟩
  · exact hw.mono (le_max_right _ _)
  · have := hw.mono (le_max_right _ _)
    refine ⟨this.n, this.sep, this.bF, ?_⟩
    rw [h2, if_neg (by simp)]
    have hlt : o.B < max o.A o.B := lt_of_lt_of_le h1 (le_max_left _ _)
    exact ⟨_, rfl, fun a ha => hw.sep _ hlt a (by omega) (by omega), fun i hi => hw.bF _ hlt i (by omega)⟩

theorem BackW.dat {mem : Mem} {h0 F : PtrArr} {Off k : ℕ} {W? Wb : Option Ptr} {rp : Bool} (hb : BackW o F W? Wb rp)
    (hd : v.Dat mem h0 Off k F (max o.A o.B) W?) : v.Dat mem h0 Off k F o.B Wb := by
  have h1 := hd.mono le_rfl (le_max_right o.A o.B)
  rcases hb with ⟨rfl, _⟩ | ⟨rfl, h2, _, _⟩
  · exact h1
  · refine ⟨h1.n, h1.bf, h1.fF, ?_⟩
    intro a ha W hW
    obtain rfl : F.at_ o.B = W := by simpa using hW
    exact (hd.fF a ha o.B (lt_of_lt_of_le h2 (le_max_left _ _))).symm

theorem BackW.inW {F : PtrArr} {W? Wb : Option Ptr} {rp : Bool} (hb : BackW o F W? Wb rp) {T : ℕ → Prop} {p : Ptr}
    (hp : InW o Wb p) : Wk o F W? T p := by
  rcases hb with ⟨rfl, _⟩ | ⟨rfl, h2, _, _, h4⟩
  · exact Or.inr (Or.inr hp)
  · obtain ⟨W, hW, i, hi, h3⟩ := hp
    obtain rfl : F.at_ o.B = W := by simpa using hW
    exact Or.inr (Or.inl ⟨o.B, lt_of_lt_of_le h2 (le_max_left _ _), i, by omega, h3⟩)

/-- `backward` of outputs `start..stop`, then the padding is re-established. -/
theorem bwdPad_ok (h : v.Spec o padded) {T : ℕ → Prop} {Inv : Mem → Prop}
    (hinv : ∀ {m m' : Mem}, Inv m → m'.size = m.size → (∀ p : Ptr, T p.buf → m'.val p = m.val p) → Inv m')
    {mem : Mem} {h0 F : PtrArr} {Off : ℕ} {W? Wb : Option Ptr} {rp : Bool}
    (hw : Work o mem F (max o.A o.B) W?) (hd : v.Dat mem h0 Off o.B F (max o.A o.B) W?) (hap : v.Apart h0 Off o.B)
    (hts : o.TSep F W? T) (hTh : ∀ b < o.B, ¬ T (h0.at_ b).buf) (hWb : BackW o F W? Wb rp)
    (hp : FftBase.Pd padded W? mem) (hI : Inv mem) {r : ℕ} (hr : r ∈ o.residues) {start stop : ℕ} (hss : start ≤ stop)
    (hsB : stop ≤ o.B) :
    (do bwdAll o Wb F h0 r start stop Off
        if rp then o.padCall Wb else pure () : Cmd Unit).Ok mem fun _ m' =>
      mem.Upd m' (fun p => (∃ b, start ≤ b ∧ b < stop ∧ (v.D (h0.at_ b + Off) p ∨ InArr (F.at_ b) o.outputSize p)) ∨
        InW o Wb p) ∧ FftBase.Pd padded W? m' ∧ Inv m' ∧
      ∀ b, start ≤ b → b < stop → ∀ j < o.L, ∀ c < o.C, v.kdom r (fun i => v.X mem (F.at_ b) r i c) → v.x m' (h0.at_ b + Off) j c =
        (if r = 0 then 0 else v.x mem (h0.at_ b + Off) j c) + v.K r j (fun i => v.X mem (F.at_ b) r i c) := by
  have hwb := hWb.work hw
  have hdb := hWb.dat hd
  refine Cmd.Ok.bind ((bwdAll_ok h hr hss (hwb.mono hsB) (hdb.mono le_rfl hsB) hap hsB).mono ?_)
  rintro _ m1 ⟨u1, e1⟩
  have hWT : ∀ W, Wb = some W → ¬ T W.buf := by
    intro W hW
    rcases hWb with ⟨rfl, _⟩ | ⟨rfl, h2, _, _⟩
    · exact hts.W W hW
    · obtain rfl : F.at_ o.B = W := by simpa using hW
      exact hts.F _ (lt_of_lt_of_le h2 (le_max_left _ _))
  have hDb : ∀ {a p}, v.D (h0.at_ a + Off) p → p.buf = (h0.at_ a).buf := fun hp => by simpa using h.D_buf hp
  have hI1 : Inv m1 := by
    refine hinv hI u1.size fun p hp => u1.frame p ?_
    rintro (⟨b, _, h2, h3 | h3⟩ | ⟨W, hW, h3⟩)
    · exact hTh b (by omega) (by rw [← hDb h3]; exact hp)
    · exact hts.F b (lt_of_lt_of_le (by omega) (le_max_right _ _)) (FftBase.inArr_buf h3 ▸ hp)
    · exact hWT W hW (FftBase.inArr_buf h3 ▸ hp)
  by_cases hrp : rp = true
  · rw [if_pos hrp]
    obtain ⟨rfl, hsome⟩ : Wb = W? ∧ rp = W?.isSome := by
      rcases hWb with h1 | ⟨_, _, _, h1, _⟩
      · exact h1
      · rw [h1] at hrp; simp at hrp
    unfold FftBase.padCall
    by_cases hpn : o.padNone = true
    · rw [if_pos hpn]
      exact Cmd.Ok.pure ⟨u1, fun W _ => h.pad_none hpn _ _, hI1, e1⟩
    · rw [if_neg hpn]
      have hbW := hwb.bW
      by_cases hi : o.inplace = true
      · rw [if_pos hi] at hbW
        rw [hbW, hrp] at hsome
        simp at hsome
      · rw [if_neg hi] at hbW
        obtain ⟨W, rfl, hW1, hW2⟩ := hbW
        refine (h.padOk (by simpa using hi) (FftBase.block_size u1.size hW2)).mono ?_
        rintro _ m2 ⟨u2, p2⟩
        refine ⟨u1.trans u2 (fun p hp => hp) (fun p hp => Or.inr ⟨W, rfl, hp⟩), ?_, ?_, ?_⟩
        · intro W' hW'
          obtain rfl : W = W' := by simpa using hW'
          exact p2
        · refine hinv hI1 u2.size fun p hp => u2.frame p fun h3 => ?_
          exact hWT W rfl (FftBase.inArr_buf h3 ▸ hp)
        · intro b hb1 hb2 j hj c hc hkd
          rw [h.x_frame u2 ?_ hj hc, e1 b hb1 hb2 j hj c hc hkd]
          intro p h2 h3
          exact hdb.fW b (by omega) W rfl (by rw [← hDb h2, FftBase.inArr_buf h3])
  · rw [if_neg hrp]
    refine Cmd.Ok.pure ⟨u1, ?_, hI1, e1⟩
    intro W hW
    rcases hWb with ⟨rfl, h1⟩ | ⟨rfl, h2, _, _⟩
    · rw [hW] at h1; exact absurd h1 hrp
    · refine h.pad_frame ?_ (hp W hW)
      intro i _
      refine u1.frame _ ?_
      rintro (⟨b, _, g2, h3 | h3⟩ | ⟨W', hW', h3⟩)
      · exact hd.fW b (by omega) W hW (by simpa using hDb h3)
      · exact hw.W_buf W hW b (lt_of_lt_of_le (by omega) (le_max_right _ _)) (by simpa using FftBase.inArr_buf h3)
      · obtain rfl : F.at_ o.B = W' := by simpa using hW'
        exact hw.W_buf W hW o.B (lt_of_lt_of_le h2 (le_max_left _ _)) (by simpa using FftBase.inArr_buf h3)

end View
end Fftwpp
