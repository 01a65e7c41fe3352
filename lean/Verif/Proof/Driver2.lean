import Verif.Proof.Driver

/-! One pass of the residue loop of a driver, and the loop. -/

namespace Fftwpp
open Finset
namespace FftBase

/-- The operation applied to the transformed arrays: row `i` of the outputs is `Φ` of row `i` of the inputs (`Φ` may depend
on the frequency `index(r,i)`), if row `i` of the inputs is in the domain `P`.  `T` tells the buffers of its own work arrays, `Inv` is its own invariant. -/
structure OpSpec (o : FftBase) (op : PtrArr → ℕ → Cmd Unit) (Φ : ℕ → ℕ → (ℕ → ℕ → ℂ) → ℕ → ℂ) (T : ℕ → Prop)
    (Inv : Mem → Prop) (P : (ℕ → ℕ → ℂ) → Prop := fun _ => True) : Prop where
  congr : ∀ e b X Y, (∀ a < o.A, ∀ c < o.C, X a c = Y a c) → ∀ c < o.C, Φ e b X c = Φ e b Y c
  dom : ∀ X Y, (∀ a < o.A, ∀ c < o.C, X a c = Y a c) → P X → P Y
  inv : ∀ {m m' : Mem}, Inv m → m'.size = m.size → (∀ p : Ptr, T p.buf → m'.val p = m.val p) → Inv m'
  ok : ∀ {m : Mem} {F : PtrArr} {r : ℕ}, r ∈ o.residues → Inv m → max o.A o.B ≤ F.n →
    (∀ a < max o.A o.B, m.block (F.at_ a) o.outputSize) →
    (∀ a < max o.A o.B, ∀ a' < max o.A o.B, a ≠ a' → (F.at_ a).buf ≠ (F.at_ a').buf) →
    (∀ a < max o.A o.B, ¬ T (F.at_ a).buf) →
    (op F r).Ok m fun _ m' => Inv m' ∧
      m.Upd m' (fun p => T p.buf ∨ ∃ a < max o.A o.B, InArr (F.at_ a) o.outputSize p) ∧
      ∀ b < o.B, ∀ i < o.noutputs r, P (fun a c => m.val (F.at_ a + (o.S * i + o.col c))) → ∀ c < o.C,
        m'.val (F.at_ b + (o.S * i + o.col c)) = Φ (o.index r i) b (fun a c => m.val (F.at_ a + (o.S * i + o.col c))) c

variable {o : FftBase} {x0 : ℤ} {padded : Mem → Ptr → Prop}

/-- The transforms of the inputs. -/
noncomputable def hat (o : FftBase) (x0 : ℤ) (mem : Mem) (f : PtrArr) (off : ℕ) (e : ℕ) : ℕ → ℕ → ℂ :=
  fun a c => o.dft x0 (fun j => mem.val (f.at_ a + off + (o.S * j + o.col c))) e

/-- The transforms of the inputs are in the domain. -/
def Good (o : FftBase) (x0 : ℤ) (P : (ℕ → ℕ → ℂ) → Prop) (mem : Mem) (f : PtrArr) (off : ℕ) : Prop := ∀ e : ℕ, P (o.hat x0 mem f off e)

/-- The unnormalized result. -/
noncomputable def result (o : FftBase) (x0 : ℤ) (Φ : ℕ → ℕ → (ℕ → ℕ → ℂ) → ℕ → ℂ) (mem : Mem) (f : PtrArr) (off : ℕ)
    (b j c : ℕ) : ℂ := ∑ e ∈ range o.N, Φ e b (o.hat x0 mem f off e) c * w o.N (-(((j : ℤ) - x0) * (e : ℤ)))

/-- The part of the result due to block `r`. -/
noncomputable def part (o : FftBase) (x0 : ℤ) (Φ : ℕ → ℕ → (ℕ → ℕ → ℂ) → ℕ → ℂ) (mem : Mem) (f : PtrArr) (off : ℕ)
    (r b j c : ℕ) : ℂ := ∑ i ∈ range (o.noutputs r), Φ (o.index r i) b (o.hat x0 mem f off (o.index r i)) c *
      w o.N (-(((j : ℤ) - x0) * (o.index r i : ℤ)))

theorem sum_part (h : o.Spec x0 padded) {Φ} {mem : Mem} {f : PtrArr} {off b j c : ℕ} :
    (o.residues.map fun r => o.part x0 Φ mem f off r b j c).sum = o.result x0 Φ mem f off b j c :=
  h.sum fun e => Φ e b (o.hat x0 mem f off e) c * w o.N (-(((j : ℤ) - x0) * (e : ℤ)))

theorem hat_congr {m m' : Mem} {f : PtrArr} {off e : ℕ}
    (hv : ∀ a < o.A, ∀ p, o.Data (f.at_ a + off) p → m'.val p = m.val p) :
    ∀ a < o.A, ∀ c < o.C, o.hat x0 m' f off e a c = o.hat x0 m f off e a c := by
  intro a ha c hc
  unfold hat dft
  refine sum_congr rfl fun j hj => ?_
  simp only
  rw [hv a ha _ ⟨j, mem_range.1 hj, c, hc, rfl⟩]

theorem part_congr {op Φ T Inv P} (hop : o.OpSpec op Φ T Inv P) {m m' : Mem} {f : PtrArr} {off : ℕ}
    (hv : ∀ a < o.A, ∀ p, o.Data (f.at_ a + off) p → m'.val p = m.val p) {r b j c : ℕ} (hc : c < o.C) :
    o.part x0 Φ m' f off r b j c = o.part x0 Φ m f off r b j c := by
  unfold part
  refine sum_congr rfl fun i _ => ?_
  rw [hop.congr _ _ _ _ (hat_congr hv) c hc]

/-- The work words of a driver. -/
def Wk (o : FftBase) (F : PtrArr) (W? : Option Ptr) (T : ℕ → Prop) (p : Ptr) : Prop :=
  T p.buf ∨ (∃ a < max o.A o.B, InArr (F.at_ a) o.outputSize p) ∨ o.InW W? p

/-- Separation of the operation's own work arrays. -/
structure TSep (o : FftBase) (F : PtrArr) (W? : Option Ptr) (T : ℕ → Prop) : Prop where
  F : ∀ a < max o.A o.B, ¬ T (F.at_ a).buf
  W : ∀ W, W? = some W → ¬ T W.buf

theorem Work.W_buf {mem : Mem} {F : PtrArr} {k : ℕ} {W? : Option Ptr} (hw : o.Work mem F k W?) :
    ∀ W, W? = some W → ∀ a < k, W.buf ≠ (F.at_ a).buf := by
  intro W hW a ha
  have := hw.bW
  split_ifs at this
  · rw [this] at hW; simp at hW
  · obtain ⟨W', e, g4, _⟩ := this
    rw [hW] at e
    obtain rfl : W = W' := by simpa using e
    exact g4 a ha

theorem Work.mono {mem : Mem} {F : PtrArr} {k k' : ℕ} {W? : Option Ptr} (hw : o.Work mem F k W?) (hk : k' ≤ k) :
    o.Work mem F k' W? := by
  refine ⟨hk.trans hw.n, fun a ha a' ha' => hw.sep a (by omega) a' (by omega), fun a ha => hw.bF a (by omega), ?_⟩
  have := hw.bW
  split_ifs at this ⊢
  · exact this
  · obtain ⟨W, h1, h2, h3⟩ := this
    exact ⟨W, h1, fun a ha => h2 a (by omega), h3⟩

theorem Dat.mono {mem : Mem} {f F : PtrArr} {off k k' K K' : ℕ} {W? : Option Ptr} (hd : o.Dat mem f off k F K W?) (hk : k' ≤ k)
    (hK : K' ≤ K) : o.Dat mem f off k' F K' W? :=
  ⟨hk.trans hd.n, fun a ha => hd.bf a (by omega), fun a ha a' ha' => hd.fF a (by omega) a' (by omega),
    fun a ha => hd.fW a (by omega)⟩

/-- Data words are not work words. -/
theorem data_not_wk {mem : Mem} {f F : PtrArr} {off k : ℕ} {W? : Option Ptr} {T : ℕ → Prop}
    (hd : o.Dat mem f off k F (max o.A o.B) W?) (hT : ∀ a < k, ¬ T (f.at_ a).buf) {a : ℕ} (ha : a < k) {p : Ptr}
    (hp : o.Data (f.at_ a + off) p) : ¬ o.Wk F W? T p := by
  have hb : p.buf = (f.at_ a).buf := by simpa using data_buf hp
  rintro (h1 | ⟨a', ha', h1⟩ | ⟨W, hW, h1⟩)
  · rw [hb] at h1; exact hT a ha h1
  · have := inArr_buf h1
    exact hd.fF a ha a' ha' (by rw [← hb, this])
  · have := inArr_buf h1
    exact hd.fW a ha W hW (by rw [← hb, this])

/-- `forward` of all inputs, then the operation. -/
theorem fwdOp_ok (h : o.Spec x0 padded) (how : o.overwrite = false) {op Φ T Inv P} (hop : o.OpSpec op Φ T Inv P)
    {mem : Mem} {f F : PtrArr} {off : ℕ} {W? : Option Ptr}
    (hw : o.Work mem F (max o.A o.B) W?) (hd : o.Dat mem f off o.A F (max o.A o.B) W?) (hts : o.TSep F W? T)
    (hp : Pd padded W? mem) (hI : Inv mem) {r : ℕ} (hr : r ∈ o.residues) :
    (do fwdAll o W? f F r 0 o.A off
        op F r : Cmd Unit).Ok mem fun _ m' =>
      mem.Upd m' (o.Wk F W? T) ∧ Pd padded W? m' ∧ Inv m' ∧
      ∀ b < o.B, ∀ i < o.noutputs r, P (o.hat x0 mem f off (o.index r i)) → ∀ c < o.C,
        m'.val (F.at_ b + (o.S * i + o.col c)) = Φ (o.index r i) b (o.hat x0 mem f off (o.index r i)) c := by
  refine Cmd.Ok.bind ((fwdAll_ok h how hw hd hp hr (Nat.zero_le _) le_rfl (le_max_left _ _)).mono ?_)
  rintro _ m1 ⟨u1, p1, e1⟩
  have hw1 := hw.size u1.size
  have hI1 : Inv m1 := by
    refine hop.inv hI u1.size fun p hp => u1.frame p ?_
    rintro (⟨a, _, h2, h3⟩ | ⟨W, hW, h3⟩)
    · exact hts.F a (lt_of_lt_of_le h2 (le_max_left _ _)) (inArr_buf h3 ▸ hp)
    · exact hts.W W hW (inArr_buf h3 ▸ hp)
  refine (hop.ok hr hI1 hw1.n hw1.bF hw1.sep hts.F).mono ?_
  rintro _ m2 ⟨hI2, u2, e2⟩
  refine ⟨u1.trans u2 ?_ ?_, ?_, hI2, ?_⟩
  · rintro p (⟨a, _, h2, h3⟩ | h3)
    · exact Or.inr (Or.inl ⟨a, lt_of_lt_of_le h2 (le_max_left _ _), h3⟩)
    · exact Or.inr (Or.inr h3)
  · rintro p (h3 | h3)
    · exact Or.inl h3
    · exact Or.inr (Or.inl h3)
  · intro W hW
    refine h.pad_frame ?_ (p1 W hW)
    intro i _
    refine u2.frame _ ?_
    rintro (h3 | ⟨a, ha, h3⟩)
    · exact hts.W W hW (by simpa using h3)
    · exact hw.W_buf W hW a ha (by simpa using inArr_buf h3)
  · intro b hb i hi hP c hc
    have he : ∀ a < o.A, ∀ c' < o.C, m1.val (F.at_ a + (o.S * i + o.col c')) = o.hat x0 mem f off (o.index r i) a c' :=
      fun a ha c' hc' => e1 a (Nat.zero_le _) ha i hi c' hc'
    rw [e2 b hb i hi (hop.dom _ _ (fun a ha c' hc' => (he a ha c' hc').symm) hP) c hc]
    exact hop.congr _ _ _ _ he c hc

/-- The work pointer passed to `backward`, and whether `pad` is called afterwards. -/
def BackW (o : FftBase) (F : PtrArr) (W? Wb : Option Ptr) (rp : Bool) : Prop :=
  (Wb = W? ∧ rp = W?.isSome) ∨ (Wb = some (F.at_ o.B) ∧ o.B < o.A ∧ o.inplace = false ∧ rp = false)

theorem BackW.work {mem : Mem} {F : PtrArr} {W? Wb : Option Ptr} {rp : Bool} (hb : o.BackW F W? Wb rp)
    (hw : o.Work mem F (max o.A o.B) W?) : o.Work mem F o.B Wb := by
  rcases hb with ⟨rfl, _⟩ | ⟨rfl, h1, h2, _⟩
  · exact hw.mono (le_max_right _ _)
  · have := hw.mono (le_max_right _ _)
    refine ⟨this.n, this.sep, this.bF, ?_⟩
    rw [h2, if_neg (by simp)]
    have hlt : o.B < max o.A o.B := lt_of_lt_of_le h1 (le_max_left _ _)
    exact ⟨_, rfl, fun a ha => hw.sep _ hlt a (by omega) (by omega), hw.bF _ hlt⟩

theorem BackW.dat {mem : Mem} {h0 F : PtrArr} {Off k : ℕ} {W? Wb : Option Ptr} {rp : Bool} (hb : o.BackW F W? Wb rp)
    (hd : o.Dat mem h0 Off k F (max o.A o.B) W?) : o.Dat mem h0 Off k F o.B Wb := by
  have h1 := hd.mono le_rfl (le_max_right o.A o.B)
  rcases hb with ⟨rfl, _⟩ | ⟨rfl, h2, _, _⟩
  · exact h1
  · refine ⟨h1.n, h1.bf, h1.fF, ?_⟩
    intro a ha W hW
    obtain rfl : F.at_ o.B = W := by simpa using hW
    exact (hd.fF a ha o.B (lt_of_lt_of_le h2 (le_max_left _ _))).symm

theorem BackW.inW {F : PtrArr} {W? Wb : Option Ptr} {rp : Bool} (hb : o.BackW F W? Wb rp) {T : ℕ → Prop} {p : Ptr}
    (hp : o.InW Wb p) : o.Wk F W? T p := by
  rcases hb with ⟨rfl, _⟩ | ⟨rfl, h2, _, _⟩
  · exact Or.inr (Or.inr hp)
  · obtain ⟨W, hW, h3⟩ := hp
    obtain rfl : F.at_ o.B = W := by simpa using hW
    exact Or.inr (Or.inl ⟨o.B, lt_of_lt_of_le h2 (le_max_left _ _), h3⟩)

/-- `backward` of outputs `start..stop`, then the padding is re-established. -/
theorem bwdPad_ok (h : o.Spec x0 padded) (how : o.overwrite = false) {T : ℕ → Prop} {Inv : Mem → Prop}
    (hinv : ∀ {m m' : Mem}, Inv m → m'.size = m.size → (∀ p : Ptr, T p.buf → m'.val p = m.val p) → Inv m')
    {mem : Mem} {h0 F : PtrArr} {Off : ℕ} {W? Wb : Option Ptr} {rp : Bool}
    (hw : o.Work mem F (max o.A o.B) W?) (hd : o.Dat mem h0 Off o.B F (max o.A o.B) W?) (hap : o.Apart h0 Off o.B)
    (hts : o.TSep F W? T) (hTh : ∀ b < o.B, ¬ T (h0.at_ b).buf) (hWb : o.BackW F W? Wb rp)
    (hp : Pd padded W? mem) (hI : Inv mem) {r : ℕ} (hr : r ∈ o.residues) {start stop : ℕ} (hss : start ≤ stop)
    (hsB : stop ≤ o.B) :
    (do bwdAll o Wb F h0 r start stop Off
        if rp then o.padCall Wb else pure () : Cmd Unit).Ok mem fun _ m' =>
      mem.Upd m' (fun p => (∃ b, start ≤ b ∧ b < stop ∧ (o.Data (h0.at_ b + Off) p ∨ InArr (F.at_ b) o.outputSize p)) ∨
        o.InW Wb p) ∧ Pd padded W? m' ∧ Inv m' ∧
      ∀ b, start ≤ b → b < stop → ∀ j < o.L, ∀ c < o.C, m'.val (h0.at_ b + Off + (o.S * j + o.col c)) =
        (if r = 0 then 0 else mem.val (h0.at_ b + Off + (o.S * j + o.col c))) +
        ∑ i ∈ range (o.noutputs r), mem.val (F.at_ b + (o.S * i + o.col c)) * w o.N (-(((j : ℤ) - x0) * (o.index r i : ℤ))) := by
  have hwb := hWb.work hw
  have hdb := hWb.dat hd
  refine Cmd.Ok.bind ((bwdAll_ok h how hr hss (hwb.mono hsB) (hdb.mono le_rfl hsB) hap hsB).mono ?_)
  rintro _ m1 ⟨u1, e1⟩
  have hWT : ∀ W, Wb = some W → ¬ T W.buf := by
    intro W hW
    rcases hWb with ⟨rfl, _⟩ | ⟨rfl, h2, _, _⟩
    · exact hts.W W hW
    · obtain rfl : F.at_ o.B = W := by simpa using hW
      exact hts.F _ (lt_of_lt_of_le h2 (le_max_left _ _))
  have hI1 : Inv m1 := by
    refine hinv hI u1.size fun p hp => u1.frame p ?_
    rintro (⟨b, _, h2, h3 | h3⟩ | ⟨W, hW, h3⟩)
    · exact hTh b (by omega) (by have := data_buf h3; rw [this] at hp; simpa using hp)
    · exact hts.F b (lt_of_lt_of_le (by omega) (le_max_right _ _)) (inArr_buf h3 ▸ hp)
    · exact hWT W hW (inArr_buf h3 ▸ hp)
  by_cases hrp : rp = true
  · rw [if_pos hrp]
    obtain ⟨rfl, hsome⟩ : Wb = W? ∧ rp = W?.isSome := by
      rcases hWb with h1 | ⟨_, _, _, h1⟩
      · exact h1
      · rw [h1] at hrp; simp at hrp
    unfold padCall
    by_cases hpn : o.padNone = true
    · rw [if_pos hpn]
      exact Cmd.Ok.pure ⟨u1, fun W _ => h.pad_none hpn _ _, hI1, e1⟩
    · rw [if_neg hpn]
      have hbW := hwb.bW
      by_cases hi : o.inplace = true
      · rw [if_pos hi] at hbW
        rw [hbW, hrp] at hsome
        simp at hsome
      · rw [if_neg hi] at hbW
        obtain ⟨W, rfl, hW1, hW2⟩ := hbW
        refine (h.padOk (by simpa using hi) (block_size u1.size hW2)).mono ?_
        rintro _ m2 ⟨u2, p2⟩
        refine ⟨u1.trans u2 (fun p hp => hp) (fun p hp => Or.inr ⟨W, rfl, hp⟩), ?_, ?_, ?_⟩
        · intro W' hW'
          obtain rfl : W = W' := by simpa using hW'
          exact p2
        · refine hinv hI1 u2.size fun p hp => u2.frame p fun h3 => ?_
          exact hWT W rfl (inArr_buf h3 ▸ hp)
        · intro b hb1 hb2 j hj c hc
          rw [u2.frame, e1 b hb1 hb2 j hj c hc]
          intro h3
          exact hdb.fW b (by omega) W rfl (by simpa using (inArr_buf h3).symm)
  · rw [if_neg hrp]
    refine Cmd.Ok.pure ⟨u1, ?_, hI1, e1⟩
    intro W hW
    rcases hWb with ⟨rfl, h1⟩ | ⟨rfl, h2, _, _⟩
    · rw [hW] at h1; exact absurd h1 hrp
    · refine h.pad_frame ?_ (hp W hW)
      intro i _
      refine u1.frame _ ?_
      rintro (⟨b, _, g2, h3 | h3⟩ | ⟨W', hW', h3⟩)
      · exact hd.fW b (by omega) W hW (by simpa using data_buf h3)
      · exact hw.W_buf W hW b (lt_of_lt_of_le (by omega) (le_max_right _ _)) (by simpa using inArr_buf h3)
      · obtain rfl : F.at_ o.B = W' := by simpa using hW'
        exact hw.W_buf W hW o.B (lt_of_lt_of_le h2 (le_max_left _ _)) (by simpa using inArr_buf h3)

end FftBase
end Fftwpp
