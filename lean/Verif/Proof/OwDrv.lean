import Verif.Proof.Driver3

/-! The overwriting schedule of a driver: forward transforms over the inputs, one operation per residue, backward transforms.
Generic over the transform class. -/

namespace Fftwpp
open Finset
namespace FftBase
variable {o : FftBase} {x0 : ℤ} {freq : ℕ → ℕ → ℕ}

/-- What the overwriting schedule relies on: all residues are transformed at once, the first `n-1` of them in the data array and the
last one in the work array.  `freq r i` is the frequency (modulo `N`) of position `i` of residue block `r`. -/
structure OwSpec (o : FftBase) (x0 : ℤ) (freq : ℕ → ℕ → ℕ) : Prop where
  q1 : o.q ≠ 1
  inpl : o.inplace = true
  BA : o.B ≤ o.A
  col_lt : ∀ c < o.C, o.col c < o.S
  bs : ∀ r, o.blocksize r = o.l
  L_eq : o.L = (o.n - 1) * o.l
  l_pos : 0 < o.l
  n_pos : 0 < o.n
  res : ∀ r < o.n, r ∈ o.residues
  out : o.outputSize = o.S * o.l
  sum : ∀ g : ℕ → ℂ, (∑ r ∈ range (o.n - 1), ∑ i ∈ range o.l, g (freq r i)) + ∑ i ∈ range o.l, g (freq (o.n - 1) i) = ∑ e ∈ range o.N, g e
  idx : o.n = 2 → ∀ r < 2, ∀ i < o.l, o.index r i = freq r i
  fwd : ∀ {m : Mem} {f F : Ptr} (r : ℕ) (W? : Option Ptr), f.buf ≠ F.buf → (∀ p, o.Data f p → m.valid p) → (∀ p, o.Cols F p → m.valid p) →
    (o.forward f F r W?).Ok m fun _ m' => m.Upd m' (fun p => o.Data f p ∨ o.Cols F p) ∧
      (∀ r < o.n - 1, ∀ i < o.l, ∀ c < o.C, m'.val (f + (o.S * (o.l * r + i) + o.col c)) =
        o.dft x0 (fun j => m.val (f + (o.S * j + o.col c))) (freq r i)) ∧
      ∀ i < o.l, ∀ c < o.C, m'.val (F + (o.S * i + o.col c)) = o.dft x0 (fun j => m.val (f + (o.S * j + o.col c))) (freq (o.n - 1) i)
  bwd : ∀ {m : Mem} {f F : Ptr} (r : ℕ) (W? : Option Ptr), f.buf ≠ F.buf → (∀ p, o.Data f p → m.valid p) → (∀ p, o.Cols F p → m.valid p) →
    (o.backward F f r W?).Ok m fun _ m' => m.Upd m' (fun p => o.Data f p ∨ o.Cols F p) ∧
      ∀ j < o.L, ∀ c < o.C, m'.val (f + (o.S * j + o.col c)) =
        (∑ r ∈ range (o.n - 1), ∑ i ∈ range o.l, m.val (f + (o.S * (o.l * r + i) + o.col c)) * w o.N (-(((j : ℤ) - x0) * (freq r i : ℤ)))) +
        ∑ i ∈ range o.l, m.val (F + (o.S * i + o.col c)) * w o.N (-(((j : ℤ) - x0) * (freq (o.n - 1) i : ℤ)))

/-- Arguments of a driver with the overwriting schedule. -/
structure OwArgs (o : FftBase) (mem : Mem) (g : PtrArr) (off : ℕ) (F : PtrArr) : Prop where
  gn : o.A ≤ g.n
  Fn : o.A ≤ F.n
  bg : ∀ a < o.A, ∀ p, o.Data (g.at_ a + off) p → mem.valid p
  bF : ∀ a < o.A, ∀ p, o.Cols (F.at_ a) p → mem.valid p
  gF : ∀ a < o.A, ∀ a' < o.A, (g.at_ a).buf ≠ (F.at_ a').buf
  FF : ∀ a < o.A, ∀ a' < o.A, a ≠ a' → (F.at_ a).buf ≠ (F.at_ a').buf
  gg : o.Apart g off o.A

theorem OwArgs.size {mem m1 : Mem} {g F : PtrArr} {off : ℕ} (ha : o.OwArgs mem g off F) (hs : m1.size = mem.size) : o.OwArgs m1 g off F :=
  ⟨ha.gn, ha.Fn, fun a h1 p h2 => Mem.valid_of_size hs (ha.bg a h1 p h2), fun a h1 p h2 => Mem.valid_of_size hs (ha.bF a h1 p h2), ha.gF, ha.FF, ha.gg⟩

theorem OwSpec.data (h : o.OwSpec x0 freq) {f : Ptr} {r i c : ℕ} (hr : r < o.n - 1) (hi : i < o.l) (hc : c < o.C) :
    o.Data f (f + (o.S * (o.l * r + i) + o.col c)) := by
  refine ⟨o.l * r + i, ?_, c, hc, rfl⟩
  rw [h.L_eq, Nat.mul_comm (o.n - 1)]
  exact radix_lt hi hr

theorem OwSpec.cols (h : o.OwSpec x0 freq) {F : Ptr} {i c : ℕ} (hi : i < o.l) (hc : c < o.C) : o.Cols F (F + (o.S * i + o.col c)) := by
  refine ⟨i, ?_, c, hc, rfl⟩
  rw [h.out]
  exact Nat.mul_le_mul_left _ hi

/-- The words of input `a` and its work array. -/
def OwWord (o : FftBase) (g : PtrArr) (off : ℕ) (F : PtrArr) (a : ℕ) (p : Ptr) : Prop :=
  o.Data (g.at_ a + off) p ∨ o.Cols (F.at_ a) p

theorem OwArgs.apart {mem : Mem} {g F : PtrArr} {off : ℕ} (ha : o.OwArgs mem g off F) {a a' : ℕ} (h1 : a < o.A) (h2 : a' < o.A) (hne : a ≠ a')
    {p : Ptr} (hp : o.OwWord g off F a p) : ¬ o.OwWord g off F a' p := by
  rintro (h3 | h3) <;> rcases hp with h4 | h4
  · exact ha.gg a h1 a' h2 hne p h4 h3
  · exact ha.gF a' h2 a h1 (by rw [← h4.buf]; simpa using (FftBase.data_buf h3).symm)
  · exact ha.gF a h1 a' h2 (by rw [← h3.buf]; simpa using (FftBase.data_buf h4).symm)
  · exact ha.FF a h1 a' h2 hne (by rw [← h4.buf, ← h3.buf])

/-- Forward transforms of all inputs. -/
theorem owFwdAll (h : o.OwSpec x0 freq) {mem : Mem} {g F : PtrArr} {off : ℕ} (ha : o.OwArgs mem g off F) (r0 : ℕ) (W? : Option Ptr) :
    (fwdAll o W? g F r0 0 o.A off).Ok mem fun _ m' => mem.Upd m' (fun p => ∃ a < o.A, o.OwWord g off F a p) ∧
      ∀ a < o.A, (∀ r < (o.n - 1), ∀ i < o.l, ∀ c < o.C, m'.val (g.at_ a + off + (o.S * (o.l * r + i) + o.col c)) =
          o.hat x0 mem g off (freq r i) a c) ∧
        ∀ i < o.l, ∀ c < o.C, m'.val (F.at_ a + (o.S * i + o.col c)) = o.hat x0 mem g off (freq (o.n - 1) i) a c := by
  refine seqLoop_rngab (Nat.zero_le _) (fun s m' => mem.Upd m' (fun p => ∃ a < s, o.OwWord g off F a p) ∧
      ∀ a < s, (∀ r < (o.n - 1), ∀ i < o.l, ∀ c < o.C, m'.val (g.at_ a + off + (o.S * (o.l * r + i) + o.col c)) =
          o.hat x0 mem g off (freq r i) a c) ∧
        ∀ i < o.l, ∀ c < o.C, m'.val (F.at_ a + (o.S * i + o.col c)) = o.hat x0 mem g off (freq (o.n - 1) i) a c)
    ⟨Mem.Upd.refl _ _, fun a h2 => absurd h2 (by omega)⟩ ?_ (fun m hm => hm)
  rintro s m1 - h2 ⟨u1, e1⟩
  rw [PtrArr.get_bind (by have := ha.gn; omega), PtrArr.get_bind (by have := ha.Fn; omega)]
  refine (h.fwd r0 W? (by simpa using ha.gF s h2 s h2) ((ha.size u1.size).bg s h2) ((ha.size u1.size).bF s h2)).mono ?_
  rintro _ m2 ⟨u2, ef, eF⟩
  change m1.Upd m2 (o.OwWord g off F s) at u2
  have hsame : ∀ p, o.OwWord g off F s p → m1.val p = mem.val p := by
    intro p hp
    refine u1.frame p ?_
    rintro ⟨a, h3, h4⟩
    exact ha.apart (by omega) h2 (by omega) h4 hp
  refine ⟨u1.trans u2 (fun p ⟨a, h3, h4⟩ => ⟨a, by omega, h4⟩) (fun p hp => ⟨s, by omega, hp⟩), ?_⟩
  intro a h3
  by_cases has : a = s
  · subst has
    have hx : ∀ c < o.C, ∀ e : ℤ, o.dft x0 (fun j => m1.val (g.at_ a + off + (o.S * j + o.col c))) e =
        o.dft x0 (fun j => mem.val (g.at_ a + off + (o.S * j + o.col c))) e := by
      intro c hc e
      unfold dft
      refine sum_congr rfl fun j hj => ?_
      have := hsame (g.at_ a + off + (o.S * j + o.col c)) (Or.inl ⟨j, mem_range.1 hj, c, hc, rfl⟩)
      simp only
      rw [this]
    refine ⟨?_, ?_⟩
    · intro r hr i hi c hc
      rw [ef r hr i hi c hc, hx c hc, hat]
    · intro i hi c hc
      rw [eF i hi c hc, hx c hc, hat]
  · obtain ⟨e2, e3⟩ := e1 a (by omega)
    have hfr : ∀ p, o.OwWord g off F a p → m2.val p = m1.val p := fun p hp => u2.frame p (ha.apart (by omega) h2 has hp)
    refine ⟨?_, ?_⟩
    · intro r hr i hi c hc
      rw [hfr _ (Or.inl (h.data hr hi hc)), e2 r hr i hi c hc]
    · intro i hi c hc
      rw [hfr _ (Or.inr (h.cols hi hc)), e3 i hi c hc]

/-- Backward transforms of the outputs, from values `Y` at the frequencies. -/
theorem owBwdAll (h : o.OwSpec x0 freq) {mem : Mem} {g F : PtrArr} {off : ℕ} (ha : o.OwArgs mem g off F) (r0 : ℕ) (W? : Option Ptr)
    {Y : ℕ → ℕ → ℕ → ℂ} {G : Prop} (hY : G → ∀ b < o.B, (∀ r < (o.n - 1), ∀ i < o.l, ∀ c < o.C, mem.val (g.at_ b + off + (o.S * (o.l * r + i) + o.col c)) =
          Y (freq r i) b c) ∧ ∀ i < o.l, ∀ c < o.C, mem.val (F.at_ b + (o.S * i + o.col c)) = Y (freq (o.n - 1) i) b c) :
    (bwdAll o W? F g r0 0 o.B off).Ok mem fun _ m' => mem.Upd m' (fun p => ∃ b < o.B, o.OwWord g off F b p) ∧
      (G → ∀ b < o.B, ∀ j < o.L, ∀ c < o.C, m'.val (g.at_ b + off + (o.S * j + o.col c)) =
        ∑ e ∈ range o.N, Y e b c * w o.N (-(((j : ℤ) - x0) * (e : ℤ)))) := by
  have hBA := h.BA
  refine seqLoop_rngab (Nat.zero_le _) (fun s m' => mem.Upd m' (fun p => ∃ b < s, o.OwWord g off F b p) ∧
      (G → ∀ b < s, ∀ j < o.L, ∀ c < o.C, m'.val (g.at_ b + off + (o.S * j + o.col c)) =
        ∑ e ∈ range o.N, Y e b c * w o.N (-(((j : ℤ) - x0) * (e : ℤ)))))
    ⟨Mem.Upd.refl _ _, fun _ a h2 => absurd h2 (by omega)⟩ ?_ (fun m hm => hm)
  rintro s m1 - h2 ⟨u1, e1⟩
  rw [PtrArr.get_bind (by have := ha.Fn; omega), PtrArr.get_bind (by have := ha.gn; omega)]
  have h3 : s < o.A := by omega
  refine (h.bwd r0 W? (by simpa using ha.gF s h3 s h3) ((ha.size u1.size).bg s h3) ((ha.size u1.size).bF s h3)).mono ?_
  rintro _ m2 ⟨u2, e⟩
  change m1.Upd m2 (o.OwWord g off F s) at u2
  have hsame : ∀ p, o.OwWord g off F s p → m1.val p = mem.val p := by
    intro p hp
    refine u1.frame p ?_
    rintro ⟨a, h3, h4⟩
    exact ha.apart (by omega) (by omega) (by omega) h4 hp
  refine ⟨u1.trans u2 (fun p ⟨a, h3, h4⟩ => ⟨a, by omega, h4⟩) (fun p hp => ⟨s, by omega, hp⟩), ?_⟩
  intro hG b h3 j hj c hc
  by_cases has : b = s
  · subst has
    rw [e j hj c hc, ← h.sum (fun e => Y e b c * w o.N (-(((j : ℤ) - x0) * (e : ℤ))))]
    congr 1
    · refine sum_congr rfl fun r hr => sum_congr rfl fun i hi => ?_
      rw [mem_range] at hr hi
      rw [hsame _ (Or.inl (h.data hr hi hc)), (hY hG b h2).1 r hr i hi c hc]
    · refine sum_congr rfl fun i hi => ?_
      rw [mem_range] at hi
      rw [hsame _ (Or.inr (h.cols hi hc)), (hY hG b h2).2 i hi c hc]
  · rw [u2.frame, e1 hG b (by omega) j hj c hc]
    exact ha.apart (by omega) (by omega) has (Or.inl ⟨j, hj, c, hc, rfl⟩)

/-- The words of residue block `r` in the input at `f`. -/
def OwBlk (o : FftBase) (f : Ptr) (r : ℕ) (p : Ptr) : Prop := ∃ i < o.l, ∃ c < o.C, p = f + (o.S * (o.l * r + i) + o.col c)

theorem OwBlk.ne (h : o.OwSpec x0 freq) {f p : Ptr} {r r' : ℕ} (h1 : o.OwBlk f r p) (h2 : o.OwBlk f r' p) : r = r' := by
  obtain ⟨i, hi, c, hc, rfl⟩ := h1
  obtain ⟨i', hi', c', hc', e⟩ := h2
  have h1 := h.col_lt c hc
  have h2 := h.col_lt c' hc'
  have e1 := Ptr.add_inj.1 e
  have e2 := (radix_inj h1 h2 e1).1
  exact (radix_inj hi hi' e2).1

theorem OwBlk.data (h : o.OwSpec x0 freq) {f p : Ptr} {r : ℕ} (hr : r < o.n - 1) (h1 : o.OwBlk f r p) : o.Data f p := by
  obtain ⟨i, hi, c, hc, rfl⟩ := h1
  exact h.data hr hi hc

/-- What an operation on residue block `r`, at `addr a` for input `a`, must do. -/
structure OwOp (o : FftBase) (freq : ℕ → ℕ → ℕ) (op : Cmd Unit) (Φ : ℕ → ℕ → (ℕ → ℕ → ℂ) → ℕ → ℂ) (T : ℕ → Prop) (Inv : Mem → Prop) (size : ℕ → ℕ)
    (Reg : ℕ → Ptr → Prop) (addr : ℕ → ℕ → ℕ → Ptr) (r : ℕ) (P : (ℕ → ℕ → ℂ) → Prop := fun _ => True) : Prop where
  ok : ∀ {m : Mem}, m.size = size → Inv m → op.Ok m fun _ m' => Inv m' ∧ m.Upd m' (fun p => T p.buf ∨ ∃ a < o.A, Reg a p) ∧
    ∀ b < o.B, ∀ i < o.l, P (fun a c => m.val (addr a i c)) → ∀ c < o.C, m'.val (addr b i c) = Φ (freq r i) b (fun a c => m.val (addr a i c)) c

/-- The overwriting schedule. -/
theorem owRaw_ok (h : o.OwSpec x0 freq) {mem : Mem} {g F : PtrArr} {off : ℕ} (ha : o.OwArgs mem g off F) (r0 r1 : ℕ) (W? W2 : Option Ptr)
    {opf : ℕ → Cmd Unit} {opF : Cmd Unit} {Φ T Inv P}
    (hcg : ∀ e b X Y, (∀ a < o.A, ∀ c < o.C, X a c = Y a c) → ∀ c < o.C, Φ e b X c = Φ e b Y c)
    (hdom : ∀ X Y, (∀ a < o.A, ∀ c < o.C, X a c = Y a c) → P X → P Y)
    (hinv : ∀ {m m' : Mem}, Inv m → m'.size = m.size → (∀ p : Ptr, T p.buf → m'.val p = m.val p) → Inv m')
    (hTg : ∀ a < o.A, ¬ T (g.at_ a).buf) (hTF : ∀ a < o.A, ¬ T (F.at_ a).buf)
    (hopf : ∀ r < (o.n - 1), o.OwOp freq (opf r) Φ T Inv mem.size (fun a => o.OwBlk (g.at_ a + off) r)
      (fun a i c => g.at_ a + off + (o.S * (o.l * r + i) + o.col c)) r P)
    (hopF : o.OwOp freq opF Φ T Inv mem.size (fun a => InArr (F.at_ a) o.outputSize) (fun a i c => F.at_ a + (o.S * i + o.col c)) (o.n - 1) P)
    (hI : Inv mem) :
    (do fwdAll o W? g F r0 0 o.A off
        seqLoop (rng 0 (o.n - 1)) opf
        opF
        bwdAll o W2 F g r1 0 o.B off : Cmd Unit).Ok mem fun _ m' =>
      mem.Upd m' (fun p => T p.buf ∨ ∃ a < o.A, o.Data (g.at_ a + off) p ∨ InArr (F.at_ a) o.outputSize p) ∧ Inv m' ∧
      (o.Good x0 P mem g off → ∀ b < o.B, ∀ j < o.L, ∀ c < o.C,
        m'.val (g.at_ b + off + (o.S * j + o.col c)) = o.result x0 Φ mem g off b j c) := by
  have hBA := h.BA
  have hcol := h.col_lt
  let R : Ptr → Prop := fun p => T p.buf ∨ ∃ a < o.A, o.Data (g.at_ a + off) p ∨ InArr (F.at_ a) o.outputSize p
  have hWR : ∀ p, (∃ a < o.A, o.OwWord g off F a p) → R p := by
    rintro p ⟨a, h1, h2 | h2⟩
    · exact Or.inr ⟨a, h1, Or.inl h2⟩
    · exact Or.inr ⟨a, h1, Or.inr (h2.inArr hcol)⟩
  have hWT : ∀ p : Ptr, T p.buf → ¬ ∃ a < o.A, o.OwWord g off F a p := by
    rintro p hp ⟨a, h1, h2 | h2⟩
    · exact hTg a h1 (by have := FftBase.data_buf h2; rw [Ptr.add_buf] at this; rwa [← this])
    · exact hTF a h1 (by rwa [← h2.buf])
  have hbuf : ∀ a (k : ℕ), (g.at_ a + off + k).buf = (g.at_ a).buf := fun a k => by simp
  refine Cmd.Ok.bind ((owFwdAll h ha r0 W?).mono ?_)
  rintro _ m1 ⟨u1, e1⟩
  have I1 : Inv m1 := hinv hI u1.size fun p hp => u1.frame p (hWT p hp)
  -- values wanted at the frequencies
  let Y : ℕ → ℕ → ℕ → ℂ := fun e b c => Φ e b (fun a c => o.hat x0 mem g off e a c) c
  have loop : (seqLoop (rng 0 (o.n - 1)) opf).Ok m1 fun _ m' => m1.Upd m' (fun p => T p.buf ∨ ∃ a < o.A, ∃ r < (o.n - 1), o.OwBlk (g.at_ a + off) r p) ∧ Inv m' ∧
      (o.Good x0 P mem g off → ∀ b < o.B, ∀ r < (o.n - 1), ∀ i < o.l, ∀ c < o.C, m'.val (g.at_ b + off + (o.S * (o.l * r + i) + o.col c)) = Y (freq r i) b c) := by
    refine seqLoop_rngab (Nat.zero_le _) (fun k m' => m1.Upd m' (fun p => T p.buf ∨ ∃ a < o.A, ∃ r < k, o.OwBlk (g.at_ a + off) r p) ∧ Inv m' ∧
      (o.Good x0 P mem g off → ∀ b < o.B, ∀ r < k, ∀ i < o.l, ∀ c < o.C, m'.val (g.at_ b + off + (o.S * (o.l * r + i) + o.col c)) = Y (freq r i) b c))
      ⟨Mem.Upd.refl _ _, I1, fun _ b _ r hr => absurd hr (by omega)⟩ ?_ (fun m hm => hm)
    rintro k m2 - hk ⟨u2, I2, e2⟩
    refine ((hopf k hk).ok (u2.size.trans u1.size) I2).mono ?_
    rintro _ m3 ⟨I3, u3, e3⟩
    refine ⟨u2.trans u3 ?_ ?_, I3, ?_⟩
    · rintro p (hp | ⟨a, h1, r, h2, h3⟩)
      · exact Or.inl hp
      · exact Or.inr ⟨a, h1, r, by omega, h3⟩
    · rintro p (hp | ⟨a, h1, h3⟩)
      · exact Or.inl hp
      · exact Or.inr ⟨a, h1, k, by omega, h3⟩
    · intro hG b hb r hr i hi c hc
      by_cases hrk : r = k
      · subst hrk
        have key : ∀ a < o.A, ∀ c < o.C, m2.val (g.at_ a + off + (o.S * (o.l * r + i) + o.col c)) = o.hat x0 mem g off (freq r i) a c := ?_
        · rw [e3 b hb i hi (hdom _ _ (fun a ha c hc => (key a ha c hc).symm) (hG _)) c hc]
          exact hcg _ _ _ _ key c hc
        intro a h1 c hc
        rw [u2.frame, (e1 a h1).1 r hk i hi c hc]
        rintro (hp | ⟨a', h2, r', h3, h4⟩)
        · rw [hbuf] at hp; exact hTg a h1 hp
        · have hmy : o.OwBlk (g.at_ a + off) r (g.at_ a + off + (o.S * (o.l * r + i) + o.col c)) := ⟨i, hi, c, hc, rfl⟩
          by_cases haa : a = a'
          · subst haa
            have := OwBlk.ne h hmy h4; omega
          · exact ha.gg a h1 a' h2 haa _ (hmy.data h hk) (h4.data h (by omega))
      · rw [u3.frame, e2 hG b hb r (by omega) i hi c hc]
        rintro (hp | ⟨a', h2, h4⟩)
        · rw [hbuf] at hp; exact hTg b (by omega) hp
        · have hmy : o.OwBlk (g.at_ b + off) r (g.at_ b + off + (o.S * (o.l * r + i) + o.col c)) := ⟨i, hi, c, hc, rfl⟩
          by_cases haa : b = a'
          · subst haa
            exact hrk (OwBlk.ne h hmy h4)
          · exact ha.gg b (by omega) a' h2 haa _ (hmy.data h (by omega)) (h4.data h hk)
  refine Cmd.Ok.bind (loop.mono ?_)
  rintro _ m2 ⟨u2, I2, e2⟩
  refine Cmd.Ok.bind ((hopF.ok (u2.size.trans u1.size) I2).mono ?_)
  rintro _ m3 ⟨I3, u3, e3⟩
  have hs3 : m3.size = mem.size := u3.size.trans (u2.size.trans u1.size)
  refine (owBwdAll h (ha.size hs3) r1 W2 (Y := Y) (G := o.Good x0 P mem g off) ?_).mono ?_
  · intro hG b hb
    refine ⟨?_, ?_⟩
    · intro r hr i hi c hc
      rw [u3.frame, e2 hG b hb r hr i hi c hc]
      rintro (hp | ⟨a', h2, h4⟩)
      · rw [hbuf] at hp; exact hTg b (by omega) hp
      · refine ha.gF b (by omega) a' h2 ?_
        rw [← FftBase.inArr_buf h4, hbuf]
    · intro i hi c hc
      have key : ∀ a < o.A, ∀ c < o.C, m2.val (F.at_ a + (o.S * i + o.col c)) = o.hat x0 mem g off (freq (o.n - 1) i) a c := ?_
      · rw [e3 b hb i hi (hdom _ _ (fun a ha c hc => (key a ha c hc).symm) (hG _)) c hc]
        exact hcg _ _ _ _ key c hc
      intro a h1 c hc
      rw [u2.frame, (e1 a h1).2 i hi c hc]
      rintro (hp | ⟨a', h2, r', h3, h4⟩)
      · exact hTF a h1 (by simpa using hp)
      · refine ha.gF a' h2 a h1 ?_
        have := FftBase.data_buf (h4.data h h3)
        simpa using this.symm
  · rintro _ m4 ⟨u4, e4⟩
    refine ⟨u1.trans (u2.trans (u3.trans u4 (R := R) ?_ ?_) (R := R) ?_ (fun _ h => h)) (R := R) hWR (fun _ h => h), ?_, ?_⟩
    · rintro p (hp | ⟨a, h1, h2⟩)
      · exact Or.inl hp
      · exact Or.inr ⟨a, h1, Or.inr h2⟩
    · rintro p ⟨b, hb, h2⟩
      exact hWR p ⟨b, by omega, h2⟩
    · rintro p (hp | ⟨a, h1, r, h2, h3⟩)
      · exact Or.inl hp
      · exact Or.inr ⟨a, h1, Or.inl (h3.data h h2)⟩
    · refine hinv I3 u4.size fun p hp => u4.frame p ?_
      rintro ⟨b, hb, h2⟩
      exact hWT p hp ⟨b, by omega, h2⟩
    · intro hG b hb j hj c hc
      rw [e4 hG b hb j hj c hc]
      unfold FftBase.result
      rfl

end FftBase
end Fftwpp
