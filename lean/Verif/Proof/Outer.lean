import Verif.Model.Conv2D
import Verif.Proof.Conv3

/-! `subconvolution`, generically over the inner convolution. -/

namespace Fftwpp
open Finset

/-- Serial loop over a list without repetition, by an invariant on the part already done. -/
theorem seqLoop_split {ι : Type} {body : ι → Cmd Unit} (I : List ι → Mem → Prop) {l : List ι} {m : Mem} (h0 : I [] m)
    (hstep : ∀ l1 i l2 m, l = l1 ++ i :: l2 → I l1 m → (body i).Ok m (fun _ m' => I (l1 ++ [i]) m')) {Q : Unit → Mem → Prop}
    (hQ : ∀ m', I l m' → Q () m') : (seqLoop l body).Ok m Q := by
  have key : ∀ (l2 l1 : List ι) (mk : Mem), l = l1 ++ l2 → I l1 mk →
      (seqLoop l2 body).Ok mk (fun _ m' => I l m') := by
    intro l2
    induction l2 with
    | nil => intro l1 mk hl hI; exact ⟨(), mk, rfl, by rw [hl]; simpa using hI⟩
    | cons i l2 ih =>
      intro l1 mk hl hI
      obtain ⟨_, m1, h1, h2⟩ := hstep l1 i l2 mk hl hI
      obtain ⟨_, m2, h3, h4⟩ := ih (l1 ++ [i]) m1 (by rw [hl]; simp) h2
      refine ⟨(), m2, ?_, h4⟩
      simp only [seqLoop, h1]; exact h3
  refine (key l [] m rfl h0).mono ?_
  intro _ m' h
  exact hQ m' h

/-- An (unnormalized) convolution of `A` arrays of `n` words, at positions `col c` from `F[a]+offset`, within blocks of `ext` words:
`Ψ idx b X` is output `b` for inputs `X` in the domain `P` and outer frequencies `idx`.  `T` tells the buffers of its own work arrays, `Inv` is its own
invariant. -/
structure Inner (A B n ext : ℕ) (col : ℕ → ℕ) (raw : List ℕ → PtrArr → ℕ → Cmd Unit)
    (Ψ : List ℕ → ℕ → (ℕ → ℕ → ℂ) → ℕ → ℂ) (T : ℕ → Prop) (Inv : Mem → Prop) (P : (ℕ → ℕ → ℂ) → Prop := fun _ => True) : Prop where
  congr : ∀ idx b X Y, (∀ a < A, ∀ c < n, X a c = Y a c) → ∀ c < n, Ψ idx b X c = Ψ idx b Y c
  inv : ∀ {m m' : Mem}, Inv m → m'.size = m.size → (∀ p : Ptr, T p.buf → m'.val p = m.val p) → Inv m'
  ok : ∀ {m : Mem} {F : PtrArr} {off : ℕ} (idx : List ℕ), Inv m → A ≤ F.n → (∀ a < A, m.block (F.at_ a + off) ext) →
    (∀ a < A, ∀ a' < A, a ≠ a' → (F.at_ a).buf ≠ (F.at_ a').buf) → (∀ a < A, ¬ T (F.at_ a).buf) →
    (raw idx F off).Ok m fun _ m' => Inv m' ∧
      m.Upd m' (fun p => T p.buf ∨ ∃ a < A, ∃ c < n, p = F.at_ a + off + col c) ∧
      (P (fun a c => m.val (F.at_ a + off + col c)) →
        ∀ b < B, ∀ c < n, m'.val (F.at_ b + off + col c) = Ψ idx b (fun a c => m.val (F.at_ a + off + col c)) c)

variable {o : FftBase} {x0 : ℤ} {padded : Mem → Ptr → Prop}

/-- `subconvolution` on `n` rows at `off0`, for every schedule. -/
theorem sub_rows {A B C S n threads ext : ℕ} {col : ℕ → ℕ} (hcol : ∀ c < C, col c < S) (hBA : B ≤ A)
    {raw : ℕ → ℕ → List ℕ → PtrArr → ℕ → Cmd Unit} {Ψ} {T : ℕ → ℕ → Prop} {Inv : ℕ → Mem → Prop} {P : (ℕ → ℕ → ℂ) → Prop}
    (hin : ∀ t < threads, ∀ i < n, Inner A B C ext col (raw t i) Ψ (T t) (Inv t) P)
    (hinv : ∀ t < threads, ∀ {m m' : Mem}, Inv t m → m'.size = m.size → (∀ p : Ptr, T t p.buf → m'.val p = m.val p) → Inv t m')
    (hcong : ∀ idx b X Y, (∀ a < A, ∀ c < C, X a c = Y a c) → ∀ c < C, Ψ idx b X c = Ψ idx b Y c)
    (hdom : ∀ X Y, (∀ a < A, ∀ c < C, X a c = Y a c) → P X → P Y)
    (hTT : ∀ t < threads, ∀ t' < threads, t ≠ t' → ∀ k, T t k → ¬ T t' k) {s : Sch} (hs : s.Legal n threads) (idx : List ℕ) (ix : ℕ → ℕ)
    {m : Mem} {F : PtrArr} {off0 : ℕ} (hI : ∀ t < threads, Inv t m) (hn : A ≤ F.n)
    (hb : ∀ a < A, ∀ i < n, m.block (F.at_ a + off0 + S * i) ext)
    (hsep : ∀ a < A, ∀ a' < A, a ≠ a' → (F.at_ a).buf ≠ (F.at_ a').buf) (hT : ∀ a < A, ¬ ∃ t < threads, T t (F.at_ a).buf) :
    (seqLoop s fun x => if x.2 < threads then raw x.2 x.1 (ix x.1 :: idx) F (off0 + x.1 * S) else ubCmd).Ok m fun _ m' =>
      (∀ t < threads, Inv t m') ∧
      m.Upd m' (fun p => (∃ t < threads, T t p.buf) ∨ ∃ a < A, ∃ i < n, ∃ c < C, p = F.at_ a + off0 + (S * i + col c)) ∧
      ∀ b < B, ∀ i < n, P (fun a c => m.val (F.at_ a + off0 + (S * i + col c))) → ∀ c < C, m'.val (F.at_ b + off0 + (S * i + col c)) =
        Ψ (ix i :: idx) b (fun a c => m.val (F.at_ a + off0 + (S * i + col c))) c := by
  obtain ⟨hperm, hthr⟩ := hs
  have hnd : (s.map Prod.fst).Nodup := hperm.nodup_iff.2 List.nodup_range
  have hlt : ∀ x ∈ s, x.1 < n := fun x hx =>
    List.mem_range.1 (hperm.mem_iff.1 (List.mem_map.2 ⟨x, hx, rfl⟩))
  have hpos : ∀ a i c, F.at_ a + (off0 + i * S) + col c = F.at_ a + off0 + (S * i + col c) := by
    intro a i c; ext <;> simp; ring
  let R : Ptr → Prop := fun p => (∃ t < threads, T t p.buf) ∨ ∃ a < A, ∃ i < n, ∃ c < C, p = F.at_ a + off0 + (S * i + col c)
  refine seqLoop_split (fun done m1 => m.Upd m1 R ∧ (∀ t < threads, Inv t m1) ∧
    (∀ b < B, ∀ x ∈ done, P (fun a c => m.val (F.at_ a + off0 + (S * x.1 + col c))) → ∀ c < C, m1.val (F.at_ b + off0 + (S * x.1 + col c)) =
      Ψ (ix x.1 :: idx) b (fun a c => m.val (F.at_ a + off0 + (S * x.1 + col c))) c) ∧
    ∀ a < A, ∀ i, (∀ x ∈ done, x.1 ≠ i) → ∀ c < C, m1.val (F.at_ a + off0 + (S * i + col c)) = m.val (F.at_ a + off0 + (S * i + col c)))
    ⟨Mem.Upd.refl _ _, hI, fun b _ x hx => by simp at hx, fun _ _ _ _ _ _ => rfl⟩ ?_ ?_
  · rintro l1 ⟨i, t⟩ l2 m1 hl ⟨u1, I1, e1, s1⟩
    have hx : (i, t) ∈ s := by rw [hl]; simp
    have ht : t < threads := hthr _ hx
    have hi : i < n := hlt _ hx
    have hni : ∀ x ∈ l1, x.1 ≠ i := by
      rw [hl, List.map_append, List.map_cons, List.nodup_append] at hnd
      intro x hx1 e
      exact hnd.2.2 x.1 (List.mem_map.2 ⟨x, hx1, rfl⟩) i (by simp) e
    have hin := hin t ht i hi
    simp only [if_pos ht]
    refine (hin.ok (ix i :: idx) (I1 t ht) hn ?_ hsep (fun a ha h => hT a ha ⟨t, ht, h⟩)).mono ?_
    · intro a ha k hk
      have e : F.at_ a + (off0 + i * S) + k = F.at_ a + off0 + S * i + k := by ext <;> simp; ring
      rw [e]
      exact Mem.valid_of_size u1.size (hb a ha i hi k hk)
    rintro _ m2 ⟨I2, u2, e2⟩
    simp only [hpos] at u2 e2
    have hrow : ∀ a < A, ∀ k, k ≠ i → ∀ c < C, m2.val (F.at_ a + off0 + (S * k + col c)) = m1.val (F.at_ a + off0 + (S * k + col c)) := by
      intro a ha k hki c hc
      refine u2.frame _ ?_
      rintro (h1 | ⟨a', ha', c', hc', e⟩)
      · exact hT a ha ⟨t, ht, by simpa using h1⟩
      · by_cases haa : a = a'
        · subst haa
          have := radix_inj (hcol c hc) (hcol c' hc') (Ptr.add_inj.1 e)
          exact hki this.1
        · exact hsep a ha a' ha' haa (by simpa using congrArg Ptr.buf e)
    refine ⟨u1.trans u2 (fun _ h => h) ?_, ?_, ?_, ?_⟩
    · rintro p (h1 | ⟨a, ha, c, hc, rfl⟩)
      · exact Or.inl ⟨t, ht, h1⟩
      · exact Or.inr ⟨a, ha, i, hi, c, hc, rfl⟩
    · intro t' ht'
      by_cases htt : t' = t
      · subst htt; exact I2
      · refine hinv t' ht' (I1 t' ht') u2.size fun p hp => u2.frame p ?_
        rintro (h1 | ⟨a, ha, c, hc, rfl⟩)
        · exact hTT t' ht' t ht htt _ hp h1
        · exact hT a ha ⟨t', ht', by simpa using hp⟩
    · intro b hb' x hx1 hP c hc
      rw [List.mem_append, List.mem_singleton] at hx1
      have hbA : b < A := by omega
      rcases hx1 with hx1 | rfl
      · rw [hrow b hbA x.1 (hni x hx1) c hc, e1 b hb' x hx1 hP c hc]
      · have hs' : ∀ a < A, ∀ c' < C, m1.val (F.at_ a + off0 + (S * i + col c')) = m.val (F.at_ a + off0 + (S * i + col c')) :=
          fun a ha c' hc' => s1 a ha i hni c' hc'
        rw [e2 (hdom _ _ (fun a ha c' hc' => (hs' a ha c' hc').symm) hP) b hb' c hc]
        exact hcong _ _ _ _ hs' c hc
    · intro a ha k hk c hc
      have hki : k ≠ i := fun e => hk (i, t) (by simp) e.symm
      rw [hrow a ha k hki c hc]
      exact s1 a ha k (fun x hx1 => hk x (by simp [hx1])) c hc
  · rintro m' ⟨u, I', e, _⟩
    refine ⟨I', u, ?_⟩
    intro b hb' i hi hP c hc
    obtain ⟨x, hx, rfl⟩ := List.mem_map.1 (hperm.mem_iff.2 (List.mem_range.2 hi))
    exact e b hb' x hx hP c hc

/-- `subconvolution` for every schedule. -/
theorem sub_spec (h : o.Spec x0 padded) (hBA : o.B ≤ o.A) {threads ext : ℕ} {raw : ℕ → ℕ → ℕ → List ℕ → PtrArr → ℕ → Cmd Unit} {Ψ}
    {T : ℕ → ℕ → Prop} {Inv : ℕ → Mem → Prop} {P : (ℕ → ℕ → ℂ) → Prop}
    (hin : ∀ r ∈ o.residues, ∀ t < threads, ∀ i < o.blocksize r, Inner o.A o.B o.C ext o.col (raw r t i) Ψ (T t) (Inv t) P)
    (hinv : ∀ t < threads, ∀ {m m' : Mem}, Inv t m → m'.size = m.size → (∀ p : Ptr, T t p.buf → m'.val p = m.val p) → Inv t m')
    (hcong : ∀ idx b X Y, (∀ a < o.A, ∀ c < o.C, X a c = Y a c) → ∀ c < o.C, Ψ idx b X c = Ψ idx b Y c)
    (hdom : ∀ X Y, (∀ a < o.A, ∀ c < o.C, X a c = Y a c) → P X → P Y)
    (hTT : ∀ t < threads, ∀ t' < threads, t ≠ t' → ∀ k, T t k → ¬ T t' k) (hext : ext ≤ o.S)
    (hbs : ∀ r ∈ o.residues, o.noutputs r = o.blocksize r) {s : ℕ → Sch}
    (hs : ∀ r ∈ o.residues, (s r).Legal (o.blocksize r) threads) (idx : List ℕ) :
    o.OpSpec (fun F r => seqLoop (s r) fun x =>
        if x.2 < threads then raw r x.2 x.1 (o.index r x.1 :: idx) F (0 + x.1 * o.S) else ubCmd)
      (fun e b X c => Ψ (e :: idx) b X c) (fun k => ∃ t < threads, T t k) (fun m => ∀ t < threads, Inv t m) P := by
  refine ⟨fun e b X Y hXY c hc => hcong _ _ _ _ hXY c hc, hdom, ?_, ?_⟩
  · intro m m' hm hsz hv t ht
    exact hinv t ht (hm t ht) hsz fun p hp => hv p ⟨t, ht, hp⟩
  intro m F r hr hI hn hb hsep hT
  have hmax : max o.A o.B = o.A := max_eq_left hBA
  rw [hmax] at hn hb hsep hT
  rw [hmax]
  have hout : ∀ i < o.blocksize r, o.S * i + o.S ≤ o.outputSize := by
    intro i hi
    have h1 := h.nout r hr
    rw [hbs r hr] at h1
    have : o.S * (i + 1) ≤ o.S * o.blocksize r := Nat.mul_le_mul_left _ hi
    rw [Nat.mul_succ] at this
    omega
  refine (sub_rows h.col_lt hBA (hin r hr) hinv hcong hdom hTT (hs r hr) idx (o.index r) (off0 := 0) hI hn ?_ hsep hT).mono ?_
  · intro a ha i hi k hk
    have e : (F.at_ a + (0 : ℕ) + o.S * i + k : Ptr) = F.at_ a + (o.S * i + k) := by ext <;> simp; ring
    rw [e]
    exact hb a ha _ (by have := hout i hi; omega)
  · rintro _ m' ⟨I', u, e⟩
    simp only [Conv.Ptr.add0] at u e
    refine ⟨I', u.mono ?_, ?_⟩
    · rintro p (h1 | ⟨a, ha, i, hi, c, hc, rfl⟩)
      · exact Or.inl h1
      · refine Or.inr ⟨a, ha, _, ?_, rfl⟩
        have := hout i hi
        have := h.col_lt c hc
        omega
    · intro b hb' i hi hP c hc
      rw [hbs r hr] at hi
      exact e b hb' i hi hP c hc

/-- The multidimensional multiplier's dependence on the frequency of the outer direction is compatible with the overwriting schedule. -/
def FftBase.FreqX (o : FftBase) (Ψ : List ℕ → ℕ → (ℕ → ℕ → ℂ) → ℕ → ℂ) : Prop :=
  o.n = 2 ∨ ∀ e e' idx, Ψ (e :: idx) = Ψ (e' :: idx)

/-- `subconvolution` in the overwriting schedule. -/
theorem sub_ow {freq : ℕ → ℕ → ℕ} (h : o.OwSpec x0 freq) {threads ext : ℕ} {raw : ℕ → ℕ → ℕ → List ℕ → PtrArr → ℕ → Cmd Unit} {Ψ}
    {T : ℕ → ℕ → Prop} {Inv : ℕ → Mem → Prop} {P : (ℕ → ℕ → ℂ) → Prop}
    (hin : ∀ r ∈ o.residues, ∀ t < threads, ∀ i < o.blocksize r, Inner o.A o.B o.C ext o.col (raw r t i) Ψ (T t) (Inv t) P)
    (hinv : ∀ t < threads, ∀ {m m' : Mem}, Inv t m → m'.size = m.size → (∀ p : Ptr, T t p.buf → m'.val p = m.val p) → Inv t m')
    (hcong : ∀ idx b X Y, (∀ a < o.A, ∀ c < o.C, X a c = Y a c) → ∀ c < o.C, Ψ idx b X c = Ψ idx b Y c)
    (hdom : ∀ X Y, (∀ a < o.A, ∀ c < o.C, X a c = Y a c) → P X → P Y)
    (hTT : ∀ t < threads, ∀ t' < threads, t ≠ t' → ∀ k, T t k → ¬ T t' k) (hext : ext ≤ o.S) {s : ℕ → Sch}
    (hs : ∀ r ∈ o.residues, (s r).Legal (o.blocksize r) threads) (idx : List ℕ) (hfx : o.FreqX Ψ)
    {size : ℕ → ℕ} {F : PtrArr} {off0 r : ℕ} (hr : r < o.n) (hn : o.A ≤ F.n)
    (hb : ∀ a < o.A, ∀ i < o.l, ∀ m : Mem, m.size = size → m.block (F.at_ a + off0 + o.S * i) o.S)
    (hsep : ∀ a < o.A, ∀ a' < o.A, a ≠ a' → (F.at_ a).buf ≠ (F.at_ a').buf) (hT : ∀ a < o.A, ¬ ∃ t < threads, T t (F.at_ a).buf) :
    o.OwOp freq (seqLoop (s r) fun x =>
        if x.2 < threads then raw r x.2 x.1 (o.index r x.1 :: idx) F (off0 + x.1 * o.S) else ubCmd)
      (fun e b X c => Ψ (e :: idx) b X c) (fun k => ∃ t < threads, T t k) (fun m => ∀ t < threads, Inv t m) size
      (fun a p => ∃ i < o.l, ∃ c < o.C, p = F.at_ a + off0 + (o.S * i + o.col c))
      (fun a i c => F.at_ a + off0 + (o.S * i + o.col c)) r P := by
  refine ⟨?_⟩
  intro m hsz hI
  have hrr := h.res r hr
  refine (sub_rows h.col_lt h.BA (hin r hrr) hinv hcong hdom hTT (hs r hrr) idx (o.index r) (off0 := off0) hI hn ?_ hsep hT).mono ?_
  · intro a ha i hi k hk
    rw [h.bs] at hi
    exact hb a ha i hi m hsz k (by omega)
  · rintro _ m' ⟨I', u, e⟩
    rw [h.bs] at u e
    refine ⟨I', u, ?_⟩
    intro b hb' i hi hP c hc
    rw [e b hb' i hi hP c hc]
    rcases hfx with h2 | h2
    · rw [h.idx h2 r (by omega) i hi]
    · rw [h2]

end Fftwpp
