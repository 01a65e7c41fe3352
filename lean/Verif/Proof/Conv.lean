import Verif.Proof.OwDrv

/-! `Convolution::convolveRaw`, generically over the transform class. -/

namespace Fftwpp
open Finset

/-- What a multiplier does: output `b` at position `j` is `φ` of the `A` inputs at position `j`.  `φ` may depend on the
frequencies: `index(r,offset+j)` in the innermost direction, then `index[1]`, … . -/
structure MultSpec (A B : ℕ) (index : ℕ → ℕ → ℕ) (mult : Multiplier) (φ : List ℕ → ℕ → (ℕ → ℂ) → ℂ) : Prop where
  congr : ∀ e b X Y, (∀ a < A, X a = Y a) → φ e b X = φ e b Y
  ok : ∀ {m : Mem} {F : PtrArr} {n : ℕ} {idx : List ℕ} {r offset : ℕ}, max A B ≤ F.n →
    (∀ a < max A B, m.block (F.at_ a) n) →
    (∀ a < max A B, ∀ a' < max A B, a ≠ a' → (F.at_ a).buf ≠ (F.at_ a').buf) →
    (mult F n idx r offset).Ok m fun _ m' => m.Upd m' (fun p => ∃ a < max A B, InArr (F.at_ a) n p) ∧
      ∀ b < B, ∀ j < n, m'.val (F.at_ b + j) = φ (index r (offset + j) :: idx) b (fun a => m.val (F.at_ a + j))

namespace FftBase

/-- One copy of unit stride, blocks of `l` outputs. -/
structure Flat (o : FftBase) (K : ℕ → ℕ) : Prop where
  C : o.C = 1
  S : o.S = 1
  col : ∀ c, o.col c = c
  l_pos : 0 < o.l
  b : o.b = o.l
  bs : ∀ r, o.blocksize r = o.l
  nout : ∀ r, o.noutputs r = o.l * K r
  span : ∀ r, o.span r = o.l * K r
  K_pos : ∀ r, 0 < K r
  q1 : o.q = 1 → o.residues = [0] ∧ K 0 = 1

variable {o : FftBase} {x0 : ℤ} {padded : Mem → Ptr → Prop} {K : ℕ → ℕ}

/-- The frequencies reported to the multiplier are right or do not matter. -/
def FreqOK (o : FftBase) (K : ℕ → ℕ) (φ : List ℕ → ℕ → (ℕ → ℂ) → ℂ) : Prop :=
  (K 0 = 1 ∧ (o.overwrite = true → o.n = 2)) ∨ ∀ e e' idx, φ (e :: idx) = φ (e' :: idx)

/-- The number of inputs that `convolve` changes: the outputs, or all inputs if they are overwritten by their transforms. -/
def outs (o : FftBase) : ℕ := if o.overwrite then o.A else o.B

theorem ceilquotient_mul {l k : ℕ} (hl : 0 < l) : ceilquotient (l * k) l = k := by
  unfold ceilquotient
  rw [Nat.add_sub_assoc hl, Nat.mul_add_div hl]
  simp
  omega

/-- `operate`. -/
theorem operate_spec (h : o.Spec x0 padded) (fl : o.Flat K) {c : Conv} (hc : c.fft = o) {φ}
    (hm : MultSpec o.A o.B o.index c.mult φ) (hBA : o.B ≤ o.A ∨ ∀ r ∈ o.residues, K r = 1) (hf : o.FreqOK K φ) (idx : List ℕ) :
    o.OpSpec (c.operate idx) (fun e b X c => φ (e :: idx) b (fun a => X a c)) (fun _ => False) (fun _ => True) := by
  subst hc
  refine ⟨?_, fun _ _ _ _ => trivial, fun _ _ _ => trivial, ?_⟩
  · intro e b X Y hXY c hc
    exact hm.congr _ _ _ _ fun a ha => hXY a ha c hc
  intro m F r hr _ hn hb hsep _
  have hout : c.fft.l * K r ≤ c.fft.outputSize := by
    have := h.nout r hr
    rwa [fl.S, fl.nout, one_mul] at this
  -- state after `d` blocks
  let I : ℕ → Mem → Prop := fun d m1 =>
    m.Upd m1 (fun p => ∃ a < max c.fft.A c.fft.B, InArr (F.at_ a) c.fft.outputSize p) ∧
    (∀ b < c.fft.B, ∀ i < c.fft.l * d, m1.val (F.at_ b + i) =
      φ (c.fft.index r i :: idx) b (fun a => m.val (F.at_ a + i))) ∧
    ∀ a < max c.fft.A c.fft.B, ∀ i : ℕ, c.fft.l * d ≤ i → m1.val (F.at_ a + i) = m.val (F.at_ a + i)
  have step : ∀ d (m1 : Mem) (G : PtrArr) off, d < K r → max c.fft.A c.fft.B ≤ G.n → (∀ a, G.at_ a = F.at_ a + c.fft.l * d) →
      (∀ b, ∀ i, φ (c.fft.index r (off + i) :: idx) b = φ (c.fft.index r (c.fft.l * d + i) :: idx) b) → I d m1 →
      (c.mult G c.fft.l idx r off).Ok m1 (fun _ m' => I (d + 1) m') := by
    rintro d m1 G off hd hGn hG hoff ⟨u1, e1, s1⟩
    have hld : c.fft.l * d + c.fft.l ≤ c.fft.outputSize := by
      have : c.fft.l * (d + 1) ≤ c.fft.l * K r := Nat.mul_le_mul_left _ hd
      rw [Nat.mul_succ] at this
      omega
    have hin : ∀ a i, i < c.fft.l → InArr (F.at_ a) c.fft.outputSize (G.at_ a + i) := by
      intro a i hi
      refine ⟨c.fft.l * d + i, by omega, ?_⟩
      rw [hG]; ext <;> simp; ring
    have hGi : ∀ a i, G.at_ a + i = F.at_ a + (c.fft.l * d + i) := by
      intro a i; rw [hG]; ext <;> simp; ring
    refine (hm.ok hGn ?_ ?_).mono ?_
    · intro a ha i hi
      rw [hGi]
      exact Mem.valid_of_size u1.size (hb a ha _ (by omega))
    · intro a ha a' ha' hne
      rw [hG, hG]; simpa using hsep a ha a' ha' hne
    rintro _ m2 ⟨u2, e2⟩
    have hout2 : ∀ a < max c.fft.A c.fft.B, ∀ i : ℕ, (i < c.fft.l * d ∨ c.fft.l * (d + 1) ≤ i) → m2.val (F.at_ a + i) = m1.val (F.at_ a + i) := by
      intro a ha i hi
      refine u2.frame _ ?_
      rintro ⟨a', ha', k, hk, e⟩
      rw [hGi] at e
      have hbuf : (F.at_ a).buf = (F.at_ a').buf := by simpa using congrArg Ptr.buf e
      by_cases haa : a = a'
      · subst haa
        have : ((F.at_ a).off + (i : ℤ)) = (F.at_ a).off + ((c.fft.l * d + k : ℕ) : ℤ) := by simpa using congrArg Ptr.off e
        rw [Nat.mul_succ] at hi
        omega
      · exact hsep a ha a' ha' haa hbuf
    refine ⟨u1.trans u2 (fun _ h => h) ?_, ?_, ?_⟩
    · rintro p ⟨a, ha, i, hi, rfl⟩
      exact ⟨a, ha, hin a i hi⟩
    · intro b hb' i hi
      by_cases hid : i < c.fft.l * d
      · rw [hout2 b (lt_of_lt_of_le hb' (le_max_right _ _)) i (Or.inl hid), e1 b hb' i hid]
      · obtain ⟨k, rfl⟩ : ∃ k, i = c.fft.l * d + k := ⟨i - c.fft.l * d, by omega⟩
        have hk : k < c.fft.l := by rw [Nat.mul_succ] at hi; omega
        rw [← hGi, e2 b hb' k hk, hoff]
        refine hm.congr _ _ _ _ fun a ha => ?_
        rw [hGi]
        exact s1 a (lt_of_lt_of_le ha (le_max_left _ _)) _ (by omega)
    · intro a ha i hi
      rw [hout2 a ha i (Or.inr hi)]
      refine s1 a ha i ?_
      rw [Nat.mul_succ] at hi; omega
  unfold Conv.operate
  simp only
  rw [fl.bs, fl.b, fl.span, ceilquotient_mul fl.l_pos]
  refine Cmd.Ok.bind ((step 0 m F 0 (fl.K_pos r) hn (fun a => by ext <;> simp) (fun b i => by simp)
    ⟨Mem.Upd.refl _ _, fun b _ i hi => by simp at hi, fun _ _ _ _ => rfl⟩).mono ?_)
  rintro _ m1 hI1
  refine seqLoop_rngab (fl.K_pos r) I hI1 ?_ ?_
  · intro d m2 h1 h2 hI2
    refine step d m2 _ _ h2 ?_ (fun a => rfl) ?_ hI2
    · rcases hBA with hBA | hK
      · simp [hBA]
      · have := hK r hr; omega
    · intro b i
      rcases hf with hf | hf
      · rw [fl.nout, hf.1, fl.S]; simp
      · rw [hf]
  · rintro m2 ⟨u2, e2, _⟩
    refine ⟨trivial, u2.mono (fun p hp => Or.inr hp), ?_⟩
    intro b hb' i hi _ c' hc'
    rw [fl.nout] at hi
    obtain rfl : c' = 0 := by rw [fl.C] at hc'; omega
    simp only [fl.S, fl.col, one_mul, add_zero]
    exact e2 b hb' i hi

end FftBase
end Fftwpp
