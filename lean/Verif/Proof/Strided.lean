import Verif.Proof.Outer4

/-! The strided transforms of `Convolution3::forward` and `backward`. -/

namespace Fftwpp
open Finset

namespace FftBase
variable {o : FftBase} {x0 : ℤ} {padded : Mem → Ptr → Prop} {Ly Sy : ℕ}

theorem strided_data (f p : Ptr) {j : ℕ} (hj : j < Ly) (h : o.Data (f + Sy * j) p) : (o.strided Ly o.C Sy).Data f p := by
  obtain ⟨i, hi, c, hc, rfl⟩ := h
  refine ⟨i, hi, o.C * j + c, ?_, ?_⟩
  · show o.C * j + c < Ly * o.C
    rw [Nat.mul_comm Ly]; exact radix_lt hc hj
  · show _ = f + (o.S * i + (Sy * ((o.C * j + c) / o.C) + o.col ((o.C * j + c) % o.C)))
    rw [Nat.mul_add_div (by omega), Nat.mul_add_mod, Nat.div_eq_of_lt hc, Nat.mod_eq_of_lt hc, Nat.add_zero]
    ext <;> simp; ring

theorem strided_cols (F p : Ptr) {j : ℕ} (hj : j < Ly) (h : o.Cols (F + Sy * j) p) : (o.strided Ly o.C Sy).Cols F p := by
  obtain ⟨i, hi, c, hc, rfl⟩ := h
  refine ⟨i, hi, o.C * j + c, ?_, ?_⟩
  · show o.C * j + c < Ly * o.C
    rw [Nat.mul_comm Ly]; exact radix_lt hc hj
  · show _ = F + (o.S * i + (Sy * ((o.C * j + c) / o.C) + o.col ((o.C * j + c) % o.C)))
    rw [Nat.mul_add_div (by omega), Nat.mul_add_mod, Nat.div_eq_of_lt hc, Nat.mod_eq_of_lt hc, Nat.add_zero]
    ext <;> simp; ring

theorem strided_args {mem : Mem} {f F : Ptr} {W? : Option Ptr} (h : (o.strided Ly o.C Sy).Args mem f F W?) {j : ℕ} (hj : j < Ly) :
    o.Args mem (f + Sy * j) (F + Sy * j) W? :=
  ⟨h.fF, fun p hp => h.bf p (strided_data f p hj hp), fun p hp => h.bF p (strided_cols F p hj hp), h.bW⟩

theorem Args.size {mem m' : Mem} {f F : Ptr} {W? : Option Ptr} (h : o.Args mem f F W?) (hs : m'.size = mem.size) : o.Args m' f F W? := by
  refine ⟨h.fF, fun p hp => Mem.valid_of_size hs (h.bf p hp), fun p hp => Mem.valid_of_size hs (h.bF p hp), ?_⟩
  have := h.bW
  split_ifs at this ⊢
  · exact this
  · obtain ⟨W, h1, h2, h3, h4⟩ := this
    exact ⟨W, h1, h2, h3, block_size hs h4⟩

/-- A column of block `j`. -/
theorem strided_split (hC : 0 < o.C) {c : ℕ} (hc : c < Ly * o.C) : ∃ j < Ly, ∃ d < o.C, c = o.C * j + d ∧
    (o.strided Ly o.C Sy).col c = Sy * j + o.col d := by
  refine ⟨c / o.C, Nat.div_lt_of_lt_mul (by rw [Nat.mul_comm]; exact hc), c % o.C, Nat.mod_lt _ hC, (Nat.div_add_mod c o.C).symm, rfl⟩

/-- Words of different blocks are different. -/
theorem strided_ne (hcol : ∀ c < o.C, o.col c < Sy) (hS : Ly * Sy ≤ o.S) {f : Ptr} {i i' j j' c c' : ℕ} (hj : j < Ly) (hj' : j' < Ly)
    (hne : j ≠ j') (hc : c < o.C) (hc' : c' < o.C) : f + (o.S * i + (Sy * j + o.col c)) ≠ f + Sy * j' + (o.S * i' + o.col c') := by
  intro e
  have e1 : f.off + ((o.S * i + (Sy * j + o.col c) : ℕ) : ℤ) = f.off + ((Sy * j' : ℕ) : ℤ) + ((o.S * i' + o.col c' : ℕ) : ℤ) := congrArg Ptr.off e
  have e2 : o.S * i + (Sy * j + o.col c) = o.S * i' + (Sy * j' + o.col c') := by omega
  have hlt : ∀ {j c}, j < Ly → c < o.C → Sy * j + o.col c < o.S := fun {j c} h1 h2 =>
    lt_of_lt_of_le (radix_lt (hcol c h2) h1) (by rw [Nat.mul_comm]; exact hS)
  obtain ⟨_, e3⟩ := radix_inj (hlt hj hc) (hlt hj' hc') e2
  exact hne (radix_inj (hcol c hc) (hcol c' hc') e3).1

theorem strided_spec (h : o.Spec x0 padded) (hcol : ∀ c < o.C, o.col c < Sy) (hS : Ly * Sy ≤ o.S) (hLy : 0 < Ly) :
    (o.strided Ly o.C Sy).Spec x0 padded := by
  have hptr : ∀ (p : Ptr) (i j c : ℕ), p + Sy * j + (o.S * i + o.col c) = p + (o.S * i + (Sy * j + o.col c)) := by
    intro p i j c; ext <;> simp; ring
  refine ⟨Nat.mul_pos hLy h.C_pos, ?_, h.N_pos, h.res0, h.nl, h.nout, h.wsW, h.sum, h.pad_in, h.pad_frame, h.pad_none, h.padNone_in,
    h.pad_q1, h.padOk, ?_, ?_⟩
  · intro c hc
    obtain ⟨j, hj, d, hd, _, e⟩ := strided_split (Sy := Sy) h.C_pos hc
    rw [e]
    exact lt_of_lt_of_le (radix_lt (hcol d hd) hj) (by rw [Nat.mul_comm]; exact hS)
  · intro how m f F W? r hr a hp
    have hfF : f.buf ≠ F.buf := a.fF
    have hpj : ∀ (m : Mem) (p : Ptr), padded m (W?.getD F) → padded m (W?.getD p) := by
      intro m p hp
      cases W? with
      | some W => exact hp
      | none =>
        have := a.bW
        by_cases hi : o.inplace = true
        · exact h.pad_in hi _ _
        · rw [if_neg (show ¬ (o.strided Ly o.C Sy).inplace = true from hi)] at this
          obtain ⟨W, hW, _⟩ := this
          simp at hW
    have hpj' : ∀ (m : Mem) (p : Ptr), padded m (W?.getD p) → padded m (W?.getD F) := by
      intro m p hp
      cases W? with
      | some W => exact hp
      | none =>
        have := a.bW
        by_cases hi : o.inplace = true
        · exact h.pad_in hi _ _
        · rw [if_neg (show ¬ (o.strided Ly o.C Sy).inplace = true from hi)] at this
          obtain ⟨W, hW, _⟩ := this
          simp at hW
    have hWb : ∀ W, W? = some W → W.buf ≠ F.buf ∧ W.buf ≠ f.buf := by
      intro W hW
      have := a.bW
      by_cases hi : o.inplace = true
      · rw [if_pos (show (o.strided Ly o.C Sy).inplace = true from hi), hW] at this
        simp at this
      · rw [if_neg (show ¬ (o.strided Ly o.C Sy).inplace = true from hi)] at this
        obtain ⟨W', hW', h1, h2, _⟩ := this
        rw [hW] at hW'
        obtain rfl : W = W' := by simpa using hW'
        exact ⟨h1, h2⟩
    show (seqLoop (rng 0 Ly) fun j => o.forward (f + Sy * j) (F + Sy * j) r W?).Ok m _
    refine Fft.seqLoop_rng (fun k m1 => m.Upd m1 ((o.strided Ly o.C Sy).Touch F W?) ∧ padded m1 (W?.getD F) ∧
      ∀ i < o.noutputs r, ∀ j < k, ∀ c < o.C, m1.val (F + (o.S * i + (Sy * j + o.col c))) =
        o.dft x0 (fun i => m.val (f + (o.S * i + (Sy * j + o.col c)))) (o.index r i))
      ⟨Mem.Upd.refl _ _, hp, fun _ _ _ h => absurd h (by omega)⟩ ?_ ?_
    · rintro k m1 hk ⟨u1, p1, e1⟩
      refine (h.fwd how hr ((strided_args a hk).size u1.size) (hpj m1 _ p1)).mono ?_
      rintro _ m2 ⟨u2, p2, e2⟩
      refine ⟨u1.trans u2 (fun _ h => h) ?_, hpj' m2 _ p2, ?_⟩
      · rintro p (hp | hp)
        · exact Or.inl (strided_cols F p hk hp)
        · exact Or.inr hp
      · intro i hi j hj c hc
        by_cases hjk : j = k
        · subst hjk
          have := e2 i hi c hc
          rw [hptr] at this
          rw [this]
          unfold dft
          refine sum_congr rfl fun i' _ => ?_
          beta_reduce
          rw [hptr, u1.frame]
          rintro (hp | ⟨W, hW, hp⟩)
          · exact hfF (by simpa using hp.buf)
          · exact (hWb W hW).2 (by simpa using (inArr_buf hp).symm)
        · rw [u2.frame, e1 i hi j (by omega) c hc]
          rintro (⟨i', _, c', hc', e⟩ | ⟨W, hW, hp⟩)
          · exact strided_ne hcol hS (by omega : j < Ly) hk hjk hc hc' e
          · exact (hWb W hW).1 (by simpa using (inArr_buf hp).symm)
    · rintro m1 ⟨u1, p1, e1⟩
      refine ⟨u1, p1, ?_⟩
      intro i hi c hc
      obtain ⟨j, hj, d, hd, _, e⟩ := strided_split (Sy := Sy) h.C_pos hc
      simp only [e]
      exact e1 i hi j hj d hd
  · intro how m f F W? r hr a
    have hfF : f.buf ≠ F.buf := a.fF
    have hWb : ∀ W, W? = some W → W.buf ≠ F.buf ∧ W.buf ≠ f.buf := by
      intro W hW
      have := a.bW
      by_cases hi : o.inplace = true
      · rw [if_pos (show (o.strided Ly o.C Sy).inplace = true from hi), hW] at this
        simp at this
      · rw [if_neg (show ¬ (o.strided Ly o.C Sy).inplace = true from hi)] at this
        obtain ⟨W', hW', h1, h2, _⟩ := this
        rw [hW] at hW'
        obtain rfl : W = W' := by simpa using hW'
        exact ⟨h1, h2⟩
    show (seqLoop (rng 0 Ly) fun j => o.backward (F + Sy * j) (f + Sy * j) r W?).Ok m _
    refine Fft.seqLoop_rng (fun k m1 => m.Upd m1 (fun p => (o.strided Ly o.C Sy).Data f p ∨ (o.strided Ly o.C Sy).Touch F W? p) ∧
      (∀ i < o.L, ∀ j < k, ∀ c < o.C, m1.val (f + (o.S * i + (Sy * j + o.col c))) =
        (if r = 0 then 0 else m.val (f + (o.S * i + (Sy * j + o.col c)))) +
        ∑ e ∈ range (o.noutputs r), m.val (F + (o.S * e + (Sy * j + o.col c))) * w o.N (-(((i : ℤ) - x0) * (o.index r e : ℤ)))) ∧
      (∀ i < o.L, ∀ j < Ly, k ≤ j → ∀ c < o.C, m1.val (f + (o.S * i + (Sy * j + o.col c))) = m.val (f + (o.S * i + (Sy * j + o.col c)))) ∧
      ∀ i, ∀ j < Ly, k ≤ j → ∀ c < o.C, m1.val (F + (o.S * i + (Sy * j + o.col c))) = m.val (F + (o.S * i + (Sy * j + o.col c))))
      ⟨Mem.Upd.refl _ _, fun _ _ _ h => absurd h (by omega), fun _ _ _ _ _ _ _ => rfl, fun _ _ _ _ _ _ => rfl⟩ ?_ ?_
    · rintro k m1 hk ⟨u1, e1, s1, t1⟩
      refine (h.bwd how hr ((strided_args a hk).size u1.size)).mono ?_
      rintro _ m2 ⟨u2, e2⟩
      have hfr : ∀ i, ∀ j < Ly, j ≠ k → ∀ c < o.C, m2.val (f + (o.S * i + (Sy * j + o.col c))) = m1.val (f + (o.S * i + (Sy * j + o.col c))) := by
        intro i j hj hjk c hc
        refine u2.frame _ ?_
        rintro (⟨i', _, c', hc', e⟩ | hp | ⟨W, hW, hp⟩)
        · exact strided_ne hcol hS hj hk hjk hc hc' e
        · exact hfF (by simpa using hp.buf)
        · exact (hWb W hW).2 (by simpa using (inArr_buf hp).symm)
      have hFr : ∀ i, ∀ j < Ly, j ≠ k → ∀ c < o.C, m2.val (F + (o.S * i + (Sy * j + o.col c))) = m1.val (F + (o.S * i + (Sy * j + o.col c))) := by
        intro i j hj hjk c hc
        refine u2.frame _ ?_
        rintro (hp | ⟨i', _, c', hc', e⟩ | ⟨W, hW, hp⟩)
        · exact hfF (by simpa using (data_buf hp).symm)
        · exact strided_ne hcol hS hj hk hjk hc hc' e
        · exact (hWb W hW).1 (by simpa using (inArr_buf hp).symm)
      refine ⟨u1.trans u2 (fun _ h => h) ?_, ?_, ?_, ?_⟩
      · rintro p (hp | hp | hp)
        · exact Or.inl (strided_data f p hk hp)
        · exact Or.inr (Or.inl (strided_cols F p hk hp))
        · exact Or.inr (Or.inr hp)
      · intro i hi j hj c hc
        by_cases hjk : j = k
        · subst hjk
          have := e2 i hi c hc
          simp only [hptr] at this
          rw [this, s1 i hi j hk le_rfl c hc]
          congr 1
          refine sum_congr rfl fun e _ => ?_
          rw [t1 e j hk le_rfl c hc]
        · rw [hfr i j (by omega) hjk c hc, e1 i hi j (by omega) c hc]
      · intro i hi j hj hkj c hc
        rw [hfr i j hj (by omega) c hc, s1 i hi j hj (by omega) c hc]
      · intro i j hj hkj c hc
        rw [hFr i j hj (by omega) c hc, t1 i j hj (by omega) c hc]
    · rintro m1 ⟨u1, e1, _⟩
      refine ⟨u1, ?_⟩
      intro i hi c hc
      obtain ⟨j, hj, d, hd, _, e⟩ := strided_split (Sy := Sy) h.C_pos hc
      simp only [e]
      exact e1 i hi j hj d hd

/-- The strided transforms of an overwriting transform. -/
theorem strided_owSpec {freq : ℕ → ℕ → ℕ} (h : o.OwSpec x0 freq) (hC : 0 < o.C) (hcol : ∀ c < o.C, o.col c < Sy) (hS : Ly * Sy ≤ o.S) :
    (o.strided Ly o.C Sy).OwSpec x0 freq := by
  have hptr : ∀ (p : Ptr) (i j c : ℕ), p + Sy * j + (o.S * i + o.col c) = p + (o.S * i + (Sy * j + o.col c)) := by
    intro p i j c; ext <;> simp; ring
  refine ⟨h.q1, h.inpl, h.BA, ?_, h.bs, h.L_eq, h.l_pos, h.n_pos, h.res, h.out, h.sum, h.idx, ?_, ?_⟩
  · intro c hc
    obtain ⟨j, hj, d, hd, _, e⟩ := strided_split (Sy := Sy) hC hc
    rw [e]
    exact lt_of_lt_of_le (radix_lt (hcol d hd) hj) (by rw [Nat.mul_comm]; exact hS)
  · intro m f F r0 W? hfF bf bF
    show (seqLoop (rng 0 Ly) fun j => o.forward (f + Sy * j) (F + Sy * j) r0 W?).Ok m _
    refine Fft.seqLoop_rng (fun k m1 => m.Upd m1 (fun p => (o.strided Ly o.C Sy).Data f p ∨ (o.strided Ly o.C Sy).Cols F p) ∧
      (∀ r < o.n - 1, ∀ i < o.l, ∀ j < k, ∀ c < o.C, m1.val (f + (o.S * (o.l * r + i) + (Sy * j + o.col c))) =
        o.dft x0 (fun i => m.val (f + (o.S * i + (Sy * j + o.col c)))) (freq r i)) ∧
      (∀ i < o.l, ∀ j < k, ∀ c < o.C, m1.val (F + (o.S * i + (Sy * j + o.col c))) =
        o.dft x0 (fun i => m.val (f + (o.S * i + (Sy * j + o.col c)))) (freq (o.n - 1) i)) ∧
      ∀ i, ∀ j < Ly, k ≤ j → ∀ c < o.C, m1.val (f + (o.S * i + (Sy * j + o.col c))) = m.val (f + (o.S * i + (Sy * j + o.col c))))
      ⟨Mem.Upd.refl _ _, fun _ _ _ _ _ h => absurd h (by omega), fun _ _ _ h => absurd h (by omega), fun _ _ _ _ _ _ => rfl⟩ ?_ ?_
    · rintro k m1 hk ⟨u1, e1, d1, s1⟩
      refine (h.fwd r0 W? (by simpa using hfF) (fun p hp => Mem.valid_of_size u1.size (bf p (strided_data f p hk hp)))
        (fun p hp => Mem.valid_of_size u1.size (bF p (strided_cols F p hk hp)))).mono ?_
      rintro _ m2 ⟨u2, e2, d2⟩
      have hfr : ∀ i, ∀ j < Ly, j ≠ k → ∀ c < o.C, m2.val (f + (o.S * i + (Sy * j + o.col c))) = m1.val (f + (o.S * i + (Sy * j + o.col c))) := by
        intro i j hj hjk c hc
        refine u2.frame _ ?_
        rintro (⟨i', _, c', hc', e⟩ | hp)
        · exact strided_ne hcol hS hj hk hjk hc hc' e
        · exact hfF (by simpa using hp.buf)
      have hFr : ∀ i, ∀ j < Ly, j ≠ k → ∀ c < o.C, m2.val (F + (o.S * i + (Sy * j + o.col c))) = m1.val (F + (o.S * i + (Sy * j + o.col c))) := by
        intro i j hj hjk c hc
        refine u2.frame _ ?_
        rintro (hp | ⟨i', _, c', hc', e⟩)
        · exact hfF (by simpa using (data_buf hp).symm)
        · exact strided_ne hcol hS hj hk hjk hc hc' e
      have hd : ∀ c < o.C, (fun i => m1.val (f + Sy * k + (o.S * i + o.col c))) = fun i => m.val (f + (o.S * i + (Sy * k + o.col c))) := by
        intro c hc
        funext i
        rw [hptr, s1 i k hk le_rfl c hc]
      refine ⟨u1.trans u2 (fun _ h => h) ?_, ?_, ?_, ?_⟩
      · rintro p (hp | hp)
        · exact Or.inl (strided_data f p hk hp)
        · exact Or.inr (strided_cols F p hk hp)
      · intro r hr i hi j hj c hc
        by_cases hjk : j = k
        · subst hjk
          have := e2 r hr i hi c hc
          rw [hptr, hd c hc] at this
          exact this
        · rw [hfr _ j (by omega) hjk c hc, e1 r hr i hi j (by omega) c hc]
      · intro i hi j hj c hc
        by_cases hjk : j = k
        · subst hjk
          have := d2 i hi c hc
          rw [hptr, hd c hc] at this
          exact this
        · rw [hFr _ j (by omega) hjk c hc, d1 i hi j (by omega) c hc]
      · intro i j hj hkj c hc
        rw [hfr i j hj (by omega) c hc, s1 i j hj (by omega) c hc]
    · rintro m1 ⟨u1, e1, d1, _⟩
      refine ⟨u1, ?_, ?_⟩
      · intro r hr i hi c hc
        obtain ⟨j, hj, d, hd, _, e⟩ := strided_split (Sy := Sy) hC hc
        simp only [e]
        exact e1 r hr i hi j hj d hd
      · intro i hi c hc
        obtain ⟨j, hj, d, hd, _, e⟩ := strided_split (Sy := Sy) hC hc
        simp only [e]
        exact d1 i hi j hj d hd
  · intro m f F r0 W? hfF bf bF
    show (seqLoop (rng 0 Ly) fun j => o.backward (F + Sy * j) (f + Sy * j) r0 W?).Ok m _
    refine Fft.seqLoop_rng (fun k m1 => m.Upd m1 (fun p => (o.strided Ly o.C Sy).Data f p ∨ (o.strided Ly o.C Sy).Cols F p) ∧
      (∀ i < o.L, ∀ j < k, ∀ c < o.C, m1.val (f + (o.S * i + (Sy * j + o.col c))) =
        (∑ r ∈ range (o.n - 1), ∑ t ∈ range o.l, m.val (f + (o.S * (o.l * r + t) + (Sy * j + o.col c))) *
          w o.N (-(((i : ℤ) - x0) * (freq r t : ℤ)))) +
        ∑ t ∈ range o.l, m.val (F + (o.S * t + (Sy * j + o.col c))) * w o.N (-(((i : ℤ) - x0) * (freq (o.n - 1) t : ℤ)))) ∧
      (∀ i, ∀ j < Ly, k ≤ j → ∀ c < o.C, m1.val (f + (o.S * i + (Sy * j + o.col c))) = m.val (f + (o.S * i + (Sy * j + o.col c)))) ∧
      ∀ i, ∀ j < Ly, k ≤ j → ∀ c < o.C, m1.val (F + (o.S * i + (Sy * j + o.col c))) = m.val (F + (o.S * i + (Sy * j + o.col c))))
      ⟨Mem.Upd.refl _ _, fun _ _ _ h => absurd h (by omega), fun _ _ _ _ _ _ => rfl, fun _ _ _ _ _ _ => rfl⟩ ?_ ?_
    · rintro k m1 hk ⟨u1, e1, s1, t1⟩
      refine (h.bwd r0 W? (by simpa using hfF) (fun p hp => Mem.valid_of_size u1.size (bf p (strided_data f p hk hp)))
        (fun p hp => Mem.valid_of_size u1.size (bF p (strided_cols F p hk hp)))).mono ?_
      rintro _ m2 ⟨u2, e2⟩
      have hfr : ∀ i, ∀ j < Ly, j ≠ k → ∀ c < o.C, m2.val (f + (o.S * i + (Sy * j + o.col c))) = m1.val (f + (o.S * i + (Sy * j + o.col c))) := by
        intro i j hj hjk c hc
        refine u2.frame _ ?_
        rintro (⟨i', _, c', hc', e⟩ | hp)
        · exact strided_ne hcol hS hj hk hjk hc hc' e
        · exact hfF (by simpa using hp.buf)
      have hFr : ∀ i, ∀ j < Ly, j ≠ k → ∀ c < o.C, m2.val (F + (o.S * i + (Sy * j + o.col c))) = m1.val (F + (o.S * i + (Sy * j + o.col c))) := by
        intro i j hj hjk c hc
        refine u2.frame _ ?_
        rintro (hp | ⟨i', _, c', hc', e⟩)
        · exact hfF (by simpa using (data_buf hp).symm)
        · exact strided_ne hcol hS hj hk hjk hc hc' e
      refine ⟨u1.trans u2 (fun _ h => h) ?_, ?_, ?_, ?_⟩
      · rintro p (hp | hp)
        · exact Or.inl (strided_data f p hk hp)
        · exact Or.inr (strided_cols F p hk hp)
      · intro i hi j hj c hc
        by_cases hjk : j = k
        · subst hjk
          have := e2 i hi c hc
          simp only [hptr] at this
          rw [this]
          congr 1
          · refine sum_congr rfl fun r _ => sum_congr rfl fun t _ => ?_
            rw [s1 _ j hk le_rfl c hc]
          · refine sum_congr rfl fun t _ => ?_
            rw [t1 t j hk le_rfl c hc]
        · rw [hfr i j (by omega) hjk c hc, e1 i hi j (by omega) c hc]
      · intro i j hj hkj c hc
        rw [hfr i j hj (by omega) c hc, s1 i j hj (by omega) c hc]
      · intro i j hj hkj c hc
        rw [hFr i j hj (by omega) c hc, t1 i j hj (by omega) c hc]
    · rintro m1 ⟨u1, e1, _⟩
      refine ⟨u1, ?_⟩
      intro i hi c hc
      obtain ⟨j, hj, d, hd, _, e⟩ := strided_split (Sy := Sy) hC hc
      simp only [e]
      exact e1 i hi j hj d hd

end FftBase
end Fftwpp
