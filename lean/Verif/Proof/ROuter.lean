import Verif.Model.RealDriver2
import Verif.Proof.RConv
import Verif.Proof.AOuter
import Verif.Proof.Gen2

/-! `Convolution2` and `Convolution3` of arrays of doubles: the loops over the data, and `subconvolution`. -/

namespace Fftwpp
open Finset

/-- A loop of statements, each storing one double. -/
theorem map_loopD2 {n : ℕ} {dst src : ℕ → Ptr} {body : ℕ → Body Unit} {v : ℝ → ℝ} {mem : Mem}
    (hg : ∀ i < n, ∀ m : Mem, m.size = mem.size → (body i).Good m.split)
    (hw : ∀ i < n, ∀ m : Mem, (body i).wrs m.split = [(dst i, (v (m.cell (src i)) : ℂ))])
    (hinj : ∀ i < n, ∀ j < n, dst i = dst j → i = j)
    (hsd : (∀ i, src i = dst i) ∨ ∀ i < n, ∀ j < n, src i ≠ dst j) :
    (seqLoop (rng 0 n) fun i => runD (body i)).Ok mem fun _ m' => mem.DUpd m' (fun p => ∃ i < n, p = dst i) ∧
      ∀ i < n, m'.cell (dst i) = v (mem.cell (src i)) := by
  refine Fft.seqLoop_rng (fun k m1 => mem.DUpd m1 (fun p => ∃ i < n, p = dst i) ∧ (∀ i < k, m1.cell (dst i) = v (mem.cell (src i))) ∧
    ∀ i < n, k ≤ i → m1.cell (src i) = mem.cell (src i)) ⟨Mem.DUpd.refl _ _, fun _ h => absurd h (by omega), fun _ _ _ => rfl⟩ ?_ ?_
  · rintro k m1 hk ⟨u1, e1, s1⟩
    rw [runD_eq]
    refine parD_cells (fun _ => dst k) (fun _ => v (m1.cell (src k))) (rng_nodup _ _) (fun _ _ => hg k hk m1 u1.size) (fun _ _ => hw k hk m1) ?_ ?_ ?_
    · intro i hi j hj _
      rw [mem_rng] at hi hj; omega
    · intro i hi j hj hij
      rw [mem_rng] at hi hj; omega
    intro m2 u2 e2
    have e2 := e2 0 (mem_rng.2 ⟨le_rfl, by omega⟩)
    have u2 : m1.DUpd m2 (fun x => x = dst k) := u2.mono fun p ⟨_, _, h⟩ => h
    refine ⟨u1.trans u2 (fun _ h => h) (fun p hp => ⟨k, hk, hp⟩), ?_, ?_⟩
    · intro i hi
      by_cases hik : i = k
      · subst hik; rw [e2, s1 i hk le_rfl]
      · rw [u2.frame _ (fun e => hik (hinj i (by omega) k hk e)), e1 i (by omega)]
    · intro i hi hki
      rw [u2.frame, s1 i hi (by omega)]
      rcases hsd with h | h
      · rw [h]; exact fun e => by have := hinj i hi k hk e; omega
      · exact h i hi k hk
  · rintro m ⟨u, e, _⟩
    exact ⟨u, e⟩

theorem dwords2 {f : Ptr} {n K : ℕ} {pos : ℕ → ℕ} (hpos : ∀ k < n, pos k < K) {m m' : Mem}
    (u : m.DUpd m' (fun x => ∃ k < n, x = dptr f + pos k)) : m.Upd m' (InArr f ((K + 1) / 2)) := by
  refine u.words ?_
  rintro x ⟨k, hk, rfl⟩
  exact ⟨pos k / 2, half_word (hpos k hk), RPlan.wordOf_add _ _⟩

/-- Copying the results back: the doubles at the positions `pos k` of arrays of `K` doubles. -/
theorem copyDoubles_ok {n B K : ℕ} {pos : ℕ → ℕ} {mem : Mem} {f h : PtrArr} {off : ℕ} (hfn : B ≤ f.n) (hhn : B ≤ h.n)
    (hpos : ∀ k < n, pos k < K) (hinj : ∀ i < n, ∀ j < n, pos i = pos j → i = j)
    (hvf : ∀ b < B, mem.block (f.at_ b + off) ((K + 1) / 2)) (hvh : ∀ b < B, mem.block (h.at_ b) ((K + 1) / 2))
    (hfh : ∀ b < B, ∀ b' < B, (f.at_ b).buf ≠ (h.at_ b').buf)
    (hap : ∀ b < B, ∀ b' < B, b ≠ b' → ∀ p, InArr (f.at_ b + off) ((K + 1) / 2) p → ¬ InArr (f.at_ b' + off) ((K + 1) / 2) p) :
    (copyDoubles n pos B f h off).Ok mem fun _ m' => mem.Upd m' (fun p => ∃ b < B, InArr (f.at_ b + off) ((K + 1) / 2) p) ∧
      ∀ b < B, ∀ k < n, m'.dbl (f.at_ b + off) (pos k) = mem.dbl (h.at_ b) (pos k) := by
  unfold copyDoubles
  refine Fft.seqLoop_rng (fun b0 m1 => mem.Upd m1 (fun p => ∃ b < B, InArr (f.at_ b + off) ((K + 1) / 2) p) ∧
      ∀ b < b0, ∀ k < n, m1.dbl (f.at_ b + off) (pos k) = mem.dbl (h.at_ b) (pos k))
      ⟨Mem.Upd.refl _ _, fun _ h => absurd h (by omega)⟩ ?_ (fun _ h => h)
  rintro b m1 hb ⟨u1, e1⟩
  rw [PtrArr.get_bind (by omega), PtrArr.get_bind (by omega)]
  refine (map_loopD2 (dst := fun k => dptr (f.at_ b + off) + pos k) (src := fun k => dptr (h.at_ b) + pos k) (v := fun x => x)
    ?_ ?_ ?_ (Or.inr ?_)).mono ?_
  · intro i hi m hs
    have hs := hs.trans u1.size
    unfold Re.copyD getD setD
    body_simp
    simp only [Mem.split_valid, RPlan.wordOf_add]
    exact ⟨Mem.valid_of_size hs (hvh b hb _ (half_word (hpos i hi))), Mem.valid_of_size hs (hvf b hb _ (half_word (hpos i hi)))⟩
  · intro i hi m
    unfold Re.copyD getD setD
    body_simp
    simp [Mem.split_val]
  · intro i hi j hj e
    refine hinj i hi j hj ?_
    have : (dptr (f.at_ b + off)).off + (pos i : ℤ) = (dptr (f.at_ b + off)).off + (pos j : ℤ) := congrArg Ptr.off e
    omega
  · intro i hi j hj e
    exact hfh b hb b hb (by simpa [dptr] using (congrArg Ptr.buf e).symm)
  rintro _ m2 ⟨u2, e2⟩
  have w2 := dwords2 hpos u2
  refine ⟨u1.trans w2 (fun _ h => h) (fun p hp => ⟨b, hb, hp⟩), ?_⟩
  intro b' hb' k hk
  by_cases hbb : b' = b
  · subst hbb
    rw [Mem.dbl_cell, e2 k hk, ← Mem.dbl_cell]
    refine dbl_upd (L := K) u1 ?_ (hpos k hk)
    rintro p hp ⟨b2, hb2, hp'⟩
    have := FftBase.inArr_buf hp'
    simp only [Ptr.add_buf] at this
    exact hfh b2 hb2 b' hb (by rw [← this, FftBase.inArr_buf hp])
  · rw [dbl_upd (L := K) w2 (hap b' (by omega) b hb hbb) (hpos k hk), e1 b' (by omega) k hk]

/-- Scaling the results. -/
theorem scaleDoubles_ok {n B K : ℕ} {pos : ℕ → ℕ} {scale : ℝ} {mem : Mem} {f : PtrArr} {off : ℕ} (hfn : B ≤ f.n)
    (hpos : ∀ k < n, pos k < K) (hinj : ∀ i < n, ∀ j < n, pos i = pos j → i = j)
    (hvf : ∀ b < B, mem.block (f.at_ b + off) ((K + 1) / 2))
    (hap : ∀ b < B, ∀ b' < B, b ≠ b' → ∀ p, InArr (f.at_ b + off) ((K + 1) / 2) p → ¬ InArr (f.at_ b' + off) ((K + 1) / 2) p) :
    (scaleDoubles n pos B scale f off).Ok mem fun _ m' => mem.Upd m' (fun p => ∃ b < B, InArr (f.at_ b + off) ((K + 1) / 2) p) ∧
      ∀ b < B, ∀ k < n, m'.dbl (f.at_ b + off) (pos k) = mem.dbl (f.at_ b + off) (pos k) * scale := by
  unfold scaleDoubles
  refine Fft.seqLoop_rng (fun b0 m1 => mem.Upd m1 (fun p => ∃ b < b0, InArr (f.at_ b + off) ((K + 1) / 2) p) ∧
      ∀ b < b0, ∀ k < n, m1.dbl (f.at_ b + off) (pos k) = mem.dbl (f.at_ b + off) (pos k) * scale)
      ⟨Mem.Upd.refl _ _, fun _ h => absurd h (by omega)⟩ ?_ (fun _ h => h)
  rintro b m1 hb ⟨u1, e1⟩
  rw [PtrArr.get_bind (by omega)]
  refine (map_loopD2 (dst := fun k => dptr (f.at_ b + off) + pos k) (src := fun k => dptr (f.at_ b + off) + pos k) (v := fun x => x * scale)
    ?_ ?_ ?_ (Or.inl fun _ => rfl)).mono ?_
  · intro i hi m hs
    have hs := hs.trans u1.size
    unfold getD setD
    body_simp
    simp only [Mem.split_valid, RPlan.wordOf_add]
    have hv := Mem.valid_of_size hs (hvf b hb _ (half_word (hpos i hi)))
    exact ⟨hv, hv⟩
  · intro i hi m
    unfold getD setD
    body_simp
    simp [Mem.split_val]
  · intro i hi j hj e
    refine hinj i hi j hj ?_
    have : (dptr (f.at_ b + off)).off + (pos i : ℤ) = (dptr (f.at_ b + off)).off + (pos j : ℤ) := congrArg Ptr.off e
    omega
  rintro _ m2 ⟨u2, e2⟩
  have w2 := dwords2 hpos u2
  refine ⟨u1.trans w2 (fun p ⟨b', hb', h'⟩ => ⟨b', by omega, h'⟩) (fun p hp => ⟨b, by omega, hp⟩), ?_⟩
  intro b' hb' k hk
  by_cases hbb : b' = b
  · subst hbb
    rw [Mem.dbl_cell, e2 k hk, ← Mem.dbl_cell]
    rw [dbl_upd (L := K) u1 ?_ (hpos k hk)]
    rintro p hp ⟨b2, hb2, hp'⟩
    exact hap b' hb b2 (by omega) (by omega) p hp hp'
  · rw [dbl_upd (L := K) w2 (hap b' (by omega) b hb hbb) (hpos k hk), e1 b' (by omega) k hk]

namespace Re
variable {x : Re}

/-- `subconvolution` for every schedule, around a transform of real data. -/
theorem sub_spec (w' : x.WF) (hBA : x.B ≤ x.A) {threads ext : ℕ} {raw : ℕ → ℕ → ℕ → List ℕ → PtrArr → ℕ → Cmd Unit} {Ψ}
    {T : ℕ → ℕ → Prop} {Inv : ℕ → Mem → Prop}
    (hin : ∀ r ∈ x.visited x.R 0, ∀ t < threads, ∀ i < x.blocksize r, Inner x.A x.B x.C ext (fun c => c) (raw r t i) Ψ (T t) (Inv t))
    (hinv : ∀ t < threads, ∀ {m m' : Mem}, Inv t m → m'.size = m.size → (∀ p : Ptr, T t p.buf → m'.val p = m.val p) → Inv t m')
    (hcong : ∀ idx b X Y, (∀ a < x.A, ∀ c < x.C, X a c = Y a c) → ∀ c < x.C, Ψ idx b X c = Ψ idx b Y c)
    (hTT : ∀ t < threads, ∀ t' < threads, t ≠ t' → ∀ k, T t k → ¬ T t' k) (hext : ext ≤ x.S)
    (hbs : ∀ r ∈ x.visited x.R 0, x.noutputs r = x.blocksize r) {s : ℕ → Sch}
    (hs : ∀ r ∈ x.visited x.R 0, (s r).Legal (x.blocksize r) threads) (idx : List ℕ) :
    x.view.OpSpec x.base (fun F r => seqLoop (s r) fun y =>
        if y.2 < threads then raw r y.2 y.1 (x.index r y.1 :: idx) F (0 + y.1 * x.S) else ubCmd)
      (fun r i b X c => Ψ (x.index r i :: idx) b X c) (fun _ _ _ => True) (fun k => ∃ t < threads, T t k) (fun m => ∀ t < threads, Inv t m) := by
  refine ⟨fun r i b X Y hXY c hc => hcong _ _ _ _ hXY c hc, fun _ _ _ _ _ _ => trivial, ?_, ?_⟩
  · intro m m' hm hsz hv t ht
    exact hinv t ht (hm t ht) hsz fun p hp => hv p ⟨t, ht, hp⟩
  intro m F r hr hI hn hb hsep hT
  have hmax : max x.base.A x.base.B = x.A := max_eq_left hBA
  rw [hmax] at hn hb hsep hT
  rw [hmax]
  have hr : r ∈ x.visited x.R 0 := hr
  have hv := w'.visit hr
  have hCS := w'.C_le_S
  have hout : ∀ i < x.blocksize r, x.S * i + x.S ≤ x.outputSize := by
    intro i hi
    rw [← hbs r hr] at hi
    have h1 := w'.noutputs_rows hv
    rw [w'.outputSize_eq]
    have : x.S * (i + 1) ≤ x.S * x.nrows := Nat.mul_le_mul_left _ (by omega)
    rwa [Nat.mul_succ] at this
  refine (sub_rows (col := fun c => c) (fun c hc => by omega) hBA (hin r hr) hinv hcong (fun _ _ _ _ => trivial) hTT (hs r hr) idx (x.index r) (off0 := 0) hI hn ?_ hsep hT).mono ?_
  · intro a ha i hi k hk
    have e : (F.at_ a + (0 : ℕ) + x.S * i + k : Ptr) = F.at_ a + (x.S * i + k) := by ext <;> simp; ring
    rw [e]
    exact hb a ha _ (by have := hout i hi; show _ < x.outputSize; omega)
  · rintro _ m' ⟨I', u, e⟩
    simp only [Conv.Ptr.add0] at u e
    refine ⟨I', u.mono ?_, ?_⟩
    · rintro p (h1 | ⟨a, ha, i, hi, c, hc, rfl⟩)
      · exact Or.inl h1
      · refine Or.inr ⟨a, ha, _, ?_, rfl⟩
        have := hout i hi
        show _ < x.outputSize
        omega
    · intro _ b hb' i hi c hc
      have hi : i < x.noutputs r := hi
      rw [hbs r hr] at hi
      exact e b hb' i hi trivial c hc

end Re
end Fftwpp
