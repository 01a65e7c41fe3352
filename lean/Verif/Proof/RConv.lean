import Verif.Proof.ROper
import Verif.Proof.Conv2

/-! `Convolution` of arrays of doubles, over an abstract view of the arrays. -/

namespace Fftwpp
open Finset

/-- A loop of statements, each storing one double. -/
theorem map_loopD {L : ℕ} {dst src : Ptr} {body : ℕ → Body Unit} {v : ℕ → ℝ → ℝ} {mem : Mem}
    (hg : ∀ i < L, ∀ m : Mem, m.size = mem.size → (body i).Good m.split)
    (hw : ∀ i < L, ∀ m : Mem, (body i).wrs m.split = [(dst + i, (v i (m.cell (src + i)) : ℂ))])
    (hsd : dst = src ∨ ∀ i < L, ∀ j < L, src + i ≠ dst + j) :
    (seqLoop (rng 0 L) fun i => runD (body i)).Ok mem fun _ m' => mem.DUpd m' (InArr dst L) ∧
      ∀ i < L, m'.cell (dst + i) = v i (mem.cell (src + i)) := by
  have hne : ∀ i j : ℕ, i ≠ j → ∀ p : Ptr, p + i ≠ p + j := by
    intro i j hij p e
    have : p.off + (i : ℤ) = p.off + (j : ℤ) := by simpa using congrArg Ptr.off e
    omega
  refine Fft.seqLoop_rng (fun k m1 => mem.DUpd m1 (InArr dst L) ∧ (∀ i < k, m1.cell (dst + i) = v i (mem.cell (src + i))) ∧
    ∀ i < L, k ≤ i → m1.cell (src + i) = mem.cell (src + i)) ⟨Mem.DUpd.refl _ _, fun _ h => absurd h (by omega), fun _ _ _ => rfl⟩ ?_ ?_
  · rintro k m1 hk ⟨u1, e1, s1⟩
    rw [runD_eq]
    refine parD_cells (fun _ => dst + k) (fun _ => v k (m1.cell (src + k))) (rng_nodup _ _) (fun _ _ => hg k hk m1 u1.size) (fun _ _ => hw k hk m1) ?_ ?_ ?_
    · intro i hi j hj _
      rw [mem_rng] at hi hj; omega
    · intro i hi j hj hij
      rw [mem_rng] at hi hj; omega
    intro m2 u2 e2
    have e2 := e2 0 (mem_rng.2 ⟨le_rfl, by omega⟩)
    have u2 : m1.DUpd m2 (fun x => x = dst + k) := u2.mono fun p ⟨_, _, h⟩ => h
    refine ⟨u1.trans u2 (fun _ h => h) (fun p hp => ⟨k, hk, hp⟩), ?_, ?_⟩
    · intro i hi
      by_cases hik : i = k
      · subst hik; rw [e2, s1 i hk le_rfl]
      · rw [u2.frame _ (hne i k hik dst), e1 i (by omega)]
    · intro i hi hki
      rw [u2.frame, s1 i hi (by omega)]
      rcases hsd with rfl | hsd
      · exact hne i k (by omega) _
      · exact hsd i hi k hk
  · rintro m ⟨u, e, _⟩
    exact ⟨u, e⟩

theorem half_word {L j : ℕ} (h : j < L) : j / 2 < (L + 1) / 2 := by omega

theorem dwords {f : Ptr} {L : ℕ} {m m' : Mem} (u : m.DUpd m' (InArr (dptr f) L)) : m.Upd m' (InArr f ((L + 1) / 2)) := by
  refine u.words ?_
  rintro x ⟨i, hi, rfl⟩
  exact ⟨i / 2, half_word hi, RPlan.wordOf_add _ _⟩

theorem dbl_upd {f : Ptr} {L : ℕ} {m m' : Mem} {R : Ptr → Prop} (u : m.Upd m' R) (h : ∀ p, InArr f ((L + 1) / 2) p → ¬ R p) {j : ℕ} (hj : j < L) :
    m'.dbl f j = m.dbl f j := Mem.dbl_congr (u.frame _ (h _ ⟨j / 2, half_word hj, rfl⟩))

namespace View

/-- One-dimensional arrays of doubles. -/
structure FlatD (v : View) (o : FftBase) : Prop where
  C : o.C = 1
  D : ∀ {f p}, v.D f p ↔ InArr f ((o.L + 1) / 2) p
  x : ∀ (m : Mem) (f : Ptr), ∀ j < o.L, v.x m f j 0 = (m.dbl f j : ℂ)
  q1 : o.q = 1 → o.residues = [0]
  ow : o.overwrite = false

theorem FlatD.single {v : View} {o : FftBase} (fl : v.FlatD o) : Single o := ⟨fl.C, fl.q1, fl.ow⟩

variable {v : View} {c : Conv} {padded : Mem → Ptr → Prop}
variable {Φ : ℕ → ℕ → ℕ → (ℕ → ℕ → ℂ) → ℕ → ℂ} {P : ℕ → ℕ → (ℕ → ℕ → ℂ) → Prop}
open Conv.Ptr (add0)

/-- Copying the results back. -/
theorem copyBackD_ok {o : FftBase} {mem : Mem} {g h : PtrArr} (hgn : o.B ≤ g.n) (hhn : o.B ≤ h.n)
    (hbg : ∀ b < o.B, mem.block (g.at_ b) ((o.L + 1) / 2)) (hbh : ∀ b < o.B, mem.block (h.at_ b) ((o.L + 1) / 2))
    (hgh : ∀ b < o.B, ∀ b' < o.B, (g.at_ b).buf ≠ (h.at_ b').buf)
    (hap : ∀ b < o.B, ∀ b' < o.B, b ≠ b' → ∀ p, InArr (g.at_ b) ((o.L + 1) / 2) p → ¬ InArr (g.at_ b') ((o.L + 1) / 2) p) :
    (Conv.copyBackD o.L o.B g h).Ok mem fun _ m' => mem.Upd m' (fun p => ∃ b < o.B, InArr (g.at_ b) ((o.L + 1) / 2) p) ∧
      ∀ b < o.B, ∀ j < o.L, m'.dbl (g.at_ b) j = mem.dbl (h.at_ b) j := by
  unfold Conv.copyBackD
  refine Fft.seqLoop_rng (fun k m1 => mem.Upd m1 (fun p => ∃ b < o.B, InArr (g.at_ b) ((o.L + 1) / 2) p) ∧
    ∀ b < k, ∀ j < o.L, m1.dbl (g.at_ b) j = mem.dbl (h.at_ b) j) ⟨Mem.Upd.refl _ _, fun _ h => absurd h (by omega)⟩ ?_
    (fun _ h => h)
  rintro k m1 hk ⟨u1, e1⟩
  rw [PtrArr.get_bind (by omega), PtrArr.get_bind (by omega)]
  have hsd : ∀ i j : ℕ, dptr (h.at_ k) + i ≠ dptr (g.at_ k) + j := fun i j e => hgh k hk k hk (by simpa [dptr] using (congrArg Ptr.buf e).symm)
  refine (map_loopD (dst := dptr (g.at_ k)) (src := dptr (h.at_ k)) (v := fun _ x => x) ?_ ?_ (Or.inr fun i _ j _ => hsd i j)).mono ?_
  · intro i hi m hs
    have hs := hs.trans u1.size
    unfold Re.copyD getD setD
    body_simp
    simp only [Mem.split_valid, RPlan.wordOf_add]
    exact ⟨Mem.valid_of_size hs (hbh k hk _ (half_word hi)), Mem.valid_of_size hs (hbg k hk _ (half_word hi))⟩
  · intro i hi m
    unfold Re.copyD getD setD
    body_simp
    simp [Mem.split_val]
  rintro _ m2 ⟨u2, e2⟩
  have w2 := dwords u2
  refine ⟨u1.trans w2 (fun _ h => h) (fun p hp => ⟨k, hk, hp⟩), ?_⟩
  intro b hb j hj
  by_cases hbk : b = k
  · subst hbk
    rw [Mem.dbl_cell, e2 j hj, ← Mem.dbl_cell]
    refine dbl_upd u1 ?_ hj
    rintro p hp ⟨b', hb', hp'⟩
    exact hgh b' hb' b hk (by rw [← FftBase.inArr_buf hp, FftBase.inArr_buf hp'])
  · rw [dbl_upd w2 (hap b (by omega) k hk hbk) hj, e1 b (by omega) j hj]

/-- `normalize`. -/
theorem normalizeD_ok {o : FftBase} (hco : c.fft = o) {mem : Mem} {g : PtrArr} (hgn : o.B ≤ g.n)
    (hbg : ∀ b < o.B, mem.block (g.at_ b) ((o.L + 1) / 2))
    (hap : ∀ b < o.B, ∀ b' < o.B, b ≠ b' → ∀ p, InArr (g.at_ b) ((o.L + 1) / 2) p → ¬ InArr (g.at_ b') ((o.L + 1) / 2) p) :
    (c.normalizeD g).Ok mem fun _ m' => mem.Upd m' (fun p => ∃ b < o.B, InArr (g.at_ b) ((o.L + 1) / 2) p) ∧
      ∀ b < o.B, ∀ j < o.L, m'.dbl (g.at_ b) j = mem.dbl (g.at_ b) j * (1 / (o.N : ℝ)) := by
  unfold Conv.normalizeD
  rw [hco]
  refine Fft.seqLoop_rng (fun k m1 => mem.Upd m1 (fun p => ∃ b < k, InArr (g.at_ b) ((o.L + 1) / 2) p) ∧
    ∀ b < k, ∀ j < o.L, m1.dbl (g.at_ b) j = mem.dbl (g.at_ b) j * (1 / (o.N : ℝ)))
    ⟨Mem.Upd.refl _ _, fun _ h => absurd h (by omega)⟩ ?_ (fun _ h => h)
  rintro k m1 hk ⟨u1, e1⟩
  rw [PtrArr.get_bind (by omega)]
  refine (map_loopD (dst := dptr (g.at_ k)) (src := dptr (g.at_ k)) (v := fun _ x => x * (1 / (o.N : ℝ))) ?_ ?_ (Or.inl rfl)).mono ?_
  · intro i hi m hs
    have hs := hs.trans u1.size
    unfold getD setD
    body_simp
    simp only [Mem.split_valid, RPlan.wordOf_add]
    have hv := Mem.valid_of_size hs (hbg k hk _ (half_word hi))
    exact ⟨hv, hv⟩
  · intro i hi m
    unfold getD setD
    body_simp
    simp [Mem.split_val]
  rintro _ m2 ⟨u2, e2⟩
  have w2 := dwords u2
  refine ⟨u1.trans w2 (fun p ⟨b, hb, hp⟩ => ⟨b, by omega, hp⟩) (fun p hp => ⟨k, by omega, hp⟩), ?_⟩
  intro b hb j hj
  by_cases hbk : b = k
  · subst hbk
    rw [Mem.dbl_cell, e2 j hj, ← Mem.dbl_cell]
    rw [dbl_upd u1 ?_ hj]
    rintro p hp ⟨b', hb', hp'⟩
    exact hap b hk b' (by omega) (by omega) p hp hp'
  · rw [dbl_upd w2 (hap b (by omega) k hk hbk) hj, e1 b (by omega) j hj]

theorem genericD_ok (h : v.Spec c.fft padded) (fl : v.FlatD c.fft) (hq : c.fft.q ≠ 1) (hl2 : c.fft.loop2 = false) {idx : List ℕ}
    (hops : v.Ops c Φ P idx) {mem : Mem} {g : PtrArr} (hr : v.Ready c padded mem) (hi : v.Inputs c mem g) :
    (c.rawGenericD idx g).Ok mem fun _ m' => v.RawPostX c padded Φ P g mem m' := by
  refine generic_core h fl.single hq hl2 hops hr hi ?_
  intro hV m1 hs
  obtain ⟨hdV, haV⟩ := hr.V hV
  have hgV := hi.V hV
  have hdB := hi.dat.mono (le_max_right c.fft.A c.fft.B) le_rfl
  rw [if_pos hV.2.1]
  refine (copyBackD_ok (hdB.n) hdV.n ?_ ?_ ?_ ?_).mono ?_
  · intro b hb i hi'
    exact Mem.valid_of_size hs (hdB.bf b hb _ (fl.D.2 ⟨i, hi', by rw [add0]⟩))
  · intro b hb i hi'
    exact Mem.valid_of_size hs (hdV.bf b hb _ (fl.D.2 ⟨i, hi', by rw [add0]⟩))
  · intro b hb b' hb'
    exact hgV b (lt_of_lt_of_le hb (le_max_right _ _)) b' hb'
  · intro b hb b' hb' hne p h1 h2
    refine hi.apart b (lt_of_lt_of_le hb (le_max_right _ _)) b' (lt_of_lt_of_le hb' (le_max_right _ _)) hne p ?_ ?_
    · rw [add0, fl.D]; exact h1
    · rw [add0, fl.D]; exact h2
  rintro _ m2 ⟨u2, e2⟩
  refine ⟨u2.mono fun p ⟨b, hb, hp⟩ => ⟨b, hb, fl.D.2 hp⟩, fun b hb j hj => ?_⟩
  rw [fl.x _ _ j hj, fl.x _ _ j hj, e2 b hb j hj]

theorem convolveRawD_ok (h : v.Spec c.fft padded) (fl : v.FlatD c.fft) (hs : L2 c.fft) {idx : List ℕ} (hops : v.Ops c Φ P idx)
    {mem : Mem} {g : PtrArr} (hr : v.Ready c padded mem) (hi : v.Inputs c mem g) :
    (c.convolveRawD idx g).Ok mem fun _ m' => v.RawPostX c padded Φ P g mem m' := by
  unfold Conv.convolveRawD
  by_cases hq : c.fft.q = 1
  · rw [if_pos hq]
    exact explicit_ok h fl.single hq hops hr hi
  rw [if_neg hq, if_neg (by rw [fl.ow]; simp)]
  by_cases hl : c.fft.loop2 = true
  · rw [if_pos hl]
    obtain ⟨h1, h2, h3⟩ := hs hq hl
    exact loop2_raw_ok h fl.single hq hl h1 h2 h3 hops hr hi
  · rw [if_neg hl]
    exact genericD_ok h fl hq (by simpa using hl) hops hr hi

theorem convolveD_ok (h : v.Spec c.fft padded) (fl : v.FlatD c.fft) (hs : L2 c.fft) (hops : v.Ops c Φ P []) {mem : Mem} {g : PtrArr}
    (hr : v.Ready c padded mem) (hi : v.Inputs c mem g) :
    (c.convolveD g).Ok mem fun _ m' => mem.Upd m' (fun p => v.WorkWord c p ∨ ∃ b < c.fft.B, v.D (g.at_ b) p) ∧
      v.Ready c padded m' ∧ (v.Good c.fft Φ P mem g 0 → ∀ b < c.fft.B, ∀ j < c.fft.L, (m'.dbl (g.at_ b) j : ℂ) =
        v.result c.fft Φ mem g 0 b j 0 * (1 / (c.fft.N : ℂ))) := by
  unfold Conv.convolveD
  refine Cmd.Ok.bind ((convolveRawD_ok h fl hs hops hr hi).mono ?_)
  rintro _ m1 ⟨u1, r1, e1⟩
  have hdB := hi.dat.mono (le_max_right c.fft.A c.fft.B) le_rfl
  refine (normalizeD_ok rfl hdB.n ?_ ?_).mono ?_
  · intro b hb i hi'
    exact Mem.valid_of_size u1.size (hdB.bf b hb _ (fl.D.2 ⟨i, hi', by rw [add0]⟩))
  · intro b hb b' hb' hne p h1 h2
    refine hi.apart b (lt_of_lt_of_le hb (le_max_right _ _)) b' (lt_of_lt_of_le hb' (le_max_right _ _)) hne p ?_ ?_
    · rw [add0, fl.D]; exact h1
    · rw [add0, fl.D]; exact h2
  rintro _ m2 ⟨u2, e2⟩
  refine ⟨u1.trans u2 (fun _ h => h) ?_, r1.frame h u2 ?_, ?_⟩
  · rintro p ⟨b, hb, hp⟩
    exact Or.inr ⟨b, hb, fl.D.2 hp⟩
  · rintro p ⟨b, hb, hp⟩ ⟨W, hW, hp2⟩
    refine hdB.fW b hb W hW ?_
    rw [← FftBase.inArr_buf hp, FftBase.inArr_buf hp2]
  · intro gd b hb j hj
    have := e1 gd b hb j hj
    rw [fl.x _ _ j hj] at this
    rw [e2 b hb j hj, ← this]
    push_cast
    ring

/-- The user may write any double, even of the work arrays `F` and `V`, except those of `W`. -/
def AllowedD (v : View) (c : Conv) (mem : Mem) : Conv.StepD → Prop
  | .write p i _ => mem.valid (p + i / 2) ∧ ¬ InW c.fft c.W (p + i / 2)
  | .call g => v.Inputs c mem g

theorem historyD_ok (h : v.Spec c.fft padded) (fl : v.FlatD c.fft) (hs : L2 c.fft) (hops : v.Ops c Φ P []) {mem : Mem}
    (hr : v.Ready c padded mem) (steps : List Conv.StepD) (ha : ∀ s ∈ steps, v.AllowedD c mem s) :
    (seqLoop steps c.stepD).Ok mem fun _ m' => v.Ready c padded m' ∧ m'.size = mem.size := by
  refine seqLoop_list (fun _ m1 => v.Ready c padded m1 ∧ m1.size = mem.size) ⟨hr, rfl⟩ ?_ (fun _ h => h)
  rintro _ s m1 hsm ⟨r1, s1⟩
  have hal := ha s hsm
  cases s with
  | write p i x =>
    show (runD (setD (dptr p + i) x)).Ok m1 _
    rw [runD_eq]
    refine parD_cells (fun _ => dptr p + i) (fun _ => x) (rng_nodup _ _) ?_ ?_ ?_ ?_ ?_
    · intro _ _
      unfold setD
      body_simp
      rw [Mem.split_valid, RPlan.wordOf_add]
      exact Mem.valid_of_size s1 hal.1
    · intro _ _
      unfold setD
      body_simp
    · intro i hi j hj _
      rw [mem_rng] at hi hj; omega
    · intro i hi j hj hij
      rw [mem_rng] at hi hj; omega
    intro m2 u2 e2
    have u2 : m1.Upd m2 (fun y => y = p + i / 2) := u2.words (by
      rintro y ⟨_, _, rfl⟩; exact RPlan.wordOf_add _ _)
    refine ⟨r1.frame h u2 ?_, u2.size.trans s1⟩
    rintro _ rfl
    exact hal.2
  | call g =>
    have hi : v.Inputs c mem g := hal
    refine (convolveD_ok h fl hs hops r1 (hi.size s1)).mono ?_
    rintro _ m2 ⟨u2, r2, _⟩
    exact ⟨r2, u2.size.trans s1⟩

end View
end Fftwpp
