import Verif.Proof.ADrv2
import Verif.Proof.Conv3

/-! `Convolution` over an abstract view of the arrays: the state of an object between calls, one call of `convolve`, construction, and sequences
of calls. -/

namespace Fftwpp
open Finset

namespace View

/-- One-dimensional data: one copy. -/
structure Single (o : FftBase) : Prop where
  C : o.C = 1
  q1 : o.q = 1 → o.residues = [0]
  ow : o.overwrite = false

/-- One-dimensional data: one copy of unit stride, of complex words. -/
structure Flat (v : View) (o : FftBase) : Prop where
  C : o.C = 1
  D : ∀ {f p}, v.D f p ↔ InArr f o.L p
  x : ∀ (m : Mem) (f : Ptr), ∀ j < o.L, v.x m f j 0 = m.val (f + j)
  q1 : o.q = 1 → o.residues = [0]
  ow : o.overwrite = false

theorem Flat.single {v : View} {o : FftBase} (fl : v.Flat o) : Single o := ⟨fl.C, fl.q1, fl.ow⟩

/-- The state of a `Convolution` object between calls. -/
structure Ready (v : View) (c : Conv) (padded : Mem → Ptr → Prop) (mem : Mem) : Prop where
  work : Work c.fft mem c.F (max c.fft.A c.fft.B) c.W
  pd : FftBase.Pd padded c.W mem
  bw : c.fft.q ≠ 1 → c.fft.loop2 = false → BackW c.fft c.F c.W c.W0 c.rp
  l2 : c.fft.q ≠ 1 → c.fft.loop2 = true → c.W0 = c.W ∧ c.rp = c.W.isSome ∧ c.fft.A ≤ c.Fp.n ∧
    ∀ i < c.fft.A, c.Fp.at_ i = if i < c.fft.A - c.fft.B then c.F.at_ (c.fft.B + i) else c.F.at_ (i - (c.fft.A - c.fft.B))
  V : c.UsesV → v.Dat mem c.V 0 c.fft.B c.F (max c.fft.A c.fft.B) c.W ∧ v.Apart c.V 0 c.fft.B

/-- The arguments of `convolve`: `max(A,B)` distinct data arrays, not in the work arrays. -/
structure Inputs (v : View) (c : Conv) (mem : Mem) (g : PtrArr) : Prop where
  dat : v.Dat mem g 0 (max c.fft.A c.fft.B) c.F (max c.fft.A c.fft.B) c.W
  apart : v.Apart g 0 (max c.fft.A c.fft.B)
  V : c.UsesV → ∀ a < max c.fft.A c.fft.B, ∀ b < c.fft.B, (g.at_ a).buf ≠ (c.V.at_ b).buf

/-- The words of the work arrays of the object. -/
def WorkWord (v : View) (c : Conv) (p : Ptr) : Prop :=
  (∃ a < max c.fft.A c.fft.B, InArr (c.F.at_ a) c.fft.outputSize p) ∨ InW c.fft c.W p ∨
    c.UsesV ∧ ∃ b < c.fft.B, v.D (c.V.at_ b) p

variable {v : View} {c : Conv} {padded : Mem → Ptr → Prop}
variable {Φ : ℕ → ℕ → ℕ → (ℕ → ℕ → ℂ) → ℕ → ℂ} {P : ℕ → ℕ → (ℕ → ℕ → ℂ) → Prop}
open Conv (rp_cond)
open Conv.Ptr (add0)

theorem Inputs.size {mem m' : Mem} {g : PtrArr} (h : v.Inputs c mem g) (hs : m'.size = mem.size) : v.Inputs c m' g :=
  ⟨h.dat.size hs, h.apart, h.V⟩

theorem Ready.size {mem m' : Mem} (h : v.Ready c padded mem) (hs : m'.size = mem.size) (hp : FftBase.Pd padded c.W m') :
    v.Ready c padded m' :=
  ⟨h.work.size hs, hp, h.bw, h.l2, fun hu => ⟨(h.V hu).1.size hs, (h.V hu).2⟩⟩

/-- Writes outside `W` keep the object ready. -/
theorem Ready.frame (hsp : v.Spec c.fft padded) {mem m' : Mem} (h : v.Ready c padded mem) {R : Ptr → Prop} (u : mem.Upd m' R)
    (hR : ∀ p, R p → ¬ InW c.fft c.W p) : v.Ready c padded m' := by
  refine h.size u.size ?_
  intro W hW
  refine hsp.pad_frame ?_ (h.pd W hW)
  intro i hi
  refine u.frame _ fun hp => hR _ hp ⟨W, hW, i, hi, rfl⟩

/-- Copying the results back. -/
theorem copyBack_ok {o : FftBase} {mem : Mem} {g h : PtrArr} (hgn : o.B ≤ g.n) (hhn : o.B ≤ h.n)
    (hbg : ∀ b < o.B, mem.block (g.at_ b) o.L) (hbh : ∀ b < o.B, mem.block (h.at_ b) o.L)
    (hgh : ∀ b < o.B, ∀ b' < o.B, (g.at_ b).buf ≠ (h.at_ b').buf)
    (hap : ∀ b < o.B, ∀ b' < o.B, b ≠ b' → ∀ p, InArr (g.at_ b) o.L p → ¬ InArr (g.at_ b') o.L p) :
    (Conv.copyBack o.L o.B g h).Ok mem fun _ m' => mem.Upd m' (fun p => ∃ b < o.B, InArr (g.at_ b) o.L p) ∧
      ∀ b < o.B, ∀ j < o.L, m'.val (g.at_ b + j) = mem.val (h.at_ b + j) := by
  unfold Conv.copyBack
  refine Fft.seqLoop_rng (fun k m1 => mem.Upd m1 (fun p => ∃ b < o.B, InArr (g.at_ b) o.L p) ∧
    ∀ b < k, ∀ j < o.L, m1.val (g.at_ b + j) = mem.val (h.at_ b + j)) ⟨Mem.Upd.refl _ _, fun _ h => absurd h (by omega)⟩ ?_
    (fun _ h => h)
  rintro k m1 hk ⟨u1, e1⟩
  rw [PtrArr.get_bind (by omega), PtrArr.get_bind (by omega)]
  have hsd : ∀ i j : ℕ, h.at_ k + i ≠ g.at_ k + j := fun i j e => hgh k hk k hk (by simpa using (congrArg Ptr.buf e).symm)
  refine (Conv.map_loop (dst := g.at_ k) (src := h.at_ k) (v := fun _ x => x) ?_ ?_ (Or.inr fun i _ j _ => hsd i j)).mono ?_
  · intro i hi m hs
    have hs := hs.trans u1.size
    unfold Fft.copy1
    body_simp
    exact ⟨Mem.valid_of_size hs (hbh k hk i hi), Mem.valid_of_size hs (hbg k hk i hi)⟩
  · intro i hi m
    unfold Fft.copy1
    body_simp
  rintro _ m2 ⟨u2, e2⟩
  refine ⟨u1.trans u2 (fun _ h => h) (fun p hp => ⟨k, hk, hp⟩), ?_⟩
  intro b hb j hj
  by_cases hbk : b = k
  · subst hbk
    rw [e2 j hj, u1.frame]
    rintro ⟨b', hb', hp⟩
    exact hgh b' hb' b hk (by simpa using (FftBase.inArr_buf hp).symm)
  · rw [u2.frame, e1 b (by omega) j hj]
    exact hap b (by omega) k hk hbk _ ⟨j, hj, rfl⟩

/-- `normalize`. -/
theorem normalize_ok {o : FftBase} (hco : c.fft = o) {mem : Mem} {g : PtrArr} {offset : ℕ} (hgn : o.B ≤ g.n)
    (hbg : ∀ b < o.B, mem.block (g.at_ b + offset) o.L)
    (hap : ∀ b < o.B, ∀ b' < o.B, b ≠ b' → ∀ p, InArr (g.at_ b + offset) o.L p → ¬ InArr (g.at_ b' + offset) o.L p) :
    (c.normalize g offset).Ok mem fun _ m' => mem.Upd m' (fun p => ∃ b < o.B, InArr (g.at_ b + offset) o.L p) ∧
      ∀ b < o.B, ∀ j < o.L, m'.val (g.at_ b + offset + j) = mem.val (g.at_ b + offset + j) * (1 / (o.N : ℂ)) := by
  unfold Conv.normalize
  rw [hco]
  refine Fft.seqLoop_rng (fun k m1 => mem.Upd m1 (fun p => ∃ b < k, InArr (g.at_ b + offset) o.L p) ∧
    ∀ b < k, ∀ j < o.L, m1.val (g.at_ b + offset + j) = mem.val (g.at_ b + offset + j) * (1 / (o.N : ℂ)))
    ⟨Mem.Upd.refl _ _, fun _ h => absurd h (by omega)⟩ ?_ (fun _ h => h)
  rintro k m1 hk ⟨u1, e1⟩
  rw [PtrArr.get_bind (by omega)]
  refine (Conv.map_loop (dst := g.at_ k + offset) (src := g.at_ k + offset) (v := fun _ x => x * (1 / (o.N : ℂ))) ?_ ?_ (Or.inl rfl)).mono ?_
  · intro i hi m hs
    have hs := hs.trans u1.size
    body_simp
    have hv : m.valid (g.at_ k + (offset + i)) := by
      have := Mem.valid_of_size hs (hbg k hk i hi)
      have e : g.at_ k + (offset + i) = g.at_ k + offset + i := by ext <;> simp; ring
      rw [e]; exact this
    exact ⟨hv, hv⟩
  · intro i hi m
    body_simp
  rintro _ m2 ⟨u2, e2⟩
  refine ⟨u1.trans u2 (fun p ⟨b, hb, hp⟩ => ⟨b, by omega, hp⟩) (fun p hp => ⟨k, by omega, hp⟩), ?_⟩
  intro b hb j hj
  by_cases hbk : b = k
  · subst hbk
    rw [e2 j hj, u1.frame]
    rintro ⟨b', hb', hp⟩
    exact hap b hk b' (by omega) (by omega) _ ⟨j, hj, rfl⟩ hp
  · rw [u2.frame, e1 b (by omega) j hj]
    exact hap b (by omega) k hk hbk _ ⟨j, hj, rfl⟩

/-- The operation of the driver is specified. -/
structure Ops (v : View) (c : Conv) (Φ : ℕ → ℕ → ℕ → (ℕ → ℕ → ℂ) → ℕ → ℂ) (P : ℕ → ℕ → (ℕ → ℕ → ℂ) → Prop) (idx : List ℕ) : Prop where
  ex : c.fft.q = 1 → v.OpSpec c.fft (fun F _ => c.mult F (c.fft.blocksize 0) idx 0 0) Φ P (fun _ => False) (fun _ => True)
  gen : c.fft.q ≠ 1 → v.OpSpec c.fft (c.operate idx) Φ P (fun _ => False) (fun _ => True)

/-- What one call of `convolveRaw` does. -/
def RawPost (v : View) (c : Conv) (padded : Mem → Ptr → Prop) (Φ : ℕ → ℕ → ℕ → (ℕ → ℕ → ℂ) → ℕ → ℂ) (P : ℕ → ℕ → (ℕ → ℕ → ℂ) → Prop)
    (g : PtrArr) (mem m' : Mem) : Prop :=
  mem.Upd m' (fun p => v.WorkWord c p ∨ ∃ b < c.fft.B, v.D (g.at_ b) p) ∧ v.Ready c padded m' ∧
    (v.Good c.fft Φ P mem g 0 → ∀ b < c.fft.B, ∀ j < c.fft.L, m'.val (g.at_ b + j) = v.result c.fft Φ mem g 0 b j 0)

/-- The same, with the data read by the view. -/
def RawPostX (v : View) (c : Conv) (padded : Mem → Ptr → Prop) (Φ : ℕ → ℕ → ℕ → (ℕ → ℕ → ℂ) → ℕ → ℂ) (P : ℕ → ℕ → (ℕ → ℕ → ℂ) → Prop)
    (g : PtrArr) (mem m' : Mem) : Prop :=
  mem.Upd m' (fun p => v.WorkWord c p ∨ ∃ b < c.fft.B, v.D (g.at_ b) p) ∧ v.Ready c padded m' ∧
    (v.Good c.fft Φ P mem g 0 → ∀ b < c.fft.B, ∀ j < c.fft.L, v.x m' (g.at_ b) j 0 = v.result c.fft Φ mem g 0 b j 0)

theorem RawPostX.words (fl : v.Flat c.fft) {g : PtrArr} {mem m' : Mem} (h : v.RawPostX c padded Φ P g mem m') : v.RawPost c padded Φ P g mem m' :=
  ⟨h.1, h.2.1, fun gd b hb j hj => by rw [← fl.x _ _ j hj]; exact h.2.2 gd b hb j hj⟩

theorem explicit_ok (h : v.Spec c.fft padded) (fl : Single c.fft) (hq : c.fft.q = 1) {idx : List ℕ} (hops : v.Ops c Φ P idx)
    {mem : Mem} {g : PtrArr} (hr : v.Ready c padded mem) (hi : v.Inputs c mem g) :
    (c.rawExplicit idx g).Ok mem fun _ m' => v.RawPostX c padded Φ P g mem m' := by
  unfold RawPostX
  have hres := fl.q1 hq
  have hop := hops.ex hq
  have h0 : 0 ∈ c.fft.residues := by rw [hres]; simp
  have hts : c.fft.TSep c.F c.W (fun _ => False) := ⟨fun _ _ h => h, fun _ _ h => h⟩
  have hdA := hi.dat.mono (le_max_left _ _) le_rfl
  unfold Conv.rawExplicit
  refine Cmd.Ok.seq2 (fwdOp_ok h hop hr.work hdA hts hr.pd trivial h0 (G := v.Good c.fft Φ P mem g 0) id) ?_
  rintro m1 ⟨u1, p1, _, e1⟩
  have hdB : v.Dat m1 g 0 c.fft.B c.F c.fft.B c.W := (hi.dat.mono (le_max_right _ _) (le_max_right _ _)).size u1.size
  have hapB : v.Apart g 0 c.fft.B := fun a ha a' ha' =>
    hi.apart a (lt_of_lt_of_le ha (le_max_right _ _)) a' (lt_of_lt_of_le ha' (le_max_right _ _))
  refine (bwdAll_ok h h0 (Nat.zero_le _) ((hr.work.mono (le_max_right _ _)).size u1.size) hdB hapB le_rfl).mono ?_
  rintro _ m2 ⟨u2, e2⟩
  have uu : mem.Upd m2 (fun p => v.WorkWord c p ∨ ∃ b < c.fft.B, v.D (g.at_ b) p) := by
    refine u1.trans u2 ?_ ?_
    · rintro p (hp | hp | hp)
      · exact absurd hp id
      · exact Or.inl (Or.inl hp)
      · exact Or.inl (Or.inr (Or.inl hp))
    · rintro p (⟨a, _, ha, hp | hp⟩ | hp)
      · exact Or.inr ⟨a, ha, by simpa [add0] using hp⟩
      · exact Or.inl (Or.inl ⟨a, lt_of_lt_of_le ha (le_max_right _ _), hp⟩)
      · exact Or.inl (Or.inr (Or.inl hp))
  refine ⟨uu, hr.size uu.size fun W _ => h.pad_q1 hq _ _, ?_⟩
  intro g' b hb j hj
  have hX1 : ∀ i < v.cnt 0, v.X m1 (c.F.at_ b) 0 i 0 = Φ 0 i b (v.hat mem g 0 0 i) 0 := fun i hi' => e1 g' b hb i hi' 0 (by rw [fl.C]; omega)
  have := e2 b (Nat.zero_le _) hb j hj 0 (by rw [fl.C]; omega) (h.kdom_congr (fun i hi => (hX1 i hi).symm) (g'.3 0 h0 b hb 0 (by rw [fl.C]; omega)))
  rw [add0, if_pos rfl, zero_add] at this
  rw [this, result, hres]
  simp only [List.map_cons, List.map_nil, List.sum_cons, List.sum_nil, add_zero]
  exact h.K_congr hX1

/-- The residue loop, with the way the results are copied to their places (`cb`) left open. -/
theorem generic_core (h : v.Spec c.fft padded) (fl : Single c.fft) (hq : c.fft.q ≠ 1) (hl2 : c.fft.loop2 = false) {idx : List ℕ}
    (hops : v.Ops c Φ P idx) {mem : Mem} {g : PtrArr} (hr : v.Ready c padded mem) (hi : v.Inputs c mem g) {cb : Cmd Unit}
    (hcb : c.UsesV → ∀ m1 : Mem, m1.size = mem.size → cb.Ok m1 fun _ m2 => m1.Upd m2 (fun p => ∃ b < c.fft.B, v.D (g.at_ b) p) ∧
      ∀ b < c.fft.B, ∀ j < c.fft.L, v.x m2 (g.at_ b) j 0 = v.x m1 (c.V.at_ b) j 0) :
    (do
      seqLoop c.fft.residues fun r => do
        fwdAll c.fft c.W g c.F r 0 c.fft.A 0
        c.operate idx c.F r
        c.backwardPad c.F (if 1 < c.fft.nloops then c.V else g) r 0 c.fft.B c.W0
      if 1 < c.fft.nloops then cb else pure () : Cmd Unit).Ok mem fun _ m' => v.RawPostX c padded Φ P g mem m' := by
  unfold RawPostX
  have hop := hops.gen hq
  have hts : c.fft.TSep c.F c.W (fun _ => False) := ⟨fun _ _ h => h, fun _ _ h => h⟩
  have hdA := hi.dat.mono (le_max_left c.fft.A c.fft.B) le_rfl
  have hdB := hi.dat.mono (le_max_right c.fft.A c.fft.B) le_rfl
  have hapB : v.Apart g 0 c.fft.B := fun a ha a' ha' =>
    hi.apart a (lt_of_lt_of_le ha (le_max_right _ _)) a' (lt_of_lt_of_le ha' (le_max_right _ _))
  have hbw := hr.bw hq hl2
  unfold Conv.backwardPad
  simp only [rp_cond]
  by_cases hnl : 1 < c.fft.nloops
  · simp only [if_pos hnl]
    have hV : c.UsesV := ⟨hq, hnl, hl2⟩
    obtain ⟨hdV, haV⟩ := hr.V hV
    have hgV := hi.V hV
    refine Cmd.Ok.bind ((loop_ok h hop hr.work hdA hdV haV hts (fun _ _ h => h) (fun _ _ h => h) hbw (Or.inr ?_)
      hr.pd trivial (G := v.Good c.fft Φ P mem g 0) id).mono ?_)
    · intro a ha b hb p h1 h2
      refine hgV a (lt_of_lt_of_le ha (le_max_left _ _)) b hb ?_
      have e1 := h.D_buf h1
      have e2 := h.D_buf h2
      simp only [Ptr.add_buf] at e1 e2
      rw [← e1, e2]
    rintro _ m1 ⟨u1, p1, _, e1⟩
    refine (hcb hV m1 u1.size).mono ?_
    rintro _ m2 ⟨u2, e2⟩
    have uu : mem.Upd m2 (fun p => v.WorkWord c p ∨ ∃ b < c.fft.B, v.D (g.at_ b) p) := by
      refine u1.trans u2 ?_ ?_
      · rintro p ((hp | hp | hp) | ⟨b, hb, hp⟩)
        · exact absurd hp id
        · exact Or.inl (Or.inl hp)
        · exact Or.inl (Or.inr (Or.inl hp))
        · exact Or.inl (Or.inr (Or.inr ⟨hV, b, hb, by simpa [add0] using hp⟩))
      · rintro p ⟨b, hb, hp⟩
        exact Or.inr ⟨b, hb, hp⟩
    refine ⟨uu, ?_, ?_⟩
    · refine (hr.size u1.size p1).frame h u2 ?_
      rintro p ⟨b, hb, hp⟩ ⟨W, hW, hp2⟩
      refine hdB.fW b hb W hW ?_
      rw [← h.D_buf hp, FftBase.inArr_buf hp2]
    · intro gd b hb j hj
      have := e1 gd b hb j hj 0 (by rw [fl.C]; omega)
      rw [add0] at this
      rw [e2 b hb j hj, this]
  · simp only [if_neg hnl]
    have hres : c.fft.residues = [0] := by
      obtain ⟨rest, e, _⟩ := h.res0
      have := h.nl
      rw [e] at this
      simp at this
      have : rest = [] := by
        cases rest with
        | nil => rfl
        | cons a l => simp at this; omega
      rw [e, this]
    refine Cmd.Ok.bind ((loop_ok h hop hr.work hdA hdB hapB hts (fun _ _ h => h) (fun _ _ h => h) hbw (Or.inl hres)
      hr.pd trivial (G := v.Good c.fft Φ P mem g 0) id).mono ?_)
    rintro _ m1 ⟨u1, p1, _, e1⟩
    refine Cmd.Ok.pure ⟨u1.mono ?_, hr.size u1.size p1, ?_⟩
    · rintro p ((hp | hp | hp) | ⟨b, hb, hp⟩)
      · exact absurd hp id
      · exact Or.inl (Or.inl hp)
      · exact Or.inl (Or.inr (Or.inl hp))
      · exact Or.inr ⟨b, hb, by simpa [add0] using hp⟩
    · intro gd b hb j hj
      have := e1 gd b hb j hj 0 (by rw [fl.C]; omega)
      rwa [add0] at this

theorem generic_ok (h : v.Spec c.fft padded) (fl : v.Flat c.fft) (hq : c.fft.q ≠ 1) (hl2 : c.fft.loop2 = false) {idx : List ℕ}
    (hops : v.Ops c Φ P idx) {mem : Mem} {g : PtrArr} (hr : v.Ready c padded mem) (hi : v.Inputs c mem g) :
    (c.rawGeneric idx g).Ok mem fun _ m' => v.RawPostX c padded Φ P g mem m' := by
  refine generic_core h fl.single hq hl2 hops hr hi ?_
  intro hV m1 hs
  obtain ⟨hdV, haV⟩ := hr.V hV
  have hgV := hi.V hV
  have hdB := hi.dat.mono (le_max_right c.fft.A c.fft.B) le_rfl
  rw [if_pos hV.2.1]
  refine (copyBack_ok (hdB.n) hdV.n ?_ ?_ ?_ ?_).mono ?_
  · intro b hb i hi'
    exact Mem.valid_of_size hs (hdB.bf b hb _ (fl.D.2 ⟨i, hi', by rw [add0]⟩))
  · intro b hb i hi'
    exact Mem.valid_of_size hs (hdV.bf b hb _ (fl.D.2 ⟨i, hi', by rw [add0]⟩))
  · intro b hb b' hb'
    exact hgV b (lt_of_lt_of_le hb (le_max_right _ _)) b' hb'
  · intro b hb b' hb' hne p h1 h2
    refine hi.apart b (lt_of_lt_of_le hb (le_max_right _ _)) b' (lt_of_lt_of_le hb' (le_max_right _ _)) hne p ?_ ?_
    · rw [add0, fl.D]; exact h1
    · rw [add0, fl.D]; exact h2
  rintro _ m2 ⟨u2, e2⟩
  refine ⟨u2.mono fun p ⟨b, hb, hp⟩ => ⟨b, hb, fl.D.2 hp⟩, fun b hb j hj => ?_⟩
  rw [fl.x _ _ j hj, fl.x _ _ j hj]
  exact e2 b hb j hj

theorem loop2_raw_ok (h : v.Spec c.fft padded) (fl : Single c.fft) (hq : c.fft.q ≠ 1)
    (hl2 : c.fft.loop2 = true) (hBA : c.fft.B < c.fft.A) (hdvd : (c.fft.A - c.fft.B) ∣ c.fft.B)
    (hres : c.fft.residues = [0, c.fft.incr0]) {idx : List ℕ} (hops : v.Ops c Φ P idx)
    {mem : Mem} {g : PtrArr} (hr : v.Ready c padded mem) (hi : v.Inputs c mem g) :
    (c.rawLoop2 idx g).Ok mem fun _ m' => v.RawPostX c padded Φ P g mem m' := by
  unfold RawPostX
  have hop := hops.gen hq
  have hts : c.fft.TSep c.F c.W (fun _ => False) := ⟨fun _ _ h => h, fun _ _ h => h⟩
  obtain ⟨hW0, hrp, hFpn, hFp⟩ := hr.l2 hq hl2
  have hmax : max c.fft.A c.fft.B = c.fft.A := max_eq_left hBA.le
  have hwk := hr.work
  have hd := hi.dat
  have hap := hi.apart
  rw [hmax] at hwk hd hap
  unfold Conv.rawLoop2 Conv.backwardPad
  simp only [rp_cond]
  rw [hW0]
  refine (loop2_ok h hop hrp hBA hdvd hres hFpn hFp hwk hd hap hts (fun _ _ h => h) hr.pd trivial (G := v.Good c.fft Φ P mem g 0) id).mono ?_
  rintro _ m1 ⟨u1, p1, _, e1⟩
  refine ⟨u1.mono ?_, hr.size u1.size p1, ?_⟩
  · rintro p ((hp | hp | hp) | ⟨b, hb, hp⟩)
    · exact absurd hp id
    · exact Or.inl (Or.inl hp)
    · exact Or.inl (Or.inr (Or.inl hp))
    · exact Or.inr ⟨b, hb, by simpa [add0] using hp⟩
  · intro gd b hb j hj
    have := e1 gd b hb j hj 0 (by rw [fl.C]; omega)
    rwa [add0] at this

/-- The side conditions under which the schedules are right. -/
def L2 (o : FftBase) : Prop := o.q ≠ 1 → o.loop2 = true → o.B < o.A ∧ (o.A - o.B) ∣ o.B ∧ o.residues = [0, o.incr0]

theorem convolveRaw_ok (h : v.Spec c.fft padded) (fl : v.Flat c.fft) (hs : L2 c.fft) {idx : List ℕ} (hops : v.Ops c Φ P idx)
    {mem : Mem} {g : PtrArr} (hr : v.Ready c padded mem) (hi : v.Inputs c mem g) :
    (c.convolveRaw idx g).Ok mem fun _ m' => v.RawPost c padded Φ P g mem m' := by
  unfold Conv.convolveRaw
  by_cases hq : c.fft.q = 1
  · rw [if_pos hq]
    exact (explicit_ok h fl.single hq hops hr hi).mono fun _ _ hp => hp.words fl
  rw [if_neg hq, if_neg (by rw [fl.ow]; simp)]
  by_cases hl : c.fft.loop2 = true
  · rw [if_pos hl]
    obtain ⟨h1, h2, h3⟩ := hs hq hl
    exact (loop2_raw_ok h fl.single hq hl h1 h2 h3 hops hr hi).mono fun _ _ hp => hp.words fl
  · rw [if_neg hl]
    exact (generic_ok h fl hq (by simpa using hl) hops hr hi).mono fun _ _ hp => hp.words fl

theorem convolve_ok (h : v.Spec c.fft padded) (fl : v.Flat c.fft) (hs : L2 c.fft) (hops : v.Ops c Φ P []) {mem : Mem} {g : PtrArr}
    (hr : v.Ready c padded mem) (hi : v.Inputs c mem g) :
    (c.convolve g).Ok mem fun _ m' => mem.Upd m' (fun p => v.WorkWord c p ∨ ∃ b < c.fft.B, v.D (g.at_ b) p) ∧
      v.Ready c padded m' ∧ (v.Good c.fft Φ P mem g 0 → ∀ b < c.fft.B, ∀ j < c.fft.L, m'.val (g.at_ b + j) =
        v.result c.fft Φ mem g 0 b j 0 * (1 / (c.fft.N : ℂ))) := by
  unfold Conv.convolve
  refine Cmd.Ok.bind ((convolveRaw_ok h fl hs hops hr hi).mono ?_)
  rintro _ m1 ⟨u1, r1, e1⟩
  have hdB := hi.dat.mono (le_max_right c.fft.A c.fft.B) le_rfl
  refine (normalize_ok rfl hdB.n ?_ ?_).mono ?_
  · intro b hb i hi'
    exact Mem.valid_of_size u1.size (hdB.bf b hb _ (fl.D.2 ⟨i, hi', rfl⟩))
  · intro b hb b' hb' hne p h1 h2
    exact hi.apart b (lt_of_lt_of_le hb (le_max_right _ _)) b' (lt_of_lt_of_le hb' (le_max_right _ _)) hne p
      (fl.D.2 h1) (fl.D.2 h2)
  rintro _ m2 ⟨u2, e2⟩
  refine ⟨u1.trans u2 (fun _ h => h) ?_, r1.frame h u2 ?_, ?_⟩
  · rintro p ⟨b, hb, hp⟩
    rw [add0] at hp
    exact Or.inr ⟨b, hb, fl.D.2 hp⟩
  · rintro p ⟨b, hb, hp⟩ ⟨W, hW, hp2⟩
    refine hdB.fW b hb W hW ?_
    have h1 := FftBase.inArr_buf hp
    rw [Ptr.add_buf] at h1
    rw [← h1, FftBase.inArr_buf hp2]
  · intro gd b hb j hj
    have := e2 b hb j hj
    rw [add0] at this
    rw [this, e1 gd b hb j hj]

/-! Construction -/

/-- The work arrays, allocated or supplied by the user, have the documented sizes and are distinct. -/
structure Buffers (v : View) (o : FftBase) (mem : Mem) (Fu : Option PtrArr) (Vu : Option Ptr) (al : Alloc) : Prop where
  work : Work o mem (Conv.newF o Fu al) (max o.A o.B) (Conv.newW o al)
  V : o.q ≠ 1 → 1 < o.nloops → o.loop2 = false →
    v.Dat mem (Conv.newV o Vu al) 0 o.B (Conv.newF o Fu al) (max o.A o.B) (Conv.newW o al) ∧ v.Apart (Conv.newV o Vu al) 0 o.B

theorem new_ok {o : FftBase} (h : v.Spec o padded) (hq0 : 0 < o.q) (mult : Multiplier) {mem : Mem} {Fu Vu al} (hb : v.Buffers o mem Fu Vu al) :
    (Conv.new o mult Fu none Vu al).Ok mem fun c m' => c.fft = o ∧ c.mult = mult ∧ c.F = Conv.newF o Fu al ∧ c.V = Conv.newV o Vu al ∧
      c.W = Conv.newW o al ∧ v.Ready c padded m' ∧ mem.Upd m' (InW o c.W) := by
  have hWeq : (if decide (True ∧ o.inplace = false) = true then some al.W else none) = Conv.newW o al := by
    unfold Conv.newW
    cases o.inplace <;> simp
  have hwk := hb.work
  unfold Conv.new
  simp only [hWeq]
  by_cases hq : 1 < o.q
  · rw [if_pos hq]
    -- the call of `pad`
    have hpad : (o.padCall (Conv.newW o al)).Ok mem fun _ m' => mem.Upd m' (InW o (Conv.newW o al)) ∧ FftBase.Pd padded (Conv.newW o al) m' := by
      unfold FftBase.padCall
      by_cases hpn : o.padNone = true
      · rw [if_pos hpn]
        exact Cmd.Ok.pure ⟨Mem.Upd.refl _ _, fun W _ => h.pad_none hpn _ _⟩
      · rw [if_neg hpn]
        have hbW := hwk.bW
        by_cases hi : o.inplace = true
        · have hW : Conv.newW o al = none := by unfold Conv.newW; rw [if_pos hi]
          exfalso
          exact hpn (h.padNone_in hi)
        · rw [if_neg hi] at hbW
          obtain ⟨W, hW, _, hbl⟩ := hbW
          rw [hW]
          refine (h.padOk (by simpa using hi) hbl).mono ?_
          rintro _ m' ⟨u, p⟩
          refine ⟨u.mono fun p hp => ⟨W, rfl, hp⟩, ?_⟩
          intro W' hW'
          obtain rfl : W = W' := by simpa using hW'
          exact p
    refine Cmd.Ok.bind (hpad.mono ?_)
    rintro _ m1 ⟨u1, p1⟩
    have hV : ∀ W0 Fp po, (⟨o, mult, Conv.newF o Fu al, Fp, Conv.newV o Vu al, Conv.newW o al, W0, po⟩ : Conv).UsesV →
        v.Dat m1 (Conv.newV o Vu al) 0 o.B (Conv.newF o Fu al) (max o.A o.B) (Conv.newW o al) ∧ v.Apart (Conv.newV o Vu al) 0 o.B := by
      rintro W0 Fp po ⟨g1, g2, g3⟩
      obtain ⟨g4, g5⟩ := hb.V g1 g2 g3
      exact ⟨g4.size u1.size, g5⟩
    by_cases hc : o.loop2 = false ∧ o.B < o.A ∧ o.inplace = false ∧ o.workSizeW ≤ o.outputSize
    · rw [if_pos hc]
      refine Cmd.Ok.pure ⟨rfl, rfl, rfl, rfl, rfl, ⟨hwk.size u1.size, p1, ?_, ?_, hV _ _ _⟩, u1⟩
      · intro _ _
        exact Or.inr ⟨rfl, hc.2.1, hc.2.2.1, by simp [Conv.rp], hc.2.2.2⟩
      · intro _ hl
        rw [hc.1] at hl; simp at hl
    · rw [if_neg hc]
      have hrp : (Conv.newW o al).isSome = decide (Conv.newW o al ≠ none ∧ Conv.newW o al = Conv.newW o al ∧ True) := by
        cases Conv.newW o al <;> simp
      refine Cmd.Ok.pure ⟨rfl, rfl, rfl, rfl, rfl, ⟨hwk.size u1.size, p1, ?_, ?_, hV _ _ _⟩, u1⟩
      · intro _ _
        refine Or.inl ⟨rfl, ?_⟩
        show decide _ = (Conv.newW o al).isSome
        rw [hrp]; simp
      · intro _ hl
        refine ⟨rfl, ?_, le_rfl, ?_⟩
        · show decide _ = (Conv.newW o al).isSome
          rw [hrp]; simp
        · intro i hi
          rfl
  · rw [if_neg hq]
    have hq1 : o.q = 1 := by omega
    refine Cmd.Ok.pure ⟨rfl, rfl, rfl, rfl, rfl, ⟨hwk, fun W _ => h.pad_q1 hq1 _ _, ?_, ?_, ?_⟩, Mem.Upd.refl _ _⟩
    · intro hne; exact absurd hq1 hne
    · intro hne; exact absurd hq1 hne
    · intro hu; exact absurd hq1 hu.1

/-! Sequences of calls -/

/-- The user may write any word, even of the work arrays `F` and `V`, except words of `W`. -/
def Allowed (v : View) (c : Conv) (mem : Mem) : Conv.Step → Prop
  | .write p _ => mem.valid p ∧ ¬ InW c.fft c.W p
  | .call g => v.Inputs c mem g

theorem history_ok (h : v.Spec c.fft padded) (fl : v.Flat c.fft) (hs : L2 c.fft) (hops : v.Ops c Φ P []) {mem : Mem}
    (hr : v.Ready c padded mem) (steps : List Conv.Step) (ha : ∀ s ∈ steps, v.Allowed c mem s) :
    (seqLoop steps c.step).Ok mem fun _ m' => v.Ready c padded m' ∧ m'.size = mem.size := by
  refine seqLoop_list (fun _ m1 => v.Ready c padded m1 ∧ m1.size = mem.size) ⟨hr, rfl⟩ ?_ (fun _ h => h)
  rintro _ s m1 hsm ⟨r1, s1⟩
  have hal := ha s hsm
  cases s with
  | write p v =>
    refine run_map1 (body := store p v) p v ?_ ?_ ?_
    · body_simp
      exact Mem.valid_of_size s1 hal.1
    · body_simp
    intro m2 u2 e2
    refine ⟨r1.frame h u2 ?_, u2.size.trans s1⟩
    rintro _ rfl
    exact hal.2
  | call g =>
    have hi : v.Inputs c mem g := hal
    refine (convolve_ok h fl hs hops r1 (hi.size s1)).mono ?_
    rintro _ m2 ⟨u2, r2, _⟩
    exact ⟨r2, u2.size.trans s1⟩

end View
end Fftwpp
