import Verif.Proof.HOper
import Verif.Proof.Gen3
import Verif.Props.HermConv

/-! A Hermitian `Convolution` as inner convolution of `Convolution2`. -/

namespace Fftwpp
open Finset

/-- Unnormalized inverse transform of the real operation `φ` applied to the transforms of Hermitian sequences. -/
noncomputable def hval (N H : ℕ) (φ : List ℕ → ℕ → (ℕ → ℝ) → ℝ) (idx : List ℕ) (b : ℕ) (X : ℕ → ℕ → ℂ) (j : ℕ) : ℂ :=
  ∑ e ∈ range N, (φ (e :: idx) b (fun a => (hdft N H (X a) e).re) : ℂ) * w N (-((j : ℤ) * e))

/-- Rows whose element 0 is real. -/
def RealRows (A : ℕ) (X : ℕ → ℕ → ℂ) : Prop := ∀ a < A, (X a 0).im = 0

theorem hdft_congr {N H : ℕ} {x y : ℕ → ℂ} (h : ∀ j < H, x j = y j) (k : ℤ) : hdft N H x k = hdft N H y k := by
  unfold hdft
  congr 1
  · exact sum_congr rfl fun j hj => by rw [h j (mem_range.1 hj)]
  · exact sum_congr rfl fun j hj => by rw [h j (mem_Ico.1 hj).2]

theorem hval_congr {N H A : ℕ} {φ : List ℕ → ℕ → (ℕ → ℝ) → ℝ} (hφ : ∀ e b X Y, (∀ a < A, X a = Y a) → φ e b X = φ e b Y) {idx : List ℕ} {b : ℕ}
    {X Y : ℕ → ℕ → ℂ} (h : ∀ a < A, ∀ j < H, X a j = Y a j) (j : ℕ) : hval N H φ idx b X j = hval N H φ idx b Y j := by
  unfold hval
  refine sum_congr rfl fun e _ => ?_
  rw [hφ (e :: idx) b _ _ fun a ha => congrArg Complex.re (hdft_congr (h a ha) e)]

namespace View
variable {v : View} {c : Conv} {padded : Mem → Ptr → Prop}

theorem Ready.bufs (hsp : v.Spec c.fft padded) {mem m' : Mem} (h : v.Ready c padded mem) (hs : m'.size = mem.size)
    (hv : ∀ p : Ptr, c.Bufs p.buf → m'.val p = mem.val p) : v.Ready c padded m' := by
  refine h.size hs ?_
  intro W hW
  refine hsp.pad_frame ?_ (h.pd W hW)
  intro i _
  exact hv _ (Or.inr (Or.inl ⟨W, hW, rfl⟩))

theorem WorkWord.bufs (hsp : v.Spec c.fft padded) {p : Ptr} (h : v.WorkWord c p) : c.Bufs p.buf := by
  rcases h with ⟨a, ha, hp⟩ | ⟨W, hW, hp⟩ | ⟨hV, b, hb, hp⟩
  · exact Or.inl ⟨a, ha, FftBase.inArr_buf hp⟩
  · exact Or.inr (Or.inl ⟨W, hW, FftBase.inArr_buf hp⟩)
  · exact Or.inr (Or.inr ⟨hV, b, hb, hsp.D_buf hp⟩)

theorem Buffers.size {o : FftBase} {mem m' : Mem} {Fu : Option PtrArr} {Vu : Option Ptr} {al : Alloc} (h : v.Buffers o mem Fu Vu al)
    (hs : m'.size = mem.size) : v.Buffers o m' Fu Vu al :=
  ⟨h.work.size hs, fun h1 h2 h3 => ⟨(h.V h1 h2 h3).1.size hs, (h.V h1 h2 h3).2⟩⟩

end View

namespace Herm
variable {o : Herm}

/-- A Hermitian `Convolution` as inner convolution. -/
theorem inner (h : o.WF) (hD : 0 < o.D) (hC : o.C = 1) (hBA : o.B ≤ o.A) (hdvd : o.q ≠ 1 → o.nloops = 2 → o.B < o.A → (o.A - o.B) ∣ o.B)
    {c : Conv} (hc : c.fft = o.base) {φ} (hm : RMultSpec o.A o.B o.index c.mult φ) :
    Inner o.A o.B o.H o.H (fun j => j) c.convolveRawOffset (hval o.M o.H φ) c.Bufs (o.view.Ready c (fun _ _ => True)) (RealRows o.A) := by
  have hsp := Herm.view_spec h hD
  have fl := Herm.view_flat h hC
  have hl2 := Herm.view_L2 h hdvd
  rw [← hc] at hsp fl hl2
  have hA : c.fft.A = o.A := by rw [hc]; rfl
  have hB : c.fft.B = o.B := by rw [hc]; rfl
  have hL : c.fft.L = o.H := by rw [hc]; rfl
  have hmax : max c.fft.A c.fft.B = o.A := by rw [hA, hB]; exact max_eq_left hBA
  refine ⟨fun idx b X Y hXY j _ => hval_congr hm.congr hXY j, fun hr hs hv => hr.bufs hsp hs hv, ?_⟩
  intro m F off idx hr hn hb hsep hT
  unfold Conv.convolveRawOffset
  rw [hA, if_neg (by omega)]
  have hin : o.view.Inputs c m ⟨o.A, fun a => F.at_ a + off⟩ := by
    refine ⟨⟨by rw [hmax], ?_, ?_, ?_⟩, ?_, ?_⟩
    · intro a ha p hp
      rw [hmax] at ha
      rw [fl.D, hL, Conv.Ptr.add0] at hp
      obtain ⟨i, hi, rfl⟩ := hp
      exact hb a ha i hi
    · intro a ha a' ha' e
      rw [hmax] at ha
      exact hT a ha (Or.inl ⟨a', ha', e⟩)
    · intro a ha W hW e
      rw [hmax] at ha
      exact hT a ha (Or.inr (Or.inl ⟨W, hW, e.symm⟩))
    · intro a ha a' ha' hne p h1 h2
      rw [hmax] at ha ha'
      have e1 := hsp.D_buf h1
      have e2 := hsp.D_buf h2
      simp only [Ptr.add_buf] at e1 e2
      exact hsep a ha a' ha' hne (by rw [← e1, e2])
    · intro hV a ha b hb' e
      rw [hmax] at ha
      exact hT a ha (Or.inr (Or.inr ⟨hV, b, hb', e⟩))
  have hops := Herm.ops h hD hC (Or.inr hBA) hc hm idx
  refine (View.convolveRaw_ok hsp fl hl2 hops hr hin).mono ?_
  rintro _ m' ⟨u, r, e⟩
  refine ⟨r, u.mono ?_, fun hP => ?_⟩
  · rintro p (hp | ⟨b, hb', hp⟩)
    · exact Or.inl (hp.bufs hsp)
    · rw [fl.D, hL] at hp
      obtain ⟨j, hj, rfl⟩ := hp
      exact Or.inr ⟨b, by omega, j, hj, rfl⟩
  · intro b hb' j hj
    have hgood : o.view.Good c.fft (o.opΦ φ idx) (fun _ _ _ => True) m ⟨o.A, fun a => F.at_ a + off⟩ 0 := by
      refine ⟨fun a ha c' hc' => ?_, fun _ _ _ _ => trivial, fun _ _ _ _ _ _ => trivial⟩
      rw [hA] at ha
      rw [hc] at hc'
      have hc' : c' < o.C := hc'
      obtain rfl : c' = 0 := by omega
      have := hP a ha
      show (m.val (F.at_ a + off + 0 + (o.C * 0 + 0))).im = 0
      simpa [Conv.Ptr.add0] using this
    have := e hgood b (by omega) j (by omega)
    rw [show F.at_ b + off + j = (⟨o.A, fun a => F.at_ a + off⟩ : PtrArr).at_ b + j from rfl, this, hc, Herm.result_eq h, hval]
    simp only [hC, one_mul, add_zero, Conv.Ptr.add0]

/-- A `Convolution2` (outer transform `fftx`) around Hermitian convolutions fits together. -/
theorem gfits2 (h : o.WF) (hD : 0 < o.D) (hC : o.C = 1) (hdvd : o.q ≠ 1 → o.nloops = 2 → o.B < o.A → (o.A - o.B) ∣ o.B)
    {mult : Multiplier} {φ} (hm : RMultSpec o.A o.B o.index mult φ) {fftx : FftBase} {x0 : ℤ} {pdx : Mem → Ptr → Prop} (spx : fftx.Spec x0 pdx)
    (schx : Outer.Sched fftx x0) (hA : o.A = fftx.A) (hB : o.B = fftx.B) (hH : o.H = fftx.C) (hcol : ∀ c, fftx.col c = c)
    (hbs : ∀ r ∈ fftx.residues, fftx.noutputs r = fftx.blocksize r)
    (hfx : fftx.overwrite = true → fftx.n = 2 ∨ ∀ ey e e' idx, φ (ey :: e :: idx) = φ (ey :: e' :: idx)) :
    Conv2.GFits fftx o.base mult x0 pdx (hval o.M o.H φ) (RealRows o.A) (fun c => o.view.Ready c (fun _ _ => True))
      (fun m al => o.view.Buffers o.base m none none al) where
  spx := spx
  schx := schx
  new := by
    intro m al hb
    refine Cmd.Ok.mono (View.new_ok (Herm.view_spec h hD) h.q_pos mult hb) ?_
    rintro c m' ⟨h1, h2, h3, h4, h5, h6, u⟩
    refine ⟨h1, h2, h3, h4, h5, h6, u.mono ?_⟩
    rintro p ⟨W, hW, hp⟩
    exact ⟨W, hW, FftBase.inArr_buf hp⟩
  size := fun hb hs => hb.size hs
  inn := by
    intro c hc hmu
    have hcf : fftx.col = fun c => c := funext hcol
    have := inner h hD hC (by rw [hA, hB]; exact schx.BA) hdvd hc (φ := φ) (by rw [hmu]; exact hm)
    rw [hcf, ← hA, ← hB, ← hH]
    exact this
  cong := by
    intro idx b X Y hXY j _
    rw [← hA, ← hH] at hXY
    exact hval_congr hm.congr hXY j
  dom := by
    intro X Y hXY hX a ha
    have : 0 < fftx.C := spx.C_pos
    rw [← hXY a (by omega) 0 this]
    exact hX a ha
  freqx := by
    intro how
    rcases hfx how with h1 | h1
    · exact Or.inl h1
    · right
      intro e e' idx
      unfold hval
      funext b X j
      refine sum_congr rfl fun ey _ => ?_
      rw [h1 ey e e']
  C := hH
  col := hcol
  bs := hbs

end Herm
end Fftwpp
