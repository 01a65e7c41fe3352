import Verif.Proof.ROuter
import Verif.Props.RealConv

/-! `Convolution2` with a transform of real data in `x`. -/

namespace Fftwpp
open Finset
local notation "conj" => starRingEnd ℂ

/-! ## The value of the result -/

theorem sum_neg_perC {N : ℕ} {F : ℤ → ℂ} (hp : ∀ k, F (k + N) = F k) : ∑ k ∈ range N, F (-k) = ∑ k ∈ range N, F k := by
  have h1 := sum_neg_per (m := N) (f := fun k => (F k).re) fun k => by rw [hp]
  have h2 := sum_neg_per (m := N) (f := fun k => (F k).im) fun k => by rw [hp]
  apply Complex.ext
  · rw [Complex.re_sum, Complex.re_sum]; exact h1
  · rw [Complex.im_sum, Complex.im_sum]; exact h2

/-- An operation on rows of `C` values that commutes with complex conjugation. -/
def ConjRow (A C : ℕ) (Ψ : ℕ → (ℕ → ℕ → ℂ) → ℕ → ℂ) : Prop :=
  ∀ b X Y, (∀ a < A, ∀ c < C, Y a c = conj (X a c)) → ∀ c < C, Ψ b Y c = conj (Ψ b X c)

theorem FftBase.dft_conj {o : FftBase} {x0 : ℤ} {x y : ℕ → ℂ} (h : ∀ j < o.L, y j = conj (x j)) (e : ℤ) : o.dft x0 y e = conj (o.dft x0 x (-e)) := by
  unfold FftBase.dft
  rw [map_sum]
  refine sum_congr rfl fun j hj => ?_
  rw [h j (mem_range.1 hj), map_mul, w_conj]
  congr 2
  ring

theorem FftBase.dft_per {o : FftBase} {x0 : ℤ} (x : ℕ → ℂ) (e : ℤ) : o.dft x0 x (e + o.N) = o.dft x0 x e := by
  unfold FftBase.dft
  refine sum_congr rfl fun j _ => ?_
  congr 1
  exact w_congr ⟨(j : ℤ) - x0, by ring⟩

/-- The convolution of rows commutes with complex conjugation if the operation does. -/
theorem FftBase.innerVal_conj {o : FftBase} {x0 : ℤ} {φ : ℕ → (ℕ → ℂ) → ℂ} (hcj : ConjOp o.A φ) (idx : List ℕ) :
    ConjRow o.A o.L (o.innerVal x0 (fun _ => φ) idx) := by
  intro b X Y hXY j _
  unfold FftBase.innerVal
  let F : ℤ → ℂ := fun e => φ b (fun a => o.dft x0 (X a) e) * w o.N (-(((j : ℤ) - x0) * e))
  have hp : ∀ e, F (e + o.N) = F e := by
    intro e
    show φ b (fun a => o.dft x0 (X a) (e + o.N)) * w o.N (-(((j : ℤ) - x0) * (e + o.N))) = _
    simp only [FftBase.dft_per]
    congr 1
    exact w_congr ⟨-((j : ℤ) - x0), by ring⟩
  show _ = conj (∑ e ∈ range o.N, F e)
  rw [← sum_neg_perC hp, map_sum]
  refine sum_congr rfl fun e _ => ?_
  show _ = conj (φ b _ * w o.N _)
  rw [map_mul, w_conj, ← hcj b _ (fun a => o.dft x0 (Y a) e) fun a ha => FftBase.dft_conj (hXY a ha) _]
  congr 2
  ring

namespace Re
variable {x : Re}

/-- The unnormalized result of the driver: the backward transform of `Ψ` of the transforms. -/
theorem result_row (w' : x.WF) {Ψ : ℕ → (ℕ → ℕ → ℂ) → ℕ → ℂ} (hcj : ConjRow x.A x.C Ψ) {mem : Mem} {f : PtrArr} {off b j c : ℕ} (hc : c < x.C) :
    x.view.result x.base (fun _ _ => Ψ) mem f off b j c =
      ∑ k ∈ range x.M, Ψ b (fun a c => paddedDFT x.M x.L (fun j => (mem.dbl (f.at_ a + off) (x.S * j + c) : ℂ)) k) c * w x.M (-((j : ℤ) * k)) := by
  let xa : ℕ → ℕ → ℕ → ℂ := fun a c j => (mem.dbl (f.at_ a + off) (x.S * j + c) : ℂ)
  let F : ℤ → ℂ := fun k => Ψ b (fun a c => paddedDFT x.M x.L (xa a c) k) c * w x.M (-((j : ℤ) * k))
  have hp : ∀ k, F (k + x.M) = F k := by
    intro k
    show Ψ b (fun a c => paddedDFT x.M x.L (xa a c) (k + x.M)) c * w x.M (-((j : ℤ) * (k + x.M))) = _
    simp only [Re.dft_per]
    congr 1
    exact w_congr ⟨-(j : ℤ), by ring⟩
  have hcc : ∀ k, F (-k) = conj (F k) := by
    intro k
    show _ = conj (Ψ b _ c * w x.M _)
    rw [map_mul, w_conj, ← hcj b (fun a c => paddedDFT x.M x.L (xa a c) k) (fun a c => paddedDFT x.M x.L (xa a c) (-k))
      (fun a _ c _ => paddedDFT_real _ k) c hc]
    show _ * w x.M _ = _
    rw [mul_neg]
  have hE : EvenPer x.M (fun k => (F k).re) := ⟨fun k => by rw [hp], fun k => by rw [hcc, Complex.conj_re]⟩
  have h1 := w'.sum_blocks hE
  show _ = ∑ k ∈ range x.M, F k
  rw [← sum_conj_real hp hcc, ← h1]
  unfold View.result
  rw [show x.base.residues = x.visited x.R 0 from rfl]
  have h3 : ∀ l : List ℕ, (l.map fun r => x.view.part (fun _ _ => Ψ) mem f off r b j c).sum =
      (((l.map fun r => ∑ i ∈ range (x.noutputs r), x.weight r i * (F (x.freq r i)).re).sum : ℝ) : ℂ) := by
    intro l
    induction l with
    | nil => simp
    | cons r l ih =>
      rw [List.map_cons, List.sum_cons, List.map_cons, List.sum_cons, ih, Complex.ofReal_add]
      rfl
  exact h3 _

theorem good_row (w' : x.WF) {Ψ : ℕ → (ℕ → ℕ → ℂ) → ℕ → ℂ} (hcj : ConjRow x.A x.C Ψ) {mem : Mem} {f : PtrArr} {off : ℕ} :
    x.view.Good x.base (fun _ _ => Ψ) (fun _ _ _ => True) mem f off := by
  refine ⟨fun _ _ _ _ => trivial, fun _ _ _ _ => trivial, ?_⟩
  intro r _ b _ c hc i hi i' hi' hop
  show Ψ b _ c = conj (Ψ b _ c)
  refine hcj b _ _ (fun a _ c _ => ?_) c hc
  exact paddedDFT_consistent w' (fun j => mem.dbl (f.at_ a + off) (x.S * j + c)) i hi i' hi' hop

end Re

namespace Conv2

/-- The state of the object between calls. -/
def ReadyR (o : Conv2) (x : Re) (Rd : Conv → Mem → Prop) (mem : Mem) : Prop :=
  x.view.OReady o.x x.Padded mem ∧ ∀ t < o.threads, Rd (o.convy t) mem

/-- How the parts of a `Convolution2` of real data fit together. -/
structure RGen (o : Conv2) (x : Re) (Ψ : ℕ → (ℕ → ℕ → ℂ) → ℕ → ℂ) (Rd : Conv → Mem → Prop) : Prop where
  fft : o.x.fft = x.base
  wf : x.WF
  V : x.V = none
  sch : View.OSched x.base
  inn : ∀ t < o.threads, Inner x.A x.B x.C x.C (fun c => c) (o.convy t).convolveRawOffset (fun _ => Ψ) (o.convy t).Bufs (Rd (o.convy t))
  cong : ∀ b X Y, (∀ a < x.A, ∀ c < x.C, X a c = Y a c) → ∀ c < x.C, Ψ b X c = Ψ b Y c
  cj : ConjRow x.A x.C Ψ
  C : o.ffty.L = x.C
  bs : ∀ r ∈ x.visited x.R 0, x.noutputs r = x.blocksize r
  sepT : ∀ t < o.threads, ∀ t' < o.threads, t ≠ t' → ∀ k, (o.convy t).Bufs k → ¬ (o.convy t').Bufs k
  sepX : ∀ t < o.threads, ∀ k, o.x.Bufs k → ¬ (o.convy t).Bufs k

/-- The arguments of `convolve`: `A` distinct arrays of `Sx*Lx` doubles, not in the buffers of the work arrays. -/
structure InputsR (o : Conv2) (mem : Mem) (f : PtrArr) (off : ℕ) : Prop where
  n : o.x.fft.A ≤ f.n
  bf : ∀ a < o.x.fft.A, mem.block (f.at_ a + off) ((o.x.fft.S * o.x.fft.L + 1) / 2)
  apart : ∀ a < o.x.fft.A, ∀ a' < o.x.fft.A, a ≠ a' → ∀ p, InArr (f.at_ a + off) ((o.x.fft.S * o.x.fft.L + 1) / 2) p →
    ¬ InArr (f.at_ a' + off) ((o.x.fft.S * o.x.fft.L + 1) / 2) p
  buf : ∀ a < o.x.fft.A, ¬ o.Bufs (f.at_ a).buf

variable {o : Conv2} {x : Re} {Ψ : ℕ → (ℕ → ℕ → ℂ) → ℕ → ℂ} {Rd : Conv → Mem → Prop}

theorem InputsR.size {mem m' : Mem} {f : PtrArr} {off : ℕ} (h : o.InputsR mem f off) (hs : m'.size = mem.size) : o.InputsR m' f off :=
  ⟨h.n, fun a ha => FftBase.block_size hs (h.bf a ha), h.apart, h.buf⟩

theorem RGen.op (h : o.RGen x Ψ Rd) {s : ℕ → Sch} (hs : o.LegalS s) (idx : List ℕ) :
    x.view.OpSpec o.x.fft (fun F r => o.subconvolution (s r) idx F r 0) (fun _ _ => Ψ) (fun _ _ _ => True)
      (fun k => ∃ t < o.threads, (o.convy t).Bufs k) (fun m => ∀ t < o.threads, Rd (o.convy t) m) := by
  unfold LegalS at hs
  unfold subconvolution
  rw [h.fft] at hs ⊢
  exact Re.sub_spec h.wf h.sch.BA (raw := fun _ t _ => (o.convy t).convolveRawOffset) (ext := x.C) (Ψ := fun _ => Ψ)
    (fun r _ t ht i _ => h.inn t ht) (fun t ht => (h.inn t ht).inv) (fun _ => h.cong) h.sepT h.wf.C_le_S h.bs hs idx

theorem RGen.split (h : o.RGen x Ψ Rd) {k : ℕ} (hk : k < x.L * x.C) : ∃ j < x.L, ∃ c < x.C, k = x.C * j + c := by
  have hC := h.wf.C_pos
  refine ⟨k / x.C, Nat.div_lt_of_lt_mul (by rw [Nat.mul_comm]; exact hk), k % x.C, Nat.mod_lt _ hC, ?_⟩
  rw [Nat.div_add_mod]

theorem RGen.pos_eq (h : o.RGen x Ψ Rd) {j c : ℕ} (hc : c < x.C) : o.pos (x.C * j + c) = x.S * j + c := by
  unfold pos
  rw [h.C, h.fft, Nat.mul_add_div (by omega), Nat.mul_add_mod, Nat.div_eq_of_lt hc, Nat.mod_eq_of_lt hc, Nat.add_zero]
  rfl

theorem RGen.pos_lt (h : o.RGen x Ψ Rd) : ∀ k < x.L * x.C, o.pos k < x.S * x.L := by
  intro k hk
  obtain ⟨j, hj, c, hc, rfl⟩ := h.split hk
  rw [h.pos_eq hc]
  have := h.wf.C_le_S
  exact radix_lt (by omega) hj

theorem RGen.pos_inj (h : o.RGen x Ψ Rd) : ∀ i < x.L * x.C, ∀ j < x.L * x.C, o.pos i = o.pos j → i = j := by
  intro i hi j hj e
  obtain ⟨i1, _, c1, h1, rfl⟩ := h.split hi
  obtain ⟨j1, _, c2, h2, rfl⟩ := h.split hj
  rw [h.pos_eq h1, h.pos_eq h2] at e
  have := h.wf.C_le_S
  obtain ⟨rfl, e2⟩ := radix_inj (by omega) (by omega) e
  rw [e2]

theorem ReadyR.bufs (h : o.RGen x Ψ Rd) {mem m' : Mem} (hr : o.ReadyR x Rd mem) (hs : m'.size = mem.size)
    (hv : ∀ p : Ptr, o.Bufs p.buf → m'.val p = mem.val p) : o.ReadyR x Rd m' := by
  refine ⟨hr.1.bufs (by rw [h.fft]; exact Re.view_spec h.wf h.V) hs fun p hp => hv p (Or.inl hp), fun t ht => ?_⟩
  exact (h.inn t ht).inv (hr.2 t ht) hs fun p hp => hv p (Or.inr ⟨t, ht, hp⟩)

/-- One call of `convolveRaw`. -/
theorem RGen.raw_ok (h : o.RGen x Ψ Rd) {s : ℕ → Sch} (hs : o.LegalS s) (idx : List ℕ) {mem : Mem} {f : PtrArr} {off : ℕ}
    (hr : o.ReadyR x Rd mem) (hi : o.InputsR mem f off) :
    (o.convolveRawD s idx f off).Ok mem fun _ m' =>
      mem.Upd m' (fun p => o.Bufs p.buf ∨ ∃ b < x.B, InArr (f.at_ b + off) ((x.S * x.L + 1) / 2) p) ∧ o.ReadyR x Rd m' ∧
      ∀ b < x.B, ∀ j < x.L, ∀ c < x.C, (m'.dbl (f.at_ b + off) (x.S * j + c) : ℂ) = x.view.result x.base (fun _ _ => Ψ) mem f off b j c := by
  have hsp := Re.view_spec h.wf h.V
  have hsch := h.sch
  have hBA : x.B ≤ x.A := hsch.BA
  have hop := h.op hs idx
  have hgood := Re.good_row h.wf h.cj (mem := mem) (f := f) (off := off)
  obtain ⟨hin, hibf, hiap, hibuf⟩ := hi
  rw [h.fft] at hin hibf hiap hibuf
  have hA : x.base.A = x.A := rfl
  rw [← h.fft] at hsp hsch hgood
  unfold convolveRawD
  refine (View.oraw_ok hsp hsch hop (live := fun _ => True) hr.1 ⟨by rw [h.fft]; exact hin, ?_, ?_, ?_⟩ hr.2 ?_ ?_ ?_).mono ?_
  · intro a ha p hp
    rw [h.fft] at ha
    obtain ⟨i, hi', rfl⟩ := hp
    exact hibf a ha i hi'
  · rw [h.fft]
    exact hiap
  · intro a ha hb
    rw [h.fft] at ha
    exact hibuf a ha (Or.inl hb)
  · rintro k hk ⟨t, ht, hT⟩
    exact h.sepX t ht k hk hT
  · intro a ha hT
    rw [h.fft] at ha
    exact hibuf a ha (Or.inr hT)
  · intro hV m1 hs1
    obtain ⟨hdV, _⟩ := hr.1.V hV
    have hVb := hdV.bf
    have hVn := hdV.n
    have hvv : ∀ b < x.B, ∀ b' < x.B, (f.at_ b).buf ≠ (o.x.V.at_ b').buf := by
      intro b hb b' hb' e
      exact hibuf b (by omega) (Or.inl (Or.inr (Or.inr ⟨hV, b', by rw [h.fft]; exact hb', e⟩)))
    rw [h.fft] at hVb hVn ⊢
    rw [h.C]
    refine (copyDoubles_ok (n := x.L * x.C) (K := x.S * x.L) (by have : x.B ≤ x.A := hBA; show x.B ≤ f.n; omega) hVn h.pos_lt h.pos_inj ?_ ?_ hvv ?_).mono ?_
    · intro b hb i hi'
      have hb : b < x.B := hb
      exact Mem.valid_of_size hs1 (hibf b (by omega) i hi')
    · intro b hb i hi'
      refine Mem.valid_of_size hs1 (hVb b hb _ ⟨i, hi', ?_⟩)
      rw [Conv.Ptr.add0]
    · intro b hb b' hb' hne
      have hb : b < x.B := hb
      have hb' : b' < x.B := hb'
      exact hiap b (by omega) b' (by omega) hne
    · rintro _ m2 ⟨u2, e2⟩
      refine ⟨u2, ?_⟩
      intro b hb j hj k hk _
      have hk : k < x.C := hk
      have hj : j < x.L := hj
      have hlt : x.C * j + k < x.L * x.C := by rw [Nat.mul_comm x.L]; exact radix_lt hk hj
      have := e2 b hb _ hlt
      rw [h.pos_eq hk] at this
      show ((m2.dbl _ _ : ℝ) : ℂ) = (m1.dbl _ _ : ℝ)
      rw [this]
  · rintro _ m' ⟨u, r, I, e⟩
    refine ⟨u.mono ?_, ⟨r, I⟩, ?_⟩
    · rintro p (hp | hp | ⟨b, hb, hp⟩)
      · exact Or.inl (Or.inr hp)
      · exact Or.inl (Or.inl hp)
      · rw [h.fft] at hb
        exact Or.inr ⟨b, hb, hp⟩
    · intro b hb j hj c hc
      have := e hgood b (by rw [h.fft]; exact hb) j (by rw [h.fft]; exact hj) c (by rw [h.fft]; exact hc) trivial
      rw [h.fft] at this
      exact this

/-- One call of `convolve`. -/
theorem RGen.convolve_ok (h : o.RGen x Ψ Rd) {s : ℕ → Sch} (hs : o.LegalS s) {mem : Mem} {f : PtrArr} {off : ℕ}
    (hr : o.ReadyR x Rd mem) (hi : o.InputsR mem f off) :
    (o.convolveD s f off).Ok mem fun _ m' =>
      mem.Upd m' (fun p => o.Bufs p.buf ∨ ∃ b < x.B, InArr (f.at_ b + off) ((x.S * x.L + 1) / 2) p) ∧ o.ReadyR x Rd m' ∧
      ∀ b < x.B, ∀ j < x.L, ∀ c < x.C, (m'.dbl (f.at_ b + off) (x.S * j + c) : ℂ) =
        (∑ k ∈ range x.M, Ψ b (fun a c => paddedDFT x.M x.L (fun j => (mem.dbl (f.at_ a + off) (x.S * j + c) : ℂ)) k) c * w x.M (-((j : ℤ) * k))) *
          (1 / ((x.M : ℂ) * (o.ffty.N : ℂ))) := by
  have hBA : x.B ≤ x.A := h.sch.BA
  unfold convolveD
  refine Cmd.Ok.bind ((h.raw_ok hs [] hr hi).mono ?_)
  rintro _ m1 ⟨u1, r1, e1⟩
  unfold normalizeD
  obtain ⟨hin, hibf, hiap, hibuf⟩ := hi
  rw [h.fft] at hin hibf hiap hibuf ⊢
  rw [h.C]
  have hin : x.A ≤ f.n := hin
  refine (scaleDoubles_ok (n := x.L * x.C) (K := x.S * x.L) (by show x.B ≤ f.n; omega) h.pos_lt h.pos_inj ?_ ?_).mono ?_
  · intro b hb i hi'
    have hb : b < x.B := hb
    exact Mem.valid_of_size u1.size (hibf b (by show b < x.A; omega) i hi')
  · intro b hb b' hb' hne
    have hb : b < x.B := hb
    have hb' : b' < x.B := hb'
    exact hiap b (by show b < x.A; omega) b' (by show b' < x.A; omega) hne
  rintro _ m2 ⟨u2, e2⟩
  refine ⟨u1.trans u2 (fun _ h => h) (fun p hp => Or.inr hp), ?_, ?_⟩
  · refine r1.bufs h u2.size fun p hp => u2.frame p ?_
    rintro ⟨b, hb, hp'⟩
    have hb : b < x.B := hb
    have := FftBase.inArr_buf hp'
    simp only [Ptr.add_buf] at this
    exact hibuf b (by show b < x.A; omega) (by rw [← this]; exact hp)
  · intro b hb j hj c hc
    have hlt : x.C * j + c < x.L * x.C := by rw [Nat.mul_comm x.L]; exact radix_lt hc hj
    have := e2 b hb _ hlt
    rw [h.pos_eq hc] at this
    rw [this, ← Re.result_row h.wf h.cj hc, ← e1 b hb j hj c hc]
    push_cast
    rfl

/-- The user writes outside the work arrays of the object. -/
def AllowedR (o : Conv2) (mem : Mem) : StepD → Prop
  | .write p i _ => mem.valid (p + i / 2) ∧ ¬ o.Bufs p.buf
  | .call s f off => o.LegalS s ∧ o.InputsR mem f off

theorem RGen.history_ok (h : o.RGen x Ψ Rd) {mem : Mem} (hr : o.ReadyR x Rd mem) (steps : List StepD) (ha : ∀ s ∈ steps, o.AllowedR mem s) :
    (seqLoop steps o.stepD).Ok mem fun _ m' => o.ReadyR x Rd m' ∧ m'.size = mem.size := by
  refine seqLoop_list (fun _ m1 => o.ReadyR x Rd m1 ∧ m1.size = mem.size) ⟨hr, rfl⟩ ?_ (fun _ h => h)
  rintro _ s m1 hsm ⟨r1, s1⟩
  have hal := ha s hsm
  cases s with
  | write p i v =>
    show (runD (setD (dptr p + i) v)).Ok m1 _
    rw [runD_eq]
    refine parD_cells (fun _ => dptr p + i) (fun _ => v) (rng_nodup _ _) ?_ ?_ ?_ ?_ ?_
    · intro _ _
      unfold setD
      body_simp
      rw [Mem.split_valid, RPlan.wordOf_add]
      exact Mem.valid_of_size s1 hal.1
    · intro _ _
      unfold setD
      body_simp
    · intro i hi j hj _
      rw [mem_rng] at hi hj; omega
    · intro i hi j hj hij
      rw [mem_rng] at hi hj; omega
    intro m2 u2 e2
    have u2 : m1.Upd m2 (fun y => y = p + i / 2) := u2.words (by
      rintro y ⟨_, _, rfl⟩; exact RPlan.wordOf_add _ _)
    refine ⟨r1.bufs h u2.size ?_, u2.size.trans s1⟩
    intro p' hp'
    refine u2.frame _ ?_
    rintro rfl
    exact hal.2 (by simpa using hp')
  | call s g off =>
    refine (h.convolve_ok hal.1 r1 (hal.2.size s1)).mono ?_
    rintro _ m2 ⟨u2, r2, _⟩
    exact ⟨r2, u2.size.trans s1⟩

/-! Construction -/

/-- The transforms and the inner convolution fit together; `BufY m al` are the requirements on the work arrays `al` of an inner convolution. -/
structure RFits (x : Re) (ffty : FftBase) (mult : Multiplier) (Ψ : ℕ → (ℕ → ℕ → ℂ) → ℕ → ℂ) (Rd : Conv → Mem → Prop)
    (BufY : Mem → Alloc → Prop) : Prop where
  wf : x.WF
  V : x.V = none
  sch : View.OSched x.base
  new : ∀ {m : Mem} {al : Alloc}, BufY m al → (Conv.new ffty mult none none none al).Ok m fun c m' => c.fft = ffty ∧ c.mult = mult ∧
    c.F = Conv.newF ffty none al ∧ c.V = Conv.newV ffty none al ∧ c.W = Conv.newW ffty al ∧ Rd c m' ∧ m.Upd m' (fun p => ∃ W, c.W = some W ∧ p.buf = W.buf)
  size : ∀ {m m' : Mem} {al : Alloc}, BufY m al → m'.size = m.size → BufY m' al
  inn : ∀ c : Conv, c.fft = ffty → c.mult = mult → Inner x.A x.B x.C x.C (fun c => c) c.convolveRawOffset (fun _ => Ψ) c.Bufs (Rd c)
  cong : ∀ b X Y, (∀ a < x.A, ∀ c < x.C, X a c = Y a c) → ∀ c < x.C, Ψ b X c = Ψ b Y c
  cj : ConjRow x.A x.C Ψ
  C : ffty.L = x.C
  bs : ∀ r ∈ x.visited x.R 0, x.noutputs r = x.blocksize r

/-- The work arrays have the documented sizes and are distinct. -/
structure RBuffers (ox : Re) (ffty : FftBase) (BufY : Mem → Alloc → Prop) (th : ℕ) (mem : Mem) (Fu : Option PtrArr) (Vu : Option Ptr) (al : Alloc2) : Prop where
  x : ox.view.OBuffers ox.base mem Fu Vu al.x
  y : ∀ t < newThreads ox.base th, BufY mem (al.y t)
  sepT : ∀ t < newThreads ox.base th, ∀ t' < newThreads ox.base th, t ≠ t' → ∀ k, Conv.NewBufs ffty none none (al.y t) k →
    ¬ Conv.NewBufs ffty none none (al.y t') k
  sepX : ∀ t < newThreads ox.base th, ∀ k, Conv.NewBufs ox.base Fu Vu al.x k → ¬ Conv.NewBufs ffty none none (al.y t) k

theorem RBuffers.size {ffty : FftBase} {BufY : Mem → Alloc → Prop} {mult : Multiplier} (hf : RFits x ffty mult Ψ Rd BufY)
    {th : ℕ} {mem m' : Mem} {Fu : Option PtrArr} {Vu : Option Ptr} {al : Alloc2}
    (h : RBuffers x ffty BufY th mem Fu Vu al) (hs : m'.size = mem.size) : RBuffers x ffty BufY th m' Fu Vu al :=
  ⟨h.x.size hs, fun t ht => hf.size (h.y t ht) hs, h.sepT, h.sepX⟩

theorem newR_ok {ffty : FftBase} {BufY : Mem → Alloc → Prop} {mult : Multiplier} (h : RFits x ffty mult Ψ Rd BufY) {th : ℕ} {mem : Mem}
    {Fu : Option PtrArr} {Vu : Option Ptr} {al : Alloc2} (hb : RBuffers x ffty BufY th mem Fu Vu al) :
    (Conv2.new x.base ffty mult th Fu none Vu al).Ok mem fun o m' => o.ffty = ffty ∧
      o.threads = newThreads x.base th ∧ o.RGen x Ψ Rd ∧ o.ReadyR x Rd m' ∧
      (∀ k, o.Bufs k → NewBufs x.base ffty th Fu Vu al k) ∧ mem.Upd m' (fun p => NewBufs x.base ffty th Fu Vu al p.buf) := by
  unfold Conv2.new
  have hthr : (if x.base.l < th then 1 else th) = newThreads x.base th := rfl
  simp only [hthr]
  refine Cmd.Ok.bind ((newAll_ok (fun t (c : Conv) m => c.fft = ffty ∧ c.mult = mult ∧ c.F = Conv.newF ffty none (al.y t) ∧
      c.V = Conv.newV ffty none (al.y t) ∧ c.W = Conv.newW ffty (al.y t) ∧ Rd c m)
    (fun t p => Conv.NewBufs ffty none none (al.y t) p.buf) ?_ ?_).mono ?_)
  · rintro t t' c ht ht' hne m m' ⟨h1, h2, h3, h4, h5, h6⟩ u
    refine ⟨h1, h2, h3, h4, h5, (h.inn c h1 h2).inv h6 u.size ?_⟩
    intro p hp
    exact u.frame p fun hp' => hb.sepT t ht t' ht' hne _ (Conv.bufs_new h1 h3 h4 h5 hp) hp'
  · intro t ht m hs
    have hy := (hb.size h hs).y t ht
    refine (h.new hy).mono ?_
    rintro c m' ⟨h1, h2, h3, h4, h5, h6, u⟩
    refine ⟨⟨h1, h2, h3, h4, h5, h6⟩, u.mono ?_⟩
    rintro p ⟨W, hW, hp⟩
    rw [h5] at hW
    exact Or.inr (Or.inl ⟨W, hW, hp⟩)
  rintro convy m1 ⟨hc, u1⟩
  refine Cmd.Ok.bind ((View.onew_ok (Re.view_spec h.wf h.V) h.sch (hb.size h u1.size).x).mono ?_)
  rintro cx m2 ⟨g1, g2, g3, g4, g5, u2⟩
  have hxn : ∀ k, cx.Bufs k → Conv.NewBufs x.base Fu Vu al.x k := fun k hk => Conv.bufs_newOuter g1 g2 g3 g4 hk
  have hyn : ∀ t < newThreads x.base th, ∀ k, (convy t).Bufs k → Conv.NewBufs ffty none none (al.y t) k := by
    intro t ht k hk
    obtain ⟨h1, h2, h3, h4, h5, h6⟩ := hc t ht
    exact Conv.bufs_new h1 h3 h4 h5 hk
  have hu2 : ∀ p, View.InW x.base cx.W p → Conv.NewBufs x.base Fu Vu al.x p.buf := by
    rintro p ⟨W, hW, hp⟩
    rw [g4] at hW
    exact Or.inr (Or.inl ⟨W, hW, FftBase.inArr_buf hp⟩)
  refine Cmd.Ok.pure ⟨rfl, rfl, ?_, ⟨g5, ?_⟩, ?_, u1.trans u2 ?_ ?_⟩
  · refine ⟨g1, h.wf, h.V, h.sch, ?_, h.cong, h.cj, h.C, h.bs, ?_, ?_⟩
    · intro t ht
      exact h.inn _ (hc t ht).1 (hc t ht).2.1
    · intro t ht t' ht' hne k hk hk'
      exact hb.sepT t ht t' ht' hne k (hyn t ht k hk) (hyn t' ht' k hk')
    · intro t ht k hk hk'
      exact hb.sepX t ht k (hxn k hk) (hyn t ht k hk')
  · intro t ht
    refine (h.inn _ (hc t ht).1 (hc t ht).2.1).inv (hc t ht).2.2.2.2.2 u2.size ?_
    intro p hp
    exact u2.frame p fun hp' => hb.sepX t ht _ (hu2 p hp') (hyn t ht _ hp)
  · rintro k (hk | ⟨t, ht, hk⟩)
    · exact Or.inl (hxn k hk)
    · exact Or.inr ⟨t, ht, hyn t ht k hk⟩
  · rintro p ⟨t, ht, hp⟩
    exact Or.inr ⟨t, ht, hp⟩
  · intro p hp
    exact Or.inl (hu2 p hp)

end Conv2
end Fftwpp
