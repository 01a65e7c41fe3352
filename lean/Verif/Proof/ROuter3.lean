import Verif.Proof.ROuter2
import Verif.Proof.Conv3D

/-! `Convolution3` with a transform of real data in `x`. -/

namespace Fftwpp
open Finset
local notation "conj" => starRingEnd ℂ

/-- An operation on the `C` live columns of `L` blocks of `S` columns, as an operation on all columns (the others are unchanged). -/
def physRow (A C S : ℕ) (Ψ : ℕ → (ℕ → ℕ → ℂ) → ℕ → ℂ) (b : ℕ) (X : ℕ → ℕ → ℂ) (c : ℕ) : ℂ :=
  if c % S < C then Ψ b (fun a k => X a (S * (k / C) + k % C)) (C * (c / S) + c % S) else if b < A then X b c else 0

theorem phys_lt {L C S k : ℕ} (hC0 : 0 < C) (hCS : C ≤ S) (hk : k < L * C) : S * (k / C) + k % C < L * S := by
  have h1 : k / C < L := Nat.div_lt_of_lt_mul (by rw [Nat.mul_comm]; exact hk)
  have h2 := Nat.mod_lt k hC0
  rw [Nat.mul_comm L]
  exact radix_lt (by omega) h1

theorem live_lt {L C S c : ℕ} (hc : c < L * S) (hl : c % S < C) : C * (c / S) + c % S < L * C := by
  have h1 : c / S < L := Nat.div_lt_of_lt_mul (by rw [Nat.mul_comm]; exact hc)
  rw [Nat.mul_comm L]
  exact radix_lt hl h1

theorem phys_live {C S c : ℕ} (hl : c % S < C) : S * ((C * (c / S) + c % S) / C) + (C * (c / S) + c % S) % C = c := by
  rw [Nat.mul_add_div (by omega), Nat.mul_add_mod, Nat.div_eq_of_lt hl, Nat.mod_eq_of_lt hl, Nat.add_zero, Nat.div_add_mod]

theorem physRow_cong {A L C S : ℕ} {Ψ : ℕ → (ℕ → ℕ → ℂ) → ℕ → ℂ} (hC0 : 0 < C) (hCS : C ≤ S)
    (h : ∀ b X Y, (∀ a < A, ∀ c < L * C, X a c = Y a c) → ∀ c < L * C, Ψ b X c = Ψ b Y c) :
    ∀ b X Y, (∀ a < A, ∀ c < L * S, X a c = Y a c) → ∀ c < L * S, physRow A C S Ψ b X c = physRow A C S Ψ b Y c := by
  intro b X Y hXY c hc
  unfold physRow
  split_ifs with h1 h2
  · exact h b _ _ (fun a ha k hk => hXY a ha _ (phys_lt hC0 hCS hk)) _ (live_lt hc h1)
  · exact hXY b h2 c hc
  · rfl

theorem physRow_conj {A L C S : ℕ} {Ψ : ℕ → (ℕ → ℕ → ℂ) → ℕ → ℂ} (hC0 : 0 < C) (hCS : C ≤ S) (h : ConjRow A (L * C) Ψ) :
    ConjRow A (L * S) (physRow A C S Ψ) := by
  intro b X Y hXY c hc
  unfold physRow
  split_ifs with h1 h2
  · exact h b _ _ (fun a ha k hk => hXY a ha _ (phys_lt hC0 hCS hk)) _ (live_lt hc h1)
  · exact hXY b h2 c hc
  · simp

/-- An inner convolution of the live columns acts on all columns. -/
theorem Inner.phys {A B L C S : ℕ} {raw : List ℕ → PtrArr → ℕ → Cmd Unit} {Ψ : ℕ → (ℕ → ℕ → ℂ) → ℕ → ℂ} {T : ℕ → Prop} {Inv : Mem → Prop}
    (hC0 : 0 < C) (hCS : C ≤ S) (hBA : B ≤ A)
    (h : Inner A B (L * C) (S * L) (fun k => S * (k / C) + k % C) raw (fun _ => Ψ) T Inv) :
    Inner A B (L * S) (L * S) (fun c => c) raw (fun _ => physRow A C S Ψ) T Inv := by
  refine ⟨fun idx => physRow_cong hC0 hCS (h.congr idx), h.inv, ?_⟩
  intro m F off idx hI hn hb hsep hT
  refine (h.ok idx hI hn (by rw [Nat.mul_comm S]; exact hb) hsep hT).mono ?_
  rintro _ m' ⟨I', u, e⟩
  refine ⟨I', u.mono ?_, fun _ => ?_⟩
  · rintro p (hp | ⟨a, ha, k, hk, rfl⟩)
    · exact Or.inl hp
    · exact Or.inr ⟨a, ha, _, phys_lt hC0 hCS hk, rfl⟩
  intro b hb' c hc
  unfold physRow
  split_ifs with h1 h2
  · have := e trivial b hb' _ (live_lt hc h1)
    rw [phys_live h1] at this
    exact this
  · refine u.frame _ ?_
    rintro (hp | ⟨a, ha, k, hk, hp⟩)
    · exact hT b h2 (by simpa using hp)
    · by_cases hab : b = a
      · subst hab
        have h3 : (F.at_ b + off).off + (c : ℤ) = (F.at_ b + off).off + ((S * (k / C) + k % C : ℕ) : ℤ) := congrArg Ptr.off hp
        have h4 : c = S * (k / C) + k % C := by omega
        have h5 := Nat.mod_lt k hC0
        rw [h4, Nat.mul_add_mod, Nat.mod_eq_of_lt (by omega)] at h1
        exact h1 h5
      · exact hsep b h2 a ha hab (by simpa using congrArg Ptr.buf hp)
  · omega

theorem FftBase.val2_conj {fy fz : FftBase} {y0 z0 : ℤ} {φ : ℕ → (ℕ → ℂ) → ℂ} {A : ℕ} (hA : fz.A = A) (hC : fz.L = fy.C) (hC0 : 0 < fy.C)
    (hcj : ConjOp A φ) (idx : List ℕ) : ConjRow A (fy.L * fy.C) (fy.val2 fz y0 z0 (fun _ => φ) idx) := by
  subst hA
  intro b X Y hXY k hk
  have hin := FftBase.innerVal_conj (o := fz) (x0 := z0) hcj []
  rw [hC] at hin
  unfold FftBase.val2
  have hm := Nat.mod_lt k hC0
  let F : ℤ → ℂ := fun e => fz.innerVal z0 (fun _ => φ) [] b (fun a c => fy.dft y0 (fun j => X a (fy.C * j + c)) e) (k % fy.C) *
    w fy.N (-(((k / fy.C : ℕ) - y0) * e))
  have hp : ∀ e, F (e + fy.N) = F e := by
    intro e
    show fz.innerVal z0 (fun _ => φ) [] b (fun a c => fy.dft y0 (fun j => X a (fy.C * j + c)) (e + fy.N)) (k % fy.C) *
      w fy.N (-(((k / fy.C : ℕ) - y0) * (e + fy.N))) = _
    simp only [FftBase.dft_per]
    congr 1
    exact w_congr ⟨-(((k / fy.C : ℕ) : ℤ) - y0), by ring⟩
  show _ = conj (∑ e ∈ range fy.N, F e)
  rw [← sum_neg_perC hp, map_sum]
  refine sum_congr rfl fun e _ => ?_
  show fz.innerVal z0 (fun _ => φ) [] b _ _ * _ = conj (fz.innerVal z0 (fun _ => φ) [] b _ _ * w fy.N _)
  rw [map_mul, w_conj, ← hin b _ (fun a c => fy.dft y0 (fun j => Y a (fy.C * j + c)) e) ?_ _ hm]
  · congr 2
    ring
  · intro a ha c hc
    refine FftBase.dft_conj (fun j hj => ?_) _
    exact hXY a ha _ (by rw [Nat.mul_comm fy.L]; exact radix_lt hc hj)

namespace Conv3

/-- The operation of the inner 2D convolution on all columns. -/
noncomputable def rowR (fy fz : FftBase) (A : ℕ) (φ : ℕ → (ℕ → ℂ) → ℂ) : ℕ → (ℕ → ℕ → ℂ) → ℕ → ℂ :=
  physRow A fy.C fy.S (fy.val2 fz 0 0 (fun _ => φ) [])

/-- The state of the object between calls. -/
def ReadyR (o : Conv3) (x : Re) (pdy pdz : Mem → Ptr → Prop) (mem : Mem) : Prop :=
  x.view.OReady o.x x.Padded mem ∧ ∀ t < o.threads, (o.convyz t).Ready pdy pdz mem

/-- How the parts of a `Convolution3` of real data fit together. -/
structure RGen (o : Conv3) (x : Re) (pdy pdz : Mem → Ptr → Prop) (K : ℕ → ℕ) (φ : ℕ → (ℕ → ℂ) → ℂ) : Prop where
  fft : o.x.fft = x.base
  wf : x.WF
  V : x.V = none
  sch : View.OSched x.base
  yz : ∀ t < o.threads, (o.convyz t).Setup 0 0 pdy pdz K (fun _ => φ)
  fy : ∀ t < o.threads, (o.convyz t).x.fft = o.ffty
  fz : ∀ t < o.threads, (o.convyz t).ffty = o.fftz
  A : o.ffty.A = x.A
  B : o.ffty.B = x.B
  Az : o.fftz.A = x.A
  Cz : o.fftz.L = o.ffty.C
  Cz_pos : 0 < o.ffty.C
  Cz_le : o.ffty.C ≤ o.ffty.S
  C : x.C = o.ffty.L * o.ffty.S
  bs : ∀ r ∈ x.visited x.R 0, x.noutputs r = x.blocksize r
  congr : ∀ b X Y, (∀ a < x.A, X a = Y a) → φ b X = φ b Y
  cj : ConjOp x.A φ
  sepT : ∀ t < o.threads, ∀ t' < o.threads, t ≠ t' → ∀ k, (o.convyz t).Bufs k → ¬ (o.convyz t').Bufs k
  sepX : ∀ t < o.threads, ∀ k, o.x.Bufs k → ¬ (o.convyz t).Bufs k

/-- The arguments of `convolve`: `A` distinct arrays of `Sx*Lx` doubles, not in the buffers of the work arrays. -/
structure InputsR (o : Conv3) (mem : Mem) (f : PtrArr) (off : ℕ) : Prop where
  n : o.x.fft.A ≤ f.n
  bf : ∀ a < o.x.fft.A, mem.block (f.at_ a + off) ((o.x.fft.S * o.x.fft.L + 1) / 2)
  apart : ∀ a < o.x.fft.A, ∀ a' < o.x.fft.A, a ≠ a' → ∀ p, InArr (f.at_ a + off) ((o.x.fft.S * o.x.fft.L + 1) / 2) p →
    ¬ InArr (f.at_ a' + off) ((o.x.fft.S * o.x.fft.L + 1) / 2) p
  buf : ∀ a < o.x.fft.A, ¬ o.Bufs (f.at_ a).buf

variable {o : Conv3} {x : Re} {pdy pdz : Mem → Ptr → Prop} {K : ℕ → ℕ} {φ : ℕ → (ℕ → ℂ) → ℂ}

theorem InputsR.size {mem m' : Mem} {f : PtrArr} {off : ℕ} (h : o.InputsR mem f off) (hs : m'.size = mem.size) : o.InputsR m' f off :=
  ⟨h.n, fun a ha => FftBase.block_size hs (h.bf a ha), h.apart, h.buf⟩

theorem RGen.inn (h : o.RGen x pdy pdz K φ) : ∀ t < o.threads, ∀ s' : ℕ → Sch, (o.convyz t).LegalS s' →
      Inner x.A x.B x.C x.C (fun c => c) ((o.convyz t).convolveRaw s')
      (fun _ => rowR o.ffty o.fftz x.A φ) (o.convyz t).Bufs ((o.convyz t).Ready pdy pdz) := by
  intro t ht s' hs'
  have := Conv2.inner (h.yz t ht) hs'
  unfold Conv2.val at this
  rw [h.fy t ht, h.fz t ht, h.A, h.B] at this
  have := Inner.phys (Ψ := o.ffty.val2 o.fftz 0 0 (fun _ => φ) []) h.Cz_pos h.Cz_le h.sch.BA this
  rw [← h.C] at this
  exact this

theorem RGen.val2_congr (h : o.RGen x pdy pdz K φ) (b : ℕ) (X Y : ℕ → ℕ → ℂ)
    (hXY : ∀ a < x.A, ∀ c < o.ffty.L * o.ffty.C, X a c = Y a c) (k : ℕ) :
    o.ffty.val2 o.fftz 0 0 (fun _ => φ) [] b X k = o.ffty.val2 o.fftz 0 0 (fun _ => φ) [] b Y k := by
  unfold FftBase.val2 FftBase.innerVal
  refine sum_congr rfl fun e _ => ?_
  congr 1
  refine sum_congr rfl fun e' _ => ?_
  congr 1
  refine h.congr _ _ _ fun a ha => ?_
  unfold FftBase.dft
  refine sum_congr rfl fun c hc => ?_
  congr 1
  refine sum_congr rfl fun j hj => ?_
  beta_reduce
  have hc' : c < o.ffty.C := by rw [← h.Cz]; exact mem_range.1 hc
  rw [hXY a ha _ (by rw [Nat.mul_comm o.ffty.L]; exact radix_lt hc' (mem_range.1 hj))]

theorem RGen.cong (h : o.RGen x pdy pdz K φ) : ∀ b X Y, (∀ a < x.A, ∀ c < x.C, X a c = Y a c) → ∀ c < x.C,
    rowR o.ffty o.fftz x.A φ b X c = rowR o.ffty o.fftz x.A φ b Y c := by
  rw [h.C]
  exact physRow_cong h.Cz_pos h.Cz_le fun b X Y hXY k _ => h.val2_congr b X Y hXY k

theorem RGen.conj (h : o.RGen x pdy pdz K φ) : ConjRow x.A x.C (rowR o.ffty o.fftz x.A φ) := by
  rw [h.C]
  exact physRow_conj h.Cz_pos h.Cz_le (FftBase.val2_conj h.Az h.Cz h.Cz_pos h.cj [])

theorem RGen.op (h : o.RGen x pdy pdz K φ) {s : ℕ → Sch} {s2 : ℕ → ℕ → ℕ → Sch} (hs : o.LegalS s s2) (idx : List ℕ) :
    x.view.OpSpec o.x.fft (fun F r => o.subconvolution (s r) (s2 r) idx F r 0) (fun _ _ => rowR o.ffty o.fftz x.A φ) (fun _ _ _ => True)
      (fun k => ∃ t < o.threads, (o.convyz t).Bufs k) (fun m => ∀ t < o.threads, (o.convyz t).Ready pdy pdz m) := by
  unfold LegalS at hs
  unfold subconvolution
  rw [h.fft] at hs ⊢
  exact Re.sub_spec h.wf h.sch.BA (raw := fun r t i => (o.convyz t).convolveRaw (s2 r i)) (ext := x.C) (Ψ := fun _ => rowR o.ffty o.fftz x.A φ)
    (fun r hr t ht i hi => h.inn t ht _ ((hs r hr).2 i hi t ht)) (fun t ht {m m'} hr hs hv => hr.bufs (h.yz t ht) hs hv)
    (fun _ => h.cong) h.sepT h.wf.C_le_S h.bs (fun r hr => (hs r hr).1) idx

/-- Number of live doubles in a row. -/
theorem RGen.split (h : o.RGen x pdy pdz K φ) {k : ℕ} (hk : k < x.L * (o.ffty.L * o.ffty.C)) :
    ∃ i < x.L, ∃ j < o.ffty.L, ∃ l < o.ffty.C, k = o.ffty.L * o.ffty.C * i + (o.ffty.C * j + l) := by
  have hC := h.Cz_pos
  have hLC : 0 < o.ffty.L * o.ffty.C := by
    rcases Nat.eq_zero_or_pos (o.ffty.L * o.ffty.C) with h0 | h0
    · rw [h0] at hk; omega
    · exact h0
  have hm := Nat.mod_lt k hLC
  refine ⟨k / (o.ffty.L * o.ffty.C), Nat.div_lt_of_lt_mul (by rw [Nat.mul_comm]; exact hk), k % (o.ffty.L * o.ffty.C) / o.ffty.C,
    Nat.div_lt_of_lt_mul (by rw [Nat.mul_comm o.ffty.C]; exact hm), k % (o.ffty.L * o.ffty.C) % o.ffty.C, Nat.mod_lt _ hC, ?_⟩
  rw [Nat.div_add_mod, Nat.div_add_mod]

theorem RGen.pos_eq (h : o.RGen x pdy pdz K φ) {i j l : ℕ} (hj : j < o.ffty.L) (hl : l < o.ffty.C) :
    o.pos (o.ffty.L * o.ffty.C * i + (o.ffty.C * j + l)) = x.S * i + (o.ffty.S * j + l) := by
  unfold pos
  have hlt : o.ffty.C * j + l < o.ffty.L * o.ffty.C := by rw [Nat.mul_comm o.ffty.L]; exact radix_lt hl hj
  have e1 : (o.ffty.L * o.ffty.C * i + (o.ffty.C * j + l)) % o.ffty.C = l := by
    rw [Nat.mul_comm o.ffty.L, Nat.mul_assoc, Nat.mul_add_mod, Nat.mul_add_mod, Nat.mod_eq_of_lt hl]
  rw [h.Cz, h.fft, Nat.mul_add_div (by omega), Nat.mul_add_mod, Nat.div_eq_of_lt hlt, Nat.mod_eq_of_lt hlt, Nat.add_zero, e1,
    Nat.mul_add_div (by omega), Nat.div_eq_of_lt hl, Nat.add_zero]
  rfl

theorem RGen.col_lt (h : o.RGen x pdy pdz K φ) {j l : ℕ} (hj : j < o.ffty.L) (hl : l < o.ffty.C) : o.ffty.S * j + l < x.C := by
  have := h.Cz_le
  rw [h.C, Nat.mul_comm o.ffty.L]
  exact radix_lt (by omega) hj

theorem RGen.pos_lt (h : o.RGen x pdy pdz K φ) : ∀ k < x.L * (o.ffty.L * o.ffty.C), o.pos k < x.S * x.L := by
  intro k hk
  obtain ⟨i, hi, j, hj, l, hl, rfl⟩ := h.split hk
  rw [h.pos_eq hj hl]
  have := h.wf.C_le_S
  have := h.col_lt hj hl
  exact radix_lt (by omega) hi

theorem RGen.pos_inj (h : o.RGen x pdy pdz K φ) : ∀ i < x.L * (o.ffty.L * o.ffty.C), ∀ j < x.L * (o.ffty.L * o.ffty.C), o.pos i = o.pos j → i = j := by
  intro k hk k' hk' e
  obtain ⟨i, hi, j, hj, l, hl, rfl⟩ := h.split hk
  obtain ⟨i', hi', j', hj', l', hl', rfl⟩ := h.split hk'
  rw [h.pos_eq hj hl, h.pos_eq hj' hl'] at e
  have := h.wf.C_le_S
  have := h.col_lt hj hl
  have := h.col_lt hj' hl'
  have := h.Cz_le
  obtain ⟨rfl, e2⟩ := radix_inj (by omega) (by omega) e
  obtain ⟨rfl, rfl⟩ := radix_inj (by omega) (by omega) e2
  rfl

theorem ReadyR.bufs (h : o.RGen x pdy pdz K φ) {mem m' : Mem} (hr : o.ReadyR x pdy pdz mem) (hs : m'.size = mem.size)
    (hv : ∀ p : Ptr, o.Bufs p.buf → m'.val p = mem.val p) : o.ReadyR x pdy pdz m' := by
  refine ⟨hr.1.bufs (by rw [h.fft]; exact Re.view_spec h.wf h.V) hs fun p hp => hv p (Or.inl hp), fun t ht => ?_⟩
  exact (hr.2 t ht).bufs (h.yz t ht) hs fun p hp => hv p (Or.inr ⟨t, ht, hp⟩)

/-- The live columns. -/
theorem RGen.live (h : o.RGen x pdy pdz K φ) {c : ℕ} (hc : c < x.C) (hl : c % o.ffty.S < o.ffty.C) :
    ∃ j < o.ffty.L, ∃ l < o.ffty.C, c = o.ffty.S * j + l := by
  rw [h.C] at hc
  exact ⟨c / o.ffty.S, Nat.div_lt_of_lt_mul (by rw [Nat.mul_comm]; exact hc), c % o.ffty.S, hl, (Nat.div_add_mod _ _).symm⟩

/-- One call of `convolveRaw`. -/
theorem RGen.raw_ok (h : o.RGen x pdy pdz K φ) {s : ℕ → Sch} {s2 : ℕ → ℕ → ℕ → Sch} (hs : o.LegalS s s2) (idx : List ℕ) {mem : Mem} {f : PtrArr} {off : ℕ}
    (hr : o.ReadyR x pdy pdz mem) (hi : o.InputsR mem f off) :
    (o.convolveRawD s s2 idx f off).Ok mem fun _ m' =>
      mem.Upd m' (fun p => o.Bufs p.buf ∨ ∃ b < x.B, InArr (f.at_ b + off) ((x.S * x.L + 1) / 2) p) ∧ o.ReadyR x pdy pdz m' ∧
      ∀ b < x.B, ∀ i < x.L, ∀ j < o.ffty.L, ∀ l < o.ffty.C, (m'.dbl (f.at_ b + off) (x.S * i + (o.ffty.S * j + l)) : ℂ) =
        x.view.result x.base (fun _ _ => rowR o.ffty o.fftz x.A φ) mem f off b i (o.ffty.S * j + l) := by
  have hsp := Re.view_spec h.wf h.V
  have hsch := h.sch
  have hBA : x.B ≤ x.A := hsch.BA
  have hop := h.op hs idx
  have hgood := Re.good_row h.wf h.conj (mem := mem) (f := f) (off := off)
  obtain ⟨hin, hibf, hiap, hibuf⟩ := hi
  rw [h.fft] at hin hibf hiap hibuf
  have hA : x.base.A = x.A := rfl
  rw [← h.fft] at hsp hsch hgood
  unfold convolveRawD
  refine (View.oraw_ok hsp hsch hop (live := fun c => c % o.ffty.S < o.ffty.C) hr.1 ⟨by rw [h.fft]; exact hin, ?_, ?_, ?_⟩ hr.2 ?_ ?_ ?_).mono ?_
  · intro a ha p hp
    rw [h.fft] at ha
    obtain ⟨i, hi', rfl⟩ := hp
    exact hibf a ha i hi'
  · rw [h.fft]
    exact hiap
  · intro a ha hb
    rw [h.fft] at ha
    exact hibuf a ha (Or.inl hb)
  · rintro k hk ⟨t, ht, hT⟩
    exact h.sepX t ht k hk hT
  · intro a ha hT
    rw [h.fft] at ha
    exact hibuf a ha (Or.inr hT)
  · intro hV m1 hs1
    obtain ⟨hdV, _⟩ := hr.1.V hV
    have hVb := hdV.bf
    have hVn := hdV.n
    have hvv : ∀ b < x.B, ∀ b' < x.B, (f.at_ b).buf ≠ (o.x.V.at_ b').buf := by
      intro b hb b' hb' e
      exact hibuf b (by omega) (Or.inl (Or.inr (Or.inr ⟨hV, b', by rw [h.fft]; exact hb', e⟩)))
    rw [h.fft] at hVb hVn ⊢
    rw [h.Cz]
    refine (copyDoubles_ok (n := x.L * (o.ffty.L * o.ffty.C)) (K := x.S * x.L) (by have : x.B ≤ x.A := hBA; show x.B ≤ f.n; omega) hVn h.pos_lt h.pos_inj ?_ ?_ hvv ?_).mono ?_
    · intro b hb i hi'
      have hb : b < x.B := hb
      exact Mem.valid_of_size hs1 (hibf b (by omega) i hi')
    · intro b hb i hi'
      refine Mem.valid_of_size hs1 (hVb b hb _ ⟨i, hi', ?_⟩)
      rw [Conv.Ptr.add0]
    · intro b hb b' hb' hne
      have hb : b < x.B := hb
      have hb' : b' < x.B := hb'
      exact hiap b (by omega) b' (by omega) hne
    · rintro _ m2 ⟨u2, e2⟩
      refine ⟨u2, ?_⟩
      intro b hb i hi k hk hlk
      have hk : k < x.C := hk
      have hi : i < x.L := hi
      obtain ⟨j, hj, l, hl, rfl⟩ := h.live hk hlk
      have hlt : o.ffty.L * o.ffty.C * i + (o.ffty.C * j + l) < x.L * (o.ffty.L * o.ffty.C) := by
        rw [Nat.mul_comm x.L]; exact radix_lt (by rw [Nat.mul_comm o.ffty.L]; exact radix_lt hl hj) hi
      have := e2 b hb _ hlt
      rw [h.pos_eq hj hl] at this
      show ((m2.dbl _ _ : ℝ) : ℂ) = (m1.dbl _ _ : ℝ)
      rw [this]
  · rintro _ m' ⟨u, r, I, e⟩
    refine ⟨u.mono ?_, ⟨r, I⟩, ?_⟩
    · rintro p (hp | hp | ⟨b, hb, hp⟩)
      · exact Or.inl (Or.inr hp)
      · exact Or.inl (Or.inl hp)
      · rw [h.fft] at hb
        exact Or.inr ⟨b, hb, hp⟩
    · intro b hb i hi j hj l hl
      have := h.Cz_le
      have := e hgood b (by rw [h.fft]; exact hb) i (by rw [h.fft]; exact hi) _ (by rw [h.fft]; exact h.col_lt hj hl)
        (by beta_reduce; rw [Nat.mul_add_mod, Nat.mod_eq_of_lt (by omega)]; exact hl)
      rw [h.fft] at this
      exact this

/-- One call of `convolve`. -/
theorem RGen.convolve_ok (h : o.RGen x pdy pdz K φ) {s : ℕ → Sch} {s2 : ℕ → ℕ → ℕ → Sch} (hs : o.LegalS s s2) {mem : Mem} {f : PtrArr} {off : ℕ}
    (hr : o.ReadyR x pdy pdz mem) (hi : o.InputsR mem f off) :
    (o.convolveD s s2 f off).Ok mem fun _ m' =>
      mem.Upd m' (fun p => o.Bufs p.buf ∨ ∃ b < x.B, InArr (f.at_ b + off) ((x.S * x.L + 1) / 2) p) ∧ o.ReadyR x pdy pdz m' ∧
      ∀ b < x.B, ∀ i < x.L, ∀ j < o.ffty.L, ∀ l < o.ffty.C, (m'.dbl (f.at_ b + off) (x.S * i + (o.ffty.S * j + l)) : ℂ) =
        (∑ k ∈ range x.M, o.ffty.val2 o.fftz 0 0 (fun _ => φ) [] b (fun a c => paddedDFT x.M x.L (fun i => (mem.dbl (f.at_ a + off)
          (x.S * i + (o.ffty.S * (c / o.ffty.C) + c % o.ffty.C)) : ℂ)) k) (o.ffty.C * j + l) * w x.M (-((i : ℤ) * k))) *
          (1 / ((x.M : ℂ) * ((o.ffty.N : ℂ) * (o.fftz.N : ℂ)))) := by
  have hBA : x.B ≤ x.A := h.sch.BA
  unfold convolveD
  refine Cmd.Ok.bind ((h.raw_ok hs [] hr hi).mono ?_)
  rintro _ m1 ⟨u1, r1, e1⟩
  unfold normalizeD
  obtain ⟨hin, hibf, hiap, hibuf⟩ := hi
  rw [h.fft] at hin hibf hiap hibuf ⊢
  rw [h.Cz]
  have hin : x.A ≤ f.n := hin
  refine (scaleDoubles_ok (n := x.L * (o.ffty.L * o.ffty.C)) (K := x.S * x.L) (by show x.B ≤ f.n; omega) h.pos_lt h.pos_inj ?_ ?_).mono ?_
  · intro b hb i hi'
    have hb : b < x.B := hb
    exact Mem.valid_of_size u1.size (hibf b (by show b < x.A; omega) i hi')
  · intro b hb b' hb' hne
    have hb : b < x.B := hb
    have hb' : b' < x.B := hb'
    exact hiap b (by show b < x.A; omega) b' (by show b' < x.A; omega) hne
  rintro _ m2 ⟨u2, e2⟩
  refine ⟨u1.trans u2 (fun _ h => h) (fun p hp => Or.inr hp), ?_, ?_⟩
  · refine r1.bufs h u2.size fun p hp => u2.frame p ?_
    rintro ⟨b, hb, hp'⟩
    have hb : b < x.B := hb
    have := FftBase.inArr_buf hp'
    simp only [Ptr.add_buf] at this
    exact hibuf b (by show b < x.A; omega) (by rw [← this]; exact hp)
  · intro b hb i hi j hj l hl
    have hlt : o.ffty.L * o.ffty.C * i + (o.ffty.C * j + l) < x.L * (o.ffty.L * o.ffty.C) := by
      rw [Nat.mul_comm x.L]; exact radix_lt (by rw [Nat.mul_comm o.ffty.L]; exact radix_lt hl hj) hi
    have := e2 b hb _ hlt
    rw [h.pos_eq hj hl] at this
    have hr := Re.result_row h.wf h.conj (mem := mem) (f := f) (off := off) (b := b) (j := i) (h.col_lt hj hl)
    rw [← e1 b hb i hi j hj l hl] at hr
    have hle := h.Cz_le
    have hm : (o.ffty.S * j + l) % o.ffty.S = l := by rw [Nat.mul_add_mod, Nat.mod_eq_of_lt (by omega)]
    have hd : (o.ffty.S * j + l) / o.ffty.S = j := by rw [Nat.mul_add_div (by omega), Nat.div_eq_of_lt (by omega), Nat.add_zero]
    have hrow : ∀ X, rowR o.ffty o.fftz x.A φ b X (o.ffty.S * j + l) = o.ffty.val2 o.fftz 0 0 (fun _ => φ) [] b
        (fun a c => X a (o.ffty.S * (c / o.ffty.C) + c % o.ffty.C)) (o.ffty.C * j + l) := by
      intro X
      unfold rowR physRow
      rw [if_pos (by rw [hm]; exact hl), hm, hd]
    simp only [hrow] at hr
    rw [this, ← hr]
    push_cast
    rfl

/-- The user writes outside the work arrays of the object. -/
def AllowedR (o : Conv3) (mem : Mem) : StepD → Prop
  | .write p i _ => mem.valid (p + i / 2) ∧ ¬ o.Bufs p.buf
  | .call s s2 f off => o.LegalS s s2 ∧ o.InputsR mem f off

theorem RGen.history_ok (h : o.RGen x pdy pdz K φ) {mem : Mem} (hr : o.ReadyR x pdy pdz mem) (steps : List StepD) (ha : ∀ s ∈ steps, o.AllowedR mem s) :
    (seqLoop steps o.stepD).Ok mem fun _ m' => o.ReadyR x pdy pdz m' ∧ m'.size = mem.size := by
  refine seqLoop_list (fun _ m1 => o.ReadyR x pdy pdz m1 ∧ m1.size = mem.size) ⟨hr, rfl⟩ ?_ (fun _ h => h)
  rintro _ s m1 hsm ⟨r1, s1⟩
  have hal := ha s hsm
  cases s with
  | write p i v =>
    show (runD (setD (dptr p + i) v)).Ok m1 _
    rw [runD_eq]
    refine parD_cells (fun _ => dptr p + i) (fun _ => v) (rng_nodup _ _) ?_ ?_ ?_ ?_ ?_
    · intro _ _
      unfold setD
      body_simp
      rw [Mem.split_valid, RPlan.wordOf_add]
      exact Mem.valid_of_size s1 hal.1
    · intro _ _
      unfold setD
      body_simp
    · intro i hi j hj _
      rw [mem_rng] at hi hj; omega
    · intro i hi j hj hij
      rw [mem_rng] at hi hj; omega
    intro m2 u2 e2
    have u2 : m1.Upd m2 (fun y => y = p + i / 2) := u2.words (by
      rintro y ⟨_, _, rfl⟩; exact RPlan.wordOf_add _ _)
    refine ⟨r1.bufs h u2.size ?_, u2.size.trans s1⟩
    intro p' hp'
    refine u2.frame _ ?_
    rintro rfl
    exact hal.2 (by simpa using hp')
  | call s s2 g off =>
    refine (h.convolve_ok hal.1 r1 (hal.2.size s1)).mono ?_
    rintro _ m2 ⟨u2, r2, _⟩
    exact ⟨r2, u2.size.trans s1⟩

/-! Construction -/

/-- The transforms fit together. -/
structure RFits (x : Re) (ffty fftz : FftBase) (mult : Multiplier) (pdy pdz : Mem → Ptr → Prop) (K : ℕ → ℕ) (φ : ℕ → (ℕ → ℂ) → ℂ) : Prop where
  wf : x.WF
  V : x.V = none
  sch : View.OSched x.base
  yz : Conv2.Fits ffty fftz mult 0 0 pdy pdz K (fun _ => φ)
  A : ffty.A = x.A
  B : ffty.B = x.B
  Cz_le : ffty.C ≤ ffty.S
  C : x.C = ffty.L * ffty.S
  S : ffty.L * ffty.S ≤ x.S
  bs : ∀ r ∈ x.visited x.R 0, x.noutputs r = x.blocksize r
  cj : ConjOp x.A φ

/-- The work arrays have the documented sizes and are distinct. -/
structure RBuffers (ox : Re) (ffty fftz : FftBase) (th thy : ℕ) (mem : Mem) (Fu : Option PtrArr) (Vu : Option Ptr) (al : Alloc3) : Prop where
  x : ox.view.OBuffers ox.base mem Fu Vu al.x
  yz : ∀ t < Conv2.newThreads ox.base th, Conv2.Buffers ffty fftz (newThreadsY ox.base th thy) mem none none (al.yz t)
  sepT : ∀ t < Conv2.newThreads ox.base th, ∀ t' < Conv2.newThreads ox.base th, t ≠ t' → ∀ k,
    Conv2.NewBufs ffty fftz (newThreadsY ox.base th thy) none none (al.yz t) k →
    ¬ Conv2.NewBufs ffty fftz (newThreadsY ox.base th thy) none none (al.yz t') k
  sepX : ∀ t < Conv2.newThreads ox.base th, ∀ k, Conv.NewBufs ox.base Fu Vu al.x k →
    ¬ Conv2.NewBufs ffty fftz (newThreadsY ox.base th thy) none none (al.yz t) k

/-- The buffers of the work arrays of an object to be constructed. -/
def NewBufsR (ox : Re) (ffty fftz : FftBase) (th thy : ℕ) (Fu : Option PtrArr) (Vu : Option Ptr) (al : Alloc3) (k : ℕ) : Prop :=
  Conv.NewBufs ox.base Fu Vu al.x k ∨
    ∃ t < Conv2.newThreads ox.base th, Conv2.NewBufs ffty fftz (newThreadsY ox.base th thy) none none (al.yz t) k

theorem RBuffers.size {ffty fftz : FftBase} {th thy : ℕ} {mem m' : Mem} {Fu : Option PtrArr} {Vu : Option Ptr} {al : Alloc3}
    (h : RBuffers x ffty fftz th thy mem Fu Vu al) (hs : m'.size = mem.size) : RBuffers x ffty fftz th thy m' Fu Vu al :=
  ⟨h.x.size hs, fun t ht => (h.yz t ht).size hs, h.sepT, h.sepX⟩

theorem newR_ok {ffty fftz : FftBase} {mult : Multiplier} (h : RFits x ffty fftz mult pdy pdz K φ) {th thy : ℕ} {mem : Mem}
    {Fu : Option PtrArr} {Vu : Option Ptr} {al : Alloc3} (hb : RBuffers x ffty fftz th thy mem Fu Vu al) :
    (Conv3.new x.base ffty fftz mult th thy Fu none Vu al).Ok mem fun o m' => o.ffty = ffty ∧ o.fftz = fftz ∧
      o.threads = Conv2.newThreads x.base th ∧
      (∀ t < o.threads, (o.convyz t).threads = Conv2.newThreads ffty (newThreadsY x.base th thy)) ∧
      o.RGen x pdy pdz K φ ∧ o.ReadyR x pdy pdz m' ∧
      (∀ k, o.Bufs k → NewBufsR x ffty fftz th thy Fu Vu al k) ∧ mem.Upd m' (fun p => NewBufsR x ffty fftz th thy Fu Vu al p.buf) := by
  unfold Conv3.new
  have hthr : (if x.base.l < th then 1 else th) = Conv2.newThreads x.base th := rfl
  have hthy : (if x.base.l < th then th else thy) = newThreadsY x.base th thy := rfl
  have hc3 : contiguous3 x.base ffty = true := by
    unfold contiguous3
    have : x.base.wordSize ≠ 2 := by show (1 : ℕ) ≠ 2; decide
    simp [this]
  simp only [hthr, hthy, hc3, if_true]
  refine Cmd.Ok.bind ((newAll_ok (fun t (c : Conv2) m => (c.x.fft = ffty ∧ c.ffty = fftz ∧
      c.threads = Conv2.newThreads ffty (newThreadsY x.base th thy)) ∧ c.Setup 0 0 pdy pdz K (fun _ => φ) ∧ c.Ready pdy pdz m ∧
      ∀ k, c.Bufs k → Conv2.NewBufs ffty fftz (newThreadsY x.base th thy) none none (al.yz t) k)
    (fun t p => Conv2.NewBufs ffty fftz (newThreadsY x.base th thy) none none (al.yz t) p.buf) ?_ ?_).mono ?_)
  · rintro t t' c ht ht' hne m m' ⟨h1, h2, h3, h4⟩ u
    refine ⟨h1, h2, h3.bufs h2 u.size ?_, h4⟩
    intro p hp
    exact u.frame p fun hp' => hb.sepT t ht t' ht' hne _ (h4 _ hp) hp'
  · intro t ht m hs
    refine (Conv2.new_ok h.yz ((hb.size hs).yz t ht)).mono ?_
    rintro c m' ⟨h1, h2, h3, h4, h5, h6, u⟩
    exact ⟨⟨⟨h1, h2, h3⟩, h4, h5, h6⟩, u⟩
  rintro convyz m1 ⟨hc, u1⟩
  refine Cmd.Ok.bind (exitIf_ok (Nat.not_lt.2 h.S) ?_)
  refine Cmd.Ok.bind (exitIf_ok (not_not.2 (by rw [if_pos hc3]; exact h.C)) ?_)
  refine Cmd.Ok.bind ((View.onew_ok (Re.view_spec h.wf h.V) h.sch (hb.size u1.size).x).mono ?_)
  rintro cx m2 ⟨g1, g2, g3, g4, g5, u2⟩
  have hxn : ∀ k, cx.Bufs k → Conv.NewBufs x.base Fu Vu al.x k := fun k hk => Conv.bufs_newOuter g1 g2 g3 g4 hk
  have hu2 : ∀ p, View.InW x.base cx.W p → Conv.NewBufs x.base Fu Vu al.x p.buf := by
    rintro p ⟨W, hW, hp⟩
    rw [g4] at hW
    exact Or.inr (Or.inl ⟨W, hW, FftBase.inArr_buf hp⟩)
  refine Cmd.Ok.pure ⟨rfl, rfl, rfl, fun t ht => (hc t ht).1.2.2, ?_, ⟨g5, ?_⟩, ?_, u1.trans u2 ?_ ?_⟩
  · refine ⟨g1, h.wf, h.V, h.sch, fun t ht => (hc t ht).2.1, fun t ht => (hc t ht).1.1,
      fun t ht => (hc t ht).1.2.1, h.A, h.B, h.yz.A.trans h.A, h.yz.C, h.yz.spx.C_pos, h.Cz_le, h.C, h.bs, ?_, h.cj, ?_, ?_⟩
    · have := h.yz.mult.congr
      rw [h.yz.A, h.A] at this
      exact fun b X Y => this [] b X Y
    · intro t ht t' ht' hne k hk hk'
      exact hb.sepT t ht t' ht' hne k ((hc t ht).2.2.2 k hk) ((hc t' ht').2.2.2 k hk')
    · intro t ht k hk hk'
      exact hb.sepX t ht k (hxn k hk) ((hc t ht).2.2.2 k hk')
  · intro t ht
    refine (hc t ht).2.2.1.bufs (hc t ht).2.1 u2.size ?_
    intro p hp
    exact u2.frame p fun hp' => hb.sepX t ht _ (hu2 p hp') ((hc t ht).2.2.2 _ hp)
  · rintro k (hk | ⟨t, ht, hk⟩)
    · exact Or.inl (hxn k hk)
    · exact Or.inr ⟨t, ht, (hc t ht).2.2.2 k hk⟩
  · rintro p ⟨t, ht, hp⟩
    exact Or.inr ⟨t, ht, hp⟩
  · intro p hp
    exact Or.inl (hu2 p hp)

end Conv3
end Fftwpp
