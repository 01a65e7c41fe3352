import Verif.Proof.MpiSlab5
import Verif.Proof.Outer3

/-!
# `convolveRaw` and `convolve` of the distributed convolution
-/

namespace Fftwpp
open Finset Net DConv

variable {P X Y H Z optA alltoall : ℕ} {M : ℕ → Conv3MPI} {x0 : ℤ} {pdx : ℕ → Mem → Ptr → Prop} {L N A B : ℕ} {res : List ℕ} {ix : ℕ → ℕ → ℕ}
  {e : Eager} {g : ℕ → Mem} {sch : ℕ → ℕ → Conv3MPI.Sch3} {Φ : ℕ → ℕ → (ℕ → ℕ → ℂ) → ℕ → ℂ} {T : ℕ → ℕ → Prop} {Inv : ℕ → Mem → Prop}
  {Dm : (ℕ → ℕ → ℂ) → Prop}

namespace DConv3

/-- `subconvolution` from the inner convolutions. -/
theorem SubSpec.of_inner {Ψ : List ℕ → ℕ → (ℕ → ℕ → ℂ) → ℕ → ℂ} {Tt : ℕ → ℕ → ℕ → Prop} {It : ℕ → ℕ → Mem → Prop} (hBA : B ≤ A)
    (hYv : ∀ r < P, (M r).Y * (M r).z = Y)
    (hin : ∀ r < P, ∀ t < (M r).c.threads, ∀ s2 : ℕ → Sch, ((M r).c.convyz t).LegalS s2 →
      Inner A B Y Y (fun j => j) (((M r).c.convyz t).convolveRaw s2) Ψ (Tt r t) (It r t) Dm)
    (hinv : ∀ r < P, ∀ t < (M r).c.threads, ∀ {m m' : Mem}, It r t m → m'.size = m.size → (∀ p : Ptr, Tt r t p.buf → m'.val p = m.val p) → It r t m')
    {κ : ℕ → ℕ} (hix : ∀ r < P, (M r).c.x.fft.index = ix)
    (hind : ∀ rx ∈ res, ∀ r < P, ∀ i < part X P r, Ψ [ix rx i] = Ψ [κ (ix rx (first X P r + i))])
    (hcong : ∀ idx b X' Y', (∀ a < A, ∀ c < Y, X' a c = Y' a c) → ∀ c < Y, Ψ idx b X' c = Ψ idx b Y' c)
    (hdom : ∀ X' Y', (∀ a < A, ∀ c < Y, X' a c = Y' a c) → Dm X' → Dm Y')
    (hTT : ∀ r < P, ∀ t < (M r).c.threads, ∀ t' < (M r).c.threads, t ≠ t' → ∀ k, Tt r t k → ¬ Tt r t' k)
    (hs : ∀ r < P, ∀ rx ∈ res, (sch r rx).row.Legal (part X P r) (M r).c.threads)
    (hs2 : ∀ r < P, ∀ rx ∈ res, ∀ i < part X P r, ∀ t < (M r).c.threads, ((M r).c.convyz t).LegalS ((sch r rx).inner i)) :
    SubSpec P X Y M A B res ix sch (fun e' b X' c => Ψ [κ e'] b X' c) (fun r k => ∃ t < (M r).c.threads, Tt r t k)
      (fun r m => ∀ t < (M r).c.threads, It r t m) Dm := by
  refine ⟨fun e' b X' Y' h => hcong _ _ _ _ h, hdom, ?_, ?_⟩
  · intro r hr m m' hI hsz hv t ht
    exact hinv r hr t ht (hI t ht) hsz fun p hp => hv p ⟨t, ht, hp⟩
  · intro r hr m F rx hrx hI hn hb hsep hT
    have hblk : ∀ a < A, ∀ i < part X P r, m.block (F.at_ a + (0 : ℕ) + Y * i) Y := by
      intro a ha i hi k hk
      have e1 : (F.at_ a + (0 : ℕ) + Y * i + k : Ptr) = F.at_ a + (Y * i + k) := by ext <;> simp; ring
      rw [e1]
      exact hb a ha _ (by rw [Nat.mul_comm (part X P r)]; exact radix_lt hk hi)
    rw [hYv r hr]
    refine (sub_rows (A := A) (B := B) (C := Y) (S := Y) (n := part X P r) (threads := (M r).c.threads) (ext := Y) (col := fun j => j)
      (fun c hc => hc) hBA (raw := fun t i => ((M r).c.convyz t).convolveRaw ((sch r rx).inner i)) (Ψ := Ψ) (T := Tt r) (Inv := It r) (P := Dm)
      (fun t ht i hi => hin r hr t ht _ (hs2 r hr rx hrx i hi t ht)) (fun t ht => hinv r hr t ht) hcong hdom (hTT r hr) (hs r hr rx hrx) []
      ((M r).c.x.fft.index rx) (off0 := 0) hI hn hblk hsep hT).mono ?_
    rintro _ m' ⟨I', u, v⟩
    simp only [Conv.Ptr.add0] at u v
    refine ⟨I', u.mono ?_, ?_⟩
    · rintro p (h1 | ⟨a, ha, i, hi, c, hc, rfl⟩)
      · exact Or.inl h1
      · exact Or.inr ⟨a, ha, rfl⟩
    · intro b hb' i hi hD c hc
      rw [v b hb' i hi hD c hc, hix r hr, hind rx hrx r hr i hi]

/-- The buffers of the work arrays of process `r`, including `V`. -/
def OB (A B : ℕ) (M : ℕ → Conv3MPI) (T : ℕ → ℕ → Prop) (r k : ℕ) : Prop :=
  WB A B M (fun r => (M r).c.x.F) T r k ∨ (M r).c.x.UsesV ∧ ∃ b < B, k = ((M r).c.x.V.at_ b).buf

/-- The state of the objects between calls. -/
structure DReady (P X Y H Z : ℕ) (M : ℕ → Conv3MPI) (A B : ℕ) (pdx : ℕ → Mem → Ptr → Prop) (T : ℕ → ℕ → Prop) (Inv : ℕ → Mem → Prop)
    (g : ℕ → Mem) : Prop where
  ctx : Ctx P X Y H Z M A B g fun r => (M r).c.x.F
  t : TCtx P M A B (fun r => (M r).c.x.F) T
  x : ∀ r < P, (M r).c.x.Ready (pdx r) (g r)
  V : ∀ r < P, (M r).c.x.UsesV → ∀ b < B, ¬ WB A B M (fun r => (M r).c.x.F) T r ((M r).c.x.V.at_ b).buf
  inv : ∀ r < P, Inv r (g r)

/-- The arguments of `convolve`. -/
structure DInputs (P : ℕ) (M : ℕ → Conv3MPI) (A B : ℕ) (T : ℕ → ℕ → Prop) (g : ℕ → Mem) (f : ℕ → PtrArr) (off : ℕ → ℕ) : Prop where
  n : ∀ r < P, A ≤ (f r).n
  bf : ∀ r < P, ∀ a < A, (g r).block ((f r).at_ a + off r) ((M r).c.x.fft.S * (M r).c.x.fft.L)
  apart : ∀ r < P, (M r).c.x.fft.Apart (f r) (off r) A
  buf : ∀ r < P, ∀ a < A, ¬ OB A B M T r ((f r).at_ a).buf

theorem DInputs.dctx {f : ℕ → PtrArr} {off : ℕ → ℕ} (h : DInputs P M A B T g f off) :
    DCtx P M A B (fun r => (M r).c.x.F) T g f off A :=
  ⟨h.n, h.bf, h.apart, fun r hr a ha hb => h.buf r hr a ha (Or.inl hb)⟩

theorem DInputs.size {g' : ℕ → Mem} {f : ℕ → PtrArr} {off : ℕ → ℕ} (h : DInputs P M A B T g f off) (hs : ∀ r < P, (g' r).size = (g r).size) :
    DInputs P M A B T g' f off :=
  ⟨h.n, fun r hr a ha => FftBase.block_size (hs r hr) (h.bf r hr a ha), h.apart, h.buf⟩

theorem DReady.of {g' : ℕ → Mem} (h : DReady P X Y H Z M A B pdx T Inv g) (hs : ∀ r < P, (g' r).size = (g r).size)
    (hp : ∀ r < P, FftBase.Pd (pdx r) (M r).c.x.W (g' r)) (hI : ∀ r < P, Inv r (g' r)) : DReady P X Y H Z M A B pdx T Inv g' :=
  ⟨h.ctx.size hs, h.t, fun r hr => (h.x r hr).size (hs r hr) (hp r hr), h.V, hI⟩

theorem OB.W {r : ℕ} {W : Ptr} (hW : (M r).c.x.W = some W) : OB A B M T r W.buf := Or.inl (Or.inr (Or.inr ⟨W, hW, rfl⟩))

/-- The state depends on the work arrays only. -/
theorem DReady.bufs (hd : DConv3 P X Y H Z optA alltoall M x0 pdx L N A B res ix)
    (hinv : ∀ r < P, ∀ m m' : Mem, Inv r m → m'.size = m.size → (∀ p : Ptr, T r p.buf → m'.val p = m.val p) → Inv r m') {g' : ℕ → Mem}
    (h : DReady P X Y H Z M A B pdx T Inv g) (hs : ∀ r < P, (g' r).size = (g r).size)
    (hv : ∀ r < P, ∀ p : Ptr, OB A B M T r p.buf → (g' r).val p = (g r).val p) : DReady P X Y H Z M A B pdx T Inv g' := by
  refine h.of hs ?_ ?_
  · intro r hr W hW
    refine (hd.sp r hr).pad_frame ?_ ((h.x r hr).pd W hW)
    intro i _
    exact hv r hr _ (by simpa using OB.W hW)
  · intro r hr
    exact hinv r hr _ _ (h.inv r hr) (hs r hr) fun p hp => hv r hr p (Or.inl (Or.inl hp))

theorem pos_eq (hd : DConv3 P X Y H Z optA alltoall M x0 pdx L N A B res ix) {r : ℕ} (hr : r < P) (k : ℕ) : (M r).pos k = k := by
  unfold Conv3MPI.pos
  rw [hd.S r hr, hd.yv r hr, hd.zv r hr, hd.Sy r hr]
  have h1 : k % wd H Z P r % Z = k % Z := Nat.mod_mod_of_dvd k (by unfold wd; exact dvd_mul_left _ _)
  rw [← h1, Nat.div_add_mod, Nat.div_add_mod]

theorem data_pos (hd : DConv3 P X Y H Z optA alltoall M x0 pdx L N A B res ix) {r : ℕ} (hr : r < P) {q : Ptr} {k : ℕ} (hk : k < L * wd H Z P r) :
    (M r).c.x.fft.Data q (q + k) := by
  have hC := hd.y_pos r hr
  refine ⟨k / wd H Z P r, ?_, k % wd H Z P r, ?_, ?_⟩
  · rw [hd.L r hr]; exact Nat.div_lt_of_lt_mul (by rw [Nat.mul_comm]; exact hk)
  · rw [hd.C r hr]; exact Nat.mod_lt _ hC
  · rw [hd.S r hr, hd.col r hr, Nat.div_add_mod]

theorem block_pos (hd : DConv3 P X Y H Z optA alltoall M x0 pdx L N A B res ix) {r : ℕ} (hr : r < P) {q : Ptr} {m : Mem}
    (hb : m.block q ((M r).c.x.fft.S * (M r).c.x.fft.L)) {k : ℕ} (hk : k < L * wd H Z P r) : m.valid (q + k) := by
  refine hb k ?_
  rw [hd.S r hr, hd.L r hr, Nat.mul_comm]
  exact hk

theorem nloops_eq (hd : DConv3 P X Y H Z optA alltoall M x0 pdx L N A B res ix) {r : ℕ} (hr : r < P) : (M r).c.x.fft.nloops = res.length := by
  rw [(hd.sp r hr).nl, hd.res r hr]

/-- `convolveRaw`. -/
theorem raw_ok (hd : DConv3 P X Y H Z optA alltoall M x0 pdx L N A B res ix) (hS : SubSpec P X Y M A B res ix sch Φ T Inv Dm) {f : ℕ → PtrArr}
    {off : ℕ → ℕ} (hsc : ∀ r < P, Outer.Sched (M r).c.x.fft x0) {l2 : Bool} (hl2 : ∀ r < P, (M r).c.x.fft.loop2 = l2)
    (hr : DReady P X Y H Z M A B pdx T Inv g) (hi : DInputs P M A B T g f off) {D : ℕ → ℕ → ℕ → ℂ}
    (hD : ∀ a < A, Holds P H Z L g f off D a) :
    NOk e P (fun r => (M r).convolveRaw (sch r) [] (f r) (off r)) g fun g' =>
      DReady P X Y H Z M A B pdx T Inv g' ∧
      (∀ r < P, (g r).Upd (g' r) fun p => OB A B M T r p.buf ∨ ∃ b < B, (M r).c.x.fft.Data ((f r).at_ b + off r) p) ∧
      (GoodD Dm L N x0 D → ∀ r < P, ∀ b < B, ∀ j < L, ∀ c < wd H Z P r, (g' r).val ((f r).at_ b + off r + (wd H Z P r * j + c)) =
        valD L N x0 Φ D b j (st H Z P r + c)) := by
  have hBA := hd.BA
  have hpd : ∀ r < P, FftBase.Pd (pdx r) (M r).c.x.W (g r) := fun r h => (hr.x r h).pd
  have hf := hi.dctx
  cases l2 with
  | true =>
    have h0 := hd.P_pos
    have hA1 : A = B + 1 := by
      have := ((hsc 0 h0).l2 (hl2 0 h0)).1
      rwa [hd.A 0 h0, hd.B 0 h0] at this
    have hinc : ∀ r < P, res = [0, (M r).c.x.fft.incr0] := fun r h => by
      rw [← hd.res r h]; exact ((hsc r h).l2 (hl2 r h)).2
    have hinc' : ∀ r < P, (M r).c.x.fft.incr0 = (M 0).c.x.fft.incr0 := fun r h => by
      have h1 := hinc r h
      rw [hinc 0 h0] at h1
      simpa using h1.symm
    have hl := fun r h => (hr.x r h).l2 (hl2 r h)
    refine NOk.congr ((hd.loop2_ok hS (F := fun r => (M r).c.x.F) (Fp := fun r => (M r).c.x.Fp) (W0 := fun r => (M r).c.x.W0) hr.ctx hr.t hf hA1 (hinc 0 h0)
      (fun r h => by rw [← hd.A r h]; exact (hl r h).2.1) (fun r h i hiA => ?_) hpd hr.inv hD (fun r h => (hl r h).1)).mono ?_) ?_
    · have := (hl r h).2.2 i (by rw [hd.A r h]; exact hiA)
      rw [this, hd.A r h, hd.B r h, hA1]
      unfold perm
      rw [show B + 1 - B = 1 by omega]
      by_cases hi1 : i < 1
      · rw [if_pos hi1, if_pos hi1]
      · rw [if_neg hi1, if_neg hi1]
    · rintro g' ⟨p1, I1, u1, e1⟩
      refine ⟨hr.of (fun r h => (u1 r h).size) p1 I1, fun r h => (u1 r h).mono ?_, e1⟩
      rintro p (h1 | h1)
      · exact Or.inl (Or.inl h1)
      · exact Or.inr h1
    · intro r h
      unfold Conv3MPI.convolveRaw Conv3MPI.rawLoop2
      rw [if_neg (by rw [hd.ow r h]; simp), if_pos (hl2 r h), hd.A r h, hd.B r h, hinc' r h, hA1]
      simp only [show B + 1 - B = 1 by omega, Nat.one_mul, Nat.div_one]
  | false =>
    have hraw : ∀ r < P, (M r).convolveRaw (sch r) [] (f r) (off r) = (M r).rawGeneric (sch r) [] (f r) (off r) := by
      intro r h
      unfold Conv3MPI.convolveRaw
      rw [if_neg (by rw [hd.ow r h]; simp), if_neg (by rw [hl2 r h]; simp)]
    by_cases hnl : 1 < res.length
    · have hV : ∀ r < P, (M r).c.x.UsesV := fun r h => ⟨by rw [hd.nloops_eq h]; exact hnl, hl2 r h⟩
      have hdV := fun r h => (hr.x r h).V (hV r h)
      refine NOk.congr (x := fun r => (Prog.loop res fun rx => ((M r).forward (f r) (M r).c.x.F rx 0 A (off r)).bind fun _ =>
        ((M r).subconvolution (sch r rx) [] (M r).c.x.F rx 0).bind fun _ => (M r).backward (M r).c.x.F (M r).c.x.V rx 0 B 0 (M r).c.x.W).bind
          fun _ => runCmd (copyWords (L * wd H Z P r) (M r).pos B (f r) (M r).c.x.V (off r))) ?_ ?_
      · refine NOk.bind (hd.loop_ok hS (F := fun r => (M r).c.x.F) (h0 := fun r => (M r).c.x.V) (Off := fun _ => 0) hr.ctx hr.t hf ?_ (Or.inr ?_) hpd hr.inv hD) ?_
        · refine ⟨fun r h => ?_, fun r h a ha => ?_, fun r h => ?_, fun r h => hr.V r h (hV r h)⟩
          · have := (hdV r h).1.n; rwa [hd.B r h] at this
          · exact (hdV r h).1.bf a (by rw [hd.B r h]; exact ha)
          · have := (hdV r h).2; rwa [hd.B r h] at this
        · intro r h a ha b hb e1
          exact hi.buf r h a ha (Or.inr ⟨hV r h, b, hb, e1⟩)
        · rintro g1 ⟨p1, I1, u1, e1⟩
          have hs1 : ∀ r < P, (g1 r).size = (g r).size := fun r h => (u1 r h).size
          refine NOk.cmd (R := fun r m' => (g1 r).Upd m' (fun p => ∃ b < B, (M r).c.x.fft.Data ((f r).at_ b + off r) p) ∧
            ∀ b < B, ∀ k < L * wd H Z P r, m'.val ((f r).at_ b + off r + k) = (g1 r).val ((M r).c.x.V.at_ b + k)) ?_ ?_
          · intro r h
            have hpf : (M r).pos = fun k => k := funext fun k => hd.pos_eq h k
            rw [hpf]
            refine (copyWords_ok (by have := hi.n r h; omega) (by have := (hdV r h).1.n; rwa [hd.B r h] at this) (fun _ _ _ _ h => h)
              ?_ ?_ ?_ ?_).mono ?_
            · intro b hb k hk
              exact hd.block_pos h (FftBase.block_size (hs1 r h) (hi.bf r h b (by omega))) hk
            · intro b hb k hk
              have := (hdV r h).1.bf b (by rw [hd.B r h]; exact hb)
              rw [Conv.Ptr.add0] at this
              exact hd.block_pos h (FftBase.block_size (hs1 r h) this) hk
            · intro b hb b' hb' e2
              exact hi.buf r h b (by omega) (Or.inr ⟨hV r h, b', hb', e2⟩)
            · intro b hb b' hb' hne k hk k' hk' e2
              refine hi.apart r h b (by omega) b' (by omega) hne _ (hd.data_pos h hk) ?_
              rw [e2]; exact hd.data_pos h hk'
            · rintro _ m2 ⟨u2, e2⟩
              refine ⟨u2.size, u2.mono ?_, e2⟩
              rintro p ⟨b, hb, k, hk, rfl⟩
              exact ⟨b, hb, hd.data_pos h hk⟩
          · intro g2 h2
            have hs2 : ∀ r < P, (g2 r).size = (g1 r).size := fun r h => (h2 r h).1.size
            have r1 := hr.of hs1 p1 I1
            refine ⟨r1.bufs hd hS.inv hs2 ?_, fun r h => (u1 r h).trans (h2 r h).1 ?_ (fun p hp => Or.inr hp), ?_⟩
            · intro r h p hp
              refine (h2 r h).1.frame p ?_
              rintro ⟨b, hb, h3⟩
              have := FftBase.data_buf h3
              rw [this] at hp
              exact hi.buf r h b (by omega) (by simpa using hp)
            · rintro p (h3 | ⟨b, hb, h3⟩)
              · exact Or.inl (Or.inl h3)
              · refine Or.inl (Or.inr ⟨hV r h, b, hb, ?_⟩)
                simpa using FftBase.data_buf h3
            · intro hgd r h b hb j hj c hc
              rw [(h2 r h).2 b hb _ (by rw [Nat.mul_comm L]; exact radix_lt hc hj)]
              have := e1 hgd r h b hb j hj c hc
              rwa [Conv.Ptr.add0] at this
      · intro r h
        rw [hraw r h]
        unfold Conv3MPI.rawGeneric
        have hn : 1 < (M r).c.x.fft.nloops := by rw [hd.nloops_eq h]; exact hnl
        simp only [if_pos hn]
        rw [hd.A r h, hd.B r h, hd.res r h, hd.L r h, hd.yv r h]
    · have hres : res = [0] := by
        obtain ⟨rest, e1, _⟩ := (hd.sp 0 hd.P_pos).res0
        rw [hd.res 0 hd.P_pos] at e1
        rw [e1] at hnl
        have : rest = [] := by
          cases rest with
          | nil => rfl
          | cons a l => simp at hnl
        rw [e1, this]
      refine NOk.congr (x := fun r => (Prog.loop res fun rx => ((M r).forward (f r) (M r).c.x.F rx 0 A (off r)).bind fun _ =>
        ((M r).subconvolution (sch r rx) [] (M r).c.x.F rx 0).bind fun _ => (M r).backward (M r).c.x.F (f r) rx 0 B (off r) (M r).c.x.W).bind
          fun _ => .ret ()) ?_ ?_
      · refine NOk.bind (hd.loop_ok hS (F := fun r => (M r).c.x.F) (h0 := f) (Off := off) hr.ctx hr.t hf (hf.mono hBA) (Or.inl hres) hpd hr.inv hD) ?_
        rintro g1 ⟨p1, I1, u1, e1⟩
        refine NOk.ret ⟨hr.of (fun r h => (u1 r h).size) p1 I1, fun r h => (u1 r h).mono ?_, e1⟩
        rintro p (h1 | h1)
        · exact Or.inl (Or.inl h1)
        · exact Or.inr h1
      · intro r h
        rw [hraw r h]
        unfold Conv3MPI.rawGeneric
        have hn : ¬ 1 < (M r).c.x.fft.nloops := by rw [hd.nloops_eq h]; exact hnl
        simp only [if_neg hn]
        rw [hd.A r h, hd.B r h, hd.res r h]

/-- `convolve`. -/
theorem convolve_ok (hd : DConv3 P X Y H Z optA alltoall M x0 pdx L N A B res ix) (hS : SubSpec P X Y M A B res ix sch Φ T Inv Dm) {f : ℕ → PtrArr}
    {off : ℕ → ℕ} (hsc : ∀ r < P, Outer.Sched (M r).c.x.fft x0) {l2 : Bool} (hl2 : ∀ r < P, (M r).c.x.fft.loop2 = l2) {Ny Nz : ℕ}
    (hNy : ∀ r < P, (M r).c.ffty.N = Ny) (hNz : ∀ r < P, (M r).c.fftz.N = Nz)
    (hr : DReady P X Y H Z M A B pdx T Inv g) (hi : DInputs P M A B T g f off) {D : ℕ → ℕ → ℕ → ℂ}
    (hD : ∀ a < A, Holds P H Z L g f off D a) :
    NOk e P (fun r => (M r).convolve (sch r) (f r) (off r)) g fun g' =>
      DReady P X Y H Z M A B pdx T Inv g' ∧
      (∀ r < P, (g r).Upd (g' r) fun p => OB A B M T r p.buf ∨ ∃ b < B, (M r).c.x.fft.Data ((f r).at_ b + off r) p) ∧
      (GoodD Dm L N x0 D → ∀ r < P, ∀ b < B, ∀ j < L, ∀ c < wd H Z P r, (g' r).val ((f r).at_ b + off r + (wd H Z P r * j + c)) =
        valD L N x0 Φ D b j (st H Z P r + c) * (1 / ((N : ℂ) * ((Ny : ℂ) * (Nz : ℂ))))) := by
  have hBA := hd.BA
  unfold Conv3MPI.convolve
  refine NOk.bind (hd.raw_ok hS hsc hl2 hr hi hD) ?_
  rintro g1 ⟨r1, u1, e1⟩
  have hs1 : ∀ r < P, (g1 r).size = (g r).size := fun r h => (u1 r h).size
  refine NOk.cmd (R := fun r m' => (g1 r).Upd m' (fun p => ∃ b < B, (M r).c.x.fft.Data ((f r).at_ b + off r) p) ∧
    ∀ b < B, ∀ k < L * wd H Z P r, m'.val ((f r).at_ b + off r + k) = (g1 r).val ((f r).at_ b + off r + k) * (1 / ((N : ℂ) * ((Ny : ℂ) * (Nz : ℂ))))) ?_ ?_
  · intro r h
    have hpf : (M r).pos = fun k => k := funext fun k => hd.pos_eq h k
    rw [hpf, hd.L r h, hd.yv r h, hd.B r h, hd.N r h, hNy r h, hNz r h]
    refine (scaleWords_ok (by have := hi.n r h; omega) (fun _ _ _ _ h => h) ?_ ?_).mono ?_
    · intro b hb k hk
      exact hd.block_pos h (FftBase.block_size (hs1 r h) (hi.bf r h b (by omega))) hk
    · intro b hb b' hb' hne k hk k' hk' e2
      refine hi.apart r h b (by omega) b' (by omega) hne _ (hd.data_pos h hk) ?_
      rw [e2]; exact hd.data_pos h hk'
    · rintro _ m2 ⟨u2, e2⟩
      refine ⟨u2.size, u2.mono ?_, e2⟩
      rintro p ⟨b, hb, k, hk, rfl⟩
      exact ⟨b, hb, hd.data_pos h hk⟩
  · intro g2 h2
    have hs2 : ∀ r < P, (g2 r).size = (g1 r).size := fun r h => (h2 r h).1.size
    refine ⟨r1.bufs hd hS.inv hs2 ?_, fun r h => (u1 r h).trans (h2 r h).1 (fun _ h => h) (fun p hp => Or.inr hp), ?_⟩
    · intro r h p hp
      refine (h2 r h).1.frame p ?_
      rintro ⟨b, hb, h3⟩
      have := FftBase.data_buf h3
      rw [this] at hp
      exact hi.buf r h b (by omega) (by simpa using hp)
    · intro hgd r h b hb j hj c hc
      rw [(h2 r h).2 b hb _ (by rw [Nat.mul_comm L]; exact radix_lt hc hj), e1 hgd r h b hb j hj c hc]

end DConv3
end Fftwpp
