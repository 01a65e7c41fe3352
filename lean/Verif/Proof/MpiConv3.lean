import Verif.Proof.MpiConv2

/-!
# Backward transform, multiplication and one pass of the distributed convolution
-/

namespace Fftwpp
open Finset Net

variable {P X Y optA alltoall : ℕ} {M : ℕ → Conv2MPI} {x0 : ℤ} {pdx : ℕ → Mem → Ptr → Prop} {L N A B : ℕ} {res : List ℕ} {ix : ℕ → ℕ → ℕ}
  {e : Eager} {g : ℕ → Mem}

namespace DConv

/-- `backward` of the arrays `start..stop`. -/
theorem bwd_ok (hd : DConv P X Y optA alltoall M x0 pdx L N A B res ix) {F h0 : ℕ → PtrArr} {Off : ℕ → ℕ} (hc : Ctx P X Y M A B g F)
    (hdat : ∀ r < P, (M r).c.x.fft.Dat (g r) (h0 r) (Off r) B (F r) (max A B) (M r).c.x.W)
    (hap : ∀ r < P, (M r).c.x.fft.Apart (h0 r) (Off r) B)
    (hwf : ∀ r < P, ∀ a < max A B, ∀ a' < B, ((M r).wrk a).buf ≠ ((h0 r).at_ a').buf)
    (hp : ∀ r < P, FftBase.Pd (pdx r) (M r).c.x.W (g r)) {rx start stop : ℕ} (hrx : rx ∈ res) (hss : start ≤ stop) (hsB : stop ≤ B)
    {W0 : ℕ → Option Ptr} (hW0 : ∀ r < P, W0 r = (M r).c.x.W)
    {G : ℕ → ℕ → ℕ → ℂ} (hG : ∀ b, start ≤ b → b < stop → Rows X Y P g (fun r => (F r).at_ b) (G b)) :
    NOk e P (fun r => (M r).backward (F r) (h0 r) rx start stop (Off r) (W0 r)) g fun g' =>
      (∀ r < P, FftBase.Pd (pdx r) (M r).c.x.W (g' r)) ∧
      (∀ r < P, (g r).Upd (g' r) (fun p => (∃ b, start ≤ b ∧ b < stop ∧ ((M r).c.x.fft.Data ((h0 r).at_ b + Off r) p ∨
        p.buf = ((F r).at_ b).buf ∨ p.buf = ((M r).wrk b).buf)) ∨ (M r).c.x.fft.InW (M r).c.x.W p)) ∧
      ∀ r < P, ∀ b, start ≤ b → b < stop → ∀ j < L, ∀ c < part Y P r, (g' r).val ((h0 r).at_ b + Off r + (part Y P r * j + c)) =
        (if rx = 0 then 0 else (g r).val ((h0 r).at_ b + Off r + (part Y P r * j + c))) +
        ∑ i ∈ range X, G b i (first Y P r + c) * w N (-(((j : ℤ) - x0) * (ix rx i : ℤ))) := by
  refine NOk.congr ?_ fun r hr => hd.backward_eq hr _ _ _ _ _ _ _
  refine NOk.bind (Q1 := fun g' => (∀ b, start ≤ b → b < stop → Cols X Y P g' (fun r => (F r).at_ b) (G b)) ∧
      ∀ r < P, (g r).Upd (g' r) (fun p => ∃ b, start ≤ b ∧ b < stop ∧ (p.buf = ((F r).at_ b).buf ∨ p.buf = ((M r).wrk b).buf))) ?_ ?_
  · refine NOk.loopRng hss (fun s g' => (∀ b, start ≤ b → b < s → Cols X Y P g' (fun r => (F r).at_ b) (G b)) ∧
      (∀ b, s ≤ b → b < stop → Rows X Y P g' (fun r => (F r).at_ b) (G b)) ∧
      ∀ r < P, (g r).Upd (g' r) (fun p => ∃ b, start ≤ b ∧ b < s ∧ (p.buf = ((F r).at_ b).buf ∨ p.buf = ((M r).wrk b).buf)))
      ⟨fun b h1 h2 => absurd h1 (by omega), hG, fun r _ => Mem.Upd.refl _ _⟩ ?_ (fun _ h => ⟨h.1, h.2.2⟩)
    rintro s g1 h1 h2 ⟨c1, r1, u1⟩
    have hsM : s < max A B := lt_of_lt_of_le (by omega) (le_max_right _ _)
    refine (hd.tr0_ok ((hc.room s hsM).size fun r hr => (u1 r hr).size) (r1 s le_rfl h2)).mono ?_
    rintro g2 ⟨c2, u2⟩
    have keep : ∀ r < P, ∀ b < stop, b ≠ s → ∀ n : ℕ, (g2 r).val ((F r).at_ b + n) = (g1 r).val ((F r).at_ b + n) := by
      intro r hr b hb hbs n
      have hbM : b < max A B := lt_of_lt_of_le (by omega) (le_max_right _ _)
      refine (u2 r hr).frame _ ?_
      rintro (h3 | h3)
      · exact (hc.work r hr).sep b hbM s hsM hbs (by simpa using h3)
      · exact hc.wF r hr s hsM b hbM (by simpa using h3.symm)
    refine ⟨?_, ?_, fun r hr => (u1 r hr).trans (u2 r hr) ?_ ?_⟩
    · intro b hb1 hb2
      by_cases hbs : b = s
      · subst hbs; exact c2
      · intro r hr i hi j hj
        rw [keep r hr b (by omega) hbs, c1 b hb1 (by omega) r hr i hi j hj]
    · intro b hb1 hb2 r hr i hi j hj
      rw [keep r hr b hb2 (by omega), r1 b (by omega) hb2 r hr i hi j hj]
    · rintro p ⟨b, hb1, hb2, h3⟩
      exact ⟨b, hb1, by omega, h3⟩
    · rintro p h3
      exact ⟨s, h1, by omega, h3⟩
  · rintro g1 ⟨c1, u1⟩
    have hs1 : ∀ r < P, (g1 r).size = (g r).size := fun r hr => (u1 r hr).size
    have hstM : ∀ b < stop, b < max A B := fun b hb => lt_of_lt_of_le (by omega) (le_max_right _ _)
    refine NOk.cmd (R := fun r m' => FftBase.Pd (pdx r) (M r).c.x.W m' ∧ ((g r).Upd m' (fun p => (∃ b, start ≤ b ∧ b < stop ∧ ((M r).c.x.fft.Data ((h0 r).at_ b + Off r) p ∨
        p.buf = ((F r).at_ b).buf ∨ p.buf = ((M r).wrk b).buf)) ∨ (M r).c.x.fft.InW (M r).c.x.W p)) ∧
      ∀ b, start ≤ b → b < stop → ∀ j < L, ∀ c < part Y P r, m'.val ((h0 r).at_ b + Off r + (part Y P r * j + c)) =
        (if rx = 0 then 0 else (g r).val ((h0 r).at_ b + Off r + (part Y P r * j + c))) +
        ∑ i ∈ range X, G b i (first Y P r + c) * w N (-(((j : ℤ) - x0) * (ix rx i : ℤ)))) ?_
      (fun g' h => ⟨fun r hr => (h r hr).1, fun r hr => (h r hr).2.1, fun r hr => (h r hr).2.2⟩)
    intro r hr
    have hcond : (if (M r).c.x.W ≠ none ∧ (M r).c.x.W = W0 r then (M r).c.x.fft.padCall (W0 r) else pure () : Cmd Unit) =
        if (M r).c.x.W.isSome then (M r).c.x.fft.padCall (M r).c.x.W else pure () := by
      rw [hW0 r hr]
      cases (M r).c.x.W <;> simp
    rw [hcond, hW0 r hr]
    have hw1 := ((hc.work r hr).size (hs1 r hr))
    have hd1 := (hdat r hr).size (hs1 r hr)
    have hp1 : FftBase.Pd (pdx r) (M r).c.x.W (g1 r) := by
      intro W hW
      refine (hd.sp r hr).pad_frame ?_ (hp r hr W hW)
      intro i _
      refine (u1 r hr).frame _ ?_
      rintro ⟨b, _, hb, h3 | h3⟩
      · exact (hc.work r hr).W_buf W hW b (hstM b hb) (by simpa using h3)
      · exact hc.wW r hr b (hstM b hb) W hW (by simpa using h3.symm)
    have hA := hd.A r hr
    have hB := hd.B r hr
    refine (FftBase.bwdPad_ok (T := fun _ => False) (Inv := fun _ => True) (W? := (M r).c.x.W) (hd.sp r hr) (hd.ow r hr) (fun _ _ _ => trivial)
      (by rw [hA, hB]; exact hw1) (by rw [hA, hB]; exact hd1) (by rw [hB]; exact hap r hr) ⟨fun _ _ h => h, fun _ _ h => h⟩
      (fun _ _ h => h) (Or.inl ⟨rfl, rfl⟩) hp1 trivial (by rw [hd.res r hr]; exact hrx) hss (by rw [hB]; exact hsB)).mono ?_
    rintro _ m2 ⟨u2, p2, _, e2⟩
    refine ⟨u2.size, p2, (u1 r hr).trans u2 ?_ ?_, ?_⟩
    · rintro p ⟨b, hb1, hb2, h3⟩
      exact Or.inl ⟨b, hb1, hb2, Or.inr h3⟩
    · rintro p (⟨b, hb1, hb2, h3 | h3⟩ | h3)
      · exact Or.inl ⟨b, hb1, hb2, Or.inl h3⟩
      · exact Or.inl ⟨b, hb1, hb2, Or.inr (Or.inl (FftBase.inArr_buf h3))⟩
      · exact Or.inr h3
    · intro b hb1 hb2 j hj c hcc
      have := e2 b hb1 hb2 j (by rw [hd.L r hr]; exact hj) c (by rw [hd.C r hr]; exact hcc)
      rw [hd.S r hr, hd.col r hr, hd.N r hr, hd.ix r hr, hd.nout r hr rx hrx] at this
      rw [this]
      congr 1
      · by_cases h0 : rx = 0
        · rw [if_pos h0, if_pos h0]
        · rw [if_neg h0, if_neg h0]
          refine (u1 r hr).frame _ ?_
          rintro ⟨b', hb1', hb2', h3 | h3⟩
          · exact (hdat r hr).fF b (by omega) b' (hstM b' hb2') (by simpa using h3)
          · exact hwf r hr b' (hstM b' hb2') b (by omega) (by simpa using h3.symm)
      · refine sum_congr rfl fun i hi => ?_
        rw [c1 b hb1 hb2 r hr i (mem_range.1 hi) c hcc]

/-- What `subconvolution` does to the rows of a process: `Φ e` of the row that holds frequency `e`; `T r` tells the buffers of its own work arrays, `Inv r` is its own
invariant, `Dm` the rows on which it is defined. -/
structure SubSpec (P X Y : ℕ) (M : ℕ → Conv2MPI) (A B : ℕ) (res : List ℕ) (ix : ℕ → ℕ → ℕ) (sch : ℕ → ℕ → Sch) (Φ : ℕ → ℕ → (ℕ → ℕ → ℂ) → ℕ → ℂ)
    (T : ℕ → ℕ → Prop) (Inv : ℕ → Mem → Prop) (Dm : (ℕ → ℕ → ℂ) → Prop) : Prop where
  congr : ∀ e' b X' Y', (∀ a < A, ∀ c < Y, X' a c = Y' a c) → ∀ c < Y, Φ e' b X' c = Φ e' b Y' c
  dom : ∀ X' Y', (∀ a < A, ∀ c < Y, X' a c = Y' a c) → Dm X' → Dm Y'
  inv : ∀ r < P, ∀ m m' : Mem, Inv r m → m'.size = m.size → (∀ p : Ptr, T r p.buf → m'.val p = m.val p) → Inv r m'
  ok : ∀ r < P, ∀ m F rx, rx ∈ res → Inv r m → A ≤ F.n → (∀ a < A, m.block (F.at_ a) (part X P r * Y)) →
    (∀ a < A, ∀ a' < A, a ≠ a' → (F.at_ a).buf ≠ (F.at_ a').buf) → (∀ a < A, ¬ T r (F.at_ a).buf) →
    (seqLoop (sch r rx) fun x => if x.2 < (M r).c.threads then
        ((M r).c.convy x.2).convolveRawOffset ((M r).c.x.fft.index rx x.1 :: []) F (0 + x.1 * (M r).Y) else ubCmd).Ok m fun _ m' =>
      Inv r m' ∧ m.Upd m' (fun p => T r p.buf ∨ ∃ a < A, p.buf = (F.at_ a).buf) ∧
      ∀ b < B, ∀ i < part X P r, Dm (fun a c => m.val (F.at_ a + (Y * i + c))) → ∀ c < Y,
        m'.val (F.at_ b + (Y * i + c)) = Φ (ix rx (first X P r + i)) b (fun a c => m.val (F.at_ a + (Y * i + c))) c

variable {sch : ℕ → ℕ → Sch} {Φ : ℕ → ℕ → (ℕ → ℕ → ℂ) → ℕ → ℂ} {T : ℕ → ℕ → Prop} {Inv : ℕ → Mem → Prop} {Dm : (ℕ → ℕ → ℂ) → Prop}

theorem rows_exists (hP : 0 < P) (g : ℕ → Mem) (q : ℕ → ℕ → Ptr) : ∃ G : ℕ → ℕ → ℕ → ℂ, ∀ b, Rows X Y P g (q b) (G b) := by
  classical
  refine ⟨fun b i j => if h : i < X then (g (owner hP h).choose).val (q b (owner hP h).choose + (Y * (i - first X P (owner hP h).choose) + j)) else 0, ?_⟩
  intro b r hr i hi j hj
  have hlt : first X P r + i < X := (ld_has X P hP).1 r hr _ (Nat.le_add_right _ _) (by show _ < first X P r + part X P r; omega)
  beta_reduce
  rw [dif_pos hlt]
  obtain ⟨h1, h2, h3⟩ := (owner hP hlt).choose_spec
  have he : (owner hP hlt).choose = r := (ld_has X P hP).2.2.1 _ h1 r hr _ h2 h3 (Nat.le_add_right _ _) (by show _ < first X P r + part X P r; omega)
  rw [he, Nat.add_sub_cancel_left]

/-- `subconvolution`. -/
theorem sub_ok (hd : DConv P X Y optA alltoall M x0 pdx L N A B res ix) (hS : SubSpec P X Y M A B res ix sch Φ T Inv Dm) {F : ℕ → PtrArr}
    (hc : Ctx P X Y M A B g F) (hTF : ∀ r < P, ∀ a < A, ¬ T r ((F r).at_ a).buf) (hI : ∀ r < P, Inv r (g r)) {rx : ℕ} (hrx : rx ∈ res)
    {H : ℕ → ℕ → ℕ → ℂ} (hH : ∀ a < A, Rows X Y P g (fun r => (F r).at_ a) (H a)) :
    NOk e P (fun r => (M r).subconvolution (sch r rx) [] (F r) rx 0) g fun g' =>
      (∃ G : ℕ → ℕ → ℕ → ℂ, (∀ b, Rows X Y P g' (fun r => (F r).at_ b) (G b)) ∧
        ((∀ i, Dm fun a c => H a i c) → ∀ b < B, ∀ i < X, ∀ c < Y, G b i c = Φ (ix rx i) b (fun a c => H a i c) c)) ∧ (∀ r < P, Inv r (g' r)) ∧
      ∀ r < P, (g r).Upd (g' r) (fun p => T r p.buf ∨ ∃ a < A, p.buf = ((F r).at_ a).buf) := by
  have hAM : ∀ a < A, a < max A B := fun a ha => lt_of_lt_of_le ha (le_max_left _ _)
  refine NOk.cmd (R := fun r m' => Inv r m' ∧ (g r).Upd m' (fun p => T r p.buf ∨ ∃ a < A, p.buf = ((F r).at_ a).buf) ∧
      ((∀ i, Dm fun a c => H a i c) → ∀ b < B, ∀ i < part X P r, ∀ c < Y, m'.val ((F r).at_ b + (Y * i + c)) = Φ (ix rx (first X P r + i)) b (fun a c => H a (first X P r + i) c) c)) ?_
    (fun g' h => ⟨?_, fun r hr => (h r hr).1, fun r hr => (h r hr).2.1⟩)
  rotate_left
  · obtain ⟨G, hGr⟩ := rows_exists (X := X) (Y := Y) hd.P_pos g' (fun b r => (F r).at_ b)
    refine ⟨G, hGr, ?_⟩
    intro hG b hb i hi c hcc
    obtain ⟨r, hr, h1, h2⟩ := owner hd.P_pos hi
    have h3 := hGr b r hr (i - first X P r) (by omega) c hcc
    have h4 := (h r hr).2.2 hG b hb (i - first X P r) (by omega) c hcc
    rw [show first X P r + (i - first X P r) = i by omega] at h3 h4
    rw [← h3, ← h4]
  intro r hr
  refine (hS.ok r hr (g r) (F r) rx hrx (hI r hr) ((le_max_left _ _).trans (hc.work r hr).n) ?_ ?_ (hTF r hr)).mono ?_
  · intro a ha k hk
    have h1 := (hc.room a (hAM a ha)).qs r hr
    have h0 := (hc.room a (hAM a ha)).q0 r hr
    have h2 : part X P r * Y ≤ room2 X Y P r := le_max_right _ _
    refine ⟨?_, ?_⟩
    · simp; omega
    · simp; omega
  · intro a ha a' ha' hne
    exact (hc.work r hr).sep a (hAM a ha) a' (hAM a' ha') hne
  · rintro _ m' ⟨I', u, v⟩
    refine ⟨u.size, I', u, ?_⟩
    intro hG b hb i hi c hcc
    have hr' : ∀ a < A, ∀ c' < Y, (g r).val ((F r).at_ a + (Y * i + c')) = H a (first X P r + i) c' := fun a ha c' hc' => hH a ha r hr i hi c' hc'
    rw [v b hb i hi (hS.dom _ _ (fun a ha c' hc' => (hr' a ha c' hc').symm) (hG _)) c hcc]
    exact hS.congr _ _ _ _ hr' c hcc

/-- The part of the (unnormalized) result due to residue `rx`. -/
noncomputable def partD (L N : ℕ) (x0 : ℤ) (X : ℕ) (ix : ℕ → ℕ → ℕ) (Φ : ℕ → ℕ → (ℕ → ℕ → ℂ) → ℕ → ℂ) (D : ℕ → ℕ → ℕ → ℂ) (rx b j c : ℕ) : ℂ :=
  ∑ i ∈ range X, Φ (ix rx i) b (fun a c => hatD L N x0 D (ix rx i) a c) c * w N (-(((j : ℤ) - x0) * (ix rx i : ℤ)))

/-- The buffers of the work arrays of process `r`. -/
def WB (A B : ℕ) (M : ℕ → Conv2MPI) (F : ℕ → PtrArr) (T : ℕ → ℕ → Prop) (r k : ℕ) : Prop :=
  T r k ∨ (∃ a < max A B, k = ((F r).at_ a).buf ∨ k = ((M r).wrk a).buf) ∨ ∃ W, (M r).c.x.W = some W ∧ k = W.buf

/-- The work arrays of the inner convolutions are separate. -/
structure TCtx (P : ℕ) (M : ℕ → Conv2MPI) (A B : ℕ) (F : ℕ → PtrArr) (T : ℕ → ℕ → Prop) : Prop where
  F : ∀ r < P, ∀ a < max A B, ¬ T r ((F r).at_ a).buf
  w : ∀ r < P, ∀ a < max A B, ¬ T r ((M r).wrk a).buf
  W : ∀ r < P, ∀ W, (M r).c.x.W = some W → ¬ T r W.buf

/-- Data arrays: the first `k`. -/
structure DCtx (P : ℕ) (M : ℕ → Conv2MPI) (A B : ℕ) (F : ℕ → PtrArr) (T : ℕ → ℕ → Prop) (g : ℕ → Mem) (f : ℕ → PtrArr) (off : ℕ → ℕ) (k : ℕ) :
    Prop where
  n : ∀ r < P, k ≤ (f r).n
  bf : ∀ r < P, ∀ a < k, (g r).block ((f r).at_ a + off r) ((M r).c.x.fft.S * (M r).c.x.fft.L)
  apart : ∀ r < P, (M r).c.x.fft.Apart (f r) (off r) k
  buf : ∀ r < P, ∀ a < k, ¬ WB A B M F T r ((f r).at_ a).buf

namespace DCtx
variable {F f : ℕ → PtrArr} {off : ℕ → ℕ} {k : ℕ}

theorem size {g' : ℕ → Mem} (h : DCtx P M A B F T g f off k) (hs : ∀ r < P, (g' r).size = (g r).size) : DCtx P M A B F T g' f off k :=
  ⟨h.n, fun r hr a ha => FftBase.block_size (hs r hr) (h.bf r hr a ha), h.apart, h.buf⟩

theorem mono {k' : ℕ} (h : DCtx P M A B F T g f off k) (hk : k' ≤ k) : DCtx P M A B F T g f off k' :=
  ⟨fun r hr => hk.trans (h.n r hr), fun r hr a ha => h.bf r hr a (by omega), fun r hr a ha a' ha' => h.apart r hr a (by omega) a' (by omega),
    fun r hr a ha => h.buf r hr a (by omega)⟩

theorem dat (h : DCtx P M A B F T g f off k) {r : ℕ} (hr : r < P) : (M r).c.x.fft.Dat (g r) (f r) (off r) k (F r) (max A B) (M r).c.x.W := by
  refine ⟨h.n r hr, h.bf r hr, ?_, ?_⟩
  · intro a ha a' ha' e
    exact h.buf r hr a ha (Or.inr (Or.inl ⟨a', ha', Or.inl e⟩))
  · intro a ha W hW e
    exact h.buf r hr a ha (Or.inr (Or.inr ⟨W, hW, e.symm⟩))

theorem wrk (h : DCtx P M A B F T g f off k) : ∀ r < P, ∀ a < max A B, ∀ a' < k, ((M r).wrk a).buf ≠ ((f r).at_ a').buf := by
  intro r hr a ha a' ha' e
  exact h.buf r hr a' ha' (Or.inr (Or.inl ⟨a, ha, Or.inr e.symm⟩))

theorem not_T (h : DCtx P M A B F T g f off k) : ∀ r < P, ∀ a < k, ¬ T r ((f r).at_ a).buf :=
  fun r hr a ha h1 => h.buf r hr a ha (Or.inl h1)
end DCtx

theorem Holds.frame {g' : ℕ → Mem} {f : ℕ → PtrArr} {off : ℕ → ℕ} {D : ℕ → ℕ → ℕ → ℂ} {a : ℕ} (h : Holds P Y L g f off D a) {R : ℕ → Ptr → Prop}
    (u : ∀ r < P, (g r).Upd (g' r) (R r)) (hR : ∀ r < P, ∀ n : ℕ, ¬ R r ((f r).at_ a + off r + n)) : Holds P Y L g' f off D a := by
  intro r hr j hj c hc
  rw [(u r hr).frame _ (hR r hr _), h r hr j hj c hc]

end DConv
end Fftwpp
