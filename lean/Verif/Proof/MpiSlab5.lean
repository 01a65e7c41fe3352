import Verif.Proof.MpiSlab4

/-!
# The two-pass schedule of the distributed convolution
-/

namespace Fftwpp
open Finset Net DConv

variable {P X Y H Z optA alltoall : ℕ} {M : ℕ → Conv3MPI} {x0 : ℤ} {pdx : ℕ → Mem → Ptr → Prop} {L N A B : ℕ} {res : List ℕ} {ix : ℕ → ℕ → ℕ}
  {e : Eager} {g : ℕ → Mem}

namespace DConv3
variable {sch : ℕ → ℕ → Conv3MPI.Sch3} {Φ : ℕ → ℕ → (ℕ → ℕ → ℂ) → ℕ → ℂ} {T : ℕ → ℕ → Prop} {Inv : ℕ → Mem → Prop} {Dm : (ℕ → ℕ → ℂ) → Prop}

section
variable {F Fp f : ℕ → PtrArr} {off : ℕ → ℕ} {k : ℕ}

theorem Ctx.perm (hAB : A = B + 1) (hc : Ctx P X Y H Z M A B g F) (hn : ∀ r < P, A ≤ (Fp r).n) (hp : ∀ r < P, ∀ i < A, (Fp r).at_ i = (F r).at_ (perm B i)) :
    Ctx P X Y H Z M A B g Fp := by
  have hm : max A B = A := max_eq_left (by omega)
  refine ⟨fun r hr => ?_, fun a ha => ?_, fun r hr a ha a' ha' => ?_, hc.wW⟩
  · have hw := hc.work r hr
    rw [hm] at hw ⊢
    refine ⟨hn r hr, ?_, ?_, ?_⟩
    · intro a ha a' ha' hne
      rw [hp r hr a ha, hp r hr a' ha']
      exact hw.sep _ (perm_lt hAB ha) _ (perm_lt hAB ha') (fun e => hne (perm_inj hAB ha ha' e))
    · intro a ha; rw [hp r hr a ha]; exact hw.bF _ (perm_lt hAB ha)
    · have := hw.bW
      split_ifs at this ⊢
      · exact this
      · obtain ⟨W, e1, e2, e3⟩ := this
        exact ⟨W, e1, fun a ha => by rw [hp r hr a ha]; exact e2 _ (perm_lt hAB ha), e3⟩
  · rw [hm] at ha
    have h1 := hc.room a (by rw [hm]; exact ha)
    have h2 := hc.room (DConv.perm B a) (by rw [hm]; exact perm_lt hAB ha)
    refine ⟨fun r hr => ?_, fun r hr => ?_, h1.w0, h1.ws, fun r hr => ?_⟩
    · beta_reduce; rw [hp r hr a ha]; exact h2.q0 r hr
    · beta_reduce; rw [hp r hr a ha]; exact h2.qs r hr
    · beta_reduce; rw [hp r hr a ha]; exact (hc.wF r hr a (by rw [hm]; exact ha) _ (by rw [hm]; exact perm_lt hAB ha)).symm
  · rw [hm] at ha'
    rw [hp r hr a' ha']
    exact hc.wF r hr a ha _ (by rw [hm]; exact perm_lt hAB ha')

theorem WB.perm (hAB : A = B + 1) {r k : ℕ} (hp : ∀ i < A, (Fp r).at_ i = (F r).at_ (DConv.perm B i)) : WB A B M Fp T r k ↔ WB A B M F T r k := by
  have hm : max A B = A := max_eq_left (by omega)
  unfold WB
  rw [hm]
  constructor
  · rintro (h | ⟨a, ha, h | h⟩ | h)
    · exact Or.inl h
    · exact Or.inr (Or.inl ⟨_, perm_lt hAB ha, Or.inl (by rw [h, hp a ha])⟩)
    · exact Or.inr (Or.inl ⟨a, ha, Or.inr h⟩)
    · exact Or.inr (Or.inr h)
  · rintro (h | ⟨a, ha, h | h⟩ | h)
    · exact Or.inl h
    · obtain ⟨j, hj, rfl⟩ := perm_surj hAB ha
      exact Or.inr (Or.inl ⟨j, hj, Or.inl (by rw [h, hp j hj])⟩)
    · exact Or.inr (Or.inl ⟨a, ha, Or.inr h⟩)
    · exact Or.inr (Or.inr h)

theorem TCtx.perm (hAB : A = B + 1) (hT : TCtx P M A B F T) (hp : ∀ r < P, ∀ i < A, (Fp r).at_ i = (F r).at_ (DConv.perm B i)) : TCtx P M A B Fp T := by
  have hm : max A B = A := max_eq_left (by omega)
  refine ⟨fun r hr a ha => ?_, hT.w, hT.W⟩
  rw [hm] at ha
  rw [hp r hr a ha]
  exact hT.F r hr _ (by rw [hm]; exact perm_lt hAB ha)

theorem DCtx.perm (hAB : A = B + 1) (hf : DCtx P M A B F T g f off k) (hp : ∀ r < P, ∀ i < A, (Fp r).at_ i = (F r).at_ (DConv.perm B i)) :
    DCtx P M A B Fp T g f off k :=
  ⟨hf.n, hf.bf, hf.apart, fun r hr a ha h => hf.buf r hr a ha ((WB.perm hAB (hp r hr)).1 h)⟩
end

/-- The two-pass schedule. -/
theorem loop2_ok (hd : DConv3 P X Y H Z optA alltoall M x0 pdx L N A B res ix) (hS : SubSpec P X Y M A B res ix sch Φ T Inv Dm) {F Fp f : ℕ → PtrArr}
    {off : ℕ → ℕ} (hc : Ctx P X Y H Z M A B g F) (hT : TCtx P M A B F T) (hf : DCtx P M A B F T g f off A) (hAB : A = B + 1) {rr : ℕ} (hres : res = [0, rr])
    (hn : ∀ r < P, A ≤ (Fp r).n) (hP' : ∀ r < P, ∀ i < A, (Fp r).at_ i = (F r).at_ (perm B i))
    (hp : ∀ r < P, FftBase.Pd (pdx r) (M r).c.x.W (g r)) (hI : ∀ r < P, Inv r (g r)) {D : ℕ → ℕ → ℕ → ℂ}
    (hD : ∀ a < A, Holds P H Z L g f off D a) {W0 : ℕ → Option Ptr} (hW0 : ∀ r < P, W0 r = (M r).c.x.W) :
    NOk e P (fun r => ((M r).forward (f r) (F r) 0 0 A (off r)).bind fun _ => ((M r).subconvolution (sch r 0) [] (F r) 0 0).bind fun _ =>
        (Prog.loop (rng 0 B) fun k => ((M r).forward (f r) (Fp r) rr k (k + 1) (off r)).bind fun _ =>
          (M r).backward (F r) (f r) 0 k (k + 1) (off r) (W0 r)).bind fun _ =>
        ((M r).forward (f r) (Fp r) rr B A (off r)).bind fun _ => ((M r).subconvolution (sch r rr) [] (Fp r) rr 0).bind fun _ =>
        (M r).backward (Fp r) (f r) rr 0 B (off r) (W0 r)) g fun g' =>
      (∀ r < P, FftBase.Pd (pdx r) (M r).c.x.W (g' r)) ∧ (∀ r < P, Inv r (g' r)) ∧
      (∀ r < P, (g r).Upd (g' r) fun p => WB A B M F T r p.buf ∨ ∃ b < B, (M r).c.x.fft.Data ((f r).at_ b + off r) p) ∧
      (GoodD Dm L N x0 D → ∀ r < P, ∀ b < B, ∀ j < L, ∀ c < wd H Z P r, (g' r).val ((f r).at_ b + off r + (wd H Z P r * j + c)) =
        ∑ e' ∈ range N, Φ e' b (fun a c => hatD L N x0 D e' a c) (st H Z P r + c) * w N (-(((j : ℤ) - x0) * (e' : ℤ)))) := by
  have hm : max A B = A := max_eq_left (by omega)
  have h0s : 0 ∈ res := by rw [hres]; simp
  have hrs : rr ∈ res := by rw [hres]; simp
  have hr0 : rr ≠ 0 := by
    obtain ⟨rest, e1, e2⟩ := (hd.sp 0 hd.P_pos).res0
    rw [hd.res 0 hd.P_pos, hres] at e1
    obtain rfl : [rr] = rest := by simpa using e1
    simpa using Ne.symm (by simpa using e2 : ¬ 0 = rr)
  have hcp := hc.perm hAB hn hP'
  have hTp := hT.perm hAB hP'
  have hfp := hf.perm hAB hP'
  have hfB := hf.mono (show B ≤ A by omega)
  have hfpB := hfp.mono (show B ≤ A by omega)
  -- the buffers
  have bFF : ∀ r < P, ∀ a < A, ∀ a' < A, a ≠ a' → ((F r).at_ a).buf ≠ ((F r).at_ a').buf := by
    intro r hr a ha a' ha' hne
    exact (hc.work r hr).sep a (by omega) a' (by omega) hne
  have bFw : ∀ r < P, ∀ a < A, ∀ a' < A, ((F r).at_ a).buf ≠ ((M r).wrk a').buf := by
    intro r hr a ha a' ha' h
    exact hc.wF r hr a' (by omega) a (by omega) h.symm
  have bFW : ∀ r < P, ∀ a < A, ∀ W, (M r).c.x.W = some W → ((F r).at_ a).buf ≠ W.buf := by
    intro r hr a ha W hW h
    exact (hc.work r hr).W_buf W hW a (by omega) h.symm
  have bfF : ∀ r < P, ∀ a < A, ∀ a' < A, ((f r).at_ a).buf ≠ ((F r).at_ a').buf := by
    intro r hr a ha a' ha' h
    exact hf.buf r hr a ha (Or.inr (Or.inl ⟨a', by omega, Or.inl h⟩))
  -- what the two steps of the loop change
  have keepFwd : ∀ {g1 g2 : ℕ → Mem} {s t : ℕ}, t ≤ A → (∀ r < P, (g1 r).Upd (g2 r) (fun p => (∃ a, s ≤ a ∧ a < t ∧ (p.buf = ((Fp r).at_ a).buf ∨
        p.buf = ((M r).wrk a).buf)) ∨ (M r).c.x.fft.InW (M r).c.x.W p)) →
      (∀ r < P, ∀ a < A, (∀ a', s ≤ a' → a' < t → perm B a' ≠ a) → ∀ n : ℕ, (g2 r).val ((F r).at_ a + n) = (g1 r).val ((F r).at_ a + n)) ∧
      (∀ r < P, ∀ a < A, ∀ n : ℕ, (g2 r).val ((f r).at_ a + off r + n) = (g1 r).val ((f r).at_ a + off r + n)) := by
    intro g1 g2 s t htA u
    refine ⟨fun r hr a ha hne n => (u r hr).frame _ ?_, fun r hr a ha n => (u r hr).frame _ ?_⟩
    · rintro (⟨a', h1, h2, h3 | h3⟩ | ⟨W, hW, h3⟩)
      · rw [hP' r hr a' (by omega)] at h3
        exact bFF r hr a ha _ (perm_lt hAB (by omega)) (hne a' h1 h2).symm (by simpa using h3)
      · exact bFw r hr a ha a' (by omega) (by simpa using h3)
      · exact bFW r hr a ha W hW (by simpa using FftBase.inArr_buf h3)
    · rintro (⟨a', h1, h2, h3 | h3⟩ | ⟨W, hW, h3⟩)
      · rw [hP' r hr a' (by omega)] at h3
        exact bfF r hr a ha (perm B a') (perm_lt hAB (by omega)) (by simpa using h3)
      · exact hf.wrk r hr a' (by omega) a ha (by simpa using h3.symm)
      · exact (hf.dat hr).fW a ha W hW (by simpa using (FftBase.inArr_buf h3).symm)
  have keepBwd : ∀ {g1 g2 : ℕ → Mem} {k : ℕ}, k < B → (∀ r < P, (g1 r).Upd (g2 r) (fun p => (∃ b, k ≤ b ∧ b < k + 1 ∧
        ((M r).c.x.fft.Data ((f r).at_ b + off r) p ∨ p.buf = ((F r).at_ b).buf ∨ p.buf = ((M r).wrk b).buf)) ∨ (M r).c.x.fft.InW (M r).c.x.W p)) →
      (∀ r < P, ∀ a < A, a ≠ k → ∀ n : ℕ, (g2 r).val ((F r).at_ a + n) = (g1 r).val ((F r).at_ a + n)) ∧
      (∀ r < P, ∀ a < A, a ≠ k → ∀ j < L, ∀ c < wd H Z P r, (g2 r).val ((f r).at_ a + off r + (wd H Z P r * j + c)) =
        (g1 r).val ((f r).at_ a + off r + (wd H Z P r * j + c))) := by
    intro g1 g2 k hk u
    refine ⟨fun r hr a ha hne n => (u r hr).frame _ ?_, fun r hr a ha hne j hj c hcc => (u r hr).frame _ ?_⟩
    · rintro (⟨b, h1, h2, h3 | h3 | h3⟩ | ⟨W, hW, h3⟩)
      · exact bfF r hr b (by omega) a ha (by simpa using (FftBase.data_buf h3).symm)
      · exact bFF r hr a ha b (by omega) (by omega) (by simpa using h3)
      · exact bFw r hr a ha b (by omega) (by simpa using h3)
      · exact bFW r hr a ha W hW (by simpa using FftBase.inArr_buf h3)
    · rintro (⟨b, h1, h2, h3 | h3 | h3⟩ | ⟨W, hW, h3⟩)
      · refine hf.apart r hr a ha b (by omega) (by omega) _ ⟨j, by rw [hd.L r hr]; exact hj, c, by rw [hd.C r hr]; exact hcc, ?_⟩ h3
        rw [hd.S r hr, hd.col r hr]
      · exact bfF r hr a ha b (by omega) (by simpa using h3)
      · exact hf.wrk r hr b (by omega) a ha (by simpa using h3.symm)
      · exact (hf.dat hr).fW a ha W hW (by simpa using (FftBase.inArr_buf h3).symm)
  have fwdFrame : ∀ {r s t : ℕ} {p : Ptr}, r < P → t ≤ A → ((∃ a, s ≤ a ∧ a < t ∧ (p.buf = ((Fp r).at_ a).buf ∨
        p.buf = ((M r).wrk a).buf)) ∨ (M r).c.x.fft.InW (M r).c.x.W p) → WB A B M F T r p.buf := by
    rintro r s t p hr ht (⟨a, h1, h2, h3 | h3⟩ | ⟨W, hW, h3⟩)
    · rw [hP' r hr a (by omega)] at h3
      exact Or.inr (Or.inl ⟨_, by rw [hm]; exact perm_lt hAB (by omega), Or.inl h3⟩)
    · exact Or.inr (Or.inl ⟨a, by omega, Or.inr h3⟩)
    · exact Or.inr (Or.inr ⟨W, hW, FftBase.inArr_buf h3⟩)
  have fwdInv : ∀ {g1 g2 : ℕ → Mem} {s t : ℕ}, t ≤ A → (∀ r < P, Inv r (g1 r)) → (∀ r < P, (g1 r).Upd (g2 r) (fun p => (∃ a, s ≤ a ∧ a < t ∧ (p.buf = ((Fp r).at_ a).buf ∨
        p.buf = ((M r).wrk a).buf)) ∨ (M r).c.x.fft.InW (M r).c.x.W p)) → ∀ r < P, Inv r (g2 r) := by
    intro g1 g2 s t ht I1 u r hr
    refine hS.inv r hr _ _ (I1 r hr) (u r hr).size fun p hp => (u r hr).frame p ?_
    rintro (⟨a, h1, h2, h3 | h3⟩ | ⟨W, hW, h3⟩)
    · exact hTp.F r hr a (by omega) (h3 ▸ hp)
    · exact hT.w r hr a (by omega) (h3 ▸ hp)
    · exact hT.W r hr W hW (FftBase.inArr_buf h3 ▸ hp)
  refine NOk.congr (x := fun r => (((M r).forward (f r) (F r) 0 0 A (off r)).bind fun _ => (M r).subconvolution (sch r 0) [] (F r) 0 0).bind fun _ =>
        (Prog.loop (rng 0 B) fun k => ((M r).forward (f r) (Fp r) rr k (k + 1) (off r)).bind fun _ =>
          (M r).backward (F r) (f r) 0 k (k + 1) (off r) (W0 r)).bind fun _ =>
        ((M r).forward (f r) (Fp r) rr B A (off r)).bind fun _ => ((M r).subconvolution (sch r rr) [] (Fp r) rr 0).bind fun _ =>
        (M r).backward (Fp r) (f r) rr 0 B (off r) (W0 r)) ?_ fun r _ => (Prog.bind_assoc _).symm
  refine NOk.bind (hd.fwdSub_ok hS hc hT hf hp hI h0s hD) ?_
  rintro g1 ⟨⟨G, e1, hGe⟩, p1, I1, u1⟩
  refine NOk.bind (Q1 := fun g2 => (∀ r < P, FftBase.Pd (pdx r) (M r).c.x.W (g2 r)) ∧ (∀ r < P, Inv r (g2 r)) ∧
      (∀ r < P, (g r).Upd (g2 r) fun p => WB A B M F T r p.buf ∨ ∃ b < B, (M r).c.x.fft.Data ((f r).at_ b + off r) p) ∧
      (∀ a < B, Rows X Y P g2 (fun r => (Fp r).at_ a) fun i c => hatD L N x0 D (ix rr i) a c) ∧
      (∀ r < P, ∀ b < B, ∀ j < L, ∀ c < wd H Z P r, (g2 r).val ((f r).at_ b + off r + (wd H Z P r * j + c)) =
        ∑ i ∈ range X, G b i (st H Z P r + c) * w N (-(((j : ℤ) - x0) * (ix 0 i : ℤ)))) ∧
      ∀ a, B ≤ a → a < A → Holds P H Z L g2 f off D a) ?_ ?_
  · refine NOk.loopRng (Nat.zero_le _) (fun k g2 => (∀ r < P, FftBase.Pd (pdx r) (M r).c.x.W (g2 r)) ∧ (∀ r < P, Inv r (g2 r)) ∧
      (∀ r < P, (g r).Upd (g2 r) fun p => WB A B M F T r p.buf ∨ ∃ b < B, (M r).c.x.fft.Data ((f r).at_ b + off r) p) ∧
      (∀ b, k ≤ b → b < B → Rows X Y P g2 (fun r => (F r).at_ b) (G b)) ∧
      (∀ a < k, Rows X Y P g2 (fun r => (Fp r).at_ a) fun i c => hatD L N x0 D (ix rr i) a c) ∧
      (∀ r < P, ∀ b < k, ∀ j < L, ∀ c < wd H Z P r, (g2 r).val ((f r).at_ b + off r + (wd H Z P r * j + c)) =
        ∑ i ∈ range X, G b i (st H Z P r + c) * w N (-(((j : ℤ) - x0) * (ix 0 i : ℤ)))) ∧
      ∀ a, k ≤ a → a < A → Holds P H Z L g2 f off D a) ?_ ?_ ?_
    · refine ⟨p1, I1, fun r hr => (u1 r hr).mono fun p hp => Or.inl hp, fun b _ _ => e1 b, fun a ha => absurd ha (by omega),
        fun r _ b hb => absurd hb (by omega), ?_⟩
      intro a _ ha
      refine (hD a ha).frame u1 ?_
      intro r hr n h3
      exact hf.buf r hr a ha (by simpa using h3)
    · rintro k g2 _ hk ⟨p2, I2, u2, c2, d2, v2, s2⟩
      have hs2 : ∀ r < P, (g2 r).size = (g r).size := fun r hr => (u2 r hr).size
      refine NOk.bind (hd.fwd_ok (hcp.size hs2) (fun r hr => (hfp.size hs2).dat hr) hfp.wrk p2 hrs (Nat.le_succ k) (by omega)
        (fun a h1 h2 => s2 a h1 (by omega))) ?_
      rintro g3 ⟨e3, p3, u3⟩
      have hs3 : ∀ r < P, (g3 r).size = (g r).size := fun r hr => (u3 r hr).size.trans (hs2 r hr)
      obtain ⟨kF3, kf3⟩ := keepFwd (by omega) u3
      have I3 := fwdInv (by omega) I2 u3
      refine (hd.bwdInv_ok hS (hc.size hs3) hT (hfB.size hs3) p3 I3 h0s (Nat.le_succ k) (by omega) hW0
        (G := G) ?_).mono ?_
      · intro b h1 h2 r hr i hi j hj
        rw [kF3 r hr b (by omega), c2 b (by omega) (by omega) r hr i hi j hj]
        intro a' h3 h4
        unfold perm; split_ifs <;> omega
      · rintro g4 ⟨p4, I4, u4, e4⟩
        obtain ⟨kF4, kf4⟩ := keepBwd (by omega) u4
        refine ⟨p4, I4, ?_, ?_, ?_, ?_, ?_⟩
        · intro r hr
          refine (u2 r hr).trans ((u3 r hr).trans (u4 r hr) (R := fun p => WB A B M F T r p.buf ∨ ∃ b < B, (M r).c.x.fft.Data ((f r).at_ b + off r) p)
            (fun p hp => Or.inl (fwdFrame hr (by omega) hp)) (fun p hp => bwd_frame (by omega) hp)) (fun _ h => h) (fun _ h => h)
        · intro b h1 h2 r hr i hi j hj
          rw [kF4 r hr b (by omega) (by omega), kF3 r hr b (by omega), c2 b (by omega) (by omega) r hr i hi j hj]
          intro a' h3 h4
          unfold perm; split_ifs <;> omega
        · intro a ha r hr i hi j hj
          have hpk : perm B a ≠ k := by unfold perm; split_ifs <;> omega
          beta_reduce
          rw [hP' r hr a (by omega), kF4 r hr _ (perm_lt hAB (by omega)) hpk]
          by_cases hak : a = k
          · subst hak
            have := e3 a le_rfl (Nat.lt_succ_self a) r hr i hi j hj
            beta_reduce at this
            rw [hP' r hr a (by omega)] at this
            exact this
          · rw [kF3 r hr _ (perm_lt hAB (by omega))]
            · have := d2 a (by omega) r hr i hi j hj
              beta_reduce at this
              rw [hP' r hr a (by omega)] at this
              exact this
            · intro a' h3 h4 h5
              have := perm_inj hAB (by omega) (by omega) h5
              omega
        · intro r hr b hb j hj c hcc
          by_cases hbk : b = k
          · subst hbk
            rw [e4 r hr b le_rfl (Nat.lt_succ_self b) j hj c hcc, if_pos rfl, zero_add]
          · rw [kf4 r hr b (by omega) hbk j hj c hcc, kf3 r hr b (by omega), v2 r hr b (by omega) j hj c hcc]
        · intro a h1 h2 r hr j hj c hcc
          rw [kf4 r hr a h2 (by omega) j hj c hcc, kf3 r hr a h2, s2 a (by omega) h2 r hr j hj c hcc]
    · rintro g2 ⟨p2, I2, u2, _, d2, v2, s2⟩
      exact ⟨p2, I2, u2, d2, v2, s2⟩
  · rintro g2 ⟨p2, I2, u2, d2, v2, s2⟩
    have hs2 : ∀ r < P, (g2 r).size = (g r).size := fun r hr => (u2 r hr).size
    refine NOk.bind (hd.fwd_ok (hcp.size hs2) (fun r hr => (hfp.size hs2).dat hr) hfp.wrk p2 hrs (by omega) le_rfl s2) ?_
    rintro g3 ⟨e3, p3, u3⟩
    have hs3 : ∀ r < P, (g3 r).size = (g r).size := fun r hr => (u3 r hr).size.trans (hs2 r hr)
    obtain ⟨kF3, kf3⟩ := keepFwd le_rfl u3
    have I3 := fwdInv le_rfl I2 u3
    refine NOk.bind (hd.sub_ok hS (hcp.size hs3) (fun r hr a ha => hTp.F r hr a (by omega)) I3 hrs
      (Hd := fun a i c => hatD L N x0 D (ix rr i) a c) ?_) ?_
    · intro a ha
      by_cases haB : a < B
      · intro r hr i hi j hj
        beta_reduce
        rw [hP' r hr a ha, kF3 r hr _ (perm_lt hAB ha)]
        · have := d2 a haB r hr i hi j hj
          beta_reduce at this
          rw [hP' r hr a ha] at this
          exact this
        · intro a' h3 h4 h5
          have := perm_inj hAB h4 ha h5
          omega
      · exact e3 a (by omega) ha
    · rintro g4 ⟨⟨G', e4, hGe'⟩, I4, u4⟩
      have hs4 : ∀ r < P, (g4 r).size = (g r).size := fun r hr => (u4 r hr).size.trans (hs3 r hr)
      have p4 : ∀ r < P, FftBase.Pd (pdx r) (M r).c.x.W (g4 r) := by
        intro r hr W hW
        refine (hd.sp r hr).pad_frame ?_ (p3 r hr W hW)
        intro i _
        refine (u4 r hr).frame _ ?_
        rintro (h3 | ⟨a, ha, h3⟩)
        · exact hT.W r hr W hW (by simpa using h3)
        · exact (hcp.work r hr).W_buf W hW a (by omega) (by simpa using h3)
      refine (hd.bwdInv_ok hS (hcp.size hs4) hTp (hfpB.size hs4) p4 I4 hrs (Nat.zero_le _) le_rfl hW0 (fun b _ _ => e4 b)).mono ?_
      rintro g5 ⟨p5, I5, u5, e5⟩
      refine ⟨p5, I5, ?_, ?_⟩
      · intro r hr
        refine (u2 r hr).trans ((u3 r hr).trans ((u4 r hr).trans (u5 r hr) (R := fun p => WB A B M F T r p.buf ∨ ∃ b < B, (M r).c.x.fft.Data ((f r).at_ b + off r) p)
          ?_ ?_) (fun p hp => Or.inl (fwdFrame hr le_rfl hp)) (fun _ h => h)) (fun _ h => h) (fun _ h => h)
        · rintro p (h3 | ⟨a, ha, h3⟩)
          · exact Or.inl (Or.inl h3)
          · rw [hP' r hr a ha] at h3
            exact Or.inl (Or.inr (Or.inl ⟨_, by rw [hm]; exact perm_lt hAB ha, Or.inl h3⟩))
        · intro p hp
          rcases bwd_frame (A := A) (T := T) le_rfl hp with h3 | h3
          · exact Or.inl ((WB.perm hAB (hP' r hr)).1 h3)
          · exact Or.inr h3
      · intro hgd r hr b hb j hj c hcc
        rw [e5 r hr b (Nat.zero_le _) hb j hj c hcc, if_neg hr0, ← hd.sum_partD, hres]
        simp only [List.map_cons, List.map_nil, List.sum_cons, List.sum_nil, add_zero]
        have hcY : st H Z P r + c < Y := by rw [hd.YH]; exact st_lt hd.P_pos hr hcc
        congr 1
        · rw [(u4 r hr).frame, kf3 r hr b (by omega), v2 r hr b hb j hj c hcc]
          · unfold partD
            refine sum_congr rfl fun i hi => ?_
            rw [hGe hgd b hb i (mem_range.1 hi) _ hcY]
          rintro (h3 | ⟨a, ha, h3⟩)
          · exact hf.not_T r hr b (by omega) (by simpa using h3)
          · rw [hP' r hr a ha] at h3
            exact bfF r hr b (by omega) _ (perm_lt hAB ha) (by simpa using h3)
        · unfold partD
          refine sum_congr rfl fun i hi => ?_
          rw [hGe' (fun i => hgd (ix rr i)) b hb i (mem_range.1 hi) _ hcY]

end DConv3
end Fftwpp
