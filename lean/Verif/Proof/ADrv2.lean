import Verif.Proof.ADrv

/-! The residue loop and the two-pass (`loop2`) schedule of a driver, over an abstract view of the arrays. -/

namespace Fftwpp
open Finset
namespace View
variable {v : View} {o : FftBase} {padded : Mem → Ptr → Prop}
variable {op : PtrArr → ℕ → Cmd Unit} {Φ : ℕ → ℕ → ℕ → (ℕ → ℕ → ℂ) → ℕ → ℂ} {P : ℕ → ℕ → (ℕ → ℕ → ℂ) → Prop} {T : ℕ → Prop} {Inv : Mem → Prop}

/-- The residue loop. -/
theorem loop_ok (h : v.Spec o padded) (hop : v.OpSpec o op Φ P T Inv)
    {mem : Mem} {f h0 F : PtrArr} {off Off : ℕ} {W? Wb : Option Ptr} {rp : Bool}
    (hw : Work o mem F (max o.A o.B) W?) (hd : v.Dat mem f off o.A F (max o.A o.B) W?)
    (hdh : v.Dat mem h0 Off o.B F (max o.A o.B) W?) (hap : v.Apart h0 Off o.B)
    (hts : o.TSep F W? T) (hTf : ∀ a < o.A, ¬ T (f.at_ a).buf) (hTh : ∀ b < o.B, ¬ T (h0.at_ b).buf) (hWb : BackW o F W? Wb rp)
    (hfh : o.residues = [0] ∨ ∀ a < o.A, ∀ b < o.B, ∀ p, v.D (f.at_ a + off) p → ¬ v.D (h0.at_ b + Off) p)
    (hp : FftBase.Pd padded W? mem) (hI : Inv mem) {G : Prop} (hG : G → v.Good o Φ P mem f off) :
    (seqLoop o.residues fun r => do
      fwdAll o W? f F r 0 o.A off
      op F r
      bwdAll o Wb F h0 r 0 o.B Off
      if rp then o.padCall Wb else pure ()).Ok mem fun _ m' =>
      mem.Upd m' (fun p => Wk o F W? T p ∨ ∃ b < o.B, v.D (h0.at_ b + Off) p) ∧ FftBase.Pd padded W? m' ∧ Inv m' ∧
      (G → ∀ b < o.B, ∀ j < o.L, ∀ c < o.C, v.x m' (h0.at_ b + Off) j c = v.result o Φ mem f off b j c) := by
  obtain ⟨rest, hst, h0r⟩ := h.res0
  let R : Ptr → Prop := fun p => Wk o F W? T p ∨ ∃ b < o.B, v.D (h0.at_ b + Off) p
  let I : List ℕ → Mem → Prop := fun done m1 => mem.Upd m1 R ∧ FftBase.Pd padded W? m1 ∧ Inv m1 ∧
    ((done = [] ∧ m1 = mem) ∨ (done ≠ [] ∧ (G → ∀ b < o.B, ∀ j < o.L, ∀ c < o.C, v.x m1 (h0.at_ b + Off) j c =
      (done.map fun r => v.part Φ mem f off r b j c).sum)))
  have step : ∀ (done : List ℕ) r m1, r ∈ o.residues → (done = [] → r = 0) → (done ≠ [] → r ≠ 0) → I done m1 →
      (do fwdAll o W? f F r 0 o.A off
          op F r
          bwdAll o Wb F h0 r 0 o.B Off
          if rp then o.padCall Wb else pure () : Cmd Unit).Ok m1 (fun _ m' => I (done ++ [r]) m') := by
    rintro done r m1 hr hd0 hd1 ⟨u1, p1, I1, e1⟩
    have hsame : ∀ a < o.A, ∀ p, v.D (f.at_ a + off) p → m1.val p = mem.val p := by
      intro a ha p hp
      rcases e1 with ⟨_, rfl⟩ | ⟨hne, _⟩
      · rfl
      · refine u1.frame p ?_
        rintro (h1 | ⟨b, hb, h1⟩)
        · exact data_not_wk h hd hTf ha hp h1
        · rcases hfh with h2 | h2
          · rw [h2] at hr
            exact hd1 hne (by simpa using hr)
          · exact h2 a ha b hb p hp h1
    refine Cmd.Ok.seq2 (fwdOp_ok h hop (hw.size u1.size) (hd.size u1.size) hts p1 I1 hr (fun g => (hG g).congr h hop hsame)) ?_
    rintro m2 ⟨u2, p2, I2, e2⟩
    have hs2 := u2.size.trans u1.size
    refine (bwdPad_ok h hop.inv (hw.size hs2) (hdh.size hs2) hap hts hTh hWb p2 I2 hr (Nat.zero_le _) le_rfl).mono ?_
    rintro _ m3 ⟨u3, p3, I3, e3⟩
    have uu : mem.Upd m3 R := u1.trans (u2.trans u3 (R := R) (fun p hp => Or.inl hp) (by
      rintro p (⟨b, _, hb, h1 | h1⟩ | h1)
      · exact Or.inr ⟨b, hb, h1⟩
      · exact Or.inl (Or.inr (Or.inl ⟨b, lt_of_lt_of_le hb (le_max_right _ _), h1⟩))
      · exact Or.inl (hWb.inW h1))) (fun _ h => h) (fun _ h => h)
    refine ⟨uu, p3, I3, Or.inr ⟨by simp, ?_⟩⟩
    intro g b hb j hj c hc
    have hkd : v.kdom r (fun i => v.X m2 (F.at_ b) r i c) :=
      h.kdom_congr (fun i hi => (e2 g b hb i hi c hc).symm) (((hG g).congr h hop hsame).3 r hr b hb c hc)
    rw [e3 b (Nat.zero_le _) hb j hj c hc hkd, List.map_append, List.sum_append]
    congr 1
    · by_cases hr0 : r = 0
      · rw [if_pos hr0]
        have : done = [] := by
          by_contra hne
          exact hd1 hne hr0
        rw [this]; simp
      · rw [if_neg hr0, h.x_frame u2 (fun p hp => data_not_wk h hdh hTh hb hp) hj hc]
        rcases e1 with ⟨hne, _⟩ | ⟨_, e1⟩
        · exact absurd (hd0 hne) hr0
        · exact e1 g b hb j hj c hc
    · simp only [List.map_cons, List.map_nil, List.sum_cons, List.sum_nil, add_zero]
      rw [← part_congr h hop hsame hc]
      exact h.K_congr fun i hi => e2 g b hb i hi c hc
  have hmain : ∀ rest', (∀ r ∈ rest', r ∈ o.residues) → 0 ∉ rest' →
      (seqLoop (0 :: rest') fun r => do
        fwdAll o W? f F r 0 o.A off
        op F r
        bwdAll o Wb F h0 r 0 o.B Off
        if rp then o.padCall Wb else pure ()).Ok mem fun _ m' => I (0 :: rest') m' := by
    intro rest' hsub hn0
    have h0s : (0 : ℕ) ∈ o.residues := by rw [hst]; simp
    obtain ⟨_, m1, hm1, hI1⟩ := step [] 0 mem h0s (fun _ => rfl) (fun h => absurd rfl h)
      ⟨Mem.Upd.refl _ _, hp, hI, Or.inl ⟨rfl, rfl⟩⟩
    have hrest : (seqLoop rest' fun r => do
        fwdAll o W? f F r 0 o.A off
        op F r
        bwdAll o Wb F h0 r 0 o.B Off
        if rp then o.padCall Wb else pure ()).Ok m1 (fun _ m' => I ([0] ++ rest') m') := by
      refine seqLoop_list (fun done m' => I ([0] ++ done) m') hI1 ?_ (fun _ h => h)
      intro l1 r m2 hr hI2
      have := step ([0] ++ l1) r m2 (hsub r hr) (fun hne => by simp at hne) (fun _ h0 => hn0 (h0 ▸ hr)) hI2
      rwa [List.append_assoc] at this
    obtain ⟨_, m2, hm2, hI2⟩ := hrest
    refine ⟨(), m2, ?_, hI2⟩
    simp only [seqLoop, hm1]; exact hm2
  rw [hst]
  refine (hmain rest (fun r hr => by rw [hst]; exact List.mem_cons_of_mem _ hr) h0r).mono ?_
  rintro _ m' ⟨u, p, hI', hv⟩
  refine ⟨u, p, hI', ?_⟩
  rcases hv with ⟨hne, _⟩ | ⟨_, hv⟩
  · simp at hne
  · intro g b hb j hj c hc
    rw [hv g b hb j hj c hc, ← hst]; rfl

/-- The two-pass schedule. -/
theorem loop2_ok (h : v.Spec o padded) (hop : v.OpSpec o op Φ P T Inv)
    {mem : Mem} {f F Fp : PtrArr} {off r : ℕ} {W? : Option Ptr} {rp : Bool} (hrp : rp = W?.isSome)
    (hBA : o.B < o.A) (hdvd : (o.A - o.B) ∣ o.B) (hres : o.residues = [0, r])
    (hFpn : o.A ≤ Fp.n) (hFp : ∀ i < o.A, Fp.at_ i = if i < o.A - o.B then F.at_ (o.B + i) else F.at_ (i - (o.A - o.B)))
    (hw : Work o mem F o.A W?) (hd : v.Dat mem f off o.A F o.A W?) (hap : v.Apart f off o.A)
    (hts : o.TSep F W? T) (hTf : ∀ a < o.A, ¬ T (f.at_ a).buf)
    (hp : FftBase.Pd padded W? mem) (hI : Inv mem) {G : Prop} (hG : G → v.Good o Φ P mem f off) :
    (do fwdAll o W? f F 0 0 o.A off
        op F 0
        seqLoop (rng 0 (o.B / (o.A - o.B))) fun k => do
          fwdAll o W? f Fp r ((o.A - o.B) * k) ((o.A - o.B) * k + (o.A - o.B)) off
          bwdAll o W? F f 0 ((o.A - o.B) * k) ((o.A - o.B) * k + (o.A - o.B)) off
          if rp then o.padCall W? else pure ()
        fwdAll o W? f Fp r ((o.A - o.B) * (o.B / (o.A - o.B))) o.A off
        op Fp r
        bwdAll o W? Fp f r 0 o.B off
        if rp then o.padCall W? else pure () : Cmd Unit).Ok mem fun _ m' =>
      mem.Upd m' (fun p => Wk o F W? T p ∨ ∃ b < o.B, v.D (f.at_ b + off) p) ∧ FftBase.Pd padded W? m' ∧ Inv m' ∧
      (G → ∀ b < o.B, ∀ j < o.L, ∀ c < o.C, v.x m' (f.at_ b + off) j c = v.result o Φ mem f off b j c) := by
  have hmax : max o.A o.B = o.A := max_eq_left hBA.le
  have hr0 : r ≠ 0 := by
    obtain ⟨rest, e1, e2⟩ := h.res0
    rw [hres] at e1
    obtain rfl : [r] = rest := by simpa using e1
    simpa using Ne.symm (by simpa using e2 : ¬ 0 = r)
  have h0s : 0 ∈ o.residues := by rw [hres]; simp
  have hrs : r ∈ o.residues := by rw [hres]; simp
  have hCpos : 0 < o.A - o.B := by omega
  obtain ⟨t, ht⟩ := hdvd
  have hBt : o.B / (o.A - o.B) = t := Nat.div_eq_of_eq_mul_right hCpos ht
  have hwm : Work o mem F (max o.A o.B) W? := by rw [hmax]; exact hw
  have hdm : v.Dat mem f off o.A F (max o.A o.B) W? := by rw [hmax]; exact hd
  -- the permutation of the work arrays
  let σ : ℕ → ℕ := fun i => if i < o.A - o.B then o.B + i else i - (o.A - o.B)
  have hFσ : ∀ i < o.A, Fp.at_ i = F.at_ (σ i) := by
    intro i hi; rw [hFp i hi]; simp only [σ]; split_ifs <;> rfl
  have hσlt : ∀ i < o.A, σ i < o.A := by intro i hi; simp only [σ]; split_ifs <;> omega
  have hσinj : ∀ i < o.A, ∀ j < o.A, σ i = σ j → i = j := by
    intro i hi j hj; simp only [σ]; split_ifs <;> omega
  have hwp : Work o mem Fp o.A W? := by
    refine ⟨hFpn, ?_, ?_, ?_⟩
    · intro a ha a' ha' hne
      rw [hFσ a ha, hFσ a' ha']
      exact hw.sep _ (hσlt a ha) _ (hσlt a' ha') (fun e => hne (hσinj a ha a' ha' e))
    · intro a ha; rw [hFσ a ha]; exact hw.bF _ (hσlt a ha)
    · have := hw.bW
      split_ifs at this ⊢
      · exact this
      · obtain ⟨W, e1, e2, e3⟩ := this
        exact ⟨W, e1, fun a ha => by rw [hFσ a ha]; exact e2 _ (hσlt a ha), e3⟩
  have hdp : v.Dat mem f off o.A Fp o.A W? :=
    ⟨hd.n, hd.bf, fun a ha a' ha' => by rw [hFσ a' ha']; exact hd.fF a ha _ (hσlt a' ha'), hd.fW⟩
  have htsp : o.TSep Fp W? T := by
    refine ⟨?_, hts.W⟩
    rw [hmax]
    intro a ha; rw [hFσ a ha]
    exact hts.F _ (by rw [hmax]; exact hσlt a ha)
  have hapB : v.Apart f off o.B := fun a ha a' ha' => hap a (by omega) a' (by omega)
  have hTB : ∀ b < o.B, ¬ T (f.at_ b).buf := fun b hb => hTf b (by omega)
  have hbF : BackW o F W? W? rp := Or.inl ⟨rfl, hrp⟩
  have hbFp : BackW o Fp W? W? rp := Or.inl ⟨rfl, hrp⟩
  generalize hC : o.A - o.B = C at *
  let R : Ptr → Prop := fun p => Wk o F W? T p ∨ ∃ b < o.B, v.D (f.at_ b + off) p
  have hRF : ∀ a < o.A, ∀ p, InArr (F.at_ a) o.outputSize p → R p := fun a ha p hp =>
    Or.inl (Or.inr (Or.inl ⟨a, by rw [hmax]; exact ha, hp⟩))
  have hRFp : ∀ a < o.A, ∀ p, InArr (Fp.at_ a) o.outputSize p → R p := fun a ha p hp => by
    rw [hFσ a ha] at hp; exact hRF _ (hσlt a ha) p hp
  have hRW : ∀ p, InW o W? p → R p := fun p hp => Or.inl (Or.inr (Or.inr hp))
  -- the invariant of the loop over `k`
  let J : ℕ → Mem → Prop := fun k m1 => mem.Upd m1 R ∧ FftBase.Pd padded W? m1 ∧ Inv m1 ∧
    (G → ∀ b, C * k ≤ b → b < o.B → ∀ i < v.cnt 0, ∀ c < o.C, v.X m1 (F.at_ b) 0 i c =
      Φ 0 i b (v.hat mem f off 0 i) c) ∧
    (G → ∀ a < C * k, ∀ i < v.cnt r, ∀ c < o.C, v.X m1 (Fp.at_ a) r i c = v.hat mem f off r i a c) ∧
    (G → ∀ b < C * k, ∀ j < o.L, ∀ c < o.C, v.x m1 (f.at_ b + off) j c = v.part Φ mem f off 0 b j c) ∧
    (∀ a, C * k ≤ a → a < o.A → ∀ p, v.D (f.at_ a + off) p → m1.val p = mem.val p)
  have hat_eq : ∀ (m1 : Mem) a i, a < o.A → (∀ p, v.D (f.at_ a + off) p → m1.val p = mem.val p) → ∀ c < o.C,
      v.hat m1 f off r i a c = v.hat mem f off r i a c := by
    intro m1 a i ha hv c hc
    exact h.T_congr fun j hj => h.x_congr hv j hj c hc
  have dom_eq : ∀ (m1 : Mem) a, a < o.A → (∀ p, v.D (f.at_ a + off) p → m1.val p = mem.val p) → G → ∀ c < o.C,
      v.dom (fun j => v.x m1 (f.at_ a + off) j c) := by
    intro m1 a ha hv g c hc
    exact h.dom_congr (fun j hj => (h.x_congr hv j hj c hc).symm) ((hG g).1 a ha c hc)
  -- different work arrays
  have hFne : ∀ a < o.A, ∀ a' < o.A, a ≠ a' → ∀ p, InArr (F.at_ a) o.outputSize p → ¬ InArr (F.at_ a') o.outputSize p := by
    intro a ha a' ha' hne p h1 h2
    exact hw.sep a ha a' ha' hne (by rw [← FftBase.inArr_buf h1, FftBase.inArr_buf h2])
  have hFW : ∀ a < o.A, ∀ p, InArr (F.at_ a) o.outputSize p → ¬ InW o W? p := by
    rintro a ha p h1 ⟨W, hW, h2⟩
    exact hw.W_buf W hW a ha (by rw [← FftBase.inArr_buf h1, FftBase.inArr_buf h2])
  have hfF : ∀ a < o.A, ∀ a' < o.A, ∀ p, v.D (f.at_ a + off) p → ¬ InArr (F.at_ a') o.outputSize p := by
    intro a ha a' ha' p h1 h2
    have := h.D_buf h1
    exact hd.fF a ha a' ha' (by rw [← FftBase.inArr_buf h2, this]; simp)
  have hfW : ∀ a < o.A, ∀ p, v.D (f.at_ a + off) p → ¬ InW o W? p := by
    rintro a ha p h1 ⟨W, hW, h2⟩
    have := h.D_buf h1
    exact hd.fW a ha W hW (by rw [← FftBase.inArr_buf h2, this]; simp)
  have hCt : ∀ k, k < t → C * k + C ≤ o.B := by
    intro k hk
    rw [ht]
    have : C * (k + 1) ≤ C * t := Nat.mul_le_mul_left _ hk
    rw [Nat.mul_succ] at this
    exact this
  refine Cmd.Ok.seq2 (fwdOp_ok h hop hwm hdm hts hp hI h0s hG) ?_
  rintro m1 ⟨u1, p1, I1, e1⟩
  refine Cmd.Ok.bind ?_
  rw [hBt]
  refine Fft.seqLoop_rng J ?_ ?_ ?_
  · refine ⟨u1.mono (fun p hp => Or.inl hp), p1, I1, ?_, ?_, ?_, ?_⟩
    · intro g b _ hb i hi c hc; exact e1 g b hb i hi c hc
    · intro _ a ha; simp at ha
    · intro _ a ha; simp at ha
    · intro a _ ha p hp
      exact u1.frame p (data_not_wk h hdm hTf ha hp)
  · rintro k m2 hk ⟨u2, p2, I2, c2, d2, g2, s2⟩
    have hkB := hCt k hk
    refine Cmd.Ok.bind ((fwdAll_ok h (hwp.size u2.size) (hdp.size u2.size) p2 hrs (Nat.le_add_right _ _)
      (by omega) (by omega) (fun g a h1 h2 => dom_eq m2 a (by omega) (s2 a (by omega) (by omega)) g)).mono ?_)
    rintro _ m3 ⟨u3, p3, e3⟩
    have hs3 := u3.size.trans u2.size
    have I3 : Inv m3 := by
      refine hop.inv I2 u3.size fun p hp => u3.frame p ?_
      rintro (⟨a, h1, h2, h3⟩ | ⟨W, hW, h3⟩)
      · exact htsp.F a (by rw [hmax]; omega) (FftBase.inArr_buf h3 ▸ hp)
      · exact hts.W W hW (FftBase.inArr_buf h3 ▸ hp)
    refine (bwdPad_ok h hop.inv (hwm.size hs3) ((hdm.mono hBA.le le_rfl).size hs3) hapB hts hTB hbF p3 I3 h0s
      (Nat.le_add_right _ _) hkB).mono ?_
    rintro _ m4 ⟨u4, p4, I4, e4⟩
    have hmul : C * (k + 1) = C * k + C := Nat.mul_succ _ _
    -- F[b] with b in [Ck, B) is not one of the Fp[a] with a < C(k+1)
    have hσB : ∀ a < C * k + C, ∀ b, C * k ≤ b → b < o.B → σ a ≠ b := by
      intro a ha b hb1 hb2
      simp only [σ]; split_ifs <;> omega
    refine ⟨?_, p4, I4, ?_, ?_, ?_, ?_⟩
    · refine u2.trans (u3.trans u4 (R := R) ?_ ?_) (fun _ h => h) (fun _ h => h)
      · rintro p (⟨a, h1, h2, h3⟩ | h3)
        · exact hRFp a (by omega) p h3
        · exact hRW p h3
      · rintro p (⟨a, h1, h2, h3 | h3⟩ | h3)
        · exact Or.inr ⟨a, by omega, h3⟩
        · exact hRF a (by omega) p h3
        · exact hRW p h3
    · intro g b hb1 hb2 i hi c hc
      rw [hmul] at hb1
      rw [h.X_frame u4 (fun p hin => ?a) h0s hi hc, h.X_frame u3 (fun p hin => ?b) h0s hi hc, c2 g b (by omega) hb2 i hi c hc]
      case b =>
        rintro (⟨a, h1, h2, h3⟩ | h3)
        · rw [hFσ a (by omega)] at h3
          exact hFne b (by omega) (σ a) (hσlt a (by omega)) (fun e => hσB a h2 b (by omega) hb2 e.symm) _ hin h3
        · exact hFW b (by omega) _ hin h3
      case a =>
        rintro (⟨a, h1, h2, h3 | h3⟩ | h3)
        · exact hfF a (by omega) b (by omega) _ h3 hin
        · exact hFne b (by omega) a (by omega) (by omega) _ hin h3
        · exact hFW b (by omega) _ hin h3
    · intro g a ha i hi c hc
      rw [hmul] at ha
      have haA : a < o.A := by omega
      rw [h.X_frame u4 ?_ hrs hi hc]
      · by_cases hak : a < C * k
        · rw [h.X_frame u3 ?_ hrs hi hc, d2 g a hak i hi c hc]
          intro p hin
          have hin' := hin
          rw [hFσ a haA] at hin'
          rintro (⟨a', h1, h2, h3⟩ | h3)
          · rw [hFσ a' (by omega)] at h3
            exact hFne (σ a) (hσlt a haA) (σ a') (hσlt a' (by omega))
              (fun e => by have := hσinj a haA a' (by omega) e; omega) _ hin' h3
          · exact hFW (σ a) (hσlt a haA) _ hin' h3
        · rw [e3 g a (by omega) ha i hi c hc]
          exact hat_eq m2 a _ haA (s2 a (by omega) haA) c hc
      · intro p hin
        have hin' := hin
        rw [hFσ a haA] at hin'
        rintro (⟨a', h1, h2, h3 | h3⟩ | h3)
        · exact hfF a' (by omega) (σ a) (hσlt a haA) _ h3 hin'
        · exact hFne (σ a) (hσlt a haA) a' (by omega) (hσB a ha a' h1 (by omega)) _ hin' h3
        · exact hFW (σ a) (hσlt a haA) _ hin' h3
    · intro g b hb j hj c hc
      rw [hmul] at hb
      by_cases hbk : b < C * k
      · rw [h.x_frame u4 (fun p hdat => ?a) hj hc, h.x_frame u3 (fun p hdat => ?b) hj hc, g2 g b hbk j hj c hc]
        case b =>
          rintro (⟨a, h1, h2, h3⟩ | h3)
          · rw [hFσ a (by omega)] at h3
            exact hfF b (by omega) (σ a) (hσlt a (by omega)) _ hdat h3
          · exact hfW b (by omega) _ hdat h3
        case a =>
          rintro (⟨a, h1, h2, h3 | h3⟩ | h3)
          · exact hap b (by omega) a (by omega) (by omega) _ hdat h3
          · exact hfF b (by omega) a (by omega) _ hdat h3
          · exact hfW b (by omega) _ hdat h3
      · have hX3 : ∀ i < v.cnt 0, v.X m3 (F.at_ b) 0 i c = Φ 0 i b (v.hat mem f off 0 i) c := by
          intro i hi
          rw [h.X_frame u3 (fun p hin => ?_) h0s hi hc, c2 g b (by omega) (by omega) i hi c hc]
          rintro (⟨a, h1, h2, h3⟩ | h3)
          · rw [hFσ a (by omega)] at h3
            exact hFne b (by omega) (σ a) (hσlt a (by omega)) (fun e => hσB a h2 b (by omega) (by omega) e.symm) _ hin h3
          · exact hFW b (by omega) _ hin h3
        rw [e4 b (by omega) hb j hj c hc (h.kdom_congr (fun i hi => (hX3 i hi).symm) ((hG g).3 0 h0s b (by omega) c hc)), if_pos rfl, zero_add]
        exact h.K_congr hX3
    · intro a ha1 ha2 p hp
      rw [hmul] at ha1
      rw [u4.frame, u3.frame, s2 a (by omega) ha2 p hp]
      · rintro (⟨a', h1, h2, h3⟩ | h3)
        · rw [hFσ a' (by omega)] at h3
          exact hfF a ha2 (σ a') (hσlt a' (by omega)) _ hp h3
        · exact hfW a ha2 _ hp h3
      · rintro (⟨a', h1, h2, h3 | h3⟩ | h3)
        · exact hap a ha2 a' (by omega) (by omega) _ hp h3
        · exact hfF a ha2 a' (by omega) _ hp h3
        · exact hfW a ha2 _ hp h3
  · rintro m2 ⟨u2, p2, I2, c2, d2, g2, s2⟩
    rw [← ht] at d2 g2 s2 ⊢
    refine Cmd.Ok.bind ((fwdAll_ok h (hwp.size u2.size) (hdp.size u2.size) p2 hrs hBA.le le_rfl le_rfl
      (fun g a h1 h2 => dom_eq m2 a h2 (s2 a h1 h2) g)).mono ?_)
    rintro _ m3 ⟨u3, p3, e3⟩
    have hs3 := u3.size.trans u2.size
    have I3 : Inv m3 := by
      refine hop.inv I2 u3.size fun p hp => u3.frame p ?_
      rintro (⟨a, h1, h2, h3⟩ | ⟨W, hW, h3⟩)
      · exact htsp.F a (by rw [hmax]; omega) (FftBase.inArr_buf h3 ▸ hp)
      · exact hts.W W hW (FftBase.inArr_buf h3 ▸ hp)
    have hwp3 : Work o m3 Fp (max o.A o.B) W? := by rw [hmax]; exact hwp.size hs3
    refine Cmd.Ok.bind ((hop.ok hrs I3 hwp3.n hwp3.bF hwp3.sep htsp.F).mono ?_)
    rintro _ m4 ⟨I4, u4, e4⟩
    have hs4 := u4.size.trans hs3
    have p4 : FftBase.Pd padded W? m4 := by
      intro W hW
      refine h.pad_frame ?_ (p3 W hW)
      intro i _
      refine u4.frame _ ?_
      rintro (h3 | ⟨a, ha, h3⟩)
      · exact hts.W W hW (by simpa using h3)
      · rw [hmax] at ha
        exact hwp.W_buf W hW a ha (by simpa using FftBase.inArr_buf h3)
    have hdpm : v.Dat m4 f off o.B Fp (max o.A o.B) W? := by rw [hmax]; exact (hdp.size hs4).mono hBA.le le_rfl
    have hwp4 : Work o m4 Fp (max o.A o.B) W? := by rw [hmax]; exact hwp.size hs4
    refine (bwdPad_ok h hop.inv hwp4 hdpm hapB htsp hTB hbFp p4 I4 hrs (Nat.zero_le _) le_rfl).mono ?_
    rintro _ m5 ⟨u5, p5, I5, e5⟩
    refine ⟨?_, p5, I5, ?_⟩
    · refine u2.trans (u3.trans (u4.trans u5 (R := R) ?_ ?_) (R := R) ?_ (fun _ h => h)) (fun _ h => h) (fun _ h => h)
      · rintro p (h3 | ⟨a, ha, h3⟩)
        · exact Or.inl (Or.inl h3)
        · rw [hmax] at ha; exact hRFp a ha p h3
      · rintro p (⟨a, h1, h2, h3 | h3⟩ | h3)
        · exact Or.inr ⟨a, h2, h3⟩
        · exact hRFp a (by omega) p h3
        · exact hRW p h3
      · rintro p (⟨a, h1, h2, h3⟩ | h3)
        · exact hRFp a h2 p h3
        · exact hRW p h3
    · intro g b hb j hj c hc
      have key : ∀ i < v.cnt r, ∀ a < o.A, ∀ c < o.C, v.X m3 (Fp.at_ a) r i c = v.hat mem f off r i a c := by
        intro i hi a ha c hc
        by_cases haB : a < o.B
        · rw [h.X_frame u3 (fun p hin => ?_) hrs hi hc, d2 g a haB i hi c hc]
          have hin' := hin
          rw [hFσ a ha] at hin'
          rintro (⟨a', h1, h2, h3⟩ | h3)
          · rw [hFσ a' h2] at h3
            exact hFne (σ a) (hσlt a ha) (σ a') (hσlt a' h2)
              (fun e => by have := hσinj a ha a' h2 e; omega) _ hin' h3
          · exact hFW (σ a) (hσlt a ha) _ hin' h3
        · rw [e3 g a (by omega) ha i hi c hc]
          exact hat_eq m2 a _ ha (s2 a (by omega) ha) c hc
      have hX4 : ∀ i < v.cnt r, v.X m4 (Fp.at_ b) r i c = Φ r i b (v.hat mem f off r i) c := by
        intro i hi
        rw [e4 (fun i hi => hop.pcongr _ _ _ _ (fun a ha c hc => (key i hi a ha c hc).symm) ((hG g).2 r hrs i hi)) b hb i hi c hc]
        exact hop.congr _ _ _ _ _ (key i hi) c hc
      rw [e5 b (Nat.zero_le _) hb j hj c hc (h.kdom_congr (fun i hi => (hX4 i hi).symm) ((hG g).3 r hrs b hb c hc)), if_neg hr0, result, hres]
      simp only [List.map_cons, List.map_nil, List.sum_cons, List.sum_nil, add_zero]
      congr 1
      · rw [h.x_frame u4 (fun p hdat => ?aa) hj hc, h.x_frame u3 (fun p hdat => ?bb) hj hc, g2 g b hb j hj c hc]
        case bb =>
          rintro (⟨a, h1, h2, h3⟩ | h3)
          · rw [hFσ a h2] at h3
            exact hfF b (by omega) (σ a) (hσlt a h2) _ hdat h3
          · exact hfW b (by omega) _ hdat h3
        case aa =>
          rintro (h3 | ⟨a, ha, h3⟩)
          · have := h.D_buf hdat
            rw [Ptr.add_buf] at this
            exact hTB b hb (by rw [← this]; exact h3)
          · rw [hmax] at ha
            rw [hFσ a ha] at h3
            exact hfF b (by omega) (σ a) (hσlt a ha) _ hdat h3
      · exact h.K_congr hX4

end View
end Fftwpp
