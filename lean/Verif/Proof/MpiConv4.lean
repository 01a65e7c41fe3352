import Verif.Proof.MpiConv3

/-!
# The residue loop of the distributed convolution
-/

namespace Fftwpp
open Finset Net

variable {P X Y optA alltoall : ℕ} {M : ℕ → Conv2MPI} {x0 : ℤ} {pdx : ℕ → Mem → Ptr → Prop} {L N A B : ℕ} {res : List ℕ} {ix : ℕ → ℕ → ℕ}
  {e : Eager} {g : ℕ → Mem}

namespace DConv
variable {sch : ℕ → ℕ → Sch} {Φ : ℕ → ℕ → (ℕ → ℕ → ℂ) → ℕ → ℂ} {T : ℕ → ℕ → Prop} {Inv : ℕ → Mem → Prop} {Dm : (ℕ → ℕ → ℂ) → Prop}

theorem sum_partD (hd : DConv P X Y optA alltoall M x0 pdx L N A B res ix) (D : ℕ → ℕ → ℕ → ℂ) (b j c : ℕ) :
    (res.map fun rx => partD L N x0 X ix Φ D rx b j c).sum =
      ∑ e' ∈ range N, Φ e' b (fun a c => hatD L N x0 D e' a c) c * w N (-(((j : ℤ) - x0) * (e' : ℤ))) := by
  have := (hd.sp 0 hd.P_pos).sum fun e' => Φ e' b (fun a c => hatD L N x0 D e' a c) c * w N (-(((j : ℤ) - x0) * (e' : ℤ)))
  rw [hd.res 0 hd.P_pos, hd.N 0 hd.P_pos, hd.ix 0 hd.P_pos] at this
  rw [← this]
  congr 1
  refine List.map_congr_left fun rx hrx => ?_
  unfold partD
  rw [hd.nout 0 hd.P_pos rx hrx]

/-- `forward` of all inputs, then `subconvolution`. -/
theorem fwdSub_ok (hd : DConv P X Y optA alltoall M x0 pdx L N A B res ix) (hS : SubSpec P X Y M A B res ix sch Φ T Inv Dm) {F f : ℕ → PtrArr}
    {off : ℕ → ℕ} (hc : Ctx P X Y M A B g F) (hT : TCtx P M A B F T) (hf : DCtx P M A B F T g f off A)
    (hp : ∀ r < P, FftBase.Pd (pdx r) (M r).c.x.W (g r)) (hI : ∀ r < P, Inv r (g r)) {rx : ℕ} (hrx : rx ∈ res) {D : ℕ → ℕ → ℕ → ℂ}
    (hD : ∀ a < A, Holds P Y L g f off D a) :
    NOk e P (fun r => ((M r).forward (f r) (F r) rx 0 A (off r)).bind fun _ => (M r).subconvolution (sch r rx) [] (F r) rx 0) g fun g' =>
      (∃ G : ℕ → ℕ → ℕ → ℂ, (∀ b, Rows X Y P g' (fun r => (F r).at_ b) (G b)) ∧
        (GoodD Dm L N x0 D → ∀ b < B, ∀ i < X, ∀ c < Y, G b i c = Φ (ix rx i) b (fun a c => hatD L N x0 D (ix rx i) a c) c)) ∧
      (∀ r < P, FftBase.Pd (pdx r) (M r).c.x.W (g' r)) ∧ (∀ r < P, Inv r (g' r)) ∧
      ∀ r < P, (g r).Upd (g' r) fun p => WB A B M F T r p.buf := by
  have hAM : ∀ a < A, a < max A B := fun a ha => lt_of_lt_of_le ha (le_max_left _ _)
  refine NOk.bind (hd.fwd_ok hc (fun r hr => hf.dat hr) hf.wrk hp hrx (Nat.zero_le _) le_rfl fun a _ ha => hD a ha) ?_
  rintro g1 ⟨e1, p1, u1⟩
  have hs1 : ∀ r < P, (g1 r).size = (g r).size := fun r hr => (u1 r hr).size
  have hI1 : ∀ r < P, Inv r (g1 r) := by
    intro r hr
    refine hS.inv r hr _ _ (hI r hr) (hs1 r hr) fun p hp => (u1 r hr).frame p ?_
    rintro (⟨a, _, h2, h3 | h3⟩ | ⟨W, hW, h3⟩)
    · exact hT.F r hr a (hAM a h2) (h3 ▸ hp)
    · exact hT.w r hr a (hAM a h2) (h3 ▸ hp)
    · exact hT.W r hr W hW (FftBase.inArr_buf h3 ▸ hp)
  refine (hd.sub_ok hS (hc.size hs1) (fun r hr a ha => hT.F r hr a (hAM a ha)) hI1 hrx (fun a ha => e1 a (Nat.zero_le _) ha)).mono ?_
  rintro g2 ⟨⟨G, hGr, e2⟩, I2, u2⟩
  refine ⟨⟨G, hGr, fun h => e2 fun i => h (ix rx i)⟩, ?_, I2, ?_⟩
  · intro r hr W hW
    refine (hd.sp r hr).pad_frame ?_ (p1 r hr W hW)
    intro i _
    refine (u2 r hr).frame _ ?_
    rintro (h3 | ⟨a, ha, h3⟩)
    · exact hT.W r hr W hW (by simpa using h3)
    · exact (hc.work r hr).W_buf W hW a (hAM a ha) (by simpa using h3)
  · intro r hr
    refine (u1 r hr).trans (u2 r hr) ?_ ?_
    · rintro p (⟨a, _, h2, h3⟩ | ⟨W, hW, h3⟩)
      · exact Or.inr (Or.inl ⟨a, hAM a h2, h3⟩)
      · exact Or.inr (Or.inr ⟨W, hW, FftBase.inArr_buf h3⟩)
    · rintro p (h3 | ⟨a, ha, h3⟩)
      · exact Or.inl h3
      · exact Or.inr (Or.inl ⟨a, hAM a ha, Or.inl h3⟩)

/-- `backward` of outputs `start..stop`, with the invariant of the inner convolutions. -/
theorem bwdInv_ok (hd : DConv P X Y optA alltoall M x0 pdx L N A B res ix) (hS : SubSpec P X Y M A B res ix sch Φ T Inv Dm) {F h0 : ℕ → PtrArr}
    {Off : ℕ → ℕ} (hc : Ctx P X Y M A B g F) (hT : TCtx P M A B F T) (hh : DCtx P M A B F T g h0 Off B)
    (hp : ∀ r < P, FftBase.Pd (pdx r) (M r).c.x.W (g r)) (hI : ∀ r < P, Inv r (g r)) {rx start stop : ℕ} (hrx : rx ∈ res)
    (hss : start ≤ stop) (hsB : stop ≤ B) {W0 : ℕ → Option Ptr} (hW0 : ∀ r < P, W0 r = (M r).c.x.W)
    {G : ℕ → ℕ → ℕ → ℂ} (hG : ∀ b, start ≤ b → b < stop → Rows X Y P g (fun r => (F r).at_ b) (G b)) :
    NOk e P (fun r => (M r).backward (F r) (h0 r) rx start stop (Off r) (W0 r)) g fun g' =>
      (∀ r < P, FftBase.Pd (pdx r) (M r).c.x.W (g' r)) ∧ (∀ r < P, Inv r (g' r)) ∧
      (∀ r < P, (g r).Upd (g' r) (fun p => (∃ b, start ≤ b ∧ b < stop ∧ ((M r).c.x.fft.Data ((h0 r).at_ b + Off r) p ∨
        p.buf = ((F r).at_ b).buf ∨ p.buf = ((M r).wrk b).buf)) ∨ (M r).c.x.fft.InW (M r).c.x.W p)) ∧
      ∀ r < P, ∀ b, start ≤ b → b < stop → ∀ j < L, ∀ c < part Y P r, (g' r).val ((h0 r).at_ b + Off r + (part Y P r * j + c)) =
        (if rx = 0 then 0 else (g r).val ((h0 r).at_ b + Off r + (part Y P r * j + c))) +
        ∑ i ∈ range X, G b i (first Y P r + c) * w N (-(((j : ℤ) - x0) * (ix rx i : ℤ))) := by
  refine (hd.bwd_ok hc (fun r hr => hh.dat hr) hh.apart hh.wrk hp hrx hss hsB hW0 hG).mono ?_
  rintro g' ⟨p1, u1, e1⟩
  refine ⟨p1, ?_, u1, e1⟩
  intro r hr
  refine hS.inv r hr _ _ (hI r hr) (u1 r hr).size fun p hp => (u1 r hr).frame p ?_
  rintro (⟨b, _, h2, h3 | h3 | h3⟩ | ⟨W, hW, h3⟩)
  · exact hh.not_T r hr b (by omega) (by have := FftBase.data_buf h3; rw [this] at hp; simpa using hp)
  · exact hT.F r hr b (lt_of_lt_of_le (by omega) (le_max_right _ _)) (h3 ▸ hp)
  · exact hT.w r hr b (lt_of_lt_of_le (by omega) (le_max_right _ _)) (h3 ▸ hp)
  · exact hT.W r hr W hW (FftBase.inArr_buf h3 ▸ hp)

theorem bwd_frame {F h0 : ℕ → PtrArr} {Off : ℕ → ℕ} {start stop : ℕ} (hsB : stop ≤ B) {r : ℕ} {p : Ptr}
    (h : (∃ b, start ≤ b ∧ b < stop ∧ ((M r).c.x.fft.Data ((h0 r).at_ b + Off r) p ∨
        p.buf = ((F r).at_ b).buf ∨ p.buf = ((M r).wrk b).buf)) ∨ (M r).c.x.fft.InW (M r).c.x.W p) :
    WB A B M F T r p.buf ∨ ∃ b < B, (M r).c.x.fft.Data ((h0 r).at_ b + Off r) p := by
  rcases h with ⟨b, _, h2, h3 | h3⟩ | ⟨W, hW, h3⟩
  · exact Or.inr ⟨b, by omega, h3⟩
  · exact Or.inl (Or.inr (Or.inl ⟨b, lt_of_lt_of_le (by omega) (le_max_right _ _), h3⟩))
  · exact Or.inl (Or.inr (Or.inr ⟨W, hW, FftBase.inArr_buf h3⟩))

/-- One pass of the residue loop. -/
theorem pass_ok (hd : DConv P X Y optA alltoall M x0 pdx L N A B res ix) (hS : SubSpec P X Y M A B res ix sch Φ T Inv Dm) {F f h0 : ℕ → PtrArr}
    {off Off : ℕ → ℕ} (hc : Ctx P X Y M A B g F) (hT : TCtx P M A B F T) (hf : DCtx P M A B F T g f off A) (hh : DCtx P M A B F T g h0 Off B)
    (hp : ∀ r < P, FftBase.Pd (pdx r) (M r).c.x.W (g r)) (hI : ∀ r < P, Inv r (g r)) {rx : ℕ} (hrx : rx ∈ res) {D : ℕ → ℕ → ℕ → ℂ}
    (hD : ∀ a < A, Holds P Y L g f off D a) :
    NOk e P (fun r => ((M r).forward (f r) (F r) rx 0 A (off r)).bind fun _ => ((M r).subconvolution (sch r rx) [] (F r) rx 0).bind fun _ =>
        (M r).backward (F r) (h0 r) rx 0 B (Off r) (M r).c.x.W) g fun g' =>
      (∀ r < P, FftBase.Pd (pdx r) (M r).c.x.W (g' r)) ∧ (∀ r < P, Inv r (g' r)) ∧
      (∀ r < P, (g r).Upd (g' r) fun p => WB A B M F T r p.buf ∨ ∃ b < B, (M r).c.x.fft.Data ((h0 r).at_ b + Off r) p) ∧
      (GoodD Dm L N x0 D → ∀ r < P, ∀ b < B, ∀ j < L, ∀ c < part Y P r, (g' r).val ((h0 r).at_ b + Off r + (part Y P r * j + c)) =
        (if rx = 0 then 0 else (g r).val ((h0 r).at_ b + Off r + (part Y P r * j + c))) +
          partD L N x0 X ix Φ D rx b j (first Y P r + c)) := by
  refine NOk.congr (x := fun r => (((M r).forward (f r) (F r) rx 0 A (off r)).bind fun _ =>
    (M r).subconvolution (sch r rx) [] (F r) rx 0).bind fun _ => (M r).backward (F r) (h0 r) rx 0 B (Off r) (M r).c.x.W) ?_
    fun r _ => (Prog.bind_assoc _).symm
  refine NOk.bind (hd.fwdSub_ok hS hc hT hf hp hI hrx hD) ?_
  rintro g1 ⟨⟨G, e1, hGe⟩, p1, I1, u1⟩
  have hs1 : ∀ r < P, (g1 r).size = (g r).size := fun r hr => (u1 r hr).size
  refine (hd.bwdInv_ok hS (hc.size hs1) hT (hh.size hs1) p1 I1 hrx (Nat.zero_le _) le_rfl (fun r _ => rfl) (fun b _ _ => e1 b)).mono ?_
  rintro g2 ⟨p2, I2, u2, e2⟩
  refine ⟨p2, I2, fun r hr => (u1 r hr).trans (u2 r hr) (fun p hp => Or.inl hp) (fun p hp => bwd_frame le_rfl hp), ?_⟩
  intro hgd r hr b hb j hj c hcc
  rw [e2 r hr b (Nat.zero_le _) hb j hj c hcc]
  congr 1
  · by_cases h0' : rx = 0
    · rw [if_pos h0', if_pos h0']
    · rw [if_neg h0', if_neg h0']
      refine (u1 r hr).frame _ fun h3 => hh.buf r hr b hb (by simpa using h3)
  · unfold partD
    refine sum_congr rfl fun i hi => ?_
    rw [hGe hgd b hb i (mem_range.1 hi) _ (first_lt hd.P_pos hr hcc)]

/-- The residue loop. -/
theorem loop_ok (hd : DConv P X Y optA alltoall M x0 pdx L N A B res ix) (hS : SubSpec P X Y M A B res ix sch Φ T Inv Dm) {F f h0 : ℕ → PtrArr}
    {off Off : ℕ → ℕ} (hc : Ctx P X Y M A B g F) (hT : TCtx P M A B F T) (hf : DCtx P M A B F T g f off A) (hh : DCtx P M A B F T g h0 Off B)
    (hfh : res = [0] ∨ ∀ r < P, ∀ a < A, ∀ b < B, ((f r).at_ a).buf ≠ ((h0 r).at_ b).buf)
    (hp : ∀ r < P, FftBase.Pd (pdx r) (M r).c.x.W (g r)) (hI : ∀ r < P, Inv r (g r)) {D : ℕ → ℕ → ℕ → ℂ}
    (hD : ∀ a < A, Holds P Y L g f off D a) :
    NOk e P (fun r => Prog.loop res fun rx => ((M r).forward (f r) (F r) rx 0 A (off r)).bind fun _ =>
        ((M r).subconvolution (sch r rx) [] (F r) rx 0).bind fun _ => (M r).backward (F r) (h0 r) rx 0 B (Off r) (M r).c.x.W) g fun g' =>
      (∀ r < P, FftBase.Pd (pdx r) (M r).c.x.W (g' r)) ∧ (∀ r < P, Inv r (g' r)) ∧
      (∀ r < P, (g r).Upd (g' r) fun p => WB A B M F T r p.buf ∨ ∃ b < B, (M r).c.x.fft.Data ((h0 r).at_ b + Off r) p) ∧
      (GoodD Dm L N x0 D → ∀ r < P, ∀ b < B, ∀ j < L, ∀ c < part Y P r, (g' r).val ((h0 r).at_ b + Off r + (part Y P r * j + c)) =
        ∑ e' ∈ range N, Φ e' b (fun a c => hatD L N x0 D e' a c) (first Y P r + c) * w N (-(((j : ℤ) - x0) * (e' : ℤ)))) := by
  obtain ⟨rest, hst, h0r⟩ := (hd.sp 0 hd.P_pos).res0
  rw [hd.res 0 hd.P_pos] at hst
  refine NOk.loop (fun done g1 => (∀ r < P, FftBase.Pd (pdx r) (M r).c.x.W (g1 r)) ∧ (∀ r < P, Inv r (g1 r)) ∧
      (∀ r < P, (g r).Upd (g1 r) fun p => WB A B M F T r p.buf ∨ ∃ b < B, (M r).c.x.fft.Data ((h0 r).at_ b + Off r) p) ∧
      ((done = [] ∧ g1 = g) ∨ (done ≠ [] ∧ (GoodD Dm L N x0 D → ∀ r < P, ∀ b < B, ∀ j < L, ∀ c < part Y P r, (g1 r).val ((h0 r).at_ b + Off r + (part Y P r * j + c)) =
        (done.map fun rx => partD L N x0 X ix Φ D rx b j (first Y P r + c)).sum))))
    ⟨hp, hI, fun r _ => Mem.Upd.refl _ _, Or.inl ⟨rfl, rfl⟩⟩ ?_ ?_
  · rintro l1 rx l2 g1 hl ⟨p1, I1, u1, e1⟩
    have hs1 : ∀ r < P, (g1 r).size = (g r).size := fun r hr => (u1 r hr).size
    have hrx : rx ∈ res := by rw [hl]; simp
    have hz : l1 = [] ↔ rx = 0 := by
      rw [hst] at hl
      cases l1 with
      | nil => simp at hl; simp [hl.1]
      | cons x l1 =>
        simp only [List.cons_append, List.cons.injEq] at hl
        refine ⟨fun h => by simp at h, ?_⟩
        rintro rfl
        exact absurd (by rw [hl.2]; simp : 0 ∈ rest) h0r
    have hD1 : ∀ a < A, Holds P Y L g1 f off D a := by
      intro a ha
      rcases e1 with ⟨_, rfl⟩ | ⟨hne, _⟩
      · exact hD a ha
      · have hfh' : ∀ r < P, ∀ a < A, ∀ b < B, ((f r).at_ a).buf ≠ ((h0 r).at_ b).buf := by
          rcases hfh with h1 | h1
          · rw [h1] at hrx
            exact absurd (hz.2 (by simpa using hrx)) hne
          · exact h1
        refine (hD a ha).frame u1 ?_
        rintro r hr n (h3 | ⟨b, hb, h3⟩)
        · exact hf.buf r hr a ha (by simpa using h3)
        · exact hfh' r hr a ha b hb (by simpa using FftBase.data_buf h3)
    refine (hd.pass_ok hS (hc.size hs1) hT (hf.size hs1) (hh.size hs1) p1 I1 hrx hD1).mono ?_
    rintro g2 ⟨p2, I2, u2, e2⟩
    refine ⟨p2, I2, fun r hr => (u1 r hr).trans (u2 r hr) (fun _ h => h) (fun _ h => h), Or.inr ⟨by simp, ?_⟩⟩
    intro hgd r hr b hb j hj c hcc
    rw [e2 hgd r hr b hb j hj c hcc, List.map_append, List.sum_append]
    congr 1
    · by_cases hr0 : rx = 0
      · rw [if_pos hr0, hz.2 hr0]; simp
      · rw [if_neg hr0]
        rcases e1 with ⟨hne, _⟩ | ⟨_, e1⟩
        · exact absurd (hz.1 hne) hr0
        · exact e1 hgd r hr b hb j hj c hcc
    · simp
  · rintro g' ⟨p1, I1, u1, e1⟩
    refine ⟨p1, I1, u1, ?_⟩
    rcases e1 with ⟨hne, _⟩ | ⟨_, e1⟩
    · rw [hst] at hne; simp at hne
    · intro hgd r hr b hb j hj c hcc
      rw [e1 hgd r hr b hb j hj c hcc, hd.sum_partD]

end DConv
end Fftwpp
