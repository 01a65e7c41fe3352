import Verif.Proof.CFInner4
import Verif.Proof.CF2Many

/-! `fftPadCentered::forwardInnerMany`. -/

namespace Fftwpp
namespace Cent
open Finset ComplexConjugate
open Fft (kpair seqLoop_rng)
variable {o : Cent}

/-- The transforms of `K` rows of columns. -/
theorem rows_cols {m C S K : ℕ} (hCS : C ≤ S) (sgn : ℤ) {inpl : Bool} {A B : Ptr} {mem : Mem} (sep : SepPtr inpl A B)
    (hA : ∀ i < m * K, ∀ c < C, mem.valid (A + (S * i + c))) (hB : ∀ i < m * K, ∀ c < C, mem.valid (B + (S * i + c)))
    {Q : Unit → Mem → Prop}
    (hQ : ∀ m', mem.Upd m' (fun p => ∃ i < m * K, ∃ c < C, p = B + (S * i + c)) →
      (∀ t < K, ∀ s < m, ∀ c < C, m'.val (B + (S * (m * t + s) + c)) =
        ∑ j ∈ range m, mem.val (A + (S * (m * t + j) + c)) * w m (sgn * j * s)) → Q () m') :
    (seqLoop (rng 0 K) fun t => (Plan.mk m sgn C S 1 inpl).exec (A + S * m * t) (B + S * m * t)).Ok mem Q := by
  have hadr : ∀ t s c, S * m * t + (S * s + c) = S * (m * t + s) + c := fun t s c => by ring
  have hni : ∀ (X Y : Ptr) k t s c, X = Y ∨ X.buf ≠ Y.buf → s < m → c < C → t ≠ k →
      ¬ ∃ i < m, ∃ c' < C, X + (S * (m * t + s) + c) = Y + (S * (m * k + i) + c') := by
    rintro X Y k t s c hXY hs hc hk ⟨i, hi, c', hc', h3⟩
    rcases hXY with rfl | hb
    · rw [Ptr.add_inj] at h3
      have h1 := radix_inj (by omega) (by omega) h3
      have h2 := radix_inj (by omega) (by omega) h1.1
      omega
    · exact hb (by simpa using congrArg Ptr.buf h3)
  refine seqLoop_rng (fun k m' => mem.Upd m' (fun p => ∃ i < m * K, ∃ c < C, p = B + (S * i + c)) ∧
      (∀ t < k, ∀ s < m, ∀ c < C, m'.val (B + (S * (m * t + s) + c)) =
        ∑ j ∈ range m, mem.val (A + (S * (m * t + j) + c)) * w m (sgn * j * s)) ∧
      (∀ t < K, k ≤ t → ∀ s < m, ∀ c < C, m'.val (A + (S * (m * t + s) + c)) = mem.val (A + (S * (m * t + s) + c))))
      ⟨Mem.Upd.refl _ _, fun t ht => by omega, fun _ _ _ _ _ _ _ => rfl⟩ ?_ ?_
  · rintro k m2 hk ⟨u2, e2, w2⟩
    have hv : ∀ p : Ptr, (∀ i < m * K, ∀ c < C, mem.valid (p + (S * i + c))) →
        ∀ i < m, ∀ c < C, m2.valid (p + S * m * k + (S * i + c)) := by
      intro p hp i hi c hc
      rw [Ptr.add_add, hadr]
      exact Mem.valid_of_size u2.size (hp _ (radix_lt hi hk) c hc)
    have hsep : SepPtr inpl (A + S * m * k) (B + S * m * k) := by
      rcases sep with ⟨h1, h2⟩ | ⟨h1, h2⟩
      · exact Or.inl ⟨h1, by rw [h2]⟩
      · exact Or.inr ⟨h1, by simpa using h2⟩
    refine exec_cols hCS hsep (hv A hA) (hv B hB) ?_
    intro m3 u3 e3
    simp only [Ptr.add_add, hadr] at u3 e3
    refine ⟨u2.trans u3 (fun _ h => h) ?_, ?_, ?_⟩
    · rintro p ⟨s, hs, c, hc, rfl⟩; exact ⟨_, radix_lt hs hk, c, hc, rfl⟩
    · intro t ht s hs c hc
      rcases Nat.lt_or_ge t k with h1 | h1
      · rw [u3.frame _ (hni B B k t s c (Or.inl rfl) hs hc (by omega)), e2 t h1 s hs c hc]
      · obtain rfl : t = k := by omega
        rw [e3 s hs c hc]
        refine sum_congr rfl fun s' hs' => ?_
        rw [mem_range] at hs'
        rw [w2 t hk le_rfl s' hs' c hc]
    · intro t ht hkt s hs c hc
      rw [u3.frame _ (hni A B k t s c (sep.imp (fun h => h.2) (fun h => h.2)) hs hc (by omega)), w2 t ht (by omega) s hs c hc]
  · rintro m2 ⟨u2, e2, _⟩
    exact hQ m2 u2 e2

theorem WF.PD (h : o.WF) (hS : o.S ≠ 1) : o.P * o.D = o.P := by rw [h.D_one hS, Nat.mul_one]

theorem WF.resI (h : o.WF) (hS : o.S ≠ 1) {r : ℕ} (hv : o.Visit r) {u : ℕ} (hu : u < o.P) : o.res r u = o.n * u + r := by
  unfold res
  rw [Nat.mod_eq_of_lt hu, Nat.div_eq_of_lt hu, (h.sigM (h.D_one hS) hv).1]

theorem WF.rowsI (h : o.WF) (hS : o.S ≠ 1) (r : ℕ) : o.rows r = o.P := by
  unfold rows
  have h1 := h.D_one hS
  have h2 := h.D0_eq_one h1
  unfold blks; split_ifs
  · rw [h2, Nat.mul_one]
  · rw [h1, Nat.mul_one]

/-- The transforms of the rows complete `forwardInnerMany`. -/
theorem finish_inner (h : o.WF) (hS : o.S ≠ 1) {mem m1 : Mem} {f F W : Ptr} {r : ℕ}
    (pre : o.Pre mem f F W) (hv : o.Visit r)
    (f1 : Fills mem m1 (o.RF 1) (o.dF fun _ => W) (o.WT (fun c j => mem.val (f + (o.S * j + c))) fun _ => r) (fun _ => True)) :
    (seqLoop (rng 0 o.P) fun t => o.fftm.exec (W + o.Sm * t) (F + o.Sm * t)).Ok m1 (fun _ m' => o.FwdPost mem m' f F W r) := by
  have hPD := h.PD hS
  have vF := pre.vF
  have vW := pre.vW
  rw [hPD] at vF vW
  rw [(h.fftm_many hS).1, h.Sm_eq]
  refine rows_cols h.C_le_S 1 pre.sep (fun i hi c hc => f1.valid (vW i hi c hc)) (fun i hi c hc => f1.valid (vF i hi c hc)) ?_
  intro m2 u2 e2
  refine ⟨f1.upd.trans u2 ?_ ?_, ?_⟩
  · rintro p ⟨⟨d, t, s, c⟩, ⟨h1, h2, h3, h4⟩, rfl⟩
    rw [hPD]
    exact Or.inr ⟨_, radix_lt h3 h2, c, h4, rfl⟩
  · rintro p ⟨i, hi, c, hc, rfl⟩
    rw [hPD]
    exact Or.inl ⟨i, hi, c, hc, rfl⟩
  · intro ρ hρ s hs c hc
    rw [h.rowsI hS] at hρ
    obtain ⟨g1, g2, g3⟩ := h.H_facts
    rw [h.resI hS hv hρ, e2 ρ hρ s hs c hc, ← row_fftc h.M_eq (by have := h.q_pos; omega) g1 g2 g3]
    refine sum_congr rfl fun j hj => ?_
    have := f1.got (0, ρ, j, c) ⟨Nat.one_pos, hρ, mem_range.1 hj, hc⟩ trivial
    unfold dF WT at this
    simp only at this
    rw [this]

/-- Addresses in the routines for many copies. -/
theorem WF.adr (h : o.WF) (s c t : ℕ) : o.S * o.H + (o.S * s + c) = o.S * (o.H + s) + c ∧
    t * o.Sm + (o.S * s + c) = o.S * (o.m * t + s) + c ∧
    o.S * o.H + (t * o.Sm + (o.S * s + c)) = o.S * (o.H + (o.m * t + s)) + c ∧
    o.S * (o.m * t) + (o.S * s + c) = o.S * (o.m * t + s) + c ∧
    o.Sm * t + (o.S * s + c) = o.S * (o.m * t + s) + c := by
  rw [h.Sm_eq]; refine ⟨?_, ?_, ?_, ?_, ?_⟩ <;> ring

theorem sub_adr {f : Ptr} {i c : ℕ} (hi : o.m0 ≤ i) : f - o.S * o.m0 + (o.S * i + c) = f + (o.S * (i - o.m0) + c) := by
  have h1 : o.S * o.m0 ≤ o.S * i := Nat.mul_le_mul_left _ hi
  rw [Ptr.sub_add (by omega), Nat.mul_sub o.S i]
  congr 1; omega

theorem forwardInnerMany_ok (h : o.WF) (hp : 2 < o.p) (hS : o.S ≠ 1) {f F W : Ptr} {mem : Mem} {r : ℕ}
    {W? : Option Ptr} (hW : W?.getD F = W) (pre : o.Pre mem f F W) (hv : o.Visit r) :
    (o.forwardInnerMany f F r W?).Ok mem (fun _ m' => o.FwdPost mem m' f F W r) := by
  obtain ⟨g1, g2, g3, g4, g5, g6, g7, g8, g9, g10⟩ := h.geoI hp
  obtain ⟨z1, z2, z3, z4⟩ := h.szI hp
  have hm := h.m_pos
  have hb := pre.fW
  have hf := pre.vf
  have hPD := h.PD hS
  have vW := pre.vW
  rw [hPD] at vW
  obtain ⟨hsig, hrn⟩ := h.sigM (h.D_one hS) hv
  have hWv : ∀ x, o.RF 1 x → mem.valid (o.dF (fun _ => W) x) := by
    rintro ⟨d, t, s, c⟩ ⟨_, h2, h3, h4⟩
    exact vW _ (radix_lt h3 h2) c h4
  have hrd : ∀ i : ℕ, ∀ x, o.RF 1 x → f + i ≠ o.dF (fun _ => W) x := rd_f (fun _ => rfl) hb
  have hfv : ∀ {m' k}, Same mem m' (o.RF 1) (o.dF fun _ => W) k → ∀ j : ℕ, m'.val (f + j) = mem.val (f + j) :=
    fun hm j => hm.frame _ (hrd j)
  have hR1 : ∀ {t s c : ℕ}, t < o.P → s < o.m → c < o.C → ∀ d, o.RF 1 (d, t, s, c) ↔ d = 0 := fun ht hs hc d => by
    rw [RF1 h ht hs hc]; omega
  have hd0 : ∀ d t s c, o.dF (fun _ => W) (d, t, s, c) = W + (o.S * (o.m * t + s) + c) := fun d t s c => rfl
  have hd00 : ∀ d s c, o.dF (fun _ => W) (d, 0, s, c) = W + (o.S * s + c) := fun d s c => by rw [hd0]; simp
  have hv1 : ∀ {m' k}, Same mem m' (o.RF 1) (o.dF fun _ => W) k → ∀ t s c, t < o.P → s < o.m → c < o.C → m'.valid (W + (o.S * (o.m * t + s) + c)) :=
    fun sm t s c ht hs hc => sm.valid (vW _ (radix_lt hs ht) c hc)
  have hv0 : ∀ {m' k}, Same mem m' (o.RF 1) (o.dF fun _ => W) k → ∀ s c, s < o.m → c < o.C → m'.valid (W + (o.S * s + c)) := fun sm s c hs hc => by
    have := hv1 sm 0 s c (by omega) hs hc; simpa using this
  have tb : 0 < r → ∀ {t}, 0 < t → t ≤ o.P → o.Zetaqp.lo ≤ o.P * r + t ∧ o.P * r + t < o.Zetaqp.hi := fun hr _ h1 h2 => h.zqp_bd hp hr hrn h1 h2
  have tv : ∀ {t}, 0 < t → t ≤ o.P → o.Zetaqp.val (o.P * r + t) = w o.q (t * r) := fun h1 h2 => h.zqp_val hp h1 h2
  have e4 : o.S * ((o.P - 1) * o.m) = (o.P - 1) * o.Sm := by rw [h.Sm_eq]; ring
  have a1 : ∀ s c, o.S * o.H + (o.S * s + c) = o.S * (o.H + s) + c := fun s c => (h.adr s c 0).1
  have a2 : ∀ s c t, t * o.Sm + (o.S * s + c) = o.S * (o.m * t + s) + c := fun s c t => (h.adr s c t).2.1
  have a3 : ∀ s c t, o.S * o.H + (t * o.Sm + (o.S * s + c)) = o.S * (o.H + (o.m * t + s)) + c := fun s c t => (h.adr s c t).2.2.1
  have a4 : ∀ s c t, o.S * (o.m * t) + (o.S * s + c) = o.S * (o.m * t + s) + c := fun s c t => (h.adr s c t).2.2.2.1
  have hdone : ∀ {m1 m2 m3 D}, Fills mem m1 (o.RF 1) (o.dF fun _ => W) (o.GT (fun c j => mem.val (f + (o.S * j + c))) fun _ => r) (fun _ => True) →
      Fills m1 m2 (o.RF 1) (o.dF fun _ => W) (o.FftpT m1 (fun _ => W) 1) (fun x => False ∨ x.1 = 0) →
      Fills m2 m3 (o.RF 1) (o.dF fun _ => W) (o.ZT m2 (fun _ => W) fun _ => r) D →
      (∀ k, o.RF 1 k → ¬ D k → k.2.2.1 = 0 ∨ k.2.1 = 0 ∧ (r : ℤ) = 0) →
      (seqLoop (rng 0 o.P) fun t => o.fftm.exec (W + o.Sm * t) (F + o.Sm * t)).Ok m3 (fun _ m' => o.FwdPost mem m' f F W r) :=
    fun f1 f2 f3 hd => finish_inner h hS pre hv (stages h f1 f2 (fun k hk => Or.inr (by have := hk.1; omega)) f3 hd)
  unfold forwardInnerMany
  simp only [hW, z1, z2, z3, z4, e4]
  by_cases hr : r = 0
  · subst hr
    rw [if_pos rfl]
    refine zonesM2 (R := o.RF 1) (dst := o.dF fun _ => W) (T := o.GT (fun c j => mem.val (f + (o.S * j + c))) fun _ => ((0 : ℕ) : ℤ)) h hp (dF_inj h Disj.one)
      ?_ ?_ ?_ ?_ (fun s c _ _ _ _ _ _ m' _ h => h) ?_ ?_
    · rintro d t s c ⟨_, h2, h3, h4⟩; exact ⟨h2, h3, h4⟩
    · intro s c hs0 hs hL hc m' sm
      refine Wr.mk1p (hR1 (by omega) hs hc) (hd00 _ _ _) ?_ ?_ ?_
      · body_flat
        rw [a1]
        exact ⟨sm.valid (hf _ hL c hc), hv0 sm s c hs hc⟩
      · body_flat
        rw [a1, hfv sm, GT1 _ _ hs0 hL]
      · intro p; body_flat; rintro rfl; exact Or.inl (hrd _)
    · intro s c hs0 hs hL hc m' sm
      refine Wr.mk1p (hR1 (by omega) hs hc) (hd00 _ _ _) ?_ ?_ ?_
      · body_flat
        rw [a1, sub_adr hs0]
        exact ⟨sm.valid (hf _ (by omega) c hc), sm.valid (hf _ hL c hc), hv0 sm s c hs hc⟩
      · body_flat
        rw [a1, sub_adr hs0, hfv sm, hfv sm, GT2 _ _ hs0 hL]
        simp
      · intro p; body_flat; rw [sub_adr hs0]; rintro (rfl | rfl) <;> exact Or.inl (hrd _)
    · intro t s c ht0 ht hs hs0 hL hc m' sm
      refine Wr.mk1p (hR1 ht hs hc) (hd0 _ _ _ _) ?_ ?_ ?_
      · body_flat
        rw [a3, a2, sub_adr hs0]
        exact ⟨sm.valid (hf _ (by omega) c hc), sm.valid (hf _ hL c hc), hv1 sm t s c ht hs hc⟩
      · body_flat
        rw [a3, a2, sub_adr hs0, hfv sm, hfv sm, GT3 _ _ hs0 hL]
        simp
      · intro p; body_flat; rw [a2, sub_adr hs0]; rintro (rfl | rfl) <;> exact Or.inl (hrd _)
    · intro s c ht0 ht hs hs0 hL hL' hc m' sm
      refine Wr.mk1p (hR1 ht hs hc) (hd0 _ _ _ _) ?_ ?_ ?_
      · body_flat
        rw [a2, sub_adr hs0]
        exact ⟨sm.valid (hf _ hL' c hc), hv1 sm _ s c ht hs hc⟩
      · body_flat
        rw [a2, sub_adr hs0, hfv sm, GT5 _ _ hs0 hL]
        simp
      · intro p; body_flat; rw [a2, sub_adr hs0]; rintro rfl; exact Or.inl (hrd _)
    intro m1 f1
    refine Cmd.Ok.bind (fftpMany_ok h (h.plF hp) (V := fun _ => W) (d := 0) rfl Nat.one_pos (Fills.start (dF_inj h Disj.one)) (fun _ h => h)
      (fun x hx => f1.valid (hWv x hx)) ?_)
    intro m2 f2
    refine Cmd.Ok.bind ((Fills.start (T := o.ZT m2 (fun _ => W) fun _ => ((0 : ℕ) : ℤ)) (dF_inj h (nd := 1) (V := fun _ => W) Disj.one)).parz (fun x => x) (rng3_nodup _ _ _ _ _ _)
      (fun _ _ _ _ h => h) (fun _ _ _ h => h) ?_ ?_)
    · rintro ⟨u, s, c⟩ hs m' sm
      rw [mem_rng3] at hs
      have hs' : 1 ≤ u ∧ u < o.P ∧ s < o.m ∧ c < o.C := by simp only at hs; omega
      have hR := hR1 hs'.2.1 hs'.2.2.1 hs'.2.2.2
      have hown := sm.own 0 ((hR 0).2 rfl)
      have hv' : m'.valid (W + (o.S * (o.m * u + s) + c)) := sm.valid (f2.valid (f1.valid (vW _ (radix_lt hs'.2.2.1 hs'.2.1) c hs'.2.2.2)))
      have hz : o.m * o.n * u + s = o.m * (o.n * u) + s := by ring
      have hnu : o.n * 1 ≤ o.n * u := Nat.mul_le_mul_left _ hs'.1
      have hq := h.qn hs'.2.1 hrn
      rw [hd0] at hown
      refine Wr.mk1p hR (hd0 _ _ _ _) ?_ ?_ ?_
      · body_flat
        rw [hz, a2]
        exact ⟨h.zq_bd hp (by omega) (by omega) hs'.2.2.1, hv', hv'⟩
      · body_flat
        rw [hz, a2, h.zq_val hp hs'.2.2.1, hown, C30_zmult_xy, mul_comm (w _ _)]
        unfold ZT
        rw [hd0]
        simp
      · intro p; body_flat; rw [a2]; rintro rfl; exact Or.inr rfl
    intro m3 f3
    refine hdone f1 f2 f3 ?_
    rintro ⟨d, u, s, c⟩ hk hd
    by_contra hne
    simp only [not_or] at hne
    refine hd (Or.inr ⟨(u, s, c), mem_rng3.2 ?_, rfl⟩)
    have := hk.2.1; have := hk.2.2.1; have := hk.2.2.2
    have h0 : u ≠ 0 := fun h0 => hne.2 ⟨h0, by simp⟩
    simp only at *
    omega
  · rw [if_neg hr]
    have hr0 : 0 < r := by omega
    refine zonesM2 (R := o.RF 1) (dst := o.dF fun _ => W) (T := o.GT (fun c j => mem.val (f + (o.S * j + c))) fun _ => (r : ℤ)) h hp (dF_inj h Disj.one)
      ?_ ?_ ?_ ?_ (fun s c _ _ _ _ _ _ m' _ h => h) ?_ ?_
    · rintro d t s c ⟨_, h2, h3, h4⟩; exact ⟨h2, h3, h4⟩
    · intro s c hs0 hs hL hc m' sm
      refine Wr.mk1p (hR1 (by omega) hs hc) (hd00 _ _ _) ?_ ?_ ?_
      · body_flat
        rw [a1]
        exact ⟨sm.valid (hf _ hL c hc), hv0 sm s c hs hc⟩
      · body_flat
        rw [a1, hfv sm, GT1 _ _ hs0 hL]
      · intro p; body_flat; rintro rfl; exact Or.inl (hrd _)
    · intro s c hs0 hs hL hc m' sm
      refine Wr.mk1p (hR1 (by omega) hs hc) (hd00 _ _ _) ?_ ?_ ?_
      · body_flat
        rw [a1, sub_adr hs0]
        exact ⟨tb hr0 (by omega) le_rfl, sm.valid (hf _ (by omega) c hc), sm.valid (hf _ hL c hc), hv0 sm s c hs hc⟩
      · body_flat
        rw [a1, sub_adr hs0, hfv sm, hfv sm, GT2 _ _ hs0 hL, tv (by omega) le_rfl, C30_zmult_xy, C30_conj, wP_conj, mul_comm (w _ _)]
      · intro p; body_flat; rw [sub_adr hs0]; rintro (rfl | rfl) <;> exact Or.inl (hrd _)
    · intro t s c ht0 ht hs hs0 hL hc m' sm
      refine Wr.mk1p (hR1 ht hs hc) (hd0 _ _ _ _) ?_ ?_ ?_
      · body_flat
        rw [a3, a2, sub_adr hs0]
        exact ⟨tb hr0 (by omega) le_rfl, tb hr0 ht0 (by omega), sm.valid (hf _ (by omega) c hc), sm.valid (hf _ hL c hc), hv1 sm t s c ht hs hc⟩
      · body_flat
        rw [a3, a2, sub_adr hs0, hfv sm, hfv sm, GT3 _ _ hs0 hL, tv (by omega) le_rfl, tv ht0 (by omega), C30_zmult_xy, C30_zmult_xy, C30_zmult, C30_conj, wtP,
          mul_comm (w _ ((_ - _) * _)), mul_comm (w _ _)]
      · intro p; body_flat; rw [a2, sub_adr hs0]; rintro (rfl | rfl) <;> exact Or.inl (hrd _)
    · intro s c ht0 ht hs hs0 hL hL' hc m' sm
      refine Wr.mk1p (hR1 ht hs hc) (hd0 _ _ _ _) ?_ ?_ ?_
      · body_flat
        rw [a2, sub_adr hs0]
        exact ⟨tb hr0 (by omega) le_rfl, tb hr0 ht0 (by omega), sm.valid (hf _ hL' c hc), hv1 sm _ s c ht hs hc⟩
      · body_flat
        rw [a2, sub_adr hs0, hfv sm, GT5 _ _ hs0 hL, tv (by omega) le_rfl, tv ht0 (by omega), C30_zmult_xy, C30_zmult, C30_conj, wtP,
          mul_comm (w _ ((_ - _) * _))]
      · intro p; body_flat; rw [a2, sub_adr hs0]; rintro rfl; exact Or.inl (hrd _)
    intro m1 f1
    refine Cmd.Ok.bind (fftpMany_ok h (h.plF hp) (V := fun _ => W) (d := 0) rfl Nat.one_pos (Fills.start (dF_inj h Disj.one)) (fun _ h => h)
      (fun x hx => f1.valid (hWv x hx)) ?_)
    intro m2 f2
    refine Cmd.Ok.bind ((Fills.start (T := o.ZT m2 (fun _ => W) fun _ => (r : ℤ)) (dF_inj h (nd := 1) (V := fun _ => W) Disj.one)).parz (fun x => x) (rng3_nodup _ _ _ _ _ _)
      (fun _ _ _ _ h => h) (fun _ _ _ h => h) ?_ ?_)
    · rintro ⟨u, s, c⟩ hs m' sm
      rw [mem_rng3] at hs
      have hs' : u < o.P ∧ s < o.m ∧ c < o.C := by simp only at hs; omega
      have hR := hR1 hs'.1 hs'.2.1 hs'.2.2
      have hown := sm.own 0 ((hR 0).2 rfl)
      have hv' : m'.valid (W + (o.S * (o.m * u + s) + c)) := sm.valid (f2.valid (f1.valid (vW _ (radix_lt hs'.2.1 hs'.1) c hs'.2.2)))
      have hz : o.n * (o.m * u) + (o.m * r + s) = o.m * (o.n * u + r) + s := by ring
      have hq := h.qn hs'.1 hrn
      rw [hd0] at hown
      refine Wr.mk1p hR (hd0 _ _ _ _) ?_ ?_ ?_
      · body_flat
        rw [hz, a4]
        exact ⟨h.zq_bd hp (by omega) (by omega) hs'.2.1, hv', hv'⟩
      · body_flat
        rw [hz, a4, h.zq_val hp hs'.2.1, hown, C30_zmult_xy, mul_comm (w _ _)]
        unfold ZT
        rw [hd0]
        simp
      · intro p; body_flat; rw [a4]; rintro rfl; exact Or.inr rfl
    intro m3 f3
    refine hdone f1 f2 f3 ?_
    rintro ⟨d, u, s, c⟩ hk hd
    by_contra hne
    simp only [not_or] at hne
    refine hd (Or.inr ⟨(u, s, c), mem_rng3.2 ?_, rfl⟩)
    have := hk.2.1; have := hk.2.2.1; have := hk.2.2.2
    simp only at *
    omega

end Cent
end Fftwpp
