import Verif.Proof.BwdInner

/-! `backwardInnerMany`, and `backward` whatever routine was selected at construction. -/

namespace Fftwpp
namespace Fft
open Finset ComplexConjugate
variable {o : Fft}

/-- The loop of inverse row transforms. -/
theorem back_inner_rows (h : o.WF) (hp : 2 < o.p) (hS : o.S ≠ 1) {mem : Mem} {f F W : Ptr}
    (pre : o.Pre mem f F W) {Q : Unit → Mem → Prop}
    (hQ : ∀ m1, mem.Upd m1 (o.Reg W o.p) → o.InvRows mem m1 F W o.p → Q () m1) :
    (seqLoop (rng 0 o.p) fun t => o.ifftm.exec (F + o.Sm * t) (W + o.Sm * t)).Ok mem Q := by
  have hD := h.D_one hS
  have hP := h.P_p (by omega : o.p ≠ 2)
  have hPD : o.P * o.D = o.p := by rw [hP, hD, Nat.mul_one]
  have hCS := h.C_le_S
  rw [(h.fftm_many hS).2]
  have hadr : ∀ t s c, o.Sm * t + (o.S * s + c) = o.S * (o.m * t + s) + c := fun t s c => by rw [h.Sm_eq]; ring
  have hni : ∀ (X Y : Ptr) k t s c, X = Y ∨ X.buf ≠ Y.buf → s < o.m → c < o.C → t ≠ k →
      ¬ ∃ i < o.m, ∃ c' < o.C, X + (o.S * (o.m * t + s) + c) = Y + (o.S * (o.m * k + i) + c') := by
    rintro X Y k t s c hXY hs hc hk ⟨i, hi, c', hc', h3⟩
    rcases hXY with rfl | hb
    · rw [Ptr.add_inj] at h3
      have h1 := radix_inj (by omega) (by omega) h3
      have h2 := radix_inj (by omega) (by omega) h1.1
      omega
    · exact hb (by simpa using congrArg Ptr.buf h3)
  have hsep' : SepPtr o.inplace F W := by
    rcases pre.sep with ⟨h1, h2⟩ | ⟨h1, h2⟩
    · exact Or.inl ⟨h1, h2.symm⟩
    · exact Or.inr ⟨h1, h2.symm⟩
  refine seqLoop_rng (fun k m' => mem.Upd m' (o.Reg W o.p) ∧
      (∀ t < k, ∀ s < o.m, ∀ c < o.C, m'.val (W + (o.S * (o.m * t + s) + c)) =
        ∑ i ∈ range o.m, mem.val (F + (o.S * (o.m * t + i) + c)) * w o.m (-1 * i * s)) ∧
      (∀ t < o.p, k ≤ t → ∀ s < o.m, ∀ c < o.C, m'.val (F + (o.S * (o.m * t + s) + c)) = mem.val (F + (o.S * (o.m * t + s) + c))))
      ⟨Mem.Upd.refl _ _, fun t ht => by omega, fun _ _ _ _ _ _ _ => rfl⟩ ?_ ?_
  · rintro k m2 hk ⟨u2, e2, w2⟩
    have hv : ∀ p : Ptr, (∀ i < o.m * (o.P * o.D), ∀ c < o.C, mem.valid (p + (o.S * i + c))) →
        ∀ i < o.m, ∀ c < o.C, m2.valid (p + o.Sm * k + (o.S * i + c)) := by
      intro p hp i hi c hc
      rw [Ptr.add_add, hadr]
      exact Mem.valid_of_size u2.size (hp _ (by rw [hPD]; exact radix_lt hi hk) c hc)
    have hsep : SepPtr o.inplace (F + o.Sm * k) (W + o.Sm * k) := by
      rcases hsep' with ⟨h1, h2⟩ | ⟨h1, h2⟩
      · exact Or.inl ⟨h1, by rw [h2]⟩
      · exact Or.inr ⟨h1, by simpa using h2⟩
    refine exec_cols h.C_le_S hsep (hv F pre.vF) (hv W pre.vW) ?_
    intro m3 u3 e3
    simp only [Ptr.add_add, hadr] at u3 e3
    refine ⟨u2.trans u3 (fun _ h => h) ?_, ?_, ?_⟩
    · rintro p ⟨s, hs, c, hc, rfl⟩; exact Reg.mk hk hs hc
    · intro t ht s hs c hc
      rcases Nat.lt_or_ge t k with h1 | h1
      · rw [u3.frame _ (hni W W k t s c (Or.inl rfl) hs hc (by omega)), e2 t h1 s hs c hc]
      · obtain rfl : t = k := by omega
        rw [e3 s hs c hc]
        refine sum_congr rfl fun s' hs' => ?_
        rw [w2 t hk le_rfl s' (mem_range.1 hs') c hc]
    · intro t ht hkt s hs c hc
      rw [u3.frame _ (hni F W k t s c (SepPtr.buf hsep') hs hc (by omega)), w2 t ht (by omega) s hs c hc]
  · rintro m2 ⟨u2, e2, _⟩
    exact hQ m2 u2 e2

theorem backwardInnerMany_ok (h : o.WF) (hp : 2 < o.p) (hq : o.q ≠ 1) (hS : o.S ≠ 1) {f F W : Ptr} {mem : Mem} {r : ℕ}
    {W? : Option Ptr} (hW : W?.getD F = W) (pre : o.Pre mem f F W) (hv : o.Visit r) :
    (o.backwardInnerMany F f r W?).Ok mem (fun _ m' => o.BwdPost mem m' F f W r) := by
  have hm := h.m_pos
  have hD := h.D_one hS
  have hP := h.P_p (by omega : o.p ≠ 2)
  have hPD : o.P * o.D = o.p := by rw [hP, hD, Nat.mul_one]
  have hCS := h.C_le_S
  have hrn := h.r_lt hD hv
  have hb := pre.fW
  obtain ⟨hL1, hL2⟩ := h.inner_L hp
  have hqpn : o.q = o.p * o.n := by rw [h.q_eq, hP]
  have vf := pre.vf
  have vW : ∀ t < o.p, ∀ s < o.m, ∀ c < o.C, mem.valid (W + (o.S * (o.m * t + s) + c)) := fun t ht s hs c hc =>
    pre.vW _ (by rw [hPD]; exact radix_lt hs ht) c hc
  have hadr : ∀ t s c, o.Sm * t + o.S * s + c = o.S * (o.m * t + s) + c := fun t s c => by rw [h.Sm_eq]; ring
  have hmL : o.m < o.L := by
    have := h.row_lt_L hp (t := 1) (s := 0) (by omega) hm
    omega
  have hplan : (o.S = o.C → o.ifftp = ⟨o.p, -1, o.C * o.m, o.C * o.m, 1, true⟩) ∧
      (o.S ≠ o.C → o.ifftp = ⟨o.p, -1, o.C, o.S * o.m, 1, true⟩) :=
    ⟨fun h1 => (h.fftp_C hp h1).2, fun h1 => (h.fftp_S hp h1).2⟩
  have hnf : ∀ (j : ℕ) (k : ℕ), f + j ≠ W + k := fun j k => Ptr.ne_of_buf (by simpa using hb)
  have hRq : ∀ t < o.p, o.n * t + r < o.q := fun t ht => by rw [hqpn, Nat.mul_comm o.p]; exact radix_lt hrn ht
  -- rows of `f` written by the copy loops
  have hni : ∀ {X : Ptr} {t s c a b : ℕ}, s < o.m → c < o.C → b ≤ o.m → ¬ (t = o.p - 1 ∧ a ≤ s ∧ s < b) →
      ¬ ∃ s' c', a ≤ s' ∧ s' < b ∧ 0 ≤ c' ∧ c' < o.C ∧
        X + (o.S * (o.m * t + s) + c) = X + o.Sm * (o.p - 1) + (o.S * s' + c') := by
    rintro X t s c a b hs hc hbm hn ⟨s', c', h1, h2, _, h4, h3⟩
    rw [Ptr.add_add, Ptr.add_inj, ← Nat.add_assoc, hadr] at h3
    have e1 := radix_inj (by omega) (by omega) h3
    have e2 := radix_inj (by omega) (by omega) e1.1
    omega
  have hni3 : ∀ {X : Ptr} {t s c a b d e : ℕ}, s < o.m → c < o.C → e ≤ o.m → ¬ (a ≤ t ∧ t < b ∧ d ≤ s ∧ s < e) →
      ¬ ∃ t' s' c', a ≤ t' ∧ t' < b ∧ d ≤ s' ∧ s' < e ∧ c' < o.C ∧
        X + (o.S * (o.m * t + s) + c) = X + (o.S * (o.m * t' + s') + c') := by
    rintro X t s c a b d e hs hc he hn ⟨t', s', c', h1, h2, h3', h4, h5, h3⟩
    rw [Ptr.add_inj] at h3
    have e1 := radix_inj (by omega) (by omega) h3
    have e2 := radix_inj (by omega) (by omega) e1.1
    omega
  let R : Ptr → Prop := fun p => o.RegL f p ∨ o.Reg W o.p p
  have hregW : ∀ {a b d e : ℕ}, b ≤ o.p → e ≤ o.m → ∀ p, (∃ t s c, a ≤ t ∧ t < b ∧ d ≤ s ∧ s < e ∧ c < o.C ∧
      p = W + (o.S * (o.m * t + s) + c)) → R p := by
    rintro a b d e hb he p ⟨t, s, c, h1, h2, h3, h4, h5, rfl⟩
    exact Or.inr (Reg.mk (by omega) (by omega) h5)
  have hregf : ∀ {a : ℕ}, ∀ p, (∃ t s c, a ≤ t ∧ t < o.p - 1 ∧ 0 ≤ s ∧ s < o.m ∧ c < o.C ∧
      p = f + (o.S * (o.m * t + s) + c)) → R p := by
    rintro a p ⟨t, s, c, h1, h2, h3, h4, h5, rfl⟩
    exact Or.inl ⟨_, h.row_lt_L hp h2 h4, c, h5, rfl⟩
  have hregl : ∀ p, (∃ s c, 0 ≤ s ∧ s < o.L - o.m * (o.p - 1) ∧ 0 ≤ c ∧ c < o.C ∧
      p = f + o.Sm * (o.p - 1) + (o.S * s + c)) → R p := by
    rintro p ⟨s, c, h1, h2, _, h4, rfl⟩
    rw [Ptr.add_add, ← Nat.add_assoc, hadr]
    exact Or.inl ⟨_, by omega, c, h4, rfl⟩
  have fin : ∀ m1 m' : Mem, mem.Upd m1 (o.Reg W o.p) → o.InvRows mem m1 F W o.p →
      m1.Upd m' R → (∀ u < o.p, ∀ s < o.m, o.m * u + s < o.L → ∀ c < o.C, m'.val (f + (o.S * (o.m * u + s) + c)) =
        (if r = 0 then 0 else mem.val (f + (o.S * (o.m * u + s) + c))) +
        conj (w o.q (r * u)) * ∑ t ∈ range o.p, m1.val (W + (o.S * (o.m * t + s) + c)) *
          conj (w o.M (s * ((o.n * t + r : ℕ) : ℤ))) * w o.p (-1 * t * u)) →
      o.BwdPost mem m' F f W r := by
    intro m1 m' u1 hin u' e'
    have hrows : o.rows r = o.p := by rw [h.rows_D1 hD, hP]
    refine finish_back h (u1.trans u' (fun p hp => Or.inr (Or.inr (by rwa [hPD]))) ?_) (by rwa [hrows]) ?_
    · rintro p (hp | hp)
      · exact Or.inl hp
      · exact Or.inr (Or.inr (by rwa [hPD]))
    · intro j hj c hc
      have hs : j % o.m < o.m := Nat.mod_lt _ hm
      have hj' : o.m * (j / o.m) + j % o.m = j := Nat.div_add_mod _ _
      have hu : j / o.m < o.p := Nat.div_lt_of_lt_mul (by have := h.p_ub; omega)
      have := e' _ hu _ hs (by rwa [hj']) c hc
      rw [inner_alg_back h.M_eq hqpn (by omega) (by have := h.q_pos; omega)] at this
      rw [Nat.add_comm (j % o.m), hj'] at this
      rw [this]
      congr 1
      unfold bsum
      rw [hrows]
      refine sum_congr rfl fun t ht => ?_
      rw [h.res_D1 hD r (by rw [hP]; exact mem_range.1 ht)]
  -- the transform over the blocks
  have mid : ∀ m1 m2 : Mem, m1.size = mem.size → m1.Upd m2 (o.Reg W o.p) →
      (∀ t < o.p, ∀ s < o.m, ∀ c < o.C, m2.val (W + (o.S * (o.m * t + s) + c)) =
        m1.val (W + (o.S * (o.m * t + s) + c)) * conj (w o.M (s * ((o.n * t + r : ℕ) : ℤ)))) →
      ∀ Q : Unit → Mem → Prop, (∀ m3, m1.Upd m3 (o.Reg W o.p) →
        (∀ u < o.p, ∀ s < o.m, ∀ c < o.C, m3.val (W + (o.S * (o.m * u + s) + c)) =
          ∑ t ∈ range o.p, m1.val (W + (o.S * (o.m * t + s) + c)) *
          conj (w o.M (s * ((o.n * t + r : ℕ) : ℤ))) * w o.p (-1 * t * u)) → Q () m3) →
      (o.fftpMany o.ifftp W).Ok m2 Q := by
    intro m1 m2 hs1 u2 e2 Q hQ
    refine fftpMany_ok h hplan (fun t ht s hs c hc => Mem.valid_of_size (u2.size.trans hs1) (vW t ht s hs c hc)) ?_
    intro m3 u3 e3
    refine hQ m3 (u2.trans u3 (fun _ h => h) (fun _ h => h)) ?_
    intro u hu s hs c hc
    rw [e3 u hu s hs c hc]
    refine sum_congr rfl fun t ht => ?_
    rw [e2 t (mem_range.1 ht) s hs c hc]
  unfold backwardInnerMany
  simp only [hW]
  refine Cmd.Ok.bind (back_inner_rows h hp hS pre ?_)
  intro m1 u1 hin
  have hf1 : ∀ j : ℕ, m1.val (f + j) = mem.val (f + j) := fun j => u1.frame _ (by
    rintro ⟨_, _, _, _, h3⟩; exact hnf _ _ h3)
  have vW1 : ∀ t < o.p, ∀ s < o.m, ∀ c < o.C, m1.valid (W + (o.S * (o.m * t + s) + c)) := fun t ht s hs c hc =>
    Mem.valid_of_size u1.size (vW t ht s hs c hc)
  have vf1 : ∀ j < o.L, ∀ c < o.C, m1.valid (f + (o.S * j + c)) := fun j hj c hc => Mem.valid_of_size u1.size (vf j hj c hc)
  have hl : o.L - o.m * (o.p - 1) ≤ o.m := by omega
  by_cases hr : r = 0
  · subst hr
    rw [if_pos rfl]
    refine Cmd.Ok.bind (par3 (W := W) (m₀ := o.m) hCS le_rfl
        (fun t s c => m1.val (W + (o.S * (o.m * t + s) + c)) * conj (w o.M (s * (o.n * t : ℕ)))) ?_ ?_ ?_ ?_)
    · intro t s c h1 h2 h3 h4 h5; body_simp; rw [hadr]
      exact ⟨h.zq_bd hq (Nat.mul_pos h.n_pos h1) (hRq t h2) h4, vW1 t h2 s h4 c h5, vW1 t h2 s h4 c h5⟩
    · intro t s c h1 h2 h3 h4 h5; body_simp; rw [hadr, h.zq_val hq h4]
    · intro t s c h1 h2 h3 h4 h5 p; body_simp; rw [hadr]; rintro rfl; exact Or.inr rfl
    intro m2 u2 e2
    refine Cmd.Ok.bind (mid m1 m2 u1.size (u2.mono ?_) ?_ _ ?_)
    · rintro p ⟨t, s, c, h1, h2, h3, h4, h5, rfl⟩; exact Reg.mk h2 h4 h5
    · intro t ht s hs c hc
      by_cases h0 : 1 ≤ t ∧ 1 ≤ s
      · rw [e2 t s c h0.1 ht h0.2 hs hc, Nat.add_zero]
      · rw [u2.frame _ (hni3 hs hc le_rfl (by omega))]
        have : t = 0 ∨ s = 0 := by omega
        rcases this with rfl | rfl <;> simp
    intro m3 u3 e3
    have hs3 := u3.size
    refine Cmd.Ok.bind (par3 (W := f) (m₀ := o.m) hCS le_rfl (fun t s c => m3.val (W + (o.S * (o.m * t + s) + c))) ?_ ?_ ?_ ?_)
    · intro t s c _ h2 _ h4 h5; body_simp; rw [hadr]
      exact ⟨Mem.valid_of_size hs3 (vW1 t (by omega) s h4 c h5), Mem.valid_of_size hs3 (vf1 _ (h.row_lt_L hp h2 h4) c h5)⟩
    · intro t s c _ h2 _ h4 h5; body_simp; rw [hadr]
    · intro t s c _ h2 _ h4 h5 p; body_simp; rintro rfl; exact Or.inl (by simpa using hb.symm)
    intro m4 u4 e4
    have hs4 := u4.size.trans hs3
    have hW4 : ∀ j : ℕ, m4.val (W + j) = m3.val (W + j) := fun j => u4.frame _ (by
      rintro ⟨_, _, _, _, _, _, _, _, h3⟩; exact hnf _ _ h3.symm)
    refine copyCols_ok (W := f + o.Sm * (o.p - 1)) (f := W + o.Sm * (o.p - 1)) hCS (by simpa using hb.symm) ?_ ?_ ?_
    · intro s c _ h2 h3; rw [Ptr.add_add, ← Nat.add_assoc, hadr]
      exact Mem.valid_of_size hs4 (vf1 _ (by omega) c h3)
    · intro s c _ h2 h3; rw [Ptr.add_add, ← Nat.add_assoc, hadr]
      exact Mem.valid_of_size hs4 (vW1 _ (by omega) s (by omega) c h3)
    intro m5 u5 e5
    refine fin m1 m5 u1 hin ((u3.trans u4 (fun p hp => Or.inr hp) hregf).trans u5 (fun _ h => h) hregl) ?_
    intro u hu s hs hL c hc
    rw [if_pos rfl]
    have key : m5.val (f + (o.S * (o.m * u + s) + c)) = m3.val (W + (o.S * (o.m * u + s) + c)) := by
      rcases Nat.lt_or_ge u (o.p - 1) with h1 | h1
      · rw [u5.frame _ (hni hs hc hl (by omega)), e4 u s c (by omega) h1 (by omega) hs hc]
      · obtain rfl : u = o.p - 1 := by omega
        have := e5 s c (by omega) (by omega) (by omega) hc
        rw [Ptr.add_add, Ptr.add_add, ← Nat.add_assoc, hadr, hW4] at this
        exact this
    rw [key, e3 u hu s hs c hc]
    simp
  · rw [if_neg hr]
    refine Cmd.Ok.bind (par3 (W := W) (m₀ := o.m) hCS le_rfl
        (fun t s c => m1.val (W + (o.S * (o.m * t + s) + c)) * conj (w o.M (s * (o.n * t + r : ℕ)))) ?_ ?_ ?_ ?_)
    · intro t s c h1 h2 h3 h4 h5; body_simp; rw [hadr]
      exact ⟨h.zq_bd hq (by omega) (hRq t h2) h4, vW1 t h2 s h4 c h5, vW1 t h2 s h4 c h5⟩
    · intro t s c h1 h2 h3 h4 h5; body_simp; rw [hadr, h.zq_val hq h4]
    · intro t s c h1 h2 h3 h4 h5 p; body_simp; rw [hadr]; rintro rfl; exact Or.inr rfl
    intro m2 u2 e2
    refine Cmd.Ok.bind (mid m1 m2 u1.size (u2.mono ?_) ?_ _ ?_)
    · rintro p ⟨t, s, c, h1, h2, h3, h4, h5, rfl⟩; exact Reg.mk h2 h4 h5
    · intro t ht s hs c hc
      by_cases h0 : 1 ≤ s
      · rw [e2 t s c (by omega) ht h0 hs hc]
      · rw [u2.frame _ (hni3 hs hc le_rfl (by omega))]
        obtain rfl : s = 0 := by omega
        simp
    intro m3 u3 e3
    have hs3 := u3.size
    have hf3 : ∀ j : ℕ, m3.val (f + j) = mem.val (f + j) := fun j => by
      rw [u3.frame _ (by rintro ⟨_, _, _, _, h3⟩; exact hnf _ _ h3), hf1]
    refine Cmd.Ok.bind (par2 (W := f) hCS (fun s c => m3.val (f + (o.S * s + c)) + m3.val (W + (o.S * s + c))) ?_ ?_ ?_ ?_)
    · intro s c _ h2 _ h3; body_simp
      have h5 := Mem.valid_of_size hs3 (vf1 s (by omega) c h3)
      have h4 := Mem.valid_of_size hs3 (vW1 0 (by omega) s h2 c h3)
      rw [Nat.mul_zero, Nat.zero_add] at h4
      exact ⟨h5, h4, h5⟩
    · intro s c _ h2 _ h3; body_simp
    · intro s c _ h2 _ h3 p; body_simp
      rintro (rfl | rfl)
      · exact Or.inr rfl
      · exact Or.inl (by simpa using hb.symm)
    intro m4 u4 e4
    have hs4 := u4.size.trans hs3
    have hW4 : ∀ j : ℕ, m4.val (W + j) = m3.val (W + j) := fun j => u4.frame _ (by
      rintro ⟨_, _, _, _, _, _, h3⟩; exact hnf _ _ h3.symm)
    refine Cmd.Ok.bind (par3 (W := f) (m₀ := o.m) hCS le_rfl (fun t s c => m4.val (f + (o.S * (o.m * t + s) + c)) +
      conj (w o.q (r * t)) * m3.val (W + (o.S * (o.m * t + s) + c))) ?_ ?_ ?_ ?_)
    · intro t s c h1 h2 _ h4 h5; body_simp; rw [hadr]
      have h6 := Mem.valid_of_size hs4 (vf1 _ (h.row_lt_L hp h2 h4) c h5)
      exact ⟨h.zqp_bd hp (by omega) hrn h1 (by omega), h6, Mem.valid_of_size hs4 (vW1 t (by omega) s h4 c h5), h6⟩
    · intro t s c h1 h2 _ h4 h5; body_simp; rw [hadr, h.zqp_val hp h1 (by omega), hW4]
    · intro t s c _ h2 _ h4 h5 p; body_simp; rw [hadr]
      rintro (rfl | rfl)
      · exact Or.inr rfl
      · exact Or.inl (by simpa using hb.symm)
    intro m5 u5 e5
    have hs5 := u5.size.trans hs4
    have hW5 : ∀ j : ℕ, m5.val (W + j) = m3.val (W + j) := fun j => by
      rw [u5.frame _ (by rintro ⟨_, _, _, _, _, _, _, _, h3⟩; exact hnf _ _ h3.symm), hW4]
    refine par2 (W := f + o.Sm * (o.p - 1)) hCS (fun s c => m5.val (f + (o.S * (o.m * (o.p - 1) + s) + c)) +
      conj (w o.q (r * (o.p - 1 : ℕ))) * m3.val (W + (o.S * (o.m * (o.p - 1) + s) + c))) ?_ ?_ ?_ ?_
    · intro s c _ h2 _ h3; body_simp; rw [hadr]
      have h6 := Mem.valid_of_size hs5 (vf1 _ (by omega : o.m * (o.p - 1) + s < o.L) c h3)
      exact ⟨h.zqp_bd hp (by omega) hrn (by omega) (by omega), h6,
        Mem.valid_of_size hs5 (vW1 _ (by omega) s (by omega) c h3), h6⟩
    · intro s c _ h2 _ h3; body_simp
      rw [hadr, h.zqp_val hp (by omega) (by omega), hW5, ← Nat.add_assoc (o.Sm * _), hadr]
    · intro s c _ h2 _ h3 p; body_simp
      rintro (rfl | rfl)
      · exact Or.inr (by rw [← Nat.add_assoc (o.Sm * _)])
      · exact Or.inl (by simpa using hb.symm)
    intro m6 u6 e6
    refine fin m1 m6 u1 hin (((u3.trans u4 (R := R) (fun p hp => Or.inr hp) ?_).trans u5 (fun _ h => h) hregf).trans u6
      (fun _ h => h) hregl) ?_
    · rintro p ⟨s, c, _, h2, _, h4, rfl⟩
      exact Or.inl ⟨s, by omega, c, h4, rfl⟩
    intro u hu s hs hL c hc
    rw [if_neg hr, ← e3 u hu s hs c hc]
    have hn4 : 1 ≤ u → ¬ ∃ s' c', 0 ≤ s' ∧ s' < o.m ∧ 0 ≤ c' ∧ c' < o.C ∧
        f + (o.S * (o.m * u + s) + c) = f + (o.S * s' + c') := by
      rintro h1 ⟨s', c', _, h2, _, h4, h3⟩
      rw [Ptr.add_inj] at h3
      have e1 := radix_inj (by omega) (by omega) h3
      have : o.m * 1 ≤ o.m * u := Nat.mul_le_mul_left _ h1
      omega
    obtain h1 | h1 | h1 : u = 0 ∨ (1 ≤ u ∧ u < o.p - 1) ∨ u = o.p - 1 := by omega
    · subst h1
      rw [u6.frame _ (hni hs hc hl (by omega)), u5.frame _ (hni3 hs hc le_rfl (by omega)), Nat.mul_zero, Nat.zero_add,
        e4 s c (by omega) hs (by omega) hc, hf3]
      simp
    · rw [u6.frame _ (hni hs hc hl (by omega)), e5 u s c h1.1 h1.2 (by omega) hs hc, u4.frame _ (hn4 h1.1), hf3]
    · subst h1
      have := e6 s c (by omega) (by omega) (by omega) hc
      rw [Ptr.add_add, ← Nat.add_assoc, hadr] at this
      rw [this, u5.frame _ (hni3 hs hc le_rfl (by omega)), u4.frame _ (hn4 (by omega)), hf3]

/-- `backward`, whatever routine was selected at construction. -/
theorem backward_ok (h : o.WF) (how : o.overwrite = false) {f F W : Ptr} {mem : Mem} {r : ℕ}
    {W? : Option Ptr} (hW : W?.getD F = W) (pre : o.Pre mem f F W) (hv : o.Visit r) :
    (o.backward F f r W?).Ok mem (fun _ m' => o.BwdPost mem m' F f W r) := by
  unfold backward
  rw [h.route_eq, how]
  unfold chooseRoute
  have hp0 := h.p_pos
  by_cases hq : o.q = 1
  · rw [if_pos hq]
    by_cases hS : o.S = 1
    · rw [if_pos hS]; exact backwardExplicit_ok h hq hS hW pre hv
    · rw [if_neg hS]; exact backwardExplicitMany_ok h hq hS hW pre hv
  · rw [if_neg hq]
    by_cases hp : 2 < o.p
    · rw [if_pos hp]
      by_cases hS : o.S = 1
      · rw [if_pos hS]; exact backwardInner_ok h hp hq hS hW pre hv
      · rw [if_neg hS]; exact backwardInnerMany_ok h hp hq hS hW pre hv
    · rw [if_neg hp]
      by_cases hp2 : o.p = 2
      · rw [if_pos hp2]
        by_cases hS : o.S = 1
        · rw [if_pos hS]; exact backward2_ok h hp2 hq hS hW pre hv
        · rw [if_neg hS]; exact backward2Many_ok h hp2 hq hS hW pre hv
      · rw [if_neg hp2]
        have hp1 : o.p = 1 := by omega
        by_cases hS : o.S = 1
        · rw [if_pos hS]; exact backward1_ok h hp1 hq hS hW pre hv
        · rw [if_neg hS]; exact backward1Many_ok h hp1 hq hS hW pre hv

end Fft
end Fftwpp
