import Verif.Proof.Inner

/-! `forwardInnerMany`. -/

namespace Fftwpp
open Finset
namespace Fft
open ComplexConjugate
variable {o : Fft}

/-- As `InnerRows`, for all copies. -/
def InnerRowsC (o : Fft) (m : Mem) (F : Ptr) (x : ℕ → ℕ → ℂ) (r : ℕ) : Prop :=
  ∀ t < o.p, ∀ s < o.m, ∀ c < o.C, m.val (F + (o.S * (o.m * t + s) + c)) =
    if s + o.m * t < o.L then x c (s + o.m * t) * w o.q (r * t) else 0

/-- Region of `K` rows of all copies. -/
theorem Reg.mk {W : Ptr} {K t s c : ℕ} (ht : t < K) (hs : s < o.m) (hc : c < o.C) :
    o.Reg W K (W + (o.S * (o.m * t + s) + c)) := ⟨o.m * t + s, radix_lt hs ht, c, hc, rfl⟩

/-- `fftpMany` transforms over `t` for every `s` and `c`. -/
theorem fftpMany_ok (h : o.WF) {sgn : ℤ} {pl : Plan}
    (hpl : (o.S = o.C → pl = ⟨o.p, sgn, o.C * o.m, o.C * o.m, 1, true⟩) ∧ (o.S ≠ o.C → pl = ⟨o.p, sgn, o.C, o.S * o.m, 1, true⟩))
    {F : Ptr} {m1 : Mem} (hF : ∀ t < o.p, ∀ s < o.m, ∀ c < o.C, m1.valid (F + (o.S * (o.m * t + s) + c)))
    {Q : Unit → Mem → Prop}
    (hQ : ∀ m', m1.Upd m' (o.Reg F o.p) → (∀ t < o.p, ∀ s < o.m, ∀ c < o.C, m'.val (F + (o.S * (o.m * t + s) + c)) =
      ∑ u ∈ range o.p, m1.val (F + (o.S * (o.m * u + s) + c)) * w o.p (sgn * u * t)) → Q () m') :
    (o.fftpMany pl F).Ok m1 Q := by
  have hCS := h.C_le_S
  have hm := h.m_pos
  unfold fftpMany
  by_cases hSC : o.S = o.C
  · rw [if_pos hSC, hpl.1 hSC]
    have hadr : ∀ t c, o.C * o.m * t + c = o.S * (o.m * t + c / o.C) + c % o.C := fun t c => by
      rw [hSC]
      have := Nat.div_add_mod c o.C
      calc o.C * o.m * t + c = o.C * o.m * t + (o.C * (c / o.C) + c % o.C) := by rw [this]
        _ = _ := by ring
    have hdiv : ∀ c < o.C * o.m, c / o.C < o.m := fun c hc => Nat.div_lt_of_lt_mul hc
    have hmod : ∀ c, c % o.C < o.C := fun c => Nat.mod_lt _ h.C_pos
    refine exec_cols le_rfl (Or.inl ⟨rfl, rfl⟩) (fun t ht c hc => ?_) (fun t ht c hc => ?_) ?_
    · rw [hadr]; exact hF t ht _ (hdiv c hc) _ (hmod c)
    · rw [hadr]; exact hF t ht _ (hdiv c hc) _ (hmod c)
    intro m' u e
    refine hQ m' (u.mono ?_) ?_
    · rintro p ⟨t, ht, c, hc, rfl⟩
      rw [hadr]; exact Reg.mk ht (hdiv c hc) (hmod c)
    · intro t ht s hs c hc
      have := e t ht (o.C * s + c) (radix_lt hc hs)
      have hadr2 : ∀ t, o.C * o.m * t + (o.C * s + c) = o.S * (o.m * t + s) + c := fun t => by rw [hSC]; ring
      simp only [hadr2] at this
      exact this
  · rw [if_neg hSC, hpl.2 hSC]
    have hadr : ∀ s t c, o.S * s + (o.S * o.m * t + c) = o.S * (o.m * t + s) + c := fun s t c => by ring
    refine seqLoop_rng (fun k m' => m1.Upd m' (fun p => ∃ t s c, t < o.p ∧ s < k ∧ c < o.C ∧ p = F + (o.S * (o.m * t + s) + c)) ∧
      ∀ t < o.p, ∀ s < k, ∀ c < o.C, m'.val (F + (o.S * (o.m * t + s) + c)) =
        ∑ u ∈ range o.p, m1.val (F + (o.S * (o.m * u + s) + c)) * w o.p (sgn * u * t))
      ⟨Mem.Upd.refl _ _, fun _ _ s hs => by omega⟩ ?_ ?_
    · rintro k m2 hk ⟨u2, e2⟩
      have hv : ∀ i < o.p, ∀ c < o.C, m2.valid (F + o.S * k + (o.S * o.m * i + c)) := fun i hi c hc => by
        rw [Ptr.add_add, hadr]; exact Mem.valid_of_size u2.size (hF i hi k hk c hc)
      refine exec_cols (le_trans hCS (Nat.le_mul_of_pos_right _ hm)) (Or.inl ⟨rfl, rfl⟩) hv hv ?_
      intro m3 u3 e3
      simp only [Ptr.add_add, hadr] at u3 e3
      have hni : ∀ t s c, s < k → c < o.C → ¬ ∃ i < o.p, ∃ c' < o.C, F + (o.S * (o.m * t + s) + c) = F + (o.S * (o.m * i + k) + c') := by
        rintro t s c hs hc ⟨i, _, c', hc', h3⟩
        rw [Ptr.add_inj] at h3
        have h1 := radix_inj (by omega) (by omega) h3
        have h2 := radix_inj (by omega) (by omega) h1.1
        omega
      refine ⟨u2.trans u3 ?_ ?_, ?_⟩
      · rintro p ⟨t, s, c, h1, h2, h3, rfl⟩; exact ⟨t, s, c, h1, by omega, h3, rfl⟩
      · rintro p ⟨t, h1, c, h3, rfl⟩; exact ⟨t, k, c, h1, by omega, h3, rfl⟩
      · intro t ht s hs c hc
        rcases Nat.lt_or_ge s k with h1 | h1
        · rw [u3.frame _ (hni t s c h1 hc), e2 t ht s h1 c hc]
        · obtain rfl : s = k := by omega
          rw [e3 t ht c hc]
          refine sum_congr rfl fun u _ => ?_
          rw [u2.frame]
          rintro ⟨t', s', c', _, h2, h4, h3⟩
          rw [Ptr.add_inj] at h3
          have h1 := radix_inj (by omega) (by omega) h3
          have h2 := radix_inj (by omega) (by omega) h1.1
          omega
    · rintro m2 ⟨u2, e2⟩
      refine hQ m2 (u2.mono ?_) e2
      rintro p ⟨t, s, c, h1, h2, h3, rfl⟩
      exact Reg.mk h1 h2 h3

/-- Twiddle loop after the transform over `t`, and the row transforms. -/
theorem finish_inner (h : o.WF) (hp : 2 < o.p) (hS : o.S ≠ 1) {mem m1 : Mem} {f F W : Ptr} {r : ℕ}
    (pre : o.Pre mem f F W) (u1 : mem.Upd m1 (o.Reg W o.p))
    (hfill : o.FilledC m1 W (fun c j => mem.val (f + (o.S * j + c))) (fun t => ((o.n * t + r : ℕ) : ℤ)) o.p) :
    (seqLoop (rng 0 o.p) fun t => o.fftm.exec (W + o.Sm * t) (F + o.Sm * t)).Ok m1 (fun _ m' => o.FwdPost mem m' f F W r) := by
  have hD := h.D_one hS
  have hP := h.P_p (by omega : o.p ≠ 2)
  have hPD : o.P * o.D = o.p := by rw [hP, hD, Nat.mul_one]
  have hCS := h.C_le_S
  rw [(h.fftm_many hS).1]
  have hadr : ∀ t s c, o.Sm * t + (o.S * s + c) = o.S * (o.m * t + s) + c := fun t s c => by rw [h.Sm_eq]; ring
  have hni : ∀ (X Y : Ptr) k t s c, X = Y ∨ X.buf ≠ Y.buf → s < o.m → c < o.C → t ≠ k →
      ¬ ∃ i < o.m, ∃ c' < o.C, X + (o.S * (o.m * t + s) + c) = Y + (o.S * (o.m * k + i) + c') := by
    rintro X Y k t s c hXY hs hc hk ⟨i, hi, c', hc', h3⟩
    rcases hXY with rfl | hb
    · rw [Ptr.add_inj] at h3
      have h1 := radix_inj (by omega) (by omega) h3
      have h2 := radix_inj (by omega) (by omega) h1.1
      omega
    · exact hb (by simpa using congrArg Ptr.buf h3)
  refine seqLoop_rng (fun k m' => m1.Upd m' (o.Reg F o.p) ∧
      (∀ t < k, ∀ s < o.m, ∀ c < o.C, m'.val (F + (o.S * (o.m * t + s) + c)) =
        paddedDFT o.M o.L (fun j => mem.val (f + (o.S * j + c))) (o.q * s + (o.n * t + r : ℕ))) ∧
      (∀ t < o.p, k ≤ t → ∀ s < o.m, ∀ c < o.C, m'.val (W + (o.S * (o.m * t + s) + c)) = m1.val (W + (o.S * (o.m * t + s) + c))))
      ⟨Mem.Upd.refl _ _, fun t ht => by omega, fun _ _ _ _ _ _ _ => rfl⟩ ?_ ?_
  · rintro k m2 hk ⟨u2, e2, w2⟩
    have hs2 := u2.size.trans u1.size
    have hv : ∀ p : Ptr, (∀ i < o.m * (o.P * o.D), ∀ c < o.C, mem.valid (p + (o.S * i + c))) →
        ∀ i < o.m, ∀ c < o.C, m2.valid (p + o.Sm * k + (o.S * i + c)) := by
      intro p hp i hi c hc
      rw [Ptr.add_add, hadr]
      exact Mem.valid_of_size hs2 (hp _ (by rw [hPD]; exact radix_lt hi hk) c hc)
    have hsep : SepPtr o.inplace (W + o.Sm * k) (F + o.Sm * k) := by
      rcases pre.sep with ⟨h1, h2⟩ | ⟨h1, h2⟩
      · exact Or.inl ⟨h1, by rw [h2]⟩
      · exact Or.inr ⟨h1, by simpa using h2⟩
    refine exec_cols h.C_le_S hsep (hv W pre.vW) (hv F pre.vF) ?_
    intro m3 u3 e3
    simp only [Ptr.add_add, hadr] at u3 e3
    refine ⟨u2.trans u3 (fun _ h => h) ?_, ?_, ?_⟩
    · rintro p ⟨s, hs, c, hc, rfl⟩; exact Reg.mk hk hs hc
    · intro t ht s hs c hc
      rcases Nat.lt_or_ge t k with h1 | h1
      · rw [u3.frame _ (hni F F k t s c (Or.inl rfl) hs hc (by omega)), e2 t h1 s hs c hc]
      · obtain rfl : t = k := by omega
        rw [e3 s hs c hc, ← row_fft h.M_eq (by have := h.m_pos; omega) (by have := h.q_pos; omega) h.p_ub]
        refine sum_congr rfl fun s' hs' => ?_
        rw [mem_range] at hs'
        rw [w2 t hk le_rfl s' hs' c hc, hfill t hk s' hs' c hc]
    · intro t ht hkt s hs c hc
      rw [u3.frame _ (hni W F k t s c (SepPtr.buf pre.sep) hs hc (by omega)), w2 t ht (by omega) s hs c hc]
  · rintro m2 ⟨u2, e2, _⟩
    refine ⟨u1.trans u2 ?_ ?_, ?_, fun _ _ hp1 => by omega⟩
    · intro p hp; rw [hPD]; exact Or.inr hp
    · intro p hp; rw [hPD]; exact Or.inl hp
    · intro ρ hρ s hs c hc
      rw [h.rows_D1 hD] at hρ
      rw [h.res_D1 hD r hρ]
      exact e2 ρ (by rwa [hP] at hρ) s hs c hc

theorem forwardInnerMany_ok (h : o.WF) (hp : 2 < o.p) (hq : o.q ≠ 1) (hS : o.S ≠ 1) {f F W : Ptr} {mem : Mem} {r : ℕ}
    {W? : Option Ptr} (hW : W?.getD F = W) (pre : o.Pre mem f F W) (hv : o.Visit r) :
    (o.forwardInnerMany f F r W?).Ok mem (fun _ m' => o.FwdPost mem m' f F W r) := by
  have hm := h.m_pos
  have hD := h.D_one hS
  have hP := h.P_p (by omega : o.p ≠ 2)
  have hPD : o.P * o.D = o.p := by rw [hP, hD, Nat.mul_one]
  have hCS := h.C_le_S
  have hrn := h.r_lt hD hv
  have hb := pre.fW
  obtain ⟨hL1, hL2⟩ := h.inner_L hp
  have hqpn : o.q = o.p * o.n := by rw [h.q_eq, hP]
  have vf := pre.vf
  have vW : ∀ t < o.p, ∀ s < o.m, ∀ c < o.C, mem.valid (W + (o.S * (o.m * t + s) + c)) := fun t ht s hs c hc =>
    pre.vW _ (by rw [hPD]; exact radix_lt hs ht) c hc
  have hadr : ∀ t s c, o.Sm * t + o.S * s + c = o.S * (o.m * t + s) + c := fun t s c => by rw [h.Sm_eq]; ring
  have hmL : o.m < o.L := by
    have := h.row_lt_L hp (t := 1) (s := 0) (by omega) hm
    omega
  have hplan : (o.S = o.C → o.fftp = ⟨o.p, 1, o.C * o.m, o.C * o.m, 1, true⟩) ∧
      (o.S ≠ o.C → o.fftp = ⟨o.p, 1, o.C, o.S * o.m, 1, true⟩) :=
    ⟨fun h1 => (h.fftp_C hp h1).1, fun h1 => (h.fftp_S hp h1).1⟩
  have hnf : ∀ (j : ℕ) (k : ℕ), f + j ≠ W + k := fun j k => Ptr.ne_of_buf (by simpa using hb)
  -- last row copy loops write at these words
  have hni : ∀ {t s c a b : ℕ}, s < o.m → c < o.C → b ≤ o.m → ¬ (t = o.p - 1 ∧ a ≤ s ∧ s < b) →
      ¬ ∃ s' c', a ≤ s' ∧ s' < b ∧ 0 ≤ c' ∧ c' < o.C ∧
        W + (o.S * (o.m * t + s) + c) = W + o.Sm * (o.p - 1) + (o.S * s' + c') := by
    rintro t s c a b hs hc hbm hn ⟨s', c', h1, h2, _, h4, h3⟩
    rw [Ptr.add_add, Ptr.add_inj, ← Nat.add_assoc, hadr] at h3
    have e1 := radix_inj (by omega) (by omega) h3
    have e2 := radix_inj (by omega) (by omega) e1.1
    omega
  have hreg1 : ∀ {a b : ℕ}, b ≤ o.m → ∀ p, (∃ s' c', a ≤ s' ∧ s' < b ∧ 0 ≤ c' ∧ c' < o.C ∧
        p = W + o.Sm * (o.p - 1) + (o.S * s' + c')) → o.Reg W o.p p := by
    rintro a b hb p ⟨s', c', h1, h2, _, h4, rfl⟩
    rw [Ptr.add_add, ← Nat.add_assoc, hadr]
    exact Reg.mk (by omega) (by omega) h4
  have hreg3 : ∀ {a b d e : ℕ}, b ≤ o.p → e ≤ o.m → ∀ p, (∃ t s c, a ≤ t ∧ t < b ∧ d ≤ s ∧ s < e ∧ c < o.C ∧
      p = W + (o.S * (o.m * t + s) + c)) → o.Reg W o.p p := by
    rintro a b d e hb he p ⟨t, s, c, h1, h2, h3, h4, h5, rfl⟩
    exact Reg.mk (by omega) (by omega) h5
  -- the twiddle step and the rest
  have fin : ∀ m3 : Mem, mem.Upd m3 (o.Reg W o.p) →
      o.InnerRowsC m3 W (fun c j => mem.val (f + (o.S * j + c))) r → ∀ (cont : Cmd Unit),
      (∀ m4 m5 : Mem, m4.Upd m5 (o.Reg W o.p) →
        (∀ t < o.p, ∀ s < o.m, ∀ c < o.C, m5.val (W + (o.S * (o.m * t + s) + c)) =
          m4.val (W + (o.S * (o.m * t + s) + c)) * w o.M (s * (o.n * t + r : ℕ))) → True) →
      (∀ m4 : Mem, m4.size = mem.size → cont.Ok m4 (fun _ m5 => m4.Upd m5 (o.Reg W o.p) ∧
        (∀ t < o.p, ∀ s < o.m, ∀ c < o.C, m5.val (W + (o.S * (o.m * t + s) + c)) =
          m4.val (W + (o.S * (o.m * t + s) + c)) * w o.M (s * (o.n * t + r : ℕ))))) →
      Cmd.Ok (do o.fftpMany o.fftp W; cont; seqLoop (rng 0 o.p) fun t => o.fftm.exec (W + o.Sm * t) (F + o.Sm * t)) m3
        (fun _ m' => o.FwdPost mem m' f F W r) := by
    intro m3 u3 hrow cont _ hcont
    refine Cmd.Ok.bind (fftpMany_ok h hplan (fun t ht s hs c hc => Mem.valid_of_size u3.size (vW t ht s hs c hc)) ?_)
    intro m4 u4 e4
    refine Cmd.Ok.bind ((hcont m4 (u4.size.trans u3.size)).mono ?_)
    rintro _ m5 ⟨u5, e5⟩
    refine finish_inner h hp hS pre ((u3.trans u4 (fun _ h => h) (fun _ h => h)).trans u5 (fun _ h => h) (fun _ h => h)) ?_
    intro t ht s hs c hc
    rw [e5 t ht s hs c hc, e4 t ht s hs c hc, ← inner_alg h.M_eq hqpn (by omega) (by have := h.q_pos; omega)]
    congr 1
    refine sum_congr rfl fun u hu => ?_
    rw [hrow u (mem_range.1 hu) s hs c hc]
  have hRq : ∀ t < o.p, o.n * t + r < o.q := fun t ht => by rw [hqpn, Nat.mul_comm o.p]; exact radix_lt hrn ht
  unfold forwardInnerMany
  simp only [hW]
  by_cases hr : r = 0
  · subst hr
    rw [if_pos rfl]
    refine Cmd.Ok.bind (par3 (W := W) (m₀ := o.m) hCS le_rfl (fun t s c => mem.val (f + (o.S * (o.m * t + s) + c))) ?_ ?_ ?_ ?_)
    · intro t s c _ h2 _ h4 h5; body_simp; rw [hadr]
      exact ⟨vf _ (h.row_lt_L hp h2 h4) c h5, vW t (by omega) s h4 c h5⟩
    · intro t s c _ h2 _ h4 h5; body_simp; rw [hadr]
    · intro t s c _ h2 _ h4 h5 p; body_simp; rintro rfl; exact Or.inl (by simpa using hb)
    intro m1 u1 e1
    have hf1 : ∀ j : ℕ, m1.val (f + j) = mem.val (f + j) := fun j => u1.frame _ (by
      rintro ⟨_, _, _, _, _, _, _, _, h3⟩; exact hnf _ _ h3)
    refine Cmd.Ok.bind (copyCols_ok (W := W + o.Sm * (o.p - 1)) (f := f + o.Sm * (o.p - 1)) hCS (by simpa using hb) ?_ ?_ ?_)
    · intro s c _ h2 h3; rw [Ptr.add_add, ← Nat.add_assoc, hadr]
      exact Mem.valid_of_size u1.size (vW _ (by omega) s (by omega) c h3)
    · intro s c _ h2 h3; rw [Ptr.add_add, ← Nat.add_assoc, hadr]
      exact Mem.valid_of_size u1.size (vf _ (by omega) c h3)
    intro m2 u2 e2
    have hs2 := u2.size.trans u1.size
    refine Cmd.Ok.bind (zeroCols_ok (W := W + o.Sm * (o.p - 1)) hCS ?_ ?_)
    · intro s c _ h2 h3; rw [Ptr.add_add, ← Nat.add_assoc, hadr]
      exact Mem.valid_of_size hs2 (vW _ (by omega) s (by omega) c h3)
    intro m3 u3 e3
    refine fin m3 ((u1.trans u2 (hreg3 (by omega) le_rfl) (hreg1 (by omega))).trans u3 (fun _ h => h) (hreg1 le_rfl)) ?_ _
      (fun _ _ _ _ => trivial) ?_
    · intro t ht s hs c hc
      rcases Nat.lt_or_ge t (o.p - 1) with h1 | h1
      · rw [u3.frame _ (hni hs hc le_rfl (by omega)), u2.frame _ (hni hs hc (by omega) (by omega)),
          e1 t s c (by omega) h1 (by omega) hs hc, if_pos (by have := h.row_lt_L hp h1 hs; omega)]
        simp [Nat.add_comm s]
      · obtain rfl : t = o.p - 1 := by omega
        rcases Nat.lt_or_ge s (o.L - o.m * (o.p - 1)) with h2 | h2
        · rw [u3.frame _ (hni hs hc le_rfl (by omega))]
          have := e2 s c (by omega) h2 (by omega) hc
          rw [Ptr.add_add, Ptr.add_add, ← Nat.add_assoc, hadr] at this
          rw [this, hf1, if_pos (by omega)]
          simp [Nat.add_comm s]
        · have := e3 s c h2 hs (by omega) hc
          rw [Ptr.add_add, ← Nat.add_assoc, hadr] at this
          rw [this, if_neg (by omega)]
    · intro m4 hs4
      refine par3 (W := W) (m₀ := o.m) hCS le_rfl
        (fun t s c => m4.val (W + (o.S * (o.m * t + s) + c)) * w o.M (s * (o.n * t : ℕ))) ?_ ?_ ?_ ?_
      · intro t s c h1 h2 h3 h4 h5; body_simp; rw [hadr]
        have := Mem.valid_of_size hs4 (vW t h2 s h4 c h5)
        exact ⟨h.zq_bd hq (Nat.mul_pos h.n_pos h1) (hRq t h2) h4, this, this⟩
      · intro t s c h1 h2 h3 h4 h5; body_simp; rw [hadr, h.zq_val hq h4]
      · intro t s c h1 h2 h3 h4 h5 p; body_simp; rw [hadr]; rintro rfl; exact Or.inr rfl
      intro m5 u5 e5
      refine ⟨u5.mono (hreg3 le_rfl le_rfl), ?_⟩
      intro t ht s hs c hc
      by_cases h0 : 1 ≤ t ∧ 1 ≤ s
      · rw [e5 t s c h0.1 ht h0.2 hs hc, Nat.add_zero]
      · rw [u5.frame]
        · have : t = 0 ∨ s = 0 := by omega
          rcases this with rfl | rfl <;> simp
        · rintro ⟨t', s', c', h1, h2, h3', h4, h5, h3⟩
          rw [Ptr.add_inj] at h3
          have e1 := radix_inj (by omega) (by omega) h3
          have e2 := radix_inj (by omega) (by omega) e1.1
          omega
  · rw [if_neg hr]
    refine Cmd.Ok.bind (copyCols_ok hCS hb ?_ ?_ ?_)
    · intro s c _ h2 h3
      have := vW 0 (by omega) s h2 c h3
      rwa [Nat.mul_zero, Nat.zero_add] at this
    · intro s c _ h2 h3; exact vf s (by omega) c h3
    intro m0 u0 e0
    have hf0 : ∀ j : ℕ, m0.val (f + j) = mem.val (f + j) := fun j => u0.frame _ (by
      rintro ⟨_, _, _, _, _, _, h3⟩; exact hnf _ _ h3)
    refine Cmd.Ok.bind (par3 (W := W) (m₀ := o.m) hCS le_rfl
      (fun t s c => m0.val (f + (o.S * (o.m * t + s) + c)) * w o.q (r * t)) ?_ ?_ ?_ ?_)
    · intro t s c h1 h2 _ h4 h5; body_simp; rw [hadr]
      exact ⟨h.zqp_bd hp (by omega) hrn h1 (by omega), Mem.valid_of_size u0.size (vf _ (h.row_lt_L hp h2 h4) c h5),
        Mem.valid_of_size u0.size (vW t (by omega) s h4 c h5)⟩
    · intro t s c h1 h2 _ h4 h5; body_simp; rw [hadr, h.zqp_val hp h1 (by omega), mul_comm (w _ _)]
    · intro t s c _ h2 _ h4 h5 p; body_simp; rintro rfl; exact Or.inl (by simpa using hb)
    intro m1 u1 e1
    have hf1 : ∀ j : ℕ, m1.val (f + j) = mem.val (f + j) := fun j => by
      rw [← hf0]; exact u1.frame _ (by rintro ⟨_, _, _, _, _, _, _, _, h3⟩; exact hnf _ _ h3)
    have hs1 := u1.size.trans u0.size
    refine Cmd.Ok.bind (par2 (W := W + o.Sm * (o.p - 1)) hCS
      (fun s c => m1.val (f + (o.S * (o.m * (o.p - 1) + s) + c)) * w o.q (r * (o.p - 1 : ℕ))) ?_ ?_ ?_ ?_)
    · intro s c _ h2 _ h3; body_simp; rw [hadr]
      exact ⟨h.zqp_bd hp (by omega) hrn (by omega) (by omega), Mem.valid_of_size hs1 (vf _ (by omega) c h3),
        Mem.valid_of_size hs1 (vW _ (by omega) s (by omega) c h3)⟩
    · intro s c _ h2 _ h3; body_simp
      rw [C30_zmult_xy, hadr, h.zqp_val hp (by omega) (by omega), mul_comm (w _ _), ← Nat.add_assoc (o.Sm * _), hadr]
    · intro s c _ h2 _ h3 p; body_simp; rintro rfl; exact Or.inl (by simpa using hb)
    intro m2 u2 e2
    have hs2 := u2.size.trans hs1
    refine Cmd.Ok.bind (zeroCols_ok (W := W + o.Sm * (o.p - 1)) hCS ?_ ?_)
    · intro s c _ h2 h3; rw [Ptr.add_add, ← Nat.add_assoc, hadr]
      exact Mem.valid_of_size hs2 (vW _ (by omega) s (by omega) c h3)
    intro m3 u3 e3
    refine fin m3 (((u0.trans u1 (R := o.Reg W o.p) ?_ (hreg3 (by omega) le_rfl)).trans u2 (fun _ h => h)
      (hreg1 (by omega))).trans u3 (fun _ h => h) (hreg1 le_rfl)) ?_ _
      (fun _ _ _ _ => trivial) ?_
    · rintro p ⟨s, c, _, h2, _, h3, rfl⟩
      have := Reg.mk (o := o) (W := W) (K := o.p) (t := 0) (by omega) h2 h3
      rwa [Nat.mul_zero, Nat.zero_add] at this
    · intro t ht s hs c hc
      obtain rfl | h1 | h1 : t = 0 ∨ (1 ≤ t ∧ t < o.p - 1) ∨ o.p - 1 ≤ t := by omega
      · rw [u3.frame _ (hni hs hc le_rfl (by omega)), u2.frame _ (hni hs hc (by omega) (by omega)), u1.frame,
          Nat.mul_zero, Nat.zero_add, e0 s c (by omega) hs (by omega) hc, if_pos (by omega)]
        · simp
        · rintro ⟨t', s', c', h1, h2, h3', h4, h5, h3⟩
          rw [Ptr.add_inj] at h3
          have e1 := radix_inj (by omega) (by omega) h3
          have e2 := radix_inj (by omega) (by omega) e1.1
          omega
      · rw [u3.frame _ (hni hs hc le_rfl (by omega)), u2.frame _ (hni hs hc (by omega) (by omega)),
          e1 t s c h1.1 h1.2 (by omega) hs hc, hf0, if_pos (by have := h.row_lt_L hp h1.2 hs; omega)]
        simp [Nat.add_comm s]
      · obtain rfl : t = o.p - 1 := by omega
        rcases Nat.lt_or_ge s (o.L - o.m * (o.p - 1)) with h2 | h2
        · rw [u3.frame _ (hni hs hc le_rfl (by omega))]
          have := e2 s c (by omega) h2 (by omega) hc
          rw [Ptr.add_add, ← Nat.add_assoc, hadr] at this
          rw [this, hf1, if_pos (by omega)]
          simp [Nat.add_comm s]
        · have := e3 s c h2 hs (by omega) hc
          rw [Ptr.add_add, ← Nat.add_assoc, hadr] at this
          rw [this, if_neg (by omega)]
    · intro m4 hs4
      refine par3 (W := W) (m₀ := o.m) hCS le_rfl
        (fun t s c => m4.val (W + (o.S * (o.m * t + s) + c)) * w o.M (s * (o.n * t + r : ℕ))) ?_ ?_ ?_ ?_
      · intro t s c h1 h2 h3 h4 h5; body_simp; rw [hadr]
        have := Mem.valid_of_size hs4 (vW t h2 s h4 c h5)
        exact ⟨h.zq_bd hq (by omega) (hRq t h2) h4, this, this⟩
      · intro t s c h1 h2 h3 h4 h5; body_simp; rw [C30_zmult_xy, hadr, h.zq_val hq h4, mul_comm (w _ _)]
      · intro t s c h1 h2 h3 h4 h5 p; body_simp; rw [hadr]; rintro rfl; exact Or.inr rfl
      intro m5 u5 e5
      refine ⟨u5.mono (hreg3 le_rfl le_rfl), ?_⟩
      intro t ht s hs c hc
      by_cases h0 : 1 ≤ s
      · rw [e5 t s c (by omega) ht h0 hs hc]
      · rw [u5.frame]
        · obtain rfl : s = 0 := by omega
          simp
        · rintro ⟨t', s', c', h1, h2, h3', h4, h5, h3⟩
          rw [Ptr.add_inj] at h3
          have e1 := radix_inj (by omega) (by omega) h3
          have e2 := radix_inj (by omega) (by omega) e1.1
          omega

end Fft
end Fftwpp
