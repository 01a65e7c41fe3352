import Verif.Proof.HWF

/-! The interface of the calls of the Hermitian transforms; completion of `forward` by the complex-to-real transforms. -/

namespace Fftwpp

theorem Mem.dbl_congr {m m' : Mem} {p : Ptr} {i : ℕ} (h : m'.val (p + i / 2) = m.val (p + i / 2)) : m'.dbl p i = m.dbl p i := by
  unfold Mem.dbl; rw [h]

namespace Herm
open Finset ComplexConjugate
variable {o : Herm}

/-- Number of residues treated by the call with argument `r`. -/
def nd (o : Herm) (r : ℕ) : ℕ := if r = 0 then o.D0 else 2
/-- The residues (modulo `n`). -/
def kd (o : Herm) (r d : ℕ) : ℤ := if r = 0 then (if d = 0 then 0 else (o.n / 2 : ℕ)) else if d = 0 then r else -r
/-- The arguments `r` of the residue loop. -/
def Visit (o : Herm) (r : ℕ) : Prop := r = 0 ∨ (o.q ≠ 1 ∧ 2 * r < o.n)

/-- Precondition of a call of `forward` or `backward`. -/
structure Pre (o : Herm) (mem : Mem) (f F W : Ptr) (r : ℕ) : Prop where
  fF : f.buf ≠ F.buf
  fW : f.buf ≠ W.buf
  sep : SepPtr o.inplace W F
  vf : ∀ j < o.H, ∀ c < o.C, mem.valid (f + (o.C * j + c))
  vF : ∀ i < o.b * o.nd r, mem.valid (F + i)
  vW : ∀ i < o.Bw * o.nd r, mem.valid (W + i)

/-- Postcondition of `forward`. -/
structure FwdPost (o : Herm) (mem m' : Mem) (f F W : Ptr) (r : ℕ) : Prop where
  upd : mem.Upd m' (fun p => InArr F (o.b * o.nd r) p ∨ InArr W (o.Bw * o.nd r) p)
  out : ∀ d < o.nd r, ∀ u < o.P, ∀ l < o.m, ∀ c < o.C, (mem.val (f + c)).im = 0 →
    ((m'.dbl (F + o.b * d) (o.C * (o.m * u + l) + c) : ℝ) : ℂ) =
    hdft o.M o.H (fun j => mem.val (f + (o.C * j + c))) (o.q * l + (o.n * u + o.kd r d))

/-- Postcondition of `backward`. -/
structure BwdPost (o : Herm) (mem m' : Mem) (F f W : Ptr) (r : ℕ) : Prop where
  upd : mem.Upd m' (fun p => InArr f (o.C * o.H) p ∨ InArr F (o.b * o.nd r) p ∨ InArr W (o.Bw * o.nd r) p)
  out : ∀ j < o.H, ∀ c < o.C, m'.val (f + (o.C * j + c)) =
    (if r = 0 then 0 else mem.val (f + (o.C * j + c))) +
      ∑ d ∈ range (o.nd r), ∑ u ∈ range o.P, ∑ l ∈ range o.m,
        ((mem.dbl (F + o.b * d) (o.C * (o.m * u + l) + c) : ℝ) : ℂ) * w o.M (-((j : ℤ) * (o.q * l + (o.n * u + o.kd r d))))

theorem WF.q_pos (h : o.WF) : 0 < o.q := by rw [h.q_eq]; exact Nat.mul_pos h.P_pos h.n_pos

theorem WF.H_facts (h : o.WF) : 0 < o.H ∧ o.H ≤ o.P * o.m ∧ 2 * o.H ≤ o.L + 1 ∧ o.L ≤ 2 * o.H := by
  have hL := h.L_pos
  have h1 : o.H = (o.L + 1) / 2 := by unfold H ceilquotient; rfl
  have hub := h.p_ub
  have hm := h.m_pos
  refine ⟨by omega, ?_, by omega, by omega⟩
  rcases h.cases with ⟨hq, hp, _⟩ | ⟨_, _, hp, _⟩
  · have : o.P = 1 := by unfold P; rw [if_pos hq]
    rw [hp] at hub
    rw [this]; omega
  · rw [hp, show o.m * (2 * o.P) = 2 * (o.P * o.m) by ring] at hub
    omega

theorem nd_pos (h : o.WF) (r : ℕ) : 0 < o.nd r ∧ o.nd r ≤ 2 := by
  unfold nd; rw [h.D0_eq]; split_ifs <;> omega

/-- Cells of the work blocks (block, row, position, copy). -/
def RH (o : Herm) (nd : ℕ) (x : ℕ × ℕ × ℕ × ℕ) : Prop := x.1 < nd ∧ x.2.1 < o.P ∧ x.2.2.1 < o.e ∧ x.2.2.2 < o.C
/-- The word of a cell. -/
def dH (o : Herm) (W : Ptr) (x : ℕ × ℕ × ℕ × ℕ) : Ptr := W + (o.Bw * x.1 + (o.C * (o.e * x.2.1 + x.2.2.1) + x.2.2.2))
/-- The value of a cell after the folding stages. -/
noncomputable def TH (o : Herm) (x : ℕ → ℕ → ℂ) (k : ℕ → ℤ) (i : ℕ × ℕ × ℕ × ℕ) : ℂ :=
  fold o.M o.m o.P o.H (x i.2.2.2) (o.n * i.2.1 + k i.1) i.2.2.1

theorem WF.cell_lt (h : o.WF) {t s c : ℕ} (ht : t < o.P) (hs : s < o.e) (hc : c < o.C) : o.C * (o.e * t + s) + c < o.Bw := by
  have := radix_lt hc (radix_lt hs ht)
  have h2 := h.Bw_le
  rw [← h.e_eq] at h2
  omega

theorem dH_inj (h : o.WF) {nd : ℕ} {W : Ptr} : ∀ k k', o.RH nd k → o.RH nd k' → o.dH W k = o.dH W k' → k = k' := by
  rintro ⟨d, t, s, c⟩ ⟨d', t', s', c'⟩ ⟨a1, a2, a3, a4⟩ ⟨b1, b2, b3, b4⟩ e
  simp only at a1 a2 a3 a4 b1 b2 b3 b4
  unfold dH at e
  rw [Ptr.add_inj] at e
  simp only at e
  obtain ⟨e1, e2⟩ := radix_inj (h.cell_lt a2 a3 a4) (h.cell_lt b2 b3 b4) e
  obtain ⟨e3, e4⟩ := radix_inj a4 b4 e2
  obtain ⟨e5, e6⟩ := radix_inj a3 b3 e3
  rw [e1, e4, e5, e6]

theorem dH_buf {W : Ptr} (k : ℕ × ℕ × ℕ × ℕ) : (o.dH W k).buf = W.buf := rfl

/-- The half spectrum of the folded data is one of real data, and its transform is the wanted one. -/
theorem WF.row (h : o.WF) {x : ℕ → ℂ} (h0 : (x 0).im = 0) {u : ℕ} {k : ℤ} {X : ℕ → ℂ}
    (hX : ∀ s < o.m / 2 + 1, X s = fold o.M o.m o.P o.H x (o.n * u + k) s) :
    RPlan.realSpec o.m X ∧ ∀ l : ℕ, (((∑ s ∈ range o.m, RPlan.full o.m X s * w o.m (s * l)).re : ℝ) : ℂ) =
      hdft o.M o.H x (o.q * l + (o.n * u + k)) := by
  have hm := h.m_pos
  have hfull : ∀ s < o.m, RPlan.full o.m X s = fold o.M o.m o.P o.H x (o.n * u + k) s := by
    intro s hs
    unfold RPlan.full
    split_ifs with hse
    · exact hX s hse
    · rw [hX _ (by omega), fold_conj hm h0 _ (by omega) (by omega)]
      congr 1; omega
  refine ⟨⟨?_, fun he => ?_⟩, fun l => ?_⟩
  · rw [hX 0 (by omega)]; exact fold_zero_real h.H_facts.2.1 h0 _
  · rw [hX _ (by omega), ← Complex.conj_eq_iff_im, fold_conj hm h0 _ (by omega) (by omega)]
    congr 1; omega
  · have e : ∑ s ∈ range o.m, RPlan.full o.m X s * w o.m (s * l) = hdft o.M o.H x (o.q * l + (o.n * u + k)) := by
      rw [h.M_eq, ← fold_sum hm h.q_pos h.H_facts.2.1]
      refine sum_congr rfl fun s hs => ?_
      rw [hfull s (mem_range.1 hs), h.M_eq]
    rw [e]
    exact Complex.conj_eq_iff_re.1 (Complex.conj_eq_iff_im.2 (hdft_real h0 _))

/-- The second work array. -/
theorem WF.V_eq (h : o.WF) {F W : Ptr} (hs : SepPtr o.inplace W F) : o.V F W = W + o.Bw := by
  unfold V
  split_ifs with hW
  · rcases hs with ⟨h1, _⟩ | ⟨_, h2⟩
    · rw [h.b_Bw h1, hW]
    · exact absurd (by rw [hW]) h2
  · rfl

theorem InArr.mono {F : Ptr} {a b : ℕ} (hab : a ≤ b) {p : Ptr} (h : InArr F a p) : InArr F b p := by
  obtain ⟨i, hi, rfl⟩ := h; exact ⟨i, by omega, rfl⟩

theorem InArr.shift {F : Ptr} {a b k : ℕ} (hab : k + a ≤ b) {p : Ptr} (h : InArr (F + k) a p) : InArr F b p := by
  obtain ⟨i, hi, rfl⟩ := h; exact ⟨k + i, by omega, by rw [Ptr.add_add]⟩

/-- One complex-to-real call. -/
theorem c2r_block (h : o.WF) {mem m1 : Mem} {f F W : Ptr} {r : ℕ} {K d : ℕ} (pre : o.Pre mem f F W r) (hK : d < K) (hKr : K ≤ o.nd r)
    (hsz : m1.size = mem.size)
    (hval : ∀ u < o.P, ∀ s < o.e, ∀ c < o.C, m1.val (W + (o.Bw * d + (o.C * (o.e * u + s) + c))) =
      fold o.M o.m o.P o.H (fun j => mem.val (f + (o.C * j + c))) (o.n * u + o.kd r d) s) {Q : Unit → Mem → Prop}
    (hQ : ∀ m', m1.Upd m' (fun p => InArr (W + o.Bw * d) (o.C * (o.e * o.P)) p ∨ InArr (F + o.b * d) ((o.C * (o.m * o.P) + 1) / 2) p) →
      (∀ u < o.P, ∀ l < o.m, ∀ c < o.C, (mem.val (f + c)).im = 0 →
        ((m'.dbl (F + o.b * d) (o.C * (o.m * u + l) + c) : ℝ) : ℂ) =
        hdft o.M o.H (fun j => mem.val (f + (o.C * j + c))) (o.q * l + (o.n * u + o.kd r d))) → Q () m') :
    (o.crfftm.c2r (W + o.Bw * d) (F + o.b * d)).Ok m1 Q := by
  have hBw := h.Bw_le
  have hb := h.b_le
  have e1 : o.Bw * (d + 1) ≤ o.Bw * o.nd r := Nat.mul_le_mul_left _ (by omega)
  have e2 : o.b * (d + 1) ≤ o.b * o.nd r := Nat.mul_le_mul_left _ (by omega)
  rw [Nat.mul_succ] at e1 e2
  refine RPlan.c2r_ok h.geoc ?_ ?_ ?_ ?_
  · rw [h.inc]
    rcases pre.sep with ⟨h1, h2⟩ | ⟨h1, h2⟩
    · exact Or.inl ⟨h1, by rw [h2, h.b_Bw h1]⟩
    · exact Or.inr ⟨h1, by simpa using h2⟩
  · intro i hi
    rw [Ptr.add_add]
    exact Mem.valid_of_size hsz (pre.vW _ (by omega))
  · intro i hi
    rw [Ptr.add_add]
    exact Mem.valid_of_size hsz (pre.vF _ (by omega))
  · intro m' u e
    rw [← h.e_eq] at u
    refine hQ m' u fun t ht l hl c hc h0 => ?_
    have hr := h.row (x := fun j => mem.val (f + (o.C * j + c))) (by simpa using h0) (u := t) (k := o.kd r d)
      (X := fun s => m1.val (W + o.Bw * d + (o.C * ((o.m / 2 + 1) * t + s) + c))) (fun s hs => by
        rw [← h.e_eq] at hs ⊢
        rw [Ptr.add_add]; exact hval t ht s hs c hc)
    rw [e t ht c hc hr.1 l hl, hr.2 l]

/-- Completion of `forward`, one residue. -/
theorem finish1 (h : o.WF) {mem m1 : Mem} {f F W : Ptr} {r : ℕ} (pre : o.Pre mem f F W r) (hnd : o.nd r = 1)
    (hfill : Fills mem m1 (o.RH 1) (o.dH W) (o.TH (fun c j => mem.val (f + (o.C * j + c))) (o.kd r)) (fun _ => True)) :
    (o.crfftm.c2r W F).Ok m1 (fun _ m' => o.FwdPost mem m' f F W r) := by
  have hBw := h.Bw_le
  have hb := h.b_le
  rw [← h.e_eq] at hBw
  have key := c2r_block h pre (K := 1) (d := 0) (by omega) (by omega) hfill.size (fun u hu s hs c hc =>
    hfill.got (0, u, s, c) ⟨by simp, hu, hs, hc⟩ trivial) (Q := fun _ m' => o.FwdPost mem m' f F W r) ?_
  · simpa [Ptr.add_zero] using key
  · intro m' u e
    rw [Nat.mul_zero, Nat.mul_zero] at u
    simp only [show W + 0 = W from Ptr.add_zero _, show F + 0 = F from Ptr.add_zero _] at u
    refine ⟨hfill.upd.trans u ?_ ?_, ?_⟩
    · rintro p ⟨⟨d, t, s, c⟩, ⟨h1, h2, h3, h4⟩, rfl⟩
      simp only at h1 h2 h3 h4
      obtain rfl : d = 0 := by omega
      refine Or.inr ⟨_, ?_, rfl⟩
      simp only [Nat.mul_zero, Nat.zero_add, hnd, Nat.mul_one]
      exact h.cell_lt h2 h3 h4
    · rintro p (hp | hp)
      · exact Or.inr (InArr.mono (by rw [hnd]; omega) hp)
      · exact Or.inl (InArr.mono (by rw [hnd]; omega) hp)
    · intro d hd u hu l hl c hc h0
      obtain rfl : d = 0 := by omega
      exact e u hu l hl c hc h0

/-- Completion of `forward`, two residues. -/
theorem finish2 (h : o.WF) {mem m1 : Mem} {f F W : Ptr} {r : ℕ} (pre : o.Pre mem f F W r) (hnd : o.nd r = 2)
    (hfill : Fills mem m1 (o.RH 2) (o.dH W) (o.TH (fun c j => mem.val (f + (o.C * j + c))) (o.kd r)) (fun _ => True)) :
    Cmd.Ok (do o.crfftm.c2r W F; o.crfftm.c2r (W + o.Bw) (F + o.b)) m1 (fun _ m' => o.FwdPost mem m' f F W r) := by
  have hBw := h.Bw_le
  have hb := h.b_le
  rw [← h.e_eq] at hBw
  have k1 := fun Q hQ => c2r_block h pre (K := 2) (d := 0) (by omega) (by omega) hfill.size (fun u hu s hs c hc =>
    hfill.got (0, u, s, c) ⟨by simp, hu, hs, hc⟩ trivial) (Q := Q) hQ
  rw [Nat.mul_zero, Nat.mul_zero] at k1
  simp only [show W + 0 = W from Ptr.add_zero _, show F + 0 = F from Ptr.add_zero _] at k1
  refine Cmd.Ok.bind (k1 _ fun m2 u2 e2 => ?_)
  have k2 := fun Q hQ => c2r_block h pre (m1 := m2) (K := 2) (d := 1) (by omega) (by omega) (u2.size.trans hfill.size) (fun u hu s hs c hc => by
    rw [u2.frame]
    · exact hfill.got (1, u, s, c) ⟨by simp, hu, hs, hc⟩ trivial
    · have := h.cell_lt hu hs hc
      rintro (⟨i, hi, e⟩ | ⟨i, hi, e⟩)
      · rw [Ptr.add_inj] at e; omega
      · rcases pre.sep with ⟨s1, s2⟩ | ⟨s1, s2⟩
        · rw [s2, Ptr.add_inj] at e
          have := h.b_Bw s1
          omega
        · exact s2 (by simpa using congrArg Ptr.buf e)) (Q := Q) hQ
  rw [Nat.mul_one, Nat.mul_one] at k2
  refine k2 _ fun m3 u3 e3 => ?_
  refine ⟨(hfill.upd.trans u2 (R := fun p => InArr F (o.b * o.nd r) p ∨ InArr W (o.Bw * o.nd r) p) ?_ ?_).trans u3 (fun _ hp => hp) ?_, ?_⟩
  · rintro p ⟨⟨d, t, s, c⟩, ⟨h1, h2, h3, h4⟩, rfl⟩
    simp only at h1 h2 h3 h4
    refine Or.inr ⟨_, ?_, rfl⟩
    rw [hnd]
    exact radix_lt (h.cell_lt h2 h3 h4) h1
  · rintro p (hp | hp)
    · exact Or.inr (InArr.mono (by rw [hnd]; omega) hp)
    · exact Or.inl (InArr.mono (by rw [hnd]; omega) hp)
  · rintro p (hp | hp)
    · exact Or.inr (InArr.shift (by rw [hnd]; omega) hp)
    · exact Or.inl (InArr.shift (by rw [hnd]; omega) hp)
  · intro d hd u hu l hl c hc h0
    obtain rfl | rfl : d = 0 ∨ d = 1 := by omega
    · rw [Nat.mul_zero]
      rw [← e2 u hu l hl c hc h0]
      simp only [show F + 0 = F from Ptr.add_zero _]
      congr 1
      apply Mem.dbl_congr
      apply u3.frame
      have hlt : (o.C * (o.m * u + l) + c) / 2 < (o.C * (o.m * o.P) + 1) / 2 := by
        have := radix_lt hc (radix_lt hl hu); omega
      rintro (⟨i, hi, e⟩ | ⟨i, hi, e⟩)
      · rcases pre.sep with ⟨s1, s2⟩ | ⟨s1, s2⟩
        · rw [s2, Ptr.add_add, Ptr.add_inj] at e
          have := h.b_Bw s1
          omega
        · exact s2 (by simpa using (congrArg Ptr.buf e).symm)
      · rw [Ptr.add_add, Ptr.add_inj] at e; omega
    · simpa using e3 u hu l hl c hc h0

end Herm
end Fftwpp
