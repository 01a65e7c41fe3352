import Verif.Proof.Many

/-! `forwardExplicit`, `forwardInner` and the strided versions. -/

namespace Fftwpp
open Finset

/-- A single transform (`fft1d`). -/
theorem exec_one {n : ℕ} {sgn : ℤ} {inplace : Bool} {W F : Ptr} {m : Mem} (hs : SepPtr inplace W F)
    (hW : ∀ i < n, m.valid (W + i)) (hF : ∀ i < n, m.valid (F + i)) {Q : Unit → Mem → Prop}
    (hQ : ∀ m', m.Upd m' (fun p => ∃ i < n, p = F + i) →
      (∀ i < n, m'.val (F + i) = ∑ s ∈ range n, m.val (W + s) * w n (sgn * s * i)) →
      Q () m') :
    ((Plan.mk n sgn 1 1 0 inplace).exec W F).Ok m Q := by
  have hadr : ∀ (p : Ptr) (c j : ℕ), Plan.addr ⟨n, sgn, 1, 1, 0, inplace⟩ p c j = p + j := by
    intro p c j; simp only [Plan.addr]; congr 1; ring
  refine (Plan.exec_ok hs.dec ⟨?_, ?_, ?_⟩).mono ?_
  · intro c hc j hj
    simp only at hc hj
    rw [hadr, hadr]
    exact ⟨hW _ hj, hF _ hj⟩
  · intro c hc j hj c' hc' j' hj' he
    simp only at hc hj hc' hj'
    rw [hadr, hadr, Ptr.add_inj] at he
    omega
  · rcases hs with ⟨_, h2⟩ | ⟨_, h2⟩
    · exact Or.inl h2
    · right
      intro c _ j _ c' _ j' _
      exact Ptr.ne_of_buf (by simpa [Plan.addr] using h2)
  · rintro _ m' ⟨h1, h2, h3⟩
    refine hQ m' ⟨h1, ?_⟩ ?_
    · intro p hp
      apply h3
      intro c hc j hj he
      rw [hadr] at he
      exact hp ⟨j, hj, he⟩
    · intro i hi
      have := h2 0 (by simp) i hi
      simp only [hadr] at this
      exact this

/-- Algebra of the inner transforms. -/
theorem inner_alg {M L m p q n : ℕ} (hM : M = m * q) (hq : q = p * n) (hm : m ≠ 0) (hq0 : q ≠ 0) (x : ℕ → ℂ)
    (r t s : ℕ) :
    (∑ u ∈ range p, (if s + m * u < L then x (s + m * u) * w q (r * u) else 0) * w p (1 * u * t)) * w M (s * ((n * t + r : ℕ) : ℤ))
      = fillv M L m p x ((n * t + r : ℕ) : ℤ) s := by
  have hn : n ≠ 0 := by rintro rfl; simp at hq; omega
  unfold fillv
  rw [sum_mul]
  refine sum_congr rfl fun u _ => ?_
  split_ifs with h
  · rw [mul_assoc, mul_assoc]
    congr 1
    have h1 : w p (1 * u * t) = w M ((m * n : ℕ) * (1 * u * t)) := by
      rw [hM, hq, show m * (p * n) = p * (m * n) by ring, w_base]
      exact Nat.mul_ne_zero hm hn
    have h2 : w q (r * u) = w M ((m : ℕ) * (r * u)) := by
      rw [hM, Nat.mul_comm m q, w_base _ _ hm]
    rw [h1, h2, ← w_add, ← w_add]
    congr 1
    push_cast
    ring
  · simp

namespace Fft
open ComplexConjugate
variable {o : Fft}

theorem WF.explicit (h : o.WF) (hq : o.q = 1) : o.p = 1 ∧ o.P = 1 ∧ o.D = 1 ∧ o.M = o.m ∧ o.n = 1 := by
  have hp := h.p_of_q hq
  have hP := h.P_one (by omega : o.p ≤ 2)
  refine ⟨hp, hP, ?_, ?_, ?_⟩
  · by_contra hD
    exact h.q_ne_one hD (by omega) hq
  · rw [h.M_eq, hq, Nat.mul_one]
  · rw [← h.q_n (by omega), hq]

theorem WF.visit_explicit (h : o.WF) (hq : o.q = 1) {r : ℕ} (hv : o.Visit r) : r = 0 := by
  obtain ⟨_, _, h3, _, h5⟩ := h.explicit hq
  have := h.r_lt h3 hv
  omega

theorem forwardExplicit_ok (h : o.WF) (hq : o.q = 1) (hS : o.S = 1) {f F W : Ptr} {mem : Mem} {r : ℕ}
    {W? : Option Ptr} (hW : W?.getD F = W) (pre : o.Pre mem f F W) (hv : o.Visit r) :
    (o.forwardExplicit f F W?).Ok mem (fun _ m' => o.FwdPost mem m' f F W r) := by
  obtain ⟨hp, hP, hD, hM, hn⟩ := h.explicit hq
  obtain rfl := h.visit_explicit hq hv
  have hC := h.C_one hS
  have hL := h.p_ub
  rw [hp, Nat.mul_one] at hL
  have hPD : o.P * o.D = 1 := by rw [hP, hD]
  have vf : ∀ j < o.L, mem.valid (f + j) := fun j hj => by
    have := pre.vf j hj 0 h.C_pos; rwa [hS, Nat.one_mul, Nat.add_zero] at this
  have vW : ∀ i < o.m, mem.valid (W + i) := fun i hi => by
    have := pre.vW i (by rw [hPD]; omega) 0 h.C_pos; rwa [hS, Nat.one_mul, Nat.add_zero] at this
  have vF : ∀ i < o.m, mem.valid (F + i) := fun i hi => by
    have := pre.vF i (by rw [hPD]; omega) 0 h.C_pos; rwa [hS, Nat.one_mul, Nat.add_zero] at this
  have hne : ∀ i j : ℕ, W + i ≠ f + j := fun i j => Ptr.ne_of_buf (by simpa using pre.fW.symm)
  unfold forwardExplicit
  simp only [hW]
  refine Cmd.Ok.bind (copyRow_ok hne (fun s _ h2 => vW s (by omega)) (fun s _ h2 => vf s h2) ?_)
  intro m1 u1 e1
  refine Cmd.Ok.bind (zeroRow_ok (fun s h1 h2 => Mem.valid_of_size u1.size (vW s (by omega))) ?_)
  intro m2 u2 e2
  rw [(h.fftm_1 hq hS).1]
  have hsz := u2.size.trans u1.size
  refine exec_one pre.sep (fun i hi => Mem.valid_of_size hsz (vW i hi)) (fun i hi => Mem.valid_of_size hsz (vF i hi)) ?_
  intro m3 u3 e3
  have hreg : ∀ (p : Ptr) s, s < o.m → o.Reg p (o.P * o.D) (p + s) := fun p s hs =>
    ⟨s, by rw [hPD]; omega, 0, h.C_pos, by rw [hS]; simp⟩
  refine ⟨(u1.trans u2 (R := fun p => o.Reg F (o.P * o.D) p ∨ o.Reg W (o.P * o.D) p) ?_ ?_).trans u3 (fun _ h => h) ?_, ?_, ?_⟩
  · rintro p ⟨s, _, hs, rfl⟩; exact Or.inr (hreg W s (by omega))
  · rintro p ⟨s, _, hs, rfl⟩; exact Or.inr (hreg W s (by omega))
  · rintro p ⟨s, hs, rfl⟩; exact Or.inl (hreg F s (by omega))
  · intro ρ hρ s hs c hc
    rw [h.rows_D1 hD, hP] at hρ
    obtain rfl : ρ = 0 := by omega
    obtain rfl : c = 0 := by omega
    rw [hS, h.res_D1 hD 0 (by omega)]
    simp only [Nat.mul_zero, Nat.zero_add, Nat.one_mul, Nat.add_zero]
    rw [e3 s hs, ← row_fft h.M_eq (by have := h.m_pos; omega) (by have := h.q_pos; omega) h.p_ub]
    refine sum_congr rfl fun s' hs' => ?_
    rw [mem_range] at hs'
    rw [hp, fillv_one]
    congr 1
    split_ifs with h1
    · rw [u2.frame (W + s') (by ptr), e1 s' (by omega) h1]; simp
    · exact e2 s' (by omega) (by omega)
  · intro _ hq'; exact absurd hq hq'

theorem forwardExplicitMany_ok (h : o.WF) (hq : o.q = 1) (hS : o.S ≠ 1) {f F W : Ptr} {mem : Mem} {r : ℕ}
    {W? : Option Ptr} (hW : W?.getD F = W) (pre : o.Pre mem f F W) (hv : o.Visit r) :
    (o.forwardExplicitMany f F W?).Ok mem (fun _ m' => o.FwdPost mem m' f F W r) := by
  obtain ⟨hp, hP, hD, hM, hn⟩ := h.explicit hq
  obtain rfl := h.visit_explicit hq hv
  have hCS := h.C_le_S
  have hL := h.p_ub
  rw [hp, Nat.mul_one] at hL
  have hPD : o.P * o.D = 1 := by rw [hP, hD]
  have vf := pre.vf
  have vW := pre.vW
  rw [hPD, Nat.mul_one] at vW
  unfold forwardExplicitMany
  simp only [hW]
  refine Cmd.Ok.bind (copyCols_ok hCS pre.fW (fun s c _ h2 h3 => vW s (by omega) c h3) (fun s c _ h2 h3 => vf s h2 c h3) ?_)
  intro m1 u1 e1
  unfold padMany
  refine Cmd.Ok.bind (zeroCols_ok hCS (fun s c h1 h2 h3 => Mem.valid_of_size u1.size (vW s (by rw [hp] at h2; omega) c h3)) ?_)
  intro m2 u2 e2
  rw [hp, Nat.mul_one] at u2 e2
  refine finish_cols h hS hP pre (u1.trans u2 ?_ ?_) ?_ (fun _ hq' => absurd hq hq')
  · rintro p ⟨s, c, h1, h2, _, h4, rfl⟩; exact ⟨s, by omega, c, h4, rfl⟩
  · rintro p ⟨s, c, h1, h2, _, h4, rfl⟩; exact ⟨s, by omega, c, h4, rfl⟩
  · intro ρ hρ s hs c hc
    obtain rfl : ρ = 0 := by omega
    rw [hp, fillv_one, Nat.mul_zero, Nat.zero_add]
    split_ifs with h1
    · rw [u2.frame, e1 s c (by omega) h1 (by omega) hc]; simp
      rintro ⟨s', c', h1, h2, _, h4, h3⟩
      rw [Ptr.add_inj] at h3
      have := radix_inj (by omega) (by omega) h3
      omega
    · exact e2 s c (by omega) hs (by omega) hc

/-- The step shared by all residues of the inner transforms: rows hold the data times `w q (r t)`; then transform over `t`. -/
def InnerRows (o : Fft) (m : Mem) (F : Ptr) (x : ℕ → ℂ) (r : ℕ) : Prop :=
  ∀ t < o.p, ∀ s < o.m, m.val (F + (o.m * t + s)) = if s + o.m * t < o.L then x (s + o.m * t) * w o.q (r * t) else 0

theorem WF.inner_L (h : o.WF) (hp : 2 < o.p) : o.m * (o.p - 1) < o.L ∧ o.L ≤ o.m * (o.p - 1) + o.m := by
  refine ⟨h.p_lb, ?_⟩
  have := h.p_ub
  obtain ⟨k, hk⟩ : ∃ k, o.p = k + 1 := ⟨o.p - 1, by omega⟩
  rw [hk] at this ⊢
  simpa [Nat.mul_succ] using this

theorem WF.row_lt_L (h : o.WF) (hp : 2 < o.p) {t s : ℕ} (ht : t < o.p - 1) (hs : s < o.m) : o.m * t + s < o.L := by
  have h1 := radix_lt hs ht
  have := h.p_lb
  omega

/-- Transform over the `p` blocks and twiddle (`S=1`). -/
theorem inner_fft (h : o.WF) (hp : 2 < o.p) (hS : o.S = 1) {F : Ptr} {m1 : Mem} {x : ℕ → ℂ} {r : ℕ}
    (hF : ∀ i < o.m * o.p, m1.valid (F + i)) (hrow : o.InnerRows m1 F x r) {Q : Unit → Mem → Prop}
    (hQ : ∀ m', m1.Upd m' (o.RowReg F o.p) → (∀ t < o.p, ∀ s < o.m, m'.val (F + (o.m * t + s)) =
      ∑ u ∈ range o.p, (if s + o.m * u < o.L then x (s + o.m * u) * w o.q (r * u) else 0) * w o.p (1 * u * t)) → Q () m') :
    (o.fftp.exec F F).Ok m1 Q := by
  have hC := h.C_one hS
  rw [(h.fftp_C hp (by omega)).1, hC, Nat.one_mul]
  refine exec_cols le_rfl (Or.inl ⟨rfl, rfl⟩) (fun i hi c hc => hF _ (radix_lt hc hi)) (fun i hi c hc => hF _ (radix_lt hc hi)) ?_
  intro m' u e
  refine hQ m' (u.mono ?_) ?_
  · rintro p ⟨t, ht, s, hs, rfl⟩; exact ⟨t, ht, s, hs, rfl⟩
  · intro t ht s hs
    rw [e t ht s hs]
    refine sum_congr rfl fun u hu => ?_
    rw [hrow u (mem_range.1 hu) s hs]

theorem forwardInnerZero_ok (h : o.WF) (hp : 2 < o.p) (hq : o.q ≠ 1) (hS : o.S = 1) {f W : Ptr} {mem : Mem}
    (hb : f.buf ≠ W.buf) (hf : ∀ j < o.L, mem.valid (f + j)) (hW : ∀ i < o.m * o.p, mem.valid (W + i))
    {Q : Unit → Mem → Prop}
    (hQ : ∀ m', mem.Upd m' (o.RowReg W o.p) → o.Filled m' W (fun j => mem.val (f + j))
      (fun t => ((o.n * t + 0 : ℕ) : ℤ)) o.p → Q () m') :
    (o.forwardInnerZero f W).Ok mem Q := by
  have hm := h.m_pos
  obtain ⟨hL1, hL2⟩ := h.inner_L hp
  have hWv : ∀ t < o.p, ∀ s < o.m, mem.valid (W + (o.m * t + s)) := fun t ht s hs => hW _ (radix_lt hs ht)
  have hqpn : o.q = o.p * o.n := by rw [h.q_eq, h.P_p (by omega)]
  unfold forwardInnerZero
  simp only
  refine Cmd.Ok.bind (par2 (W := W) le_rfl (fun t s => mem.val (f + (o.m * t + s))) ?_ ?_ ?_ ?_)
  · intro t s _ h2 _ h4; body_simp
    exact ⟨hf _ (h.row_lt_L hp h2 h4), hWv t (by omega) s h4⟩
  · intro t s _ h2 _ h4; body_simp
  · intro t s _ h2 _ h4 p; body_simp; rintro rfl; exact Or.inl (by simpa using hb)
  intro m1 u1 e1
  have hf1 : ∀ j : ℕ, m1.val (f + j) = mem.val (f + j) := fun j => u1.frame _ (by
    rintro ⟨_, _, _, _, _, _, h3⟩; exact hb (by simpa using congrArg Ptr.buf h3))
  simp only [Ptr.add_add]
  refine Cmd.Ok.bind (par_at (W := W) (fun s => o.m * (o.p - 1) + s) (fun s => m1.val (f + (o.m * (o.p - 1) + s)))
    (rng_nodup _ _) ?_ ?_ (fun i _ j _ h => by omega) ?_ ?_)
  · intro s hs; rw [mem_rng] at hs; body_simp
    exact ⟨Mem.valid_of_size u1.size (hf _ (by omega)), Mem.valid_of_size u1.size (hWv _ (by omega) s (by omega))⟩
  · intro s hs; body_simp
  · intro s hs p; body_simp; rintro rfl; exact Or.inl (by simpa using hb)
  intro m2 u2 e2
  have hs2 := u2.size.trans u1.size
  refine Cmd.Ok.bind (par_at (W := W) (fun s => o.m * (o.p - 1) + s) (fun s => 0)
    (rng_nodup _ _) ?_ ?_ (fun i _ j _ h => by omega) ?_ ?_)
  · intro s hs; rw [mem_rng] at hs; body_simp
    exact Mem.valid_of_size hs2 (hWv _ (by omega) s (by omega))
  · intro s hs; body_simp
  · intro s hs p; body_simp; exact fun h => h.elim
  intro m3 u3 e3
  have hs3 := u3.size.trans hs2
  have hrow : o.InnerRows m3 W (fun j => mem.val (f + j)) 0 := by
    intro t ht s hs
    rcases Nat.lt_or_ge t (o.p - 1) with h1 | h1
    · rw [u3.frame, u2.frame, e1 t s (by omega) h1 (by omega) hs, if_pos (by have := h.row_lt_L hp h1 hs; omega)]
      · simp [Nat.add_comm]
      · rintro ⟨s', hs', h3⟩
        rw [mem_rng] at hs'; rw [Ptr.add_inj] at h3
        have := radix_inj (by omega) (by omega) h3; omega
      · rintro ⟨s', hs', h3⟩
        rw [mem_rng] at hs'; rw [Ptr.add_inj] at h3
        have := radix_inj (by omega) (by omega) h3; omega
    · obtain rfl : t = o.p - 1 := by omega
      rcases Nat.lt_or_ge s (o.L - o.m * (o.p - 1)) with h2 | h2
      · rw [u3.frame, e2 s (mem_rng.2 ⟨by omega, h2⟩), hf1, if_pos (by omega)]
        · simp [Nat.add_comm]
        · rintro ⟨s', hs', h3⟩
          rw [mem_rng] at hs'; rw [Ptr.add_inj] at h3
          omega
      · rw [e3 s (mem_rng.2 ⟨h2, hs⟩), if_neg (by omega)]
  refine Cmd.Ok.bind (inner_fft h hp hS (fun i hi => Mem.valid_of_size hs3 (hW i hi)) hrow ?_)
  intro m4 u4 e4
  have hs4 := u4.size.trans hs3
  refine par2 (W := W) le_rfl (fun t s => m4.val (W + (o.m * t + s)) * w o.M (s * (o.n * t : ℕ))) ?_ ?_ ?_ ?_
  · intro t s h1 h2 h3 h4; body_simp
    refine ⟨Mem.valid_of_size hs4 (hWv t (by omega) s h4), h.zq_bd hq (Nat.mul_pos h.n_pos h1) ?_ h4,
      Mem.valid_of_size hs4 (hWv t (by omega) s h4)⟩
    rw [hqpn, Nat.mul_comm]
    exact Nat.mul_lt_mul_of_pos_right h2 h.n_pos
  · intro t s h1 h2 h3 h4; body_simp; rw [h.zq_val hq h4]
  · intro t s h1 h2 h3 h4 p; body_simp; rintro rfl; exact Or.inr rfl
  intro m5 u5 e5
  refine hQ m5 ((((u1.trans u2 (R := o.RowReg W o.p) ?_ ?_).trans u3 (fun _ h => h) ?_).trans u4 (fun _ h => h) (fun _ h => h)).trans
    u5 (fun _ h => h) ?_) ?_
  · rintro p ⟨t, s, _, h2, _, h4, rfl⟩; exact ⟨t, by omega, s, h4, rfl⟩
  · rintro p ⟨s, hs, rfl⟩; rw [mem_rng] at hs; exact ⟨_, by omega, s, by omega, rfl⟩
  · rintro p ⟨s, hs, rfl⟩; rw [mem_rng] at hs; exact ⟨_, by omega, s, by omega, rfl⟩
  · rintro p ⟨t, s, _, h2, _, h4, rfl⟩; exact ⟨t, by omega, s, h4, rfl⟩
  · intro t ht s hs
    rw [← inner_alg h.M_eq hqpn (by omega) (by have := h.q_pos; omega), ← e4 t ht s hs]
    by_cases h0 : 1 ≤ t ∧ 1 ≤ s
    · rw [e5 t s h0.1 ht h0.2 hs, Nat.add_zero]
    · rw [u5.frame]
      · have : t = 0 ∨ s = 0 := by omega
        rcases this with rfl | rfl <;> simp
      · rintro ⟨t', s', h1, h2, h3', h4, h3⟩
        rw [Ptr.add_inj] at h3
        have := radix_inj (by omega) (by omega) h3
        omega

theorem forwardInnerOne_ok (h : o.WF) (hp : 2 < o.p) (hq : o.q ≠ 1) (hS : o.S = 1) {f W : Ptr} {mem : Mem} {r : ℕ}
    (hr : 0 < r) (hrn : r < o.n)
    (hb : f.buf ≠ W.buf) (hf : ∀ j < o.L, mem.valid (f + j)) (hW : ∀ i < o.m * o.p, mem.valid (W + i))
    {Q : Unit → Mem → Prop}
    (hQ : ∀ m', mem.Upd m' (o.RowReg W o.p) → o.Filled m' W (fun j => mem.val (f + j))
      (fun t => ((o.n * t + r : ℕ) : ℤ)) o.p → Q () m') :
    (o.forwardInnerOne f W r).Ok mem Q := by
  have hm := h.m_pos
  obtain ⟨hL1, hL2⟩ := h.inner_L hp
  have hWv : ∀ t < o.p, ∀ s < o.m, mem.valid (W + (o.m * t + s)) := fun t ht s hs => hW _ (radix_lt hs ht)
  have hqpn : o.q = o.p * o.n := by rw [h.q_eq, h.P_p (by omega)]
  have hne : ∀ i j : ℕ, W + i ≠ f + j := fun i j => Ptr.ne_of_buf (by simpa using hb.symm)
  have hmL : o.m < o.L := by
    have := h.row_lt_L hp (t := 1) (s := 0) (by omega) hm
    omega
  unfold forwardInnerOne
  simp only
  refine Cmd.Ok.bind (copyRow_ok hne (fun s _ h2 => ?_) (fun s _ h2 => hf s (by omega)) ?_)
  · have := hWv 0 (by omega) s h2; rwa [Nat.mul_zero, Nat.zero_add] at this
  intro m0 u0 e0
  have hf0 : ∀ j : ℕ, m0.val (f + j) = mem.val (f + j) := fun j => u0.frame _ (by
    rintro ⟨_, _, _, h3⟩; exact hne _ _ h3.symm)
  refine Cmd.Ok.bind (par2 (W := W) le_rfl (fun t s => m0.val (f + (o.m * t + s)) * w o.q (r * t)) ?_ ?_ ?_ ?_)
  · intro t s h1 h2 _ h4; body_simp
    exact ⟨h.zqp_bd hp hr hrn h1 (by omega), Mem.valid_of_size u0.size (hf _ (h.row_lt_L hp h2 h4)),
      Mem.valid_of_size u0.size (hWv t (by omega) s h4)⟩
  · intro t s h1 h2 _ h4; body_simp; rw [h.zqp_val hp h1 (by omega), mul_comm (w _ _)]
  · intro t s _ h2 _ h4 p; body_simp; rintro rfl; exact Or.inl (by simpa using hb)
  intro m1 u1 e1
  have hf1 : ∀ j : ℕ, m1.val (f + j) = mem.val (f + j) := fun j => by
    rw [← hf0]
    exact u1.frame _ (by rintro ⟨_, _, _, _, _, _, h3⟩; exact hb (by simpa using congrArg Ptr.buf h3))
  have hs1 := u1.size.trans u0.size
  simp only [Ptr.add_add]
  refine Cmd.Ok.bind (par_at (W := W) (fun s => o.m * (o.p - 1) + s)
    (fun s => m1.val (f + (o.m * (o.p - 1) + s)) * w o.q (r * (o.p - 1 : ℕ)))
    (rng_nodup _ _) ?_ ?_ (fun i _ j _ h => by omega) ?_ ?_)
  · intro s hs; rw [mem_rng] at hs; body_simp
    exact ⟨h.zqp_bd hp hr hrn (by omega) (by omega), Mem.valid_of_size hs1 (hf _ (by omega)),
      Mem.valid_of_size hs1 (hWv _ (by omega) s (by omega))⟩
  · intro s hs; body_simp; rw [h.zqp_val hp (by omega) (by omega), mul_comm (w _ _)]
  · intro s hs p; body_simp; rintro rfl; exact Or.inl (by simpa using hb)
  intro m2 u2 e2
  have hs2 := u2.size.trans hs1
  refine Cmd.Ok.bind (par_at (W := W) (fun s => o.m * (o.p - 1) + s) (fun s => 0)
    (rng_nodup _ _) ?_ ?_ (fun i _ j _ h => by omega) ?_ ?_)
  · intro s hs; rw [mem_rng] at hs; body_simp
    exact Mem.valid_of_size hs2 (hWv _ (by omega) s (by omega))
  · intro s hs; body_simp
  · intro s hs p; body_simp; exact fun h => h.elim
  intro m3 u3 e3
  have hs3 := u3.size.trans hs2
  have hn2 : ∀ t < o.p - 1, ∀ s < o.m, ∀ a b : ℕ, b ≤ o.m → ¬ ∃ i ∈ rng a b, W + (o.m * t + s) = W + (o.m * (o.p - 1) + i) := by
    rintro t ht s hs a b hb' ⟨s', hs', h3⟩
    rw [mem_rng] at hs'; rw [Ptr.add_inj] at h3
    have := radix_inj (by omega) (by omega) h3; omega
  have hrow : o.InnerRows m3 W (fun j => mem.val (f + j)) r := by
    intro t ht s hs
    obtain rfl | h1 | h1 : t = 0 ∨ (1 ≤ t ∧ t < o.p - 1) ∨ o.p - 1 ≤ t := by omega
    · rw [u3.frame _ (hn2 _ (by omega) _ hs _ _ (by omega)), u2.frame _ (hn2 _ (by omega) _ hs _ _ (by omega)), u1.frame,
        Nat.mul_zero, Nat.zero_add, e0 s (by omega) hs, if_pos (by omega)]
      · simp
      · rintro ⟨t', s', h1, h2, h3', h4, h3⟩
        rw [Ptr.add_inj] at h3
        have := radix_inj (by omega) (by omega) h3
        omega
    · rw [u3.frame _ (hn2 _ (by omega) _ hs _ _ (by omega)), u2.frame _ (hn2 _ (by omega) _ hs _ _ (by omega)),
        e1 t s h1.1 h1.2 (by omega) hs, hf0, if_pos (by have := h.row_lt_L hp h1.2 hs; omega)]
      simp [Nat.add_comm]
    · obtain rfl : t = o.p - 1 := by omega
      rcases Nat.lt_or_ge s (o.L - o.m * (o.p - 1)) with h2 | h2
      · rw [u3.frame, e2 s (mem_rng.2 ⟨by omega, h2⟩), hf1, if_pos (by omega)]
        · simp [Nat.add_comm]
        · rintro ⟨s', hs', h3⟩
          rw [mem_rng] at hs'; rw [Ptr.add_inj] at h3
          omega
      · rw [e3 s (mem_rng.2 ⟨h2, hs⟩), if_neg (by omega)]
  refine Cmd.Ok.bind (inner_fft h hp hS (fun i hi => Mem.valid_of_size hs3 (hW i hi)) hrow ?_)
  intro m4 u4 e4
  have hs4 := u4.size.trans hs3
  refine par2 (W := W) le_rfl (fun t s => m4.val (W + (o.m * t + s)) * w o.M (s * (o.n * t + r : ℕ))) ?_ ?_ ?_ ?_
  · intro t s h1 h2 h3 h4; body_simp
    refine ⟨Mem.valid_of_size hs4 (hWv t (by omega) s h4), h.zq_bd hq (by omega) ?_ h4,
      Mem.valid_of_size hs4 (hWv t (by omega) s h4)⟩
    rw [hqpn, Nat.mul_comm o.p]
    exact radix_lt hrn h2
  · intro t s h1 h2 h3 h4; body_simp; rw [h.zq_val hq h4]
  · intro t s h1 h2 h3 h4 p; body_simp; rintro rfl; exact Or.inr rfl
  intro m5 u5 e5
  refine hQ m5 (((((u0.trans u1 (R := o.RowReg W o.p) ?_ ?_).trans u2 (fun _ h => h) ?_).trans u3 (fun _ h => h) ?_).trans u4
    (fun _ h => h) (fun _ h => h)).trans u5 (fun _ h => h) ?_) ?_
  · rintro p ⟨s, _, hs, rfl⟩; exact ⟨0, by omega, s, hs, by simp⟩
  · rintro p ⟨t, s, _, h2, _, h4, rfl⟩; exact ⟨t, by omega, s, h4, rfl⟩
  · rintro p ⟨s, hs, rfl⟩; rw [mem_rng] at hs; exact ⟨_, by omega, s, by omega, rfl⟩
  · rintro p ⟨s, hs, rfl⟩; rw [mem_rng] at hs; exact ⟨_, by omega, s, by omega, rfl⟩
  · rintro p ⟨t, s, _, h2, _, h4, rfl⟩; exact ⟨t, by omega, s, h4, rfl⟩
  · intro t ht s hs
    rw [← inner_alg h.M_eq hqpn (by omega) (by have := h.q_pos; omega), ← e4 t ht s hs]
    by_cases h0 : 1 ≤ s
    · rw [e5 t s (by omega) ht h0 hs]
    · rw [u5.frame]
      · obtain rfl : s = 0 := by omega
        simp
      · rintro ⟨t', s', h1, h2, h3', h4, h3⟩
        rw [Ptr.add_inj] at h3
        have := radix_inj (by omega) (by omega) h3
        omega

theorem WF.res_inner (h : o.WF) (hp : 2 < o.p) (r d : ℕ) {t : ℕ} (ht : t < o.p) :
    o.res r (o.p * d + t) = ((o.n * t + (r + d) : ℕ) : ℤ) := by
  unfold res; rw [h.conj_false_iff.2 (Or.inr hp)]
  simp only [Bool.false_eq_true, if_false]
  rw [h.P_p (by omega), Nat.mul_add_mod, Nat.mod_eq_of_lt ht, Nat.mul_add_div (by omega), Nat.div_eq_of_lt ht, Nat.add_zero]

/-- The loop over the residues of a block. -/
theorem innerLoop_ok (h : o.WF) (hp : 2 < o.p) (hq : o.q ≠ 1) (hS : o.S = 1) {f W : Ptr} {mem : Mem} {r n' : ℕ}
    (hr : 0 < r) (hrn : r + n' ≤ o.n) (hb : f.buf ≠ W.buf) (hf : ∀ j < o.L, mem.valid (f + j))
    (hW : ∀ i < o.m * (o.p * n'), mem.valid (W + i)) {Q : Unit → Mem → Prop}
    (hQ : ∀ m', mem.Upd m' (o.RowReg W (o.p * n')) → o.Filled m' W (fun j => mem.val (f + j)) (o.res r) (o.p * n') → Q () m') :
    (seqLoop (rng 0 n') fun d => o.forwardInnerOne f (W + o.b * d) (r + d)).Ok mem Q := by
  have hbeq : ∀ d, o.b * d = o.p * d * o.m := fun d => by
    rw [h.b_eq, h.l_eq, hS, h.P_p (by omega)]; ring
  simp only [hbeq]
  refine seqLoop_rng (fun d m' => mem.Upd m' (o.RowReg W (o.p * d)) ∧
    o.Filled m' W (fun j => mem.val (f + j)) (o.res r) (o.p * d)) ⟨Mem.Upd.refl _ _, fun ρ hρ => by simp at hρ⟩ ?_ ?_
  · rintro d m1 hd ⟨u1, f1⟩
    have hle : o.p * (d + 1) ≤ o.p * n' := Nat.mul_le_mul_left _ hd
    rw [Nat.mul_succ] at hle
    refine forwardInnerOne_ok h hp hq hS (by omega) (by omega) (by simpa using hb)
      (fun j hj => Mem.valid_of_size u1.size (hf j hj)) (fun i hi => ?_) ?_
    · rw [Ptr.add_add]
      refine Mem.valid_of_size u1.size (hW _ (lt_of_lt_of_le ?_ (Nat.mul_le_mul_left _ hle)))
      rw [Nat.mul_add, Nat.mul_comm (o.p * d)]; omega
    intro m2 u2 f2
    have hfr : ∀ j : ℕ, m1.val (f + j) = mem.val (f + j) := fun j => u1.frame _ (by
      rintro ⟨_, _, _, _, h3⟩; exact hb (by simpa using congrArg Ptr.buf h3))
    simp only [hfr] at f2
    rw [Nat.mul_succ]
    refine ⟨u1.trans u2 (fun p hp => hp.mono (by omega)) (fun p hp => hp.shift), (f1.frame u2).append f2 ?_⟩
    intro ρ hρ
    exact h.res_inner hp r d hρ
  · rintro m1 ⟨u1, f1⟩; exact hQ m1 u1 f1

theorem forwardInner_ok (h : o.WF) (hp : 2 < o.p) (hq : o.q ≠ 1) (hS : o.S = 1) {f F W : Ptr} {mem : Mem} {r : ℕ}
    {W? : Option Ptr} (hW : W?.getD F = W) (pre : o.Pre mem f F W) (hv : o.Visit r) :
    (o.forwardInner f F r W?).Ok mem (fun _ m' => o.FwdPost mem m' f F W r) := by
  have hP := h.P_p (by omega : o.p ≠ 2)
  have hcj := h.conj_false_iff.2 (Or.inr hp)
  have vf : ∀ j < o.L, mem.valid (f + j) := fun j hj => by
    have := pre.vf j hj 0 h.C_pos; rwa [hS, Nat.one_mul, Nat.add_zero] at this
  have vW : ∀ i < o.m * (o.p * o.D), mem.valid (W + i) := fun i hi => by
    have := pre.vW i (by rw [hP]; exact hi) 0 h.C_pos; rwa [hS, Nat.one_mul, Nat.add_zero] at this
  have hne : ∀ i j : ℕ, W + i ≠ f + j := fun i j => Ptr.ne_of_buf (by simpa using pre.fW.symm)
  have hpadv : ∀ m', o.Padded m' W := fun m' _ _ hp1 => by omega
  have hD0 := h.D0_pos
  have hDD := h.D0_le
  obtain ⟨t, ht⟩ := h.n_D0
  have hD0n : o.D0 ≤ o.n := by have := Nat.zero_le (t * o.D); omega
  have hbm : o.b = o.p * o.m := by rw [h.b_eq, h.l_eq, hS, hP]; ring
  unfold forwardInner
  simp only [hW]
  by_cases hr : r = 0
  · subst hr
    rw [if_pos rfl]
    have hle0 : o.p * 1 ≤ o.p * o.D := Nat.mul_le_mul_left _ h.D_pos
    rw [Nat.mul_one] at hle0
    refine Cmd.Ok.bind (forwardInnerZero_ok h hp hq hS pre.fW vf
      (fun i hi => vW i (lt_of_lt_of_le hi (Nat.mul_le_mul_left _ hle0))) ?_)
    intro m1 u1 f1
    have hfr : ∀ j : ℕ, m1.val (f + j) = mem.val (f + j) := fun j => u1.frame _ (by
      rintro ⟨_, _, _, _, h3⟩; exact hne _ _ h3.symm)
    have hrows : o.rows 0 = o.p + o.p * (o.D0 - 1) := by
      unfold rows; rw [hP, if_pos rfl]
      obtain ⟨k, hk⟩ : ∃ k, o.D0 = k + 1 := ⟨o.D0 - 1, by omega⟩
      rw [hk]; simp; ring
    have hKD := h.rows_le 0
    rw [hP, hrows] at hKD
    refine Cmd.Ok.bind (innerLoop_ok (n' := o.D0 - 1) h hp hq hS (r := 1) (by omega) (by omega) (by simpa using pre.fW)
      (fun j hj => Mem.valid_of_size u1.size (vf j hj)) (fun i hi => ?_) ?_)
    · rw [Ptr.add_add]
      refine Mem.valid_of_size u1.size (vW _ (lt_of_lt_of_le ?_ (Nat.mul_le_mul_left _ hKD)))
      rw [Nat.mul_add, hbm, Nat.mul_comm o.p o.m]; omega
    intro m2 u2 f2
    simp only [hfr] at f2
    rw [hbm] at u2 f2
    have hfill : o.Filled m2 W (fun j => mem.val (f + j)) (o.res 0) (o.rows 0) := by
      rw [hrows]
      have f1' : o.Filled m1 W (fun j => mem.val (f + j)) (o.res 0) o.p := by
        intro ρ hρ s hs
        have := h.res_inner hp 0 0 hρ
        rw [Nat.mul_zero, Nat.zero_add] at this
        rw [f1 ρ hρ s hs, this]
      refine (f1'.frame u2).append f2 ?_
      intro ρ hρ
      have h1 : ρ = o.p * (ρ / o.p) + ρ % o.p := (Nat.div_add_mod _ _).symm
      have h2 : ρ % o.p < o.p := Nat.mod_lt _ (by omega)
      have e1 := h.res_inner hp 0 (ρ / o.p + 1) h2
      have e2 := h.res_inner hp 1 (ρ / o.p) h2
      rw [show o.p + ρ = o.p * (ρ / o.p + 1) + ρ % o.p by rw [Nat.mul_succ]; omega, e1]
      conv_rhs => rw [h1, e2]
      congr 1; ring
    have u12 : mem.Upd m2 (o.RowReg W (o.rows 0)) := by
      rw [hrows]; exact u1.trans u2 (fun p hp => hp.mono (by omega)) (fun p hp => hp.shift)
    have := finish_rows h hq hS (r := 0) pre (u12.mono fun p hp => hp.mono (h.rows_le 0)) hfill (hpadv _)
    simpa using this
  · rw [if_neg hr]
    have hvb := h.visit_bound hv (by omega)
    have hdr := h.dr_nconj hcj
    have hR := h.R_nconj hcj
    have hrows : o.rows r = o.p * o.D := by unfold rows; rw [hP, if_neg hr]
    refine Cmd.Ok.bind (innerLoop_ok h hp hq hS (by omega) (by omega) pre.fW vf (fun i hi => vW i (by rwa [hdr] at hi)) ?_)
    intro m2 u2 f2
    rw [hdr, ← hrows] at u2 f2
    have := finish_rows h hq hS (r := r) pre (u2.mono fun p hp => hp.mono (h.rows_le r)) f2 (hpadv _)
    rw [if_pos (Or.inl (by omega))] at this
    exact this

end Fft
end Fftwpp
