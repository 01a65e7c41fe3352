import Verif.Proof.BwdMany

/-! `backwardInner`. -/

namespace Fftwpp
open Finset ComplexConjugate

/-- Algebra of the inverse inner transforms. -/
theorem inner_alg_back {M m p q n : ℕ} (hM : M = m * q) (hq : q = p * n) (hm : m ≠ 0) (hq0 : q ≠ 0) (X : ℕ → ℂ)
    (r u s : ℕ) :
    conj (w q (r * u)) * ∑ t ∈ range p, X t * conj (w M (s * ((n * t + r : ℕ) : ℤ))) * w p (-1 * t * u) =
      ∑ t ∈ range p, w M (-(((s + m * u : ℕ) : ℤ) * ((n * t + r : ℕ) : ℤ))) * X t := by
  have hn : n ≠ 0 := by rintro rfl; simp at hq; omega
  rw [mul_sum]
  refine sum_congr rfl fun t _ => ?_
  have h1 : w p (-1 * t * u) = w M ((m * n : ℕ) * (-1 * t * u)) := by
    rw [hM, hq, show m * (p * n) = p * (m * n) by ring, w_base]
    exact Nat.mul_ne_zero hm hn
  have h2 : w q (-(r * u)) = w M ((m : ℕ) * (-(r * u))) := by
    rw [hM, Nat.mul_comm m q, w_base _ _ hm]
  rw [w_conj, w_conj, h1, h2]
  rw [show w M (↑m * (-(↑r * ↑u))) * (X t * w M (-(↑s * ↑(n * t + r))) * w M (↑(m * n) * (-1 * ↑t * ↑u))) =
    (w M (↑m * (-(↑r * ↑u))) * w M (-(↑s * ↑(n * t + r))) * w M (↑(m * n) * (-1 * ↑t * ↑u))) * X t by ring]
  rw [← w_add, ← w_add]
  congr 2
  push_cast
  ring

namespace Fft
variable {o : Fft}

/-- What one residue adds to `f[j]`. -/
noncomputable def isum (o : Fft) (m1 : Mem) (F : Ptr) (r j : ℕ) : ℂ :=
  ∑ t ∈ range o.p, w o.M (-((j : ℤ) * ((o.n * t + r : ℕ) : ℤ))) * m1.val (F + (o.m * t + j % o.m))

/-- Inverse transform over the `p` blocks (`S=1`). -/
theorem inner_ifft (h : o.WF) (hp : 2 < o.p) (hS : o.S = 1) {F : Ptr} {m1 : Mem}
    (hF : ∀ i < o.m * o.p, m1.valid (F + i)) {Q : Unit → Mem → Prop}
    (hQ : ∀ m', m1.Upd m' (o.RowReg F o.p) → (∀ t < o.p, ∀ s < o.m, m'.val (F + (o.m * t + s)) =
      ∑ u ∈ range o.p, m1.val (F + (o.m * u + s)) * w o.p (-1 * u * t)) → Q () m') :
    (o.ifftp.exec F F).Ok m1 Q := by
  have hC := h.C_one hS
  rw [(h.fftp_C hp (by omega)).2, hC, Nat.one_mul]
  refine exec_cols le_rfl (Or.inl ⟨rfl, rfl⟩) (fun i hi c hc => hF _ (radix_lt hc hi)) (fun i hi c hc => hF _ (radix_lt hc hi)) ?_
  intro m' u e
  refine hQ m' (u.mono ?_) e
  rintro p ⟨t, ht, s, hs, rfl⟩; exact ⟨t, ht, s, hs, rfl⟩

theorem backwardInnerZero_ok (h : o.WF) (hp : 2 < o.p) (hq : o.q ≠ 1) (hS : o.S = 1) {f W : Ptr} {mem : Mem}
    (hb : f.buf ≠ W.buf) (hf : ∀ j < o.L, mem.valid (f + j)) (hW : ∀ i < o.m * o.p, mem.valid (W + i))
    {Q : Unit → Mem → Prop}
    (hQ : ∀ m', mem.Upd m' (fun p => (∃ j < o.L, p = f + j) ∨ o.RowReg W o.p p) →
      (∀ j < o.L, m'.val (f + j) = o.isum mem W 0 j) → Q () m') :
    (o.backwardInnerZero f W).Ok mem Q := by
  have hm := h.m_pos
  obtain ⟨hL1, hL2⟩ := h.inner_L hp
  have hWv : ∀ t < o.p, ∀ s < o.m, mem.valid (W + (o.m * t + s)) := fun t ht s hs => hW _ (radix_lt hs ht)
  have hqpn : o.q = o.p * o.n := by rw [h.q_eq, h.P_p (by omega)]
  have hne : ∀ i j : ℕ, f + i ≠ W + j := fun i j => Ptr.ne_of_buf (by simpa using hb)
  unfold backwardInnerZero
  simp only
  refine Cmd.Ok.bind (par2 (W := W) le_rfl (fun t s => mem.val (W + (o.m * t + s)) * conj (w o.M (s * (o.n * t : ℕ)))) ?_ ?_ ?_ ?_)
  · intro t s h1 h2 h3 h4; body_simp
    refine ⟨hWv t (by omega) s h4, h.zq_bd hq (Nat.mul_pos h.n_pos h1) ?_ h4, hWv t (by omega) s h4⟩
    rw [hqpn, Nat.mul_comm]
    exact Nat.mul_lt_mul_of_pos_right h2 h.n_pos
  · intro t s h1 h2 h3 h4; body_simp; rw [h.zq_val hq h4]
  · intro t s h1 h2 h3 h4 p; body_simp; rintro rfl; exact Or.inr rfl
  intro m1 u1 e1
  have tw : ∀ t < o.p, ∀ s < o.m, m1.val (W + (o.m * t + s)) =
      mem.val (W + (o.m * t + s)) * conj (w o.M (s * (o.n * t + 0 : ℕ))) := by
    intro t ht s hs
    by_cases h0 : 1 ≤ t ∧ 1 ≤ s
    · rw [e1 t s h0.1 ht h0.2 hs, Nat.add_zero]
    · rw [u1.frame]
      · have : t = 0 ∨ s = 0 := by omega
        rcases this with rfl | rfl <;> simp
      · rintro ⟨t', s', h1, h2, h3', h4, h3⟩
        rw [Ptr.add_inj] at h3
        have := radix_inj (by omega) (by omega) h3
        omega
  refine Cmd.Ok.bind (inner_ifft h hp hS (fun i hi => Mem.valid_of_size u1.size (hW i hi)) ?_)
  intro m2 u2 e2
  have hs2 := u2.size.trans u1.size
  refine Cmd.Ok.bind (par2 (W := f) le_rfl (fun t s => m2.val (W + (o.m * t + s))) ?_ ?_ ?_ ?_)
  · intro t s _ h2 _ h4; body_simp
    exact ⟨Mem.valid_of_size hs2 (hWv t (by omega) s h4), Mem.valid_of_size hs2 (hf _ (h.row_lt_L hp h2 h4))⟩
  · intro t s _ h2 _ h4; body_simp
  · intro t s _ h2 _ h4 p; body_simp; rintro rfl; exact Or.inl (by simpa using hb.symm)
  intro m3 u3 e3
  have hs3 := u3.size.trans hs2
  have hW3 : ∀ j : ℕ, m3.val (W + j) = m2.val (W + j) := fun j => u3.frame _ (by
    rintro ⟨_, _, _, _, _, _, h3⟩; exact hb (by simpa using congrArg Ptr.buf h3.symm))
  simp only [Ptr.add_add]
  refine par_at (W := f) (fun s => o.m * (o.p - 1) + s) (fun s => m2.val (W + (o.m * (o.p - 1) + s)))
    (rng_nodup _ _) ?_ ?_ (fun i _ j _ h => by omega) ?_ ?_
  · intro s hs; rw [mem_rng] at hs; body_simp
    exact ⟨Mem.valid_of_size hs3 (hWv _ (by omega) s (by omega)), Mem.valid_of_size hs3 (hf _ (by omega))⟩
  · intro s hs; body_simp; rw [hW3]
  · intro s hs p; body_simp; rintro rfl; exact Or.inl (by simpa using hb.symm)
  intro m4 u4 e4
  refine hQ m4 (((u1.trans u2 (R := fun p => (∃ j < o.L, p = f + j) ∨ o.RowReg W o.p p) ?_ (fun _ h => Or.inr h)).trans u3
    (fun _ h => h) ?_).trans u4 (fun _ h => h) ?_) ?_
  · rintro p ⟨t, s, _, h2, _, h4, rfl⟩; exact Or.inr ⟨t, by omega, s, h4, rfl⟩
  · rintro p ⟨t, s, _, h2, _, h4, rfl⟩; exact Or.inl ⟨_, h.row_lt_L hp h2 h4, rfl⟩
  · rintro p ⟨s, hs, rfl⟩; rw [mem_rng] at hs; exact Or.inl ⟨_, by omega, rfl⟩
  · intro j hj
    have hs : j % o.m < o.m := Nat.mod_lt _ hm
    have hj' : o.m * (j / o.m) + j % o.m = j := Nat.div_add_mod _ _
    have hu : j / o.m < o.p := Nat.div_lt_of_lt_mul (by have := h.p_ub; omega)
    have key : m2.val (W + (o.m * (j / o.m) + j % o.m)) = o.isum mem W 0 j := by
      rw [e2 _ hu _ hs]
      have := inner_alg_back h.M_eq hqpn (by omega) (by have := h.q_pos; omega)
        (fun t => mem.val (W + (o.m * t + j % o.m))) 0 (j / o.m) (j % o.m)
      rw [show j % o.m + o.m * (j / o.m) = j by omega] at this
      unfold isum
      rw [← this]
      simp only [Nat.cast_zero, zero_mul, w_zero, map_one, one_mul]
      refine sum_congr rfl fun t ht => ?_
      rw [tw t (mem_range.1 ht) _ hs]
    rw [← key]
    rcases Nat.lt_or_ge (j / o.m) (o.p - 1) with h1 | h1
    · rw [u4.frame]
      · have := e3 (j / o.m) (j % o.m) (Nat.zero_le _) h1 (Nat.zero_le _) hs
        rwa [hj'] at this ⊢
      · rintro ⟨s', hs', h3⟩
        rw [mem_rng] at hs'; rw [Ptr.add_inj] at h3
        rw [← hj'] at h3
        have := radix_inj hs (by omega) h3; omega
    · have h2 : j / o.m = o.p - 1 := by omega
      rw [h2] at hj' ⊢
      have := e4 (j % o.m) (mem_rng.2 ⟨Nat.zero_le _, Nat.lt_sub_of_add_lt (by rw [Nat.add_comm, hj']; exact hj)⟩)
      rwa [hj'] at this ⊢

theorem backwardInnerOne_ok (h : o.WF) (hp : 2 < o.p) (hq : o.q ≠ 1) (hS : o.S = 1) {f W : Ptr} {mem : Mem} {r : ℕ}
    (hr : 0 < r) (hrn : r < o.n)
    (hb : f.buf ≠ W.buf) (hf : ∀ j < o.L, mem.valid (f + j)) (hW : ∀ i < o.m * o.p, mem.valid (W + i))
    {Q : Unit → Mem → Prop}
    (hQ : ∀ m', mem.Upd m' (fun p => (∃ j < o.L, p = f + j) ∨ o.RowReg W o.p p) →
      (∀ j < o.L, m'.val (f + j) = mem.val (f + j) + o.isum mem W r j) → Q () m') :
    (o.backwardInnerOne f W r).Ok mem Q := by
  have hm := h.m_pos
  obtain ⟨hL1, hL2⟩ := h.inner_L hp
  have hWv : ∀ t < o.p, ∀ s < o.m, mem.valid (W + (o.m * t + s)) := fun t ht s hs => hW _ (radix_lt hs ht)
  have hqpn : o.q = o.p * o.n := by rw [h.q_eq, h.P_p (by omega)]
  have hne : ∀ i j : ℕ, f + i ≠ W + j := fun i j => Ptr.ne_of_buf (by simpa using hb)
  have hmL : o.m < o.L := by
    have := h.row_lt_L hp (t := 1) (s := 0) (by omega) hm
    omega
  unfold backwardInnerOne
  simp only
  refine Cmd.Ok.bind (par2 (W := W) le_rfl (fun t s => mem.val (W + (o.m * t + s)) * conj (w o.M (s * (o.n * t + r : ℕ)))) ?_ ?_ ?_ ?_)
  · intro t s h1 h2 h3 h4; body_simp
    refine ⟨hWv t (by omega) s h4, h.zq_bd hq (by omega) ?_ h4, hWv t (by omega) s h4⟩
    rw [hqpn, Nat.mul_comm o.p]
    exact radix_lt hrn h2
  · intro t s h1 h2 h3 h4; body_simp; rw [h.zq_val hq h4]
  · intro t s h1 h2 h3 h4 p; body_simp; rintro rfl; exact Or.inr rfl
  intro m1 u1 e1
  have tw : ∀ t < o.p, ∀ s < o.m, m1.val (W + (o.m * t + s)) =
      mem.val (W + (o.m * t + s)) * conj (w o.M (s * (o.n * t + r : ℕ))) := by
    intro t ht s hs
    by_cases h0 : 1 ≤ s
    · rw [e1 t s (by omega) ht h0 hs]
    · rw [u1.frame]
      · obtain rfl : s = 0 := by omega
        simp
      · rintro ⟨t', s', h1, h2, h3', h4, h3⟩
        rw [Ptr.add_inj] at h3
        have := radix_inj (by omega) (by omega) h3
        omega
  refine Cmd.Ok.bind (inner_ifft h hp hS (fun i hi => Mem.valid_of_size u1.size (hW i hi)) ?_)
  intro m2 u2 e2
  have hs2 := u2.size.trans u1.size
  have hf2 : ∀ j : ℕ, m2.val (f + j) = mem.val (f + j) := fun j => by
    rw [u2.frame _ (by rintro ⟨_, _, _, _, h3⟩; exact hne _ _ h3),
      u1.frame _ (by rintro ⟨_, _, _, _, _, _, h3⟩; exact hne _ _ h3)]
  refine Cmd.Ok.bind (par_at (W := f) (fun s => s) (fun s => m2.val (f + s) + m2.val (W + s))
    (rng_nodup _ _) ?_ ?_ (fun i _ j _ h => h) ?_ ?_)
  · intro s hs; rw [mem_rng] at hs; body_simp
    have h1 := hWv 0 (by omega) s hs.2
    rw [Nat.mul_zero, Nat.zero_add] at h1
    exact ⟨Mem.valid_of_size hs2 (hf _ (by omega)), Mem.valid_of_size hs2 h1, Mem.valid_of_size hs2 (hf _ (by omega))⟩
  · intro s hs; body_simp
  · intro s hs p; body_simp
    rintro (rfl | rfl)
    · exact Or.inr rfl
    · exact Or.inl (by simpa using hb.symm)
  intro m3 u3 e3
  have hs3 := u3.size.trans hs2
  have hW3 : ∀ j : ℕ, m3.val (W + j) = m2.val (W + j) := fun j => u3.frame _ (by
    rintro ⟨_, _, h3⟩; exact hb (by simpa using congrArg Ptr.buf h3.symm))
  refine Cmd.Ok.bind (par2 (W := f) le_rfl
    (fun t s => m3.val (f + (o.m * t + s)) + conj (w o.q (r * t)) * m2.val (W + (o.m * t + s))) ?_ ?_ ?_ ?_)
  · intro t s h1 h2 _ h4; body_simp
    exact ⟨h.zqp_bd hp hr hrn h1 (by omega), Mem.valid_of_size hs3 (hf _ (h.row_lt_L hp h2 h4)),
      Mem.valid_of_size hs3 (hWv t (by omega) s h4), Mem.valid_of_size hs3 (hf _ (h.row_lt_L hp h2 h4))⟩
  · intro t s h1 h2 _ h4; body_simp; rw [h.zqp_val hp h1 (by omega), hW3]
  · intro t s _ h2 _ h4 p; body_simp
    rintro (rfl | rfl)
    · exact Or.inr rfl
    · exact Or.inl (by simpa using hb.symm)
  intro m4 u4 e4
  have hs4 := u4.size.trans hs3
  have hW4 : ∀ j : ℕ, m4.val (W + j) = m2.val (W + j) := fun j => by
    rw [u4.frame _ (by rintro ⟨_, _, _, _, _, _, h3⟩; exact hb (by simpa using congrArg Ptr.buf h3.symm)), hW3]
  simp only [Ptr.add_add]
  refine par_at (W := f) (fun s => o.m * (o.p - 1) + s) (fun s => m4.val (f + (o.m * (o.p - 1) + s)) +
    conj (w o.q (r * (o.p - 1 : ℕ))) * m2.val (W + (o.m * (o.p - 1) + s)))
    (rng_nodup _ _) ?_ ?_ (fun i _ j _ h => by omega) ?_ ?_
  · intro s hs; rw [mem_rng] at hs; body_simp
    exact ⟨h.zqp_bd hp hr hrn (by omega) (by omega), Mem.valid_of_size hs4 (hf _ (by omega)),
      Mem.valid_of_size hs4 (hWv _ (by omega) s (by omega)), Mem.valid_of_size hs4 (hf _ (by omega))⟩
  · intro s hs; body_simp; rw [h.zqp_val hp (by omega) (by omega), hW4]
  · intro s hs p; body_simp
    rintro (rfl | rfl)
    · exact Or.inr rfl
    · exact Or.inl (by simpa using hb.symm)
  intro m5 u5 e5
  refine hQ m5 ((((u1.trans u2 (R := fun p => (∃ j < o.L, p = f + j) ∨ o.RowReg W o.p p) ?_ (fun _ h => Or.inr h)).trans u3
    (fun _ h => h) ?_).trans u4 (fun _ h => h) ?_).trans u5 (fun _ h => h) ?_) ?_
  · rintro p ⟨t, s, _, h2, _, h4, rfl⟩; exact Or.inr ⟨t, by omega, s, h4, rfl⟩
  · rintro p ⟨s, hs, rfl⟩; rw [mem_rng] at hs; exact Or.inl ⟨_, by omega, rfl⟩
  · rintro p ⟨t, s, _, h2, _, h4, rfl⟩; exact Or.inl ⟨_, h.row_lt_L hp h2 h4, rfl⟩
  · rintro p ⟨s, hs, rfl⟩; rw [mem_rng] at hs; exact Or.inl ⟨_, by omega, rfl⟩
  · intro j hj
    have hs : j % o.m < o.m := Nat.mod_lt _ hm
    have hj' : o.m * (j / o.m) + j % o.m = j := Nat.div_add_mod _ _
    have hu : j / o.m < o.p := Nat.div_lt_of_lt_mul (by have := h.p_ub; omega)
    have key : conj (w o.q (r * (j / o.m : ℕ))) * m2.val (W + (o.m * (j / o.m) + j % o.m)) = o.isum mem W r j := by
      rw [e2 _ hu _ hs]
      have := inner_alg_back h.M_eq hqpn (by omega) (by have := h.q_pos; omega)
        (fun t => mem.val (W + (o.m * t + j % o.m))) r (j / o.m) (j % o.m)
      rw [show j % o.m + o.m * (j / o.m) = j by omega] at this
      unfold isum
      rw [← this]
      congr 1
      refine sum_congr rfl fun t ht => ?_
      rw [tw t (mem_range.1 ht) _ hs]
    rw [← key]
    have hn5 : j / o.m < o.p - 1 → ¬ ∃ i ∈ rng 0 (o.L - o.m * (o.p - 1)), f + j = f + (o.m * (o.p - 1) + i) := by
      rintro h1 ⟨s', hs', h3⟩
      rw [mem_rng] at hs'; rw [Ptr.add_inj] at h3
      rw [← hj'] at h3
      have := radix_inj hs (by omega) h3; omega
    have hn4 : ¬ (1 ≤ j / o.m ∧ j / o.m < o.p - 1) →
        ¬ ∃ s c, 1 ≤ s ∧ s < o.p - 1 ∧ 0 ≤ c ∧ c < o.m ∧ f + j = f + (o.m * s + c) := by
      rintro h1 ⟨t', s', h2, h4, _, hs', h3⟩
      rw [Ptr.add_inj] at h3
      rw [← hj'] at h3
      have := radix_inj hs (by omega) h3; omega
    have hn3 : 1 ≤ j / o.m → ¬ ∃ i ∈ rng 0 o.m, f + j = f + i := by
      rintro h1 ⟨s', hs', h3⟩
      rw [mem_rng] at hs'; rw [Ptr.add_inj] at h3
      subst h3
      rw [Nat.div_eq_of_lt hs'.2] at h1; omega
    obtain h1 | h1 | h1 : j / o.m = 0 ∨ (1 ≤ j / o.m ∧ j / o.m < o.p - 1) ∨ j / o.m = o.p - 1 := by
      generalize j / o.m = u at hu; omega
    · rw [u5.frame _ (hn5 (by omega)), u4.frame _ (hn4 (by omega)), h1]
      rw [h1, Nat.mul_zero, Nat.zero_add] at hj'
      rw [e3 j (mem_rng.2 ⟨by omega, by omega⟩), hf2, Nat.mul_zero, Nat.zero_add, hj']
      simp
    · rw [u5.frame _ (hn5 (by omega))]
      have := e4 (j / o.m) (j % o.m) h1.1 h1.2 (by omega) hs
      rw [hj'] at this ⊢
      rw [this, u3.frame _ (hn3 h1.1), hf2]
    · have := e5 (j % o.m) (mem_rng.2 ⟨Nat.zero_le _, Nat.lt_sub_of_add_lt (by rw [Nat.add_comm, ← h1, hj']; exact hj)⟩)
      rw [← h1, hj'] at this
      rw [hj', this, u4.frame _ (hn4 (by omega)), u3.frame _ (hn3 (by omega)), hf2]

/-- One block of `p` rows of the accumulation. -/
theorem bsum_block (h : o.WF) (hp : 2 < o.p) (hS : o.S = 1) {m1 : Mem} {W : Ptr} {r d j : ℕ} :
    o.bsum m1 W (o.res r) (o.p * (d + 1)) j 0 =
      o.bsum m1 W (o.res r) (o.p * d) j 0 + o.isum m1 (W + o.p * d * o.m) (r + d) j := by
  rw [bsum_S1 hS, bsum_S1 hS, Nat.mul_succ, sum_range_add]
  congr 1
  unfold isum
  refine sum_congr rfl fun t ht => ?_
  rw [h.res_inner hp r d (mem_range.1 ht), Ptr.add_add,
    show o.m * (o.p * d + t) + j % o.m = o.p * d * o.m + (o.m * t + j % o.m) by ring]

/-- The loop over the residues of a block: residues `r + d`, `a ≤ d < a+n'`. -/
theorem innerBackLoop_ok (h : o.WF) (hp : 2 < o.p) (hq : o.q ≠ 1) (hS : o.S = 1) {f W : Ptr} {mem : Mem} {r a n' : ℕ}
    (hr : 0 < r + a) (hrn : r + a + n' ≤ o.n) (hb : f.buf ≠ W.buf) (hf : ∀ j < o.L, mem.valid (f + j))
    (hW : ∀ i < o.m * (o.p * (a + n')), mem.valid (W + i)) {Q : Unit → Mem → Prop} {mem0 : Mem} {x : ℕ → ℂ}
    (h0 : ∀ j < o.L, mem.val (f + j) = x j + o.bsum mem0 W (o.res r) (o.p * a) j 0)
    (hfr : ∀ ρ, o.p * a ≤ ρ → ∀ s < o.m, mem.val (W + (o.m * ρ + s)) = mem0.val (W + (o.m * ρ + s)))
    (hQ : ∀ m', mem.Upd m' (fun p => (∃ j < o.L, p = f + j) ∨ o.RowReg W (o.p * (a + n')) p) →
      (∀ j < o.L, m'.val (f + j) = x j + o.bsum mem0 W (o.res r) (o.p * (a + n')) j 0) → Q () m') :
    (seqLoop (rng 0 n') fun d => o.backwardInnerOne f (W + o.p * (a + d) * o.m) (r + (a + d))).Ok mem Q := by
  refine seqLoop_rng (fun d m' => mem.Upd m' (fun p => (∃ j < o.L, p = f + j) ∨ o.RowReg W (o.p * (a + d)) p) ∧
    ∀ j < o.L, m'.val (f + j) = x j + o.bsum mem0 W (o.res r) (o.p * (a + d)) j 0)
    ⟨Mem.Upd.refl _ _, h0⟩ ?_ (fun m' hm' => hQ m' hm'.1 hm'.2)
  rintro d m1 hd ⟨u1, e1⟩
  have hle : o.p * (a + d + 1) ≤ o.p * (a + n') := Nat.mul_le_mul_left _ (by omega)
  rw [Nat.mul_succ] at hle
  refine backwardInnerOne_ok h hp hq hS (by omega) (by omega) (by simpa using hb)
    (fun j hj => Mem.valid_of_size u1.size (hf j hj)) (fun i hi => ?_) ?_
  · rw [Ptr.add_add]
    refine Mem.valid_of_size u1.size (hW _ (lt_of_lt_of_le ?_ (Nat.mul_le_mul_left _ hle)))
    rw [Nat.mul_add o.m, Nat.mul_comm (o.p * (a + d))]; omega
  intro m2 u2 e2
  refine ⟨u1.trans u2 ?_ ?_, ?_⟩
  · rintro p (hp | hp)
    · exact Or.inl hp
    · exact Or.inr (hp.mono (Nat.mul_le_mul_left _ (by omega)))
  · rintro p (hp | hp)
    · exact Or.inl hp
    · right
      have := hp.shift
      rwa [← Nat.mul_succ] at this
  · intro j hj
    rw [e2 j hj, e1 j hj, show a + (d + 1) = (a + d) + 1 from rfl, bsum_block h hp hS, _root_.add_assoc]
    congr 2
    unfold isum
    refine sum_congr rfl fun t ht => ?_
    congr 1
    have hs : j % o.m < o.m := Nat.mod_lt _ h.m_pos
    have hadr : o.p * (a + d) * o.m + (o.m * t + j % o.m) = o.m * (o.p * (a + d) + t) + j % o.m := by ring
    rw [Ptr.add_add, hadr, u1.frame]
    · refine hfr _ ?_ _ hs
      have : o.p * a ≤ o.p * (a + d) := Nat.mul_le_mul_left _ (by omega)
      omega
    · rintro (⟨j', _, h3⟩ | ⟨ρ', hρ', s', hs', h3⟩)
      · exact hb (by simpa using (congrArg Ptr.buf h3).symm)
      · rw [Ptr.add_inj] at h3
        have := radix_inj hs hs' h3
        omega

theorem backwardInner_ok (h : o.WF) (hp : 2 < o.p) (hq : o.q ≠ 1) (hS : o.S = 1) {f F W : Ptr} {mem : Mem} {r : ℕ}
    {W? : Option Ptr} (hW : W?.getD F = W) (pre : o.Pre mem f F W) (hv : o.Visit r) :
    (o.backwardInner F f r W?).Ok mem (fun _ m' => o.BwdPost mem m' F f W r) := by
  have hP := h.P_p (by omega : o.p ≠ 2)
  have hC := h.C_one hS
  have hcj := h.conj_false_iff.2 (Or.inr hp)
  have vf : ∀ j < o.L, mem.valid (f + j) := fun j hj => by
    have := pre.vf j hj 0 h.C_pos; rwa [hS, Nat.one_mul, Nat.add_zero] at this
  have vW : ∀ i < o.m * (o.p * o.D), mem.valid (W + i) := fun i hi => by
    have := pre.vW i (by rw [hP]; exact hi) 0 h.C_pos; rwa [hS, Nat.one_mul, Nat.add_zero] at this
  have hne : ∀ i j : ℕ, f + i ≠ W + j := fun i j => Ptr.ne_of_buf (by simpa using pre.fW)
  have hD0 := h.D0_pos
  have hDD := h.D0_le
  obtain ⟨t, ht⟩ := h.n_D0
  have hD0n : o.D0 ≤ o.n := by have := Nat.zero_le (t * o.D); omega
  have hbm : o.b = o.p * o.m := by rw [h.b_eq, h.l_eq, hS, hP]; ring
  have fin : ∀ m1 m' : Mem, mem.Upd m1 (o.Reg W (o.P * o.D)) → o.InvRows mem m1 F W (o.rows r) →
      m1.Upd m' (fun p => (∃ j < o.L, p = f + j) ∨ o.RowReg W (o.p * o.D) p) →
      (∀ j < o.L, m'.val (f + j) = (if r = 0 then 0 else mem.val (f + j)) + o.bsum m1 W (o.res r) (o.rows r) j 0) →
      o.BwdPost mem m' F f W r := by
    intro m1 m' u1 hin u' e'
    refine finish_back h (u1.trans u' (fun p hp => Or.inr (Or.inr hp)) ?_) hin ?_
    · rintro p (⟨j, hj, rfl⟩ | ⟨ρ, hρ, s, hs, rfl⟩)
      · exact Or.inl ⟨j, hj, 0, h.C_pos, by rw [hS]; simp⟩
      · exact Or.inr (Or.inr ⟨o.m * ρ + s, radix_lt hs (by rw [hP]; exact hρ), 0, h.C_pos, by rw [hS]; simp⟩)
    · intro j hj c hc
      obtain rfl : c = 0 := by omega
      have := e' j hj
      rwa [hS, Nat.one_mul, Nat.add_zero]
  unfold backwardInner
  simp only [hW]
  refine Cmd.Ok.bind (back_rows h hq hS pre ?_)
  intro m1 u1 hin
  have vf1 : ∀ j < o.L, m1.valid (f + j) := fun j hj => Mem.valid_of_size u1.size (vf j hj)
  have vW1 : ∀ i < o.m * (o.p * o.D), m1.valid (W + i) := fun i hi => Mem.valid_of_size u1.size (vW i hi)
  have hf1 : ∀ j : ℕ, m1.val (f + j) = mem.val (f + j) := fun j => u1.frame _ (by
    rintro ⟨_, _, _, _, h3⟩; exact hne _ _ h3)
  by_cases hr : r = 0
  · subst hr
    rw [if_pos rfl]
    have hle0 : o.p * 1 ≤ o.p * o.D := Nat.mul_le_mul_left _ h.D_pos
    have hle1 : o.p * (1 + (o.D0 - 1)) ≤ o.p * o.D := Nat.mul_le_mul_left _ (by omega)
    refine Cmd.Ok.bind (backwardInnerZero_ok h hp hq hS pre.fW vf1
      (fun i hi => vW1 i (lt_of_lt_of_le hi (Nat.mul_le_mul_left _ (by omega)))) ?_)
    intro m2 u2 e2
    have hrows : o.rows 0 = o.p * (1 + (o.D0 - 1)) := by
      unfold rows; rw [hP, if_pos rfl]; congr 1; omega
    have hbody : (fun d => o.backwardInnerOne f (W + o.b + o.b * d) (1 + d)) =
        (fun d => o.backwardInnerOne f (W + o.p * (1 + d) * o.m) (0 + (1 + d))) := by
      funext d
      rw [Ptr.add_add, hbm, Nat.zero_add, show o.p * o.m + o.p * o.m * d = o.p * (1 + d) * o.m by ring]
    rw [hbody]
    refine innerBackLoop_ok h hp hq hS (mem0 := m1) (x := fun _ => 0) (r := 0) (by omega) (by omega) pre.fW
      (fun j hj => Mem.valid_of_size u2.size (vf1 j hj))
      (fun i hi => Mem.valid_of_size u2.size (vW1 i (lt_of_lt_of_le hi (Nat.mul_le_mul_left _ hle1)))) ?_ ?_ ?_
    · intro j hj
      have := bsum_block h hp hS (m1 := m1) (W := W) (r := 0) (d := 0) (j := j)
      rw [Nat.zero_add] at this
      rw [this, e2 j hj, Nat.mul_zero, Nat.zero_mul, Ptr.add_zero]
      simp [bsum]
    · intro ρ hρ s hs
      rw [u2.frame]
      rintro (⟨j', _, h3⟩ | ⟨ρ', hρ', s', hs', h3⟩)
      · exact hne _ _ h3.symm
      · rw [Ptr.add_inj] at h3
        have := radix_inj hs hs' h3
        omega
    intro m3 u3 e3
    refine fin m1 m3 u1 hin (u2.trans u3 ?_ ?_) ?_
    · rintro p (hp | hp)
      · exact Or.inl hp
      · exact Or.inr (hp.mono (by omega))
    · rintro p (hp | hp)
      · exact Or.inl hp
      · exact Or.inr (hp.mono hle1)
    · intro j hj
      rw [e3 j hj, hrows, if_pos rfl]
  · rw [if_neg hr]
    have hvb := h.visit_bound hv (by omega)
    have hdr := h.dr_nconj hcj
    have hR := h.R_nconj hcj
    have hrows : o.rows r = o.p * o.D := by unfold rows; rw [hP, if_neg hr]
    have hbody : (fun d => o.backwardInnerOne f (W + o.b * d) (r + d)) =
        (fun d => o.backwardInnerOne f (W + o.p * (0 + d) * o.m) (r + (0 + d))) := by
      funext d
      rw [hbm, Nat.zero_add, show o.p * o.m * d = o.p * d * o.m by ring]
    rw [hbody, hdr]
    refine innerBackLoop_ok h hp hq hS (mem0 := m1) (x := fun j => mem.val (f + j)) (by omega) (by omega) pre.fW
      vf1 (fun i hi => vW1 i (by rwa [Nat.zero_add] at hi)) ?_ (fun _ _ _ _ => rfl) ?_
    · intro j hj
      rw [hf1]; simp [bsum]
    intro m2 u2 e2
    rw [Nat.zero_add] at u2 e2
    refine fin m1 m2 u1 hin u2 ?_
    intro j hj
    rw [e2 j hj, hrows, if_neg hr]

end Fft
end Fftwpp
