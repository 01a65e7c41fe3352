import Verif.Proof.CIface

/-! `fftPadCentered::forward2`, `forward2Many`. -/

namespace Fftwpp
namespace Cent
open Finset ComplexConjugate
open Fft (kpair seqLoop_rng)
variable {o : Cent}

theorem fillc_lo {N L m H : ℕ} (x : ℕ → ℂ) (k : ℤ) {s : ℕ} (h1 : s < m - H) (h2 : s + H < L) :
    fillc N L m 1 H x k s = x (H + s) * w N (s * k) := by
  rw [fillc_one, if_pos h2, if_neg (by omega), add_zero, Nat.add_comm]

theorem fillc_mid {N L m H : ℕ} (x : ℕ → ℂ) (k : ℤ) {s : ℕ} (h1 : m - H ≤ s) (h2 : s + H < L) :
    fillc N L m 1 H x k s = x (s - (m - H)) * w N (((s : ℤ) - m) * k) + x (H + s) * w N (s * k) := by
  rw [fillc_one, if_pos h2, if_pos h1, Nat.add_comm s H, add_comm]

theorem fillc_hi {N L m H : ℕ} (x : ℕ → ℂ) (k : ℤ) {s : ℕ} (h1 : m - H ≤ s) (h2 : ¬ s + H < L) :
    fillc N L m 1 H x k s = x (s - (m - H)) * w N (((s : ℤ) - m) * k) := by
  rw [fillc_one, if_neg h2, if_pos h1, zero_add]

/-- A twiddle factor for a negative position. -/
theorem wneg {N m s : ℕ} (hs : s ≤ m) (r : ℤ) : conj (w N (((m - s : ℕ) : ℤ) * r)) = w N (((s : ℤ) - m) * r) := by
  rw [w_conj, Nat.cast_sub hs]; congr 1; ring
theorem wneg' {N m s : ℕ} (hs : s ≤ m) (r : ℤ) : w N (((m - s : ℕ) : ℤ) * r) = w N (((s : ℤ) - m) * (-r)) := by
  rw [Nat.cast_sub hs]; congr 1; ring

theorem forward2Pair_ok (h : o.WF) (hp : o.p = 2) (hq : o.q ≠ 1) {f W : Ptr} {m0 mem : Mem} {r K ρ : ℕ} {x : ℕ → ℂ}
    {T : ℕ × ℕ → ℂ} {done : ℕ × ℕ → Prop} (hfill : Fills m0 mem (o.RS K) (o.dS W) T done) (hx : x = fun j => m0.val (f + j))
    (hb : f.buf ≠ W.buf) (hf : ∀ j < o.L, m0.valid (f + j)) (hW : ∀ i < o.m * K, m0.valid (W + i)) (hρ : ρ + 1 < K)
    (hT : ∀ s < o.m, T (ρ, s) = fillc o.M o.L o.m 1 o.H x r s)
    (hT' : ∀ s < o.m, T (ρ + 1, s) = fillc o.M o.L o.m 1 o.H x (-r) s)
    (hr : 0 < r) (hrq : r < o.q) {Q : Unit → Mem → Prop}
    (hQ : ∀ m', Fills m0 m' (o.RS K) (o.dS W) T (fun k => done k ∨ k.1 = ρ ∨ k.1 = ρ + 1) → Q () m') :
    (o.forward2Pair f (W + o.m * ρ) r).Ok mem Q := by
  obtain ⟨hH, g1, g2, g3, g4, g5, g6, g7⟩ := h.geo2 hp
  have hG : ∀ s : ℕ, W + (o.m * ρ + o.m + s) = W + (o.m * (ρ + 1) + s) := fun s => rfl
  have hWv : ∀ {m' D}, Fills m0 m' (o.RS K) (o.dS W) T D → ∀ s < o.m, m'.valid (W + (o.m * ρ + s)) ∧ m'.valid (W + (o.m * (ρ + 1) + s)) :=
    fun hm s hs => ⟨hm.valid (hW _ (radix_lt hs (by omega))), hm.valid (hW _ (radix_lt hs (by omega)))⟩
  have hfv : ∀ {m' D}, Fills m0 m' (o.RS K) (o.dS W) T D → ∀ j : ℕ, m'.val (f + j) = x j := fun hm j => by
    rw [hx]; exact hm.val_buf (dS_buf W) hb
  have hz : ∀ s, s ≤ o.m → (o.m + 1) * r + o.m - s = (o.m + 1) * r + (o.m - s) := fun s hs => Nat.add_sub_assoc hs _
  have hsub : ∀ s : ℕ, o.m - o.H ≤ s → f - (o.m - o.H) + s = f + (s - (o.m - o.H)) := fun s hs => Ptr.sub_add hs
  unfold forward2Pair
  simp only [← hH]
  refine Cmd.Ok.bind (hfill.par2f (dS_buf W) (fun s => (ρ, s)) (fun s => (ρ + 1, s)) (rng_nodup _ _) ?_ ?_ ?_ ?_ ?_ ?_ ?_ ?_)
  · intro s hs; rw [mem_rng] at hs; exact ⟨⟨by simp only; omega, by simp only; omega⟩, ⟨by simp only; omega, by simp only; omega⟩⟩
  · intro i _ j _ e; simpa using e
  · intro i _ j _ e; simpa using e
  · intro i _ j _ e; simp at e
  · intro s hs
    rw [mem_rng] at hs
    body_simp
    rw [hG]
    exact ⟨h.zc_bd hp hr hrq (by omega), hfill.valid (hf _ (by omega)), (hWv hfill s (by omega)).1, (hWv hfill s (by omega)).2⟩
  · intro s hs
    rw [mem_rng] at hs
    body_simp
    rw [hG, C30_pair_add, C30_pair_sub, h.zc_val hp hq (by omega), hT s (by omega), hT' s (by omega), fillc_lo x _ hs.2 (by omega),
      fillc_lo x _ hs.2 (by omega), hfv hfill, w_conj, mul_comm (w _ (_ * _)), mul_comm (w _ (-_)), mul_neg]
    rfl
  · intro s hs; body_simp; simp [hb]
  intro m1 h1
  refine Cmd.Ok.bind (h1.par2f (dS_buf W) (fun s => (ρ, s)) (fun s => (ρ + 1, s)) (rng_nodup _ _) ?_ ?_ ?_ ?_ ?_ ?_ ?_ ?_)
  · intro s hs; rw [mem_rng] at hs; exact ⟨⟨by simp only; omega, by simp only; omega⟩, ⟨by simp only; omega, by simp only; omega⟩⟩
  · intro i _ j _ e; simpa using e
  · intro i _ j _ e; simpa using e
  · intro i _ j _ e; simp at e
  · intro s hs
    rw [mem_rng] at hs
    body_simp
    rw [hG, hz s (by omega), hsub s hs.1]
    exact ⟨h.zc_bd hp hr hrq (by omega), h.zc_bd hp hr hrq (by omega), h1.valid (hf _ (by omega)), h1.valid (hf _ (by omega)),
      (hWv h1 s (by omega)).1, (hWv h1 s (by omega)).2⟩
  · intro s hs
    rw [mem_rng] at hs
    body_simp
    rw [hG, hz s (by omega), hsub s hs.1, C30_pair2_add, C30_pair2_sub, C30_conj, h.zc_val hp hq (by omega), h.zc_val hp hq (by omega), hT s (by omega), hT' s (by omega),
      fillc_mid x _ hs.1 (by omega),
      fillc_mid x _ hs.1 (by omega), hfv h1, hfv h1, wneg (by omega), w_conj, w_conj, mul_comm (w _ ((_ - _) * _)), mul_comm (w _ (s * _)), mul_comm (w _ (-_)), mul_comm (w _ (-_)),
      mul_neg, mul_neg]
    rfl
  · intro s hs; body_simp; simp [hb]
  intro m2 h2
  refine (h2.par2f (dS_buf W) (fun s => (ρ, s)) (fun s => (ρ + 1, s)) (rng_nodup _ _) ?_ ?_ ?_ ?_ ?_ ?_ ?_ ?_)
  · intro s hs; rw [mem_rng] at hs; exact ⟨⟨by simp only; omega, by simp only; omega⟩, ⟨by simp only; omega, by simp only; omega⟩⟩
  · intro i _ j _ e; simpa using e
  · intro i _ j _ e; simpa using e
  · intro i _ j _ e; simp at e
  · intro s hs
    rw [mem_rng] at hs
    body_simp
    rw [hG, hz s (by omega), hsub s (by omega)]
    exact ⟨h.zc_bd hp hr hrq (by omega), h2.valid (hf _ (by omega)),
      (hWv h2 s (by omega)).1, (hWv h2 s (by omega)).2⟩
  · intro s hs
    rw [mem_rng] at hs
    body_simp
    rw [hG, hz s (by omega), hsub s (by omega), C30_pair_add, C30_pair_sub, C30_conj, h.zc_val hp hq (by omega), hT s (by omega), hT' s (by omega),
      fillc_hi x _ (by omega) (by omega),
      fillc_hi x _ (by omega) (by omega), hfv h2, wneg (by omega), w_conj, mul_comm (w _ (_ * _)), mul_comm (w _ (-_)),
      mul_neg]
    rfl
  · intro s hs; body_simp; simp [hb]
  intro m3 h3
  refine hQ m3 (h3.congr ?_)
  rintro ⟨a, s⟩ hk
  have hs : s < o.m := hk.2
  simp only [mem_rng, Prod.mk.injEq]
  constructor
  · rintro (((hd | ⟨i, _, hi⟩) | ⟨i, _, hi⟩) | ⟨i, _, hi⟩)
    · exact Or.inl hd
    all_goals right; omega
  · rintro (hd | hd)
    · exact Or.inl (Or.inl (Or.inl hd))
    · obtain h0 | h0 | h0 : s < o.m - o.H ∨ (o.m - o.H ≤ s ∧ s < o.L - o.H) ∨ o.L - o.H ≤ s := by omega
      · exact Or.inl (Or.inl (Or.inr ⟨s, ⟨by omega, h0⟩, by omega⟩))
      · exact Or.inl (Or.inr ⟨s, h0, by omega⟩)
      · exact Or.inr ⟨s, ⟨h0, hs⟩, by omega⟩

/-- One row (`D=1`): the three loops of `forward2Rest`. -/
theorem forward2Rest_ok (h : o.WF) (hp : o.p = 2) (hq : o.q ≠ 1) {f W : Ptr} {m0 mem : Mem} {r0 dr0 K a : ℕ} {x : ℕ → ℂ}
    {T : ℕ × ℕ → ℂ} {done : ℕ × ℕ → Prop} (hfill : Fills m0 mem (o.RS K) (o.dS W) T done) (hx : x = fun j => m0.val (f + j))
    (hK : K = a + if o.D = 1 then min dr0 1 else 2 * dr0)
    (hb : f.buf ≠ W.buf) (hf : ∀ j < o.L, m0.valid (f + j)) (hW : ∀ i < o.m * K, m0.valid (W + i))
    (hT : ∀ ρ, a + ρ < K → ∀ s < o.m, T (a + ρ, s) = fillc o.M o.L o.m 1 o.H x (if o.D = 1 then (r0 : ℤ) else kpair r0 ρ) s)
    (hd0 : ∀ k, k.1 < a → done k)
    (hr : 0 < r0) (hrq : r0 + dr0 ≤ o.q) {Q : Unit → Mem → Prop}
    (hQ : ∀ m' D', Fills m0 m' (o.RS K) (o.dS W) T D' → (∀ k, o.RS K k → D' k) → Q () m') :
    (o.forward2Rest f (W + o.m * a) r0 dr0).Ok mem Q := by
  obtain ⟨hH, g1, g2, g3, g4, g5, g6, g7⟩ := h.geo2 hp
  unfold forward2Rest
  by_cases hD : o.D = 1
  · simp only [hD, if_true] at hK hT ⊢
    by_cases hd : 0 < dr0
    · rw [Nat.min_eq_right hd] at hK
      rw [if_pos hd]
      have hWv : ∀ {m' D}, Fills m0 m' (o.RS K) (o.dS W) T D → ∀ s < o.m, m'.valid (W + (o.m * a + s)) :=
        fun hm s hs => hm.valid (hW _ (radix_lt hs (by omega)))
      have hfv : ∀ {m' D}, Fills m0 m' (o.RS K) (o.dS W) T D → ∀ j : ℕ, m'.val (f + j) = x j := fun hm j => by
        rw [hx]; exact hm.val_buf (dS_buf W) hb
      have hz : ∀ s, s ≤ o.m → (o.m + 1) * r0 + o.m - s = (o.m + 1) * r0 + (o.m - s) := fun s hs => Nat.add_sub_assoc hs _
      have hsub : ∀ s : ℕ, o.m - o.H ≤ s → f - (o.m - o.H) + s = f + (s - (o.m - o.H)) := fun s hs => Ptr.sub_add hs
      simp only [← hH]
      have hT0 := hT 0 (by omega)
      rw [Nat.add_zero] at hT0
      refine Cmd.Ok.bind (hfill.par1f (dS_buf W) (fun s => (a, s)) (rng_nodup _ _) ?_ ?_ ?_ ?_ ?_ ?_)
      · intro s hs; rw [mem_rng] at hs; exact ⟨by simp only; omega, by simp only; omega⟩
      · intro i _ j _ e; simpa using e
      · intro s hs
        rw [mem_rng] at hs
        body_simp
        exact ⟨h.zc_bd hp hr (by omega) (by omega), hfill.valid (hf _ (by omega)), hWv hfill s (by omega)⟩
      · intro s hs
        rw [mem_rng] at hs
        body_simp
        rw [h.zc_val hp hq (by omega), hT0 s (by omega), fillc_lo x _ hs.2 (by omega), hfv hfill, mul_comm (w _ _)]
        rfl
      · intro s hs; body_simp; simp [hb]
      intro m1 h1
      refine Cmd.Ok.bind (h1.par1f (dS_buf W) (fun s => (a, s)) (rng_nodup _ _) ?_ ?_ ?_ ?_ ?_ ?_)
      · intro s hs; rw [mem_rng] at hs; exact ⟨by simp only; omega, by simp only; omega⟩
      · intro i _ j _ e; simpa using e
      · intro s hs
        rw [mem_rng] at hs
        body_simp
        rw [hz s (by omega), hsub s hs.1]
        exact ⟨h.zc_bd hp hr (by omega) (by omega), h.zc_bd hp hr (by omega) (by omega), h1.valid (hf _ (by omega)), h1.valid (hf _ (by omega)),
          hWv h1 s (by omega)⟩
      · intro s hs
        rw [mem_rng] at hs
        body_simp
        rw [hz s (by omega), hsub s hs.1, C30_zmult, C30_zcmult, h.zc_val hp hq (by omega), h.zc_val hp hq (by omega), hT0 s (by omega),
          fillc_mid x _ hs.1 (by omega), hfv h1, hfv h1, wneg (by omega), mul_comm (w _ ((_ - _) * _)), mul_comm (w _ (s * _))]
        rfl
      · intro s hs; body_simp; simp [hb]
      intro m2 h2
      refine h2.par1f (dS_buf W) (fun s => (a, s)) (rng_nodup _ _) ?_ ?_ ?_ ?_ ?_ ?_
      · intro s hs; rw [mem_rng] at hs; exact ⟨by simp only; omega, by simp only; omega⟩
      · intro i _ j _ e; simpa using e
      · intro s hs
        rw [mem_rng] at hs
        body_simp
        rw [hz s (by omega), hsub s (by omega)]
        exact ⟨h.zc_bd hp hr (by omega) (by omega), h2.valid (hf _ (by omega)), hWv h2 s (by omega)⟩
      · intro s hs
        rw [mem_rng] at hs
        body_simp
        rw [hz s (by omega), hsub s (by omega), h.zc_val hp hq (by omega), hT0 s (by omega),
          fillc_hi x _ (by omega) (by omega), hfv h2, wneg (by omega), mul_comm (w _ _)]
        rfl
      · intro s hs; body_simp; simp [hb]
      intro m3 h3
      refine hQ m3 _ h3 ?_
      rintro ⟨b, s⟩ hk
      have hs : s < o.m := hk.2
      have hbK : b < K := hk.1
      rcases Nat.lt_or_ge b a with hba | hba
      · exact Or.inl (Or.inl (Or.inl (hd0 _ hba)))
      · obtain rfl : b = a := by omega
        obtain h0 | h0 | h0 : s < o.m - o.H ∨ (o.m - o.H ≤ s ∧ s < o.L - o.H) ∨ o.L - o.H ≤ s := by omega
        · exact Or.inl (Or.inl (Or.inr ⟨s, mem_rng.2 ⟨by omega, h0⟩, rfl⟩))
        · exact Or.inl (Or.inr ⟨s, mem_rng.2 h0, rfl⟩)
        · exact Or.inr ⟨s, mem_rng.2 ⟨h0, hs⟩, rfl⟩
    · rw [if_neg hd]
      obtain rfl : dr0 = 0 := by omega
      simp only [Nat.zero_min, Nat.add_zero] at hK
      subst hK
      exact Cmd.Ok.pure (hQ mem _ hfill (fun k hk => hd0 k hk.1))
  · simp only [hD, if_false] at hK hT ⊢
    have hidx : ∀ d, W + o.m * a + 2 * o.m * d = W + o.m * (a + 2 * d) := fun d => by rw [Ptr.add_add]; congr 1; ring
    simp only [hidx]
    refine seqLoop_rng (fun d m' => ∃ D', Fills m0 m' (o.RS K) (o.dS W) T D' ∧ ∀ k, k.1 < a + 2 * d → D' k) ?_ ?_ ?_
    · exact ⟨_, hfill, fun k hk => hd0 k (by omega)⟩
    · rintro d m1 hd ⟨D1, h1, hD1⟩
      refine forward2Pair_ok h hp hq h1 hx hb hf hW (by omega) ?_ ?_ (by omega) (by omega) ?_
      · intro s hs
        rw [hT (2 * d) (by omega) s hs]
        simp [kpair]
      · intro s hs
        have := hT (2 * d + 1) (by omega) s hs
        rw [← Nat.add_assoc] at this
        rw [this]
        unfold kpair
        rw [if_neg (by omega), show (2 * d + 1) / 2 = d by omega]
      · intro m2 h2
        refine ⟨_, h2, fun k hk => ?_⟩
        rcases Nat.lt_or_ge k.1 (a + 2 * d) with h3 | h3
        · exact Or.inl (hD1 k h3)
        · exact Or.inr (by omega)
    · rintro m1 ⟨D1, h1, hD1⟩
      exact hQ m1 D1 h1 (fun k hk => hD1 k (by have := hk.1; omega))

theorem WF.TS2 (h : o.WF) (hp : o.p = 2) (x : ℕ → ℂ) (r ρ s : ℕ) :
    o.TS x r (ρ, s) = fillc o.M o.L o.m 1 o.H x (o.sig r ρ) s := by
  unfold TS; rw [h.P_one hp, h.res2 hp]

/-- `w^(m q/2) = -1`. -/
theorem half_turn {N m q : ℕ} (hM : N = m * q) (hm : 0 < m) (hq : 0 < q) (hq2 : q = 2 * (q / 2)) :
    w N ((m : ℤ) * ((q / 2 : ℕ) : ℤ)) = -1 := by
  rw [hM]
  have h1 : w (m * q) ((m : ℤ) * ((q / 2 : ℕ) : ℤ)) = w 2 1 := by
    have : m * q = 2 * (m * (q / 2)) := by
      conv_lhs => rw [hq2]
      ring
    rw [this, show ((m : ℤ) * ((q / 2 : ℕ) : ℤ)) = ((m * (q / 2) : ℕ) : ℤ) * 1 by push_cast; ring]
    apply w_base
    have : 0 < m * (q / 2) := Nat.mul_pos hm (by omega)
    omega
  rw [h1, w]
  push_cast
  rw [show (2 * Real.pi * Complex.I * 1 / 2 : ℂ) = (Real.pi * Complex.I) by ring, Complex.exp_pi_mul_I]

theorem forward2_ok (h : o.WF) (hp : o.p = 2) (hq : o.q ≠ 1) (hS : o.S = 1) {f F W : Ptr} {mem : Mem} {r : ℕ}
    {W? : Option Ptr} (hW : W?.getD F = W) (pre : o.Pre mem f F W) (hv : o.Visit r) :
    (o.forward2 f F r W?).Ok mem (fun _ m' => o.FwdPost mem m' f F W r) := by
  obtain ⟨hH, g1, g2, g3, g4, g5, g6, g7⟩ := h.geo2 hp
  have hm := h.m_pos
  have hP := h.P_one hp
  have hqn := h.q_n2 hp
  have hb := pre.fW
  have vf : ∀ j < o.L, mem.valid (f + j) := fun j hj => by
    have := pre.vf j hj 0 h.C_pos; rwa [hS, Nat.one_mul, Nat.add_zero] at this
  have vW : ∀ i < o.m * o.rows r, mem.valid (W + i) := fun i hi => by
    have := pre.vW i (lt_of_lt_of_le hi (Nat.mul_le_mul_left _ (h.rows_le r))) 0 h.C_pos
    rwa [hS, Nat.one_mul, Nat.add_zero] at this
  have hstart : Fills mem mem (o.RS (o.rows r)) (o.dS W) (o.TS (fun j => mem.val (f + j)) r) (fun _ => False) :=
    Fills.start dS_inj
  have hfv : ∀ {m' D}, Fills mem m' (o.RS (o.rows r)) (o.dS W) (o.TS (fun j => mem.val (f + j)) r) D →
      ∀ j : ℕ, m'.val (f + j) = mem.val (f + j) := fun hm j => hm.val_buf (dS_buf W) hb
  have hsub : ∀ s : ℕ, o.m - o.H ≤ s → f - (o.m - o.H) + s = f + (s - (o.m - o.H)) := fun s hs => Ptr.sub_add hs
  unfold forward2
  simp only [hW]
  by_cases hr : r = 0
  · subst hr
    rw [if_pos rfl]
    by_cases hc : o.D = 1 ∨ 2 * (o.q / 2) < o.q
    · rw [if_pos hc]
      obtain ⟨b1, b2, b3, b4⟩ := h.block0_odd (by rwa [hqn] at hc)
      have hT0 := h.TS2 hp (fun j => mem.val (f + j)) 0 0
      rw [b2] at hT0
      have hK : 0 < o.rows 0 := by rw [h.rows2 hp]; omega
      simp only [← hH]
      have hWv : ∀ {m' D}, Fills mem m' (o.RS (o.rows 0)) (o.dS W) (o.TS (fun j => mem.val (f + j)) 0) D → ∀ s < o.m, m'.valid (W + s) :=
        fun hm s hs => hm.valid (by have := vW _ (radix_lt hs hK); simpa using this)
      have hd0 : ∀ s : ℕ, W + s = o.dS W (0, s) := fun s => by unfold dS; simp
      refine Cmd.Ok.bind (hstart.par1f (dS_buf W) (fun s => (0, s)) (rng_nodup _ _) ?_ ?_ ?_ ?_ ?_ ?_)
      · intro s hs; rw [mem_rng] at hs; exact ⟨by simp only; omega, by simp only; omega⟩
      · intro i _ j _ e; simpa using e
      · intro s hs
        rw [mem_rng] at hs
        body_simp
        exact ⟨vf _ (by omega), hWv hstart s (by omega)⟩
      · intro s hs
        rw [mem_rng] at hs
        body_simp
        rw [hT0, fillc_lo _ _ hs.2 (by omega), hd0]; simp
      · intro s hs; body_simp; simp [hb]
      intro m1 h1
      refine Cmd.Ok.bind (h1.par1f (dS_buf W) (fun s => (0, s)) (rng_nodup _ _) ?_ ?_ ?_ ?_ ?_ ?_)
      · intro s hs; rw [mem_rng] at hs; exact ⟨by simp only; omega, by simp only; omega⟩
      · intro i _ j _ e; simpa using e
      · intro s hs
        rw [mem_rng] at hs
        body_simp
        rw [hsub s hs.1]
        exact ⟨h1.valid (vf _ (by omega)), h1.valid (vf _ (by omega)), hWv h1 s (by omega)⟩
      · intro s hs
        rw [mem_rng] at hs
        body_simp
        rw [hsub s hs.1, hT0, fillc_mid _ _ hs.1 (by omega), hd0, hfv h1, hfv h1]; simp
      · intro s hs; body_simp; simp [hb]
      intro m2 h2
      refine Cmd.Ok.bind (h2.par1f (dS_buf W) (fun s => (0, s)) (rng_nodup _ _) ?_ ?_ ?_ ?_ ?_ ?_)
      · intro s hs; rw [mem_rng] at hs; exact ⟨by simp only; omega, by simp only; omega⟩
      · intro i _ j _ e; simpa using e
      · intro s hs
        rw [mem_rng] at hs
        body_simp
        rw [hsub s (by omega)]
        exact ⟨h2.valid (vf _ (by omega)), hWv h2 s (by omega)⟩
      · intro s hs
        rw [mem_rng] at hs
        body_simp
        rw [hsub s (by omega), hT0, fillc_hi _ _ (by omega) (by omega), hd0, hfv h2]; simp
      · intro s hs; body_simp; simp [hb]
      intro m3 h3
      have hW1 : W + 1 * o.m = W + o.m * 1 := by rw [Nat.mul_comm]
      rw [hW1]
      refine Cmd.Ok.bind (forward2Rest_ok h hp hq (h3.congr (done' := fun k => k.1 < 1) ?_) rfl ?_ hb vf vW ?_ (fun k hk => hk) (by omega) (by omega) ?_)
      · rintro ⟨a, s⟩ hk
        have hs : s < o.m := hk.2
        simp only [mem_rng, Prod.mk.injEq, false_or]
        constructor
        · rintro ((⟨i, _, hi⟩ | ⟨i, _, hi⟩) | ⟨i, _, hi⟩) <;> omega
        · intro ha
          obtain h0 | h0 | h0 : s < o.m - o.H ∨ (o.m - o.H ≤ s ∧ s < o.L - o.H) ∨ o.L - o.H ≤ s := by omega
          · exact Or.inl (Or.inl ⟨s, ⟨by omega, h0⟩, by omega⟩)
          · exact Or.inl (Or.inr ⟨s, h0, by omega⟩)
          · exact Or.inr ⟨s, ⟨h0, hs⟩, by omega⟩
      · rw [h.rows2 hp, b1]
      · intro ρ hρ s hs
        rw [h.TS2 hp]
        congr 1
        rw [h.rows2 hp, b1] at hρ
        split_ifs at hρ ⊢ with hD
        · rw [h.D0_eq_one hD] at hρ; simp at hρ
        · exact b4 ρ hD
      intro m4 D4 h4 hD4
      have := finish_rows h hq hS (r := 0) pre h4 hD4
      simpa using this
    · rw [if_neg hc]
      obtain ⟨b1, b2, b3, b4, b5⟩ := h.block0_even (by rwa [hqn] at hc)
      rw [← hqn] at b3
      have hT0 := h.TS2 hp (fun j => mem.val (f + j)) 0 0
      have hT1 := h.TS2 hp (fun j => mem.val (f + j)) 0 1
      rw [b2] at hT0
      rw [b3] at hT1
      have hK : 1 < o.rows 0 := by rw [h.rows2 hp]; omega
      have hq2 : o.q = 2 * (o.q / 2) := by omega
      have hq0 := h.q_pos
      have hhalf := half_turn h.M_eq hm hq0 hq2
      have hsm : ∀ s : ℕ, w o.M (((s : ℤ) - o.m) * (o.q / 2 : ℕ)) = - w o.M (s * (o.q / 2 : ℕ)) := by
        intro s
        have : w o.M (((s : ℤ) - o.m) * (o.q / 2 : ℕ)) * w o.M (o.m * (o.q / 2 : ℕ)) = w o.M (s * (o.q / 2 : ℕ)) := by
          rw [← w_add]; congr 1; ring
        rw [hhalf] at this
        rw [← this]; ring
      simp only [← hH]
      have hWv : ∀ {m' D}, Fills mem m' (o.RS (o.rows 0)) (o.dS W) (o.TS (fun j => mem.val (f + j)) 0) D → ∀ s < o.m,
          m'.valid (W + s) ∧ m'.valid (W + (o.m + s)) :=
        fun hm s hs => ⟨hm.valid (by have := vW _ (radix_lt hs (Nat.lt_of_succ_lt hK)); simpa using this),
          hm.valid (by have := vW _ (radix_lt hs hK); simpa using this)⟩
      have hd0 : ∀ s : ℕ, W + s = o.dS W (0, s) := fun s => by unfold dS; simp
      have hd1 : ∀ s : ℕ, W + (o.m + s) = o.dS W (1, s) := fun s => by unfold dS; simp
      refine Cmd.Ok.bind (hstart.par2f (dS_buf W) (fun s => (0, s)) (fun s => (1, s)) (rng_nodup _ _) ?_ ?_ ?_ ?_ ?_ ?_ ?_ ?_)
      · intro s hs; rw [mem_rng] at hs; exact ⟨⟨by simp only; omega, by simp only; omega⟩, ⟨by simp only; omega, by simp only; omega⟩⟩
      · intro i _ j _ e; simpa using e
      · intro i _ j _ e; simpa using e
      · intro i _ j _ e; simp at e
      · intro s hs
        rw [mem_rng] at hs
        body_simp
        exact ⟨vf _ (by omega), (hWv hstart s (by omega)).1, h.zc_bd hp (by omega) (by omega) (by omega), (hWv hstart s (by omega)).2⟩
      · intro s hs
        rw [mem_rng] at hs
        body_simp
        rw [hT0, hT1, fillc_lo _ _ hs.2 (by omega), fillc_lo _ _ hs.2 (by omega), hd0, hd1, h.zc_val hp hq (by omega), mul_comm (w _ _)]; simp
      · intro s hs; body_simp; simp [hb]
      intro m1 h1
      refine Cmd.Ok.bind (h1.par2f (dS_buf W) (fun s => (0, s)) (fun s => (1, s)) (rng_nodup _ _) ?_ ?_ ?_ ?_ ?_ ?_ ?_ ?_)
      · intro s hs; rw [mem_rng] at hs; exact ⟨⟨by simp only; omega, by simp only; omega⟩, ⟨by simp only; omega, by simp only; omega⟩⟩
      · intro i _ j _ e; simpa using e
      · intro i _ j _ e; simpa using e
      · intro i _ j _ e; simp at e
      · intro s hs
        rw [mem_rng] at hs
        body_simp
        rw [hsub s hs.1]
        exact ⟨h1.valid (vf _ (by omega)), h1.valid (vf _ (by omega)), (hWv h1 s (by omega)).1, h.zc_bd hp (by omega) (by omega) (by omega), (hWv h1 s (by omega)).2⟩
      · intro s hs
        rw [mem_rng] at hs
        body_simp
        rw [hsub s hs.1, hT0, hT1, fillc_mid _ _ hs.1 (by omega), fillc_mid _ _ hs.1 (by omega), hd0, hd1, h.zc_val hp hq (by omega), hfv h1, hfv h1,
          hsm, show (w o.M (s * ((o.q / 2 : ℕ) : ℤ)) * (mem.val (f + (o.H + s)) - mem.val (f + (s - (o.m - o.H))))) =
            mem.val (f + (s - (o.m - o.H))) * -w o.M (s * ((o.q / 2 : ℕ) : ℤ)) + mem.val (f + (o.H + s)) * w o.M (s * ((o.q / 2 : ℕ) : ℤ)) by ring,
          add_comm (mem.val (f + (o.H + s))) (mem.val (f + (s - (o.m - o.H))))]
        simp
      · intro s hs; body_simp; simp [hb]
      intro m2 h2
      refine Cmd.Ok.bind (h2.par2f (dS_buf W) (fun s => (0, s)) (fun s => (1, s)) (rng_nodup _ _) ?_ ?_ ?_ ?_ ?_ ?_ ?_ ?_)
      · intro s hs; rw [mem_rng] at hs; exact ⟨⟨by simp only; omega, by simp only; omega⟩, ⟨by simp only; omega, by simp only; omega⟩⟩
      · intro i _ j _ e; simpa using e
      · intro i _ j _ e; simpa using e
      · intro i _ j _ e; simp at e
      · intro s hs
        rw [mem_rng] at hs
        body_simp
        rw [hsub s (by omega)]
        exact ⟨h2.valid (vf _ (by omega)), (hWv h2 s (by omega)).1, h.zc_bd hp (by omega) (by omega) (by omega), (hWv h2 s (by omega)).2⟩
      · intro s hs
        rw [mem_rng] at hs
        body_simp
        rw [hsub s (by omega), hT0, hT1, fillc_hi _ _ (by omega) (by omega), fillc_hi _ _ (by omega) (by omega), hd0, hd1, h.zc_val hp hq (by omega), hfv h2,
          hsm, mul_comm (-w _ _)]
        simp
      · intro s hs; body_simp; simp [hb]
      intro m3 h3
      have hW1 : W + 2 * o.m = W + o.m * 2 := by rw [Nat.mul_comm]
      rw [hW1]
      have hD1 : o.D ≠ 1 := by omega
      refine Cmd.Ok.bind (forward2Rest_ok h hp hq (h3.congr (done' := fun k => k.1 < 2) ?_) rfl ?_ hb vf vW ?_ (fun k hk => hk) (by omega) (by omega) ?_)
      · rintro ⟨a, s⟩ hk
        have hs : s < o.m := hk.2
        simp only [mem_rng, Prod.mk.injEq, false_or]
        constructor
        · rintro ((⟨i, _, hi⟩ | ⟨i, _, hi⟩) | ⟨i, _, hi⟩) <;> omega
        · intro ha
          obtain h0 | h0 | h0 : s < o.m - o.H ∨ (o.m - o.H ≤ s ∧ s < o.L - o.H) ∨ o.L - o.H ≤ s := by omega
          · exact Or.inl (Or.inl ⟨s, ⟨by omega, h0⟩, by omega⟩)
          · exact Or.inl (Or.inr ⟨s, h0, by omega⟩)
          · exact Or.inr ⟨s, ⟨h0, hs⟩, by omega⟩
      · rw [h.rows2 hp, b1, if_neg hD1]
      · intro ρ hρ s hs
        rw [h.TS2 hp]
        congr 1
        rw [if_neg hD1]
        exact b5 ρ
      intro m4 D4 h4 hD4
      have := finish_rows h hq hS (r := 0) pre h4 hD4
      simpa using this
  · rw [if_neg hr]
    obtain ⟨b1, b2, b3⟩ := h.block_pos hv (by omega)
    have := forward2Rest_ok (a := 0) h hp hq hstart rfl (dr0 := o.dr) (r0 := r) (by rw [h.rows2 hp, b1, Nat.zero_add]) hb vf vW
      (by
        intro ρ hρ s hs
        rw [h.TS2 hp, Nat.zero_add]
        congr 1
        exact b3 ρ (by rw [h.rows2 hp] at hρ; omega)) (fun k hk => by omega) (by omega) (by omega)
      (Q := fun _ m' => ∃ D', Fills mem m' (o.RS (o.rows r)) (o.dS W) (o.TS (fun j => mem.val (f + j)) r) D' ∧ ∀ k, o.RS (o.rows r) k → D' k)
      (fun m' D' h1 h2 => ⟨D', h1, h2⟩)
    rw [Nat.mul_zero, Ptr.add_zero] at this
    refine Cmd.Ok.bind (this.mono ?_)
    rintro _ m' ⟨D', h1, h2⟩
    have := finish_rows h hq hS (r := r) pre h1 h2
    rwa [if_pos (Or.inl (by omega))] at this

end Cent
end Fftwpp
