import Verif.Proof.CB2
import Verif.Proof.CF2Many

/-! `fftPadCentered::backward2Many`. -/

namespace Fftwpp
namespace Cent
open Finset ComplexConjugate
variable {o : Cent}

/-- Contribution to datum `j` of column `c` of a row of residue `k`. -/
noncomputable def cbM (o : Cent) (m1 : Mem) (W : Ptr) (k : ℤ) (j c : ℕ) : ℂ :=
  w o.M (-(((j : ℤ) - o.H) * k)) * m1.val (W + (o.S * o.pos j + c))

theorem cbM_hi {m1 : Mem} {W : Ptr} {k : ℤ} {s c : ℕ} :
    o.cbM m1 W k (o.H + s) c = w o.M (-(s * k)) * m1.val (W + (o.S * s + c)) := by
  unfold cbM pos
  rw [if_pos (by omega), Nat.add_sub_cancel_left]
  congr 2; push_cast; ring

theorem cbM_lo {m1 : Mem} {W : Ptr} {k : ℤ} {s c : ℕ} (h1 : o.m - o.H ≤ s) (h2 : s < o.m) (h3 : o.H ≤ o.m) :
    o.cbM m1 W k (s - (o.m - o.H)) c = w o.M (((o.m - s : ℕ) : ℤ) * k) * m1.val (W + (o.S * s + c)) := by
  unfold cbM pos
  rw [if_neg (by omega), Nat.sub_add_cancel h1]
  congr 2
  have : ((s - (o.m - o.H) : ℕ) : ℤ) - o.H = -((o.m - s : ℕ) : ℤ) := by omega
  rw [this]; ring

/-- The data keys. -/
def RM (o : Cent) (k : ℕ × ℕ) : Prop := k.1 < o.L ∧ k.2 < o.C
/-- The word of a data key. -/
def dM (o : Cent) (f : Ptr) (k : ℕ × ℕ) : Ptr := f + (o.S * k.1 + k.2)

theorem dM_buf (f : Ptr) (k : ℕ × ℕ) : (o.dM f k).buf = f.buf := rfl

theorem WF.dM_inj (h : o.WF) {f : Ptr} : ∀ k k', o.RM k → o.RM k' → o.dM f k = o.dM f k' → k = k' := by
  have hCS := h.C_le_S
  rintro ⟨a, b⟩ ⟨a', b'⟩ h1 h2 h3
  unfold dM at h3
  unfold RM at h1 h2
  rw [Ptr.add_inj] at h3
  simp only at h1 h2 h3
  obtain ⟨e1, e2⟩ := radix_inj (by omega) (by omega) h3
  rw [e1, e2]

theorem backward2Many_ok (h : o.WF) (hp : o.p = 2) (hq : o.q ≠ 1) (hS : o.S ≠ 1) {f F W : Ptr} {mem : Mem} {r : ℕ}
    {W? : Option Ptr} (hW : W?.getD F = W) (pre : o.Pre mem f F W) (hv : o.Visit r) :
    (o.backward2Many F f r W?).Ok mem (fun _ m' => o.BwdPost mem m' F f W r) := by
  obtain ⟨hH, g1, g2, g3, g4, g5, g6, g7⟩ := h.geo2 hp
  have hP := h.P_one hp
  have hD := h.D_one hS
  have hqn := h.q_n2 hp
  have hb := pre.fW
  have hCS := h.C_le_S
  obtain ⟨hsig, hrn⟩ := h.sigM hD hv
  have hres : o.res r 0 = r := by rw [h.res2 hp, hsig]
  have hmD : o.m * (o.P * o.D) = o.m := by rw [hP, hD]; simp
  have hsub : ∀ s c : ℕ, o.m - o.H ≤ s → f - o.S * (o.m - o.H) + (o.S * s + c) = o.dM f (s - (o.m - o.H), c) := fun s c hs => by
    have h1 : o.S * (o.m - o.H) ≤ o.S * s := Nat.mul_le_mul_left _ hs
    unfold dM
    rw [Ptr.sub_add (by omega), Nat.mul_sub o.S s]
    congr 1; omega
  have hfH : ∀ s c : ℕ, f + (o.S * o.H + o.S * s + c) = o.dM f (o.H + s, c) := fun s c => by unfold dM; rw [Nat.mul_add]
  have hz : ∀ s, s ≤ o.m → (o.m + 1) * r + o.m - s = (o.m + 1) * r + (o.m - s) := fun s hs => Nat.add_sub_assoc hs _
  unfold backward2Many
  simp only [hW, ← hH]
  rw [(h.fftm_many hS).2]
  refine Cmd.Ok.bind (exec_cols h.C_le_S (W := F) (F := W) ?_ (fun i hi c hc => pre.vF i (by omega) c hc) (fun i hi c hc => pre.vW i (by omega) c hc) ?_)
  · exact pre.sep.imp (fun h => ⟨h.1, h.2.symm⟩) (fun h => ⟨h.1, h.2.symm⟩)
  intro m1 u1 hin
  set T : ℕ × ℕ → ℂ := fun k => (if r = 0 then 0 else mem.val (o.dM f k)) + o.cbM m1 W r k.1 k.2 with hT
  have h0 : Fills m1 m1 o.RM (o.dM f) T (fun _ => False) := Fills.start h.dM_inj
  have hWv : ∀ {m' D}, Fills m1 m' o.RM (o.dM f) T D → ∀ s < o.m, ∀ c < o.C, m'.valid (W + (o.S * s + c)) :=
    fun hm s hs c hc => hm.valid (Mem.valid_of_size u1.size (pre.vW s (by omega) c hc))
  have hfv : ∀ {m' D}, Fills m1 m' o.RM (o.dM f) T D → ∀ j < o.L, ∀ c < o.C, m'.valid (o.dM f (j, c)) :=
    fun hm j hj c hc => hm.valid (Mem.valid_of_size u1.size (pre.vf j hj c hc))
  have hWm : ∀ {m' D}, Fills m1 m' o.RM (o.dM f) T D → ∀ i : ℕ, m'.val (W + i) = m1.val (W + i) :=
    fun hm i => hm.val_buf (dM_buf f) (by simpa using hb.symm)
  have hf1 : ∀ k, m1.val (o.dM f k) = mem.val (o.dM f k) := fun j => u1.frame _ (by
    rintro ⟨_, _, _, _, h3⟩; exact hb (by simpa [dM] using congrArg Ptr.buf h3))
  have hbn : ∀ (k : ℕ × ℕ) (i : ℕ), (W + i : Ptr).buf ≠ f.buf := fun _ _ => by simpa using hb.symm
  have hend : ∀ {m' D}, Fills m1 m' o.RM (o.dM f) T D → (∀ j c, j < o.L → c < o.C → D (j, c)) → o.BwdPost mem m' F f W r := by
    intro m' D hm hd
    refine ⟨u1.trans hm.upd ?_ ?_, ?_⟩
    · rintro p ⟨i, hi, c, hc, rfl⟩
      exact Or.inr (Or.inr ⟨i, by omega, c, hc, rfl⟩)
    · rintro p ⟨k, hk, rfl⟩
      exact Or.inl ⟨k.1, hk.1, k.2, hk.2, rfl⟩
    · intro j hj c hc
      rw [h.rowsM hS hp r, sum_range_one, hres]
      have := hm.got (j, c) ⟨hj, hc⟩ (hd j c hj hc)
      unfold dM at this
      rw [this, hT]
      unfold dM
      simp only [Nat.mul_zero, Nat.zero_add]
      congr 1
      have hps : o.pos j < o.m := by unfold pos; split_ifs <;> omega
      unfold cbM
      rw [hin _ hps c hc]
      refine row_backc h.M_eq (by have := h.q_pos; omega) (fun i => mem.val (F + (o.S * i + c))) _ _ _ ?_
      unfold pos
      split_ifs with h1
      · rw [Nat.cast_sub h1, sub_self]; exact dvd_zero _
      · exact ⟨-1, by rw [Nat.cast_add, Nat.cast_sub g3]; ring⟩
  have hTlo : ∀ s c : ℕ, o.m - o.H ≤ s → s < o.m → T (s - (o.m - o.H), c) = (if r = 0 then 0 else mem.val (o.dM f (s - (o.m - o.H), c))) +
      w o.M (((o.m - s : ℕ) : ℤ) * r) * m1.val (W + (o.S * s + c)) := by
    intro s c h1 h2
    rw [hT]; simp only
    rw [cbM_lo h1 h2 g3]
  have hThi : ∀ s c : ℕ, T (o.H + s, c) = (if r = 0 then 0 else mem.val (o.dM f (o.H + s, c))) +
      conj (w o.M (s * r)) * m1.val (W + (o.S * s + c)) := by
    intro s c
    rw [hT]; simp only
    rw [cbM_hi, w_conj]
  have hcov0 : ∀ j, j < o.L → j < 2 * o.H - o.m ∨ (2 * o.H - o.m ≤ j ∧ j < o.H) ∨ (o.H ≤ j ∧ j < o.m) ∨ (o.m ≤ j ∧ j < 2 * o.H) ∨ (o.L - 2 * o.H ≠ 0 ∧ j = o.H + o.H) := by
    intro j hj; omega
  have hcov : ∀ (D : ℕ × ℕ → Prop) (j c : ℕ), j < o.L → c < o.C →
     ((((D (j, c) ∨ ∃ i ∈ rng2 o.H o.m 0 o.C, (j, c) = (i.1 - (o.m - o.H), i.2)) ∨
       ∃ i ∈ rng2 (o.m - o.H) o.H 0 o.C, (j, c) = (i.1 - (o.m - o.H), i.2) ∨ (j, c) = (o.H + i.1, i.2)) ∨
       ∃ i ∈ rng2 0 (o.m - o.H) 0 o.C, (j, c) = (o.H + i.1, i.2))) ∨ (o.L - 2 * o.H ≠ 0 ∧ j = o.H + o.H) := by
    intro D j c hj hc
    simp only [mem_rng2, Prod.exists, Prod.mk.injEq]
    obtain h0 | h0 | h0 | h0 | h0 := hcov0 j hj
    · exact Or.inl (Or.inl (Or.inr ⟨j + (o.m - o.H), c, by omega, by omega⟩))
    · exact Or.inl (Or.inl (Or.inl (Or.inr ⟨j + (o.m - o.H), c, by omega, by omega⟩)))
    · exact Or.inl (Or.inr ⟨j - o.H, c, by omega, by omega⟩)
    · exact Or.inl (Or.inl (Or.inr ⟨j - o.H, c, by omega, by omega⟩))
    · exact Or.inr h0
  have hRlo : ∀ s c, o.m - o.H ≤ s → s < o.m → c < o.C → o.RM (s - (o.m - o.H), c) := fun s c h1 h2 h3 => ⟨by simp only; omega, h3⟩
  have hRhi : ∀ s c, s < o.L - o.H → c < o.C → o.RM (o.H + s, c) := fun s c h1 h3 => ⟨by simp only; omega, h3⟩
  by_cases hr : r = 0
  · rw [if_pos hr]
    have w0 : ∀ a : ℤ, w o.M (a * r) = 1 := fun a => by rw [hr]; simp
    simp only [w0, if_pos hr, map_one, one_mul, zero_add] at hTlo hThi
    refine Cmd.Ok.bind (h0.par1f (dM_buf f) (fun i => (i.1 - (o.m - o.H), i.2)) (rng2_nodup _ _ _ _) ?_ ?_ ?_ ?_ ?_ ?_)
    · rintro ⟨s, c⟩ hs; rw [mem_rng2] at hs; exact hRlo _ _ (by omega) (by omega) (by omega)
    · rintro ⟨s, c⟩ hs ⟨s', c'⟩ hs' e; rw [mem_rng2] at hs hs'; simp only [Prod.mk.injEq] at e ⊢; omega
    · rintro ⟨s, c⟩ hs
      rw [mem_rng2] at hs
      body_simp
      rw [hsub _ _ (by omega)]
      exact ⟨hWv h0 _ (by omega) _ (by omega), hfv h0 _ (by omega) _ (by omega)⟩
    · rintro ⟨s, c⟩ hs
      rw [mem_rng2] at hs
      body_simp
      rw [hsub _ _ (by omega), hTlo _ _ (by omega) (by omega)]
    · rintro ⟨s, c⟩ hs; body_simp; simp [hb.symm]
    intro m2 h2
    refine Cmd.Ok.bind (h2.par2f (dM_buf f) (fun i => (i.1 - (o.m - o.H), i.2)) (fun i => (o.H + i.1, i.2)) (rng2_nodup _ _ _ _) ?_ ?_ ?_ ?_ ?_ ?_ ?_ ?_)
    · rintro ⟨s, c⟩ hs; rw [mem_rng2] at hs; exact ⟨hRlo _ _ (by omega) (by omega) (by omega), hRhi _ _ (by omega) (by omega)⟩
    · rintro ⟨s, c⟩ hs ⟨s', c'⟩ hs' e; rw [mem_rng2] at hs hs'; simp only [Prod.mk.injEq] at e ⊢; omega
    · rintro ⟨s, c⟩ hs ⟨s', c'⟩ hs' e; rw [mem_rng2] at hs hs'; simp only [Prod.mk.injEq] at e ⊢; omega
    · rintro ⟨s, c⟩ hs ⟨s', c'⟩ hs' e; rw [mem_rng2] at hs hs'; simp only [Prod.mk.injEq] at e; omega
    · rintro ⟨s, c⟩ hs
      rw [mem_rng2] at hs
      body_simp
      rw [hsub _ _ (by omega), hfH]
      exact ⟨hWv h2 _ (by omega) _ (by omega), hfv h2 _ (by omega) _ (by omega), hfv h2 _ (by omega) _ (by omega)⟩
    · rintro ⟨s, c⟩ hs
      rw [mem_rng2] at hs
      body_simp
      rw [hsub _ _ (by omega), hfH, hTlo _ _ (by omega) (by omega), hThi, hWm h2]
    · rintro ⟨s, c⟩ hs; body_simp; simp [hb.symm]
    intro m3 h3
    refine Cmd.Ok.bind (h3.par1f (dM_buf f) (fun i => (o.H + i.1, i.2)) (rng2_nodup _ _ _ _) ?_ ?_ ?_ ?_ ?_ ?_)
    · rintro ⟨s, c⟩ hs; rw [mem_rng2] at hs; exact hRhi _ _ (by omega) (by omega)
    · rintro ⟨s, c⟩ hs ⟨s', c'⟩ hs' e; rw [mem_rng2] at hs hs'; simp only [Prod.mk.injEq] at e ⊢; omega
    · rintro ⟨s, c⟩ hs
      rw [mem_rng2] at hs
      body_simp
      rw [hfH]
      exact ⟨hWv h3 _ (by omega) _ (by omega), hfv h3 _ (by omega) _ (by omega)⟩
    · rintro ⟨s, c⟩ hs
      rw [mem_rng2] at hs
      body_simp
      rw [hfH, hThi, hWm h3]
    · rintro ⟨s, c⟩ hs; body_simp; simp [hb.symm]
    intro m4 h4
    by_cases hodd : o.L - 2 * o.H ≠ 0
    · rw [if_pos hodd]
      refine h4.par1f (dM_buf f) (fun c => (o.H + o.H, c)) (rng_nodup _ _) ?_ ?_ ?_ ?_ ?_ ?_
      · intro c hs; rw [mem_rng] at hs; exact hRhi _ _ (by omega) (by omega)
      · intro c hs c' hs' e; simp only [Prod.mk.injEq] at e; omega
      · intro c hs
        rw [mem_rng] at hs
        body_simp
        rw [hfH]
        exact ⟨hWv h4 _ (by omega) _ (by omega), hfv h4 _ (by omega) _ (by omega)⟩
      · intro c hs
        rw [mem_rng] at hs
        body_simp
        rw [hfH, hThi, hWm h4]
      · intro c hs; body_simp; simp [hb.symm]
      intro m5 h5
      refine hend h5 fun j c hj hc => ?_
      rcases hcov (fun _ => False) j c hj hc with h6 | h6
      · exact Or.inl h6
      · exact Or.inr ⟨c, by rw [mem_rng]; omega, by rw [h6.2]⟩
    · rw [if_neg hodd]
      refine Cmd.Ok.pure (hend h4 fun j c hj hc => ?_)
      rcases hcov (fun _ => False) j c hj hc with h6 | h6
      · exact h6
      · exact absurd h6.1 hodd
  · rw [if_neg hr]
    simp only [if_neg hr] at hTlo hThi
    refine Cmd.Ok.bind (h0.par1o (dM_buf f) (fun i => (i.1 - (o.m - o.H), i.2)) (rng2_nodup _ _ _ _) ?_ ?_ ?_ ?_ ?_ ?_)
    · rintro ⟨s, c⟩ hs; rw [mem_rng2] at hs; exact hRlo _ _ (by omega) (by omega) (by omega)
    · rintro ⟨s, c⟩ hs ⟨s', c'⟩ hs' e; rw [mem_rng2] at hs hs'; simp only [Prod.mk.injEq] at e ⊢; omega
    · rintro ⟨s, c⟩ hs
      rw [mem_rng2] at hs
      body_simp
      rw [hsub _ _ (by omega), hz s (by omega)]
      exact ⟨h.zc_bd hp (by omega) (by omega) (by omega), hfv h0 _ (by omega) _ (by omega), hWv h0 _ (by omega) _ (by omega), hfv h0 _ (by omega) _ (by omega)⟩
    · rintro ⟨s, c⟩ hs
      rw [mem_rng2] at hs
      body_simp
      rw [hsub _ _ (by omega), hz s (by omega), hTlo _ _ (by omega) (by omega), hf1, C30_zmult_xy, h.zc_val hp hq (by omega)]
    · rintro ⟨s, c⟩ hs; rw [mem_rng2] at hs; body_simp; rw [hsub _ _ (by omega)]
      rintro p (rfl | rfl) <;> simp [hb.symm]
    intro m2 h2
    have nd1 : ∀ s c, s < o.H → o.m - o.H ≤ s → c < o.C → m2.val (o.dM f (s - (o.m - o.H), c)) = mem.val (o.dM f (s - (o.m - o.H), c)) := by
      intro s c h3 h4 h5
      rw [h2.keep _ (hRlo _ _ (by omega) (by omega) h5), hf1]
      simp only [mem_rng2, Prod.exists, Prod.mk.injEq]
      rintro (hx | ⟨i, c', hi, hx⟩)
      · exact hx
      · omega
    have nd2 : ∀ s c, s < o.L - o.H → c < o.C → m2.val (o.dM f (o.H + s, c)) = mem.val (o.dM f (o.H + s, c)) := by
      intro s c h3 h5
      rw [h2.keep _ (hRhi _ _ (by omega) h5), hf1]
      simp only [mem_rng2, Prod.exists, Prod.mk.injEq]
      rintro (hx | ⟨i, c', hi, hx⟩)
      · exact hx
      · omega
    refine Cmd.Ok.bind (h2.par2o (dM_buf f) (fun i => (i.1 - (o.m - o.H), i.2)) (fun i => (o.H + i.1, i.2)) (rng2_nodup _ _ _ _) ?_ ?_ ?_ ?_ ?_ ?_ ?_ ?_)
    · rintro ⟨s, c⟩ hs; rw [mem_rng2] at hs; exact ⟨hRlo _ _ (by omega) (by omega) (by omega), hRhi _ _ (by omega) (by omega)⟩
    · rintro ⟨s, c⟩ hs ⟨s', c'⟩ hs' e; rw [mem_rng2] at hs hs'; simp only [Prod.mk.injEq] at e ⊢; omega
    · rintro ⟨s, c⟩ hs ⟨s', c'⟩ hs' e; rw [mem_rng2] at hs hs'; simp only [Prod.mk.injEq] at e ⊢; omega
    · rintro ⟨s, c⟩ hs ⟨s', c'⟩ hs' e; rw [mem_rng2] at hs hs'; simp only [Prod.mk.injEq] at e; omega
    · rintro ⟨s, c⟩ hs
      rw [mem_rng2] at hs
      body_simp
      rw [hsub _ _ (by omega), hfH, hz s (by omega)]
      exact ⟨h.zc_bd hp (by omega) (by omega) (by omega), h.zc_bd hp (by omega) (by omega) (by omega), hWv h2 _ (by omega) _ (by omega), hfv h2 _ (by omega) _ (by omega), hfv h2 _ (by omega) _ (by omega), hfv h2 _ (by omega) _ (by omega), hfv h2 _ (by omega) _ (by omega)⟩
    · rintro ⟨s, c⟩ hs
      rw [mem_rng2] at hs
      body_simp
      rw [hsub _ _ (by omega), hfH, hz s (by omega), hTlo _ _ (by omega) (by omega), hThi, hWm h2, Mem.set_val, if_neg, nd1 _ _ (by omega) (by omega) (by omega), nd2 _ _ (by omega) (by omega), C30_zmult_xy, C30_zmult_xy_conj, h.zc_val hp hq (by omega), h.zc_val hp hq (by omega)]
      intro e
      have := h.dM_inj _ _ (hRhi _ _ (by omega) (by omega)) (hRlo _ _ (by omega) (by omega) (by omega)) e
      simp only [Prod.mk.injEq] at this
      omega
    · rintro ⟨s, c⟩ hs; rw [mem_rng2] at hs; body_simp; rw [hsub _ _ (by omega), hfH]
      rintro p (rfl | rfl | rfl) <;> simp [hb.symm]
    intro m3 h3
    have nd3 : ∀ s c, s < o.m - o.H → c < o.C → m3.val (o.dM f (o.H + s, c)) = mem.val (o.dM f (o.H + s, c)) := by
      intro s c h4 h5
      rw [h3.keep _ (hRhi _ _ (by omega) h5), hf1]
      simp only [mem_rng2, Prod.exists, Prod.mk.injEq]
      rintro ((hx | ⟨i, c', hi, hx⟩) | ⟨i, c', hi, hx⟩)
      · exact hx
      · omega
      · omega
    refine Cmd.Ok.bind (h3.par1o (dM_buf f) (fun i => (o.H + i.1, i.2)) (rng2_nodup _ _ _ _) ?_ ?_ ?_ ?_ ?_ ?_)
    · rintro ⟨s, c⟩ hs; rw [mem_rng2] at hs; exact hRhi _ _ (by omega) (by omega)
    · rintro ⟨s, c⟩ hs ⟨s', c'⟩ hs' e; rw [mem_rng2] at hs hs'; simp only [Prod.mk.injEq] at e ⊢; omega
    · rintro ⟨s, c⟩ hs
      rw [mem_rng2] at hs
      body_simp
      rw [hfH]
      exact ⟨h.zc_bd hp (by omega) (by omega) (by omega), hfv h3 _ (by omega) _ (by omega), hWv h3 _ (by omega) _ (by omega), hfv h3 _ (by omega) _ (by omega)⟩
    · rintro ⟨s, c⟩ hs
      rw [mem_rng2] at hs
      body_simp
      rw [hfH, hThi, hWm h3, nd3 _ _ (by omega) (by omega), C30_zmult_xy_conj, h.zc_val hp hq (by omega)]
    · rintro ⟨s, c⟩ hs; rw [mem_rng2] at hs; body_simp; rw [hfH]
      rintro p (rfl | rfl) <;> simp [hb.symm]
    intro m4 h4
    by_cases hodd : o.L - 2 * o.H ≠ 0
    · rw [if_pos hodd]
      refine h4.par1o (dM_buf f) (fun c => (o.H + o.H, c)) (rng_nodup _ _) ?_ ?_ ?_ ?_ ?_ ?_
      · intro c hs; rw [mem_rng] at hs; exact hRhi _ _ (by omega) (by omega)
      · intro c hs c' hs' e; simp only [Prod.mk.injEq] at e; omega
      · intro c hs
        rw [mem_rng] at hs
        body_simp
        rw [hfH]
        exact ⟨h.zc_bd hp (by omega) (by omega) (by omega), hfv h4 _ (by omega) _ (by omega), hWv h4 _ (by omega) _ (by omega), hfv h4 _ (by omega) _ (by omega)⟩
      · intro c hs
        rw [mem_rng] at hs
        body_simp
        have nd4 : m4.val (o.dM f (o.H + o.H, c)) = mem.val (o.dM f (o.H + o.H, c)) := by
          rw [h4.keep _ (hRhi _ _ (by omega) (by omega)), hf1]
          simp only [mem_rng2, Prod.exists, Prod.mk.injEq]
          rintro (((hx | ⟨i, c', hi, hx⟩) | ⟨i, c', hi, hx⟩) | ⟨i, c', hi, hx⟩)
          · exact hx
          · omega
          · omega
          · omega
        rw [hfH, hThi, hWm h4, nd4, C30_zmult_xy_conj, h.zc_val hp hq (by omega)]
      · intro c hs; rw [mem_rng] at hs; body_simp; rw [hfH]
        rintro p (rfl | rfl) <;> simp [hb.symm]
      intro m5 h5
      refine hend h5 fun j c hj hc => ?_
      rcases hcov (fun _ => False) j c hj hc with h6 | h6
      · exact Or.inl h6
      · exact Or.inr ⟨c, by rw [mem_rng]; omega, by rw [h6.2]⟩
    · rw [if_neg hodd]
      refine Cmd.Ok.pure (hend h4 fun j c hj hc => ?_)
      rcases hcov (fun _ => False) j c hj hc with h6 | h6
      · exact h6
      · exact absurd h6.1 hodd

end Cent
end Fftwpp
