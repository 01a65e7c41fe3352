import Verif.Proof.HIface
import Verif.Proof.CExplicit

/-! `forwardExplicitMany`, `forward2Many` of the Hermitian transforms. -/

namespace Fftwpp
open Finset ComplexConjugate

section
local macro "vec_tac" : tactic => `(tactic|
  (apply Complex.ext <;>
    simp [vmul, UNPACKL, UNPACKH, FLIP, CONJ, ZMULTI, ZMULT, ZCMULT, ZMULTI', ZCMULTI, ZMULT2, ZMULTxy,
      ZMULT2xy, ZMULTIxy] <;> ring))

theorem hpair_add (z v y u : ℂ) :
    (z ⊙ UNPACKL v v + y ⊙ UNPACKL u u) + ZMULTI (z ⊙ UNPACKH v v - y ⊙ UNPACKH u u) = z * v + y * conj u := by vec_tac
theorem hpair_sub (z v y u : ℂ) :
    CONJ ((z ⊙ UNPACKL v v + y ⊙ UNPACKL u u) - ZMULTI (z ⊙ UNPACKH v v - y ⊙ UNPACKH u u)) = conj z * v + conj y * conj u := by
  vec_tac
theorem zmult2_xy_hconj (z v u : ℂ) : ZMULT2xy (UNPACKL z (-z)) (UNPACKH z z) v u = conj (z * v + conj z * u) := by vec_tac
end

/-! Values of the folded data, `P=1`. -/
section
variable {N m H : ℕ} (x : ℕ → ℂ) (k : ℤ)

theorem fold_p1 (s : ℕ) : fold N m 1 H x k s = hext H x s * w N (s * k) + hext H x ((s : ℤ) - m) * w N (((s : ℤ) - m) * k) := by
  unfold fold; simp

theorem hext_sub {a b : ℕ} (hab : a < b) : hext H x ((a : ℤ) - b) = if b - a < H then conj (x (b - a)) else 0 := by
  rw [show (a : ℤ) - b = -((b - a : ℕ) : ℤ) by omega, hext_neg (by omega)]

theorem fold_lo {s : ℕ} (hs : s < H) (hsm : s < m) (h1 : s + H ≤ m) : fold N m 1 H x k s = x s * w N (s * k) := by
  rw [fold_p1, hext_nat, if_pos hs, hext_sub x hsm, if_neg (by omega), zero_mul, add_zero]

theorem fold_mid {s : ℕ} (hs : s < H) (hsm : s < m) (h1 : m < s + H) :
    fold N m 1 H x k s = x s * w N (s * k) + conj (x (m - s)) * w N (((s : ℤ) - m) * k) := by
  rw [fold_p1, hext_nat, if_pos hs, hext_sub x hsm, if_pos (by omega)]

theorem fold_out {s : ℕ} (hs : H ≤ s) (hsm : s < m) (h1 : s + H ≤ m) : fold N m 1 H x k s = 0 := by
  rw [fold_p1, hext_nat, if_neg (by omega), hext_sub x hsm, if_neg (by omega), zero_mul, zero_mul, add_zero]
end

theorem w_half_neg {n h : ℕ} (hn : n = 2 * h) (hh : 0 < h) : w n h = -1 ∧ w n (-(h : ℤ)) = -1 := by
  have h1 : w n h = -1 := by
    have := Cent.w_half hh 1
    rw [mul_comm h 2, ← hn] at this
    simpa using this
  exact ⟨h1, by rw [← w_conj, h1]; simp⟩

namespace Herm
variable {o : Herm}

theorem WF.P_q1 (h : o.WF) (hq : o.q = 1) : o.P = 1 ∧ o.n = 1 ∧ o.p = 1 := by
  rcases h.cases with ⟨_, h2, h3⟩ | ⟨h1, _⟩
  · exact ⟨by unfold P; rw [if_pos hq], h3, h2⟩
  · exact absurd hq h1

/-- Reads of the data are not in the work blocks. -/
theorem rd_f {nd : ℕ} {W f : Ptr} (hb : f.buf ≠ W.buf) (i : ℕ) : ∀ x, o.RH nd x → f + i ≠ o.dH W x :=
  fun x _ => Ptr.ne_of_buf (by rw [dH_buf]; exact hb)

theorem WF.dHv (h : o.WF) {mem : Mem} {f F W : Ptr} {r K : ℕ} (pre : o.Pre mem f F W r) (hK : K ≤ o.nd r) :
    ∀ x, o.RH K x → mem.valid (o.dH W x) := by
  rintro ⟨d, t, s, c⟩ ⟨h1, h2, h3, h4⟩
  simp only at h1 h2 h3 h4
  refine pre.vW _ (lt_of_lt_of_le (radix_lt (h.cell_lt h2 h3 h4) h1) (Nat.mul_le_mul_left _ hK))

theorem dH0 (W : Ptr) (s c : ℕ) : o.dH W (0, 0, s, c) = W + (o.C * s + c) := by unfold dH; simp
theorem dH1 (W : Ptr) (s c : ℕ) : o.dH W (1, 0, s, c) = W + (o.Bw + (o.C * s + c)) := by unfold dH; simp

theorem RH_iff (h : o.WF) {nd s c : ℕ} (hs : s < o.e) (hc : c < o.C) (d : ℕ) : o.RH nd (d, 0, s, c) ↔ d < nd := by
  unfold RH; simp [hs, hc, h.P_pos]

theorem forwardExplicitMany_ok (h : o.WF) (hq : o.q = 1) {f F W : Ptr} {mem : Mem} {W? : Option Ptr} (hW : W?.getD F = W)
    (pre : o.Pre mem f F W 0) : (o.forwardExplicitMany f F W?).Ok mem (fun _ m' => o.FwdPost mem m' f F W 0) := by
  obtain ⟨hP, hn, hp⟩ := h.P_q1 hq
  have hnd : o.nd 0 = 1 := by unfold nd; rw [if_pos rfl, h.D0_eq, if_pos hq]
  have hm := h.m_pos
  obtain ⟨g1, g2, g3, g4⟩ := h.H_facts
  have hLm : o.L ≤ o.m := by have := h.p_ub; rw [hp] at this; omega
  have he := h.e_eq
  have hfv : ∀ {m' k}, Same mem m' (o.RH 1) (o.dH W) k → ∀ j : ℕ, m'.val (f + j) = mem.val (f + j) :=
    fun hm j => hm.frame _ (rd_f pre.fW j)
  have hv := h.dHv pre (K := 1) (by omega)
  have hR : ∀ {s c : ℕ}, s < o.e → c < o.C → ∀ d, o.RH 1 (d, 0, s, c) ↔ d = 0 := fun hs hc d => by
    rw [RH_iff h hs hc]; omega
  unfold forwardExplicitMany
  simp only [hW]
  refine Cmd.Ok.bind ((Fills.start (T := o.TH (fun c j => mem.val (f + (o.C * j + c))) (o.kd 0)) (dH_inj h (nd := 1) (W := W))).parz
    (fun x : ℕ × ℕ => (0, x.1, x.2)) (rng2_nodup _ _ _ _) ?_ (fun _ _ _ h => h) ?_ ?_)
  · intro i _ j _ e; simp only [Prod.mk.injEq, true_and] at e; exact Prod.ext e.1 e.2
  · rintro ⟨s, c⟩ hs m' sm
    simp only [mem_rng2] at hs
    have hsH : s < o.H := hs.1.2
    have hvv := sm.valid (hv (0, 0, s, c) ((hR (by omega) hs.2.2 0).2 rfl))
    refine Wr.mk1 (hR (by omega) hs.2.2) ?_ ?_ ?_
    · body_simp
      rw [dH0] at hvv
      exact ⟨sm.valid (pre.vf s hsH c hs.2.2), hvv⟩
    · body_simp
      rw [dH0, hfv sm]
      unfold TH kd
      simp only [hP, hn]
      rw [fold_lo _ _ hsH (by omega) (by omega)]
      simp
    · intro p; body_simp; rintro rfl; exact Or.inl (rd_f pre.fW _)
  intro m1 f1
  refine Cmd.Ok.bind (f1.parz (fun x : ℕ × ℕ => (0, x.1, x.2)) (rng2_nodup _ _ _ _) ?_ ?_ ?_ ?_)
  · intro i _ j _ e; simp only [Prod.mk.injEq, true_and] at e; exact Prod.ext e.1 e.2
  · intro i hi d hf
    simp only [mem_rng2, Prod.mk.injEq, true_and, false_or] at hf hi
    obtain ⟨j, hj, hf⟩ := hf; omega
  · rintro ⟨s, c⟩ hs m' sm
    simp only [mem_rng2] at hs
    have hsH : o.H ≤ s := hs.1.1
    have hvv := sm.valid (hv (0, 0, s, c) ((hR (by omega) hs.2.2 0).2 rfl))
    refine Wr.mk1 (hR (by omega) hs.2.2) ?_ ?_ ?_
    · body_simp
      rw [dH0] at hvv
      exact hvv
    · body_simp
      rw [dH0]
      unfold TH kd
      simp only [hP, hn]
      rw [fold_out _ _ hsH (by omega) (by omega)]
    · intro p; body_simp; simp
  intro m2 f2
  refine finish1 h pre hnd (f2.congr ?_)
  rintro ⟨d, t, s, c⟩ ⟨_, h2, h3, h4⟩
  simp only at h2 h3 h4
  obtain rfl : t = 0 := by omega
  simp only [mem_rng2, Prod.mk.injEq, false_or, iff_true]
  by_cases hs : s < o.H
  · exact Or.inl ⟨(s, c), ⟨⟨by omega, hs⟩, by simp only; omega⟩, by simp⟩
  · exact Or.inr ⟨(s, c), ⟨⟨by unfold H at hs; omega, h3⟩, by simp only; omega⟩, by simp⟩

/-- Sizes for `p=2`. -/
theorem WF.geo2 (h : o.WF) (hp : o.p = 2) : o.q ≠ 1 ∧ o.P = 1 ∧ o.q = o.n ∧ o.H ≤ o.m ∧ o.e ≤ o.H ∧ o.m - o.H + 1 ≤ o.m - o.e + 1 ∧ o.e ≤ o.m ∧
    o.m - o.e + 1 ≤ o.e ∧ 2 ≤ o.n := by
  rcases h.cases with ⟨_, h2, _⟩ | ⟨h1, _, h3, h4, _⟩
  · omega
  · have hP : o.P = 1 := by omega
    have hq := h.q_eq
    rw [hP, Nat.one_mul] at hq
    obtain ⟨g1, g2, g3, g4⟩ := h.H_facts
    have u := h.p_ub
    have l := h.p_lb
    rw [hp] at u l
    have he := h.e_eq
    rw [hP] at g2
    have hm := h.m_pos
    refine ⟨h1, hP, hq, by omega, by omega, by omega, ?_, by omega, h4⟩
    omega

theorem WF.z2_bd (h : o.WF) (hp : o.p = 2) {r s : ℕ} (hr : 0 < r) (hrq : 2 * r ≤ o.q) (hs : s < o.m) :
    o.Zetaqm.lo ≤ o.m * r + s ∧ o.m * r + s < o.Zetaqm.hi := by
  rw [h.Zqm (h.geo2 hp).1, if_pos hp]
  simp only [initZetaqm]
  have h1 : o.m * 1 ≤ o.m * r := Nat.mul_le_mul_left _ hr
  have h2 : o.m * (r + 1) ≤ o.m * (o.q / 2 + 1) := Nat.mul_le_mul_left _ (by omega)
  rw [Nat.mul_succ, Nat.mul_succ] at h2
  rw [Nat.add_sub_cancel, Nat.mul_comm (o.q / 2)]
  omega

theorem WF.z_val (h : o.WF) (hq : o.q ≠ 1) {r s : ℕ} (hs : s < o.m) :
    o.Zetaqm.val (o.m * r + s) = w o.M (s * r) := by
  rw [h.Zqm hq]
  simp only [initZetaqm]
  rw [Nat.mul_add_div h.m_pos, Nat.div_eq_of_lt hs, Nat.add_zero, Nat.mul_add_mod, Nat.mod_eq_of_lt hs]
  congr 1; push_cast; ring

theorem WF.nd_pos (h : o.WF) (r : ℕ) (hr : 0 < r) : o.nd r = 2 := by unfold nd; rw [if_neg (by omega)]

theorem WF.nd_odd (h : o.WF) (hq : o.q ≠ 1) (hn : o.n % 2 ≠ 0) : o.nd 0 = 1 := by
  unfold nd; rw [if_pos rfl, h.D0_eq, if_neg hq, if_neg hn]

theorem WF.nd_even (h : o.WF) (hq : o.q ≠ 1) (hn : o.n % 2 = 0) : o.nd 0 = 2 := by
  unfold nd; rw [if_pos rfl, h.D0_eq, if_neg hq, if_pos hn]

theorem kd0 (r : ℕ) : o.kd r 0 = r := by unfold kd; split_ifs <;> simp_all
theorem kd1 {r : ℕ} (hr : 0 < r) : o.kd r 1 = -r := by unfold kd; rw [if_neg (by omega), if_neg (by omega)]
theorem kd01 : o.kd 0 1 = (o.n / 2 : ℕ) := by unfold kd; simp

section zones
variable {mem : Mem} {K : ℕ} {W : Ptr} {T : ℕ × ℕ × ℕ × ℕ → ℂ} {Q : Unit → Mem → Prop}

/-- The loops of the routines for `p=2`. -/
theorem zones2 (h : o.WF) (hp : o.p = 2) {b1 b2 : ℕ × ℕ → Body Unit} {rest : Cmd Unit}
    (h1 : ∀ s c, s < o.m - o.H + 1 → c < o.C → ∀ m', Same mem m' (o.RH K) (o.dH W) (0, s, c) → Wr (o.RH K) (o.dH W) T m' (0, s, c) (b1 (s, c)))
    (h2 : ∀ s c, o.m - o.H + 1 ≤ s → s < o.e → c < o.C → ∀ m', Same mem m' (o.RH K) (o.dH W) (0, s, c) →
      Wr (o.RH K) (o.dH W) T m' (0, s, c) (b2 (s, c)))
    (hQ : ∀ m', Fills mem m' (o.RH K) (o.dH W) T (fun _ => True) → rest.Ok m' Q) :
    Cmd.Ok (do par (rng2 0 (o.m - o.H + 1) 0 o.C) b1; par (rng2 (o.m - o.H + 1) o.e 0 o.C) b2; rest) mem Q := by
  obtain ⟨g1, g2, g3, g4, g5, g6, g7, g8, g9⟩ := h.geo2 hp
  refine Cmd.Ok.bind ((Fills.start (T := T) (dH_inj h (nd := K) (W := W))).parz (fun x => (0, x.1, x.2)) (rng2_nodup _ _ _ _) ?_ (fun _ _ _ h => h) ?_ ?_)
  · intro i _ j _ e; simp only [Prod.mk.injEq, true_and] at e; exact Prod.ext e.1 e.2
  · rintro ⟨s, c⟩ hs; simp only [mem_rng2] at hs; exact h1 s c hs.1.2 hs.2.2
  intro m1 f1
  refine Cmd.Ok.bind (f1.parz (fun x => (0, x.1, x.2)) (rng2_nodup _ _ _ _) ?_ ?_ ?_ ?_)
  · intro i _ j _ e; simp only [Prod.mk.injEq, true_and] at e; exact Prod.ext e.1 e.2
  · intro i hi d hf
    simp only [mem_rng2, Prod.mk.injEq, true_and, false_or] at hf hi
    obtain ⟨j, hj, hf⟩ := hf; omega
  · rintro ⟨s, c⟩ hs; simp only [mem_rng2] at hs; exact h2 s c hs.1.1 hs.1.2 hs.2.2
  intro m2 f2
  refine hQ m2 (f2.congr ?_)
  rintro ⟨d, t, s, c⟩ ⟨_, a2, a3, a4⟩
  simp only at a2 a3 a4
  obtain rfl : t = 0 := by omega
  simp only [mem_rng2, Prod.mk.injEq, false_or, iff_true]
  by_cases hs : s < o.m - o.H + 1
  · exact Or.inl ⟨(s, c), ⟨⟨by omega, hs⟩, by simp only; omega⟩, by simp⟩
  · exact Or.inr ⟨(s, c), ⟨⟨by simp only; omega, a3⟩, by simp only; omega⟩, by simp⟩

/-- The loops of the routines for `p=2`, with a separate loop for `s=0`. -/
theorem zones3 (h : o.WF) (hp : o.p = 2) {b0 : ℕ → Body Unit} {b1 b2 : ℕ × ℕ → Body Unit} {rest : Cmd Unit}
    (h0 : ∀ c < o.C, ∀ m', Same mem m' (o.RH K) (o.dH W) (0, 0, c) → Wr (o.RH K) (o.dH W) T m' (0, 0, c) (b0 c))
    (h1 : ∀ s c, 0 < s → s < o.m - o.H + 1 → c < o.C → ∀ m', Same mem m' (o.RH K) (o.dH W) (0, s, c) →
      Wr (o.RH K) (o.dH W) T m' (0, s, c) (b1 (s, c)))
    (h2 : ∀ s c, o.m - o.H + 1 ≤ s → s < o.e → c < o.C → ∀ m', Same mem m' (o.RH K) (o.dH W) (0, s, c) →
      Wr (o.RH K) (o.dH W) T m' (0, s, c) (b2 (s, c)))
    (hQ : ∀ m', Fills mem m' (o.RH K) (o.dH W) T (fun _ => True) → rest.Ok m' Q) :
    Cmd.Ok (do par (rng 0 o.C) b0; par (rng2 1 (o.m - o.H + 1) 0 o.C) b1; par (rng2 (o.m - o.H + 1) o.e 0 o.C) b2; rest) mem Q := by
  obtain ⟨g1, g2, g3, g4, g5, g6, g7, g8, g9⟩ := h.geo2 hp
  refine Cmd.Ok.bind ((Fills.start (T := T) (dH_inj h (nd := K) (W := W))).parz (fun c => (0, 0, c)) (rng_nodup _ _) ?_ (fun _ _ _ h => h) ?_ ?_)
  · intro i _ j _ e; simpa using e
  · intro c hs; rw [mem_rng] at hs; exact h0 c hs.2
  intro m0 f0
  refine Cmd.Ok.bind (f0.parz (fun x => (0, x.1, x.2)) (rng2_nodup _ _ _ _) ?_ ?_ ?_ ?_)
  · intro i _ j _ e; simp only [Prod.mk.injEq, true_and] at e; exact Prod.ext e.1 e.2
  · intro i hi d hf
    simp only [mem_rng2, mem_rng, Prod.mk.injEq, true_and, false_or] at hf hi
    obtain ⟨j, hj, hf⟩ := hf; omega
  · rintro ⟨s, c⟩ hs; simp only [mem_rng2] at hs; exact h1 s c hs.1.1 hs.1.2 hs.2.2
  intro m1 f1
  refine Cmd.Ok.bind (f1.parz (fun x => (0, x.1, x.2)) (rng2_nodup _ _ _ _) ?_ ?_ ?_ ?_)
  · intro i _ j _ e; simp only [Prod.mk.injEq, true_and] at e; exact Prod.ext e.1 e.2
  · intro i hi d hf
    simp only [mem_rng2, mem_rng, Prod.mk.injEq, true_and, false_or] at hf hi
    rcases hf with ⟨j, hj, hf⟩ | ⟨j, hj, hf⟩ <;> omega
  · rintro ⟨s, c⟩ hs; simp only [mem_rng2] at hs; exact h2 s c hs.1.1 hs.1.2 hs.2.2
  intro m2 f2
  refine hQ m2 (f2.congr ?_)
  rintro ⟨d, t, s, c⟩ ⟨_, a2, a3, a4⟩
  simp only at a2 a3 a4
  obtain rfl : t = 0 := by omega
  simp only [mem_rng2, mem_rng, Prod.mk.injEq, false_or, iff_true]
  by_cases hs : s < o.m - o.H + 1
  · by_cases hs0 : s = 0
    · exact Or.inl (Or.inl ⟨c, by omega, by simp [hs0]⟩)
    · exact Or.inl (Or.inr ⟨(s, c), ⟨⟨by simp only; omega, hs⟩, by simp only; omega⟩, by simp⟩)
  · exact Or.inr ⟨(s, c), ⟨⟨by simp only; omega, a3⟩, by simp only; omega⟩, by simp⟩

end zones

theorem forward2Many_ok (h : o.WF) (hp : o.p = 2) {f F W : Ptr} {mem : Mem} {r : ℕ} {W? : Option Ptr} (hW : W?.getD F = W)
    (pre : o.Pre mem f F W r) (hr : o.Visit r) : (o.forward2Many f F r W?).Ok mem (fun _ m' => o.FwdPost mem m' f F W r) := by
  obtain ⟨g1, g2, g3, g4, g5, g6, g7, g8, g9⟩ := h.geo2 hp
  have hM := h.M_eq
  have hH : ceilquotient o.L 2 = o.H := rfl
  have hm := h.m_pos
  have hqp := h.q_pos
  have hfv : ∀ {K m' k}, Same mem m' (o.RH K) (o.dH W) k → ∀ j : ℕ, m'.val (f + j) = mem.val (f + j) :=
    fun hm j => hm.frame _ (rd_f pre.fW j)
  have hR1 : ∀ {s c : ℕ}, s < o.e → c < o.C → ∀ d, o.RH 1 (d, 0, s, c) ↔ d = 0 := fun hs hc d => by
    rw [RH_iff h hs hc]; omega
  have hR2 : ∀ {s c : ℕ}, s < o.e → c < o.C → ∀ d, o.RH 2 (d, 0, s, c) ↔ d = 0 ∨ d = 1 := fun hs hc d => by
    rw [RH_iff h hs hc]; omega
  have hsub : ∀ s c : ℕ, s ≤ o.m → f + o.Cm - o.C * s + c = f + (o.C * (o.m - s) + c) := fun s c hs => by
    rw [h.Cm_eq, Nat.mul_sub]
    have := Nat.mul_le_mul_left o.C hs
    rw [Ptr.ext_iff]; simp; omega
  have hf0 : ∀ c, f + c = f + (o.C * 0 + c) := fun c => by simp
  have hzm : ∀ s, s ≤ o.m → o.m * r + o.m - s = o.m * r + (o.m - s) := fun s hs => Nat.add_sub_assoc hs _
  have hwm : ∀ s : ℕ, s ≤ o.m → w o.M (-(((o.m - s : ℕ) : ℤ) * r)) = w o.M (((s : ℤ) - o.m) * r) := fun s hs => by
    congr 1; rw [Nat.cast_sub hs]; ring
  unfold forward2Many
  simp only [hW, hH]
  by_cases hr0 : r = 0
  · subst hr0
    rw [if_pos rfl]
    by_cases hodd : 2 * (o.q / 2) < o.q
    · rw [if_pos hodd]
      have hnd := h.nd_odd g1 (by omega)
      have hv := h.dHv pre (K := 1) (by omega)
      refine zones2 (K := 1) (W := W) (T := o.TH (fun c j => mem.val (f + (o.C * j + c))) (o.kd 0)) h hp ?_ ?_ ?_
      · intro s c hs hc m' sm
        have hvv := sm.valid (hv (0, 0, s, c) ((hR1 (by omega) hc 0).2 rfl))
        refine Wr.mk1 (hR1 (by omega) hc) ?_ ?_ ?_
        · body_simp
          rw [dH0] at hvv
          exact ⟨sm.valid (pre.vf s (by omega) c hc), hvv⟩
        · body_simp
          rw [dH0, hfv sm]
          unfold TH
          simp only [g2, kd0]
          rw [fold_lo _ _ (by omega) (by omega) (by omega)]
          simp
        · intro p; body_simp; rintro rfl; exact Or.inl (rd_f pre.fW _)
      · intro s c hs1 hs hc m' sm
        have hvv := sm.valid (hv (0, 0, s, c) ((hR1 (by omega) hc 0).2 rfl))
        refine Wr.mk1 (hR1 (by omega) hc) ?_ ?_ ?_
        · simp only [hsub s c (by omega)]
          body_simp
          rw [dH0] at hvv
          exact ⟨sm.valid (pre.vf s (by omega) c hc), sm.valid (pre.vf _ (by omega) c hc), hvv⟩
        · simp only [hsub s c (by omega)]
          body_simp
          rw [dH0, hfv sm, hfv sm]
          unfold TH
          simp only [g2, kd0]
          rw [fold_mid _ _ (by omega) (by omega) (by omega)]
          simp
        · simp only [hsub s c (by omega)]
          intro p; body_simp; rintro (rfl | rfl) <;> exact Or.inl (rd_f pre.fW _)
      · intro m1 f1
        exact finish1 h pre hnd f1
    · rw [if_neg hodd, h.V_eq pre.sep]
      have hnd := h.nd_even g1 (by omega)
      have hv := h.dHv pre (K := 2) (by omega)
      have hwh : ∀ s : ℕ, w o.M (((s : ℤ) - o.m) * (o.q / 2 : ℕ)) = - w o.M (s * (o.q / 2 : ℕ)) := fun s => by
        rw [sub_mul, sub_eq_add_neg, w_add, hM, ← mul_neg, w_base' _ _ (by omega), (w_half_neg (by omega) (by omega)).2]; ring
      refine zones3 (K := 2) (W := W) (T := o.TH (fun c j => mem.val (f + (o.C * j + c))) (o.kd 0)) h hp ?_ ?_ ?_ ?_
      · intro c hc m' sm
        have hv0 := sm.valid (hv (0, 0, 0, c) ((hR2 (by omega) hc 0).2 (by simp)))
        have hv1 := sm.valid (hv (1, 0, 0, c) ((hR2 (by omega) hc 1).2 (by simp)))
        rw [dH0, Nat.mul_zero, Nat.zero_add] at hv0
        rw [dH1, Nat.mul_zero, Nat.zero_add] at hv1
        refine Wr.mk2 (hR2 (by omega) hc) ?_ ?_ ?_
        · body_simp
          exact ⟨by rw [hf0]; exact sm.valid (pre.vf 0 (by omega) c hc), hv0, hv1⟩
        · body_simp
          rw [dH0, dH1, hfv sm]
          unfold TH
          simp only [g2, kd0, kd01]
          rw [fold_lo _ _ (by omega) (by omega) (by omega), fold_lo _ _ (by omega) (by omega) (by omega)]
          simp
        · intro p; body_simp; rintro rfl; exact Or.inl (rd_f pre.fW _)
      · intro s c hs0 hs hc m' sm
        have hv0 := sm.valid (hv (0, 0, s, c) ((hR2 (by omega) hc 0).2 (by simp)))
        have hv1 := sm.valid (hv (1, 0, s, c) ((hR2 (by omega) hc 1).2 (by simp)))
        rw [dH0] at hv0
        rw [dH1, ← Nat.add_assoc] at hv1
        refine Wr.mk2 (hR2 (by omega) hc) ?_ ?_ ?_
        · body_simp
          exact ⟨h.z2_bd hp (by omega) (by omega) (by omega), sm.valid (pre.vf s (by omega) c hc), hv0, hv1⟩
        · body_simp
          rw [dH0, dH1, hfv sm, h.z_val g1 (by omega)]
          unfold TH
          simp only [g2, kd0, kd01]
          rw [fold_lo _ _ (by omega) (by omega) (by omega), fold_lo _ _ (by omega) (by omega) (by omega)]
          simp [mul_comm, ← g3, Nat.add_assoc]
        · intro p; body_simp; rintro rfl; exact Or.inl (rd_f pre.fW _)
      · intro s c hs1 hs hc m' sm
        have hv0 := sm.valid (hv (0, 0, s, c) ((hR2 (by omega) hc 0).2 (by simp)))
        have hv1 := sm.valid (hv (1, 0, s, c) ((hR2 (by omega) hc 1).2 (by simp)))
        rw [dH0] at hv0
        rw [dH1, ← Nat.add_assoc] at hv1
        refine Wr.mk2 (hR2 (by omega) hc) ?_ ?_ ?_
        · simp only [hsub s c (by omega)]
          body_simp
          exact ⟨h.z2_bd hp (by omega) (by omega) (by omega), sm.valid (pre.vf s (by omega) c hc), sm.valid (pre.vf _ (by omega) c hc), hv0, hv1⟩
        · simp only [hsub s c (by omega)]
          body_simp
          rw [dH0, dH1, hfv sm, hfv sm, h.z_val g1 (by omega)]
          unfold TH
          simp only [g2, kd0, kd01]
          rw [fold_mid _ _ (by omega) (by omega) (by omega), fold_mid _ _ (by omega) (by omega) (by omega)]
          simp only [Nat.cast_zero, mul_zero, zero_add, w_zero, mul_one, ← g3, hwh]
          simp only [Nat.add_assoc]
          congr 3; ring
        · simp only [hsub s c (by omega)]
          intro p; body_simp; rintro (rfl | rfl) <;> exact Or.inl (rd_f pre.fW _)
      · intro m1 f1
        exact finish2 h pre hnd f1
  · rw [if_neg hr0, h.V_eq pre.sep]
    have hrn : 2 * r < o.n := by rcases hr with hr | hr; exact absurd hr hr0; exact hr.2
    have hnd := h.nd_pos r (by omega)
    have hv := h.dHv pre (K := 2) (by omega)
    refine zones3 (K := 2) (W := W) (T := o.TH (fun c j => mem.val (f + (o.C * j + c))) (o.kd r)) h hp ?_ ?_ ?_ ?_
    · intro c hc m' sm
      have hv0 := sm.valid (hv (0, 0, 0, c) ((hR2 (by omega) hc 0).2 (by simp)))
      have hv1 := sm.valid (hv (1, 0, 0, c) ((hR2 (by omega) hc 1).2 (by simp)))
      rw [dH0, Nat.mul_zero, Nat.zero_add] at hv0
      rw [dH1, Nat.mul_zero, Nat.zero_add] at hv1
      refine Wr.mk2 (hR2 (by omega) hc) ?_ ?_ ?_
      · body_simp
        exact ⟨by rw [hf0]; exact sm.valid (pre.vf 0 (by omega) c hc), hv0, hv1⟩
      · body_simp
        rw [dH0, dH1, hfv sm]
        unfold TH
        simp only [g2, kd0, kd1 (show 0 < r by omega)]
        rw [fold_lo _ _ (by omega) (by omega) (by omega), fold_lo _ _ (by omega) (by omega) (by omega)]
        simp
      · intro p; body_simp; rintro rfl; exact Or.inl (rd_f pre.fW _)
    · intro s c hs0 hs hc m' sm
      have hv0 := sm.valid (hv (0, 0, s, c) ((hR2 (by omega) hc 0).2 (by simp)))
      have hv1 := sm.valid (hv (1, 0, s, c) ((hR2 (by omega) hc 1).2 (by simp)))
      rw [dH0] at hv0
      rw [dH1, ← Nat.add_assoc] at hv1
      refine Wr.mk2 (hR2 (by omega) hc) ?_ ?_ ?_
      · body_simp
        exact ⟨h.z2_bd hp (by omega) (by omega) (by omega), sm.valid (pre.vf s (by omega) c hc), hv0, hv1⟩
      · body_simp
        rw [dH0, dH1, hfv sm, h.z_val g1 (by omega), C30_pair_add, C30_pair_sub, w_conj]
        unfold TH
        simp only [g2, kd0, kd1 (show 0 < r by omega)]
        rw [fold_lo _ _ (by omega) (by omega) (by omega), fold_lo _ _ (by omega) (by omega) (by omega)]
        simp [mul_comm, Nat.add_assoc]
      · intro p; body_simp; rintro rfl; exact Or.inl (rd_f pre.fW _)
    · intro s c hs1 hs hc m' sm
      have hv0 := sm.valid (hv (0, 0, s, c) ((hR2 (by omega) hc 0).2 (by simp)))
      have hv1 := sm.valid (hv (1, 0, s, c) ((hR2 (by omega) hc 1).2 (by simp)))
      rw [dH0] at hv0
      rw [dH1, ← Nat.add_assoc] at hv1
      refine Wr.mk2 (hR2 (by omega) hc) ?_ ?_ ?_
      · simp only [hsub s c (by omega), hzm s (by omega)]
        body_simp
        exact ⟨h.z2_bd hp (by omega) (by omega) (by omega), h.z2_bd hp (by omega) (by omega) (by omega),
          sm.valid (pre.vf s (by omega) c hc), sm.valid (pre.vf _ (by omega) c hc), hv0, hv1⟩
      · simp only [hsub s c (by omega), hzm s (by omega)]
        body_simp
        rw [dH0, dH1, hfv sm, hfv sm, h.z_val g1 (by omega), h.z_val g1 (by omega), hpair_add, hpair_sub, C30_conj, Complex.conj_conj, w_conj, w_conj,
          hwm s (by omega)]
        unfold TH
        simp only [g2, kd0, kd1 (show 0 < r by omega)]
        rw [fold_mid _ _ (by omega) (by omega) (by omega), fold_mid _ _ (by omega) (by omega) (by omega)]
        have e3 : w o.M (((s : ℤ) - o.m) * -r) = w o.M (((o.m - s : ℕ) : ℤ) * r) := by
          congr 1; rw [Nat.cast_sub (by omega)]; ring
        simp only [Nat.cast_zero, mul_zero, zero_add, e3, mul_neg, Nat.add_assoc]
        have e4 : w o.M (-(((s : ℤ) - o.m) * r)) = w o.M (((o.m - s : ℕ) : ℤ) * r) := by
          rw [← e3]; congr 1; ring
        rw [e4]
        congr 3
        · ring
        · ring
        · ring
      · simp only [hsub s c (by omega), hzm s (by omega)]
        intro p; body_simp; rintro (rfl | rfl) <;> exact Or.inl (rd_f pre.fW _)
    · intro m1 f1
      exact finish2 h pre hnd f1

end Herm
end Fftwpp
