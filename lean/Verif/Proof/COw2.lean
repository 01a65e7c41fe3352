import Verif.Proof.COwInnerMany

/-! The centered routines that overwrite their input, `p=2`. -/

namespace Fftwpp
open Finset

/-- A straight-line block that treats one group of cells. -/
theorem Fills.runz {τ : Type} {m0 m : Mem} {R : ℕ × τ → Prop} {dst : ℕ × τ → Ptr} {T : ℕ × τ → ℂ} {done : ℕ × τ → Prop}
    (h : Fills m0 m R dst T done) {b : Body Unit} {k : τ} (hb : Wr R dst T m k b) {Q : Unit → Mem → Prop}
    (hQ : ∀ m', Fills m0 m' R dst T (fun x => done x ∨ x.2 = k) → Q () m') : (b.run).Ok m Q := by
  obtain ⟨D, h1, h2, h3⟩ := hb.wr
  refine h.run (D.map fun d => (d, k)) ?_ ?_ hb.good ?_ ?_
  · intro x hx
    rw [List.mem_map] at hx
    obtain ⟨d, hd, rfl⟩ := hx
    exact (h2 d).1 hd
  · exact h1.map fun a b e => by simpa using e
  · rw [h3, List.map_map]; rfl
  · intro m' hm
    refine hQ m' (hm.congr ?_)
    rintro ⟨d, t⟩ hR
    refine or_congr Iff.rfl ⟨?_, ?_⟩
    · intro hx
      rw [List.mem_map] at hx
      obtain ⟨d', _, e⟩ := hx
      simp only [Prod.mk.injEq] at e
      exact e.2.symm
    · intro e
      simp only at e
      subst e
      exact List.mem_map.2 ⟨d, (h2 d).2 hR, rfl⟩

open Complex ComplexConjugate in
theorem flip_add (zm z u v : ℂ) : UNPACKL zm zm ⊙ u + UNPACKL z z ⊙ v + FLIP (UNPACKH (-zm) zm ⊙ u + UNPACKH z (-z) ⊙ v) = conj zm * u + z * v := by
  apply Complex.ext <;> simp [vmul, UNPACKL, UNPACKH, FLIP] <;> ring
open Complex ComplexConjugate in
theorem flip_sub (zm z u v : ℂ) : UNPACKL zm zm ⊙ u + UNPACKL z z ⊙ v - FLIP (UNPACKH (-zm) zm ⊙ u + UNPACKH z (-z) ⊙ v) = zm * u + conj z * v := by
  apply Complex.ext <;> simp [vmul, UNPACKL, UNPACKH, FLIP] <;> ring
open Complex ComplexConjugate in
theorem zmult2_xy_conj (z v u : ℂ) : ZMULT2xy (UNPACKL z z) (UNPACKH (-z) z) v u = conj z * v + z * u := by
  apply Complex.ext <;> simp [vmul, UNPACKL, UNPACKH, FLIP, ZMULT2xy, ZMULTxy, CONJ] <;> ring

namespace Cent
open ComplexConjugate
variable {o : Cent}

/-- Values of the data (`p=2`). -/
noncomputable def T2 (o : Cent) (m2 : Mem) (V : ℕ → Ptr) (x : ℕ × ℕ × ℕ × ℕ) : ℂ :=
  m2.val (o.dF V (0, x.2)) + (w o.M (-((o.jD x : ℤ) - o.H)) * m2.val (o.dF V (1, x.2)) + w o.M ((o.jD x : ℤ) - o.H) * m2.val (o.dF V (2, x.2)))

theorem Ow.dD_inj (h : o.Ow) {f F : Ptr} (hb : f.buf ≠ F.buf) : ∀ k k', o.RD k → o.RD k' → o.dD f k = o.dD f k' → k = k' := by
  have key : ∀ k, o.RD k → o.RF 3 k ∧ o.dD f k = o.dF (o.VA f F) k := by
    rintro ⟨d, t, s, c⟩ hk
    obtain ⟨h1, h2, h3, h4⟩ := hk
    simp only at h1 h2 h3 h4
    rcases h1 with ⟨rfl, -⟩ | ⟨rfl, -⟩
    · exact ⟨(R3 h2 h3 h4 0).2 (by simp), dD_0 h _ _ _⟩
    · exact ⟨(R3 h2 h3 h4 1).2 (by simp), dD_1 h _ _ _⟩
  intro k k' hk hk' e
  rw [(key k hk).2, (key k' hk').2] at e
  exact h.inj hb _ _ (key k hk).1 (key k' hk').1 e

/-- The values give the result of `backward`. -/
theorem back2 (h : o.Ow) (hp : o.p = 2) {m1 m2 : Mem} {f F : Ptr}
    (f2 : Fills m1 m2 o.RD (o.dD f) (o.T2 m1 (o.VA f F)) (fun _ => True)) : o.BI m1 m2 3 (o.VA f F) sA f (fun _ _ => 0) := by
  obtain ⟨g1, g2, g3⟩ := h.geo
  have hP := h.wf.P_one hp
  have hm := h.wf.m_pos
  rw [hP, Nat.mul_one] at g2 g3
  refine ⟨f2.upd.mono ?_, ?_⟩
  · rintro p ⟨⟨a, t, s, c⟩, ⟨h1, h2, h3, h4⟩, rfl⟩
    simp only at h1 h2 h3 h4
    rw [hP] at h2
    obtain rfl : t = 0 := by omega
    refine Or.inl ⟨o.jD (a, 0, s, c), ?_, c, h4, rfl⟩
    rcases h1 with ⟨rfl, h1⟩ | ⟨rfl, h1⟩
    · rw [jD_lo]; omega
    · rw [jD_hi]; exact h1
  · intro j hj c hc
    obtain ⟨i1, i2, i3, i4, -⟩ := h.iI_facts hj
    rw [hP, Nat.mul_one] at i1
    have hpos : o.posI j = o.iI j := Nat.mod_eq_of_lt i1
    have key : ∀ a, o.RD (a, 0, o.posI j, c) → o.jD (a, 0, o.posI j, c) = j →
        m2.val (f + (o.S * j + c)) = 0 + ∑ d ∈ range 3, o.cI m1 (o.VA f F d) (sA d) j c := by
      intro a hR hj'
      have := f2.got _ hR trivial
      unfold dD at this
      rw [hj'] at this
      rw [this]
      unfold T2
      rw [hj', sum_range_succ, sum_range_succ, sum_range_one]
      unfold cI dF
      rw [hP]
      simp [sA, add_assoc]
    by_cases hH : o.H ≤ j
    · have hii : o.iI j = j - o.H := by unfold iI; rw [if_pos hH]
      refine key 1 ((RDo h (by omega) i3 hc 1).2 (by simp)) ?_
      rw [jD_hi, hpos, hii]; omega
    · have hii : o.iI j = j + o.m0 := by unfold iI; rw [if_neg hH]
      refine key 0 ((RDo h (by omega) i3 hc 0).2 (by simp)) ?_
      rw [jD_lo, hpos, hii]; omega

section
variable {f F : Ptr} {mem m' : Mem} {s c : ℕ} {X Y Z : Ptr}

theorem WT2 (h : o.Ow) (hp : o.p = 2) (x : ℕ → ℕ → ℂ) (d : ℕ) (hs : s < o.m) :
    o.WT x sA (d, 0, s, c) = x c s * w o.M (((s : ℤ) - o.m) * sA d) + x c (o.H + s) * w o.M (s * sA d) := by
  obtain ⟨g1, g2, g3⟩ := h.geo
  have hP := h.wf.P_one hp
  rw [hP, Nat.mul_one] at g2 g3
  unfold WT
  simp only
  rw [hP, fillc_mid _ _ (by omega) (by omega), g2, Nat.sub_self]
  simp

include o in
theorem T2_lo (h : o.Ow) (hp : o.p = 2) {V : ℕ → Ptr} : o.T2 mem V (0, 0, s, c) =
    mem.val (o.dF V (0, 0, s, c)) + (w o.M ((o.m : ℤ) - s) * mem.val (o.dF V (1, 0, s, c)) + w o.M ((s : ℤ) - o.m) * mem.val (o.dF V (2, 0, s, c))) := by
  obtain ⟨g1, g2, g3⟩ := h.geo
  rw [h.wf.P_one hp, Nat.mul_one] at g2
  unfold T2
  rw [jD_lo, g1, g2]
  simp
theorem T2_hi (h : o.Ow) {V : ℕ → Ptr} : o.T2 mem V (1, 0, s, c) =
    mem.val (o.dF V (0, 0, s, c)) + (w o.M (-(s : ℤ)) * mem.val (o.dF V (1, 0, s, c)) + w o.M s * mem.val (o.dF V (2, 0, s, c))) := by
  unfold T2
  rw [jD_hi]
  simp

variable (h : o.Ow) (hp : o.p = 2)

include h hp in
theorem zb (hs : s ≤ o.m) : (o.Zetaqm.lo ≤ o.m + 1 + s ∧ o.m + 1 + s < o.Zetaqm.hi) ∧ o.Zetaqm.val (o.m + 1 + s) = w o.M s := by
  obtain ⟨h1, h2, h3, h4, h5, h6, h7, h8, h9⟩ := h.facts
  have hP := h.wf.P_pos
  have e : o.m + 1 + s = (o.m + 1) * 1 + s := by omega
  rw [e]
  exact ⟨h.wf.zc_bd hp (by omega) (by omega) hs, by rw [h.wf.zc_val hp h1 hs]; simp⟩

variable (pre : o.OwPre mem f F) (hs : s < o.m) (hc : c < o.C)
    (hX : o.dF (o.VA f F) (0, 0, s, c) = X) (hY : o.dF (o.VA f F) (1, 0, s, c) = Y) (hZ : o.dF (o.VA f F) (2, 0, s, c) = Z)

include h pre hs hc hX hY hZ

section
variable (sm : Same mem m' (o.RF 3) (o.dF (o.VA f F)) (0, s, c))
include sm

/-- What an iteration reads. -/
theorem rd3 {p : Ptr} (hpp : p = X ∨ p = Y) : (∀ x, o.RF 3 x → p ≠ o.dF (o.VA f F) x) ∨ p = X ∨ p = Y ∨ p = Z := by tauto

theorem x2 : m'.val X = o.xA mem f c s ∧ m'.val Y = o.xA mem f c (o.H + s) := by
  obtain ⟨v0, v1, v2, e0, e1, e2, n1, n2, n3⟩ := Same.v3 h sm pre h.wf.P_pos hs hc hX hY hZ
  refine ⟨?_, ?_⟩
  · rw [e0, ← hX, xA_0]; simp
  · rw [e1, ← hY, xA_1 h]; simp

include hp

/-- Position 0, order of the loads in `forward2All`. -/
theorem wrW0 (h0 : s = 0) : Wr (o.RF 3) (o.dF (o.VA f F)) (o.WT (o.xA mem f) sA) m' (0, s, c) (do
    let V0 ← load X
    let z ← o.Zetaqm.get (o.m + 1 + o.m)
    let Zetam := CONJ z
    let A := Zetam ⊙ UNPACKL V0 V0
    let B := ZMULTI (Zetam ⊙ UNPACKH V0 V0)
    let V1 ← load Y
    store X (V0 + V1)
    store Y (V1 + A + B)
    store Z (V1 + CONJ (A - B))) := by
  obtain ⟨v0, v1, v2, e0, e1, e2, n1, n2, n3⟩ := Same.v3 h sm pre h.wf.P_pos hs hc hX hY hZ
  obtain ⟨x0, x1⟩ := x2 h pre hs hc hX hY hZ sm
  obtain ⟨b1, b2⟩ := zb h hp (le_refl o.m)
  refine Wr.mk3p (R3 h.wf.P_pos hs hc) hX hY hZ ?_ ?_ ?_
  · body_simp
    exact ⟨v0, b1, v1, v0, v1, v2⟩
  · body_simp
    rw [add_assoc (m'.val Y), C30_pair_add, C30_pair_sub, b2, x0, x1, WT2 h hp _ _ hs, WT2 h hp _ _ hs, WT2 h hp _ _ hs, C30_conj, w_conj, w_conj,
      mul_comm (w _ _), mul_comm (w _ _)]
    simp [sA, h0, add_comm]
  · intro p; body_simp; exact rd3 h pre hs hc hX hY hZ sm

/-- Position 0, order of the loads in `forward2ManyAll`. -/
theorem wrW0m (h0 : s = 0) : Wr (o.RF 3) (o.dF (o.VA f F)) (o.WT (o.xA mem f) sA) m' (0, s, c) (do
    let z ← o.Zetaqm.get (o.m + 1 + o.m)
    let Zetam := CONJ z
    let V0 ← load X
    let A := Zetam ⊙ UNPACKL V0 V0
    let B := ZMULTI (Zetam ⊙ UNPACKH V0 V0)
    let V1 ← load Y
    store X (V0 + V1)
    store Y (V1 + A + B)
    store Z (V1 + CONJ (A - B))) := by
  obtain ⟨v0, v1, v2, e0, e1, e2, n1, n2, n3⟩ := Same.v3 h sm pre h.wf.P_pos hs hc hX hY hZ
  obtain ⟨x0, x1⟩ := x2 h pre hs hc hX hY hZ sm
  obtain ⟨b1, b2⟩ := zb h hp (le_refl o.m)
  refine Wr.mk3p (R3 h.wf.P_pos hs hc) hX hY hZ ?_ ?_ ?_
  · body_simp
    exact ⟨b1, v0, v1, v0, v1, v2⟩
  · body_simp
    rw [add_assoc (m'.val Y), C30_pair_add, C30_pair_sub, b2, x0, x1, WT2 h hp _ _ hs, WT2 h hp _ _ hs, WT2 h hp _ _ hs, C30_conj, w_conj, w_conj,
      mul_comm (w _ _), mul_comm (w _ _)]
    simp [sA, h0, add_comm]
  · intro p; body_simp; exact rd3 h pre hs hc hX hY hZ sm

/-- Other positions. -/
theorem wrW1 : Wr (o.RF 3) (o.dF (o.VA f F)) (o.WT (o.xA mem f) sA) m' (0, s, c) (do
    let Zeta ← o.Zetaqm.get (o.m + 1 + s)
    let z ← o.Zetaqm.get (o.m + 1 + o.m - s)
    let Zetam := CONJ z
    let V0 ← load X
    let V1 ← load Y
    let A := Zetam ⊙ UNPACKL V0 V0 + Zeta ⊙ UNPACKL V1 V1
    let B := ZMULTI (Zetam ⊙ UNPACKH V0 V0 + Zeta ⊙ UNPACKH V1 V1)
    store X (V0 + V1)
    store Y (A + B)
    store Z (CONJ (A - B))) := by
  obtain ⟨v0, v1, v2, e0, e1, e2, n1, n2, n3⟩ := Same.v3 h sm pre h.wf.P_pos hs hc hX hY hZ
  obtain ⟨x0, x1⟩ := x2 h pre hs hc hX hY hZ sm
  obtain ⟨b1, b2⟩ := zb h hp (s := s) hs.le
  obtain ⟨c1, c2⟩ := zb h hp (s := o.m - s) (Nat.sub_le _ _)
  rw [Nat.add_sub_assoc hs.le]
  refine Wr.mk3p (R3 h.wf.P_pos hs hc) hX hY hZ ?_ ?_ ?_
  · body_simp
    exact ⟨b1, c1, v0, v1, v0, v1, v2⟩
  · body_simp
    rw [C30_pair2_add, C30_pair2_sub, b2, c2, x0, x1, WT2 h hp _ _ hs, WT2 h hp _ _ hs, WT2 h hp _ _ hs, C30_conj, w_conj, w_conj, w_conj,
      mul_comm (w _ _), mul_comm (w _ _), mul_comm (w _ _), mul_comm (w _ _), Nat.cast_sub hs.le]
    simp [sA]
  · intro p; body_simp; exact rd3 h pre hs hc hX hY hZ sm

/-- Other positions, many copies. -/
theorem wrW1m : Wr (o.RF 3) (o.dF (o.VA f F)) (o.WT (o.xA mem f) sA) m' (0, s, c) (do
    let Zeta ← o.Zetaqm.get (o.m + 1 + s)
    let Zetam ← o.Zetaqm.get (o.m + 1 + o.m - s)
    let X' := UNPACKL Zeta Zeta
    let Y' := UNPACKH Zeta (-Zeta)
    let Xm := UNPACKL Zetam Zetam
    let Ym := UNPACKH (-Zetam) Zetam
    let V0 ← load X
    let V1 ← load Y
    let A := Xm ⊙ V0 + X' ⊙ V1
    let B := FLIP (Ym ⊙ V0 + Y' ⊙ V1)
    store X (V0 + V1)
    store Y (A + B)
    store Z (A - B)) := by
  obtain ⟨v0, v1, v2, e0, e1, e2, n1, n2, n3⟩ := Same.v3 h sm pre h.wf.P_pos hs hc hX hY hZ
  obtain ⟨x0, x1⟩ := x2 h pre hs hc hX hY hZ sm
  obtain ⟨b1, b2⟩ := zb h hp (s := s) hs.le
  obtain ⟨c1, c2⟩ := zb h hp (s := o.m - s) (Nat.sub_le _ _)
  rw [Nat.add_sub_assoc hs.le]
  refine Wr.mk3p (R3 h.wf.P_pos hs hc) hX hY hZ ?_ ?_ ?_
  · body_simp
    exact ⟨b1, c1, v0, v1, v0, v1, v2⟩
  · body_simp
    rw [flip_add, flip_sub, b2, c2, x0, x1, WT2 h hp _ _ hs, WT2 h hp _ _ hs, WT2 h hp _ _ hs, w_conj, w_conj,
      mul_comm (w _ _), mul_comm (w _ _), mul_comm (w _ _), mul_comm (w _ _), Nat.cast_sub hs.le]
    simp [sA]
  · intro p; body_simp; exact rd3 h pre hs hc hX hY hZ sm

end

variable (sm : Same mem m' o.RD (o.dD f) (0, s, c))
include sm hp

omit hp in
/-- What an iteration reads. -/
theorem rdD {p : Ptr} (hpp : p = X ∨ p = Y ∨ p = Z) : (∀ x, o.RD x → p ≠ o.dD f x) ∨ p = X ∨ p = Y := by
  rcases hpp with rfl | rfl | rfl
  · simp
  · simp
  · left; intro x hx; rw [← hZ]; refine Ptr.ne_of_buf ?_
    rw [dD_buf]; exact pre.fF.symm

theorem wrT0 (h0 : s = 0) : Wr o.RD (o.dD f) (o.T2 mem (o.VA f F)) m' (0, s, c) (do
    let V0 ← load X
    let V1 ← load Y
    let V2 ← load Z
    let z ← o.Zetaqm.get (o.m + 1 + o.m)
    store X (V0 + ZMULT2 z V1 V2)
    store Y (V0 + V1 + V2)) := by
  obtain ⟨v0, v1, v2, e0, e1, e2, n1, n2, n3⟩ := Same.vD h pre h.wf.P_pos hs hc hX hY hZ sm
  obtain ⟨b1, b2⟩ := zb h hp (le_refl o.m)
  refine Wr.mk2p (RDo h h.wf.P_pos hs hc) ((dD_0 h 0 s c).trans hX) ((dD_1 h 0 s c).trans hY) ?_ ?_ ?_
  · body_simp
    exact ⟨v0, v1, v2, b1, v0, v1⟩
  · body_simp
    rw [e0, e1, e2, C30_zmult2, b2, T2_lo h hp, T2_hi h, hX, hY, hZ, w_conj]
    simp [h0, add_assoc]
  · intro p; body_simp; exact rdD h pre hs hc hX hY hZ sm

theorem wrT0m (h0 : s = 0) : Wr o.RD (o.dD f) (o.T2 mem (o.VA f F)) m' (0, s, c) (do
    let Zetam ← o.Zetaqm.get (o.m + 1 + o.m)
    let Xm := UNPACKL Zetam Zetam
    let Ym := UNPACKH Zetam (-Zetam)
    let V0 ← load X
    let V1 ← load Y
    let V2 ← load Z
    store X (V0 + ZMULT2xy Xm Ym V1 V2)
    store Y (V0 + V1 + V2)) := by
  obtain ⟨v0, v1, v2, e0, e1, e2, n1, n2, n3⟩ := Same.vD h pre h.wf.P_pos hs hc hX hY hZ sm
  obtain ⟨b1, b2⟩ := zb h hp (le_refl o.m)
  refine Wr.mk2p (RDo h h.wf.P_pos hs hc) ((dD_0 h 0 s c).trans hX) ((dD_1 h 0 s c).trans hY) ?_ ?_ ?_
  · body_simp
    exact ⟨b1, v0, v1, v2, v0, v1⟩
  · body_simp
    rw [e0, e1, e2, C30_zmult2_xy, b2, T2_lo h hp, T2_hi h, hX, hY, hZ, w_conj]
    simp [h0, add_assoc]
  · intro p; body_simp; exact rdD h pre hs hc hX hY hZ sm

theorem wrT1 : Wr o.RD (o.dD f) (o.T2 mem (o.VA f F)) m' (0, s, c) (do
    let V0 ← load X
    let V1 ← load Y
    let V2 ← load Z
    let zm ← o.Zetaqm.get (o.m + 1 + o.m - s)
    store X (V0 + ZMULT2 zm V1 V2)
    let z ← o.Zetaqm.get (o.m + 1 + s)
    store Y (V0 + ZMULT2 z V2 V1)) := by
  obtain ⟨v0, v1, v2, e0, e1, e2, n1, n2, n3⟩ := Same.vD h pre h.wf.P_pos hs hc hX hY hZ sm
  obtain ⟨b1, b2⟩ := zb h hp (s := s) hs.le
  obtain ⟨c1, c2⟩ := zb h hp (s := o.m - s) (Nat.sub_le _ _)
  rw [Nat.add_sub_assoc hs.le]
  refine Wr.mk2p (RDo h h.wf.P_pos hs hc) ((dD_0 h 0 s c).trans hX) ((dD_1 h 0 s c).trans hY) ?_ ?_ ?_
  · body_simp
    exact ⟨v0, v1, v2, c1, v0, b1, v1⟩
  · body_simp
    rw [e0, e1, e2, C30_zmult2, C30_zmult2, b2, c2, T2_lo h hp, T2_hi h, hX, hY, hZ, w_conj, w_conj, Nat.cast_sub hs.le]
    simp [add_comm]
  · intro p; body_simp; exact rdD h pre hs hc hX hY hZ sm

theorem wrT1m : Wr o.RD (o.dD f) (o.T2 mem (o.VA f F)) m' (0, s, c) (do
    let Zetam ← o.Zetaqm.get (o.m + 1 + o.m - s)
    let Zeta ← o.Zetaqm.get (o.m + 1 + s)
    let Xm := UNPACKL Zetam Zetam
    let Ym := UNPACKH Zetam (-Zetam)
    let X' := UNPACKL Zeta Zeta
    let Y' := UNPACKH (-Zeta) Zeta
    let V0 ← load X
    let V1 ← load Y
    let V2 ← load Z
    store X (V0 + ZMULT2xy Xm Ym V1 V2)
    store Y (V0 + ZMULT2xy X' Y' V1 V2)) := by
  obtain ⟨v0, v1, v2, e0, e1, e2, n1, n2, n3⟩ := Same.vD h pre h.wf.P_pos hs hc hX hY hZ sm
  obtain ⟨b1, b2⟩ := zb h hp (s := s) hs.le
  obtain ⟨c1, c2⟩ := zb h hp (s := o.m - s) (Nat.sub_le _ _)
  rw [Nat.add_sub_assoc hs.le]
  refine Wr.mk2p (RDo h h.wf.P_pos hs hc) ((dD_0 h 0 s c).trans hX) ((dD_1 h 0 s c).trans hY) ?_ ?_ ?_
  · body_simp
    exact ⟨c1, b1, v0, v1, v2, v0, v1⟩
  · body_simp
    rw [e0, e1, e2, C30_zmult2_xy, zmult2_xy_conj, b2, c2, T2_lo h hp, T2_hi h, hX, hY, hZ, w_conj, w_conj, Nat.cast_sub hs.le]
    simp
  · intro p; body_simp; exact rdD h pre hs hc hX hY hZ sm

end

section
variable {f F : Ptr} {mem : Mem}

theorem forward2All_ok (h : o.Ow) (hp : o.p = 2) (hS : o.S = 1) (pre : o.OwPre mem f F) :
    (o.forward2All f F).Ok mem (fun _ m' => o.OwFwd mem m' f F) := by
  obtain ⟨h1, h2, h3, h4, h5, h6, h7, h8, h9⟩ := h.facts
  have hP := h.wf.P_one hp
  have hC := h.wf.C_one hS
  have hC0 := h.wf.C_pos
  have hm := h.wf.m_pos
  have hg : f + o.m = f + o.b := by rw [h.wf.b_eq, h.wf.l_eq, hP, hS]; simp
  unfold forward2All
  simp only [hg]
  refine Cmd.Ok.bind ((Fills.start (T := o.WT (o.xA mem f) sA) (h.inj pre.fF)).runz (k := (0, 0, 0)) ?_ ?_)
  · exact wrW0 h hp pre hm hC0 (by simp [dF, VA_0, Ptr.add_zero]) (by simp [dF, VA_1, Ptr.add_zero]) (by simp [dF, VA_2, Ptr.add_zero]) ⟨rfl, fun _ _ => rfl, fun _ _ => rfl⟩ rfl
  intro m1 f1
  refine Cmd.Ok.bind (f1.parz (fun s => (0, s, 0)) (rng_nodup _ _) ?_ ?_ ?_ ?_)
  · intro i _ j _ e; simpa using e
  · intro s hs d hd
    simp only [mem_rng, Prod.mk.injEq, false_or] at hs hd
    omega
  · intro s hs m' sm
    rw [mem_rng] at hs
    exact wrW1 h hp pre hs.2 hC0 (by dfe hS) (by dfe hS) (by dfe hS) sm
  intro m2 f2
  refine rows3S_ok h hS (h.wf.fftm_S1 h1 hS).1 (pre.size f2.size) fun m3 f3 => ow_out h (f2.congr ?_) f3
  rintro ⟨d, t, s, c⟩ ⟨-, h1, h2, h3⟩
  simp only at h1 h2 h3
  simp only [mem_rng, Prod.mk.injEq, false_or, iff_true]
  by_cases hs : s = 0
  · left; omega
  · exact Or.inr ⟨s, ⟨by omega, h2⟩, by omega, rfl, by omega⟩

theorem forward2ManyAll_ok (h : o.Ow) (hp : o.p = 2) (hS : o.S ≠ 1) (pre : o.OwPre mem f F) :
    (o.forward2ManyAll f F).Ok mem (fun _ m' => o.OwFwd mem m' f F) := by
  obtain ⟨h1, h2, h3, h4, h5, h6, h7, h8, h9⟩ := h.facts
  have hP := h.wf.P_one hp
  have hm := h.wf.m_pos
  have hSm := h.wf.Sm_eq
  have hg : f + o.Sm = f + o.b := by rw [h.wf.b_eq, h.wf.l_eq, hP, hSm]; simp
  unfold forward2ManyAll
  simp only [hg]
  refine Cmd.Ok.bind ((Fills.start (T := o.WT (o.xA mem f) sA) (h.inj pre.fF)).parz (fun c => (0, 0, c)) (rng_nodup _ _) ?_ (fun _ _ _ h => h) ?_ ?_)
  · intro i _ j _ e; simpa using e
  · intro c hc m' sm
    rw [mem_rng] at hc
    exact wrW0m h hp pre hm hc.2 (by dfe hSm) (by dfe hSm) (by dfe hSm) sm rfl
  intro m1 f1
  refine Cmd.Ok.bind (f1.parz (fun x : ℕ × ℕ => (0, x.1, x.2)) (rng2_nodup _ _ _ _) ?_ ?_ ?_ ?_)
  · intro i _ j _ e; simp only [Prod.mk.injEq, true_and] at e; exact Prod.ext e.1 e.2
  · rintro ⟨s, c⟩ hs d hd
    simp only [mem_rng, mem_rng2, Prod.mk.injEq, false_or] at hs hd
    obtain ⟨i, hi, e⟩ := hd
    omega
  · rintro ⟨s, c⟩ hs m' sm
    simp only [mem_rng2] at hs
    exact wrW1m h hp pre hs.1.2 hs.2.2 (by dfe hSm) (by dfe hSm) (by dfe hSm) sm
  intro m2 f2
  refine rows3O_ok h hP (h.wf.fftm_many hS).1 (pre.size f2.size) fun m3 f3 => ow_out h (f2.congr ?_) f3
  rintro ⟨d, t, s, c⟩ ⟨-, h1, h2, h3⟩
  simp only at h1 h2 h3
  simp only [mem_rng, mem_rng2, Prod.mk.injEq, false_or, iff_true]
  by_cases hs : s = 0
  · exact Or.inl ⟨c, ⟨by omega, h3⟩, by omega, hs, rfl⟩
  · exact Or.inr ⟨(s, c), ⟨⟨by simp only; omega, h2⟩, by simp only; omega, h3⟩, by omega, rfl, rfl⟩

theorem backward2All_ok (h : o.Ow) (hp : o.p = 2) (hS : o.S = 1) (pre : o.OwPre mem f F) :
    (o.backward2All F f).Ok mem (fun _ m' => o.OwBwd mem m' f F) := by
  obtain ⟨h1, h2, h3, h4, h5, h6, h7, h8, h9⟩ := h.facts
  have hP := h.wf.P_one hp
  have hC := h.wf.C_one hS
  have hC0 := h.wf.C_pos
  have hm := h.wf.m_pos
  have hg : f + o.m = f + o.b := by rw [h.wf.b_eq, h.wf.l_eq, hP, hS]; simp
  unfold backward2All
  simp only [hg]
  refine ok_assoc3 (rows3S_ok h hS (h.wf.fftm_S1 h1 hS).2 pre fun m0 f0 => ?_)
  have pre0 : o.OwPre m0 f F := pre.size f0.size
  refine Cmd.Ok.bind ((Fills.start (T := o.T2 m0 (o.VA f F)) (h.dD_inj pre.fF)).runz (k := (0, 0, 0)) ?_ ?_)
  · exact wrT0 h hp pre0 hm hC0 (by simp [dF, VA_0, Ptr.add_zero]) (by simp [dF, VA_1, Ptr.add_zero]) (by simp [dF, VA_2, Ptr.add_zero]) ⟨rfl, fun _ _ => rfl, fun _ _ => rfl⟩ rfl
  intro m1 f1
  refine f1.parz (fun s => (0, s, 0)) (rng_nodup _ _) ?_ ?_ ?_ ?_
  · intro i _ j _ e; simpa using e
  · intro s hs d hd
    simp only [mem_rng, Prod.mk.injEq, false_or] at hs hd
    omega
  · intro s hs m' sm
    rw [mem_rng] at hs
    exact wrT1 h hp pre0 hs.2 hC0 (by dfe hS) (by dfe hS) (by dfe hS) sm
  intro m2 f2
  refine ow_back h f0 (back2 h hp (f2.congr ?_))
  rintro ⟨d, t, s, c⟩ ⟨-, h1, h2, h3⟩
  simp only at h1 h2 h3
  simp only [mem_rng, Prod.mk.injEq, false_or, iff_true]
  by_cases hs : s = 0
  · left; omega
  · exact Or.inr ⟨s, ⟨by omega, h2⟩, by omega, rfl, by omega⟩

theorem backward2ManyAll_ok (h : o.Ow) (hp : o.p = 2) (hS : o.S ≠ 1) (pre : o.OwPre mem f F) :
    (o.backward2ManyAll F f).Ok mem (fun _ m' => o.OwBwd mem m' f F) := by
  obtain ⟨h1, h2, h3, h4, h5, h6, h7, h8, h9⟩ := h.facts
  have hP := h.wf.P_one hp
  have hm := h.wf.m_pos
  have hSm := h.wf.Sm_eq
  have hg : f + o.Sm = f + o.b := by rw [h.wf.b_eq, h.wf.l_eq, hP, hSm]; simp
  unfold backward2ManyAll
  simp only [hg]
  refine ok_assoc3 (rows3O_ok h hP (h.wf.fftm_many hS).2 pre fun m0 f0 => ?_)
  have pre0 : o.OwPre m0 f F := pre.size f0.size
  refine Cmd.Ok.bind ((Fills.start (T := o.T2 m0 (o.VA f F)) (h.dD_inj pre.fF)).parz (fun c => (0, 0, c)) (rng_nodup _ _) ?_ (fun _ _ _ h => h) ?_ ?_)
  · intro i _ j _ e; simpa using e
  · intro c hc m' sm
    rw [mem_rng] at hc
    exact wrT0m h hp pre0 hm hc.2 (by dfe hSm) (by dfe hSm) (by dfe hSm) sm rfl
  intro m1 f1
  refine f1.parz (fun x : ℕ × ℕ => (0, x.1, x.2)) (rng2_nodup _ _ _ _) ?_ ?_ ?_ ?_
  · intro i _ j _ e; simp only [Prod.mk.injEq, true_and] at e; exact Prod.ext e.1 e.2
  · rintro ⟨s, c⟩ hs d hd
    simp only [mem_rng, mem_rng2, Prod.mk.injEq, false_or] at hs hd
    obtain ⟨i, hi, e⟩ := hd
    omega
  · rintro ⟨s, c⟩ hs m' sm
    simp only [mem_rng2] at hs
    exact wrT1m h hp pre0 hs.1.2 hs.2.2 (by dfe hSm) (by dfe hSm) (by dfe hSm) sm
  intro m2 f2
  refine ow_back h f0 (back2 h hp (f2.congr ?_))
  rintro ⟨d, t, s, c⟩ ⟨-, h1, h2, h3⟩
  simp only at h1 h2 h3
  simp only [mem_rng, mem_rng2, Prod.mk.injEq, false_or, iff_true]
  by_cases hs : s = 0
  · exact Or.inl ⟨c, ⟨by omega, h3⟩, by omega, hs, rfl⟩
  · exact Or.inr ⟨(s, c), ⟨⟨by simp only; omega, h2⟩, by simp only; omega, h3⟩, by omega, rfl, rfl⟩

end
end Cent
end Fftwpp
