import Verif.Proof.COw

/-! The centered routines that overwrite their input, `p>2`: one iteration of each loop. -/

namespace Fftwpp
open Finset

namespace Fills
variable {τ ι : Type} {m0 m : Mem} {R : ℕ × τ → Prop} {dst : ℕ × τ → Ptr} {T : ℕ × τ → ℂ} {done : ℕ × τ → Prop}

/-- A loop that treats only the cells `D` of each group. -/
theorem parD (h : Fills m0 m R dst T done) {l : List ι} {body : ι → Body Unit} (k : ι → τ) (hl : l.Nodup)
    (hk : ∀ i ∈ l, ∀ j ∈ l, k i = k j → i = j) (D : List ℕ) (hD : D.Nodup) (hR : ∀ i ∈ l, ∀ d ∈ D, R (d, k i))
    (hg : ∀ i ∈ l, (body i).Good m) (hw : ∀ i ∈ l, (body i).wrs m = D.map fun d => (dst (d, k i), T (d, k i)))
    (hrd : ∀ i ∈ l, ∀ p ∈ (body i).rds m, ∃ d ∈ D, p = dst (d, k i))
    {Q : Unit → Mem → Prop}
    (hQ : ∀ m', Fills m0 m' R dst T (fun x => done x ∨ ∃ i ∈ l, x.1 ∈ D ∧ x.2 = k i) → Q () m') :
    (Fftwpp.par l body).Ok m Q := by
  refine h.par (fun i => D.map fun d => (d, k i)) hl ?_ ?_ ?_ hg ?_ ?_ ?_
  · intro i hi x hx
    rw [List.mem_map] at hx
    obtain ⟨d, hd, rfl⟩ := hx
    exact hR i hi d hd
  · intro i hi; exact hD.map fun a b e => by simpa using e
  · intro i hi j hj hij x hx hx'
    rw [List.mem_map] at hx hx'
    obtain ⟨d, _, rfl⟩ := hx
    obtain ⟨d', _, e⟩ := hx'
    simp only [Prod.mk.injEq] at e
    exact hij (hk i hi j hj e.2.symm)
  · intro i hi
    rw [hw i hi, List.map_map]; rfl
  · intro i hi p hp
    obtain ⟨d, h1, h2⟩ := hrd i hi p hp
    exact Or.inr ⟨(d, k i), List.mem_map.2 ⟨d, h1, rfl⟩, h2⟩
  · intro m' hm
    refine hQ m' (hm.congr ?_)
    rintro ⟨d, t⟩ hR
    refine or_congr Iff.rfl ⟨?_, ?_⟩
    · rintro ⟨i, hi, hx⟩
      rw [List.mem_map] at hx
      obtain ⟨d', hd', e⟩ := hx
      simp only [Prod.mk.injEq] at e
      exact ⟨i, hi, by rw [← e.1]; exact hd', e.2.symm⟩
    · rintro ⟨i, hi, e1, e2⟩
      simp only at e1 e2
      exact ⟨i, hi, List.mem_map.2 ⟨d, e1, by rw [e2]⟩⟩

end Fills

namespace Cent
open ComplexConjugate
open Fft (seqLoop_rng)
variable {o : Cent}

/-- The data. -/
def xA (o : Cent) (mem : Mem) (f : Ptr) (c j : ℕ) : ℂ := mem.val (f + (o.S * j + c))

theorem xA_0 {mem : Mem} {f F : Ptr} (t s c : ℕ) : mem.val (o.dF (o.VA f F) (0, t, s, c)) = o.xA mem f c (o.m * t + s) := rfl
theorem xA_1 (h : o.Ow) {mem : Mem} {f F : Ptr} (t s c : ℕ) :
    mem.val (o.dF (o.VA f F) (1, t, s, c)) = o.xA mem f c (o.H + (o.m * t + s)) := by
  unfold xA dF
  simp only [VA_1]
  rw [Ptr.add_add, h.wf.b_eq, h.wf.l_eq, ← h.geo.2.1]
  congr 2
  ring

theorem R3 {t s c : ℕ} (ht : t < o.P) (hs : s < o.m) (hc : c < o.C) (d : ℕ) : o.RF 3 (d, t, s, c) ↔ d = 0 ∨ d = 1 ∨ d = 2 := by
  unfold RF; simp [ht, hs, hc]; omega

section
variable {f F : Ptr} {mem m' : Mem} {t s c : ℕ} {X Y Z : Ptr}

theorem Same.v3 (h : o.Ow) (sm : Same mem m' (o.RF 3) (o.dF (o.VA f F)) (t, s, c)) (pre : o.OwPre mem f F)
    (ht : t < o.P) (hs : s < o.m) (hc : c < o.C)
    (hX : o.dF (o.VA f F) (0, t, s, c) = X) (hY : o.dF (o.VA f F) (1, t, s, c) = Y) (hZ : o.dF (o.VA f F) (2, t, s, c) = Z) :
    m'.valid X ∧ m'.valid Y ∧ m'.valid Z ∧ m'.val X = mem.val X ∧ m'.val Y = mem.val Y ∧ m'.val Z = mem.val Z ∧ X ≠ Y ∧ X ≠ Z ∧ Y ≠ Z := by
  have r0 : o.RF 3 (0, t, s, c) := (R3 ht hs hc 0).2 (by simp)
  have r1 : o.RF 3 (1, t, s, c) := (R3 ht hs hc 1).2 (by simp)
  have r2 : o.RF 3 (2, t, s, c) := (R3 ht hs hc 2).2 (by simp)
  refine ⟨?_, ?_, ?_, ?_, ?_, ?_, ?_, ?_, ?_⟩
  · rw [← hX]; exact sm.valid (pre.v _ r0)
  · rw [← hY]; exact sm.valid (pre.v _ r1)
  · rw [← hZ]; exact sm.valid (pre.v _ r2)
  · rw [← hX]; exact sm.own 0 r0
  · rw [← hY]; exact sm.own 1 r1
  · rw [← hZ]; exact sm.own 2 r2
  · rw [← hX, ← hY]; intro e; have := h.inj pre.fF _ _ r0 r1 e; simp at this
  · rw [← hX, ← hZ]; intro e; have := h.inj pre.fF _ _ r0 r2 e; simp at this
  · rw [← hY, ← hZ]; intro e; have := h.inj pre.fF _ _ r1 r2 e; simp at this

variable (h : o.Ow) (hp : 2 < o.p) (sm : Same mem m' (o.RF 3) (o.dF (o.VA f F)) (t, s, c)) (pre : o.OwPre mem f F)
    (ht : t < o.P) (hs : s < o.m) (hc : c < o.C)
    (hX : o.dF (o.VA f F) (0, t, s, c) = X) (hY : o.dF (o.VA f F) (1, t, s, c) = Y) (hZ : o.dF (o.VA f F) (2, t, s, c) = Z)

include h hp in
theorem zp : (o.Zetaqp.lo ≤ o.p ∧ o.p < o.Zetaqp.hi) ∧ o.Zetaqp.val o.p = w o.q (o.P * (1 : ℕ)) := by
  obtain ⟨h1, h2, h3, h4, h5, h6, h7, h8, h9⟩ := h.facts
  have hP := h.wf.P_pos
  have e : o.p = o.P * 1 + o.P := by omega
  rw [e]
  exact ⟨h.wf.zqp_bd hp (by omega) (by omega) hP le_rfl, h.wf.zqp_val hp hP le_rfl⟩

include h hp in
theorem zt (h0 : 0 < t) (ht : t < o.P) : (o.Zetaqp.lo ≤ o.P + t ∧ o.P + t < o.Zetaqp.hi) ∧ o.Zetaqp.val (o.P + t) = w o.q (t * (1 : ℕ)) := by
  obtain ⟨h1, h2, h3, h4, h5, h6, h7, h8, h9⟩ := h.facts
  have e : o.P + t = o.P * 1 + t := by omega
  rw [e]
  exact ⟨h.wf.zqp_bd hp (by omega) (by omega) h0 (by omega), h.wf.zqp_val hp h0 (by omega)⟩

include h hp sm pre ht hs hc hX hY hZ

theorem wrG0 (h0 : t = 0) :
    Wr (o.RF 3) (o.dF (o.VA f F)) (o.GT (o.xA mem f) sA) m' (t, s, c) (do
      let z ← o.Zetaqp.get o.p
      let Zetanr := CONJ z
      let V0 ← load X
      let V1 ← load Y
      let A := Zetanr ⊙ UNPACKL V0 V0
      let B := ZMULTI (Zetanr ⊙ UNPACKH V0 V0)
      store X (V0 + V1)
      store Y (A + B + V1)
      store Z (CONJ (A - B) + V1)) := by
  obtain ⟨v0, v1, v2, e0, e1, e2, n1, n2, n3⟩ := Same.v3 h sm pre ht hs hc hX hY hZ
  obtain ⟨b1, b2⟩ := zp h hp
  obtain ⟨g1, g2, g3⟩ := h.geo
  have hL : o.H + s < o.L := by
    have : o.m * 1 ≤ o.m * o.P := Nat.mul_le_mul_left _ h.wf.P_pos
    omega
  subst h0
  have x0 : mem.val X = o.xA mem f c s := by rw [← hX, xA_0]; simp
  have x1 : mem.val Y = o.xA mem f c (o.H + s) := by rw [← hY, xA_1 h]; simp
  refine Wr.mk3p (R3 ht hs hc) hX hY hZ ?_ ?_ ?_
  · body_simp
    exact ⟨b1, v0, v1, v0, v1, v2⟩
  · body_simp
    rw [e0, e1, C30_pair_add, C30_pair_sub, b2, x0, x1, GT2 _ _ (by omega) hL, GT2 _ _ (by omega) hL, GT2 _ _ (by omega) hL, g1, C30_conj, w_conj,
      w_conj, mul_comm (w _ _), mul_comm (w _ _)]
    simp [sA]
  · intro p; body_simp; rintro (rfl | rfl) <;> simp

theorem wrG1 (h0 : 0 < t) :
    Wr (o.RF 3) (o.dF (o.VA f F)) (o.GT (o.xA mem f) sA) m' (t, s, c) (do
      let z ← o.Zetaqp.get o.p
      let Zetanr := CONJ z
      let Zeta ← o.Zetaqp.get (o.P + t)
      let Zetam := ZMULT Zeta Zetanr
      let V0 ← load X
      let V1 ← load Y
      let A := Zetam ⊙ UNPACKL V0 V0 + Zeta ⊙ UNPACKL V1 V1
      let B := ZMULTI (Zetam ⊙ UNPACKH V0 V0 + Zeta ⊙ UNPACKH V1 V1)
      store X (V0 + V1)
      store Y (A + B)
      store Z (CONJ (A - B))) := by
  obtain ⟨v0, v1, v2, e0, e1, e2, n1, n2, n3⟩ := Same.v3 h sm pre ht hs hc hX hY hZ
  obtain ⟨b1, b2⟩ := zp h hp
  obtain ⟨c1, c2⟩ := zt h hp h0 ht
  obtain ⟨g1, g2, g3⟩ := h.geo
  have hL : o.H + (o.m * t + s) < o.L := by
    have := radix_lt hs ht
    omega
  have x0 : mem.val X = o.xA mem f c (o.m * t + s) := by rw [← hX, xA_0]
  have x1 : mem.val Y = o.xA mem f c (o.H + (o.m * t + s)) := by rw [← hY, xA_1 h]
  refine Wr.mk3p (R3 ht hs hc) hX hY hZ ?_ ?_ ?_
  · body_simp
    exact ⟨b1, c1, v0, v1, v0, v1, v2⟩
  · body_simp
    rw [e0, e1, C30_pair2_add, C30_pair2_sub, b2, c2, x0, x1, GT3 _ _ (by omega) hL, GT3 _ _ (by omega) hL, GT3 _ _ (by omega) hL, g1, C30_conj,
      C30_zmult, wtP, w_conj, w_conj, mul_comm (w _ _), mul_comm (w _ _), mul_comm (w _ _), mul_comm (w _ _)]
    simp [sA]
  · intro p; body_simp; rintro (rfl | rfl) <;> simp

/-- Twiddling of a cell of the three blocks in a row other than the first. -/
theorem wrZ (h0 : 0 < t) {i0 i1 i2 : ℕ} (hi0 : i0 = o.m * (o.n * t) + s) (hi1 : i1 = o.m * (o.n * t + 1) + s)
    (hi2 : i2 = o.m * (o.n * t - 1) + s) :
    Wr (o.RF 3) (o.dF (o.VA f F)) (o.ZT mem (o.VA f F) sA) m' (t, s, c) (do
      let z0 ← o.Zetaqm.get i0
      mulBy X z0
      let z1 ← o.Zetaqm.get i1
      mulBy Y z1
      let z2 ← o.Zetaqm.get i2
      mulBy Z z2) := by
  obtain ⟨v0, v1, v2, e0, e1, e2, n1, n2, n3⟩ := Same.v3 h sm pre ht hs hc hX hY hZ
  obtain ⟨h1, h2, h3, h4, h5, h6, h7, h8, h9⟩ := h.facts
  have hnu : o.n * 1 ≤ o.n * t := Nat.mul_le_mul_left _ h0
  have hq := h.wf.qn ht (r := 2) (by omega)
  subst hi0 hi1 hi2
  refine Wr.mk3p (R3 ht hs hc) hX hY hZ ?_ ?_ ?_
  · simp only [mulBy]
    body_simp
    exact ⟨h.wf.zq_bd hp (by omega) (by omega) hs, v0, v0, h.wf.zq_bd hp (by omega) (by omega) hs, v1, v1,
      h.wf.zq_bd hp (by omega) (by omega) hs, v2, v2⟩
  · simp only [mulBy]
    body_simp
    rw [h.wf.zq_val hp hs, h.wf.zq_val hp hs, h.wf.zq_val hp hs, set_mul n1.symm, set_mul n3.symm, set_mul n2.symm, e0, e1, e2]
    unfold ZT
    rw [hX, hY, hZ]
    simp only [sA]
    rw [Nat.cast_sub (by omega)]
    simp [sub_eq_add_neg]
  · intro p; simp only [mulBy]; body_simp; rintro (rfl | rfl | rfl) <;> simp

/-- Inverse twiddling. -/
theorem wrB (h0 : 0 < t) {i0 i1 i2 : ℕ} (hi0 : i0 = o.m * (o.n * t) + s) (hi1 : i1 = o.m * (o.n * t + 1) + s)
    (hi2 : i2 = o.m * (o.n * t - 1) + s) :
    Wr (o.RF 3) (o.dF (o.VA f F)) (o.BT mem (o.VA f F) sA) m' (t, s, c) (do
      let z0 ← o.Zetaqm.get i0
      mulBy X ((starRingEnd ℂ) z0)
      let z1 ← o.Zetaqm.get i1
      mulBy Y ((starRingEnd ℂ) z1)
      let z2 ← o.Zetaqm.get i2
      mulBy Z ((starRingEnd ℂ) z2)) := by
  obtain ⟨v0, v1, v2, e0, e1, e2, n1, n2, n3⟩ := Same.v3 h sm pre ht hs hc hX hY hZ
  obtain ⟨h1, h2, h3, h4, h5, h6, h7, h8, h9⟩ := h.facts
  have hnu : o.n * 1 ≤ o.n * t := Nat.mul_le_mul_left _ h0
  have hq := h.wf.qn ht (r := 2) (by omega)
  subst hi0 hi1 hi2
  refine Wr.mk3p (R3 ht hs hc) hX hY hZ ?_ ?_ ?_
  · simp only [mulBy]
    body_simp
    exact ⟨h.wf.zq_bd hp (by omega) (by omega) hs, v0, v0, h.wf.zq_bd hp (by omega) (by omega) hs, v1, v1,
      h.wf.zq_bd hp (by omega) (by omega) hs, v2, v2⟩
  · simp only [mulBy]
    body_simp
    rw [h.wf.zq_val hp hs, h.wf.zq_val hp hs, h.wf.zq_val hp hs, set_mul n1.symm, set_mul n3.symm, set_mul n2.symm, e0, e1, e2, w_conj, w_conj, w_conj]
    unfold BT
    rw [hX, hY, hZ]
    simp only [sA]
    rw [Nat.cast_sub (by omega)]
    simp [sub_eq_add_neg]
  · intro p; simp only [mulBy]; body_simp; rintro (rfl | rfl | rfl) <;> simp

omit sm in
/-- Twiddling of a cell of the blocks 1 and 2 in the first row. -/
theorem wrZ0 (h0 : t = 0) {m0 : Mem} (hs0 : m'.size = mem.size) (ho : ∀ d, m'.val (o.dF (o.VA f F) (d, t, s, c)) = m0.val (o.dF (o.VA f F) (d, t, s, c))) {i1 : ℕ} (hi1 : i1 = o.m * 1 + s) {b : Body Unit}
    (hb : b = do
      let Zeta ← o.Zetaqm.get i1
      mulBy Y Zeta
      mulBy Z ((starRingEnd ℂ) Zeta)) :
    b.Good m' ∧ b.wrs m' = [1, 2].map (fun d => (o.dF (o.VA f F) (d, t, s, c), o.ZT m0 (o.VA f F) sA (d, t, s, c))) ∧
    ∀ p ∈ b.rds m', ∃ d ∈ [1, 2], p = o.dF (o.VA f F) (d, t, s, c) := by
  obtain ⟨h1, h2, h3, h4, h5, h6, h7, h8, h9⟩ := h.facts
  have v1 : m'.valid Y := by rw [← hY]; exact Mem.valid_of_size hs0 (pre.v _ ((R3 ht hs hc _).2 (by simp)))
  have v2 : m'.valid Z := by rw [← hZ]; exact Mem.valid_of_size hs0 (pre.v _ ((R3 ht hs hc _).2 (by simp)))
  have n3 : Y ≠ Z := by
    rw [← hY, ← hZ]; intro e
    have := h.inj pre.fF _ _ ((R3 ht hs hc 1).2 (by simp)) ((R3 ht hs hc 2).2 (by simp)) e; simp at this
  have hP := h.wf.P_pos
  have hq : 1 < o.q := by omega
  have e1 : m'.val Y = m0.val Y := by rw [← hY]; exact ho 1
  have e2 : m'.val Z = m0.val Z := by rw [← hZ]; exact ho 2
  subst hi1 h0 hb
  refine ⟨?_, ?_, ?_⟩
  · simp only [mulBy]
    body_simp
    exact ⟨h.wf.zq_bd hp (by omega) hq hs, v1, v1, v2, v2⟩
  · simp only [mulBy]
    body_simp
    rw [h.wf.zq_val hp hs, set_mul n3.symm, e1, e2, w_conj]
    unfold ZT
    simp only [List.map_cons, List.map_nil]
    rw [hY, hZ]
    simp [sA]
  · intro p; simp only [mulBy]; body_simp; rintro (rfl | rfl)
    · exact ⟨1, Or.inl rfl, hY.symm⟩
    · exact ⟨2, Or.inr rfl, hZ.symm⟩

omit sm in
/-- Inverse twiddling in the first row. -/
theorem wrB0 (h0 : t = 0) {m0 : Mem} (hs0 : m'.size = mem.size) (ho : ∀ d, m'.val (o.dF (o.VA f F) (d, t, s, c)) = m0.val (o.dF (o.VA f F) (d, t, s, c))) {i1 : ℕ} (hi1 : i1 = o.m * 1 + s) {b : Body Unit}
    (hb : b = do
      let Zeta ← o.Zetaqm.get i1
      mulBy Y ((starRingEnd ℂ) Zeta)
      mulBy Z Zeta) :
    b.Good m' ∧ b.wrs m' = [1, 2].map (fun d => (o.dF (o.VA f F) (d, t, s, c), o.BT m0 (o.VA f F) sA (d, t, s, c))) ∧
    ∀ p ∈ b.rds m', ∃ d ∈ [1, 2], p = o.dF (o.VA f F) (d, t, s, c) := by
  obtain ⟨h1, h2, h3, h4, h5, h6, h7, h8, h9⟩ := h.facts
  have v1 : m'.valid Y := by rw [← hY]; exact Mem.valid_of_size hs0 (pre.v _ ((R3 ht hs hc _).2 (by simp)))
  have v2 : m'.valid Z := by rw [← hZ]; exact Mem.valid_of_size hs0 (pre.v _ ((R3 ht hs hc _).2 (by simp)))
  have n3 : Y ≠ Z := by
    rw [← hY, ← hZ]; intro e
    have := h.inj pre.fF _ _ ((R3 ht hs hc 1).2 (by simp)) ((R3 ht hs hc 2).2 (by simp)) e; simp at this
  have hP := h.wf.P_pos
  have hq : 1 < o.q := by omega
  have e1 : m'.val Y = m0.val Y := by rw [← hY]; exact ho 1
  have e2 : m'.val Z = m0.val Z := by rw [← hZ]; exact ho 2
  subst hi1 h0 hb
  refine ⟨?_, ?_, ?_⟩
  · simp only [mulBy]
    body_simp
    exact ⟨h.wf.zq_bd hp (by omega) hq hs, v1, v1, v2, v2⟩
  · simp only [mulBy]
    body_simp
    rw [h.wf.zq_val hp hs, set_mul n3.symm, e1, e2, w_conj]
    unfold BT
    simp only [List.map_cons, List.map_nil]
    rw [hY, hZ]
    simp [sA]
  · intro p; simp only [mulBy]; body_simp; rintro (rfl | rfl)
    · exact ⟨1, Or.inl rfl, hY.symm⟩
    · exact ⟨2, Or.inr rfl, hZ.symm⟩

omit hp sm pre ht hs hc hX hY hZ in
theorem dD_0 (t s c : ℕ) : o.dD f (0, t, s, c) = o.dF (o.VA f F) (0, t, s, c) := by
  rw [dD_lo, h.geo.1]; rfl
omit hp sm pre ht hs hc hX hY hZ in
theorem dD_1 (t s c : ℕ) : o.dD f (1, t, s, c) = o.dF (o.VA f F) (1, t, s, c) := by
  rw [dD_hi]
  unfold dF
  simp only [VA_1]
  rw [Ptr.add_add, h.wf.b_eq, h.wf.l_eq, ← h.geo.2.1]
  congr 1; ring

omit hp sm pre hX hY hZ in
theorem RDo (d : ℕ) : o.RD (d, t, s, c) ↔ d = 0 ∨ d = 1 := by
  obtain ⟨g1, g2, g3⟩ := h.geo
  have := radix_lt hs ht
  exact RDz2 ht hs (by omega) (by omega) hc d

omit hp sm in
theorem Same.vD (sm : Same mem m' o.RD (o.dD f) (t, s, c)) :
    m'.valid X ∧ m'.valid Y ∧ m'.valid Z ∧ m'.val X = mem.val X ∧ m'.val Y = mem.val Y ∧ m'.val Z = mem.val Z ∧ X ≠ Y ∧ X ≠ Z ∧ Y ≠ Z := by
  have r0 : o.RF 3 (0, t, s, c) := (R3 ht hs hc 0).2 (by simp)
  have r1 : o.RF 3 (1, t, s, c) := (R3 ht hs hc 1).2 (by simp)
  have r2 : o.RF 3 (2, t, s, c) := (R3 ht hs hc 2).2 (by simp)
  refine ⟨?_, ?_, ?_, ?_, ?_, ?_, ?_, ?_, ?_⟩
  · rw [← hX]; exact sm.valid (pre.v _ r0)
  · rw [← hY]; exact sm.valid (pre.v _ r1)
  · rw [← hZ]; exact sm.valid (pre.v _ r2)
  · rw [← hX, ← dD_0 h]; exact sm.own 0 ((RDo h ht hs hc 0).2 (by simp))
  · rw [← hY, ← dD_1 h]; exact sm.own 1 ((RDo h ht hs hc 1).2 (by simp))
  · rw [← hZ]; refine sm.frame _ fun x hx => Ptr.ne_of_buf ?_
    rw [dD_buf]; exact pre.fF.symm
  · rw [← hX, ← hY]; intro e; have := h.inj pre.fF _ _ r0 r1 e; simp at this
  · rw [← hX, ← hZ]; intro e; have := h.inj pre.fF _ _ r0 r2 e; simp at this
  · rw [← hY, ← hZ]; intro e; have := h.inj pre.fF _ _ r1 r2 e; simp at this

omit sm in
/-- Data from the three blocks, first row. -/
theorem wrD0 (sm : Same mem m' o.RD (o.dD f) (t, s, c)) (h0 : t = 0) :
    Wr o.RD (o.dD f) (o.DT mem 3 (o.VA f F) sA (fun _ _ => 0)) m' (t, s, c) (do
      let Zetanr ← o.Zetaqp.get o.p
      let Xm := UNPACKL Zetanr Zetanr
      let Ym := UNPACKH Zetanr (-Zetanr)
      let V0 ← load X
      let V1 ← load Y
      let V2 ← load Z
      store X (V0 + ZMULT2xy Xm Ym V1 V2)
      store Y (V0 + V1 + V2)) := by
  obtain ⟨v0, v1, v2, e0, e1, e2, n1, n2, n3⟩ := Same.vD h pre ht hs hc hX hY hZ sm
  obtain ⟨b1, b2⟩ := zp h hp
  subst h0
  refine Wr.mk2p (RDo h ht hs hc) ((dD_0 h 0 s c).trans hX) ((dD_1 h 0 s c).trans hY) ?_ ?_ ?_
  · body_simp
    exact ⟨b1, v0, v1, v2, v0, v1⟩
  · body_simp
    rw [e0, e1, e2, C30_zmult2_xy, b2, DT_lo0, DT_hi0, sum_range_succ, sum_range_succ, sum_range_one, sum_range_succ, sum_range_succ, sum_range_one,
      hX, hY, hZ, w_conj]
    simp [sA, add_assoc]
  · intro p; body_simp; rintro (rfl | rfl | rfl)
    · simp
    · simp
    · left; intro x hx; rw [← hZ]; refine Ptr.ne_of_buf ?_
      rw [dD_buf]; exact pre.fF.symm

omit sm in
/-- Data from the three blocks, other rows. -/
theorem wrD1 (sm : Same mem m' o.RD (o.dD f) (t, s, c)) (h0 : 0 < t) :
    Wr o.RD (o.dD f) (o.DT mem 3 (o.VA f F) sA (fun _ _ => 0)) m' (t, s, c) (do
      let Zetanr ← o.Zetaqp.get o.p
      let Zeta ← o.Zetaqp.get (o.P + t)
      let X' := UNPACKL Zeta Zeta
      let Y' := UNPACKH Zeta (-Zeta)
      let Zeta2 := ZMULTxy X' (-Y') Zetanr
      let Xm := UNPACKL Zeta2 Zeta2
      let Ym := UNPACKH Zeta2 (-Zeta2)
      let V0 ← load X
      let V1 ← load Y
      let V2 ← load Z
      store X (V0 + ZMULT2xy Xm Ym V1 V2)
      store Y (V0 + ZMULT2xy X' Y' V2 V1)) := by
  obtain ⟨v0, v1, v2, e0, e1, e2, n1, n2, n3⟩ := Same.vD h pre ht hs hc hX hY hZ sm
  obtain ⟨b1, b2⟩ := zp h hp
  obtain ⟨c1, c2⟩ := zt h hp h0 ht
  refine Wr.mk2p (RDo h ht hs hc) ((dD_0 h t s c).trans hX) ((dD_1 h t s c).trans hY) ?_ ?_ ?_
  · body_simp
    exact ⟨b1, c1, v0, v1, v2, v0, v1⟩
  · body_simp
    rw [e0, e1, e2, zmult_xy_neg, C30_zmult2_xy, C30_zmult2_xy, b2, c2, wPt, DT_lo, DT_hi, sum_range_succ, sum_range_succ, sum_range_one, sum_range_succ,
      sum_range_succ, sum_range_one, hX, hY, hZ, w_conj, w_conj, w_conj, w_conj, w_conj]
    simp [sA, add_assoc, add_comm (mem.val Y * _), add_comm (w o.q (-(t:ℤ)) * _)]
  · intro p; body_simp; rintro (rfl | rfl | rfl)
    · simp
    · simp
    · left; intro x hx; rw [← hZ]; refine Ptr.ne_of_buf ?_
      rw [dD_buf]; exact pre.fF.symm

end
end Cent
end Fftwpp
