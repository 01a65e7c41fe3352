import Verif.Proof.CZone
import Verif.Proof.CF2

/-! Tools for the centered inner routines (`p>2`). -/

namespace Fftwpp
namespace Wr
variable {τ : Type} {R : ℕ × τ → Prop} {dst : ℕ × τ → Ptr} {T : ℕ × τ → ℂ} {m' : Mem} {k : τ} {b : Body Unit}

theorem mk1 {a : ℕ} (hR : ∀ d, R (d, k) ↔ d = a) (hg : b.Good m') (hw : b.wrs m' = [(dst (a, k), T (a, k))])
    (hrd : ∀ p ∈ b.rds m', (∀ x, R x → p ≠ dst x) ∨ p = dst (a, k)) : Wr R dst T m' k b :=
  ⟨hg, ⟨[a], by simp, fun d => by rw [hR]; simp, by rw [hw]; rfl⟩, fun p hp => (hrd p hp).imp id fun e => ⟨a, (hR a).2 rfl, e⟩⟩

theorem mk2 (hR : ∀ d, R (d, k) ↔ d = 0 ∨ d = 1) (hg : b.Good m')
    (hw : b.wrs m' = [(dst (0, k), T (0, k)), (dst (1, k), T (1, k))])
    (hrd : ∀ p ∈ b.rds m', (∀ x, R x → p ≠ dst x) ∨ p = dst (0, k) ∨ p = dst (1, k)) : Wr R dst T m' k b :=
  ⟨hg, ⟨[0, 1], by simp, fun d => by rw [hR]; simp, by rw [hw]; rfl⟩, fun p hp => (hrd p hp).imp id (by
    rintro (e | e)
    · exact ⟨0, (hR 0).2 (by simp), e⟩
    · exact ⟨1, (hR 1).2 (by simp), e⟩)⟩

theorem mk3 (hR : ∀ d, R (d, k) ↔ d = 0 ∨ d = 1 ∨ d = 2) (hg : b.Good m')
    (hw : b.wrs m' = [(dst (0, k), T (0, k)), (dst (1, k), T (1, k)), (dst (2, k), T (2, k))])
    (hrd : ∀ p ∈ b.rds m', (∀ x, R x → p ≠ dst x) ∨ p = dst (0, k) ∨ p = dst (1, k) ∨ p = dst (2, k)) : Wr R dst T m' k b :=
  ⟨hg, ⟨[0, 1, 2], by simp, fun d => by rw [hR]; simp, by rw [hw]; rfl⟩, fun p hp => (hrd p hp).imp id (by
    rintro (e | e | e)
    · exact ⟨0, (hR 0).2 (by simp), e⟩
    · exact ⟨1, (hR 1).2 (by simp), e⟩
    · exact ⟨2, (hR 2).2 (by simp), e⟩)⟩

end Wr

namespace Cent
open Finset ComplexConjugate
open Fft (seqLoop_rng)
variable {o : Cent}

/-- Cells of `nd` blocks of `P` rows (block, row, position, copy). -/
def RF (o : Cent) (nd : ℕ) (x : ℕ × ℕ × ℕ × ℕ) : Prop := x.1 < nd ∧ x.2.1 < o.P ∧ x.2.2.1 < o.m ∧ x.2.2.2 < o.C
/-- The word of a cell. -/
def dF (o : Cent) (V : ℕ → Ptr) (x : ℕ × ℕ × ℕ × ℕ) : Ptr := V x.1 + (o.S * (o.m * x.2.1 + x.2.2.1) + x.2.2.2)

/-- The blocks do not overlap. -/
def Disj (o : Cent) (nd : ℕ) (V : ℕ → Ptr) : Prop :=
  ∀ d < nd, ∀ d' < nd, ∀ i < o.m * o.P, ∀ i' < o.m * o.P, ∀ c < o.C, ∀ c' < o.C,
    V d + (o.S * i + c) = V d' + (o.S * i' + c') → d = d'

theorem dF_inj (h : o.WF) {nd : ℕ} {V : ℕ → Ptr} (hV : o.Disj nd V) :
    ∀ k k', o.RF nd k → o.RF nd k' → o.dF V k = o.dF V k' → k = k' := by
  rintro ⟨d, t, s, c⟩ ⟨d', t', s', c'⟩ ⟨a1, a2, a3, a4⟩ ⟨b1, b2, b3, b4⟩ e
  simp only at a1 a2 a3 a4 b1 b2 b3 b4
  unfold dF at e
  simp only at e
  have hd := hV d a1 d' b1 _ (radix_lt a3 a2) _ (radix_lt b3 b2) c a4 c' b4 e
  subst hd
  rw [Ptr.add_inj] at e
  have hCS := h.C_le_S
  have e1 := radix_inj (by omega) (by omega) e
  have e2 := radix_inj a3 b3 e1.1
  rw [e2.1, e2.2, e1.2]

theorem Disj.one {V : ℕ → Ptr} : o.Disj 1 V := fun d hd d' hd' _ _ _ _ _ _ _ _ _ => by omega

/-- Consecutive blocks. -/
theorem Disj.consec (h : o.WF) (W : Ptr) (nd : ℕ) : o.Disj nd (fun d => W + o.b * d) := by
  intro d _ d' _ i hi i' hi' c hc c' hc' e
  simp only [Ptr.add_add] at e
  rw [Ptr.add_inj, h.b_eq, h.l_eq] at e
  have hCS := h.C_le_S
  have e1 : o.S * (o.m * o.P * d + i) + c = o.S * (o.m * o.P * d' + i') + c' := by
    rw [Nat.mul_add, Nat.mul_add, ← Nat.mul_assoc o.S, ← Nat.mul_assoc o.S (o.m * o.P) d', Nat.add_assoc, Nat.add_assoc]; exact e
  have e2 := radix_inj (by omega) (by omega) e1
  exact (radix_inj hi hi' e2.1).1

section fftp
variable {nd : ℕ} {V : ℕ → Ptr} {m0 m : Mem} {T : ℕ × ℕ × ℕ × ℕ → ℂ} {done : ℕ × ℕ × ℕ × ℕ → Prop} {sgn : ℤ} {d : ℕ} {X : Ptr}

/-- The inner transforms of block `d` are to be computed. -/
noncomputable def FftpT (o : Cent) (m0 : Mem) (V : ℕ → Ptr) (sgn : ℤ) (x : ℕ × ℕ × ℕ × ℕ) : ℂ :=
  ∑ t ∈ range o.P, m0.val (o.dF V (x.1, t, x.2.2.1, x.2.2.2)) * w o.P (sgn * t * x.2.1)

theorem fftp_all (h : o.WF) (hSC : o.S = o.C) (hX : V d = X) (hd : d < nd)
    (hfill : Fills m0 m (o.RF nd) (o.dF V) (o.FftpT m0 V sgn) done) (hnd : ∀ k, ¬ done (d, k))
    (hv : ∀ x, o.RF nd x → m0.valid (o.dF V x)) {Q : Unit → Mem → Prop}
    (hQ : ∀ m', Fills m0 m' (o.RF nd) (o.dF V) (o.FftpT m0 V sgn) (fun x => done x ∨ x.1 = d) → Q () m') :
    ((Plan.mk o.P sgn (o.C * o.m) (o.C * o.m) 1 true).exec X X).Ok m Q := by
  subst hX
  have hadr : ∀ t c, V d + (o.C * o.m * t + c) = o.dF V (d, t, c / o.C, c % o.C) := fun t c => by
    unfold dF
    simp only
    rw [hSC]
    have := Nat.div_add_mod c o.C
    congr 1
    calc o.C * o.m * t + c = o.C * o.m * t + (o.C * (c / o.C) + c % o.C) := by rw [this]
      _ = _ := by ring
  have hdiv : ∀ c < o.C * o.m, c / o.C < o.m := fun c hc => Nat.div_lt_of_lt_mul hc
  have hmod : ∀ c, c % o.C < o.C := fun c => Nat.mod_lt _ h.C_pos
  have hRF : ∀ t < o.P, ∀ c < o.C * o.m, o.RF nd (d, t, c / o.C, c % o.C) := fun t ht c hc => ⟨hd, ht, hdiv c hc, hmod c⟩
  refine exec_cols le_rfl (Or.inl ⟨rfl, rfl⟩) (fun t ht c hc => ?_) (fun t ht c hc => ?_) ?_
  · rw [hadr]; exact hfill.valid (hv _ (hRF t ht c hc))
  · rw [hadr]; exact hfill.valid (hv _ (hRF t ht c hc))
  intro m' u e
  refine hQ m' ⟨hfill.inj, u.size.trans hfill.size, ?_, ?_, ?_⟩
  · intro p hp
    rw [u.frame, hfill.frame p hp]
    rintro ⟨t, ht, c, hc, rfl⟩
    exact hp _ (hRF t ht c hc) (hadr t c)
  · rintro ⟨d', t, s, c⟩ hx hd'
    by_cases hdd : d' = d
    · subst hdd
      obtain ⟨_, h2, h3, h4⟩ := hx
      simp only at h2 h3 h4
      have e0 := e t h2 (o.C * s + c) (radix_lt h4 h3)
      have hadr2 : ∀ t, V d' + (o.C * o.m * t + (o.C * s + c)) = o.dF V (d', t, s, c) := fun t => by
        unfold dF; simp only; rw [hSC]; congr 1; ring
      simp only [hadr2] at e0
      rw [e0]
      unfold FftpT
      refine sum_congr rfl fun u hu => ?_
      rw [hfill.keep (d', u, s, c) ⟨hd, mem_range.1 hu, h3, h4⟩ (hnd _)]
    · rw [u.frame, hfill.got _ hx (hd'.resolve_right hdd)]
      rintro ⟨t', ht', c', hc', e1⟩
      rw [hadr] at e1
      have := hfill.inj _ _ hx (hRF t' ht' c' hc') e1
      simp only [Prod.mk.injEq] at this
      exact hdd this.1
  · rintro ⟨d', t, s, c⟩ hx hd'
    rw [u.frame, hfill.keep _ hx fun h' => hd' (Or.inl h')]
    rintro ⟨t', ht', c', hc', e1⟩
    rw [hadr] at e1
    have := hfill.inj _ _ hx (hRF t' ht' c' hc') e1
    simp only [Prod.mk.injEq] at this
    exact hd' (Or.inr this.1)

theorem fftp_col (h : o.WF) {s : ℕ} (hs : s < o.m) (hX : V d = X) (hd : d < nd)
    (hfill : Fills m0 m (o.RF nd) (o.dF V) (o.FftpT m0 V sgn) done) (hnd : ∀ t c, ¬ done (d, t, s, c))
    (hv : ∀ x, o.RF nd x → m0.valid (o.dF V x)) {Q : Unit → Mem → Prop}
    (hQ : ∀ m', Fills m0 m' (o.RF nd) (o.dF V) (o.FftpT m0 V sgn) (fun x => done x ∨ (x.1 = d ∧ x.2.2.1 = s)) → Q () m') :
    ((Plan.mk o.P sgn o.C (o.S * o.m) 1 true).exec (X + o.S * s) (X + o.S * s)).Ok m Q := by
  subst hX
  have hm := h.m_pos
  have hadr : ∀ t c, V d + o.S * s + (o.S * o.m * t + c) = o.dF V (d, t, s, c) := fun t c => by
    unfold dF
    simp only
    rw [Ptr.add_add]
    congr 1
    ring
  have hRF : ∀ t < o.P, ∀ c < o.C, o.RF nd (d, t, s, c) := fun t ht c hc => ⟨hd, ht, hs, hc⟩
  refine exec_cols (le_trans h.C_le_S (Nat.le_mul_of_pos_right _ hm)) (Or.inl ⟨rfl, rfl⟩) (fun t ht c hc => ?_) (fun t ht c hc => ?_) ?_
  · rw [hadr]; exact hfill.valid (hv _ (hRF t ht c hc))
  · rw [hadr]; exact hfill.valid (hv _ (hRF t ht c hc))
  intro m' u e
  simp only [hadr] at u e
  refine hQ m' ⟨hfill.inj, u.size.trans hfill.size, ?_, ?_, ?_⟩
  · intro p hp
    rw [u.frame, hfill.frame p hp]
    rintro ⟨t, ht, c, hc, rfl⟩
    exact hp _ (hRF t ht c hc) rfl
  · rintro ⟨d', t, s', c⟩ hx hd'
    by_cases hdd : d' = d ∧ s' = s
    · obtain ⟨rfl, rfl⟩ := hdd
      obtain ⟨_, h2, h3, h4⟩ := hx
      simp only at h2 h3 h4
      rw [e t h2 c h4]
      unfold FftpT
      refine sum_congr rfl fun u hu => ?_
      rw [hfill.keep (d', u, s', c) ⟨hd, mem_range.1 hu, h3, h4⟩ (hnd _ _)]
    · rw [u.frame, hfill.got _ hx (hd'.resolve_right hdd)]
      rintro ⟨t', ht', c', hc', e1⟩
      have := hfill.inj _ _ hx (hRF t' ht' c' hc') e1
      simp only [Prod.mk.injEq] at this
      exact hdd ⟨this.1, this.2.2.1⟩
  · rintro ⟨d', t, s', c⟩ hx hd'
    rw [u.frame, hfill.keep _ hx fun h' => hd' (Or.inl h')]
    rintro ⟨t', ht', c', hc', e1⟩
    have := hfill.inj _ _ hx (hRF t' ht' c' hc') e1
    simp only [Prod.mk.injEq] at this
    exact hd' (Or.inr ⟨this.1, this.2.2.1⟩)

/-- Plans of the inner transforms. -/
def FftpPl (o : Cent) (sgn : ℤ) (pl : Plan) : Prop :=
  (o.S = o.C → pl = ⟨o.P, sgn, o.C * o.m, o.C * o.m, 1, true⟩) ∧ (o.S ≠ o.C → pl = ⟨o.P, sgn, o.C, o.S * o.m, 1, true⟩)

theorem WF.plF (h : o.WF) (hp : 2 < o.p) : o.FftpPl 1 o.fftp := ⟨fun h1 => (h.fftp_C hp h1).1, fun h1 => (h.fftp_S hp h1).1⟩
theorem WF.plB (h : o.WF) (hp : 2 < o.p) : o.FftpPl (-1) o.ifftp := ⟨fun h1 => (h.fftp_C hp h1).2, fun h1 => (h.fftp_S hp h1).2⟩

theorem fftpMany_ok (h : o.WF) {pl : Plan} (hpl : o.FftpPl sgn pl) (hX : V d = X) (hd : d < nd)
    (hfill : Fills m0 m (o.RF nd) (o.dF V) (o.FftpT m0 V sgn) done) (hnd : ∀ k, ¬ done (d, k))
    (hv : ∀ x, o.RF nd x → m0.valid (o.dF V x)) {Q : Unit → Mem → Prop}
    (hQ : ∀ m', Fills m0 m' (o.RF nd) (o.dF V) (o.FftpT m0 V sgn) (fun x => done x ∨ x.1 = d) → Q () m') :
    (o.fftpMany pl X).Ok m Q := by
  unfold fftpMany
  by_cases hSC : o.S = o.C
  · rw [if_pos hSC, hpl.1 hSC]
    exact fftp_all h hSC hX hd hfill hnd hv hQ
  · rw [if_neg hSC, hpl.2 hSC]
    refine seqLoop_rng (fun k m' => Fills m0 m' (o.RF nd) (o.dF V) (o.FftpT m0 V sgn) (fun x => done x ∨ (x.1 = d ∧ x.2.2.1 < k))) ?_ ?_ ?_
    · exact hfill.congr fun x _ => by simp
    · intro k m1 hk f1
      refine fftp_col h hk hX hd f1 ?_ hv ?_
      · rintro t c (h1 | h1)
        · exact hnd _ h1
        · simp at h1
      · intro m2 f2
        refine f2.congr fun x _ => ?_
        constructor
        · rintro ((a | a) | a)
          · exact Or.inl a
          · exact Or.inr ⟨a.1, by omega⟩
          · exact Or.inr ⟨a.1, by omega⟩
        · rintro (a | a)
          · exact Or.inl (Or.inl a)
          · by_cases h0 : x.2.2.1 < k
            · exact Or.inl (Or.inr ⟨a.1, h0⟩)
            · exact Or.inr ⟨a.1, by omega⟩
    · intro m1 f1
      refine hQ m1 (f1.congr fun x hx => ?_)
      simp only [hx.2.2.1, and_true]

theorem fftpS_ok (h : o.WF) (hS : o.S = 1) {pl : Plan} (hpl : o.FftpPl sgn pl) (hX : V d = X) (hd : d < nd)
    (hfill : Fills m0 m (o.RF nd) (o.dF V) (o.FftpT m0 V sgn) done) (hnd : ∀ k, ¬ done (d, k))
    (hv : ∀ x, o.RF nd x → m0.valid (o.dF V x)) {Q : Unit → Mem → Prop}
    (hQ : ∀ m', Fills m0 m' (o.RF nd) (o.dF V) (o.FftpT m0 V sgn) (fun x => done x ∨ x.1 = d) → Q () m') :
    (pl.exec X X).Ok m Q := by
  have hSC : o.S = o.C := by rw [hS, h.C_one hS]
  have := fftpMany_ok h hpl hX hd hfill hnd hv hQ
  unfold fftpMany at this
  rwa [if_pos hSC] at this

end fftp

/-! Tables. -/

theorem WF.zq_bd (h : o.WF) (hp : 2 < o.p) {r s : ℕ} (hr : 0 < r) (hrq : r < o.q) (hs : s < o.m) :
    o.Zetaqm.lo ≤ o.m * r + s ∧ o.m * r + s < o.Zetaqm.hi := by
  rw [h.Zqm (by have := h.p_cases; omega), if_neg (by omega)]
  simp only [initZetaqm]
  have h1 : o.m * 1 ≤ o.m * r := Nat.mul_le_mul_left _ hr
  have h2 : o.m * (r + 1) ≤ o.m * o.q := Nat.mul_le_mul_left _ hrq
  rw [Nat.mul_succ] at h2
  have h3 : o.m + (o.q - 1) * o.m = o.m * o.q := by
    obtain ⟨k, hk⟩ : ∃ k, o.q = k + 1 := ⟨o.q - 1, by omega⟩
    rw [hk]; simp; ring
  omega

theorem WF.zq_val (h : o.WF) (hp : 2 < o.p) {r s : ℕ} (hs : s < o.m) :
    o.Zetaqm.val (o.m * r + s) = w o.M (s * r) := by
  rw [h.Zqm (by have := h.p_cases; omega), if_neg (by omega)]
  simp only [initZetaqm]
  rw [Nat.mul_add_div h.m_pos, Nat.div_eq_of_lt hs, Nat.add_zero, Nat.mul_add_mod, Nat.mod_eq_of_lt hs]
  congr 1; push_cast; ring

theorem WF.zqp_bd (h : o.WF) (hp : 2 < o.p) {r t : ℕ} (hr : 0 < r) (hrn : r < o.n) (ht : 0 < t) (htp : t ≤ o.P) :
    o.Zetaqp.lo ≤ o.P * r + t ∧ o.P * r + t < o.Zetaqp.hi := by
  rw [h.Zqp hp]
  simp only [initZetaqp]
  have h1 : o.P * 1 ≤ o.P * r := Nat.mul_le_mul_left _ hr
  have h2 : o.P * r ≤ o.P * (o.n - 1) := Nat.mul_le_mul_left _ (by omega)
  simp only [Nat.add_sub_cancel]
  rw [Nat.mul_comm (o.n - 1)]
  omega

theorem WF.zqp_val (h : o.WF) (hp : 2 < o.p) {r t : ℕ} (ht : 0 < t) (htp : t ≤ o.P) :
    o.Zetaqp.val (o.P * r + t) = w o.q (t * r) := by
  rw [h.Zqp hp]
  simp only [initZetaqp, Nat.add_sub_cancel]
  rw [Nat.add_sub_assoc (by omega : 1 ≤ t), Nat.mul_add_div (by omega), Nat.div_eq_of_lt (by omega : t - 1 < o.P),
    Nat.add_zero, Nat.mul_add_mod, Nat.mod_eq_of_lt (by omega : t - 1 < o.P), show 1 + (t - 1) = t by omega]
  congr 1; push_cast; ring

/-! Values before the inner transform. -/
section gf
variable {q L m P H : ℕ} (x : ℕ → ℂ) (σ : ℤ)

theorem gf1 {s : ℕ} (h1 : s < m * P - H) (h2 : s + H < L) : gfill q L m P H x σ 0 s = x (H + s) := by
  unfold gfill
  rw [Nat.mul_zero, Nat.add_zero, if_pos h2, if_neg (by omega), Nat.add_comm s H]; simp

theorem gf2 {s : ℕ} (h1 : m * P - H ≤ s) (h2 : s + H < L) :
    gfill q L m P H x σ 0 s = x (s - (m * P - H)) * w q (-(P * σ)) + x (H + s) := by
  unfold gfill
  rw [Nat.mul_zero, Nat.add_zero, if_pos h2, if_pos h1, Nat.add_comm s H, add_comm]; simp

theorem gf3 {t s : ℕ} (h1 : m * P - H ≤ s + m * t) (h2 : s + m * t + H < L) :
    gfill q L m P H x σ t s = x (m * t + s - (m * P - H)) * w q ((t - P) * σ) + x (H + m * t + s) * w q (t * σ) := by
  unfold gfill
  rw [if_pos h2, if_pos h1, Nat.add_comm s, Nat.add_comm _ H, add_comm, Nat.add_assoc H]

theorem gf5 {t s : ℕ} (h1 : m * P - H ≤ s + m * t) (h2 : ¬ s + m * t + H < L) :
    gfill q L m P H x σ t s = x (m * t + s - (m * P - H)) * w q ((t - P) * σ) := by
  unfold gfill
  rw [if_neg h2, if_pos h1, Nat.add_comm s, zero_add]
end gf

/-- Block values before the inner transform. -/
noncomputable def GT (o : Cent) (x : ℕ → ℕ → ℂ) (σ : ℕ → ℤ) (k : ℕ × ℕ × ℕ × ℕ) : ℂ :=
  gfill o.q o.L o.m o.P o.H (x k.2.2.2) (σ k.1) k.2.1 k.2.2.1
/-- Block values after the twiddling. -/
noncomputable def WT (o : Cent) (x : ℕ → ℕ → ℂ) (σ : ℕ → ℤ) (k : ℕ × ℕ × ℕ × ℕ) : ℂ :=
  fillc o.M o.L o.m o.P o.H (x k.2.2.2) (o.n * k.2.1 + σ k.1) k.2.2.1
/-- Values of the twiddling. -/
noncomputable def ZT (o : Cent) (m2 : Mem) (V : ℕ → Ptr) (σ : ℕ → ℤ) (k : ℕ × ℕ × ℕ × ℕ) : ℂ :=
  m2.val (o.dF V k) * w o.M (k.2.2.1 * (o.n * k.2.1 + σ k.1))

/-- Composition of the three stages of a block. -/
theorem stages (h : o.WF) {nd : ℕ} {V : ℕ → Ptr} {mem m1 m2 m3 : Mem} {x : ℕ → ℕ → ℂ} {σ : ℕ → ℤ} {d2 d3 : ℕ × ℕ × ℕ × ℕ → Prop}
    (f1 : Fills mem m1 (o.RF nd) (o.dF V) (o.GT x σ) (fun _ => True))
    (f2 : Fills m1 m2 (o.RF nd) (o.dF V) (o.FftpT m1 V 1) d2) (hd2 : ∀ k, o.RF nd k → d2 k)
    (f3 : Fills m2 m3 (o.RF nd) (o.dF V) (o.ZT m2 V σ) d3)
    (hd3 : ∀ k, o.RF nd k → ¬ d3 k → k.2.2.1 = 0 ∨ (k.2.1 = 0 ∧ σ k.1 = 0)) :
    Fills mem m3 (o.RF nd) (o.dF V) (o.WT x σ) (fun _ => True) := by
  have hval : ∀ k, o.RF nd k → o.ZT m2 V σ k = o.WT x σ k := by
    rintro ⟨d, u, s, c⟩ hk
    unfold ZT WT
    simp only
    rw [f2.got _ hk (hd2 _ hk), ← inner_fftc h.M_eq h.q_eq (by have := h.m_pos; omega) (by have := h.n_pos; omega)]
    congr 1
    unfold FftpT
    refine sum_congr rfl fun t ht => ?_
    rw [f1.got (d, t, s, c) ⟨hk.1, mem_range.1 ht, hk.2.2⟩ trivial]
    rfl
  have f3' : Fills m2 m3 (o.RF nd) (o.dF V) (o.WT x σ) (fun _ => True) := by
    refine f3.vals (fun k hk _ => hval k hk) fun k hk hd => ?_
    rw [← hval k hk]
    unfold ZT
    rcases hd3 k hk hd with h0 | ⟨h0, h1⟩
    · rw [h0]; simp
    · rw [h0, h1]; simp
  exact (f1.trans f2 hd2).trans f3' (fun _ _ => trivial)

end Cent
end Fftwpp
