import Verif.Proof.CFInnerMany
import Verif.Proof.CB2Many
import Verif.Proof.Blocks

/-! Tools for the centered backward inner routines (`p>2`). -/

namespace Fftwpp
namespace Cent
open Finset ComplexConjugate
open Fft (kpair seqLoop_rng)
variable {o : Cent}

/-- Data cells reached from block position `(t,s)` and copy `c`: below the origin (key 0), from the origin on (key 1). -/
def RD (o : Cent) (x : ℕ × ℕ × ℕ × ℕ) : Prop :=
  (x.1 = 0 ∧ o.m0 ≤ o.m * x.2.1 + x.2.2.1 ∨ x.1 = 1 ∧ o.H + (o.m * x.2.1 + x.2.2.1) < o.L) ∧ x.2.1 < o.P ∧ x.2.2.1 < o.m ∧ x.2.2.2 < o.C
/-- Index of a data cell. -/
def jD (o : Cent) (x : ℕ × ℕ × ℕ × ℕ) : ℕ :=
  if x.1 = 0 then o.m * x.2.1 + x.2.2.1 - o.m0 else o.H + (o.m * x.2.1 + x.2.2.1)
/-- Word of a data cell. -/
def dD (o : Cent) (f : Ptr) (x : ℕ × ℕ × ℕ × ℕ) : Ptr := f + (o.S * o.jD x + x.2.2.2)
/-- Value of a data cell. -/
noncomputable def DT (o : Cent) (m2 : Mem) (nd : ℕ) (V : ℕ → Ptr) (σ : ℕ → ℤ) (v : ℕ → ℕ → ℂ) (x : ℕ × ℕ × ℕ × ℕ) : ℂ :=
  v (o.jD x) x.2.2.2 + ∑ d ∈ range nd, w o.q (-(((x.2.1 : ℤ) - if x.1 = 0 then o.P else 0) * σ d)) * m2.val (o.dF V (d, x.2))

theorem dD_buf (f : Ptr) (x : ℕ × ℕ × ℕ × ℕ) : (o.dD f x).buf = f.buf := rfl

theorem WF.dD_inj (h : o.WF) (hp : 2 < o.p) (f : Ptr) : ∀ k k', o.RD k → o.RD k' → o.dD f k = o.dD f k' → k = k' := by
  obtain ⟨g1, g2, g3, g4, g5, g6, g7, g8, g9, g10⟩ := h.geoI hp
  have hCS := h.C_le_S
  rintro ⟨d, t, s, c⟩ ⟨d', t', s', c'⟩ ⟨a1, a2, a3, a4⟩ ⟨b1, b2, b3, b4⟩ e
  simp only at a1 a2 a3 a4 b1 b2 b3 b4
  unfold dD jD at e
  simp only at e
  rw [Ptr.add_inj] at e
  have e1 := radix_inj (by omega) (by omega) e
  have l1 := radix_lt a3 a2
  have l2 := radix_lt b3 b2
  have e2 : d = d' ∧ o.m * t + s = o.m * t' + s' := by
    rcases a1 with ⟨rfl, a1⟩ | ⟨rfl, a1⟩ <;> rcases b1 with ⟨rfl, b1⟩ | ⟨rfl, b1⟩ <;> simp at e1 <;> omega
  have e3 := radix_inj a3 b3 e2.2
  rw [e2.1, e3.1, e3.2, e1.2]

section DT
variable {m2 : Mem} {nd : ℕ} {V : ℕ → Ptr} {σ : ℕ → ℤ} {v : ℕ → ℕ → ℂ}

theorem jD_lo (t s c : ℕ) : o.jD (0, t, s, c) = o.m * t + s - o.m0 := rfl
theorem jD_hi (t s c : ℕ) : o.jD (1, t, s, c) = o.H + (o.m * t + s) := rfl
theorem dD_lo (f : Ptr) (t s c : ℕ) : o.dD f (0, t, s, c) = f + (o.S * (o.m * t + s - o.m0) + c) := rfl
theorem dD_hi (f : Ptr) (t s c : ℕ) : o.dD f (1, t, s, c) = f + (o.S * (o.H + (o.m * t + s)) + c) := rfl
theorem dD_lo0 (f : Ptr) (s c : ℕ) : o.dD f (0, 0, s, c) = f + (o.S * (s - o.m0) + c) := by rw [dD_lo]; simp
theorem dD_hi0 (f : Ptr) (s c : ℕ) : o.dD f (1, 0, s, c) = f + (o.S * (o.H + s) + c) := by rw [dD_hi]; simp

theorem DT_lo (t s c : ℕ) : o.DT m2 nd V σ v (0, t, s, c) = v (o.m * t + s - o.m0) c +
    ∑ d ∈ range nd, w o.q ((o.P - t) * σ d) * m2.val (o.dF V (d, t, s, c)) := by
  unfold DT jD
  simp only [if_true]
  congr 1
  refine sum_congr rfl fun d _ => ?_
  congr 2; ring
theorem DT_hi (t s c : ℕ) : o.DT m2 nd V σ v (1, t, s, c) = v (o.H + (o.m * t + s)) c +
    ∑ d ∈ range nd, conj (w o.q (t * σ d)) * m2.val (o.dF V (d, t, s, c)) := by
  unfold DT jD
  simp only [one_ne_zero, if_false]
  congr 1
  refine sum_congr rfl fun d _ => ?_
  rw [w_conj]
  congr 2
theorem DT_lo0 (s c : ℕ) : o.DT m2 nd V σ v (0, 0, s, c) = v (s - o.m0) c +
    ∑ d ∈ range nd, w o.q (o.P * σ d) * m2.val (o.dF V (d, 0, s, c)) := by
  rw [DT_lo]; simp
theorem DT_hi0 (s c : ℕ) : o.DT m2 nd V σ v (1, 0, s, c) = v (o.H + s) c +
    ∑ d ∈ range nd, m2.val (o.dF V (d, 0, s, c)) := by
  rw [DT_hi]; simp

end DT

/-- The keys present at each block position. -/
theorem WF.RDz1 (h : o.WF) (hp : 2 < o.p) {s c : ℕ} (h1 : s < o.m0) (h2 : s < o.m) (hL : o.H + s < o.L) (hc : c < o.C) (d : ℕ) :
    o.RD (d, 0, s, c) ↔ d = 1 := by
  have := h.P_pos
  unfold RD; simp only [Nat.mul_zero, Nat.zero_add]; constructor
  · rintro ⟨h | h, _⟩ <;> omega
  · rintro rfl; exact ⟨Or.inr ⟨rfl, hL⟩, this, h2, hc⟩
theorem RDz2 {t s c : ℕ} (ht : t < o.P) (h2 : s < o.m) (h1 : o.m0 ≤ o.m * t + s) (hL : o.H + (o.m * t + s) < o.L) (hc : c < o.C) (d : ℕ) :
    o.RD (d, t, s, c) ↔ d = 0 ∨ d = 1 := by
  unfold RD; simp only; constructor
  · rintro ⟨h | h, _⟩ <;> omega
  · rintro (rfl | rfl)
    · exact ⟨Or.inl ⟨rfl, h1⟩, ht, h2, hc⟩
    · exact ⟨Or.inr ⟨rfl, hL⟩, ht, h2, hc⟩
theorem RDz5 {t s c : ℕ} (ht : t < o.P) (h2 : s < o.m) (h1 : o.m0 ≤ o.m * t + s) (hL : o.L ≤ o.H + (o.m * t + s)) (hc : c < o.C) (d : ℕ) :
    o.RD (d, t, s, c) ↔ d = 0 := by
  unfold RD; simp only; constructor
  · rintro ⟨h | h, _⟩ <;> omega
  · rintro rfl; exact ⟨Or.inl ⟨rfl, h1⟩, ht, h2, hc⟩

/-- Position in a block of datum `j`. -/
def iI (o : Cent) (j : ℕ) : ℕ := if o.H ≤ j then j - o.H else j + o.m0
/-- Position in a row of datum `j`. -/
def posI (o : Cent) (j : ℕ) : ℕ := o.iI j % o.m

theorem WF.iI_lt (h : o.WF) (hp : 2 < o.p) {j : ℕ} (hj : j < o.L) : o.iI j < o.m * o.P := by
  obtain ⟨g1, g2, g3, g4, g5, g6, g7, g8, g9, g10⟩ := h.geoI hp
  unfold iI; split_ifs <;> omega

theorem WF.posI_lt (h : o.WF) (j : ℕ) : o.posI j < o.m := Nat.mod_lt _ h.m_pos

/-- Contribution to datum `j` of a block of residue `σ` at `V`. -/
noncomputable def cI (o : Cent) (mem : Mem) (V : Ptr) (σ : ℤ) (j c : ℕ) : ℂ :=
  ∑ u ∈ range o.P, w o.M (-(((j : ℤ) - o.H) * (o.n * u + σ))) * mem.val (V + (o.S * (o.m * u + o.posI j) + c))

/-- Effect of a part of `backwardInner` on the blocks `V`. -/
structure BI (o : Cent) (mem m' : Mem) (nd : ℕ) (V : ℕ → Ptr) (σ : ℕ → ℤ) (f : Ptr) (v : ℕ → ℕ → ℂ) : Prop where
  upd : mem.Upd m' (fun p => o.toFft.RegL f p ∨ ∃ x, o.RF nd x ∧ p = o.dF V x)
  out : ∀ j < o.L, ∀ c < o.C, m'.val (f + (o.S * j + c)) = v j c + ∑ d ∈ range nd, o.cI mem (V d) (σ d) j c

/-- Values of the inverse twiddling. -/
noncomputable def BT (o : Cent) (mem : Mem) (V : ℕ → Ptr) (σ : ℕ → ℤ) (k : ℕ × ℕ × ℕ × ℕ) : ℂ :=
  mem.val (o.dF V k) * w o.M (-(k.2.2.1 * (o.n * k.2.1 + σ k.1)))

/-- Composition of the three stages. -/
theorem back_stages (h : o.WF) (hp : 2 < o.p) {nd : ℕ} {V : ℕ → Ptr} {mem m1 m2 m3 : Mem} {f : Ptr} {σ : ℕ → ℤ} {v : ℕ → ℕ → ℂ}
    {d1 d2 : ℕ × ℕ × ℕ × ℕ → Prop}
    (f1 : Fills mem m1 (o.RF nd) (o.dF V) (o.BT mem V σ) d1)
    (hd1 : ∀ k, o.RF nd k → ¬ d1 k → k.2.2.1 = 0 ∨ (k.2.1 = 0 ∧ σ k.1 = 0))
    (f2 : Fills m1 m2 (o.RF nd) (o.dF V) (o.FftpT m1 V (-1)) d2) (hd2 : ∀ k, o.RF nd k → d2 k)
    (f3 : Fills m2 m3 o.RD (o.dD f) (o.DT m2 nd V σ v) (fun _ => True)) : o.BI mem m3 nd V σ f v := by
  obtain ⟨g1, g2, g3, g4, g5, g6, g7, g8, g9, g10⟩ := h.geoI hp
  have hm := h.m_pos
  have f1' : Fills mem m1 (o.RF nd) (o.dF V) (o.BT mem V σ) (fun _ => True) := by
    refine f1.vals (fun k _ _ => rfl) fun k hk hd => ?_
    unfold BT
    rcases hd1 k hk hd with h0 | ⟨h0, h1⟩
    · rw [h0]; simp
    · rw [h0, h1]; simp
  have f12 := f1'.trans f2 hd2
  refine ⟨f12.upd.trans f3.upd (fun p hp => Or.inr hp) ?_, ?_⟩
  · rintro p ⟨⟨a, t, s, c⟩, ⟨h1, h2, h3, h4⟩, rfl⟩
    simp only at h1 h2 h3 h4
    have := radix_lt h3 h2
    refine Or.inl ⟨o.jD (a, t, s, c), ?_, c, h4, rfl⟩
    rcases h1 with ⟨rfl, h1⟩ | ⟨rfl, h1⟩
    · rw [jD_lo]; omega
    · rw [jD_hi]; exact h1
  · intro j hj c hc
    have hi := h.iI_lt hp hj
    have ht : o.iI j / o.m < o.P := Nat.div_lt_of_lt_mul hi
    have hs := h.posI_lt j
    have hdm : o.m * (o.iI j / o.m) + o.posI j = o.iI j := Nat.div_add_mod _ _
    have key : ∀ a, o.RD (a, o.iI j / o.m, o.posI j, c) → o.jD (a, o.iI j / o.m, o.posI j, c) = j →
        ((j : ℤ) - o.H = o.posI j + o.m * (((o.iI j / o.m : ℕ) : ℤ) - if a = 0 then o.P else 0)) →
        (o.P : ℤ) ∣ ((if a = 0 then o.P else 0 : ℕ) : ℤ) →
        m3.val (f + (o.S * j + c)) = v j c + ∑ d ∈ range nd, o.cI mem (V d) (σ d) j c := by
      intro a hR hj' he hdv
      have := f3.got _ hR trivial
      unfold dD at this
      rw [hj'] at this
      rw [this]
      unfold DT
      rw [hj']
      simp only
      congr 1
      refine sum_congr rfl fun d hd => ?_
      have hk : ∀ u < o.P, o.RF nd (d, u, o.posI j, c) := fun u hu => ⟨mem_range.1 hd, hu, hs, hc⟩
      rw [f2.got _ (hk _ ht) (hd2 _ (hk _ ht))]
      unfold FftpT cI
      simp only
      rw [← inner_backc h.M_eq h.q_eq (by omega) (by have := h.n_pos; omega)
        (fun u => mem.val (V d + (o.S * (o.m * u + o.posI j) + c))) (σ d) (((o.iI j / o.m : ℕ) : ℤ) - if a = 0 then o.P else 0) _ (o.iI j / o.m) (o.posI j) ?_ he]
      · congr 1
        refine sum_congr rfl fun u hu => ?_
        rw [f1'.got _ (hk u (mem_range.1 hu)) trivial]
        rfl
      · rw [sub_sub_cancel_left]; exact (dvd_neg).2 hdv
    by_cases hH : o.H ≤ j
    · have hii : o.iI j = j - o.H := by unfold iI; rw [if_pos hH]
      refine key 1 ⟨Or.inr ⟨rfl, ?_⟩, ht, hs, hc⟩ ?_ ?_ ?_
      · simp only; rw [hdm, hii]; omega
      · rw [jD_hi, hdm, hii]; omega
      · have : ((o.m * (o.iI j / o.m) + o.posI j : ℕ) : ℤ) = j - o.H := by rw [hdm, hii]; omega
        rw [Nat.cast_add, Nat.cast_mul] at this
        rw [if_neg (by omega), ← this]; rw [Nat.cast_zero]; ring
      · rw [if_neg (by omega), Nat.cast_zero]; exact dvd_zero _
    · have hii : o.iI j = j + o.m0 := by unfold iI; rw [if_neg hH]
      refine key 0 ⟨Or.inl ⟨rfl, ?_⟩, ht, hs, hc⟩ ?_ ?_ ?_
      · simp only; rw [hdm, hii]; omega
      · rw [jD_lo, hdm, hii]; omega
      · have e1 : ((o.m * (o.iI j / o.m) + o.posI j : ℕ) : ℤ) = j + o.m0 := by rw [hdm, hii]; omega
        have e2 : ((o.m * o.P : ℕ) : ℤ) = o.H + o.m0 := by rw [← g4]; push_cast; rfl
        rw [Nat.cast_add, Nat.cast_mul] at e1
        rw [Nat.cast_mul] at e2
        rw [if_pos rfl, mul_sub, e2]
        linarith
      · rw [if_pos rfl]

/-- The blocks before `a` have been added to the data. -/
structure AccB (o : Cent) (m1 m : Mem) (f W : Ptr) (a : ℕ) (v : ℕ → ℕ → ℂ) : Prop where
  upd : m1.Upd m (fun p => o.toFft.RegL f p ∨ ∃ i < o.m * o.P * a, ∃ c < o.C, p = W + (o.S * i + c))
  val : ∀ j < o.L, ∀ c < o.C, m.val (f + (o.S * j + c)) = v j c

theorem AccB.step (h : o.WF) {m1 m m' : Mem} {f W : Ptr} {a nd : ℕ} {v v' : ℕ → ℕ → ℂ} {V : ℕ → Ptr} {σ : ℕ → ℤ} {s : ℕ → ℤ}
    (hb : f.buf ≠ W.buf) (hacc : o.AccB m1 m f W a v) (hB : o.BI m m' nd V σ f v')
    (hv : ∀ j < o.L, ∀ c < o.C, v' j c = v j c) (hV : ∀ d < nd, V d = W + o.b * (a + d)) (hσ : ∀ d < nd, σ d = s (a + d)) :
    o.AccB m1 m' f W (a + nd) (fun j c => v j c + ∑ d ∈ Ico a (a + nd), o.cI m1 (W + o.b * d) (s d) j c) := by
  have hCS := h.C_le_S
  refine ⟨hacc.upd.trans hB.upd ?_ ?_, ?_⟩
  · rintro p (hp | ⟨i, hi, c, hc, rfl⟩)
    · exact Or.inl hp
    · exact Or.inr ⟨i, lt_of_lt_of_le hi (Nat.mul_le_mul_left _ (by omega)), c, hc, rfl⟩
  · rintro p (hp | ⟨⟨d, u, s', c⟩, ⟨h1, h2, h3, h4⟩, rfl⟩)
    · exact Or.inl hp
    · simp only at h1 h2 h3 h4
      refine Or.inr ⟨o.m * o.P * (a + d) + (o.m * u + s'), radix_lt (radix_lt h3 h2) (by omega), c, h4, ?_⟩
      unfold dF
      simp only
      rw [hV d h1, Ptr.add_add, h.b_eq, h.l_eq]
      congr 1; ring
  · intro j hj c hc
    rw [hB.out j hj c hc, hv j hj c hc]
    congr 1
    rw [sum_Ico_eq_sum_range, Nat.add_sub_cancel_left]
    refine sum_congr rfl fun d hd => ?_
    rw [mem_range] at hd
    rw [hσ d hd, hV d hd]
    unfold cI
    refine sum_congr rfl fun u hu => ?_
    rw [mem_range] at hu
    congr 1
    refine hacc.upd.frame _ ?_
    rintro (⟨j', _, c', _, e⟩ | ⟨i, hi, c', hc', e⟩)
    · exact hb (by simpa using (congrArg Ptr.buf e).symm)
    · rw [Ptr.add_add, Ptr.add_inj, h.b_eq, h.l_eq] at e
      have e1 : o.S * (o.m * o.P * (a + d) + (o.m * u + o.posI j)) + c = o.S * i + c' := by rw [← e]; ring
      have e2 := radix_inj (by omega) (by omega) e1
      have : o.m * o.P * a ≤ o.m * o.P * (a + d) := Nat.mul_le_mul_left _ (by omega)
      omega

/-- All blocks have been added. -/
theorem finish_backI (h : o.WF) (hp : 2 < o.p) {mem m1 m' : Mem} {f F W : Ptr} {r : ℕ}
    (u1 : mem.Upd m1 (o.toFft.Reg W (o.P * o.D)))
    (hin : ∀ ρ < o.rows r, ∀ s < o.m, ∀ c < o.C, m1.val (W + (o.S * (o.m * ρ + s) + c)) =
      ∑ i ∈ range o.m, mem.val (F + (o.S * (o.m * ρ + i) + c)) * w o.m (-1 * i * s))
    (hacc : o.AccB m1 m' f W (o.blks r) (fun j c => (if r = 0 then 0 else mem.val (f + (o.S * j + c))) +
      ∑ d ∈ range (o.blks r), o.cI m1 (W + o.b * d) (o.sig r d) j c)) :
    o.BwdPost mem m' F f W r := by
  obtain ⟨g1, g2, g3, g4, g5, g6, g7, g8, g9, g10⟩ := h.geoI hp
  have hP := h.P_pos
  refine ⟨u1.trans hacc.upd (fun p hp => Or.inr (Or.inr hp)) ?_, ?_⟩
  · rintro p (hp | ⟨i, hi, c, hc, rfl⟩)
    · exact Or.inl hp
    · refine Or.inr (Or.inr ⟨i, lt_of_lt_of_le hi ?_, c, hc, rfl⟩)
      rw [Nat.mul_assoc]
      exact Nat.mul_le_mul_left _ (Nat.mul_le_mul_left _ (h.blks_le r))
  · intro j hj c hc
    rw [hacc.val j hj c hc]
    congr 1
    unfold rows
    rw [Fft.sum_rows]
    refine sum_congr rfl fun d hd => ?_
    rw [mem_range] at hd
    unfold cI
    refine sum_congr rfl fun u hu => ?_
    rw [mem_range] at hu
    have hρ : o.P * d + u < o.rows r := radix_lt hu hd
    have hres : o.res r (o.P * d + u) = o.n * u + o.sig r d := by
      unfold res
      rw [Nat.mul_add_div hP, Nat.div_eq_of_lt hu, Nat.add_zero, Nat.mul_add_mod, Nat.mod_eq_of_lt hu]
    have had : W + o.b * d + (o.S * (o.m * u + o.posI j) + c) = W + (o.S * (o.m * (o.P * d + u) + o.posI j) + c) := by
      rw [Ptr.add_add, h.b_eq, h.l_eq]; congr 1; ring
    rw [had, hin _ hρ _ (h.posI_lt j) c hc, hres]
    refine row_backc h.M_eq (by have := h.q_pos; omega) (fun i => mem.val (F + (o.S * (o.m * (o.P * d + u) + i) + c))) _ _ _ ?_
    have hdm : o.m * (o.iI j / o.m) + o.posI j = o.iI j := Nat.div_add_mod _ _
    by_cases hH : o.H ≤ j
    · have hii : o.iI j = j - o.H := by unfold iI; rw [if_pos hH]
      have : ((o.m * (o.iI j / o.m) + o.posI j : ℕ) : ℤ) = j - o.H := by rw [hdm, hii]; omega
      rw [Nat.cast_add, Nat.cast_mul] at this
      exact ⟨((o.iI j / o.m : ℕ) : ℤ), by rw [← this]; ring⟩
    · have hii : o.iI j = j + o.m0 := by unfold iI; rw [if_neg hH]
      have e1 : ((o.m * (o.iI j / o.m) + o.posI j : ℕ) : ℤ) = j + o.m0 := by rw [hdm, hii]; omega
      have e2 : ((o.m * o.P : ℕ) : ℤ) = o.H + o.m0 := by rw [← g4]; push_cast; rfl
      rw [Nat.cast_add, Nat.cast_mul] at e1
      rw [Nat.cast_mul] at e2
      exact ⟨((o.iI j / o.m : ℕ) : ℤ) - o.P, by rw [mul_sub, e2]; linarith⟩

end Cent
end Fftwpp
