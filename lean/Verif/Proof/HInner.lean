import Verif.Proof.HF2
import Verif.Proof.CFInner3

/-! Tools for the inner routines (`p>2`) of the Hermitian transforms. -/

namespace Fftwpp
namespace Herm
open Finset ComplexConjugate
variable {o : Herm}

/-- Last position of the first row without a folded counterpart, plus one. -/
def m0 (o : Herm) : ℕ := min (o.P * o.m - o.H + 1) o.e

/-- Sizes for `p>2`. -/
theorem WF.geoI (h : o.WF) (hp : 2 < o.p) : o.q ≠ 1 ∧ 2 ≤ o.P ∧ o.C = 1 ∧ o.p / 2 = o.P ∧ 2 ≤ o.n ∧ o.e ≤ o.m ∧ o.H ≤ o.P * o.m ∧
    (o.P - 1) * o.m + o.e ≤ o.H ∧ (o.P - 1) * o.m + o.m = o.P * o.m ∧ o.m ≤ (o.P - 1) * o.m ∧ o.m0 ≤ o.e ∧ 0 < o.m0 := by
  rcases h.cases with ⟨_, h2, _⟩ | ⟨h1, _, h3, h4, h5⟩
  · omega
  · have hP : 2 ≤ o.P := by omega
    obtain ⟨g1, g2, g3, g4⟩ := h.H_facts
    have l := h.p_lb
    have he := h.e_eq
    have hm := h.m_pos
    have e1 : (o.P - 1) * o.m + o.m = o.P * o.m := by rw [← Nat.succ_mul]; congr 1; omega
    have e2 : o.m * (o.p - 1) = 2 * ((o.P - 1) * o.m) + o.m := by
      obtain ⟨k, hk⟩ : ∃ k, o.P = k + 2 := ⟨o.P - 2, by omega⟩
      rw [h3, hk, show 2 * (k + 2) - 1 = 2 * (k + 1) + 1 by omega, show k + 2 - 1 = k + 1 by omega]; ring
    have e3 : 1 * o.m ≤ (o.P - 1) * o.m := Nat.mul_le_mul_right _ (by omega)
    rw [e2] at l
    refine ⟨h1, hP, by omega, by omega, h4, by omega, g2, by omega, e1, by omega, ?_, ?_⟩
    · unfold m0; omega
    · unfold m0; omega

/-- Rows `t`. -/
theorem WF.rowt (h : o.WF) (hp : 2 < o.p) {t : ℕ} (ht : t < o.P) : t * o.m + o.e ≤ o.H ∧ t * o.m + o.m ≤ o.P * o.m := by
  obtain ⟨g1, g2, g3, g4, g5, g6, g7, g8, g9, g10, g11, g12⟩ := h.geoI hp
  have h1 : t * o.m ≤ (o.P - 1) * o.m := Nat.mul_le_mul_right _ (by omega)
  omega

theorem WF.dHI (h : o.WF) (hp : 2 < o.p) {W : Ptr} (d t s : ℕ) : o.dH W (d, t, s, 0) = W + (o.Bw * d + (o.e * t + s)) := by
  unfold dH; simp [(h.geoI hp).2.2.1]

theorem WF.RHI (h : o.WF) {nd t s : ℕ} (ht : t < o.P) (hs : s < o.e) (d : ℕ) : o.RH nd (d, t, s, 0) ↔ d < nd := by
  unfold RH; simp [ht, hs, h.C_pos]

theorem WF.cellI (h : o.WF) (hp : 2 < o.p) {t s : ℕ} (ht : t < o.P) (hs : s < o.e) : o.e * t + s < o.Bw := by
  have := h.cell_lt ht hs h.C_pos
  rw [(h.geoI hp).2.2.1] at this
  omega

section fftp
variable {nd : ℕ} {W : Ptr} {m0 m : Mem} {done : ℕ × ℕ × ℕ × ℕ → Prop} {sgn : ℤ} {d : ℕ} {X : Ptr}

/-- The inner transforms. -/
noncomputable def FftpH (o : Herm) (m0 : Mem) (W : Ptr) (sgn : ℤ) (x : ℕ × ℕ × ℕ × ℕ) : ℂ :=
  ∑ t ∈ range o.P, m0.val (o.dH W (x.1, t, x.2.2.1, x.2.2.2)) * w o.P (sgn * t * x.2.1)

theorem fftpH_ok (h : o.WF) {pl : Plan} (hpl : pl = ⟨o.P, sgn, o.C * o.e, o.C * o.e, 1, true⟩) (hX : W + o.Bw * d = X) (hd : d < nd)
    (hfill : Fills m0 m (o.RH nd) (o.dH W) (o.FftpH m0 W sgn) done) (hnd : ∀ k, ¬ done (d, k))
    (hv : ∀ x, o.RH nd x → m0.valid (o.dH W x)) {Q : Unit → Mem → Prop}
    (hQ : ∀ m', Fills m0 m' (o.RH nd) (o.dH W) (o.FftpH m0 W sgn) (fun x => done x ∨ x.1 = d) → Q () m') :
    (pl.exec X X).Ok m Q := by
  subst hX
  subst hpl
  have hadr : ∀ t c, W + o.Bw * d + (o.C * o.e * t + c) = o.dH W (d, t, c / o.C, c % o.C) := fun t c => by
    unfold dH
    simp only
    have := Nat.div_add_mod c o.C
    rw [Ptr.add_add]
    congr 2
    calc o.C * o.e * t + c = o.C * o.e * t + (o.C * (c / o.C) + c % o.C) := by rw [this]
      _ = _ := by ring
  have hdiv : ∀ c < o.C * o.e, c / o.C < o.e := fun c hc => Nat.div_lt_of_lt_mul hc
  have hmod : ∀ c, c % o.C < o.C := fun c => Nat.mod_lt _ h.C_pos
  have hRF : ∀ t < o.P, ∀ c < o.C * o.e, o.RH nd (d, t, c / o.C, c % o.C) := fun t ht c hc => ⟨hd, ht, hdiv c hc, hmod c⟩
  refine exec_cols le_rfl (Or.inl ⟨rfl, rfl⟩) (fun t ht c hc => ?_) (fun t ht c hc => ?_) ?_
  · rw [hadr]; exact hfill.valid (hv _ (hRF t ht c hc))
  · rw [hadr]; exact hfill.valid (hv _ (hRF t ht c hc))
  intro m' u e
  refine hQ m' ⟨hfill.inj, u.size.trans hfill.size, ?_, ?_, ?_⟩
  · intro p hp
    rw [u.frame, hfill.frame p hp]
    rintro ⟨t, ht, c, hc, rfl⟩
    exact hp _ (hRF t ht c hc) (hadr t c)
  · rintro ⟨d', t, s, c⟩ hx hd'
    by_cases hdd : d' = d
    · subst hdd
      obtain ⟨_, h2, h3, h4⟩ := hx
      simp only at h2 h3 h4
      have e0 := e t h2 (o.C * s + c) (radix_lt h4 h3)
      have hadr2 : ∀ t, W + o.Bw * d' + (o.C * o.e * t + (o.C * s + c)) = o.dH W (d', t, s, c) := fun t => by
        unfold dH; simp only; rw [Ptr.add_add]; congr 2; ring
      simp only [hadr2] at e0
      rw [e0]
      unfold FftpH
      refine sum_congr rfl fun u hu => ?_
      rw [hfill.keep (d', u, s, c) ⟨hd, mem_range.1 hu, h3, h4⟩ (hnd _)]
    · rw [u.frame, hfill.got _ hx (hd'.resolve_right hdd)]
      rintro ⟨t', ht', c', hc', e1⟩
      rw [hadr] at e1
      have := hfill.inj _ _ hx (hRF t' ht' c' hc') e1
      simp only [Prod.mk.injEq] at this
      exact hdd this.1
  · rintro ⟨d', t, s, c⟩ hx hd'
    rw [u.frame, hfill.keep _ hx fun h' => hd' (Or.inl h')]
    rintro ⟨t', ht', c', hc', e1⟩
    rw [hadr] at e1
    have := hfill.inj _ _ hx (hRF t' ht' c' hc') e1
    simp only [Prod.mk.injEq] at this
    exact hd' (Or.inr this.1)
end fftp

/-! Tables. -/

theorem WF.zq_bd (h : o.WF) (hp : 2 < o.p) {r s : ℕ} (hr : 0 < r) (hrq : r < o.q) (hs : s < o.m) :
    o.Zetaqm.lo ≤ o.m * r + s ∧ o.m * r + s < o.Zetaqm.hi := by
  rw [h.Zqm (h.geoI hp).1, if_neg (by omega)]
  simp only [initZetaqm]
  have h1 : o.m * 1 ≤ o.m * r := Nat.mul_le_mul_left _ hr
  have h2 : o.m * (r + 1) ≤ o.m * o.q := Nat.mul_le_mul_left _ hrq
  rw [Nat.mul_succ] at h2
  have h3 : o.m + (o.q - 1) * o.m = o.m * o.q := by
    obtain ⟨k, hk⟩ : ∃ k, o.q = k + 1 := ⟨o.q - 1, by omega⟩
    rw [hk]; simp; ring
  omega

theorem WF.zqp_bd (h : o.WF) (hp : 2 < o.p) {r t : ℕ} (hr : 0 < r) (hrn : r < o.n) (ht : 0 < t) (htp : t ≤ o.P) :
    o.Zetaqp.lo ≤ o.P * r + t ∧ o.P * r + t < o.Zetaqp.hi := by
  rw [h.Zqp hp]
  simp only [initZetaqp]
  have h1 : o.P * 1 ≤ o.P * r := Nat.mul_le_mul_left _ hr
  have h2 : o.P * r ≤ o.P * (o.n - 1) := Nat.mul_le_mul_left _ (by omega)
  simp only [Nat.add_sub_cancel]
  rw [Nat.mul_comm (o.n - 1)]
  omega

theorem WF.zqp_val (h : o.WF) (hp : 2 < o.p) {r t : ℕ} (ht : 0 < t) (htp : t ≤ o.P) :
    o.Zetaqp.val (o.P * r + t) = w o.q (t * r) := by
  rw [h.Zqp hp]
  simp only [initZetaqp, Nat.add_sub_cancel]
  rw [Nat.add_sub_assoc (by omega : 1 ≤ t), Nat.mul_add_div (by omega), Nat.div_eq_of_lt (by omega : t - 1 < o.P),
    Nat.add_zero, Nat.mul_add_mod, Nat.mod_eq_of_lt (by omega : t - 1 < o.P), show 1 + (t - 1) = t by omega]
  congr 1; push_cast; ring

theorem WF.wP (h : o.WF) (r : ℤ) : w o.q (o.P * r) = w o.n r := by
  rw [h.q_eq, w_base' _ _ (by have := h.P_pos; omega)]

theorem WF.qn (h : o.WF) {u r : ℕ} (hu : u < o.P) (hr : r < o.n) : o.n * u + r < o.q := by
  rw [h.q_eq, Nat.mul_comm o.P]; exact radix_lt hr hu

/-! Values of the first stage. -/

/-- Block values before the inner transform. -/
noncomputable def GH (o : Herm) (x : ℕ → ℕ → ℂ) (k : ℕ → ℤ) (i : ℕ × ℕ × ℕ × ℕ) : ℂ :=
  fold1 o.m o.P o.n o.H (x i.2.2.2) (k i.1) i.2.1 i.2.2.1
/-- Values of the twiddling. -/
noncomputable def ZH (o : Herm) (m2 : Mem) (W : Ptr) (k : ℕ → ℤ) (i : ℕ × ℕ × ℕ × ℕ) : ℂ :=
  m2.val (o.dH W i) * w o.M (i.2.2.1 * (o.n * i.2.1 + k i.1))

section vals
variable (x : ℕ → ℕ → ℂ) (k : ℕ → ℤ)

theorem GH1 (h : o.WF) (hp : 2 < o.p) {d s c : ℕ} (hs : s < o.m0) : o.GH x k (d, 0, s, c) = x c s := by
  obtain ⟨g1, g2, g3, g4, g5, g6, g7, g8, g9, g10, g11, g12⟩ := h.geoI hp
  unfold GH fold1
  unfold m0 at hs
  simp only [Nat.zero_mul, Nat.zero_add]
  rw [hext_nat, if_pos (by omega), hext_sub _ (by omega), if_neg (by omega)]
  simp

theorem GH2 (h : o.WF) (hp : 2 < o.p) {d s c : ℕ} (hs0 : o.m0 ≤ s) (hs : s < o.e) :
    o.GH x k (d, 0, s, c) = x c s + w o.n (-k d) * conj (x c (o.P * o.m - s)) := by
  obtain ⟨g1, g2, g3, g4, g5, g6, g7, g8, g9, g10, g11, g12⟩ := h.geoI hp
  unfold GH fold1
  unfold m0 at hs0
  simp only [Nat.zero_mul, Nat.zero_add]
  rw [hext_nat, if_pos (by omega), hext_sub _ (by omega), if_pos (by omega)]
  simp

theorem GH3 (h : o.WF) (hp : 2 < o.p) {d t s c : ℕ} (ht0 : 0 < t) (ht : t < o.P) (hs : s < o.e) :
    o.GH x k (d, t, s, c) = w o.q (t * k d) * (x c (t * o.m + s) + w o.n (-k d) * conj (x c (o.P * o.m - (t * o.m + s)))) := by
  obtain ⟨g1, g2, g3, g4, g5, g6, g7, g8, g9, g10, g11, g12⟩ := h.geoI hp
  obtain ⟨r1, r2⟩ := h.rowt hp ht
  have h1 : 1 * o.m ≤ t * o.m := Nat.mul_le_mul_right _ (by omega)
  unfold GH fold1
  simp only
  rw [hext_nat, if_pos (by omega), hext_sub _ (by omega), if_pos (by omega), ← h.q_eq]
end vals

/-- Composition of the three stages. -/
theorem stagesH (h : o.WF) {nd : ℕ} {W : Ptr} {mem m1 m2 m3 : Mem} {x : ℕ → ℕ → ℂ} {k : ℕ → ℤ} {d2 d3 : ℕ × ℕ × ℕ × ℕ → Prop}
    (f1 : Fills mem m1 (o.RH nd) (o.dH W) (o.GH x k) (fun _ => True))
    (f2 : Fills m1 m2 (o.RH nd) (o.dH W) (o.FftpH m1 W 1) d2) (hd2 : ∀ i, o.RH nd i → d2 i)
    (f3 : Fills m2 m3 (o.RH nd) (o.dH W) (o.ZH m2 W k) d3)
    (hd3 : ∀ i, o.RH nd i → ¬ d3 i → i.2.2.1 = 0 ∨ (i.2.1 = 0 ∧ k i.1 = 0)) :
    Fills mem m3 (o.RH nd) (o.dH W) (o.TH x k) (fun _ => True) := by
  have hval : ∀ i, o.RH nd i → o.ZH m2 W k i = o.TH x k i := by
    rintro ⟨d, u, s, c⟩ hk
    unfold ZH TH
    simp only
    rw [f2.got _ hk (hd2 _ hk), h.M_eq, h.q_eq, fold_stages h.m_pos h.P_pos h.n_pos, mul_comm]
    congr 1
    unfold FftpH
    refine sum_congr rfl fun t ht => ?_
    rw [f1.got (d, t, s, c) ⟨hk.1, mem_range.1 ht, hk.2.2⟩ trivial]
    simp [GH]
  have f3' : Fills m2 m3 (o.RH nd) (o.dH W) (o.TH x k) (fun _ => True) := by
    refine f3.vals (fun i hk _ => hval i hk) fun i hk hd => ?_
    rw [← hval i hk]
    unfold ZH
    rcases hd3 i hk hd with h0 | ⟨h0, h1⟩
    · rw [h0]; simp
    · rw [h0, h1]; simp
  exact (f1.trans f2 hd2).trans f3' (fun _ _ => trivial)

/-- The loops of the first stage. -/
theorem zonesI (h : o.WF) (hp : 2 < o.p) {mem : Mem} {K : ℕ} {W : Ptr} {T : ℕ × ℕ × ℕ × ℕ → ℂ} {Q : Unit → Mem → Prop}
    {b1 b2 : ℕ → Body Unit} {b3 : ℕ × ℕ → Body Unit} {rest : Cmd Unit}
    (h1 : ∀ s, s < o.m0 → s < o.e → ∀ m', Same mem m' (o.RH K) (o.dH W) (0, s, 0) → Wr (o.RH K) (o.dH W) T m' (0, s, 0) (b1 s))
    (h2 : ∀ s, o.m0 ≤ s → s < o.e → ∀ m', Same mem m' (o.RH K) (o.dH W) (0, s, 0) → Wr (o.RH K) (o.dH W) T m' (0, s, 0) (b2 s))
    (h3 : ∀ t s, 0 < t → t < o.P → s < o.e → ∀ m', Same mem m' (o.RH K) (o.dH W) (t, s, 0) → Wr (o.RH K) (o.dH W) T m' (t, s, 0) (b3 (t, s)))
    (hQ : ∀ m', Fills mem m' (o.RH K) (o.dH W) T (fun _ => True) → rest.Ok m' Q) :
    Cmd.Ok (do par (rng 0 o.m0) b1; par (rng o.m0 o.e) b2; par (rng2 1 o.P 0 o.e) b3; rest) mem Q := by
  obtain ⟨g1, g2, g3, g4, g5, g6, g7, g8, g9, g10, g11, g12⟩ := h.geoI hp
  refine Cmd.Ok.bind ((Fills.start (T := T) (dH_inj h (nd := K) (W := W))).parz (fun s => (0, s, 0)) (rng_nodup _ _) ?_ (fun _ _ _ h => h) ?_ ?_)
  · intro i _ j _ e; simpa using e
  · intro s hs; rw [mem_rng] at hs; exact h1 s hs.2 (by omega)
  intro m1 f1
  refine Cmd.Ok.bind (f1.parz (fun s => (0, s, 0)) (rng_nodup _ _) ?_ ?_ ?_ ?_)
  · intro i _ j _ e; simpa using e
  · intro i hi d hf
    simp only [mem_rng, Prod.mk.injEq, true_and, and_true, false_or] at hf hi
    obtain ⟨j, hj, hf⟩ := hf; omega
  · intro s hs; rw [mem_rng] at hs; exact h2 s hs.1 hs.2
  intro m2 f2
  refine Cmd.Ok.bind (f2.parz (fun x => (x.1, x.2, 0)) (rng2_nodup _ _ _ _) ?_ ?_ ?_ ?_)
  · intro i _ j _ e; simp only [Prod.mk.injEq, and_true] at e; exact Prod.ext e.1 e.2
  · intro i hi d hf
    simp only [mem_rng, mem_rng2, Prod.mk.injEq, and_true, false_or] at hf hi
    rcases hf with ⟨j, hj, hf⟩ | ⟨j, hj, hf⟩ <;> omega
  · rintro ⟨t, s⟩ hs; simp only [mem_rng2] at hs; exact h3 t s hs.1.1 hs.1.2 hs.2.2
  intro m3 f3
  refine hQ m3 (f3.congr ?_)
  rintro ⟨d, t, s, c⟩ ⟨_, a2, a3, a4⟩
  simp only at a2 a3 a4
  obtain rfl : c = 0 := by omega
  simp only [mem_rng2, mem_rng, Prod.mk.injEq, false_or, iff_true, and_true]
  by_cases ht : t = 0
  · by_cases hs : s < o.m0
    · exact Or.inl (Or.inl ⟨s, by omega, by simp [ht]⟩)
    · exact Or.inl (Or.inr ⟨s, by omega, by simp [ht]⟩)
  · exact Or.inr ⟨(t, s), by simp only; omega, rfl, rfl⟩

end Herm
end Fftwpp
