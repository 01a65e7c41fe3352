import Verif.Proof.HFInner

/-! Tools for the backward Hermitian transforms. -/

namespace Fftwpp
namespace Wr
variable {τ : Type} {R : ℕ × τ → Prop} {dst : ℕ × τ → Ptr} {T : ℕ × τ → ℂ} {m' : Mem} {k : τ} {b : Body Unit} {X Y : Ptr}

/-- Two stores, in the opposite order. -/
theorem mk2r (hR : ∀ d, R (d, k) ↔ d = 0 ∨ d = 1) (hX : dst (0, k) = X) (hY : dst (1, k) = Y) (hg : b.Good m')
    (hw : b.wrs m' = [(Y, T (1, k)), (X, T (0, k))])
    (hrd : ∀ p ∈ b.rds m', (∀ x, R x → p ≠ dst x) ∨ p = X ∨ p = Y) : Wr R dst T m' k b := by
  subst hX hY
  exact ⟨hg, ⟨[1, 0], by simp, fun d => by rw [hR]; simp [or_comm], by rw [hw]; rfl⟩, fun p hp => (hrd p hp).imp id (by
    rintro (e | e)
    · exact ⟨0, (hR 0).2 (by simp), e⟩
    · exact ⟨1, (hR 1).2 (by simp), e⟩)⟩
end Wr

theorem w_quarter {a b : ℕ} (ha : 0 < a) (hb : 0 < b) : w (2 * a * (2 * b)) ((a : ℤ) * b) = Complex.I := by
  have e1 : w (2 * a * (2 * b)) ((a : ℤ) * b) = w 4 1 := by
    rw [show 2 * a * (2 * b) = (a * b) * 4 by ring, show (a : ℤ) * b = ((a * b : ℕ) : ℤ) * 1 by push_cast; ring]
    exact w_base' _ _ (Nat.mul_pos ha hb).ne' 1
  rw [e1]
  unfold w
  rw [show (2 * (Real.pi : ℂ) * Complex.I * ((1 : ℤ) : ℂ) / ((4 : ℕ) : ℂ)) = Real.pi / 2 * Complex.I by push_cast; ring]
  exact Complex.exp_pi_div_two_mul_I

namespace Herm
open Finset ComplexConjugate
variable {o : Herm}

/-- Sizes for `q>1`. -/
theorem WF.geoB (h : o.WF) (hq : o.q ≠ 1) : o.e ≤ o.m ∧ o.P * o.m - o.H + 1 = o.m0 ∧ 0 < o.m0 ∧ o.m0 ≤ o.m - o.e + 1 ∧ o.m - o.e + 1 ≤ o.e ∧
    o.H ≤ o.P * o.m ∧ (∀ t < o.P, t * o.m + o.e ≤ o.H ∧ t * o.m + o.m ≤ o.P * o.m) ∧
    (o.m = 2 * (o.e - 1) → o.e = o.m - o.e + 2) ∧ (o.m ≠ 2 * (o.e - 1) → o.e = o.m - o.e + 1) := by
  rcases h.cases with ⟨h1, _⟩ | ⟨h1, _, h3, h4, h5⟩
  · exact absurd h1 hq
  · have hP := h.P_pos
    obtain ⟨g1, g2, g3, g4⟩ := h.H_facts
    have l := h.p_lb
    have he := h.e_eq
    have hm := h.m_pos
    have e1 : (o.P - 1) * o.m + o.m = o.P * o.m := by rw [← Nat.succ_mul]; congr 1; omega
    have e2 : o.m * (o.p - 1) = 2 * ((o.P - 1) * o.m) + o.m := by
      obtain ⟨k, hk⟩ : ∃ k, o.P = k + 1 := ⟨o.P - 1, by omega⟩
      rw [h3, hk, show 2 * (k + 1) - 1 = 2 * k + 1 by omega, show k + 1 - 1 = k by omega]; ring
    rw [e2] at l
    unfold m0
    refine ⟨by omega, by omega, by omega, by omega, by omega, g2, fun t ht => ?_, by omega, by omega⟩
    have h1 : t * o.m ≤ (o.P - 1) * o.m := Nat.mul_le_mul_right _ (by omega)
    omega

/-- Position of an output (side, row, position). -/
def jB (o : Herm) (side t s : ℕ) : ℕ := if side = 0 then t * o.m + s else o.P * o.m - (t * o.m + s)
/-- Outputs of `backward` (side, row, position, copy). -/
def RB (o : Herm) (x : ℕ × ℕ × ℕ × ℕ) : Prop :=
  x.2.1 < o.P ∧ x.2.2.2 < o.C ∧ ((x.1 = 0 ∧ x.2.2.1 < o.e) ∨ (x.1 = 1 ∧ 0 < x.2.2.1 ∧ x.2.2.1 < o.m - o.e + 1 ∧ (x.2.1 = 0 → o.m0 ≤ x.2.2.1)))
/-- The word of an output. -/
def dB (o : Herm) (f : Ptr) (x : ℕ × ℕ × ℕ × ℕ) : Ptr := f + (o.C * o.jB x.1 x.2.1 x.2.2.1 + x.2.2.2)

theorem jB_lt (h : o.WF) (hq : o.q ≠ 1) {a t s c : ℕ} (hx : o.RB (a, t, s, c)) : o.jB a t s < o.H := by
  obtain ⟨g1, g2, g3, g4, g5, g6, g7, g8, g9⟩ := h.geoB hq
  obtain ⟨h1, h2, h3⟩ := hx
  simp only at h1 h2 h3
  have r := g7 t h1
  have r1 := (g7 (o.P - 1) (by omega)).1
  unfold jB
  rcases h3 with ⟨rfl, h3⟩ | ⟨rfl, h3, h4, h5⟩
  · rw [if_pos rfl]; omega
  · rw [if_neg (by omega)]
    by_cases ht : t = 0
    · have := h5 ht
      subst ht
      rw [Nat.zero_mul, Nat.zero_add]; omega
    · have e1 : (o.P - 1) * o.m + o.m = o.P * o.m := by rw [← Nat.succ_mul]; congr 1; omega
      have h1 : 1 * o.m ≤ t * o.m := Nat.mul_le_mul_right _ (by omega)
      omega

theorem jB_form (h : o.WF) (hq : o.q ≠ 1) {a t s c : ℕ} (hx : o.RB (a, t, s, c)) :
    ∃ t' s', o.jB a t s = o.m * t' + s' ∧ s' < o.m ∧ ((a = 0 ∧ t' = t ∧ s' = s ∧ s < o.e) ∨ (a = 1 ∧ t = o.P - 1 - t' ∧ s = o.m - s' ∧ o.e ≤ s')) := by
  obtain ⟨g1, g2, g3, g4, g5, g6, g7, g8, g9⟩ := h.geoB hq
  obtain ⟨h1, h2, h3⟩ := hx
  simp only at h1 h2 h3
  unfold jB
  rcases h3 with ⟨rfl, h3⟩ | ⟨rfl, h3, h4, h5⟩
  · exact ⟨t, s, by rw [if_pos rfl, Nat.mul_comm], by omega, Or.inl ⟨rfl, rfl, rfl, h3⟩⟩
  · refine ⟨o.P - 1 - t, o.m - s, ?_, by omega, Or.inr ⟨rfl, by omega, by omega, by omega⟩⟩
    rw [if_neg (by omega)]
    have e1 : o.m * (o.P - 1 - t) + t * o.m + o.m = o.P * o.m := by
      obtain ⟨k, hk⟩ : ∃ k, o.P = k + t + 1 := ⟨o.P - 1 - t, by omega⟩
      rw [hk, show k + t + 1 - 1 - t = k by omega]; ring
    omega

theorem dB_inj (h : o.WF) (hq : o.q ≠ 1) {f : Ptr} : ∀ k k', o.RB k → o.RB k' → o.dB f k = o.dB f k' → k = k' := by
  rintro ⟨a, t, s, c⟩ ⟨a', t', s', c'⟩ hk hk' e
  unfold dB at e
  rw [Ptr.add_inj] at e
  simp only at e
  obtain ⟨e1, rfl⟩ := radix_inj hk.2.1 hk'.2.1 e
  obtain ⟨x, y, f1, f2, f3⟩ := jB_form h hq hk
  obtain ⟨x', y', f1', f2', f3'⟩ := jB_form h hq hk'
  rw [f1, f1'] at e1
  obtain ⟨rfl, rfl⟩ := radix_inj f2 f2' e1
  rcases f3 with ⟨rfl, rfl, rfl, _⟩ | ⟨rfl, rfl, rfl, _⟩ <;> rcases f3' with ⟨rfl, rfl, rfl, _⟩ | ⟨rfl, rfl, rfl, _⟩ <;> first | rfl | omega

theorem jB_cover (h : o.WF) (hq : o.q ≠ 1) {j c : ℕ} (hj : j < o.H) (hc : c < o.C) : ∃ a t s, o.RB (a, t, s, c) ∧ o.jB a t s = j := by
  obtain ⟨g1, g2, g3, g4, g5, g6, g7, g8, g9⟩ := h.geoB hq
  have hm := h.m_pos
  have e := Nat.div_add_mod j o.m
  have hs := Nat.mod_lt j hm
  have ht : j / o.m < o.P := Nat.div_lt_of_lt_mul (by rw [Nat.mul_comm]; omega)
  generalize j / o.m = t at *
  generalize j % o.m = s at *
  by_cases hse : s < o.e
  · exact ⟨0, t, s, ⟨ht, hc, Or.inl ⟨rfl, hse⟩⟩, by unfold jB; rw [if_pos rfl, Nat.mul_comm]; exact e⟩
  · have e1 : (o.P - 1 - t) * o.m + o.m * t + o.m = o.P * o.m := by
      obtain ⟨k, hk⟩ : ∃ k, o.P = k + t + 1 := ⟨o.P - 1 - t, by omega⟩
      rw [hk, show k + t + 1 - 1 - t = k by omega]; ring
    refine ⟨1, o.P - 1 - t, o.m - s, ⟨by simp only; omega, hc, Or.inr ⟨rfl, by simp only; omega, by simp only; omega, fun h0 => ?_⟩⟩, ?_⟩
    · simp only at h0 ⊢
      rw [h0] at e1
      omega
    · unfold jB; rw [if_neg (by omega)]; omega

/-! The real-to-complex transforms. -/

/-- The half spectra. -/
noncomputable def YH (o : Herm) (mem : Mem) (F : Ptr) (x : ℕ × ℕ × ℕ × ℕ) : ℂ :=
  ∑ l ∈ range o.m, ((mem.dbl (F + o.b * x.1) (o.C * (o.m * x.2.1 + l) + x.2.2.2) : ℝ) : ℂ) * w o.m (-((x.2.2.1 : ℤ) * l))

/-- The first `K` real-to-complex transforms are done. -/
structure RP (o : Herm) (mem m1 : Mem) (F W : Ptr) (K : ℕ) : Prop where
  upd : mem.Upd m1 (fun p => InArr F (o.b * K) p ∨ InArr W (o.Bw * K) p)
  val : ∀ x, o.RH K x → m1.val (o.dH W x) = o.YH mem F x

theorem RP.zero (mem : Mem) (F W : Ptr) : o.RP mem mem F W 0 := ⟨Mem.Upd.refl _ _, fun x hx => absurd hx.1 (by omega)⟩

theorem r2c_step (h : o.WF) {mem m1 : Mem} {f F W : Ptr} {r d : ℕ} (pre : o.Pre mem f F W r) (hd : d + 1 ≤ o.nd r) (rp : o.RP mem m1 F W d) :
    (o.rcfftm.r2c (F + o.b * d) (W + o.Bw * d)).Ok m1 (fun _ m2 => o.RP mem m2 F W (d + 1)) := by
  have hBw := h.Bw_le
  have hb := h.b_le
  have e1 : o.Bw * (d + 1) ≤ o.Bw * o.nd r := Nat.mul_le_mul_left _ (by omega)
  have e2 : o.b * (d + 1) ≤ o.b * o.nd r := Nat.mul_le_mul_left _ (by omega)
  have hbB : o.inplace = true → W = F ∧ o.b * d = o.Bw * d ∧ o.b = o.Bw := fun hi => by
    rcases pre.sep with ⟨_, s2⟩ | ⟨s1, _⟩
    · exact ⟨s2, by rw [h.b_Bw hi], h.b_Bw hi⟩
    · rw [hi] at s1; cases s1
  have hnb : o.inplace = false → W.buf ≠ F.buf := fun hi => by
    rcases pre.sep with ⟨s1, _⟩ | ⟨_, s2⟩
    · rw [hi] at s1; cases s1
    · exact s2
  have hdbl : ∀ i < (o.C * (o.m * o.P) + 1) / 2, m1.val (F + o.b * d + i) = mem.val (F + o.b * d + i) := fun i hi => by
    apply rp.upd.frame
    rintro (⟨i', hi', e⟩ | ⟨i', hi', e⟩)
    · rw [Ptr.add_add, Ptr.add_inj] at e; omega
    · rcases hin : o.inplace with _ | _
      · exact hnb hin (by simpa using (congrArg Ptr.buf e).symm)
      · obtain ⟨a1, a2, a3⟩ := hbB hin
        rw [a1, Ptr.add_add, Ptr.add_inj] at e; omega
  rw [Nat.mul_succ] at e1 e2
  refine RPlan.r2c_ok h.geor ?_ ?_ ?_ ?_
  · rw [h.inr]
    rcases hin : o.inplace with _ | _
    · exact Or.inr ⟨rfl, by simpa using (hnb hin).symm⟩
    · obtain ⟨a1, a2, a3⟩ := hbB hin
      exact Or.inl ⟨rfl, by rw [a1, a2]⟩
  · intro i hi
    rw [Ptr.add_add]
    exact Mem.valid_of_size rp.upd.size (pre.vW _ (by omega))
  · intro i hi
    rw [Ptr.add_add]
    exact Mem.valid_of_size rp.upd.size (pre.vF _ (by omega))
  · intro m2 u e
    rw [← h.e_eq] at u e hBw
    refine ⟨rp.upd.trans u ?_ ?_, ?_⟩
    · rintro p (hp | hp)
      · exact Or.inl (InArr.mono (Nat.mul_le_mul_left _ (by omega)) hp)
      · exact Or.inr (InArr.mono (Nat.mul_le_mul_left _ (by omega)) hp)
    · rintro p (hp | ⟨_, hp⟩)
      · exact Or.inr (InArr.shift (by rw [Nat.mul_succ]; omega) hp)
      · exact Or.inl (InArr.shift (by rw [Nat.mul_succ]; omega) hp)
    · rintro ⟨d', t, s, c⟩ hx
      have hx2 := hx
      obtain ⟨h1, h2, h3, h4⟩ := hx
      simp only at h1 h2 h3 h4
      by_cases hdd : d' = d
      · subst hdd
        have := e t h2 c h4 s h3
        rw [Ptr.add_add] at this
        unfold dH
        rw [this]
        unfold YH
        refine sum_congr rfl fun l hl => ?_
        simp only
        rw [Mem.dbl_congr]
        apply hdbl
        have := radix_lt h4 (radix_lt (mem_range.1 hl) h2); omega
      · rw [← rp.val (d', t, s, c) ⟨by simp only; omega, hx2.2⟩]
        apply u.frame
        have hc := h.cell_lt h2 h3 h4
        have hdl : o.Bw * (d' + 1) ≤ o.Bw * d := Nat.mul_le_mul_left _ (by omega)
        rw [Nat.mul_succ] at hdl
        rintro (⟨i', hi', e⟩ | ⟨hin, i', hi', e⟩)
        · unfold dH at e; rw [Ptr.add_add, Ptr.add_inj] at e; simp only at e; omega
        · obtain ⟨a1, a2, a3⟩ := hbB (h.inr ▸ hin)
          unfold dH at e; rw [a1, Ptr.add_add, Ptr.add_inj] at e; simp only at e; omega

theorem r2c_first (h : o.WF) {mem : Mem} {f F W : Ptr} {r : ℕ} (pre : o.Pre mem f F W r) :
    (o.rcfftm.r2c F W).Ok mem (fun _ m2 => o.RP mem m2 F W 1) := by
  have := r2c_step h pre (d := 0) (by have := (Herm.nd_pos h r).1; omega) (RP.zero mem F W)
  rw [Nat.mul_zero, Nat.mul_zero] at this
  rwa [show F + 0 = F from Ptr.add_zero _, show W + 0 = W from Ptr.add_zero _] at this

theorem r2c_second (h : o.WF) {mem m1 : Mem} {f F W : Ptr} {r : ℕ} (pre : o.Pre mem f F W r) (hnd : o.nd r = 2) (rp : o.RP mem m1 F W 1) :
    (o.rcfftm.r2c (F + o.b) (W + o.Bw)).Ok m1 (fun _ m2 => o.RP mem m2 F W 2) := by
  have := r2c_step h pre (d := 1) (by omega) rp
  rwa [Nat.mul_one, Nat.mul_one] at this

/-! The wanted values. -/

/-- Contribution of one residue. -/
noncomputable def OB (o : Herm) (mem : Mem) (F : Ptr) (k : ℤ) (d j c : ℕ) : ℂ :=
  ∑ u ∈ range o.P, ∑ l ∈ range o.m,
    ((mem.dbl (F + o.b * d) (o.C * (o.m * u + l) + c) : ℝ) : ℂ) * w o.M (-((j : ℤ) * (o.q * l + (o.n * u + k))))
/-- Value after the inner transform. -/
noncomputable def BV (o : Herm) (mem : Mem) (F : Ptr) (k : ℕ → ℤ) (x : ℕ × ℕ × ℕ × ℕ) : ℂ :=
  ∑ u ∈ range o.P, o.YH mem F (x.1, u, x.2.2.1, x.2.2.2) * w o.M (-((x.2.2.1 : ℤ) * (o.n * u + k x.1))) * w o.P (-((x.2.1 : ℤ) * u))
/-- The value to be stored. -/
noncomputable def TB (o : Herm) (mem : Mem) (F f : Ptr) (r : ℕ) (x : ℕ × ℕ × ℕ × ℕ) : ℂ :=
  (if r = 0 then 0 else mem.val (o.dB f x)) + ∑ d ∈ range (o.nd r), o.OB mem F (o.kd r d) d (o.jB x.1 x.2.1 x.2.2.1) x.2.2.2

section
variable {mem : Mem} {F : Ptr} {k : ℕ → ℤ}

theorem OB_low (h : o.WF) (d t s c : ℕ) : o.OB mem F (k d) d (o.jB 0 t s) c = w o.q (-(t * k d)) * o.BV mem F k (d, t, s, c) := by
  unfold OB BV YH jB
  rw [if_pos rfl, h.M_eq, h.q_eq]
  exact (bwd_low h.m_pos h.P_pos h.n_pos (fun u l => ((mem.dbl (F + o.b * d) (o.C * (o.m * u + l) + c) : ℝ) : ℂ)) (k d) t s).symm

theorem OB_high (h : o.WF) {t s : ℕ} (hts : t * o.m + s ≤ o.P * o.m) (d c : ℕ) :
    o.OB mem F (k d) d (o.jB 1 t s) c = conj (w o.n (k d) * (w o.q (-(t * k d)) * o.BV mem F k (d, t, s, c))) := by
  unfold OB BV YH jB
  rw [if_neg (by omega), h.M_eq, h.q_eq]
  exact (bwd_high h.m_pos h.P_pos h.n_pos (y := fun u l => ((mem.dbl (F + o.b * d) (o.C * (o.m * u + l) + c) : ℝ) : ℂ))
    (fun u l => Complex.conj_ofReal _) (k d) t s hts).symm
end

/-- Completion of `backward`. -/
theorem finishB (h : o.WF) (hq : o.q ≠ 1) {mem m1 m2 : Mem} {f F W : Ptr} {r : ℕ} (pre : o.Pre mem f F W r)
    (u : mem.Upd m1 (fun p => InArr F (o.b * o.nd r) p ∨ InArr W (o.Bw * o.nd r) p))
    (hfill : Fills m1 m2 o.RB (o.dB f) (o.TB mem F f r) (fun _ => True)) : o.BwdPost mem m2 F f W r := by
  refine ⟨u.trans hfill.upd (fun p hp => Or.inr hp) ?_, ?_⟩
  · rintro p ⟨⟨a, t, s, c⟩, hx, rfl⟩
    exact Or.inl ⟨_, radix_lt hx.2.1 (jB_lt h hq hx), rfl⟩
  · intro j hj c hc
    obtain ⟨a, t, s, hx, e⟩ := jB_cover h hq hj hc
    have := hfill.got (a, t, s, c) hx trivial
    unfold TB dB at this
    simp only [e] at this
    exact this

end Herm
end Fftwpp
