import Verif.Proof.CBInner3

/-! `fftPadCentered::backwardInner`. -/

namespace Fftwpp
namespace Cent
open Finset ComplexConjugate
open Fft (kpair seqLoop_rng)
variable {o : Cent}

section
variable {f W : Ptr} {m1 : Mem}

/-- Blocks from `a` on. -/
theorem backwardInnerRest_ok (h : o.WF) (hp : 2 < o.p) (hS : o.S = 1) {K a r0 dr0 : ℕ} {m : Mem} {v : ℕ → ℕ → ℂ} {σ : ℕ → ℤ}
    (hacc : o.AccB m1 m f W a v)
    (hK : K = a + if o.D = 1 then min dr0 1 else 2 * dr0)
    (hb : f.buf ≠ W.buf) (hf : ∀ j < o.L, m1.valid (f + j)) (hW : ∀ i < o.m * (o.P * K), m1.valid (W + i))
    (hT : ∀ ρ, a + ρ < K → σ (a + ρ) = if o.D = 1 then (r0 : ℤ) else kpair r0 ρ)
    (hr : 0 < r0) (hrn : r0 + dr0 ≤ o.n) {Q : Unit → Mem → Prop}
    (hQ : ∀ m', o.AccB m1 m' f W K (fun j c => v j c + ∑ d ∈ Ico a K, o.cI m1 (W + o.b * d) (σ d) j c) → Q () m') :
    (o.backwardInnerRest (W + o.b * a) f r0 dr0).Ok m Q := by
  have hvf : ∀ {m' a v}, o.AccB m1 m' f W a v → ∀ j < o.L, m'.valid (f + j) := fun hm j hj => Mem.valid_of_size hm.upd.size (hf j hj)
  have hvW : ∀ {m' a v}, o.AccB m1 m' f W a v → ∀ e nd, e + nd ≤ K → ∀ i < o.m * (o.P * nd), m'.valid (W + o.b * e + i) := by
    intro m' _ _ hm e nd hle i hi
    rw [Ptr.add_add]
    refine Mem.valid_of_size hm.upd.size (hW _ ?_)
    have e1 : o.b * e + o.m * (o.P * nd) = o.m * (o.P * (e + nd)) := by rw [h.b1 hS]; ring
    have e2 : o.m * (o.P * (e + nd)) ≤ o.m * (o.P * K) := Nat.mul_le_mul_left _ (Nat.mul_le_mul_left _ hle)
    omega
  unfold backwardInnerRest
  by_cases hD : o.D = 1
  · simp only [hD, if_true] at hK hT ⊢
    by_cases hd : 0 < dr0
    · rw [Nat.min_eq_right hd] at hK
      subst hK
      rw [if_pos hd]
      refine backwardInnerOne_ok h hp hS (by exact hb) hr (by omega) (hvf hacc) ?_ ?_
      · have := hvW hacc a 1 le_rfl; simpa using this
      · intro m' f1
        refine hQ _ (hacc.step h hb f1 (fun j hj c hc => hacc.val j hj c hc) ?_ ?_)
        · intro d hd; obtain rfl : d = 0 := by omega
          rfl
        · intro d hd; obtain rfl : d = 0 := by omega
          rw [hT 0 (by omega)]
    · rw [if_neg hd]
      obtain rfl : dr0 = 0 := by omega
      simp only [Nat.zero_min, Nat.add_zero] at hK
      subst hK
      refine Cmd.Ok.pure (hQ _ ?_)
      simpa using hacc
  · simp only [hD, if_false] at hK hT ⊢
    have hidx : ∀ d, W + o.b * a + 2 * o.b * d = W + o.b * (a + 2 * d) := fun d => by rw [Ptr.add_add]; congr 1; ring
    simp only [hidx]
    refine seqLoop_rng (fun d m' => o.AccB m1 m' f W (a + 2 * d) (fun j c => v j c + ∑ d ∈ Ico a (a + 2 * d), o.cI m1 (W + o.b * d) (σ d) j c)) ?_ ?_ ?_
    · simpa using hacc
    · intro d m2 hd h1
      refine backwardInnerPair_ok h hp hS (by exact hb) (r := r0 + d) (by omega) (by omega) (hvf h1) (hvW h1 _ 2 (by omega)) ?_
      intro m3 f2
      have := h1.step h hb (s := σ) f2 (fun j hj c hc => h1.val j hj c hc) ?_ ?_
      · rw [show a + 2 * (d + 1) = a + 2 * d + 2 by ring]
        refine ⟨this.upd, fun j hj c hc => ?_⟩
        rw [this.val j hj c hc, add_assoc, sum_Ico_consecutive _ (by omega) (by omega)]
      · intro e he; unfold Vb; rw [Ptr.add_add, ← Nat.mul_add]
      · intro e he
        have := hT (2 * d + e) (by omega)
        rw [← Nat.add_assoc] at this
        rw [this]
        unfold kpair sg2
        obtain rfl | rfl : e = 0 ∨ e = 1 := by omega
        · simp
        · rw [if_neg (by omega), if_neg (by omega), show (2 * d + 1) / 2 = d by omega]
    · intro m2 h1
      subst hK
      exact hQ m2 h1

/-- The start of the accumulation. -/
theorem AccB.zero (m1 : Mem) (f W : Ptr) : o.AccB m1 m1 f W 0 (fun j c => m1.val (f + (o.S * j + c))) :=
  ⟨Mem.Upd.refl _ _, fun _ _ _ _ => rfl⟩

/-- The first blocks set the data. -/
theorem AccB.first (h : o.WF) {m' : Mem} {nd : ℕ} {V : ℕ → Ptr} {σ s : ℕ → ℤ}
    (hB : o.BI m1 m' nd V σ f (fun _ _ => 0)) (hV : ∀ d < nd, V d = W + o.b * d) (hσ : ∀ d < nd, σ d = s d) :
    o.AccB m1 m' f W nd (fun j c => ∑ d ∈ range nd, o.cI m1 (W + o.b * d) (s d) j c) := by
  refine ⟨hB.upd.mono ?_, fun j hj c hc => ?_⟩
  · rintro p (hp | ⟨⟨d, u, s', c⟩, ⟨h1, h2, h3, h4⟩, rfl⟩)
    · exact Or.inl hp
    · simp only at h1 h2 h3 h4
      refine Or.inr ⟨o.m * o.P * d + (o.m * u + s'), radix_lt (radix_lt h3 h2) (by omega), c, h4, ?_⟩
      unfold dF
      simp only
      rw [hV d h1, Ptr.add_add, h.b_eq, h.l_eq]
      congr 1; ring
  · rw [hB.out j hj c hc, zero_add]
    refine sum_congr rfl fun d hd => ?_
    rw [hV d (mem_range.1 hd), hσ d (mem_range.1 hd)]

theorem backwardInner_ok (h : o.WF) (hp : 2 < o.p) (hq : o.q ≠ 1) (hS : o.S = 1) {F : Ptr} {r : ℕ} {mem : Mem}
    {W? : Option Ptr} (hW : W?.getD F = W) (pre : o.Pre mem f F W) (hv : o.Visit r) :
    (o.backwardInner F f r W?).Ok mem (fun _ m' => o.BwdPost mem m' F f W r) := by
  have hb := pre.fW
  have hC := h.C_one hS
  unfold backwardInner
  simp only [hW]
  refine Cmd.Ok.bind (back_rows h hq hS (r := r) pre ?_)
  intro m1 u1 hin
  have vf : ∀ j < o.L, m1.valid (f + j) := fun j hj => by
    have := pre.vf j hj 0 h.C_pos; rw [hS, Nat.one_mul, Nat.add_zero] at this
    exact Mem.valid_of_size u1.size this
  have vW : ∀ i < o.m * (o.P * o.blks r), m1.valid (W + i) := fun i hi => by
    have := pre.vW i (lt_of_lt_of_le hi (Nat.mul_le_mul_left _ (h.rows_le r))) 0 h.C_pos
    rw [hS, Nat.one_mul, Nat.add_zero] at this
    exact Mem.valid_of_size u1.size this
  have hpart : ∀ nd, nd ≤ o.blks r → ∀ i < o.m * (o.P * nd), m1.valid (W + i) := fun nd hnd i hi =>
    vW i (lt_of_lt_of_le hi (Nat.mul_le_mul_left _ (Nat.mul_le_mul_left _ hnd)))
  have hf1 : ∀ j : ℕ, m1.val (f + j) = mem.val (f + j) := fun j => u1.frame _ (by
    rintro ⟨_, _, _, _, h3⟩; exact hb (by simpa using congrArg Ptr.buf h3))
  have hin' : ∀ ρ < o.rows r, ∀ s < o.m, ∀ c < o.C, m1.val (W + (o.S * (o.m * ρ + s) + c)) =
      ∑ i ∈ range o.m, mem.val (F + (o.S * (o.m * ρ + i) + c)) * w o.m (-1 * i * s) := by
    intro ρ hρ s hs c hc
    obtain rfl := h.C0 hS hc
    simp only [hS, Nat.one_mul, Nat.add_zero]
    exact hin ρ hρ s hs
  by_cases hr : r = 0
  · subst hr
    rw [if_pos rfl]
    by_cases hc : o.D = 1 ∨ 2 * (o.n / 2) < o.n
    · rw [if_pos hc]
      obtain ⟨b1, b2, b3, b4⟩ := h.block0_odd hc
      refine Cmd.Ok.bind (backwardInnerZero_ok h hp hS hb vf (by have := hpart 1 (by omega); simpa using this) ?_)
      intro m2 f1
      have h1 := AccB.first h (W := W) (s := o.sig 0) f1 (by intro d hd; obtain rfl : d = 0 := by omega
                                                             simp [Ptr.add_zero])
        (by intro d hd; obtain rfl : d = 0 := by omega
            rw [b2])
      rw [Nat.mul_comm 1 o.b]
      refine backwardInnerRest_ok h hp hS h1 (σ := o.sig 0) b1 hb vf vW ?_ Nat.one_pos b3 ?_
      · intro ρ hρ
        rw [b1] at hρ
        split_ifs at hρ ⊢ with hD
        · rw [h.D0_eq_one hD] at hρ; simp at hρ
        · exact b4 ρ hD
      intro m4 h4
      refine finish_backI h hp u1 hin' ⟨h4.upd, fun j hj c hc => ?_⟩
      rw [h4.val j hj c hc, if_pos rfl, zero_add, sum_range_add_sum_Ico _ (by omega : 1 ≤ o.blks 0)]
    · rw [if_neg hc]
      obtain ⟨b1, b2, b3, b4, b5⟩ := h.block0_even hc
      have hD1 : o.D ≠ 1 := by omega
      refine Cmd.Ok.bind (backwardInnerHalf_ok h hp hS hb (by omega) vf (hpart 2 (by omega)) ?_)
      intro m2 f1
      have h1 := AccB.first h (W := W) (s := o.sig 0) f1 (by intro d hd; rfl)
        (by intro d hd
            obtain rfl | rfl : d = 0 ∨ d = 1 := by omega
            · rw [b2]; rfl
            · rw [b3]; rfl)
      rw [Nat.mul_comm 2 o.b]
      refine backwardInnerRest_ok h hp hS h1 (σ := o.sig 0) (K := o.blks 0) (dr0 := (o.D0 - 2) / 2) (by rw [if_neg hD1]; exact b1) hb vf vW ?_ Nat.one_pos b4 ?_
      · intro ρ hρ
        rw [if_neg hD1]
        exact b5 ρ
      intro m4 h4
      refine finish_backI h hp u1 hin' ⟨h4.upd, fun j hj c hc => ?_⟩
      rw [h4.val j hj c hc, if_pos rfl, zero_add, sum_range_add_sum_Ico _ (by omega : 2 ≤ o.blks 0)]
  · rw [if_neg hr]
    obtain ⟨b1, b2, b3⟩ := h.block_pos hv (by omega)
    have := backwardInnerRest_ok (a := 0) h hp hS (AccB.zero m1 f W) (K := o.blks r) (σ := o.sig r) (dr0 := o.dr) (r0 := r) (by rw [b1, Nat.zero_add]) hb vf vW
      (by intro ρ hρ; rw [Nat.zero_add]; exact b3 ρ (by omega)) (by omega) b2
      (Q := fun _ m' => o.BwdPost mem m' F f W r) (fun m' h1 => finish_backI h hp u1 hin' ⟨h1.upd, fun j hj c hc => by
        rw [h1.val j hj c hc, if_neg hr, hf1, Nat.Ico_zero_eq_range]⟩)
    rwa [Nat.mul_zero, Ptr.add_zero] at this

end
end Cent
end Fftwpp
