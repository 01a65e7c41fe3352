import Verif.Proof.InnerMany

/-! `forward` and `pad`, whatever routine was selected at construction. -/

namespace Fftwpp
namespace Fft
open Finset ComplexConjugate
variable {o : Fft}

theorem forward_ok (h : o.WF) (how : o.overwrite = false) {f F W : Ptr} {mem : Mem} {r : ℕ}
    {W? : Option Ptr} (hW : W?.getD F = W) (pre : o.Pre mem f F W) (hpd : o.Padded mem W) (hv : o.Visit r) :
    (o.forward f F r W?).Ok mem (fun _ m' => o.FwdPost mem m' f F W r) := by
  unfold forward
  rw [h.route_eq, how]
  unfold chooseRoute
  have hp0 := h.p_pos
  by_cases hq : o.q = 1
  · rw [if_pos hq]
    by_cases hS : o.S = 1
    · rw [if_pos hS]; exact forwardExplicit_ok h hq hS hW pre hv
    · rw [if_neg hS]; exact forwardExplicitMany_ok h hq hS hW pre hv
  · rw [if_neg hq]
    by_cases hp : 2 < o.p
    · rw [if_pos hp]
      by_cases hS : o.S = 1
      · rw [if_pos hS]; exact forwardInner_ok h hp hq hS hW pre hv
      · rw [if_neg hS]; exact forwardInnerMany_ok h hp hq hS hW pre hv
    · rw [if_neg hp]
      by_cases hp2 : o.p = 2
      · rw [if_pos hp2]
        by_cases hS : o.S = 1
        · rw [if_pos hS]; exact forward2_ok h hp2 hq hS hW pre hpd hv
        · rw [if_neg hS]; exact forward2Many_ok h hp2 hq hS hW pre hv
      · rw [if_neg hp2]
        have hp1 : o.p = 1 := by omega
        by_cases hS : o.S = 1
        · rw [if_pos hS]; exact forward1_ok h hp1 hq hS hW pre hpd hv
        · rw [if_neg hS]; exact forward1Many_ok h hp1 hq hS hW pre hpd hv

/-- `pad(W)` establishes the padding and touches only padding words of `W`. -/
theorem padW_ok (h : o.WF) {W : Ptr} {mem : Mem}
    (hv : ∀ i < o.m * (o.P * o.D), ∀ c < o.C, mem.valid (W + (o.S * i + c))) :
    (o.padW (some W)).Ok mem (fun _ m' => mem.Upd m' (o.Reg W (o.P * o.D)) ∧ o.Padded m' W) := by
  unfold padW
  simp only
  rw [h.pad_eq]
  by_cases hx : o.q ≠ 1 ∧ o.p = 1 ∧ o.inplace = false ∧ o.L < o.m
  · rw [if_pos hx]
    obtain ⟨hq, hp, hi, hLm⟩ := hx
    have hP := h.P_one (by omega : o.p ≤ 2)
    have hC := h.C_pos
    rw [hP, Nat.one_mul] at hv ⊢
    by_cases hS : o.S = 1
    · rw [if_pos hS]
      simp only
      unfold padSingle
      simp only [hp, Nat.mul_one]
      have hv' : ∀ i < o.m * o.D, mem.valid (W + i) := fun i hi => by
        have := hv i hi 0 hC; rwa [hS, Nat.one_mul, Nat.add_zero] at this
      have hC1 := h.C_one hS
      refine seqLoop_rng (fun d m1 => mem.Upd m1 (o.Reg W o.D) ∧ ∀ t < d, ∀ s < o.m, o.L ≤ s →
        m1.val (W + (o.m * t + s)) = 0) ⟨Mem.Upd.refl _ _, by omega⟩ ?_ ?_
      · rintro d m1 hd ⟨u1, e1⟩
        refine zeroRow_ok ?_ ?_
        · intro s _ hs; rw [Ptr.add_add]; exact Mem.valid_of_size u1.size (hv' _ (radix_lt hs hd))
        intro m2 u2 e2
        refine ⟨u1.trans u2 (fun _ hp => hp) ?_, ?_⟩
        · rintro p ⟨s, _, hs, rfl⟩
          exact ⟨o.m * d + s, radix_lt hs hd, 0, hC, by rw [hS, Ptr.add_add]; simp⟩
        · intro t ht s hs hLs
          rcases Nat.lt_succ_iff_lt_or_eq.1 ht with h1 | rfl
          · rw [u2.frame, e1 t h1 s hs hLs]
            rintro ⟨s', _, hs', h3⟩
            rw [Ptr.add_add, Ptr.add_inj] at h3
            have := radix_inj hs hs' h3
            omega
          · have := e2 s hLs hs
            rwa [Ptr.add_add] at this
      · rintro m1 ⟨u1, e1⟩
        refine ⟨u1, ?_⟩
        intro _ _ _ t ht s hs hLs c hc
        obtain rfl : c = 0 := by omega
        rw [hS, Nat.one_mul, Nat.add_zero]
        exact e1 t ht s hs hLs
    · rw [if_neg hS]
      simp only
      unfold padMany
      simp only [hp, Nat.mul_one]
      have hD := h.D_one hS
      rw [hD, Nat.mul_one] at hv
      rw [hD]
      refine zeroCols_ok h.C_le_S (fun s c _ h2 h3 => hv s h2 c h3) ?_
      intro m1 u1 e1
      refine ⟨u1.mono ?_, ?_⟩
      · rintro p ⟨s, c, _, h1, _, h2, rfl⟩
        exact ⟨s, by omega, c, h2, rfl⟩
      · intro _ _ _ t ht s hs hLs c hc
        obtain rfl : t = 0 := by omega
        rw [Nat.mul_zero, Nat.zero_add]
        exact e1 s c hLs hs (by omega) hc
  · rw [if_neg hx]
    simp only
    refine Cmd.Ok.pure ⟨Mem.Upd.refl _ _, ?_⟩
    intro hi hq hp1 t ht s hs hLs
    exact absurd ⟨hq, hp1, hi, by omega⟩ hx

end Fft
end Fftwpp
