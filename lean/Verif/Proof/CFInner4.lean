import Verif.Proof.CFInner3

/-! `fftPadCentered::forwardInner`. -/

namespace Fftwpp
namespace Cent
open Finset ComplexConjugate
open Fft (kpair seqLoop_rng)
variable {o : Cent}

theorem WF.C0 (h : o.WF) (hS : o.S = 1) {c : ℕ} (hc : c < o.C) : c = 0 := by have := h.C_one hS; omega

/-- Blocks `a,…,a+nd-1` join the blocks already filled. -/
theorem place (h : o.WF) (hS : o.S = 1) {mem m m' : Mem} {W : Ptr} {x y : ℕ → ℂ} {σ : ℕ → ℤ} {V : ℕ → Ptr} {r a nd : ℕ}
    (hfill : Fills mem m (o.RS (o.rows r)) (o.dS W) (o.TS x r) (fun k => k.1 < o.P * a)) (hxy : y = x)
    (f1 : Fills m m' (o.RF nd) (o.dF V) (o.WT (fun _ => y) σ) (fun _ => True))
    (hV : ∀ d < nd, V d = W + o.b * (a + d)) (hσ : ∀ d < nd, σ d = o.sig r (a + d)) (ha : a + nd ≤ o.blks r) :
    Fills mem m' (o.RS (o.rows r)) (o.dS W) (o.TS x r) (fun k => k.1 < o.P * (a + nd)) := by
  subst hxy
  have hP := h.P_pos
  have hdiv : ∀ d u, u < o.P → (o.P * (a + d) + u) / o.P = a + d ∧ (o.P * (a + d) + u) % o.P = u := fun d u hu => by
    constructor
    · rw [Nat.mul_add_div hP, Nat.div_eq_of_lt hu, Nat.add_zero]
    · rw [Nat.mul_add_mod, Nat.mod_eq_of_lt hu]
  refine (hfill.embed f1 (fun _ _ => trivial) (fun k => (o.P * (a + k.1) + k.2.1, k.2.2.1)) ?_ ?_ ?_).congr ?_
  · rintro ⟨d, u, s, c⟩ ⟨h1, h2, h3, h4⟩
    simp only at h1 h2 h3 h4
    refine ⟨?_, h3⟩
    simp only
    unfold rows
    exact radix_lt h2 (by omega)
  · rintro ⟨d, u, s, c⟩ ⟨h1, h2, h3, h4⟩
    simp only at h1 h2 h3 h4
    obtain rfl := h.C0 hS h4
    rw [h.dF1 hS]
    unfold dS
    rw [hV d h1, Ptr.add_add, h.b1 hS]
    congr 1
    simp only
    ring
  · rintro ⟨d, u, s, c⟩ ⟨h1, h2, h3, h4⟩
    simp only at h1 h2 h3 h4
    unfold WT TS res
    simp only
    rw [(hdiv d u h2).1, (hdiv d u h2).2, hσ d h1]
  · rintro ⟨k, s⟩ hk
    simp only
    constructor
    · rintro (h1 | ⟨⟨d, u, s', c⟩, hR, e⟩)
      · exact lt_of_lt_of_le h1 (Nat.mul_le_mul_left _ (by omega))
      · simp only [Prod.mk.injEq] at e
        rw [e.1]
        exact radix_lt hR.2.1 (by have := hR.1; simp only at this; omega)
    · intro h1
      by_cases h2 : k < o.P * a
      · exact Or.inl h2
      · refine Or.inr ⟨(k / o.P - a, k % o.P, s, 0), ⟨?_, Nat.mod_lt _ hP, hk.2, h.C_pos⟩, ?_⟩
        · simp only
          have e1 : k / o.P < a + nd := Nat.div_lt_of_lt_mul h1
          have e2 : a ≤ k / o.P := (Nat.le_div_iff_mul_le hP).2 (by rw [Nat.mul_comm]; omega)
          omega
        · simp only [Prod.mk.injEq, and_true]
          have e2 : a ≤ k / o.P := (Nat.le_div_iff_mul_le hP).2 (by rw [Nat.mul_comm]; omega)
          rw [show a + (k / o.P - a) = k / o.P by omega, Nat.div_add_mod]

section
variable {f W : Ptr} {mem : Mem}

/-- Blocks from `a` on. -/
theorem forwardInnerRest_ok (h : o.WF) (hp : 2 < o.p) (hS : o.S = 1) {r a r0 dr0 : ℕ} {m : Mem}
    (hfill : Fills mem m (o.RS (o.rows r)) (o.dS W) (o.TS (fun j => mem.val (f + j)) r) (fun k => k.1 < o.P * a))
    (hK : o.blks r = a + if o.D = 1 then min dr0 1 else 2 * dr0)
    (hb : f.buf ≠ W.buf) (hf : ∀ j < o.L, mem.valid (f + j)) (hW : ∀ i < o.m * o.rows r, mem.valid (W + i))
    (hT : ∀ ρ, a + ρ < o.blks r → o.sig r (a + ρ) = if o.D = 1 then (r0 : ℤ) else kpair r0 ρ)
    (hr : 0 < r0) (hrn : r0 + dr0 ≤ o.n) {Q : Unit → Mem → Prop}
    (hQ : ∀ m', Fills mem m' (o.RS (o.rows r)) (o.dS W) (o.TS (fun j => mem.val (f + j)) r) (fun _ => True) → Q () m') :
    (o.forwardInnerRest f (W + o.b * a) r0 dr0).Ok m Q := by
  have hfv : ∀ {m' D}, Fills mem m' (o.RS (o.rows r)) (o.dS W) (o.TS (fun j => mem.val (f + j)) r) D →
      (fun j : ℕ => m'.val (f + j)) = fun j => mem.val (f + j) := fun hm => funext fun j => hm.val_buf (dS_buf W) hb
  have hvW : ∀ {m' D}, Fills mem m' (o.RS (o.rows r)) (o.dS W) (o.TS (fun j => mem.val (f + j)) r) D → ∀ e nd, e + nd ≤ o.blks r →
      ∀ i < o.m * (o.P * nd), m'.valid (W + o.b * e + i) := by
    intro m' D hm e nd hle i hi
    rw [Ptr.add_add]
    refine hm.valid (hW _ ?_)
    have e1 : o.b * e + o.m * (o.P * nd) = o.m * (o.P * (e + nd)) := by rw [h.b1 hS]; ring
    have e2 : o.m * (o.P * (e + nd)) ≤ o.m * o.rows r := Nat.mul_le_mul_left _ (Nat.mul_le_mul_left _ hle)
    omega
  have hfin : ∀ {m' e}, Fills mem m' (o.RS (o.rows r)) (o.dS W) (o.TS (fun j => mem.val (f + j)) r) (fun k => k.1 < o.P * e) →
      e = o.blks r → Q () m' := fun hm he => hQ _ (hm.congr fun k hk => by rw [he]; exact iff_of_true hk.1 trivial)
  unfold forwardInnerRest
  by_cases hD : o.D = 1
  · simp only [hD, if_true] at hK hT ⊢
    by_cases hd : 0 < dr0
    · rw [Nat.min_eq_right hd] at hK
      rw [if_pos hd]
      refine forwardInnerOne_ok h hp hS (by exact hb) hr (by omega) (fun j hj => hfill.valid (hf j hj)) ?_ ?_
      · have := hvW hfill a 1 (by omega); simpa using this
      · intro m' f1
        refine hfin (place h hS (nd := 1) (r := r) hfill (hfv hfill) f1 ?_ ?_ (by omega)) (by omega)
        · intro d hd; obtain rfl : d = 0 := by omega
          rfl
        · intro d hd; obtain rfl : d = 0 := by omega
          rw [hT 0 (by omega)]
    · rw [if_neg hd]
      obtain rfl : dr0 = 0 := by omega
      exact Cmd.Ok.pure (hfin hfill (by rw [hK]; simp))
  · simp only [hD, if_false] at hK hT ⊢
    have hidx : ∀ d, W + o.b * a + 2 * o.b * d = W + o.b * (a + 2 * d) := fun d => by rw [Ptr.add_add]; congr 1; ring
    simp only [hidx]
    refine seqLoop_rng (fun d m' => Fills mem m' (o.RS (o.rows r)) (o.dS W) (o.TS (fun j => mem.val (f + j)) r) (fun k => k.1 < o.P * (a + 2 * d))) ?_ ?_ ?_
    · exact hfill
    · intro d m1 hd h1
      refine forwardInnerPair_ok h hp hS (by exact hb) (r := r0 + d) (by omega) (by omega) (fun j hj => h1.valid (hf j hj)) (hvW h1 _ 2 (by omega)) ?_
      intro m2 f2
      refine place h hS (a := a + 2 * d) (nd := 2) h1 (hfv h1) f2 ?_ ?_ (by omega)
      · intro e he; unfold Vb; rw [Ptr.add_add, ← Nat.mul_add]
      · intro e he
        have := hT (2 * d + e) (by omega)
        rw [← Nat.add_assoc] at this
        rw [this]
        unfold kpair sg2
        obtain rfl | rfl : e = 0 ∨ e = 1 := by omega
        · simp
        · rw [if_neg (by omega), if_neg (by omega), show (2 * d + 1) / 2 = d by omega]
    · intro m1 h1
      exact hfin h1 (by omega)

theorem forwardInner_ok (h : o.WF) (hp : 2 < o.p) (hq : o.q ≠ 1) (hS : o.S = 1) {F : Ptr} {r : ℕ}
    {W? : Option Ptr} (hW : W?.getD F = W) (pre : o.Pre mem f F W) (hv : o.Visit r) :
    (o.forwardInner f F r W?).Ok mem (fun _ m' => o.FwdPost mem m' f F W r) := by
  have hb := pre.fW
  have vf : ∀ j < o.L, mem.valid (f + j) := fun j hj => by
    have := pre.vf j hj 0 h.C_pos; rwa [hS, Nat.one_mul, Nat.add_zero] at this
  have vW : ∀ i < o.m * o.rows r, mem.valid (W + i) := fun i hi => by
    have := pre.vW i (lt_of_lt_of_le hi (Nat.mul_le_mul_left _ (h.rows_le r))) 0 h.C_pos
    rwa [hS, Nat.one_mul, Nat.add_zero] at this
  have hstart : Fills mem mem (o.RS (o.rows r)) (o.dS W) (o.TS (fun j => mem.val (f + j)) r) (fun k => k.1 < o.P * 0) :=
    (Fills.start dS_inj).congr fun k hk => by simp
  have hpart : ∀ nd, nd ≤ o.blks r → ∀ i < o.m * (o.P * nd), mem.valid (W + i) := fun nd hnd i hi =>
    vW i (lt_of_lt_of_le hi (Nat.mul_le_mul_left _ (Nat.mul_le_mul_left _ hnd)))
  unfold forwardInner
  simp only [hW]
  by_cases hr : r = 0
  · subst hr
    rw [if_pos rfl]
    by_cases hc : o.D = 1 ∨ 2 * (o.n / 2) < o.n
    · rw [if_pos hc]
      obtain ⟨b1, b2, b3, b4⟩ := h.block0_odd hc
      refine Cmd.Ok.bind (forwardInnerZero_ok h hp hS hb vf (by have := hpart 1 (by omega); simpa using this) ?_)
      intro m1 f1
      have h1 := place h hS (nd := 1) (r := 0) hstart rfl f1 (by intro d hd; obtain rfl : d = 0 := by omega
                                                                 simp [Ptr.add_zero])
        (by intro d hd; obtain rfl : d = 0 := by omega
            rw [Nat.zero_add, b2]) (by omega)
      rw [Nat.mul_comm 1 o.b]
      refine Cmd.Ok.bind (forwardInnerRest_ok h hp hS h1 b1 hb vf vW ?_ Nat.one_pos b3 ?_)
      · intro ρ hρ
        rw [b1] at hρ
        split_ifs at hρ ⊢ with hD
        · rw [h.D0_eq_one hD] at hρ; simp at hρ
        · exact b4 ρ hD
      intro m4 h4
      have := finish_rows h hq hS (r := 0) pre h4 (fun _ _ => trivial)
      simpa using this
    · rw [if_neg hc]
      obtain ⟨b1, b2, b3, b4, b5⟩ := h.block0_even hc
      have hD1 : o.D ≠ 1 := by omega
      refine Cmd.Ok.bind (forwardInnerHalf_ok h hp hS hb (by omega) vf (hpart 2 (by omega)) ?_)
      intro m1 f1
      have h1 := place h hS (nd := 2) (r := 0) hstart rfl f1 (by intro d hd; simp [Vb])
        (by intro d hd
            obtain rfl | rfl : d = 0 ∨ d = 1 := by omega
            · rw [Nat.zero_add, b2]; rfl
            · rw [Nat.zero_add, b3]; rfl) (by omega)
      rw [Nat.mul_comm 2 o.b]
      refine Cmd.Ok.bind (forwardInnerRest_ok h hp hS h1 (dr0 := (o.D0 - 2) / 2) (by rw [if_neg hD1]; exact b1) hb vf vW ?_ Nat.one_pos b4 ?_)
      · intro ρ hρ
        rw [if_neg hD1]
        exact b5 ρ
      intro m4 h4
      have := finish_rows h hq hS (r := 0) pre h4 (fun _ _ => trivial)
      simpa using this
  · rw [if_neg hr]
    obtain ⟨b1, b2, b3⟩ := h.block_pos hv (by omega)
    have := forwardInnerRest_ok (a := 0) h hp hS hstart (dr0 := o.dr) (r0 := r) (by rw [b1, Nat.zero_add]) hb vf vW
      (by intro ρ hρ; rw [Nat.zero_add]; exact b3 ρ (by omega)) (by omega) b2
      (Q := fun _ m' => Fills mem m' (o.RS (o.rows r)) (o.dS W) (o.TS (fun j => mem.val (f + j)) r) (fun _ => True)) (fun m' h1 => h1)
    rw [Nat.mul_zero, Ptr.add_zero] at this
    refine Cmd.Ok.bind (this.mono ?_)
    intro _ m' h1
    have := finish_rows h hq hS (r := r) pre h1 (fun _ _ => trivial)
    rwa [if_pos (Or.inl (by omega))] at this

end
end Cent
end Fftwpp
