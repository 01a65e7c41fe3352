import Verif.Proof.CFInner

/-! Variants of the zone lemmas: the geometry is supplied, and the fourth loop has the body of the third. -/

namespace Fftwpp
namespace Wr
variable {τ : Type} {R : ℕ × τ → Prop} {dst : ℕ × τ → Ptr} {T : ℕ × τ → ℂ} {m' : Mem} {k : τ} {b : Body Unit} {X Y Z : Ptr}

theorem mk1p {a : ℕ} (hR : ∀ d, R (d, k) ↔ d = a) (hX : dst (a, k) = X) (hg : b.Good m') (hw : b.wrs m' = [(X, T (a, k))])
    (hrd : ∀ p ∈ b.rds m', (∀ x, R x → p ≠ dst x) ∨ p = X) : Wr R dst T m' k b := by
  subst hX; exact mk1 hR hg hw hrd

theorem mk2p (hR : ∀ d, R (d, k) ↔ d = 0 ∨ d = 1) (hX : dst (0, k) = X) (hY : dst (1, k) = Y) (hg : b.Good m')
    (hw : b.wrs m' = [(X, T (0, k)), (Y, T (1, k))])
    (hrd : ∀ p ∈ b.rds m', (∀ x, R x → p ≠ dst x) ∨ p = X ∨ p = Y) : Wr R dst T m' k b := by
  subst hX hY; exact mk2 hR hg hw hrd

theorem mk3p (hR : ∀ d, R (d, k) ↔ d = 0 ∨ d = 1 ∨ d = 2) (hX : dst (0, k) = X) (hY : dst (1, k) = Y) (hZ : dst (2, k) = Z)
    (hg : b.Good m')
    (hw : b.wrs m' = [(X, T (0, k)), (Y, T (1, k)), (Z, T (2, k))])
    (hrd : ∀ p ∈ b.rds m', (∀ x, R x → p ≠ dst x) ∨ p = X ∨ p = Y ∨ p = Z) : Wr R dst T m' k b := by
  subst hX hY hZ; exact mk3 hR hg hw hrd
end Wr

namespace Cent
open Finset ComplexConjugate
open Fft (kpair seqLoop_rng)
variable {o : Cent}

section zones
variable {mem : Mem} {R : ℕ × ℕ × ℕ × ℕ → Prop} {dst : ℕ × ℕ × ℕ × ℕ → Ptr} {T : ℕ × ℕ × ℕ × ℕ → ℂ} {Q : Unit → Mem → Prop}

/-- The five loops of the single-stride routines. -/
theorem zonesS2 (h : o.WF) (hp : 2 < o.p) (hinj : ∀ k k', R k → R k' → dst k = dst k' → k = k')
    (hR : ∀ d t s c, R (d, t, s, c) → t < o.P ∧ s < o.m ∧ c = 0)
    {b1 b2 b4 b5 : ℕ → Body Unit} {b3 : ℕ × ℕ → Body Unit} {rest : Cmd Unit}
    (h1 : ∀ s < o.m0, s < o.m → o.H + s < o.L → ∀ m', Same mem m' R dst (0, s, 0) → Wr R dst T m' (0, s, 0) (b1 s))
    (h2 : ∀ s, o.m0 ≤ s → s < o.m → o.H + s < o.L → ∀ m', Same mem m' R dst (0, s, 0) → Wr R dst T m' (0, s, 0) (b2 s))
    (h3 : ∀ t s, 0 < t → t < o.P → s < o.m → o.m0 ≤ o.m * t + s → o.H + (o.m * t + s) < o.L → ∀ m', Same mem m' R dst (t, s, 0) →
      Wr R dst T m' (t, s, 0) (b3 (t, s)))
    (e4 : b4 = fun s => b3 (o.P - 1, s))
    (h5 : ∀ s, 0 < o.P - 1 → o.P - 1 < o.P → s < o.m → o.m0 ≤ o.m * (o.P - 1) + s → o.L ≤ o.H + (o.m * (o.P - 1) + s) →
      o.m * (o.P - 1) + s - o.m0 < o.L → ∀ m', Same mem m' R dst (o.P - 1, s, 0) → Wr R dst T m' (o.P - 1, s, 0) (b5 s))
    (hQ : ∀ m', Fills mem m' R dst T (fun _ => True) → rest.Ok m' Q) :
    Cmd.Ok (do par (rng 0 o.m0) b1; par (rng o.m0 o.m) b2; par (rng2 1 (o.P - 1) 0 o.m) b3; par (rng 0 o.m1) b4;
               par (rng o.m1 o.m) b5; rest) mem Q := by
  obtain ⟨g1, g2, g3, g4, g5, g6, g7, g8, g9, g10⟩ := h.geoI hp
  have hm1 : ∀ {t}, 0 < t → o.m * 1 ≤ o.m * t := fun ht => Nat.mul_le_mul_left _ ht
  have e1 := hm1 (t := o.P - 1) (by omega)
  refine zonesS h hp hinj hR (fun s hs => h1 s hs (by omega) (by omega)) (fun s hs hs' => h2 s hs hs' (by omega)) ?_ ?_ ?_ hQ
  · intro t s ht ht' hs
    have hmt : o.m * (t + 1) ≤ o.m * (o.P - 1) := Nat.mul_le_mul_left _ ht'
    rw [Nat.mul_succ] at hmt
    have := hm1 ht
    exact h3 t s ht (by omega) hs (by omega) (by omega)
  · intro s hs
    rw [e4]
    exact h3 (o.P - 1) s (by omega) (by omega) (by omega) (by omega) (by omega)
  · intro s hs hs'
    exact h5 s (by omega) (by omega) hs' (by omega) (by omega) (by omega)

/-- The five loops of the routines for many copies. -/
theorem zonesM2 (h : o.WF) (hp : 2 < o.p) (hinj : ∀ k k', R k → R k' → dst k = dst k' → k = k')
    (hR : ∀ d t s c, R (d, t, s, c) → t < o.P ∧ s < o.m ∧ c < o.C)
    {b1 b2 b4 b5 : ℕ × ℕ → Body Unit} {b3 : ℕ × ℕ × ℕ → Body Unit} {rest : Cmd Unit}
    (h1 : ∀ s c, s < o.m0 → s < o.m → o.H + s < o.L → c < o.C → ∀ m', Same mem m' R dst (0, s, c) → Wr R dst T m' (0, s, c) (b1 (s, c)))
    (h2 : ∀ s c, o.m0 ≤ s → s < o.m → o.H + s < o.L → c < o.C → ∀ m', Same mem m' R dst (0, s, c) → Wr R dst T m' (0, s, c) (b2 (s, c)))
    (h3 : ∀ t s c, 0 < t → t < o.P → s < o.m → o.m0 ≤ o.m * t + s → o.H + (o.m * t + s) < o.L → c < o.C →
      ∀ m', Same mem m' R dst (t, s, c) → Wr R dst T m' (t, s, c) (b3 (t, s, c)))
    (h4 : ∀ s c, 0 < o.P - 1 → o.P - 1 < o.P → s < o.m → o.m0 ≤ o.m * (o.P - 1) + s → o.H + (o.m * (o.P - 1) + s) < o.L → c < o.C →
      ∀ m', Same mem m' R dst (o.P - 1, s, c) → Wr R dst T m' (o.P - 1, s, c) (b3 (o.P - 1, s, c)) → Wr R dst T m' (o.P - 1, s, c) (b4 (s, c)))
    (h5 : ∀ s c, 0 < o.P - 1 → o.P - 1 < o.P → s < o.m → o.m0 ≤ o.m * (o.P - 1) + s → o.L ≤ o.H + (o.m * (o.P - 1) + s) →
      o.m * (o.P - 1) + s - o.m0 < o.L → c < o.C → ∀ m', Same mem m' R dst (o.P - 1, s, c) → Wr R dst T m' (o.P - 1, s, c) (b5 (s, c)))
    (hQ : ∀ m', Fills mem m' R dst T (fun _ => True) → rest.Ok m' Q) :
    Cmd.Ok (do par (rng2 0 o.m0 0 o.C) b1; par (rng2 o.m0 o.m 0 o.C) b2; par (rng3 1 (o.P - 1) 0 o.m 0 o.C) b3;
               par (rng2 0 o.m1 0 o.C) b4; par (rng2 o.m1 o.m 0 o.C) b5; rest) mem Q := by
  obtain ⟨g1, g2, g3, g4, g5, g6, g7, g8, g9, g10⟩ := h.geoI hp
  have hm1 : ∀ {t}, 0 < t → o.m * 1 ≤ o.m * t := fun ht => Nat.mul_le_mul_left _ ht
  have e1 := hm1 (t := o.P - 1) (by omega)
  refine zonesM h hp hinj hR (fun s c hs hc => h1 s c hs (by omega) (by omega) hc) (fun s c hs hs' hc => h2 s c hs hs' (by omega) hc)
    ?_ ?_ ?_ hQ
  · intro t s c ht ht' hs hc
    have hmt : o.m * (t + 1) ≤ o.m * (o.P - 1) := Nat.mul_le_mul_left _ ht'
    rw [Nat.mul_succ] at hmt
    have := hm1 ht
    exact h3 t s c ht (by omega) hs (by omega) (by omega) hc
  · intro s c hs hc m' sm
    exact h4 s c (by omega) (by omega) (by omega) (by omega) (by omega) hc m' sm
      (h3 (o.P - 1) s c (by omega) (by omega) (by omega) (by omega) (by omega) hc m' sm)
  · intro s c hs hs' hc
    exact h5 s c (by omega) (by omega) hs' (by omega) (by omega) (by omega) hc

end zones

/-- `gfill` with the tests in the order of the zone lemmas. -/
theorem GT1 {x : ℕ → ℕ → ℂ} {σ : ℕ → ℤ} (d c : ℕ) {s : ℕ} (h1 : s < o.m0) (h2 : o.H + s < o.L) :
    o.GT x σ (d, 0, s, c) = x c (o.H + s) := by
  unfold GT; simp only
  exact gf1 _ _ h1 (by omega)
theorem GT2 {x : ℕ → ℕ → ℂ} {σ : ℕ → ℤ} (d c : ℕ) {s : ℕ} (h1 : o.m0 ≤ s) (h2 : o.H + s < o.L) :
    o.GT x σ (d, 0, s, c) = x c (s - o.m0) * w o.q (-(o.P * σ d)) + x c (o.H + s) := by
  unfold GT; simp only
  exact gf2 _ _ h1 (by omega)
theorem GT3 {x : ℕ → ℕ → ℂ} {σ : ℕ → ℤ} (d c : ℕ) {t s : ℕ} (h1 : o.m0 ≤ o.m * t + s) (h2 : o.H + (o.m * t + s) < o.L) :
    o.GT x σ (d, t, s, c) = x c (o.m * t + s - o.m0) * w o.q ((t - o.P) * σ d) + x c (o.H + (o.m * t + s)) * w o.q (t * σ d) := by
  unfold GT; simp only
  rw [gf3 _ _ (by change o.m0 ≤ _; omega) (by omega), Nat.add_assoc]; rfl
theorem GT5 {x : ℕ → ℕ → ℂ} {σ : ℕ → ℤ} (d c : ℕ) {t s : ℕ} (h1 : o.m0 ≤ o.m * t + s) (h2 : o.L ≤ o.H + (o.m * t + s)) :
    o.GT x σ (d, t, s, c) = x c (o.m * t + s - o.m0) * w o.q ((t - o.P) * σ d) := by
  unfold GT; simp only
  rw [gf5 _ _ (by change o.m0 ≤ _; omega) (by omega)]; rfl

/-- Residues of a pair of blocks. -/
def sg2 (a b : ℤ) (d : ℕ) : ℤ := if d = 0 then a else b
@[simp] theorem sg2_0 (a b : ℤ) : sg2 a b 0 = a := rfl
@[simp] theorem sg2_1 (a b : ℤ) : sg2 a b 1 = b := rfl

theorem WF.half_q (h : o.WF) (hn : o.n = 2 * (o.n / 2)) (t : ℤ) :
    w o.q ((t - o.P) * (o.n / 2 : ℕ)) = - w o.q (t * (o.n / 2 : ℕ)) := by
  have e := half_turn (N := o.q) (m := o.P) (q := o.n) h.q_eq h.P_pos h.n_pos hn
  have : w o.q ((t - o.P) * (o.n / 2 : ℕ)) * w o.q (o.P * (o.n / 2 : ℕ)) = w o.q (t * (o.n / 2 : ℕ)) := by
    rw [← w_add]; congr 1; ring
  rw [e] at this
  rw [← this]; ring

theorem WF.half_q0 (h : o.WF) (hn : o.n = 2 * (o.n / 2)) :
    w o.q (-(o.P * (o.n / 2 : ℕ))) = -1 := by
  have := h.half_q hn 0
  rw [zero_sub, neg_mul] at this
  rw [this]; simp

/-- Reduction of table products. -/
theorem wP_conj (q P : ℕ) (r : ℕ) : conj (w q (P * r)) = w q (-(P * (r : ℤ))) := w_conj _ _
theorem wtP (q P t : ℕ) (r : ℕ) : w q (t * r) * conj (w q (P * r)) = w q ((t - P) * (r : ℤ)) := by
  rw [w_conj, ← w_add]; congr 1; ring

end Cent
end Fftwpp
