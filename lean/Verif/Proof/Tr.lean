import Verif.Model.Tr
import Verif.Props.Conv2D
import Verif.Props.Centered

/-! What the drivers need of a transform of either complex class. -/

namespace Fftwpp
open Finset

namespace Cent
variable {o : Cent}

/-- The padded length is at least the requested one. -/
theorem new_size {L M : ℕ} {app : App} {C S0 m D : ℕ} {inplace : Bool} (h : Cent.new L M app C S0 m D inplace = .ok o) : M ≤ m * o.q := by
  unfold Cent.new at h
  generalize hpar : parameters L M m true = x at h
  obtain ⟨p, n, q⟩ := x
  simp only at h
  generalize (if S0 = 0 then C else S0) = S at h
  split_ifs at h with h1 h2 h3 h4 h5 h6 h7
  · simp only [Except.ok.injEq] at h
    subst h
    show M ≤ m * q
    rw [mul_comm]; omega
  · simp only [Except.ok.injEq] at h
    subst h
    show M ≤ m * q
    rw [mul_comm]; omega

theorem WF.starts_eq (h : o.WF) : ∃ t, o.n = o.D0 + t * o.D ∧ o.starts = 0 :: (List.range t).map fun k => o.increment 0 + k * o.dr := by
  obtain ⟨t, h1, h2, h3⟩ := h.shw.starts_eq
  obtain ⟨_, _, _, f4, f5, f6, f7, f8, f9⟩ := h.sh_fields
  rw [f4, f6, f5] at h1
  rw [h.sh_starts, h.sh_inc, f8] at h3
  exact ⟨t, h1, h3⟩

theorem WF.flat (h : o.WF) (hC : o.C = 1) (hS : o.S = 1) : o.base.Flat o.toFft.K := by
  refine ⟨hC, hS, fun _ => rfl, ?_, ?_, fun r => rfl, fun r => rfl, ?_, ?_, ?_⟩
  · show 0 < o.l
    rw [h.l_eq]
    exact Nat.mul_pos h.m_pos h.P_pos
  · show o.b = o.l
    rw [h.b_eq, hS, one_mul]
  · intro r
    show o.S * o.noutputs r = o.l * o.toFft.K r
    rw [hS, one_mul]; rfl
  · intro r
    unfold Fft.K
    split_ifs
    · exact h.D0_pos
    · exact h.D_pos
  · intro hq
    have hq' : o.q = 1 := hq
    have hn : o.n = 1 := by
      have := h.q_eq
      rw [hq'] at this
      exact Nat.eq_one_of_mul_eq_one_left this.symm
    obtain ⟨t, h1, h3⟩ := h.starts_eq
    have hD0 := h.D0_pos
    have hD := h.D_pos
    have ht : t = 0 := by
      rcases Nat.eq_zero_or_pos t with h | h
      · exact h
      · have : 1 * 1 ≤ t * o.D := Nat.mul_le_mul h hD
        omega
    subst ht
    refine ⟨h3, ?_⟩
    unfold Fft.K
    rw [if_pos rfl]
    omega

/-- The two-pass schedule runs over the residues `0` and `increment(0)`. -/
theorem WF.residues2 (h : o.WF) (hn : o.nloops = 2) : o.base.residues = [0, o.base.incr0] := by
  obtain ⟨t, _, h3⟩ := h.starts_eq
  have hlen : o.starts.length = 2 := hn
  rw [h3] at hlen
  simp at hlen
  subst hlen
  show o.starts = [0, o.increment 0]
  rw [h3]; simp

theorem loop2_iff (o : Cent) : o.base.loop2 = true ↔ o.nloops = 2 ∧ o.B < o.A ∧ o.overwrite = false := by
  show o.toFft.loop2 = true ↔ _
  unfold Fft.loop2
  simp

theorem WF.sched (h : o.WF) (hdvd : o.q ≠ 1 → o.overwrite = false → o.nloops = 2 → o.B < o.A → (o.A - o.B) ∣ o.B)
    (hBA : o.B ≤ o.A ∨ o.D = 1) : Conv.Sched o.base o.H o.toFft.K := by
  refine ⟨fun how => ⟨_, Ow.spec ⟨h, how⟩⟩, ?_, ?_⟩
  · intro hq hl
    have hl' := (loop2_iff o).1 hl
    exact ⟨hl'.2.1, hdvd hq hl'.2.2 hl'.1 hl'.2.1, h.residues2 hl'.1⟩
  · rcases hBA with h1 | h1
    · exact Or.inl h1
    · refine Or.inr fun r _ => ?_
      unfold Fft.K
      split_ifs
      · exact h.D0_eq_one h1
      · exact h1

theorem WF.outerSched (h : o.WF) (hBA : o.B ≤ o.A)
    (hl : o.overwrite = false → o.nloops = 2 → o.B < o.A → o.A = o.B + 1) : Outer.Sched o.base o.H := by
  refine ⟨fun how => ⟨_, Ow.spec ⟨h, how⟩⟩, hBA, ?_⟩
  intro hl2
  have hl' := (loop2_iff o).1 hl2
  exact ⟨hl hl'.2.2 hl'.1 hl'.2.1, h.residues2 hl'.1⟩

theorem WF.bs (h : o.WF) (hD : o.D = 1) (r : ℕ) : o.base.noutputs r = o.base.blocksize r := by
  show o.l * o.toFft.K r = o.l
  unfold Fft.K
  rw [h.D0_eq_one hD, hD]
  simp

end Cent

namespace Tr

/-- When `pad(W)` need not be called again. -/
def Padded : Tr → Mem → Ptr → Prop
  | .pad o => o.Padded
  | .cen _ => fun _ _ => True

theorem ws {t : Tr} : t.base.wordSize = 2 := by cases t <;> rfl

/-- What follows from construction. -/
structure Facts (t : Tr) (centered : Bool) (L M : ℕ) (app : App) (C m : ℕ) : Prop where
  bL : t.base.L = L
  bC : t.base.C = C
  bS : t.base.S = t.fft.S
  bN : t.base.N = m * t.fft.q
  bq : t.base.q = t.fft.q
  bn : t.base.n = t.fft.n
  bA : t.base.A = app.A
  bB : t.base.B = app.B
  bow : t.base.overwrite = t.fft.overwrite
  bcol : ∀ c, t.base.col c = c
  bindex : t.base.index = t.fft.index
  size : M ≤ m * t.fft.q
  LM : L ≤ M
  L_pos : 0 < L
  m_pos : 0 < m
  q_pos : 0 < t.fft.q
  spec : t.base.Spec ((if centered then L / 2 else 0 : ℕ) : ℤ) t.Padded
  flat : C = 1 → t.fft.S = 1 → t.base.Flat t.fft.K
  sched : (t.fft.q ≠ 1 → t.fft.overwrite = false → t.fft.nloops = 2 → app.B < app.A → (app.A - app.B) ∣ app.B) →
    (app.B ≤ app.A ∨ t.fft.D = 1) → Conv.Sched t.base ((if centered then L / 2 else 0 : ℕ) : ℤ) t.fft.K
  outer : app.B ≤ app.A → (t.fft.overwrite = false → t.fft.nloops = 2 → app.B < app.A → app.A = app.B + 1) →
    Outer.Sched t.base ((if centered then L / 2 else 0 : ℕ) : ℤ)
  bs : t.fft.D = 1 → ∀ r, t.base.noutputs r = t.base.blocksize r
  CS : C ≤ t.fft.S

theorem facts {centered : Bool} {L M : ℕ} {app : App} {C S0 m D : ℕ} {inplace : Bool} {t : Tr} (hC : 0 < C)
    (hnew : Tr.new centered L M app C S0 m D inplace = .ok t) : t.Facts centered L M app C m := by
  unfold Tr.new at hnew
  cases centered with
  | false =>
    simp only [Bool.false_eq_true, if_false] at hnew ⊢
    cases hn : Fft.new L M app C S0 m D inplace with
    | error e => rw [hn] at hnew; simp [Except.map] at hnew
    | ok o =>
      rw [hn] at hnew
      simp only [Except.map, Except.ok.injEq] at hnew
      subst hnew
      have h := Fft.WF.of_new hC hn
      obtain ⟨hL, hm, hCC, _, _, _, hA, hB, _, g1, g2, g3⟩ := Fft.new_fields hn
      have hs : M ≤ m * o.q := Fft.C10_size hn
      refine ⟨hL, hCC, rfl, by show o.M = m * o.q; rw [h.M_eq, hm], rfl, rfl, hA, hB, rfl, fun _ => rfl, rfl, hs, g1, ?_, ?_, h.q_pos,
        h.base_spec, fun h1 h2 => h.flat (hCC.trans h1) h2, ?_, ?_, h.bs, by show C ≤ o.S; rw [← hCC]; exact h.C_le_S⟩
      · omega
      · omega
      · intro h1 h2
        exact h.sched (by rw [hA, hB]; exact h1) (by rw [hA, hB]; exact h2)
      · intro h1 h2
        exact h.outerSched (by rw [hA, hB]; exact h1) (by rw [hA, hB]; exact h2)
  | true =>
    simp only [if_true] at hnew ⊢
    cases hn : Cent.new L M app C S0 m D inplace with
    | error e => rw [hn] at hnew; simp [Except.map] at hnew
    | ok o =>
      rw [hn] at hnew
      simp only [Except.map, Except.ok.injEq] at hnew
      subst hnew
      have h := Cent.WF.of_new hC hn
      obtain ⟨hL, hm, hCC, _, _, _, hA, hB, _, g1, g2, g3⟩ := Cent.new_fields hn
      have hs : M ≤ m * o.q := Cent.new_size hn
      have hH : o.H = L / 2 := by unfold Cent.H; rw [hL]
      refine ⟨hL, hCC, rfl, by show o.M = m * o.q; rw [h.M_eq, hm], rfl, rfl, hA, hB, rfl, fun _ => rfl, rfl, hs, g1, g2, g3, h.q_pos,
        by rw [← hH]; exact h.base_spec, fun h1 h2 => h.flat (hCC.trans h1) h2, ?_, ?_, h.bs, by show C ≤ o.S; rw [← hCC]; exact h.C_le_S⟩
      · intro h1 h2
        rw [← hH]
        exact h.sched (by rw [hA, hB]; exact h1) (by rw [hA, hB]; exact h2)
      · intro h1 h2
        rw [← hH]
        exact h.outerSched (by rw [hA, hB]; exact h1) (by rw [hA, hB]; exact h2)

end Tr
end Fftwpp
