import Verif.Proof.RIdx

/-! Calls of `forward`, `backward` and `pad` of a transform of real data. -/

namespace Fftwpp
open Finset
namespace Re
variable {o : Re} {f F : Ptr} {W? : Option Ptr} {mem m' : Mem} {r : ℕ}

theorem Args.size (a : o.Args mem f F W?) (hs : m'.size = mem.size) : o.Args m' f F W? := by
  have hb : ∀ p n, mem.block p n → m'.block p n := fun p n hp i hi => Mem.valid_of_size hs (hp i hi)
  refine ⟨a.fF, hb _ _ a.bf, hb _ _ a.bF, ?_, fun V hV => ?_⟩
  · have hW := a.bW
    split_ifs at hW ⊢
    · exact hW
    · obtain ⟨W, h1, h2, h3, h4⟩ := hW
      exact ⟨W, h1, h2, h3, hb _ _ h4⟩
  · obtain ⟨h1, h2, h3⟩ := a.bV V hV
    exact ⟨h1, h2, hb _ _ h3⟩

theorem Args.vf (w' : o.WF) (a : o.Args mem f F W?) : o.ValidF mem f := by
  intro j hj c hc
  rw [Mem.split_valid, RPlan.wordOf_add]
  refine a.bf _ ?_
  have := w'.C_le_S
  have := radix_lt (by omega : c < o.S) hj
  omega

/-- The work array of a call. -/
theorem Args.work (a : o.Args mem f F W?) (r : ℕ) : f.buf ≠ (o.workMany F r W?).buf ∧ mem.block (o.workMany F r W?) o.outputSize ∧
    ((o.inplace = true ∧ (r ≠ 0 ∨ o.V = none) ∧ o.workMany F r W? = F) ∨ (o.inplace = true ∧ r = 0 ∧ o.V ≠ none ∧ (o.workMany F r W?).buf ≠ F.buf) ∨
      (o.inplace = false ∧ W? ≠ none ∧ (o.workMany F r W?).buf ≠ F.buf)) := by
  have hW := a.bW
  unfold workMany
  by_cases hi : o.inplace = true
  · rw [if_pos hi] at hW
    subst hW
    by_cases h0 : r = 0
    · rw [if_pos h0]
      cases hV : o.V with
      | none => exact ⟨a.fF, a.bF, Or.inl ⟨hi, Or.inr rfl, rfl⟩⟩
      | some V =>
        obtain ⟨h1, h2, h3⟩ := a.bV V hV
        exact ⟨h2.symm, h3, Or.inr (Or.inl ⟨hi, h0, by simp, h1⟩)⟩
    · rw [if_neg h0]; exact ⟨a.fF, a.bF, Or.inl ⟨hi, Or.inl h0, rfl⟩⟩
  · rw [if_neg hi] at hW
    obtain ⟨W, rfl, h1, h2, h3⟩ := hW
    unfold workSizeW at h3
    rw [if_neg hi] at h3
    exact ⟨h2.symm, h3, Or.inr (Or.inr ⟨by simpa using hi, by simp, h1⟩)⟩

theorem tch_touch {p : Ptr} (h : o.Tch F (o.workMany F r W?) p) : o.TouchFW F W? p := by
  rcases h with ⟨i, hi, rfl⟩ | ⟨i, hi, rfl⟩
  · exact ⟨i, hi, Or.inl rfl⟩
  · unfold workMany
    cases W? with
    | some W => exact ⟨i, hi, Or.inr (Or.inl ⟨W, rfl, rfl⟩)⟩
    | none =>
      by_cases h0 : r = 0
      · cases hV : o.V with
        | none => exact ⟨i, hi, Or.inl (by simp)⟩
        | some V => exact ⟨i, hi, Or.inr (Or.inr ⟨V, hV, by simp [h0]⟩)⟩
      · exact ⟨i, hi, Or.inl (by simp [h0])⟩

theorem touch_buf (a : o.Args mem f F W?) {p : Ptr} (hp : o.TouchFW F W? p) : p.buf ≠ f.buf := by
  obtain ⟨i, _, rfl | ⟨W, h1, rfl⟩ | ⟨V, h1, rfl⟩⟩ := hp
  · exact fun h => a.fF (by simpa using h.symm)
  · have hW := a.bW
    split_ifs at hW
    · rw [hW] at h1; simp at h1
    · obtain ⟨W', h5, _, h6, _⟩ := hW
      rw [h1] at h5
      simp only [Option.some.injEq] at h5
      subst h5
      simpa using h6
  · simpa using (a.bV V h1).2.1

theorem Padded.work (h : o.Padded mem (W?.getD F)) (hW : o.inplace = false → W? ≠ none) : o.Padded mem (o.workMany F r W?) := by
  intro hi
  have := hW hi
  cases W? with
  | none => exact absurd rfl this
  | some W => exact h hi

theorem Padded.unwork (h : o.Padded mem (o.workMany F r W?)) (hW : o.inplace = false → W? ≠ none) : o.Padded mem (W?.getD F) := by
  intro hi
  have := hW hi
  cases W? with
  | none => exact absurd rfl this
  | some W => exact h hi

theorem Args.W_some (a : o.Args mem f F W?) (hi : o.inplace = false) : W? ≠ none := by
  have hW := a.bW
  rw [if_neg (by simp [hi])] at hW
  obtain ⟨W, rfl, _⟩ := hW
  simp

theorem WF.V_none (w' : o.WF) (hp : o.p ≤ 2) : o.V = none := by
  have := w'.V_eq
  rw [decide_eq_false (by omega)] at this
  simpa using this

theorem Args.pre (w' : o.WF) (hV : o.V = none) (a : o.Args mem f F W?) (r : ℕ) : o.Pre mem f F (o.workMany F r W?) ∧ W?.getD F = o.workMany F r W? := by
  obtain ⟨h1, h2, h3⟩ := a.work r
  refine ⟨⟨a.fF, h1, ?_, a.vf w', a.bF, h2⟩, ?_⟩
  · rcases h3 with ⟨hi, _, h4⟩ | ⟨_, _, h4, _⟩ | ⟨hi, _, h4⟩
    · exact Or.inl ⟨hi, h4⟩
    · exact absurd hV h4
    · exact Or.inr ⟨hi, h4⟩
  · unfold workMany; rw [hV]; simp

theorem forward_le2 (w' : o.WF) (hp : o.p ≤ 2) (a : o.Args mem f F W?) (hpad : o.Padded mem (W?.getD F)) (hv : o.Visit r) :
    (o.forward f F r W?).Ok mem (fun _ m' => o.FPost mem m' f F (o.workMany F r W?) r) := by
  obtain ⟨pre, hW⟩ := a.pre w' (w'.V_none hp) r
  have hpad' := hpad.work (r := r) a.W_some
  unfold forward
  rw [w'.route_eq]
  by_cases hq : o.q = 1
  · have h0 : r = 0 := by
      have := (w'.q_one_n hq).1
      rcases hv with h | h | h <;> omega
    subst h0
    have key := fwdExplicit_ok w' hq pre (Q := fun _ m' => o.FPost mem m' f F (o.workMany F 0 W?) 0) (fun m' h => h.idx w' hp hv) W? hW
    simp only [if_pos hq]
    by_cases hS : o.S = 1
    · simp only [if_pos hS] at key ⊢; exact key
    · simp only [if_neg hS] at key ⊢; exact key
  · have key := fwd_ok w' hp hq pre hpad' hv (Q := fun _ m' => o.FPost mem m' f F (o.workMany F r W?) r) (fun m' h => h.idx w' hp hv) W? hW
    simp only [if_neg hq]
    have hp0 := w'.p_pos
    by_cases hp1 : o.p = 1
    · by_cases hS : o.S = 1
      · simp only [if_pos hS, if_pos hp1] at key ⊢; exact key
      · simp only [if_neg hS, if_pos hp1] at key ⊢; exact key
    · have hp2 : o.p = 2 := by omega
      by_cases hS : o.S = 1
      · simp only [if_pos hS, if_neg hp1, if_pos hp2] at key ⊢; exact key
      · simp only [if_neg hS, if_neg hp1, if_pos hp2] at key ⊢; exact key

theorem backward_le2 (w' : o.WF) (hp : o.p ≤ 2) (a : o.Args mem f F W?) (hv : o.Visit r) :
    (o.backward F f r W?).Ok mem (fun _ m' => o.BwPost mem m' f F (o.workMany F r W?) r) := by
  obtain ⟨pre, hW⟩ := a.pre w' (w'.V_none hp) r
  unfold backward
  rw [w'.route_eq]
  by_cases hq : o.q = 1
  · have h0 : r = 0 := by
      have := (w'.q_one_n hq).1
      rcases hv with h | h | h <;> omega
    subst h0
    have key := bwdExplicit_ok w' hq pre (Q := fun _ m' => o.BwPost mem m' f F (o.workMany F 0 W?) 0) (fun m' h => h.idx w' hp hv) W? hW
    simp only [if_pos hq]
    by_cases hS : o.S = 1
    · simp only [if_pos hS] at key ⊢; exact key
    · simp only [if_neg hS] at key ⊢; exact key
  · have key := bwd_ok w' hp hq pre hv (Q := fun _ m' => o.BwPost mem m' f F (o.workMany F r W?) r) (fun m' h => h.idx w' hp hv) W? hW
    simp only [if_neg hq]
    have hp0 := w'.p_pos
    by_cases hp1 : o.p = 1
    · by_cases hS : o.S = 1
      · simp only [if_pos hS, if_pos hp1] at key ⊢; exact key
      · simp only [if_neg hS, if_pos hp1] at key ⊢; exact key
    · have hp2 : o.p = 2 := by omega
      by_cases hS : o.S = 1
      · simp only [if_pos hS, if_neg hp1, if_pos hp2] at key ⊢; exact key
      · simp only [if_neg hS, if_neg hp1, if_pos hp2] at key ⊢; exact key

/-- `pad(W)` as called through the API. -/
theorem pad_ok (w' : o.WF) (a : o.Args mem f F W?) :
    (o.padW W?).Ok mem (fun _ m' => mem.Upd m' (o.TouchFW F W?) ∧ o.Padded m' (W?.getD F)) := by
  have hW := a.bW
  by_cases hi : o.inplace = true
  · rw [if_pos hi] at hW
    subst hW
    refine ⟨(), mem, rfl, Mem.Upd.refl _ _, ?_⟩
    intro hi'; rw [hi] at hi'; simp at hi'
  · rw [if_neg hi] at hW
    obtain ⟨W, rfl, h1, h2, h3⟩ := hW
    unfold workSizeW at h3
    rw [if_neg hi] at h3
    refine (padW_ok w' h3).mono ?_
    rintro _ m' ⟨u, hp⟩
    exact ⟨u.mono (fun p ⟨i, hi, e⟩ => ⟨i, hi, Or.inr (Or.inl ⟨W, rfl, e⟩)⟩), hp⟩

end Re
end Fftwpp
