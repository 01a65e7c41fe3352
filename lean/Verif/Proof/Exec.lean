import Verif.Proof.Tables

/-! Execution of the batched FFT plans in terms of rows and columns. -/

namespace Fftwpp
open Finset

/-- `p` is the input or output array of a plan: either the same pointer (in-place) or different buffers. -/
def SepPtr (inplace : Bool) (W F : Ptr) : Prop :=
  (inplace = true ∧ W = F) ∨ (inplace = false ∧ W.buf ≠ F.buf)

theorem SepPtr.dec {inplace : Bool} {W F : Ptr} (h : SepPtr inplace W F) : inplace = decide (W = F) := by
  rcases h with ⟨h1, h2⟩ | ⟨h1, h2⟩
  · rw [h1]; simp [h2]
  · rw [h1]; symm; simpa using Ptr.ne_of_buf h2

/-- `K` contiguous rows of length `n`. -/
theorem exec_rows {n K : ℕ} {sgn : ℤ} {inplace : Bool} {W F : Ptr} {m : Mem} (hs : SepPtr inplace W F)
    (hW : ∀ i < n * K, m.valid (W + i)) (hF : ∀ i < n * K, m.valid (F + i)) {Q : Unit → Mem → Prop}
    (hQ : ∀ m', m.Upd m' (fun p => ∃ k < K, ∃ i < n, p = F + (n * k + i)) →
      (∀ k < K, ∀ i < n, m'.val (F + (n * k + i)) = ∑ s ∈ range n, m.val (W + (n * k + s)) * w n (sgn * s * i)) →
      Q () m') :
    ((Plan.mk n sgn K 1 n inplace).exec W F).Ok m Q := by
  have hadr : ∀ (p : Ptr) (c j : ℕ), Plan.addr ⟨n, sgn, K, 1, n, inplace⟩ p c j = p + (n * c + j) := by
    intro p c j; simp only [Plan.addr]; congr 1; ring
  refine (Plan.exec_ok hs.dec ⟨?_, ?_, ?_⟩).mono ?_
  · intro c hc j hj
    simp only at hc hj
    rw [hadr, hadr]
    exact ⟨hW _ (radix_lt hj hc), hF _ (radix_lt hj hc)⟩
  · intro c hc j hj c' hc' j' hj' he
    simp only at hc hj hc' hj'
    rw [hadr, hadr, Ptr.add_inj] at he
    exact radix_inj hj hj' he
  · rcases hs with ⟨_, h2⟩ | ⟨_, h2⟩
    · exact Or.inl h2
    · right
      intro c _ j _ c' _ j' _
      exact Ptr.ne_of_buf (by simpa [Plan.addr] using h2)
  · rintro _ m' ⟨h1, h2, h3⟩
    refine hQ m' ⟨h1, ?_⟩ ?_
    · intro p hp
      apply h3
      intro c hc j hj he
      rw [hadr] at he
      exact hp ⟨c, hc, j, hj, he⟩
    · intro k hk i hi
      have := h2 k hk i hi
      simp only [hadr] at this
      exact this

/-- `C` columns of length `n` with stride `S`. -/
theorem exec_cols {n C S : ℕ} {sgn : ℤ} {inplace : Bool} {W F : Ptr} {m : Mem} (hCS : C ≤ S) (hs : SepPtr inplace W F)
    (hW : ∀ i < n, ∀ c < C, m.valid (W + (S * i + c))) (hF : ∀ i < n, ∀ c < C, m.valid (F + (S * i + c)))
    {Q : Unit → Mem → Prop}
    (hQ : ∀ m', m.Upd m' (fun p => ∃ i < n, ∃ c < C, p = F + (S * i + c)) →
      (∀ i < n, ∀ c < C, m'.val (F + (S * i + c)) = ∑ s ∈ range n, m.val (W + (S * s + c)) * w n (sgn * s * i)) →
      Q () m') :
    ((Plan.mk n sgn C S 1 inplace).exec W F).Ok m Q := by
  have hadr : ∀ (p : Ptr) (c j : ℕ), Plan.addr ⟨n, sgn, C, S, 1, inplace⟩ p c j = p + (S * j + c) := by
    intro p c j; simp only [Plan.addr]; congr 1; ring
  refine (Plan.exec_ok hs.dec ⟨?_, ?_, ?_⟩).mono ?_
  · intro c hc j hj
    simp only at hc hj
    rw [hadr, hadr]
    exact ⟨hW _ hj _ hc, hF _ hj _ hc⟩
  · intro c hc j hj c' hc' j' hj' he
    simp only at hc hj hc' hj'
    rw [hadr, hadr, Ptr.add_inj] at he
    exact (radix_inj (by omega) (by omega) he).symm
  · rcases hs with ⟨_, h2⟩ | ⟨_, h2⟩
    · exact Or.inl h2
    · right
      intro c _ j _ c' _ j' _
      exact Ptr.ne_of_buf (by simpa [Plan.addr] using h2)
  · rintro _ m' ⟨h1, h2, h3⟩
    refine hQ m' ⟨h1, ?_⟩ ?_
    · intro p hp
      apply h3
      intro c hc j hj he
      rw [hadr] at he
      exact hp ⟨j, hj, c, hc, he⟩
    · intro i hi c hc
      have := h2 c hc i hi
      simp only [hadr] at this
      exact this

end Fftwpp
