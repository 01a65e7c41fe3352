import Verif.Proof.Grid
import Verif.Model.MpiFft3
import Verif.Props.Gather

/-!
# The communicators of an `MPIgroup`
-/

namespace Fftwpp.Net

theorem find_range {n a : ℕ} {p : ℕ → Bool} (ha : a < n) (h : ∀ s < n, p s = true ↔ s = a) : (List.range n).find? p = some a := by
  rw [List.find?_eq_some_iff_append]
  refine ⟨(h a ha).2 rfl, List.range a, List.range' (a + 1) (n - a - 1), ?_, ?_⟩
  · rw [List.range_eq_range', List.range_eq_range', show n = a + (1 + (n - a - 1)) by omega, ← List.range'_append_1, ← List.range'_append_1]
    simp
  · intro s hs
    have hs' := List.mem_range.1 hs
    have := (h s (by omega)).not
    simp only [show s ≠ a by omega, not_false_eq_true, iff_true] at this
    simpa using this

/-- The processes of an `MPIgroup` form a `Px × Py` grid; `size`, `rank` and members of the two communicators. -/
theorem mpiGroup {X Y N : ℕ} {pencil : Bool} (hX : 0 < X) (hY : 0 < Y) (hN : 0 < N) : ∃ Px Py, 0 < Px ∧ 0 < Py ∧
    Mpi.groupSize2 X Y N pencil = Px * Py ∧ (Py = 1 ∨ ∀ r < Px * Py, part X Px (r / Py) = 1 ∧ part Y Py (r % Py) < Y) ∧
    ∀ r < Px * Py, (∀ X' Y' Z', groupSplit3 X' Y' Z' X Y N pencil r = mkSplit3 X' Y' Z' (r / Py) Px (r % Py) Py) ∧
      Mpi.splitSize (Px * Py) (· % Mpi.groupMajor X Y N pencil) r = Px ∧
      Mpi.splitSize (Px * Py) (· / Mpi.groupMajor X Y N pencil) r = Py ∧
      Mpi.splitRank (Px * Py) (· % Mpi.groupMajor X Y N pencil) (· / Mpi.groupMajor X Y N pencil) r = r / Py ∧
      Mpi.splitRank (Px * Py) (· / Mpi.groupMajor X Y N pencil) (· % Mpi.groupMajor X Y N pencil) r = r % Py ∧
      commProc (Px * Py) (· % Mpi.groupMajor X Y N pencil) (· / Mpi.groupMajor X Y N pencil) r = colComm Px Py (r % Py) ∧
      commProc (Px * Py) (· / Mpi.groupMajor X Y N pencil) (· % Mpi.groupMajor X Y N pencil) r = rowComm Px Py (r / Py) := by
  obtain ⟨h1, _, Px, Py, hsz, hmaj, hpen, h⟩ := Mpi.C39_group2 (pencil := pencil) hX hY hN
  have hpos : 0 < Px * Py := by omega
  have hPx : 0 < Px := Nat.pos_of_mul_pos_right hpos
  have hPy : 0 < Py := Nat.pos_of_mul_pos_left hpos
  rw [hsz, hmaj] at h
  simp only at h
  have hq : ∀ r < Px * Py, Mpi.splitRank (Px * Py) (· % Py) (· / Py) r = r / Py := by
    intro r hr
    obtain ⟨_, _, _, d, f, _⟩ := h r hr
    conv_rhs => rw [f, grid_div d]
  have hp : ∀ r < Px * Py, Mpi.splitRank (Px * Py) (· / Py) (· % Py) r = r % Py := by
    intro r hr
    obtain ⟨_, _, _, d, f, _⟩ := h r hr
    conv_rhs => rw [f, grid_mod d]
  refine ⟨Px, Py, hPx, hPy, hsz, ?_, ?_⟩
  · rcases hpen with h2 | h2
    · exact Or.inl h2
    · by_cases h3 : Py = 1
      · exact Or.inl h3
      refine Or.inr fun r hr => ?_
      have hr' : r / Py < X := by rw [← h2]; exact (Nat.div_lt_iff_lt_mul hPy).2 hr
      have hcq : ceilquotient X X = 1 := by
        have := (Mpi.cq_spec (a := X) hX).2 1 (by omega)
        have := Mpi.cq_pos hX hX
        omega
      refine ⟨?_, ?_⟩
      · rw [h2]
        unfold part Mpi.localdimension
        simp only [hcq]
        generalize r / Py = q at *
        have e1 : ¬ ((X : ℤ) - ((1 : ℕ) : ℤ) * (q : ℤ) < 0) := by omega
        rw [if_neg e1, if_neg (by omega)]
        rfl
      · obtain ⟨_, e2, _, d, _, _, hpos2⟩ := h r hr
        obtain ⟨y1, y2, _, _⟩ := ld_has Y Py hPy
        -- some other process has a nonempty block
        by_contra hcon
        let p' := if r % Py = 0 then 1 else 0
        have hp' : p' < Py := by simp only [p']; split_ifs <;> omega
        have hne : p' ≠ r % Py := by simp only [p']; split_ifs <;> omega
        obtain ⟨_, e2', _, _, _, _, hpos'⟩ := h p' (by
          have : Py * 1 ≤ Py * Px := Nat.mul_le_mul_left _ hPx
          rw [Nat.mul_comm Px]; omega)
        rw [hp p' (by
          have : Py * 1 ≤ Py * Px := Nat.mul_le_mul_left _ hPx
          rw [Nat.mul_comm Px]; omega), Nat.mod_eq_of_lt hp', e2'] at hpos'
        -- the block of `r % Py` is everything
        have hle : part Y Py (r % Py) ≤ ceilquotient Y Py := by
          unfold part Mpi.localdimension
          simp only
          split_ifs <;> omega
        have hcl : ceilquotient Y Py < Y ∨ Y = 1 := by
          by_cases hY1 : Y = 1
          · exact Or.inr hY1
          · refine Or.inl ?_
            have := (Mpi.cq_spec (a := Y) hPy).2 (Y - 1) (by
              have : 2 * (Y - 1) ≤ Py * (Y - 1) := Nat.mul_le_mul_right _ (by omega)
              omega)
            omega
        rcases hcl with hcl | hcl
        · omega
        · subst hcl
          have h5 := y1 p' hp' (first 1 Py p') le_rfl (by
            have : 0 < part 1 Py p' := by unfold part; omega
            unfold part at this; unfold first; omega)
          have h6 := y1 (r % Py) (Nat.mod_lt _ hPy) (first 1 Py (r % Py)) le_rfl (by
            rw [hp r hr, e2] at hpos2
            unfold first; omega)
          have hone : ceilquotient 1 Py = 1 := by
            have := (Mpi.cq_spec (a := 1) hPy).2 1 (by omega)
            have := Mpi.cq_pos (a := 1) (by omega) hPy
            omega
          have f1 : ∀ p, first 1 Py p = p := by
            intro p
            unfold first Mpi.localdimension
            simp [hone]
          rw [f1] at h5 h6
          omega
  · intro r hr
    obtain ⟨a, b, _, _, _, _⟩ := h r hr
    have hmod : r % Py < Py := Nat.mod_lt _ hPy
    have hdiv : r / Py < Px := (Nat.div_lt_iff_lt_mul hPy).2 hr
    rw [hmaj]
    refine ⟨fun X' Y' Z' => ?_, a, b, hq r hr, hp r hr, funext fun i => ?_, funext fun i => ?_⟩
    · unfold groupSplit3
      simp only [hsz, hmaj]
      rw [hq r hr, hp r hr, a, b]
    · unfold commProc colComm rankOf
      by_cases hi : i < Px
      · rw [if_pos hi, find_range (a := i * Py + r % Py) (grid_lt hi hmod)]
        · rfl
        · intro s hs
          rw [decide_eq_true_iff, hq s hs]
          constructor
          · rintro ⟨h2, h3⟩
            beta_reduce at h2
            rw [← grid_eq Py s, h2, h3]
          · rintro rfl
            exact ⟨grid_mod hmod, grid_div hmod⟩
      · rw [if_neg hi, List.find?_eq_none.2]
        · rfl
        · intro s hs
          have hs' := List.mem_range.1 hs
          rw [decide_eq_true_iff, hq s hs']
          rintro ⟨_, h3⟩
          exact hi (h3 ▸ (Nat.div_lt_iff_lt_mul hPy).2 hs')
    · unfold commProc rowComm rankOf
      by_cases hi : i < Py
      · rw [if_pos hi, find_range (a := r / Py * Py + i) (grid_lt hdiv hi)]
        · rfl
        · intro s hs
          rw [decide_eq_true_iff, hp s hs]
          constructor
          · rintro ⟨h2, h3⟩
            beta_reduce at h2
            rw [← grid_eq Py s, h2, h3]
          · rintro rfl
            exact ⟨grid_div hi, grid_mod hi⟩
      · rw [if_neg hi, List.find?_eq_none.2]
        · rfl
        · intro s hs
          have hs' := List.mem_range.1 hs
          rw [decide_eq_true_iff, hp s hs']
          rintro ⟨_, h3⟩
          exact hi (h3 ▸ Nat.mod_lt _ hPy)

end Fftwpp.Net
