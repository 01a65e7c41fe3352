import Verif.Model.Wrapper
import Verif.Props.OptClasses
import Verif.Props.Conv
import Verif.Props.Conv2D
import Verif.Props.HermConv3
import Verif.Proof.Direct6
import Verif.Props.Direct

/-!
# The plans of the wrappers: existence and fields
-/

namespace Fftwpp

theorem Fft.opt_ok (k : Clock) {L M C : ℕ} (app : App) (hL : 1 ≤ L) (hLM : L ≤ M) (hM : M ≤ 2 ^ 27) (hC : 1 ≤ C) :
    ∃ m D ip o, Fft.opt k L M app C = .ok o ∧ Fft.new L M app C C m D ip = .ok o ∧ o.S = C ∧ (C ≠ 1 → o.D = 1) := by
  obtain ⟨s, o, hs, ho⟩ := Opt.C19_constructor ⟨.pad, L, C, C, k.times, k.back⟩ ⟨0, 0, none⟩ M false rfl hL hLM hM hC le_rfl app
  simp only at ho
  obtain ⟨fL, fm, fC, fS, fp, -, -, -, fD, -, hL0, hm0⟩ := Fft.new_fields ho
  have hS : o.S = C := by rw [fS, if_neg (by omega)]
  refine ⟨s.m, s.D, s.inplace, o, ?_, ho, hS, fun h1 => ?_⟩
  · unfold Fft.opt
    rw [hs]
    exact ho
  · rw [fD]
    split_ifs with hq
    · rfl
    have hex := (C05_constructor_exit (app := app) (inplace := s.inplace) (M := M) (C := C) (S := C) (m := s.m) (D := s.D) hL0 hm0 (by omega)).not.mp (by
      rw [ho]; simp)
    rw [← fp] at hex
    simp only at hex
    push Not at hex
    have hqp : 1 < o.q := by
      have := (C05_parameters (centered := false) hL0 hLM hm0 fp.symm).2.1
      rcases Nat.eq_zero_or_pos o.q with h0 | h0
      · rw [h0] at this; simp at this; omega
      · omega
    have hv := hex.2.2 hqp
    simp only [ne_eq, Bool.not_eq_false] at hv
    unfold fftPadValid at hv
    rw [if_neg hq] at hv
    rcases of_decide_eq_true hv with h | ⟨h, _⟩
    · exact h
    · omega

theorem Tr.opt_ok (k : Clock) {L M C : ℕ} (app : App) (hL : 1 ≤ L) (hLM : L ≤ M) (hM : M ≤ 2 ^ 27) (hC : 1 ≤ C) :
    ∃ m D ip t, Tr.optCentered k L M app C = .ok t ∧ Tr.new true L M app C C m D ip = .ok t ∧ t.fft.S = C ∧ (C ≠ 1 → t.fft.D = 1) := by
  obtain ⟨s, o, hs, ho⟩ := Opt.C19_constructor_centered ⟨.centered, L, C, C, k.times, k.back⟩ ⟨0, 0, none⟩ M false rfl hL hLM hM hC le_rfl app
  simp only at ho
  obtain ⟨fL, fm, fC, fS, fp, -, -, -, fD, -, hL0, hm0⟩ := Cent.new_fields ho
  have hS : o.S = C := by rw [fS, if_neg (by omega)]
  have ht : Tr.new true L M app C C s.m s.D s.inplace = .ok (.cen o) := by
    unfold Tr.new
    rw [if_pos rfl, ho]
    rfl
  refine ⟨s.m, s.D, s.inplace, .cen o, ?_, ht, hS, fun h1 => ?_⟩
  · unfold Tr.optCentered
    rw [hs]
    exact ht
  · show o.D = 1
    rw [fD]
    split_ifs with hq
    · rfl
    have hqp : 1 < o.q := by
      have := (C05_parameters (centered := true) hL0 hLM hm0 fp.symm).2.1
      rcases Nat.eq_zero_or_pos o.q with h0 | h0
      · rw [h0] at this; simp at this; omega
      · omega
    have hv : fftPadCenteredValid o.p o.q o.n s.D C = true := by
      by_contra hv
      unfold Cent.new at ho
      rw [if_neg (show C ≠ 0 by omega), if_neg (by omega), if_neg (by omega), if_neg (by omega), ← fp] at ho
      simp only at ho
      rw [if_pos ⟨hqp, by simpa using hv⟩] at ho
      simp at ho
    unfold fftPadCenteredValid at hv
    have hv := (of_decide_eq_true hv).2
    unfold fftPadValid at hv
    rw [if_neg hq] at hv
    rcases of_decide_eq_true hv with h | ⟨h, _⟩
    · exact h
    · omega

theorem Herm.opt_ok (k : Clock) {L M : ℕ} (app : App) (align : ℕ) (J : Junk) (hL : 1 ≤ L) (hLM : L ≤ M) (hM : M ≤ 2 ^ 27) :
    ∃ m D ip o, Herm.opt k L M app align J = .ok o ∧ Herm.new L M app 1 m D ip align J = .ok o ∧ 0 < D := by
  obtain ⟨s, o, hs, ho, hD⟩ := Opt.C19_constructor_hermitian ⟨.hermitian, L, 1, 1, k.times, k.back⟩ ⟨0, 0, none⟩ M false rfl hL hLM hM rfl app align J
  refine ⟨s.m, s.D, s.inplace, o, ?_, ho, hD⟩
  unfold Herm.opt
  rw [hs]
  exact ho

end Fftwpp
