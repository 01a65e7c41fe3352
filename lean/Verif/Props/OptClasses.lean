import Verif.Props.Opt
import Verif.Model.Centered
import Verif.Model.Herm

/-! # C19 for the centered and Hermitian classes -/

namespace Fftwpp.Opt

/-- The optimizer's choice for the class `fftPadCentered` is accepted by its constructor: no exit and no undefined behaviour. -/
theorem C19_constructor_centered (c : Cfg) (app : OApp) (M : ℕ) (Explicit : Bool) (hk : c.kind = .centered) (hL : 1 ≤ c.L) (hLM : c.L ≤ M)
    (hM : M ≤ 2 ^ 27) (hC : 1 ≤ c.C) (hS : c.C ≤ c.S) (ap : App) :
    ∃ s o, scan c app M Explicit = some s ∧ Cent.new c.L M ap c.C c.S s.m s.D s.inplace = .ok o := by
  obtain ⟨s, h, hm, hD, hv, -⟩ := C19_scan c app M Explicit hL hLM hM hS
  rw [hk] at hv
  simp only [Kind.valid, Kind.isCentered] at hv
  have hv' : fftPadCenteredValid (parameters c.L M s.m true).1 (parameters c.L M s.m true).2.2 (parameters c.L M s.m true).2.1 s.D c.S = true := by
    unfold fftPadCenteredValid
    rw [Bool.and_eq_true] at hv
    exact decide_eq_true ⟨of_decide_eq_true hv.1, hv.2⟩
  clear hv
  refine ⟨s, ?_⟩
  have hreach := (C05_parameters (centered := true) hL hLM hm (p := (parameters c.L M s.m true).1) (n := (parameters c.L M s.m true).2.1)
    (q := (parameters c.L M s.m true).2.2) rfl).2.1
  unfold Cent.new
  simp only [if_neg (show c.S ≠ 0 by omega)]
  rw [if_neg (by omega), if_neg (by omega), if_neg (by omega)]
  generalize parameters c.L M s.m true = x at hreach hv' ⊢
  obtain ⟨p, n, q⟩ := x
  simp only at hreach hv' ⊢
  rw [if_neg (by rw [hv']; simp), if_neg (by rw [Nat.mul_comm]; omega)]
  split_ifs with h1 h2
  · exact ⟨_, h, rfl⟩
  · omega
  · exact ⟨_, h, rfl⟩

/-- The optimizer's choice for the class `fftPadHermitian` (whose constructor passes `S=C`, convolve.h:714-717) is accepted by its constructor: no
exit and no undefined behaviour. -/
theorem C19_constructor_hermitian (c : Cfg) (app : OApp) (M : ℕ) (Explicit : Bool) (hk : c.kind = .hermitian) (hL : 1 ≤ c.L) (hLM : c.L ≤ M)
    (hM : M ≤ 2 ^ 27) (hS : c.S = c.C) (ap : App) (al : ℕ) (J : Junk) :
    ∃ s o, scan c app M Explicit = some s ∧ Herm.new c.L M ap c.C s.m s.D s.inplace al J = .ok o ∧ 1 ≤ s.D := by
  obtain ⟨s, h, hm, hD, hv, -⟩ := C19_scan c app M Explicit hL hLM hM hS.ge
  rw [hk, hS] at hv
  simp only [Kind.valid, Kind.isCentered] at hv
  have hv' : fftPadHermitianValid (parameters c.L M s.m true).1 (parameters c.L M s.m true).2.2 s.D c.C = true := by
    unfold fftPadHermitianValid
    exact decide_eq_true (of_decide_eq_true hv)
  clear hv
  refine ⟨s, ?_⟩
  have hreach := (C05_parameters (centered := true) hL hLM hm (p := (parameters c.L M s.m true).1) (n := (parameters c.L M s.m true).2.1)
    (q := (parameters c.L M s.m true).2.2) rfl).2.1
  unfold Herm.new
  rw [if_neg (by omega), if_neg (by omega)]
  generalize parameters c.L M s.m true = x at hreach hv' ⊢
  obtain ⟨p, n, q⟩ := x
  simp only at hreach hv' ⊢
  rw [if_neg (by rw [hv']; simp), if_neg (by rw [Nat.mul_comm]; omega)]
  split_ifs
  · exact ⟨_, h, rfl, hD⟩
  · exact ⟨_, h, rfl, hD⟩

/-- The hypotheses are met: three copies of length 7 padded to 12, with a forced `m`. -/
example : ∃ (c : Cfg) (app : OApp), c.kind = .hermitian ∧ 1 ≤ c.L ∧ c.L ≤ 12 ∧ 12 ≤ 2 ^ 27 ∧ c.S = c.C ∧ c.C = 3 ∧ app.m = 4 :=
  ⟨⟨.hermitian, 7, 3, 3, fun _ => 0, 0⟩, ⟨4, 0, none⟩, rfl, by decide, by decide, by norm_num, rfl, rfl, rfl⟩

/-- The same for the centered class. -/
example : ∃ (c : Cfg) (app : OApp), c.kind = .centered ∧ 1 ≤ c.L ∧ c.L ≤ 12 ∧ 12 ≤ 2 ^ 27 ∧ 1 ≤ c.C ∧ c.C ≤ c.S ∧ c.S = 5 ∧ app.D = 2 :=
  ⟨⟨.centered, 7, 3, 5, fun _ => 0, 0⟩, ⟨4, 2, none⟩, rfl, by decide, by decide, by norm_num, by decide, by decide, rfl, rfl⟩

end Fftwpp.Opt
