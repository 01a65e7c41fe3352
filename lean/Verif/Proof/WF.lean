import Verif.Model.Params
import Mathlib.Tactic.Ring
import Mathlib.Tactic.Linarith

/-! Facts established by the constructor `Fft.new`. -/

namespace Fftwpp

theorem ceilquotient_le {a b : ℕ} (hb : 0 < b) : a ≤ b * ceilquotient a b := by
  unfold ceilquotient
  have := Nat.div_add_mod (a + b - 1) b
  have := Nat.mod_lt (a + b - 1) hb
  omega

theorem ceilquotient_lt {a b : ℕ} (hb : 0 < b) (ha : 0 < a) : b * (ceilquotient a b - 1) < a := by
  unfold ceilquotient
  have h1 := Nat.div_add_mod (a + b - 1) b
  have h2 : 0 < (a + b - 1) / b := Nat.div_pos (by omega) hb
  obtain ⟨k, hk⟩ : ∃ k, (a + b - 1) / b = k + 1 := ⟨_, (Nat.succ_pred_eq_of_pos h2).symm⟩
  rw [hk] at h1 ⊢
  have h3 : b * (k + 1) = b * k + b := by ring
  simp only [Nat.add_sub_cancel]
  omega

theorem ceilquotient_pos {a b : ℕ} (hb : 0 < b) (ha : 0 < a) : 0 < ceilquotient a b :=
  Nat.div_pos (by omega) hb

/-- The number of size-`m` rows per residue (effective `p`). -/
def Fft.P (o : Fft) : ℕ := if o.p = 2 then 1 else o.p

/-- Invariants of a constructed noncentered transform object. -/
structure Fft.WF (o : Fft) : Prop where
  m_pos : 0 < o.m
  L_pos : 0 < o.L
  C_pos : 0 < o.C
  C_le_S : o.C ≤ o.S
  M_eq : o.M = o.m * o.q
  L_le_M : o.L ≤ o.M
  p_ub : o.L ≤ o.m * o.p
  p_lb : o.m * (o.p - 1) < o.L
  p_pos : 0 < o.p
  q_eq : o.q = o.P * o.n
  n_pos : 0 < o.n
  D_pos : 0 < o.D
  l_eq : o.l = o.m * o.P
  b_eq : o.b = o.S * o.l
  Sm_eq : o.Sm = o.S * o.m
  Cm_eq : o.Cm = o.C * o.m
  cent : o.centered = false
  D_valid : o.D = 1 ∨ (o.S = 1 ∧ ((o.D < o.n ∧ o.D % 2 = 0) ∨ o.D = o.n))
  D0_eq : o.D0 = if o.n % o.D = 0 then o.D else o.n % o.D
  dr_eq : o.dr = Dr o.p o.D false
  R_eq : o.R = residueBlocks o.p o.n o.D false
  route_eq : o.route = chooseRoute o.q o.p o.S o.overwrite
  ow : o.overwrite = true → o.q ≠ 1 ∧ o.inplace = true ∧ o.L = o.p * o.m ∧ o.n = o.p + 1 ∧ o.D = 1 ∧ o.B ≤ o.A ∧ o.p ≤ 2
  pad_eq : o.pad = if o.q ≠ 1 ∧ o.p = 1 ∧ o.inplace = false ∧ o.L < o.m then (if o.S = 1 then .single else .many) else .none
  fftm_1 : o.q = 1 → o.S = 1 → o.fftm = ⟨o.m, 1, 1, 1, 0, o.inplace⟩ ∧ o.ifftm = ⟨o.m, -1, 1, 1, 0, o.inplace⟩
  fftm_S1 : o.q ≠ 1 → o.S = 1 →
    o.fftm = ⟨o.m, 1, o.D * o.P, 1, o.m, o.inplace⟩ ∧ o.ifftm = ⟨o.m, -1, o.D * o.P, 1, o.m, o.inplace⟩
  fftm_many : o.S ≠ 1 → o.fftm = ⟨o.m, 1, o.C, o.S, 1, o.inplace⟩ ∧ o.ifftm = ⟨o.m, -1, o.C, o.S, 1, o.inplace⟩
  fftm0_eq : o.q ≠ 1 → o.D0 ≠ o.D →
    o.fftm0 = ⟨o.m, 1, o.D0 * o.P, 1, o.m, o.inplace⟩ ∧ o.ifftm0 = ⟨o.m, -1, o.D0 * o.P, 1, o.m, o.inplace⟩
  fftp_C : 2 < o.p → o.S = o.C →
    o.fftp = ⟨o.p, 1, o.C * o.m, o.C * o.m, 1, true⟩ ∧ o.ifftp = ⟨o.p, -1, o.C * o.m, o.C * o.m, 1, true⟩
  fftp_S : 2 < o.p → o.S ≠ o.C →
    o.fftp = ⟨o.p, 1, o.C, o.S * o.m, 1, true⟩ ∧ o.ifftp = ⟨o.p, -1, o.C, o.S * o.m, 1, true⟩
  Zqm : o.q ≠ 1 → o.Zetaqm = initZetaqm o.M o.q o.m
  ZqmS : o.p = 2 → o.ZetaqmS = initZetaqmS o.M o.q o.m o.L
  Zqp : 2 < o.p → o.Zetaqp = initZetaqp o.q o.n o.p

theorem Fft.WF.of_new {L M : ℕ} {app : App} {C S0 m D : ℕ} {inplace : Bool} {o : Fft} (hC : 0 < C)
    (h : Fft.new L M app C S0 m D inplace = .ok o) : o.WF := by
  unfold Fft.new at h
  simp only [parameters, Bool.false_eq_true, false_and, false_or] at h
  generalize hS : (if S0 = 0 then C else S0) = S at h
  have hcp : m ≠ 0 → L ≠ 0 → L ≤ m * ceilquotient L m ∧ m * (ceilquotient L m - 1) < L ∧ 0 < ceilquotient L m :=
    fun h1 h2 => ⟨ceilquotient_le (by omega), ceilquotient_lt (by omega) (by omega),
      ceilquotient_pos (by omega) (by omega)⟩
  generalize hp : ceilquotient L m = p at h hcp
  generalize hP : (if p = 2 then p / 2 else p) = P at h
  have hP' : P = if p = 2 then 1 else p := by
    rw [← hP]; split_ifs with h2
    · subst h2; rfl
    · rfl
  generalize hn : ceilquotient M (P * m) = n at h
  split_ifs at h with h1 h2 h3 h4 h5 h6 h7
  · -- q = 1
    push Not at h3
    obtain ⟨g1, g2, g3⟩ := hcp h3.1 h3.2
    have hPn : P = 1 ∧ n = 1 := by simpa using h6
    have hp1 : p = 1 := by
      by_contra hne
      have hp2 : p = 2 := by
        by_contra h2'
        rw [if_neg h2'] at hP'
        omega
      subst hp2
      have := ceilquotient_le (a := M) (b := P * m) (Nat.mul_pos (by omega) (by omega))
      rw [hn, hPn.1, hPn.2] at this
      simp only [Nat.add_one_sub_one, Nat.mul_one, Nat.one_mul] at g2 this
      omega
    subst hp1
    obtain ⟨rfl, rfl⟩ := hPn
    simp only [Except.ok.injEq] at h
    subst h
    unfold Fft.newExplicit
    have hM : M ≤ m * 1 := by
      rw [Nat.mul_comm]; simpa using Nat.le_of_not_lt h5
    refine ⟨by simp; omega, by simp; omega, hC, by simp; omega, by simp, by simp; omega, by simpa using g1, by simpa using g2,
      by simp, by simp [Fft.P], by simp, by simp, by simp [Fft.P], by simp, by simp, by simp, rfl, by simp,
      by simp, by simp [Dr, conjugates], by simp [residueBlocks, conjugates], by simp, by simp, by simp, ?_, ?_, ?_, ?_, ?_, ?_,
      ?_, ?_, ?_⟩ <;> simp +contextual
  · push Not at h3
    obtain ⟨g1, g2, g3⟩ := hcp h3.1 h3.2
    simp only [Except.ok.injEq] at h
    subst h
    unfold Fft.newHybrid
    have hPpos : 0 < P := by rw [hP']; split_ifs <;> omega
    have hnpos : 0 < n := by
      rw [← hn]; exact ceilquotient_pos (Nat.mul_pos hPpos (by omega)) (by omega)
    have hqpos : 0 < P * n := Nat.mul_pos hPpos hnpos
    have hval : fftPadValid (P * n) n D S = true := by
      by_contra hv
      apply h4
      exact ⟨by omega, by simpa using hv⟩
    have hval' : D = 1 ∨ (S = 1 ∧ ((D < n ∧ D % 2 = 0) ∨ D = n)) := by
      unfold fftPadValid at hval
      rw [if_neg h6] at hval
      simpa using hval
    have hM : M ≤ m * (P * n) := by rw [Nat.mul_comm]; omega
    have hS1C : S = 1 → C = 1 := by omega
    have e2 : (if p = 2 then 1 else p) = P := hP'.symm
    refine ⟨by simp; omega, by simp; omega, hC, by simp; omega, by simp, by simp; omega, by simpa using g1, by simpa using g2,
      by simpa using g3, by simp [Fft.P, e2], by simpa using hnpos, by simp; omega, by simp [Fft.P], by simp, by simp,
      by simp, rfl, by simpa using hval', by simp, by simp, by simp, by simp, ?_, ?_, ?_, ?_, ?_, ?_,
      ?_, ?_, ?_, ?_, ?_⟩
    · simp only
      intro how
      split_ifs at how with hp2
      simp only [decide_eq_true_eq] at how
      exact ⟨h6, how.1, how.2.1, how.2.2.1, how.2.2.2.1, how.2.2.2.2.1, by omega⟩
    · simp [h6]
    · intro hq; exact absurd hq h6
    · intro _ hS1
      simp only at hS1 ⊢
      simp [hS1, hS1C hS1, Fft.P]
    · intro hS1; simp only at hS1 ⊢; rw [if_neg hS1, if_neg hS1]; simp
    · intro _ hD; simp only at hD ⊢; rw [if_pos hD, if_pos hD]; simp [Fft.P]
    · intro hp2 hSC
      simp only at hSC hp2 ⊢
      rw [if_pos hp2, if_pos hp2, if_pos hSC, if_pos hSC, if_neg (by omega)]
      simp
    · intro hp2 hSC
      simp only at hSC hp2 ⊢
      rw [if_pos hp2, if_pos hp2, if_neg hSC, if_neg hSC, if_neg (by omega)]
      simp
    · intro _; rfl
    · intro hp2; simp only at hp2 ⊢; rw [if_pos hp2]
    · intro hp2; simp only at hp2 ⊢; rw [if_pos hp2, if_neg (by omega)]

/-- The constructor accepts a concrete case (L=5, M=9, m=4, D=1). -/
example : ∃ o, Fft.new 5 9 ⟨2, 1, true⟩ 1 1 4 1 false = .ok o ∧ o.p = 2 ∧ o.q = 3 := by
  refine ⟨_, rfl, ?_, ?_⟩ <;> rfl

end Fftwpp
