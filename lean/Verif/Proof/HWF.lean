import Verif.Proof.RPlan
import Verif.Proof.HMath
import Verif.Proof.CInner

/-! Facts established by the constructor `Herm.new`, and the interface of the calls of the Hermitian transforms. -/

namespace Fftwpp
namespace Herm
open Finset ComplexConjugate

/-- The number of size-`m` rows per residue. -/
def P (o : Herm) : ℕ := if o.q = 1 then 1 else o.p / 2
/-- Length of the data. -/
def H (o : Herm) : ℕ := ceilquotient o.L 2

/-- Invariants of a constructed Hermitian transform object. -/
structure WF (o : Herm) : Prop where
  m_pos : 0 < o.m
  L_pos : 0 < o.L
  C_pos : 0 < o.C
  M_eq : o.M = o.m * o.q
  L_le_M : o.L ≤ o.M
  q_eq : o.q = o.P * o.n
  n_pos : 0 < o.n
  P_pos : 0 < o.P
  e_eq : o.e = o.m / 2 + 1
  Cm_eq : o.Cm = o.C * o.m
  p_ub : o.L ≤ o.m * o.p
  p_lb : o.m * (o.p - 1) < o.L
  cases : (o.q = 1 ∧ o.p = 1 ∧ o.n = 1) ∨ (o.q ≠ 1 ∧ o.D = 2 ∧ o.p = 2 * o.P ∧ 2 ≤ o.n ∧ (o.P = 1 ∨ o.C = 1))
  D0_eq : o.D0 = if o.q = 1 then 1 else if o.n % 2 = 0 then 2 else 1
  dr_eq : o.dr = 1
  R_eq : o.R = if o.q = 1 then 1 else (o.n + 1) / 2
  geoc : o.crfftm.Geo o.m o.P o.C
  geor : o.rcfftm.Geo o.m o.P o.C
  inc : o.crfftm.inplace = o.inplace
  inr : o.rcfftm.inplace = o.inplace
  Bw_le : o.C * ((o.m / 2 + 1) * o.P) ≤ o.Bw
  b_le : (o.C * (o.m * o.P) + 1) / 2 ≤ o.b
  b_Bw : o.inplace = true → o.b = o.Bw
  route_eq : o.route = if o.q = 1 then (if o.C = 1 then .explicit else .explicitMany) else
    if 2 < o.p then .inner else if o.C = 1 then .two else .twoMany
  fftp_eq : 2 < o.p → o.fftp = ⟨o.P, 1, o.C * o.e, o.C * o.e, 1, true⟩ ∧ o.ifftp = ⟨o.P, -1, o.C * o.e, o.C * o.e, 1, true⟩
  Zqm : o.q ≠ 1 → o.Zetaqm = initZetaqm o.M (if o.p = 2 then o.q / 2 + 1 else o.q) o.m
  Zqp : 2 < o.p → o.Zetaqp = initZetaqp o.q o.n (o.P + 1)
  cen : o.centered = true
  S_eq : o.S = o.C
  ow : o.overwrite = false
  pad_eq : o.pad = .none

theorem align_le {al n : ℕ} (h : 0 < al) : n ≤ align al n := by
  unfold align
  have h1 := ceilquotient_le (a := n * 16) (b := al) h
  rw [Nat.le_div_iff_mul_le (by omega), Nat.mul_comm (ceilquotient _ _)]
  exact h1

theorem WF.of_new {L M : ℕ} {app : App} {C m D : ℕ} {inplace : Bool} {al : ℕ} {J : Junk} {o : Herm} (hC : 0 < C) (hal : 0 < al)
    (h : Herm.new L M app C m D inplace al J = .ok o) : o.WF := by
  unfold Herm.new at h
  simp only [parameters, true_and] at h
  have hcp : m ≠ 0 → L ≠ 0 → L ≤ m * ceilquotient L m ∧ m * (ceilquotient L m - 1) < L ∧ 0 < ceilquotient L m :=
    fun h1 h2 => ⟨ceilquotient_le (by omega), ceilquotient_lt (by omega) (by omega),
      ceilquotient_pos (by omega) (by omega)⟩
  generalize hp : ceilquotient L m = p at h hcp
  generalize hP : (if p = 2 * (p / 2) ∨ p = 2 then p / 2 else p) = P at h
  generalize hn : ceilquotient M (P * m) = n at h
  split_ifs at h with h1 h3 h4 h5 h6
  · -- q = 1
    push Not at h3
    obtain ⟨g1, g2, g3⟩ := hcp h3.1 h3.2
    have hPn : P = 1 ∧ n = 1 := by simpa using h6
    have hp1 : p = 1 := by
      by_contra hne
      have hp2 : p = 2 := by
        split_ifs at hP with h8 <;> omega
      subst hp2
      have := ceilquotient_le (a := M) (b := P * m) (Nat.mul_pos (by omega) (by omega))
      rw [hn, hPn.1, hPn.2] at this
      simp only [Nat.add_one_sub_one, Nat.mul_one, Nat.one_mul] at g2 this
      omega
    subst hp1
    obtain ⟨rfl, rfl⟩ := hPn
    simp only [Except.ok.injEq] at h
    subst h
    have hM : M ≤ m * 1 := by
      rw [Nat.mul_comm]; simpa using Nat.le_of_not_lt h5
    have hgeo : ∀ j, (if C = 1 then (⟨m, 1, 1, 1, 1, 1, inplace, j⟩ : RPlan) else ⟨m, C, C, 1, C, 1, inplace, j⟩).Geo m 1 C := by
      intro j
      by_cases hC1 : C = 1
      · rw [if_pos hC1]
        refine ⟨rfl, Or.inr ⟨rfl, hC1.symm, fun h s => ?_⟩⟩
        simp only [RPlan.cidx, RPlan.ridx, hC1]; omega
      · rw [if_neg hC1]
        refine ⟨rfl, Or.inr ⟨rfl, rfl, fun h s => ?_⟩⟩
        simp only [RPlan.cidx, RPlan.ridx, Nat.mul_comm s C]; omega
    have hin : ∀ j, (if C = 1 then (⟨m, 1, 1, 1, 1, 1, inplace, j⟩ : RPlan) else ⟨m, C, C, 1, C, 1, inplace, j⟩).inplace = inplace := by
      intro j; split_ifs <;> rfl
    unfold Herm.newExplicit
    refine ⟨by simp; omega, by simp; omega, hC, by simp, by simp; omega, by simp [Herm.P], by simp, by simp [Herm.P], by simp, by simp,
      by simpa using g1, by simpa using g2, Or.inl (by simp), by simp, by simp, by simp, hgeo _, hgeo _, hin _, hin _,
      by simp [Herm.P], ?_, by simp, by simp, ?_, ?_, ?_, rfl, rfl, rfl, rfl⟩
    · simp only [Herm.P, Nat.mul_one, if_true]
      have : C * m ≤ C * (2 * (m / 2) + 1) := Nat.mul_le_mul_left _ (by omega)
      have e : C * (2 * (m / 2) + 1) = 2 * (C * (m / 2)) + C := by ring
      rw [Nat.mul_add]
      omega
    all_goals simp
  · push Not at h3
    obtain ⟨g1, g2, g3⟩ := hcp h3.1 h3.2
    simp only [Except.ok.injEq] at h
    subst h
    have hPpos : 0 < P := by rw [← hP]; split_ifs <;> omega
    have hnpos : 0 < n := by
      rw [← hn]; exact ceilquotient_pos (Nat.mul_pos hPpos (by omega)) (by omega)
    have hqpos : 0 < P * n := Nat.mul_pos hPpos hnpos
    have hval : fftPadHermitianValid p (P * n) D C = true := by
      by_contra hv
      apply h4
      exact ⟨by omega, by simpa using hv⟩
    have hval' : D = 2 ∧ p % 2 = 0 ∧ (p = 2 ∨ C = 1) := by
      unfold fftPadHermitianValid at hval
      simpa [h6] using hval
    obtain ⟨rfl, hpe, hpC⟩ := hval'
    have hP' : P = p / 2 := by rw [← hP, if_pos (Or.inl (by omega))]
    have hM : M ≤ m * (P * n) := by rw [Nat.mul_comm]; omega
    have hn2 : 2 ≤ n := by
      by_contra hlt
      have hn1 : n = 1 := by omega
      subst hn1
      have : m * P ≤ m * (p - 1) := Nat.mul_le_mul_left _ (by omega)
      rw [Nat.mul_one] at hM
      omega
    have hgeo : ∀ j, (if C = 1 then (⟨m, p / 2, 1, m / 2 + 1, 1, m, inplace, j⟩ : RPlan) else ⟨m, C * (p / 2), C, 1, C, 1, inplace, j⟩).Geo m P C := by
      intro j
      by_cases hC1 : C = 1
      · rw [if_pos hC1]
        refine ⟨rfl, Or.inl ⟨hC1, hP'.symm, fun h s => ?_⟩⟩
        simp only [RPlan.cidx, RPlan.ridx, Nat.mul_comm h, Nat.mul_one, and_self]
      · rw [if_neg hC1]
        have hP1 : p / 2 = 1 := by omega
        refine ⟨rfl, Or.inr ⟨by omega, by simp [hP1], fun h s => ?_⟩⟩
        simp only [RPlan.cidx, RPlan.ridx, Nat.mul_comm s C]; omega
    have hin : ∀ j, (if C = 1 then (⟨m, p / 2, 1, m / 2 + 1, 1, m, inplace, j⟩ : RPlan) else ⟨m, C * (p / 2), C, 1, C, 1, inplace, j⟩).inplace = inplace := by
      intro j; split_ifs <;> rfl
    have hBw : C * ((m / 2 + 1) * P) ≤ align al (p / 2 * (C * (m / 2 + 1))) := by
      have e1 : C * ((m / 2 + 1) * P) = p / 2 * (C * (m / 2 + 1)) := by rw [hP']; ring
      rw [e1]; exact align_le hal
    have hPe : (if P * n = 1 then 1 else p / 2) = P := by rw [if_neg h6, hP']
    unfold Herm.newHybrid
    refine ⟨by simp; omega, by simp; omega, hC, by simp, by simp; omega, by simp only [Herm.P, hPe], by simpa using hnpos, by simp only [Herm.P, hPe, hPpos], by simp, by simp,
      by simpa using g1, by simpa using g2, Or.inr ⟨h6, rfl, ?_, hn2, ?_⟩, ?_, ?_, ?_, ?_, ?_, hin _, hin _,
      ?_, ?_, ?_, ?_, ?_, ?_, ?_, rfl, rfl, rfl, rfl⟩
    · simp only [Herm.P, hPe]; omega
    · simp only [Herm.P, hPe]; omega
    · simp only [h6, if_false]
      split_ifs <;> omega
    · simp [Dr, conjugates, hpe]
    · simp only [h6, if_false, residueBlocks, conjugates, ceilquotient]; simp [hpe]
    · simp only [Herm.P, hPe]; exact hgeo _
    · simp only [Herm.P, hPe]; exact hgeo _
    · simp only [Herm.P, hPe]; exact hBw
    · simp only [Herm.P, hPe]
      split_ifs
      · refine le_trans ?_ hBw
        have : C * (m * P) ≤ C * ((2 * (m / 2) + 1) * P) := Nat.mul_le_mul_left _ (Nat.mul_le_mul_right _ (by omega))
        have e : C * ((2 * (m / 2) + 1) * P) = 2 * (C * (m / 2 * P)) + C * P := by ring
        have e2 : C * ((m / 2 + 1) * P) = C * (m / 2 * P) + C * P := by ring
        have : 0 < C * P := Nat.mul_pos hC hPpos
        omega
      · refine le_trans ?_ (align_le hal)
        unfold ceilquotient
        rw [hP', show p / 2 * (C * m) = C * (m * (p / 2)) by ring]
        omega
    · intro hi; simp only at hi ⊢; rw [if_pos hi]
    · simp only [h6, if_false]
    · intro hp2; simp only at hp2 ⊢; simp only [Herm.P, hPe]; rw [if_pos hp2, if_pos hp2, ← hP']; exact ⟨rfl, rfl⟩
    · intro _; rfl
    · intro hp2; simp only at hp2 ⊢; simp only [Herm.P, hPe]; rw [if_pos hp2, ← hP']

/-- The constructor accepts concrete cases: `L=7, M=12, m=4, D=2` (`p=2`), `L=13, M=24, m=4, D=2` (`p=4`), `L=5, M=6, m=6, D=1` (`q=1`). -/
example (J : Junk) : ∃ o, Herm.new 7 12 ⟨2, 1, true⟩ 3 4 2 false 16 J = .ok o ∧ o.p = 2 ∧ o.q = 3 ∧ o.C = 3 := by
  refine ⟨_, rfl, ?_, ?_, ?_⟩ <;> rfl
example (J : Junk) : ∃ o, Herm.new 13 24 ⟨2, 1, true⟩ 1 4 2 true 16 J = .ok o ∧ o.p = 4 ∧ o.q = 6 := by
  refine ⟨_, rfl, ?_, ?_⟩ <;> rfl
example (J : Junk) : ∃ o, Herm.new 5 6 ⟨2, 1, true⟩ 2 6 1 true 16 J = .ok o ∧ o.p = 1 ∧ o.q = 1 := by
  refine ⟨_, rfl, ?_, ?_⟩ <;> rfl

end Herm
end Fftwpp
