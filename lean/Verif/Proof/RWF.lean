import Verif.Proof.Dbl
import Verif.Proof.WF

/-! Facts established by the constructor `Re.new`. -/

namespace Fftwpp
namespace Re

/-- Rows of size `m` per residue (effective `p`). -/
def P (o : Re) : ℕ := if o.p = 2 then 1 else o.p

/-- Half of `m`. -/
def h (o : Re) : ℕ := o.e - 1

/-- Invariants of a constructed transform of real data. -/
structure WF (o : Re) : Prop where
  m_pos : 0 < o.m
  L_pos : 0 < o.L
  C_pos : 0 < o.C
  C_le_S : o.C ≤ o.S
  M_eq : o.M = o.m * o.q
  L_le_M : o.L ≤ o.M
  p_ub : o.L ≤ o.m * o.p
  p_lb : o.m * (o.p - 1) < o.L
  p_pos : 0 < o.p
  q_eq : o.q = o.P * o.n
  n_pos : 0 < o.n
  D_pos : 0 < o.D
  e_eq : o.e = o.m / 2 + 1
  l_eq : o.l = if o.q = 1 then o.e else o.m * o.P
  b_eq : o.b = o.S * o.l
  Sm_eq : o.Sm = o.S * o.m
  p_odd : o.q ≠ 1 → o.n % 2 = 1 ∨ o.p % 2 = 0 ∨ o.p ≤ 2
  m_even : o.q ≠ 1 → o.q % 2 = 1 ∨ o.m % 2 = 0
  D_valid : o.q ≠ 1 → o.D = 1 ∨ (o.S = 1 ∧ ((o.D < (o.n - 1) / 2 ∧ o.D % 2 = 0) ∨ o.D = (o.n - 1) / 2))
  D0_eq : o.q ≠ 1 → o.D0 = if (o.n - 1) / 2 % o.D = 0 then o.D else (o.n - 1) / 2 % o.D
  R_eq : o.R = ceilquotient (o.n + 1) 2
  route_eq : o.route = if o.q = 1 then (if o.S = 1 then .explicit else .explicitMany)
    else if o.p = 1 then (if o.S = 1 then .one else .oneMany) else if o.p = 2 then (if o.S = 1 then .two else .twoMany)
      else (if o.S = 1 then .inner else .innerMany)
  pad_eq : o.pad = if o.q ≠ 1 ∧ o.p = 1 ∧ o.inplace = false ∧ o.L < o.m then (if o.S = 1 then .single else .many) else .none
  rc : o.p ≤ 2 → ∃ J J', o.rcfftm = ⟨o.m, o.C, o.S, 1, o.S, 1, o.inplace, J⟩ ∧ o.crfftm = ⟨o.m, o.C, o.S, 1, o.S, 1, o.inplace, J'⟩
  fftm_S1 : o.q ≠ 1 → o.S = 1 → 2 < o.n →
    o.fftm = ⟨o.m, 1, o.D * o.P, 1, o.m, o.inplace⟩ ∧ o.ifftm = ⟨o.m, -1, o.D * o.P, 1, o.m, o.inplace⟩
  fftm_many : o.q ≠ 1 → o.S ≠ 1 → 2 < o.n → o.fftm = ⟨o.m, 1, o.C, o.S, 1, o.inplace⟩ ∧ o.ifftm = ⟨o.m, -1, o.C, o.S, 1, o.inplace⟩
  fftm0_eq : o.q ≠ 1 → o.D0 ≠ o.D →
    o.fftm0 = ⟨o.m, 1, o.D0 * o.P, 1, o.m, o.inplace⟩ ∧ o.ifftm0 = ⟨o.m, -1, o.D0 * o.P, 1, o.m, o.inplace⟩
  ffth_eq : o.q ≠ 1 → o.p ≤ 2 → o.q % 2 = 0 → o.ffth = ⟨o.h, 1, o.C, o.S, 1, o.inplace⟩ ∧ o.iffth = ⟨o.h, -1, o.C, o.S, 1, o.inplace⟩
  rcp : 2 < o.p → ∃ J J', o.rcfftp = ⟨o.p, o.C * o.m, o.C * o.m, 1, o.C * o.m, 1, true, J⟩ ∧
    o.crfftp = ⟨o.p, o.C * o.m, o.C * o.m, 1, o.C * o.m, 1, true, J'⟩
  fftmp2_eq : 2 < o.p → o.S = 1 → o.fftmp2 = ⟨o.m, 1, ceilquotient o.p 2, 1, o.m, o.inplace⟩ ∧
    o.ifftmp2 = ⟨o.m, -1, ceilquotient o.p 2, 1, o.m, o.inplace⟩
  fftp_eq : 2 < o.p → 2 < o.n → o.S = 1 → o.fftp = ⟨o.p, 1, o.m, o.m, 1, true⟩ ∧ o.ifftp = ⟨o.p, -1, o.m, o.m, 1, true⟩
  fftp2_eq : 2 < o.p → o.n % 2 = 0 → o.S = 1 → o.fftp2 = ⟨ceilquotient o.p 2, 1, o.m, o.m, 1, true⟩ ∧
    o.ifftp2 = ⟨ceilquotient o.p 2, -1, o.m, o.m, 1, true⟩
  fftm_even : o.q ≠ 1 → o.S ≠ 1 → o.n % 2 = 0 → o.fftm = ⟨o.m, 1, o.C, o.S, 1, o.inplace⟩ ∧ o.ifftm = ⟨o.m, -1, o.C, o.S, 1, o.inplace⟩
  ffthp_eq : 2 < o.p → o.q % 2 = 0 → o.ffthp = ⟨o.h, 1, o.C, o.C, o.S, o.inplace ∧ ¬ o.C < o.S⟩ ∧
    o.iffthp = ⟨o.h, -1, o.C, o.S, o.C, o.inplace ∧ ¬ o.C < o.S⟩
  fftmr0_eq : 2 < o.p → 1 < o.S → o.fftmr0 = ⟨o.m, 1, o.C, o.C, o.S, o.inplace ∧ ¬ o.C < o.S⟩ ∧
    o.ifftmr0 = ⟨o.m, -1, o.C, o.S, o.C, o.inplace ∧ ¬ o.C < o.S⟩
  fftp_many : 2 < o.p → 2 < o.n → o.fftp = ⟨o.p, 1, if o.S = o.C then o.C * o.m else o.C, o.S * o.m, 1, true⟩ ∧
    o.ifftp = ⟨o.p, -1, if o.S = o.C then o.C * o.m else o.C, o.S * o.m, 1, true⟩
  fftp2_many : 2 < o.p → o.n % 2 = 0 → o.fftp2 = ⟨ceilquotient o.p 2, 1, if o.S = o.C then o.C * o.m else o.C, o.S * o.m, 1, true⟩ ∧
    o.ifftp2 = ⟨ceilquotient o.p 2, -1, if o.S = o.C then o.C * o.m else o.C, o.S * o.m, 1, true⟩
  Cm_eq : o.Cm = o.C * o.m
  V_eq : o.V.isSome = (decide (2 < o.p ∧ 1 < o.S ∧ o.inplace = true ∧ o.C < o.S))
  Zqm : o.q ≠ 1 → o.Zetaqm = initZetaqm o.M o.q o.m
  ZqmS : o.p = 2 → o.ZetaqmS = initZetaqmS o.M o.q o.m o.L
  Zqp : 2 < o.p → o.Zetaqp = initZetaqp o.q o.n o.p

set_option maxHeartbeats 400000 in
theorem WF.of_new {L M : ℕ} {app : App} {C S0 m D : ℕ} {inplace : Bool} {J : Junk} {Vp : Ptr} {o : Re} (hC : 0 < C) (hD : 0 < D)
    (h : Re.new L M app C S0 m D inplace J Vp = .ok o) : o.WF := by
  unfold Re.new at h
  simp only [parameters, Bool.false_eq_true, false_and, false_or] at h
  generalize hS : (if S0 = 0 then C else S0) = S at h
  have hcp : m ≠ 0 → L ≠ 0 → L ≤ m * ceilquotient L m ∧ m * (ceilquotient L m - 1) < L ∧ 0 < ceilquotient L m :=
    fun h1 h2 => ⟨ceilquotient_le (by omega), ceilquotient_lt (by omega) (by omega),
      ceilquotient_pos (by omega) (by omega)⟩
  generalize hp : ceilquotient L m = p at h hcp
  generalize hP : (if p = 2 then p / 2 else p) = P at h
  have hP' : P = if p = 2 then 1 else p := by
    rw [← hP]; split_ifs with h2
    · subst h2; rfl
    · rfl
  generalize hn : ceilquotient M (P * m) = n at h
  split_ifs at h with h1 h2 h3 h4 h5 h6 h7
  · -- q = 1
    push Not at h3
    obtain ⟨g1, g2, g3⟩ := hcp h3.1 h3.2
    have hPn : P = 1 ∧ n = 1 := by simpa using h6
    have hp1 : p = 1 := by
      by_contra hne
      have hp2 : p = 2 := by
        by_contra h2'
        rw [if_neg h2'] at hP'
        omega
      subst hp2
      have := ceilquotient_le (a := M) (b := P * m) (Nat.mul_pos (by omega) (by omega))
      rw [hn, hPn.1, hPn.2] at this
      simp only [Nat.add_one_sub_one, Nat.mul_one, Nat.one_mul] at g2 this
      omega
    subst hp1
    obtain ⟨rfl, rfl⟩ := hPn
    simp only [Except.ok.injEq] at h
    subst h
    unfold Re.newExplicit
    have hM : M ≤ m * 1 := by
      rw [Nat.mul_comm]; simpa using Nat.le_of_not_lt h5
    refine ⟨by simp; omega, by simp; omega, hC, by simp; omega, by simp, by simp; omega, by simpa using g1, by simpa using g2,
      by simp, by simp [Re.P], by simp, hD, by simp, by simp, by simp, by simp, by simp, by simp, by simp, by simp, by simp [ceilquotient],
      by simp, by simp, ?_, by simp, by simp, by simp, by simp, by simp, by simp, by simp, by simp, by simp, by simp, by simp, by simp, by simp, by simp, by simp, by simp, by simp, by simp⟩
    intro _
    refine ⟨J.r2c, J.c2r, ?_⟩
    by_cases hS1 : S = 1
    · have : C = 1 := by omega
      simp [hS1, this]
    · simp [hS1]
  · push Not at h3
    obtain ⟨g1, g2, g3⟩ := hcp h3.1 h3.2
    simp only [Except.ok.injEq] at h
    subst h
    unfold Re.newHybrid
    have hPpos : 0 < P := by rw [hP']; split_ifs <;> omega
    have hnpos : 0 < n := by
      rw [← hn]; exact ceilquotient_pos (Nat.mul_pos hPpos (by omega)) (by omega)
    have hq1 : 1 < P * n := by
      have := Nat.mul_pos hPpos hnpos
      omega
    have hval : fftPadRealValid m p (P * n) n D S = true := by
      by_contra hc
      exact h4 ⟨hq1, by simpa using hc⟩
    unfold fftPadRealValid at hval
    simp only [decide_eq_true_eq] at hval
    have hM := ceilquotient_le (a := M) (b := P * m) (Nat.mul_pos hPpos (by omega))
    rw [hn] at hM
    have hM' : M ≤ m * (P * n) := by calc M ≤ _ := hM
                                     _ = _ := by ring
    have hS1 : S = 1 → C = 1 := by omega
    have hqn : (P * n ≠ 1) := by omega
    refine ⟨by simp; omega, by simp; omega, hC, by simp; omega, by simp, ?_, by simpa using g1, by simpa using g2,
      by simpa using g3, by simp [Re.P, ← hP'], by simpa using hnpos, hD, by simp, ?_, by simp, by simp, fun _ => hval.1, fun _ => hval.2.1,
      fun _ => hval.2.2, fun _ => rfl, rfl, ?_, ?_, ?_, ?_, ?_, ?_, ?_, ?_, ?_, ?_, ?_, ?_, ?_, ?_, ?_, ?_, rfl, ?_, ?_, ?_, ?_⟩
    · exact le_trans (Nat.le_of_not_lt h1) hM'
    · simp only [Re.P]; rw [if_neg hqn]
    · simp only; rw [if_neg hqn]
    · simp only [hqn, ne_eq, not_false_iff, true_and]
    · intro hp2
      simp only at hp2
      exact ⟨J.r2c, J.c2r, by simp [hp2], by simp [hp2]⟩
    · intro _ hS hn'
      simp only at hS hn'
      simp [hS, hn', hS1 hS, Re.P]
    · intro _ hS hn'
      simp only at hS hn'
      have hS' : 1 < S := by omega
      simp [hS, hS', hn']
    · intro _ hD0
      simp only at hD0
      simp only [if_pos hD0, Re.P, and_self]
    · intro _ hp2 hq
      simp only at hq hp2
      simp [hq, hp2, Re.h]
    · intro hp
      simp only at hp
      exact ⟨J.r2c, J.c2r, by simp [hp], by simp [hp]⟩
    · intro hp hS
      simp only at hp hS
      simp [hp, hS, hS1 hS]
    · intro hp hn' hS
      simp only at hp hn' hS
      simp [hp, hn', hS, hS1 hS]
    · intro hp hn' hS
      simp only at hp hn' hS
      simp [hp, hn', hS, hS1 hS]
    · intro _ hS hn'
      simp only at hS hn'
      have hS' : 1 < S := by omega
      simp [hS, hS', hn']
    · intro hp hq
      simp only at hp hq
      simp [hp, hq, Re.h]
    · intro hp hS
      simp only at hp hS
      simp [hp, hS]
    · intro hp hn'
      simp only at hp hn'
      simp only [if_pos (And.intro hp hn')]
      by_cases hSC : S = C
      · simp only [if_pos hSC]; exact ⟨trivial, trivial⟩
      · simp only [if_neg hSC]; exact ⟨trivial, trivial⟩
    · intro hp hn'
      simp only at hp hn'
      simp only [if_pos (And.intro hp hn')]
      by_cases hSC : S = C
      · simp only [if_pos hSC]; exact ⟨trivial, trivial⟩
      · simp only [if_neg hSC]; exact ⟨trivial, trivial⟩
    · simp only
      by_cases hx : 2 < p ∧ 1 < S ∧ inplace = true ∧ C < S
      · rw [if_pos hx]; simp [hx]
      · rw [if_neg hx, decide_eq_false hx]; rfl
    · intro _; rfl
    · intro hp; simp only at hp ⊢; rw [if_pos hp]
    · intro hp; simp only at hp ⊢; rw [if_pos hp]

variable {o : Re}

theorem WF.C_one (w : o.WF) (hS : o.S = 1) : o.C = 1 := by
  have := w.C_pos; have := w.C_le_S; omega

theorem WF.S_pos (w : o.WF) : 0 < o.S := by have := w.C_pos; have := w.C_le_S; omega

theorem WF.q_pos (w : o.WF) : 0 < o.q := by
  have h1 : o.L ≤ o.m * o.q := w.M_eq ▸ w.L_le_M
  rcases Nat.eq_zero_or_pos o.q with h | h
  · rw [h] at h1; have := w.L_pos; omega
  · exact h

theorem WF.P_one (_ : o.WF) (hp : o.p ≤ 2) (hp0 : 0 < o.p) : o.P = 1 := by unfold P; split_ifs <;> omega

theorem WF.q_n (w : o.WF) (hp : o.p ≤ 2) : o.q = o.n := by rw [w.q_eq, w.P_one hp w.p_pos, Nat.one_mul]

/-- For even `q`, `m=2h`. -/
theorem WF.m_h (w : o.WF) (hq : o.q ≠ 1) (h2 : o.q % 2 = 0) : o.m = 2 * o.h := by
  have := w.m_even hq
  have := w.e_eq
  unfold h; omega

theorem WF.h_pos (w : o.WF) (hq : o.q ≠ 1) (h2 : o.q % 2 = 0) : 0 < o.h := by
  have := w.m_h hq h2; have := w.m_pos; omega

theorem WF.D_one (w : o.WF) (hq : o.q ≠ 1) (hS : o.S ≠ 1) : o.D = 1 := by
  rcases w.D_valid hq with h | h
  · exact h
  · exact absurd h.1 hS

/-- Table lookups. -/
theorem WF.zq_bd (w : o.WF) (hq : o.q ≠ 1) {r s : ℕ} (hr : 0 < r) (hrq : r < o.q) (hs : s < o.m) :
    o.Zetaqm.lo ≤ o.m * r + s ∧ o.m * r + s < o.Zetaqm.hi := by
  rw [w.Zqm hq]
  simp only [initZetaqm]
  have h1 : o.m * 1 ≤ o.m * r := Nat.mul_le_mul_left _ hr
  have h2 : o.m * (r + 1) ≤ o.m * o.q := Nat.mul_le_mul_left _ hrq
  rw [Nat.mul_succ] at h2
  have h3 : o.m + (o.q - 1) * o.m = o.m * o.q := by
    obtain ⟨k, hk⟩ : ∃ k, o.q = k + 1 := ⟨o.q - 1, by omega⟩
    rw [hk]; simp; ring
  omega

theorem WF.zq_val (w' : o.WF) (hq : o.q ≠ 1) {r s : ℕ} (hs : s < o.m) :
    o.Zetaqm.val (o.m * r + s) = w o.M (s * r) := by
  rw [w'.Zqm hq]
  simp only [initZetaqm]
  rw [Nat.mul_add_div w'.m_pos, Nat.div_eq_of_lt hs, Nat.add_zero, Nat.mul_add_mod, Nat.mod_eq_of_lt hs]
  congr 1; push_cast; ring

theorem WF.zqS_bd (w : o.WF) (hp : o.p = 2) {r j : ℕ} (hr : 0 < r) (hrq : r < o.q) (hj : o.m ≤ j) (hjL : j < o.L) :
    o.ZetaqmS.lo ≤ (o.L - o.m) * r + j ∧ (o.L - o.m) * r + j < o.ZetaqmS.hi := by
  rw [w.ZqmS hp]
  simp only [initZetaqmS]
  have h1 : (o.L - o.m) * 1 ≤ (o.L - o.m) * r := Nat.mul_le_mul_left _ hr
  have h2 : (o.L - o.m) * r ≤ (o.L - o.m) * (o.q - 1) := Nat.mul_le_mul_left _ (by omega)
  rw [Nat.mul_comm (o.q - 1)]
  omega

theorem WF.zqS_val (w' : o.WF) (hp : o.p = 2) {r j : ℕ} (hj : o.m ≤ j) (hjL : j < o.L) :
    o.ZetaqmS.val ((o.L - o.m) * r + j) = w o.M (j * r) := by
  rw [w'.ZqmS hp]
  simp only [initZetaqmS]
  rw [Nat.add_sub_assoc hj, Nat.mul_add_div (by omega), Nat.div_eq_of_lt (by omega : j - o.m < o.L - o.m), Nat.add_zero,
    Nat.mul_add_mod, Nat.mod_eq_of_lt (by omega : j - o.m < o.L - o.m), show o.m + (j - o.m) = j by omega]
  congr 1; push_cast; ring

theorem WF.zqp_bd (w : o.WF) (hp : 2 < o.p) {r t : ℕ} (hr : 0 < r) (hrn : r < o.n) (ht : 0 < t) (htp : t < o.p) :
    o.Zetaqp.lo ≤ (o.p - 1) * r + t ∧ (o.p - 1) * r + t < o.Zetaqp.hi := by
  rw [w.Zqp hp]
  simp only [initZetaqp]
  have h1 : (o.p - 1) * 1 ≤ (o.p - 1) * r := Nat.mul_le_mul_left _ hr
  have h2 : (o.p - 1) * r ≤ (o.p - 1) * (o.n - 1) := Nat.mul_le_mul_left _ (by omega)
  rw [Nat.mul_comm (o.n - 1)]
  omega

theorem WF.zqp_val (w' : o.WF) (hp : 2 < o.p) {r t : ℕ} (ht : 0 < t) (htp : t < o.p) :
    o.Zetaqp.val ((o.p - 1) * r + t) = w o.q (r * t) := by
  rw [w'.Zqp hp]
  simp only [initZetaqp]
  rw [Nat.add_sub_assoc (by omega : 1 ≤ t), Nat.mul_add_div (by omega), Nat.div_eq_of_lt (by omega : t - 1 < o.p - 1),
    Nat.add_zero, Nat.mul_add_mod, Nat.mod_eq_of_lt (by omega : t - 1 < o.p - 1), show 1 + (t - 1) = t by omega]
  congr 1

end Re
end Fftwpp
