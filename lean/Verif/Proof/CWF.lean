import Verif.Model.Centered
import Verif.Proof.Bij
import Verif.Proof.Iface

/-! Facts established by the constructor `Cent.new`; residues of the rows of a block; the index function. -/

namespace Fftwpp

/-- The number of size-`m` rows per residue. -/
def Cent.P (o : Cent) : ℕ := (o.p + 1) / 2

/-- Invariants of a constructed centered transform object. -/
structure Cent.WF (o : Cent) : Prop where
  m_pos : 0 < o.m
  L_pos : 0 < o.L
  C_pos : 0 < o.C
  C_le_S : o.C ≤ o.S
  M_eq : o.M = o.m * o.q
  L_le_M : o.L ≤ o.M
  p_ub : o.L ≤ o.m * o.p
  p_lb : o.m * (o.p - 1) < o.L
  p_cases : (o.q = 1 ∧ o.p = 1) ∨ (o.q ≠ 1 ∧ o.p % 2 = 0 ∧ 2 ≤ o.p)
  q_eq : o.q = o.P * o.n
  n_pos : 0 < o.n
  D_pos : 0 < o.D
  l_eq : o.l = o.m * o.P
  b_eq : o.b = o.S * o.l
  Sm_eq : o.Sm = o.S * o.m
  Cm_eq : o.Cm = o.C * o.m
  cent : o.centered = true
  D_valid : o.D = 1 ∨ (o.S = 1 ∧ ((o.D < o.n ∧ o.D % 2 = 0) ∨ o.D = o.n))
  D0_eq : o.D0 = if o.n % o.D = 0 then o.D else o.n % o.D
  dr_eq : o.dr = Dr o.p o.D true
  R_eq : o.R = residueBlocks o.p o.n o.D true
  route_eq : o.route = chooseRouteCentered o.q o.p o.S o.overwrite
  ow : o.overwrite = true → o.q ≠ 1 ∧ o.inplace = true ∧ o.L = o.p * o.m ∧ o.n = 3 ∧ o.D = 1 ∧ o.B ≤ o.A
  pad_eq : o.pad = .none
  fftm_1 : o.q = 1 → o.S = 1 → o.fftm = ⟨o.m, 1, 1, 1, 0, o.inplace⟩ ∧ o.ifftm = ⟨o.m, -1, 1, 1, 0, o.inplace⟩
  fftm_S1 : o.q ≠ 1 → o.S = 1 →
    o.fftm = ⟨o.m, 1, o.D * o.P, 1, o.m, o.inplace⟩ ∧ o.ifftm = ⟨o.m, -1, o.D * o.P, 1, o.m, o.inplace⟩
  fftm_many : o.S ≠ 1 → o.fftm = ⟨o.m, 1, o.C, o.S, 1, o.inplace⟩ ∧ o.ifftm = ⟨o.m, -1, o.C, o.S, 1, o.inplace⟩
  fftm0_eq : o.q ≠ 1 → o.D0 ≠ o.D →
    o.fftm0 = ⟨o.m, 1, o.D0 * o.P, 1, o.m, o.inplace⟩ ∧ o.ifftm0 = ⟨o.m, -1, o.D0 * o.P, 1, o.m, o.inplace⟩
  fftp_C : 2 < o.p → o.S = o.C →
    o.fftp = ⟨o.P, 1, o.C * o.m, o.C * o.m, 1, true⟩ ∧ o.ifftp = ⟨o.P, -1, o.C * o.m, o.C * o.m, 1, true⟩
  fftp_S : 2 < o.p → o.S ≠ o.C →
    o.fftp = ⟨o.P, 1, o.C, o.S * o.m, 1, true⟩ ∧ o.ifftp = ⟨o.P, -1, o.C, o.S * o.m, 1, true⟩
  Zqm : o.q ≠ 1 → o.Zetaqm = initZetaqm o.M o.q (if o.p = 2 then o.m + 1 else o.m)
  Zqp : 2 < o.p → o.Zetaqp = initZetaqp o.q o.n (o.P + 1)
  fast_eq : o.q = 1 → o.fast = decide (o.M % 2 = 0)
  shift_eq : o.q = 1 → o.M % 2 ≠ 0 → o.ZetaShift = initShift o.L o.M

theorem Cent.WF.of_new {L M : ℕ} {app : App} {C S0 m D : ℕ} {inplace : Bool} {o : Cent} (hC : 0 < C)
    (h : Cent.new L M app C S0 m D inplace = .ok o) : o.WF := by
  unfold Cent.new at h
  simp only [parameters, true_and] at h
  generalize hS : (if S0 = 0 then C else S0) = S at h
  have hcp : m ≠ 0 → L ≠ 0 → L ≤ m * ceilquotient L m ∧ m * (ceilquotient L m - 1) < L ∧ 0 < ceilquotient L m :=
    fun h1 h2 => ⟨ceilquotient_le (by omega), ceilquotient_lt (by omega) (by omega),
      ceilquotient_pos (by omega) (by omega)⟩
  generalize hp : ceilquotient L m = p at h hcp
  generalize hP : (if p = 2 * (p / 2) ∨ p = 2 then p / 2 else p) = P at h
  generalize hn : ceilquotient M (P * m) = n at h
  split_ifs at h with h1 h2 h3 h4 h5 h6 h7
  · -- q = 1
    push Not at h3
    obtain ⟨g1, g2, g3⟩ := hcp h3.1 h3.2
    have hPn : P = 1 ∧ n = 1 := by simpa using h6
    have hp1 : p = 1 := by
      by_contra hne
      have hp2 : p = 2 := by
        split_ifs at hP with h8 <;> omega
      subst hp2
      have := ceilquotient_le (a := M) (b := P * m) (Nat.mul_pos (by omega) (by omega))
      rw [hn, hPn.1, hPn.2] at this
      simp only [Nat.add_one_sub_one, Nat.mul_one, Nat.one_mul] at g2 this
      omega
    subst hp1
    obtain ⟨rfl, rfl⟩ := hPn
    simp only [Except.ok.injEq] at h
    subst h
    unfold Cent.newExplicit
    have hM : M ≤ m * 1 := by
      rw [Nat.mul_comm]; simpa using Nat.le_of_not_lt h5
    refine ⟨by simp; omega, by simp; omega, hC, by simp; omega, by simp, by simp; omega, by simpa using g1, by simpa using g2,
      by simp, by simp [Cent.P], by simp, by simp, by simp [Cent.P], by simp, by simp, by simp, rfl, by simp,
      by simp, by simp [Dr, conjugates], by simp [residueBlocks, conjugates], by simp, by simp, by simp, ?_, ?_, ?_, ?_, ?_, ?_,
      ?_, ?_, ?_, ?_⟩ <;> simp +contextual
  · push Not at h3
    obtain ⟨g1, g2, g3⟩ := hcp h3.1 h3.2
    simp only [Except.ok.injEq] at h
    subst h
    unfold Cent.newHybrid
    have hPpos : 0 < P := by rw [← hP]; split_ifs <;> omega
    have hnpos : 0 < n := by
      rw [← hn]; exact ceilquotient_pos (Nat.mul_pos hPpos (by omega)) (by omega)
    have hqpos : 0 < P * n := Nat.mul_pos hPpos hnpos
    have hval : fftPadCenteredValid p (P * n) n D S = true := by
      by_contra hv
      apply h4
      exact ⟨by omega, by simpa using hv⟩
    have hval' : p % 2 = 0 ∧ (D = 1 ∨ (S = 1 ∧ ((D < n ∧ D % 2 = 0) ∨ D = n))) := by
      unfold fftPadCenteredValid fftPadValid at hval
      simp only [h6, if_false, false_or, decide_eq_true_eq] at hval
      simpa using hval
    obtain ⟨hpe, hval'⟩ := hval'
    have hP' : P = p / 2 := by rw [← hP, if_pos (Or.inl (by omega))]
    have hP2 : (p + 1) / 2 = P := by omega
    have hM : M ≤ m * (P * n) := by rw [Nat.mul_comm]; omega
    have hS1C : S = 1 → C = 1 := by omega
    have e2 : (if p = 2 then 1 else p / 2) = P := by split_ifs <;> omega
    refine ⟨by simp; omega, by simp; omega, hC, by simp; omega, by simp, by simp; omega, by simpa using g1, by simpa using g2,
      Or.inr ⟨h6, hpe, by simp; omega⟩, by simp [Cent.P, hP2], by simpa using hnpos, by simp; omega, by simp [Cent.P, e2, hP2],
      by simp, by simp,
      by simp, rfl, by simpa using hval', by simp, by simp, by simp, by simp, ?_, ?_, ?_, ?_, ?_, ?_,
      ?_, ?_, ?_, ?_, ?_, ?_⟩
    · simp only
      intro how
      simp only [decide_eq_true_eq] at how
      exact ⟨h6, how.1, how.2.1, how.2.2.1, how.2.2.2.1, how.2.2.2.2.1⟩
    · simp; omega
    · intro hq; exact absurd hq h6
    · intro _ hS1
      simp only at hS1 ⊢
      simp [hS1, hS1C hS1, Cent.P, e2, hP2]
    · intro hS1; simp only at hS1 ⊢; rw [if_neg hS1, if_neg hS1]; simp
    · intro _ hD; simp only at hD ⊢; rw [if_pos hD, if_pos hD]; simp [Cent.P, e2, hP2]
    · intro hp2 hSC
      simp only at hSC hp2 ⊢
      rw [if_pos hp2, if_pos hp2, if_pos hSC, if_pos hSC, if_neg (by omega)]
      simp [Cent.P]; omega
    · intro hp2 hSC
      simp only at hSC hp2 ⊢
      rw [if_pos hp2, if_pos hp2, if_neg hSC, if_neg hSC, if_neg (by omega)]
      simp [Cent.P]; omega
    · intro _; rfl
    · intro hp2; simp only at hp2 ⊢; rw [if_pos hp2, if_neg (by omega), if_neg (by omega)]; simp [Cent.P]; congr 1; omega
    · intro hq; exact absurd hq h6
    · intro hq; exact absurd hq h6

/-- The constructor accepts concrete cases: `L=5, M=9, m=4, D=1` (`p=2`) and `L=7, M=12, m=2, D=1` (`p=4`). -/
example : ∃ o, Cent.new 5 9 ⟨2, 1, true⟩ 1 1 4 1 false = .ok o ∧ o.p = 2 ∧ o.q = 3 := by
  refine ⟨_, rfl, ?_, ?_⟩ <;> rfl
example : ∃ o, Cent.new 7 12 ⟨2, 1, true⟩ 1 1 2 1 false = .ok o ∧ o.p = 4 ∧ o.q = 6 := by
  refine ⟨_, rfl, ?_, ?_⟩ <;> rfl

namespace Cent
variable {o : Cent}

/-- A noncentered transform (of one value, padded to `n`) with the same residue loop. -/
noncomputable def sh (o : Cent) : Fft :=
  if o.n = 1 then Fft.newExplicit 1 ⟨1, 1, false⟩ 1 1 1 1 1 1 false
  else Fft.newHybrid 1 ⟨1, 1, false⟩ 1 1 1 o.D 1 o.n o.n false

theorem WF.P_pos (h : o.WF) : 0 < o.P := by
  unfold P; have := h.p_cases; omega

theorem WF.q_pos (h : o.WF) : 0 < o.q := by rw [h.q_eq]; exact Nat.mul_pos h.P_pos h.n_pos

theorem WF.M_pos (h : o.WF) : 0 < o.M := by rw [h.M_eq]; exact Nat.mul_pos h.m_pos h.q_pos

theorem WF.sh_new (h : o.WF) : Fft.new 1 o.n ⟨1, 1, false⟩ 1 1 1 o.D false = .ok o.sh := by
  have hn := h.n_pos
  have hD := h.D_pos
  have hv := h.D_valid
  have hc : ceilquotient o.n 1 = o.n := by unfold ceilquotient; simp
  have hc1 : ceilquotient 1 1 = 1 := rfl
  unfold Fft.new sh
  simp only [parameters, hc1]
  simp only [show ¬ ((1 : ℕ) = 0) by omega, if_false, show ¬ (o.n < 1) by omega, show ¬ ((1 : ℕ) < 1) by omega, or_self,
    show ¬ ((1 : ℕ) = 2) by omega, or_false, Bool.false_eq_true, false_and, hc, Nat.one_mul, Nat.mul_one, lt_irrefl]
  by_cases h1 : o.n = 1
  · rw [if_neg (by rintro ⟨h2, _⟩; omega), if_pos h1, if_pos h1, h1]
  · have h2 : ¬ (1 < o.n ∧ fftPadValid o.n o.n o.D 1 = false) := by
      rintro ⟨_, h2⟩
      unfold fftPadValid at h2
      rw [if_neg h1] at h2
      simp at h2
      omega
    rw [if_neg h2, if_neg h1, if_neg h1, if_neg (by omega)]

theorem WF.shw (h : o.WF) : o.sh.WF := Fft.WF.of_new Nat.one_pos h.sh_new

theorem WF.sh_fields (h : o.WF) : o.sh.m = 1 ∧ o.sh.p = 1 ∧ o.sh.q = o.n ∧ o.sh.n = o.n ∧ o.sh.D = o.D ∧ o.sh.D0 = o.D0 ∧
    o.sh.R = o.R ∧ o.sh.dr = o.dr ∧ o.sh.conj = o.toFft.conj := by
  have hv := h.D_valid
  have hD := h.D_pos
  have hcj : o.D ≠ 1 → o.p % 2 = 0 := by
    intro hD
    rcases h.p_cases with h1 | h1
    · exfalso
      have := h.q_eq
      have hP : o.P = 1 := by unfold P; omega
      rw [h1.1, hP] at this
      omega
    · omega
  have hconj : conjugates o.p o.D true = conjugates 1 o.D false := by
    unfold conjugates
    rw [decide_eq_decide]
    constructor
    · rintro ⟨h1, _⟩; exact ⟨h1, Or.inl (by omega)⟩
    · rintro ⟨h1, _⟩; exact ⟨h1, Or.inr ⟨rfl, hcj (by omega)⟩⟩
  have e1 := h.D0_eq
  have e2 := h.R_eq
  have e3 := h.dr_eq
  unfold residueBlocks at e2
  unfold Dr at e3
  rw [hconj] at e2 e3
  have e4 : o.toFft.conj = conjugates 1 o.D false := by unfold Fft.conj; rw [h.cent, hconj]
  unfold sh
  split_ifs with h1
  · have hD1 : o.D = 1 := by omega
    rw [hD1] at e2 e3 e4 e1
    have hc : conjugates 1 1 false = false := by simp [conjugates]
    rw [hc] at e2 e3 e4
    rw [e2, e3, e4, e1, hD1, h1]
    refine ⟨rfl, rfl, rfl, rfl, rfl, by simp [Fft.newExplicit], by simp [Fft.newExplicit], by simp [Fft.newExplicit], ?_⟩
    exact hc
  · refine ⟨rfl, rfl, rfl, rfl, rfl, e1.symm, e2.symm, e3.symm, e4.symm⟩

theorem WF.sh_inc (h : o.WF) (r : ℕ) : o.sh.increment r = o.increment r := by
  obtain ⟨_, _, _, _, _, g2, _, g4, g5⟩ := h.sh_fields
  unfold Fft.increment
  rw [g2, g4, g5]

theorem WF.sh_visited (h : o.WF) : ∀ fuel r, o.sh.visited fuel r = o.visited fuel r := by
  intro fuel
  induction fuel with
  | zero => intro r; rfl
  | succ k ih =>
    intro r
    unfold Fft.visited
    rw [ih, h.sh_inc, h.sh_fields.2.2.2.2.2.2.1]

theorem WF.sh_starts (h : o.WF) : o.sh.starts = o.starts := by
  unfold Fft.starts
  rw [h.sh_visited, h.sh_fields.2.2.2.2.2.2.1]

theorem WF.sh_visit (h : o.WF) {r : ℕ} : o.sh.Visit r ↔ o.Visit r := by
  unfold Fft.Visit
  obtain ⟨_, _, _, _, _, _, g3, g4, _⟩ := h.sh_fields
  rw [h.sh_inc, g3, g4]

theorem WF.mem_starts (h : o.WF) {r : ℕ} : r ∈ o.starts ↔ o.Visit r := by
  rw [← h.sh_starts, ← h.sh_visit]; exact h.shw.mem_starts

theorem WF.starts_nodup (h : o.WF) : o.starts.Nodup := by
  rw [← h.sh_starts]; exact h.shw.starts_nodup

theorem WF.D0_pos (h : o.WF) : 0 < o.D0 := by
  have := h.shw.D0_pos; rwa [h.sh_fields.2.2.2.2.2.1] at this

theorem WF.D0_le (h : o.WF) : o.D0 ≤ o.D := by
  have := h.shw.D0_le; rwa [h.sh_fields.2.2.2.2.2.1, h.sh_fields.2.2.2.2.1] at this

/-- Number of values of `σ` in the block of `r`. -/
def blks (o : Cent) (r : ℕ) : ℕ := if r = 0 then o.D0 else o.D

/-- Number of size-`m` rows in the block of `r`. -/
def rows (o : Cent) (r : ℕ) : ℕ := o.P * o.blks r

/-- Residue modulo `n` of block row `d`. -/
noncomputable def sig (o : Cent) (r d : ℕ) : ℤ := o.sh.res r d

/-- Residue modulo `q` of row `k`. -/
noncomputable def res (o : Cent) (r k : ℕ) : ℤ := o.n * (k % o.P : ℕ) + o.sig r (k / o.P)

theorem WF.blks_le (h : o.WF) (r : ℕ) : o.blks r ≤ o.D := by
  unfold blks; split_ifs
  · exact h.D0_le
  · exact le_rfl

theorem WF.rows_le (h : o.WF) (r : ℕ) : o.rows r ≤ o.P * o.D := Nat.mul_le_mul_left _ (h.blks_le r)

theorem WF.noutputs_eq (h : o.WF) (r : ℕ) : o.noutputs r = o.m * o.rows r := by
  unfold Fft.noutputs Fft.blocksize rows blks; rw [h.l_eq]; ring

theorem WF.b_D (h : o.WF) : o.b * o.D = o.S * (o.m * (o.P * o.D)) := by
  rw [h.b_eq, h.l_eq]; ring

theorem WF.sh_rows (h : o.WF) (r : ℕ) : o.sh.rows r = o.blks r := by
  obtain ⟨_, g1, _, _, g2, g3, _⟩ := h.sh_fields
  rw [h.shw.rows_le2 (by omega), g2, g3]; rfl

theorem WF.conj_iff (h : o.WF) : o.toFft.conj = true ↔ 1 < o.D := by
  obtain ⟨_, g1, _, _, g2, _, _, _, g5⟩ := h.sh_fields
  rw [← g5, h.shw.conj_iff, g1, g2]
  omega

theorem WF.S_one (h : o.WF) (hD : o.D ≠ 1) : o.S = 1 ∧ o.C = 1 := by
  have h1 := h.D_valid
  have h2 := h.C_le_S
  have h3 := h.C_pos
  omega

theorem WF.P_one (h : o.WF) (hp : o.p = 2) : o.P = 1 := by unfold P; rw [hp]

theorem WF.q_ne_of_D (h : o.WF) (hD : o.D ≠ 1) : o.q ≠ 1 := by
  have h1 := h.D_valid
  have h2 := h.q_eq
  have h3 := h.D_pos
  intro hq
  rw [hq] at h2
  have : o.P = 1 ∧ o.n = 1 := by simpa using h2.symm
  omega

/-- `n` is the number of residues `σ`. -/
theorem WF.sig_inj (h : o.WF) {r r' d d' : ℕ} (hv : o.Visit r) (hv' : o.Visit r') (hd : d < o.blks r)
    (hd' : d' < o.blks r') (hdv : (o.n : ℤ) ∣ o.sig r d - o.sig r' d') : r = r' ∧ d = d' := by
  refine h.shw.res_inj (h.sh_visit.2 hv) (h.sh_visit.2 hv') (by rwa [h.sh_rows]) (by rwa [h.sh_rows]) ?_
  rw [h.sh_fields.2.2.1]
  exact hdv

/-- The index of output `i` of block `r` is `q (i mod m) + residue` modulo `N`. -/
theorem WF.index_res (h : o.WF) {r i : ℕ} (hv : o.Visit r) (hi : i < o.noutputs r) :
    (o.M : ℤ) ∣ (o.index r i : ℤ) - (o.q * (i % o.m : ℕ) + o.res r (i / o.m)) ∧ o.index r i < o.M := by
  have hm := h.m_pos
  rw [h.noutputs_eq] at hi
  have hk : i / o.m < o.rows r := Nat.div_lt_of_lt_mul hi
  have hs : i % o.m < o.m := Nat.mod_lt _ hm
  have him := Nat.div_add_mod i o.m
  have hPp := h.P_pos
  have hv' := h.sh_visit.2 hv
  obtain ⟨f1, f2, f3, f4, f5, f6, f7, f8, f9⟩ := h.sh_fields
  have hd : i / o.m / o.P < o.blks r := Nat.div_lt_of_lt_mul hk
  by_cases hq : o.q = 1
  · have hp : o.p = 1 := by have := h.p_cases; omega
    have hP : o.P = 1 := by unfold P; rw [hp]
    have hn1 : o.n = 1 := by have := h.q_eq; rw [hq, hP] at this; omega
    have hD : o.D = 1 := by have := h.D_valid; have := h.D_pos; omega
    have hr1 : o.blks r = 1 := by
      have h0 := h.D0_pos
      have h1 := h.D0_le
      unfold blks; split_ifs <;> omega
    have hk0 : i / o.m = 0 := by unfold rows at hk; rw [hP, hr1] at hk; exact Nat.lt_one_iff.1 (by simpa using hk)
    have hcj : o.sh.conj = false := by rw [h.shw.conj_false_iff, f5]; exact Or.inl hD
    have hr0 : r = 0 := by
      rcases hv' with hv' | ⟨_, hlt⟩
      · exact hv'
      · rw [h.shw.R_nconj hcj, f4] at hlt; omega
    subst hr0
    unfold Fft.index res sig Fft.res
    rw [if_pos hq, hcj, hP, hk0, h.M_eq, hq]
    simp only [Bool.false_eq_true, if_false, Nat.zero_mod, Nat.zero_div, Nat.add_zero]
    rw [hk0] at him
    constructor
    · rw [show i % o.m = i by omega]; simp
    · omega
  have hpe : o.p % 2 = 0 ∧ 2 ≤ o.p := by have := h.p_cases; omega
  have hcq : ceilquotient o.p 2 = o.P := by unfold ceilquotient P; rfl
  have hmk : i / (o.P * o.m) = i / o.m / o.P := by rw [Nat.mul_comm, Nat.div_div_eq_div_mul]
  have hshP := h.shw.P_one (by omega)
  have hq' : o.q = o.n * o.P := by rw [h.q_eq, Nat.mul_comm]
  have hMn : o.M = o.q * o.m := by rw [h.M_eq, Nat.mul_comm]
  have hM : (o.M : ℤ) = o.q * o.m := by rw [hMn]; push_cast; ring
  have hu : i / o.m % o.P < o.P := Nat.mod_lt _ hPp
  -- an index in normal form
  have key1 : ∀ s u e : ℕ, s < o.m → u < o.P → e < o.n → o.q * s + o.n * u + e < o.M := by
    intro s u e hs hu he
    have h1 : o.n * (u + 1) ≤ o.n * o.P := Nat.mul_le_mul_left _ hu
    have h2 : o.q * (s + 1) ≤ o.q * o.m := Nat.mul_le_mul_left _ hs
    rw [Nat.mul_succ] at h1 h2
    omega
  rcases hcj : o.toFft.conj
  · have hD : o.D = 1 := by
      have := h.D_pos
      by_contra hne
      exact absurd (h.conj_iff.2 (by omega)) (by simp [hcj])
    have hb1 : o.blks r = 1 := by
      have h0 := h.D0_pos
      have h1 := h.D0_le
      unfold blks; split_ifs <;> omega
    rw [hb1] at hd
    have hd0 : i / o.m / o.P = 0 := Nat.lt_one_iff.1 hd
    have hkP : i / o.m < o.P := by unfold rows at hk; rwa [hb1, Nat.mul_one] at hk
    have hcond : ¬ (1 < o.D ∧ ((o.centered = true ∧ o.p % 2 = 0) ∨ o.p ≤ 2)) := by omega
    have hpP : o.P ≤ o.p := by unfold P; omega
    have hup : i / o.m % o.p = i / o.m % o.P := by rw [Nat.mod_eq_of_lt (by omega), Nat.mod_eq_of_lt hkP]
    have hdp : i / (o.p * o.m) = 0 := by
      rw [Nat.mul_comm, ← Nat.div_div_eq_div_mul, Nat.div_eq_of_lt (by omega)]
    have hrn : r < o.n := by
      rcases Nat.eq_zero_or_pos r with h0 | h0
      · have := h.n_pos; omega
      · have h1 := h.shw.visit_bound hv' h0
        rw [h.shw.R_nconj (by rw [f9, hcj]), f4, f8] at h1
        have : 0 < o.dr := by have := h.shw.dr_pos; rwa [f8] at this
        omega
    unfold Fft.index res sig Fft.res
    rw [if_neg hq, if_neg hcond, f9, hcj, hshP]
    simp only [Bool.false_eq_true, if_false]
    rw [hup, hdp, hd0]
    refine ⟨?_, key1 _ _ _ hs hu (by omega)⟩
    rw [show ((o.q * (i % o.m) + o.n * (i / o.m % o.P) + (r + 0) : ℕ) : ℤ) - (o.q * ((i % o.m : ℕ) : ℤ) + (o.n * ((i / o.m % o.P : ℕ) : ℤ) +
      ((o.sh.n * (0 % 1) + (r + 0 / 1) : ℕ) : ℤ))) = 0 by push_cast; simp; ring]
    exact dvd_zero _
  · have hD := h.conj_iff.1 hcj
    have hcond : 1 < o.D ∧ ((o.centered = true ∧ o.p % 2 = 0) ∨ o.p ≤ 2) := ⟨hD, Or.inl ⟨h.cent, hpe.1⟩⟩
    have hcs : o.sh.conj = true := by rw [f9, hcj]
    have hpar := h.shw.D0_parity hcs
    rw [f6, f4] at hpar
    obtain ⟨t, ht⟩ := h.shw.n_D0
    rw [f4, f5, f6] at ht
    have hD0n : o.D0 ≤ o.n := by have : 0 ≤ t * o.D := Nat.zero_le _; omega
    have hrb : 0 < r → r + o.D / 2 ≤ (o.n + 1) / 2 := by
      intro h0
      have := h.shw.visit_bound hv' h0
      rwa [h.shw.R_conj hcs, h.shw.dr_conj hcs, f4, f5] at this
    have hn2 : 2 ≤ o.n := by have := h.D_valid; omega
    unfold Fft.index res sig Fft.res
    rw [if_neg hq, if_pos hcond, hcs, hcq]
    simp only [if_true, h.cent, Bool.true_eq_false, false_and, false_or]
    have hmi : o.P * o.m ≤ i ↔ 1 ≤ i / o.m / o.P := by
      rw [Nat.le_div_iff_mul_le hPp, Nat.le_div_iff_mul_le hm, Nat.one_mul]
    simp only [hmi, hmk]
    have hinc : ∀ off, (i + o.P * o.m * off) / (2 * o.P * o.m) = (i / o.m / o.P + off) / 2 := by
      intro off
      rw [show 2 * o.P * o.m = o.m * (o.P * 2) by ring, ← Nat.div_div_eq_div_mul,
        show o.P * o.m * off = o.m * (o.P * off) by ring, Nat.add_mul_div_left _ _ hm, ← Nat.div_div_eq_div_mul,
        Nat.add_mul_div_left _ _ hPp]
    simp only [hinc]
    rw [f2, f3]
    generalize i / o.m / o.P = d at *
    generalize i / o.m % o.P = u at *
    generalize i % o.m = s at *
    have goodp : ∀ e : ℕ, e < o.n → (o.M : ℤ) ∣ ((o.q * s + o.n * u + e : ℕ) : ℤ) - (o.q * (s : ℕ) + (o.n * (u : ℕ) + (e : ℤ))) ∧
        o.q * s + o.n * u + e < o.M := by
      intro e he
      refine ⟨?_, key1 _ _ _ hs hu he⟩
      rw [show ((o.q * s + o.n * u + e : ℕ) : ℤ) - (o.q * (s : ℕ) + (o.n * (u : ℕ) + (e : ℤ))) = 0 by push_cast; ring]
      exact dvd_zero _
    have goodn : ∀ e : ℕ, 0 < e → e < o.n →
        (o.M : ℤ) ∣ ((o.q * (if u = 0 then (if 0 < s then s - 1 else o.m - 1) else s) + o.n * (if 0 < u then u - 1 else o.P - 1) + (o.n - e) : ℕ) : ℤ)
          - (o.q * (s : ℕ) + (o.n * (u : ℕ) + -(e : ℤ))) ∧
        o.q * (if u = 0 then (if 0 < s then s - 1 else o.m - 1) else s) + o.n * (if 0 < u then u - 1 else o.P - 1) + (o.n - e) < o.M := by
      intro e h0 he
      refine ⟨?_, key1 _ _ _ (by split_ifs <;> omega) (by split_ifs <;> omega) (by omega)⟩
      rw [hM]
      have hqz : (o.q : ℤ) = o.n * o.P := by rw [hq']; push_cast; ring
      rcases Nat.eq_zero_or_pos u with hu0 | hu0
      · subst hu0
        simp only [if_true, lt_irrefl, if_false]
        split_ifs with hs0
        · refine ⟨0, ?_⟩
          rw [Nat.cast_add, Nat.cast_add, Nat.cast_mul, Nat.cast_mul, Nat.cast_sub he.le, Nat.cast_sub (by omega : 1 ≤ s),
            Nat.cast_sub (by omega : 1 ≤ o.P), hqz]
          push_cast; ring
        · obtain rfl : s = 0 := by omega
          refine ⟨1, ?_⟩
          rw [Nat.cast_add, Nat.cast_add, Nat.cast_mul, Nat.cast_mul, Nat.cast_sub he.le, Nat.cast_sub (by omega : 1 ≤ o.m),
            Nat.cast_sub (by omega : 1 ≤ o.P), hqz]
          push_cast; ring
      · rw [if_neg (by omega), if_pos hu0]
        refine ⟨0, ?_⟩
        rw [Nat.cast_add, Nat.cast_add, Nat.cast_mul, Nat.cast_mul, Nat.cast_sub he.le, Nat.cast_sub (by omega : 1 ≤ u)]
        push_cast; ring
    rcases Nat.eq_zero_or_pos r with h0 | h0
    · subst h0
      unfold blks at hd
      simp only [if_true, true_and, Nat.zero_add] at hd ⊢
      by_cases hodd : o.n % 2 = 1
      · have hD0 : o.D0 % 2 = 1 := by omega
        simp only [hodd, hD0, if_true, and_true]
        by_cases hk0 : d = 0
        · subst hk0
          simp
          have := goodp 0 (by omega)
          simpa using this
        · rw [if_pos (by omega : 1 ≤ d)]
          by_cases hk1 : d % 2 = 1
          · rw [if_neg (by omega), if_pos hk1]
            exact goodp _ (by omega)
          · have he : 0 < (d + 1) / 2 := by omega
            simp only [he, true_and]
            rw [if_pos (by omega), if_neg hk1, if_neg (by omega), show (d + 1) / 2 = d / 2 by omega]
            exact goodn _ (by omega) (by omega)
      · have hD0 : ¬ o.D0 % 2 = 1 := by omega
        simp only [hodd, hD0, if_false, and_false, Nat.cast_zero, _root_.add_zero, Nat.add_zero]
        by_cases hk1 : d = 1
        · subst hk1
          simp only [if_true]
          have g := goodp (o.n / 2) (Nat.div_lt_self (by omega) (by omega))
          push_cast at g
          norm_num
          exact ⟨by simpa using g.1, g.2⟩
        · rw [if_neg hk1]
          by_cases hk2 : d % 2 = 0
          · rw [if_neg (by omega), if_pos hk2]
            exact goodp _ (by omega)
          · have he : 0 < d / 2 := by omega
            simp only [he, true_and]
            rw [if_pos (by omega), if_neg hk2, if_neg (by omega)]
            exact goodn _ (by omega) (by omega)
    · have h00 : r ≠ 0 := by omega
      have := hrb h0
      have hDk := h.shw.D_even hcs hv' h0
      rw [f5] at hDk
      unfold blks at hd
      simp only [h00, if_false, false_and, Nat.cast_zero, _root_.add_zero, Nat.add_zero] at hd ⊢
      by_cases hk2 : d % 2 = 0
      · rw [if_neg (by omega), if_pos hk2]
        exact goodp _ (by omega)
      · have he : 0 < r + d / 2 := by omega
        simp only [he, true_and]
        rw [if_pos (by omega), if_neg hk2, if_neg (by omega)]
        exact goodn _ (by omega) (by omega)

end Cent
end Fftwpp
