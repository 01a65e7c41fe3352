import Verif.Proof.Bij

/-! # C05, C06, C07: parameters, residue loop, index -/

namespace Fftwpp
open Finset

/-- **C05.** For all `1 ≤ L ≤ M`, `m ≥ 1` (centered or not) the triple `(p,n,q)` satisfies: `p` is the least number of
size-`m` blocks covering `L`; the padded length `m*q` is at least `M`, exceeds it by less than one multiple of the block
size `m*(q/n)`, and `q=1` exactly when one block of length `m ≥ M` is enough. -/
theorem C05_parameters {L M m : ℕ} {centered : Bool} (hL : 0 < L) (hLM : L ≤ M) (hm : 0 < m) {p n q : ℕ}
    (h : parameters L M m centered = (p, n, q)) :
    (L ≤ m * p ∧ ∀ p', L ≤ m * p' → p ≤ p') ∧ M ≤ m * q ∧ n ∣ q ∧ m * q < M + m * (q / n) ∧ (q = 1 ↔ M ≤ m) := by
  unfold parameters at h
  simp only [Prod.mk.injEq] at h
  obtain ⟨h1, h2, h3⟩ := h
  have hp1 := ceilquotient_le (a := L) hm
  have hp2 := ceilquotient_lt hm hL
  have hp3 := ceilquotient_pos hm hL
  rw [h1] at hp1 hp2 hp3
  rw [h1] at h2 h3
  generalize hP : (if (centered = true ∧ p = 2 * (p / 2)) ∨ p = 2 then p / 2 else p) = P at h2 h3
  have hPpos : 0 < P := by rw [← hP]; split_ifs <;> omega
  have hPp : P = 1 → p ≤ 2 := by rw [← hP]; split_ifs <;> omega
  have hPm : 0 < P * m := Nat.mul_pos hPpos hm
  have hn1 := ceilquotient_le (a := M) hPm
  have hn2 := ceilquotient_lt hPm (by omega : 0 < M)
  have hn3 := ceilquotient_pos hPm (by omega : 0 < M)
  rw [h2] at hn1 hn2 hn3
  rw [h2] at h3
  have hmq : m * q = P * m * n := by rw [← h3]; ring
  refine ⟨⟨hp1, ?_⟩, by omega, ⟨P, by rw [← h3]; ring⟩, ?_, ?_⟩
  · intro p' hp'
    by_contra hlt
    have : m * p' ≤ m * (p - 1) := Nat.mul_le_mul_left _ (by omega)
    omega
  · have : q / n = P := by rw [← h3]; exact Nat.mul_div_cancel _ hn3
    rw [this, hmq]
    obtain ⟨k, rfl⟩ : ∃ k, n = k + 1 := ⟨n - 1, by omega⟩
    rw [Nat.add_sub_cancel] at hn2
    rw [Nat.mul_succ, Nat.mul_comm m P]
    omega
  · constructor
    · intro hq
      rw [hq] at hmq
      omega
    · intro hM
      have hp : p = 1 := by
        by_contra hne
        have : m * 1 ≤ m * (p - 1) := Nat.mul_le_mul_left _ (by omega)
        omega
      have hP1 : P = 1 := by rw [← hP, hp]; simp
      rw [hP1, Nat.one_mul] at hn2
      have : n = 1 := by
        by_contra hne
        have : m * 1 ≤ m * (n - 1) := Nat.mul_le_mul_left _ (by omega)
        omega
      rw [← h3, hP1, this]

example : parameters 7 13 4 false = (2, 4, 4) := by decide

/-- **C05**, second part: the only ways in which the constructor exits are `M < L`, `S < C`, and (when `q > 1`) a value of
`D` rejected by `valid`; the final "Invalid parameters" test `q*m < M` never fires. -/
theorem C05_constructor_exit {L M : ℕ} {app : App} {C S m D : ℕ} {inplace : Bool} (hL : 0 < L) (hm : 0 < m) (hS : S ≠ 0) :
    Fft.new L M app C S m D inplace = .error .exit ↔
      M < L ∨ S < C ∨ (1 < (parameters L M m false).2.2 ∧
        fftPadValid (parameters L M m false).2.2 (parameters L M m false).2.1 D S = false) := by
  unfold Fft.new
  simp only [if_neg hS]
  by_cases h1 : M < L
  · simp [h1]
  by_cases h2 : S < C
  · simp [h1, h2]
  have hreach := (C05_parameters hL (by omega) hm (p := (parameters L M m false).1) (n := (parameters L M m false).2.1)
    (q := (parameters L M m false).2.2) rfl).2.1
  rw [if_neg h1, if_neg h2, if_neg (by omega)]
  generalize hpar : parameters L M m false = x at hreach ⊢
  obtain ⟨p, n, q⟩ := x
  simp only at hreach ⊢
  by_cases h3 : 1 < q ∧ fftPadValid q n D S = false
  · simp [h3]
  · rw [if_neg h3, if_neg (by rw [Nat.mul_comm]; omega)]
    constructor
    · intro h4
      by_cases h5 : q = 1
      · rw [if_pos h5] at h4; simp at h4
      · rw [if_neg h5] at h4
        by_cases h6 : D = 0
        · rw [if_pos h6] at h4; simp at h4
        · rw [if_neg h6] at h4; simp at h4
    · rintro (h4 | h4 | h4)
      · exact absurd h4 h1
      · exact absurd h4 h2
      · exact absurd h4 h3

/-- `valid` accepts `D=0` (when `S=1`), which is a division by zero. -/
theorem C05_D_zero_is_ub : Fft.new 4 8 ⟨2, 1, false⟩ 1 1 4 0 true = .error .ub := by rfl

/-- What the constructor stores. -/
theorem Fft.new_fields {L M : ℕ} {app : App} {C S0 m D : ℕ} {inplace : Bool} {o : Fft}
    (h : Fft.new L M app C S0 m D inplace = .ok o) :
    o.L = L ∧ o.m = m ∧ o.C = C ∧ o.S = (if S0 = 0 then C else S0) ∧ (o.p, o.n, o.q) = parameters L M m false ∧
    o.inplace = inplace ∧ o.A = app.A ∧ o.B = app.B ∧ o.D = (if o.q = 1 then 1 else D) ∧ L ≤ M ∧ 0 < L ∧ 0 < m := by
  unfold Fft.new at h
  generalize hpar : parameters L M m false = x at h ⊢
  obtain ⟨p, n, q⟩ := x
  simp only at h ⊢
  generalize (if S0 = 0 then C else S0) = S at h ⊢
  split_ifs at h with h1 h2 h3 h4 h5 h6 h7
  · simp only [Except.ok.injEq] at h
    subst h
    simp [Fft.newExplicit, h6]; omega
  · simp only [Except.ok.injEq] at h
    subst h
    simp [Fft.newHybrid, h6]; omega

namespace Fft
variable {o : Fft}

theorem WF.index_mod (h : o.WF) {r i : ℕ} (hv : o.Visit r) (hi : i < o.noutputs r) :
    (o.n : ℤ) ∣ (o.index r i : ℤ) - o.res r (i / o.l * o.P) := by
  obtain ⟨h1, _⟩ := h.index_res hv hi
  have hqn : (o.n : ℤ) ∣ o.q := ⟨o.P, by rw [h.q_eq]; push_cast; ring⟩
  have hMn : (o.n : ℤ) ∣ o.M := hqn.trans ⟨o.m, by rw [h.M_eq]; push_cast; ring⟩
  have h2 : (o.n : ℤ) ∣ (o.index r i : ℤ) - o.res r (i / o.m) := by
    have := dvd_add (hMn.trans h1) (Dvd.dvd.mul_right hqn (i % o.m : ℕ))
    rwa [show (o.index r i : ℤ) - (o.q * (i % o.m : ℕ) + o.res r (i / o.m)) + o.q * (i % o.m : ℕ) =
      (o.index r i : ℤ) - o.res r (i / o.m) by ring] at this
  by_cases hP : o.P = 1
  · rwa [h.l_eq, hP, Nat.mul_one, Nat.mul_one]
  · have hp : 2 < o.p := by
      by_contra hp
      exact hP (h.P_one (by omega))
    have hc := h.conj_false_iff.2 (Or.inr hp)
    have hPp := h.P_pos
    have hd : i / o.m / o.P = i / o.l := by rw [h.l_eq, Nat.div_div_eq_div_mul]
    unfold res at h2 ⊢
    rw [hc] at h2 ⊢
    simp only [Bool.false_eq_true, if_false] at h2 ⊢
    rw [Nat.mul_mod_left, Nat.mul_div_cancel _ hPp, Nat.mul_zero, Nat.zero_add]
    rw [hd] at h2
    have h3 : (o.n : ℤ) ∣ ((o.n * (i / o.m % o.P) : ℕ) : ℤ) := ⟨(i / o.m % o.P : ℕ), by push_cast; ring⟩
    have := dvd_add h2 h3
    rwa [show (o.index r i : ℤ) - ((o.n * (i / o.m % o.P) + (r + i / o.l) : ℕ) : ℤ) + ((o.n * (i / o.m % o.P) : ℕ) : ℤ) =
      (o.index r i : ℤ) - ((r + i / o.l : ℕ) : ℤ) by push_cast; ring] at this

theorem WF.res_inj_n (h : o.WF) {r r' d d' : ℕ} (hv : o.Visit r) (hv' : o.Visit r') (hd : d < if r = 0 then o.D0 else o.D)
    (hd' : d' < if r' = 0 then o.D0 else o.D) (hdvd : (o.n : ℤ) ∣ o.res r (d * o.P) - o.res r' (d' * o.P)) :
    r = r' ∧ d = d' := by
  have hPp := h.P_pos
  have hk : d * o.P < o.rows r := by unfold rows; rw [Nat.mul_comm]; exact Nat.mul_lt_mul_of_pos_left hd hPp
  have hk' : d' * o.P < o.rows r' := by unfold rows; rw [Nat.mul_comm]; exact Nat.mul_lt_mul_of_pos_left hd' hPp
  have hq : (o.q : ℤ) ∣ o.res r (d * o.P) - o.res r' (d' * o.P) := by
    by_cases hP : o.P = 1
    · rwa [h.q_eq, hP, Nat.one_mul, Nat.mul_one, Nat.mul_one, ← Nat.mul_one d, ← Nat.mul_one d', ← hP]
    · have hp : 2 < o.p := by
        by_contra hp
        exact hP (h.P_one (by omega))
      have hc := h.conj_false_iff.2 (Or.inr hp)
      have hb : ∀ {r d}, o.Visit r → (d < if r = 0 then o.D0 else o.D) → r + d < o.n := by
        intro r d hv hd
        obtain ⟨t, ht⟩ := h.n_D0
        rcases Nat.eq_zero_or_pos r with h0 | h0
        · rw [if_pos h0] at hd
          have : 0 ≤ t * o.D := Nat.zero_le _
          omega
        · have h1 := h.visit_bound hv h0
          rw [h.R_nconj hc, h.dr_nconj hc] at h1
          rw [if_neg (by omega)] at hd
          omega
      have b1 := hb hv hd
      have b2 := hb hv' hd'
      unfold res at hdvd ⊢
      rw [hc] at hdvd ⊢
      simp only [Bool.false_eq_true, if_false, Nat.mul_mod_left, Nat.mul_div_cancel _ hPp, Nat.mul_zero, Nat.zero_add] at hdvd ⊢
      have h0 : ((r + d : ℕ) : ℤ) - ((r' + d' : ℕ) : ℤ) = 0 := by
        refine Int.eq_zero_of_abs_lt_dvd hdvd ?_
        rw [abs_lt]; constructor <;> omega
      rw [h0]; exact dvd_zero _
  obtain ⟨e1, e2⟩ := h.res_inj hv hv' hk hk' hq
  exact ⟨e1, Nat.eq_of_mul_eq_mul_right hPp e2⟩

/-- **C06.** For every constructed transform: the residue loop `for(r=0; r < R; r += increment(r))` terminates (the list of
visited `r` no longer depends on the number of steps allowed), `nloops()` is the number of its iterations, `⌈n/D⌉`, and
every residue `ρ < n` is processed exactly once: there is exactly one visited `r` and one sub-block `d` of that block
(of `blocksize(r)` outputs) whose outputs all have frequencies congruent to `ρ` modulo `n`. -/
theorem C06_residue_loop {L M : ℕ} {app : App} {C S0 m D : ℕ} {inplace : Bool} (hC : 0 < C)
    (hnew : Fft.new L M app C S0 m D inplace = .ok o) :
    (∀ fuel, o.nloops ≤ fuel → o.visited fuel 0 = o.visited o.nloops 0) ∧
    o.nloops = (o.visited o.nloops 0).length ∧ o.nloops = ceilquotient o.n o.D ∧
    ∀ ρ < o.n, ∃! x : ℕ × ℕ, x.1 ∈ o.visited o.nloops 0 ∧ x.2 * o.blocksize x.1 < o.noutputs x.1 ∧
      ∀ i, i / o.blocksize x.1 = x.2 → o.index x.1 i % o.n = ρ := by
  have h := Fft.WF.of_new hC hnew
  obtain ⟨t, h1, h2, h3⟩ := h.visited_eq
  have hst : o.starts = o.visited (t + 1) 0 := by
    obtain ⟨t', g1, g2, g3⟩ := h.starts_eq
    have : t' = t := Nat.eq_of_mul_eq_mul_right h.D_pos (by omega)
    rw [g3, h3 _ (by omega), this]
  have hn : o.nloops = t + 1 := by
    show o.starts.length = _
    rw [hst, h3 _ (by omega)]
    simp
  have hmem : ∀ {r}, r ∈ o.visited o.nloops 0 ↔ o.Visit r := by
    intro r; rw [hn, ← hst, h.mem_starts]
  have hlpos : 0 < o.l := by rw [h.l_eq]; exact Nat.mul_pos h.m_pos h.P_pos
  have hsub : ∀ {r d : ℕ}, d * o.blocksize r < o.noutputs r ↔ d < if r = 0 then o.D0 else o.D := by
    intro r d
    unfold noutputs blocksize
    rw [Nat.mul_comm, Nat.mul_lt_mul_left hlpos]
  refine ⟨?_, ?_, ?_, ?_⟩
  · intro fuel hf
    rw [hn] at hf ⊢
    rw [h3 _ (by omega), h3 _ (by omega)]
  · rw [hn, h3 _ (by omega)]; simp
  · rw [hn, h1]
    unfold ceilquotient
    have hD := h.D_pos
    have := h.D0_pos
    have := h.D0_le
    rw [show o.D0 + t * o.D + o.D - 1 = (o.D0 - 1) + (t + 1) * o.D by
      have : (t + 1) * o.D = t * o.D + o.D := by ring
      omega, Nat.add_mul_div_right _ _ hD, Nat.div_eq_of_lt (by omega)]
    omega
  · intro ρ hρ
    have hρM : ρ < o.M := lt_of_lt_of_le hρ (by
      rw [h.M_eq, h.q_eq]
      calc o.n = 1 * (1 * o.n) := by ring
        _ ≤ o.m * (o.P * o.n) := Nat.mul_le_mul h.m_pos (Nat.mul_le_mul h.P_pos le_rfl))
    obtain ⟨r, i, hv, hi, he⟩ := h.index_surj hρM
    have hil : i / o.l < if r = 0 then o.D0 else o.D := by
      refine Nat.div_lt_of_lt_mul ?_
      exact hi
    have hcong : ∀ {r' i' : ℕ}, o.Visit r' → i' < o.noutputs r' →
        (o.index r' i' % o.n = ρ ↔ (o.n : ℤ) ∣ o.res r' (i' / o.l * o.P) - ρ) := by
      intro r' i' hv' hi'
      have h4 := h.index_mod hv' hi'
      constructor
      · intro h5
        have h6 : (o.n : ℤ) ∣ (o.index r' i' : ℤ) - ρ := by
          rw [← h5]
          exact ⟨(o.index r' i' / o.n : ℕ), by
            have := Nat.div_add_mod (o.index r' i') o.n
            zify at this ⊢
            linarith⟩
        have := dvd_sub h6 h4
        rwa [show (o.index r' i' : ℤ) - ρ - ((o.index r' i' : ℤ) - o.res r' (i' / o.l * o.P)) =
          o.res r' (i' / o.l * o.P) - ρ by ring] at this
      · intro h5
        have := dvd_add h4 h5
        rw [show (o.index r' i' : ℤ) - o.res r' (i' / o.l * o.P) + (o.res r' (i' / o.l * o.P) - ρ) =
          (o.index r' i' : ℤ) - ρ by ring] at this
        have h6 : o.index r' i' ≡ ρ [MOD o.n] := by
          rw [Nat.modEq_iff_dvd]
          rw [← dvd_neg]
          simpa using this
        have := h6
        unfold Nat.ModEq at this
        rw [this, Nat.mod_eq_of_lt hρ]
    have h0 : (o.n : ℤ) ∣ o.res r (i / o.l * o.P) - ρ := (hcong hv hi).1 (by rw [he, Nat.mod_eq_of_lt hρ])
    refine ⟨(r, i / o.l), ⟨hmem.2 hv, hsub.2 hil, ?_⟩, ?_⟩
    · intro i' hi'
      have hi'l : i' < o.noutputs r := by
        unfold noutputs blocksize at *
        have := Nat.div_add_mod i' o.l
        have hm := Nat.mod_lt i' hlpos
        simp only at hi'
        rw [hi'] at this
        calc i' < o.l * (i / o.l + 1) := by rw [Nat.mul_succ]; omega
          _ ≤ _ := Nat.mul_le_mul_left _ hil
      rw [hcong hv hi'l]
      unfold blocksize at hi'
      simp only at hi'
      rw [hi']; exact h0
    · rintro ⟨r', d'⟩ ⟨g1, g2, g3⟩
      simp only at g1 g2 g3
      rw [hmem] at g1
      have g4 := hsub.1 g2
      have hdl : d' * o.l / o.l = d' := Nat.mul_div_cancel _ hlpos
      have g5 := (hcong g1 g2).1 (g3 (d' * o.blocksize r') (by unfold blocksize; exact hdl))
      unfold blocksize at g5
      rw [hdl] at g5
      have g6 := dvd_sub g5 h0
      rw [show o.res r' (d' * o.P) - (ρ : ℤ) - (o.res r (i / o.l * o.P) - ρ) =
        o.res r' (d' * o.P) - o.res r (i / o.l * o.P) by ring] at g6
      obtain ⟨e1, e2⟩ := h.res_inj_n g1 hv g4 hil g6
      rw [e1, e2]

/-- A case of C06 with conjugate pairs and a short first block: n=6, D=4, D0=2, two iterations. -/
example : ∃ o, Fft.new 4 24 ⟨2, 1, false⟩ 1 1 4 4 true = .ok o ∧ o.n = 6 ∧ o.D0 = 2 ∧ o.nloops = 2 ∧ o.R = 3 := by
  refine ⟨_, rfl, ?_, ?_, ?_, ?_⟩ <;> rfl

/-- **C07.** Over all blocks `r` of the residue loop and all `i < noutputs(r)`, `index(r,i)` takes every value in `[0,N)`,
`N=m*q`, exactly once. -/
theorem C07_index_bijective {L M : ℕ} {app : App} {C S0 m D : ℕ} {inplace : Bool} (hC : 0 < C)
    (hnew : Fft.new L M app C S0 m D inplace = .ok o) :
    (∀ r ∈ o.visited o.nloops 0, ∀ i < o.noutputs r, o.index r i < m * o.q) ∧
    ∀ k < m * o.q, ∃! x : ℕ × ℕ, x.1 ∈ o.visited o.nloops 0 ∧ x.2 < o.noutputs x.1 ∧ o.index x.1 x.2 = k := by
  have h := Fft.WF.of_new hC hnew
  have hf := Fft.new_fields hnew
  have h6 := (C06_residue_loop hC hnew).1
  have hmem : ∀ {r}, r ∈ o.visited o.nloops 0 ↔ o.Visit r := by
    intro r
    rw [← h.mem_starts]
    unfold starts
    rcases Nat.le_total o.nloops (o.R + 1) with h1 | h1
    · rw [h6 _ h1]
    · obtain ⟨t, g1, g2, g3⟩ := h.visited_eq
      have : t * 1 ≤ t * o.dr := Nat.mul_le_mul_left _ h.dr_pos
      rw [g3 _ (by omega), g3 _ (by omega)]
  have hM : m * o.q = o.M := by rw [h.M_eq, hf.2.1]
  rw [hM]
  refine ⟨fun r hr i hi => (h.index_res (hmem.1 hr) hi).2, ?_⟩
  intro k hk
  obtain ⟨r, i, hv, hi, he⟩ := h.index_surj hk
  refine ⟨(r, i), ⟨hmem.2 hv, hi, he⟩, ?_⟩
  rintro ⟨r', i'⟩ ⟨g1, g2, g3⟩
  obtain ⟨e1, e2⟩ := h.index_inj (hmem.1 g1) hv g2 hi (g3.trans he.symm)
  simp only at e1 e2
  rw [e1, e2]

end Fft
end Fftwpp
