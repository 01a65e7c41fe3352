import Verif.Proof.RFwd

/-! Forward transforms of real data, `p≤2`. -/

namespace Fftwpp
open Finset

/-- `row_fft` at any integer frequency. -/
theorem row_fft_int {N L m p q : ℕ} (hN : N = m * q) (hq : q ≠ 0) (hL : L ≤ m * p) (x : ℕ → ℂ) (k i : ℤ) :
    ∑ s ∈ range m, fillv N L m p x k s * w m (s * i) = paddedDFT N L x (q * i + k) := by
  unfold paddedDFT fillv
  rw [sum_trunc L (m * p) hL, sum_split]
  refine sum_congr rfl fun s _ => ?_
  rw [sum_mul]
  refine sum_congr rfl fun u _ => ?_
  split_ifs with h
  · rw [mul_assoc]
    congr 1
    have h1 : w m (s * i) = w N (((s + m * u : ℕ) : ℤ) * (q * i)) := by
      have h2 : (((s + m * u : ℕ) : ℤ) * (q * i)) = (q : ℤ) * (s * i) + (N : ℤ) * (u * i) := by
        rw [hN]; push_cast; ring
      rw [h2, w_add_mul, hN, w_base m q hq]
    rw [h1, ← w_add]
    congr 1
    ring
  · simp

namespace Re
variable {o : Re} {f F U W : Ptr} {mem : Mem} {r : ℕ}

/-- Rows of the output and work arrays. -/
def nrows (o : Re) : ℕ := if o.n = 2 then (if 2 < o.p then (o.p / 2 + 1) * o.m else o.e) else o.l * o.D

theorem WF.outputSize_eq (w' : o.WF) : o.outputSize = o.S * o.nrows := by
  unfold outputSize nrows
  rw [w'.b_eq]
  split_ifs <;> ring

/-- Arguments `r` that occur. -/
def Visit (o : Re) (r : ℕ) : Prop := r = 0 ∨ 2 * r = o.n ∨ (0 < r ∧ 2 * r < o.n ∧ r + o.nd r ≤ (o.n - 1) / 2 + 1)

theorem WF.D0_facts (w' : o.WF) (hq : o.q ≠ 1) : 0 < o.D0 ∧ o.D0 ≤ o.D ∧ (o.D0 = o.D → o.D ∣ (o.n - 1) / 2) ∧
    (2 < o.n → ∃ t, (o.n - 1) / 2 = o.D0 + o.D * t) := by
  have hD := w'.D_pos
  have h := w'.D0_eq hq
  split_ifs at h with h0
  · refine ⟨by omega, by omega, fun _ => Nat.dvd_of_mod_eq_zero h0, fun hn => ?_⟩
    obtain ⟨t, ht⟩ := Nat.dvd_of_mod_eq_zero h0
    have : t ≠ 0 := by rintro rfl; rw [Nat.mul_zero] at ht; omega
    exact ⟨t - 1, by rw [h, ht]; obtain ⟨t', rfl⟩ := Nat.exists_eq_succ_of_ne_zero this; simp [Nat.mul_succ]; ring⟩
  · have hlt := Nat.mod_lt ((o.n - 1) / 2) hD
    refine ⟨by omega, by omega, fun e => by omega, fun _ => ⟨(o.n - 1) / 2 / o.D, ?_⟩⟩
    rw [h]; exact (Nat.mod_add_div _ _).symm

theorem WF.q_one_n (w' : o.WF) (hq : o.q = 1) : o.n = 1 ∧ o.P = 1 := by
  have h := w'.q_eq
  rw [hq] at h
  exact ⟨Nat.eq_one_of_mul_eq_one_left h.symm, Nat.eq_one_of_mul_eq_one_right h.symm⟩

/-- The arguments visited by the loop over `r`. -/
theorem WF.visited_visit (w' : o.WF) : ∀ fuel r0, (r0 = 0 ∨ r0 = 1 ∨ ∃ t, r0 = 1 + o.D0 + o.D * t) → ∀ r ∈ o.visited fuel r0, o.Visit r := by
  intro fuel
  induction fuel with
  | zero => intro r0 _ r hr; simp [visited] at hr
  | succ fuel ih =>
    intro r0 h0 r hr
    rw [visited] at hr
    split_ifs at hr with hR
    · have hR' : 2 * r0 ≤ o.n := by
        rw [w'.R_eq] at hR
        unfold ceilquotient at hR
        omega
      rcases List.mem_cons.1 hr with rfl | hr
      · by_cases hz : r = 0
        · exact Or.inl hz
        · by_cases h2 : 2 * r = o.n
          · exact Or.inr (Or.inl h2)
          · refine Or.inr (Or.inr ⟨by omega, by omega, ?_⟩)
            have hq : o.q ≠ 1 := fun h => by have := (w'.q_one_n h).1; omega
            obtain ⟨g1, g2, g3, g4⟩ := w'.D0_facts hq
            obtain ⟨t, ht⟩ := g4 (by omega)
            unfold nd
            rcases h0 with h0 | rfl | ⟨u, rfl⟩
            · exact absurd h0 hz
            · split_ifs with h1
              · rw [ht]
                generalize o.D * t = z
                omega
              · have : o.D0 = o.D := by by_contra h; exact h1 ⟨rfl, h⟩
                rw [ht]
                generalize o.D * t = z
                omega
            · rw [if_neg (by rintro ⟨h, _⟩; generalize o.D * u = z at h; omega)]
              have hu : u < t := by
                by_contra hc
                have := Nat.mul_le_mul_left o.D (Nat.le_of_not_lt hc)
                omega
              have := Nat.mul_le_mul_left o.D hu
              rw [Nat.mul_succ] at this
              omega
      · refine ih _ ?_ r hr
        unfold increment
        rcases h0 with rfl | rfl | ⟨u, rfl⟩
        · exact Or.inr (Or.inl (by simp))
        · exact Or.inr (Or.inr ⟨0, by simp⟩)
        · by_cases hq : o.q = 1
          · refine Or.inr (Or.inr ?_)
            by_cases hgt : 1 < 1 + o.D0 + o.D * u
            · rw [if_pos hgt]; exact ⟨u + 1, by rw [Nat.mul_succ]; omega⟩
            · rw [if_neg hgt, if_pos (by omega)]; exact ⟨0, by omega⟩
          · have := (w'.D0_facts hq).1
            rw [if_pos (by omega)]
            exact Or.inr (Or.inr ⟨u + 1, by rw [Nat.mul_succ]; omega⟩)
    · simp at hr

/-- Precondition of a call. -/
structure Pre (o : Re) (mem : Mem) (f F W : Ptr) : Prop where
  fF : f.buf ≠ F.buf
  fW : f.buf ≠ W.buf
  sep : SepPtr o.inplace W F
  vf : o.ValidF mem f
  vF : mem.block F o.outputSize
  vW : mem.block W o.outputSize

theorem Pre.size {m' : Mem} (h : o.Pre mem f F W) (hs : m'.size = mem.size) : o.Pre m' f F W :=
  ⟨h.fF, h.fW, h.sep, fun j hj c hc => h.vf.get hs hj hc, fun i hi => Mem.valid_of_size hs (h.vF i hi),
    fun i hi => Mem.valid_of_size hs (h.vW i hi)⟩

theorem validW_of (w' : o.WF) {p : Ptr} {K : ℕ} (h : mem.block p o.outputSize) (hK : K ≤ o.nrows) : o.ValidW mem p K := by
  intro s hs c hc
  refine h _ ?_
  rw [w'.outputSize_eq]
  exact radix_lt (lt_of_lt_of_le hc w'.C_le_S) (by omega)

/-- Row size for the padding. -/
def pm (o : Re) : ℕ := if o.q = 2 then o.m / 2 else o.m

/-- Padding is in place in the work array. -/
def Padded (o : Re) (mem : Mem) (W : Ptr) : Prop :=
  o.inplace = false → o.q ≠ 1 → o.p = 1 → ∀ d < o.D, ∀ s < o.pm, o.L ≤ s → ∀ c < o.C, mem.val (W + (o.S * (o.pm * d + s) + c)) = 0

section le2
variable (w' : o.WF) (hp : o.p ≤ 2)
include w' hp

theorem WF.l_m (hq : o.q ≠ 1) : o.l = o.m := by
  rw [w'.l_eq, if_neg hq, w'.P_one hp w'.p_pos, Nat.mul_one]

theorem WF.nrows_eq : o.nrows = if o.n = 2 then o.e else o.l * o.D := by
  unfold nrows
  rw [if_neg (by omega : ¬ 2 < o.p)]

theorem WF.e_le : o.e ≤ o.nrows := by
  have hD := w'.D_pos
  have hm := w'.m_pos
  have he := w'.e_eq
  rw [w'.nrows_eq hp]
  split_ifs with h2
  · exact le_rfl
  · by_cases hq : o.q = 1
    · have := w'.l_eq
      rw [if_pos hq] at this
      rw [this]; exact Nat.le_mul_of_pos_right _ hD
    · rw [w'.l_m hp hq]
      exact le_trans (by omega) (Nat.le_mul_of_pos_right _ hD)

theorem WF.n_two (hq : o.q ≠ 1) : 2 ≤ o.n := by
  have := w'.q_n hp; have := w'.n_pos; omega

theorem WF.m_le (hn : 2 < o.n) : o.m * o.D ≤ o.nrows := by
  have hq : o.q ≠ 1 := by have := w'.q_n hp; omega
  rw [w'.nrows_eq hp, if_neg (by omega), w'.l_m hp hq]

theorem WF.nd_le (hq : o.q ≠ 1) (r : ℕ) : 0 < o.nd r ∧ o.nd r ≤ o.D := by
  have h := w'.D0_facts hq
  have := w'.D_pos
  unfold nd; split_ifs <;> omega

theorem WF.rows_le (hn : 2 < o.n) (r : ℕ) : o.m * o.nd r ≤ o.nrows := by
  have hq : o.q ≠ 1 := by have := w'.q_n hp; omega
  exact le_trans (Nat.mul_le_mul_left _ (w'.nd_le hp hq r).2) (w'.m_le hp hn)

theorem WF.h_le : o.h ≤ o.nrows := le_trans (by unfold h; omega) (w'.e_le hp)

theorem WF.nd_S (hq : o.q ≠ 1) (r : ℕ) : o.S = 1 ∨ o.nd r = 1 := by
  by_cases hS : o.S = 1
  · exact Or.inl hS
  · right
    have := w'.D_one hq hS
    have := w'.nd_le hp hq r
    omega

/-- The rows of an ordinary call. -/
theorem rows_ok {row : Ptr → ℕ → Cmd Unit} {Q : Unit → Mem → Prop} (hq : o.q ≠ 1)
    (hrow : ∀ U r mem, 0 < r → r < o.q → f.buf ≠ U.buf → o.ValidF mem f → o.ValidW mem U o.m → o.ZeroW mem U o.m →
      (row U r).Ok mem (fun _ m' => o.RowPost mem m' U o.m (fun s c => fillv o.M o.L o.m o.p (o.X mem f c) r s)))
    (hr : 0 < r) (hrq : r + o.nd r ≤ o.q) (hfW : f.buf ≠ W.buf) (vf : o.ValidF mem f) (vW : o.ValidW mem W (o.m * o.nd r))
    (hz : o.inplace = false → o.p = 1 → ∀ d < o.nd r, ∀ s < o.m, o.L ≤ s → ∀ c < o.C, mem.val (W + (o.S * (o.m * d + s) + c)) = 0)
    (hQ : ∀ m', mem.Upd m' (fun p => ∃ d < o.nd r, ∃ s c, o.Jrow o.m s ∧ c < o.C ∧ p = W + (o.S * (o.m * d + s) + c)) →
      (∀ d < o.nd r, ∀ s < o.m, ∀ c < o.C, m'.val (W + (o.S * (o.m * d + s) + c)) =
        fillv o.M o.L o.m o.p (o.X mem f c) ((r + d : ℕ) : ℤ) s) → Q () m') :
    (seqLoop (rng 0 (o.nd r)) fun d => row (W + o.m * d) (r + d)).Ok mem Q := by
  have hCS := w'.C_le_S
  have hadr : ∀ d < o.nd r, ∀ i : ℕ, ∀ c : ℕ, W + o.m * d + (o.S * i + c) = W + (o.S * (o.m * d + i) + c) := by
    intro d hd i c
    rw [Ptr.add_add]
    congr 1
    rcases w'.nd_S hp hq r with h | h
    · rw [h]; ring
    · have : d = 0 := by omega
      subst this; simp
  refine Fft.seqLoop_rng (fun k m1 => mem.Upd m1 (fun p => ∃ d < k, ∃ s c, o.Jrow o.m s ∧ c < o.C ∧ p = W + (o.S * (o.m * d + s) + c)) ∧
      ∀ d < k, ∀ s < o.m, ∀ c < o.C, m1.val (W + (o.S * (o.m * d + s) + c)) =
        fillv o.M o.L o.m o.p (o.X mem f c) ((r + d : ℕ) : ℤ) s) ⟨Mem.Upd.refl _ _, fun d hd => by omega⟩ ?_ ?_
  · rintro d m1 hd ⟨u1, e1⟩
    have hne : ∀ d' < d, ∀ s s' c c', s < o.m → s' < o.m → c < o.C → c' < o.C →
        W + (o.S * (o.m * d + s) + c) ≠ W + (o.S * (o.m * d' + s') + c') := by
      intro d' hd' s s' c c' hs hs' hc hc' e
      rw [Ptr.add_inj] at e
      obtain ⟨e1, _⟩ := radix_inj (by omega) (by omega) e
      obtain ⟨e2, _⟩ := radix_inj hs hs' e1
      omega
    have hX : ∀ c, o.X m1 f c = o.X mem f c := by
      intro c; funext j; unfold X
      congr 1
      refine cell_congr (b := W.buf) (fun p hp => u1.frame p ?_) (by simpa [dptr] using hfW)
      rintro ⟨_, _, _, _, _, _, e⟩
      exact hp (by rw [e]; simp)
    refine (hrow (W + o.m * d) (r + d) m1 (by omega) (by omega) (by simpa using hfW) (fun j hj c hc => vf.get u1.size hj hc) ?_ ?_).mono ?_
    · intro s hs c hc
      rw [hadr d hd]
      exact vW.get u1.size (radix_lt hs hd) hc
    · intro hi hp1 s hs hLs c hc
      rw [hadr d hd, u1.frame, hz hi hp1 d hd s hs hLs c hc]
      rintro ⟨d', hd', s', c', h1, h2, h3⟩
      exact hne d' hd' s s' c c' hs h1.1 hc h2 h3
    · rintro _ m2 ⟨u2, e2⟩
      refine ⟨u1.trans u2 ?_ ?_, ?_⟩
      · rintro p ⟨d', hd', h⟩; exact ⟨d', by omega, h⟩
      · rintro p ⟨s, c, h1, h2, rfl⟩
        exact ⟨d, by omega, s, c, h1, h2, hadr d hd _ _⟩
      · intro d' hd' s hs c hc
        by_cases hdd : d' = d
        · subst hdd
          rw [← hadr d' hd, e2 s hs c hc]
          simp only [hX]
        · rw [u2.frame, e1 d' (by omega) s hs c hc]
          rintro ⟨s', c', h1, h2, h3⟩
          rw [hadr d hd] at h3
          exact hne d' (by omega) s' s c' c h1.1 hs h2 hc h3.symm
  · rintro m1 ⟨u1, e1⟩
    exact hQ m1 u1 e1

/-- Transforms of the rows of an ordinary call. -/
theorem exec_rows_any {sgn : ℤ} {pl : Plan} {src dst : Ptr} {K : ℕ} (hpl : (o.S = 1 ∧ pl = ⟨o.m, sgn, K, 1, o.m, o.inplace⟩) ∨
      (K = 1 ∧ pl = ⟨o.m, sgn, o.C, o.S, 1, o.inplace⟩)) (hs : SepPtr o.inplace src dst)
    (vs : o.ValidW mem src (o.m * K)) (vd : o.ValidW mem dst (o.m * K)) {Q : Unit → Mem → Prop}
    (hQ : ∀ m', mem.Upd m' (fun p => ∃ i < o.m * K, ∃ c < o.C, p = dst + (o.S * i + c)) →
      (∀ d < K, ∀ i < o.m, ∀ c < o.C, m'.val (dst + (o.S * (o.m * d + i) + c)) =
        ∑ s ∈ range o.m, mem.val (src + (o.S * (o.m * d + s) + c)) * w o.m (sgn * s * i)) → Q () m') :
    (pl.exec src dst).Ok mem Q := by
  rcases hpl with ⟨hS, rfl⟩ | ⟨hK, rfl⟩
  · have hC := w'.C_one hS
    refine exec_rows hs ?_ ?_ ?_
    · intro i hi; have := vs i hi 0 (by omega); rwa [hS, Nat.one_mul, Nat.add_zero] at this
    · intro i hi; have := vd i hi 0 (by omega); rwa [hS, Nat.one_mul, Nat.add_zero] at this
    · intro m' u e
      refine hQ m' (u.mono ?_) ?_
      · rintro p ⟨k, hk, i, hi, rfl⟩
        exact ⟨o.m * k + i, radix_lt hi hk, 0, by omega, by rw [hS, Nat.one_mul, Nat.add_zero]⟩
      · intro d hd i hi c hc
        obtain rfl : c = 0 := by omega
        simp only [hS, Nat.one_mul, Nat.add_zero]
        exact e d hd i hi
  · subst hK
    rw [Nat.mul_one] at vs vd
    refine exec_cols w'.C_le_S hs vs vd ?_
    intro m' u e
    refine hQ m' (u.mono ?_) ?_
    · rintro p ⟨i, hi, h⟩
      exact ⟨i, by omega, h⟩
    · intro d hd i hi c hc
      obtain rfl : d = 0 := by omega
      simp only [Nat.mul_zero, Nat.zero_add]
      exact e i hi c hc

end le2

/-- What `forward(f,F,r,W)` stores in `F`. -/
def FwdOut (o : Re) (mem m' : Mem) (f F : Ptr) (r : ℕ) : Prop :=
  (r = 0 → ∀ k < o.e, ∀ c < o.C, m'.val (F + (o.S * k + c)) = paddedDFT o.M o.L (o.X mem f c) (-(o.q * k))) ∧
  (0 < r → 2 * r < o.q → ∀ d < o.nd r, ∀ l < o.m, ∀ c < o.C, m'.val (F + (o.S * (o.m * d + l) + c)) =
    paddedDFT o.M o.L (o.X mem f c) (o.q * l + (r + d))) ∧
  (0 < r → 2 * r = o.q → ∀ l < o.h, ∀ c < o.C, m'.val (F + (o.S * l + c)) = paddedDFT o.M o.L (o.X mem f c) (2 * o.q * l + r))

/-- Postcondition of `forward`. -/
structure FwdPost (o : Re) (mem m' : Mem) (f F W : Ptr) (r : ℕ) : Prop where
  upd : mem.Upd m' (fun p => InArr F o.outputSize p ∨ InArr W o.outputSize p)
  out : o.FwdOut mem m' f F r
  pad : o.Padded m' W

section le2
variable (w' : o.WF) (hp : o.p ≤ 2)
include w' hp

theorem WF.pm_D (hq : o.q = 2) : o.D = 1 := by
  have hD := w'.D_pos
  have := w'.q_n hp
  rcases w'.D_valid (by omega) with h | ⟨_, h | h⟩
  · exact h
  · omega
  · omega

theorem inArr_of {p : Ptr} {K : ℕ} (hK : K ≤ o.nrows) {i c : ℕ} (hi : i < K) (hc : c < o.C) : InArr p o.outputSize (p + (o.S * i + c)) := by
  refine ⟨_, ?_, rfl⟩
  rw [w'.outputSize_eq]
  exact radix_lt (lt_of_lt_of_le hc w'.C_le_S) (by omega)

/-- A row position (in words) is not padding. -/
theorem pad_row {d i d' s c c' : ℕ} (hd' : o.q = 2 → d' = 0) (hi : o.Jrow o.m i) (hc : c < o.C) (hc' : c' < o.C) (hL : o.L ≤ s) (hs : s < o.pm)
    (hp1 : o.p = 1) (hip : o.inplace = false) (hq : o.q = 2 → d = 0) :
    W + (o.S * (o.pm * d + s) + c) ≠ W + (o.S * (o.m * d' + i) + c') := by
  intro e
  have hCS := w'.C_le_S
  rw [Ptr.add_inj] at e
  obtain ⟨e1, _⟩ := radix_inj (by omega) (by omega) e
  have hi2 : i < o.L := by
    rcases hi.2 with h | h | h
    · rw [hip] at h; simp at h
    · exact absurd hp1 h
    · exact h
  by_cases h2 : o.q = 2
  · rw [hq h2, hd' h2] at e1; omega
  · have hpm : o.pm = o.m := by unfold pm; rw [if_neg h2]
    rw [hpm] at e1 hs
    obtain ⟨_, e3⟩ := radix_inj hs hi.1 e1
    omega

/-- Ordinary residues. -/
theorem fwd_row_ok {row : Ptr → ℕ → Cmd Unit} {pl : Plan} {Q : Unit → Mem → Prop} (hq : o.q ≠ 1)
    (hrow : ∀ U r mem, 0 < r → r < o.q → f.buf ≠ U.buf → o.ValidF mem f → o.ValidW mem U o.m → o.ZeroW mem U o.m →
      (row U r).Ok mem (fun _ m' => o.RowPost mem m' U o.m (fun s c => fillv o.M o.L o.m o.p (o.X mem f c) r s)))
    (pre : o.Pre mem f F W) (hpad : o.Padded mem W) (hv : o.Visit r) (hr : 0 < r) (h2 : 2 * r < o.q)
    (hpl : (o.S = 1 ∧ pl = ⟨o.m, 1, o.nd r, 1, o.m, o.inplace⟩) ∨ (o.nd r = 1 ∧ pl = ⟨o.m, 1, o.C, o.S, 1, o.inplace⟩))
    (hQ : ∀ m', o.FwdPost mem m' f F W r → Q () m') :
    ((seqLoop (rng 0 (o.nd r)) fun d => row (W + o.m * d) (r + d)) >>= fun _ => pl.exec W F).Ok mem Q := by
  have hqn := w'.q_n hp
  have hn : 2 < o.n := by omega
  have hq2 : o.q ≠ 2 := by omega
  have hpm : o.pm = o.m := by unfold pm; rw [if_neg hq2]
  have hnd := w'.nd_le hp hq r
  have hrl := w'.rows_le hp hn r
  have hrq : r + o.nd r ≤ o.q := by
    rcases hv with h | h | h
    · omega
    · omega
    · omega
  refine Cmd.Ok.bind (rows_ok w' hp hq hrow hr hrq pre.fW pre.vf (validW_of w' pre.vW hrl) ?_ ?_)
  · intro hi hp1 d hd s hs hL c hc
    have := hpad hi hq hp1 d (by omega) s (by omega) hL c hc
    rwa [hpm] at this
  intro m1 u1 e1
  refine exec_rows_any w' hp hpl pre.sep (fun s hs c hc => (validW_of w' pre.vW hrl).get u1.size hs hc)
    (fun s hs c hc => (validW_of w' pre.vF hrl).get u1.size hs hc) ?_
  intro m2 u2 e2
  refine hQ m2 ⟨u1.trans u2 ?_ ?_, ⟨fun h => absurd h (by omega), fun _ _ => ?_, fun _ h => absurd h (by omega)⟩, ?_⟩
  · rintro p ⟨d, hd, s, c, hs, hc, rfl⟩
    exact Or.inr (inArr_of w' hp hrl (radix_lt hs.1 hd) hc)
  · rintro p ⟨i, hi, c, hc, rfl⟩
    exact Or.inl (inArr_of w' hp hrl hi hc)
  · intro d hd l hl c hc
    rw [e2 d hd l hl c hc, show (o.q : ℤ) * l + (r + d) = o.q * l + ((r + d : ℕ) : ℤ) by push_cast; rfl,
      ← row_fft w'.M_eq (by have := w'.m_pos; omega) (by omega) w'.p_ub]
    exact sum_congr rfl fun s hs => by rw [e1 d hd s (mem_range.1 hs) c hc]
  · intro hi hq' hp1 d hd s hs hL c hc
    have hb : W.buf ≠ F.buf := by
      rcases pre.sep with h | h
      · rw [hi] at h; simp at h
      · exact h.2
    rw [u2.frame, u1.frame, hpad hi hq' hp1 d hd s hs hL c hc]
    · rintro ⟨d', hd', i, c', hi', hc', e⟩
      exact pad_row w' hp (fun h => absurd h hq2) hi' hc hc' hL hs hp1 hi (fun h => absurd h hq2) e
    · rintro ⟨i, _, c', _, e⟩
      exact hb (by simpa using congrArg Ptr.buf e)

/-- The residue `q/2`. -/
theorem fwd_half_ok {half : Cmd Unit} {Q : Unit → Mem → Prop} (hq : o.q ≠ 1) (h2 : 2 * r = o.q)
    (hhalf : o.ZeroW mem W o.h → half.Ok mem fun _ m' => o.RowPost mem m' W o.h (fun s c => fillv o.M o.L o.h (2 * o.p) (o.X mem f c) r s))
    (pre : o.Pre mem f F W) (hpad : o.Padded mem W) (hQ : ∀ m', o.FwdPost mem m' f F W r → Q () m') :
    (half >>= fun _ => o.ffth.exec W F).Ok mem Q := by
  have hqp := w'.q_pos
  have hqn := w'.q_n hp
  have hmh := w'.m_h hq (by omega)
  have hh := w'.h_pos hq (by omega)
  have hD := w'.D_pos
  have hpm : o.h ≤ o.pm := by unfold pm; split_ifs <;> omega
  have hvl := w'.h_le hp
  refine Cmd.Ok.bind ((hhalf ?_).mono ?_)
  · intro hi hp1 s hs hL c hc
    have := hpad hi hq hp1 0 hD s (by omega) hL c hc
    rwa [Nat.mul_zero, Nat.zero_add] at this
  rintro _ m1 ⟨u1, e1⟩
  rw [(w'.ffth_eq hq hp (by omega)).1]
  refine exec_cols w'.C_le_S pre.sep (fun s hs c hc => (validW_of w' pre.vW hvl).get u1.size hs hc)
    (fun s hs c hc => (validW_of w' pre.vF hvl).get u1.size hs hc) ?_
  intro m2 u2 e2
  refine hQ m2 ⟨u1.trans u2 ?_ ?_, ⟨fun h => absurd h (by omega), fun _ h => absurd h (by omega), fun _ _ => ?_⟩, ?_⟩
  · rintro p ⟨s, c, hs, hc, rfl⟩
    exact Or.inr (inArr_of w' hp hvl hs.1 hc)
  · rintro p ⟨i, hi, c, hc, rfl⟩
    exact Or.inl (inArr_of w' hp hvl hi hc)
  · intro l hl c hc
    have hN : o.M = o.h * (2 * o.q) := by rw [w'.M_eq, hmh]; ring
    have hLp : o.L ≤ o.h * (2 * o.p) := by have := w'.p_ub; rw [hmh] at this; calc o.L ≤ _ := this
                                                                                  _ = _ := by ring
    have := row_fft hN (by omega) (by omega) hLp (o.X mem f c) r l
    rw [e2 l hl c hc]
    push_cast at this
    rw [← this]
    exact sum_congr rfl fun s hs => by rw [e1 s (mem_range.1 hs) c hc]
  · intro hi hq' hp1 d hd s hs hL c hc
    have hb : W.buf ≠ F.buf := by
      rcases pre.sep with h | h
      · rw [hi] at h; simp at h
      · exact h.2
    rw [u2.frame, u1.frame, hpad hi hq' hp1 d hd s hs hL c hc]
    · rintro ⟨i, c', hi', hc', e⟩
      refine pad_row w' hp (d' := 0) (fun _ => rfl) ⟨by have := hi'.1; omega, hi'.2⟩ hc hc' hL hs hp1 hi
        (fun h => by have := w'.pm_D hp h; omega) (e.trans ?_)
      rw [Nat.mul_zero, Nat.zero_add]
    · rintro ⟨i, _, c', _, e⟩
      exact hb (by simpa using congrArg Ptr.buf e)

end le2
end Re
end Fftwpp
