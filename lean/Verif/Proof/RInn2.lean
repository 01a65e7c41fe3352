import Verif.Proof.RInn1
import Verif.Proof.RDisp

/-! Forward inner transforms of real data (`p>2`): ordinary residues. -/

namespace Fftwpp
open Finset
namespace Re
variable {o : Re} {f F U W : Ptr} {mem : Mem} {r : ℕ} {W? : Option Ptr} {Q : Unit → Mem → Prop}
local notation "conj" => starRingEnd ℂ

/-! ### Sizes -/
section
variable (w' : o.WF) (hp : 2 < o.p)
include w' hp

theorem P_big : o.P = o.p := by unfold P; rw [if_neg (by omega)]

theorem WF.rows_n (hn : o.n ≠ 2) : o.nrows = o.m * o.p * o.D := by
  unfold nrows
  rw [if_neg hn, w'.l_eq, if_neg (w'.q_ne hp), P_big w' hp]

theorem WF.rows_big : o.m * (o.p / 2 + 1) ≤ o.nrows := by
  by_cases hn : o.n = 2
  · unfold nrows; rw [if_pos hn, if_pos hp, Nat.mul_comm]
  · rw [w'.rows_n hp hn]
    exact le_trans (Nat.mul_le_mul_left _ (by omega)) (Nat.le_mul_of_pos_right _ w'.D_pos)

theorem WF.nd_leB (r : ℕ) : 0 < o.nd r ∧ o.nd r ≤ o.D := by
  have h := w'.D0_facts (w'.q_ne hp)
  have := w'.D_pos
  unfold nd; split_ifs <;> omega

theorem WF.nd_SB (r : ℕ) : o.S = 1 ∨ o.nd r = 1 := by
  by_cases hS : o.S = 1
  · exact Or.inl hS
  · right
    have := w'.D_one (w'.q_ne hp) hS
    have := w'.nd_leB hp r
    omega

theorem WF.ord_rows (hn : 2 < o.n) (r : ℕ) : o.m * (o.p * o.nd r) ≤ o.nrows := by
  rw [w'.rows_n hp (by omega), Nat.mul_assoc]
  exact Nat.mul_le_mul_left _ (Nat.mul_le_mul_left _ (w'.nd_leB hp r).2)

omit hp in
theorem rws_arr {N : ℕ} (hN : N ≤ o.nrows) {p : Ptr} (h : Rws o.C o.S U N p) : InArr U o.outputSize p := by
  obtain ⟨j, hj, c, hc, rfl⟩ := h
  refine ⟨_, ?_, rfl⟩
  rw [w'.outputSize_eq]
  exact radix_lt (lt_of_lt_of_le hc w'.C_le_S) (by omega)

omit w' in
theorem padded_big (mem : Mem) (W : Ptr) : o.Padded mem W := by
  intro _ _ h; omega
end

/-! ### The data -/

/-- The loops of an ordinary residue that fill the blocks. -/
noncomputable def iFill (o : Re) (f U : Ptr) (r : ℕ) : Cmd Unit := do
  let fr := dptr f
  let pm1 := o.p - 1
  let stop := o.L - o.m * pm1
  let Smpm1 := o.Sm * pm1
  parD (rng2 0 o.m 0 o.C) fun (s, c) => do
    let v ← getD (fr + o.S * s + c)
    setC (U + o.S * s + c) v
  parD (rng3 1 pm1 0 o.m 0 o.C) fun (t, s, c) => do
    let Zeta ← o.Zetaqp.get (pm1 * r + t)
    let v ← getD (fr + o.Sm * t + o.S * s + c)
    setC (U + o.Sm * t + o.S * s + c) (Zeta * v)
  parD (rng2 0 stop 0 o.C) fun (s, c) => do
    let Zeta ← o.Zetaqp.get (pm1 * r + pm1)
    let v ← getD (fr + Smpm1 + o.S * s + c)
    setC (U + Smpm1 + o.S * s + c) (Zeta * v)
  parD (rng2 stop o.m 0 o.C) fun (s, c) => setC (U + Smpm1 + o.S * s + c) 0

/-- The blocks. -/
noncomputable def iVal (o : Re) (mem : Mem) (f : Ptr) (r : ℕ) (j c : ℕ) : ℂ :=
  if j < o.L then o.X mem f c j * w o.q ((r : ℤ) * ((j / o.m : ℕ) : ℤ)) else 0

section
variable (w' : o.WF) (hp : 2 < o.p)
include w' hp

theorem iFill_ok (hr : 0 < r) (hrn : r < o.n) (hfU : f.buf ≠ U.buf) (vf : o.ValidF mem f) (vU : o.ValidW mem U (o.m * o.p))
    (hQ : ∀ m', mem.Upd m' (Rws o.C o.S U (o.m * o.p)) → (∀ j < o.m * o.p, ∀ c < o.C, m'.val (U + (o.S * j + c)) = o.iVal mem f r j c) → Q () m') :
    (o.iFill f U r).Ok mem Q := by
  have hCS := w'.C_le_S
  have hm := w'.m_pos
  have hub := w'.p_ub
  have hlb := w'.p_lb
  have hpm : o.m * (o.p - 1) + o.m = o.m * o.p := by
    obtain ⟨k, hk⟩ : ∃ k, o.p = k + 1 := ⟨o.p - 1, by omega⟩
    rw [hk]; simp [Nat.mul_succ]
  have hm1 : o.m * 1 ≤ o.m * (o.p - 1) := Nat.mul_le_mul_left _ (by omega)
  have hfb : ∀ i : ℕ, (dptr f + i).buf ≠ U.buf := fun i => by simpa [dptr] using hfU
  have ha3 : ∀ t s c, o.Sm * t + o.S * s + c = o.S * (o.m * t + s) + c := fun t s c => by rw [w'.Sm_eq]; ring
  have hdiv : ∀ t s, s < o.m → (o.m * t + s) / o.m = t := fun t s hs => by
    rw [Nat.mul_add_div hm, Nat.div_eq_of_lt hs, Nat.add_zero]
  unfold iFill
  refine Cmd.Ok.bind (wrows_loop w'.C_le_S (WRows.start (U := U) (v := o.iVal mem f r)) ?_ ?_)
  · intro s c hs hs' hc m1 hsz ho
    simp only [Ptr.add_add]
    refine Does.getD (vf.get hsz (by omega) hc) (hfb _) (Does.setC (vU.get hsz (by omega) hc) ?_)
    unfold iVal
    rw [if_pos (by omega), getX hfU ho, Nat.div_eq_of_lt hs']; simp
  intro m1 I1
  refine Cmd.Ok.bind (wrows_gen Cover.three w'.C_le_S I1 ?_ ?_)
  · rintro ⟨t, s, c⟩ hi m1 hsz ho
    rw [mem_rng3] at hi
    obtain ⟨⟨h1, h2⟩, ⟨_, h3⟩, _, hc⟩ := hi
    simp only at h1 h2 h3 hc
    have hj := radix_lt h3 h2
    simp only [Ptr.add_add, ha3]
    refine Does.get (w'.zqp_bd hp hr hrn h1 (by omega)) (Does.getD (vf.get hsz (by omega) hc) (hfb _)
      (Does.setC (vU.get hsz (by omega) hc) ?_))
    unfold iVal
    rw [if_pos (by omega), getX hfU ho, w'.zqp_val hp h1 (by omega), hdiv t s h3, mul_comm]
  intro m2 I2
  refine Cmd.Ok.bind (wrows_gen (Cover.shift (k := o.m * (o.p - 1))) w'.C_le_S I2 ?_ ?_)
  · rintro ⟨s, c⟩ hi m1 hsz ho
    rw [mem_rng20] at hi
    obtain ⟨_, h3, _, hc⟩ := hi
    simp only [Ptr.add_add, ha3]
    refine Does.get (w'.zqp_bd hp hr hrn (by omega) (by omega)) (Does.getD (vf.get hsz (by omega) hc) (hfb _)
      (Does.setC (vU.get hsz (by omega) hc) ?_))
    unfold iVal
    rw [if_pos (by omega), getX hfU ho, w'.zqp_val hp (by omega) (by omega), hdiv _ s (by omega), mul_comm]
  intro m3 I3
  refine wrows_gen (Cover.shift (k := o.m * (o.p - 1))) w'.C_le_S I3 ?_ ?_
  · rintro ⟨s, c⟩ hi m1 hsz ho
    rw [mem_rng20] at hi
    obtain ⟨h1, h3, _, hc⟩ := hi
    simp only [Ptr.add_add, ha3]
    refine Does.setC (vU.get hsz (by omega) hc) ?_
    unfold iVal
    rw [if_neg (by omega)]
  intro m4 I4
  have I := I4.iff (J' := fun j => j < o.m * o.p) (fun j => by simp only [false_or]; omega)
  refine hQ m4 (I.1.mono ?_) (fun j hj c hc => I.2 j c hj hc)
  rintro p ⟨j, c, hj, hc, rfl⟩
  exact ⟨j, hj, c, hc, rfl⟩

/-- Filling, transform over the blocks, and twiddle factors. -/
theorem iRow_ok {body : ℕ × ℕ × ℕ → Body Unit} (hr : 0 < r) (hrn : 2 * r < o.n) (hfU : f.buf ≠ U.buf) (vf : o.ValidF mem f)
    (vU : o.ValidW mem U (o.m * o.p))
    (hb : ∀ t s c, t < o.p → 1 ≤ s → s < o.m → c < o.C → ∀ m1 : Mem, m1.size = mem.size →
      (body (t, s, c)).Scales m1 (U + (o.S * (o.m * t + s) + c)) (w o.M ((s : ℤ) * ((o.n * t + r : ℕ) : ℤ))))
    (hQ : ∀ m', mem.Upd m' (Rws o.C o.S U (o.m * o.p)) → (∀ t < o.p, ∀ s < o.m, ∀ c < o.C, m'.val (U + (o.S * (o.m * t + s) + c)) =
      fillv o.M o.L o.m o.p (o.X mem f c) ((o.n * t + r : ℕ) : ℤ) s) → Q () m') :
    (o.iFill f U r >>= fun _ => o.fftpMany o.fftp U >>= fun _ => par (rng3 0 o.p 1 o.m 0 o.C) body).Ok mem Q := by
  have hm := w'.m_pos
  refine Cmd.Ok.bind (iFill_ok w' hp hr (by omega) hfU vf vU ?_)
  intro m1 u1 e1
  refine Cmd.Ok.bind (fftpK_ok w' (w'.fftp_many hp (by omega)).1 (fun s hs c hc => vU.get u1.size hs hc) ?_)
  intro m2 u2 e2
  refine twid_ok (U := U) (Z := fun t s => w o.M ((s : ℤ) * ((o.n * t + r : ℕ) : ℤ))) w'.C_le_S
    (fun t s c _ ht hs hs' hc => hb t s c ht hs hs' hc m2 (u2.size.trans u1.size)) (fun t => by simp) (fun t ht => by omega) ?_
  intro m3 u3 e3 _
  refine hQ m3 ((u1.trans u2 (fun _ h => h) (fun _ h => h)).trans u3 (fun _ h => h) (fun _ h => h)) ?_
  intro t ht s hs c hc
  rw [e3 t ht s hs c hc, e2 t ht s hs c hc, ← inner_alg w'.M_eq (w'.q_big hp) (by omega) (by have := w'.q_pos; omega)]
  congr 1
  refine sum_congr rfl fun u hu => ?_
  have hu := mem_range.1 hu
  rw [e1 _ (radix_lt hs hu) c hc]
  unfold iVal
  rw [Nat.mul_add_div hm, Nat.div_eq_of_lt hs, Nat.add_zero, Nat.add_comm (o.m * u) s]

/-- The rows of an ordinary call. -/
theorem irows_ok {row : Ptr → ℕ → Cmd Unit}
    (hrow : ∀ U r mem, 0 < r → 2 * r < o.n → f.buf ≠ U.buf → o.ValidF mem f → o.ValidW mem U (o.m * o.p) →
      (row U r).Ok mem (fun _ m' => mem.Upd m' (Rws o.C o.S U (o.m * o.p)) ∧ ∀ t < o.p, ∀ s < o.m, ∀ c < o.C,
        m'.val (U + (o.S * (o.m * t + s) + c)) = fillv o.M o.L o.m o.p (o.X mem f c) ((o.n * t + r : ℕ) : ℤ) s))
    (hr : 0 < r) (hrn : r + o.nd r ≤ (o.n - 1) / 2 + 1) (hfW : f.buf ≠ W.buf) (vf : o.ValidF mem f) (vW : o.ValidW mem W (o.m * (o.p * o.nd r)))
    (hQ : ∀ m', mem.Upd m' (Rws o.C o.S W (o.m * (o.p * o.nd r))) →
      (∀ d < o.nd r, ∀ t < o.p, ∀ s < o.m, ∀ c < o.C, m'.val (W + (o.S * (o.m * (o.p * d + t) + s) + c)) =
        fillv o.M o.L o.m o.p (o.X mem f c) ((o.n * t + (r + d) : ℕ) : ℤ) s) → Q () m') :
    (seqLoop (rng 0 (o.nd r)) fun d => row (W + o.b * d) (r + d)).Ok mem Q := by
  have hCS := w'.C_le_S
  have hb : o.b = o.S * (o.m * o.p) := by rw [w'.b_eq, w'.l_eq, if_neg (w'.q_ne hp), P_big w' hp]
  have hadr : ∀ d i c : ℕ, W + o.b * d + (o.S * i + c) = W + (o.S * (o.m * o.p * d + i) + c) := by
    intro d i c
    rw [Ptr.add_add, hb]
    congr 1; ring
  have hrw : ∀ d t s, o.m * o.p * d + (o.m * t + s) = o.m * (o.p * d + t) + s := fun d t s => by ring
  have hlt : ∀ d < o.nd r, ∀ i < o.m * o.p, o.m * o.p * d + i < o.m * (o.p * o.nd r) := fun d hd i hi => by
    rw [← Nat.mul_assoc]; exact radix_lt hi hd
  refine Fft.seqLoop_rng (fun k m1 => mem.Upd m1 (fun p => ∃ d < k, ∃ i < o.m * o.p, ∃ c < o.C, p = W + (o.S * (o.m * o.p * d + i) + c)) ∧
      ∀ d < k, ∀ t < o.p, ∀ s < o.m, ∀ c < o.C, m1.val (W + (o.S * (o.m * (o.p * d + t) + s) + c)) =
        fillv o.M o.L o.m o.p (o.X mem f c) ((o.n * t + (r + d) : ℕ) : ℤ) s) ⟨Mem.Upd.refl _ _, fun d hd => by omega⟩ ?_ ?_
  · rintro d m1 hd ⟨u1, e1⟩
    have hX : ∀ c, o.X m1 f c = o.X mem f c := by
      intro c; funext j; unfold X
      congr 1
      refine cell_congr (b := W.buf) (fun p hp => u1.frame p ?_) (by simpa [dptr] using hfW)
      rintro ⟨_, _, _, _, _, _, e⟩
      exact hp (by rw [e]; simp)
    refine (hrow (W + o.b * d) (r + d) m1 (by omega) (by omega) (by simpa using hfW) (fun j hj c hc => vf.get u1.size hj hc) ?_).mono ?_
    · intro s hs c hc
      rw [hadr]
      exact vW.get u1.size (hlt d hd s hs) hc
    · rintro _ m2 ⟨u2, e2⟩
      refine ⟨u1.trans u2 ?_ ?_, ?_⟩
      · rintro p ⟨d', hd', h⟩; exact ⟨d', by omega, h⟩
      · rintro p ⟨j, hj, c, hc, rfl⟩
        exact ⟨d, by omega, j, hj, c, hc, hadr d _ _⟩
      · intro d' hd' t ht s hs c hc
        by_cases hdd : d' = d
        · subst hdd
          have := e2 t ht s hs c hc
          rw [hadr, hrw, hX] at this
          exact this
        · rw [u2.frame, e1 d' (by omega) t ht s hs c hc]
          rintro ⟨j, hj, c', h2, h3⟩
          rw [hadr, ← hrw, Ptr.add_inj] at h3
          obtain ⟨h4, _⟩ := radix_inj (by omega) (by omega) h3
          have := radix_inj (radix_lt hs ht) hj h4
          omega
  · rintro m1 ⟨u1, e1⟩
    refine hQ m1 (u1.mono ?_) e1
    rintro p ⟨d, hd, i, hi, c, hc, rfl⟩
    exact ⟨_, hlt d hd i hi, c, hc, rfl⟩

/-- The transforms of `K` rows: one call, or a loop. -/
theorem rowsB_ok {sgn : ℤ} {pl : Plan} {src dst : Ptr} {K : ℕ} (hpl : (o.S = 1 ∧ pl = ⟨o.m, sgn, K, 1, o.m, o.inplace⟩) ∨
      (o.S ≠ 1 ∧ pl = ⟨o.m, sgn, o.C, o.S, 1, o.inplace⟩)) (hs : SepPtr o.inplace src dst)
    (vs : o.ValidW mem src (o.m * K)) (vd : o.ValidW mem dst (o.m * K))
    (hQ : ∀ m', mem.Upd m' (Rws o.C o.S dst (o.m * K)) →
      (∀ d < K, ∀ i < o.m, ∀ c < o.C, m'.val (dst + (o.S * (o.m * d + i) + c)) =
        ∑ s ∈ range o.m, mem.val (src + (o.S * (o.m * d + s) + c)) * w o.m (sgn * s * i)) → Q () m') :
    (if o.S = 1 then pl.exec src dst else seqLoop (rng 0 K) fun t => pl.exec (src + o.Sm * t) (dst + o.Sm * t)).Ok mem Q := by
  rcases hpl with ⟨hS, rfl⟩ | ⟨hS, rfl⟩
  · have hC := w'.C_one hS
    rw [if_pos hS]
    refine exec_rows hs ?_ ?_ ?_
    · intro i hi
      have := vs i hi 0 (by omega)
      rwa [hS, Nat.one_mul, Nat.add_zero] at this
    · intro i hi
      have := vd i hi 0 (by omega)
      rwa [hS, Nat.one_mul, Nat.add_zero] at this
    intro m' u e
    refine hQ m' (u.mono ?_) ?_
    · rintro p ⟨k, hk, i, hi, rfl⟩
      exact ⟨_, radix_lt hi hk, 0, by omega, by rw [hS, Nat.one_mul, Nat.add_zero]⟩
    · intro d hd i hi c hc
      obtain rfl : c = 0 := by omega
      simp only [hS, Nat.one_mul, Nat.add_zero]
      exact e d hd i hi
  · rw [if_neg hS]
    have hadr : ∀ t s c, o.Sm * t + (o.S * s + c) = o.S * (o.m * t + s) + c := fun t s c => by rw [w'.Sm_eq]; ring
    refine rowLoop_ok w'.C_le_S w'.C_le_S (hs.eq_or.imp (fun h => ⟨h, rfl⟩) id) ?_ hQ
    intro t ht m1 hsz
    have hsep : SepPtr o.inplace (src + o.Sm * t) (dst + o.Sm * t) := by
      rcases hs with ⟨h1, h2⟩ | ⟨h1, h2⟩
      · exact Or.inl ⟨h1, by rw [h2]⟩
      · exact Or.inr ⟨h1, by simpa using h2⟩
    refine exec_cols w'.C_le_S hsep ?_ ?_ ?_
    · intro i hi c hc
      rw [Ptr.add_add, hadr]; exact vs.get hsz (radix_lt hi ht) hc
    · intro i hi c hc
      rw [Ptr.add_add, hadr]; exact vd.get hsz (radix_lt hi ht) hc
    · intro m' u e
      simp only [Ptr.add_add, hadr] at u e
      exact ⟨u, e⟩

end

/-! ### Complete calls -/

section
variable (w' : o.WF) (hp : 2 < o.p)
include w' hp

theorem freq_ordB (hr : 0 < r) (h2 : 2 * r < o.n) {d t l : ℕ} (ht : t < o.p) (hl : l < o.m) :
    o.freq r (o.m * (o.p * d + t) + l) = o.q * l + ((o.n * t + (r + d) : ℕ) : ℤ) := by
  have hm := w'.m_pos
  have hp' := P_eq o (by omega)
  unfold freq
  rw [if_neg (by omega), if_neg (by omega), hp', P_big w' hp]
  have e1 : o.m * (o.p * d + t) + l = (o.m * o.p) * d + (o.m * t + l) := by ring
  have h1 : (o.m * (o.p * d + t) + l) % o.m = l := by rw [Nat.mul_add_mod, Nat.mod_eq_of_lt hl]
  have hlt := radix_lt hl ht
  have h2 : (o.m * (o.p * d + t) + l) % (o.m * o.p) = o.m * t + l := by rw [e1, Nat.mul_add_mod, Nat.mod_eq_of_lt hlt]
  have h3 : (o.m * (o.p * d + t) + l) / (o.m * o.p) = d := by
    rw [e1, Nat.mul_add_div (by omega), Nat.div_eq_of_lt hlt, Nat.add_zero]
  have h4 : (o.m * t + l) / o.m = t := by rw [Nat.mul_add_div hm, Nat.div_eq_of_lt hl, Nat.add_zero]
  simp only [h1, h2, h3, h4]
  push_cast; ring

theorem split_ord {i : ℕ} (hr : 0 < r) (h2 : 2 * r < o.n) (hi : i < o.noutputs r) :
    ∃ d t l, d < o.nd r ∧ t < o.p ∧ l < o.m ∧ i = o.m * (o.p * d + t) + l := by
  have hm := w'.m_pos
  rw [w'.noutputs_ord (w'.q_ne hp) hr h2, P_big w' hp, Nat.mul_assoc] at hi
  have h1 : i / o.m < o.p * o.nd r := Nat.div_lt_of_lt_mul hi
  refine ⟨i / o.m / o.p, i / o.m % o.p, i % o.m, Nat.div_lt_of_lt_mul h1, Nat.mod_lt _ (by omega), Nat.mod_lt _ hm, ?_⟩
  rw [Nat.div_add_mod, Nat.div_add_mod]

theorem ord_n (hv : o.Visit r) (hr : 0 < r) (h2 : 2 * r < o.n) : r + o.nd r ≤ (o.n - 1) / 2 + 1 := by
  rcases hv with h | h | h
  · omega
  · omega
  · exact h.2.2

/-- Ordinary residues, in a form common to the two variants. -/
theorem fwdB_ord {row : Ptr → ℕ → Cmd Unit} {pl : Plan}
    (hrow : ∀ U r mem, 0 < r → 2 * r < o.n → f.buf ≠ U.buf → o.ValidF mem f → o.ValidW mem U (o.m * o.p) →
      (row U r).Ok mem (fun _ m' => mem.Upd m' (Rws o.C o.S U (o.m * o.p)) ∧ ∀ t < o.p, ∀ s < o.m, ∀ c < o.C,
        m'.val (U + (o.S * (o.m * t + s) + c)) = fillv o.M o.L o.m o.p (o.X mem f c) ((o.n * t + r : ℕ) : ℤ) s))
    (hpl : (o.S = 1 ∧ pl = ⟨o.m, 1, o.p * o.nd r, 1, o.m, o.inplace⟩) ∨ (o.S ≠ 1 ∧ pl = ⟨o.m, 1, o.C, o.S, 1, o.inplace⟩))
    (pre : o.Pre mem f F W) (hv : o.Visit r) (hr : 0 < r) (h2 : 2 * r < o.n) (hQ : ∀ m', o.FPost mem m' f F W r → Q () m') :
    ((seqLoop (rng 0 (o.nd r)) fun d => row (W + o.b * d) (r + d)) >>= fun _ =>
      if o.S = 1 then pl.exec W F else seqLoop (rng 0 (o.p * o.nd r)) fun t => pl.exec (W + o.Sm * t) (F + o.Sm * t)).Ok mem Q := by
  have hrows := w'.ord_rows hp (by omega) r
  refine Cmd.Ok.bind (irows_ok w' hp hrow hr (ord_n w' hp hv hr h2) pre.fW pre.vf (validW_of w' pre.vW hrows) ?_)
  intro m1 u1 e1
  refine rowsB_ok w' hp hpl pre.sep (fun s hs c hc => (validW_of w' pre.vW hrows).get u1.size hs hc)
    (fun s hs c hc => (validW_of w' pre.vF hrows).get u1.size hs hc) ?_
  intro m2 u2 e2
  refine hQ m2 ⟨u1.trans u2 (fun p h => Or.inr (rws_arr w' hrows h)) (fun p h => Or.inl (rws_arr w' hrows h)), ?_, padded_big hp _ _⟩
  intro i hi c hc
  obtain ⟨d, t, l, hd, ht, hl, rfl⟩ := split_ord w' hp hr h2 hi
  rw [freq_ordB w' hp hr h2 ht hl, e2 _ (radix_lt ht hd) l hl c hc,
    ← row_fft w'.M_eq (by have := w'.m_pos; omega) (by have := w'.q_pos; omega) w'.p_ub]
  exact sum_congr rfl fun s hs => by rw [e1 d hd t ht s (mem_range.1 hs) c hc]

/-- Twiddle factors of the table. -/
theorem zqm_row {t s : ℕ} (hs : 1 ≤ s) (hs' : s < o.m) (hr : 0 < o.n * t + r) (hrq : o.n * t + r < o.q) :
    (o.Zetaqm.lo ≤ o.m * (o.n * t + r) + s ∧ o.m * (o.n * t + r) + s < o.Zetaqm.hi) ∧
      o.Zetaqm.val (o.m * (o.n * t + r) + s) = w o.M ((s : ℤ) * ((o.n * t + r : ℕ) : ℤ)) :=
  ⟨w'.zq_bd (w'.q_ne hp) hr hrq hs', w'.zq_val (w'.q_ne hp) hs'⟩

theorem nt_lt {t : ℕ} (ht : t < o.p) (hr : r < o.n) : o.n * t + r < o.q := by
  rw [w'.q_big hp, Nat.mul_comm o.p]; exact radix_lt hr ht

end
end Re
end Fftwpp
