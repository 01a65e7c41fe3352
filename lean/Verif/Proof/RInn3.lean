import Verif.Proof.RInn2

/-! Forward inner transforms of real data (`p>2`): the residue `n/2`. -/

namespace Fftwpp
open Finset

theorem sum_double (p2 : ℕ) (g : ℕ → ℂ) : ∑ u ∈ range (2 * p2), g u = ∑ u ∈ range p2, (g u + g (u + p2)) := by
  rw [Nat.two_mul, sum_range_add, sum_add_distrib]
  congr 1
  exact sum_congr rfl fun u _ => by rw [Nat.add_comm]

/-- Twiddle factors for `2r=n`. -/
theorem w_row {M m q p2 n r : ℕ} (hM : M = m * q) (hq : q = p2 * (2 * n)) (hm : m ≠ 0) (hn : n ≠ 0) (s u t : ℕ) :
    w M (((s + m * u : ℕ) : ℤ) * ((2 * n * t + r : ℕ) : ℤ)) = w M (s * ((2 * n * t + r : ℕ) : ℤ)) * (w q (r * u) * w p2 (1 * u * t)) := by
  have h1 : ((s + m * u : ℕ) : ℤ) * ((2 * n * t + r : ℕ) : ℤ) = s * ((2 * n * t + r : ℕ) : ℤ) + (m : ℕ) * (u * ((2 * n * t + r : ℕ) : ℤ)) := by
    push_cast; ring
  have h2 : (u : ℤ) * ((2 * n * t + r : ℕ) : ℤ) = r * u + ((2 * n : ℕ) : ℤ) * (1 * u * t) := by push_cast; ring
  rw [h1, w_add]
  congr 1
  rw [hM, w_base' m q hm, h2, w_add]
  congr 1
  rw [hq, w_base p2 (2 * n) (by omega)]

theorem half_alg {M L m q p2 n r : ℕ} (hM : M = m * q) (hq : q = p2 * (2 * n)) (hm : m ≠ 0) (hn : 2 * r = n) (hr : r ≠ 0) (hp : p2 ≠ 0) (x : ℕ → ℂ)
    (t s : ℕ) :
    (∑ u ∈ range p2, (w q (r * u) * ((if s + m * u < L then x (s + m * u) else 0) +
      Complex.I * (if s + m * (u + p2) < L then x (s + m * (u + p2)) else 0))) * w p2 (1 * u * t)) * w M (s * ((2 * n * t + r : ℕ) : ℤ))
      = fillv M L m (2 * p2) x ((2 * n * t + r : ℕ) : ℤ) s := by
  unfold fillv
  rw [sum_double, sum_mul]
  refine sum_congr rfl fun u _ => ?_
  have e1 := w_row (r := r) hM hq hm (by omega) s u t
  have e2 := w_row (r := r) hM hq hm (by omega) s (u + p2) t
  have e3 : w q ((r : ℤ) * ((u + p2 : ℕ) : ℤ)) = w q (r * u) * Complex.I := by
    have h1 : (r : ℤ) * ((u + p2 : ℕ) : ℤ) = r * u + ((p2 * r : ℕ) : ℤ) * 1 := by push_cast; ring
    rw [h1, w_add]
    congr 1
    rw [show q = 4 * (p2 * r) by rw [hq, ← hn]; ring, w_base 4 (p2 * r) (Nat.mul_ne_zero hp hr), Re.w_four_one]
  have e4 : w p2 (1 * ((u + p2 : ℕ) : ℤ) * t) = w p2 (1 * u * t) := by
    have h1 : 1 * ((u + p2 : ℕ) : ℤ) * t = 1 * u * t + p2 * t := by push_cast; ring
    rw [h1, w_add_mul]
  rw [e3, e4] at e2
  rw [e1, e2]
  split_ifs <;> ring

namespace Re
variable {o : Re} {f F U W : Ptr} {mem : Mem} {r : ℕ} {W? : Option Ptr} {Q : Unit → Mem → Prop}
local notation "conj" => starRingEnd ℂ

/-- The loops that fill the blocks for `2r=n`. -/
noncomputable def iFillH (o : Re) (f W : Ptr) (r : ℕ) : Cmd Unit := do
  let fr := dptr f
  let pm1 := o.p - 1
  let stop := o.L - o.m * pm1
  let p2 := ceilquotient o.p 2
  let p2m1 := p2 - 1
  let p2Sm := p2 * o.Sm
  let Smp2m1 := o.Sm * p2m1
  parD (rng2 0 o.m 0 o.C) fun (s, c) => do
    let x ← getD (fr + o.S * s + c)
    let y ← getD (fr + p2Sm + o.S * s + c)
    setC (W + o.S * s + c) ⟨x, y⟩
  parD (rng3 1 p2m1 0 o.m 0 o.C) fun (t, s, c) => do
    let Zeta ← o.Zetaqp.get (pm1 * r + t)
    let x ← getD (fr + o.Sm * t + o.S * s + c)
    let y ← getD (fr + o.Sm * t + p2Sm + o.S * s + c)
    setC (W + o.Sm * t + o.S * s + c) (Zeta * ⟨x, y⟩)
  parD (rng2 0 stop 0 o.C) fun (s, c) => do
    let Zeta ← o.Zetaqp.get (pm1 * r + p2m1)
    let x ← getD (fr + Smp2m1 + o.S * s + c)
    let y ← getD (fr + Smp2m1 + p2Sm + o.S * s + c)
    setC (W + Smp2m1 + o.S * s + c) (Zeta * ⟨x, y⟩)
  parD (rng2 stop o.m 0 o.C) fun (s, c) => do
    let Zeta ← o.Zetaqp.get (pm1 * r + p2m1)
    let x ← getD (fr + Smp2m1 + o.S * s + c)
    setC (W + Smp2m1 + o.S * s + c) (Zeta * x)

/-- The data, zero beyond the end. -/
noncomputable def X0 (o : Re) (mem : Mem) (f : Ptr) (c j : ℕ) : ℂ := if j < o.L then o.X mem f c j else 0

noncomputable def hVal (o : Re) (mem : Mem) (f : Ptr) (r p2 : ℕ) (j c : ℕ) : ℂ :=
  w o.q ((r : ℤ) * ((j / o.m : ℕ) : ℤ)) * (o.X0 mem f c j + Complex.I * o.X0 mem f c (j + o.m * p2))

section
variable (w' : o.WF) (hp : 2 < o.p) {p2 : ℕ} (h2p : o.p = 2 * p2)
include w' hp

theorem half_even (hr : 0 < r) (h2 : 2 * r = o.n) : o.p = 2 * ceilquotient o.p 2 := by
  have := w'.p_odd (w'.q_ne hp)
  rw [ceil2]; omega

theorem half_n : o.q % 2 = 0 → o.q ≠ 1 := fun _ => w'.q_ne hp

include h2p

theorem half_facts : ceilquotient o.p 2 = p2 ∧ 2 ≤ p2 ∧ o.m * (o.p - 1) + o.m = o.m * o.p ∧ o.m * p2 + o.m * p2 = o.m * o.p ∧
    o.m * (p2 - 1) + o.m = o.m * p2 ∧ o.m * 1 ≤ o.m * (p2 - 1) := by
  refine ⟨by rw [ceil2]; omega, by omega, ?_, ?_, ?_, Nat.mul_le_mul_left _ (by omega)⟩
  · obtain ⟨k, hk⟩ : ∃ k, o.p = k + 1 := ⟨o.p - 1, by omega⟩
    rw [hk]; simp [Nat.mul_succ]
  · rw [h2p]; ring
  · obtain ⟨k, hk⟩ : ∃ k, p2 = k + 1 := ⟨p2 - 1, by omega⟩
    rw [hk]; simp [Nat.mul_succ]

theorem iFillH_ok (hr : 0 < r) (hrn : r < o.n) (hfU : f.buf ≠ W.buf) (vf : o.ValidF mem f) (vU : o.ValidW mem W (o.m * p2))
    (hQ : ∀ m', mem.Upd m' (Rws o.C o.S W (o.m * p2)) → (∀ j < o.m * p2, ∀ c < o.C, m'.val (W + (o.S * j + c)) = o.hVal mem f r p2 j c) → Q () m') :
    (o.iFillH f W r).Ok mem Q := by
  have hCS := w'.C_le_S
  have hm := w'.m_pos
  have hub := w'.p_ub
  have hlb := w'.p_lb
  obtain ⟨hc2, h22, hpm, hpp, hp21, hm1⟩ := half_facts w' hp h2p
  have hfb : ∀ i : ℕ, (dptr f + i).buf ≠ W.buf := fun i => by simpa [dptr] using hfU
  have ha3 : ∀ t s c, o.Sm * t + o.S * s + c = o.S * (o.m * t + s) + c := fun t s c => by rw [w'.Sm_eq]; ring
  have ha0 : ∀ s c, p2 * o.Sm + o.S * s + c = o.S * (s + o.m * p2) + c := fun s c => by rw [w'.Sm_eq]; ring
  have ha4 : ∀ t s c, o.Sm * t + p2 * o.Sm + o.S * s + c = o.S * (o.m * t + s + o.m * p2) + c := fun t s c => by rw [w'.Sm_eq]; ring
  have hdiv : ∀ t s, s < o.m → (o.m * t + s) / o.m = t := fun t s hs => by
    rw [Nat.mul_add_div hm, Nat.div_eq_of_lt hs, Nat.add_zero]
  unfold iFillH
  simp only [hc2]
  refine Cmd.Ok.bind (wrows_loop w'.C_le_S (WRows.start (U := W) (v := o.hVal mem f r p2)) ?_ ?_)
  · intro s c hs hs' hc m1 hsz ho
    simp only [Ptr.add_add, ha0]
    refine Does.getD (vf.get hsz (by omega) hc) (hfb _) (Does.getD (vf.get hsz (by omega) hc) (hfb _) (Does.setC (vU.get hsz (by omega) hc) ?_))
    unfold hVal X0
    rw [if_pos (by omega), if_pos (by omega), mk_eq, getX hfU ho, getX hfU ho, Nat.div_eq_of_lt hs']; simp
  intro m1 I1
  refine Cmd.Ok.bind (wrows_gen Cover.three w'.C_le_S I1 ?_ ?_)
  · rintro ⟨t, s, c⟩ hi m1 hsz ho
    rw [mem_rng3] at hi
    obtain ⟨⟨h1, h2⟩, ⟨_, h3⟩, _, hc⟩ := hi
    simp only at h1 h2 h3 hc
    have hj := radix_lt h3 h2
    simp only [Ptr.add_add, ha3, ha4]
    refine Does.get (w'.zqp_bd hp hr hrn h1 (by omega)) (Does.getD (vf.get hsz (by omega) hc) (hfb _) (Does.getD (vf.get hsz (by omega) hc) (hfb _)
      (Does.setC (vU.get hsz (by omega) hc) ?_)))
    unfold hVal X0
    rw [if_pos (by omega), if_pos (by omega), mk_eq, getX hfU ho, getX hfU ho, w'.zqp_val hp h1 (by omega), hdiv t s h3]
  intro m2 I2
  refine Cmd.Ok.bind (wrows_gen (Cover.shift (k := o.m * (p2 - 1))) w'.C_le_S I2 ?_ ?_)
  · rintro ⟨s, c⟩ hi m1 hsz ho
    rw [mem_rng20] at hi
    obtain ⟨_, h3, _, hc⟩ := hi
    simp only [Ptr.add_add, ha3, ha4]
    refine Does.get (w'.zqp_bd hp hr hrn (by omega) (by omega)) (Does.getD (vf.get hsz (by omega) hc) (hfb _) (Does.getD (vf.get hsz (by omega) hc) (hfb _)
      (Does.setC (vU.get hsz (by omega) hc) ?_)))
    unfold hVal X0
    rw [if_pos (by omega), if_pos (by omega), mk_eq, getX hfU ho, getX hfU ho, w'.zqp_val hp (by omega) (by omega), hdiv _ s (by omega)]
  intro m3 I3
  refine wrows_gen (Cover.shift (k := o.m * (p2 - 1))) w'.C_le_S I3 ?_ ?_
  · rintro ⟨s, c⟩ hi m1 hsz ho
    rw [mem_rng20] at hi
    obtain ⟨h1, h3, _, hc⟩ := hi
    simp only [Ptr.add_add, ha3]
    refine Does.get (w'.zqp_bd hp hr hrn (by omega) (by omega)) (Does.getD (vf.get hsz (by omega) hc) (hfb _)
      (Does.setC (vU.get hsz (by omega) hc) ?_))
    unfold hVal X0
    rw [if_pos (by omega), if_neg (by omega), getX hfU ho, w'.zqp_val hp (by omega) (by omega), hdiv _ s (by omega), mul_zero, add_zero]
  intro m4 I4
  have I := I4.iff (J' := fun j => j < o.m * p2) (fun j => by simp only [false_or]; omega)
  refine hQ m4 (I.1.mono ?_) (fun j hj c hc => I.2 j c hj hc)
  rintro p ⟨j, c, hj, hc, rfl⟩
  exact ⟨j, hj, c, hc, rfl⟩

theorem half_rows : o.m * p2 ≤ o.nrows := le_trans (Nat.mul_le_mul_left _ (by omega)) (w'.rows_big hp)

theorem half_q (h2 : 2 * r = o.n) : o.q = p2 * (2 * o.n) := by rw [w'.q_big hp, h2p]; ring

theorem freq_halfB (hr : 0 < r) (h2 : 2 * r = o.n) {t l : ℕ} (hl : l < o.m) :
    o.freq r (o.m * t + l) = o.q * l + ((2 * o.n * t + r : ℕ) : ℤ) := by
  have hm := w'.m_pos
  unfold freq
  rw [if_neg (by omega), if_pos h2, if_neg (by omega), Nat.mul_add_mod, Nat.mod_eq_of_lt hl, Nat.mul_add_div hm, Nat.div_eq_of_lt hl, Nat.add_zero]
  push_cast; ring

theorem split_half {i : ℕ} (hr : 0 < r) (h2 : 2 * r = o.n) (hi : i < o.noutputs r) : ∃ t l, t < p2 ∧ l < o.m ∧ i = o.m * t + l := by
  have hm := w'.m_pos
  rw [noutputs_half hr h2, if_pos hp, Nat.mul_comm] at hi
  exact ⟨i / o.m, i % o.m, by have := Nat.div_lt_of_lt_mul hi; omega, Nat.mod_lt _ hm, (Nat.div_add_mod ..).symm⟩

/-- The residue `n/2`, in a form common to the two variants. -/
theorem fwdB_half {body : ℕ × ℕ × ℕ → Body Unit} {pl : Plan}
    (hb : ∀ t s c, t < p2 → 1 ≤ s → s < o.m → c < o.C → ∀ m1 : Mem, m1.size = mem.size →
      (body (t, s, c)).Scales m1 (W + (o.S * (o.m * t + s) + c)) (w o.M ((s : ℤ) * ((2 * o.n * t + r : ℕ) : ℤ))))
    (hpl : (o.S = 1 ∧ pl = ⟨o.m, 1, p2, 1, o.m, o.inplace⟩) ∨ (o.S ≠ 1 ∧ pl = ⟨o.m, 1, o.C, o.S, 1, o.inplace⟩))
    (pre : o.Pre mem f F W) (hr : 0 < r) (h2 : 2 * r = o.n) (hQ : ∀ m', o.FPost mem m' f F W r → Q () m') :
    (o.iFillH f W r >>= fun _ => o.fftpMany o.fftp2 W >>= fun _ => par (rng3 0 p2 1 o.m 0 o.C) body >>= fun _ =>
      if o.S = 1 then pl.exec W F else seqLoop (rng 0 p2) fun t => pl.exec (W + o.Sm * t) (F + o.Sm * t)).Ok mem Q := by
  have hm := w'.m_pos
  have hrows := half_rows w' hp h2p
  have vW := validW_of w' pre.vW hrows
  obtain ⟨hc2, h22, -⟩ := half_facts w' hp h2p
  refine Cmd.Ok.bind (iFillH_ok w' hp h2p hr (by omega) pre.fW pre.vf vW ?_)
  intro m1 u1 e1
  have hpl2 := (w'.fftp2_many hp (by omega)).1
  rw [hc2] at hpl2
  refine Cmd.Ok.bind (fftpK_ok w' hpl2 (fun s hs c hc => vW.get u1.size hs hc) ?_)
  intro m2 u2 e2
  have hsz2 := u2.size.trans u1.size
  refine Cmd.Ok.bind (twid_ok (U := W) (Z := fun t s => w o.M ((s : ℤ) * ((2 * o.n * t + r : ℕ) : ℤ))) w'.C_le_S
    (fun t s c _ ht hs hs' hc => hb t s c ht hs hs' hc m2 hsz2) (fun t => by simp) (fun t ht => by omega) ?_)
  intro m3 u3 e3 _
  have u03 := (u1.trans u2 (fun _ h => h) (fun _ h => h)).trans u3 (fun _ h => h) (fun _ h => h)
  have key : ∀ t < p2, ∀ s < o.m, ∀ c < o.C, m3.val (W + (o.S * (o.m * t + s) + c)) =
      fillv o.M o.L o.m o.p (o.X mem f c) ((2 * o.n * t + r : ℕ) : ℤ) s := by
    intro t ht s hs c hc
    rw [e3 t ht s hs c hc, e2 t ht s hs c hc, h2p, ← half_alg w'.M_eq (half_q w' hp h2p h2) (by omega) h2 (by omega) (by omega)]
    congr 1
    refine sum_congr rfl fun u hu => ?_
    have hu := mem_range.1 hu
    rw [e1 _ (radix_lt hs hu) c hc]
    unfold hVal X0
    rw [Nat.mul_add_div hm, Nat.div_eq_of_lt hs, Nat.add_zero, Nat.add_comm (o.m * u) s, show s + o.m * u + o.m * p2 = s + o.m * (u + p2) by ring]
  refine rowsB_ok w' hp hpl pre.sep (fun s hs c hc => vW.get u03.size hs hc)
    (fun s hs c hc => (validW_of w' pre.vF hrows).get u03.size hs hc) ?_
  intro m4 u4 e4
  refine hQ m4 ⟨u03.trans u4 (fun p h => Or.inr (rws_arr w' hrows h)) (fun p h => Or.inl (rws_arr w' hrows h)), ?_, padded_big hp _ _⟩
  intro i hi c hc
  obtain ⟨t, l, ht, hl, rfl⟩ := split_half w' hp h2p hr h2 hi
  rw [freq_halfB w' hp h2p hr h2 hl, e4 _ ht l hl c hc,
    ← row_fft w'.M_eq (by omega) (by have := w'.q_pos; omega) w'.p_ub]
  exact sum_congr rfl fun s hs => by rw [key t ht s (mem_range.1 hs) c hc]

end
end Re
end Fftwpp
