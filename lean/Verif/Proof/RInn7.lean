import Verif.Proof.RInn6

/-! Backward inner transforms of real data (`p>2`): the residue `n/2`. -/

namespace Fftwpp
open Finset
local notation "conj" => starRingEnd ℂ

theorem half_alg_back {M m q p2 n r : ℕ} (hM : M = m * q) (hq : q = p2 * (2 * n)) (hm : m ≠ 0) (hn : n ≠ 0) (X : ℕ → ℂ) (u u0 s : ℕ)
    (hu : u0 = u % p2) :
    conj (w q (r * u)) * ∑ t ∈ range p2, X t * conj (w M (s * ((2 * n * t + r : ℕ) : ℤ))) * w p2 (-1 * t * u0) =
      ∑ t ∈ range p2, w M (-(((s + m * u : ℕ) : ℤ) * ((2 * n * t + r : ℕ) : ℤ))) * X t := by
  rw [mul_sum]
  refine sum_congr rfl fun t _ => ?_
  rw [← w_conj, w_row hM hq hm hn, map_mul, map_mul]
  have : w p2 (-1 * t * u0) = conj (w p2 (1 * u * t)) := by
    rw [w_conj]
    apply w_congr
    refine ⟨t * (u / p2 : ℕ), ?_⟩
    have h := Nat.mod_add_div u p2
    rw [← hu] at h
    generalize u / p2 = v at *
    rw [← h]; push_cast; ring
  rw [this]
  ring

namespace Re
variable {o : Re} {f F U W : Ptr} {mem : Mem} {r : ℕ} {W? : Option Ptr} {Q : Unit → Mem → Prop}

/-- The loops that add the blocks to the data for `2r=n`. -/
noncomputable def iIncH (o : Re) (f W : Ptr) (r : ℕ) : Cmd Unit := do
  let fr := dptr f
  let pm1 := o.p - 1
  let stop := o.L - o.m * pm1
  let p2 := ceilquotient o.p 2
  let p2m1 := p2 - 1
  let p2Sm := p2 * o.Sm
  let Smp2m1 := o.Sm * p2m1
  let frp2 := fr + p2Sm
  parD (rng2 0 o.m 0 o.C) fun (s, c) => do
    let v ← getC (W + o.S * s + c)
    let Z := 2 * v
    incD (fr + o.S * s + c) Z.re
    incD (frp2 + o.S * s + c) Z.im
  parD (rng3 1 p2m1 0 o.m 0 o.C) fun (t, s, c) => do
    let z ← o.Zetaqp.get (pm1 * r + t)
    let v ← getC (W + o.Sm * t + o.S * s + c)
    let Z := 2 * conj z * v
    incD (fr + o.Sm * t + o.S * s + c) Z.re
    incD (frp2 + o.Sm * t + o.S * s + c) Z.im
  parD (rng2 0 stop 0 o.C) fun (s, c) => do
    let z ← o.Zetaqp.get (pm1 * r + p2m1)
    let v ← getC (W + Smp2m1 + o.S * s + c)
    let Z := 2 * conj z * v
    incD (fr + Smp2m1 + o.S * s + c) Z.re
    incD (frp2 + Smp2m1 + o.S * s + c) Z.im
  parD (rng2 stop o.m 0 o.C) fun (s, c) => do
    let z ← o.Zetaqp.get (pm1 * r + p2m1)
    let v ← getC (W + Smp2m1 + o.S * s + c)
    let ZetaConj := 2 * conj z
    incD (fr + Smp2m1 + o.S * s + c) (ZetaConj.re * v.re - ZetaConj.im * v.im)

/-- The data afterwards. -/
noncomputable def hSum (o : Re) (mem : Mem) (f U : Ptr) (r p2 : ℕ) (j c : ℕ) : ℝ :=
  mem.cell (dptr f + (o.S * j + c)) + 2 * (conj (w o.q ((r : ℤ) * ((j / o.m : ℕ) : ℤ))) * mem.val (U + (o.S * (j % (o.m * p2)) + c))).re

section
variable (w' : o.WF) (hp : 2 < o.p) {p2 : ℕ} (h2p : o.p = 2 * p2)
include w' hp h2p

theorem hSum_lt {t s c : ℕ} (ht : t < p2) (hs : s < o.m) : o.hSum mem f U r p2 (o.m * t + s) c = mem.cell (dptr f + (o.S * (o.m * t + s) + c)) +
    (2 * conj (w o.q (r * t)) * mem.val (U + (o.S * (o.m * t + s) + c))).re := by
  have hm := w'.m_pos
  unfold hSum
  rw [Nat.mod_eq_of_lt (radix_lt hs ht), Nat.mul_add_div hm, Nat.div_eq_of_lt hs, Nat.add_zero, mul_assoc]
  simp

theorem hSum_ge {t s c : ℕ} (hr : 0 < r) (h2 : 2 * r = o.n) (ht : t < p2) (hs : s < o.m) : o.hSum mem f U r p2 (o.m * t + s + o.m * p2) c =
    mem.cell (dptr f + (o.S * (o.m * t + s + o.m * p2) + c)) + (2 * conj (w o.q (r * t)) * mem.val (U + (o.S * (o.m * t + s) + c))).im := by
  have hm := w'.m_pos
  have h1 : o.m * t + s + o.m * p2 = o.m * (t + p2) + s := by ring
  unfold hSum
  rw [Nat.add_mod_right, Nat.mod_eq_of_lt (radix_lt hs ht), h1, Nat.mul_add_div hm, Nat.div_eq_of_lt hs, Nat.add_zero]
  have e3 : w o.q ((r : ℤ) * ((t + p2 : ℕ) : ℤ)) = w o.q (r * t) * Complex.I := by
    have h1 : (r : ℤ) * ((t + p2 : ℕ) : ℤ) = r * t + ((p2 * r : ℕ) : ℤ) * 1 := by push_cast; ring
    rw [h1, w_add]
    congr 1
    rw [show o.q = 4 * (p2 * r) by rw [half_q w' hp h2p h2, ← h2]; ring, w_base 4 (p2 * r) (Nat.mul_ne_zero (by omega) (by omega)), Re.w_four_one]
  rw [e3]
  congr 1
  simp
  ring

theorem iIncH_ok (hr : 0 < r) (h2 : 2 * r = o.n) (hfU : f.buf ≠ W.buf) (vf : o.ValidF mem f) (vU : o.ValidW mem W (o.m * p2))
    (hQ : ∀ m', DRows o.C o.S (dptr f) (fun j => j < o.L) (o.hSum mem f W r p2) mem m' → Q () m') :
    (o.iIncH f W r).Ok mem Q := by
  have hCS := w'.C_le_S
  have hm := w'.m_pos
  have hub := w'.p_ub
  have hlb := w'.p_lb
  have hrn : r < o.n := by omega
  obtain ⟨hc2, h22, hpm, hpp, hp21, hm1⟩ := half_facts w' hp h2p
  have hUb : ∀ i : ℕ, (dptr (W + i)).buf ≠ (dptr f).buf ∧ (dptr (W + i) + 1).buf ≠ (dptr f).buf := fun i => by
    constructor <;> simpa [dptr] using hfU.symm
  have ha3 : ∀ t s c, o.Sm * t + o.S * s + c = o.S * (o.m * t + s) + c := fun t s c => by rw [w'.Sm_eq]; ring
  have ha0 : ∀ s c, p2 * o.Sm + o.S * s + c = o.S * (s + o.m * p2) + c := fun s c => by rw [w'.Sm_eq]; ring
  have ha4 : ∀ t s c, p2 * o.Sm + o.Sm * t + o.S * s + c = o.S * (o.m * t + s + o.m * p2) + c := fun t s c => by rw [w'.Sm_eq]; ring
  have inc2 : ∀ (t s c : ℕ) (m1 : Mem), t < p2 → s < o.m → c < o.C → o.m * t + s + o.m * p2 < o.L → m1.size = mem.size →
      (∀ y : Ptr, y.buf ≠ (dptr f).buf → m1.cell y = mem.cell y) →
      (∀ j ∈ [o.m * t + s, o.m * t + s + o.m * p2], m1.cell (dptr f + (o.S * j + c)) = mem.cell (dptr f + (o.S * j + c))) →
      (incs [(dptr f + (o.S * (o.m * t + s) + c), (2 * conj (w o.q (r * t)) * m1.val (W + (o.S * (o.m * t + s) + c))).re),
        (dptr f + (o.S * (o.m * t + s + o.m * p2) + c), (2 * conj (w o.q (r * t)) * m1.val (W + (o.S * (o.m * t + s) + c))).im)]).Does m1
        ([o.m * t + s, o.m * t + s + o.m * p2].map fun j => (dptr f + (o.S * j + c), o.hSum mem f W r p2 j c))
        (fun y => y.buf ≠ (dptr f).buf ∨ ∃ j ∈ [o.m * t + s, o.m * t + s + o.m * p2], y = dptr f + (o.S * j + c)) := by
    intro t s c m1 ht hs hc hL hsz ho hj
    have hg := getU hfU ho (o.S * (o.m * t + s) + c)
    exact incs_rows hCS hc (u := o.hSum mem f W r p2) [(o.m * t + s, _), (o.m * t + s + o.m * p2, _)] (by simp; omega)
      (by simpa using ⟨vf.get hsz (by omega) hc, vf.get hsz hL hc⟩) hj
      (by simp only [List.mem_cons, List.not_mem_nil, or_false, forall_eq_or_imp, forall_eq, hSum_lt w' hp h2p ht hs, hSum_ge w' hp h2p hr h2 ht hs, hg]; simp)
  unfold iIncH
  simp only [hc2]
  refine Cmd.Ok.bind (drows_gen (Cover.shift (k := 0)) hCS (DRows.start (x := dptr f) (u := o.hSum mem f W r p2)) (fun j => [j, j + o.m * p2]) ?_ ?_ (fun _ _ _ _ h => h) ?_ ?_)
  · intro s s' h h' j h1 h2; simp at h1 h2; omega
  · intro s _; simp; omega
  · rintro ⟨s, c⟩ hi m1 hsz ho hj
    rw [mem_rng20] at hi
    obtain ⟨_, h3, _, hc⟩ := hi
    simp only [Ptr.add_add, Nat.zero_add, ha0] at hj ⊢
    refine Does.getC (vU.get hsz (by omega) hc) (Or.inl (hUb _).1) (Or.inl (hUb _).2) ?_
    have := inc2 0 s c m1 (by omega) h3 hc (by omega) hsz ho (by simpa only [Nat.mul_zero, Nat.zero_add] using hj)
    simp only [Nat.mul_zero, Nat.zero_add, Nat.cast_zero, mul_zero, w_zero, map_one, mul_one] at this
    exact this
  intro m1 I1
  refine Cmd.Ok.bind (drows_gen Cover.three hCS I1 (fun j => [j, j + o.m * p2]) ?_ ?_ ?_ ?_ ?_)
  · intro s s' h h' j h1 h2; simp at h1 h2; omega
  · intro s _; simp; omega
  · intro s h j hj
    simp only [List.mem_cons, List.not_mem_nil, or_false, false_or] at hj ⊢
    rintro ⟨s', h', hj'⟩
    omega
  · rintro ⟨t, s, c⟩ hi m1 hsz ho hj
    rw [mem_rng3] at hi
    obtain ⟨⟨h1, h2'⟩, ⟨_, h3⟩, _, hc⟩ := hi
    simp only at h1 h2' h3 hc
    have hjj := radix_lt h3 h2'
    simp only [Ptr.add_add, ha3, ha4] at hj ⊢
    refine Does.get (w'.zqp_bd hp hr hrn h1 (by omega)) (Does.getC (vU.get hsz (by omega) hc) (Or.inl (hUb _).1) (Or.inl (hUb _).2) ?_)
    rw [w'.zqp_val hp h1 (by omega)]
    exact inc2 t s c m1 (by omega) h3 hc (by omega) hsz ho hj
  intro m2 I2
  refine Cmd.Ok.bind (drows_gen (Cover.shift (k := o.m * (p2 - 1))) hCS I2 (fun j => [j, j + o.m * p2]) ?_ ?_ ?_ ?_ ?_)
  · intro s s' h h' j h1 h2; simp at h1 h2; omega
  · intro s _; simp; omega
  · intro s h j hj
    simp only [List.mem_cons, List.not_mem_nil, or_false, false_or] at hj ⊢
    rintro (⟨s', h', hj'⟩ | ⟨s', h', hj'⟩) <;> omega
  · rintro ⟨s, c⟩ hi m1 hsz ho hj
    rw [mem_rng20] at hi
    obtain ⟨_, h3, _, hc⟩ := hi
    simp only [Ptr.add_add, ha3, ha4] at hj ⊢
    refine Does.get (w'.zqp_bd hp hr hrn (by omega) (by omega)) (Does.getC (vU.get hsz (by omega) hc) (Or.inl (hUb _).1) (Or.inl (hUb _).2) ?_)
    rw [w'.zqp_val hp (by omega) (by omega)]
    exact inc2 (p2 - 1) s c m1 (by omega) (by omega) hc (by omega) hsz ho hj
  intro m3 I3
  refine drows_gen1 (Cover.shift (k := o.m * (p2 - 1))) hCS I3 ?_ ?_ ?_
  · intro s h
    simp only [List.mem_cons, List.not_mem_nil, or_false, false_or]
    rintro ((⟨s', h', hj'⟩ | ⟨s', h', hj'⟩) | ⟨s', h', hj'⟩) <;> omega
  · rintro ⟨s, c⟩ hi m1 hsz ho hj
    rw [mem_rng20] at hi
    obtain ⟨h1, h3, _, hc⟩ := hi
    simp only [Ptr.add_add, ha3] at hj ⊢
    have hg := getU hfU ho (o.S * (o.m * (p2 - 1) + s) + c)
    refine Does.get (w'.zqp_bd hp hr hrn (by omega) (by omega)) (Does.getC (vU.get hsz (by omega) hc) (Or.inl (hUb _).1) (Or.inl (hUb _).2) ?_)
    rw [w'.zqp_val hp (by omega) (by omega), ← Complex.mul_re]
    have := incs_rows hCS hc (u := o.hSum mem f W r p2) [(o.m * (p2 - 1) + s, (2 * conj (w o.q (r * (p2 - 1 : ℕ))) * m1.val (W + (o.S * (o.m * (p2 - 1) + s) + c))).re)] (by simp)
      (by simpa using vf.get hsz (by omega) hc) (by simpa using hj) (by simp only [List.mem_singleton, forall_eq, hSum_lt w' hp h2p (by omega : p2 - 1 < p2) h3, hg])
    exact ⟨this.good, this.wrs, fun y hy => by simpa using this.rds y hy⟩
  · intro m4 I4
    refine hQ m4 (I4.iff fun j => ?_)
    simp only [List.mem_cons, List.not_mem_nil, or_false, false_or]
    constructor
    · rintro (((⟨s', h', hj'⟩ | ⟨s', h', hj'⟩) | ⟨s', h', hj'⟩) | h') <;> omega
    · intro hj
      by_cases hjj : j < o.m * p2
      · by_cases h1 : j < o.m
        · exact Or.inl (Or.inl (Or.inl ⟨j, by omega, Or.inl rfl⟩))
        · by_cases h2 : j < o.m * (p2 - 1)
          · exact Or.inl (Or.inl (Or.inr ⟨j, by omega, Or.inl rfl⟩))
          · by_cases h3 : j < o.m * (p2 - 1) + (o.L - o.m * (o.p - 1))
            · exact Or.inl (Or.inr ⟨j, by omega, Or.inl rfl⟩)
            · exact Or.inr (by omega)
      · by_cases h1 : j - o.m * p2 < o.m
        · exact Or.inl (Or.inl (Or.inl ⟨j - o.m * p2, by omega, Or.inr (by omega)⟩))
        · by_cases h2 : j - o.m * p2 < o.m * (p2 - 1)
          · exact Or.inl (Or.inl (Or.inr ⟨j - o.m * p2, by omega, Or.inr (by omega)⟩))
          · exact Or.inl (Or.inr ⟨j - o.m * p2, by omega, Or.inr (by omega)⟩)

/-- The residue `n/2`, in a form common to the two variants. -/
theorem bwdB_half {body : ℕ × ℕ × ℕ → Body Unit} {pl : Plan}
    (hb : ∀ t s c, t < p2 → 1 ≤ s → s < o.m → c < o.C → ∀ m1 : Mem, m1.size = mem.size →
      (body (t, s, c)).Scales m1 (W + (o.S * (o.m * t + s) + c)) (conj (w o.M ((s : ℤ) * ((2 * o.n * t + r : ℕ) : ℤ)))))
    (hpl : (o.S = 1 ∧ pl = ⟨o.m, -1, p2, 1, o.m, o.inplace⟩) ∨ (o.S ≠ 1 ∧ pl = ⟨o.m, -1, o.C, o.S, 1, o.inplace⟩))
    (pre : o.Pre mem f F W) (hr : 0 < r) (h2 : 2 * r = o.n) (hQ : ∀ m', o.BwPost mem m' f F W r → Q () m') :
    ((if o.S = 1 then pl.exec F W else seqLoop (rng 0 p2) fun t => pl.exec (F + o.Sm * t) (W + o.Sm * t)) >>= fun _ =>
      par (rng3 0 p2 1 o.m 0 o.C) body >>= fun _ => o.fftpMany o.ifftp2 W >>= fun _ => o.iIncH f W r).Ok mem Q := by
  have hm := w'.m_pos
  have hrows := half_rows w' hp h2p
  have vW := validW_of w' pre.vW hrows
  obtain ⟨hc2, h22, -⟩ := half_facts w' hp h2p
  refine Cmd.Ok.bind (rowsB_ok w' hp hpl pre.sep.swap (validW_of w' pre.vF hrows) vW ?_)
  intro m1 u1 e1
  refine Cmd.Ok.bind (twid_ok (U := W) (Z := fun t s => conj (w o.M ((s : ℤ) * ((2 * o.n * t + r : ℕ) : ℤ)))) w'.C_le_S
    (fun t s c _ ht hs hs' hc => hb t s c ht hs hs' hc m1 u1.size) (fun t => by simp) (fun t ht => by omega) ?_)
  intro m2 u2 e2 _
  have u02 := u1.trans u2 (fun _ h => h) (fun _ h => h)
  have hpl2 := (w'.fftp2_many hp (by omega)).2
  rw [hc2] at hpl2
  refine Cmd.Ok.bind (fftpK_ok w' hpl2 (fun s hs c hc => vW.get u02.size hs hc) ?_)
  intro m3 u3 e3
  have u03 := u02.trans u3 (fun _ h => h) (fun _ h => h)
  refine iIncH_ok w' hp h2p hr h2 pre.fW (fun j hj c hc => pre.vf.get u03.size hj hc) (fun s hs c hc => vW.get u03.size hs hc) ?_
  intro m4 I4
  refine hQ m4 ⟨u03.cells.trans (DRows.dat I4 fun _ h => h) (fun y h => Or.inr (Or.inr (rws_arr w' hrows h))) (fun _ h => Or.inl h), ?_⟩
  intro c hc _ j hj
  rw [I4.2 j c hj hc, if_neg (by omega)]
  unfold hSum
  congr 1
  · refine u03.cells.frame _ ?_
    rintro ⟨i, hi, c', hc', h⟩
    have := congrArg Ptr.buf h
    simp [wordOf, dptr] at this
    exact pre.fW this
  · have hmod := Nat.mod_lt j hm
    have hu0 : j / o.m % p2 < p2 := Nat.mod_lt _ (by omega)
    have ej : j % (o.m * p2) = o.m * (j / o.m % p2) + j % o.m := by rw [Nat.mod_mul, Nat.add_comm]
    rw [ej, e3 _ hu0 _ hmod c hc]
    have := half_alg_back w'.M_eq (half_q w' hp h2p h2) (by omega) (by omega) (r := r)
      (fun t => m1.val (W + (o.S * (o.m * t + j % o.m) + c))) (j / o.m) (j / o.m % p2) (j % o.m) rfl
    rw [Nat.mod_add_div] at this
    have e4 : ∀ t ∈ range p2, m2.val (W + (o.S * (o.m * t + j % o.m) + c)) * w p2 (-1 * t * (j / o.m % p2 : ℕ)) =
        m1.val (W + (o.S * (o.m * t + j % o.m) + c)) * conj (w o.M ((j % o.m : ℕ) * ((2 * o.n * t + r : ℕ) : ℤ))) * w p2 (-1 * t * (j / o.m % p2 : ℕ)) := fun t ht => by
      rw [e2 t (mem_range.1 ht) _ hmod c hc]
    rw [sum_congr rfl e4, this, Complex.re_sum, mul_sum, noutputs_half hr h2, if_pos hp, show o.p / 2 = p2 by omega, Nat.mul_comm p2, sum_splitR]
    conv_rhs => rw [sum_comm]
    refine sum_congr rfl fun t ht => ?_
    have ht := mem_range.1 ht
    rw [e1 _ ht _ hmod c hc, row_back_mod w'.M_eq (by omega) (by have := w'.q_pos; omega) (fun l => mem.val (F + (o.S * (o.m * t + l) + c))), Complex.re_sum, mul_sum]
    refine sum_congr rfl fun l hl => ?_
    rw [weight_half w' hr h2, Nat.add_comm l, freq_halfB w' hp h2p hr h2 (mem_range.1 hl)]

end
end Re
end Fftwpp
