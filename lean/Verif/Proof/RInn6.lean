import Verif.Proof.RInn5
import Verif.Proof.BwdInner

/-! Backward inner transforms of real data (`p>2`): ordinary residues. -/

namespace Fftwpp
open Finset
namespace Re
variable {o : Re} {f F U W : Ptr} {mem : Mem} {r : ℕ} {W? : Option Ptr} {Q : Unit → Mem → Prop}
local notation "conj" => starRingEnd ℂ

theorem word0 (p : Ptr) : wordOf (dptr p) = p := by ext <;> simp [wordOf, dptr]
theorem word1 (p : Ptr) : wordOf (dptr p + 1) = p := by
  ext
  · simp [wordOf, dptr]
  · show (2 * p.off + 1) / 2 = p.off
    omega

/-- The loops of an ordinary residue that add the blocks to the data. -/
noncomputable def iInc (o : Re) (f U : Ptr) (r : ℕ) : Cmd Unit := do
  let fr := dptr f
  let pm1 := o.p - 1
  let stop := o.L - o.m * pm1
  let Smpm1 := o.Sm * pm1
  parD (rng2 0 o.m 0 o.C) fun (s, c) => do
    let v ← getC (U + o.S * s + c)
    incD (fr + o.S * s + c) (2 * v.re)
  parD (rng3 1 pm1 0 o.m 0 o.C) fun (t, s, c) => do
    let z ← o.Zetaqp.get (pm1 * r + t)
    let v ← getC (U + o.Sm * t + o.S * s + c)
    incD (fr + o.Sm * t + o.S * s + c) (realProduct (2 * z) v)
  parD (rng2 0 stop 0 o.C) fun (s, c) => do
    let z ← o.Zetaqp.get (pm1 * r + pm1)
    let v ← getC (U + Smpm1 + o.S * s + c)
    incD (fr + Smpm1 + o.S * s + c) (realProduct (2 * z) v)

/-- The data afterwards. -/
noncomputable def iSum (o : Re) (mem : Mem) (f U : Ptr) (r : ℕ) (j c : ℕ) : ℝ :=
  mem.cell (dptr f + (o.S * j + c)) + 2 * (conj (w o.q ((r : ℤ) * ((j / o.m : ℕ) : ℤ))) * mem.val (U + (o.S * j + c))).re

section
variable (w' : o.WF) (hp : 2 < o.p)
include w' hp

theorem iInc_ok (hr : 0 < r) (hrn : r < o.n) (hfU : f.buf ≠ U.buf) (vf : o.ValidF mem f) (vU : o.ValidW mem U (o.m * o.p))
    (hQ : ∀ m', DRows o.C o.S (dptr f) (fun j => j < o.L) (o.iSum mem f U r) mem m' → Q () m') :
    (o.iInc f U r).Ok mem Q := by
  have hCS := w'.C_le_S
  have hm := w'.m_pos
  have hub := w'.p_ub
  have hlb := w'.p_lb
  have hpm : o.m * (o.p - 1) + o.m = o.m * o.p := by
    obtain ⟨k, hk⟩ : ∃ k, o.p = k + 1 := ⟨o.p - 1, by omega⟩
    rw [hk]; simp [Nat.mul_succ]
  have hm1 : o.m * 1 ≤ o.m * (o.p - 1) := Nat.mul_le_mul_left _ (by omega)
  have hUb : ∀ i : ℕ, (dptr (U + i)).buf ≠ (dptr f).buf ∧ (dptr (U + i) + 1).buf ≠ (dptr f).buf := fun i => by
    constructor <;> simpa [dptr] using hfU.symm
  have ha3 : ∀ t s c, o.Sm * t + o.S * s + c = o.S * (o.m * t + s) + c := fun t s c => by rw [w'.Sm_eq]; ring
  have hdiv : ∀ t s, s < o.m → (o.m * t + s) / o.m = t := fun t s hs => by
    rw [Nat.mul_add_div hm, Nat.div_eq_of_lt hs, Nat.add_zero]
  unfold iInc
  refine Cmd.Ok.bind (drows_gen1 (Cover.shift (k := 0)) w'.C_le_S (DRows.start (x := dptr f) (u := o.iSum mem f U r)) (fun _ _ h => h) ?_ ?_)
  · rintro ⟨s, c⟩ hi m1 hsz ho hj
    rw [mem_rng20] at hi
    obtain ⟨_, h3, _, hc⟩ := hi
    simp only [Ptr.add_add, Nat.zero_add] at hj ⊢
    have hg := getU hfU ho (o.S * s + c)
    refine Does.getC (vU.get hsz (by omega) hc) (Or.inl (hUb _).1) (Or.inl (hUb _).2) ?_
    have := incs_rows w'.C_le_S hc (u := o.iSum mem f U r) [(s, 2 * (m1.val (U + (o.S * s + c))).re)] (by simp)
      (by simpa using vf.get hsz (by omega) hc) (by simpa using hj) (by simp only [List.mem_singleton, forall_eq, iSum, hg, Nat.div_eq_of_lt h3]; simp)
    exact ⟨this.good, this.wrs, fun y hy => by simpa using this.rds y hy⟩
  intro m1 I1
  refine Cmd.Ok.bind (drows_gen1 Cover.three w'.C_le_S I1 ?_ ?_ ?_)
  · intro s hs h; simp only [false_or] at h; omega
  · rintro ⟨t, s, c⟩ hi m1 hsz ho hj
    rw [mem_rng3] at hi
    obtain ⟨⟨h1, h2⟩, ⟨_, h3⟩, _, hc⟩ := hi
    simp only at h1 h2 h3 hc
    have hjj := radix_lt h3 h2
    simp only [Ptr.add_add, ha3] at hj ⊢
    have hg := getU hfU ho (o.S * (o.m * t + s) + c)
    refine Does.get (w'.zqp_bd hp hr hrn h1 (by omega)) (Does.getC (vU.get hsz (by omega) hc) (Or.inl (hUb _).1) (Or.inl (hUb _).2) ?_)
    rw [w'.zqp_val hp h1 (by omega), realProduct_two]
    have := incs_rows w'.C_le_S hc (u := o.iSum mem f U r) [(o.m * t + s, 2 * realProduct (w o.q (r * t)) (m1.val (U + (o.S * (o.m * t + s) + c))))] (by simp)
      (by simpa using vf.get hsz (by omega) hc) (by simpa using hj) (by simp only [List.mem_singleton, forall_eq, iSum, hg, hdiv t s h3, realProduct_eq])
    exact ⟨this.good, this.wrs, fun y hy => by simpa using this.rds y hy⟩
  intro m2 I2
  refine drows_gen1 (Cover.shift (k := o.m * (o.p - 1))) w'.C_le_S I2 ?_ ?_ ?_
  · intro s hs h; simp only [false_or] at h; omega
  · rintro ⟨s, c⟩ hi m1 hsz ho hj
    rw [mem_rng20] at hi
    obtain ⟨_, h3, _, hc⟩ := hi
    simp only [Ptr.add_add, ha3] at hj ⊢
    have hg := getU hfU ho (o.S * (o.m * (o.p - 1) + s) + c)
    refine Does.get (w'.zqp_bd hp hr hrn (by omega) (by omega)) (Does.getC (vU.get hsz (by omega) hc) (Or.inl (hUb _).1) (Or.inl (hUb _).2) ?_)
    rw [w'.zqp_val hp (by omega) (by omega), realProduct_two]
    have := incs_rows w'.C_le_S hc (u := o.iSum mem f U r) [(o.m * (o.p - 1) + s, 2 * realProduct (w o.q (r * (o.p - 1 : ℕ))) (m1.val (U + (o.S * (o.m * (o.p - 1) + s) + c))))] (by simp)
      (by simpa using vf.get hsz (by omega) hc) (by simpa using hj) (by simp only [List.mem_singleton, forall_eq, iSum, hg, hdiv (o.p - 1) s (by omega), realProduct_eq])
    exact ⟨this.good, this.wrs, fun y hy => by simpa using this.rds y hy⟩
  · intro m3 I3
    exact hQ m3 (I3.iff fun j => by simp only [false_or]; omega)

/-- What the rows at `U` add to `f[j]`. -/
noncomputable def oSum (o : Re) (mem : Mem) (U : Ptr) (r j c : ℕ) : ℂ :=
  ∑ t ∈ range o.p, w o.M (-((j : ℤ) * ((o.n * t + r : ℕ) : ℤ))) * mem.val (U + (o.S * (o.m * t + j % o.m) + c))

/-- Twiddle factors, transform over the blocks, increments. -/
theorem iRowB_ok {body : ℕ × ℕ × ℕ → Body Unit} (hr : 0 < r) (hrn : 2 * r < o.n) (hfU : f.buf ≠ U.buf) (vf : o.ValidF mem f)
    (vU : o.ValidW mem U (o.m * o.p))
    (hb : ∀ t s c, t < o.p → 1 ≤ s → s < o.m → c < o.C → ∀ m1 : Mem, m1.size = mem.size →
      (body (t, s, c)).Scales m1 (U + (o.S * (o.m * t + s) + c)) (conj (w o.M ((s : ℤ) * ((o.n * t + r : ℕ) : ℤ)))))
    (hQ : ∀ m', mem.DUpd m' (fun y => o.Dat f y ∨ Rws o.C o.S U (o.m * o.p) (wordOf y)) →
      (∀ j < o.L, ∀ c < o.C, m'.cell (dptr f + (o.S * j + c)) = mem.cell (dptr f + (o.S * j + c)) + 2 * (o.oSum mem U r j c).re) → Q () m') :
    (par (rng3 0 o.p 1 o.m 0 o.C) body >>= fun _ => o.fftpMany o.ifftp U >>= fun _ => o.iInc f U r).Ok mem Q := by
  have hm := w'.m_pos
  refine Cmd.Ok.bind (twid_ok (U := U) (Z := fun t s => conj (w o.M ((s : ℤ) * ((o.n * t + r : ℕ) : ℤ)))) w'.C_le_S
    (fun t s c _ ht hs hs' hc => hb t s c ht hs hs' hc mem rfl) (fun t => by simp) (fun t ht => by omega) ?_)
  intro m1 u1 e1 _
  refine Cmd.Ok.bind (fftpK_ok w' (w'.fftp_many hp (by omega)).2 (fun s hs c hc => vU.get u1.size hs hc) ?_)
  intro m2 u2 e2
  have u02 := u1.trans u2 (fun _ h => h) (fun _ h => h)
  refine iInc_ok w' hp hr (by omega) hfU (fun j hj c hc => vf.get u02.size hj hc) (fun s hs c hc => vU.get u02.size hs hc) ?_
  intro m3 I3
  refine hQ m3 (u02.cells.trans (DRows.dat I3 fun _ h => h) (fun _ h => Or.inr h) (fun _ h => Or.inl h)) ?_
  intro j hj c hc
  have hlt : j / o.m < o.p := Nat.div_lt_of_lt_mul (lt_of_lt_of_le hj w'.p_ub)
  have hmod := Nat.mod_lt j hm
  rw [I3.2 j c hj hc]
  unfold iSum oSum
  congr 1
  · refine u02.cells.frame _ ?_
    rintro ⟨i, hi, c', hc', h⟩
    have := congrArg Ptr.buf h
    simp [wordOf, dptr] at this
    exact hfU this
  · congr 2
    have ej : j = o.m * (j / o.m) + j % o.m := (Nat.div_add_mod ..).symm
    have e3 := e2 _ hlt _ hmod c hc
    rw [← ej] at e3
    rw [e3]
    have := inner_alg_back w'.M_eq (w'.q_big hp) (by omega) (by have := w'.q_pos; omega) (fun t => mem.val (U + (o.S * (o.m * t + j % o.m) + c))) r (j / o.m) (j % o.m)
    rw [Nat.mod_add_div] at this
    rw [← this]
    congr 1
    refine sum_congr rfl fun t ht => ?_
    rw [e1 t (mem_range.1 ht) _ hmod c hc]

/-- The rows of an ordinary call. -/
theorem irowsB_ok {row : Ptr → ℕ → Cmd Unit}
    (hrow : ∀ U r mem, 0 < r → 2 * r < o.n → f.buf ≠ U.buf → o.ValidF mem f → o.ValidW mem U (o.m * o.p) →
      (row U r).Ok mem (fun _ m' => mem.DUpd m' (fun y => o.Dat f y ∨ Rws o.C o.S U (o.m * o.p) (wordOf y)) ∧
      ∀ j < o.L, ∀ c < o.C, m'.cell (dptr f + (o.S * j + c)) = mem.cell (dptr f + (o.S * j + c)) + 2 * (o.oSum mem U r j c).re))
    (hr : 0 < r) (hrn : r + o.nd r ≤ (o.n - 1) / 2 + 1) (hfW : f.buf ≠ W.buf) (vf : o.ValidF mem f) (vW : o.ValidW mem W (o.m * (o.p * o.nd r)))
    (hQ : ∀ m', mem.DUpd m' (fun y => o.Dat f y ∨ Rws o.C o.S W (o.m * (o.p * o.nd r)) (wordOf y)) →
      (∀ j < o.L, ∀ c < o.C, m'.cell (dptr f + (o.S * j + c)) = mem.cell (dptr f + (o.S * j + c)) +
        2 * ∑ d ∈ range (o.nd r), (o.oSum mem (W + o.b * d) (r + d) j c).re) → Q () m') :
    (seqLoop (rng 0 (o.nd r)) fun d => row (W + o.b * d) (r + d)).Ok mem Q := by
  have hCS := w'.C_le_S
  have hm := w'.m_pos
  have hb : o.b = o.S * (o.m * o.p) := by rw [w'.b_eq, w'.l_eq, if_neg (w'.q_ne hp), P_big w' hp]
  have hadr : ∀ d i c : ℕ, W + o.b * d + (o.S * i + c) = W + (o.S * (o.m * o.p * d + i) + c) := by
    intro d i c
    rw [Ptr.add_add, hb]
    congr 1; ring
  have hlt : ∀ d < o.nd r, ∀ i < o.m * o.p, o.m * o.p * d + i < o.m * (o.p * o.nd r) := fun d hd i hi => by
    rw [← Nat.mul_assoc]; exact radix_lt hi hd
  refine Fft.seqLoop_rng (fun k m1 => mem.DUpd m1 (fun y => o.Dat f y ∨ ∃ d < k, ∃ i < o.m * o.p, ∃ c < o.C, wordOf y = W + (o.S * (o.m * o.p * d + i) + c)) ∧
      ∀ j < o.L, ∀ c < o.C, m1.cell (dptr f + (o.S * j + c)) = mem.cell (dptr f + (o.S * j + c)) +
        2 * ∑ d ∈ range k, (o.oSum mem (W + o.b * d) (r + d) j c).re) ⟨Mem.DUpd.refl _ _, fun j _ c _ => by simp⟩ ?_ ?_
  · rintro d m1 hd ⟨u1, e1⟩
    refine (hrow (W + o.b * d) (r + d) m1 (by omega) (by omega) (by simpa using hfW) (fun j hj c hc => vf.get u1.size hj hc) ?_).mono ?_
    · intro s hs c hc
      rw [hadr]
      exact vW.get u1.size (hlt d hd s hs) hc
    · rintro _ m2 ⟨u2, e2⟩
      refine ⟨u1.trans u2 ?_ ?_, ?_⟩
      · rintro p (h | ⟨d', hd', h⟩)
        · exact Or.inl h
        · exact Or.inr ⟨d', by omega, h⟩
      · rintro p (h | ⟨j, hj, c, hc, h⟩)
        · exact Or.inl h
        · exact Or.inr ⟨d, by omega, j, hj, c, hc, by rw [h, hadr]⟩
      · intro j hj c hc
        have ho : o.oSum m1 (W + o.b * d) (r + d) j c = o.oSum mem (W + o.b * d) (r + d) j c := by
          unfold oSum
          refine sum_congr rfl fun t ht => ?_
          congr 1
          have ht := mem_range.1 ht
          have hnot : ∀ y, wordOf y = W + o.b * d + (o.S * (o.m * t + j % o.m) + c) →
              ¬ (o.Dat f y ∨ ∃ d' < d, ∃ i < o.m * o.p, ∃ c < o.C, wordOf y = W + (o.S * (o.m * o.p * d' + i) + c)) := by
            rintro y hy (h | ⟨d', hd', i, hi, c', hc', h⟩)
            · have h1 := h.buf
              have h2 := congrArg Ptr.buf hy
              simp [wordOf] at h2
              exact hfW (h1.symm.trans h2)
            · rw [hy, hadr, Ptr.add_inj] at h
              obtain ⟨h4, _⟩ := radix_inj (by omega) (by omega) h
              have := radix_inj (radix_lt (Nat.mod_lt j hm) ht) hi h4
              omega
          exact u1.val (hnot _ (word0 _)) (hnot _ (word1 _))
        rw [e2 j hj c hc, e1 j hj c hc, sum_range_succ, ho]
        ring
  · rintro m1 ⟨u1, e1⟩
    refine hQ m1 (u1.mono ?_) e1
    rintro p (h | ⟨d, hd, i, hi, c, hc, h⟩)
    · exact Or.inl h
    · exact Or.inr ⟨_, hlt d hd i hi, c, hc, h⟩

/-- Ordinary residues, in a form common to the two variants. -/
theorem bwdB_ord {row : Ptr → ℕ → Cmd Unit} {pl : Plan}
    (hrow : ∀ U r mem, 0 < r → 2 * r < o.n → f.buf ≠ U.buf → o.ValidF mem f → o.ValidW mem U (o.m * o.p) →
      (row U r).Ok mem (fun _ m' => mem.DUpd m' (fun y => o.Dat f y ∨ Rws o.C o.S U (o.m * o.p) (wordOf y)) ∧
      ∀ j < o.L, ∀ c < o.C, m'.cell (dptr f + (o.S * j + c)) = mem.cell (dptr f + (o.S * j + c)) + 2 * (o.oSum mem U r j c).re))
    (hpl : (o.S = 1 ∧ pl = ⟨o.m, -1, o.p * o.nd r, 1, o.m, o.inplace⟩) ∨ (o.S ≠ 1 ∧ pl = ⟨o.m, -1, o.C, o.S, 1, o.inplace⟩))
    (pre : o.Pre mem f F W) (hv : o.Visit r) (hr : 0 < r) (h2 : 2 * r < o.n) (hQ : ∀ m', o.BwPost mem m' f F W r → Q () m') :
    ((if o.S = 1 then pl.exec F W else seqLoop (rng 0 (o.p * o.nd r)) fun t => pl.exec (F + o.Sm * t) (W + o.Sm * t)) >>= fun _ =>
      seqLoop (rng 0 (o.nd r)) fun d => row (W + o.b * d) (r + d)).Ok mem Q := by
  have hm := w'.m_pos
  have hrows := w'.ord_rows hp (by omega) r
  have hb : o.b = o.S * (o.m * o.p) := by rw [w'.b_eq, w'.l_eq, if_neg (w'.q_ne hp), P_big w' hp]
  refine Cmd.Ok.bind (rowsB_ok w' hp hpl pre.sep.swap (validW_of w' pre.vF hrows) (validW_of w' pre.vW hrows) ?_)
  intro m1 u1 e1
  refine irowsB_ok w' hp hrow hr (ord_n w' hp hv hr h2) pre.fW (fun j hj c hc => pre.vf.get u1.size hj hc)
    (fun s hs c hc => (validW_of w' pre.vW hrows).get u1.size hs hc) ?_
  intro m2 u2 e2
  refine hQ m2 ⟨u1.cells.trans u2 (fun y h => Or.inr (Or.inr (rws_arr w' hrows h))) ?_, ?_⟩
  · rintro y (h | h)
    · exact Or.inl h
    · exact Or.inr (Or.inr (rws_arr w' hrows h))
  intro c hc _ j hj
  rw [e2 j hj c hc, if_neg (by omega)]
  congr 1
  · refine u1.cells.frame _ ?_
    rintro ⟨i, hi, c', hc', h⟩
    have := congrArg Ptr.buf h
    simp [wordOf, dptr] at this
    exact pre.fW this
  · have e3 : ∀ i ∈ range (o.noutputs r), o.weight r i * (mem.val (F + (o.S * i + c)) * w o.M (-((j : ℤ) * o.freq r i))).re =
        2 * (mem.val (F + (o.S * i + c)) * w o.M (-((j : ℤ) * o.freq r i))).re := fun i hi => by
      rw [weight_ord w' hv hr h2 (mem_range.1 hi)]
    rw [sum_congr rfl e3, ← mul_sum, w'.noutputs_ord (w'.q_ne hp) hr h2, P_big w' hp, Nat.mul_assoc, sum_splitR]
    congr 1
    conv_rhs => rw [sum_comm]
    rw [sum_splitR]
    conv_rhs => rw [sum_comm]
    refine sum_congr rfl fun d hd => ?_
    have hd := mem_range.1 hd
    unfold oSum
    rw [Complex.re_sum]
    refine sum_congr rfl fun t ht => ?_
    have ht := mem_range.1 ht
    have hadr : W + o.b * d + (o.S * (o.m * t + j % o.m) + c) = W + (o.S * (o.m * (o.p * d + t) + j % o.m) + c) := by
      rw [Ptr.add_add, hb]; congr 1; ring
    rw [hadr, e1 _ (radix_lt ht hd) _ (Nat.mod_lt _ hm) c hc,
      row_back_mod w'.M_eq (by omega) (by have := w'.q_pos; omega) (fun l => mem.val (F + (o.S * (o.m * (o.p * d + t) + l) + c))), Complex.re_sum]
    refine sum_congr rfl fun l hl => ?_
    have e4 : l + o.m * (t + o.p * d) = o.m * (o.p * d + t) + l := by ring
    rw [e4, freq_ordB w' hp hr h2 ht (mem_range.1 hl)]

end
end Re
end Fftwpp
