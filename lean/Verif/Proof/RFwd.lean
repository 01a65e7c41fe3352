import Verif.Proof.RDefs

/-! Forward transforms of real data, `p≤2`: the rows. -/

namespace Fftwpp
open Finset
namespace Re
variable {o : Re} {f F U W : Ptr} {mem : Mem} {r : ℕ}

/-- Copy `c` of the data. -/
noncomputable def X (o : Re) (mem : Mem) (f : Ptr) (c j : ℕ) : ℂ := (mem.cell (dptr f + (o.S * j + c)) : ℂ)

/-- The data can be accessed. -/
def ValidF (o : Re) (mem : Mem) (f : Ptr) : Prop := ∀ j < o.L, ∀ c < o.C, mem.split.valid (dptr f + (o.S * j + c))

/-- Rows `s<K` can be accessed. -/
def ValidW (o : Re) (mem : Mem) (U : Ptr) (K : ℕ) : Prop := ∀ s < K, ∀ c < o.C, mem.valid (U + (o.S * s + c))

/-- Rows changed when filling `K` rows. -/
def Jrow (o : Re) (K s : ℕ) : Prop := s < K ∧ (o.inplace = true ∨ o.p ≠ 1 ∨ s < o.L)

/-- The rows beyond the data are zero if they will not be written. -/
def ZeroW (o : Re) (mem : Mem) (U : Ptr) (K : ℕ) : Prop := o.inplace = false → o.p = 1 → ∀ s < K, o.L ≤ s → ∀ c < o.C, mem.val (U + (o.S * s + c)) = 0

/-- Postcondition of filling `K` rows with `v`. -/
def RowPost (o : Re) (mem m' : Mem) (U : Ptr) (K : ℕ) (v : ℕ → ℕ → ℂ) : Prop :=
  mem.Upd m' (fun p => ∃ s c, o.Jrow K s ∧ c < o.C ∧ p = U + (o.S * s + c)) ∧ ∀ s < K, ∀ c < o.C, m'.val (U + (o.S * s + c)) = v s c

theorem RowPost.of_rows {m' : Mem} {K : ℕ} {v : ℕ → ℕ → ℂ} {J : ℕ → Prop} (h : WRows o.C o.S U J v mem m') (hJ : ∀ s, J s ↔ o.Jrow K s)
    (hz : o.ZeroW mem U K) (hv : ∀ s, o.L ≤ s → s < K → o.p = 1 → ∀ c, v s c = 0) (hCS : o.C ≤ o.S) : o.RowPost mem m' U K v := by
  have h' := h.iff hJ
  refine ⟨h'.1, fun s hs c hc => ?_⟩
  by_cases hj : o.Jrow K s
  · exact h'.2 s c hj hc
  · have h3 : ¬ (o.inplace = true ∨ o.p ≠ 1 ∨ s < o.L) := fun h => hj ⟨hs, h⟩
    push Not at h3
    rw [h'.1.frame, hz (by simpa using h3.1) h3.2.1 s hs h3.2.2 c hc, hv s h3.2.2 hs h3.2.1]
    rintro ⟨s', c', h1, h2, e⟩
    rw [Ptr.add_inj] at e
    obtain ⟨rfl, _⟩ := radix_inj (by omega) (by omega) e
    exact hj h1

/-- Reading the data. -/
theorem getX (hfU : f.buf ≠ U.buf) {m1 : Mem} (ho : ∀ p : Ptr, p.buf ≠ U.buf → m1.val p = mem.val p) (j c : ℕ) :
    ((m1.cell (dptr f + (o.S * j + c)) : ℝ) : ℂ) = o.X mem f c j := by
  unfold X
  rw [cell_congr ho (by simpa [dptr] using hfU)]

theorem ValidF.get (h : o.ValidF mem f) {m1 : Mem} (hs : m1.size = mem.size) {j c : ℕ} (hj : j < o.L) (hc : c < o.C) :
    m1.split.valid (dptr f + (o.S * j + c)) := Mem.valid_of_size (Mem.split_size hs) (h j hj c hc)

theorem ValidW.get {K : ℕ} (h : o.ValidW mem U K) {m1 : Mem} (hs : m1.size = mem.size) {j c : ℕ} (hj : j < K) (hc : c < o.C) :
    m1.valid (U + (o.S * j + c)) := Mem.valid_of_size hs (h j hj c hc)

theorem f1Row_ok (w' : o.WF) (hp : o.p = 1) (hq : o.q ≠ 1) (hr : 0 < r) (hrq : r < o.q) (hfU : f.buf ≠ U.buf) (vf : o.ValidF mem f)
    (vU : o.ValidW mem U o.m) (hz : o.ZeroW mem U o.m) {Q : Unit → Mem → Prop}
    (hQ : ∀ m', o.RowPost mem m' U o.m (fun s c => fillv o.M o.L o.m o.p (o.X mem f c) r s) → Q () m') : (o.f1Row f U r).Ok mem Q := by
  have hL := w'.L_pos
  have hLm : o.L ≤ o.m := by have := w'.p_ub; rw [hp] at this; omega
  have hfb : ∀ i : ℕ, (dptr f + i).buf ≠ U.buf := fun i => by simpa [dptr] using hfU
  have hv0 : ∀ s c, o.L ≤ s → fillv o.M o.L o.m o.p (o.X mem f c) r s = 0 := by
    intro s c h; rw [hp, fillv_one, if_neg (by omega)]
  unfold f1Row
  refine Cmd.Ok.bind (wrows_loop w'.C_le_S (WRows.start (U := U) (v := fun s c => fillv o.M o.L o.m o.p (o.X mem f c) r s)) ?_ ?_)
  · intro s c hs hs' hc m1 hsz ho
    obtain rfl : s = 0 := by omega
    have h1 := vf.get hsz hL hc
    have h2 := vU.get hsz w'.m_pos hc
    have h3 := getX (o := o) hfU ho 0 c
    rw [Nat.mul_zero, Nat.zero_add] at h1 h2 h3 ⊢
    refine Does.getD h1 (hfb _) (Does.setC h2 ?_)
    rw [hp, fillv_one, if_pos hL, h3]; simp
  intro m1 I1
  refine Cmd.Ok.bind (wrows_loop w'.C_le_S I1 ?_ ?_)
  · intro s c hs hs' hc m1 hsz ho
    simp only [Ptr.add_add]
    refine Does.get (w'.zq_bd hq hr hrq (by omega)) (Does.getD (vf.get hsz hs' hc) (hfb _) (Does.setC (vU.get hsz (by omega) hc) ?_))
    rw [hp, fillv_one, if_pos hs', getX hfU ho, w'.zq_val hq (by omega), mul_comm]
  intro m2 I2
  by_cases hi : o.inplace = true
  · rw [if_pos hi]
    refine wrows_loop w'.C_le_S I2 ?_ ?_
    · intro s c hs hs' hc m1 hsz ho
      simp only [Ptr.add_add]
      exact Does.setC (vU.get hsz hs' hc) (hv0 _ _ hs).symm
    · intro m3 I3
      refine hQ _ (.of_rows I3 (fun s => ?_) hz (fun s h _ _ c => hv0 s c h) w'.C_le_S)
      unfold Jrow
      simp only [hi, true_or, and_true, false_or]
      omega
  · rw [if_neg hi]
    refine Cmd.Ok.pure (hQ _ (.of_rows I2 (fun s => ?_) hz (fun s h _ _ c => hv0 s c h) w'.C_le_S))
    unfold Jrow
    simp only [hi, hp, false_or, ne_eq, not_true]
    simp
    omega

theorem f2Row_ok (w' : o.WF) (hp : o.p = 2) (hq : o.q ≠ 1) (hr : 0 < r) (hrq : r < o.q) (hfU : f.buf ≠ U.buf) (vf : o.ValidF mem f)
    (vU : o.ValidW mem U o.m) {Q : Unit → Mem → Prop}
    (hQ : ∀ m', o.RowPost mem m' U o.m (fun s c => fillv o.M o.L o.m o.p (o.X mem f c) r s) → Q () m') : (o.f2Row f U r).Ok mem Q := by
  have hL := w'.L_pos
  have hmp := w'.m_pos
  have hLm : o.m < o.L := by have := w'.p_lb; rw [hp] at this; omega
  have hL2 : o.L ≤ 2 * o.m := by have := w'.p_ub; rw [hp] at this; omega
  have hfb : ∀ i : ℕ, (dptr f + i).buf ≠ U.buf := fun i => by simpa [dptr] using hfU
  unfold f2Row
  refine Cmd.Ok.bind (wrows_loop w'.C_le_S (WRows.start (U := U) (v := fun s c => fillv o.M o.L o.m o.p (o.X mem f c) r s)) ?_ ?_)
  · intro s c hs hs' hc m1 hsz ho
    obtain rfl : s = 0 := by omega
    have h1 := vf.get hsz hL hc
    have h2 := vU.get hsz w'.m_pos hc
    have h3 := getX (o := o) hfU ho 0 c
    have h4 := getX (o := o) hfU ho o.m c
    rw [Nat.mul_zero, Nat.zero_add] at h1 h2 h3 ⊢
    simp only [Ptr.add_add]
    refine Does.get (w'.zqS_bd hp hr hrq le_rfl hLm) (Does.getD h1 (hfb _) (Does.getD (vf.get hsz hLm hc) (hfb _) (Does.setC h2 ?_)))
    rw [hp, fillv_two, if_pos hL, if_pos (by omega), h3, h4, w'.zqS_val hp le_rfl hLm, Nat.zero_add, mul_comm (w _ _)]; simp
  intro m1 I1
  refine Cmd.Ok.bind (wrows_loop w'.C_le_S I1 ?_ ?_)
  · intro s c hs hs' hc m1 hsz ho
    simp only [Ptr.add_add, ← Nat.mul_add]
    refine Does.get (w'.zq_bd hq hr hrq (by omega)) (Does.get ?_ (Does.getD (vf.get hsz (by omega) hc) (hfb _)
      (Does.getD (vf.get hsz (by omega) hc) (hfb _) (Does.setC (vU.get hsz (by omega) hc) ?_))))
    · rw [Nat.add_assoc]; exact w'.zqS_bd hp hr hrq (by omega) (by omega)
    · rw [hp, fillv_two, if_pos (by omega), if_pos (by omega), getX hfU ho, getX hfU ho, w'.zq_val hq (by omega), Nat.add_assoc,
        w'.zqS_val hp (by omega) (by omega), Nat.add_comm s, mul_comm (w _ _), mul_comm (w _ _)]
  intro m2 I2
  refine wrows_loop w'.C_le_S I2 ?_ ?_
  · intro s c hs hs' hc m1 hsz ho
    simp only [Ptr.add_add]
    refine Does.get (w'.zq_bd hq hr hrq (by omega)) (Does.getD (vf.get hsz (by omega) hc) (hfb _) (Does.setC (vU.get hsz (by omega) hc) ?_))
    rw [hp, fillv_two, if_pos (by omega), if_neg (by omega), getX hfU ho, w'.zq_val hq (by omega), mul_comm, add_zero]
  · intro m3 I3
    refine hQ _ (.of_rows I3 (fun s => ?_) (fun _ h => absurd h (by omega)) (fun s _ _ h => absurd h (by omega)) w'.C_le_S)
    unfold Jrow
    simp only [hp, false_or]
    simp
    omega

/-! ### The residue `q/2` -/

theorem w_four (u : ℤ) : w 4 (u + 2) = - w 4 u := by
  have : w 4 2 = -1 := by
    unfold w
    rw [show (2 * (Real.pi : ℂ) * Complex.I * ((2 : ℤ) : ℂ) / ((4 : ℕ) : ℂ)) = Real.pi * Complex.I by push_cast; ring, Complex.exp_pi_mul_I]
  rw [w_add, this]; ring

theorem w_four_one : w 4 1 = Complex.I := by
  unfold w
  rw [show (2 * (Real.pi : ℂ) * Complex.I * ((1 : ℤ) : ℂ) / ((4 : ℕ) : ℂ)) = Real.pi / 2 * Complex.I by push_cast; ring, Complex.exp_pi_div_two_mul_I]

/-- For `2r=q` the twiddle factor of row `s+hu` is `i^u` times that of row `s`. -/
theorem w_half {M h r : ℕ} (hM : M = h * r * 4) (hh : h ≠ 0) (hr : r ≠ 0) (s u : ℕ) :
    w M (((s + h * u : ℕ) : ℤ) * r) = w M (s * r) * w 4 u := by
  have h1 : ((s + h * u : ℕ) : ℤ) * r = s * r + ((h * r : ℕ) : ℤ) * u := by push_cast; ring
  rw [h1, w_add, hM, Nat.mul_comm (h * r) 4, w_base 4 (h * r) (Nat.mul_ne_zero hh hr)]

theorem fillv_half_one {M L h r : ℕ} (hM : M = h * r * 4) (hh : h ≠ 0) (hr : r ≠ 0) (x : ℕ → ℂ) (s : ℕ) :
    fillv M L h 2 x r s = w M (s * r) * ((if s < L then x s else 0) + Complex.I * (if h + s < L then x (h + s) else 0)) := by
  have h1 := w_half hM hh hr s 1
  rw [Nat.mul_one] at h1
  rw [fillv_two, h1, Nat.cast_one, w_four_one, Nat.add_comm s h]
  split_ifs <;> ring

theorem fillv_half_two {M L h r : ℕ} (hM : M = h * r * 4) (hh : h ≠ 0) (hr : r ≠ 0) (x : ℕ → ℂ) (s : ℕ) :
    fillv M L h 4 x r s = w M (s * r) * ((if s < L then x s else 0) - (if 2 * h + s < L then x (2 * h + s) else 0) +
      Complex.I * ((if h + s < L then x (h + s) else 0) - (if 2 * h + (h + s) < L then x (2 * h + (h + s)) else 0))) := by
  unfold fillv
  simp only [w_half hM hh hr, sum_range_succ, sum_range_zero]
  have e0 : w 4 ((0 : ℕ) : ℤ) = 1 := by simp
  have e1 : w 4 ((1 : ℕ) : ℤ) = Complex.I := w_four_one
  have e2 : w 4 ((2 : ℕ) : ℤ) = -1 := by have := w_four 0; simpa using this
  have e3 : w 4 ((3 : ℕ) : ℤ) = - Complex.I := by have := w_four 1; rw [w_four_one] at this; exact this
  rw [e0, e1, e2, e3, show s + h * 0 = s by ring, show s + h * 1 = h + s by ring, show s + h * 2 = 2 * h + s by ring,
    show s + h * 3 = 2 * h + (h + s) by ring]
  split_ifs <;> ring

theorem mk_eq (a b : ℝ) : (⟨a, b⟩ : ℂ) = a + Complex.I * b := by apply Complex.ext <;> simp

theorem WF.M_half (w' : o.WF) (hq : o.q ≠ 1) (hr2 : 2 * r = o.q) : o.M = o.h * r * 4 := by
  rw [w'.M_eq, w'.m_h hq (by omega), ← hr2]; ring

theorem f1Half_ok (w' : o.WF) (hp : o.p = 1) (hq : o.q ≠ 1) (hr2 : 2 * r = o.q) (hfU : f.buf ≠ U.buf) (vf : o.ValidF mem f)
    (vU : o.ValidW mem U o.h) (hz : o.ZeroW mem U o.h) {Q : Unit → Mem → Prop}
    (hQ : ∀ m', o.RowPost mem m' U o.h (fun s c => fillv o.M o.L o.h (2 * o.p) (o.X mem f c) r s) → Q () m') : (o.f1Half f U r).Ok mem Q := by
  have hL := w'.L_pos
  have hqp := w'.q_pos
  have hmh := w'.m_h hq (by omega)
  have hh := w'.h_pos hq (by omega)
  have hLm : o.L ≤ 2 * o.h := by have := w'.p_ub; rw [hp] at this; omega
  have hfb : ∀ i : ℕ, (dptr f + i).buf ≠ U.buf := fun i => by simpa [dptr] using hfU
  have hM := w'.M_half hq hr2
  have hv : ∀ s c, fillv o.M o.L o.h (2 * o.p) (o.X mem f c) r s = w o.M (s * r) * ((if s < o.L then o.X mem f c s else 0) +
      Complex.I * (if o.h + s < o.L then o.X mem f c (o.h + s) else 0)) := by
    intro s c; rw [hp]; exact fillv_half_one hM (by omega) (by omega) _ s
  have hv0 : ∀ s c, o.L ≤ s → fillv o.M o.L o.h (2 * o.p) (o.X mem f c) r s = 0 := by
    intro s c h; rw [hv, if_neg (by omega), if_neg (by omega)]; simp
  have hzq : ∀ s, s < o.h → o.Zetaqm.lo ≤ o.m * r + s ∧ o.m * r + s < o.Zetaqm.hi := fun s hs =>
    w'.zq_bd hq (by omega) (by omega) (by omega)
  have hzv : ∀ s, s < o.h → o.Zetaqm.val (o.m * r + s) = w o.M (s * r) := fun s hs => w'.zq_val hq (by omega)
  unfold f1Half
  rw [show o.e - 1 = o.h from rfl]
  have start := WRows.start (C := o.C) (S := o.S) (U := U) (mem0 := mem) (v := fun s c => fillv o.M o.L o.h (2 * o.p) (o.X mem f c) r s)
  have hJ1 : ∀ j, (False ∨ 0 ≤ j ∧ j < 1) ↔ j < 1 := fun j => by simp
  have s1 : (if o.L ≤ o.h then parD (rng2 0 1 0 o.C) fun (_, c) => (do
       let v ← getD (dptr f + c)
       setC (U + c) v)
     else parD (rng2 0 1 0 o.C) fun (_, c) => (do
       let x ← getD (dptr f + c)
       let y ← getD (dptr f + o.S * o.h + c)
       setC (U + c) ⟨x, y⟩)).Ok mem fun _ m' => WRows o.C o.S U (fun j => j < 1)
         (fun s c => fillv o.M o.L o.h (2 * o.p) (o.X mem f c) r s) mem m' := by
    by_cases hLh : o.L ≤ o.h
    · rw [if_pos hLh]
      refine wrows_loop w'.C_le_S start ?_ fun m' I => I.iff hJ1
      intro s c hs hs' hc m1 hsz ho
      obtain rfl : s = 0 := by omega
      have h1 := vf.get hsz hL hc
      have h2 := vU.get hsz hh hc
      have h3 := getX (o := o) hfU ho 0 c
      rw [Nat.mul_zero, Nat.zero_add] at h1 h2 h3 ⊢
      refine Does.getD h1 (hfb _) (Does.setC h2 ?_)
      rw [hv, if_pos hL, if_neg (by omega), h3]; simp
    · rw [if_neg hLh]
      refine wrows_loop w'.C_le_S start ?_ fun m' I => I.iff hJ1
      intro s c hs hs' hc m1 hsz ho
      obtain rfl : s = 0 := by omega
      have h1 := vf.get hsz hL hc
      have h2 := vU.get hsz hh hc
      have h3 := getX (o := o) hfU ho 0 c
      rw [Nat.mul_zero, Nat.zero_add] at h1 h2 h3 ⊢
      simp only [Ptr.add_add]
      refine Does.getD h1 (hfb _) (Does.getD (vf.get hsz (by omega) hc) (hfb _) (Does.setC h2 ?_))
      rw [hv, if_pos hL, if_pos (by omega), mk_eq, h3, getX hfU ho]; simp
  refine Cmd.Ok.bind (s1.mono ?_)
  intro _ m1 I1
  generalize hLmh : (if o.L ≤ o.h then 0 else o.L - o.h) = Lmh
  generalize hstop : (if o.L ≤ o.h then o.L else o.h) = stop
  have hst : stop = min o.L o.h := by rw [← hstop]; split_ifs <;> omega
  have hLm' : Lmh = o.L - o.h := by rw [← hLmh]; split_ifs <;> omega
  refine Cmd.Ok.bind (wrows_loop w'.C_le_S I1 ?_ ?_)
  · intro s c hs hs' hc m1 hsz ho
    simp only [Ptr.add_add, ← Nat.mul_add]
    refine Does.get (hzq s (by omega)) (Does.getD (vf.get hsz (by omega) hc) (hfb _) (Does.getD (vf.get hsz (by omega) hc) (hfb _)
      (Does.setC (vU.get hsz (by omega) hc) ?_)))
    rw [hv, if_pos (by omega), if_pos (by omega), mk_eq, getX hfU ho, getX hfU ho, hzv s (by omega)]
  intro m2 I2
  refine Cmd.Ok.bind (wrows_loop w'.C_le_S I2 ?_ ?_)
  · intro s c hs hs' hc m1 hsz ho
    simp only [Ptr.add_add]
    refine Does.get (hzq s (by omega)) (Does.getD (vf.get hsz (by omega) hc) (hfb _) (Does.setC (vU.get hsz (by omega) hc) ?_))
    rw [hv, if_pos (by omega), if_neg (by omega), getX hfU ho, hzv s (by omega)]; simp
  intro m3 I3
  by_cases hi : o.inplace = true
  · rw [if_pos hi]
    refine wrows_loop w'.C_le_S I3 ?_ ?_
    · intro s c hs hs' hc m1 hsz ho
      simp only [Ptr.add_add]
      exact Does.setC (vU.get hsz hs' hc) (hv0 _ _ hs).symm
    · intro m3 I3
      refine hQ _ (.of_rows I3 (fun s => ?_) hz (fun s h _ _ c => hv0 s c h) w'.C_le_S)
      unfold Jrow
      simp only [hi, true_or, and_true]
      omega
  · rw [if_neg hi]
    refine Cmd.Ok.pure (hQ _ (.of_rows I3 (fun s => ?_) hz (fun s h _ _ c => hv0 s c h) w'.C_le_S))
    unfold Jrow
    simp only [hi, hp, false_or, ne_eq, not_true]
    simp
    omega

theorem f2Half_ok (w' : o.WF) (hp : o.p = 2) (hq : o.q ≠ 1) (hr2 : 2 * r = o.q) (hfU : f.buf ≠ U.buf) (vf : o.ValidF mem f)
    (vU : o.ValidW mem U o.h) {Q : Unit → Mem → Prop}
    (hQ : ∀ m', o.RowPost mem m' U o.h (fun s c => fillv o.M o.L o.h (2 * o.p) (o.X mem f c) r s) → Q () m') : (o.f2Half f U r).Ok mem Q := by
  have hL := w'.L_pos
  have hqp := w'.q_pos
  have hmh := w'.m_h hq (by omega)
  have hh := w'.h_pos hq (by omega)
  have hLm : o.m < o.L := by have := w'.p_lb; rw [hp] at this; omega
  have hL2 : o.L ≤ 2 * o.m := by have := w'.p_ub; rw [hp] at this; omega
  have hfb : ∀ i : ℕ, (dptr f + i).buf ≠ U.buf := fun i => by simpa [dptr] using hfU
  have hM := w'.M_half hq hr2
  have hv : ∀ s c, fillv o.M o.L o.h (2 * o.p) (o.X mem f c) r s = w o.M (s * r) * ((if s < o.L then o.X mem f c s else 0) -
      (if o.m + s < o.L then o.X mem f c (o.m + s) else 0) +
      Complex.I * ((if o.h + s < o.L then o.X mem f c (o.h + s) else 0) - (if o.m + (o.h + s) < o.L then o.X mem f c (o.m + (o.h + s)) else 0))) := by
    intro s c; rw [hp, hmh]; exact fillv_half_two hM (by omega) (by omega) _ s
  have hzq : ∀ s, s < o.h → o.Zetaqm.lo ≤ o.m * r + s ∧ o.m * r + s < o.Zetaqm.hi := fun s hs =>
    w'.zq_bd hq (by omega) (by omega) (by omega)
  have hzv : ∀ s, s < o.h → o.Zetaqm.val (o.m * r + s) = w o.M (s * r) := fun s hs => w'.zq_val hq (by omega)
  unfold f2Half
  rw [show o.e - 1 = o.h from rfl]
  have start := WRows.start (C := o.C) (S := o.S) (U := U) (mem0 := mem) (v := fun s c => fillv o.M o.L o.h (2 * o.p) (o.X mem f c) r s)
  have hJ1 : ∀ j, (False ∨ 0 ≤ j ∧ j < 1) ↔ j < 1 := fun j => by simp
  have s1 : (if o.m + o.h < o.L then parD (rng2 0 1 0 o.C) fun (_, c) => (do
       let x ← getD (dptr f + c)
       let xm ← getD (dptr f + o.S * o.m + c)
       let y ← getD (dptr f + o.S * o.h + c)
       let ym ← getD (dptr f + o.S * o.h + o.S * o.m + c)
       setC (U + c) ⟨x - xm, y - ym⟩)
     else parD (rng2 0 1 0 o.C) fun (_, c) => (do
       let x ← getD (dptr f + c)
       let xm ← getD (dptr f + o.S * o.m + c)
       let y ← getD (dptr f + o.S * o.h + c)
       setC (U + c) ⟨x - xm, y⟩)).Ok mem fun _ m' => WRows o.C o.S U (fun j => j < 1)
         (fun s c => fillv o.M o.L o.h (2 * o.p) (o.X mem f c) r s) mem m' := by
    by_cases hLh : o.m + o.h < o.L
    · rw [if_pos hLh]
      refine wrows_loop w'.C_le_S start ?_ fun m' I => I.iff hJ1
      intro s c hs hs' hc m1 hsz ho
      obtain rfl : s = 0 := by omega
      have h1 := vf.get hsz hL hc
      have h2 := vU.get hsz hh hc
      have h3 := getX (o := o) hfU ho 0 c
      rw [Nat.mul_zero, Nat.zero_add] at h1 h2 h3 ⊢
      simp only [Ptr.add_add, ← Nat.mul_add]
      refine Does.getD h1 (hfb _) (Does.getD (vf.get hsz (by omega) hc) (hfb _) (Does.getD (vf.get hsz (by omega) hc) (hfb _)
        (Does.getD (vf.get hsz (by omega) hc) (hfb _) (Does.setC h2 ?_))))
      rw [hv, if_pos hL, if_pos (by omega), if_pos (by omega), if_pos (by omega), mk_eq]
      push_cast
      rw [h3, getX hfU ho, getX hfU ho, getX hfU ho, Nat.add_comm o.h o.m]; simp
    · rw [if_neg hLh]
      refine wrows_loop w'.C_le_S start ?_ fun m' I => I.iff hJ1
      intro s c hs hs' hc m1 hsz ho
      obtain rfl : s = 0 := by omega
      have h1 := vf.get hsz hL hc
      have h2 := vU.get hsz hh hc
      have h3 := getX (o := o) hfU ho 0 c
      rw [Nat.mul_zero, Nat.zero_add] at h1 h2 h3 ⊢
      simp only [Ptr.add_add]
      refine Does.getD h1 (hfb _) (Does.getD (vf.get hsz (by omega) hc) (hfb _) (Does.getD (vf.get hsz (by omega) hc) (hfb _)
        (Does.setC h2 ?_)))
      rw [hv, if_pos hL, if_pos (by omega), if_pos (by omega), if_neg (by omega), mk_eq]
      push_cast
      rw [h3, getX hfU ho, getX hfU ho]; simp
  refine Cmd.Ok.bind (s1.mono ?_)
  intro _ m1 I1
  generalize hst1 : (if o.m + o.h < o.L then o.L - (o.m + o.h) else 1) = stop1
  generalize hst2 : (if o.m + o.h < o.L then o.h else o.L - o.m) = stop2
  have hc12 : (o.m + o.h < o.L ∧ stop1 = o.L - (o.m + o.h) ∧ stop2 = o.h) ∨ (o.L ≤ o.m + o.h ∧ stop1 = 1 ∧ stop2 = o.L - o.m) := by
    rw [← hst1, ← hst2]; split_ifs with h
    · exact Or.inl ⟨h, rfl, rfl⟩
    · exact Or.inr ⟨by omega, rfl, rfl⟩
  refine Cmd.Ok.bind (wrows_loop w'.C_le_S I1 ?_ ?_)
  · intro s c hs hs' hc m1 hsz ho
    simp only [Ptr.add_add, ← Nat.mul_add]
    refine Does.get (hzq s (by omega)) (Does.getD (vf.get hsz (by omega) hc) (hfb _) (Does.getD (vf.get hsz (by omega) hc) (hfb _)
      (Does.getD (vf.get hsz (by omega) hc) (hfb _) (Does.getD (vf.get hsz (by omega) hc) (hfb _) (Does.setC (vU.get hsz (by omega) hc) ?_)))))
    rw [hv, if_pos (by omega), if_pos (by omega), if_pos (by omega), if_pos (by omega), mk_eq]
    push_cast
    rw [getX hfU ho, getX hfU ho, getX hfU ho, getX hfU ho, hzv s (by omega), show o.h + o.m + s = o.m + (o.h + s) by omega]
  intro m2 I2
  refine Cmd.Ok.bind (wrows_loop w'.C_le_S I2 ?_ ?_)
  · intro s c hs hs' hc m1 hsz ho
    simp only [Ptr.add_add, ← Nat.mul_add]
    refine Does.get (hzq s (by omega)) (Does.getD (vf.get hsz (by omega) hc) (hfb _) (Does.getD (vf.get hsz (by omega) hc) (hfb _)
      (Does.getD (vf.get hsz (by omega) hc) (hfb _) (Does.setC (vU.get hsz (by omega) hc) ?_))))
    rw [hv, if_pos (by omega), if_pos (by omega), if_pos (by omega), if_neg (by omega), mk_eq]
    push_cast
    rw [getX hfU ho, getX hfU ho, getX hfU ho, hzv s (by omega)]; simp
  intro m3 I3
  refine wrows_loop w'.C_le_S I3 ?_ ?_
  · intro s c hs hs' hc m1 hsz ho
    simp only [Ptr.add_add, ← Nat.mul_add]
    refine Does.get (hzq s (by omega)) (Does.getD (vf.get hsz (by omega) hc) (hfb _) (Does.getD (vf.get hsz (by omega) hc) (hfb _)
      (Does.setC (vU.get hsz (by omega) hc) ?_)))
    rw [hv, if_pos (by omega), if_neg (by omega), if_pos (by omega), if_neg (by omega), mk_eq, getX hfU ho, getX hfU ho, hzv s (by omega)]; simp
  · intro m3 I3
    refine hQ _ (.of_rows I3 (fun s => ?_) (fun _ h => absurd h (by omega)) (fun s _ _ h => absurd h (by omega)) w'.C_le_S)
    unfold Jrow
    simp only [hp]
    simp
    omega

end Re
end Fftwpp
