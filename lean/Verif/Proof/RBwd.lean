import Verif.Proof.RFwd3

/-! Backward transforms of real data, `p≤2`: the rows. -/

namespace Fftwpp
open Finset

theorem realProduct_eq (z v : ℂ) : realProduct z v = ((starRingEnd ℂ) z * v).re := by
  unfold realProduct; simp

/-- Increments of rows. -/
theorem incs_rows {m1 mem0 : Mem} {C S c : ℕ} {x : Ptr} {u : ℕ → ℕ → ℝ} (hCS : C ≤ S) (hc : c < C) (l : List (ℕ × ℝ))
    (hn : (l.map Prod.fst).Nodup) (hv : ∀ y ∈ l, m1.split.valid (x + (S * y.1 + c)))
    (hm : ∀ j ∈ l.map Prod.fst, m1.cell (x + (S * j + c)) = mem0.cell (x + (S * j + c)))
    (hu : ∀ y ∈ l, u y.1 c = mem0.cell (x + (S * y.1 + c)) + y.2) :
    (incs (l.map fun y => (x + (S * y.1 + c), y.2))).Does m1 ((l.map Prod.fst).map fun j => (x + (S * j + c), u j c))
      (fun y => y.buf ≠ x.buf ∨ ∃ j ∈ l.map Prod.fst, y = x + (S * j + c)) := by
  have h := incs_does (m := m1) (R := fun y => y.buf ≠ x.buf ∨ ∃ j ∈ l.map Prod.fst, y = x + (S * j + c)) (l.map fun y => (x + (S * y.1 + c), y.2)) ?_ ?_ ?_
  · have e : (l.map fun y => (x + (S * y.1 + c), y.2)).map (fun x => (x.1, m1.cell x.1 + x.2)) = (l.map Prod.fst).map fun j => (x + (S * j + c), u j c) := by
      rw [List.map_map, List.map_map]
      refine List.map_congr_left fun y hy => ?_
      simp only [Function.comp]
      rw [hu y hy, hm _ (List.mem_map.2 ⟨y, hy, rfl⟩)]
    rw [e] at h
    exact h
  · rw [List.map_map]
    have : (Prod.fst ∘ fun y : ℕ × ℝ => (x + (S * y.1 + c), y.2)) = (fun j => x + (S * j + c)) ∘ Prod.fst := rfl
    rw [this, ← List.map_map]
    refine hn.map ?_
    intro j j' e
    simp only [Ptr.add_inj] at e
    exact (radix_inj (lt_of_lt_of_le hc hCS) (lt_of_lt_of_le hc hCS) e).1
  · intro y hy
    obtain ⟨z, hz, rfl⟩ := List.mem_map.1 hy
    exact hv z hz
  · intro y hy
    obtain ⟨z, hz, rfl⟩ := List.mem_map.1 hy
    exact Or.inr ⟨_, List.mem_map.2 ⟨z, hz, rfl⟩, rfl⟩

namespace Re
variable {o : Re} {f F U W : Ptr} {mem : Mem} {r : ℕ}

/-- Real number `j` of copy `c` after adding the row of `K` words at `U` for residue `r`. -/
noncomputable def bval (o : Re) (mem : Mem) (f U : Ptr) (K : ℕ) (r : ℕ) (j c : ℕ) : ℝ :=
  mem.cell (dptr f + (o.S * j + c)) + 2 * (w o.M (-((j : ℤ) * r)) * mem.val (U + (o.S * (j % K) + c))).re

/-- Postcondition of adding the row of `K` words at `U`. -/
def BPost (o : Re) (mem m' : Mem) (f U : Ptr) (K r : ℕ) : Prop :=
  DRows o.C o.S (dptr f) (fun j => j < o.L) (o.bval mem f U K r) mem m'

theorem bval_lt {K j c : ℕ} (hj : j < K) : o.bval mem f U K r j c = mem.cell (dptr f + (o.S * j + c)) +
    2 * ((starRingEnd ℂ) (w o.M (j * r)) * mem.val (U + (o.S * j + c))).re := by
  unfold bval; rw [Nat.mod_eq_of_lt hj, w_conj]

theorem w4_vals : w 4 ((1 : ℕ) : ℤ) = Complex.I ∧ w 4 ((2 : ℕ) : ℤ) = -1 ∧ w 4 ((3 : ℕ) : ℤ) = - Complex.I := by
  refine ⟨w_four_one, ?_, ?_⟩
  · have := w_four 0; simpa using this
  · have := w_four 1; rw [w_four_one] at this; exact this

theorem bval_half {j s u c : ℕ} (w' : o.WF) (hq : o.q ≠ 1) (hr2 : 2 * r = o.q) (hs : s < o.h) (hj : j = s + o.h * u) :
    o.bval mem f U o.h r j c = mem.cell (dptr f + (o.S * j + c)) +
      (2 * (starRingEnd ℂ) (w o.M (s * r)) * mem.val (U + (o.S * s + c)) * (starRingEnd ℂ) (w 4 u)).re := by
  have hqp := w'.q_pos
  unfold bval
  rw [← w_conj, hj, w_half (w'.M_half hq hr2) (by omega) (by omega), Nat.add_mul_mod_self_left, Nat.mod_eq_of_lt hs, map_mul]
  congr 1
  rw [show ∀ a b c : ℂ, 2 * a * b * c = 2 * (a * c * b) from fun a b c => by ring]
  simp

/-- Reading a row. -/
theorem getU (hfU : f.buf ≠ U.buf) {m1 : Mem} (ho : ∀ y : Ptr, y.buf ≠ (dptr f).buf → m1.cell y = mem.cell y) (i : ℕ) :
    m1.val (U + i) = mem.val (U + i) := val_of_cells ho (by simpa [dptr] using hfU.symm)

theorem b1Row_ok (w' : o.WF) (hp : o.p = 1) (hq : o.q ≠ 1) (hr : 0 < r) (hrq : r < o.q) (hfU : f.buf ≠ U.buf) (vf : o.ValidF mem f)
    (vU : o.ValidW mem U o.m) : (o.b1Row f U r).Ok mem fun _ m' => o.BPost mem m' f U o.m r := by
  have hL := w'.L_pos
  have hLm : o.L ≤ o.m := by have := w'.p_ub; rw [hp] at this; omega
  have hUb : ∀ i : ℕ, (dptr (U + i)).buf ≠ (dptr f).buf ∧ (dptr (U + i) + 1).buf ≠ (dptr f).buf := fun i => by
    constructor <;> simpa [dptr] using hfU.symm
  unfold b1Row
  refine Cmd.Ok.bind (drows_loop w'.C_le_S (DRows.start (x := dptr f) (u := o.bval mem f U o.m r)) (fun s => [s]) ?_ ?_ (fun _ _ _ _ _ h => h) ?_ ?_)
  · intro s s' _ _ _ _ j h1 h2; simp at h1 h2; omega
  · intro s _ _; simp
  · intro s c hs hs' hc m1 hsz ho hj
    obtain rfl : s = 0 := by omega
    have hg : m1.val (U + c) = mem.val (U + c) := getU hfU ho c
    have := incs_rows w'.C_le_S hc (u := o.bval mem f U o.m r) [(0, 2 * (m1.val (U + c)).re)] (by simp)
      (by simpa using vf.get hsz hL hc) hj (by simp [bval_lt w'.m_pos, hg])
    have v := vU.get hsz w'.m_pos hc
    rw [Nat.mul_zero, Nat.zero_add] at v
    refine Does.getC v (Or.inl (hUb _).1) (Or.inl (hUb _).2) ?_
    simp only [Nat.mul_zero, Nat.zero_add, Nat.add_zero, List.map_cons, List.map_nil] at this ⊢
    exact this
  intro m1 I1
  refine drows_loop w'.C_le_S I1 (fun s => [s]) ?_ ?_ ?_ ?_ ?_
  · intro s s' _ _ _ _ j h1 h2; simp at h1 h2; omega
  · intro s _ _; simp
  · intro s h1 h2 j hj; simp at hj ⊢; omega
  · intro s c hs hs' hc m1 hsz ho hj
    simp only [Ptr.add_add]
    have hg := getU hfU ho (o.S * s + c)
    refine Does.get (w'.zq_bd hq hr hrq (by omega)) (Does.getC (vU.get hsz (by omega) hc) (Or.inl (hUb _).1) (Or.inl (hUb _).2) ?_)
    rw [w'.zq_val hq (by omega), realProduct_eq]
    exact incs_rows w'.C_le_S hc (u := o.bval mem f U o.m r) [(s, _)] (by simp)
      (by simpa using vf.get hsz hs' hc) hj (by simp [bval_lt (by omega : s < o.m), hg])
  · intro m2 I2
    exact I2.iff fun j => by simp; omega

theorem b2Row_ok (w' : o.WF) (hp : o.p = 2) (hq : o.q ≠ 1) (hr : 0 < r) (hrq : r < o.q) (hfU : f.buf ≠ U.buf) (vf : o.ValidF mem f)
    (vU : o.ValidW mem U o.m) : (o.b2Row f U r).Ok mem fun _ m' => o.BPost mem m' f U o.m r := by
  have hL := w'.L_pos
  have hLm : o.m < o.L := by have := w'.p_lb; rw [hp] at this; omega
  have hL2 : o.L ≤ 2 * o.m := by have := w'.p_ub; rw [hp] at this; omega
  have hUb : ∀ i : ℕ, (dptr (U + i)).buf ≠ (dptr f).buf ∧ (dptr (U + i) + 1).buf ≠ (dptr f).buf := fun i => by
    constructor <;> simpa [dptr] using hfU.symm
  unfold b2Row
  refine Cmd.Ok.bind (drows_loop w'.C_le_S (DRows.start (x := dptr f) (u := o.bval mem f U o.m r)) (fun s => [s]) ?_ ?_ (fun _ _ _ _ _ h => h) ?_ ?_)
  · intro s s' _ _ _ _ j h1 h2; simp at h1 h2; omega
  · intro s _ _; simp
  · intro s c hs hs' hc m1 hsz ho hj
    obtain rfl : s = 0 := by omega
    have hg : m1.val (U + c) = mem.val (U + c) := getU hfU ho c
    have := incs_rows w'.C_le_S hc (u := o.bval mem f U o.m r) [(0, 2 * (m1.val (U + c)).re)] (by simp)
      (by simpa using vf.get hsz hL hc) hj (by simp [bval_lt w'.m_pos, hg])
    have v := vU.get hsz w'.m_pos hc
    rw [Nat.mul_zero, Nat.zero_add] at v
    refine Does.getC v (Or.inl (hUb _).1) (Or.inl (hUb _).2) ?_
    simp only [Nat.mul_zero, Nat.zero_add, Nat.add_zero, List.map_cons, List.map_nil] at this ⊢
    exact this
  intro m1 I1
  refine Cmd.Ok.bind (drows_loop w'.C_le_S I1 (fun s => [s]) ?_ ?_ ?_ ?_ ?_)
  · intro s s' _ _ _ _ j h1 h2; simp at h1 h2; omega
  · intro s _ _; simp
  · intro s h1 h2 j hj; simp at hj ⊢; omega
  · intro s c hs hs' hc m1 hsz ho hj
    simp only [Ptr.add_add]
    have hg := getU hfU ho (o.S * s + c)
    refine Does.get (w'.zq_bd hq hr hrq (by omega)) (Does.getC (vU.get hsz (by omega) hc) (Or.inl (hUb _).1) (Or.inl (hUb _).2) ?_)
    rw [w'.zq_val hq (by omega), realProduct_eq]
    exact incs_rows w'.C_le_S hc (u := o.bval mem f U o.m r) [(s, _)] (by simp)
      (by simpa using vf.get hsz (by omega) hc) hj (by simp [bval_lt (by omega : s < o.m), hg])
  intro m2 I2
  refine drows_loop w'.C_le_S I2 (fun s => [s]) ?_ ?_ ?_ ?_ ?_
  · intro s s' _ _ _ _ j h1 h2; simp at h1 h2; omega
  · intro s _ _; simp
  · intro s h1 h2 j hj; simp at hj ⊢; omega
  · intro s c hs hs' hc m1 hsz ho hj
    have hadr : U - o.S * o.m + o.S * s + c = U + (o.S * (s - o.m) + c) := by
      obtain ⟨t, rfl⟩ := Nat.exists_eq_add_of_le hs
      rw [Nat.add_sub_cancel_left, Nat.mul_add]
      ext <;> simp; ring
    simp only [hadr, Ptr.add_add (dptr f)]
    have hg := getU hfU ho (o.S * (s - o.m) + c)
    refine Does.get (w'.zqS_bd hp hr hrq hs hs') (Does.getC (vU.get hsz (by omega) hc) (Or.inl (hUb _).1) (Or.inl (hUb _).2) ?_)
    rw [w'.zqS_val hp hs hs', realProduct_eq]
    refine incs_rows w'.C_le_S hc (u := o.bval mem f U o.m r) [(s, _)] (by simp) (by simpa using vf.get hsz (by omega) hc) hj ?_
    have : s % o.m = s - o.m := by rw [Nat.mod_eq_sub_mod hs, Nat.mod_eq_of_lt (by omega)]
    simp [bval, hg, this, w_conj]
  · intro m2 I2
    exact I2.iff fun j => by simp; omega

theorem b1Half_ok (w' : o.WF) (hp : o.p = 1) (hq : o.q ≠ 1) (hr2 : 2 * r = o.q) (hfU : f.buf ≠ U.buf) (vf : o.ValidF mem f)
    (vU : o.ValidW mem U o.h) : (o.b1Half f U r).Ok mem fun _ m' => o.BPost mem m' f U o.h r := by
  have hL := w'.L_pos
  have hqp := w'.q_pos
  have hmh := w'.m_h hq (by omega)
  have hh := w'.h_pos hq (by omega)
  have hLm : o.L ≤ 2 * o.h := by have := w'.p_ub; rw [hp] at this; omega
  have hUb : ∀ i : ℕ, (dptr (U + i)).buf ≠ (dptr f).buf ∧ (dptr (U + i) + 1).buf ≠ (dptr f).buf := fun i => by
    constructor <;> simpa [dptr] using hfU.symm
  obtain ⟨w1, w2, w3⟩ := w4_vals
  have hb0 : ∀ s c, s < o.h → o.bval mem f U o.h r s c = mem.cell (dptr f + (o.S * s + c)) +
      (2 * (starRingEnd ℂ) (w o.M (s * r)) * mem.val (U + (o.S * s + c))).re := by
    intro s c hs
    rw [bval_half w' hq hr2 hs (u := 0) (by simp)]; simp
  have hb1 : ∀ s c, s < o.h → o.bval mem f U o.h r (o.h + s) c = mem.cell (dptr f + (o.S * (o.h + s) + c)) +
      (2 * (starRingEnd ℂ) (w o.M (s * r)) * mem.val (U + (o.S * s + c))).im := by
    intro s c hs
    rw [bval_half w' hq hr2 hs (u := 1) (by ring), w1]; simp
  unfold b1Half
  rw [show o.e - 1 = o.h from rfl]
  have start := DRows.start (C := o.C) (S := o.S) (x := dptr f) (mem0 := mem) (u := o.bval mem f U o.h r)
  have s1 : (if o.L ≤ o.h then parD (rng2 0 1 0 o.C) fun (_, c) => (do
       let z ← getC (U + c)
       incD (dptr f + c) (2 * z.re))
     else parD (rng2 0 1 0 o.C) fun (_, c) => (do
       let z ← getC (U + c)
       incD (dptr f + c) (2 * z.re)
       incD (dptr f + o.S * o.h + c) (2 * z.im))).Ok mem fun _ m' => DRows o.C o.S (dptr f)
         (fun j => j = 0 ∨ (o.h < o.L ∧ j = o.h)) (o.bval mem f U o.h r) mem m' := by
    by_cases hLh : o.L ≤ o.h
    · rw [if_pos hLh]
      refine drows_loop w'.C_le_S start (fun s => [s]) ?_ ?_ (fun _ _ _ _ _ h => h) ?_ fun m' I => I.iff fun j => ?_
      · intro s s' _ _ _ _ j h1 h2; simp at h1 h2; omega
      · intro s _ _; simp
      · intro s c hs hs' hc m1 hsz ho hj
        obtain rfl : s = 0 := by omega
        have hg : m1.val (U + c) = mem.val (U + c) := getU hfU ho c
        have := incs_rows w'.C_le_S hc (u := o.bval mem f U o.h r) [(0, 2 * (m1.val (U + c)).re)] (by simp)
          (by simpa using vf.get hsz hL hc) hj (by simp [hb0 0 c hh, hg])
        have v := vU.get hsz hh hc
        rw [Nat.mul_zero, Nat.zero_add] at v
        refine Does.getC v (Or.inl (hUb _).1) (Or.inl (hUb _).2) ?_
        simp only [Nat.mul_zero, Nat.zero_add, Nat.add_zero, List.map_cons, List.map_nil] at this ⊢
        exact this
      · simp; omega
    · rw [if_neg hLh]
      refine drows_loop w'.C_le_S start (fun s => [s, o.h + s]) ?_ ?_ (fun _ _ _ _ _ h => h) ?_ fun m' I => I.iff fun j => ?_
      · intro s s' _ _ _ _ j h1 h2; omega
      · intro s _ _; simp; omega
      · intro s c hs hs' hc m1 hsz ho hj
        obtain rfl : s = 0 := by omega
        have hg : m1.val (U + c) = mem.val (U + c) := getU hfU ho c
        have := incs_rows w'.C_le_S hc (u := o.bval mem f U o.h r) [(0, 2 * (m1.val (U + c)).re), (o.h + 0, 2 * (m1.val (U + c)).im)]
          (by simp; omega) (by simp only [List.mem_cons, List.not_mem_nil, or_false, forall_eq_or_imp, forall_eq]; exact ⟨vf.get hsz hL hc, vf.get hsz (by omega) hc⟩) hj
          (by simp only [List.mem_cons, List.not_mem_nil, or_false, forall_eq_or_imp, forall_eq, hb0 0 c hh, hb1 0 c hh]; simp [hg])
        have v := vU.get hsz hh hc
        rw [Nat.mul_zero, Nat.zero_add] at v
        refine Does.getC v (Or.inl (hUb _).1) (Or.inl (hUb _).2) ?_
        simp only [Nat.mul_zero, Nat.zero_add, Nat.add_zero, List.map_cons, List.map_nil, Ptr.add_add] at this ⊢
        exact this
      · simp; omega
  refine Cmd.Ok.bind (s1.mono ?_)
  intro _ m1 I1
  generalize hst1 : (if o.L ≤ o.h then 1 else o.L - o.h) = Lmh
  generalize hst2 : (if o.L ≤ o.h then o.L else o.h) = stop
  have hc12 : (o.L ≤ o.h ∧ Lmh = 1 ∧ stop = o.L) ∨ (o.h < o.L ∧ Lmh = o.L - o.h ∧ stop = o.h) := by
    rw [← hst1, ← hst2]; split_ifs with h
    · exact Or.inl ⟨h, rfl, rfl⟩
    · exact Or.inr ⟨by omega, rfl, rfl⟩
  refine Cmd.Ok.bind (drows_loop w'.C_le_S I1 (fun s => [s, o.h + s]) ?_ ?_ ?_ ?_ ?_)
  · intro s s' _ _ _ _ j h1 h2; simp at h1 h2; omega
  · intro s _ _; simp; omega
  · intro s h1 h2 j hj; simp at hj ⊢; omega
  · intro s c hs hs' hc m1 hsz ho hj
    simp only [Ptr.add_add, ← Nat.mul_add]
    have hg := getU hfU ho (o.S * s + c)
    refine Does.get (w'.zq_bd hq (by omega) (by omega) (by omega)) (Does.getC (vU.get hsz (by omega) hc) (Or.inl (hUb _).1) (Or.inl (hUb _).2) ?_)
    rw [w'.zq_val hq (by omega)]
    exact incs_rows w'.C_le_S hc (u := o.bval mem f U o.h r) [(s, _), (o.h + s, _)] (by simp; omega)
      (by simpa using ⟨vf.get hsz (by omega) hc, vf.get hsz (by omega) hc⟩) hj
      (by simp only [List.mem_cons, List.not_mem_nil, or_false, forall_eq_or_imp, forall_eq, hb0 s c (by omega : s < o.h), hb1 s c (by omega : s < o.h), hg]; simp)
  intro m2 I2
  refine drows_loop w'.C_le_S I2 (fun s => [s]) ?_ ?_ ?_ ?_ ?_
  · intro s s' _ _ _ _ j h1 h2; simp at h1 h2; omega
  · intro s _ _; simp
  · intro s h1 h2 j hj; simp at hj ⊢; constructor
    · omega
    · intro s' h3 h4; omega
  · intro s c hs hs' hc m1 hsz ho hj
    simp only [Ptr.add_add, ← Nat.mul_add]
    have hg := getU hfU ho (o.S * s + c)
    refine Does.get (w'.zq_bd hq (by omega) (by omega) (by omega)) (Does.getC (vU.get hsz (by omega) hc) (Or.inl (hUb _).1) (Or.inl (hUb _).2) ?_)
    rw [w'.zq_val hq (by omega), realProduct_eq]
    exact incs_rows w'.C_le_S hc (u := o.bval mem f U o.h r) [(s, _)] (by simp)
      (by simpa using vf.get hsz (by omega) hc) hj (by simp [bval_lt (by omega : s < o.h), hg])
  · intro m2 I2
    refine I2.iff fun j => ?_
    simp only [List.mem_cons, List.not_mem_nil, or_false]
    constructor
    · rintro ((h | ⟨s, h1, h2, h3⟩) | ⟨s, h1, h2, h3⟩) <;> omega
    · intro hj
      by_cases hjh : j < o.h
      · by_cases h0 : j = 0
        · exact Or.inl (Or.inl (Or.inl h0))
        · by_cases h1 : j < Lmh
          · exact Or.inl (Or.inr ⟨j, by omega, h1, Or.inl rfl⟩)
          · exact Or.inr ⟨j, by omega, by omega, rfl⟩
      · by_cases h0 : j = o.h
        · exact Or.inl (Or.inl (Or.inr ⟨by omega, h0⟩))
        · exact Or.inl (Or.inr ⟨j - o.h, by omega, by omega, Or.inr (by omega)⟩)

end Re
end Fftwpp
