import Verif.Proof.RBwd

/-! Backward transforms of real data, `p=2`, `2r=q`. -/

namespace Fftwpp
open Finset
namespace Re
variable {o : Re} {f F U W : Ptr} {mem : Mem} {r : ℕ}

theorem b2Half_ok (w' : o.WF) (hp : o.p = 2) (hq : o.q ≠ 1) (hr2 : 2 * r = o.q) (hfU : f.buf ≠ U.buf) (vf : o.ValidF mem f)
    (vU : o.ValidW mem U o.h) : (o.b2Half f U r).Ok mem fun _ m' => o.BPost mem m' f U o.h r := by
  have hL := w'.L_pos
  have hqp := w'.q_pos
  have hmh := w'.m_h hq (by omega)
  have hh := w'.h_pos hq (by omega)
  have hLm : o.m < o.L := by have := w'.p_lb; rw [hp] at this; omega
  have hL2 : o.L ≤ 2 * o.m := by have := w'.p_ub; rw [hp] at this; omega
  have hUb : ∀ i : ℕ, (dptr (U + i)).buf ≠ (dptr f).buf ∧ (dptr (U + i) + 1).buf ≠ (dptr f).buf := fun i => by
    constructor <;> simpa [dptr] using hfU.symm
  obtain ⟨w1, w2, w3⟩ := w4_vals
  have hb0 : ∀ s c, s < o.h → o.bval mem f U o.h r s c = mem.cell (dptr f + (o.S * s + c)) +
      (2 * (starRingEnd ℂ) (w o.M (s * r)) * mem.val (U + (o.S * s + c))).re := by
    intro s c hs
    rw [bval_half w' hq hr2 hs (u := 0) (by simp)]; simp
  have hb1 : ∀ s c, s < o.h → o.bval mem f U o.h r (o.h + s) c = mem.cell (dptr f + (o.S * (o.h + s) + c)) +
      (2 * (starRingEnd ℂ) (w o.M (s * r)) * mem.val (U + (o.S * s + c))).im := by
    intro s c hs
    rw [bval_half w' hq hr2 hs (u := 1) (by ring), w1]; simp
  have hb2 : ∀ s c, s < o.h → o.bval mem f U o.h r (o.m + s) c = mem.cell (dptr f + (o.S * (o.m + s) + c)) +
      -(2 * (starRingEnd ℂ) (w o.M (s * r)) * mem.val (U + (o.S * s + c))).re := by
    intro s c hs
    rw [bval_half w' hq hr2 hs (u := 2) (by omega), w2]; simp
  have hb3 : ∀ s c, s < o.h → o.bval mem f U o.h r (o.h + o.m + s) c = mem.cell (dptr f + (o.S * (o.h + o.m + s) + c)) +
      -(2 * (starRingEnd ℂ) (w o.M (s * r)) * mem.val (U + (o.S * s + c))).im := by
    intro s c hs
    rw [bval_half w' hq hr2 hs (u := 3) (by omega), w3]; simp
  have start := DRows.start (C := o.C) (S := o.S) (x := dptr f) (mem0 := mem) (u := o.bval mem f U o.h r)
  unfold b2Half
  rw [show o.e - 1 = o.h from rfl]
  have s1 : (if o.m + o.h < o.L then parD (rng2 0 1 0 o.C) fun (_, c) => (do
       let v ← getC (U + c)
       let z0 := 2 * v
       incD (dptr f + c) z0.re
       incD (dptr f + o.S * o.m + c) (-z0.re)
       incD (dptr f + o.S * o.h + c) z0.im
       incD (dptr f + o.S * o.h + o.S * o.m + c) (-z0.im))
     else parD (rng2 0 1 0 o.C) fun (_, c) => (do
       let v ← getC (U + c)
       let z0 := 2 * v
       incD (dptr f + c) z0.re
       incD (dptr f + o.S * o.m + c) (-z0.re)
       incD (dptr f + o.S * o.h + c) z0.im)).Ok mem fun _ m' => DRows o.C o.S (dptr f)
         (fun j => j = 0 ∨ j = o.m ∨ j = o.h ∨ (o.m + o.h < o.L ∧ j = o.h + o.m)) (o.bval mem f U o.h r) mem m' := by
    by_cases hLh : o.m + o.h < o.L
    · rw [if_pos hLh]
      refine drows_loop w'.C_le_S start (fun s => [s, o.m + s, o.h + s, o.h + o.m + s]) ?_ ?_ (fun _ _ _ _ _ h => h) ?_ fun m' I => I.iff fun j => ?_
      · intro s s' _ _ _ _ j h1 h2; omega
      · intro s _ _; simp; omega
      · intro s c hs hs' hc m1 hsz ho hj
        obtain rfl : s = 0 := by omega
        have hg : m1.val (U + c) = mem.val (U + c) := getU hfU ho c
        have := incs_rows w'.C_le_S hc (u := o.bval mem f U o.h r) [(0, (2 * (m1.val (U + c))).re), (o.m + 0, -(2 * (m1.val (U + c))).re),
            (o.h + 0, (2 * (m1.val (U + c))).im), (o.h + o.m + 0, -(2 * (m1.val (U + c))).im)]
          (by simp; omega) (by
            simp only [List.mem_cons, List.not_mem_nil, or_false, forall_eq_or_imp, forall_eq]
            exact ⟨vf.get hsz hL hc, vf.get hsz (by omega) hc, vf.get hsz (by omega) hc, vf.get hsz (by omega) hc⟩) hj
          (by simp only [List.mem_cons, List.not_mem_nil, or_false, forall_eq_or_imp, forall_eq, hb0 0 c hh, hb1 0 c hh, hb2 0 c hh, hb3 0 c hh]; simp [hg])
        have v := vU.get hsz hh hc
        rw [Nat.mul_zero, Nat.zero_add] at v
        refine Does.getC v (Or.inl (hUb _).1) (Or.inl (hUb _).2) ?_
        simp only [← Nat.mul_add, Nat.mul_zero, Nat.zero_add, Nat.add_zero, List.map_cons, List.map_nil, Ptr.add_add] at this ⊢
        exact this
      · constructor
        · rintro (h | ⟨s, h1, h2, h3⟩)
          · exact h.elim
          · simp at h3; omega
        · intro h
          refine Or.inr ⟨0, by omega, by omega, ?_⟩
          simp; omega
    · rw [if_neg hLh]
      refine drows_loop w'.C_le_S start (fun s => [s, o.m + s, o.h + s]) ?_ ?_ (fun _ _ _ _ _ h => h) ?_ fun m' I => I.iff fun j => ?_
      · intro s s' _ _ _ _ j h1 h2; omega
      · intro s _ _; simp; omega
      · intro s c hs hs' hc m1 hsz ho hj
        obtain rfl : s = 0 := by omega
        have hg : m1.val (U + c) = mem.val (U + c) := getU hfU ho c
        have := incs_rows w'.C_le_S hc (u := o.bval mem f U o.h r) [(0, (2 * (m1.val (U + c))).re), (o.m + 0, -(2 * (m1.val (U + c))).re),
            (o.h + 0, (2 * (m1.val (U + c))).im)]
          (by simp; omega) (by
            simp only [List.mem_cons, List.not_mem_nil, or_false, forall_eq_or_imp, forall_eq]
            exact ⟨vf.get hsz hL hc, vf.get hsz (by omega) hc, vf.get hsz (by omega) hc⟩) hj
          (by simp only [List.mem_cons, List.not_mem_nil, or_false, forall_eq_or_imp, forall_eq, hb0 0 c hh, hb1 0 c hh, hb2 0 c hh]; simp [hg])
        have v := vU.get hsz hh hc
        rw [Nat.mul_zero, Nat.zero_add] at v
        refine Does.getC v (Or.inl (hUb _).1) (Or.inl (hUb _).2) ?_
        simp only [Nat.mul_zero, Nat.zero_add, Nat.add_zero, List.map_cons, List.map_nil, Ptr.add_add] at this ⊢
        exact this
      · constructor
        · rintro (h | ⟨s, h1, h2, h3⟩)
          · exact h.elim
          · simp at h3; omega
        · intro h
          refine Or.inr ⟨0, by omega, by omega, ?_⟩
          simp; omega
  refine Cmd.Ok.bind (s1.mono ?_)
  intro _ m1 I1
  generalize hst1 : (if o.m + o.h < o.L then o.L - (o.m + o.h) else 1) = stop1
  generalize hst2 : (if o.m + o.h < o.L then o.h else o.L - o.m) = stop2
  have hc12 : (o.m + o.h < o.L ∧ stop1 = o.L - (o.m + o.h) ∧ stop2 = o.h) ∨ (o.L ≤ o.m + o.h ∧ stop1 = 1 ∧ stop2 = o.L - o.m) := by
    rw [← hst1, ← hst2]; split_ifs with h
    · exact Or.inl ⟨h, rfl, rfl⟩
    · exact Or.inr ⟨by omega, rfl, rfl⟩
  refine Cmd.Ok.bind (drows_loop w'.C_le_S I1 (fun s => [s, o.h + s, o.m + s, o.h + o.m + s]) ?_ ?_ ?_ ?_ ?_)
  · intro s s' _ _ _ _ j h1 h2; simp at h1 h2; omega
  · intro s _ _; simp; omega
  · intro s h1 h2 j hj; simp at hj ⊢; omega
  · intro s c hs hs' hc m1 hsz ho hj
    simp only [Ptr.add_add, ← Nat.mul_add]
    have hg := getU hfU ho (o.S * s + c)
    refine Does.get (w'.zq_bd hq (by omega) (by omega) (by omega)) (Does.getC (vU.get hsz (by omega) hc) (Or.inl (hUb _).1) (Or.inl (hUb _).2) ?_)
    rw [w'.zq_val hq (by omega)]
    exact incs_rows w'.C_le_S hc (u := o.bval mem f U o.h r) [(s, _), (o.h + s, _), (o.m + s, _), (o.h + o.m + s, _)] (by simp; omega)
      (by simp only [List.mem_cons, List.not_mem_nil, or_false, forall_eq_or_imp, forall_eq]
          exact ⟨vf.get hsz (by omega) hc, vf.get hsz (by omega) hc, vf.get hsz (by omega) hc, vf.get hsz (by omega) hc⟩) hj
      (by simp only [List.mem_cons, List.not_mem_nil, or_false, forall_eq_or_imp, forall_eq, hb0 s c (by omega : s < o.h), hb1 s c (by omega : s < o.h),
            hb2 s c (by omega : s < o.h), hb3 s c (by omega : s < o.h), hg]; simp)
  intro m2 I2
  refine Cmd.Ok.bind (drows_loop w'.C_le_S I2 (fun s => [s, o.h + s, o.m + s]) ?_ ?_ ?_ ?_ ?_)
  · intro s s' _ _ _ _ j h1 h2; simp at h1 h2; omega
  · intro s _ _; simp; omega
  · rintro s h1 h2 j hj (h3 | ⟨s', h3, h4, h5⟩)
    · simp at hj; omega
    · simp at hj h5; omega
  · intro s c hs hs' hc m1 hsz ho hj
    simp only [Ptr.add_add, ← Nat.mul_add]
    have hg := getU hfU ho (o.S * s + c)
    refine Does.get (w'.zq_bd hq (by omega) (by omega) (by omega)) (Does.getC (vU.get hsz (by omega) hc) (Or.inl (hUb _).1) (Or.inl (hUb _).2) ?_)
    rw [w'.zq_val hq (by omega)]
    exact incs_rows w'.C_le_S hc (u := o.bval mem f U o.h r) [(s, _), (o.h + s, _), (o.m + s, _)] (by simp; omega)
      (by simp only [List.mem_cons, List.not_mem_nil, or_false, forall_eq_or_imp, forall_eq]
          exact ⟨vf.get hsz (by omega) hc, vf.get hsz (by omega) hc, vf.get hsz (by omega) hc⟩) hj
      (by simp only [List.mem_cons, List.not_mem_nil, or_false, forall_eq_or_imp, forall_eq, hb0 s c (by omega : s < o.h), hb1 s c (by omega : s < o.h),
            hb2 s c (by omega : s < o.h), hg]; simp)
  intro m3 I3
  refine drows_loop w'.C_le_S I3 (fun s => [s, o.h + s]) ?_ ?_ ?_ ?_ ?_
  · intro s s' _ _ _ _ j h1 h2; simp at h1 h2; omega
  · intro s _ _; simp; omega
  · rintro s h1 h2 j hj ((h3 | ⟨s', h3, h4, h5⟩) | ⟨s', h3, h4, h5⟩)
    · simp at hj; omega
    · simp at hj h5; omega
    · simp at hj h5; omega
  · intro s c hs hs' hc m1 hsz ho hj
    simp only [Ptr.add_add, ← Nat.mul_add]
    have hg := getU hfU ho (o.S * s + c)
    refine Does.get (w'.zq_bd hq (by omega) (by omega) (by omega)) (Does.getC (vU.get hsz (by omega) hc) (Or.inl (hUb _).1) (Or.inl (hUb _).2) ?_)
    rw [w'.zq_val hq (by omega)]
    exact incs_rows w'.C_le_S hc (u := o.bval mem f U o.h r) [(s, _), (o.h + s, _)] (by simp; omega)
      (by simp only [List.mem_cons, List.not_mem_nil, or_false, forall_eq_or_imp, forall_eq]
          exact ⟨vf.get hsz (by omega) hc, vf.get hsz (by omega) hc⟩) hj
      (by simp only [List.mem_cons, List.not_mem_nil, or_false, forall_eq_or_imp, forall_eq, hb0 s c (by omega : s < o.h), hb1 s c (by omega : s < o.h), hg]; simp)
  · intro m4 I4
    refine I4.iff fun j => ?_
    simp only [List.mem_cons, List.not_mem_nil, or_false]
    constructor
    · rintro (((h | ⟨s, h1, h2, h3⟩) | ⟨s, h1, h2, h3⟩) | ⟨s, h1, h2, h3⟩) <;> omega
    · intro hj
      have hjm := Nat.mod_lt j hh
      have hdj := Nat.div_add_mod j o.h
      have hjd : j / o.h < 4 := Nat.div_lt_of_lt_mul (by omega)
      generalize j % o.h = s at hjm hdj
      generalize j / o.h = t at hdj hjd
      have hjt : (t = 0 ∧ j = s) ∨ (t = 1 ∧ j = o.h + s) ∨ (t = 2 ∧ j = o.m + s) ∨ (t = 3 ∧ j = o.h + o.m + s) := by
        rcases (by omega : t = 0 ∨ t = 1 ∨ t = 2 ∨ t = 3) with rfl | rfl | rfl | rfl <;> omega
      by_cases h0 : s = 0
      · exact Or.inl (Or.inl (Or.inl (by omega)))
      · by_cases h1 : s < stop1
        · exact Or.inl (Or.inl (Or.inr ⟨s, by omega, h1, by omega⟩))
        · by_cases h2 : s < stop2
          · exact Or.inl (Or.inr ⟨s, by omega, h2, by omega⟩)
          · exact Or.inr ⟨s, by omega, by omega, by omega⟩

end Re
end Fftwpp
