import Verif.Proof.MpiSymm1

/-!
# `HermitianSymmetrizeXY`, distributed: the rounds of the exchange
-/

namespace Fftwpp.XYSplit
open Finset Net

theorem new_mx (X Y Z r P : ℕ) : (XYSplit.new X Y Z r P).mx = (X + 1) / 2 := by
  show ceilquotient X 2 = _
  unfold ceilquotient; omega

theorem new_my (X Y Z r P : ℕ) : (XYSplit.new X Y Z r P).my = (Y + 1) / 2 := by
  show ceilquotient Y 2 = _
  unfold ceilquotient; omega

theorem new_xc (X Y Z r P : ℕ) : (XYSplit.new X Y Z r P).xcompact = decide (X % 2 = 1) := by
  unfold xcompact
  rw [new_mx]
  show decide ((X + 1) / 2 - X / 2 ≠ 0) = _
  congr 1
  apply propext
  omega

theorem new_yc (X Y Z r P : ℕ) : (XYSplit.new X Y Z r P).ycompact = decide (Y % 2 = 1) := by
  unfold ycompact
  rw [new_my]
  show decide ((Y + 1) / 2 - Y / 2 ≠ 0) = _
  congr 1
  apply propext
  omega

theorem new_xe (X Y Z r P : ℕ) : (XYSplit.new X Y Z r P).xextra = 1 - X % 2 := by
  unfold xextra
  rw [new_xc]
  by_cases h : X % 2 = 1
  · simp [h]
  · simp [h]; omega

theorem new_ye (X Y Z r P : ℕ) : (XYSplit.new X Y Z r P).yextra = 1 - Y % 2 := by
  unfold yextra
  rw [new_yc]
  by_cases h : Y % 2 = 1
  · simp [h]
  · simp [h]; omega

theorem new_yo (X Y Z r P : ℕ) : (XYSplit.new X Y Z r P).yorigin = Y / 2 := by
  unfold yorigin
  rw [new_yc, new_my]
  by_cases h : Y % 2 = 1
  · simp [h]; omega
  · simp [h]; omega

theorem new_xo (X Y Z r P : ℕ) : (XYSplit.new X Y Z r P).mx - (if (XYSplit.new X Y Z r P).xcompact = true then 1 else 0) = X / 2 := by
  rw [new_xc, new_mx]
  by_cases h : X % 2 = 1
  · simp [h]; omega
  · simp [h]; omega

theorem new_nx (X Y Z r P : ℕ) : (XYSplit.new X Y Z r P).nx = X - (1 - X % 2) := by
  unfold nx
  rw [new_xe]
  rfl

theorem new_dy (X Y Z r P : ℕ) : (XYSplit.new X Y Z r P).dy = part Y P r := rfl
theorem new_y0 (X Y Z r P : ℕ) : (XYSplit.new X Y Z r P).y0 = first Y P r := rfl
theorem new_rank (X Y Z r P : ℕ) : (XYSplit.new X Y Z r P).rank = r := rfl
theorem new_stride (X Y Z r P : ℕ) : (XYSplit.new X Y Z r P).stride = part Y P r * Z := rfl

/-- `own i` is the process that holds row `i`. -/
def Owner (Y P : ℕ) (own : ℕ → ℕ) : Prop := ∀ i < Y, own i < P ∧ first Y P (own i) ≤ i ∧ i < first Y P (own i) + part Y P (own i)

theorem Owner.eq {Y P : ℕ} {own : ℕ → ℕ} (h : Owner Y P own) (hP : 0 < P) {i r : ℕ} (hr : r < P) (h1 : first Y P r ≤ i) (h2 : i < first Y P r + part Y P r) :
    own i = r := by
  have hi : i < Y := by
    have := (ld_has Y P hP).1 r hr
    have h3 := first_lt (N := Y) hP hr (i := i - first Y P r) (by omega)
    omega
  obtain ⟨a, b, c⟩ := h i hi
  exact (ld_has Y P hP).2.2.1 _ a r hr i b c h1 h2

/-- Round `t` of the exchange: the row at distance `t` above the origin is sent to the process that holds its reflection. -/
noncomputable def row (d : XYSplit) (own : ℕ → ℕ) (f u : Ptr) (t : ℕ) : Prog ℂ Unit :=
  if d.rank = own (d.yorigin + t) then d.upper (fun _ => own (d.yorigin - t)) f u (d.yorigin + t - d.y0)
  else if d.rank = own (d.yorigin - t) then (recv u.loc d.nx (own (d.yorigin + t))).bind fun _ => runCmd (d.place f u (d.yorigin - t - d.y0))
  else .ret ()

theorem exchange_rows {X Y Z P r : ℕ} {own : ℕ → ℕ} (hP : 0 < P) (hY : 0 < Y) (ho : Owner Y P own) (hr : r < P) {reflect : ℕ → ℕ}
    (hre : ∀ j, (XYSplit.new X Y Z r P).j0 ≤ j → j < part Y P r → reflect j = own (2 * (Y / 2) - first Y P r - j)) (f u : Ptr) :
    (XYSplit.new X Y Z r P).exchange reflect f u =
      (Prog.loop (rng 0 ((Y - 1) / 2 + 1)) ((XYSplit.new X Y Z r P).row own f u)).bind fun _ => runCmd ((XYSplit.new X Y Z r P).nyquist f) := by
  have hj0 : (XYSplit.new X Y Z r P).j0 = if first Y P r = 0 then 1 - Y % 2 else 0 := by
    unfold j0; rw [new_ye, new_y0]
  have hst : (XYSplit.new X Y Z r P).start = Y / 2 - first Y P r := by
    unfold start; rw [new_yo, new_y0]
    split_ifs <;> omega
  unfold exchange
  rw [hst, new_dy]
  have hyo := new_yo X Y Z r P
  generalize hd : XYSplit.new X Y Z r P = d at *
  have hy0 : d.y0 = first Y P r := by rw [← hd]; rfl
  have hrk : d.rank = r := by rw [← hd]; rfl
  have eqo : ∀ i, first Y P r ≤ i → i < first Y P r + part Y P r → own i = r := fun i => ho.eq hP hr
  have neo : ∀ i < Y, r = own i → first Y P r ≤ i ∧ i < first Y P r + part Y P r := by
    intro i hi he
    obtain ⟨_, b, c⟩ := ho i hi
    rw [← he] at b c
    exact ⟨b, c⟩
  have hle : 0 < part Y P r → first Y P r + part Y P r ≤ Y := by
    intro h
    have := first_lt (N := Y) hP hr (i := part Y P r - 1) (by omega)
    omega
  rw [hj0] at hre ⊢
  clear hj0 hst
  generalize hp : part Y P r = y at *
  generalize hf0 : first Y P r = y0 at *
  -- an empty process
  by_cases hy : y = 0
  · subst hy
    rw [rng_empty (show 0 ≤ _ by omega), Nat.zero_min, rng_empty (show 0 ≤ _ by omega)]
    rw [loop_ret (l := rng 0 _)]
    · rfl
    intro t ht
    rw [mem_rng] at ht
    unfold row
    rw [hrk, hyo]
    rw [if_neg, if_neg]
    · intro he
      have := neo _ (by omega) he
      omega
    · intro he
      have := neo _ (by omega) he
      omega
  have hle := hle (by omega)
  have t0le : y0 + y - Y / 2 ≤ (Y - 1) / 2 + 1 := by omega
  rw [rng_append (Nat.zero_le _) t0le, loop_append, Prog.bind_assoc]
  congr 1
  · -- upper half
    rw [loop_trim (a' := y0 - Y / 2) (b' := y0 + y - Y / 2) (b := y0 + y - Y / 2) (Nat.zero_le _) (by omega) le_rfl]
    · have : rng (Y / 2 - y0) y = (rng (y0 - Y / 2) (y0 + y - Y / 2)).map (fun t => Y / 2 + t - y0) := by
        unfold rng
        refine List.ext_getElem ?_ ?_
        · simp; omega
        · intro n h1 h2
          simp at h1 h2 ⊢
          omega
      rw [this, loop_map]
      refine loop_congr fun t ht => ?_
      rw [mem_rng] at ht
      unfold row
      rw [hyo, hy0, hrk, if_pos (eqo _ (by omega) (by omega)).symm]
      unfold upper
      rw [hre (Y / 2 + t - y0) (by split_ifs <;> omega) (by omega)]
      rw [show 2 * (Y / 2) - y0 - (Y / 2 + t - y0) = Y / 2 - t by omega]
    · intro t _ ht
      unfold row
      rw [hyo, hrk, if_neg, if_neg]
      · intro he
        have := neo _ (by omega) he
        omega
      · intro he
        have := neo _ (by omega) he
        omega
    · intro t h1 h2; omega
  · funext _
    congr 1
    -- lower half
    have e1 : Prog.loop (rng (y0 + y - Y / 2) ((Y - 1) / 2 + 1)) (d.row own f u) =
        Prog.loop (rng 0 ((Y - 1) / 2 + 1)) (fun t => if r = own (Y / 2 - t) ∧ r ≠ own (Y / 2 + t) then
          (recv u.loc d.nx (own (Y / 2 + t))).bind fun _ => runCmd (d.place f u (Y / 2 - t - y0)) else .ret ()) := by
      rw [loop_trim (a := 0) (a' := y0 + y - Y / 2) (b' := (Y - 1) / 2 + 1) (Nat.zero_le _) t0le le_rfl]
      · refine loop_congr fun t ht => ?_
        rw [mem_rng] at ht
        unfold row
        have hne : r ≠ own (Y / 2 + t) := by
          intro he
          have := neo _ (by omega) he
          omega
        rw [hyo, hrk, hy0, if_neg hne]
        simp only [hne, ne_eq, not_false_eq_true, and_true]
      · intro t _ ht
        rw [if_neg]
        rintro ⟨h1, h2⟩
        have := neo _ (by omega) h1
        exact h2 (eqo _ (by omega) (by omega)).symm
      · intro t h1 h2; omega
    rw [e1]
    clear e1
    set j0 := if y0 = 0 then 1 - Y % 2 else 0 with hj0
    have hj0' : j0 ≤ 1 ∧ (j0 = 1 → y0 = 0 ∧ Y % 2 = 0) ∧ (j0 = 0 → y0 ≠ 0 ∨ Y % 2 = 1) := by
      by_cases h : y0 = 0
      · rw [if_pos h] at hj0; omega
      · rw [if_neg h] at hj0; omega
    by_cases hlow : min y (Y / 2 - y0) ≤ j0
    · rw [rng_empty hlow, loop_ret (l := rng 0 _)]
      · rfl
      intro t ht
      rw [mem_rng] at ht
      rw [if_neg]
      rintro ⟨h1, h2⟩
      have a1 := neo _ (by omega) h1
      by_cases a2 : Y / 2 + t < y0 + y
      · exact h2 (eqo _ (by omega) (by omega)).symm
      · omega
    rw [loop_trim (a := 0) (a' := Y / 2 - y0 - min y (Y / 2 - y0) + 1) (b' := Y / 2 - y0 - j0 + 1) (Nat.zero_le _) (by omega) (by omega)]
    · have : (rng j0 (min y (Y / 2 - y0))).reverse = (rng (Y / 2 - y0 - min y (Y / 2 - y0) + 1) (Y / 2 - y0 - j0 + 1)).map (fun t => Y / 2 - t - y0) := by
        unfold rng
        refine List.ext_getElem ?_ ?_
        · simp; omega
        · intro n h1 h2
          simp at h1 h2 ⊢
          omega
      rw [this, loop_map]
      refine loop_congr fun t ht => ?_
      rw [mem_rng] at ht
      unfold lower
      rw [hre (Y / 2 - t - y0) (by omega) (by omega), hrk]
      rw [show 2 * (Y / 2) - y0 - (Y / 2 - t - y0) = Y / 2 + t by omega]
      have : r = own (Y / 2 - t) := (eqo _ (by omega) (by omega)).symm
      simp only [this.symm, true_and]
      by_cases h : own (Y / 2 + t) = r
      · rw [if_neg (fun h' => h' h), if_neg (fun h' => h' h.symm)]
      · rw [if_pos h, if_pos (fun h' => h h'.symm)]
    · intro t _ ht
      rw [if_neg]
      rintro ⟨h1, h2⟩
      have a1 := neo _ (by omega) h1
      by_cases a2 : Y / 2 + t < y0 + y
      · exact h2 (eqo _ (by omega) (by omega)).symm
      · omega
    · intro t h1 h2
      rw [if_neg]
      rintro ⟨h3, h4⟩
      have a1 := neo _ (by omega) h3
      omega

end Fftwpp.XYSplit
