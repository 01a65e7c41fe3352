import Verif.Proof.RFwd2

/-! Forward transforms of real data, `p≤2`: the residue 0, and the complete calls. -/

namespace Fftwpp
open Finset

theorem cell_zero {m : Mem} {y : Ptr} (h : m.val (wordOf y) = 0) : m.cell y = 0 := by
  unfold Mem.cell
  rw [show (⟨y.buf, y.off / 2⟩ : Ptr) = wordOf y from rfl, h]
  simp

theorem dptr_add (p : Ptr) (i : ℕ) : dptr (p + i) = dptr p + 2 * i := by
  unfold dptr; ext <;> simp; ring

namespace Re
variable {o : Re} {f F U V W : Ptr} {mem m1 : Mem} {r : ℕ}

/-- `forwardExplicitMany`, and `forward1Many` for `r=0` if the array is padded again. -/
noncomputable def zeroFill (o : Re) (f F W : Ptr) : Cmd Unit := do
  parD (rng2 0 o.L 0 o.C) fun (s, c) => copyD (dptr W + o.S * s + c) (dptr f + o.S * s + c)
  parD (rng2 o.L o.m 0 o.C) fun (s, c) => setD (dptr W + o.S * s + c) 0
  o.rcfftm.r2c W F

section le2
variable (w' : o.WF) (hp : o.p ≤ 2)
include w' hp

/-- The words of the row of doubles at `V=W`. -/
theorem row_word {j c : ℕ} (hj : j < o.m) (hc : c < o.C) : (o.S * j + c) / 2 < o.outputSize := by
  have h1 := radix_lt (lt_of_lt_of_le hc w'.C_le_S) hj
  have h2 : o.S * (2 * o.e) ≤ o.S * (2 * o.nrows) := Nat.mul_le_mul_left _ (Nat.mul_le_mul_left _ (w'.e_le hp))
  have h3 : o.S * o.m ≤ o.S * (2 * o.e) := Nat.mul_le_mul_left _ (by have := w'.e_eq; omega)
  have h4 : o.S * (2 * o.nrows) = 2 * (o.S * o.nrows) := by ring
  rw [w'.outputSize_eq]
  omega

/-- The transform that completes `r=0`. -/
theorem zero_fin {Q : Unit → Mem → Prop} (pre : o.Pre mem f F W) (hs : SepPtr o.inplace V F)
    (hV : ∀ j < o.m, ∀ c < o.C, InArr W o.outputSize (wordOf (dptr V + (o.S * j + c))))
    (u1 : mem.Upd m1 (InArr W o.outputSize)) (hpad1 : o.Padded m1 W)
    (e1 : ∀ j < o.m, ∀ c < o.C, (m1.cell (dptr V + (o.S * j + c)) : ℂ) = fillv o.M o.L o.m o.p (o.X mem f c) 0 j)
    (hQ : ∀ m', o.FwdPost mem m' f F W 0 → Q () m') : (o.rcfftm.r2c V F).Ok m1 Q := by
  have hel := w'.e_le hp
  have he := w'.e_eq
  obtain ⟨J, J', hrc, _⟩ := w'.rc hp
  rw [hrc]
  refine RPlan.r2c_cols w'.C_le_S hs ?_ ?_ ?_
  · intro i hi c hc
    exact (validW_of w' pre.vF hel).get u1.size (by omega) hc
  · intro j hj c hc
    rw [Mem.split_valid]
    obtain ⟨i, hi, e⟩ := hV j hj c hc
    rw [e]
    exact Mem.valid_of_size u1.size (pre.vW i hi)
  intro m2 u2 e2
  refine hQ m2 ⟨u1.trans u2 (fun p h => Or.inr h) ?_, ⟨fun _ => ?_, fun h => absurd h (by omega), fun h => absurd h (by omega)⟩, ?_⟩
  · rintro p (⟨i, hi, c, hc, rfl⟩ | ⟨_, j, hj, c, hc, rfl⟩)
    · exact Or.inl (inArr_of w' hp (K := o.e) hel (by omega) hc)
    · exact Or.inr (hV j hj c hc)
  · intro k hk c hc
    have := row_fft_int w'.M_eq (by have := w'.q_pos; omega) w'.p_ub (o.X mem f c) 0 (-k)
    rw [e2 c hc k (by omega), show -((o.q : ℤ) * k) = o.q * -k + 0 by ring, ← this]
    refine sum_congr rfl fun j hj => ?_
    rw [e1 j (mem_range.1 hj) c hc, show -((k : ℤ) * j) = j * -k by ring]
  · intro hi hq hp1 d hd s hs' hL c hc
    rw [u2.frame, hpad1 hi hq hp1 d hd s hs' hL c hc]
    have hb : W.buf ≠ F.buf := by
      rcases pre.sep with h | h
      · rw [hi] at h; simp at h
      · exact h.2
    rintro (⟨i, _, c', _, e⟩ | ⟨h, _⟩)
    · exact hb (by simpa using congrArg Ptr.buf e)
    · rw [hi] at h; simp at h

theorem zeroFill_ok {Q : Unit → Mem → Prop} (hp1 : o.p = 1) (pre : o.Pre mem f F W) (hpad : o.Padded mem W)
    (hQ : ∀ m', o.FwdPost mem m' f F W 0 → Q () m') : (o.zeroFill f F W).Ok mem Q := by
  have hCS := w'.C_le_S
  have hLm : o.L ≤ o.m := by have := w'.p_ub; rw [hp1] at this; omega
  have hfb : ∀ i : ℕ, (dptr f + i).buf ≠ (dptr W).buf := fun i => by simpa [dptr] using pre.fW
  have vW : ∀ {m1 : Mem}, m1.size = mem.size → ∀ j < o.m, ∀ c < o.C, m1.split.valid (dptr W + (o.S * j + c)) := by
    intro m1 hsz j hj c hc
    rw [Mem.split_valid, RPlan.wordOf_add]
    exact Mem.valid_of_size hsz (pre.vW _ (row_word w' hp hj hc))
  unfold zeroFill
  refine Cmd.Ok.bind (drows_loop1 w'.C_le_S (DRows.start (x := dptr W)
    (u := fun j c => if j < o.L then mem.cell (dptr f + (o.S * j + c)) else 0)) (fun _ _ _ h => h) ?_ ?_)
  · intro s c hs hs' hc m1 hsz ho _
    simp only [Ptr.add_add]
    refine Does.getD (pre.vf.get hsz hs' hc) (Or.inl (hfb _)) (Does.setD (vW hsz s (by omega) c hc) ?_)
    rw [if_pos hs', ho _ (hfb _)]
  intro m1 I1
  refine Cmd.Ok.bind (drows_loop1 w'.C_le_S I1 (fun s h1 h2 h => by simp only [false_or] at h; omega) ?_ ?_)
  · intro s c hs hs' hc m1 hsz ho _
    simp only [Ptr.add_add]
    refine Does.setD (vW hsz s (by omega) c hc) ?_
    rw [if_neg (by omega)]
  intro m2 I2
  have I := I2.iff (J' := fun j => j < o.m) (fun j => by simp only [false_or]; omega)
  have hV : ∀ j < o.m, ∀ c < o.C, InArr W o.outputSize (wordOf (dptr W + (o.S * j + c))) := by
    intro j hj c hc
    exact ⟨_, row_word w' hp hj hc, RPlan.wordOf_add _ _⟩
  refine zero_fin w' hp pre pre.sep hV (I.1.words ?_) ?_ ?_ hQ
  · rintro y ⟨j, c, hj, hc, rfl⟩; exact hV j hj c hc
  · intro hi hq _ d hd s hs hL c hc
    have key : ∀ ε < 2, m2.cell (dptr W + (2 * (o.S * (o.pm * d + s) + c) + ε)) = 0 := by
      intro ε hε
      have hbig : o.S * o.L ≤ o.S * (o.pm * d + s) := Nat.mul_le_mul_left _ (le_trans hL (Nat.le_add_left _ _))
      by_cases hx : ∃ j c', j < o.m ∧ c' < o.C ∧ dptr W + (2 * (o.S * (o.pm * d + s) + c) + ε) = dptr W + (o.S * j + c')
      · obtain ⟨j, c', hj, hc', e⟩ := hx
        rw [e, I.2 j c' hj hc']
        show (if j < o.L then _ else _) = _
        rw [if_neg]
        intro hjL
        have := radix_lt (lt_of_lt_of_le hc' w'.C_le_S) hjL
        rw [Ptr.add_inj] at e
        omega
      · rw [I.1.frame _ hx]
        refine cell_zero ?_
        rw [RPlan.wordOf_add, show (2 * (o.S * (o.pm * d + s) + c) + ε) / 2 = o.S * (o.pm * d + s) + c by omega]
        exact hpad hi hq hp1 d hd s hs hL c hc
    rw [Mem.val_cell, dptr_add, Ptr.add_add, key 1 (by omega), ← Nat.add_zero (2 * _), key 0 (by omega)]
    rfl
  · intro j hj c hc
    rw [I.2 j c hj hc, hp1, fillv_one]
    unfold X
    by_cases hjL : j < o.L
    · simp only [if_pos hjL, mul_zero, w_zero, mul_one]
    · simp only [if_neg hjL, Complex.ofReal_zero]

theorem f1Zero_ok {Q : Unit → Mem → Prop} (hp1 : o.p = 1) (hq : o.q ≠ 1) (pre : o.Pre mem f F W) (hpad : o.Padded mem W)
    (hQ : ∀ m', o.FwdPost mem m' f F W 0 → Q () m') : (o.f1Zero f F W).Ok mem Q := by
  unfold f1Zero
  by_cases hrep : o.inplace ∨ o.q = 2 ∨ o.L % 2 = 1 ∨ o.C < o.S
  · simp only [if_pos hrep]
    exact zeroFill_ok w' hp hp1 pre hpad hQ
  simp only [if_neg hrep]
  have hi : o.inplace = false := by
    by_contra h; exact hrep (Or.inl (by simpa using h))
  have hq2 : o.q ≠ 2 := fun h => hrep (Or.inr (Or.inl h))
  have hL2 : o.L % 2 = 0 := by
    by_contra h; exact hrep (Or.inr (Or.inr (Or.inl (by omega))))
  have hCS : o.S ≤ o.C := by
    by_contra h; exact hrep (Or.inr (Or.inr (Or.inr (by omega))))
  have hSC := w'.C_le_S
  have hSpos := w'.S_pos
  have hqn := w'.q_n hp
  have hqp := w'.q_pos
  have hml := w'.m_le hp (by omega)
  have hmD : o.m ≤ o.m * o.D := Nat.le_mul_of_pos_right _ w'.D_pos
  have hLm : o.L ≤ o.m := by have := w'.p_ub; rw [hp1] at this; omega
  have hpm : o.pm = o.m := by unfold pm; rw [if_neg hq2]
  have hSm : o.S * o.m ≤ o.outputSize := by rw [w'.outputSize_eq]; exact Nat.mul_le_mul_left _ (by omega)
  have hSL : o.S * o.L ≤ o.S * o.m := Nat.mul_le_mul_left _ hLm
  have hV : dptr (W + o.L / 2 * o.S) = dptr W + o.S * o.L := by
    rw [dptr_add]
    congr 1
    obtain ⟨k, hk⟩ : ∃ k, o.L = 2 * k := ⟨o.L / 2, by omega⟩
    rw [hk, Nat.mul_div_cancel_left k (by omega)]; ring
  have hword : ∀ j < o.m, ∀ c < o.C, (o.S * o.L + (o.S * j + c)) / 2 < o.S * o.m := by
    intro j hj c hc
    have := radix_lt (lt_of_lt_of_le hc hSC) hj
    omega
  have hb : W.buf ≠ F.buf := by
    rcases pre.sep with h | h
    · rw [hi] at h; simp at h
    · exact h.2
  have hfb : ∀ i : ℕ, (dptr f + i).buf ≠ (dptr (W + o.L / 2 * o.S)).buf := fun i => by simpa [dptr] using pre.fW
  have hVA : ∀ j < o.m, ∀ c < o.C, InArr W o.outputSize (wordOf (dptr (W + o.L / 2 * o.S) + (o.S * j + c))) := by
    intro j hj c hc
    rw [hV, Ptr.add_add, RPlan.wordOf_add]
    exact ⟨_, by have := hword j hj c hc; omega, rfl⟩
  have vW : ∀ {m1 : Mem}, m1.size = mem.size → ∀ j < o.m, ∀ c < o.C, m1.split.valid (dptr (W + o.L / 2 * o.S) + (o.S * j + c)) := by
    intro m1 hsz j hj c hc
    rw [Mem.split_valid]
    obtain ⟨i, h1, h2⟩ := hVA j hj c hc
    rw [h2]
    exact Mem.valid_of_size hsz (pre.vW _ h1)
  refine Cmd.Ok.bind (drows_loop1 w'.C_le_S (DRows.start (x := dptr (W + o.L / 2 * o.S))
    (u := fun j c => mem.cell (dptr f + (o.S * j + c)))) (fun _ _ _ h => h) ?_ ?_)
  · intro s c hs hs' hc m1 hsz ho _
    simp only [Ptr.add_add (dptr _)]
    refine Does.getD (pre.vf.get hsz hs' hc) (Or.inl (hfb _)) (Does.setD (vW hsz s (by omega) c hc) ?_)
    rw [ho _ (hfb _)]
  intro m1 I1
  have I := I1.iff (J' := fun j => j < o.L) (fun j => by simp only [false_or]; omega)
  have hz : ∀ i, o.S * o.L ≤ i → i < o.S * o.m → mem.val (W + i) = 0 := by
    intro i h1 h2
    have h3 := hpad hi hq hp1 0 w'.D_pos (i / o.S) (by rw [hpm]; exact Nat.div_lt_of_lt_mul h2)
      ((Nat.le_div_iff_mul_le hSpos).2 (by rw [Nat.mul_comm]; exact h1)) (i % o.S) (lt_of_lt_of_le (Nat.mod_lt _ hSpos) hCS)
    rwa [Nat.mul_zero, Nat.zero_add, Nat.div_add_mod] at h3
  refine Cmd.Ok.bind (Cmd.Ok.pure ?_)
  refine zero_fin w' hp pre (Or.inr ⟨hi, by simpa using hb⟩) hVA (I.1.words ?_) ?_ ?_ hQ
  · rintro y ⟨j, c, hj, hc, rfl⟩; exact hVA j (by omega) c hc
  · intro hi hq _ d hd s hs hL c hc
    have hbig : o.S * o.L ≤ o.S * (o.pm * d + s) := Nat.mul_le_mul_left _ (le_trans hL (Nat.le_add_left _ _))
    have key : ∀ ε < 2, m1.cell (dptr W + (2 * (o.S * (o.pm * d + s) + c) + ε)) = mem.cell (dptr W + (2 * (o.S * (o.pm * d + s) + c) + ε)) := by
      intro ε hε
      refine I.1.frame _ ?_
      rintro ⟨j, c', hj, hc', e⟩
      rw [hV, Ptr.add_add, Ptr.add_inj] at e
      have := radix_lt (lt_of_lt_of_le hc' hSC) hj
      omega
    have h0 := hpad hi hq hp1 d hd s hs hL c hc
    rw [Mem.val_cell, dptr_add, Ptr.add_add] at h0 ⊢
    rw [key 1 (by omega), ← Nat.add_zero (2 * _), key 0 (by omega)]
    exact h0
  · intro j hj c hc
    rw [hp1, fillv_one]
    unfold X
    split_ifs with hjL
    · rw [I.2 j c hjL hc]; simp
    · rw [I.1.frame, cell_zero]
      · simp
      · rw [hV, Ptr.add_add, RPlan.wordOf_add]
        have h1 : o.S * o.L ≤ o.S * j := Nat.mul_le_mul_left _ (by omega)
        exact hz _ (by omega) (hword j hj c hc)
      · rintro ⟨j', c', hj', hc', e⟩
        rw [Ptr.add_inj] at e
        obtain ⟨rfl, _⟩ := radix_inj (by omega) (by omega) e
        exact hjL hj'

theorem f2Zero_ok {Q : Unit → Mem → Prop} (hp2 : o.p = 2) (pre : o.Pre mem f F W)
    (hQ : ∀ m', o.FwdPost mem m' f F W 0 → Q () m') : (o.f2Zero f F W).Ok mem Q := by
  have hLm : o.m < o.L := by have := w'.p_lb; rw [hp2] at this; omega
  have hL2 : o.L ≤ 2 * o.m := by have := w'.p_ub; rw [hp2] at this; omega
  have hfb : ∀ i : ℕ, (dptr f + i).buf ≠ (dptr W).buf := fun i => by simpa [dptr] using pre.fW
  have vW : ∀ {m1 : Mem}, m1.size = mem.size → ∀ j < o.m, ∀ c < o.C, m1.split.valid (dptr W + (o.S * j + c)) := by
    intro m1 hsz j hj c hc
    rw [Mem.split_valid, RPlan.wordOf_add]
    exact Mem.valid_of_size hsz (pre.vW _ (row_word w' hp hj hc))
  unfold f2Zero
  refine Cmd.Ok.bind (drows_loop1 w'.C_le_S (DRows.start (x := dptr W)
    (u := fun j c => mem.cell (dptr f + (o.S * j + c)) + if o.m + j < o.L then mem.cell (dptr f + (o.S * (o.m + j) + c)) else 0))
    (fun _ _ _ h => h) ?_ ?_)
  · intro s c hs hs' hc m1 hsz ho _
    simp only [Ptr.add_add, ← Nat.mul_add]
    refine Does.getD (pre.vf.get hsz (by omega) hc) (Or.inl (hfb _)) (Does.getD (pre.vf.get hsz (by omega) hc) (Or.inl (hfb _))
      (Does.setD (vW hsz s (by omega) c hc) ?_))
    rw [if_pos (by omega), ho _ (hfb _), ho _ (hfb _)]
  intro m1 I1
  refine Cmd.Ok.bind (drows_loop1 w'.C_le_S I1 (fun s h1 h2 h => by simp only [false_or] at h; omega) ?_ ?_)
  · intro s c hs hs' hc m1 hsz ho _
    simp only [Ptr.add_add]
    refine Does.getD (pre.vf.get hsz (by omega) hc) (Or.inl (hfb _)) (Does.setD (vW hsz s (by omega) c hc) ?_)
    rw [if_neg (by omega), ho _ (hfb _), add_zero]
  intro m2 I2
  have I := I2.iff (J' := fun j => j < o.m) (fun j => by simp only [false_or]; omega)
  have hV : ∀ j < o.m, ∀ c < o.C, InArr W o.outputSize (wordOf (dptr W + (o.S * j + c))) := by
    intro j hj c hc
    exact ⟨_, row_word w' hp hj hc, RPlan.wordOf_add _ _⟩
  refine zero_fin w' hp pre pre.sep hV (I.1.words ?_) ?_ ?_ hQ
  · rintro y ⟨j, c, hj, hc, rfl⟩; exact hV j hj c hc
  · intro _ _ h; omega
  · intro j hj c hc
    rw [I.2 j c hj hc, hp2, fillv_two, if_pos (by omega), Nat.add_comm j o.m]
    unfold X
    by_cases hjL : o.m + j < o.L
    · simp only [if_pos hjL, Complex.ofReal_add, mul_zero, w_zero, mul_one]
    · simp only [if_neg hjL, Complex.ofReal_zero, add_zero, mul_zero, w_zero, mul_one]

/-- `forward`, `p≤2`, `q>1`. -/
theorem fwd_ok {Q : Unit → Mem → Prop} (hq : o.q ≠ 1) (pre : o.Pre mem f F W) (hpad : o.Padded mem W) (hv : o.Visit r)
    (hQ : ∀ m', o.FwdPost mem m' f F W r → Q () m') (W? : Option Ptr) (hW : W?.getD F = W) :
    ((if o.p = 1 then (if o.S = 1 then o.forward1 else o.forward1Many) else (if o.S = 1 then o.forward2 else o.forward2Many)) f F r W?).Ok mem Q := by
  subst hW
  have hqn := w'.q_n hp
  have hqp := w'.q_pos
  have hp0 := w'.p_pos
  have hrn : 2 * r ≤ o.q := by rcases hv with h | h | h <;> omega
  have plan1 : 0 < r → 2 * r < o.q → o.S = 1 →
      (if r = 1 ∧ o.D0 ≠ o.D then o.fftm0 else o.fftm) = ⟨o.m, 1, o.nd r, 1, o.m, o.inplace⟩ := by
    intro hr h2 hS
    unfold nd
    have hP := w'.P_one hp w'.p_pos
    split_ifs with h
    · rw [(w'.fftm0_eq hq h.2).1, hP, Nat.mul_one]
    · rw [(w'.fftm_S1 hq hS (by omega)).1, hP, Nat.mul_one]
  have planM : 0 < r → 2 * r < o.q → o.S ≠ 1 → o.fftm = ⟨o.m, 1, o.C, o.S, 1, o.inplace⟩ := fun hr h2 hS =>
    (w'.fftm_many hq hS (by omega)).1
  have ndM : o.S ≠ 1 → o.nd r = 1 := fun hS => (w'.nd_S hp hq r).resolve_left hS
  have conv : ∀ (row : Ptr → ℕ → Cmd Unit), o.S ≠ 1 → row (W?.getD F) r =
      seqLoop (rng 0 (o.nd r)) fun d => row (W?.getD F + o.m * d) (r + d) := by
    intro row hS
    rw [ndM hS, seqLoop_zero_one, Nat.mul_zero, Ptr.add_zero, Nat.add_zero]
  by_cases hp1 : o.p = 1
  · rw [if_pos hp1]
    have hrow : ∀ U r mem, 0 < r → r < o.q → f.buf ≠ U.buf → o.ValidF mem f → o.ValidW mem U o.m → o.ZeroW mem U o.m →
        (o.f1Row f U r).Ok mem (fun _ m' => o.RowPost mem m' U o.m (fun s c => fillv o.M o.L o.m o.p (o.X mem f c) r s)) :=
      fun U r mem h1 h2 h3 h4 h5 h6 => f1Row_ok w' hp1 hq h1 h2 h3 h4 h5 h6 fun _ h => h
    have hhalf : 2 * r = o.q → (o.f1Half f (W?.getD F) r >>= fun _ => o.ffth.exec (W?.getD F) F).Ok mem Q := fun h2 =>
      fwd_half_ok w' hp hq h2 (fun hz => f1Half_ok w' hp1 hq h2 pre.fW pre.vf (validW_of w' pre.vW (w'.h_le hp)) hz fun _ h => h)
        pre hpad hQ
    by_cases hS : o.S = 1
    · rw [if_pos hS, forward1_eq hS (w'.C_one hS)]
      split_ifs with h0 h2
      · exact f1Zero_ok w' hp hp1 hq pre hpad (h0 ▸ hQ)
      · refine fwd_row_ok w' hp (row := fun U r => o.f1Row f U r) hq hrow pre hpad hv (by omega) h2 (Or.inl ⟨hS, ?_⟩) hQ
        rename_i hc
        have := plan1 (by omega) h2 hS
        rwa [if_pos hc] at this
      · refine fwd_row_ok w' hp (row := fun U r => o.f1Row f U r) hq hrow pre hpad hv (by omega) h2 (Or.inl ⟨hS, ?_⟩) hQ
        rename_i hc
        have := plan1 (by omega) h2 hS
        rwa [if_neg hc] at this
      · exact hhalf (by omega)
    · rw [if_neg hS, forward1Many_eq]
      split_ifs with h0 h2
      · exact f1Zero_ok w' hp hp1 hq pre hpad (h0 ▸ hQ)
      · rw [conv (fun U r => o.f1Row f U r) hS]
        exact fwd_row_ok w' hp (row := fun U r => o.f1Row f U r) hq hrow pre hpad hv (by omega) h2
          (Or.inr ⟨ndM hS, planM (by omega) h2 hS⟩) hQ
      · exact hhalf (by omega)
  · rw [if_neg hp1]
    have hp2 : o.p = 2 := by omega
    have hrow : ∀ U r mem, 0 < r → r < o.q → f.buf ≠ U.buf → o.ValidF mem f → o.ValidW mem U o.m → o.ZeroW mem U o.m →
        (o.f2Row f U r).Ok mem (fun _ m' => o.RowPost mem m' U o.m (fun s c => fillv o.M o.L o.m o.p (o.X mem f c) r s)) :=
      fun U r mem h1 h2 h3 h4 h5 h6 => f2Row_ok w' hp2 hq h1 h2 h3 h4 h5 fun _ h => h
    have hhalf : 2 * r = o.q → (o.f2Half f (W?.getD F) r >>= fun _ => o.ffth.exec (W?.getD F) F).Ok mem Q := fun h2 =>
      fwd_half_ok w' hp hq h2 (fun hz => f2Half_ok w' hp2 hq h2 pre.fW pre.vf (validW_of w' pre.vW (w'.h_le hp)) fun _ h => h)
        pre hpad hQ
    by_cases hS : o.S = 1
    · rw [if_pos hS, forward2_eq hS (w'.C_one hS)]
      split_ifs with h0 h2
      · exact f2Zero_ok w' hp hp2 pre (h0 ▸ hQ)
      · refine fwd_row_ok w' hp (row := fun U r => o.f2Row f U r) hq hrow pre hpad hv (by omega) h2 (Or.inl ⟨hS, ?_⟩) hQ
        rename_i hc
        have := plan1 (by omega) h2 hS
        rwa [if_pos hc] at this
      · refine fwd_row_ok w' hp (row := fun U r => o.f2Row f U r) hq hrow pre hpad hv (by omega) h2 (Or.inl ⟨hS, ?_⟩) hQ
        rename_i hc
        have := plan1 (by omega) h2 hS
        rwa [if_neg hc] at this
      · exact hhalf (by omega)
    · rw [if_neg hS, forward2Many_eq w'.Sm_eq]
      split_ifs with h0 h2
      · exact f2Zero_ok w' hp hp2 pre (h0 ▸ hQ)
      · rw [conv (fun U r => o.f2Row f U r) hS]
        exact fwd_row_ok w' hp (row := fun U r => o.f2Row f U r) hq hrow pre hpad hv (by omega) h2
          (Or.inr ⟨ndM hS, planM (by omega) h2 hS⟩) hQ
      · exact hhalf (by omega)

end le2

theorem WF.p_of_q1 (w' : o.WF) (hq : o.q = 1) : o.p = 1 := by
  have h1 := w'.p_lb
  have h2 := w'.L_le_M
  rw [w'.M_eq, hq, Nat.mul_one] at h2
  have hp := w'.p_pos
  by_contra h
  have : o.m * 1 ≤ o.m * (o.p - 1) := Nat.mul_le_mul_left _ (by omega)
  omega

/-- Explicit padding. -/
theorem fwdExplicit_ok (w' : o.WF) (hq : o.q = 1) {Q : Unit → Mem → Prop} (pre : o.Pre mem f F W)
    (hQ : ∀ m', o.FwdPost mem m' f F W 0 → Q () m') (W? : Option Ptr) (hW : W?.getD F = W) :
    ((if o.S = 1 then o.forwardExplicit else o.forwardExplicitMany) f F W?).Ok mem Q := by
  subst hW
  have hp := w'.p_of_q1 hq
  have hz := zeroFill_ok w' (by omega) hp pre (fun _ h => absurd hq h) hQ
  by_cases hS : o.S = 1
  · rw [if_pos hS]
    have e : o.forwardExplicit f F W? = o.zeroFill f F (W?.getD F) := by
      unfold forwardExplicit zeroFill
      simp only [hS, w'.C_one hS, parD_one, Nat.one_mul, Ptr.add_zero]
    rw [e]; exact hz
  · rw [if_neg hS]; exact hz

end Re
end Fftwpp
