import Verif.Proof.RBwd2

/-! Backward transforms of real data, `p≤2`: complete calls. -/

namespace Fftwpp
open Finset

theorem SepPtr.swap {b : Bool} {p p' : Ptr} (h : SepPtr b p p') : SepPtr b p' p := by
  rcases h with ⟨h1, h2⟩ | ⟨h1, h2⟩
  · exact Or.inl ⟨h1, h2.symm⟩
  · exact Or.inr ⟨h1, h2.symm⟩

theorem row_back_mod {N m q : ℕ} (hN : N = m * q) (hm : m ≠ 0) (hq : q ≠ 0) (F : ℕ → ℂ) (k : ℤ) (j : ℕ) :
    w N (-((j : ℤ) * k)) * ∑ i ∈ range m, F i * w m (-1 * i * (j % m : ℕ)) = ∑ i ∈ range m, F i * w N (-((j : ℤ) * (q * i + k))) := by
  have := row_back hN hm hq F k (j % m) (j / m)
  rwa [Nat.mod_add_div] at this

namespace Re
variable {o : Re} {f F U W : Ptr} {mem : Mem} {r : ℕ}

/-- What `backward(F,f,r,W)` does to the data. -/
def BwdOut (o : Re) (mem m' : Mem) (f F : Ptr) (r : ℕ) : Prop :=
  (r = 0 → ∀ c < o.C, RPlan.realSpec o.m (fun k => mem.val (F + (o.S * k + c))) → ∀ j < o.L, m'.cell (dptr f + (o.S * j + c)) =
    (∑ k ∈ range o.m, RPlan.full o.m (fun k => mem.val (F + (o.S * k + c))) k * w o.m (k * j)).re) ∧
  (0 < r → 2 * r < o.q → ∀ j < o.L, ∀ c < o.C, m'.cell (dptr f + (o.S * j + c)) = mem.cell (dptr f + (o.S * j + c)) +
    2 * (∑ d ∈ range (o.nd r), ∑ l ∈ range o.m, mem.val (F + (o.S * (o.m * d + l) + c)) * w o.M (-((j : ℤ) * (o.q * l + (r + d))))).re) ∧
  (0 < r → 2 * r = o.q → ∀ j < o.L, ∀ c < o.C, m'.cell (dptr f + (o.S * j + c)) = mem.cell (dptr f + (o.S * j + c)) +
    2 * (∑ l ∈ range o.h, mem.val (F + (o.S * l + c)) * w o.M (-((j : ℤ) * (2 * o.q * l + r)))).re)

/-- Doubles of the data. -/
def Dat (o : Re) (f y : Ptr) : Prop := ∃ j < o.L, ∃ c < o.C, y = dptr f + (o.S * j + c)

/-- Postcondition of `backward`. -/
structure BwdPost (o : Re) (mem m' : Mem) (f F W : Ptr) (r : ℕ) : Prop where
  upd : mem.DUpd m' (fun y => o.Dat f y ∨ InArr F o.outputSize (wordOf y) ∨ InArr W o.outputSize (wordOf y))
  out : o.BwdOut mem m' f F r

theorem DRows.dat {J : ℕ → Prop} {u : ℕ → ℕ → ℝ} {m' : Mem} (h : DRows o.C o.S (dptr f) J u mem m') (hJ : ∀ j, J j → j < o.L) : mem.DUpd m' (o.Dat f) :=
  h.1.mono fun _ ⟨j, c, h1, h2, h3⟩ => ⟨j, hJ j h1, c, h2, h3⟩

theorem Dat.buf {y : Ptr} (h : o.Dat f y) : y.buf = f.buf := by
  obtain ⟨j, _, c, _, rfl⟩ := h; simp [dptr]

section le2
variable (w' : o.WF) (hp : o.p ≤ 2)
include w' hp

theorem copy_ok {Q : Unit → Mem → Prop} (hfW : f.buf ≠ W.buf) (vf : o.ValidF mem f) (vW : mem.block W o.outputSize)
    (hQ : ∀ m', mem.DUpd m' (o.Dat f) → (∀ j < o.L, ∀ c < o.C, m'.cell (dptr f + (o.S * j + c)) = mem.cell (dptr W + (o.S * (j % o.m) + c))) → Q () m') :
    (if o.p = 1 then o.b1Copy f W else o.b2Copy f W).Ok mem Q := by
  have hWb : ∀ i : ℕ, (dptr W + i).buf ≠ (dptr f).buf := fun i => by simpa [dptr] using hfW.symm
  have vW' : ∀ {m1 : Mem}, m1.size = mem.size → ∀ j < o.m, ∀ c < o.C, m1.split.valid (dptr W + (o.S * j + c)) := by
    intro m1 hsz j hj c hc
    rw [Mem.split_valid, RPlan.wordOf_add]
    exact Mem.valid_of_size hsz (vW _ (row_word w' hp hj hc))
  by_cases hp1 : o.p = 1
  · have hLm : o.L ≤ o.m := by have := w'.p_ub; rw [hp1] at this; omega
    rw [if_pos hp1]
    unfold b1Copy
    refine drows_loop1 w'.C_le_S (DRows.start (x := dptr f) (u := fun j c => mem.cell (dptr W + (o.S * (j % o.m) + c)))) (fun _ _ _ h => h) ?_ ?_
    · intro s c hs hs' hc m1 hsz ho _
      simp only [Ptr.add_add]
      refine Does.getD (vW' hsz s (by omega) c hc) (Or.inl (hWb _)) (Does.setD (vf.get hsz hs' hc) ?_)
      rw [Nat.mod_eq_of_lt (by omega), ho _ (hWb _)]
    · intro m' I
      refine hQ m' (DRows.dat I fun j h => by simp at h; omega) fun j hj c hc => I.2 j c (by simp; omega) hc
  · have hp2 : o.p = 2 := by have := w'.p_pos; omega
    have hLm : o.m < o.L := by have := w'.p_lb; rw [hp2] at this; omega
    have hL2 : o.L ≤ 2 * o.m := by have := w'.p_ub; rw [hp2] at this; omega
    rw [if_neg hp1]
    unfold b2Copy
    refine Cmd.Ok.bind (drows_loop1 w'.C_le_S (DRows.start (x := dptr f) (u := fun j c => mem.cell (dptr W + (o.S * (j % o.m) + c)))) (fun _ _ _ h => h) ?_ ?_)
    · intro s c hs hs' hc m1 hsz ho _
      simp only [Ptr.add_add]
      refine Does.getD (vW' hsz s (by omega) c hc) (Or.inl (hWb _)) (Does.setD (vf.get hsz (by omega) hc) ?_)
      rw [Nat.mod_eq_of_lt (by omega), ho _ (hWb _)]
    intro m1 I1
    refine drows_loop1 w'.C_le_S I1 (fun s h1 h2 h => by simp only [false_or] at h; omega) ?_ ?_
    · intro s c hs hs' hc m1 hsz ho _
      have hadr : dptr W - o.S * o.m + o.S * s + c = dptr W + (o.S * (s - o.m) + c) := by
        obtain ⟨t, rfl⟩ := Nat.exists_eq_add_of_le hs
        rw [Nat.add_sub_cancel_left, Nat.mul_add]
        ext <;> simp; ring
      have : s % o.m = s - o.m := by rw [Nat.mod_eq_sub_mod hs, Nat.mod_eq_of_lt (by omega)]
      simp only [hadr, Ptr.add_add (dptr f)]
      refine Does.getD (vW' hsz (s - o.m) (by omega) c hc) (Or.inl (hWb _)) (Does.setD (vf.get hsz hs' hc) ?_)
      rw [this, ho _ (hWb _)]
    · intro m' I
      refine hQ m' (DRows.dat I fun j h => by simp at h; omega) fun j hj c hc => I.2 j c (by simp; omega) hc

/-- The residue 0. -/
theorem bwd_zero_ok {Q : Unit → Mem → Prop} (pre : o.Pre mem f F W) (hQ : ∀ m', o.BwdPost mem m' f F W 0 → Q () m') :
    (o.crfftm.c2r F W >>= fun _ => if o.p = 1 then o.b1Copy f W else o.b2Copy f W).Ok mem Q := by
  have hel := w'.e_le hp
  have he := w'.e_eq
  have hmp := w'.m_pos
  obtain ⟨_, J, _, hcr⟩ := w'.rc hp
  rw [hcr]
  have hV : ∀ j < o.m, ∀ c < o.C, InArr W o.outputSize (wordOf (dptr W + (o.S * j + c))) := by
    intro j hj c hc
    exact ⟨_, row_word w' hp hj hc, RPlan.wordOf_add _ _⟩
  refine Cmd.Ok.bind (RPlan.c2r_cols w'.C_le_S pre.sep.swap ?_ ?_ ?_)
  · intro i hi c hc
    exact (validW_of w' pre.vF hel).get rfl (by omega) hc
  · intro j hj c hc
    rw [Mem.split_valid]
    obtain ⟨i, hi, e⟩ := hV j hj c hc
    rw [e]
    exact pre.vW i hi
  intro m1 u1 e1
  refine copy_ok w' hp pre.fW (fun j hj c hc => pre.vf.get u1.size hj hc) (fun i hi => Mem.valid_of_size u1.size (pre.vW i hi)) ?_
  intro m2 u2 e2
  refine hQ m2 ⟨u1.cells.trans u2 ?_ (fun _ h => Or.inl h), ⟨fun _ => ?_, fun h => absurd h (by omega), fun h => absurd h (by omega)⟩⟩
  · rintro y (⟨i, hi, c, hc, h⟩ | ⟨j, hj, c, hc, h⟩)
    · exact Or.inr (Or.inl (h ▸ inArr_of w' hp (K := o.e) hel (by omega) hc))
    · exact Or.inr (Or.inr (h ▸ hV j hj c hc))
  · intro c hc hreal j hj
    rw [e2 j hj c hc, e1 c hc hreal _ (Nat.mod_lt _ hmp)]
    congr 1
    refine sum_congr rfl fun k _ => ?_
    congr 1
    refine w_congr ⟨-((k : ℤ) * (j / o.m : ℕ)), ?_⟩
    have := Nat.mod_add_div j o.m
    generalize j % o.m = a at *
    generalize j / o.m = b at *
    rw [← this]; push_cast; ring

/-- Ordinary residues. -/
theorem bwd_row_ok {row : Ptr → ℕ → Cmd Unit} {pl : Plan} {Q : Unit → Mem → Prop} (hq : o.q ≠ 1)
    (hrow : ∀ U r mem, 0 < r → r < o.q → f.buf ≠ U.buf → o.ValidF mem f → o.ValidW mem U o.m →
      (row U r).Ok mem (fun _ m' => o.BPost mem m' f U o.m r))
    (pre : o.Pre mem f F W) (hv : o.Visit r) (hr : 0 < r) (h2 : 2 * r < o.q)
    (hpl : (o.S = 1 ∧ pl = ⟨o.m, -1, o.nd r, 1, o.m, o.inplace⟩) ∨ (o.nd r = 1 ∧ pl = ⟨o.m, -1, o.C, o.S, 1, o.inplace⟩))
    (hQ : ∀ m', o.BwdPost mem m' f F W r → Q () m') :
    (pl.exec F W >>= fun _ => seqLoop (rng 0 (o.nd r)) fun d => row (W + o.m * d) (r + d)).Ok mem Q := by
  have hqn := w'.q_n hp
  have hn : 2 < o.n := by omega
  have hmp := w'.m_pos
  have hrl := w'.rows_le hp hn r
  have hrq : r + o.nd r ≤ o.q := by rcases hv with h | h | h <;> omega
  refine Cmd.Ok.bind (exec_rows_any w' hp hpl pre.sep.swap (validW_of w' pre.vF hrl) (validW_of w' pre.vW hrl) ?_)
  intro m1 u1 e1
  have hadr : ∀ d < o.nd r, ∀ i : ℕ, ∀ c : ℕ, W + o.m * d + (o.S * i + c) = W + (o.S * (o.m * d + i) + c) := by
    intro d hd i c
    rw [Ptr.add_add]
    congr 1
    rcases w'.nd_S hp hq r with h | h
    · rw [h]; ring
    · have : d = 0 := by omega
      subst this; simp
  refine Fft.seqLoop_rng (fun k m2 => m1.DUpd m2 (o.Dat f) ∧ ∀ j < o.L, ∀ c < o.C, m2.cell (dptr f + (o.S * j + c)) = m1.cell (dptr f + (o.S * j + c)) +
      2 * ∑ t ∈ range k, (w o.M (-((j : ℤ) * ((r + t : ℕ) : ℤ))) * m1.val (W + (o.S * (o.m * t + j % o.m) + c))).re)
      ⟨Mem.DUpd.refl _ _, fun j _ c _ => by simp⟩ ?_ ?_
  · rintro d m2 hd ⟨u2, e2⟩
    refine (hrow (W + o.m * d) (r + d) m2 (by omega) (by omega) (by simpa using pre.fW)
      (fun j hj c hc => pre.vf.get (u2.size.trans u1.size) hj hc) ?_).mono ?_
    · intro s hs c hc
      rw [hadr d hd]
      exact (validW_of w' pre.vW hrl).get (u2.size.trans u1.size) (radix_lt hs hd) hc
    · rintro _ m3 I
      refine ⟨u2.trans (DRows.dat I fun _ h => h) (fun _ h => h) (fun _ h => h), ?_⟩
      intro j hj c hc
      rw [I.2 j c hj hc, bval, e2 j hj c hc, sum_range_succ, hadr d hd]
      rw [val_of_cells (b := f.buf) (m := m1) (m' := m2) (fun x hx => u2.frame x fun h => hx h.buf) (by simpa using pre.fW.symm)]
      ring
  · rintro m2 ⟨u2, e2⟩
    refine hQ m2 ⟨u1.cells.trans u2 ?_ (fun _ h => Or.inl h), ⟨fun h => absurd h (by omega), fun _ _ => ?_, fun _ h => absurd h (by omega)⟩⟩
    · rintro y ⟨i, hi, c, hc, h⟩
      exact Or.inr (Or.inr (h ▸ inArr_of w' hp hrl hi hc))
    · intro j hj c hc
      rw [e2 j hj c hc]
      congr 1
      · refine u1.cells.frame _ ?_
        rintro ⟨i, hi, c', hc', h⟩
        have := congrArg Ptr.buf h
        simp [wordOf, dptr] at this
        exact pre.fW this
      · rw [Complex.re_sum]
        congr 1
        refine sum_congr rfl fun d hd => ?_
        congr 1
        rw [e1 d (mem_range.1 hd) _ (Nat.mod_lt _ hmp) c hc,
          row_back_mod w'.M_eq (by omega) (by omega) (fun l => mem.val (F + (o.S * (o.m * d + l) + c)))]
        push_cast
        rfl

/-- The residue `q/2`. -/
theorem bwd_half_ok {half : Cmd Unit} {Q : Unit → Mem → Prop} (hq : o.q ≠ 1) (h2 : 2 * r = o.q)
    (hhalf : ∀ mem, o.ValidF mem f → o.ValidW mem W o.h → half.Ok mem fun _ m' => o.BPost mem m' f W o.h r)
    (pre : o.Pre mem f F W) (hQ : ∀ m', o.BwdPost mem m' f F W r → Q () m') :
    (o.iffth.exec F W >>= fun _ => half).Ok mem Q := by
  have hqp := w'.q_pos
  have hmh := w'.m_h hq (by omega)
  have hh := w'.h_pos hq (by omega)
  have hvl := w'.h_le hp
  rw [(w'.ffth_eq hq hp (by omega)).2]
  refine Cmd.Ok.bind (exec_cols w'.C_le_S pre.sep.swap (validW_of w' pre.vF hvl) (validW_of w' pre.vW hvl) ?_)
  intro m1 u1 e1
  refine (hhalf m1 (fun j hj c hc => pre.vf.get u1.size hj hc) (fun s hs c hc => (validW_of w' pre.vW hvl).get u1.size hs hc)).mono ?_
  intro _ m2 I
  refine hQ m2 ⟨u1.cells.trans (DRows.dat I fun _ h => h) ?_ (fun _ h => Or.inl h), ⟨fun h => absurd h (by omega), fun _ h => absurd h (by omega), fun _ _ => ?_⟩⟩
  · rintro y ⟨i, hi, c, hc, h⟩
    exact Or.inr (Or.inr (h ▸ inArr_of w' hp hvl hi hc))
  · intro j hj c hc
    have hN : o.M = o.h * (2 * o.q) := by rw [w'.M_eq, hmh]; ring
    rw [I.2 j c hj hc, bval]
    congr 1
    · refine u1.cells.frame _ ?_
      rintro ⟨i, hi, c', hc', h⟩
      have := congrArg Ptr.buf h
      simp [wordOf, dptr] at this
      exact pre.fW this
    · congr 2
      rw [e1 _ (Nat.mod_lt _ hh) c hc, row_back_mod hN (by omega) (by omega) (fun l => mem.val (F + (o.S * l + c)))]
      push_cast
      rfl

/-- `backward`, `p≤2`, `q>1`. -/
theorem bwd_ok {Q : Unit → Mem → Prop} (hq : o.q ≠ 1) (pre : o.Pre mem f F W) (hv : o.Visit r)
    (hQ : ∀ m', o.BwdPost mem m' f F W r → Q () m') (W? : Option Ptr) (hW : W?.getD F = W) :
    ((if o.p = 1 then (if o.S = 1 then o.backward1 else o.backward1Many) else (if o.S = 1 then o.backward2 else o.backward2Many)) F f r W?).Ok mem Q := by
  subst hW
  have hqn := w'.q_n hp
  have hqp := w'.q_pos
  have hp0 := w'.p_pos
  have hrn : 2 * r ≤ o.q := by rcases hv with h | h | h <;> omega
  have plan1 : 0 < r → 2 * r < o.q → o.S = 1 →
      (if r = 1 ∧ o.D0 ≠ o.D then o.ifftm0 else o.ifftm) = ⟨o.m, -1, o.nd r, 1, o.m, o.inplace⟩ := by
    intro hr h2 hS
    unfold nd
    have hP := w'.P_one hp w'.p_pos
    split_ifs with h
    · rw [(w'.fftm0_eq hq h.2).2, hP, Nat.mul_one]
    · rw [(w'.fftm_S1 hq hS (by omega)).2, hP, Nat.mul_one]
  have planM : 0 < r → 2 * r < o.q → o.S ≠ 1 → o.ifftm = ⟨o.m, -1, o.C, o.S, 1, o.inplace⟩ := fun hr h2 hS =>
    (w'.fftm_many hq hS (by omega)).2
  have ndM : o.S ≠ 1 → o.nd r = 1 := fun hS => (w'.nd_S hp hq r).resolve_left hS
  have conv : ∀ (row : Ptr → ℕ → Cmd Unit), o.S ≠ 1 → row (W?.getD F) r =
      seqLoop (rng 0 (o.nd r)) fun d => row (W?.getD F + o.m * d) (r + d) := by
    intro row hS
    rw [ndM hS, seqLoop_zero_one, Nat.mul_zero, Ptr.add_zero, Nat.add_zero]
  have hz : r = 0 → (o.crfftm.c2r F (W?.getD F) >>= fun _ => if o.p = 1 then o.b1Copy f (W?.getD F) else o.b2Copy f (W?.getD F)).Ok mem Q :=
    fun h0 => bwd_zero_ok w' hp pre (h0 ▸ hQ)
  by_cases hp1 : o.p = 1
  · rw [if_pos hp1]
    rw [if_pos hp1] at hz
    have hrow : ∀ U r mem, 0 < r → r < o.q → f.buf ≠ U.buf → o.ValidF mem f → o.ValidW mem U o.m →
        (o.b1Row f U r).Ok mem (fun _ m' => o.BPost mem m' f U o.m r) :=
      fun U r mem h1 h2 h3 h4 h5 => b1Row_ok w' hp1 hq h1 h2 h3 h4 h5
    have hhalf : 2 * r = o.q → (o.iffth.exec F (W?.getD F) >>= fun _ => o.b1Half f (W?.getD F) r).Ok mem Q := fun h2 =>
      bwd_half_ok w' hp hq h2 (fun _ h3 h4 => b1Half_ok w' hp1 hq h2 pre.fW h3 h4) pre hQ
    by_cases hS : o.S = 1
    · rw [if_pos hS, backward1_eq hS (w'.C_one hS)]
      by_cases h0 : r = 0
      · rw [if_pos h0]; exact hz h0
      · rw [if_neg h0]
        by_cases h2 : 2 * r < o.q
        · rw [if_pos h2, plan1 (by omega) h2 hS]
          exact bwd_row_ok w' hp (row := fun U r => o.b1Row f U r) hq hrow pre hv (by omega) h2 (Or.inl ⟨hS, rfl⟩) hQ
        · rw [if_neg h2]; exact hhalf (by omega)
    · rw [if_neg hS, backward1Many_eq]
      by_cases h0 : r = 0
      · rw [if_pos h0]; exact hz h0
      · rw [if_neg h0]
        by_cases h2 : 2 * r < o.q
        · rw [if_pos h2, conv (fun U r => o.b1Row f U r) hS]
          exact bwd_row_ok w' hp (row := fun U r => o.b1Row f U r) hq hrow pre hv (by omega) h2 (Or.inr ⟨ndM hS, planM (by omega) h2 hS⟩) hQ
        · rw [if_neg h2]; exact hhalf (by omega)
  · rw [if_neg hp1]
    rw [if_neg hp1] at hz
    have hp2 : o.p = 2 := by omega
    have hrow : ∀ U r mem, 0 < r → r < o.q → f.buf ≠ U.buf → o.ValidF mem f → o.ValidW mem U o.m →
        (o.b2Row f U r).Ok mem (fun _ m' => o.BPost mem m' f U o.m r) :=
      fun U r mem h1 h2 h3 h4 h5 => b2Row_ok w' hp2 hq h1 h2 h3 h4 h5
    have hhalf : 2 * r = o.q → (o.iffth.exec F (W?.getD F) >>= fun _ => o.b2Half f (W?.getD F) r).Ok mem Q := fun h2 =>
      bwd_half_ok w' hp hq h2 (fun _ h3 h4 => b2Half_ok w' hp2 hq h2 pre.fW h3 h4) pre hQ
    by_cases hS : o.S = 1
    · rw [if_pos hS, backward2_eq hS (w'.C_one hS)]
      by_cases h0 : r = 0
      · rw [if_pos h0]; exact hz h0
      · rw [if_neg h0]
        by_cases h2 : 2 * r < o.q
        · rw [if_pos h2, plan1 (by omega) h2 hS]
          exact bwd_row_ok w' hp (row := fun U r => o.b2Row f U r) hq hrow pre hv (by omega) h2 (Or.inl ⟨hS, rfl⟩) hQ
        · rw [if_neg h2]; exact hhalf (by omega)
    · rw [if_neg hS, backward2Many_eq w'.Sm_eq]
      by_cases h0 : r = 0
      · rw [if_pos h0]; exact hz h0
      · rw [if_neg h0]
        by_cases h2 : 2 * r < o.q
        · rw [if_pos h2, conv (fun U r => o.b2Row f U r) hS]
          exact bwd_row_ok w' hp (row := fun U r => o.b2Row f U r) hq hrow pre hv (by omega) h2 (Or.inr ⟨ndM hS, planM (by omega) h2 hS⟩) hQ
        · rw [if_neg h2]; exact hhalf (by omega)

end le2

/-- Explicit padding. -/
theorem bwdExplicit_ok (w' : o.WF) (hq : o.q = 1) {Q : Unit → Mem → Prop} (pre : o.Pre mem f F W)
    (hQ : ∀ m', o.BwdPost mem m' f F W 0 → Q () m') (W? : Option Ptr) (hW : W?.getD F = W) :
    ((if o.S = 1 then o.backwardExplicit else o.backwardExplicitMany) F f W?).Ok mem Q := by
  subst hW
  have hp := w'.p_of_q1 hq
  have hz := bwd_zero_ok w' (by omega) pre hQ
  rw [if_pos hp] at hz
  by_cases hS : o.S = 1
  · rw [if_pos hS]
    have e : o.backwardExplicit F f W? = (o.crfftm.c2r F (W?.getD F) >>= fun _ => o.b1Copy f (W?.getD F)) := by
      unfold backwardExplicit b1Copy
      simp only [hS, w'.C_one hS, parD_one, Nat.one_mul, Ptr.add_zero]
    rw [e]; exact hz
  · rw [if_neg hS]; exact hz

end Re
end Fftwpp
