import Verif.Proof.CBInnerMany

/-! The centered routines that overwrite their input: geometry of the three blocks, row transforms, interface. -/

namespace Fftwpp
open Finset

/-- An in-place plan computes the transforms of families of cells. -/
theorem Fills.exec {κ : Type} {m0 m : Mem} {R : κ → Prop} {dst : κ → Ptr} {T : κ → ℂ} {done : κ → Prop}
    (hf : Fills m0 m R dst T done) (pl : Plan) (hpl : pl.inplace = true) (X : Ptr) (key : ℕ → ℕ → κ)
    (hadr : ∀ c < pl.howmany, ∀ j < pl.n, pl.addr X c j = dst (key c j))
    (hR : ∀ c < pl.howmany, ∀ j < pl.n, R (key c j))
    (hinj : ∀ c < pl.howmany, ∀ j < pl.n, ∀ c' < pl.howmany, ∀ j' < pl.n, key c j = key c' j' → c = c' ∧ j = j')
    (hnd : ∀ c < pl.howmany, ∀ j < pl.n, ¬ done (key c j))
    (hv : ∀ x, R x → m0.valid (dst x))
    (hT : ∀ c < pl.howmany, ∀ k < pl.n, T (key c k) = ∑ j ∈ range pl.n, m0.val (dst (key c j)) * w pl.n (pl.sign * j * k))
    {Q : Unit → Mem → Prop}
    (hQ : ∀ m', Fills m0 m' R dst T (fun x => done x ∨ ∃ c < pl.howmany, ∃ j < pl.n, x = key c j) → Q () m') :
    (pl.exec X X).Ok m Q := by
  refine (Plan.exec_ok (by simp [hpl]) ⟨?_, ?_, Or.inl rfl⟩).mono ?_
  · intro c hc j hj
    rw [hadr c hc j hj]
    exact ⟨hf.valid (hv _ (hR c hc j hj)), hf.valid (hv _ (hR c hc j hj))⟩
  · intro c hc j hj c' hc' j' hj' e
    rw [hadr c hc j hj, hadr c' hc' j' hj'] at e
    exact hinj c hc j hj c' hc' j' hj' (hf.inj _ _ (hR c hc j hj) (hR c' hc' j' hj') e)
  · rintro _ m' ⟨h1, h2, h3⟩
    refine hQ m' ⟨hf.inj, h1.trans hf.size, ?_, ?_, ?_⟩
    · intro p hp
      rw [h3, hf.frame p hp]
      intro c hc k hk e
      rw [hadr c hc k hk] at e
      exact hp _ (hR c hc k hk) e
    · intro x hx hd
      by_cases hx' : ∃ c < pl.howmany, ∃ j < pl.n, x = key c j
      · obtain ⟨c, hc, k, hk, rfl⟩ := hx'
        have := h2 c hc k hk
        rw [hadr c hc k hk] at this
        rw [this, hT c hc k hk]
        refine sum_congr rfl fun j hj => ?_
        rw [mem_range] at hj
        rw [hadr c hc j hj, hf.keep _ (hR c hc j hj) (hnd c hc j hj)]
      · rw [h3, hf.got x hx (hd.resolve_right hx')]
        intro c hc k hk e
        rw [hadr c hc k hk] at e
        exact hx' ⟨c, hc, k, hk, hf.inj _ _ hx (hR c hc k hk) e⟩
    · intro x hx hd
      rw [h3, hf.keep x hx (fun h => hd (Or.inl h))]
      intro c hc k hk e
      rw [hadr c hc k hk] at e
      exact hd (Or.inr ⟨c, hc, k, hk, hf.inj _ _ hx (hR c hc k hk) e⟩)

namespace Cent
open ComplexConjugate
open Fft (seqLoop_rng)
variable {o : Cent}

/-- A constructed object whose transforms overwrite their input. -/
structure Ow (o : Cent) : Prop where
  wf : o.WF
  ow : o.overwrite = true

theorem Ow.facts (h : o.Ow) : o.q ≠ 1 ∧ o.inplace = true ∧ o.L = 2 * (o.m * o.P) ∧ o.n = 3 ∧ o.D = 1 ∧ o.B ≤ o.A ∧ o.H = o.m * o.P ∧
    o.p = 2 * o.P ∧ o.q = 3 * o.P := by
  obtain ⟨h1, h2, h3, h4, h5, h6⟩ := h.wf.ow h.ow
  have hp : o.p = 2 * o.P := by
    have := h.wf.p_cases
    unfold P; omega
  have hL : o.L = 2 * (o.m * o.P) := by rw [h3, hp]; ring
  refine ⟨h1, h2, hL, h4, h5, h6, ?_, hp, ?_⟩
  · unfold H; rw [hL]; omega
  · rw [h.wf.q_eq, h4, Nat.mul_comm]

/-- The three blocks. -/
def VA (o : Cent) (f F : Ptr) (d : ℕ) : Ptr := if d = 0 then f else if d = 1 then f + o.b else F
/-- Their residues. -/
def sA (d : ℕ) : ℤ := if d = 0 then 0 else if d = 1 then 1 else -1

theorem VA_0 (f F : Ptr) : o.VA f F 0 = f := rfl
theorem VA_1 (f F : Ptr) : o.VA f F 1 = f + o.b := rfl
theorem VA_2 (f F : Ptr) : o.VA f F 2 = F := rfl

/-- Arguments of the overwriting transforms. -/
structure OwPre (o : Cent) (mem : Mem) (f F : Ptr) : Prop where
  fF : f.buf ≠ F.buf
  v : ∀ x, o.RF 3 x → mem.valid (o.dF (o.VA f F) x)

theorem OwPre.size {mem m1 : Mem} {f F : Ptr} (h : o.OwPre mem f F) (hs : m1.size = mem.size) : o.OwPre m1 f F :=
  ⟨h.fF, fun x hx => Mem.valid_of_size hs (h.v x hx)⟩

theorem Ow.disj (h : o.Ow) {f F : Ptr} (hb : f.buf ≠ F.buf) : o.Disj 3 (o.VA f F) := by
  have hc := Disj.consec h.wf f 2
  intro d hd d' hd' i hi i' hi' c hc1 c' hc1' e
  have key : ∀ d < 2, o.VA f F d = f + o.b * d := by
    intro d hd
    obtain rfl | rfl : d = 0 ∨ d = 1 := by omega
    · simp [VA, Ptr.add_zero]
    · simp [VA]
  by_cases h1 : d < 2 <;> by_cases h2 : d' < 2
  · rw [key d h1, key d' h2] at e
    exact hc d h1 d' h2 i hi i' hi' c hc1 c' hc1' e
  · obtain rfl : d' = 2 := by omega
    rw [key d h1, VA_2] at e
    exact absurd (by simpa using congrArg Ptr.buf e) hb
  · obtain rfl : d = 2 := by omega
    rw [key d' h2, VA_2] at e
    exact absurd (by simpa using (congrArg Ptr.buf e).symm) hb
  · omega

theorem Ow.inj (h : o.Ow) {f F : Ptr} (hb : f.buf ≠ F.buf) :
    ∀ k k', o.RF 3 k → o.RF 3 k' → o.dF (o.VA f F) k = o.dF (o.VA f F) k' → k = k' := dF_inj h.wf (h.disj hb)

/-- Values of the row transforms. -/
noncomputable def RowT (o : Cent) (m0 : Mem) (V : ℕ → Ptr) (sgn : ℤ) (x : ℕ × ℕ × ℕ × ℕ) : ℂ :=
  ∑ i ∈ range o.m, m0.val (o.dF V (x.1, x.2.1, i, x.2.2.2)) * w o.m (sgn * i * x.2.2.1)

section rows
variable {f F : Ptr} {m0 m : Mem} {done : ℕ × ℕ × ℕ × ℕ → Prop} {sgn : ℤ} {d : ℕ} {X : Ptr}

/-- The rows of block `d`, single stride. -/
theorem rowS_ok (h : o.Ow) (hS : o.S = 1) (hX : o.VA f F d = X) (hd : d < 3)
    (hf : Fills m0 m (o.RF 3) (o.dF (o.VA f F)) (o.RowT m0 (o.VA f F) sgn) done) (hnd : ∀ k, ¬ done (d, k))
    (pre : o.OwPre m0 f F) {Q : Unit → Mem → Prop}
    (hQ : ∀ m', Fills m0 m' (o.RF 3) (o.dF (o.VA f F)) (o.RowT m0 (o.VA f F) sgn) (fun x => done x ∨ x.1 = d) → Q () m') :
    ((Plan.mk o.m sgn (o.D * o.P) 1 o.m o.inplace).exec X X).Ok m Q := by
  obtain ⟨h1, h2, h3, h4, h5, h6, h7, h8, h9⟩ := h.facts
  have hC := h.wf.C_one hS
  rw [h5, h2, Nat.one_mul]
  refine hf.exec _ rfl X (fun t s => (d, t, s, 0)) ?_ ?_ ?_ (fun _ _ _ _ => hnd _) pre.v ?_ ?_
  · intro t ht s hs
    rw [h.wf.dF1 hS, hX]
    simp only [Plan.addr]
    congr 1; ring
  · intro t ht s hs; exact ⟨hd, ht, hs, by rw [hC]; exact Nat.one_pos⟩
  · intro t _ s _ t' _ s' _ e
    simp only [Prod.mk.injEq] at e
    exact ⟨e.2.1, e.2.2.1⟩
  · intro t ht s hs; rfl
  · intro m' f'
    refine hQ m' (f'.congr ?_)
    rintro ⟨d', t, s, c⟩ hx
    refine or_congr Iff.rfl ⟨?_, ?_⟩
    · rintro ⟨t, _, s, _, e⟩; simp only [Prod.mk.injEq] at e; exact e.1
    · intro e
      have := hx.2.2.2
      simp only at e this
      exact ⟨t, hx.2.1, s, hx.2.2.1, by rw [e, show c = 0 by omega]⟩

/-- Row `t` of block `d`, many copies. -/
theorem rowM_ok (h : o.Ow) {t : ℕ} (ht : t < o.P) (hX : o.VA f F d + o.Sm * t = X) (hd : d < 3)
    (hf : Fills m0 m (o.RF 3) (o.dF (o.VA f F)) (o.RowT m0 (o.VA f F) sgn) done) (hnd : ∀ k, ¬ done (d, t, k))
    (pre : o.OwPre m0 f F) {Q : Unit → Mem → Prop}
    (hQ : ∀ m', Fills m0 m' (o.RF 3) (o.dF (o.VA f F)) (o.RowT m0 (o.VA f F) sgn) (fun x => done x ∨ (x.1 = d ∧ x.2.1 = t)) → Q () m') :
    ((Plan.mk o.m sgn o.C o.S 1 o.inplace).exec X X).Ok m Q := by
  obtain ⟨h1, h2, h3, h4, h5, h6, h7, h8, h9⟩ := h.facts
  rw [h2]
  refine hf.exec _ rfl X (fun c s => (d, t, s, c)) ?_ ?_ ?_ (fun _ _ _ _ => hnd _) pre.v ?_ ?_
  · intro c hc s hs
    unfold dF
    simp only [Plan.addr]
    rw [← hX, Ptr.add_add, h.wf.Sm_eq]
    congr 1; ring
  · intro c hc s hs; exact ⟨hd, ht, hs, hc⟩
  · intro t _ s _ t' _ s' _ e
    simp only [Prod.mk.injEq] at e
    exact ⟨e.2.2.2, e.2.2.1⟩
  · intro t ht s hs; rfl
  · intro m' f'
    refine hQ m' (f'.congr ?_)
    rintro ⟨d', t', s, c⟩ hx
    refine or_congr Iff.rfl ⟨?_, ?_⟩
    · rintro ⟨t, _, s, _, e⟩; simp only [Prod.mk.injEq] at e; exact ⟨e.1, e.2.1⟩
    · rintro ⟨e, e'⟩
      simp only at e e'
      exact ⟨c, hx.2.2.2, s, hx.2.2.1, by rw [e, e']⟩

/-- The row transforms of the three blocks, single stride. -/
theorem rows3S_ok (h : o.Ow) (hS : o.S = 1) {pl : Plan} (hpl : pl = ⟨o.m, sgn, o.D * o.P, 1, o.m, o.inplace⟩) (pre : o.OwPre m f F)
    {Q : Unit → Mem → Prop}
    (hQ : ∀ m', Fills m m' (o.RF 3) (o.dF (o.VA f F)) (o.RowT m (o.VA f F) sgn) (fun _ => True) → Q () m') :
    (do pl.exec f f; pl.exec (f + o.b) (f + o.b); pl.exec F F : Cmd Unit).Ok m Q := by
  subst hpl
  refine Cmd.Ok.bind (rowS_ok h hS (d := 0) rfl (by omega) (Fills.start (h.inj pre.fF)) (fun _ h => h) pre ?_)
  intro m1 f1
  refine Cmd.Ok.bind (rowS_ok h hS (d := 1) rfl (by omega) f1 (by rintro k (h | h); exact h; exact absurd h (by simp)) pre ?_)
  intro m2 f2
  refine rowS_ok h hS (d := 2) rfl (by omega) f2 (by rintro k ((h | h) | h); exact h; exact absurd h (by simp); exact absurd h (by simp)) pre ?_
  intro m3 f3
  refine hQ m3 (f3.congr ?_)
  rintro ⟨d, k⟩ hx
  have := hx.1
  simp only at this
  simp only [iff_true]
  omega

/-- The row transforms of the three blocks, many copies. -/
theorem rows3M_ok (h : o.Ow) {pl : Plan} (hpl : pl = ⟨o.m, sgn, o.C, o.S, 1, o.inplace⟩) (pre : o.OwPre m f F)
    {Q : Unit → Mem → Prop}
    (hQ : ∀ m', Fills m m' (o.RF 3) (o.dF (o.VA f F)) (o.RowT m (o.VA f F) sgn) (fun _ => True) → Q () m') :
    (seqLoop (rng 0 o.P) fun t => do
      pl.exec (f + o.Sm * t) (f + o.Sm * t)
      pl.exec (f + o.b + o.Sm * t) (f + o.b + o.Sm * t)
      pl.exec (F + o.Sm * t) (F + o.Sm * t)).Ok m Q := by
  subst hpl
  refine seqLoop_rng (fun k m' => Fills m m' (o.RF 3) (o.dF (o.VA f F)) (o.RowT m (o.VA f F) sgn) (fun x => x.2.1 < k)) ?_ ?_ ?_
  · exact (Fills.start (h.inj pre.fF)).congr (by intro x _; simp)
  · intro t m0 ht f0
    refine Cmd.Ok.bind (rowM_ok h ht (d := 0) rfl (by omega) f0 (by intro k hk; simp at hk) pre ?_)
    intro m1 f1
    refine Cmd.Ok.bind (rowM_ok h ht (d := 1) rfl (by omega) f1 (by rintro k (hk | hk) <;> simp at hk) pre ?_)
    intro m2 f2
    refine rowM_ok h ht (d := 2) rfl (by omega) f2 (by rintro k ((hk | hk) | hk) <;> simp at hk) pre ?_
    intro m3 f3
    refine f3.congr ?_
    rintro ⟨d, t', s, c⟩ hx
    have := hx.1
    simp only at this ⊢
    omega
  · intro m' f'
    refine hQ m' (f'.congr ?_)
    intro x hx
    simp only [iff_true]; exact hx.2.1

/-- The same with one row. -/
theorem rows3O_ok (h : o.Ow) (hP : o.P = 1) {pl : Plan} (hpl : pl = ⟨o.m, sgn, o.C, o.S, 1, o.inplace⟩) (pre : o.OwPre m f F)
    {Q : Unit → Mem → Prop}
    (hQ : ∀ m', Fills m m' (o.RF 3) (o.dF (o.VA f F)) (o.RowT m (o.VA f F) sgn) (fun _ => True) → Q () m') :
    (do pl.exec f f; pl.exec (f + o.b) (f + o.b); pl.exec F F : Cmd Unit).Ok m Q := by
  subst hpl
  have h0 : (0:ℕ) < o.P := by omega
  have hX : ∀ p : Ptr, p + o.Sm * 0 = p := fun p => by rw [Nat.mul_zero, Ptr.add_zero]
  refine Cmd.Ok.bind (rowM_ok h h0 (d := 0) (hX _) (by omega) (Fills.start (h.inj pre.fF)) (fun _ h => h) pre ?_)
  intro m1 f1
  refine Cmd.Ok.bind (rowM_ok h h0 (d := 1) (hX _) (by omega) f1 (by rintro k (h | h); exact h; exact absurd h.1 (by simp)) pre ?_)
  intro m2 f2
  refine rowM_ok h h0 (d := 2) (hX _) (by omega) f2
    (by rintro k ((h | h) | h); exact h; exact absurd h.1 (by simp); exact absurd h.1 (by simp)) pre ?_
  intro m3 f3
  refine hQ m3 (f3.congr ?_)
  rintro ⟨d, t, k⟩ hx
  have := hx.1
  have := hx.2.1
  simp only at *
  simp only [iff_true]
  omega

end rows

/-! Results. -/

/-- Result of `forward`. -/
def OwFwd (o : Cent) (mem m2 : Mem) (f F : Ptr) : Prop :=
    mem.Upd m2 (fun p => ∃ x, o.RF 3 x ∧ p = o.dF (o.VA f F) x) ∧
    ∀ d < 3, ∀ t < o.P, ∀ s < o.m, ∀ c < o.C, m2.val (o.VA f F d + (o.S * (o.m * t + s) + c)) =
      cdft o.M o.L o.H (fun j => mem.val (f + (o.S * j + c))) (o.q * s + (o.n * t + sA d))
/-- Result of `backward`. -/
def OwBwd (o : Cent) (mem m2 : Mem) (f F : Ptr) : Prop :=
    mem.Upd m2 (fun p => ∃ x, o.RF 3 x ∧ p = o.dF (o.VA f F) x) ∧
    ∀ j < o.L, ∀ c < o.C, m2.val (f + (o.S * j + c)) = ∑ d ∈ range 3, ∑ t ∈ range o.P, ∑ s ∈ range o.m,
      mem.val (o.VA f F d + (o.S * (o.m * t + s) + c)) * w o.M (-(((j : ℤ) - o.H) * (o.q * s + (o.n * t + sA d))))

/-- The transform over the rows gives the result of `forward`. -/
theorem ow_out (h : o.Ow) {mem m1 m2 : Mem} {f F : Ptr}
    (f1 : Fills mem m1 (o.RF 3) (o.dF (o.VA f F)) (o.WT (fun c j => mem.val (f + (o.S * j + c))) sA) (fun _ => True))
    (f2 : Fills m1 m2 (o.RF 3) (o.dF (o.VA f F)) (o.RowT m1 (o.VA f F) 1) (fun _ => True)) : o.OwFwd mem m2 f F := by
  refine ⟨(f1.trans f2 (fun _ _ => trivial)).upd, ?_⟩
  intro d hd t ht s hs c hc
  have h0 := f2.got (d, t, s, c) ⟨hd, ht, hs, hc⟩ trivial
  unfold RowT at h0
  simp only at h0
  obtain ⟨g1, g2, g3⟩ := h.wf.H_facts
  rw [← row_fftc h.wf.M_eq (by have := h.wf.q_pos; omega) g1 g2 g3]
  refine h0.trans (sum_congr rfl fun i hi => ?_)
  rw [f1.got (d, t, i, c) ⟨hd, ht, mem_range.1 hi, hc⟩ trivial]
  rfl

theorem Ow.geo (h : o.Ow) : o.m0 = 0 ∧ o.H = o.m * o.P ∧ o.L = o.H + o.m * o.P := by
  obtain ⟨h1, h2, h3, h4, h5, h6, h7, h8, h9⟩ := h.facts
  unfold m0
  omega

/-- Position in a block of datum `j`. -/
theorem Ow.iI_facts (h : o.Ow) {j : ℕ} (hj : j < o.L) : o.iI j < o.m * o.P ∧ o.iI j / o.m < o.P ∧ o.posI j < o.m ∧
    o.m * (o.iI j / o.m) + o.posI j = o.iI j ∧ ∃ a : ℤ, (j : ℤ) - o.H = o.posI j + o.m * a := by
  obtain ⟨g1, g2, g3⟩ := h.geo
  have hi : o.iI j < o.m * o.P := by unfold iI; split_ifs <;> omega
  have hdm : o.m * (o.iI j / o.m) + o.posI j = o.iI j := Nat.div_add_mod _ _
  refine ⟨hi, Nat.div_lt_of_lt_mul hi, h.wf.posI_lt j, hdm, ?_⟩
  by_cases hH : o.H ≤ j
  · have hii : o.iI j = j - o.H := by unfold iI; rw [if_pos hH]
    have : ((o.m * (o.iI j / o.m) + o.posI j : ℕ) : ℤ) = j - o.H := by rw [hdm, hii]; omega
    rw [Nat.cast_add, Nat.cast_mul] at this
    exact ⟨((o.iI j / o.m : ℕ) : ℤ), by rw [← this]; ring⟩
  · have hii : o.iI j = j + o.m0 := by unfold iI; rw [if_neg hH]
    have e1 : ((o.m * (o.iI j / o.m) + o.posI j : ℕ) : ℤ) = j + o.m0 := by rw [hdm, hii]; omega
    have e2 : ((o.m * o.P : ℕ) : ℤ) = o.H + o.m0 := by rw [← g2, g1]; push_cast; ring
    rw [Nat.cast_add, Nat.cast_mul] at e1
    rw [Nat.cast_mul] at e2
    exact ⟨((o.iI j / o.m : ℕ) : ℤ) - o.P, by rw [mul_sub, e2]; linarith⟩

/-- The result of `backward`. -/
theorem ow_back (h : o.Ow) {mem m1 m2 : Mem} {f F : Ptr}
    (f1 : Fills mem m1 (o.RF 3) (o.dF (o.VA f F)) (o.RowT mem (o.VA f F) (-1)) (fun _ => True))
    (hB : o.BI m1 m2 3 (o.VA f F) sA f (fun _ _ => 0)) : o.OwBwd mem m2 f F := by
  obtain ⟨g1, g2, g3⟩ := h.geo
  have hm := h.wf.m_pos
  refine ⟨f1.upd.trans hB.upd (fun _ h => h) ?_, ?_⟩
  · rintro p (⟨j, hj, c, hc, rfl⟩ | hp)
    · have hj' : j < o.L := hj
      by_cases hH : j < o.H
      · refine ⟨(0, j / o.m, j % o.m, c), ⟨by simp, Nat.div_lt_of_lt_mul (by omega), Nat.mod_lt _ hm, hc⟩, ?_⟩
        unfold dF
        simp only [Nat.div_add_mod, VA_0]
      · refine ⟨(1, (j - o.H) / o.m, (j - o.H) % o.m, c), ⟨by simp, Nat.div_lt_of_lt_mul (by omega), Nat.mod_lt _ hm, hc⟩, ?_⟩
        unfold dF
        simp only [Nat.div_add_mod, VA_1]
        rw [Ptr.add_add, h.wf.b_eq, h.wf.l_eq, ← g2]
        congr 1
        rw [← Nat.add_assoc, ← Nat.mul_add, Nat.add_sub_cancel' (by omega)]
    · exact hp
  · intro j hj c hc
    rw [hB.out j hj c hc, zero_add]
    refine sum_congr rfl fun d hd => ?_
    unfold cI
    refine sum_congr rfl fun t ht => ?_
    obtain ⟨i1, i2, i3, i4, a, ha⟩ := h.iI_facts hj
    have h0 := f1.got (d, t, o.posI j, c) ⟨mem_range.1 hd, mem_range.1 ht, i3, hc⟩ trivial
    have h0' : m1.val (o.VA f F d + (o.S * (o.m * t + o.posI j) + c)) =
        ∑ i ∈ range o.m, mem.val (o.VA f F d + (o.S * (o.m * t + i) + c)) * w o.m (-1 * i * o.posI j) := h0
    rw [h0']
    exact row_backc h.wf.M_eq (by have := h.wf.q_pos; omega) (fun i => mem.val (o.VA f F d + (o.S * (o.m * t + i) + c))) _ _ _ ⟨a, by rw [ha]; ring⟩

end Cent
end Fftwpp
