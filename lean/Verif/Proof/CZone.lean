import Verif.Proof.CIface

/-! Loops over groups of cells: iteration `i` treats all cells of the group `k i`. -/

namespace Fftwpp

/-- Memory as seen by the iteration that treats group `k`. -/
structure Same {τ : Type} (m0 m' : Mem) (R : ℕ × τ → Prop) (dst : ℕ × τ → Ptr) (k : τ) : Prop where
  size : m'.size = m0.size
  frame : ∀ p, (∀ x, R x → p ≠ dst x) → m'.val p = m0.val p
  own : ∀ d, R (d, k) → m'.val (dst (d, k)) = m0.val (dst (d, k))

theorem Same.valid {τ : Type} {m0 m' : Mem} {R : ℕ × τ → Prop} {dst : ℕ × τ → Ptr} {k : τ} (h : Same m0 m' R dst k) {p : Ptr}
    (hp : m0.valid p) : m'.valid p := Mem.valid_of_size h.size hp

/-- The iteration stores the values `T` in the cells of group `k` and reads no cell of another group. -/
structure Wr {τ : Type} (R : ℕ × τ → Prop) (dst : ℕ × τ → Ptr) (T : ℕ × τ → ℂ) (m' : Mem) (k : τ) (b : Body Unit) : Prop where
  good : b.Good m'
  wr : ∃ D : List ℕ, D.Nodup ∧ (∀ d, d ∈ D ↔ R (d, k)) ∧ b.wrs m' = D.map fun d => (dst (d, k), T (d, k))
  rd : ∀ p ∈ b.rds m', (∀ x, R x → p ≠ dst x) ∨ ∃ d, R (d, k) ∧ p = dst (d, k)

namespace Fills
variable {τ ι : Type} {m0 m : Mem} {R : ℕ × τ → Prop} {dst : ℕ × τ → Ptr} {T : ℕ × τ → ℂ} {done : ℕ × τ → Prop}

theorem parz (h : Fills m0 m R dst T done) {l : List ι} {body : ι → Body Unit} (k : ι → τ) (hl : l.Nodup)
    (hk : ∀ i ∈ l, ∀ j ∈ l, k i = k j → i = j) (hnd : ∀ i ∈ l, ∀ d, ¬ done (d, k i))
    (hb : ∀ i ∈ l, ∀ m', Same m0 m' R dst (k i) → Wr R dst T m' (k i) (body i))
    {Q : Unit → Mem → Prop}
    (hQ : ∀ m', Fills m0 m' R dst T (fun x => done x ∨ ∃ i ∈ l, x.2 = k i) → Q () m') :
    (Fftwpp.par l body).Ok m Q := by
  have hw : ∀ i ∈ l, Wr R dst T m (k i) (body i) := fun i hi =>
    hb i hi m ⟨h.size, h.frame, fun d hd => h.keep _ hd (hnd i hi d)⟩
  classical
  let D : ι → List ℕ := fun i => if hi : i ∈ l then (hw i hi).wr.choose else []
  have hD : ∀ i ∈ l, (D i).Nodup ∧ (∀ d, d ∈ D i ↔ R (d, k i)) ∧ (body i).wrs m = (D i).map fun d => (dst (d, k i), T (d, k i)) := by
    intro i hi
    have := (hw i hi).wr.choose_spec
    simp only [D, dif_pos hi]
    exact this
  refine h.par (fun i => (D i).map fun d => (d, k i)) hl ?_ ?_ ?_ (fun i hi => (hw i hi).good) ?_ ?_ ?_
  · intro i hi x hx
    rw [List.mem_map] at hx
    obtain ⟨d, hd, rfl⟩ := hx
    exact ((hD i hi).2.1 d).1 hd
  · intro i hi
    exact (hD i hi).1.map fun a b e => by simpa using e
  · intro i hi j hj hij x hx hx'
    rw [List.mem_map] at hx hx'
    obtain ⟨d, _, rfl⟩ := hx
    obtain ⟨d', _, e⟩ := hx'
    simp only [Prod.mk.injEq] at e
    exact hij (hk i hi j hj e.2.symm)
  · intro i hi
    rw [(hD i hi).2.2, List.map_map]; rfl
  · intro i hi p hp
    rcases (hw i hi).rd p hp with h1 | ⟨d, h1, h2⟩
    · exact Or.inl h1
    · exact Or.inr ⟨(d, k i), List.mem_map.2 ⟨d, ((hD i hi).2.1 d).2 h1, rfl⟩, h2⟩
  · intro m' hm
    refine hQ m' (hm.congr ?_)
    rintro ⟨d, t⟩ hR
    refine or_congr Iff.rfl ⟨?_, ?_⟩
    · rintro ⟨i, hi, hx⟩
      rw [List.mem_map] at hx
      obtain ⟨d', _, e⟩ := hx
      simp only [Prod.mk.injEq] at e
      exact ⟨i, hi, e.2.symm⟩
    · rintro ⟨i, hi, e⟩
      simp only at e
      subst e
      exact ⟨i, hi, List.mem_map.2 ⟨d, ((hD i hi).2.1 d).2 hR, rfl⟩⟩

end Fills

namespace Fills
variable {κ κ' : Type} {m0 m m' : Mem} {R : κ → Prop} {dst : κ → Ptr} {T T' : κ → ℂ} {done : κ → Prop}

/-- Two stages on the same cells. -/
theorem trans {done' : κ → Prop} (h : Fills m0 m R dst T done') (h' : Fills m m' R dst T' done) (hd : ∀ k, R k → done k) :
    Fills m0 m' R dst T' (fun _ => True) :=
  ⟨h.inj, h'.size.trans h.size, fun p hp => (h'.frame p hp).trans (h.frame p hp), fun k hk _ => h'.got k hk (hd k hk),
    fun _ _ h => (h trivial).elim⟩

/-- Change of the values. -/
theorem vals {T'' : κ → ℂ} (h : Fills m0 m R dst T done) (hT : ∀ k, R k → done k → T k = T'' k)
    (hT' : ∀ k, R k → ¬ done k → m0.val (dst k) = T'' k) : Fills m0 m R dst T'' (fun _ => True) :=
  ⟨h.inj, h.size, h.frame, fun k hk _ => by
    by_cases hd : done k
    · rw [h.got k hk hd, hT k hk hd]
    · rw [h.keep k hk hd, hT' k hk hd], fun _ _ h => (h trivial).elim⟩

/-- A family of cells filled as part of a larger family. -/
theorem embed {R' : κ' → Prop} {dst' : κ' → Ptr} {T'' : κ' → ℂ} {done' : κ' → Prop} (h : Fills m0 m R dst T done)
    (h' : Fills m m' R' dst' T'' done') (hall : ∀ k, R' k → done' k) (φ : κ' → κ) (hR : ∀ k, R' k → R (φ k))
    (hdst : ∀ k, R' k → dst' k = dst (φ k)) (hT : ∀ k, R' k → T'' k = T (φ k)) :
    Fills m0 m' R dst T (fun x => done x ∨ ∃ k, R' k ∧ x = φ k) := by
  refine ⟨h.inj, h'.size.trans h.size, ?_, ?_, ?_⟩
  · intro p hp
    rw [h'.frame p fun k hk e => hp (φ k) (hR k hk) (by rw [e, hdst k hk]), h.frame p hp]
  · intro x hx hd
    by_cases hex : ∃ k, R' k ∧ x = φ k
    · obtain ⟨k, hk, rfl⟩ := hex
      rw [← hdst k hk, h'.got k hk (hall k hk), hT k hk]
    · rw [h'.frame _ fun k hk e => hex ⟨k, hk, h.inj _ _ hx (hR k hk) (by rw [e, hdst k hk])⟩, h.got x hx (hd.resolve_right hex)]
  · intro x hx hd
    rw [h'.frame _ fun k hk e => hd (Or.inr ⟨k, hk, h.inj _ _ hx (hR k hk) (by rw [e, hdst k hk])⟩),
      h.keep x hx fun h' => hd (Or.inl h')]

end Fills

namespace Cent
variable {o : Cent}

/-- Cells before the origin block: `m P - H`. -/
def m0 (o : Cent) : ℕ := o.m * o.P - o.H
/-- Cells of the last block at nonnegative positions. -/
def m1 (o : Cent) : ℕ := o.L - o.H - o.m * (o.P - 1)

/-- Sizes for `p>2`. -/
theorem WF.geoI (h : o.WF) (hp : 2 < o.p) : 2 ≤ o.P ∧ o.p = 2 * o.P ∧ o.m * (o.P - 1) + o.m = o.m * o.P ∧
    o.H + o.m0 = o.m * o.P ∧ o.m0 < o.m ∧ 0 < o.m1 ∧ o.m1 ≤ o.m ∧ o.L = o.H + o.m * (o.P - 1) + o.m1 ∧ o.m ≤ o.H ∧ o.H ≤ o.L := by
  have hpe : o.p % 2 = 0 := by have := h.p_cases; omega
  have hP : o.p = 2 * o.P := by unfold P; omega
  have hP2 : 2 ≤ o.P := by omega
  have e1 : o.m * (o.P - 1) + o.m = o.m * o.P := by rw [← Nat.mul_succ]; congr 1; omega
  have u := h.p_ub
  have l := h.p_lb
  have hm := h.m_pos
  rw [hP] at u l
  have e2 : o.m * (2 * o.P) = 2 * (o.m * o.P) := by ring
  have e3 : o.m * (2 * o.P - 1) + o.m = 2 * (o.m * o.P) := by
    rw [← e2, ← Nat.mul_succ]; congr 1; omega
  have e4 : o.m * 2 ≤ o.m * o.P := Nat.mul_le_mul_left _ hP2
  unfold m1 m0 H
  generalize o.m * (o.P - 1) = a at *
  generalize o.m * (2 * o.P - 1) = b at *
  generalize o.m * o.P = c at *
  omega

theorem bind_pure (c : Cmd Unit) : (c >>= fun _ => (pure () : Cmd Unit)) = c := by
  funext m
  rcases hc : c m with e | ⟨_, m'⟩
  · simp only [Bind.bind]; rw [hc]
  · simp only [Bind.bind]; rw [hc]; rfl

section zones
variable {mem : Mem} {R : ℕ × ℕ × ℕ × ℕ → Prop} {dst : ℕ × ℕ × ℕ × ℕ → Ptr} {T : ℕ × ℕ × ℕ × ℕ → ℂ} {Q : Unit → Mem → Prop}

/-- The five loops of the single-stride routines. -/
theorem zonesS (h : o.WF) (hp : 2 < o.p) (hinj : ∀ k k', R k → R k' → dst k = dst k' → k = k')
    (hR : ∀ d t s c, R (d, t, s, c) → t < o.P ∧ s < o.m ∧ c = 0)
    {b1 b2 b4 b5 : ℕ → Body Unit} {b3 : ℕ × ℕ → Body Unit} {rest : Cmd Unit}
    (h1 : ∀ s < o.m0, ∀ m', Same mem m' R dst (0, s, 0) → Wr R dst T m' (0, s, 0) (b1 s))
    (h2 : ∀ s, o.m0 ≤ s → s < o.m → ∀ m', Same mem m' R dst (0, s, 0) → Wr R dst T m' (0, s, 0) (b2 s))
    (h3 : ∀ t s, 0 < t → t < o.P - 1 → s < o.m → ∀ m', Same mem m' R dst (t, s, 0) → Wr R dst T m' (t, s, 0) (b3 (t, s)))
    (h4 : ∀ s < o.m1, ∀ m', Same mem m' R dst (o.P - 1, s, 0) → Wr R dst T m' (o.P - 1, s, 0) (b4 s))
    (h5 : ∀ s, o.m1 ≤ s → s < o.m → ∀ m', Same mem m' R dst (o.P - 1, s, 0) → Wr R dst T m' (o.P - 1, s, 0) (b5 s))
    (hQ : ∀ m', Fills mem m' R dst T (fun _ => True) → rest.Ok m' Q) :
    Cmd.Ok (do par (rng 0 o.m0) b1; par (rng o.m0 o.m) b2; par (rng2 1 (o.P - 1) 0 o.m) b3; par (rng 0 o.m1) b4;
               par (rng o.m1 o.m) b5; rest) mem Q := by
  obtain ⟨g1, g2, g3, g4, g5, g6, g7, g8, g9, g10⟩ := h.geoI hp
  refine Cmd.Ok.bind ((Fills.start (T := T) hinj).parz (fun s => (0, s, 0)) (rng_nodup _ _) ?_ ?_ ?_ ?_)
  · intro i _ j _ e; simpa using e
  · intro i _ d hf; exact hf
  · intro s hs; rw [mem_rng] at hs; exact h1 s hs.2
  intro m1 f1
  refine Cmd.Ok.bind (f1.parz (fun s => (0, s, 0)) (rng_nodup _ _) ?_ ?_ ?_ ?_)
  · intro i _ j _ e; simpa using e
  · intro i hi d hf
    simp only [mem_rng, Prod.mk.injEq, true_and, and_true, false_or] at hf hi
    obtain ⟨j, hj, rfl⟩ := hf; omega
  · intro s hs; rw [mem_rng] at hs; exact h2 s hs.1 hs.2
  intro m2 f2
  refine Cmd.Ok.bind (f2.parz (fun x => (x.1, x.2, 0)) (rng2_nodup _ _ _ _) ?_ ?_ ?_ ?_)
  · intro i _ j _ e; simp only [Prod.mk.injEq, and_true] at e; exact Prod.ext e.1 e.2
  · intro i hi d hf
    simp only [mem_rng, mem_rng2, Prod.mk.injEq, true_and, and_true, false_or] at hf hi
    rcases hf with ⟨j, hj, hf⟩ | ⟨j, hj, hf⟩ <;> omega
  · rintro ⟨t, s⟩ hs; simp only [mem_rng2] at hs; exact h3 t s hs.1.1 hs.1.2 hs.2.2
  intro m3 f3
  refine Cmd.Ok.bind (f3.parz (fun s => (o.P - 1, s, 0)) (rng_nodup _ _) ?_ ?_ ?_ ?_)
  · intro i _ j _ e; simpa using e
  · intro i hi d hf
    simp only [mem_rng, mem_rng2, Prod.mk.injEq, true_and, and_true, false_or] at hf hi
    rcases hf with (⟨j, hj, hf⟩ | ⟨j, hj, hf⟩) | ⟨j, hj, hf⟩ <;> omega
  · intro s hs; rw [mem_rng] at hs; exact h4 s hs.2
  intro m4 f4
  refine Cmd.Ok.bind (f4.parz (fun s => (o.P - 1, s, 0)) (rng_nodup _ _) ?_ ?_ ?_ ?_)
  · intro i _ j _ e; simpa using e
  · intro i hi d hf
    simp only [mem_rng, mem_rng2, Prod.mk.injEq, true_and, and_true, false_or] at hf hi
    rcases hf with ((⟨j, hj, hf⟩ | ⟨j, hj, hf⟩) | ⟨j, hj, hf⟩) | ⟨j, hj, hf⟩ <;> omega
  · intro s hs; rw [mem_rng] at hs; exact h5 s hs.1 hs.2
  intro m5 f5
  refine hQ m5 (f5.congr ?_)
  rintro ⟨d, t, s, c⟩ hx
  obtain ⟨r1, r2, rfl⟩ := hR _ _ _ _ hx
  simp only [mem_rng, mem_rng2, Prod.mk.injEq, and_true, false_or, iff_true]
  obtain a | a | a | a | a : (t = 0 ∧ s < o.m0) ∨ (t = 0 ∧ o.m0 ≤ s) ∨ (0 < t ∧ t < o.P - 1) ∨ (t = o.P - 1 ∧ s < o.m1) ∨
    (t = o.P - 1 ∧ o.m1 ≤ s) := by omega
  · exact Or.inl (Or.inl (Or.inl (Or.inl ⟨s, ⟨by omega, a.2⟩, a.1, rfl⟩)))
  · exact Or.inl (Or.inl (Or.inl (Or.inr ⟨s, ⟨a.2, r2⟩, a.1, rfl⟩)))
  · exact Or.inl (Or.inl (Or.inr ⟨(t, s), ⟨a, by omega⟩, rfl, rfl⟩))
  · exact Or.inl (Or.inr ⟨s, ⟨by omega, a.2⟩, a.1, rfl⟩)
  · exact Or.inr ⟨s, ⟨a.2, r2⟩, a.1, rfl⟩

/-- The five loops of the routines for many copies. -/
theorem zonesM (h : o.WF) (hp : 2 < o.p) (hinj : ∀ k k', R k → R k' → dst k = dst k' → k = k')
    (hR : ∀ d t s c, R (d, t, s, c) → t < o.P ∧ s < o.m ∧ c < o.C)
    {b1 b2 b4 b5 : ℕ × ℕ → Body Unit} {b3 : ℕ × ℕ × ℕ → Body Unit} {rest : Cmd Unit}
    (h1 : ∀ s c, s < o.m0 → c < o.C → ∀ m', Same mem m' R dst (0, s, c) → Wr R dst T m' (0, s, c) (b1 (s, c)))
    (h2 : ∀ s c, o.m0 ≤ s → s < o.m → c < o.C → ∀ m', Same mem m' R dst (0, s, c) → Wr R dst T m' (0, s, c) (b2 (s, c)))
    (h3 : ∀ t s c, 0 < t → t < o.P - 1 → s < o.m → c < o.C → ∀ m', Same mem m' R dst (t, s, c) →
      Wr R dst T m' (t, s, c) (b3 (t, s, c)))
    (h4 : ∀ s c, s < o.m1 → c < o.C → ∀ m', Same mem m' R dst (o.P - 1, s, c) → Wr R dst T m' (o.P - 1, s, c) (b4 (s, c)))
    (h5 : ∀ s c, o.m1 ≤ s → s < o.m → c < o.C → ∀ m', Same mem m' R dst (o.P - 1, s, c) →
      Wr R dst T m' (o.P - 1, s, c) (b5 (s, c)))
    (hQ : ∀ m', Fills mem m' R dst T (fun _ => True) → rest.Ok m' Q) :
    Cmd.Ok (do par (rng2 0 o.m0 0 o.C) b1; par (rng2 o.m0 o.m 0 o.C) b2; par (rng3 1 (o.P - 1) 0 o.m 0 o.C) b3;
               par (rng2 0 o.m1 0 o.C) b4; par (rng2 o.m1 o.m 0 o.C) b5; rest) mem Q := by
  obtain ⟨g1, g2, g3, g4, g5, g6, g7, g8, g9, g10⟩ := h.geoI hp
  refine Cmd.Ok.bind ((Fills.start (T := T) hinj).parz (fun x => (0, x.1, x.2)) (rng2_nodup _ _ _ _) ?_ ?_ ?_ ?_)
  · intro i _ j _ e; simp only [Prod.mk.injEq, true_and] at e; exact Prod.ext e.1 e.2
  · intro i _ d hf; exact hf
  · rintro ⟨s, c⟩ hs; simp only [mem_rng2] at hs; exact h1 s c hs.1.2 hs.2.2
  intro m1 f1
  refine Cmd.Ok.bind (f1.parz (fun x => (0, x.1, x.2)) (rng2_nodup _ _ _ _) ?_ ?_ ?_ ?_)
  · intro i _ j _ e; simp only [Prod.mk.injEq, true_and] at e; exact Prod.ext e.1 e.2
  · intro i hi d hf
    simp only [mem_rng2, Prod.mk.injEq, true_and, and_true, false_or] at hf hi
    obtain ⟨j, hj, hf⟩ := hf; omega
  · rintro ⟨s, c⟩ hs; simp only [mem_rng2] at hs; exact h2 s c hs.1.1 hs.1.2 hs.2.2
  intro m2 f2
  refine Cmd.Ok.bind (f2.parz (fun x => x) (rng3_nodup _ _ _ _ _ _) ?_ ?_ ?_ ?_)
  · intro i _ j _ e; exact e
  · rintro ⟨t, s, c⟩ hi d hf
    simp only [mem_rng3, mem_rng2, Prod.mk.injEq, true_and, and_true, false_or] at hf hi
    rcases hf with ⟨j, hj, hf⟩ | ⟨j, hj, hf⟩ <;> omega
  · rintro ⟨t, s, c⟩ hs; simp only [mem_rng3] at hs; exact h3 t s c (by omega) (by omega) (by omega) (by omega)
  intro m3 f3
  refine Cmd.Ok.bind (f3.parz (fun x => (o.P - 1, x.1, x.2)) (rng2_nodup _ _ _ _) ?_ ?_ ?_ ?_)
  · intro i _ j _ e; simp only [Prod.mk.injEq, true_and] at e; exact Prod.ext e.1 e.2
  · intro i hi d hf
    simp only [mem_rng3, mem_rng2, Prod.mk.injEq, true_and, and_true, false_or] at hf hi
    rcases hf with (⟨j, hj, hf⟩ | ⟨j, hj, hf⟩) | ⟨j, hj, hf⟩
    · omega
    · omega
    · subst hf; simp only at hj; omega
  · rintro ⟨s, c⟩ hs; simp only [mem_rng2] at hs; exact h4 s c hs.1.2 hs.2.2
  intro m4 f4
  refine Cmd.Ok.bind (f4.parz (fun x => (o.P - 1, x.1, x.2)) (rng2_nodup _ _ _ _) ?_ ?_ ?_ ?_)
  · intro i _ j _ e; simp only [Prod.mk.injEq, true_and] at e; exact Prod.ext e.1 e.2
  · intro i hi d hf
    simp only [mem_rng3, mem_rng2, Prod.mk.injEq, true_and, and_true, false_or] at hf hi
    rcases hf with ((⟨j, hj, hf⟩ | ⟨j, hj, hf⟩) | ⟨j, hj, hf⟩) | ⟨j, hj, hf⟩
    · omega
    · omega
    · subst hf; simp only at hj; omega
    · omega
  · rintro ⟨s, c⟩ hs; simp only [mem_rng2] at hs; exact h5 s c hs.1.1 hs.1.2 hs.2.2
  intro m5 f5
  refine hQ m5 (f5.congr ?_)
  rintro ⟨d, t, s, c⟩ hx
  obtain ⟨r1, r2, r3⟩ := hR _ _ _ _ hx
  simp only [mem_rng3, mem_rng2, Prod.mk.injEq, and_true, false_or, iff_true]
  obtain a | a | a | a | a : (t = 0 ∧ s < o.m0) ∨ (t = 0 ∧ o.m0 ≤ s) ∨ (0 < t ∧ t < o.P - 1) ∨ (t = o.P - 1 ∧ s < o.m1) ∨
    (t = o.P - 1 ∧ o.m1 ≤ s) := by omega
  · exact Or.inl (Or.inl (Or.inl (Or.inl ⟨(s, c), ⟨⟨by omega, a.2⟩, by simp only; omega⟩, a.1, rfl, rfl⟩)))
  · exact Or.inl (Or.inl (Or.inl (Or.inr ⟨(s, c), ⟨⟨a.2, r2⟩, by simp only; omega⟩, a.1, rfl, rfl⟩)))
  · exact Or.inl (Or.inl (Or.inr ⟨(t, s, c), ⟨a, ⟨by simp only; omega, by simp only; omega⟩, by simp only; omega⟩, rfl⟩))
  · exact Or.inl (Or.inr ⟨(s, c), ⟨⟨by omega, a.2⟩, by simp only; omega⟩, a.1, rfl, rfl⟩)
  · exact Or.inr ⟨(s, c), ⟨⟨a.2, r2⟩, by simp only; omega⟩, a.1, rfl, rfl⟩

end zones
end Cent
end Fftwpp
