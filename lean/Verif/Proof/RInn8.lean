import Verif.Proof.RInn7

/-! Backward inner transforms of real data (`p>2`): the residue `0`. -/

namespace Fftwpp
open Finset
local notation "conj" => starRingEnd ℂ

theorem par_first (C : ℕ) (body : ℕ → Body Unit) : par (rng 0 C) body = par (rng2 0 1 0 C) (fun x => body x.2) := by
  have : rng2 0 1 0 C = (rng 0 C).map (fun c => (0, c)) := by
    unfold rng2
    rw [show rng 0 1 = [0] from rfl]
    simp [List.product]
  rw [this, par_mapD _ (fun x y h => by simpa using h)]

theorem Body.trace_ub {α : Type} (b : Body α) : ∀ (m : Mem) (e : Err), b.trace m = .error e → e = .ub := by
  induction b with
  | ret a => intro m e h; simp [Body.trace] at h
  | guard P k ih =>
    intro m e h
    simp only [Body.trace] at h
    split_ifs at h
    · exact ih m e h
    · simpa using h.symm
  | rd p k ih =>
    intro m e h
    simp only [Body.trace] at h
    split_ifs at h
    · split at h
      · simp at h
      · rename_i e' he
        simp only [Except.error.injEq] at h
        subst h
        exact ih _ m _ he
    · simpa using h.symm
  | wr p v k ih =>
    intro m e h
    simp only [Body.trace] at h
    split_ifs at h
    · split at h
      · simp at h
      · rename_i e' he
        simp only [Except.error.injEq] at h
        subst h
        exact ih _ _ he
    · simpa using h.symm

theorem par_run (body : ℕ → Body Unit) : par (rng 0 1) body = (body 0).run := by
  funext m
  unfold par
  have hr : rng 0 1 = [0] := rfl
  rw [hr]
  by_cases h : RaceFree [0] body m
  · rw [if_pos h]
    simp only [seqLoop]
    cases hb : (body 0).run m with
    | ok x => obtain ⟨a, m'⟩ := x; rfl
    | error e => rfl
  · rw [if_neg h]
    unfold Body.run
    cases ht : (body 0).trace m with
    | ok x =>
      obtain ⟨r, w, a⟩ := x
      exact absurd ⟨by simp, fun i hi => by simp at hi; subst hi; exact ⟨r, w, ht⟩, by simp +contextual⟩ h
    | error e => rw [Body.trace_ub _ m e ht]

namespace Re
variable {o : Re} {f F U W : Ptr} {mem : Mem} {r : ℕ} {W? : Option Ptr} {Q : Unit → Mem → Prop}

/-- The loops that separate the real and imaginary parts of the last row. -/
noncomputable def zUnpack (o : Re) (W : Ptr) : Cmd Unit := do
  let p2 := ceilquotient o.p 2
  let h := o.e - 1
  let p2Cm := p2 * o.Cm
  let Wt := W + p2Cm
  let Wth := Wt + o.C * h
  par (rng 0 o.C) fun c => do
    let v ← load (Wt + c)
    let z := 2 * v
    store (Wt + c) (z.re : ℂ)
    store (Wth + c) (z.im : ℂ)
  par (rng2 1 h 0 o.C) fun (s, c) => do
    let zr ← o.Zetaqm.get (o.m * o.n * p2 + s)
    let v ← load (Wt + o.C * s + c)
    let z := 2 * conj zr * v
    store (Wt + o.C * s + c) (z.re : ℂ)
    store (Wth + o.C * s + c) (z.im : ℂ)

/-- The loops that copy the data back. -/
noncomputable def zCopy (o : Re) (f W : Ptr) : Cmd Unit := do
  let fr := dptr f
  let Wr := dptr W
  let pm1 := o.p - 1
  let stop := o.L - o.m * pm1
  let Smpm1 := o.Sm * pm1
  parD (rng3 0 pm1 0 o.m 0 o.C) fun (t, s, c) => copyD (fr + o.Sm * t + o.S * s + c) (Wr + o.Cm * t + o.C * s + c)
  parD (rng2 0 stop 0 o.C) fun (s, c) => copyD (fr + Smpm1 + o.S * s + c) (Wr + o.Cm * pm1 + o.C * s + c)

theorem Sep0.swap (h : o.Sep0 W F) : o.Sep0 F W := by
  rcases h with ⟨h1, h2, h3⟩ | ⟨h1, h2⟩
  · exact Or.inl ⟨h1, h2, h3.symm⟩
  · exact Or.inr ⟨h1, h2.symm⟩

section
variable (w' : o.WF) (hp : 2 < o.p)
include w' hp

theorem zCopy_ok (hfW : f.buf ≠ W.buf) (vf : o.ValidF mem f) (vW : mem.block W o.outputSize)
    (hQ : ∀ m', mem.DUpd m' (o.Dat f) → (∀ j < o.L, ∀ c < o.C, m'.cell (dptr f + (o.S * j + c)) = mem.cell (dptr W + (o.C * j + c))) → Q () m') :
    (o.zCopy f W).Ok mem Q := by
  have hm := w'.m_pos
  have hub := w'.p_ub
  have hlb := w'.p_lb
  have hpm : o.m * (o.p - 1) + o.m = o.m * o.p := by
    obtain ⟨k, hk⟩ : ∃ k, o.p = k + 1 := ⟨o.p - 1, by omega⟩
    rw [hk]; simp [Nat.mul_succ]
  have hWb : ∀ i : ℕ, (dptr W + i).buf ≠ (dptr f).buf := fun i => by simpa [dptr] using hfW.symm
  have ha3 : ∀ t s c, o.Sm * t + o.S * s + c = o.S * (o.m * t + s) + c := fun t s c => by rw [w'.Sm_eq]; ring
  have hc3 : ∀ t s c, o.Cm * t + o.C * s + c = o.C * (o.m * t + s) + c := fun t s c => by rw [w'.Cm_eq]; ring
  have vD : ∀ {m1 : Mem}, m1.size = mem.size → ∀ {j c : ℕ}, j < o.m * o.p → c < o.C → m1.split.valid (dptr W + (o.C * j + c)) := by
    intro m1 hs j c hj hc
    rw [Mem.split_valid, RPlan.wordOf_add]
    exact Mem.valid_of_size hs (vW _ (dC w' hp hj hc))
  unfold zCopy
  refine Cmd.Ok.bind (drows_gen1 Cover.three w'.C_le_S (DRows.start (x := dptr f) (u := fun j c => mem.cell (dptr W + (o.C * j + c)))) (fun _ _ h => h) ?_ ?_)
  · rintro ⟨t, s, c⟩ hi m1 hsz ho _
    rw [mem_rng3] at hi
    obtain ⟨⟨h1, h2⟩, ⟨_, h3⟩, _, hc⟩ := hi
    simp only at h1 h2 h3 hc
    have hj := radix_lt h3 h2
    unfold copyD
    simp only [Ptr.add_add, ha3, hc3]
    refine Does.getD (vD hsz (by omega) hc) (Or.inl (hWb _)) (Does.setD (vf.get hsz (by omega) hc) ?_)
    rw [ho _ (hWb _)]
  intro m1 I1
  refine drows_gen1 (Cover.shift (k := o.m * (o.p - 1))) w'.C_le_S I1 ?_ ?_ ?_
  · intro s h1; simp only [false_or, Nat.mul_zero]; omega
  · rintro ⟨s, c⟩ hi m1 hsz ho _
    rw [mem_rng20] at hi
    obtain ⟨_, h3, _, hc⟩ := hi
    unfold copyD
    simp only [Ptr.add_add, ha3, hc3]
    refine Does.getD (vD hsz (by omega) hc) (Or.inl (hWb _)) (Does.setD (vf.get hsz (by omega) hc) ?_)
    rw [ho _ (hWb _)]
  intro m2 I2
  have I := I2.iff (J' := fun j => j < o.L) (fun j => by simp only [false_or, Nat.mul_zero]; omega)
  exact hQ m2 (DRows.dat I fun _ h => h) fun j hj c hc => I.2 j c hj hc

/-- One of the loops that separate real and imaginary parts. -/
theorem unpack_loop {a b k : ℕ} {z : ℕ → ℂ} {body : ℕ × ℕ → Body Unit} (hb : b ≤ o.h)
    (hd : ∀ s c, a ≤ s → s < b → c < o.C → (body (s, c)).Good mem ∧
      (body (s, c)).wrs mem = [(W + (o.C * (k + s) + c), ((z s * mem.val (W + (o.C * (k + s) + c))).re : ℂ)),
        (W + (o.C * (k + (s + o.h)) + c), ((z s * mem.val (W + (o.C * (k + s) + c))).im : ℂ))] ∧
      ∀ x ∈ (body (s, c)).rds mem, x = W + (o.C * (k + s) + c))
    (hQ : ∀ m', mem.Upd m' (fun p => ∃ s c, a ≤ s ∧ s < b ∧ c < o.C ∧ (p = W + (o.C * (k + s) + c) ∨ p = W + (o.C * (k + (s + o.h)) + c))) →
      (∀ s c, a ≤ s → s < b → c < o.C → m'.val (W + (o.C * (k + s) + c)) = ((z s * mem.val (W + (o.C * (k + s) + c))).re : ℂ) ∧
        m'.val (W + (o.C * (k + (s + o.h)) + c)) = ((z s * mem.val (W + (o.C * (k + s) + c))).im : ℂ)) → Q () m') :
    (par (rng2 a b 0 o.C) body).Ok mem Q := by
  have hd' : ∀ i ∈ rng2 a b 0 o.C, _ := fun i hi => hd i.1 i.2 (mem_rng20.1 hi).1 (mem_rng20.1 hi).2.1 (mem_rng20.1 hi).2.2.2
  have hne : ∀ j c j' c', c < o.C → c' < o.C → W + (o.C * j + c) = W + (o.C * j' + c') → j = j' ∧ c = c' := by
    intro j c j' c' hc hc' e
    rw [Ptr.add_inj] at e
    exact radix_inj hc hc' e
  refine par_map2 (fun i => W + (o.C * (k + i.1) + i.2)) (fun i => ((z i.1 * mem.val (W + (o.C * (k + i.1) + i.2))).re : ℂ))
    (fun i => W + (o.C * (k + (i.1 + o.h)) + i.2)) (fun i => ((z i.1 * mem.val (W + (o.C * (k + i.1) + i.2))).im : ℂ))
    (rng2_nodup ..) (fun i hi => (hd' i hi).1) (fun i hi => (hd' i hi).2.1) ?_ ?_ ?_ ?_ ?_
  · rintro ⟨s, c⟩ hi ⟨s', c'⟩ hi' e
    rw [mem_rng20] at hi hi'
    obtain ⟨e1, e2⟩ := hne _ _ _ _ hi.2.2.2 hi'.2.2.2 e
    simp only at e1
    rw [show s = s' by omega, e2]
  · rintro ⟨s, c⟩ hi ⟨s', c'⟩ hi' e
    rw [mem_rng20] at hi hi'
    obtain ⟨e1, e2⟩ := hne _ _ _ _ hi.2.2.2 hi'.2.2.2 e
    simp only at e1
    rw [show s = s' by omega, e2]
  · rintro ⟨s, c⟩ hi ⟨s', c'⟩ hi' e
    rw [mem_rng20] at hi hi'
    obtain ⟨e1, e2⟩ := hne _ _ _ _ hi.2.2.2 hi'.2.2.2 e
    simp only at e1
    omega
  · rintro ⟨s, c⟩ hi ⟨s', c'⟩ hi' hn
    have g := mem_rng20.1 hi
    have g' := mem_rng20.1 hi'
    constructor
    · intro hr
      obtain ⟨e1, e2⟩ := hne _ _ _ _ g.2.2.2 g'.2.2.2 ((hd' _ hi').2.2 _ hr)
      simp only at e1
      exact hn (by rw [show s = s' by omega, e2])
    · intro hr
      obtain ⟨e1, e2⟩ := hne _ _ _ _ g.2.2.2 g'.2.2.2 ((hd' _ hi').2.2 _ hr)
      simp only at e1
      omega
  · intro m' u e e'
    refine hQ m' (u.mono ?_) ?_
    · rintro p (⟨⟨s, c⟩, hi, rfl⟩ | ⟨⟨s, c⟩, hi, rfl⟩)
      · rw [mem_rng20] at hi
        exact ⟨s, c, hi.1, hi.2.1, hi.2.2.2, Or.inl rfl⟩
      · rw [mem_rng20] at hi
        exact ⟨s, c, hi.1, hi.2.1, hi.2.2.2, Or.inr rfl⟩
    · intro s c h1 h2 h3
      exact ⟨e (s, c) (mem_rng20.2 ⟨h1, h2, Nat.zero_le _, h3⟩), e' (s, c) (mem_rng20.2 ⟨h1, h2, Nat.zero_le _, h3⟩)⟩

theorem zUnpack_ok {p2 : ℕ} (h2p : o.p = 2 * p2) (vW : mem.block W o.outputSize)
    (hQ : ∀ m', mem.Upd m' (fun p => ∃ s c, s < o.m ∧ c < o.C ∧ p = W + (o.C * (o.m * p2 + s) + c)) →
      (∀ s c, s < o.h → c < o.C →
        m'.val (W + (o.C * (o.m * p2 + s) + c)) = ((2 * conj (w o.M (s * ((o.q / 2 : ℕ) : ℤ))) * mem.val (W + (o.C * (o.m * p2 + s) + c))).re : ℂ) ∧
        m'.val (W + (o.C * (o.m * p2 + (s + o.h)) + c)) = ((2 * conj (w o.M (s * ((o.q / 2 : ℕ) : ℤ))) * mem.val (W + (o.C * (o.m * p2 + s) + c))).im : ℂ))
      → Q () m') :
    (o.zUnpack W).Ok mem Q := by
  have hq := w'.q_ne hp
  have hq0 := w'.q_pos
  obtain ⟨hqe, hq2⟩ := w'.q_half hp (by omega)
  have hmh := w'.m_h hq hqe
  have hh := w'.h_pos hq hqe
  have hc2 : ceilquotient o.p 2 = p2 := by rw [ceil2]; omega
  have hq2' : o.q / 2 = o.n * p2 := by rw [hq2]; congr 1; omega
  have hhe : o.e - 1 = o.h := rfl
  have hrows : ∀ {m1 : Mem}, m1.size = mem.size → ∀ s c, s < o.m → c < o.C → m1.valid (W + (o.C * (o.m * p2 + s) + c)) := by
    intro m1 hs s c h1 h2
    refine Mem.valid_of_size hs (vC w' hp vW ?_ h2)
    rw [show o.p / 2 = p2 by omega, Nat.mul_succ]; omega
  have ha3 : ∀ s c, p2 * o.Cm + o.C * s + c = o.C * (o.m * p2 + s) + c := fun s c => by rw [w'.Cm_eq]; ring
  have ha4 : ∀ s c, p2 * o.Cm + o.C * o.h + o.C * s + c = o.C * (o.m * p2 + (s + o.h)) + c := fun s c => by rw [w'.Cm_eq]; ring
  have hb3 : ∀ c, p2 * o.Cm + c = o.C * (o.m * p2 + 0) + c := fun c => by rw [w'.Cm_eq]; ring
  have hb4 : ∀ c, p2 * o.Cm + o.C * o.h + c = o.C * (o.m * p2 + (0 + o.h)) + c := fun c => by rw [w'.Cm_eq]; ring
  have hix : ∀ s, o.m * o.n * p2 + s = o.m * (o.q / 2) + s := fun s => by rw [hq2']; ring
  unfold zUnpack
  simp only [hc2, hhe]
  rw [par_first]
  refine Cmd.Ok.bind (unpack_loop w' hp (W := W) (k := o.m * p2) (z := fun s => 2 * conj (w o.M (s * ((o.q / 2 : ℕ) : ℤ)))) hh ?_ ?_)
  · intro s c _ hs hc
    obtain rfl : s = 0 := by omega
    simp only [Ptr.add_add, hb3 c, hb4 c]
    refine ⟨?_, ?_, ?_⟩
    · exact ⟨hrows rfl _ _ (by omega) hc, hrows rfl _ _ (by omega) hc, hrows rfl _ _ (by omega) hc, trivial⟩
    · simp [load, store, Body.bind_eq, Body.bind, Body.wrs]
    · intro x hx
      simpa [load, store, Body.bind_eq, Body.bind, Body.rds] using hx
  intro m1 u1 e1
  have hne : ∀ j c j' c', c < o.C → c' < o.C → W + (o.C * j + c) = W + (o.C * j' + c') → j = j' ∧ c = c' := by
    intro j c j' c' hc hc' e
    rw [Ptr.add_inj] at e
    exact radix_inj hc hc' e
  refine unpack_loop w' hp (W := W) (k := o.m * p2) (z := fun s => 2 * conj (w o.M (s * ((o.q / 2 : ℕ) : ℤ)))) le_rfl ?_ ?_
  · intro s c hs hs' hc
    simp only [Ptr.add_add, ha3 s c, ha4 s c, hix]
    refine ⟨?_, ?_, ?_⟩
    · exact ⟨w'.zq_bd hq (by omega) (by omega) (by omega), hrows u1.size _ _ (by omega) hc, hrows u1.size _ _ (by omega) hc, hrows u1.size _ _ (by omega) hc, trivial⟩
    · simp only [load, store, Table.get, Body.bind_eq, Body.bind, Body.wrs]
      rw [w'.zq_val hq (by omega)]
    · intro x hx
      simpa [load, store, Table.get, Body.bind_eq, Body.bind, Body.rds] using hx
  intro m2 u2 e2
  refine hQ m2 (u1.trans u2 ?_ ?_) ?_
  · rintro p ⟨s, c, h1, h2, h3, h | h⟩
    · exact ⟨s, c, by omega, h3, h⟩
    · exact ⟨s + o.h, c, by omega, h3, h⟩
  · rintro p ⟨s, c, h1, h2, h3, h | h⟩
    · exact ⟨s, c, by omega, h3, h⟩
    · exact ⟨s + o.h, c, by omega, h3, h⟩
  · intro s c hs hc
    by_cases h0 : s = 0
    · subst h0
      have := e1 0 c le_rfl (by omega) hc
      constructor
      · rw [u2.frame, this.1]
        rintro ⟨s', c', h1, h2, h3, h4 | h4⟩ <;> have := hne _ _ _ _ hc h3 h4 <;> omega
      · rw [u2.frame, this.2]
        rintro ⟨s', c', h1, h2, h3, h4 | h4⟩ <;> have := hne _ _ _ _ hc h3 h4 <;> omega
    · have e3 : m1.val (W + (o.C * (o.m * p2 + s) + c)) = mem.val (W + (o.C * (o.m * p2 + s) + c)) := by
        rw [u1.frame]
        rintro ⟨s', c', h1, h2, h3, h4 | h4⟩ <;> have := hne _ _ _ _ hc h3 h4 <;> omega
      have := e2 s c (by omega) hs hc
      rwa [e3] at this

end
end Re
end Fftwpp
