import Verif.Proof.RIdx

/-! Tools for the inner transforms of real data (`p>2`): loops over several rows, transforms over the blocks and of the rows. -/

namespace Fftwpp
open Finset

/-! ### Loops over sets of rows -/

/-- The list `l` of loop indices covers once each pair of a row in `K` and a copy. -/
structure Cover {ι : Type} (l : List ι) (row col : ι → ℕ) (K : ℕ → Prop) (C : ℕ) : Prop where
  nd : l.Nodup
  inj : ∀ i ∈ l, ∀ i' ∈ l, row i = row i' → col i = col i' → i = i'
  mem : ∀ i ∈ l, K (row i) ∧ col i < C
  cov : ∀ j c, K j → c < C → ∃ i ∈ l, row i = j ∧ col i = c

theorem Cover.three {a b m C : ℕ} : Cover (rng3 a b 0 m 0 C) (fun i => m * i.1 + i.2.1) (fun i => i.2.2) (fun j => m * a ≤ j ∧ j < m * b) C := by
  refine ⟨rng3_nodup .., ?_, ?_, ?_⟩
  · rintro ⟨t, s, c⟩ h ⟨t', s', c'⟩ h' e1 e2
    rw [mem_rng3] at h h'
    simp only at h h' e1 e2
    obtain ⟨h1, h2⟩ := radix_inj h.2.1.2 h'.2.1.2 e1
    rw [h1, h2, e2]
  · rintro ⟨t, s, c⟩ h
    rw [mem_rng3] at h
    simp only at h ⊢
    refine ⟨⟨?_, radix_lt h.2.1.2 h.1.2⟩, h.2.2.2⟩
    exact le_trans (Nat.mul_le_mul_left _ h.1.1) (Nat.le_add_right _ _)
  · intro j c hj hc
    have hm : 0 < m := by
      rcases Nat.eq_zero_or_pos m with h | h
      · subst h; simp at hj
      · exact h
    refine ⟨(j / m, j % m, c), mem_rng3.2 ⟨⟨?_, ?_⟩, ⟨Nat.zero_le _, Nat.mod_lt _ hm⟩, Nat.zero_le _, hc⟩, Nat.div_add_mod j m, rfl⟩
    · exact (Nat.le_div_iff_mul_le hm).2 (by rw [Nat.mul_comm]; exact hj.1)
    · exact Nat.div_lt_of_lt_mul hj.2

theorem Cover.shift {a b k C : ℕ} : Cover (rng2 a b 0 C) (fun i => k + i.1) (fun i => i.2) (fun j => k + a ≤ j ∧ j < k + b) C := by
  refine ⟨rng2_nodup .., ?_, ?_, ?_⟩
  · rintro ⟨s, c⟩ h ⟨s', c'⟩ h' e1 e2
    simp only at e1 e2
    rw [Nat.add_left_cancel e1, e2]
  · rintro ⟨s, c⟩ h
    rw [mem_rng20] at h
    exact ⟨by simp only; omega, h.2.2.2⟩
  · intro j c hj hc
    exact ⟨(j - k, c), mem_rng20.2 ⟨by omega, by omega, Nat.zero_le _, hc⟩, by simp only; omega, rfl⟩

section
variable {ι : Type} {l : List ι} {row col : ι → ℕ} {K : ℕ → Prop}
variable {C S : ℕ} {U x : Ptr} {J J' : ℕ → Prop} {v : ℕ → ℕ → ℂ} {u : ℕ → ℕ → ℝ} {mem0 m : Mem} {Q : Unit → Mem → Prop}

theorem wrows_gen {body : ι → Body Unit} (hcov : Cover l row col K C) (hCS : C ≤ S) (I : WRows C S U J v mem0 m)
    (hb : ∀ i ∈ l, ∀ m1 : Mem, m1.size = mem0.size → (∀ p : Ptr, p.buf ≠ U.buf → m1.val p = mem0.val p) →
      (body i).Does m1 [(dptr (U + (S * row i + col i)), (v (row i) (col i)).re), (dptr (U + (S * row i + col i)) + 1, (v (row i) (col i)).im)]
        (fun y => y.buf ≠ U.buf))
    (hQ : ∀ m', WRows C S U (fun j => J j ∨ K j) v mem0 m' → Q () m') : (parD l body).Ok m Q := by
  have hd : ∀ i ∈ l, (body i).Does m [(dptr (U + (S * row i + col i)), (v (row i) (col i)).re),
      (dptr (U + (S * row i + col i)) + 1, (v (row i) (col i)).im)] (fun y => y.buf ≠ U.buf) :=
    fun i hi => hb i hi m I.1.size fun p hp => I.other hp
  have hne : ∀ j c j' c', c < C → c' < C → U + (S * j + c) = U + (S * j' + c') → j = j' ∧ c = c' := by
    intro j c j' c' hc hc' e
    rw [Ptr.add_inj] at e
    exact radix_inj (lt_of_lt_of_le hc hCS) (lt_of_lt_of_le hc' hCS) e
  refine parD_words (fun i => U + (S * row i + col i)) (fun i => v (row i) (col i)) hcov.nd (fun i hi => (hd i hi).good)
    (fun i hi => (hd i hi).wrs) ?_ ?_ ?_
  · intro i hi i' hi' e
    obtain ⟨e1, e2⟩ := hne _ _ _ _ (hcov.mem i hi).2 (hcov.mem i' hi').2 e
    exact hcov.inj i hi i' hi' e1 e2
  · intro i hi j hj _ y hy e
    exact (hd j hj).rds y hy (by have := congrArg Ptr.buf e; simpa [wordOf] using this)
  · intro m' u' e'
    refine hQ m' ⟨?_, ?_⟩
    · refine I.1.trans u' (fun p ⟨j, c, h1, h2, h3⟩ => ⟨j, c, Or.inl h1, h2, h3⟩) ?_
      rintro p ⟨i, hi, rfl⟩
      exact ⟨_, _, Or.inr (hcov.mem i hi).1, (hcov.mem i hi).2, rfl⟩
    · intro j c hj hc
      by_cases hj' : K j
      · obtain ⟨i, hi, rfl, rfl⟩ := hcov.cov j c hj' hc
        exact e' i hi
      · rw [u'.frame, I.2 j c (hj.resolve_right hj') hc]
        rintro ⟨i, hi, e⟩
        obtain ⟨rfl, _⟩ := hne _ _ _ _ hc (hcov.mem i hi).2 e
        exact hj' (hcov.mem i hi).1

theorem drows_gen {body : ι → Body Unit} (hcov : Cover l row col K C) (hCS : C ≤ S) (I : DRows C S x J u mem0 m) (js : ℕ → List ℕ)
    (hdis : ∀ s s', K s → K s' → ∀ j, j ∈ js s → j ∈ js s' → s = s') (hnd : ∀ s, K s → (js s).Nodup)
    (hJ : ∀ s, K s → ∀ j ∈ js s, ¬ J j)
    (hb : ∀ i ∈ l, ∀ m1 : Mem, m1.size = mem0.size → (∀ y : Ptr, y.buf ≠ x.buf → m1.cell y = mem0.cell y) →
      (∀ j ∈ js (row i), m1.cell (x + (S * j + col i)) = mem0.cell (x + (S * j + col i))) →
      (body i).Does m1 ((js (row i)).map fun j => (x + (S * j + col i), u j (col i)))
        (fun y => y.buf ≠ x.buf ∨ ∃ j ∈ js (row i), y = x + (S * j + col i)))
    (hQ : ∀ m', DRows C S x (fun j => J j ∨ ∃ s, K s ∧ j ∈ js s) u mem0 m' → Q () m') : (parD l body).Ok m Q := by
  have hne : ∀ j c j' c', c < C → c' < C → x + (S * j + c) = x + (S * j' + c') → j = j' ∧ c = c' := by
    intro j c j' c' hc hc' e
    rw [Ptr.add_inj] at e
    exact radix_inj (lt_of_lt_of_le hc hCS) (lt_of_lt_of_le hc' hCS) e
  have hd : ∀ i ∈ l, (body i).Does m ((js (row i)).map fun j => (x + (S * j + col i), u j (col i)))
      (fun y => y.buf ≠ x.buf ∨ ∃ j ∈ js (row i), y = x + (S * j + col i)) := by
    intro i hi
    have h0 := hcov.mem i hi
    refine hb i hi m I.1.size (fun y hy => I.other hy) fun j hj => I.1.frame _ ?_
    rintro ⟨j', c', h1, h2, h3⟩
    obtain ⟨rfl, _⟩ := hne _ _ _ _ h0.2 h2 h3
    exact hJ _ h0.1 _ hj h1
  refine parD_list (fun i => (js (row i)).map fun j => (x + (S * j + col i), u j (col i))) hcov.nd (fun i hi => (hd i hi).good)
    (fun i hi => (hd i hi).wrs) ?_ ?_ ?_
  · intro i hi
    rw [List.map_map]
    refine (hnd _ (hcov.mem i hi).1).map ?_
    intro j j' e
    exact (hne _ _ _ _ (hcov.mem i hi).2 (hcov.mem i hi).2 e).1
  · intro i hi i' hi' hne' y hy
    obtain ⟨j, hj, rfl⟩ := List.mem_map.1 hy
    have g := hcov.mem i hi
    have g' := hcov.mem i' hi'
    simp only
    have key : ∀ j' ∈ js (row i'), x + (S * j + col i) ≠ x + (S * j' + col i') := by
      intro j' hj' e
      obtain ⟨rfl, e2⟩ := hne _ _ _ _ g.2 g'.2 e
      exact hne' (hcov.inj i hi i' hi' (hdis _ _ g.1 g'.1 _ hj hj') e2)
    refine ⟨fun h => ?_, fun h => ?_⟩
    · rcases (hd _ hi').rds _ h with h | ⟨j', hj', e⟩
      · exact h (by simp)
      · exact key j' hj' e
    · rw [List.map_map] at h
      obtain ⟨j', hj', e⟩ := List.mem_map.1 h
      exact key j' hj' e.symm
  · intro m' u' e'
    refine hQ m' ⟨?_, ?_⟩
    · refine I.1.trans u' (fun p ⟨j, c, h1, h2, h3⟩ => ⟨j, c, Or.inl h1, h2, h3⟩) ?_
      rintro y ⟨i, hi, z, hz, rfl⟩
      obtain ⟨j, hj, rfl⟩ := List.mem_map.1 hz
      exact ⟨j, _, Or.inr ⟨_, (hcov.mem i hi).1, hj⟩, (hcov.mem i hi).2, rfl⟩
    · intro j c hj hc
      by_cases hj' : ∃ s, K s ∧ j ∈ js s
      · obtain ⟨s, h1, h3⟩ := hj'
        obtain ⟨i, hi, rfl, rfl⟩ := hcov.cov s c h1 hc
        exact e' i hi _ (List.mem_map.2 ⟨j, h3, rfl⟩)
      · rw [u'.frame, I.2 j c (hj.resolve_right hj') hc]
        rintro ⟨i, hi, z, hz, e⟩
        obtain ⟨j', h3, rfl⟩ := List.mem_map.1 hz
        obtain ⟨rfl, _⟩ := hne _ _ _ _ hc (hcov.mem i hi).2 e
        exact hj' ⟨_, (hcov.mem i hi).1, h3⟩

theorem drows_gen1 {body : ι → Body Unit} (hcov : Cover l row col K C) (hCS : C ≤ S) (I : DRows C S x J u mem0 m)
    (hJ : ∀ s, K s → ¬ J s)
    (hb : ∀ i ∈ l, ∀ m1 : Mem, m1.size = mem0.size → (∀ y : Ptr, y.buf ≠ x.buf → m1.cell y = mem0.cell y) →
      m1.cell (x + (S * row i + col i)) = mem0.cell (x + (S * row i + col i)) →
      (body i).Does m1 [(x + (S * row i + col i), u (row i) (col i))] (fun y => y.buf ≠ x.buf ∨ y = x + (S * row i + col i)))
    (hQ : ∀ m', DRows C S x (fun j => J j ∨ K j) u mem0 m' → Q () m') : (parD l body).Ok m Q := by
  refine drows_gen hcov hCS I (fun s => [s]) ?_ (fun s _ => by simp) ?_ ?_ ?_
  · intro s s' _ _ j h1 h2
    simp only [List.mem_singleton] at h1 h2
    omega
  · intro s h1 j hj
    simp only [List.mem_singleton] at hj
    subst hj; exact hJ _ h1
  · intro i hi m1 hs ho hj
    have := hb i hi m1 hs ho (hj _ (by simp))
    exact ⟨this.good, this.wrs, fun y hy => (this.rds y hy).imp id fun e => ⟨row i, by simp, e⟩⟩
  · intro m' h
    refine hQ m' (h.iff fun j => ?_)
    constructor
    · rintro (h | ⟨s, h1, h3⟩)
      · exact Or.inl h
      · simp only [List.mem_singleton] at h3; subst h3; exact Or.inr h1
    · rintro (h | h)
      · exact Or.inl h
      · exact Or.inr ⟨j, h, by simp⟩
end

/-! ### Loops with one copy -/

theorem rng3_one (a b c d : ℕ) : rng3 a b c d 0 1 = (rng2 a b c d).map (fun i => (i.1, i.2, 0)) := by
  unfold rng3 rng2
  rw [show rng 0 1 = [0] from rfl]
  have h2 : ∀ l : List ℕ, l.product [0] = l.map (fun s => (s, 0)) := by
    intro l; induction l with
    | nil => rfl
    | cons x l ih => simp [List.product] at ih ⊢; exact ih
  rw [h2]
  induction rng a b with
  | nil => rfl
  | cons x l ih =>
    show (List.map (fun b => (x, b)) _ ++ List.product l _) = List.map _ (List.map (fun b => (x, b)) _ ++ List.product l _)
    rw [ih, List.map_append, List.map_map, List.map_map]
    rfl

theorem par_one3 (a b c d : ℕ) (body : ℕ × ℕ × ℕ → Body Unit) : par (rng3 a b c d 0 1) body = par (rng2 a b c d) (fun i => body (i.1, i.2, 0)) := by
  rw [rng3_one, par_mapD]
  rintro ⟨x, y⟩ ⟨x', y'⟩ h
  simp only [Prod.mk.injEq, and_true] at h
  rw [h.1, h.2]

theorem parD_one3 (a b c d : ℕ) (body : ℕ × ℕ × ℕ → Body Unit) : parD (rng3 a b c d 0 1) body = parD (rng2 a b c d) (fun i => body (i.1, i.2, 0)) := by
  unfold parD; rw [par_one3]

theorem par_one2 (a b : ℕ) (body : ℕ × ℕ → Body Unit) : par (rng2 a b 0 1) body = par (rng a b) (fun s => body (s, 0)) := by
  have : rng2 a b 0 1 = (rng a b).map (fun s => (s, 0)) := by
    unfold rng2
    rw [show rng 0 1 = [0] from rfl]
    induction rng a b with
    | nil => rfl
    | cons x l ih => simp [List.product] at ih ⊢; exact ih
  rw [this, par_mapD _ (fun x y h => by simpa using h)]

/-! ### Twiddle factors -/

/-- The body multiplies the word at `p` by `z`. -/
structure Body.Scales (b : Body Unit) (m : Mem) (p : Ptr) (z : ℂ) : Prop where
  good : b.Good m
  wrs : b.wrs m = [(p, m.val p * z)]
  rds : ∀ x ∈ b.rds m, x = p

section
variable {C S m a K : ℕ} {U : Ptr} {mem : Mem} {Q : Unit → Mem → Prop} {Z : ℕ → ℕ → ℂ} {body : ℕ × ℕ × ℕ → Body Unit}

/-- The words of the rows `j<N`. -/
def Rws (C S : ℕ) (U : Ptr) (N : ℕ) (p : Ptr) : Prop := ∃ j < N, ∃ c < C, p = U + (S * j + c)

theorem Rws.mono {N N' : ℕ} (h : N ≤ N') {p : Ptr} (hp : Rws C S U N p) : Rws C S U N' p := by
  obtain ⟨j, hj, h⟩ := hp; exact ⟨j, by omega, h⟩

/-- Multiplication of row `t≥a`, element `s`, by `Z t s`. -/
theorem twid_ok (hCS : C ≤ S)
    (hb : ∀ t s c, a ≤ t → t < K → 1 ≤ s → s < m → c < C → (body (t, s, c)).Scales mem (U + (S * (m * t + s) + c)) (Z t s))
    (hZ : ∀ t, Z t 0 = 1) (hZa : ∀ t < a, ∀ s, Z t s = 1)
    (hQ : ∀ m', mem.Upd m' (Rws C S U (m * K)) → (∀ t < K, ∀ s < m, ∀ c < C, m'.val (U + (S * (m * t + s) + c)) =
      mem.val (U + (S * (m * t + s) + c)) * Z t s) → 
      (∀ j, m * K ≤ j → ∀ c < C, m'.val (U + (S * j + c)) = mem.val (U + (S * j + c))) → Q () m') : (par (rng3 a K 1 m 0 C) body).Ok mem Q := by
  have hne : ∀ j c j' c', c < C → c' < C → U + (S * j + c) = U + (S * j' + c') → j = j' ∧ c = c' := by
    intro j c j' c' hc hc' e
    rw [Ptr.add_inj] at e
    exact radix_inj (lt_of_lt_of_le hc hCS) (lt_of_lt_of_le hc' hCS) e
  have hd : ∀ i ∈ rng3 a K 1 m 0 C, (body i).Scales mem (U + (S * (m * i.1 + i.2.1) + i.2.2)) (Z i.1 i.2.1) := by
    rintro ⟨t, s, c⟩ hi
    rw [mem_rng3] at hi
    exact hb t s c hi.1.1 hi.1.2 hi.2.1.1 hi.2.1.2 hi.2.2.2
  have hij : ∀ i ∈ rng3 a K 1 m 0 C, ∀ t s c, s < m → c < C → U + (S * (m * i.1 + i.2.1) + i.2.2) = U + (S * (m * t + s) + c) → i = (t, s, c) := by
    rintro ⟨t, s, c⟩ hi t' s' c' hs' hc' e
    rw [mem_rng3] at hi
    simp only at hi e
    obtain ⟨e1, e2⟩ := hne _ _ _ _ hi.2.2.2 hc' e
    obtain ⟨e3, e4⟩ := radix_inj hi.2.1.2 hs' e1
    rw [e2, e3, e4]
  refine par_map1 (fun i => U + (S * (m * i.1 + i.2.1) + i.2.2)) (fun i => mem.val (U + (S * (m * i.1 + i.2.1) + i.2.2)) * Z i.1 i.2.1)
    (rng3_nodup ..) (fun i hi => (hd i hi).good) (fun i hi => (hd i hi).wrs) ?_ ?_ ?_
  · rintro i hi ⟨t, s, c⟩ hj e
    have := mem_rng3.1 hj
    exact hij i hi t s c this.2.1.2 this.2.2.2 e
  · rintro i hi ⟨t, s, c⟩ hj hn e
    have := mem_rng3.1 hj
    exact hn (hij i hi t s c this.2.1.2 this.2.2.2 ((hd _ hj).rds _ e))
  · intro m' u e
    refine hQ m' (u.mono ?_) ?_ ?_
    · rintro p ⟨⟨t, s, c⟩, hi, rfl⟩
      rw [mem_rng3] at hi
      exact ⟨_, radix_lt hi.2.1.2 hi.1.2, _, hi.2.2.2, rfl⟩
    · intro t ht s hs c hc
      by_cases hx : a ≤ t ∧ 1 ≤ s
      · exact e (t, s, c) (mem_rng3.2 ⟨⟨hx.1, ht⟩, ⟨hx.2, hs⟩, Nat.zero_le _, hc⟩)
      · have hz : Z t s = 1 := by
          by_cases hta : a ≤ t
          · obtain rfl : s = 0 := by omega
            exact hZ t
          · exact hZa t (by omega) s
        rw [hz, mul_one, u.frame]
        rintro ⟨i, hi, e⟩
        have := hij i hi t s c hs hc e.symm
        subst this
        rw [mem_rng3] at hi
        exact hx ⟨hi.1.1, hi.2.1.1⟩
    · intro j hj c hc
      rw [u.frame]
      rintro ⟨⟨t, s, c'⟩, hi, e⟩
      rw [mem_rng3] at hi
      simp only at hi e
      obtain ⟨e1, _⟩ := hne _ _ _ _ hc hi.2.2.2 e
      have := radix_lt hi.2.1.2 hi.1.2
      omega
end

/-! ### Transforms over the blocks -/

section
variable {C S m K : ℕ} {U W F : Ptr} {mem : Mem} {Q : Unit → Mem → Prop} {sgn : ℤ}

theorem Rws.mk {t s c : ℕ} (ht : t < K) (hs : s < m) (hc : c < C) : Rws C S U (m * K) (U + (S * (m * t + s) + c)) :=
  ⟨m * t + s, radix_lt hs ht, c, hc, rfl⟩

theorem fftpK_ok {o : Re} (w' : o.WF) {pl : Plan} (hpl : pl = ⟨K, sgn, if o.S = o.C then o.C * o.m else o.C, o.S * o.m, 1, true⟩)
    (hF : o.ValidW mem F (o.m * K))
    (hQ : ∀ m', mem.Upd m' (Rws o.C o.S F (o.m * K)) → (∀ t < K, ∀ s < o.m, ∀ c < o.C, m'.val (F + (o.S * (o.m * t + s) + c)) =
      ∑ u ∈ range K, mem.val (F + (o.S * (o.m * u + s) + c)) * w K (sgn * u * t)) → Q () m') :
    (o.fftpMany pl F).Ok mem Q := by
  have hCS := w'.C_le_S
  have hm := w'.m_pos
  subst hpl
  unfold Re.fftpMany
  by_cases hSC : o.S = o.C
  · simp only [if_pos hSC]
    have hadr : ∀ t c, o.S * o.m * t + c = o.S * (o.m * t + c / o.C) + c % o.C := fun t c => by
      rw [hSC]
      have := Nat.div_add_mod c o.C
      calc o.C * o.m * t + c = o.C * o.m * t + (o.C * (c / o.C) + c % o.C) := by rw [this]
        _ = _ := by ring
    have hdiv : ∀ c < o.C * o.m, c / o.C < o.m := fun c hc => Nat.div_lt_of_lt_mul hc
    have hmod : ∀ c, c % o.C < o.C := fun c => Nat.mod_lt _ w'.C_pos
    refine exec_cols (Nat.mul_le_mul_right _ hCS) (Or.inl ⟨rfl, rfl⟩) (fun t ht c hc => ?_) (fun t ht c hc => ?_) ?_
    · rw [hadr]; exact hF _ (radix_lt (hdiv c hc) ht) _ (hmod c)
    · rw [hadr]; exact hF _ (radix_lt (hdiv c hc) ht) _ (hmod c)
    intro m' u e
    refine hQ m' (u.mono ?_) ?_
    · rintro p ⟨t, ht, c, hc, rfl⟩
      rw [hadr]; exact Rws.mk ht (hdiv c hc) (hmod c)
    · intro t ht s hs c hc
      have := e t ht (o.C * s + c) (radix_lt hc hs)
      have hadr2 : ∀ t, o.S * o.m * t + (o.C * s + c) = o.S * (o.m * t + s) + c := fun t => by rw [hSC]; ring
      simp only [hadr2] at this
      exact this
  · simp only [if_neg hSC]
    have hadr : ∀ s t c, o.S * s + (o.S * o.m * t + c) = o.S * (o.m * t + s) + c := fun s t c => by ring
    refine Fft.seqLoop_rng (fun k m' => mem.Upd m' (fun p => ∃ t s c, t < K ∧ s < k ∧ c < o.C ∧ p = F + (o.S * (o.m * t + s) + c)) ∧
      ∀ t < K, ∀ s < k, ∀ c < o.C, m'.val (F + (o.S * (o.m * t + s) + c)) =
        ∑ u ∈ range K, mem.val (F + (o.S * (o.m * u + s) + c)) * w K (sgn * u * t))
      ⟨Mem.Upd.refl _ _, fun _ _ s hs => by omega⟩ ?_ ?_
    · rintro k m2 hk ⟨u2, e2⟩
      have hv : ∀ i < K, ∀ c < o.C, m2.valid (F + o.S * k + (o.S * o.m * i + c)) := fun i hi c hc => by
        rw [Ptr.add_add, hadr]; exact Mem.valid_of_size u2.size (hF _ (radix_lt hk hi) c hc)
      refine exec_cols (le_trans hCS (Nat.le_mul_of_pos_right _ hm)) (Or.inl ⟨rfl, rfl⟩) hv hv ?_
      intro m3 u3 e3
      simp only [Ptr.add_add, hadr] at u3 e3
      have hni : ∀ t s c, s < k → c < o.C → ¬ ∃ i < K, ∃ c' < o.C, F + (o.S * (o.m * t + s) + c) = F + (o.S * (o.m * i + k) + c') := by
        rintro t s c hs hc ⟨i, _, c', hc', h3⟩
        rw [Ptr.add_inj] at h3
        have h1 := radix_inj (by omega) (by omega) h3
        have h2 := radix_inj (by omega) (by omega) h1.1
        omega
      refine ⟨u2.trans u3 ?_ ?_, ?_⟩
      · rintro p ⟨t, s, c, h1, h2, h3, rfl⟩; exact ⟨t, s, c, h1, by omega, h3, rfl⟩
      · rintro p ⟨t, h1, c, h3, rfl⟩; exact ⟨t, k, c, h1, by omega, h3, rfl⟩
      · intro t ht s hs c hc
        rcases Nat.lt_or_ge s k with h1 | h1
        · rw [u3.frame _ (hni t s c h1 hc), e2 t ht s h1 c hc]
        · obtain rfl : s = k := by omega
          rw [e3 t ht c hc]
          refine sum_congr rfl fun u _ => ?_
          rw [u2.frame]
          rintro ⟨t', s', c', _, h2, h4, h3⟩
          rw [Ptr.add_inj] at h3
          have h1 := radix_inj (by omega) (by omega) h3
          have h2 := radix_inj (by omega) (by omega) h1.1
          omega
    · rintro m2 ⟨u2, e2⟩
      refine hQ m2 (u2.mono ?_) e2
      rintro p ⟨t, s, c, h1, h2, h3, rfl⟩
      exact Rws.mk h1 h2 h3

/-! ### Transforms of the rows -/

/-- A loop of transforms of rows, from the rows of stride `A` at `W` to the rows of stride `B` at `F`. -/
theorem rowLoop_ok {A B : ℕ} {ex : ℕ → Cmd Unit} (hA : C ≤ A) (hB : C ≤ B) (hsep : (W = F ∧ A = B) ∨ W.buf ≠ F.buf)
    (hex : ∀ t < K, ∀ m1 : Mem, m1.size = mem.size → (ex t).Ok m1 (fun _ m' => m1.Upd m' (fun p => ∃ s < m, ∃ c < C, p = F + (B * (m * t + s) + c)) ∧
      ∀ i < m, ∀ c < C, m'.val (F + (B * (m * t + i) + c)) = ∑ s ∈ range m, m1.val (W + (A * (m * t + s) + c)) * w m (sgn * s * i)))
    (hQ : ∀ m', mem.Upd m' (Rws C B F (m * K)) → (∀ t < K, ∀ i < m, ∀ c < C, m'.val (F + (B * (m * t + i) + c)) =
      ∑ s ∈ range m, mem.val (W + (A * (m * t + s) + c)) * w m (sgn * s * i)) → Q () m') :
    (seqLoop (rng 0 K) ex).Ok mem Q := by
  have hni : ∀ k t s c, s < m → c < C → t ≠ k → ¬ ∃ i < m, ∃ c' < C, F + (B * (m * t + s) + c) = F + (B * (m * k + i) + c') := by
    rintro k t s c hs hc hk ⟨i, hi, c', hc', h3⟩
    rw [Ptr.add_inj] at h3
    have h1 := radix_inj (by omega) (by omega) h3
    have h2 := radix_inj (by omega) (by omega) h1.1
    omega
  have hnW : ∀ k t s c, s < m → c < C → t ≠ k → ¬ ∃ i < m, ∃ c' < C, W + (A * (m * t + s) + c) = F + (B * (m * k + i) + c') := by
    intro k t s c hs hc hk
    rcases hsep with ⟨rfl, rfl⟩ | hb
    · exact hni k t s c hs hc hk
    · rintro ⟨i, hi, c', hc', h3⟩
      exact hb (by simpa using congrArg Ptr.buf h3)
  refine Fft.seqLoop_rng (fun k m' => mem.Upd m' (Rws C B F (m * K)) ∧
      (∀ t < k, ∀ i < m, ∀ c < C, m'.val (F + (B * (m * t + i) + c)) = ∑ s ∈ range m, mem.val (W + (A * (m * t + s) + c)) * w m (sgn * s * i)) ∧
      (∀ t < K, k ≤ t → ∀ s < m, ∀ c < C, m'.val (W + (A * (m * t + s) + c)) = mem.val (W + (A * (m * t + s) + c))))
      ⟨Mem.Upd.refl _ _, fun t ht => by omega, fun _ _ _ _ _ _ _ => rfl⟩ ?_ ?_
  · rintro k m2 hk ⟨u2, e2, w2⟩
    refine (hex k hk m2 u2.size).mono ?_
    rintro _ m3 ⟨u3, e3⟩
    refine ⟨u2.trans u3 (fun _ h => h) ?_, ?_, ?_⟩
    · rintro p ⟨s, hs, c, hc, rfl⟩; exact Rws.mk hk hs hc
    · intro t ht s hs c hc
      rcases Nat.lt_or_ge t k with h1 | h1
      · rw [u3.frame _ (hni k t s c hs hc (by omega)), e2 t h1 s hs c hc]
      · obtain rfl : t = k := by omega
        rw [e3 s hs c hc]
        refine sum_congr rfl fun s' hs' => ?_
        rw [mem_range] at hs'
        rw [w2 t hk le_rfl s' hs' c hc]
    · intro t ht hkt s hs c hc
      rw [u3.frame _ (hnW k t s c hs hc (by omega)), w2 t ht (by omega) s hs c hc]
  · rintro m2 ⟨u2, e2, _⟩
    exact hQ m2 u2 e2

/-- Plans with different strides. -/
theorem sexec_cols {n A B : ℕ} {inplace : Bool} (hA : C ≤ A) (hB : C ≤ B)
    (hsep : (inplace = true ∧ W = F ∧ A = B) ∨ (inplace = false ∧ W.buf ≠ F.buf))
    (hW : ∀ i < n, ∀ c < C, mem.valid (W + (A * i + c))) (hF : ∀ i < n, ∀ c < C, mem.valid (F + (B * i + c)))
    (hQ : ∀ m', mem.Upd m' (fun p => ∃ i < n, ∃ c < C, p = F + (B * i + c)) →
      (∀ i < n, ∀ c < C, m'.val (F + (B * i + c)) = ∑ s ∈ range n, mem.val (W + (A * s + c)) * w n (sgn * s * i)) →
      Q () m') :
    ((SPlan.mk n sgn C A B inplace).exec W F).Ok mem Q := by
  have hk : ∀ X c j : ℕ, c + j * X = X * j + c := fun X c j => by ring
  have hdec : inplace = decide (W = F) := by
    rcases hsep with ⟨h1, h2, _⟩ | ⟨h1, h2⟩
    · rw [h1, decide_eq_true h2]
    · rw [h1, decide_eq_false]; rintro rfl; exact h2 rfl
  have hdef : (SPlan.mk n sgn C A B inplace).Defined W F mem := by
    refine ⟨?_, ?_, ?_⟩
    · intro c hc j hj
      simp only at hc hj ⊢
      rw [hk, hk]; exact ⟨hW j hj c hc, hF j hj c hc⟩
    · intro c hc j hj c' hc' j' hj' e
      simp only at hc hc' e
      rw [hk, hk] at e
      exact (radix_inj (by omega) (by omega) e).symm
    · rcases hsep with ⟨_, h2, h3⟩ | ⟨_, h2⟩
      · exact Or.inl ⟨h2, h3⟩
      · right
        intro c _ j _ c' _ j' _
        exact Ptr.ne_of_buf (by simpa using h2)
  unfold Cmd.Ok SPlan.exec
  rw [if_neg (by simp [← hdec]), if_pos hdef]
  refine ⟨(), _, rfl, hQ _ ⟨rfl, ?_⟩ ?_⟩
  · intro p hp
    simp only
    rw [dif_neg]
    rintro ⟨⟨c, k⟩, h1, h2, h3⟩
    rw [hk] at h3
    exact hp ⟨_, h2, _, h1, h3⟩
  · intro i hi c hc
    have hex : ∃ ck : ℕ × ℕ, ck.1 < C ∧ ck.2 < n ∧ F + (B * i + c) = F + (ck.1 + ck.2 * B) := ⟨(c, i), hc, hi, by rw [hk]⟩
    simp only
    rw [dif_pos hex]
    obtain ⟨a1, a2, a3⟩ := hex.choose_spec
    rw [Ptr.add_inj, hk] at a3
    obtain ⟨e1, e2⟩ := radix_inj (by omega) (by omega) a3
    rw [← e1, ← e2]
    refine sum_congr rfl fun j _ => ?_
    rw [hk]

end
end Fftwpp
