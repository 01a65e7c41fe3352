import Verif.Proof.MpiSymm4
import Verif.Props.Hermitian

/-!
# `HermitianSymmetrizeXY`, distributed: the table `d.reflect`, a single process
-/

namespace Fftwpp
open Finset Net

theorem Net.first_pos {N P r : ℕ} (hN : 0 < N) (hP : 0 < P) (hr : 0 < r) : first N P r ≠ 0 := by
  have h1 : 0 < ceilquotient N P := by
    unfold ceilquotient
    exact Nat.div_pos (by omega) hP
  have : first N P r = ceilquotient N P * r := by
    show ((ceilquotient N P : ℤ) * (r : ℤ)).toNat = _
    rw [← Nat.cast_mul, Int.toNat_natCast]
  rw [this]
  exact (Nat.mul_pos h1 hr).ne'

theorem Net.first_zero (N P : ℕ) : first N P 0 = 0 := by
  show ((ceilquotient N P : ℤ) * ((0 : ℕ) : ℤ)).toNat = _
  simp

theorem Net.part_zero {N P : ℕ} (hN : 0 < N) (hP : 0 < P) : 0 < part N P 0 := by
  obtain ⟨r, hr, h1, h2⟩ := (ld_has N P hP).2.1 0 hN
  rcases Nat.eq_zero_or_pos r with rfl | h
  · have : 0 < (Mpi.localdimension N 0 P).start.toNat + (Mpi.localdimension N 0 P).n.toNat := h2
    rw [show (Mpi.localdimension N 0 P).start.toNat = 0 from first_zero N P] at this
    show 0 < (Mpi.localdimension N 0 P).n.toNat
    omega
  · have h3 : first N P r ≤ 0 := h1
    have := first_pos hN hP h
    omega

namespace XYSplit
variable {X Y Z P : ℕ} {e : Eager} {own : ℕ → ℕ} {f u : ℕ → Ptr} {g0 : ℕ → Mem} {D : ℕ → ℕ → ℕ → ℂ}

/-- The array `process` tells the owner. -/
theorem process_owner (hP : 0 < P) : Owner Y P (process P (part Y P) (first Y P)) := by
  intro i hi
  unfold process
  have key : ∀ (l : List ℕ) (v : ℕ), (∀ x ∈ l, x < P) → ((first Y P v ≤ i ∧ i < first Y P v + part Y P v ∧ v < P) ∨ ∃ x ∈ l, first Y P x ≤ i ∧ i < first Y P x + part Y P x) →
      (let o := l.foldl (fun v p => if first Y P p ≤ i ∧ i < first Y P p + part Y P p then p else v) v
       o < P ∧ first Y P o ≤ i ∧ i < first Y P o + part Y P o) := by
    intro l
    induction l with
    | nil =>
      intro v _ h
      rcases h with h | ⟨x, hx, _⟩
      · exact ⟨h.2.2, h.1, h.2.1⟩
      · simp at hx
    | cons a t ih =>
      intro v hl h
      refine ih _ (fun x hx => hl x (by simp [hx])) ?_
      beta_reduce
      by_cases c : first Y P a ≤ i ∧ i < first Y P a + part Y P a
      · rw [if_pos c]
        exact Or.inl ⟨c.1, c.2, hl a (by simp)⟩
      · rw [if_neg c]
        rcases h with h | ⟨x, hx, h⟩
        · exact Or.inl h
        · rcases List.mem_cons.1 hx with rfl | hx
          · exact absurd h c
          · exact Or.inr ⟨x, hx, h⟩
  refine key (rng 0 P) 0 (fun x hx => (mem_rng.1 hx).2) (Or.inr ?_)
  obtain ⟨r, hr, h1, h2⟩ := (ld_has Y P hP).2.1 i hi
  exact ⟨r, mem_rng.2 ⟨Nat.zero_le _, hr⟩, h1, h2⟩

/-- The table holds the processes with the reflected rows. -/
def Table (Y P : ℕ) (own : ℕ → ℕ) (t : ℕ → Ptr) (g : ℕ → Mem) (r : ℕ) : Prop :=
  ∀ j < part Y P r, (Y % 2 = 0 → first Y P r + j ≠ 0) → (g r).val (t r + j) = (own (2 * (Y / 2) - first Y P r - j) : ℂ)

theorem table_ok (hP : 0 < P) (hY : 0 < Y) {t : ℕ → Ptr} {buf : Ptr} (ht : ∀ r < P, (g0 r).block (t r) (part Y P r)) (hb : (g0 0).block buf 1)
    (hsep : ∀ j < part Y P 0, t 0 + j ≠ buf) :
    NOk e P (fun r => (XYSplit.new X Y Z r P).table (part Y P) (first Y P) (t r) buf) g0 fun g' =>
      (∀ r < P, Table Y P (process P (part Y P) (first Y P)) t g' r) ∧
      ∀ r < P, (g0 r).Upd (g' r) (fun p => (∃ j < part Y P r, p = t r + j) ∨ r = 0 ∧ p = buf) := by
  set own := process P (part Y P) (first Y P) with hown
  refine NOk.congr (x := fun r => (if r = 0 then runCmd (seqLoop (rng (1 - Y % 2) (part Y P r)) fun j => Body.run (store (t r + j) (own (2 * (Y / 2) - j) : ℂ))) else .ret ()).bind fun _ =>
    Prog.loop (rng 1 P) fun p => Prog.loop (rng 0 (part Y P p)) fun j =>
      (if r = 0 then runCmd (Body.run (store buf (own (2 * (Y / 2) - first Y P p - j) : ℂ))) else .ret ()).bind fun _ =>
      if r = 0 then send buf.loc 1 p else if r = p then recv (t p + j).loc 1 0 else .ret ()) ?_ ?_
  swap
  · intro r hr
    unfold table
    rw [new_rank, new_dy, new_yo, new_ye, new_y0, show (XYSplit.new X Y Z r P).size = P from rfl]
    by_cases h : r = 0
    · subst h
      have h0 := first_zero Y P
      have hj0 : (XYSplit.new X Y Z 0 P).j0 = 1 - Y % 2 := by
        unfold j0; rw [new_y0, h0, if_pos rfl, new_ye]
      rw [if_pos rfl, if_pos rfl, hj0, h0]
      congr 1
      funext _
      refine loop_congr fun p hp => ?_
      rw [mem_rng] at hp
      rw [if_neg (first_pos hY hP (by omega))]
      rfl
    · rw [if_neg h, if_neg h]
      show _ = Prog.loop _ _
      rw [loop_trim (a := 1) (b := P) (a' := r) (b' := r + 1) (by omega) (by omega) (by omega)]
      · rw [show rng r (r + 1) = [r] by unfold rng; simp]
        refine Eq.trans ?_ (Geo.bind_ret _).symm
        refine loop_congr fun j _ => ?_
        rw [if_neg h, if_neg h, if_pos rfl]
        rfl
      · intro p h1 h2
        refine loop_ret fun j _ => ?_
        rw [if_neg h, if_neg h, if_neg (by omega)]
        rfl
      · intro p h1 h2
        refine loop_ret fun j _ => ?_
        rw [if_neg h, if_neg h, if_neg (by omega)]
        rfl
  have hp0 := part_zero hY hP
  have h00 := first_zero Y P
  have blk : ∀ {g : ℕ → Mem} {W : ℕ → Ptr → Prop}, (∀ r < P, (g0 r).Upd (g r) (W r)) → (∀ r < P, (g r).block (t r) (part Y P r)) ∧ (g 0).block buf 1 := by
    intro g W h
    refine ⟨fun r hr i hi => ?_, fun i hi => ?_⟩
    · have := ht r hr i hi
      simp only [Mem.valid, (h r hr).size] at this ⊢
      exact this
    · have := hb i hi
      simp only [Mem.valid, (h 0 hP).size] at this ⊢
      exact this
  refine NOk.bind (Q1 := fun g => (∀ r < P, (g0 r).Upd (g r) (fun p => (∃ j < part Y P r, p = t r + j) ∨ r = 0 ∧ p = buf)) ∧ ∀ r < 1, Table Y P own t g r) ?_ ?_
  · refine NOk.some (S := fun r => r = 0) (R := fun r m' => r = 0 → (g0 r).Upd m' (fun p => ∃ j, 1 - Y % 2 ≤ j ∧ j < part Y P r ∧ p = t r + j) ∧
      ∀ j, 1 - Y % 2 ≤ j → j < part Y P r → m'.val (t r + j) = (own (2 * (Y / 2) - j) : ℂ)) ?_ ?_
    · rintro r hr rfl
      refine (seq_map1 (s := 1 - Y % 2) ?_ (a := fun j => t 0 + j) (v := fun j => (own (2 * (Y / 2) - j) : ℂ)) ?_ ?_).mono ?_
      · omega
      · intro j _ hj m' hu
        have h3 : m'.valid (t 0 + j) := by
          have := ht 0 hr j hj
          simp only [Mem.valid, hu.size] at this ⊢
          exact this
        constructor
        · body_simp; exact h3
        · body_simp
      · intro i j _ _ _ _ he
        rw [Ptr.add_inj] at he
        exact he
      · rintro _ m' ⟨h1, h2⟩
        exact ⟨h1.size, fun _ => ⟨h1, h2⟩⟩
    · intro g' h1 h2
      constructor
      · intro r hr
        by_cases h : r = 0
        · exact ((h1 r hr h).2 h).1.mono (by rintro p ⟨j, _, h4, rfl⟩; exact Or.inl ⟨j, h4, rfl⟩)
        · rw [h2 r hr h]; exact Mem.Upd.refl _ _
      · intro r hr j hj hne
        obtain rfl : r = 0 := by omega
        have := ((h1 0 hP rfl).2 rfl).2 j (by omega) hj
        rw [this, h00, Nat.sub_zero]
  rintro g1 ⟨hu1, hv1⟩
  refine NOk.loopRng (by omega) (fun q g => (∀ r < P, (g0 r).Upd (g r) (fun p => (∃ j < part Y P r, p = t r + j) ∨ r = 0 ∧ p = buf)) ∧ ∀ r < q, Table Y P own t g r)
    ⟨hu1, hv1⟩ ?_ (fun g' h => ⟨h.2, h.1⟩)
  rintro q g2 hq1 hqP ⟨hu2, hv2⟩
  refine NOk.loopRng (Nat.zero_le _) (fun j g => (∀ r < P, (g0 r).Upd (g r) (fun p => (∃ j < part Y P r, p = t r + j) ∨ r = 0 ∧ p = buf)) ∧
    (∀ r < q, Table Y P own t g r) ∧ ∀ i < j, (g q).val (t q + i) = (own (2 * (Y / 2) - first Y P q - i) : ℂ)) ⟨hu2, hv2, fun _ h => by omega⟩ ?_ ?_
  swap
  · rintro g' ⟨h1, h2, h3⟩
    refine ⟨h1, fun r hr => ?_⟩
    by_cases h : r = q
    · subst h
      intro j hj _
      exact h3 j hj
    · exact h2 r (by omega)
  rintro j g3 _ hj ⟨hu3, hv3, hw3⟩
  refine NOk.bind (Q1 := fun g => (∀ r < P, (g0 r).Upd (g r) (fun p => (∃ j < part Y P r, p = t r + j) ∨ r = 0 ∧ p = buf)) ∧
    (∀ r < q, Table Y P own t g r) ∧ (∀ i < j, (g q).val (t q + i) = (own (2 * (Y / 2) - first Y P q - i) : ℂ)) ∧
    (g 0).val buf = (own (2 * (Y / 2) - first Y P q - j) : ℂ)) ?_ ?_
  · refine NOk.some (S := fun r => r = 0) (R := fun r m' => r = 0 → (g3 r).Upd m' (fun p => p = buf) ∧ m'.val buf = (own (2 * (Y / 2) - first Y P q - j) : ℂ)) ?_ ?_
    · rintro r hr rfl
      have h3 : (g3 0).valid buf := by
        have := (blk hu3).2 0 (by omega)
        rwa [Ptr.add_zero] at this
      refine run_map1 buf (own (2 * (Y / 2) - first Y P q - j) : ℂ) ?_ ?_ ?_
      · body_simp; exact h3
      · body_simp
      · intro m' h4 h5
        exact ⟨h4.size, fun _ => ⟨h4, h5⟩⟩
    · intro g' h1 h2
      have hfr : ∀ r < P, ∀ i < part Y P r, (g' r).val (t r + i) = (g3 r).val (t r + i) := by
        intro r hr i hi
        by_cases h : r = 0
        · subst h
          exact ((h1 0 hr rfl).2 rfl).1.frame _ (hsep i hi)
        · rw [h2 r hr h]
      refine ⟨?_, ?_, ?_, ((h1 0 hP rfl).2 rfl).2⟩
      · intro r hr
        by_cases h : r = 0
        · exact (hu3 r hr).trans ((h1 r hr h).2 h).1 (fun _ h => h) (fun p hp => Or.inr ⟨h, hp⟩)
        · rw [h2 r hr h]; exact hu3 r hr
      · intro r hr i hi hne
        rw [hfr r (by omega) i hi, hv3 r hr i hi hne]
      · intro i hi
        rw [hfr q hqP i (by omega), hw3 i hi]
  rintro g4 ⟨hu4, hv4, hw4, hx4⟩
  obtain ⟨b1, b2⟩ := blk hu4
  have hv0 : (g4 0).valid buf := by
    have := b2 0 (by omega)
    rwa [Ptr.add_zero] at this
  have hvq : (g4 q).valid (t q + j) := b1 q hqP j hj
  refine NOk.msg hP hqP (by omega) hv0.1 hvq.1 b2 ?_ ?_
  · intro i hi
    obtain rfl : i = 0 := by omega
    rw [Ptr.add_zero]; exact hvq
  · intro g' h1 h2 h3
    have hfr : ∀ r < P, ∀ i < part Y P r, (r = q → i ≠ j) → (g' r).val (t r + i) = (g4 r).val (t r + i) := by
      intro r hr i hi hne
      by_cases h : r = q
      · subst h
        refine h2.frame _ ?_
        rintro ⟨k, hk, he⟩
        obtain rfl : k = 0 := by omega
        rw [Ptr.add_zero, Ptr.add_inj] at he
        exact hne rfl he
      · rw [h1 r hr h]
    refine ⟨?_, ?_, ?_⟩
    · intro r hr
      by_cases h : r = q
      · subst h
        refine (hu4 r hr).trans h2 (fun _ h => h) ?_
        rintro p ⟨k, hk, rfl⟩
        obtain rfl : k = 0 := by omega
        exact Or.inl ⟨j, hj, Ptr.add_zero _⟩
      · rw [h1 r hr h]; exact hu4 r hr
    · intro r hr i hi hne
      rw [hfr r (by omega) i hi (by omega), hv4 r hr i hi hne]
    · intro i hi
      by_cases h : i = j
      · subst h
        have := h3 0 (by omega)
        rw [Ptr.add_zero, Ptr.add_zero] at this
        rw [this, hx4]
      · rw [hfr q hqP i (by omega) (fun _ => h), hw4 i (by omega)]

/-- A single process. -/
theorem single_ok {f : Ptr} {m : Mem} (hX : 0 < X) (hY : 0 < Y) (hZ : 0 < Z) (hb : m.block f (Y * Z * X)) :
    ((XYSplit.new X Y Z 0 1).single f).Ok m fun _ m' => m'.size = m.size ∧
      (∀ i < X, ∀ j < Y, ∀ k < Z, m'.val (f + (Y * Z * i + (Z * j + k))) = result X Y (fun i j k => m.val (f + (Y * Z * i + (Z * j + k)))) i j k) ∧
      ∀ p, (∀ i < X, ∀ j < Y, ∀ k < Z, p ≠ f + (Y * Z * i + (Z * j + k))) → m'.val p = m.val p := by
  unfold single
  rw [new_mx, new_my, show (XYSplit.new X Y Z 0 1).X = X from rfl, show (XYSplit.new X Y Z 0 1).Y = Y from rfl, show (XYSplit.new X Y Z 0 1).z = Z from rfl,
    if_pos ⟨by omega, by omega, hZ⟩]
  unfold hermitianSymmetrizeXY'
  have sX : X / 2 + (X + 1) / 2 = X := by omega
  have sY : Y / 2 + (Y + 1) / 2 = Y := by omega
  rw [sY]
  have hend : Y * Z * (X - 1) + (Z * (Y - 1) + Z) = Y * Z * X := by
    obtain ⟨x, rfl⟩ : ∃ x, X = x + 1 := ⟨X - 1, by omega⟩
    obtain ⟨y, rfl⟩ : ∃ y, Y = y + 1 := ⟨Y - 1, by omega⟩
    simp only [Nat.add_sub_cancel]
    ring
  obtain ⟨m', e1, hsz, h1, h2, h3, h4, h5, h6, _⟩ := C21_symmetrizeXY (Hx := (X + 1) / 2) (Hy := (Y + 1) / 2) (Hz := Z) (x0 := X / 2) (y0 := Y / 2) (Sx := Y * Z)
    (Sy := Z) (f := f) (m := m) (by omega) (by omega) (by omega) (by omega) hZ le_rfl (by rw [sY, Nat.mul_comm])
    (by rw [sX, sY, hend]; exact hb)
  rw [sX] at h1 h2 h5 h6
  rw [sY] at h1 h2 h4 h6
  have inj : ∀ {i j k i' j' k'}, j < Y → k < Z → j' < Y → k' < Z →
      f + (Y * Z * i + (Z * j + k)) = f + (Y * Z * i' + (Z * j' + k')) → i = i' ∧ j = j' ∧ k = k' := by
    intro i j k i' j' k' a1 a2 a3 a4 he
    rw [Ptr.add_inj] at he
    exact ad_inj a1 a2 a3 a4 he
  refine ⟨(), m', e1, hsz, ?_, ?_⟩
  · intro i hi j hj k hk
    unfold result
    by_cases c : X % 2 = 0 ∧ i = 0 ∨ Y % 2 = 0 ∧ j = 0
    · rw [if_pos c]
      rcases c with ⟨c1, rfl⟩ | ⟨c1, rfl⟩
      · exact h4 (by omega) j hj k hk
      · exact h5 (by omega) i hi k hk
    · rw [if_neg c]
      by_cases ck : k = 0
      · subst ck
        rw [if_pos rfl]
        unfold symV
        by_cases a1 : j < Y / 2 ∨ (j = Y / 2 ∧ i < X / 2)
        · rw [if_pos a1]
          have := h1 (2 * (X / 2) - i) (2 * (Y / 2) - j) i j (by omega) (by omega) (by omega) (by omega) (by omega) (by omega)
          rw [show f + (Y * Z * i + (Z * j + 0)) = elt f (Y * Z) Z i j 0 from rfl, this, h2 _ _ (by omega) (by omega) (by omega) (by omega)]
          rfl
        · rw [if_neg a1]
          by_cases a2 : j = Y / 2 ∧ i = X / 2
          · rw [if_pos a2, a2.1, a2.2]; exact h3
          · rw [if_neg a2]
            exact h2 i j (by omega) (by omega) (by omega) (by omega)
      · rw [if_neg ck]
        refine h6 _ ?_ ?_ ?_
        · intro x y _ _ _ hy he
          have := inj hj hk (by omega) hZ he
          omega
        · intro hx y hy z hz he
          have := inj hj hk hy hz he
          omega
        · intro hy x hx z hz he
          have := inj hj hk (by omega) hz he
          omega
  · intro p hp
    refine h6 p ?_ ?_ ?_
    · intro x y _ hx _ hy he
      exact hp x (by omega) y (by omega) 0 hZ he
    · intro hx y hy z hz he
      exact hp 0 hX y hy z hz he
    · intro hy x hx z hz he
      exact hp x hx 0 hY z hz he

end XYSplit
end Fftwpp
