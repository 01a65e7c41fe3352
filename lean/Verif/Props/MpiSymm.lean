import Verif.Proof.MpiSymm5
import Verif.Props.MpiConvH3

/-!
# C57: the distributed `HermitianSymmetrizeXY`
-/

namespace Fftwpp
open Finset Net XYSplit

/-- `p` is the process that holds row `i`. -/
def HasRow (Y P p i : ℕ) : Prop := p < P ∧ first Y P p ≤ i ∧ i < first Y P p + part Y P p

/-- The processes hold their slabs of the array `D`. -/
def HoldsSlabs (X Y Z P : ℕ) (f : ℕ → Ptr) (D : ℕ → ℕ → ℕ → ℂ) (g : ℕ → Mem) : Prop :=
  ∀ r < P, ∀ i < X, ∀ j < part Y P r, ∀ k < Z, (g r).val (f r + (part Y P r * Z * i + (Z * j + k))) = D i (first Y P r + j) k

/-- `D'` is the Hermitian symmetrization of `D`: in the plane `k=0` the half of the array that follows the origin (in the order of `j`, then `i`) is kept, the word at
the origin is made real, and the other half is determined by symmetry; the other planes are kept; but the Nyquist planes are zeroed. -/
structure Symmetrized (X Y Z : ℕ) (D D' : ℕ → ℕ → ℕ → ℂ) : Prop where
  herm : HermData3 X (X / 2) Y (Y / 2) D'
  nyqx : X % 2 = 0 → ∀ j < Y, ∀ k < Z, D' 0 j k = 0
  nyqy : Y % 2 = 0 → ∀ i < X, ∀ k < Z, D' i 0 k = 0
  kept : ∀ i < X, ∀ j < Y, (X % 2 = 0 → i ≠ 0) → (Y % 2 = 0 → j ≠ 0) → Y / 2 < j ∨ j = Y / 2 ∧ X / 2 < i → D' i j 0 = D i j 0
  planes : ∀ i < X, ∀ j < Y, ∀ k < Z, (X % 2 = 0 → i ≠ 0) → (Y % 2 = 0 → j ≠ 0) → k ≠ 0 → D' i j k = D i j k
  origin : 1 < X ∨ X % 2 = 1 → 1 < Y ∨ Y % 2 = 1 → D' (X / 2) (Y / 2) 0 = ((D (X / 2) (Y / 2) 0).re : ℂ)

theorem XYSplit.result_symmetrized {X Y Z : ℕ} (hX : 0 < X) (hY : 0 < Y) (D : ℕ → ℕ → ℕ → ℂ) : Symmetrized X Y Z D (result X Y D) := by
  have z1 : X % 2 = 0 → ∀ j k, result X Y D 0 j k = 0 := by
    intro h j k; unfold result; rw [if_pos (by omega)]
  have z2 : Y % 2 = 0 → ∀ i k, result X Y D i 0 k = 0 := by
    intro h i k; unfold result; rw [if_pos (by omega)]
  have kept : ∀ i j, (X % 2 = 0 → i ≠ 0) → (Y % 2 = 0 → j ≠ 0) → Y / 2 < j ∨ j = Y / 2 ∧ X / 2 < i → result X Y D i j 0 = D i j 0 := by
    intro i j h1 h2 h3
    unfold result symV
    rw [if_neg (by omega), if_pos rfl, if_neg (by omega), if_neg (by omega)]
  have orig : (X % 2 = 0 → X / 2 ≠ 0) → (Y % 2 = 0 → Y / 2 ≠ 0) → result X Y D (X / 2) (Y / 2) 0 = ((D (X / 2) (Y / 2) 0).re : ℂ) := by
    intro h1 h2
    unfold result symV
    rw [if_neg (by omega), if_pos rfl, if_neg (by omega), if_pos (by omega)]
  have low : ∀ i j, (X % 2 = 0 → i ≠ 0) → (Y % 2 = 0 → j ≠ 0) → j < Y / 2 ∨ j = Y / 2 ∧ i < X / 2 → result X Y D i j 0 = (starRingEnd ℂ) (D (2 * (X / 2) - i) (2 * (Y / 2) - j) 0) := by
    intro i j h1 h2 h3
    unfold result symV
    rw [if_neg (by omega), if_pos rfl, if_pos h3]
  refine ⟨?_, fun h j _ k _ => z1 h j k, fun h i _ k _ => z2 h i k, fun i _ j _ => kept i j, ?_, fun h1 h2 => orig (by omega) (by omega)⟩
  swap
  · intro i _ j _ k _ h1 h2 h3
    unfold result
    rw [if_neg (by omega), if_neg h3]
  have h1 : ∀ x y x' y', x + x' = 2 * (X / 2) → y + y' = 2 * (Y / 2) → x < X → x' < X → y < Y → y' < Y →
      result X Y D x' y' 0 = (starRingEnd ℂ) (result X Y D x y 0) := by
    intro x y x' y' hx hy a1 a2 a3 a4
    by_cases c1 : X % 2 = 0 ∧ X / 2 = 0
    · omega
    by_cases c2 : Y % 2 = 0 ∧ Y / 2 = 0
    · omega
    have e1 : x' = 2 * (X / 2) - x := by omega
    have e2 : y' = 2 * (Y / 2) - y := by omega
    by_cases hu : Y / 2 < y ∨ y = Y / 2 ∧ X / 2 < x
    · rw [kept x y (by omega) (by omega) hu, low x' y' (by omega) (by omega) (by omega), show 2 * (X / 2) - x' = x by omega, show 2 * (Y / 2) - y' = y by omega]
    · by_cases ho : y = Y / 2 ∧ x = X / 2
      · obtain ⟨rfl, rfl⟩ := ho
        rw [show x' = X / 2 by omega, show y' = Y / 2 by omega, orig (by omega) (by omega), Complex.conj_ofReal]
      · rw [low x y (by omega) (by omega) (by omega), kept x' y' (by omega) (by omega) (by omega), Complex.conj_conj, e1, e2]
  intro i j
  by_cases hij : i.natAbs < (X + 1) / 2 ∧ j.natAbs < (Y + 1) / 2
  · unfold cext2 cext
    rw [if_pos (by omega), if_pos (by omega)]
    beta_reduce
    rw [if_pos (by omega), if_pos (by omega)]
    exact h1 _ _ _ _ (by omega) (by omega) (by omega) (by omega) (by omega) (by omega)
  · rw [cext2_supp (g := fun a b => result X Y D a b 0) (fun he j _ => z1 he j 0) (fun he i _ => z2 he i 0) (by omega),
      cext2_supp (g := fun a b => result X Y D a b 0) (fun he j _ => z1 he j 0) (fun he i _ => z2 he i 0) hij, map_zero]

/-- **C57** (the exchange).  `P` processes hold the slabs of any array `D`, of `X` by `Y` by `Z` words (any sizes, of any parity; processes without rows are allowed),
each with a work array of `X` (or `X-1`, if `X` is even) words, elsewhere, and a table `reflect` that tells the process that holds the reflection of each of its rows.  Each
calls `HermitianSymmetrizeXY`.  All orders of execution of the processes, and all choices of the MPI library as to the buffering of messages, end,
with every process finished and no message in transit, and then the processes hold the slabs of the Hermitian symmetrization of `D`.  Nothing but these
slabs and the work arrays is changed. -/
theorem C57_symmetrized {X Y Z P : ℕ} (hX : 0 < X) (hY : 0 < Y) (hZ : 0 < Z) (hP : 0 < P) {f u : ℕ → Ptr} {m : ℕ → Mem}
    (hf : ∀ r < P, (m r).block (f r) (part Y P r * Z * X))
    (hu : 1 < P → ∀ r < P, (m r).block (u r) (X - (1 - X % 2)) ∧ ∀ a < part Y P r * Z * X, ∀ b < X - (1 - X % 2), f r + a ≠ u r + b)
    {reflect : ℕ → ℕ → ℕ} (hre : 1 < P → ∀ r < P, ∀ j < part Y P r, (Y % 2 = 0 → first Y P r + j ≠ 0) → HasRow Y P (reflect r j) (2 * (Y / 2) - (first Y P r + j)))
    {D : ℕ → ℕ → ℕ → ℂ} (hD : HoldsSlabs X Y Z P f D m)
    (e : Eager) {σ : ℕ → Local ℂ} (hσ : ∀ r < P, mmem (σ r) = m r) (hreq : ∀ r < P, ∀ id, (σ r).req id = none) (hbal : Balanced P σ) :
    AllRuns e (start P (fun r => (XYSplit.new X Y Z r P).symmetrize (reflect r) (f r) (u r)) σ) fun f2 => Finished P f2 ∧
      (∃ D', Symmetrized X Y Z D D' ∧ HoldsSlabs X Y Z P f D' fun r => mmem (f2 r).loc) ∧
      ∀ r < P, (mmem (f2 r).loc).size = (m r).size ∧ ∀ p, (∀ i < X, ∀ j < part Y P r, ∀ k < Z, p ≠ f r + (part Y P r * Z * i + (Z * j + k))) →
        (1 < P → ∀ b < X - (1 - X % 2), p ≠ u r + b) → (mmem (f2 r).loc).val p = (m r).val p := by
  have key : NOk e P (fun r => (XYSplit.new X Y Z r P).symmetrize (reflect r) (f r) (u r)) m fun g' => Holds X Y Z P f (result X Y D) g' ∧
      ∀ r < P, (m r).Upd (g' r) fun p => (∃ i < X, ∃ j < part Y P r, ∃ k < Z, p = f r + (part Y P r * Z * i + (Z * j + k))) ∨ 1 < P ∧ ∃ b < X - (1 - X % 2), p = u r + b := by
    by_cases h1 : P = 1
    · subst h1
      refine NOk.congr (x := fun r => runCmd ((XYSplit.new X Y Z 0 1).single (f r))) ?_ ?_
      · have e0 := first_zero Y 1
        have e1 : part Y 1 0 = Y := by
          obtain ⟨r, hr, a, b⟩ := (ld_has Y 1 hP).2.1 (Y - 1) (by omega)
          obtain rfl : r = 0 := by omega
          have h3 : Y - 1 < first Y 1 0 + part Y 1 0 := b
          have h4 : part Y 1 0 ≤ Y := (ld_has Y 1 hP).2.2.2 0 hP
          omega
        refine NOk.cmd (R := fun r m' => m'.size = (m r).size ∧ (∀ i < X, ∀ j < Y, ∀ k < Z, m'.val (f r + (Y * Z * i + (Z * j + k))) =
            result X Y (fun i j k => (m r).val (f r + (Y * Z * i + (Z * j + k)))) i j k) ∧
          ∀ p, (∀ i < X, ∀ j < Y, ∀ k < Z, p ≠ f r + (Y * Z * i + (Z * j + k))) → m'.val p = (m r).val p) ?_ ?_
        · intro r hr
          obtain rfl : r = 0 := by omega
          exact (single_ok hX hY hZ (by have := hf 0 hP; rwa [e1] at this)).mono fun _ m' h => ⟨h.1, h⟩
        · intro g' h
          constructor
          · intro r hr i hi j hj k hk
            obtain rfl : r = 0 := by omega
            rw [e1] at hj ⊢
            rw [(h 0 hP).2.1 i hi j hj k hk, e0, Nat.zero_add]
            have hd : ∀ i < X, ∀ j < Y, ∀ k < Z, (m 0).val (f 0 + (Y * Z * i + (Z * j + k))) = D i j k := by
              intro i hi j hj k hk
              have := hD 0 hP i hi j (by rw [e1]; exact hj) k hk
              rwa [e1, e0, Nat.zero_add] at this
            unfold result
            by_cases c : X % 2 = 0 ∧ i = 0 ∨ Y % 2 = 0 ∧ j = 0
            · rw [if_pos c, if_pos c]
            · rw [if_neg c, if_neg c]
              unfold symV
              beta_reduce
              by_cases ck : k = 0
              · rw [if_pos ck, if_pos ck]
                subst ck
                by_cases a1 : j < Y / 2 ∨ (j = Y / 2 ∧ i < X / 2)
                · rw [if_pos a1, if_pos a1, hd _ (by omega) _ (by omega) _ hZ]
                · rw [if_neg a1, if_neg a1, hd _ hi _ hj _ hZ]
              · rw [if_neg ck, if_neg ck, hd _ hi _ hj _ hk]
          · intro r hr
            obtain rfl : r = 0 := by omega
            refine ⟨(h 0 hP).1, fun p hp => (h 0 hP).2.2 p ?_⟩
            intro i hi j hj k hk he
            exact hp (Or.inl ⟨i, hi, j, by rw [e1]; exact hj, k, hk, by rw [e1]; exact he⟩)
      · intro r hr
        obtain rfl : r = 0 := by omega
        unfold symmetrize
        rw [show (XYSplit.new X Y Z 0 1).size = 1 from rfl, if_pos rfl]
    · have hP1 : 1 < P := by omega
      refine NOk.congr (x := fun r => (XYSplit.new X Y Z r P).exchange (reflect r) (f r) (u r)) ?_ ?_
      · refine (exchange_ok hP hX hY hZ (process_owner hP) (fun r hr => ⟨hf r hr, (hu hP1 r hr).1, (hu hP1 r hr).2⟩) ?_ hD ?_).mono ?_
        · intro r hr j hj0 hj
          have hne : Y % 2 = 0 → first Y P r + j ≠ 0 := by
            intro h2 h3
            unfold j0 at hj0
            rw [new_ye, new_y0, if_pos (by omega)] at hj0
            omega
          obtain ⟨a, b, c⟩ := hre hP1 r hr j hj hne
          rw [Nat.sub_sub]
          exact ((process_owner hP).eq hP a b c).symm
        · intro r hr h
          left
          intro h0
          rcases Nat.eq_zero_or_pos r with rfl | h3
          · have := part_zero hY hP; omega
          · exact first_pos hY hP h3 h0
        · rintro g' ⟨h1, h2⟩
          refine ⟨h1, fun r hr => (h2 r hr).mono ?_⟩
          rintro p (h | h)
          · exact Or.inl h
          · exact Or.inr ⟨hP1, h⟩
      · intro r hr
        unfold symmetrize
        rw [show (XYSplit.new X Y Z r P).size = P from rfl, if_neg h1]
  refine (key.allRuns hσ hreq hbal).mono ?_
  rintro f2 ⟨fin, g', hg, h1, h2⟩
  refine ⟨fin, ⟨result X Y D, result_symmetrized hX hY D, fun r hr => ?_⟩, fun r hr => ?_⟩
  · beta_reduce
    rw [hg r hr]
    exact h1 r hr
  · rw [hg r hr]
    refine ⟨(h2 r hr).size, fun p hp hpu => (h2 r hr).frame p ?_⟩
    rintro (⟨i, hi, j, hj, k, hk, he⟩ | ⟨h, b, hb, he⟩)
    · exact hp i hi j hj k hk he
    · exact hpu h b hb he

/-- **C57** (the table).  The construction of the table `reflect` (the processes know one another's rows) ends in all orders of execution, with every process finished and no message in
transit; and then the table of every process tells what `C57_symmetrized` requires. -/
theorem C57_table {X Y Z P : ℕ} (hY : 0 < Y) (hP : 0 < P) {t : ℕ → Ptr} {buf : Ptr} {m : ℕ → Mem} (ht : ∀ r < P, (m r).block (t r) (part Y P r))
    (hb : (m 0).block buf 1) (hsep : ∀ j < part Y P 0, t 0 + j ≠ buf)
    (e : Eager) {σ : ℕ → Local ℂ} (hσ : ∀ r < P, mmem (σ r) = m r) (hreq : ∀ r < P, ∀ id, (σ r).req id = none) (hbal : Balanced P σ) :
    AllRuns e (start P (fun r => (XYSplit.new X Y Z r P).table (part Y P) (first Y P) (t r) buf) σ) fun f2 => Finished P f2 ∧
      (∀ r < P, ∀ j < part Y P r, (Y % 2 = 0 → first Y P r + j ≠ 0) →
        ∃ p : ℕ, (mmem (f2 r).loc).val (t r + j) = (p : ℂ) ∧ HasRow Y P p (2 * (Y / 2) - (first Y P r + j))) ∧
      ∀ r < P, (mmem (f2 r).loc).size = (m r).size ∧ ∀ p, (∀ j < part Y P r, p ≠ t r + j) → (r = 0 → p ≠ buf) → (mmem (f2 r).loc).val p = (m r).val p := by
  refine ((table_ok (X := X) (Z := Z) (e := e) hP hY ht hb hsep).allRuns hσ hreq hbal).mono ?_
  rintro f2 ⟨fin, g', hg, h1, h2⟩
  refine ⟨fin, fun r hr j hj hne => ?_, fun r hr => ?_⟩
  · rw [hg r hr]
    refine ⟨_, h1 r hr j hj hne, ?_⟩
    rw [Nat.sub_sub]
    have := first_lt (N := Y) hP hr hj
    exact process_owner hP _ (by omega)
  · rw [hg r hr]
    refine ⟨(h2 r hr).size, fun p hp hpb => (h2 r hr).frame p ?_⟩
    rintro (⟨j, hj, he⟩ | ⟨h, he⟩)
    · exact hp j hj he
    · exact hpb h he

/-- The hypotheses of C57 are met: three processes, `X=4`, `Y=5` (two rows, two rows, one row), `Z=2`, and the data are not symmetric: word `i` of the slab is `i`. -/
example : ∃ (reflect : ℕ → ℕ → ℕ) (m : ℕ → Mem), part 5 3 0 = 2 ∧ part 5 3 1 = 2 ∧ part 5 3 2 = 1 ∧
    (∀ r < 3, (m r).block ⟨0, 0⟩ (part 5 3 r * 2 * 4)) ∧
    (∀ r < 3, (m r).block ⟨1, 0⟩ (4 - (1 - 4 % 2)) ∧ ∀ a < part 5 3 r * 2 * 4, ∀ b < 4 - (1 - 4 % 2), (⟨0, 0⟩ : Ptr) + a ≠ (⟨1, 0⟩ : Ptr) + b) ∧
    (∀ r < 3, ∀ j < part 5 3 r, HasRow 5 3 (reflect r j) (2 * (5 / 2) - (first 5 3 r + j))) ∧
    reflect 0 0 = 2 ∧ reflect 0 1 = 1 ∧ reflect 1 0 = 1 ∧ reflect 1 1 = 0 ∧ reflect 2 0 = 0 ∧
    (∃ D, HoldsSlabs 4 5 2 3 (fun _ => ⟨0, 0⟩) D m) ∧
    (∀ r < 3, mmem (exState m r) = m r) ∧ (∀ r < 3, ∀ id, (exState m r).req id = none) ∧ Balanced 3 (exState m) := by
  have e0 : part 5 3 0 = 2 ∧ part 5 3 1 = 2 ∧ part 5 3 2 = 1 ∧ first 5 3 0 = 0 ∧ first 5 3 1 = 2 ∧ first 5 3 2 = 4 := by decide
  obtain ⟨p0, p1, p2, f0, f1, f2⟩ := e0
  have hpart : ∀ r < 3, part 5 3 r ≤ 2 := by intro r hr; interval_cases r <;> omega
  have hfirst : ∀ r < 3, first 5 3 r = 2 * r := by intro r hr; interval_cases r <;> omega
  refine ⟨fun r j => (4 - (2 * r + j)) / 2, fun _ => ⟨fun _ => 16, fun p => ((p.off : ℤ) : ℂ)⟩, p0, p1, p2, ?_, ?_, ?_, rfl, rfl, rfl, rfl, rfl, ?_,
    fun r _ => exState_mem _ r, fun _ _ _ => rfl, ?_⟩
  · intro r hr i hi
    have := hpart r hr
    refine ⟨by simp, ?_⟩
    show (0 : ℤ) + i < (16 : ℕ)
    omega
  · intro r hr
    refine ⟨fun i hi => ⟨by simp, ?_⟩, fun a _ b _ he => ?_⟩
    · show (0 : ℤ) + i < (16 : ℕ)
      omega
    · have := congrArg Ptr.buf he
      simp at this
  · intro r hr j hj
    unfold HasRow
    interval_cases r
    · rw [p0] at hj
      interval_cases j <;> decide
    · rw [p1] at hj
      interval_cases j <;> decide
    · rw [p2] at hj
      interval_cases j ; decide
  · refine ⟨fun i y k => (((part 5 3 (y / 2) * 2 * i + (2 * (y % 2) + k) : ℕ) : ℤ) : ℂ), ?_⟩
    intro r hr i hi j hj k hk
    have := hpart r hr
    beta_reduce
    rw [hfirst r hr, show (2 * r + j) / 2 = r by omega, show (2 * r + j) % 2 = j by omega]
    show ((((0 : ℤ) + ((part 5 3 r * 2 * i + (2 * j + k) : ℕ) : ℤ)) : ℤ) : ℂ) = _
    rw [zero_add]
  · exact fun _ _ _ _ _ => rfl

end Fftwpp
