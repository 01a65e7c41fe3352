import Verif.Proof.MpiSymm3

/-!
# `HermitianSymmetrizeXY`, distributed: the exchange
-/

namespace Fftwpp
open Finset Net

/-- The word in the plane `k=0` that the symmetrization leaves at position `i`, `j` (but for the Nyquist planes). -/
noncomputable def symV (X Y : ℕ) (D : ℕ → ℕ → ℕ → ℂ) (i j : ℕ) : ℂ :=
  if j < Y / 2 ∨ (j = Y / 2 ∧ i < X / 2) then (starRingEnd ℂ) (D (2 * (X / 2) - i) (2 * (Y / 2) - j) 0)
  else if j = Y / 2 ∧ i = X / 2 then ((D i j 0).re : ℂ) else D i j 0

/-- The data after `t` rounds. -/
noncomputable def symD (X Y : ℕ) (D : ℕ → ℕ → ℕ → ℂ) (t i j k : ℕ) : ℂ :=
  if k = 0 ∧ 1 - X % 2 ≤ i ∧ Y / 2 < j + t then symV X Y D i j else D i j k

namespace XYSplit
variable {X Y Z P : ℕ} {e : Eager} {own : ℕ → ℕ} {f u : ℕ → Ptr} {g0 : ℕ → Mem} {D : ℕ → ℕ → ℕ → ℂ}

/-- The words of process `r` that the exchange may change. -/
def Words (X y Z nx : ℕ) (f u p : Ptr) : Prop := (∃ i < X, ∃ j < y, ∃ k < Z, p = f + (y * Z * i + (Z * j + k))) ∨ ∃ b < nx, p = u + b

/-- The processes hold the array `D`. -/
def Holds (X Y Z P : ℕ) (f : ℕ → Ptr) (D : ℕ → ℕ → ℕ → ℂ) (g : ℕ → Mem) : Prop :=
  ∀ r < P, ∀ i < X, ∀ j < part Y P r, ∀ k < Z, (g r).val (f r + (part Y P r * Z * i + (Z * j + k))) = D i (first Y P r + j) k

/-- The state after `t` rounds. -/
def Inv (X Y Z P : ℕ) (f u : ℕ → Ptr) (g0 : ℕ → Mem) (D : ℕ → ℕ → ℕ → ℂ) (t : ℕ) (g : ℕ → Mem) : Prop :=
  (∀ r < P, (g0 r).Upd (g r) (Words X (part Y P r) Z (X - (1 - X % 2)) (f r) (u r))) ∧ Holds X Y Z P f (symD X Y D t) g

theorem pos_own (ho : Owner Y P own) {i : ℕ} (hi : i < Y) : ∃ j < part Y P (own i), first Y P (own i) + j = i := by
  obtain ⟨_, b, c⟩ := ho i hi
  exact ⟨i - first Y P (own i), by omega, by omega⟩

/-- Round 0. -/
theorem round0 (hP : 0 < P) (hX : 0 < X) (hY : 0 < Y) (hZ : 0 < Z) (ho : Owner Y P own)
    (hrm : ∀ r < P, Room X (part Y P r) Z (X - (1 - X % 2)) (f r) (u r) (g0 r)) {g1 : ℕ → Mem} (hI : Inv X Y Z P f u g0 D 0 g1) :
    NOk e P (fun r => (XYSplit.new X Y Z r P).row own (f r) (u r) 0) g1 (Inv X Y Z P f u g0 D 1) := by
  have hyo : Y / 2 < Y := by omega
  obtain ⟨js, hjs, hjs'⟩ := pos_own ho hyo
  obtain ⟨hs, _, _⟩ := ho _ hyo
  set s := own (Y / 2) with hsd
  refine NOk.congr (x := fun r => (if r = s then runCmd ((XYSplit.new X Y Z r P).fill (f r) (u r) js) else .ret ()).bind fun _ =>
    if r = s then runCmd ((XYSplit.new X Y Z r P).originRow (f r) js) else .ret ()) ?_ ?_
  swap
  · intro r hr
    unfold row
    rw [new_yo, new_rank, new_y0, Nat.add_zero, Nat.sub_zero, ← hsd]
    by_cases h : r = s
    · rw [if_pos h, if_pos h, if_pos h]
      unfold upper
      rw [new_rank, if_neg (by simp [h]), new_yo, new_y0, show Y / 2 - first Y P r = js by rw [h]; omega, if_neg (by rw [h]; simp; omega)]
    · rw [if_neg h, if_neg h, if_neg h, if_neg h]
      rfl
  obtain ⟨hu, hv⟩ := hI
  have hR : ∀ r < P, Room X (part Y P r) Z (X - (1 - X % 2)) (f r) (u r) (g1 r) := fun r hr => (hrm r hr).upd (hu r hr)
  refine NOk.bind (Q1 := Inv X Y Z P f u g0 D 0) ?_ ?_
  · refine NOk.some (S := fun r => r = s) (R := fun r m' => (g1 r).Upd m' (fun p => ∃ k < X - (1 - X % 2), p = u r + k)) ?_ ?_
    · rintro r hr rfl
      exact (fill_ok hZ hX (hR _ hr) hjs).mono fun _ m' h => ⟨h.1.size, h.1⟩
    · intro g' h1 h2
      have key : ∀ r < P, (g1 r).Upd (g' r) (fun p => ∃ k < X - (1 - X % 2), p = u r + k) := by
        intro r hr
        by_cases h : r = s
        · exact (h1 r hr h).2
        · rw [h2 r hr h]; exact Mem.Upd.refl _ _
      refine ⟨fun r hr => (hu r hr).trans (key r hr) (fun _ h => h) fun p hp => Or.inr hp, ?_⟩
      intro r hr i hi j hj k hk
      rw [(key r hr).frame, hv r hr i hi j hj k hk]
      rintro ⟨b, hb, he⟩
      exact (hR r hr).sep _ (ad_lt hi hj hk) b hb he
  · rintro g2 ⟨hu2, hv2⟩
    have hR2 : ∀ r < P, Room X (part Y P r) Z (X - (1 - X % 2)) (f r) (u r) (g2 r) := fun r hr => (hrm r hr).upd (hu2 r hr)
    refine NOk.some (S := fun r => r = s) (R := fun r m' => (r = s → (g2 r).Upd m' (fun p => ∃ i, 1 - X % 2 ≤ i ∧ i ≤ X / 2 ∧ p = f r + (part Y P r * Z * i + (Z * js + 0))) ∧
      m'.val (f r + (part Y P r * Z * (X / 2) + (Z * js + 0))) = (((g2 r).val (f r + (part Y P r * Z * (X / 2) + (Z * js + 0)))).re : ℂ) ∧
      ∀ i, 1 - X % 2 ≤ i → i < X / 2 → m'.val (f r + (part Y P r * Z * i + (Z * js + 0))) =
        (starRingEnd ℂ) ((g2 r).val (f r + (part Y P r * Z * (X / 2 + (X / 2 - i)) + (Z * js + 0)))))) ?_ ?_
    · rintro r hr rfl
      exact (originRow_ok hZ hX (hR2 _ hr).hf hjs).mono fun _ m' h => ⟨h.1.size, fun _ => h⟩
    · intro g' h1 h2
      have D0 : ∀ i j k, symD X Y D 0 i j k = D i j k := by
        intro i j k
        unfold symD symV
        split_ifs with a b c <;> first | rfl | omega | (rw [a.1])
      have D1 : ∀ i j k, ¬ (k = 0 ∧ 1 - X % 2 ≤ i ∧ j = Y / 2 ∧ i ≤ X / 2) → symD X Y D 1 i j k = D i j k := by
        intro i j k h
        unfold symD symV
        split_ifs with a b c <;> first | rfl | omega | (rw [a.1])
      constructor
      · intro r hr
        by_cases h : r = s
        · refine (hu2 r hr).trans (((h1 r hr h).2 h).1) (fun _ h => h) ?_
          rintro p ⟨i, h3, h4, rfl⟩
          exact Or.inl ⟨i, by omega, js, by rw [h]; exact hjs, 0, hZ, rfl⟩
        · rw [h2 r hr h]; exact hu2 r hr
      · intro r hr i hi j hj k hk
        by_cases h : r = s
        swap
        · rw [h2 r hr h, hv2 r hr i hi j hj k hk, D0, D1]
          rintro ⟨_, _, h3, _⟩
          exact h (ho.eq hP hr (i := Y / 2) (by omega) (by omega)).symm
        · obtain ⟨h3, h4, h5⟩ := (h1 r hr h).2 h
          have hjr : js < part Y P r := by rw [h]; exact hjs
          have hfr : first Y P r + js = Y / 2 := by rw [h]; exact hjs'
          by_cases c : k = 0 ∧ 1 - X % 2 ≤ i ∧ first Y P r + j = Y / 2 ∧ i ≤ X / 2
          · obtain ⟨rfl, c2, c3, c4⟩ := c
            have hjj : j = js := by omega
            subst hjj
            have := hv2 r hr
            by_cases ci : i = X / 2
            · subst ci
              rw [h4, hv2 r hr _ hi _ hj _ hk, D0]
              unfold symD symV
              rw [if_pos (by omega), if_neg (by omega), if_pos (by omega)]
            · rw [h5 i c2 (by omega), hv2 r hr _ (by omega) _ hj _ hk, D0]
              unfold symD symV
              rw [if_pos (by omega), if_pos (by omega), show 2 * (X / 2) - i = X / 2 + (X / 2 - i) by omega, show 2 * (Y / 2) - (first Y P r + j) = first Y P r + j by omega]
          · rw [D1 _ _ _ c, h3.frame, hv2 r hr i hi j hj k hk, D0]
            rintro ⟨i', a1, a2, he⟩
            rw [Ptr.add_inj] at he
            have := ad_inj hj hk hjr hZ he
            omega

/-- Round `t`: the row above the origin is sent to the row below. -/
theorem roundS (hP : 0 < P) (hX : 0 < X) (hY : 0 < Y) (hZ : 0 < Z) (ho : Owner Y P own)
    (hrm : ∀ r < P, Room X (part Y P r) Z (X - (1 - X % 2)) (f r) (u r) (g0 r)) {g1 : ℕ → Mem} {t : ℕ} (ht0 : 1 ≤ t) (ht : t < (Y - 1) / 2 + 1)
    (hI : Inv X Y Z P f u g0 D t g1) :
    NOk e P (fun r => (XYSplit.new X Y Z r P).row own (f r) (u r) t) g1 (Inv X Y Z P f u g0 D (t + 1)) := by
  have hys : Y / 2 + t < Y := by omega
  have hyd : Y / 2 - t < Y := by omega
  obtain ⟨js, hjs, hjs'⟩ := pos_own ho hys
  obtain ⟨jd, hjd, hjd'⟩ := pos_own ho hyd
  obtain ⟨hs, _, _⟩ := ho _ hys
  obtain ⟨hd, _, _⟩ := ho _ hyd
  set s := own (Y / 2 + t) with hsd
  set d := own (Y / 2 - t) with hdd
  have hnx0 : 0 < X - (1 - X % 2) := by omega
  refine NOk.congr (x := fun r => (if r = s then runCmd ((XYSplit.new X Y Z r P).fill (f r) (u r) js) else .ret ()).bind fun _ =>
    if s = d then (if r = s then runCmd ((XYSplit.new X Y Z r P).local_ (f r) (u r) js) else .ret ())
    else (if r = s then send (u s).loc (X - (1 - X % 2)) d else if r = d then recv (u d).loc (X - (1 - X % 2)) s else .ret ()).bind fun _ =>
      if r = d then runCmd ((XYSplit.new X Y Z r P).place (f r) (u r) jd) else .ret ()) ?_ ?_
  swap
  · intro r hr
    unfold row
    rw [new_yo, new_rank, new_y0, ← hsd, ← hdd, new_nx]
    by_cases h : r = s
    · rw [if_pos h, if_pos h]
      unfold upper
      rw [new_rank, new_nx, new_yo, new_y0, show Y / 2 + t - first Y P r = js by rw [h]; omega]
      by_cases h' : s = d
      · rw [if_neg (by simp only [← h']; simp [h]), if_pos h', if_pos h, if_pos (by rw [h]; omega)]
      · rw [if_pos (by simp only [h]; exact fun h2 => h' h2.symm), if_neg h', if_pos h, if_neg (by rw [h]; exact h'), h]
        exact congrArg _ (funext fun _ => (Geo.bind_ret _).symm)
    · rw [if_neg h, if_neg h, if_neg h]
      by_cases h' : r = d
      · have : s ≠ d := fun h2 => h (by rw [h', h2])
        rw [if_pos h', if_neg this, if_neg h, if_pos h', if_pos h', show Y / 2 - t - first Y P r = jd by rw [h']; omega, h']
        rfl
      · rw [if_neg h', if_neg h', if_neg h', if_neg h]
        by_cases h2 : s = d
        · rw [if_pos h2]; rfl
        · rw [if_neg h2]; rfl
  obtain ⟨hu, hv⟩ := hI
  have hR : ∀ r < P, Room X (part Y P r) Z (X - (1 - X % 2)) (f r) (u r) (g1 r) := fun r hr => (hrm r hr).upd (hu r hr)
  -- the values of the row `Y/2-t`
  have DS : ∀ i j k, ¬ (k = 0 ∧ 1 - X % 2 ≤ i ∧ j = Y / 2 - t) → symD X Y D (t + 1) i j k = symD X Y D t i j k := by
    intro i j k h
    unfold symD
    by_cases a : k = 0 ∧ 1 - X % 2 ≤ i ∧ Y / 2 < j + t
    · rw [if_pos a, if_pos (by omega)]
    · rw [if_neg a, if_neg (by omega)]
  have DT : ∀ i, i < X - (1 - X % 2) → symD X Y D (t + 1) (i + (1 - X % 2)) (Y / 2 - t) 0 = (starRingEnd ℂ) (symD X Y D t (X - 1 - i) (Y / 2 + t) 0) := by
    intro i hi
    have e1 : symD X Y D t (X - 1 - i) (Y / 2 + t) 0 = D (X - 1 - i) (Y / 2 + t) 0 := by
      unfold symD symV
      split_ifs <;> first | rfl | omega
    rw [e1]
    unfold symD symV
    rw [if_pos (by omega), if_pos (by omega), show 2 * (X / 2) - (i + (1 - X % 2)) = X - 1 - i by omega, show 2 * (Y / 2) - (Y / 2 - t) = Y / 2 + t by omega]
  refine NOk.bind (Q1 := fun g => Inv X Y Z P f u g0 D t g ∧ ∀ i < X - (1 - X % 2), (g s).val (u s + i) = (starRingEnd ℂ) (symD X Y D t (X - 1 - i) (Y / 2 + t) 0)) ?_ ?_
  · refine NOk.some (S := fun r => r = s) (R := fun r m' => (g1 r).Upd m' (fun p => ∃ k < X - (1 - X % 2), p = u r + k) ∧
      ∀ i < X - (1 - X % 2), m'.val (u r + i) = (starRingEnd ℂ) ((g1 r).val (f r + (part Y P r * Z * (X - 1 - i) + (Z * js + 0))))) ?_ ?_
    · rintro r hr rfl
      exact (fill_ok hZ hX (hR _ hr) hjs).mono fun _ m' h => ⟨h.1.size, h⟩
    · intro g' h1 h2
      have key : ∀ r < P, (g1 r).Upd (g' r) (fun p => ∃ k < X - (1 - X % 2), p = u r + k) := by
        intro r hr
        by_cases h : r = s
        · exact (h1 r hr h).2.1
        · rw [h2 r hr h]; exact Mem.Upd.refl _ _
      refine ⟨⟨fun r hr => (hu r hr).trans (key r hr) (fun _ h => h) fun p hp => Or.inr hp, ?_⟩, ?_⟩
      · intro r hr i hi j hj k hk
        rw [(key r hr).frame, hv r hr i hi j hj k hk]
        rintro ⟨b, hb, he⟩
        exact (hR r hr).sep _ (ad_lt hi hj hk) b hb he
      · intro i hi
        rw [(h1 s hs rfl).2.2 i hi, hv s hs _ (by omega) _ hjs _ hZ, hjs']
  rintro g2 ⟨⟨hu2, hv2⟩, hw2⟩
  have hR2 : ∀ r < P, Room X (part Y P r) Z (X - (1 - X % 2)) (f r) (u r) (g2 r) := fun r hr => (hrm r hr).upd (hu2 r hr)
  -- what a row placed gives
  have fin : ∀ g3 g4 : ℕ → Mem, (∀ r < P, (g0 r).Upd (g3 r) (Words X (part Y P r) Z (X - (1 - X % 2)) (f r) (u r))) → Holds X Y Z P f (symD X Y D t) g3 →
      (∀ i < X - (1 - X % 2), (g3 d).val (u d + i) = (starRingEnd ℂ) (symD X Y D t (X - 1 - i) (Y / 2 + t) 0)) →
      (∀ r < P, r = d → Placed X (part Y P r) Z jd (f r) (u r) (g3 r) (g4 r)) → (∀ r < P, ¬ r = d → g4 r = g3 r) → Inv X Y Z P f u g0 D (t + 1) g4 := by
    intro g3 g4 hu3 hv3 hw3 hp hn
    constructor
    · intro r hr
      by_cases h : r = d
      · refine (hu3 r hr).trans (hp r hr h).1 (fun _ h => h) ?_
        rintro p ⟨k, hk, rfl⟩
        exact Or.inl ⟨_, by omega, jd, by rw [h]; exact hjd, 0, hZ, rfl⟩
      · rw [hn r hr h]; exact hu3 r hr
    · intro r hr i hi j hj k hk
      by_cases h : r = d
      · obtain ⟨p1, p2⟩ := hp r hr h
        have hjr : jd < part Y P r := by rw [h]; exact hjd
        have hfr : first Y P r + jd = Y / 2 - t := by rw [h]; exact hjd'
        by_cases c : k = 0 ∧ 1 - X % 2 ≤ i ∧ first Y P r + j = Y / 2 - t
        · obtain ⟨rfl, c2, c3⟩ := c
          have hjj : j = jd := by omega
          have := p2 (i - (1 - X % 2)) (by omega)
          rw [show i - (1 - X % 2) + (1 - X % 2) = i by omega] at this
          rw [hjj, this, hfr]
          have e3 := DT (i - (1 - X % 2)) (by omega)
          rw [show i - (1 - X % 2) + (1 - X % 2) = i by omega] at e3
          rw [e3]
          have := hw3 (i - (1 - X % 2)) (by omega)
          rw [← this, h]
        · rw [DS _ _ _ c, p1.frame, hv3 r hr i hi j hj k hk]
          rintro ⟨i', a1, he⟩
          rw [Ptr.add_inj] at he
          have := ad_inj hj hk hjr hZ he
          omega
      · rw [hn r hr h, hv3 r hr i hi j hj k hk, DS]
        rintro ⟨_, _, h3⟩
        exact h (ho.eq hP hr (i := Y / 2 - t) (by omega) (by omega)).symm
  by_cases hsd' : s = d
  · simp only [if_pos hsd']
    refine NOk.some (S := fun r => r = s) (R := fun r m' => r = s → Placed X (part Y P r) Z jd (f r) (u r) (g2 r) m') ?_ ?_
    · rintro r hr rfl
      refine (local_ok hZ (hR2 _ hr) (j' := jd) (by rw [hsd']; exact hjd) ?_).mono fun _ m' h => ⟨h.1.size, fun _ => h⟩
      rw [← hsd'] at hjd'
      omega
    · intro g' h1 h2
      refine fin g2 g' hu2 hv2 (by rw [← hsd']; exact hw2) (fun r hr h => ?_) fun r hr h => h2 r hr (by rw [hsd']; exact h)
      exact (h1 r hr (by rw [hsd']; exact h)).2 (by rw [hsd']; exact h)
  · simp only [if_neg hsd']
    have off : ∀ r < P, 0 ≤ (u r).off := by
      intro r hr
      have := ((hR2 r hr).hu 0 hnx0).1
      simpa using this
    refine NOk.bind (Q1 := fun g => (∀ r < P, (g0 r).Upd (g r) (Words X (part Y P r) Z (X - (1 - X % 2)) (f r) (u r))) ∧ Holds X Y Z P f (symD X Y D t) g ∧
      ∀ i < X - (1 - X % 2), (g d).val (u d + i) = (starRingEnd ℂ) (symD X Y D t (X - 1 - i) (Y / 2 + t) 0)) ?_ ?_
    · refine NOk.msg hs hd hsd' (off s hs) (off d hd) (hR2 s hs).hu (hR2 d hd).hu ?_
      intro g' h1 h2 h3
      refine ⟨?_, ?_, fun i hi => by rw [h3 i hi, hw2 i hi]⟩
      · intro r hr
        by_cases h : r = d
        · subst h
          exact (hu2 _ hr).trans h2 (fun _ h => h) fun p hp => Or.inr hp
        · rw [h1 r hr h]; exact hu2 r hr
      · intro r hr i hi j hj k hk
        by_cases h : r = d
        · subst h
          rw [h2.frame, hv2 _ hr i hi j hj k hk]
          rintro ⟨b, hb, he⟩
          exact (hR2 _ hr).sep _ (ad_lt hi hj hk) b hb he
        · rw [h1 r hr h]; exact hv2 r hr i hi j hj k hk
    · rintro g3 ⟨hu3, hv3, hw3⟩
      have hR3 : ∀ r < P, Room X (part Y P r) Z (X - (1 - X % 2)) (f r) (u r) (g3 r) := fun r hr => (hrm r hr).upd (hu3 r hr)
      refine NOk.some (S := fun r => r = d) (R := fun r m' => r = d → Placed X (part Y P r) Z jd (f r) (u r) (g3 r) m') ?_ ?_
      · rintro r hr rfl
        exact (place_ok hZ (hR3 _ hr) hjd).mono fun _ m' h => ⟨h.1.size, fun _ => h⟩
      · intro g' h1 h2
        exact fin g3 g' hu3 hv3 hw3 (fun r hr h => (h1 r hr h).2 h) h2

/-- The array that `HermitianSymmetrizeXY` leaves. -/
noncomputable def result (X Y : ℕ) (D : ℕ → ℕ → ℕ → ℂ) (i j k : ℕ) : ℂ :=
  if X % 2 = 0 ∧ i = 0 ∨ Y % 2 = 0 ∧ j = 0 then 0 else if k = 0 then symV X Y D i j else D i j k

theorem exchange_ok (hP : 0 < P) (hX : 0 < X) (hY : 0 < Y) (hZ : 0 < Z) (ho : Owner Y P own)
    (hrm : ∀ r < P, Room X (part Y P r) Z (X - (1 - X % 2)) (f r) (u r) (g0 r)) {reflect : ℕ → ℕ → ℕ}
    (hre : ∀ r < P, ∀ j, (XYSplit.new X Y Z r P).j0 ≤ j → j < part Y P r → reflect r j = own (2 * (Y / 2) - first Y P r - j))
    (hD : Holds X Y Z P f D g0) (hq : ∀ r < P, part Y P r = 0 → first Y P r ≠ 0 ∨ Y % 2 = 1) :
    NOk e P (fun r => (XYSplit.new X Y Z r P).exchange (reflect r) (f r) (u r)) g0 fun g' => Holds X Y Z P f (result X Y D) g' ∧
      ∀ r < P, (g0 r).Upd (g' r) (Words X (part Y P r) Z (X - (1 - X % 2)) (f r) (u r)) := by
  refine NOk.congr (x := fun r => (Prog.loop (rng 0 ((Y - 1) / 2 + 1)) ((XYSplit.new X Y Z r P).row own (f r) (u r))).bind fun _ =>
    runCmd ((XYSplit.new X Y Z r P).nyquist (f r))) ?_ fun r hr => exchange_rows hP hY ho hr (hre r hr) _ _
  have D0 : ∀ i j k, symD X Y D 0 i j k = D i j k := by
    intro i j k
    unfold symD symV
    split_ifs with a b c <;> first | rfl | omega | (rw [a.1])
  refine NOk.bind (Q1 := Inv X Y Z P f u g0 D ((Y - 1) / 2 + 1)) ?_ ?_
  · refine NOk.loopRng (Nat.zero_le _) (Inv X Y Z P f u g0 D) ⟨fun r _ => Mem.Upd.refl _ _, ?_⟩ ?_ fun g' h => h
    · intro r hr i hi j hj k hk
      rw [D0]; exact hD r hr i hi j hj k hk
    · intro t g1 _ ht hI
      by_cases h : t = 0
      · subst h; exact round0 hP hX hY hZ ho hrm hI
      · exact roundS hP hX hY hZ ho hrm (by omega) ht hI
  · rintro g1 ⟨hu1, hv1⟩
    have hR1 : ∀ r < P, Room X (part Y P r) Z (X - (1 - X % 2)) (f r) (u r) (g1 r) := fun r hr => (hrm r hr).upd (hu1 r hr)
    refine NOk.cmd (R := fun r m' => m'.size = (g1 r).size ∧ (∀ i < X, ∀ j < part Y P r, ∀ k < Z, m'.val (f r + (part Y P r * Z * i + (Z * j + k))) =
        if X % 2 = 0 ∧ i = 0 ∨ Y % 2 = 0 ∧ first Y P r + j = 0 then 0 else (g1 r).val (f r + (part Y P r * Z * i + (Z * j + k)))) ∧
      ∀ p, (∀ i < X, ∀ j < part Y P r, ∀ k < Z, p ≠ f r + (part Y P r * Z * i + (Z * j + k))) → m'.val p = (g1 r).val p) ?_ ?_
    · intro r hr
      exact (nyquist_ok (hR1 r hr).hf hX (hq r hr)).mono fun _ m' h => ⟨h.1, h⟩
    · intro g' h
      constructor
      · intro r hr i hi j hj k hk
        rw [(h r hr).2.1 i hi j hj k hk, hv1 r hr i hi j hj k hk]
        unfold result
        by_cases c : X % 2 = 0 ∧ i = 0 ∨ Y % 2 = 0 ∧ first Y P r + j = 0
        · rw [if_pos c, if_pos c]
        · rw [if_neg c, if_neg c]
          unfold symD
          by_cases ck : k = 0
          · rw [if_pos ck, if_pos (by omega)]
          · rw [if_neg ck, if_neg (by omega)]
      · intro r hr
        refine (hu1 r hr).trans (m2 := g' r) (Q := Words X (part Y P r) Z (X - (1 - X % 2)) (f r) (u r)) ⟨(h r hr).1, fun p hp => (h r hr).2.2 p ?_⟩ (fun _ h => h) (fun p hp => hp)
        intro i hi j hj k hk he
        exact hp (Or.inl ⟨i, hi, j, hj, k, hk, he⟩)

end XYSplit
end Fftwpp
