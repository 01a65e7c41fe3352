import Verif.Model.Hermitian
import Verif.Proof.Driver3

/-! # C21: HermitianSymmetrize -/

namespace Fftwpp
open Finset

local notation "conj" => starRingEnd ℂ

private theorem at_inj {f : Ptr} {Sx Sy Y x y z x' y' z' : ℕ} (hS : Sy * Y ≤ Sx) (hz : z < Sy) (hz' : z' < Sy) (hy : y < Y) (hy' : y' < Y)
    (h : f + (Sx * x + (Sy * y + z)) = f + (Sx * x' + (Sy * y' + z'))) : x = x' ∧ y = y' ∧ z = z' := by
  rw [Ptr.add_inj] at h
  have h1 := radix_lt hz hy
  have h2 := radix_lt hz' hy'
  obtain ⟨a, b⟩ := radix_inj (by omega) (by omega) h
  exact ⟨a, radix_inj hz hz' b⟩

private theorem exists_of_ok {c : Cmd Unit} {m : Mem} {Q : Mem → Prop} (h : c.Ok m fun _ m' => Q m') : ∃ m', c m = .ok ((), m') ∧ Q m' := by
  obtain ⟨_, m', h⟩ := h
  exact ⟨m', h⟩

/-- The line `y = y0`, `z = 0` (first loop and `F[0].im=0.0`). -/
private theorem line_ok {Hx x0 Sx g : ℕ} {f F : Ptr} {m : Mem} (hF : F = f + (Sx * x0 + g)) (hx : Hx ≤ x0 + 1) (hx1 : 1 ≤ Hx) (hSx : 0 < Sx)
    (hb : ∀ s < Hx, m.valid (f + (Sx * (x0 + s) + g)) ∧ m.valid (f + (Sx * (x0 - s) + g))) :
    Cmd.Ok (do
      par (rng 1 Hx) (fun s => do
        let v ← load (F + s * Sx)
        store (F - s * Sx) (conj v))
      (clearIm F).run : Cmd Unit) m (fun _ m' =>
      m.Upd m' (fun p => ∃ s < Hx, p = f + (Sx * (x0 - s) + g)) ∧
      (∀ s, 1 ≤ s → s < Hx → m'.val (f + (Sx * (x0 - s) + g)) = conj (m.val (f + (Sx * (x0 + s) + g)))) ∧
      m'.val (f + (Sx * x0 + g)) = ((m.val (f + (Sx * x0 + g))).re : ℂ)) := by
  have e1 : ∀ s, F + s * Sx = f + (Sx * (x0 + s) + g) := by
    intro s; rw [hF, Ptr.add_add]; congr 1; ring
  have e2 : ∀ s < Hx, F - s * Sx = f + (Sx * (x0 - s) + g) := by
    intro s hs
    obtain ⟨d, rfl⟩ : ∃ d, x0 = d + s := ⟨x0 - s, by omega⟩
    rw [hF, Nat.add_sub_cancel]
    ext
    · simp
    · simp; ring
  have inj : ∀ a b, f + (Sx * a + g) = f + (Sx * b + g) → a = b := by
    intro a b h
    rw [Ptr.add_inj] at h
    exact Nat.eq_of_mul_eq_mul_left hSx (by omega)
  refine Cmd.Ok.bind ?_
  refine par_map1 (fun s => f + (Sx * (x0 - s) + g)) (fun s => conj (m.val (f + (Sx * (x0 + s) + g)))) (rng_nodup ..) ?_ ?_ ?_ ?_ ?_
  · intro s hs
    rw [mem_rng] at hs
    body_simp
    rw [e1, e2 s hs.2]
    exact hb s hs.2
  · intro s hs
    rw [mem_rng] at hs
    body_simp
    rw [e1, e2 s hs.2]
  · intro s hs t ht h
    rw [mem_rng] at hs ht
    have := inj _ _ h
    omega
  · intro s hs t ht _
    rw [mem_rng] at hs ht
    body_simp
    rw [e1]
    intro h
    have := inj _ _ h
    omega
  · intro m1 u1 v1
    have h0 : m1.val (f + (Sx * x0 + g)) = m.val (f + (Sx * x0 + g)) := by
      apply u1.frame
      rintro ⟨s, hs, he⟩
      rw [mem_rng] at hs
      have := inj _ _ he
      omega
    unfold clearIm
    refine run_map1 F ((m1.val F).re : ℂ) ?_ ?_ ?_
    · body_simp
      have := (hb 0 hx1).1
      rw [Nat.add_zero, ← hF] at this
      simp only [Mem.valid, u1.size] at this ⊢
      exact ⟨this, this⟩
    · body_simp
    · intro m2 u2 v2
      refine ⟨u1.trans u2 ?_ ?_, ?_, ?_⟩
      · rintro p ⟨s, hs, rfl⟩
        rw [mem_rng] at hs
        exact ⟨s, hs.2, rfl⟩
      · rintro p rfl
        exact ⟨0, hx1, hF⟩
      · intro s h1 h2
        rw [u2.frame]
        · exact v1 s (mem_rng.2 ⟨h1, h2⟩)
        · intro h
          have := inj _ _ (h.trans hF)
          omega
      · rw [← hF] at h0 ⊢
        rw [v2, h0]

/-- **C21** (2D): `x0 ≥ Hx-1` is the index of the origin (`x0 = Hx-1`, or `x0 = Hx` with an extra Nyquist row).  With enough
storage `HermitianSymmetrizeX` ends normally, and afterwards the data `f(x,0)` is Hermitian about the origin (in
particular real there), the given half `x > 0` and the real part at the origin are unchanged, the Nyquist row is zero
when there is one, nothing else is changed, and a second call changes nothing. -/
theorem C21_symmetrizeX {Hx Hy x0 Sx : ℕ} {f : Ptr} {m : Mem} (hx1 : 1 ≤ Hx) (hx : Hx ≤ x0 + 1) (hy : 1 ≤ Hy) (hyS : Hy ≤ Sx)
    (hb : m.block f (Sx * (x0 + Hx - 1) + Hy)) :
    ∃ m', hermitianSymmetrizeX Hx Hy x0 f Sx m = .ok ((), m') ∧ m'.size = m.size ∧
      (∀ s < Hx, m'.val (f + Sx * (x0 - s)) = conj (m'.val (f + Sx * (x0 + s)))) ∧
      (∀ s, 1 ≤ s → s < Hx → m'.val (f + Sx * (x0 + s)) = m.val (f + Sx * (x0 + s))) ∧
      m'.val (f + Sx * x0) = ((m.val (f + Sx * x0)).re : ℂ) ∧
      (x0 = Hx → ∀ j < Hy, m'.val (f + j) = 0) ∧
      (∀ p, (∀ s < Hx, p ≠ f + Sx * (x0 - s)) → (x0 = Hx → ∀ j < Hy, p ≠ f + j) → m'.val p = m.val p) ∧
      hermitianSymmetrizeX Hx Hy x0 f Sx m' = .ok ((), m') := by
  have hSx : 0 < Sx := by omega
  have inj : ∀ a b c, c < Hy → f + Sx * a = f + (Sx * b + c) → a = b ∧ c = 0 := by
    intro a b c hc h
    rw [Ptr.add_inj] at h
    have := radix_inj (s := a) (c := 0) (s' := b) (c' := c) hSx (by omega) (by omega)
    omega
  have inj' : ∀ a b, f + Sx * a = f + Sx * b → a = b := fun a b h => (inj a b 0 (by omega) h).1
  have key : ∀ m : Mem, m.block f (Sx * (x0 + Hx - 1) + Hy) → ∃ m', hermitianSymmetrizeX Hx Hy x0 f Sx m = .ok ((), m') ∧ m'.size = m.size ∧
      (∀ s < Hx, m'.val (f + Sx * (x0 - s)) = conj (m'.val (f + Sx * (x0 + s)))) ∧
      (∀ s, 1 ≤ s → s < Hx → m'.val (f + Sx * (x0 + s)) = m.val (f + Sx * (x0 + s))) ∧
      m'.val (f + Sx * x0) = ((m.val (f + Sx * x0)).re : ℂ) ∧
      (x0 = Hx → ∀ j < Hy, m'.val (f + j) = 0) ∧
      (∀ p, (∀ s < Hx, p ≠ f + Sx * (x0 - s)) → (x0 = Hx → ∀ j < Hy, p ≠ f + j) → m'.val p = m.val p) := by
    intro m hb
    have hb1 : ∀ a ≤ x0 + Hx - 1, m.valid (f + (Sx * a + 0)) := by
      intro a ha
      apply hb
      have := Nat.mul_le_mul_left Sx ha
      omega
    have L := line_ok (f := f) (F := f + x0 * Sx) (m := m) (Sx := Sx) (x0 := x0) (g := 0) (by rw [Nat.mul_comm]; rfl) hx hx1 hSx
      (fun s hs => ⟨hb1 _ (by omega), hb1 _ (by omega)⟩)
    suffices H : (hermitianSymmetrizeX Hx Hy x0 f Sx).Ok m fun _ m' => m'.size = m.size ∧
      (∀ s < Hx, m'.val (f + Sx * (x0 - s)) = conj (m'.val (f + Sx * (x0 + s)))) ∧
      (∀ s, 1 ≤ s → s < Hx → m'.val (f + Sx * (x0 + s)) = m.val (f + Sx * (x0 + s))) ∧
      m'.val (f + Sx * x0) = ((m.val (f + Sx * x0)).re : ℂ) ∧
      (x0 = Hx → ∀ j < Hy, m'.val (f + j) = 0) ∧
      (∀ p, (∀ s < Hx, p ≠ f + Sx * (x0 - s)) → (x0 = Hx → ∀ j < Hy, p ≠ f + j) → m'.val p = m.val p) by
      obtain ⟨_, m', h⟩ := H
      exact ⟨m', h⟩
    unfold hermitianSymmetrizeX
    refine Cmd.Ok.seq2 L ?_
    rintro m1 ⟨u1, v1, w1⟩
    simp only [Nat.add_zero] at u1 v1 w1
    have up : ∀ s, 1 ≤ s → s < Hx → m1.val (f + Sx * (x0 + s)) = m.val (f + Sx * (x0 + s)) := by
      intro s hs hs'
      apply u1.frame
      rintro ⟨t, ht, he⟩
      have := inj' _ _ he
      omega
    have sym : ∀ s < Hx, m1.val (f + Sx * (x0 - s)) = conj (m1.val (f + Sx * (x0 + s))) := by
      intro s hs
      rcases Nat.eq_zero_or_pos s with rfl | h
      · simp [w1]
      · rw [up s h hs, v1 s h hs]
    by_cases hN : x0 = Hx
    · rw [if_pos hN]
      refine par_map1 (fun j => f + j) (fun _ => 0) (rng_nodup ..) ?_ ?_ ?_ ?_ ?_
      · intro j hj
        rw [mem_rng] at hj
        body_simp
        have := hb j (by omega)
        simp only [Mem.valid, u1.size] at this ⊢
        exact this
      · intro j _
        body_simp
      · intro i _ j _ h
        exact (Ptr.add_inj ..).1 h
      · intro i _ j _ _
        body_simp
      intro m2 u2 v2
      have fr : ∀ a, 1 ≤ a → m2.val (f + Sx * a) = m1.val (f + Sx * a) := by
        intro a ha
        apply u2.frame
        rintro ⟨j, hj, he⟩
        rw [mem_rng] at hj
        have := inj a 0 j hj.2 (by rw [he]; simp)
        omega
      refine ⟨by rw [u2.size, u1.size], ?_, ?_, ?_, ?_, ?_⟩
      · intro s hs
        rw [fr _ (by omega), fr _ (by omega), sym s hs]
      · intro s hs hs'
        rw [fr _ (by omega), up s hs hs']
      · rw [fr _ (by omega), w1]
      · intro _ j hj
        exact v2 j (mem_rng.2 ⟨by omega, hj⟩)
      · intro p hp hp'
        rw [u2.frame, u1.frame]
        · rintro ⟨s, hs, he⟩
          exact hp s hs he
        · rintro ⟨j, hj, he⟩
          exact hp' hN j (mem_rng.1 hj).2 he
    · rw [if_neg hN]
      refine Cmd.Ok.pure ⟨u1.size, sym, up, w1, fun h => absurd h hN, ?_⟩
      intro p hp _
      apply u1.frame
      rintro ⟨s, hs, he⟩
      exact hp s hs he
  obtain ⟨m1, h1, s1, a1, b1, c1, d1, e1⟩ := key m hb
  refine ⟨m1, h1, s1, a1, b1, c1, d1, e1, ?_⟩
  have hb' : m1.block f (Sx * (x0 + Hx - 1) + Hy) := by
    intro i hi
    have := hb i hi
    simp only [Mem.valid, s1] at this ⊢
    exact this
  obtain ⟨m2, h2, s2, a2, b2, c2, d2, e2⟩ := key m1 hb'
  rw [h2]
  congr 2
  ext p : 2
  · rw [s2]
  by_cases hN : x0 = Hx ∧ ∃ j < Hy, p = f + j
  · obtain ⟨hN, j, hj, rfl⟩ := hN
    rw [d1 hN j hj, d2 hN j hj]
  by_cases hp : ∃ s < Hx, p = f + Sx * (x0 - s)
  · obtain ⟨s, hs, rfl⟩ := hp
    rcases Nat.eq_zero_or_pos s with rfl | h
    · rw [Nat.sub_zero, c2, c1, Complex.ofReal_re]
    · rw [a1 s hs, a2 s hs, b2 s h hs]
  · apply e2
    · intro s hs he
      exact hp ⟨s, hs, he⟩
    · intro h j hj he
      exact hN ⟨h, j, hj, he⟩

/-- The hypotheses are met, with a Nyquist row. -/
example : ∃ m : Mem, m.block ⟨0, 0⟩ (4 * (3 + 3 - 1) + 4) := by
  refine ⟨⟨fun _ => 24, fun _ => 0⟩, fun i hi => ⟨?_, ?_⟩⟩
  · show (0 : ℤ) ≤ 0 + i
    omega
  · show (0 : ℤ) + i < (24 : ℕ)
    omega

/-- Element `(x,y,z)` of the three-dimensional array at `f` with strides `Sx`, `Sy`, 1. -/
def elt (f : Ptr) (Sx Sy x y z : ℕ) : Ptr := f + (Sx * x + (Sy * y + z))

/-- **C21** (3D): the same for `HermitianSymmetrizeXY`, with origin `(x0,y0)`. -/
theorem C21_symmetrizeXY {Hx Hy Hz x0 y0 Sx Sy : ℕ} {f : Ptr} {m : Mem} (hx1 : 1 ≤ Hx) (hx : Hx ≤ x0 + 1) (hy1 : 1 ≤ Hy) (hy : Hy ≤ y0 + 1)
    (hz : 1 ≤ Hz) (hSy : Hz ≤ Sy) (hSx : Sy * (y0 + Hy) ≤ Sx) (hb : m.block f (Sx * (x0 + Hx - 1) + (Sy * (y0 + Hy - 1) + Hz))) :
    ∃ m', hermitianSymmetrizeXY Hx Hy Hz x0 y0 f Sx Sy m = .ok ((), m') ∧ m'.size = m.size ∧
      (∀ x y x' y', x + x' = 2 * x0 → y + y' = 2 * y0 → x < x0 + Hx → x' < x0 + Hx → y < y0 + Hy → y' < y0 + Hy →
        m'.val (elt f Sx Sy x' y' 0) = conj (m'.val (elt f Sx Sy x y 0))) ∧
      (∀ x y, x0 < x + Hx → x < x0 + Hx → y < y0 + Hy → y0 < y ∨ y = y0 ∧ x0 < x →
        m'.val (elt f Sx Sy x y 0) = m.val (elt f Sx Sy x y 0)) ∧
      m'.val (elt f Sx Sy x0 y0 0) = ((m.val (elt f Sx Sy x0 y0 0)).re : ℂ) ∧
      (x0 = Hx → ∀ y < y0 + Hy, ∀ z < Hz, m'.val (elt f Sx Sy 0 y z) = 0) ∧
      (y0 = Hy → ∀ x < x0 + Hx, ∀ z < Hz, m'.val (elt f Sx Sy x 0 z) = 0) ∧
      (∀ p, (∀ x y, x0 < x + Hx → x < x0 + Hx → y0 < y + Hy → y < y0 ∨ y = y0 ∧ x ≤ x0 → p ≠ elt f Sx Sy x y 0) →
        (x0 = Hx → ∀ y < y0 + Hy, ∀ z < Hz, p ≠ elt f Sx Sy 0 y z) → (y0 = Hy → ∀ x < x0 + Hx, ∀ z < Hz, p ≠ elt f Sx Sy x 0 z) →
        m'.val p = m.val p) ∧
      hermitianSymmetrizeXY Hx Hy Hz x0 y0 f Sx Sy m' = .ok ((), m') := by
  have inj : ∀ {x y z x' y' z'}, z < Sy → z' < Sy → y < y0 + Hy → y' < y0 + Hy → elt f Sx Sy x y z = elt f Sx Sy x' y' z' →
      x = x' ∧ y = y' ∧ z = z' := fun h1 h2 h3 h4 h => at_inj hSx h1 h2 h3 h4 h
  have hSx0 : 0 < Sx := lt_of_lt_of_le (Nat.mul_pos (by omega) (by omega)) hSx
  have key : ∀ m : Mem, m.block f (Sx * (x0 + Hx - 1) + (Sy * (y0 + Hy - 1) + Hz)) →
    ∃ m', hermitianSymmetrizeXY Hx Hy Hz x0 y0 f Sx Sy m = .ok ((), m') ∧ m'.size = m.size ∧
      (∀ x y x' y', x + x' = 2 * x0 → y + y' = 2 * y0 → x < x0 + Hx → x' < x0 + Hx → y < y0 + Hy → y' < y0 + Hy →
        m'.val (elt f Sx Sy x' y' 0) = conj (m'.val (elt f Sx Sy x y 0))) ∧
      (∀ x y, x0 < x + Hx → x < x0 + Hx → y < y0 + Hy → y0 < y ∨ y = y0 ∧ x0 < x →
        m'.val (elt f Sx Sy x y 0) = m.val (elt f Sx Sy x y 0)) ∧
      m'.val (elt f Sx Sy x0 y0 0) = ((m.val (elt f Sx Sy x0 y0 0)).re : ℂ) ∧
      (x0 = Hx → ∀ y < y0 + Hy, ∀ z < Hz, m'.val (elt f Sx Sy 0 y z) = 0) ∧
      (y0 = Hy → ∀ x < x0 + Hx, ∀ z < Hz, m'.val (elt f Sx Sy x 0 z) = 0) ∧
      (∀ p, (∀ x y, x0 < x + Hx → x < x0 + Hx → y0 < y + Hy → y < y0 ∨ y = y0 ∧ x ≤ x0 → p ≠ elt f Sx Sy x y 0) →
        (x0 = Hx → ∀ y < y0 + Hy, ∀ z < Hz, p ≠ elt f Sx Sy 0 y z) → (y0 = Hy → ∀ x < x0 + Hx, ∀ z < Hz, p ≠ elt f Sx Sy x 0 z) →
        m'.val p = m.val p) := by
    intro m hb
    have val : ∀ x y z, x < x0 + Hx → y < y0 + Hy → z < Hz → m.valid (elt f Sx Sy x y z) := by
      intro x y z h1 h2 h3
      apply hb
      have a1 := Nat.mul_le_mul_left Sx (show x ≤ x0 + Hx - 1 by omega)
      have a2 := Nat.mul_le_mul_left Sy (show y ≤ y0 + Hy - 1 by omega)
      omega
    have L := line_ok (f := f) (F := f + (x0 * Sx + y0 * Sy)) (m := m) (Sx := Sx) (x0 := x0) (g := Sy * y0 + 0)
      (by congr 1; ring) hx hx1 hSx0 (fun s hs => ⟨val _ _ _ (by omega) (by omega) (by omega), val _ _ _ (by omega) (by omega) (by omega)⟩)
    refine exists_of_ok ?_
    unfold hermitianSymmetrizeXY
    refine Cmd.Ok.seq2 L ?_
    rintro m1 ⟨u1, v1, w1⟩
    change ∀ s, 1 ≤ s → s < Hx → m1.val (elt f Sx Sy (x0 - s) y0 0) = conj (m.val (elt f Sx Sy (x0 + s) y0 0)) at v1
    change m1.val (elt f Sx Sy x0 y0 0) = _ at w1
    -- the y > 0 half
    refine Cmd.Ok.bind ?_
    have eR : ∀ s t, s < 2 * Hx - 1 → t < Hy → f.addz (((x0 * Sx + y0 * Sy : ℕ) : ℤ) + ((s : ℤ) - (Hx - 1)) * Sx + t * Sy) =
        elt f Sx Sy (x0 + s - (Hx - 1)) (y0 + t) 0 := by
      intro s t hs ht
      have : ((x0 + s - (Hx - 1) : ℕ) : ℤ) = x0 + s - (Hx - 1) := by omega
      unfold elt Ptr.addz
      ext
      · rfl
      · simp only [Ptr.add_off]; push_cast [this]; ring
    have eW : ∀ s t, s < 2 * Hx - 1 → t < Hy → f.addz (((x0 * Sx + y0 * Sy : ℕ) : ℤ) - ((s : ℤ) - (Hx - 1)) * Sx - t * Sy) =
        elt f Sx Sy (x0 + (Hx - 1) - s) (y0 - t) 0 := by
      intro s t hs ht
      have h1 : ((x0 + (Hx - 1) - s : ℕ) : ℤ) = x0 + (Hx - 1) - s := by omega
      have h2 : ((y0 - t : ℕ) : ℤ) = y0 - t := by omega
      unfold elt Ptr.addz
      ext
      · rfl
      · simp only [Ptr.add_off]; push_cast [h1, h2]; ring
    refine par_map1 (fun st => elt f Sx Sy (x0 + (Hx - 1) - st.1) (y0 - st.2) 0)
      (fun st => conj (m1.val (elt f Sx Sy (x0 + st.1 - (Hx - 1)) (y0 + st.2) 0))) (rng2_nodup ..) ?_ ?_ ?_ ?_ ?_
    · rintro ⟨s, t⟩ hst
      rw [mem_rng2] at hst
      obtain ⟨⟨_, hs⟩, ht1, ht⟩ := hst
      simp only at hs ht ht1
      body_simp
      rw [eR s t hs ht, eW s t hs ht]
      have a1 := val (x0 + s - (Hx - 1)) (y0 + t) 0 (by omega) (by omega) (by omega)
      have a2 := val (x0 + (Hx - 1) - s) (y0 - t) 0 (by omega) (by omega) (by omega)
      simp only [Mem.valid, u1.size] at a1 a2 ⊢
      exact ⟨a1, a2⟩
    · rintro ⟨s, t⟩ hst
      rw [mem_rng2] at hst
      obtain ⟨⟨_, hs⟩, ht1, ht⟩ := hst
      simp only at hs ht ht1
      body_simp
      rw [eR s t hs ht, eW s t hs ht]
    · rintro ⟨s, t⟩ hst ⟨s', t'⟩ hst' h
      rw [mem_rng2] at hst hst'
      simp only at hst hst' h
      have := inj (by omega) (by omega) (by omega) (by omega) h
      rw [Prod.mk.injEq]
      omega
    · rintro ⟨s, t⟩ hst ⟨s', t'⟩ hst' _
      rw [mem_rng2] at hst hst'
      simp only at hst hst'
      body_simp
      rw [eR s' t' hst'.1.2 hst'.2.2]
      intro h
      have := inj (by omega) (by omega) (by omega) (by omega) h
      omega
    intro m2 u2 v2
    have w2 : ∀ x y, x0 < x + Hx → x < x0 + Hx → y0 ≤ y → y < y0 + Hy → m2.val (elt f Sx Sy x y 0) = m1.val (elt f Sx Sy x y 0) := by
      intro x y h1 h2 h3 h4
      apply u2.frame
      rintro ⟨⟨s, t⟩, hst, he⟩
      rw [mem_rng2] at hst
      simp only at hst he
      have := inj (by omega) (by omega) (by omega) (by omega) he
      omega
    have up1 : ∀ x y, x0 < x + Hx → x < x0 + Hx → y < y0 + Hy → y0 < y ∨ y = y0 ∧ x0 < x →
        m1.val (elt f Sx Sy x y 0) = m.val (elt f Sx Sy x y 0) := by
      intro x y h1 h2 h3 h4
      apply u1.frame
      rintro ⟨s, hs, he⟩
      have := inj (x' := x0 - s) (y' := y0) (z' := 0) (by omega) (by omega) (by omega) (by omega) he
      omega
    have up : ∀ x y, x0 < x + Hx → x < x0 + Hx → y < y0 + Hy → y0 < y ∨ y = y0 ∧ x0 < x →
        m2.val (elt f Sx Sy x y 0) = m.val (elt f Sx Sy x y 0) := by
      intro x y h1 h2 h3 h4
      rw [w2 x y h1 h2 (by omega) h3, up1 x y h1 h2 h3 h4]
    have orig : m2.val (elt f Sx Sy x0 y0 0) = ((m.val (elt f Sx Sy x0 y0 0)).re : ℂ) := by
      rw [w2 x0 y0 (by omega) (by omega) (by omega) (by omega), w1]
      rfl
    have symU : ∀ x y x' y', x + x' = 2 * x0 → y + y' = 2 * y0 → x < x0 + Hx → x' < x0 + Hx → y < y0 + Hy → y' < y0 + Hy →
        y0 < y ∨ y = y0 ∧ x0 ≤ x → m2.val (elt f Sx Sy x' y' 0) = conj (m2.val (elt f Sx Sy x y 0)) := by
      intro x y x' y' h1 h2 h3 h4 h5 h6 h7
      rcases h7 with h7 | ⟨rfl, h7⟩
      · have := v2 (x + (Hx - 1) - x0, y - y0) (mem_rng2.2 (by simp only; omega))
        simp only at this
        rw [show x0 + (Hx - 1) - (x + (Hx - 1) - x0) = x' by omega, show y0 - (y - y0) = y' by omega,
          show x0 + (x + (Hx - 1) - x0) - (Hx - 1) = x by omega, show y0 + (y - y0) = y by omega] at this
        rw [this, w2 x y (by omega) (by omega) (by omega) (by omega)]
      · have hy' : y' = y := by omega
        subst hy'
        rcases Nat.eq_or_lt_of_le h7 with h7 | h7
        · have hx' : x' = x0 := by omega
          subst hx'
          rw [← h7, orig, Complex.conj_ofReal]
        · have := v1 (x - x0) (by omega) (by omega)
          rw [show x0 - (x - x0) = x' by omega, show x0 + (x - x0) = x by omega] at this
          rw [w2 x' y' (by omega) (by omega) (by omega) (by omega), this, up x y' (by omega) (by omega) (by omega) (by omega)]
    have sym : ∀ x y x' y', x + x' = 2 * x0 → y + y' = 2 * y0 → x < x0 + Hx → x' < x0 + Hx → y < y0 + Hy → y' < y0 + Hy →
        m2.val (elt f Sx Sy x' y' 0) = conj (m2.val (elt f Sx Sy x y 0)) := by
      intro x y x' y' h1 h2 h3 h4 h5 h6
      by_cases h7 : y0 < y ∨ y = y0 ∧ x0 ≤ x
      · exact symU x y x' y' h1 h2 h3 h4 h5 h6 h7
      · rw [symU x' y' x y (by omega) (by omega) h4 h3 h6 h5 (by omega), Complex.conj_conj]
    have fr : ∀ p, (∀ x y, x0 < x + Hx → x < x0 + Hx → y0 < y + Hy → y < y0 ∨ y = y0 ∧ x ≤ x0 → p ≠ elt f Sx Sy x y 0) →
        m2.val p = m.val p := by
      intro p hp
      rw [u2.frame, u1.frame]
      · rintro ⟨s, hs, he⟩
        exact hp (x0 - s) y0 (by omega) (by omega) (by omega) (by omega) he
      · rintro ⟨⟨s, t⟩, hst, he⟩
        rw [mem_rng2] at hst
        simp only at hst he
        exact hp _ _ (by omega) (by omega) (by omega) (by omega) he
    have s2 : m2.size = m.size := by rw [u2.size, u1.size]
    have val2 : ∀ x y z, x < x0 + Hx → y < y0 + Hy → z < Hz → m2.valid (elt f Sx Sy x y z) := by
      intro x y z h1 h2 h3
      have := val x y z h1 h2 h3
      simp only [Mem.valid, s2] at this ⊢
      exact this
    clear v2 w2 up1 symU v1 w1 u1 u2 eR eW L val
    -- Nyquist modes
    refine Cmd.Ok.bind (Cmd.Ok.mono (Q := fun _ m3 => m2.Upd m3 (fun p => x0 = Hx ∧ ∃ y < y0 + Hy, ∃ z < Hz, p = elt f Sx Sy 0 y z) ∧
      (x0 = Hx → ∀ y < y0 + Hy, ∀ z < Hz, m3.val (elt f Sx Sy 0 y z) = 0)) ?_ ?_)
    · by_cases hN : x0 = Hx
      · rw [if_pos hN]
        have e : ∀ j k, f + (Sy * j + k) = elt f Sx Sy 0 j k := by
          intro j k; unfold elt; rw [Nat.mul_zero, Nat.zero_add]
        refine par_map1 (fun jk => elt f Sx Sy 0 jk.1 jk.2) (fun _ => 0) (rng2_nodup ..) ?_ ?_ ?_ ?_ ?_
        · rintro ⟨j, k⟩ h
          rw [mem_rng2] at h
          simp only at h
          body_simp
          rw [e]
          exact val2 _ _ _ (by omega) (by omega) (by omega)
        · rintro ⟨j, k⟩ h
          body_simp
          rw [e]
        · rintro ⟨j, k⟩ h ⟨j', k'⟩ h' he
          rw [mem_rng2] at h h'
          simp only at h h' he
          have := inj (by omega) (by omega) (by omega) (by omega) he
          rw [Prod.mk.injEq]
          omega
        · rintro ⟨j, k⟩ h ⟨j', k'⟩ h' he
          body_simp
        · intro m3 u3 v3
          refine ⟨⟨u3.size, fun p hp => u3.frame p ?_⟩, fun _ y hy z hz => v3 (y, z) (mem_rng2.2 (by simp only; omega))⟩
          rintro ⟨⟨j, k⟩, h, he⟩
          rw [mem_rng2] at h
          exact hp ⟨hN, j, h.1.2, k, h.2.2, he⟩
      · rw [if_neg hN]
        exact Cmd.Ok.pure ⟨⟨rfl, fun _ _ => rfl⟩, fun h => absurd h hN⟩
    rintro _ m3 ⟨u3, v3⟩
    have val3 : ∀ x y z, x < x0 + Hx → y < y0 + Hy → z < Hz → m3.valid (elt f Sx Sy x y z) := by
      intro x y z h1 h2 h3
      have := val2 x y z h1 h2 h3
      simp only [Mem.valid, u3.size] at this ⊢
      exact this
    refine Cmd.Ok.mono (Q := fun _ m4 => m3.Upd m4 (fun p => y0 = Hy ∧ ∃ x < x0 + Hx, ∃ z < Hz, p = elt f Sx Sy x 0 z) ∧
      (y0 = Hy → ∀ x < x0 + Hx, ∀ z < Hz, m4.val (elt f Sx Sy x 0 z) = 0)) ?_ ?_
    · by_cases hN : y0 = Hy
      · rw [if_pos hN]
        have e : ∀ j k, f + (Sx * j + k) = elt f Sx Sy j 0 k := by
          intro j k; unfold elt; rw [Nat.mul_zero, Nat.zero_add]
        refine par_map1 (fun jk => elt f Sx Sy jk.1 0 jk.2) (fun _ => 0) (rng2_nodup ..) ?_ ?_ ?_ ?_ ?_
        · rintro ⟨j, k⟩ h
          rw [mem_rng2] at h
          simp only at h
          body_simp
          rw [e]
          exact val3 _ _ _ (by omega) (by omega) (by omega)
        · rintro ⟨j, k⟩ h
          body_simp
          rw [e]
        · rintro ⟨j, k⟩ h ⟨j', k'⟩ h' he
          rw [mem_rng2] at h h'
          simp only at h h' he
          have := inj (by omega) (by omega) (by omega) (by omega) he
          rw [Prod.mk.injEq]
          omega
        · rintro ⟨j, k⟩ h ⟨j', k'⟩ h' he
          body_simp
        · intro m4 u4 v4
          refine ⟨⟨u4.size, fun p hp => u4.frame p ?_⟩, fun _ y hy z hz => v4 (y, z) (mem_rng2.2 (by simp only; omega))⟩
          rintro ⟨⟨j, k⟩, h, he⟩
          rw [mem_rng2] at h
          exact hp ⟨hN, j, h.1.2, k, h.2.2, he⟩
      · rw [if_neg hN]
        exact Cmd.Ok.pure ⟨⟨rfl, fun _ _ => rfl⟩, fun h => absurd h hN⟩
    rintro _ m4 ⟨u4, v4⟩
    have inner : ∀ x y, x0 < x + Hx → x < x0 + Hx → y0 < y + Hy → y < y0 + Hy → m4.val (elt f Sx Sy x y 0) = m2.val (elt f Sx Sy x y 0) := by
      intro x y h1 h2 h3 h4
      rw [u4.frame, u3.frame]
      · rintro ⟨hN, y', h5, z', h6, he⟩
        have := inj (by omega) (by omega) (by omega) (by omega) he
        omega
      · rintro ⟨hN, y', h5, z', h6, he⟩
        have := inj (by omega) (by omega) (by omega) (by omega) he
        omega
    refine ⟨by rw [u4.size, u3.size, s2], ?_, ?_, ?_, ?_, v4, ?_⟩
    · intro x y x' y' h1 h2 h3 h4 h5 h6
      rw [inner x y (by omega) (by omega) (by omega) (by omega), inner x' y' (by omega) (by omega) (by omega) (by omega)]
      exact sym x y x' y' h1 h2 h3 h4 h5 h6
    · intro x y h1 h2 h3 h4
      rw [inner x y (by omega) (by omega) (by omega) (by omega), up x y h1 h2 h3 h4]
    · rw [inner x0 y0 (by omega) (by omega) (by omega) (by omega), orig]
    · intro hN y hy z hz
      by_cases hp : y0 = Hy ∧ y = 0
      · obtain ⟨hp, rfl⟩ := hp
        exact v4 hp 0 (by omega) z hz
      · rw [u4.frame, v3 hN y hy z hz]
        rintro ⟨hN', x', h5, z', h6, he⟩
        have := inj (by omega) (by omega) (by omega) (by omega) he
        omega
    · intro p h1 h2 h3
      rw [u4.frame, u3.frame, fr p h1]
      · rintro ⟨hN, y', h5, z', h6, he⟩
        exact h2 hN y' h5 z' h6 he
      · rintro ⟨hN, y', h5, z', h6, he⟩
        exact h3 hN y' h5 z' h6 he
  obtain ⟨m1, h1, s1, a1, b1, c1, d1, e1, f1⟩ := key m hb
  refine ⟨m1, h1, s1, a1, b1, c1, d1, e1, f1, ?_⟩
  have hb' : m1.block f (Sx * (x0 + Hx - 1) + (Sy * (y0 + Hy - 1) + Hz)) := by
    intro i hi
    have := hb i hi
    simp only [Mem.valid, s1] at this ⊢
    exact this
  obtain ⟨m2, h2, s2, a2, b2, c2, d2, e2, f2⟩ := key m1 hb'
  rw [h2]
  congr 2
  ext p : 2
  · rw [s2]
  by_cases hN : x0 = Hx ∧ ∃ y < y0 + Hy, ∃ z < Hz, p = elt f Sx Sy 0 y z
  · obtain ⟨hN, y, hy, z, hz, rfl⟩ := hN
    rw [d1 hN y hy z hz, d2 hN y hy z hz]
  by_cases hN' : y0 = Hy ∧ ∃ x < x0 + Hx, ∃ z < Hz, p = elt f Sx Sy x 0 z
  · obtain ⟨hN', y, hy, z, hz, rfl⟩ := hN'
    rw [e1 hN' y hy z hz, e2 hN' y hy z hz]
  by_cases hp : ∃ x y, x0 < x + Hx ∧ x < x0 + Hx ∧ y0 < y + Hy ∧ (y < y0 ∨ y = y0 ∧ x ≤ x0) ∧ p = elt f Sx Sy x y 0
  · obtain ⟨x, y, h3, h4, h5, h6, rfl⟩ := hp
    by_cases ho : x = x0 ∧ y = y0
    · obtain ⟨rfl, rfl⟩ := ho
      rw [c2, c1, Complex.ofReal_re]
    · have H1 := a1 (2 * x0 - x) (2 * y0 - y) x y (by omega) (by omega) (by omega) (by omega) (by omega) (by omega)
      have H2 := a2 (2 * x0 - x) (2 * y0 - y) x y (by omega) (by omega) (by omega) (by omega) (by omega) (by omega)
      rw [H1, H2, b2 _ _ (by omega) (by omega) (by omega) (by omega)]
  · apply f2
    · intro x y h3 h4 h5 h6 he
      exact hp ⟨x, y, h3, h4, h5, h6, he⟩
    · intro h y hy z hz he
      exact hN ⟨h, y, hy, z, hz, he⟩
    · intro h y hy z hz he
      exact hN' ⟨h, y, hy, z, hz, he⟩

/-- The hypotheses are met, with Nyquist planes, for the default strides `Sx=(y0+Hy)*Hz`, `Sy=Hz`. -/
example : ∃ m : Mem, 4 * (2 + 2) ≤ (2 + 2) * 4 ∧ m.block ⟨0, 0⟩ ((2 + 2) * 4 * (3 + 3 - 1) + (4 * (2 + 2 - 1) + 4)) := by
  refine ⟨⟨fun _ => 96, fun _ => 0⟩, by omega, fun i hi => ⟨?_, ?_⟩⟩
  · show (0 : ℤ) ≤ 0 + i
    omega
  · show (0 : ℤ) + i < (96 : ℕ)
    omega

/-- **C21** (1D): `HermitianSymmetrize` makes the first element real and changes nothing else. -/
theorem C21_symmetrize {f : Ptr} {m : Mem} (hb : m.valid f) :
    ∃ m', hermitianSymmetrize f m = .ok ((), m') ∧ m'.size = m.size ∧ m'.val f = ((m.val f).re : ℂ) ∧ ∀ p, p ≠ f → m'.val p = m.val p := by
  refine exists_of_ok (Q := fun m' => m'.size = m.size ∧ m'.val f = ((m.val f).re : ℂ) ∧ ∀ p, p ≠ f → m'.val p = m.val p) ?_
  unfold hermitianSymmetrize clearIm
  refine run_map1 f ((m.val f).re : ℂ) ?_ ?_ ?_
  · body_simp
    exact ⟨hb, hb⟩
  · body_simp
  · intro m' u v
    exact ⟨u.size, v, u.frame⟩

/-- The routines with default strides are the general ones for contiguous arrays, whose stride hypotheses hold. -/
theorem C21_default_strides (Hx Hy Hz x0 y0 : ℕ) (f : Ptr) :
    hermitianSymmetrizeX' Hx Hy x0 f = hermitianSymmetrizeX Hx Hy x0 f Hy ∧
    (∃ Sx Sy, hermitianSymmetrizeXY' Hx Hy Hz x0 y0 f = hermitianSymmetrizeXY Hx Hy Hz x0 y0 f Sx Sy ∧ Hz ≤ Sy ∧ Sy * (y0 + Hy) ≤ Sx) :=
  ⟨rfl, _, _, rfl, le_rfl, (Nat.mul_comm ..).le⟩

end Fftwpp
