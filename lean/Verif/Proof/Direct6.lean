import Verif.Proof.Direct5
import Verif.Props.MpiSymm

/-! Direct convolutions of Hermitian data, with symmetrization. -/

namespace Fftwpp
open Finset
local notation "conj" => starRingEnd ℂ

/-- `D'` is the Hermitian symmetrization of the two-dimensional array `D`: in the line `j=0` the half that follows the origin is kept, the word at the origin is
made real, and the other half is determined by symmetry; the other lines are kept; but the Nyquist line is zeroed. -/
structure Symmetrized2 (X H : ℕ) (D D' : ℕ → ℕ → ℂ) : Prop where
  herm : HermData2 X (X / 2) D'
  nyq : X % 2 = 0 → ∀ j < H, D' 0 j = 0
  kept : ∀ i < X, X / 2 < i → D' i 0 = D i 0
  lines : ∀ i < X, ∀ j < H, (X % 2 = 0 → i ≠ 0) → j ≠ 0 → D' i j = D i j
  origin : D' (X / 2) 0 = ((D (X / 2) 0).re : ℂ)

namespace Direct
variable {m m' : Mem} {h f g : Ptr} {nh n : ℕ}

theorem Cmd_assoc {α β γ : Type} (x : Cmd α) (y : α → Cmd β) (z : β → Cmd γ) : ((x >>= y) >>= z) = (x >>= fun a => y a >>= z) := by
  funext m
  show (match (match x m with | .ok (a, m') => y a m' | .error e => .error e) with | .ok (a, m') => z a m' | .error e => .error e) =
    (match x m with | .ok (a, m') => (match y a m' with | .ok (b, m'') => z b m'' | .error e => .error e) | .error e => .error e)
  cases x m <;> rfl

theorem convh2_true {mx my S : ℕ} {xc : Bool} : convh2 mx my xc S h f g true =
    (hermitianSymmetrizeX' mx my (mx - (if xc = true then 1 else 0)) f >>= fun _ =>
      hermitianSymmetrizeX' mx my (mx - (if xc = true then 1 else 0)) g >>= fun _ => convh2 mx my xc S h f g false) := by
  show ((hermitianSymmetrizeX' mx my (mx - (if xc = true then 1 else 0)) f >>= fun _ =>
      hermitianSymmetrizeX' mx my (mx - (if xc = true then 1 else 0)) g) >>= fun _ => convh2 mx my xc S h f g false) = _
  exact Cmd_assoc _ _ _

theorem convh3_true {mx my mz S1 S2 : ℕ} {xc yc : Bool} : convh3 mx my mz xc yc S1 S2 h f g true =
    (hermitianSymmetrizeXY' mx my mz (mx - (if xc = true then 1 else 0)) (my - (if yc = true then 1 else 0)) f >>= fun _ =>
      hermitianSymmetrizeXY' mx my mz (mx - (if xc = true then 1 else 0)) (my - (if yc = true then 1 else 0)) g >>= fun _ =>
      convh3 mx my mz xc yc S1 S2 h f g false) := by
  show ((hermitianSymmetrizeXY' mx my mz (mx - (if xc = true then 1 else 0)) (my - (if yc = true then 1 else 0)) f >>= fun _ =>
      hermitianSymmetrizeXY' mx my mz (mx - (if xc = true then 1 else 0)) (my - (if yc = true then 1 else 0)) g) >>= fun _ =>
      convh3 mx my mz xc yc S1 S2 h f g false) = _
  exact Cmd_assoc _ _ _

theorem symm2_ok {mx my x0 : ℕ} (hmx : 1 ≤ mx) (h1 : x0 ≤ mx) (h2 : mx ≤ x0 + 1) (hmy : 1 ≤ my) (hb : m.block f (my * (x0 + mx - 1) + my)) :
    (hermitianSymmetrizeX' mx my x0 f).Ok m fun _ m' => m.Upd m' (fun p => ∃ k < my * (x0 + mx - 1) + my, p = f + k) ∧
      Symmetrized2 (x0 + mx) my (dat2 m f my) (dat2 m' f my) := by
  obtain ⟨m', e, hs, c1, c2, c3, c4, c5, _⟩ := C21_symmetrizeX hmx h2 hmy le_rfl hb
  have hx : (x0 + mx) / 2 = x0 := by omega
  refine ⟨(), m', e, ⟨hs, fun p hp => c5 p (fun s hs e => hp ⟨my * (x0 - s), ?_, e⟩) (fun _ j hj e => hp ⟨j, by omega, e⟩)⟩, ?_, ?_, ?_, ?_, ?_⟩
  · have := Nat.mul_le_mul_left my (show x0 - s ≤ x0 + mx - 1 by omega)
    omega
  · have sym : ∀ a b, a + b = 2 * x0 → a < x0 + mx → b < x0 + mx → dat2 m' f my a 0 = conj (dat2 m' f my b 0) := by
      intro a b hab ha hb
      unfold dat2
      rcases Nat.le_total a x0 with hl | hl
      · have := c1 (x0 - a) (by omega)
        rwa [show x0 - (x0 - a) = a by omega, show x0 + (x0 - a) = b by omega] at this
      · have := c1 (x0 - b) (by omega)
        rw [show x0 - (x0 - b) = b by omega, show x0 + (x0 - b) = a by omega] at this
        show m'.val (f + my * a) = conj (m'.val (f + my * b))
        rw [this, Complex.conj_conj]
    intro i
    rw [hx]
    unfold cext
    beta_reduce
    have ny : x0 = mx → ∀ a, a = 0 → dat2 m' f my a 0 = 0 := by
      rintro e a rfl
      have := c4 e 0 (by omega)
      exact this
    split_ifs with a b b
    · exact sym _ _ (by omega) (by omega) (by omega)
    · rw [map_zero]; exact ny (by omega) _ (by omega)
    · rw [ny (by omega) _ (by omega), map_zero]
    · rw [map_zero]
  · intro e j hj
    have := c4 (by omega) j hj
    unfold dat2
    rwa [Nat.mul_zero, Nat.zero_add]
  · intro i hi hi'
    rw [hx] at hi'
    have := c2 (i - x0) (by omega) (by omega)
    rwa [show x0 + (i - x0) = i by omega] at this
  · intro i hi j hj hne hj0
    refine c5 _ (fun s hs e => ?_) (fun e j' hj' e' => ?_)
    · rw [Ptr.add_inj] at e
      have := radix_inj (s := i) (c := j) (s' := x0 - s) (c' := 0) hj hmy e
      omega
    · rw [Ptr.add_inj] at e'
      have := radix_inj (s := i) (c := j) (s' := 0) (c' := j') hj hj' (by omega)
      exact hne (by omega) this.1
  · rw [hx]; exact c3

theorem symm3_ok {mx my mz x0 y0 : ℕ} (hmx : 1 ≤ mx) (h1 : x0 ≤ mx) (h2 : mx ≤ x0 + 1) (hmy : 1 ≤ my) (h3 : y0 ≤ my) (h4 : my ≤ y0 + 1) (hmz : 1 ≤ mz)
    (hb : m.block f ((y0 + my) * mz * (x0 + mx - 1) + mz * (y0 + my - 1) + mz)) :
    (hermitianSymmetrizeXY' mx my mz x0 y0 f).Ok m fun _ m' =>
      m.Upd m' (fun p => ∃ k < (y0 + my) * mz * (x0 + mx - 1) + mz * (y0 + my - 1) + mz, p = f + k) ∧
      Symmetrized (x0 + mx) (y0 + my) mz (dat3 m f ((y0 + my) * mz) mz) (dat3 m' f ((y0 + my) * mz) mz) := by
  obtain ⟨m', e, hs, c1, c2, c3, c4, c5, c6, _⟩ := C21_symmetrizeXY (f := f) (m := m) (Sx := (y0 + my) * mz) (Sy := mz) hmx h2 hmy h4 hmz le_rfl (by rw [Nat.mul_comm])
    (by rw [← Nat.add_assoc]; exact hb)
  have hx : (x0 + mx) / 2 = x0 := by omega
  have hy : (y0 + my) / 2 = y0 := by omega
  have hlt : ∀ a < x0 + mx, ∀ b < y0 + my, ∀ c < mz, (y0 + my) * mz * a + (mz * b + c) < (y0 + my) * mz * (x0 + mx - 1) + mz * (y0 + my - 1) + mz := fun a ha b hb c hc => by
    have := Nat.mul_le_mul_left ((y0 + my) * mz) (show a ≤ x0 + mx - 1 by omega)
    have := Nat.mul_le_mul_left mz (show b ≤ y0 + my - 1 by omega)
    omega
  have inj : ∀ {x y z x' y' z'}, y < y0 + my → y' < y0 + my → z < mz → z' < mz → elt f ((y0 + my) * mz) mz x y z = elt f ((y0 + my) * mz) mz x' y' z' →
      x = x' ∧ y = y' ∧ z = z' := fun h1 h2 h3 h4 e => ad_inj h1 h3 h2 h4 (Ptr.add_inj.1 e)
  refine ⟨(), m', e, ⟨hs, fun p hp => c6 p ?_ ?_ ?_⟩, ?_, ?_, ?_, ?_, ?_, ?_⟩
  · intro x y _ hx _ hy e
    exact hp ⟨_, hlt x (by omega) y (by omega) 0 (by omega), e⟩
  · intro _ y hy z hz e
    exact hp ⟨_, hlt 0 (by omega) y (by omega) z (by omega), e⟩
  · intro _ x hx z hz e
    exact hp ⟨_, hlt x (by omega) 0 (by omega) z (by omega), e⟩
  · have z1 : x0 = mx → ∀ a, a = 0 → ∀ b < y0 + my, dat3 m' f ((y0 + my) * mz) mz a b 0 = 0 := by
      rintro e a rfl b hb
      exact c4 e b hb 0 (by omega)
    have z2 : y0 = my → ∀ b, b = 0 → ∀ a < x0 + mx, dat3 m' f ((y0 + my) * mz) mz a b 0 = 0 := by
      rintro e b rfl a ha
      exact c5 e a ha 0 (by omega)
    intro i j
    rw [hx, hy]
    by_cases hij : i.natAbs < mx ∧ j.natAbs < my
    · unfold cext2 cext
      rw [if_pos (by omega), if_pos (by omega)]
      beta_reduce
      rw [if_pos (by omega), if_pos (by omega)]
      exact c1 _ _ _ _ (by omega) (by omega) (by omega) (by omega) (by omega) (by omega)
    · have := cext2_supp (Lx := x0 + mx) (Ly := y0 + my) (g := fun a b => dat3 m' f ((y0 + my) * mz) mz a b 0) (fun he j hj => z1 (by omega) 0 rfl j hj)
        (fun he i hi => z2 (by omega) 0 rfl i hi) (i := i) (j := j) (by omega)
      have h' := cext2_supp (Lx := x0 + mx) (Ly := y0 + my) (g := fun a b => dat3 m' f ((y0 + my) * mz) mz a b 0) (fun he j hj => z1 (by omega) 0 rfl j hj)
        (fun he i hi => z2 (by omega) 0 rfl i hi) (i := -i) (j := -j) (by omega)
      rw [hx, hy] at this h'
      rw [this, h', map_zero]
  · exact fun e j hj k hk => c4 (by omega) j hj k hk
  · exact fun e i hi k hk => c5 (by omega) i hi k hk
  · intro i hi j hj n1 n2 hc
    rw [hx, hy] at hc
    exact c2 i j (by omega) hi hj hc
  · intro i hi j hj k hk n1 n2 hk0
    refine c6 _ ?_ ?_ ?_
    · intro x y _ hx _ hy e
      have := inj hj (by omega) hk (by omega) e
      omega
    · intro _ y hy z hz e
      have := inj hj hy hk hz e
      omega
    · intro _ x hx z hz e
      have := inj hj (by omega) hk hz e
      omega
  · intro _ _
    rw [hx, hy]
    exact c3

theorem hermLin2_congr {X x0 Y : ℕ} {x x' y y' : ℕ → ℕ → ℂ} (ex : ∀ i < X, ∀ j < Y, x i j = x' i j) (ey : ∀ i < X, ∀ j < Y, y i j = y' i j) (k l : ℤ) :
    hermLin2 X x0 Y x y k l = hermLin2 X x0 Y x' y' k l := by
  have hh : ∀ {x x' : ℕ → ℕ → ℂ}, (∀ i < X, ∀ j < Y, x i j = x' i j) → ∀ i j : ℤ, hext2 X x0 Y x i j = hext2 X x0 Y x' i j := by
    intro x x' ex i j
    unfold hext2 cext
    split_ifs
    · exact ex _ (by omega) _ (by omega)
    · rfl
    · exact congrArg conj (ex _ (by omega) _ (by omega))
    · rfl
    · rfl
  unfold hermLin2
  simp only [hh ex, hh ey]

/-- `directconvh2::convolve` with symmetrization. -/
theorem convh2_sym {mx my S x0 : ℕ} {xc : Bool} (hmx : 1 ≤ mx) (hmy : 1 ≤ my) (hx0 : x0 = mx - (if xc = true then 1 else 0)) (hS : stride S my = my)
    (A : Arrays m h f g ((x0 + mx) * my) (my * (x0 + mx - 1) + my)) (sfg : ∀ a < my * (x0 + mx - 1) + my, ∀ b < my * (x0 + mx - 1) + my, f + a ≠ g + b) :
    (convh2 mx my xc S h f g true).Ok m fun _ m' =>
      m.Upd m' (fun p => (∃ k < (x0 + mx) * my, p = h + k) ∨ ∃ k < my * (x0 + mx - 1) + my, p = f + k ∨ p = g + k) ∧
      Symmetrized2 (x0 + mx) my (dat2 m f my) (dat2 m' f my) ∧ Symmetrized2 (x0 + mx) my (dat2 m g my) (dat2 m' g my) ∧
      ∀ i < x0 + mx, ∀ j < my, m'.val (h + (i * my + j)) = hermLin2 (x0 + mx) x0 my (dat2 m' f my) (dat2 m' g my) ((i : ℤ) - x0) j := by
  obtain ⟨s1, s2, s3, s4, s5⟩ := sizes xc hmx
  rw [← hx0] at s1 s2 s3 s4 s5
  have hlt : ∀ a < x0 + mx, ∀ b < my, my * a + b < my * (x0 + mx - 1) + my := fun a ha b hb => by
    have := Nat.mul_le_mul_left my (show a ≤ x0 + mx - 1 by omega)
    omega
  have cong : ∀ {D D1 D' D1' : ℕ → ℕ → ℂ}, (∀ i < x0 + mx, ∀ j < my, D i j = D1 i j) → (∀ i < x0 + mx, ∀ j < my, D' i j = D1' i j) →
      Symmetrized2 (x0 + mx) my D D' → Symmetrized2 (x0 + mx) my D1 D1' := by
    intro D D1 D' D1' e e' H
    refine ⟨fun i => ?_, fun he j hj => by rw [← e' 0 (by omega) j hj]; exact H.nyq he j hj, fun i hi hi' => by rw [← e' i hi 0 (by omega), ← e i hi 0 (by omega)]; exact H.kept i hi hi',
      fun i hi j hj n1 n2 => by rw [← e' i hi j hj, ← e i hi j hj]; exact H.lines i hi j hj n1 n2, by
        rw [← e' _ (by omega) 0 (by omega), ← e _ (by omega) 0 (by omega)]; exact H.origin⟩
    have h0 : ∀ i : ℤ, cext (x0 + mx) ((x0 + mx) / 2) (fun a => D1' a 0) i = cext (x0 + mx) ((x0 + mx) / 2) (fun a => D' a 0) i := by
      intro i
      unfold cext
      split_ifs
      · exact (e' _ (by omega) 0 (by omega)).symm
      · rfl
    rw [h0, h0]
    exact H.herm i
  rw [convh2_true, ← hx0]
  refine Cmd.Ok.bind ((symm2_ok hmx s1 s2 hmy A.hf).mono ?_)
  rintro _ m1 ⟨u1, y1⟩
  have A1 := A.upd u1
  refine Cmd.Ok.bind ((symm2_ok hmx s1 s2 hmy A1.hg).mono ?_)
  rintro _ m2 ⟨u2, y2⟩
  have A2 := A1.upd u2
  have ef : ∀ i < x0 + mx, ∀ j < my, dat2 m2 f my i j = dat2 m1 f my i j := fun i hi j hj =>
    u2.frame _ (by rintro ⟨k, hk, e⟩; exact sfg _ (hlt i hi j hj) _ hk e)
  have eg : ∀ i < x0 + mx, ∀ j < my, dat2 m1 g my i j = dat2 m g my i j := fun i hi j hj =>
    u1.frame _ (by rintro ⟨k, hk, e⟩; exact sfg _ hk _ (hlt i hi j hj) e.symm)
  have Y1 : Symmetrized2 (x0 + mx) my (dat2 m f my) (dat2 m2 f my) := cong (fun _ _ _ _ => rfl) (fun i hi j hj => (ef i hi j hj).symm) y1
  have Y2 : Symmetrized2 (x0 + mx) my (dat2 m g my) (dat2 m2 g my) := cong eg (fun _ _ _ _ => rfl) y2
  refine (convh2_core (S := S) (m := m2) hmx hx0 (by rw [hS]; exact A2) (fun e j hj => by rw [hS]; exact ⟨Y1.nyq e j hj, Y2.nyq e j hj⟩)).mono ?_
  rw [hS]
  rintro _ m3 ⟨u3, v3⟩
  have ef3 : ∀ i < x0 + mx, ∀ j < my, dat2 m2 f my i j = dat2 m3 f my i j := fun i hi j hj =>
    (u3.frame _ (by rintro ⟨k, hk, e⟩; exact A.sf _ hk _ (hlt i hi j hj) e)).symm
  have eg3 : ∀ i < x0 + mx, ∀ j < my, dat2 m2 g my i j = dat2 m3 g my i j := fun i hi j hj =>
    (u3.frame _ (by rintro ⟨k, hk, e⟩; exact A.sg _ hk _ (hlt i hi j hj) e)).symm
  refine ⟨?_, cong (fun _ _ _ _ => rfl) ef3 Y1, cong (fun _ _ _ _ => rfl) eg3 Y2, fun i hi j hj => ?_⟩
  · refine u1.trans (u2.trans u3 (fun p hp => ?_) (fun p hp => ?_)) (fun p hp => ?_) (fun p hp => hp)
    · obtain ⟨k, hk, e⟩ := hp; exact Or.inr ⟨k, hk, Or.inr e⟩
    · exact Or.inl hp
    · obtain ⟨k, hk, e⟩ := hp; exact Or.inr ⟨k, hk, Or.inl e⟩
  · rw [v3 i hi j hj]
    exact hermLin2_congr ef3 eg3 _ _

theorem symmetrized_congr {X Y Z : ℕ} {D D1 D' D1' : ℕ → ℕ → ℕ → ℂ} (hX : 0 < X) (hY : 0 < Y) (hZ : 0 < Z) (e : ∀ i < X, ∀ j < Y, ∀ k < Z, D i j k = D1 i j k)
    (e' : ∀ i < X, ∀ j < Y, ∀ k < Z, D' i j k = D1' i j k) (H : Symmetrized X Y Z D D') : Symmetrized X Y Z D1 D1' := by
  refine ⟨fun i j => ?_, fun he j hj k hk => by rw [← e' 0 hX j hj k hk]; exact H.nyqx he j hj k hk, fun he i hi k hk => by rw [← e' i hi 0 hY k hk]; exact H.nyqy he i hi k hk,
    fun i hi j hj n1 n2 hc => by rw [← e' i hi j hj 0 hZ, ← e i hi j hj 0 hZ]; exact H.kept i hi j hj n1 n2 hc,
    fun i hi j hj k hk n1 n2 hc => by rw [← e' i hi j hj k hk, ← e i hi j hj k hk]; exact H.planes i hi j hj k hk n1 n2 hc,
    fun h1 h2 => by rw [← e' _ (by omega) _ (by omega) 0 hZ, ← e _ (by omega) _ (by omega) 0 hZ]; exact H.origin h1 h2⟩
  have h0 : ∀ i j : ℤ, cext2 X (X / 2) Y (Y / 2) (fun a b => D1' a b 0) i j = cext2 X (X / 2) Y (Y / 2) (fun a b => D' a b 0) i j := by
    intro i j
    unfold cext2 cext
    split_ifs
    · exact (e' _ (by omega) _ (by omega) 0 hZ).symm
    · rfl
    · rfl
  rw [h0, h0]
  exact H.herm i j

theorem hermLin3_congr {X x0 Y y0 Z : ℕ} {x x' y y' : ℕ → ℕ → ℕ → ℂ} (ex : ∀ i < X, ∀ j < Y, ∀ k < Z, x i j k = x' i j k)
    (ey : ∀ i < X, ∀ j < Y, ∀ k < Z, y i j k = y' i j k) (k l p : ℤ) : hermLin3 X x0 Y y0 Z x y k l p = hermLin3 X x0 Y y0 Z x' y' k l p := by
  have hh : ∀ {x x' : ℕ → ℕ → ℕ → ℂ}, (∀ i < X, ∀ j < Y, ∀ k < Z, x i j k = x' i j k) → ∀ i j k : ℤ, hext3 X x0 Y y0 Z x i j k = hext3 X x0 Y y0 Z x' i j k := by
    intro x x' ex i j k
    have hc : ∀ i j : ℤ, k.natAbs < Z → cext2 X x0 Y y0 (fun a b => x a b k.natAbs) i j = cext2 X x0 Y y0 (fun a b => x' a b k.natAbs) i j := by
      intro i j hk
      unfold cext2 cext
      split_ifs
      · exact ex _ (by omega) _ (by omega) _ hk
      · rfl
      · rfl
    unfold hext3
    split_ifs with h1
    · exact hc _ _ h1
    · rw [hc _ _ h1]
    · rfl
  unfold hermLin3
  simp only [hh ex, hh ey]

/-- `directconvh3::convolve` with symmetrization. -/
theorem convh3_sym {mx my mz S1 S2 x0 y0 : ℕ} {xc yc : Bool} (hmx : 1 ≤ mx) (hmy : 1 ≤ my) (hmz : 1 ≤ mz) (hx0 : x0 = mx - (if xc = true then 1 else 0))
    (hy0 : y0 = my - (if yc = true then 1 else 0)) (hS2 : stride S2 mz = mz) (hS1 : stride S1 ((2 * my - (if yc = true then 1 else 0)) * mz) = (y0 + my) * mz)
    (A : Arrays m h f g ((x0 + mx) * ((y0 + my) * mz)) ((y0 + my) * mz * (x0 + mx - 1) + mz * (y0 + my - 1) + mz))
    (sfg : ∀ a < (y0 + my) * mz * (x0 + mx - 1) + mz * (y0 + my - 1) + mz, ∀ b < (y0 + my) * mz * (x0 + mx - 1) + mz * (y0 + my - 1) + mz, f + a ≠ g + b) :
    (convh3 mx my mz xc yc S1 S2 h f g true).Ok m fun _ m' =>
      m.Upd m' (fun p => (∃ k < (x0 + mx) * ((y0 + my) * mz), p = h + k) ∨
        ∃ k < (y0 + my) * mz * (x0 + mx - 1) + mz * (y0 + my - 1) + mz, p = f + k ∨ p = g + k) ∧
      Symmetrized (x0 + mx) (y0 + my) mz (dat3 m f ((y0 + my) * mz) mz) (dat3 m' f ((y0 + my) * mz) mz) ∧
      Symmetrized (x0 + mx) (y0 + my) mz (dat3 m g ((y0 + my) * mz) mz) (dat3 m' g ((y0 + my) * mz) mz) ∧
      ∀ i < x0 + mx, ∀ j < y0 + my, ∀ k < mz, m'.val (h + (i * ((y0 + my) * mz) + (j * mz + k))) =
        hermLin3 (x0 + mx) x0 (y0 + my) y0 mz (dat3 m' f ((y0 + my) * mz) mz) (dat3 m' g ((y0 + my) * mz) mz) ((i : ℤ) - x0) ((j : ℤ) - y0) k := by
  obtain ⟨s1, s2, s3, s4, s5⟩ := sizes xc hmx
  rw [← hx0] at s1 s2 s3 s4 s5
  obtain ⟨t1, t2, t3, t4, t5⟩ := sizes yc hmy
  rw [← hy0] at t1 t2 t3 t4 t5
  have hlt : ∀ a < x0 + mx, ∀ b < y0 + my, ∀ c < mz, (y0 + my) * mz * a + (mz * b + c) < (y0 + my) * mz * (x0 + mx - 1) + mz * (y0 + my - 1) + mz := fun a ha b hb c hc => by
    have := Nat.mul_le_mul_left ((y0 + my) * mz) (show a ≤ x0 + mx - 1 by omega)
    have := Nat.mul_le_mul_left mz (show b ≤ y0 + my - 1 by omega)
    omega
  have cong := @symmetrized_congr (x0 + mx) (y0 + my) mz
  have hX : 0 < x0 + mx := by omega
  have hY : 0 < y0 + my := by omega
  rw [convh3_true, ← hx0, ← hy0]
  refine Cmd.Ok.bind ((symm3_ok hmx s1 s2 hmy t1 t2 hmz A.hf).mono ?_)
  rintro _ m1 ⟨u1, y1⟩
  have A1 := A.upd u1
  refine Cmd.Ok.bind ((symm3_ok hmx s1 s2 hmy t1 t2 hmz A1.hg).mono ?_)
  rintro _ m2 ⟨u2, y2⟩
  have A2 := A1.upd u2
  have ef : ∀ i < x0 + mx, ∀ j < y0 + my, ∀ k < mz, dat3 m1 f ((y0 + my) * mz) mz i j k = dat3 m2 f ((y0 + my) * mz) mz i j k := fun i hi j hj k hk =>
    (u2.frame _ (by rintro ⟨q, hq, e⟩; exact sfg _ (hlt i hi j hj k hk) _ hq e)).symm
  have eg : ∀ i < x0 + mx, ∀ j < y0 + my, ∀ k < mz, dat3 m1 g ((y0 + my) * mz) mz i j k = dat3 m g ((y0 + my) * mz) mz i j k := fun i hi j hj k hk =>
    u1.frame _ (by rintro ⟨q, hq, e⟩; exact sfg _ hq _ (hlt i hi j hj k hk) e.symm)
  have Y1 := cong hX hY hmz (fun _ _ _ _ _ _ => rfl) ef y1
  have Y2 := cong hX hY hmz eg (fun _ _ _ _ _ _ => rfl) y2
  refine (convh3_core (S1 := S1) (S2 := S2) (m := m2) hmx hx0 hmy hy0 hS2.symm hS1.symm A2 (fun e j hj k hk => ⟨Y1.nyqx e j hj k hk, Y2.nyqx e j hj k hk⟩)
    (fun e i hi k hk => ⟨Y1.nyqy e i hi k hk, Y2.nyqy e i hi k hk⟩)).mono ?_
  rintro _ m3 ⟨u3, v3⟩
  have ef3 : ∀ i < x0 + mx, ∀ j < y0 + my, ∀ k < mz, dat3 m2 f ((y0 + my) * mz) mz i j k = dat3 m3 f ((y0 + my) * mz) mz i j k := fun i hi j hj k hk =>
    (u3.frame _ (by rintro ⟨q, hq, e⟩; exact A.sf _ hq _ (hlt i hi j hj k hk) e)).symm
  have eg3 : ∀ i < x0 + mx, ∀ j < y0 + my, ∀ k < mz, dat3 m2 g ((y0 + my) * mz) mz i j k = dat3 m3 g ((y0 + my) * mz) mz i j k := fun i hi j hj k hk =>
    (u3.frame _ (by rintro ⟨q, hq, e⟩; exact A.sg _ hq _ (hlt i hi j hj k hk) e)).symm
  refine ⟨?_, cong hX hY hmz (fun _ _ _ _ _ _ => rfl) ef3 Y1, cong hX hY hmz (fun _ _ _ _ _ _ => rfl) eg3 Y2, fun i hi j hj k hk => ?_⟩
  · refine u1.trans (u2.trans u3 (fun p hp => ?_) (fun p hp => ?_)) (fun p hp => ?_) (fun p hp => hp)
    · obtain ⟨k, hk, e⟩ := hp; exact Or.inr ⟨k, hk, Or.inr e⟩
    · exact Or.inl hp
    · obtain ⟨k, hk, e⟩ := hp; exact Or.inr ⟨k, hk, Or.inl e⟩
  · rw [v3 i hi j hj k hk]
    exact hermLin3_congr ef3 eg3 _ _ _

end Direct
end Fftwpp
