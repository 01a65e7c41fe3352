import Verif.Proof.MpiSymm2

/-!
# `HermitianSymmetrizeXY`, distributed: the computations of a process
-/

namespace Fftwpp
open Finset

/-- A loop of stores. -/
theorem seq_map1 {s n : ℕ} (hsn : s ≤ n) {body : ℕ → Body Unit} {m : Mem} {a : ℕ → Ptr} {v : ℕ → ℂ}
    (h : ∀ i, s ≤ i → i < n → ∀ m', m.Upd m' (fun p => ∃ k, s ≤ k ∧ k < n ∧ p = a k) → (body i).Good m' ∧ (body i).wrs m' = [(a i, v i)])
    (hinj : ∀ i j, s ≤ i → i < n → s ≤ j → j < n → a i = a j → i = j) :
    (seqLoop (rng s n) fun i => (body i).run).Ok m fun _ m' =>
      m.Upd m' (fun p => ∃ k, s ≤ k ∧ k < n ∧ p = a k) ∧ ∀ i, s ≤ i → i < n → m'.val (a i) = v i := by
  refine seqLoop_rngab hsn (fun i m1 => m.Upd m1 (fun p => ∃ k, s ≤ k ∧ k < n ∧ p = a k) ∧ ∀ j, s ≤ j → j < i → m1.val (a j) = v j)
    ⟨Mem.Upd.refl _ _, fun _ _ _ => by omega⟩ ?_ (fun m1 h1 => h1)
  rintro i m1 h1 h2 ⟨u1, v1⟩
  obtain ⟨hg, hw⟩ := h i h1 h2 m1 u1
  refine run_map1 (a i) (v i) hg hw ?_
  intro m2 u2 v2
  refine ⟨u1.trans u2 (fun _ h => h) (fun p hp => ⟨i, h1, h2, hp⟩), ?_⟩
  intro j hj hj'
  by_cases hji : j = i
  · subst hji; exact v2
  · rw [u2.frame _ (fun he => hji (hinj _ _ hj (by omega) h1 h2 he)), v1 j hj (by omega)]

/-- Addresses of the local array. -/
theorem ad_lt {X y Z i j k : ℕ} (hi : i < X) (hj : j < y) (hk : k < Z) : y * Z * i + (Z * j + k) < y * Z * X := by
  have h1 : Z * j + k < y * Z := by rw [Nat.mul_comm y]; exact radix_lt hk hj
  rw [Nat.mul_comm (y * Z) X, Nat.mul_comm X]
  exact radix_lt h1 hi

theorem ad_inj {y Z i j k i' j' k' : ℕ} (hj : j < y) (hk : k < Z) (hj' : j' < y) (hk' : k' < Z)
    (h : y * Z * i + (Z * j + k) = y * Z * i' + (Z * j' + k')) : i = i' ∧ j = j' ∧ k = k' := by
  have h1 : Z * j + k < y * Z := by rw [Nat.mul_comm y]; exact radix_lt hk hj
  have h2 : Z * j' + k' < y * Z := by rw [Nat.mul_comm y]; exact radix_lt hk' hj'
  obtain ⟨rfl, e⟩ := radix_inj h1 h2 h
  exact ⟨rfl, radix_inj hk hk' e⟩

namespace XYSplit
open Net
variable {X Y Z P r : ℕ} {f u : Ptr} {m : Mem}

/-- What a process needs: its slab, `nx` words of work space, elsewhere. -/
structure Room (X y Z nx : ℕ) (f u : Ptr) (m : Mem) : Prop where
  hf : m.block f (y * Z * X)
  hu : m.block u nx
  sep : ∀ a < y * Z * X, ∀ b < nx, f + a ≠ u + b

theorem Room.upd {y nx : ℕ} {m' : Mem} {R : Ptr → Prop} (h : Room X y Z nx f u m) (hu : m.Upd m' R) : Room X y Z nx f u m' := by
  refine ⟨fun i hi => ?_, fun i hi => ?_, h.sep⟩
  · have := h.hf i hi
    simp only [Mem.valid, hu.size] at this ⊢
    exact this
  · have := h.hu i hi
    simp only [Mem.valid, hu.size] at this ⊢
    exact this

local notation "dd" => XYSplit.new X Y Z r P

theorem fill_ok (hZ : 0 < Z) (hX : 0 < X) (h : Room X (part Y P r) Z (X - (1 - X % 2)) f u m) {j : ℕ} (hj : j < part Y P r) :
    ((dd).fill f u j).Ok m fun _ m' => m.Upd m' (fun p => ∃ k < X - (1 - X % 2), p = u + k) ∧
      ∀ i < X - (1 - X % 2), m'.val (u + i) = (starRingEnd ℂ) (m.val (f + (part Y P r * Z * (X - 1 - i) + (Z * j + 0)))) := by
  unfold fill
  rw [new_nx]
  have hlt : ∀ i, part Y P r * Z * (X - 1 - i) + (Z * j + 0) < part Y P r * Z * X := fun i => ad_lt (by omega) hj hZ
  refine (seq_map1 (Nat.zero_le _) (a := fun i => u + i) (v := fun i => (starRingEnd ℂ) (m.val (f + (part Y P r * Z * (X - 1 - i) + (Z * j + 0))))) ?_ ?_).mono ?_
  · intro i _ hi m' hu
    have R := h.upd hu
    have e : m'.val (f + (part Y P r * Z * (X - 1 - i) + (Z * j + 0))) = m.val (f + (part Y P r * Z * (X - 1 - i) + (Z * j + 0))) := by
      refine hu.frame _ ?_
      rintro ⟨k, _, hk, he⟩
      exact h.sep _ (hlt i) k hk he
    have := R.hf _ (hlt i)
    have := R.hu i hi
    constructor
    · body_simp
      exact ⟨R.hf _ (hlt i), R.hu i hi⟩
    · body_simp
      rw [← e]
      rfl
  · intro i j _ _ _ _ he
    rw [Ptr.add_inj] at he
    exact he
  · rintro _ m' ⟨h1, h2⟩
    exact ⟨h1.mono (by rintro p ⟨k, _, hk, rfl⟩; exact ⟨k, hk, rfl⟩), fun i hi => h2 i (Nat.zero_le _) hi⟩

/-- What `place` and `local_` do: the row `j` is filled with the words of `u`. -/
def Placed (X y Z j : ℕ) (f u : Ptr) (m m' : Mem) : Prop :=
  m.Upd m' (fun p => ∃ k < X - (1 - X % 2), p = f + (y * Z * (k + (1 - X % 2)) + (Z * j + 0))) ∧
  ∀ i < X - (1 - X % 2), m'.val (f + (y * Z * (i + (1 - X % 2)) + (Z * j + 0))) = m.val (u + i)

theorem place_ok (hZ : 0 < Z) (h : Room X (part Y P r) Z (X - (1 - X % 2)) f u m) {j : ℕ} (hj : j < part Y P r) :
    ((dd).place f u j).Ok m fun _ m' => Placed X (part Y P r) Z j f u m m' := by
  unfold place
  rw [new_nx]
  have hlt : ∀ i < X - (1 - X % 2), part Y P r * Z * (i + (1 - X % 2)) + (Z * j + 0) < part Y P r * Z * X := fun i hi => ad_lt (by omega) hj hZ
  refine (seq_map1 (Nat.zero_le _) (a := fun i => f + (part Y P r * Z * (i + (1 - X % 2)) + (Z * j + 0))) (v := fun i => m.val (u + i)) ?_ ?_).mono ?_
  · intro i _ hi m' hu
    have R := h.upd hu
    have e : m'.val (u + i) = m.val (u + i) := by
      refine hu.frame _ ?_
      rintro ⟨k, _, hk, he⟩
      exact h.sep _ (hlt k hk) i hi he.symm
    constructor
    · body_simp
      refine ⟨R.hu i hi, ?_⟩
      rw [new_xe]
      exact R.hf _ (hlt i hi)
    · body_simp
      rw [← e, new_xe]
      rfl
  · intro i i' _ _ _ _ he
    rw [Ptr.add_inj] at he
    have := ad_inj hj hZ hj hZ he
    omega
  · rintro _ m' ⟨h1, h2⟩
    exact ⟨h1.mono (by rintro p ⟨k, _, hk, rfl⟩; exact ⟨k, hk, rfl⟩), fun i hi => h2 i (Nat.zero_le _) hi⟩

/-- The storage `d.n` is large enough for the local array. -/
theorem n_ge : part Y P r * Z * X ≤ (dd).n := by
  have : (X * part Y P r) * Z ≤ (dd).n := le_trans (Nat.mul_le_mul_right _ (le_max_left _ _)) (le_max_left _ _)
  calc part Y P r * Z * X = (X * part Y P r) * Z := by ring
    _ ≤ _ := this

theorem local_ok (hZ : 0 < Z) (h : Room X (part Y P r) Z (X - (1 - X % 2)) f u m) {j j' : ℕ} (hj' : j' < part Y P r)
    (hjj : 2 * (Y / 2 - first Y P r) - j = j') :
    ((dd).local_ f u j).Ok m fun _ m' => Placed X (part Y P r) Z j' f u m m' := by
  unfold local_
  rw [new_nx]
  have hlt : ∀ i < X - (1 - X % 2), part Y P r * Z * (i + (1 - X % 2)) + (Z * j' + 0) < part Y P r * Z * X := fun i hi => ad_lt (by omega) hj' hZ
  refine (seq_map1 (Nat.zero_le _) (a := fun i => f + (part Y P r * Z * (i + (1 - X % 2)) + (Z * j' + 0))) (v := fun i => m.val (u + i)) ?_ ?_).mono ?_
  · intro i _ hi m' hu
    have R := h.upd hu
    have e : m'.val (u + i) = m.val (u + i) := by
      refine hu.frame _ ?_
      rintro ⟨k, _, hk, he⟩
      exact h.sep _ (hlt k hk) i hi he.symm
    have eN : (dd).stride * (i + (dd).xextra) + (dd).z * (2 * ((dd).yorigin - (dd).y0) - j) = part Y P r * Z * (i + (1 - X % 2)) + (Z * j' + 0) := by
      rw [new_xe, new_yo, new_y0, new_stride, hjj]
      rfl
    constructor
    · simp only [eN]
      refine ⟨lt_of_lt_of_le (hlt i hi) n_ge, ?_⟩
      body_simp
      exact ⟨R.hu i hi, R.hf _ (hlt i hi)⟩
    · simp only [eN]
      show (_ : Body Unit).wrs m' = _
      body_simp
      rw [← e]
  · intro i i' _ _ _ _ he
    rw [Ptr.add_inj] at he
    have := ad_inj hj' hZ hj' hZ he
    omega
  · rintro _ m' ⟨h1, h2⟩
    exact ⟨h1.mono (by rintro p ⟨k, _, hk, rfl⟩; exact ⟨k, hk, rfl⟩), fun i hi => h2 i (Nat.zero_le _) hi⟩

theorem originRow_ok (hZ : 0 < Z) (hX : 0 < X) (h : m.block f (part Y P r * Z * X)) {j : ℕ} (hj : j < part Y P r) :
    ((dd).originRow f j).Ok m fun _ m' => m.Upd m' (fun p => ∃ i, 1 - X % 2 ≤ i ∧ i ≤ X / 2 ∧ p = f + (part Y P r * Z * i + (Z * j + 0))) ∧
      m'.val (f + (part Y P r * Z * (X / 2) + (Z * j + 0))) = ((m.val (f + (part Y P r * Z * (X / 2) + (Z * j + 0)))).re : ℂ) ∧
      ∀ i, 1 - X % 2 ≤ i → i < X / 2 → m'.val (f + (part Y P r * Z * i + (Z * j + 0))) =
        (starRingEnd ℂ) (m.val (f + (part Y P r * Z * (X / 2 + (X / 2 - i)) + (Z * j + 0)))) := by
  unfold originRow
  rw [new_xo, new_stride, new_mx, show (dd).z = Z from rfl]
  have hX2 : X / 2 < X := by omega
  have hlt : ∀ i < X, part Y P r * Z * i + (Z * j + 0) < part Y P r * Z * X := fun i hi => ad_lt hi hj hZ
  have inj : ∀ {i i'}, f + (part Y P r * Z * i + (Z * j + 0)) = f + (part Y P r * Z * i' + (Z * j + 0)) → i = i' := by
    intro i i' he
    rw [Ptr.add_inj] at he
    exact (ad_inj hj hZ hj hZ he).1
  refine Cmd.Ok.bind ?_
  unfold clearIm
  refine run_map1 (f + (part Y P r * Z * (X / 2) + (Z * j + 0))) (((m.val (f + (part Y P r * Z * (X / 2) + (Z * j + 0)))).re : ℂ)) ?_ ?_ ?_
  · body_simp
    exact ⟨h _ (hlt _ hX2), h _ (hlt _ hX2)⟩
  · body_simp
    rfl
  intro m1 u1 v1
  have val1 : ∀ i < X, m1.valid (f + (part Y P r * Z * i + (Z * j + 0))) := by
    intro i hi
    have := h _ (hlt i hi)
    simp only [Mem.valid, u1.size] at this ⊢
    exact this
  have e1 : ∀ s, f + (part Y P r * Z * (X / 2) + Z * j + s * (part Y P r * Z)) = f + (part Y P r * Z * (X / 2 + s) + (Z * j + 0)) := by
    intro s; congr 1; ring
  have e2 : ∀ s ≤ X / 2, f + (part Y P r * Z * (X / 2) + Z * j - s * (part Y P r * Z)) = f + (part Y P r * Z * (X / 2 - s) + (Z * j + 0)) := by
    intro s hs
    congr 1
    obtain ⟨d, hd⟩ : ∃ d, X / 2 = d + s := ⟨X / 2 - s, by omega⟩
    rw [hd, Nat.add_sub_cancel, Nat.mul_add, Nat.mul_comm s]
    omega
  have hmx : (X + 1) / 2 = X / 2 + 1 - (1 - X % 2) := by omega
  refine (seq_map1 (by omega) (a := fun s => f + (part Y P r * Z * (X / 2 - s) + (Z * j + 0)))
    (v := fun s => (starRingEnd ℂ) (m.val (f + (part Y P r * Z * (X / 2 + s) + (Z * j + 0))))) ?_ ?_).mono ?_
  · intro s h1 h2 m2 u2
    have val2 : ∀ i < X, m2.valid (f + (part Y P r * Z * i + (Z * j + 0))) := by
      intro i hi
      have := val1 i hi
      simp only [Mem.valid, u2.size] at this ⊢
      exact this
    have e3 : m2.val (f + (part Y P r * Z * (X / 2 + s) + (Z * j + 0))) = m.val (f + (part Y P r * Z * (X / 2 + s) + (Z * j + 0))) := by
      rw [u2.frame, u1.frame]
      · intro he
        have := inj he
        omega
      · rintro ⟨k, _, _, he⟩
        have := inj he
        omega
    constructor
    · body_simp
      rw [e1, e2 s (by omega)]
      exact ⟨val2 _ (by omega), val2 _ (by omega)⟩
    · body_simp
      rw [e1, e2 s (by omega), e3]
  · intro s s' h1 h2 h3 h4 he
    have := inj he
    omega
  · rintro _ m2 ⟨u2, v2⟩
    refine ⟨u1.trans u2 ?_ ?_, ?_, ?_⟩
    · rintro p rfl
      exact ⟨X / 2, by omega, le_rfl, rfl⟩
    · rintro p ⟨k, h1, h2, rfl⟩
      exact ⟨X / 2 - k, by omega, by omega, rfl⟩
    · rw [u2.frame, v1]
      rintro ⟨k, h1, h2, he⟩
      have := inj he
      omega
    · intro i h1 h2
      have := v2 (X / 2 - i) (by omega) (by omega)
      beta_reduce at this
      rw [show X / 2 - (X / 2 - i) = i by omega] at this
      exact this

theorem nyquist_ok (h : m.block f (part Y P r * Z * X)) (hX : 0 < X) (hy0 : part Y P r = 0 → first Y P r ≠ 0 ∨ Y % 2 = 1) :
    ((dd).nyquist f).Ok m fun _ m' => m'.size = m.size ∧
      (∀ i < X, ∀ j < part Y P r, ∀ k < Z, m'.val (f + (part Y P r * Z * i + (Z * j + k))) =
        if X % 2 = 0 ∧ i = 0 ∨ Y % 2 = 0 ∧ first Y P r + j = 0 then 0 else m.val (f + (part Y P r * Z * i + (Z * j + k)))) ∧
      ∀ p, (∀ i < X, ∀ j < part Y P r, ∀ k < Z, p ≠ f + (part Y P r * Z * i + (Z * j + k))) → m'.val p = m.val p := by
  unfold nyquist
  rw [new_xe, new_ye, show (dd).z = Z from rfl, new_dy, new_y0, show (dd).X = X from rfl]
  have inj : ∀ {i j k i' j' k'}, j < part Y P r → k < Z → j' < part Y P r → k' < Z →
      f + (part Y P r * Z * i + (Z * j + k)) = f + (part Y P r * Z * i' + (Z * j' + k')) → i = i' ∧ j = j' ∧ k = k' := by
    intro i j k i' j' k' h1 h2 h3 h4 he
    rw [Ptr.add_inj] at he
    exact ad_inj h1 h2 h3 h4 he
  refine Cmd.Ok.bind (Cmd.Ok.mono (Q := fun _ m1 => m.Upd m1 (fun p => X % 2 = 0 ∧ ∃ j < part Y P r, ∃ k < Z, p = f + (part Y P r * Z * 0 + (Z * j + k))) ∧
      (X % 2 = 0 → ∀ j < part Y P r, ∀ k < Z, m1.val (f + (part Y P r * Z * 0 + (Z * j + k))) = 0)) ?_ ?_)
  · by_cases hN : X % 2 = 0
    · rw [if_pos (by omega)]
      have e : ∀ j k, f + (Z * j + k) = f + (part Y P r * Z * 0 + (Z * j + k)) := by
        intro j k; rw [Nat.mul_zero, Nat.zero_add]
      refine par_map1 (fun jk => f + (part Y P r * Z * 0 + (Z * jk.1 + jk.2))) (fun _ => 0) (rng2_nodup ..) ?_ ?_ ?_ ?_ ?_
      · rintro ⟨j, k⟩ hjk
        rw [mem_rng2] at hjk
        simp only at hjk
        body_simp
        rw [e]
        exact h _ (ad_lt hX hjk.1.2 hjk.2.2)
      · rintro ⟨j, k⟩ _
        body_simp
        rw [e]
      · rintro ⟨j, k⟩ h1 ⟨j', k'⟩ h2 he
        rw [mem_rng2] at h1 h2
        simp only at h1 h2 he
        have := inj h1.1.2 h1.2.2 h2.1.2 h2.2.2 he
        rw [Prod.mk.injEq]
        omega
      · rintro ⟨j, k⟩ _ ⟨j', k'⟩ _ _
        body_simp
      · intro m3 u3 v3
        refine ⟨⟨u3.size, fun p hp => u3.frame p ?_⟩, fun _ y hy z hz => v3 (y, z) (mem_rng2.2 (by simp only; omega))⟩
        rintro ⟨⟨j, k⟩, h1, he⟩
        rw [mem_rng2] at h1
        exact hp ⟨hN, j, h1.1.2, k, h1.2.2, he⟩
    · rw [if_neg (by omega)]
      exact Cmd.Ok.pure ⟨⟨rfl, fun _ _ => rfl⟩, fun h => absurd h hN⟩
  rintro _ m1 ⟨u1, v1⟩
  refine Cmd.Ok.mono (Q := fun _ m2 => m1.Upd m2 (fun p => (Y % 2 = 0 ∧ first Y P r = 0) ∧ 0 < part Y P r ∧ ∃ i < X, ∃ k < Z, p = f + (part Y P r * Z * i + (Z * 0 + k))) ∧
      (Y % 2 = 0 ∧ first Y P r = 0 → ∀ i < X, ∀ k < Z, m2.val (f + (part Y P r * Z * i + (Z * 0 + k))) = 0)) ?_ ?_
  · by_cases hN : Y % 2 = 0 ∧ first Y P r = 0
    · rw [if_pos (by omega)]
      have hp : 0 < part Y P r := by omega
      have e : ∀ i k, f + (part Y P r * Z * i + k) = f + (part Y P r * Z * i + (Z * 0 + k)) := by
        intro j k; rw [Nat.mul_zero, Nat.zero_add]
      refine par_map1 (fun ik => f + (part Y P r * Z * ik.1 + (Z * 0 + ik.2))) (fun _ => 0) (rng2_nodup ..) ?_ ?_ ?_ ?_ ?_
      · rintro ⟨i, k⟩ hjk
        rw [mem_rng2] at hjk
        simp only at hjk
        body_simp
        rw [e]
        have := h _ (ad_lt (Z := Z) hjk.1.2 hp hjk.2.2)
        simp only [Mem.valid, u1.size] at this ⊢
        exact this
      · rintro ⟨i, k⟩ _
        body_simp
        rw [e]
      · rintro ⟨j, k⟩ h1 ⟨j', k'⟩ h2 he
        rw [mem_rng2] at h1 h2
        simp only at h1 h2 he
        have := inj hp h1.2.2 hp h2.2.2 he
        rw [Prod.mk.injEq]
        omega
      · rintro ⟨j, k⟩ _ ⟨j', k'⟩ _ _
        body_simp
      · intro m3 u3 v3
        refine ⟨⟨u3.size, fun p hp => u3.frame p ?_⟩, fun _ y hy z hz => v3 (y, z) (mem_rng2.2 (by simp only; omega))⟩
        rintro ⟨⟨j, k⟩, h1, he⟩
        rw [mem_rng2] at h1
        exact hp ⟨hN, by omega, j, h1.1.2, k, h1.2.2, he⟩
    · rw [if_neg (by omega)]
      exact Cmd.Ok.pure ⟨⟨rfl, fun _ _ => rfl⟩, fun h => absurd h hN⟩
  · rintro _ m2 ⟨u2, v2⟩
    refine ⟨by rw [u2.size, u1.size], ?_, ?_⟩
    · intro i hi j hj k hk
      by_cases hY : Y % 2 = 0 ∧ first Y P r + j = 0
      · rw [if_pos (Or.inr hY)]
        have hj0 : j = 0 := by omega
        subst hj0
        exact v2 (by omega) i hi k hk
      · rw [u2.frame _ (by
          rintro ⟨h1, h2, i', _, k', hk', he⟩
          have := inj hj hk h2 hk' he
          omega)]
        by_cases hX2 : X % 2 = 0 ∧ i = 0
        · rw [if_pos (Or.inl hX2), hX2.2]
          exact v1 hX2.1 j hj k hk
        · rw [if_neg (by tauto), u1.frame]
          rintro ⟨h1, j', hj', k', hk', he⟩
          have := inj hj hk hj' hk' he
          omega
    · intro p hp
      rw [u2.frame, u1.frame]
      · rintro ⟨_, j, hj, k, hk, he⟩
        exact hp 0 hX j hj k hk he
      · rintro ⟨_, h0, i, hi, k, hk, he⟩
        exact hp i hi 0 h0 k hk he

end XYSplit
end Fftwpp
