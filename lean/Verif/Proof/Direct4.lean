import Verif.Proof.Direct3
import Verif.Proof.HConvMath3

/-! Direct convolutions of Hermitian data in two and three dimensions. -/

namespace Fftwpp
open Finset
local notation "conj" => starRingEnd ℂ

namespace Direct
variable {m m' : Mem} {h f g : Ptr} {nh n : ℕ}

/-- Sums over pairs of integers with a given sum. -/
theorem zsum_pairs {T S : Finset ℤ} (hST : S ⊆ T) (k : ℤ) (F : ℤ → ℤ → ℂ) (hF : ∀ a b, ¬ (a ∈ S ∧ b ∈ S) → F a b = 0) :
    (∑ a ∈ T, ∑ b ∈ T, if a + b = k then F a b else 0) = ∑ a ∈ S, if k - a ∈ S then F a (k - a) else 0 := by
  have h1 : ∀ a ∈ T, (∑ b ∈ T, if a + b = k then F a b else 0) = if k - a ∈ S then F a (k - a) else 0 := by
    intro a _
    split_ifs with hk
    · rw [sum_eq_single (k - a) (fun b _ hb => by rw [if_neg (by omega)]) (fun h => absurd (hST hk) h), if_pos (by omega)]
    · refine sum_eq_zero fun b _ => ?_
      split_ifs with e
      · refine hF a b fun hh => hk ?_
        rw [show k - a = b by omega]; exact hh.2
      · rfl
  rw [sum_congr rfl h1]
  symm
  refine sum_subset hST fun a _ ha => ?_
  split_ifs
  · exact hF _ _ fun hh => ha hh.1
  · rfl

theorem zsum2 {Tx Sx Ty Sy : Finset ℤ} (hx : Sx ⊆ Tx) (hy : Sy ⊆ Ty) (k l : ℤ) (X Y : ℤ → ℤ → ℂ)
    (hX : ∀ i j, ¬ (i ∈ Sx ∧ j ∈ Sy) → X i j = 0) (hY : ∀ i j, ¬ (i ∈ Sx ∧ j ∈ Sy) → Y i j = 0) :
    (∑ i1 ∈ Tx, ∑ i2 ∈ Tx, ∑ j1 ∈ Ty, ∑ j2 ∈ Ty, if i1 + i2 = k ∧ j1 + j2 = l then X i1 j1 * Y i2 j2 else 0) =
      ∑ i ∈ Sx, ∑ j ∈ Sy, if k - i ∈ Sx then if l - j ∈ Sy then X i j * Y (k - i) (l - j) else 0 else 0 := by
  have e := zsum_pairs hx k (fun a b => ∑ c ∈ Sy, if l - c ∈ Sy then X a c * Y b (l - c) else 0) ?_
  · refine Eq.trans ?_ (e.trans ?_)
    · refine sum_congr rfl fun a _ => sum_congr rfl fun b _ => ?_
      split_ifs with hab
      · rw [← zsum_pairs hy l (fun c d => X a c * Y b d)]
        · refine sum_congr rfl fun c _ => sum_congr rfl fun d _ => ?_
          simp only [hab, true_and]
        · intro c d hcd
          by_cases hc : c ∈ Sy
          · rw [hY b d (fun hh => hcd ⟨hc, hh.2⟩), mul_zero]
          · rw [hX a c (fun hh => hc hh.2), zero_mul]
      · exact sum_eq_zero fun c _ => sum_eq_zero fun d _ => by rw [if_neg (fun hh => hab hh.1)]
    · refine sum_congr rfl fun a _ => ?_
      split_ifs
      · rfl
      · exact sum_const_zero.symm
  · intro a b hab
    refine sum_eq_zero fun c _ => ?_
    split_ifs
    · by_cases ha : a ∈ Sx
      · rw [hY b _ (fun hh => hab ⟨ha, hh.1⟩), mul_zero]
      · rw [hX a c (fun hh => ha hh.1), zero_mul]
    · rfl

theorem zsum3 {Tx Sx Ty Sy Tz Sz : Finset ℤ} (hx : Sx ⊆ Tx) (hy : Sy ⊆ Ty) (hz : Sz ⊆ Tz) (k l p : ℤ) (X Y : ℤ → ℤ → ℤ → ℂ)
    (hX : ∀ i j q, ¬ (i ∈ Sx ∧ j ∈ Sy ∧ q ∈ Sz) → X i j q = 0) (hY : ∀ i j q, ¬ (i ∈ Sx ∧ j ∈ Sy ∧ q ∈ Sz) → Y i j q = 0) :
    (∑ i1 ∈ Tx, ∑ i2 ∈ Tx, ∑ j1 ∈ Ty, ∑ j2 ∈ Ty, ∑ k1 ∈ Tz, ∑ k2 ∈ Tz,
      if i1 + i2 = k ∧ j1 + j2 = l ∧ k1 + k2 = p then X i1 j1 k1 * Y i2 j2 k2 else 0) =
      ∑ i ∈ Sx, ∑ j ∈ Sy, ∑ q ∈ Sz, if k - i ∈ Sx then if l - j ∈ Sy then if p - q ∈ Sz then X i j q * Y (k - i) (l - j) (p - q) else 0 else 0 else 0 := by
  have e := zsum_pairs hx k (fun a b => ∑ c ∈ Sy, ∑ q ∈ Sz, if l - c ∈ Sy then if p - q ∈ Sz then X a c q * Y b (l - c) (p - q) else 0 else 0) ?_
  · refine Eq.trans ?_ (e.trans ?_)
    · refine sum_congr rfl fun a _ => sum_congr rfl fun b _ => ?_
      split_ifs with hab
      · by_cases hS : a ∈ Sx ∧ b ∈ Sx
        · rw [← zsum2 hy hz l p (X a) (Y b)]
          · refine sum_congr rfl fun c _ => sum_congr rfl fun d _ => sum_congr rfl fun q _ => sum_congr rfl fun q' _ => ?_
            simp only [hab, true_and]
          · exact fun i j hij => hX a i j fun hh => hij hh.2
          · exact fun i j hij => hY b i j fun hh => hij hh.2
        · have h0 : ∀ c d q q', X a c q * Y b d q' = 0 := by
            intro c d q q'
            by_cases ha : a ∈ Sx
            · rw [hY b d q' (fun hh => hS ⟨ha, hh.1⟩), mul_zero]
            · rw [hX a c q (fun hh => ha hh.1), zero_mul]
          simp only [h0, ite_self, sum_const_zero]
      · exact sum_eq_zero fun c _ => sum_eq_zero fun d _ => sum_eq_zero fun q _ => sum_eq_zero fun q' _ => by rw [if_neg (fun hh => hab hh.1)]
    · refine sum_congr rfl fun a _ => ?_
      split_ifs
      · rfl
      · simp only [sum_const_zero]
  · intro a b hab
    have h0 : ∀ c d q q', X a c q * Y b d q' = 0 := by
      intro c d q q'
      by_cases ha : a ∈ Sx
      · rw [hY b d q' (fun hh => hab ⟨ha, hh.1⟩), mul_zero]
      · rw [hX a c q (fun hh => ha hh.1), zero_mul]
    simp only [h0, ite_self, sum_const_zero]

theorem addz_nat (p : Ptr) {z : ℤ} {n : ℕ} (e : z = n) : p.addz z = p + n := by
  subst e; rfl

/-- A centered range is mapped to addresses. -/
theorem cast_addr {S x0 : ℕ} {i j : ℤ} (hi : 0 ≤ x0 + i) (hj : 0 ≤ j) :
    ((x0 : ℤ) + i) * S + j = ((S * (i + x0).toNat + j.natAbs : ℕ) : ℤ) := by
  rw [Nat.cast_add, Nat.cast_mul, Int.toNat_of_nonneg (by omega), Int.natCast_natAbs, abs_of_nonneg hj]
  ring

/-- The data in two dimensions. -/
noncomputable def dat2 (m : Mem) (f : Ptr) (S i j : ℕ) : ℂ := m.val (f + (S * i + j))

theorem Arrays.get2f {ι : Type} {l : List ι} {a : ι → ℕ} (A : Arrays m h f g nh n) (ha : ∀ k ∈ l, a k < nh)
    (u : m.Upd m' (fun p => ∃ k ∈ l, p = h + a k)) {x0 mx H S : ℕ} (hx : mx ≤ x0 + 1) (hx' : x0 ≤ mx) (hn : S * (x0 + mx - 1) + H ≤ n) {i j : ℤ}
    (hi : -(mx : ℤ) < i ∧ i < mx) (hj : -(H : ℤ) < j ∧ j < H) :
    (get2 f x0 S i j).Gives m' (hext2 (x0 + mx) x0 H (dat2 m f S) i j) := by
  have hlt : ∀ a < x0 + mx, ∀ b < H, S * a + b < n := fun a ha b hb => by
    have := Nat.mul_le_mul_left S (show a ≤ x0 + mx - 1 by omega)
    omega
  unfold get2 hext2
  have hH : j.natAbs < H := by omega
  by_cases h0 : 0 ≤ j
  · simp only [if_pos hH, if_pos h0]
    rw [addz_nat f (cast_addr (by omega) h0)]
    unfold cext
    rw [if_pos (by omega)]
    exact A.ldf ha u (hlt _ (by omega) _ (by omega))
  · simp only [if_pos hH, if_neg h0]
    have e : ((x0 : ℤ) - i) * S - j = ((S * (-i + x0).toNat + j.natAbs : ℕ) : ℤ) := by
      have := cast_addr (S := S) (x0 := x0) (i := -i) (j := -j) (by omega) (by omega)
      rw [Int.natAbs_neg] at this
      rw [← this]; ring
    rw [addz_nat f e]
    unfold cext
    rw [if_pos (by omega)]
    exact (A.ldf ha u (hlt _ (by omega) _ (by omega))).bind (Body.Gives.pure _)

theorem Arrays.swap (A : Arrays m h f g nh n) : Arrays m h g f nh n := ⟨A.hh, A.hg, A.hf, A.sg, A.sf⟩

/-- The sizes of the constructor: `x0` is the row of the origin, `Lx` the number of rows. -/
theorem sizes {mx : ℕ} (xc : Bool) (hmx : 1 ≤ mx) : let x0 := mx - (if xc = true then 1 else 0)
    x0 ≤ mx ∧ mx ≤ x0 + 1 ∧ (-(x0 : ℤ) + (if xc = true then 0 else 1)) = 1 - (mx : ℤ) ∧ (x0 + mx) / 2 = x0 ∧ (x0 + mx + 1) / 2 = mx := by
  cases xc <;> simp only [if_true, if_false, Bool.false_eq_true] <;> omega

theorem nodup_prod2 {a b c d : ℤ} : ((irng a b).product (irng c d)).Nodup := (irng_nodup ..).product (irng_nodup ..)

theorem mem_prod2 {a b c d : ℤ} {k : ℤ × ℤ} : k ∈ (irng a b).product (irng c d) ↔ (a ≤ k.1 ∧ k.1 < b) ∧ c ≤ k.2 ∧ k.2 < d := by
  obtain ⟨x, y⟩ := k
  rw [List.pair_mem_product, mem_irng, mem_irng]

/-- `directconvh2::convolve` without symmetrization. -/
theorem convh2_core {mx my S x0 : ℕ} {xc : Bool} (hmx : 1 ≤ mx) (hx0 : x0 = mx - (if xc = true then 1 else 0))
    (A : Arrays m h f g ((x0 + mx) * my) (stride S my * (x0 + mx - 1) + my))
    (hz : (x0 + mx) % 2 = 0 → ∀ j < my, dat2 m f (stride S my) 0 j = 0 ∧ dat2 m g (stride S my) 0 j = 0) :
    (convh2 mx my xc S h f g false).Ok m fun _ m' =>
      m.Upd m' (fun p => ∃ k < (x0 + mx) * my, p = h + k) ∧
      ∀ i < x0 + mx, ∀ j < my, m'.val (h + (i * my + j)) = hermLin2 (x0 + mx) x0 my (dat2 m f (stride S my)) (dat2 m g (stride S my)) ((i : ℤ) - x0) j := by
  obtain ⟨s1, s2, s3, s4, s5⟩ := sizes xc hmx
  rw [← hx0] at s1 s2 s3 s4 s5
  set Sx := stride S my with hS
  have ha : ∀ k ∈ (irng (-(x0 : ℤ)) mx).product (irng 0 my), (k.1 + x0).toNat * my + k.2.natAbs < (x0 + mx) * my := fun k hk => by
    rw [mem_prod2] at hk
    rw [Nat.mul_comm, Nat.mul_comm (x0 + mx)]
    exact radix_lt (by omega) (by omega)
  have key := A.loop (a := fun k : ℤ × ℤ => (k.1 + x0).toNat * my + k.2.natAbs)
    (b := fun k => Body.acc (irng (1 - (mx : ℤ)) mx) (fun s px => Body.acc (irng (1 - (my : ℤ)) my) (fun s py =>
      if 1 - (mx : ℤ) ≤ k.1 - px ∧ k.1 - px < mx then
        if 1 - (my : ℤ) ≤ k.2 - py ∧ k.2 - py < my then do
          let a ← get2 f x0 Sx px py
          let b ← get2 g x0 Sx (k.1 - px) (k.2 - py)
          pure (s + a * b)
        else pure s
      else pure s) s) 0)
    (v := fun k => hermLin2 (x0 + mx) x0 my (dat2 m f Sx) (dat2 m g Sx) k.1 k.2) nodup_prod2 ha (fun k hk k' hk' e => ?_) ?_
  · have e : convh2 mx my xc S h f g false = seqLoop ((irng (-(x0 : ℤ)) mx).product (irng 0 my)) fun k => Body.run (do
        let s ← Body.acc (irng (1 - (mx : ℤ)) mx) (fun s px => Body.acc (irng (1 - (my : ℤ)) my) (fun s py =>
          if 1 - (mx : ℤ) ≤ k.1 - px ∧ k.1 - px < mx then
            if 1 - (my : ℤ) ≤ k.2 - py ∧ k.2 - py < my then do
              let a ← get2 f x0 Sx px py
              let b ← get2 g x0 Sx (k.1 - px) (k.2 - py)
              pure (s + a * b)
            else pure s
          else pure s) s) 0
        store (h.addz ((x0 + k.1) * my + k.2)) s) := by
      unfold convh2
      rw [← hx0, ← hS]
      dsimp only
      rw [s3]
      rfl
    have e2 : ∀ (l : List (ℤ × ℤ)) (b b' : ℤ × ℤ → Cmd Unit), (∀ k ∈ l, b k = b' k) → seqLoop l b = seqLoop l b' := by
      intro l b b' hh
      induction l with
      | nil => rfl
      | cons k l ih =>
        funext m
        simp only [seqLoop]
        rw [hh k (by simp), ih fun k hk => hh k (by simp [hk])]
    rw [e, e2 _ _ (fun k => Body.run (do
        let s ← Body.acc (irng (1 - (mx : ℤ)) mx) (fun s px => Body.acc (irng (1 - (my : ℤ)) my) (fun s py =>
          if 1 - (mx : ℤ) ≤ k.1 - px ∧ k.1 - px < mx then
            if 1 - (my : ℤ) ≤ k.2 - py ∧ k.2 - py < my then do
              let a ← get2 f x0 Sx px py
              let b ← get2 g x0 Sx (k.1 - px) (k.2 - py)
              pure (s + a * b)
            else pure s
          else pure s) s) 0
        store (h + ((k.1 + x0).toNat * my + k.2.natAbs)) s))]
    · refine key.mono ?_
      rintro _ m' ⟨u, v⟩
      refine ⟨u.mono (by rintro p ⟨k, hk, rfl⟩; exact ⟨_, ha k hk, rfl⟩), fun i hi j hj => ?_⟩
      have := v (((i : ℤ) - x0), (j : ℤ)) (by rw [mem_prod2]; dsimp only; omega)
      simp only [sub_add_cancel, Int.toNat_natCast, Int.natAbs_natCast] at this
      exact this
    · intro k hk
      rw [mem_prod2] at hk
      rw [addz_nat h (cast_addr (x0 := x0) (S := my) (by omega) hk.2.1), Nat.mul_comm my]
  · rw [mem_prod2] at hk hk'
    simp only [Nat.mul_comm _ my] at e
    obtain ⟨h1, h2⟩ := radix_inj (by omega) (by omega) e
    exact Prod.ext (by omega) (by omega)
  · rintro ⟨kx, ky⟩ hk m' u
    dsimp only
    have hsupp : ∀ p : Ptr, (∀ j < my, (x0 + mx) % 2 = 0 → dat2 m p Sx 0 j = 0) → ∀ i j : ℤ, ¬ (i ∈ Ico (1 - (mx : ℤ)) mx ∧ j ∈ Ico (1 - (my : ℤ)) my) →
        hext2 (x0 + mx) x0 my (dat2 m p Sx) i j = 0 := by
      intro p hp i j hij
      rw [mem_Ico, mem_Ico] at hij
      by_cases hj : j.natAbs < my
      · have := hext2_supp (Lx := x0 + mx) (H := my) (x := dat2 m p Sx) (fun e j hj => hp j hj e) (i := i) j (by omega)
        rwa [s4] at this
      · unfold hext2; rw [if_neg hj]
    refine (Body.Gives.acc (v := fun px => ∑ py ∈ Ico (1 - (my : ℤ)) my, if 1 - (mx : ℤ) ≤ kx - px ∧ kx - px < mx then if 1 - (my : ℤ) ≤ ky - py ∧ ky - py < my then
      hext2 (x0 + mx) x0 my (dat2 m f Sx) px py * hext2 (x0 + mx) x0 my (dat2 m g Sx) (kx - px) (ky - py) else 0 else 0) ?_).of_eq ?_
    · intro px hpx s
      rw [mem_irng] at hpx
      rw [← irng_sum]
      refine Body.Gives.acc ?_
      intro py hpy s
      rw [mem_irng] at hpy
      refine Body.Gives.ite (fun hqx => Body.Gives.ite (fun hqy => ?_) (Body.Gives.pure s)) (Body.Gives.pure s)
      exact (A.get2f ha u s2 s1 le_rfl (by omega) (by omega)).bind ((A.swap.get2f ha u s2 s1 le_rfl (by omega) (by omega)).bind (Body.Gives.pure _))
    · rw [irng_sum, zero_add]
      unfold hermLin2
      rw [zsum2 (Sx := Ico (1 - (mx : ℤ)) mx) (Sy := Ico (1 - (my : ℤ)) my) (fun i hi => by rw [mem_Ico] at hi; rw [mem_Ioo]; omega)
        (fun i hi => by rw [mem_Ico] at hi; rw [mem_Ioo]; omega) _ _ _ _ (hsupp f fun j hj e => (hz e j hj).1) (hsupp g fun j hj e => (hz e j hj).2)]
      simp only [mem_Ico]

end Direct
end Fftwpp
