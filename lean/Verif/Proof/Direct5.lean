import Verif.Proof.Direct4

/-! Direct convolutions of Hermitian data in three dimensions. -/

namespace Fftwpp
open Finset
local notation "conj" => starRingEnd ℂ

namespace Direct
variable {m m' : Mem} {h f g : Ptr} {nh n : ℕ}

theorem seqLoop_congr {ι : Type} {l : List ι} {b b' : ι → Cmd Unit} (hh : ∀ k ∈ l, b k = b' k) : seqLoop l b = seqLoop l b' := by
  induction l with
  | nil => rfl
  | cons k l ih =>
    funext m
    simp only [seqLoop]
    rw [hh k (by simp), ih fun k hk => hh k (by simp [hk])]

theorem cast_addr3 {Sx Sy x0 y0 : ℕ} {i j k : ℤ} (hi : 0 ≤ x0 + i) (hj : 0 ≤ y0 + j) (hk : 0 ≤ k) :
    Sx * ((x0 : ℤ) + i) + Sy * ((y0 : ℤ) + j) + k = ((Sx * (i + x0).toNat + (Sy * (j + y0).toNat + k.natAbs) : ℕ) : ℤ) := by
  rw [Nat.cast_add, Nat.cast_add, Nat.cast_mul, Nat.cast_mul, Int.toNat_of_nonneg (by omega), Int.toNat_of_nonneg (by omega), Int.natCast_natAbs, abs_of_nonneg hk]
  ring

/-- The data in three dimensions. -/
noncomputable def dat3 (m : Mem) (f : Ptr) (Sx Sy i j k : ℕ) : ℂ := m.val (f + (Sx * i + (Sy * j + k)))

theorem Arrays.get3f {ι : Type} {l : List ι} {a : ι → ℕ} (A : Arrays m h f g nh n) (ha : ∀ k ∈ l, a k < nh)
    (u : m.Upd m' (fun p => ∃ k ∈ l, p = h + a k)) {x0 mx y0 my H Sx Sy : ℕ} (hx : mx ≤ x0 + 1) (hx' : x0 ≤ mx) (hy : my ≤ y0 + 1) (hy' : y0 ≤ my)
    (hn : Sx * (x0 + mx - 1) + Sy * (y0 + my - 1) + H ≤ n) {i j k : ℤ}
    (hi : -(mx : ℤ) < i ∧ i < mx) (hj : -(my : ℤ) < j ∧ j < my) (hk : -(H : ℤ) < k ∧ k < H) :
    (get3 f x0 y0 Sx Sy i j k).Gives m' (hext3 (x0 + mx) x0 (y0 + my) y0 H (dat3 m f Sx Sy) i j k) := by
  have hlt : ∀ a < x0 + mx, ∀ b < y0 + my, ∀ c < H, Sx * a + (Sy * b + c) < n := fun a ha b hb c hc => by
    have := Nat.mul_le_mul_left Sx (show a ≤ x0 + mx - 1 by omega)
    have := Nat.mul_le_mul_left Sy (show b ≤ y0 + my - 1 by omega)
    omega
  unfold get3 hext3
  have hH : k.natAbs < H := by omega
  by_cases h0 : 0 ≤ k
  · simp only [if_pos hH, if_pos h0]
    rw [addz_nat f (cast_addr3 (by omega) (by omega) h0)]
    unfold cext2 cext
    rw [if_pos (by omega)]
    beta_reduce
    rw [if_pos (by omega)]
    exact A.ldf ha u (hlt _ (by omega) _ (by omega) _ (by omega))
  · simp only [if_pos hH, if_neg h0]
    have e : (Sx : ℤ) * ((x0 : ℤ) - i) + Sy * ((y0 : ℤ) - j) - k = ((Sx * (-i + x0).toNat + (Sy * (-j + y0).toNat + k.natAbs) : ℕ) : ℤ) := by
      have := cast_addr3 (Sx := Sx) (Sy := Sy) (x0 := x0) (y0 := y0) (i := -i) (j := -j) (k := -k) (by omega) (by omega) (by omega)
      rw [Int.natAbs_neg] at this
      rw [← this]; ring
    rw [addz_nat f e]
    unfold cext2 cext
    rw [if_pos (by omega)]
    beta_reduce
    rw [if_pos (by omega)]
    exact (A.ldf ha u (hlt _ (by omega) _ (by omega) _ (by omega))).bind (Body.Gives.pure _)

theorem nodup_prod3 {a b c d e e' : ℤ} : ((irng a b).product ((irng c d).product (irng e e'))).Nodup := (irng_nodup ..).product ((irng_nodup ..).product (irng_nodup ..))

theorem mem_prod3 {a b c d e e' : ℤ} {k : ℤ × ℤ × ℤ} :
    k ∈ (irng a b).product ((irng c d).product (irng e e')) ↔ (a ≤ k.1 ∧ k.1 < b) ∧ (c ≤ k.2.1 ∧ k.2.1 < d) ∧ e ≤ k.2.2 ∧ k.2.2 < e' := by
  obtain ⟨x, y, z⟩ := k
  rw [List.pair_mem_product, List.pair_mem_product, mem_irng, mem_irng, mem_irng]

/-- The number computed by an iteration of `directconvh3::convolve`. -/
noncomputable def body3 (mx my mz x0 y0 Sx Sy : ℕ) (f g : Ptr) (k : ℤ × ℤ × ℤ) : Body ℂ :=
  Body.acc (irng (1 - (mx : ℤ)) mx) (fun s px => Body.acc (irng (1 - (my : ℤ)) my) (fun s py => Body.acc (irng (1 - (mz : ℤ)) mz) (fun s pz =>
    if 1 - (mx : ℤ) ≤ k.1 - px ∧ k.1 - px < mx then
      if 1 - (my : ℤ) ≤ k.2.1 - py ∧ k.2.1 - py < my then
        if 1 - (mz : ℤ) ≤ k.2.2 - pz ∧ k.2.2 - pz < mz then do
          let a ← get3 f x0 y0 Sx Sy px py pz
          let b ← get3 g x0 y0 Sx Sy (k.1 - px) (k.2.1 - py) (k.2.2 - pz)
          pure (s + a * b)
        else pure s
      else pure s
    else pure s) s) s) 0

/-- `directconvh3::convolve` without symmetrization. -/
theorem convh3_core {mx my mz S1 S2 Sx Sy x0 y0 : ℕ} {xc yc : Bool} (hmx : 1 ≤ mx) (hx0 : x0 = mx - (if xc = true then 1 else 0))
    (hmy : 1 ≤ my) (hy0 : y0 = my - (if yc = true then 1 else 0)) (hSy : Sy = stride S2 mz) (hSx : Sx = stride S1 ((2 * my - (if yc = true then 1 else 0)) * Sy))
    (A : Arrays m h f g ((x0 + mx) * ((y0 + my) * mz)) (Sx * (x0 + mx - 1) + Sy * (y0 + my - 1) + mz))
    (hzx : (x0 + mx) % 2 = 0 → ∀ j < y0 + my, ∀ k < mz, dat3 m f Sx Sy 0 j k = 0 ∧ dat3 m g Sx Sy 0 j k = 0)
    (hzy : (y0 + my) % 2 = 0 → ∀ i < x0 + mx, ∀ k < mz, dat3 m f Sx Sy i 0 k = 0 ∧ dat3 m g Sx Sy i 0 k = 0) :
    (convh3 mx my mz xc yc S1 S2 h f g false).Ok m fun _ m' =>
      m.Upd m' (fun p => ∃ k < (x0 + mx) * ((y0 + my) * mz), p = h + k) ∧
      ∀ i < x0 + mx, ∀ j < y0 + my, ∀ k < mz, m'.val (h + (i * ((y0 + my) * mz) + (j * mz + k))) =
        hermLin3 (x0 + mx) x0 (y0 + my) y0 mz (dat3 m f Sx Sy) (dat3 m g Sx Sy) ((i : ℤ) - x0) ((j : ℤ) - y0) k := by
  obtain ⟨s1, s2, s3, s4, s5⟩ := sizes xc hmx
  rw [← hx0] at s1 s2 s3 s4 s5
  obtain ⟨t1, t2, t3, t4, t5⟩ := sizes yc hmy
  rw [← hy0] at t1 t2 t3 t4 t5
  have hny : 2 * my - (if yc = true then 1 else 0) = y0 + my := by rw [hy0]; cases yc <;> simp <;> omega
  rw [hny] at hSx
  have hlt1 : ∀ k : ℤ × ℤ × ℤ, (k.2.1 < my ∧ -(y0 : ℤ) ≤ k.2.1) → (0 ≤ k.2.2 ∧ k.2.2 < mz) → mz * (k.2.1 + y0).toNat + k.2.2.natAbs < (y0 + my) * mz := by
    intro k h1 h2
    rw [Nat.mul_comm (y0 + my)]
    exact radix_lt (by omega) (by omega)
  have ha : ∀ k ∈ (irng (-(x0 : ℤ)) mx).product ((irng (-(y0 : ℤ)) my).product (irng 0 mz)),
      (y0 + my) * mz * (k.1 + x0).toNat + (mz * (k.2.1 + y0).toNat + k.2.2.natAbs) < (x0 + mx) * ((y0 + my) * mz) := fun k hk => by
    rw [mem_prod3] at hk
    rw [Nat.mul_comm (x0 + mx)]
    exact radix_lt (hlt1 k ⟨hk.2.1.2, hk.2.1.1⟩ hk.2.2) (by omega)
  have key := A.loop (a := fun k : ℤ × ℤ × ℤ => (y0 + my) * mz * (k.1 + x0).toNat + (mz * (k.2.1 + y0).toNat + k.2.2.natAbs))
    (b := body3 mx my mz x0 y0 Sx Sy f g)
    (v := fun k => hermLin3 (x0 + mx) x0 (y0 + my) y0 mz (dat3 m f Sx Sy) (dat3 m g Sx Sy) k.1 k.2.1 k.2.2) nodup_prod3 ha (fun k hk k' hk' e => ?_) ?_
  · have e : convh3 mx my mz xc yc S1 S2 h f g false = seqLoop ((irng (-(x0 : ℤ)) mx).product ((irng (-(y0 : ℤ)) my).product (irng 0 mz))) fun k => Body.run (do
        let s ← body3 mx my mz x0 y0 Sx Sy f g k
        store (h.addz (((x0 + k.1) * (y0 + my : ℕ) + y0 + k.2.1) * mz + k.2.2)) s) := by
      unfold convh3
      rw [← hx0, ← hy0, hny, ← hSy]
      dsimp only
      rw [← hSx, s3, t3]
      rfl
    rw [e, seqLoop_congr (b' := (fun k => Body.run (do
        let s ← body3 mx my mz x0 y0 Sx Sy f g k
        store (h + ((y0 + my) * mz * (k.1 + x0).toNat + (mz * (k.2.1 + y0).toNat + k.2.2.natAbs))) s)))]
    · refine key.mono ?_
      rintro _ m' ⟨u, v⟩
      refine ⟨u.mono (by rintro p ⟨k, hk, rfl⟩; exact ⟨_, ha k hk, rfl⟩), fun i hi j hj k hk => ?_⟩
      have := v (((i : ℤ) - x0), (j : ℤ) - y0, (k : ℤ)) (by rw [mem_prod3]; dsimp only; omega)
      simp only [sub_add_cancel, Int.toNat_natCast, Int.natAbs_natCast] at this
      rw [Nat.mul_comm i, Nat.mul_comm j]
      exact this
    · intro k hk
      rw [mem_prod3] at hk
      rw [addz_nat h (show ((x0 + k.1) * (y0 + my : ℕ) + y0 + k.2.1) * (mz : ℤ) + k.2.2 =
        (((y0 + my) * mz * (k.1 + x0).toNat + (mz * (k.2.1 + y0).toNat + k.2.2.natAbs) : ℕ) : ℤ) from ?_)]
      rw [← cast_addr3 (by omega) (by omega) hk.2.2.1]
      push_cast
      ring
  · rw [mem_prod3] at hk hk'
    obtain ⟨h1, h2⟩ := radix_inj (hlt1 k ⟨hk.2.1.2, hk.2.1.1⟩ hk.2.2) (hlt1 k' ⟨hk'.2.1.2, hk'.2.1.1⟩ hk'.2.2) e
    obtain ⟨h3, h4⟩ := radix_inj (by omega) (by omega) h2
    exact Prod.ext (by omega) (Prod.ext (by omega) (by omega))
  · rintro ⟨kx, ky, kz⟩ hk m' u
    dsimp only
    have hsupp : ∀ p : Ptr, ((x0 + mx) % 2 = 0 → ∀ j < y0 + my, ∀ k < mz, dat3 m p Sx Sy 0 j k = 0) →
        ((y0 + my) % 2 = 0 → ∀ i < x0 + mx, ∀ k < mz, dat3 m p Sx Sy i 0 k = 0) → ∀ i j k : ℤ,
        ¬ (i ∈ Ico (1 - (mx : ℤ)) mx ∧ j ∈ Ico (1 - (my : ℤ)) my ∧ k ∈ Ico (1 - (mz : ℤ)) mz) →
        hext3 (x0 + mx) x0 (y0 + my) y0 mz (dat3 m p Sx Sy) i j k = 0 := by
      intro p hp hp' i j k hij
      rw [mem_Ico, mem_Ico, mem_Ico] at hij
      by_cases hk : k.natAbs < mz
      · have := hext3_supp (Lx := x0 + mx) (Ly := y0 + my) (H := mz) (x := dat3 m p Sx Sy) hp hp' (i := i) (j := j) k (by omega)
        rwa [s4, t4] at this
      · unfold hext3; rw [if_neg hk]
    refine (Body.Gives.acc (v := fun px => ∑ py ∈ Ico (1 - (my : ℤ)) my, ∑ pz ∈ Ico (1 - (mz : ℤ)) mz,
      if 1 - (mx : ℤ) ≤ kx - px ∧ kx - px < mx then if 1 - (my : ℤ) ≤ ky - py ∧ ky - py < my then if 1 - (mz : ℤ) ≤ kz - pz ∧ kz - pz < mz then
      hext3 (x0 + mx) x0 (y0 + my) y0 mz (dat3 m f Sx Sy) px py pz * hext3 (x0 + mx) x0 (y0 + my) y0 mz (dat3 m g Sx Sy) (kx - px) (ky - py) (kz - pz)
      else 0 else 0 else 0) ?_).of_eq ?_
    · intro px hpx s
      rw [mem_irng] at hpx
      rw [← irng_sum]
      refine Body.Gives.acc ?_
      intro py hpy s
      rw [mem_irng] at hpy
      rw [← irng_sum]
      refine Body.Gives.acc ?_
      intro pz hpz s
      rw [mem_irng] at hpz
      refine Body.Gives.ite (fun hqx => Body.Gives.ite (fun hqy => Body.Gives.ite (fun hqz => ?_) (Body.Gives.pure s)) (Body.Gives.pure s)) (Body.Gives.pure s)
      exact (A.get3f ha u s2 s1 t2 t1 le_rfl (by omega) (by omega) (by omega)).bind
        ((A.swap.get3f ha u s2 s1 t2 t1 le_rfl (by omega) (by omega) (by omega)).bind (Body.Gives.pure _))
    · rw [irng_sum, zero_add]
      unfold hermLin3
      rw [zsum3 (Sx := Ico (1 - (mx : ℤ)) mx) (Sy := Ico (1 - (my : ℤ)) my) (Sz := Ico (1 - (mz : ℤ)) mz) (fun i hi => by rw [mem_Ico] at hi; rw [mem_Ioo]; omega)
        (fun i hi => by rw [mem_Ico] at hi; rw [mem_Ioo]; omega) (fun i hi => by rw [mem_Ico] at hi; rw [mem_Ioo]; omega) _ _ _ _ _
        (hsupp f (fun e j hj k hk => (hzx e j hj k hk).1) (fun e j hj k hk => (hzy e j hj k hk).1))
        (hsupp g (fun e j hj k hk => (hzx e j hj k hk).2) (fun e j hj k hk => (hzy e j hj k hk).2))]
      simp only [mem_Ico]

end Direct
end Fftwpp
