import Verif.Proof.Direct1
import Verif.Proof.HMath
import Verif.Props.Transform
import Verif.Spec.DftC
import Verif.Spec.HermConv

/-! Direct convolutions in one dimension. -/

namespace Fftwpp
open Finset
local notation "conj" => starRingEnd ℂ

namespace Direct

/-- Room for the data: the outputs are stored at `h`, `nh` words, and the inputs at `f` and `g`, `n` words; the outputs are not stored over inputs. -/
structure Arrays (m : Mem) (h f g : Ptr) (nh n : ℕ) : Prop where
  hh : m.block h nh
  hf : m.block f n
  hg : m.block g n
  sf : ∀ a < nh, ∀ b < n, f + b ≠ h + a
  sg : ∀ a < nh, ∀ b < n, g + b ≠ h + a

variable {m m' : Mem} {h f g : Ptr} {nh n : ℕ}

theorem Arrays.upd {P : Ptr → Prop} (A : Arrays m h f g nh n) (u : m.Upd m' P) : Arrays m' h f g nh n :=
  ⟨fun i hi => Mem.valid_of_size u.size (A.hh i hi), fun i hi => Mem.valid_of_size u.size (A.hf i hi),
    fun i hi => Mem.valid_of_size u.size (A.hg i hi), A.sf, A.sg⟩

/-- `*(f+i)`, unchanged by the stores of the loop. -/
theorem Arrays.ldf {ι : Type} {l : List ι} {a : ι → ℕ} (A : Arrays m h f g nh n) (ha : ∀ k ∈ l, a k < nh)
    (u : m.Upd m' (fun p => ∃ k ∈ l, p = h + a k)) {i : ℕ} (hi : i < n) : (load (f + i)).Gives m' (m.val (f + i)) :=
  (Body.Gives.load (Mem.valid_of_size u.size (A.hf i hi))).of_eq (u.frame _ (by rintro ⟨k, hk, e⟩; exact A.sf _ (ha k hk) _ hi e))

theorem Arrays.ldg {ι : Type} {l : List ι} {a : ι → ℕ} (A : Arrays m h f g nh n) (ha : ∀ k ∈ l, a k < nh)
    (u : m.Upd m' (fun p => ∃ k ∈ l, p = h + a k)) {i : ℕ} (hi : i < n) : (load (g + i)).Gives m' (m.val (g + i)) :=
  (Body.Gives.load (Mem.valid_of_size u.size (A.hg i hi))).of_eq (u.frame _ (by rintro ⟨k, hk, e⟩; exact A.sg _ (ha k hk) _ hi e))

/-- The loop over the outputs: each iteration computes a number from the inputs and stores it. -/
theorem Arrays.loop {ι : Type} {l : List ι} (A : Arrays m h f g nh n) {b : ι → Body ℂ} {a : ι → ℕ} {v : ι → ℂ} (hnd : l.Nodup)
    (ha : ∀ k ∈ l, a k < nh) (hinj : ∀ i ∈ l, ∀ j ∈ l, a i = a j → i = j)
    (hb : ∀ i ∈ l, ∀ m', m.Upd m' (fun p => ∃ k ∈ l, p = h + a k) → (b i).Gives m' (v i)) :
    (seqLoop l fun i => Body.run (do let s ← b i; store (h + a i) s)).Ok m fun _ m' =>
      m.Upd m' (fun p => ∃ k ∈ l, p = h + a k) ∧ ∀ i ∈ l, m'.val (h + a i) = v i := by
  refine seqLoop_map1 (a := fun i => h + a i) hnd (fun i hi m' u => ?_) (fun i hi j hj e => hinj i hi j hj (Ptr.add_inj.1 e))
  exact (hb i hi m' u).storeGood (Mem.valid_of_size u.size (A.hh _ (ha i hi)))

theorem linearConv_eq {L : ℕ} {x y : ℕ → ℂ} {i : ℕ} (hi : i < L) : linearConv L x y i = ∑ j ∈ Ico 0 (i + 1), x j * y (i - j) := by
  unfold linearConv
  have h1 : ∀ j ∈ range L, (∑ k ∈ range L, if j + k = i then x j * y k else 0) = if j < i + 1 then x j * y (i - j) else 0 := by
    intro j _
    split_ifs with hj
    · rw [sum_eq_single (i - j) (fun k _ hk => by rw [if_neg (by omega)]) (fun h => absurd (mem_range.2 (by omega)) h), if_pos (by omega)]
    · exact sum_eq_zero fun k _ => by rw [if_neg (by omega)]
  rw [sum_congr rfl h1, ← sum_filter]
  refine sum_congr ?_ fun _ _ => rfl
  ext j
  simp only [mem_filter, mem_range, mem_Ico]
  omega

theorem conv_ok {L : ℕ} (A : Arrays m h f g L L) : (conv L h f g).Ok m fun _ m' =>
    m.Upd m' (fun p => ∃ k < L, p = h + k) ∧
    ∀ k < L, m'.val (h + k) = linearConv L (fun i => m.val (f + i)) (fun j => m.val (g + j)) k := by
  have ha : ∀ k ∈ rng 0 L, k < L := fun k hk => by rw [mem_rng] at hk; omega
  refine (A.loop (a := fun i => i) (v := linearConv L (fun i => m.val (f + i)) (fun j => m.val (g + j))) (rng_nodup ..) ha (fun _ _ _ _ e => e) ?_).mono ?_
  · intro i hi m' u
    have hiL := ha i hi
    refine (Body.Gives.acc (v := fun j => m.val (f + j) * m.val (g + (i - j))) ?_).of_eq ?_
    · intro j hj s
      rw [mem_rng] at hj
      exact (A.ldf ha u (by omega)).bind ((A.ldg ha u (by omega)).bind (Body.Gives.pure _))
    · rw [rng_sum, zero_add, linearConv_eq hiL]
  · rintro _ m' ⟨u, v⟩
    exact ⟨u.mono (by rintro p ⟨k, hk, rfl⟩; exact ⟨k, ha k hk, rfl⟩), fun k hk => v k (by rw [mem_rng]; omega)⟩

theorem linearConvC_eq {L x0 : ℕ} {x y : ℕ → ℂ} {k : ℕ} :
    linearConvC L x0 x y k = ∑ j ∈ (range L).filter (fun j => j ≤ k + x0 ∧ k + x0 - j < L), x j * y (k + x0 - j) := by
  unfold linearConvC
  rw [sum_filter]
  refine sum_congr rfl fun j _ => ?_
  split_ifs with hj
  · rw [sum_eq_single (k + x0 - j) (fun k _ hk => by rw [if_neg (by omega)]) (fun h => absurd (mem_range.2 (by omega)) h), if_pos (by omega)]
  · exact sum_eq_zero fun k hk => by rw [mem_range] at hk; rw [if_neg (by omega)]

theorem convC_ok {L : ℕ} (A : Arrays m h f g L L) : (convC L h f g).Ok m fun _ m' =>
    m.Upd m' (fun p => ∃ k < L, p = h + k) ∧
    ∀ k < L, m'.val (h + k) = linearConvC L (L / 2) (fun i => m.val (f + i)) (fun j => m.val (g + j)) k := by
  have h1 : ∀ k ∈ rng 0 (L / 2), k + (L + 1) / 2 < L := fun k hk => by rw [mem_rng] at hk; omega
  have h2 : ∀ k ∈ rng (L / 2) L, k - L / 2 < L := fun k hk => by rw [mem_rng] at hk; omega
  refine Cmd.Ok.bind ((A.loop (a := fun i => i + (L + 1) / 2)
    (v := fun i => linearConvC L (L / 2) (fun i => m.val (f + i)) (fun j => m.val (g + j)) (i + (L + 1) / 2))
    (rng_nodup ..) h1 (fun _ _ _ _ e => by omega) ?_).mono ?_)
  · intro i hi m' u
    rw [mem_rng] at hi
    refine (Body.Gives.acc (v := fun j => m.val (f + j) * m.val (g + (L + i - j))) ?_).of_eq ?_
    · intro j hj s
      rw [mem_rng] at hj
      exact (A.ldf h1 u (by omega)).bind ((A.ldg h1 u (by omega)).bind (Body.Gives.pure _))
    · rw [rng_sum, zero_add, linearConvC_eq]
      have e : i + (L + 1) / 2 + L / 2 = L + i := by omega
      rw [e]
      refine sum_congr ?_ fun _ _ => rfl
      ext j
      simp only [mem_filter, mem_range, mem_Ico]
      omega
  · rintro _ m1 ⟨u1, v1⟩
    have A1 := A.upd u1
    have ef : ∀ i < L, m1.val (f + i) = m.val (f + i) := fun i hi => u1.frame _ (by rintro ⟨k, hk, e⟩; exact A.sf _ (h1 k hk) _ hi e)
    have eg : ∀ i < L, m1.val (g + i) = m.val (g + i) := fun i hi => u1.frame _ (by rintro ⟨k, hk, e⟩; exact A.sg _ (h1 k hk) _ hi e)
    refine (A1.loop (a := fun i => i - L / 2)
      (v := fun i => linearConvC L (L / 2) (fun i => m.val (f + i)) (fun j => m.val (g + j)) (i - L / 2))
      (rng_nodup ..) h2 (fun i hi j hj e => by rw [mem_rng] at hi hj; omega) ?_).mono ?_
    · intro i hi m' u
      rw [mem_rng] at hi
      refine (Body.Gives.acc (v := fun j => m1.val (f + j) * m1.val (g + (i - j))) ?_).of_eq ?_
      · intro j hj s
        rw [mem_rng] at hj
        exact (A1.ldf h2 u (by omega)).bind ((A1.ldg h2 u (by omega)).bind (Body.Gives.pure _))
      · rw [rng_sum, zero_add, linearConvC_eq]
        have e : i - L / 2 + L / 2 = i := by omega
        rw [e]
        refine sum_congr ?_ fun j hj => ?_
        · ext j
          simp only [mem_filter, mem_range, mem_Ico]
          omega
        · simp only [mem_filter, mem_range] at hj
          rw [ef j (by omega), eg (i - j) (by omega)]
    · rintro _ m2 ⟨u2, v2⟩
      refine ⟨u1.trans u2 ?_ ?_, fun k hk => ?_⟩
      · rintro p ⟨k, hk, rfl⟩; exact ⟨_, h1 k hk, rfl⟩
      · rintro p ⟨k, hk, rfl⟩; exact ⟨_, h2 k hk, rfl⟩
      · by_cases hlt : k < (L + 1) / 2
        · have := v2 (k + L / 2) (by rw [mem_rng]; omega)
          simp only [Nat.add_sub_cancel] at this
          exact this
        · rw [u2.frame, ← Nat.sub_add_cancel (by omega : (L + 1) / 2 ≤ k)]
          · exact v1 (k - (L + 1) / 2) (by rw [mem_rng]; omega)
          · rintro ⟨j, hj, e⟩
            rw [Ptr.add_inj] at e
            rw [mem_rng] at hj
            omega

theorem autoconv_eq {L : ℕ} : autoconv L h f = conv L h f f := rfl

theorem hermLin_eq {H : ℕ} {x y : ℕ → ℂ} {k : ℕ} (hk : k < H) : hermLin H x y k =
    ∑ j ∈ Ico 0 (k + 1), x j * y (k - j) + ∑ j ∈ Ico (k + 1) H, x j * conj (y (j - k)) + ∑ j ∈ Ico 1 (H - k), conj (x j) * y (k + j) := by
  have h1 : hermLin H x y k = ∑ i ∈ Ioo (-(H : ℤ)) H, hext H x i * hext H y (k - i) := by
    unfold hermLin
    refine sum_congr rfl fun i _ => ?_
    by_cases hj : (k : ℤ) - i ∈ Ioo (-(H : ℤ)) H
    · rw [sum_eq_single_of_mem _ hj (fun j _ hne => by rw [if_neg (by omega)]), if_pos (by omega)]
    · rw [show hext H y (k - i) = 0 by unfold hext; rw [mem_Ioo] at hj; rw [if_neg (by omega)], mul_zero]
      exact sum_eq_zero fun j hj' => by rw [if_neg (fun e => hj (by rwa [← e, add_sub_cancel_left]))]
  have h2 : (Ioo (-(H : ℤ)) H) = (range H).image (fun j : ℕ => (j : ℤ)) ∪ (Ico 1 H).image (fun j : ℕ => -(j : ℤ)) := by
    ext i
    simp only [mem_Ioo, mem_union, mem_image, mem_range, mem_Ico]
    constructor
    · intro hi
      by_cases h0 : 0 ≤ i
      · exact Or.inl ⟨i.natAbs, by omega, by omega⟩
      · exact Or.inr ⟨i.natAbs, by omega, by omega⟩
    · rintro (⟨j, hj, rfl⟩ | ⟨j, hj, rfl⟩) <;> omega
  rw [h1, h2, sum_union, sum_image (fun a _ b _ e => by simpa using e), sum_image (fun a _ b _ e => by simpa using e)]
  · -- the three ranges
    congr 1
    · rw [range_eq_Ico, ← sum_Ico_consecutive _ (Nat.zero_le (k + 1)) hk]
      congr 1
      · refine sum_congr rfl fun j hj => ?_
        rw [mem_Ico] at hj
        rw [hext_nat, if_pos (by omega), show (k : ℤ) - j = (k - j : ℕ) by omega, hext_nat, if_pos (by omega)]
      · refine sum_congr rfl fun j hj => ?_
        rw [mem_Ico] at hj
        rw [hext_nat, if_pos (by omega), show (k : ℤ) - j = -((j - k : ℕ) : ℤ) by omega, hext_neg (by omega), if_pos (by omega)]
    · symm
      refine sum_subset_zero_on_sdiff (fun j hj => ?_) (fun j hj => ?_) (fun j hj => ?_)
      · rw [mem_Ico] at *; omega
      · rw [mem_sdiff, mem_Ico, mem_Ico] at hj
        rw [show (k : ℤ) - -(j : ℤ) = (k + j : ℕ) by omega, hext_nat, if_neg (by omega), mul_zero]
      · rw [mem_Ico] at hj
        rw [hext_neg (by omega), if_pos (by omega), show (k : ℤ) - -(j : ℤ) = (k + j : ℕ) by omega, hext_nat, if_pos (by omega)]
  · rw [disjoint_left]
    intro i hi hi'
    simp only [mem_image, mem_range, mem_Ico] at hi hi'
    obtain ⟨a, _, rfl⟩ := hi
    obtain ⟨b, hb, e⟩ := hi'
    omega

theorem convh_ok {L : ℕ} (A : Arrays m h f g L L) : (convh L h f g).Ok m fun _ m' =>
    m.Upd m' (fun p => ∃ k < L, p = h + k) ∧
    ∀ k < L, m'.val (h + k) = hermLin L (fun i => m.val (f + i)) (fun j => m.val (g + j)) k := by
  have ha : ∀ k ∈ rng 0 L, k < L := fun k hk => by rw [mem_rng] at hk; omega
  refine (A.loop (a := fun i => i) (v := fun k => hermLin L (fun i => m.val (f + i)) (fun j => m.val (g + j)) k)
    (b := fun i => do
      let sum ← Body.acc (rng 0 (i + 1)) (fun s j => do
        let a ← load (f + j)
        let b ← load (g + (i - j))
        pure (s + a * b)) 0
      let sum ← Body.acc (rng (i + 1) L) (fun s j => do
        let a ← load (f + j)
        let b ← load (g + (j - i))
        pure (s + a * (starRingEnd ℂ) b)) sum
      Body.acc (rng 1 (L - i)) (fun s j => do
        let a ← load (f + j)
        let b ← load (g + (i + j))
        pure (s + (starRingEnd ℂ) a * b)) sum)
    (rng_nodup ..) ha (fun _ _ _ _ e => e) ?_) |> fun H => ?_
  · rw [show (convh L h f g) = _ from ?_]
    · refine H.mono ?_
      rintro _ m' ⟨u, v⟩
      exact ⟨u.mono (by rintro p ⟨k, hk, rfl⟩; exact ⟨k, ha k hk, rfl⟩), fun k hk => v k (by rw [mem_rng]; omega)⟩
    · unfold convh
      simp only [Body.bind_eq, Body.assoc]
  · intro i hi m' u
    have hiL := ha i hi
    rw [hermLin_eq hiL, ← rng_sum, ← rng_sum, ← rng_sum]
    refine ((Body.Gives.acc (v := fun j => m.val (f + j) * m.val (g + (i - j))) ?_).bind ((Body.Gives.acc (v := fun j => m.val (f + j) * conj (m.val (g + (j - i)))) ?_).bind
      (Body.Gives.acc (v := fun j => conj (m.val (f + j)) * m.val (g + (i + j))) ?_))).of_eq (by rw [zero_add])
    all_goals
      intro j hj s
      rw [mem_rng] at hj
      exact (A.ldf ha u (by omega)).bind ((A.ldg ha u (by omega)).bind (Body.Gives.pure _))

end Direct
end Fftwpp
