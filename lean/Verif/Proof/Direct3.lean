import Verif.Proof.Direct2
import Verif.Spec.Dft2

/-! Direct convolutions of complex data in two and three dimensions. -/

namespace Fftwpp
open Finset

namespace Direct
variable {m m' : Mem} {h f g : Ptr} {nh n : ℕ}

theorem sum_collapse {L : ℕ} (F : ℕ → ℕ → ℂ) (i a : ℕ) (hi : i < L) :
    (∑ b ∈ range L, if a + b = i then F a b else 0) = if a < i + 1 then F a (i - a) else 0 := by
  split_ifs with h
  · rw [sum_eq_single (i - a) (fun k _ hk => by rw [if_neg (by omega)]) (fun h => absurd (mem_range.2 (by omega)) h), if_pos (by omega)]
  · exact sum_eq_zero fun k _ => by rw [if_neg (by omega)]

theorem sum_upto {L i : ℕ} (hi : i < L) (F : ℕ → ℂ) : (∑ a ∈ range L, if a < i + 1 then F a else 0) = ∑ a ∈ Ico 0 (i + 1), F a := by
  rw [← sum_filter]
  refine sum_congr ?_ fun _ _ => rfl
  ext j
  simp only [mem_filter, mem_range, mem_Ico]
  omega

/-- Sums over pairs with a given sum. -/
theorem sum_pairs {L i : ℕ} (hi : i < L) (F : ℕ → ℕ → ℂ) :
    (∑ a ∈ range L, ∑ b ∈ range L, if a + b = i then F a b else 0) = ∑ a ∈ Ico 0 (i + 1), F a (i - a) := by
  rw [← sum_upto hi]
  exact sum_congr rfl fun a _ => sum_collapse F i a hi

theorem linearConv2_eq {Lx Ly : ℕ} {x y : ℕ → ℕ → ℂ} {i j : ℕ} (hi : i < Lx) (hj : j < Ly) :
    linearConv2 Lx Ly x y i j = ∑ a ∈ Ico 0 (i + 1), ∑ c ∈ Ico 0 (j + 1), x a c * y (i - a) (j - c) := by
  unfold linearConv2
  rw [← sum_pairs hi (fun a b => ∑ c ∈ Ico 0 (j + 1), x a c * y b (j - c))]
  refine sum_congr rfl fun a _ => sum_congr rfl fun b _ => ?_
  split_ifs with hab
  · rw [← sum_pairs hj (fun c d => x a c * y b d)]
    refine sum_congr rfl fun c _ => sum_congr rfl fun d _ => ?_
    simp only [hab, true_and]
  · exact sum_eq_zero fun c _ => sum_eq_zero fun d _ => by rw [if_neg (fun hh => hab hh.1)]

theorem linearConv3_eq {Lx Ly Lz : ℕ} {x y : ℕ → ℕ → ℕ → ℂ} {i j k : ℕ} (hi : i < Lx) (hj : j < Ly) (hk : k < Lz) :
    linearConv3 Lx Ly Lz x y i j k =
      ∑ a ∈ Ico 0 (i + 1), ∑ c ∈ Ico 0 (j + 1), ∑ e ∈ Ico 0 (k + 1), x a c e * y (i - a) (j - c) (k - e) := by
  unfold linearConv3
  rw [← sum_pairs hi (fun a b => ∑ c ∈ Ico 0 (j + 1), ∑ e ∈ Ico 0 (k + 1), x a c e * y b (j - c) (k - e))]
  refine sum_congr rfl fun a _ => sum_congr rfl fun b _ => ?_
  split_ifs with hab
  · rw [← linearConv2_eq hj hk (x := fun c e => x a c e) (y := fun c e => y b c e)]
    unfold linearConv2
    refine sum_congr rfl fun c _ => sum_congr rfl fun d _ => sum_congr rfl fun e _ => sum_congr rfl fun e' _ => ?_
    simp only [hab, true_and]
  · exact sum_eq_zero fun c _ => sum_eq_zero fun d _ => sum_eq_zero fun e _ => sum_eq_zero fun e' _ => by rw [if_neg (fun hh => hab hh.1)]

theorem conv2_ok {mx my S : ℕ} (A : Arrays m h f g (mx * my) (stride S my * (mx - 1) + my)) : (conv2 mx my S h f g).Ok m fun _ m' =>
    m.Upd m' (fun p => ∃ k < mx * my, p = h + k) ∧
    ∀ i < mx, ∀ j < my, m'.val (h + (i * my + j)) =
      linearConv2 mx my (fun i j => m.val (f + (stride S my * i + j))) (fun i j => m.val (g + (stride S my * i + j))) i j := by
  have ha : ∀ k ∈ rng2 0 mx 0 my, k.1 * my + k.2 < mx * my := fun k hk => by
    rw [mem_rng2] at hk
    rw [Nat.mul_comm, Nat.mul_comm mx]
    exact radix_lt (by omega) (by omega)
  have hin : ∀ i < mx, ∀ j < my, stride S my * i + j < stride S my * (mx - 1) + my := fun i hi j hj => by
    have := Nat.mul_le_mul_left (stride S my) (show i ≤ mx - 1 by omega)
    omega
  refine (A.loop (a := fun k => k.1 * my + k.2) (v := fun k => linearConv2 mx my (fun i j => m.val (f + (stride S my * i + j))) (fun i j => m.val (g + (stride S my * i + j))) k.1 k.2)
    (rng2_nodup ..) ha (fun k hk k' hk' e => ?_) ?_).mono ?_
  · rw [mem_rng2] at hk hk'
    rw [Nat.mul_comm, Nat.mul_comm k'.1] at e
    obtain ⟨h1, h2⟩ := radix_inj (by omega) (by omega) e
    exact Prod.ext h1 h2
  · rintro ⟨i, j⟩ hk m' u
    rw [mem_rng2] at hk
    obtain ⟨⟨_, hi⟩, _, hj⟩ := hk
    rw [linearConv2_eq hi hj, ← rng_sum]
    refine (Body.Gives.acc (v := fun a => ∑ c ∈ Ico 0 (j + 1), m.val (f + (stride S my * a + c)) * m.val (g + (stride S my * (i - a) + (j - c)))) ?_).of_eq (zero_add _)
    intro a hh s
    rw [mem_rng] at hh
    rw [← rng_sum]
    refine Body.Gives.acc ?_
    intro c hc s
    rw [mem_rng] at hc
    rw [← Nat.add_sub_assoc (by omega : c ≤ j)]
    refine (A.ldf ha u (hin _ (by omega) _ (by omega))).bind ((A.ldg ha u ?_).bind (Body.Gives.pure _))
    rw [Nat.add_sub_assoc (by omega : c ≤ j)]
    exact hin _ (by omega) _ (by omega)
  · rintro _ m' ⟨u, v⟩
    exact ⟨u.mono (by rintro p ⟨k, hk, rfl⟩; exact ⟨_, ha k hk, rfl⟩), fun i hi j hj => v (i, j) (by rw [mem_rng2]; dsimp only; omega)⟩

theorem conv3_ok {mx my mz S1 S2 Sx Sy : ℕ} (hSy : Sy = stride S2 mz) (hSx : Sx = stride S1 (my * Sy))
    (A : Arrays m h f g (mx * (my * mz)) (Sx * (mx - 1) + Sy * (my - 1) + mz)) : (conv3 mx my mz S1 S2 h f g).Ok m fun _ m' =>
    m.Upd m' (fun p => ∃ k < mx * (my * mz), p = h + k) ∧
    ∀ i < mx, ∀ j < my, ∀ k < mz, m'.val (h + (i * (my * mz) + j * mz + k)) =
      linearConv3 mx my mz (fun i j k => m.val (f + (Sx * i + (Sy * j + k)))) (fun i j k => m.val (g + (Sx * i + (Sy * j + k)))) i j k := by
  have ha : ∀ k ∈ rng3 0 mx 0 my 0 mz, k.1 * (my * mz) + k.2.1 * mz + k.2.2 < mx * (my * mz) := fun k hk => by
    rw [mem_rng3] at hk
    rw [Nat.mul_comm, Nat.mul_comm mx, Nat.add_assoc, Nat.mul_comm k.2.1]
    refine radix_lt ?_ (by omega)
    rw [Nat.mul_comm my]
    exact radix_lt (by omega) (by omega)
  have hin : ∀ i < mx, ∀ j < my, ∀ k < mz, Sx * i + (Sy * j + k) < Sx * (mx - 1) + Sy * (my - 1) + mz := fun i hi j hj k hk => by
    have := Nat.mul_le_mul_left Sx (show i ≤ mx - 1 by omega)
    have := Nat.mul_le_mul_left Sy (show j ≤ my - 1 by omega)
    omega
  have key := A.loop (a := fun k : ℕ × ℕ × ℕ => k.1 * (my * mz) + k.2.1 * mz + k.2.2)
    (b := fun k => Body.acc (rng 0 (k.1 + 1)) (fun s r => Body.acc (rng 0 (k.2.1 + 1)) (fun s p => Body.acc (rng 0 (k.2.2 + 1)) (fun s q => do
      let a ← load (f + (r * Sx + p * Sy + q))
      let b ← load (g + ((k.1 - r) * Sx + (k.2.1 - p) * Sy + (k.2.2 - q)))
      pure (s + a * b)) s) s) 0)
    (v := fun k => linearConv3 mx my mz (fun i j k => m.val (f + (Sx * i + (Sy * j + k)))) (fun i j k => m.val (g + (Sx * i + (Sy * j + k)))) k.1 k.2.1 k.2.2)
    (rng3_nodup ..) ha (fun k hk k' hk' e => ?_) ?_
  · subst hSy hSx
    refine key.mono ?_
    rintro _ m' ⟨u, v⟩
    exact ⟨u.mono (by rintro p ⟨k, hk, rfl⟩; exact ⟨_, ha k hk, rfl⟩), fun i hi j hj k hk => v (i, j, k) (by rw [mem_rng3]; dsimp only; omega)⟩
  · rw [mem_rng3] at hk hk'
    rw [Nat.mul_comm, Nat.mul_comm k'.1, Nat.add_assoc, Nat.add_assoc, Nat.mul_comm k.2.1, Nat.mul_comm k'.2.1] at e
    have l1 : mz * k.2.1 + k.2.2 < my * mz := by rw [Nat.mul_comm my]; exact radix_lt (by omega) (by omega)
    have l2 : mz * k'.2.1 + k'.2.2 < my * mz := by rw [Nat.mul_comm my]; exact radix_lt (by omega) (by omega)
    obtain ⟨h1, h2⟩ := radix_inj l1 l2 e
    obtain ⟨h3, h4⟩ := radix_inj (by omega) (by omega) h2
    exact Prod.ext h1 (Prod.ext h3 h4)
  · rintro ⟨i, j, k⟩ hk m' u
    rw [mem_rng3] at hk
    obtain ⟨⟨_, hi⟩, ⟨_, hj⟩, _, hk⟩ := hk
    dsimp only at hi hj hk ⊢
    rw [linearConv3_eq hi hj hk, ← rng_sum]
    refine (Body.Gives.acc (v := fun a => ∑ c ∈ Ico 0 (j + 1), ∑ e ∈ Ico 0 (k + 1),
      m.val (f + (Sx * a + (Sy * c + e))) * m.val (g + (Sx * (i - a) + (Sy * (j - c) + (k - e))))) ?_).of_eq (zero_add _)
    intro a hh s
    rw [mem_rng] at hh
    rw [← rng_sum]
    refine Body.Gives.acc ?_
    intro c hc s
    rw [mem_rng] at hc
    rw [← rng_sum]
    refine Body.Gives.acc ?_
    intro e he s
    rw [mem_rng] at he
    rw [Nat.mul_comm a, Nat.mul_comm c, Nat.add_assoc, Nat.mul_comm (i - a), Nat.mul_comm (j - c), Nat.add_assoc]
    exact (A.ldf ha u (hin _ (by omega) _ (by omega) _ (by omega))).bind ((A.ldg ha u (hin _ (by omega) _ (by omega) _ (by omega))).bind (Body.Gives.pure _))

end Direct
end Fftwpp
