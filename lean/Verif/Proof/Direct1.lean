import Verif.Model.Direct
import Verif.Proof.Loops
import Mathlib.Algebra.BigOperators.Group.List.Basic
import Mathlib.Algebra.BigOperators.Group.Finset.Basic

/-! Direct convolutions: bodies that only read, accumulation, loops of stores. -/

namespace Fftwpp
open Finset

/-- The body only reads (valid locations) and returns `v`. -/
def Body.Gives {α : Type} (b : Body α) (m : Mem) (v : α) : Prop := b.Good m ∧ b.wrs m = [] ∧ b.res m = v

namespace Body

theorem assoc {α β γ : Type} (x : Body α) (f : α → Body β) (g : β → Body γ) : (x.bind f).bind g = x.bind fun a => (f a).bind g := by
  induction x with
  | ret a => rfl
  | guard P k ih => simp only [Body.bind, ih]
  | rd p k ih => simp only [Body.bind, ih]
  | wr p v k ih => simp only [Body.bind, ih]

theorem Gives.bind_eqs {α β : Type} {b : Body α} {m : Mem} {v : α} (h : b.Gives m v) (g : α → Body β) :
    ((b.bind g).Good m ↔ (g v).Good m) ∧ (b.bind g).wrs m = (g v).wrs m ∧ (b.bind g).res m = (g v).res m := by
  induction b generalizing m with
  | ret a => obtain ⟨_, _, rfl⟩ := h; exact ⟨Iff.rfl, rfl, rfl⟩
  | guard P k ih =>
    obtain ⟨h1, h2, h3⟩ := h
    obtain ⟨a, b, c⟩ := ih (m := m) ⟨h1.2, h2, h3⟩
    refine ⟨?_, b, c⟩
    show (P ∧ (k.bind g).Good m) ↔ _
    rw [a]
    exact ⟨fun h => h.2, fun h => ⟨h1.1, h⟩⟩
  | rd p k ih =>
    obtain ⟨h1, h2, h3⟩ := h
    obtain ⟨a, b, c⟩ := ih (m.val p) (m := m) ⟨h1.2, h2, h3⟩
    refine ⟨?_, b, c⟩
    show (m.valid p ∧ ((k (m.val p)).bind g).Good m) ↔ _
    rw [a]
    exact ⟨fun h => h.2, fun h => ⟨h1.1, h⟩⟩
  | wr p v k ih => exact absurd h.2.1 (by simp [wrs])

theorem Gives.pure {α : Type} {m : Mem} (a : α) : (Pure.pure a : Body α).Gives m a := ⟨trivial, rfl, rfl⟩

theorem Gives.load {m : Mem} {p : Ptr} (h : m.valid p) : (load p).Gives m (m.val p) := ⟨⟨h, trivial⟩, rfl, rfl⟩

theorem Gives.bind {α β : Type} {b : Body α} {m : Mem} {v : α} {g : α → Body β} {u : β} (h : b.Gives m v) (hg : (g v).Gives m u) :
    (b >>= g).Gives m u := by
  obtain ⟨h1, h2, h3⟩ := h.bind_eqs g
  exact ⟨h1.2 hg.1, h2.trans hg.2.1, h3.trans hg.2.2⟩

theorem Gives.of_eq {α : Type} {b : Body α} {m : Mem} {v u : α} (h : b.Gives m v) (e : v = u) : b.Gives m u := e ▸ h

theorem Gives.acc {ι : Type} {l : List ι} {t : ℂ → ι → Body ℂ} {m : Mem} {v : ι → ℂ} {s : ℂ}
    (h : ∀ i ∈ l, ∀ s, (t s i).Gives m (s + v i)) : (Body.acc l t s).Gives m (s + (l.map v).sum) := by
  induction l generalizing s with
  | nil =>
    rw [List.map_nil, List.sum_nil, add_zero]
    exact Gives.pure s
  | cons i l ih =>
    refine (h i (by simp) s).bind ?_
    refine (ih (fun j hj => h j (by simp [hj])) (s := s + v i)).of_eq ?_
    simp [add_assoc]

theorem Gives.ite {P : Prop} [Decidable P] {a b : Body ℂ} {m : Mem} {s v : ℂ} (ha : P → a.Gives m (s + v)) (hb : b.Gives m s) :
    (if P then a else b).Gives m (s + if P then v else 0) := by
  split_ifs with h
  · exact ha h
  · simpa using hb

theorem Gives.storeGood {m : Mem} {b : Body ℂ} {v : ℂ} {p : Ptr} (h : b.Gives m v) (hp : m.valid p) :
    (b >>= fun s => store p s).Good m ∧ (b >>= fun s => store p s).wrs m = [(p, v)] := by
  obtain ⟨h1, h2, _⟩ := h.bind_eqs (fun s => store p s)
  exact ⟨h1.2 ⟨hp, trivial⟩, h2⟩

end Body

/-- A loop of stores at distinct locations. -/
theorem seqLoop_map1 {ι : Type} {l : List ι} {body : ι → Body Unit} {m : Mem} {a : ι → Ptr} {v : ι → ℂ} (hnd : l.Nodup)
    (h : ∀ i ∈ l, ∀ m', m.Upd m' (fun p => ∃ k ∈ l, p = a k) → (body i).Good m' ∧ (body i).wrs m' = [(a i, v i)])
    (hinj : ∀ i ∈ l, ∀ j ∈ l, a i = a j → i = j) :
    (seqLoop l fun i => (body i).run).Ok m fun _ m' => m.Upd m' (fun p => ∃ k ∈ l, p = a k) ∧ ∀ i ∈ l, m'.val (a i) = v i := by
  have key : ∀ (t : List ι) (m1 : Mem), (∀ i ∈ t, i ∈ l) → t.Nodup → m.Upd m1 (fun p => ∃ k ∈ l, p = a k) →
      (seqLoop t fun i => (body i).run).Ok m1 fun _ m' => m1.Upd m' (fun p => ∃ k ∈ t, p = a k) ∧ ∀ i ∈ t, m'.val (a i) = v i := by
    intro t
    induction t with
    | nil => intro m1 _ _ _; exact ⟨(), m1, rfl, Mem.Upd.refl _ _, by simp⟩
    | cons i t ih =>
      intro m1 hsub hn hu
      obtain ⟨hit, hn'⟩ := List.nodup_cons.1 hn
      have hil := hsub i (by simp)
      obtain ⟨hg, hw⟩ := h i hil m1 hu
      obtain ⟨_, m2, e2, u2, v2⟩ := run_map1 (Q := fun _ m2 => m1.Upd m2 (fun p => p = a i) ∧ m2.val (a i) = v i) (a i) (v i) hg hw (fun m2 h1 h2 => ⟨h1, h2⟩)
      obtain ⟨_, m3, e3, u3, v3⟩ := ih m2 (fun j hj => hsub j (by simp [hj])) hn'
        (hu.trans u2 (fun _ h => h) (fun p hp => ⟨i, hil, hp⟩))
      refine ⟨(), m3, ?_, u2.trans u3 (fun p hp => ⟨i, by simp, hp⟩) (fun p ⟨k, hk, hp⟩ => ⟨k, by simp [hk], hp⟩), ?_⟩
      · simp only [seqLoop, e2]
        exact e3
      · intro j hj
        rcases List.mem_cons.1 hj with rfl | hj
        · rw [u3.frame _ ?_, v2]
          rintro ⟨k, hk, he⟩
          exact hit (hinj _ hil _ (hsub k (by simp [hk])) he ▸ hk)
        · exact v3 j hj
  exact key l m (fun _ h => h) hnd (Mem.Upd.refl _ _)

/-- The final store of an iteration: the sum, computed from data that the loop does not change. -/
theorem acc_store {m : Mem} {b : Body ℂ} {v : ℂ} {p : Ptr} (h : b.Gives m v) (hp : m.valid p) :
    (do let s ← b; store p s : Body Unit).Good m ∧ (do let s ← b; store p s : Body Unit).wrs m = [(p, v)] := h.storeGood hp

theorem rng_sum (a b : ℕ) (f : ℕ → ℂ) : ((rng a b).map f).sum = ∑ i ∈ Ico a b, f i := by
  rw [← List.sum_toFinset _ (rng_nodup ..)]
  refine sum_congr ?_ fun _ _ => rfl
  ext i
  simp only [List.mem_toFinset, mem_rng, mem_Ico]

theorem mem_irng {a b i : ℤ} : i ∈ irng a b ↔ a ≤ i ∧ i < b := by
  unfold irng
  simp only [List.mem_map, List.mem_range]
  constructor
  · rintro ⟨k, hk, rfl⟩; omega
  · rintro ⟨h1, h2⟩; exact ⟨(i - a).toNat, by omega, by omega⟩

theorem irng_nodup (a b : ℤ) : (irng a b).Nodup := by
  unfold irng
  refine List.Nodup.map ?_ List.nodup_range
  intro x y h
  simp only at h
  omega

theorem irng_sum (a b : ℤ) (f : ℤ → ℂ) : ((irng a b).map f).sum = ∑ i ∈ Ico a b, f i := by
  rw [← List.sum_toFinset _ (irng_nodup ..)]
  refine sum_congr ?_ fun _ _ => rfl
  ext i
  simp only [List.mem_toFinset, mem_irng, mem_Ico]

end Fftwpp
