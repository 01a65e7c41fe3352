import Verif.Proof.MemLemmas
import Verif.Proof.Rows
import Verif.Model.FftPad
import Verif.Props.Vec
import Mathlib.Tactic.Ring

/-! Reasoning tools for the loops of the transforms. -/

namespace Fftwpp
open Finset

theorem Ptr.add_add (p : Ptr) (i j : ℕ) : p + i + j = p + (i + j) := by
  ext <;> simp [add_assoc]
theorem Ptr.add_inj {p : Ptr} {i j : ℕ} : p + i = p + j ↔ i = j := by
  rw [Ptr.ext_iff]; simp
theorem Ptr.add_zero (p : Ptr) : p + 0 = p := by ext <;> simp
theorem Ptr.add_self_iff {p : Ptr} {i : ℕ} : p = p + i ↔ i = 0 := by
  rw [Ptr.ext_iff]; simp
theorem Ptr.add_self_iff' {p : Ptr} {i : ℕ} : p + i = p ↔ i = 0 := by
  rw [Ptr.ext_iff]; simp
theorem Ptr.ne_of_buf {p q : Ptr} (h : p.buf ≠ q.buf) : p ≠ q := fun e => h (e ▸ rfl)
theorem Ptr.sub_add {p : Ptr} {i j : ℕ} (h : i ≤ j) : p - i + j = p + (j - i) := by
  rw [Ptr.ext_iff]; simp; omega

theorem Mem.valid_of_size {m m' : Mem} (h : m'.size = m.size) {p : Ptr} (hv : m.valid p) : m'.valid p := by
  unfold Mem.valid at *; rw [h]; exact hv

/-- Only locations in `P` changed. -/
structure Mem.Upd (m m' : Mem) (P : Ptr → Prop) : Prop where
  size : m'.size = m.size
  frame : ∀ p, ¬ P p → m'.val p = m.val p

theorem Mem.Upd.refl (m : Mem) (P : Ptr → Prop) : m.Upd m P := ⟨rfl, fun _ _ => rfl⟩

theorem Mem.Upd.trans {m m1 m2 : Mem} {P Q R : Ptr → Prop} (h1 : m.Upd m1 P) (h2 : m1.Upd m2 Q)
    (hP : ∀ p, P p → R p) (hQ : ∀ p, Q p → R p) : m.Upd m2 R :=
  ⟨h2.size.trans h1.size, fun p hp => by
    rw [h2.frame p (fun h => hp (hQ p h)), h1.frame p (fun h => hp (hP p h))]⟩

theorem Mem.Upd.mono {m m1 : Mem} {P R : Ptr → Prop} (h1 : m.Upd m1 P) (hP : ∀ p, P p → R p) : m.Upd m1 R :=
  ⟨h1.size, fun p hp => h1.frame p (fun h => hp (hP p h))⟩

section
variable {ι : Type} {l : List ι} {body : ι → Body Unit} {m : Mem} {Q : Unit → Mem → Prop}

/-- Parallel loop whose iterations store one value each. -/
theorem par_map1 (a : ι → Ptr) (v : ι → ℂ) (hnd : l.Nodup)
    (hg : ∀ i ∈ l, (body i).Good m)
    (hw : ∀ i ∈ l, (body i).wrs m = [(a i, v i)])
    (hinj : ∀ i ∈ l, ∀ j ∈ l, a i = a j → i = j)
    (hrd : ∀ i ∈ l, ∀ j ∈ l, i ≠ j → a i ∉ (body j).rds m)
    (hQ : ∀ m', m.Upd m' (fun p => ∃ i ∈ l, p = a i) → (∀ i ∈ l, m'.val (a i) = v i) → Q () m') :
    (par l body).Ok m Q := by
  refine (par_ok hnd hg ?_ ?_).mono ?_
  · intro i hi j hj hij x hx
    rw [hw i hi] at hx
    rw [hw j hj]
    simp only [List.mem_singleton] at hx
    subst hx
    refine ⟨hrd i hi j hj hij, ?_⟩
    simp only [List.map_cons, List.map_nil, List.mem_singleton]
    exact fun h => hij (hinj i hi j hj h)
  · intro i hi; rw [hw i hi]; simp
  · rintro _ m' ⟨h1, h2, h3⟩
    refine hQ m' ⟨h1, ?_⟩ ?_
    · intro p hp
      apply h3
      intro i hi
      rw [hw i hi]
      simp only [List.map_cons, List.map_nil, List.mem_singleton]
      exact fun h => hp ⟨i, hi, h⟩
    · intro i hi
      exact h2 i hi (a i, v i) (by rw [hw i hi]; simp)

/-- Parallel loop whose iterations store two values each. -/
theorem par_map2 (a : ι → Ptr) (v : ι → ℂ) (a' : ι → Ptr) (v' : ι → ℂ) (hnd : l.Nodup)
    (hg : ∀ i ∈ l, (body i).Good m)
    (hw : ∀ i ∈ l, (body i).wrs m = [(a i, v i), (a' i, v' i)])
    (hinj : ∀ i ∈ l, ∀ j ∈ l, a i = a j → i = j)
    (hinj' : ∀ i ∈ l, ∀ j ∈ l, a' i = a' j → i = j)
    (hne : ∀ i ∈ l, ∀ j ∈ l, a i ≠ a' j)
    (hrd : ∀ i ∈ l, ∀ j ∈ l, i ≠ j → a i ∉ (body j).rds m ∧ a' i ∉ (body j).rds m)
    (hQ : ∀ m', m.Upd m' (fun p => (∃ i ∈ l, p = a i) ∨ (∃ i ∈ l, p = a' i)) → (∀ i ∈ l, m'.val (a i) = v i) →
      (∀ i ∈ l, m'.val (a' i) = v' i) → Q () m') :
    (par l body).Ok m Q := by
  refine (par_ok hnd hg ?_ ?_).mono ?_
  · intro i hi j hj hij x hx
    rw [hw i hi] at hx
    rw [hw j hj]
    simp only [List.mem_cons, List.not_mem_nil, or_false] at hx
    simp only [List.map_cons, List.map_nil, List.mem_cons, List.not_mem_nil, or_false, not_or]
    rcases hx with rfl | rfl
    · exact ⟨(hrd i hi j hj hij).1, fun h => hij (hinj i hi j hj h), hne i hi j hj⟩
    · exact ⟨(hrd i hi j hj hij).2, (hne j hj i hi).symm, fun h => hij (hinj' i hi j hj h)⟩
  · intro i hi; rw [hw i hi]; simp [hne i hi i hi]
  · rintro _ m' ⟨h1, h2, h3⟩
    refine hQ m' ⟨h1, ?_⟩ ?_ ?_
    · intro p hp
      apply h3
      intro i hi
      rw [hw i hi]
      simp only [List.map_cons, List.map_nil, List.mem_cons, List.not_mem_nil, or_false, not_or]
      exact ⟨fun h => hp (Or.inl ⟨i, hi, h⟩), fun h => hp (Or.inr ⟨i, hi, h⟩)⟩
    · intro i hi
      exact h2 i hi (a i, v i) (by rw [hw i hi]; simp)
    · intro i hi
      exact h2 i hi (a' i, v' i) (by rw [hw i hi]; simp)

/-- Parallel loop whose iterations store three values each. -/
theorem par_map3 (a : ι → Ptr) (v : ι → ℂ) (a' : ι → Ptr) (v' : ι → ℂ) (a'' : ι → Ptr) (v'' : ι → ℂ) (hnd : l.Nodup)
    (hg : ∀ i ∈ l, (body i).Good m)
    (hw : ∀ i ∈ l, (body i).wrs m = [(a i, v i), (a' i, v' i), (a'' i, v'' i)])
    (hinj : ∀ i ∈ l, ∀ j ∈ l, a i = a j → i = j)
    (hinj' : ∀ i ∈ l, ∀ j ∈ l, a' i = a' j → i = j)
    (hinj'' : ∀ i ∈ l, ∀ j ∈ l, a'' i = a'' j → i = j)
    (hne : ∀ i ∈ l, ∀ j ∈ l, a i ≠ a' j)
    (hne' : ∀ i ∈ l, ∀ j ∈ l, a i ≠ a'' j)
    (hne'' : ∀ i ∈ l, ∀ j ∈ l, a' i ≠ a'' j)
    (hrd : ∀ i ∈ l, ∀ j ∈ l, i ≠ j → a i ∉ (body j).rds m ∧ a' i ∉ (body j).rds m ∧ a'' i ∉ (body j).rds m)
    (hQ : ∀ m', m.Upd m' (fun p => (∃ i ∈ l, p = a i) ∨ (∃ i ∈ l, p = a' i) ∨ (∃ i ∈ l, p = a'' i)) →
      (∀ i ∈ l, m'.val (a i) = v i) → (∀ i ∈ l, m'.val (a' i) = v' i) → (∀ i ∈ l, m'.val (a'' i) = v'' i) → Q () m') :
    (par l body).Ok m Q := by
  refine (par_ok hnd hg ?_ ?_).mono ?_
  · intro i hi j hj hij x hx
    rw [hw i hi] at hx
    rw [hw j hj]
    simp only [List.mem_cons, List.not_mem_nil, or_false] at hx
    simp only [List.map_cons, List.map_nil, List.mem_cons, List.not_mem_nil, or_false, not_or]
    rcases hx with rfl | rfl | rfl
    · exact ⟨(hrd i hi j hj hij).1, fun h => hij (hinj i hi j hj h), hne i hi j hj, hne' i hi j hj⟩
    · exact ⟨(hrd i hi j hj hij).2.1, (hne j hj i hi).symm, fun h => hij (hinj' i hi j hj h), hne'' i hi j hj⟩
    · exact ⟨(hrd i hi j hj hij).2.2, (hne' j hj i hi).symm, (hne'' j hj i hi).symm,
        fun h => hij (hinj'' i hi j hj h)⟩
  · intro i hi; rw [hw i hi]; simp [hne i hi i hi, hne' i hi i hi, hne'' i hi i hi]
  · rintro _ m' ⟨h1, h2, h3⟩
    refine hQ m' ⟨h1, ?_⟩ ?_ ?_ ?_
    · intro p hp
      apply h3
      intro i hi
      rw [hw i hi]
      simp only [List.map_cons, List.map_nil, List.mem_cons, List.not_mem_nil, or_false, not_or]
      exact ⟨fun h => hp (Or.inl ⟨i, hi, h⟩), fun h => hp (Or.inr (Or.inl ⟨i, hi, h⟩)),
        fun h => hp (Or.inr (Or.inr ⟨i, hi, h⟩))⟩
    · intro i hi
      exact h2 i hi (a i, v i) (by rw [hw i hi]; simp)
    · intro i hi
      exact h2 i hi (a' i, v' i) (by rw [hw i hi]; simp)
    · intro i hi
      exact h2 i hi (a'' i, v'' i) (by rw [hw i hi]; simp)

end

/-- Mixed radix representation is unique. -/
theorem radix_inj {S s c s' c' : ℕ} (hc : c < S) (hc' : c' < S) (h : S * s + c = S * s' + c') :
    s = s' ∧ c = c' := by
  have h1 : (S * s + c) / S = s := by
    rw [Nat.mul_add_div (by omega), Nat.div_eq_of_lt hc, Nat.add_zero]
  have h2 : (S * s' + c') / S = s' := by
    rw [Nat.mul_add_div (by omega), Nat.div_eq_of_lt hc', Nat.add_zero]
  have h3 : s = s' := by rw [← h1, h, h2]
  subst h3
  exact ⟨rfl, by omega⟩

theorem radix_lt {S s c n : ℕ} (hc : c < S) (hs : s < n) : S * s + c < S * n := by
  have : S * (s + 1) ≤ S * n := Nat.mul_le_mul_left S hs
  rw [Nat.mul_succ] at this
  omega

theorem Body.bind_eq {α β : Type} (x : Body α) (g : α → Body β) : (x >>= g) = Body.bind x g := rfl

/-- Unfolding of loop bodies. -/
macro "body_simp" : tactic => `(tactic|
  simp only [Fft.copy1, Fft.zero1, load, store, Table.get, Body.bind_eq, Body.bind, pure_eq_ret, Body.Good, Body.rds,
    Body.wrs, Mem.set_valid, Ptr.add_add, and_true, true_and, List.mem_cons, List.not_mem_nil, or_false,
    not_or, not_false_iff, implies_true])

/-- Pointer (in)equalities and non-membership in regions. -/
macro "ptr" : tactic => `(tactic|
  (simp only [mem_rng, mem_rng2, mem_rng3, Ptr.ext_iff, Ptr.add_buf, Ptr.add_off, Ptr.sub_buf, Ptr.sub_off, ne_eq, not_or,
      not_exists, not_and, Prod.forall, Prod.exists, exists_imp, and_imp]
   <;> (repeat' (first | (intro _) | (apply And.intro))) <;> omega))

section
variable {body : Body Unit} {m : Mem} {Q : Unit → Mem → Prop}

theorem run_map1 (a : Ptr) (v : ℂ) (hg : body.Good m) (hw : body.wrs m = [(a, v)])
    (hQ : ∀ m', m.Upd m' (fun p => p = a) → m'.val a = v → Q () m') : (body.run).Ok m Q := by
  refine Body.run_ok hg ?_
  rw [hw]
  refine hQ _ ⟨by simp, ?_⟩ ?_
  · intro p hp; apply Mem.setAll_notin; simpa using hp
  · exact Mem.setAll_in _ _ (by simp) (a, v) (by simp)

theorem run_map2 (a : Ptr) (v : ℂ) (a' : Ptr) (v' : ℂ) (hg : body.Good m) (hw : body.wrs m = [(a, v), (a', v')])
    (hne : a ≠ a')
    (hQ : ∀ m', m.Upd m' (fun p => p = a ∨ p = a') → m'.val a = v → m'.val a' = v' → Q () m') :
    (body.run).Ok m Q := by
  refine Body.run_ok hg ?_
  rw [hw]
  refine hQ _ ⟨by simp, ?_⟩ ?_ ?_
  · intro p hp; apply Mem.setAll_notin; simpa using hp
  · exact Mem.setAll_in _ _ (by simp [hne]) (a, v) (by simp)
  · exact Mem.setAll_in _ _ (by simp [hne]) (a', v') (by simp)

theorem run_map3 (a : Ptr) (v : ℂ) (a' : Ptr) (v' : ℂ) (a'' : Ptr) (v'' : ℂ) (hg : body.Good m)
    (hw : body.wrs m = [(a, v), (a', v'), (a'', v'')]) (hne : a ≠ a') (hne' : a ≠ a'') (hne'' : a' ≠ a'')
    (hQ : ∀ m', m.Upd m' (fun p => p = a ∨ p = a' ∨ p = a'') → m'.val a = v → m'.val a' = v' →
      m'.val a'' = v'' → Q () m') :
    (body.run).Ok m Q := by
  refine Body.run_ok hg ?_
  rw [hw]
  refine hQ _ ⟨by simp, ?_⟩ ?_ ?_ ?_
  · intro p hp; apply Mem.setAll_notin; simpa using hp
  · exact Mem.setAll_in _ _ (by simp [hne, hne', hne'']) (a, v) (by simp)
  · exact Mem.setAll_in _ _ (by simp [hne, hne', hne'']) (a', v') (by simp)
  · exact Mem.setAll_in _ _ (by simp [hne, hne', hne'']) (a'', v'') (by simp)
end

end Fftwpp
