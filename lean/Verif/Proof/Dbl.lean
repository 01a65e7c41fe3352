import Verif.Model.Real
import Verif.Proof.RPlan

/-! Reasoning about loops over single doubles. -/

namespace Fftwpp
open Finset

/-- Double at `x` (a pointer into the memory seen as an array of doubles). -/
noncomputable def Mem.cell (m : Mem) (x : Ptr) : ℝ :=
  if x.off % 2 = 0 then (m.val ⟨x.buf, x.off / 2⟩).re else (m.val ⟨x.buf, x.off / 2⟩).im

theorem Mem.split_val (m : Mem) (x : Ptr) : m.split.val x = (m.cell x : ℂ) := by
  unfold Mem.split Mem.cell
  simp only
  split_ifs <;> rfl

theorem Mem.merge_cell (d : Mem) (x : Ptr) : d.merge.cell x = (d.val x).re := by
  unfold Mem.merge Mem.cell
  simp only
  split_ifs with h
  · congr 2; ext <;> simp; omega
  · congr 2; ext <;> simp; omega

theorem Mem.val_cell (m : Mem) (p : Ptr) : m.val p = ⟨m.cell (dptr p), m.cell (dptr p + 1)⟩ := by
  unfold Mem.cell dptr
  simp only [Ptr.add_off, Ptr.add_buf]
  rw [if_pos (by omega), if_neg (by omega)]
  have h1 : (⟨p.buf, 2 * p.off / 2⟩ : Ptr) = p := by ext <;> simp
  have h2 : (⟨p.buf, (2 * p.off + ((1 : ℕ) : ℤ)) / 2⟩ : Ptr) = p := by ext <;> simp; omega
  rw [h1, h2]

theorem Mem.dbl_cell (m : Mem) (p : Ptr) (i : ℕ) : m.dbl p i = m.cell (dptr p + i) := by
  unfold Mem.dbl Mem.cell dptr
  simp only [Ptr.add_off, Ptr.add_buf]
  have h2 : (⟨p.buf, (2 * p.off + (i : ℤ)) / 2⟩ : Ptr) = p + i / 2 := by ext <;> simp; omega
  rw [h2]
  by_cases h : i % 2 = 0
  · rw [if_pos h, if_pos (by omega)]
  · rw [if_neg h, if_neg (by omega)]

/-- Only the doubles in `P` changed. -/
structure Mem.DUpd (m m' : Mem) (P : Ptr → Prop) : Prop where
  size : m'.size = m.size
  frame : ∀ x, ¬ P x → m'.cell x = m.cell x

theorem Mem.DUpd.refl (m : Mem) (P : Ptr → Prop) : m.DUpd m P := ⟨rfl, fun _ _ => rfl⟩

theorem Mem.DUpd.trans {m m1 m2 : Mem} {P Q R : Ptr → Prop} (h1 : m.DUpd m1 P) (h2 : m1.DUpd m2 Q)
    (hP : ∀ p, P p → R p) (hQ : ∀ p, Q p → R p) : m.DUpd m2 R :=
  ⟨h2.size.trans h1.size, fun p hp => by
    rw [h2.frame p (fun h => hp (hQ p h)), h1.frame p (fun h => hp (hP p h))]⟩

theorem Mem.DUpd.mono {m m1 : Mem} {P R : Ptr → Prop} (h1 : m.DUpd m1 P) (hP : ∀ p, P p → R p) : m.DUpd m1 R :=
  ⟨h1.size, fun p hp => h1.frame p (fun h => hp (hP p h))⟩

/-- The word containing a double. -/
def wordOf (x : Ptr) : Ptr := ⟨x.buf, x.off / 2⟩

theorem Mem.Upd.cells {m m' : Mem} {P : Ptr → Prop} (u : m.Upd m' P) : m.DUpd m' (fun x => P (wordOf x)) := by
  refine ⟨u.size, fun x hx => ?_⟩
  unfold Mem.cell
  rw [show (⟨x.buf, x.off / 2⟩ : Ptr) = wordOf x from rfl, u.frame _ hx]

theorem Mem.DUpd.words {m m' : Mem} {P : Ptr → Prop} (u : m.DUpd m' P) {Q : Ptr → Prop} (hQ : ∀ x, P x → Q (wordOf x)) : m.Upd m' Q := by
  refine ⟨u.size, fun p hp => ?_⟩
  have h1 : wordOf (dptr p) = p := by unfold wordOf dptr; ext <;> simp
  have h2 : wordOf (dptr p + 1) = p := by unfold wordOf dptr; ext <;> simp; omega
  rw [Mem.val_cell, Mem.val_cell, u.frame _ (fun h => hp (h1 ▸ hQ _ h)), u.frame _ (fun h => hp (h2 ▸ hQ _ h))]

theorem Mem.DUpd.val {m m' : Mem} {P : Ptr → Prop} (u : m.DUpd m' P) {p : Ptr} (h1 : ¬ P (dptr p)) (h2 : ¬ P (dptr p + 1)) :
    m'.val p = m.val p := by
  rw [Mem.val_cell, Mem.val_cell, u.frame _ h1, u.frame _ h2]

theorem Mem.split_valid {m : Mem} {x : Ptr} : m.split.valid x ↔ m.valid (wordOf x) := by
  unfold Mem.valid Mem.split wordOf
  simp only
  push_cast
  omega

theorem Mem.split_size {m m' : Mem} (h : m'.size = m.size) : m'.split.size = m.split.size := by
  unfold Mem.split; simp only [h]

theorem asDoubles_ok {α : Type} {c : Cmd α} {m : Mem} {Q : α → Mem → Prop} (h : c.Ok m.split (fun a d => Q a d.merge)) :
    (asDoubles c).Ok m Q := by
  obtain ⟨a, d, h1, h2⟩ := h
  refine ⟨a, d.merge, ?_, h2⟩
  unfold asDoubles
  rw [h1]

section
variable {ι : Type} {l : List ι} {body : ι → Body Unit} {m : Mem} {Q : Unit → Mem → Prop}

/-- Parallel loop over doubles: iteration `i` stores the values `ws i`. -/
theorem parD_list (ws : ι → List (Ptr × ℝ)) (hnd : l.Nodup)
    (hg : ∀ i ∈ l, (body i).Good m.split)
    (hw : ∀ i ∈ l, (body i).wrs m.split = (ws i).map fun x => (x.1, (x.2 : ℂ)))
    (hn : ∀ i ∈ l, ((ws i).map Prod.fst).Nodup)
    (hd : ∀ i ∈ l, ∀ j ∈ l, i ≠ j → ∀ x ∈ ws i, x.1 ∉ (body j).rds m.split ∧ x.1 ∉ (ws j).map Prod.fst)
    (hQ : ∀ m', m.DUpd m' (fun y => ∃ i ∈ l, ∃ x ∈ ws i, y = x.1) → (∀ i ∈ l, ∀ x ∈ ws i, m'.cell x.1 = x.2) → Q () m') :
    (parD l body).Ok m Q := by
  have hm : ∀ i ∈ l, ((body i).wrs m.split).map Prod.fst = (ws i).map Prod.fst := by
    intro i hi; rw [hw i hi, List.map_map]; rfl
  refine asDoubles_ok ((par_ok hnd hg ?_ ?_).mono ?_)
  · intro i hi j hj hij x hx
    rw [hw i hi] at hx
    obtain ⟨y, hy, rfl⟩ := List.mem_map.1 hx
    rw [hm j hj]
    exact hd i hi j hj hij y hy
  · intro i hi; rw [hm i hi]; exact hn i hi
  · rintro _ d ⟨h1, h2, h3⟩
    refine hQ _ ⟨?_, ?_⟩ ?_
    · unfold Mem.merge; simp only [h1, Mem.split]; funext b; omega
    · intro x hx
      rw [Mem.merge_cell, h3 x, Mem.split_val, Complex.ofReal_re]
      intro i hi hx'
      rw [hm i hi] at hx'
      obtain ⟨y, hy, rfl⟩ := List.mem_map.1 hx'
      exact hx ⟨i, hi, y, hy, rfl⟩
    · intro i hi x hx
      rw [Mem.merge_cell, h2 i hi (x.1, (x.2 : ℂ)) (by rw [hw i hi]; exact List.mem_map.2 ⟨x, hx, rfl⟩), Complex.ofReal_re]

/-- Iteration `i` stores one double. -/
theorem parD_cells (a : ι → Ptr) (v : ι → ℝ) (hnd : l.Nodup)
    (hg : ∀ i ∈ l, (body i).Good m.split)
    (hw : ∀ i ∈ l, (body i).wrs m.split = [(a i, (v i : ℂ))])
    (hinj : ∀ i ∈ l, ∀ j ∈ l, a i = a j → i = j)
    (hrd : ∀ i ∈ l, ∀ j ∈ l, i ≠ j → a i ∉ (body j).rds m.split)
    (hQ : ∀ m', m.DUpd m' (fun x => ∃ i ∈ l, x = a i) → (∀ i ∈ l, m'.cell (a i) = v i) → Q () m') :
    (parD l body).Ok m Q := by
  refine parD_list (fun i => [(a i, v i)]) hnd hg (fun i hi => by rw [hw i hi]; rfl) (fun i _ => by simp) ?_ ?_
  · intro i hi j hj hij x hx
    simp only [List.mem_singleton] at hx
    subst hx
    refine ⟨hrd i hi j hj hij, ?_⟩
    simp only [List.map_cons, List.map_nil, List.mem_singleton]
    exact fun h => hij (hinj i hi j hj h)
  · intro m' u e
    refine hQ m' (u.mono ?_) fun i hi => e i hi _ (List.mem_singleton.2 rfl)
    rintro y ⟨i, hi, x, hx, rfl⟩
    simp only [List.mem_singleton] at hx
    subst hx
    exact ⟨i, hi, rfl⟩

/-- Iteration `i` stores one complex word. -/
theorem parD_words (a : ι → Ptr) (v : ι → ℂ) (hnd : l.Nodup)
    (hg : ∀ i ∈ l, (body i).Good m.split)
    (hw : ∀ i ∈ l, (body i).wrs m.split = [(dptr (a i), ((v i).re : ℂ)), (dptr (a i) + 1, ((v i).im : ℂ))])
    (hinj : ∀ i ∈ l, ∀ j ∈ l, a i = a j → i = j)
    (hrd : ∀ i ∈ l, ∀ j ∈ l, i ≠ j → ∀ x ∈ (body j).rds m.split, wordOf x ≠ a i)
    (hQ : ∀ m', m.Upd m' (fun p => ∃ i ∈ l, p = a i) → (∀ i ∈ l, m'.val (a i) = v i) → Q () m') :
    (parD l body).Ok m Q := by
  have w1 : ∀ p, wordOf (dptr p) = p := fun p => by unfold wordOf dptr; ext <;> simp
  have w2 : ∀ p, wordOf (dptr p + 1) = p := fun p => by unfold wordOf dptr; ext <;> simp; omega
  refine parD_list (fun i => [(dptr (a i), (v i).re), (dptr (a i) + 1, (v i).im)]) hnd hg (fun i hi => by rw [hw i hi]; rfl)
    (fun i _ => by simp [Ptr.ext_iff]) ?_ ?_
  · intro i hi j hj hij x hx
    have hx' : wordOf x.1 = a i := by
      simp only [List.mem_cons, List.not_mem_nil, or_false] at hx
      rcases hx with rfl | rfl
      · exact w1 _
      · exact w2 _
    refine ⟨fun h => hrd i hi j hj hij _ h hx', fun h => ?_⟩
    simp only [List.map_cons, List.map_nil, List.mem_cons, List.not_mem_nil, or_false] at h
    refine hij (hinj i hi j hj ?_)
    rw [← hx']
    rcases h with h | h
    · rw [h]; exact w1 _
    · rw [h]; exact w2 _
  · intro m' u e
    refine hQ m' (u.words ?_) ?_
    · rintro y ⟨i, hi, x, hx, rfl⟩
      simp only [List.mem_cons, List.not_mem_nil, or_false] at hx
      rcases hx with rfl | rfl
      · exact ⟨i, hi, w1 _⟩
      · exact ⟨i, hi, w2 _⟩
    · intro i hi
      rw [Mem.val_cell, e i hi _ (List.mem_cons_self ..), e i hi _ (List.mem_cons_of_mem _ (List.mem_cons_self ..))]

end

/-- A statement is a loop of one iteration. -/
theorem runD_eq (b : Body Unit) : runD b = parD (rng 0 1) (fun _ => b) := by
  unfold runD parD
  congr 1
  funext m
  unfold par
  have hr : rng 0 1 = [0] := rfl
  rw [hr]
  by_cases h : RaceFree [0] (fun _ : ℕ => b) m
  · rw [if_pos h]
    simp only [seqLoop]
    cases hb : b.run m with
    | ok x => obtain ⟨a, m'⟩ := x; rfl
    | error e => rfl
  · rw [if_neg h]
    unfold Body.run
    cases ht : b.trace m with
    | ok x =>
      obtain ⟨r, w, a⟩ := x
      exact absurd ⟨by simp, fun i _ => ⟨r, w, ht⟩, by simp +contextual⟩ h
    | error e =>
      have : ∀ {α : Type} (b : Body α) (m : Mem) (e : Err), b.trace m = .error e → e = .ub := by
        intro α b
        induction b with
        | ret a => intro m e h; simp [Body.trace] at h
        | guard P k ih =>
          intro m e h
          simp only [Body.trace] at h
          split_ifs at h
          · exact ih m e h
          · simpa using h.symm
        | rd p k ih =>
          intro m e h
          simp only [Body.trace] at h
          split_ifs at h
          · split at h
            · simp at h
            · rename_i e' he
              simp only [Except.error.injEq] at h
              subst h
              exact ih _ m _ he
          · simpa using h.symm
        | wr p v k ih =>
          intro m e h
          simp only [Body.trace] at h
          split_ifs at h
          · split at h
            · simp at h
            · rename_i e' he
              simp only [Except.error.injEq] at h
              subst h
              exact ih _ _ he
          · simpa using h.symm
      rw [this b m e ht]

theorem seqLoop_map {ι κ : Type} (g : ι → κ) (l : List ι) (body : κ → Cmd Unit) :
    seqLoop (l.map g) body = seqLoop l (fun i => body (g i)) := by
  induction l with
  | nil => rfl
  | cons i l ih =>
    funext m
    simp only [List.map_cons, seqLoop]
    cases body (g i) m with
    | ok x => obtain ⟨a, m'⟩ := x; simp only; rw [ih]
    | error e => rfl

theorem par_mapD {ι κ : Type} (g : ι → κ) (hg : Function.Injective g) (l : List ι) (body : κ → Body Unit) :
    par (l.map g) body = par l (fun i => body (g i)) := by
  funext m
  unfold par
  rw [seqLoop_map]
  have : RaceFree (l.map g) body m ↔ RaceFree l (fun i => body (g i)) m := by
    unfold RaceFree
    rw [List.nodup_map_iff hg]
    simp only [List.mem_map, forall_exists_index, and_imp, forall_apply_eq_imp_iff₂, ne_eq, hg.eq_iff]
  by_cases h : RaceFree l (fun i => body (g i)) m
  · rw [if_pos h, if_pos (this.2 h)]
  · rw [if_neg h, if_neg (fun h' => h (this.1 h'))]

/-- A loop is the loop over pairs whose second index is zero. -/
theorem parD_one (a b : ℕ) (body : ℕ × ℕ → Body Unit) : parD (rng2 a b 0 1) body = parD (rng a b) (fun s => body (s, 0)) := by
  unfold parD
  congr 1
  have : rng2 a b 0 1 = (rng a b).map (fun s => (s, 0)) := by
    unfold rng2
    rw [show rng 0 1 = [0] from rfl]
    induction rng a b with
    | nil => rfl
    | cons x l ih => simp only [List.map_cons, ← ih, List.product, List.flatMap_cons, List.map_nil, List.singleton_append]
  rw [this, par_mapD _ (fun x y h => by simpa using h)]

theorem seqLoop_zero_one (body : ℕ → Cmd Unit) : seqLoop (rng 0 1) body = body 0 := by
  funext m
  rw [show rng 0 1 = [0] from rfl]
  simp only [seqLoop]
  cases body 0 m with
  | ok x => rfl
  | error e => rfl

/-- Unfolding of loop bodies over doubles. -/
macro "dbody_simp" : tactic => `(tactic|
  simp only [Re.copyD, getD, setD, incD, getC, setC, load, store, Table.get, Body.bind_eq, Body.bind, pure_eq_ret, Body.Good, Body.rds,
    Body.wrs, Mem.set_valid, Mem.split_val, Complex.ofReal_re, Ptr.add_add, and_true, true_and, List.mem_cons, List.not_mem_nil, or_false,
    not_or, not_false_iff, implies_true])

end Fftwpp
