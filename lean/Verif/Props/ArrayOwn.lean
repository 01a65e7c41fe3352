import Verif.Model.ArrayOwn
import Mathlib.Tactic.ByCases
import Mathlib.Tactic.SplitIfs
import Mathlib.Tactic.Tauto
import Mathlib.Logic.Basic

/-!
# C41: ownership of array storage
-/

namespace Fftwpp.ArrOwn

/-- What an object guarantees about the storage it owns. -/
structure ObjOk (plain strict : Prop) (block : ℕ → Option Block) (A : Obj) : Prop where
  live : A.allocated = true → ∃ b, block A.v = some b ∧ (plain → b.aligned = false) ∧ (strict → b.aligned = A.aligned)
  pl : plain → A.aligned = false
  st : strict → A.aligned = true → A.allocated = true

structure HeapOk (plain strict : Prop) (h : Heap) : Prop where
  noBad : h.badFree = false
  pl : plain → h.mismatch = false ∧ h.badCount = false
  st : strict → h.mismatch = false

structure Inv (plain strict : Prop) (w : World) : Prop where
  heap : HeapOk plain strict w.heap
  obj : ∀ x A, w.objs x = some A → ObjOk plain strict w.heap.block A
  uniq : ∀ x y A B, w.objs x = some A → w.objs y = some B → A.allocated = true → B.allocated = true → A.v = B.v → x = y

variable {plain strict : Prop}

theorem Inv.put {w : World} (hw : Inv plain strict w) {x : ℕ} {h : Heap} {A' : Obj} (hh : HeapOk plain strict h)
    (ho : ObjOk plain strict h.block A')
    (hoth : ∀ y B, y ≠ x → w.objs y = some B → B.allocated = true →
      h.block B.v = w.heap.block B.v ∧ (A'.allocated = true → A'.v ≠ B.v)) : Inv plain strict (w.put x (h, A')) := by
  refine ⟨hh, fun y B hy => ?_, fun y z B C hy hz hB hC e => ?_⟩
  · simp only [World.put] at hy ⊢
    by_cases e : y = x
    · subst e; simp at hy; subst hy; exact ho
    · rw [Function.update_of_ne e] at hy
      have h1 := hw.obj y B hy
      refine ⟨fun hB => ?_, h1.pl, h1.st⟩
      rw [(hoth y B e hy hB).1]
      exact h1.live hB
  · simp only [World.put] at hy hz
    by_cases e1 : y = x
    · by_cases e2 : z = x
      · rw [e1, e2]
      · exfalso
        subst e1; simp at hy; subst hy
        rw [Function.update_of_ne e2] at hz
        exact (hoth z C e2 hz hC).2 hB e
    · by_cases e2 : z = x
      · exfalso
        subst e2; simp at hz; subst hz
        rw [Function.update_of_ne e1] at hy
        exact (hoth y B e1 hy hB).2 hC e.symm
      · rw [Function.update_of_ne e1] at hy
        rw [Function.update_of_ne e2] at hz
        exact hw.uniq y z B C hy hz hB hC e

theorem put_put (w : World) (x : ℕ) (r r' : Heap × Obj) : (w.put x r).put x r' = w.put x r' := by
  simp [World.put]

/-- An object that owns nothing. -/
theorem ObjOk.unowned {block : ℕ → Option Block} {A : Obj} (h1 : A.allocated = false) (h2 : A.aligned = false) :
    ObjOk plain strict block A := ⟨by simp [h1], fun _ => h2, by simp [h2]⟩

theorem dealloc_spec {h : Heap} {A : Obj} (hh : HeapOk plain strict h) (hA : ObjOk plain strict h.block A) :
    HeapOk plain strict (deallocate h A).1 ∧
      (deallocate h A).1.block = (if A.allocated then Function.update h.block A.v none else h.block) ∧
      (deallocate h A).2.allocated = false ∧ (plain → (deallocate h A).2.aligned = false) ∧
      (strict → (deallocate h A).2.aligned = false) ∧ ((deallocate h A).2.aligned = true → A.aligned = true) := by
  unfold deallocate
  by_cases ha : A.allocated = true
  · simp only [ha, if_true]
    obtain ⟨b, hb, h1, h2⟩ := hA.live ha
    by_cases hl : A.aligned = true
    · simp only [hl, if_true, Heap.deleteAlign, hb]
      refine ⟨⟨hh.noBad, fun hp => ?_, fun hs => ?_⟩, by simp, by simp, by simp, by simp, by simp⟩
      · have := hA.pl hp; rw [hl] at this; simp at this
      · simp [hh.st hs, h2 hs, hl]
    · simp only [hl, Heap.deleteArray, hb, if_false, Bool.false_eq_true]
      refine ⟨⟨hh.noBad, fun hp => ?_, fun hs => ?_⟩, by simp, by simp, by simp, by simp, by simp⟩
      · simp [hh.pl hp, h1 hp]
      · simp only [Bool.not_eq_true] at hl; simp [hh.st hs, h2 hs, hl]
  · simp only [ha, if_false, Bool.false_eq_true]
    simp only [Bool.not_eq_true] at ha
    refine ⟨hh, by simp [ha], by simp [ha], hA.pl, fun hs => ?_, id⟩
    by_contra hc
    simp only [Bool.not_eq_false] at hc
    have := hA.st hs hc
    rw [ha] at this; simp at this

/-- The world after `x.Deallocate()` (whatever the recorded size). -/
theorem Inv.dealloc {w : World} (hw : Inv plain strict w) {x : ℕ} {A : Obj} (hx : w.objs x = some A) :
    Inv plain strict (w.put x (deallocate w.heap A)) := by
  obtain ⟨h1, h2, h3, h4, h5, h6⟩ := dealloc_spec hw.heap (hw.obj x A hx)
  generalize deallocate w.heap A = r at *
  obtain ⟨h, A'⟩ := r
  simp only at h1 h2 h3 h4 h5
  refine hw.put h1 ⟨by simp [h3], h4, fun hs => by simp [h5 hs]⟩ fun y B e hy hB => ⟨?_, by simp [h3]⟩
  rw [h2]
  split_ifs with ha
  · rw [Function.update_of_ne]
    intro e'
    exact e (hw.uniq y x B A hy hx hB ha e')
  · rfl

/-- Giving an object that exists another size. -/
theorem Inv.resize {w : World} (hw : Inv plain strict w) {x : ℕ} {A : Obj} (hx : w.objs x = some A) (n : ℕ) :
    Inv plain strict (w.put x (w.heap, { A with size := n })) := by
  have h := hw.obj x A hx
  refine hw.put hw.heap ⟨h.live, h.pl, h.st⟩ fun y B e hy hB => ⟨rfl, fun hA e' => ?_⟩
  exact e (hw.uniq y x B A hy hx hB hA e'.symm)

/-- Replacing or making an object that owns nothing. -/
theorem Inv.unown {w : World} (hw : Inv plain strict w) {x : ℕ} {A' : Obj} (h1 : A'.allocated = false)
    (h2 : plain → A'.aligned = false) (h3 : strict → A'.aligned = false) : Inv plain strict (w.put x (w.heap, A')) :=
  hw.put hw.heap ⟨by simp [h1], h2, fun hs => by simp [h3 hs]⟩ fun _ _ _ _ _ => ⟨rfl, by simp [h1]⟩

theorem Inv.activate {w : World} (hw : Inv plain strict w) {x a : ℕ} {A : Obj} {align : Bool}
    (ha : w.heap.block a = none) (hp : plain → align = false ∧ A.aligned = false) (hs : strict → A.aligned = false) :
    Inv plain strict (w.put x (activate w.heap A align a)) := by
  have hoth : ∀ (b : Block) (y : ℕ) (B : Obj), y ≠ x → w.objs y = some B → B.allocated = true →
      Function.update w.heap.block a (some b) B.v = w.heap.block B.v ∧ (true = true → a ≠ B.v) := by
    intro b y B _ hy hB
    obtain ⟨b', hb', _⟩ := (hw.obj y B hy).live hB
    have : B.v ≠ a := by rintro rfl; rw [ha] at hb'; simp at hb'
    exact ⟨by rw [Function.update_of_ne this], fun _ => this.symm⟩
  unfold ArrOwn.activate
  cases align with
  | true =>
    refine hw.put (A' := { A with v := a, allocated := true, aligned := true }) ⟨hw.heap.noBad, hw.heap.pl, hw.heap.st⟩ ?_ (fun y B e hy hB => hoth _ y B e hy hB)
    refine ⟨fun _ => ⟨⟨true, A.size⟩, by simp, fun h => ?_, fun _ => rfl⟩, fun h => ?_, fun _ _ => rfl⟩ <;> exact absurd (hp h).1 (by simp)
  | false =>
    refine hw.put (A' := { A with v := a, allocated := true }) ⟨hw.heap.noBad, hw.heap.pl, hw.heap.st⟩ ?_ (fun y B e hy hB => hoth _ y B e hy hB)
    exact ⟨fun _ => ⟨⟨false, A.size⟩, by simp, fun _ => rfl, fun h => (hs h).symm⟩, fun h => (hp h).2, fun _ _ => rfl⟩

theorem canAlloc_iff {free : Bool} {h : Heap} {A : Obj} {a : ℕ} :
    canAlloc free h A a = true ↔ (if free then (deallocate h A).1 else h).block a = none := by
  simp [canAlloc]

theorem Inv.allocate {w : World} (hw : Inv plain strict w) {debug : Bool} {x a n : ℕ} {A : Obj} {align : Bool}
    (hx : w.objs x = some A) (ha : (if debug then (deallocate w.heap A).1 else w.heap).block a = none)
    (hp : plain → align = false) (hs : strict → debug = true ∨ A.aligned = false) :
    Inv plain strict (w.put x (allocate debug w.heap A n align a)) := by
  have hr := hw.resize hx n
  unfold ArrOwn.allocate checkActivate
  cases debug with
  | true =>
    have hd := hr.dealloc (x := x) (A := { A with size := n }) (by simp [World.put])
    rw [put_put] at hd
    have hobj := hr.obj x { A with size := n } (by simp [World.put])
    obtain ⟨h1, h2, h3, h4, h5, h6⟩ := dealloc_spec hw.heap hobj
    obtain ⟨_, h2', _⟩ := dealloc_spec hw.heap (hw.obj x A hx)
    have := hd.activate (x := x) (a := a) (A := (deallocate w.heap { A with size := n }).2) (align := align)
      (by simp only [World.put, if_true] at ha ⊢; rw [h2] ; rw [h2'] at ha; exact ha)
      (fun h => ⟨hp h, h4 h⟩) h5
    rw [put_put] at this
    exact this
  | false =>
    have := hr.activate (x := x) (a := a) (A := { A with size := n }) (align := align) (by simpa [World.put] using ha)
      (fun h => ⟨hp h, (hw.obj x A hx).pl h⟩) (fun h => (hs h).resolve_left (by simp))
    rw [put_put] at this
    exact this

theorem dealloc_of_not {h : Heap} {A : Obj} (hA : A.allocated = false) : deallocate h A = (h, A) := by
  unfold deallocate; simp [hA]

theorem Inv.reallocate {w : World} (hw : Inv plain strict w) {debug : Bool} {x a n : ℕ} {A : Obj} {align : Bool}
    (hx : w.objs x = some A) (ha : (deallocate w.heap A).1.block a = none) (hp : plain → align = false) :
    Inv plain strict (w.put x (reallocate debug w.heap A n align a)) := by
  obtain ⟨h1, h2, h3, h4, h5, h6⟩ := dealloc_spec hw.heap (hw.obj x A hx)
  have hd := hw.dealloc hx
  have := hd.allocate (x := x) (A := (deallocate w.heap A).2) (debug := debug) (n := n) (align := align) (a := a)
    (by simp [World.put]) ?_ hp (fun h => Or.inr (h5 h))
  · rw [put_put] at this; exact this
  · simp only [World.put, dealloc_of_not h3]
    split_ifs <;> exact ha

theorem Inv.purgeVar {w : World} (hw : Inv plain strict w) (y : ℕ) : Inv plain strict (w.purgeVar y) := by
  unfold World.purgeVar
  split
  · rename_i B hy
    unfold purge
    split_ifs
    · have hd := hw.dealloc hy
      have := hd.unown (x := y) (A' := { (deallocate w.heap B).2 with allocated := false, temporary := false, aligned := false })
        rfl (fun _ => rfl) (fun _ => rfl)
      rw [put_put] at this
      exact this
    · exact hw.resize hy B.size
  · exact hw

/-- Conditions on an operation: no alignment is asked for, if `plain`; checking mode and no `Dimension(n,p)` or `Set(p)`, if `strict`. -/
def OpOk (plain strict : Prop) (debug : Bool) : Op → Prop
  | .new _ _ align _ => plain → align = false
  | .allocate _ _ align _ => (plain → align = false) ∧ (strict → debug = true)
  | .reallocate _ _ align _ => plain → align = false
  | .dimv _ _ _ => ¬ strict
  | .set _ _ => ¬ strict
  | _ => True

theorem Inv.step {w : World} (hw : Inv plain strict w) {debug : Bool} {op : Op} (hop : OpOk plain strict debug op) :
    Inv plain strict (step debug w op) := by
  cases op with
  | default x =>
    simp only [ArrOwn.step]
    split
    · exact hw.unown rfl (fun _ => rfl) (fun _ => rfl)
    · exact hw
  | new x n align a =>
    simp only [ArrOwn.step]
    split
    · rename_i hx ha
      have h0 := hw.unown (x := x) (A' := ⟨0, 0, false, false, false⟩) rfl (fun _ => rfl) (fun _ => rfl)
      have := h0.allocate (x := x) (A := ⟨0, 0, false, false, false⟩) (debug := debug) (n := n) (align := align) (a := a)
        (by simp [World.put]) (by simpa [World.put, deallocate] using ha) hop (fun _ => Or.inr rfl)
      rw [put_put] at this
      exact this
    · exact hw
  | view x n p =>
    simp only [ArrOwn.step]
    split
    · exact hw.unown rfl (fun _ => rfl) (fun _ => rfl)
    · exact hw
  | copy x y =>
    simp only [ArrOwn.step]
    split
    · exact hw.unown rfl (fun _ => rfl) (fun _ => rfl)
    · exact hw
  | destroy x =>
    simp only [ArrOwn.step]
    split
    · rename_i A hx
      have hd := hw.dealloc hx
      refine ⟨hd.heap, fun y B hy => ?_, fun y z B C hy hz => ?_⟩
      · by_cases e : y = x
        · subst e; simp at hy
        · simp only [Function.update_of_ne e] at hy
          exact hd.obj y B (by simpa [World.put, e] using hy)
      · by_cases e1 : y = x
        · subst e1; simp at hy
        · by_cases e2 : z = x
          · subst e2; simp at hz
          · simp only [Function.update_of_ne e1] at hy
            simp only [Function.update_of_ne e2] at hz
            exact hw.uniq y z B C hy hz
    · exact hw
  | allocate x n align a =>
    simp only [ArrOwn.step]
    split
    · rename_i A hx
      split_ifs with hc
      · exact hw.allocate hx (canAlloc_iff.1 hc) hop.1 (fun h => Or.inl (hop.2 h))
      · exact hw
    · exact hw
  | reallocate x n align a =>
    simp only [ArrOwn.step]
    split
    · rename_i A hx
      split_ifs with hc
      · exact hw.reallocate hx (canAlloc_iff.1 hc) hop
      · exact hw
    · exact hw
  | deallocate x =>
    simp only [ArrOwn.step]
    split
    · rename_i A hx; exact hw.dealloc hx
    · exact hw
  | dim x n =>
    simp only [ArrOwn.step]
    split
    · rename_i A hx; exact hw.resize hx n
    · exact hw
  | dimv x n p =>
    simp only [ArrOwn.step]
    split
    · rename_i A hx; exact hw.unown rfl (hw.obj x A hx).pl (fun h => absurd h hop)
    · exact hw
  | dimOf x y =>
    simp only [ArrOwn.step]
    split
    · exact hw.unown rfl (fun _ => rfl) (fun _ => rfl)
    · exact hw
  | freeze x =>
    simp only [ArrOwn.step]
    split
    · exact hw.unown rfl (fun _ => rfl) (fun _ => rfl)
    · exact hw
  | hold x =>
    simp only [ArrOwn.step]
    split
    · split_ifs
      · exact hw.unown rfl (fun _ => rfl) (fun _ => rfl)
      · exact hw
    · exact hw
  | purge x =>
    have := hw.purgeVar x
    simpa only [ArrOwn.step, World.purgeVar] using this
  | set x p =>
    simp only [ArrOwn.step]
    split
    · rename_i A hx; exact hw.unown rfl (hw.obj x A hx).pl (fun h => absurd h hop)
    · exact hw
  | assign x y a =>
    simp only [ArrOwn.step]
    split
    · rename_i A B hx hy
      split_ifs with h1 h2
      · exact hw.purgeVar y
      · exact (hw.reallocate (debug := debug) (n := B.size) (align := false) hx (canAlloc_iff.1 h2) (fun _ => rfl)).purgeVar y
      · exact hw
    · exact hw

theorem Inv.run {debug : Bool} {ops : List Op} (hop : ∀ op ∈ ops, OpOk plain strict debug op) :
    Inv plain strict (run debug ops) := by
  unfold ArrOwn.run
  have h0 : Inv plain strict ⟨⟨fun _ => none, false, false, false⟩, fun _ => none⟩ :=
    ⟨⟨rfl, fun _ => ⟨rfl, rfl⟩, fun _ => rfl⟩, by simp, by simp⟩
  generalize (⟨⟨fun _ => none, false, false, false⟩, fun _ => none⟩ : World) = w at h0
  induction ops generalizing w with
  | nil => exact h0
  | cons op ops ih =>
    exact ih (fun o ho => hop o (List.mem_cons_of_mem _ ho)) _ (h0.step (hop op List.mem_cons_self))

/-- In no history of array operations, in either mode, is storage freed that is not live: there is no double free and no free of
storage the array does not own; and no two arrays own the same storage. -/
theorem C41_no_double_free (debug : Bool) (ops : List Op) :
    (run debug ops).heap.badFree = false ∧
      ∀ x y A B, (run debug ops).objs x = some A → (run debug ops).objs y = some B → A.allocated = true → B.allocated = true →
        A.v = B.v → x = y := by
  have h := Inv.run (plain := False) (strict := False) (debug := debug) (ops := ops) (fun op _ => by cases op <;> simp [OpOk])
  exact ⟨h.heap.noBad, h.uniq⟩

/-- The operation asks for no alignment. -/
def Op.unaligned : Op → Bool
  | .new _ _ align _ => !align
  | .allocate _ _ align _ => !align
  | .reallocate _ _ align _ => !align
  | _ => true

/-- Without alignment requests all storage is released as it was obtained. -/
theorem C41_plain (debug : Bool) (ops : List Op) (h : ∀ op ∈ ops, op.unaligned = true) :
    (run debug ops).heap.badFree = false ∧ (run debug ops).heap.mismatch = false ∧ (run debug ops).heap.badCount = false := by
  have h := Inv.run (plain := True) (strict := False) (debug := debug) (ops := ops) (fun op ho => by
    have := h op ho
    cases op <;> simp_all [OpOk, Op.unaligned])
  exact ⟨h.heap.noBad, h.heap.pl trivial⟩

/-- The operation does not redirect an existing array to other storage. -/
def Op.keepsPtr : Op → Bool
  | .dimv _ _ _ => false
  | .set _ _ => false
  | _ => true

/-- In the checking mode, if no array is redirected with `Dimension(n,p)` or `Set(p)`, aligned and ordinary storage are released with
the right function. -/
theorem C41_aligned (ops : List Op) (h : ∀ op ∈ ops, op.keepsPtr = true) :
    (run true ops).heap.badFree = false ∧ (run true ops).heap.mismatch = false := by
  have h := Inv.run (plain := False) (strict := True) (debug := true) (ops := ops) (fun op ho => by
    have := h op ho
    cases op <;> simp_all [OpOk, Op.keepsPtr])
  exact ⟨h.heap.noBad, h.heap.st trivial⟩

/-! ### Leaks -/

/-- The operations that do not abandon storage. -/
def Op.keeps : Op → Bool
  | .dimv _ _ _ => false
  | .dimOf _ _ => false
  | .freeze _ => false
  | .hold _ => false
  | .set _ _ => false
  | _ => true

/-- Every live block has an owner; there are no temporaries. -/
structure Owned (w : World) : Prop where
  own : ∀ a, w.heap.block a ≠ none → ∃ x A, w.objs x = some A ∧ A.allocated = true ∧ A.v = a
  temp : ∀ x A, w.objs x = some A → A.temporary = false

theorem Owned.put {w : World} (hw : Owned w) {x : ℕ} {h : Heap} {A' : Obj} (ht : A'.temporary = false)
    (hown : ∀ a, h.block a ≠ none → (A'.allocated = true ∧ A'.v = a) ∨
      (w.heap.block a ≠ none ∧ ∀ A, w.objs x = some A → A.allocated = true → A.v ≠ a)) : Owned (w.put x (h, A')) := by
  refine ⟨fun a ha => ?_, fun y B hy => ?_⟩
  · rcases hown a ha with h1 | ⟨h1, h2⟩
    · exact ⟨x, A', by simp [World.put], h1⟩
    · obtain ⟨y, B, hy, hB, e⟩ := hw.own a h1
      have : y ≠ x := by rintro rfl; exact h2 B hy hB e
      exact ⟨y, B, by simp [World.put, this, hy], hB, e⟩
  · by_cases e : y = x
    · subst e; simp [World.put] at hy; subst hy; exact ht
    · exact hw.temp y B (by simpa [World.put, e] using hy)

theorem dealloc_temp {h : Heap} {A : Obj} (ht : A.temporary = false) : (deallocate h A).2.temporary = false := by
  unfold deallocate; split_ifs <;> simp [ht]

theorem Owned.dealloc {w : World} (hw : Owned w) (hi : Inv False False w) {x : ℕ} {A : Obj} (hx : w.objs x = some A) :
    Owned (w.put x (deallocate w.heap A)) := by
  obtain ⟨_, h2, h3, _⟩ := dealloc_spec hi.heap (hi.obj x A hx)
  have h5 := dealloc_temp (h := w.heap) (hw.temp x A hx)
  generalize deallocate w.heap A = r at *
  obtain ⟨h, A'⟩ := r
  simp only at h2 h3 h5
  refine hw.put h5 fun a ha => Or.inr ?_
  rw [h2] at ha
  split_ifs at ha with hA
  · by_cases e : a = A.v
    · subst e; simp at ha
    · rw [Function.update_of_ne e] at ha
      refine ⟨ha, fun B hB _ => ?_⟩
      rw [hx] at hB; cases hB; exact Ne.symm e
  · refine ⟨ha, fun B hB hB' => ?_⟩
    rw [hx] at hB; cases hB; exact absurd hB' hA

theorem Owned.resize {w : World} (hw : Owned w) {x : ℕ} {A : Obj} (hx : w.objs x = some A) (n : ℕ) :
    Owned (w.put x (w.heap, { A with size := n })) := by
  refine hw.put (hw.temp x A hx) fun a ha => ?_
  by_cases h : A.allocated = true ∧ A.v = a
  · exact Or.inl h
  · refine Or.inr ⟨ha, fun B hB hB' => ?_⟩
    rw [hx] at hB; cases hB; tauto

/-- Making an object that owns nothing. -/
theorem Owned.mk0 {w : World} (hw : Owned w) {x : ℕ} {A' : Obj} (hx : w.objs x = none) (ht : A'.temporary = false) :
    Owned (w.put x (w.heap, A')) :=
  hw.put ht fun a ha => Or.inr ⟨ha, fun A hA => by rw [hx] at hA; simp at hA⟩

/-- Allocating storage for an object that owns none. -/
theorem Owned.activate {w : World} (hw : Owned w) {x a : ℕ} {A A' : Obj} {align : Bool} (hx : w.objs x = some A)
    (hA : A.allocated = false) (ht : A'.temporary = false) : Owned (w.put x (activate w.heap A' align a)) := by
  unfold ArrOwn.activate
  cases align <;>
  · refine hw.put ht fun c hc => ?_
    by_cases e : c = a
    · exact Or.inl ⟨rfl, e.symm⟩
    · simp only [Function.update_of_ne e] at hc
      refine Or.inr ⟨hc, fun B hB hB' => ?_⟩
      rw [hx] at hB; cases hB; rw [hA] at hB'; simp at hB'

theorem Owned.allocate {w : World} (hw : Owned w) (hi : Inv False False w) {debug : Bool} {x a n : ℕ} {A : Obj} {align : Bool}
    (hx : w.objs x = some A) (hd : debug = true ∨ A.allocated = false) :
    Owned (w.put x (allocate debug w.heap A n align a)) := by
  have hr := hw.resize hx n
  have hir := hi.resize hx n
  have hx' : (w.put x (w.heap, { A with size := n })).objs x = some { A with size := n } := by simp [World.put]
  unfold ArrOwn.allocate checkActivate
  cases debug with
  | true =>
    have h1 := hr.dealloc hir hx'
    obtain ⟨_, _, h3, _⟩ := dealloc_spec hi.heap (hir.obj x _ hx')
    have h4 := dealloc_temp (h := w.heap) (hr.temp x _ hx')
    rw [put_put] at h1
    have := h1.activate (x := x) (a := a) (A := (deallocate w.heap { A with size := n }).2)
      (A' := (deallocate w.heap { A with size := n }).2) (align := align) (by simp [World.put]) h3 h4
    rw [put_put] at this
    exact this
  | false =>
    have hA := hd.resolve_left (by simp)
    have := hr.activate (x := x) (a := a) (A := { A with size := n }) (A' := { A with size := n }) (align := align) hx' hA
      (hw.temp x A hx)
    rw [put_put] at this
    exact this

theorem Owned.reallocate {w : World} (hw : Owned w) (hi : Inv False False w) {debug : Bool} {x a n : ℕ} {A : Obj} {align : Bool}
    (hx : w.objs x = some A) : Owned (w.put x (reallocate debug w.heap A n align a)) := by
  obtain ⟨_, _, h3, _⟩ := dealloc_spec hi.heap (hi.obj x A hx)
  have := (hw.dealloc hi hx).allocate (hi.dealloc hx) (x := x) (A := (deallocate w.heap A).2) (debug := debug) (n := n)
    (align := align) (a := a) (by simp [World.put]) (Or.inr h3)
  rw [put_put] at this
  exact this

theorem Owned.purgeVar {w : World} (hw : Owned w) (y : ℕ) : Owned (w.purgeVar y) := by
  unfold World.purgeVar
  split
  · rename_i B hy
    unfold purge
    rw [if_neg (by simp [hw.temp y B hy])]
    exact hw.resize hy B.size
  · exact hw

theorem Owned.step {w : World} (hw : Owned w) (hi : Inv False False w) {debug : Bool} {op : Op} (hop : op.keeps = true)
    (hd : debug = true ∨ ∀ x n align a, op ≠ .allocate x n align a) : Owned (step debug w op) := by
  cases op with
  | default x =>
    simp only [ArrOwn.step]
    split
    · rename_i hx; exact hw.mk0 hx rfl
    · exact hw
  | new x n align a =>
    simp only [ArrOwn.step]
    split
    · rename_i hx ha
      have h0 := hw.mk0 (A' := ⟨0, 0, false, false, false⟩) hx rfl
      have h1 := hi.unown (x := x) (A' := ⟨0, 0, false, false, false⟩) rfl (fun _ => rfl) (fun _ => rfl)
      have := h0.allocate h1 (x := x) (A := ⟨0, 0, false, false, false⟩) (debug := debug) (n := n) (align := align) (a := a)
        (by simp [World.put]) (Or.inr rfl)
      rw [put_put] at this
      exact this
    · exact hw
  | view x n p =>
    simp only [ArrOwn.step]
    split
    · rename_i hx; exact hw.mk0 hx rfl
    · exact hw
  | copy x y =>
    simp only [ArrOwn.step]
    split
    · rename_i B hx hy; exact hw.mk0 hx (hw.temp y B hy)
    · exact hw
  | destroy x =>
    simp only [ArrOwn.step]
    split
    · rename_i A hx
      obtain ⟨_, _, h3, _⟩ := dealloc_spec hi.heap (hi.obj x A hx)
      have hd := hw.dealloc hi hx
      refine ⟨fun a ha => ?_, fun y B hy => ?_⟩
      · obtain ⟨y, B, hy, hB, e⟩ := hd.own a ha
        have : y ≠ x := by
          rintro rfl
          simp only [World.put, Function.update_self, Option.some.injEq] at hy
          rw [← hy, h3] at hB; simp at hB
        exact ⟨y, B, by simpa [World.put, this] using hy, hB, e⟩
      · by_cases e : y = x
        · subst e; simp at hy
        · exact hw.temp y B (by simpa [e] using hy)
    · exact hw
  | allocate x n align a =>
    simp only [ArrOwn.step]
    split
    · rename_i A hx
      split_ifs with hc
      · exact hw.allocate hi hx (Or.inl (hd.resolve_right (fun h => h x n align a rfl)))
      · exact hw
    · exact hw
  | reallocate x n align a =>
    simp only [ArrOwn.step]
    split
    · rename_i A hx
      split_ifs with hc
      · exact hw.reallocate hi hx
      · exact hw
    · exact hw
  | deallocate x =>
    simp only [ArrOwn.step]
    split
    · rename_i A hx; exact hw.dealloc hi hx
    · exact hw
  | dim x n =>
    simp only [ArrOwn.step]
    split
    · rename_i A hx; exact hw.resize hx n
    · exact hw
  | dimv x n p => simp [Op.keeps] at hop
  | dimOf x y => simp [Op.keeps] at hop
  | freeze x => simp [Op.keeps] at hop
  | hold x => simp [Op.keeps] at hop
  | purge x =>
    have := hw.purgeVar x
    simpa only [ArrOwn.step, World.purgeVar] using this
  | set x p => simp [Op.keeps] at hop
  | assign x y a =>
    simp only [ArrOwn.step]
    split
    · rename_i A B hx hy
      split_ifs with h1 h2
      · exact hw.purgeVar y
      · exact (hw.reallocate hi (debug := debug) (n := B.size) (align := false) hx).purgeVar y
      · exact hw
    · exact hw

/-- If a history uses only operations that do not abandon storage (and `Allocate` only in the checking mode), then no storage is
leaked: when the owners are gone all storage has been released. -/
theorem C41_no_leak (debug : Bool) (ops : List Op) (h : ∀ op ∈ ops, op.keeps = true)
    (hd : debug = true ∨ ∀ op ∈ ops, ∀ x n align a, op ≠ .allocate x n align a)
    (hall : ∀ x, (run debug ops).objs x = none) : ∀ a, (run debug ops).heap.block a = none := by
  have key : Owned (run debug ops) := by
    clear hall
    unfold ArrOwn.run
    have h0 : Inv False False ⟨⟨fun _ => none, false, false, false⟩, fun _ => none⟩ :=
      ⟨⟨rfl, fun _ => ⟨rfl, rfl⟩, fun _ => rfl⟩, by simp, by simp⟩
    have h1 : Owned ⟨⟨fun _ => none, false, false, false⟩, fun _ => none⟩ := ⟨by simp, by simp⟩
    generalize (⟨⟨fun _ => none, false, false, false⟩, fun _ => none⟩ : World) = w at h0 h1
    induction ops generalizing w with
    | nil => exact h1
    | cons op ops ih =>
      refine ih (fun o ho => h o (List.mem_cons_of_mem _ ho))
        (hd.imp id fun h o ho => h o (List.mem_cons_of_mem _ ho)) _ (h0.step (by cases op <;> simp [OpOk])) ?_
      exact h1.step h0 (h op List.mem_cons_self) (hd.imp id fun h => h op List.mem_cons_self)
  intro a
  by_contra ha
  obtain ⟨x, A, hx, _⟩ := key.own a ha
  rw [hall x] at hx; simp at hx

example : (run false [.new 0 4 false 100, .copy 1 0, .new 2 8 true 200, .assign 0 2 100, .destroy 2, .destroy 1, .destroy 0]).heap.block 100
    |>.isNone := by decide

/-- `swaparray` (three calls of `Dimension`) leaves the storage of both arrays without an owner: it is never released. -/
theorem C41_swap_leak_refuted : ∀ debug : Bool, ((run debug [.new 0 4 false 100, .new 1 4 false 200,
    .default 2, .dimOf 2 0, .dimOf 0 1, .dimOf 1 2, .destroy 2, .destroy 1, .destroy 0]).heap.block 100).isSome := by decide

/-- `Hold` followed by `Purge`, meant to release a temporary, releases nothing. -/
theorem C41_hold_leak_refuted : ∀ debug : Bool,
    ((run debug [.new 0 4 false 100, .hold 0, .purge 0, .destroy 0]).heap.block 100).isSome := by decide

example : (run true [.new 0 4 true 100, .copy 1 0, .new 2 8 false 200, .assign 0 2 300, .hold 2, .destroy 0, .destroy 1]).heap.block 200
    |>.isSome := by decide

/-- `A.Set(p)` leaves the `aligned` flag set; the next allocation without alignment is then released by the wrong function. -/
theorem C41_set_mismatch_refuted : (run true [.new 0 4 true 100, .set 0 500, .allocate 0 4 false 200, .destroy 0]).heap.mismatch = true := by
  decide

/-- So is a second `Allocate` when checking is off. -/
theorem C41_realloc_mismatch_refuted : (run false [.new 0 4 true 100, .allocate 0 4 false 200, .destroy 0]).heap.mismatch = true := by
  decide

/-- A second aligned `Allocate` in the checking mode records the new size before it destroys the old elements. -/
theorem C41_count_refuted : (run true [.new 0 4 true 100, .allocate 0 8 true 200]).heap.badCount = true := by decide

end Fftwpp.ArrOwn
