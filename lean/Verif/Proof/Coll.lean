import Verif.Proof.Geo

/-!
# The exchanges of `mpitranspose`
-/

namespace Fftwpp.Net
variable {V : Type}

theorem sched_perm {ρ c : ℕ} (h : ρ < c) : (sched ρ c).Perm (List.range c) := by
  have := (Mpi.C25_schedule h).2.1.map Int.toNat
  simpa [sched, List.map_map, Function.comp_def] using this

theorem sched_nodup {ρ c : ℕ} (h : ρ < c) : (sched ρ c).Nodup := (sched_perm h).nodup_iff.2 List.nodup_range

theorem mem_sched {ρ c P : ℕ} (h : ρ < c) : P ∈ sched ρ c ↔ P < c := by
  rw [(sched_perm h).mem_iff, List.mem_range]

theorem flatMap_filter {α β : Type} (l : List α) (p : α → Prop) [DecidablePred p] (g : α → List β) :
    (l.filter fun x => decide (p x)).flatMap g = l.flatMap fun x => if p x then g x else [] := by
  induction l with
  | nil => rfl
  | cons x t ih =>
    by_cases h : p x <;> simp [h, ih]

theorem flatMap_congr' {α β : Type} {l : List α} {f g : α → List β} (h : ∀ x ∈ l, f x = g x) : l.flatMap f = l.flatMap g := by
  rw [List.flatMap_def, List.flatMap_def, List.map_congr_left h]

/-- Position of `Q` among the processes other than `ρ`. -/
def skip (ρ Q : ℕ) : ℕ := if Q < ρ then Q else Q - 1

theorem skip_inj {ρ Q Q' : ℕ} (h : Q ≠ ρ) (h' : Q' ≠ ρ) (he : skip ρ Q = skip ρ Q') : Q = Q' := by
  unfold skip at he
  split_ifs at he <;> omega

theorem skip_lt {ρ Q c : ℕ} (hρ : ρ < c) (h : Q ≠ ρ) (hQ : Q < c) : skip ρ Q < c - 1 := by
  unfold skip
  split_ifs <;> omega

theorem block_ne {R P Q j j' : ℕ} (hne : P ≠ Q) (hj : j < R) (hj' : j' < R) : R * P + j ≠ R * Q + j' := by
  intro he
  rw [Nat.mul_comm R P, Nat.mul_comm R Q] at he
  exact hne (rad_inj hj hj' he).1

/-! ### Collective exchanges -/

/-- The communicators of the active processes: process `i` is number `ρ i` of the `c` processes `f i 0,…,f i (c-1)`. -/
structure Comm (P : ℕ) (act : ℕ → Prop) (f : ℕ → ℕ → ℕ) (c : ℕ) (ρ : ℕ → ℕ) : Prop where
  lt : ∀ i, act i → ρ i < c
  self : ∀ i, act i → f i (ρ i) = i
  mem : ∀ i, act i → ∀ Q < c, f i Q < P ∧ act (f i Q) ∧ ρ (f i Q) = Q ∧ ∀ R < c, f (f i Q) R = f i R

theorem Comm.inj {P : ℕ} {act : ℕ → Prop} {f : ℕ → ℕ → ℕ} {c : ℕ} {ρ : ℕ → ℕ} (h : Comm P act f c ρ) {i Q Q' : ℕ} (hi : act i) (hQ : Q < c) (hQ' : Q' < c)
    (he : f i Q = f i Q') : Q = Q' := by
  rw [← (h.mem i hi Q hQ).2.2.1, he, (h.mem i hi Q' hQ').2.2.1]

theorem Comm.peer {P : ℕ} {act : ℕ → Prop} {f : ℕ → ℕ → ℕ} {c : ℕ} {ρ : ℕ → ℕ} (h : Comm P act f c ρ) {i Q : ℕ} (hi : act i) (hQ : Q < c) :
    f i Q = i ↔ Q = ρ i := by
  constructor
  · intro he
    exact h.inj hi hQ (h.lt i hi) (he.trans (h.self i hi).symm)
  · rintro rfl
    exact h.self i hi

/-- The order of the exchanges, the copy coming last. -/
def collOrder (sch : Bool) (ρ c : ℕ) : List ℕ := ((if sch = true then sched ρ c else List.range c).filter fun P => decide (P ≠ ρ)) ++ [ρ]

/-- The exchange with process number `Q`. -/
def collItem (sch : Bool) (ctx arr c count ρ : ℕ) (f : ℕ → ℕ) (Q : ℕ) : Item :=
  if sch = true then ⟨ctx, f Q, (arr, skip ρ Q), (arr, c - 1 + skip ρ Q), Q * count, count, Q * count, count, true⟩
  else ⟨ctx + 10, f Q, (arr + 10, Q), (arr + 10, c + Q), Q * count, count, Q * count, count, true⟩

open Classical in
/-- The exchanges of process `i`. -/
noncomputable def collItems (act : ℕ → Prop) (f : ℕ → ℕ → ℕ) (c : ℕ) (ρ : ℕ → ℕ) (sch : Bool) (ctx arr count : ℕ) (i : ℕ) : List Item :=
  if act i then (collOrder sch (ρ i) c).map (collItem sch ctx arr c count (ρ i) (f i)) else []

/-- The requests. -/
def collWs (sch : Bool) (arr c : ℕ) : List (ℕ × ℕ) :=
  if sch = true then (List.range (2 * (c - 1))).map fun j => (arr, j) else (List.range (2 * c)).map fun j => (arr + 10, j)

theorem mem_collOrder {sch : Bool} {ρ c Q : ℕ} (h : ρ < c) : Q ∈ collOrder sch ρ c ↔ Q < c := by
  unfold collOrder
  cases sch <;> simp [mem_sched h] <;> omega

theorem collOrder_nodup {sch : Bool} {ρ c : ℕ} (h : ρ < c) : (collOrder sch ρ c).Nodup := by
  unfold collOrder
  rw [List.nodup_append]
  refine ⟨?_, by simp, ?_⟩
  · refine List.Nodup.filter _ ?_
    split_ifs
    · exact sched_nodup h
    · exact List.nodup_range
  · intro x hx y hy
    simp only [List.mem_singleton] at hy
    rw [hy]
    simpa using (List.mem_filter.1 hx).2

theorem mem_collItems {act : ℕ → Prop} {f : ℕ → ℕ → ℕ} {c : ℕ} {ρ : ℕ → ℕ} {sch : Bool} {ctx arr count : ℕ} {i : ℕ} (hρ : act i → ρ i < c) {x : Item} :
    x ∈ collItems act f c ρ sch ctx arr count i ↔ act i ∧ ∃ Q < c, x = collItem sch ctx arr c count (ρ i) (f i) Q := by
  unfold collItems
  by_cases h : act i
  · simp only [h, if_true, List.mem_map, mem_collOrder (hρ h), true_and, eq_comm]
  · simp [h]

theorem collItem_peer (sch : Bool) (ctx arr c count ρ : ℕ) (f : ℕ → ℕ) (Q : ℕ) : (collItem sch ctx arr c count ρ f Q).peer = f Q := by
  unfold collItem; split_ifs <;> rfl
theorem collItem_roff (sch : Bool) (ctx arr c count ρ : ℕ) (f : ℕ → ℕ) (Q : ℕ) : (collItem sch ctx arr c count ρ f Q).roff = Q * count := by
  unfold collItem; split_ifs <;> rfl
theorem collItem_soff (sch : Bool) (ctx arr c count ρ : ℕ) (f : ℕ → ℕ) (Q : ℕ) : (collItem sch ctx arr c count ρ f Q).soff = Q * count := by
  unfold collItem; split_ifs <;> rfl
theorem collItem_rlen (sch : Bool) (ctx arr c count ρ : ℕ) (f : ℕ → ℕ) (Q : ℕ) : (collItem sch ctx arr c count ρ f Q).rlen = count := by
  unfold collItem; split_ifs <;> rfl
theorem collItem_slen (sch : Bool) (ctx arr c count ρ : ℕ) (f : ℕ → ℕ) (Q : ℕ) : (collItem sch ctx arr c count ρ f Q).slen = count := by
  unfold collItem; split_ifs <;> rfl
theorem collItem_z (sch : Bool) (ctx arr c count ρ : ℕ) (f : ℕ → ℕ) (Q : ℕ) : (collItem sch ctx arr c count ρ f Q).z = true := by
  unfold collItem; split_ifs <;> rfl
/-- The context. -/
def collCtx (sch : Bool) (ctx : ℕ) : ℕ := if sch = true then ctx else ctx + 10
theorem collItem_ctx (sch : Bool) (ctx arr c count ρ : ℕ) (f : ℕ → ℕ) (Q : ℕ) : (collItem sch ctx arr c count ρ f Q).ctx = collCtx sch ctx := by
  unfold collItem collCtx; split_ifs <;> rfl
/-- The request array. -/
def collArr (sch : Bool) (arr : ℕ) : ℕ := if sch = true then arr else arr + 10
theorem collItem_rid (sch : Bool) (ctx arr c count ρ : ℕ) (f : ℕ → ℕ) (Q : ℕ) :
    (collItem sch ctx arr c count ρ f Q).rid = (collArr sch arr, if sch = true then skip ρ Q else Q) := by
  unfold collItem collArr; split_ifs <;> rfl
theorem collItem_sid (sch : Bool) (ctx arr c count ρ : ℕ) (f : ℕ → ℕ) (Q : ℕ) :
    (collItem sch ctx arr c count ρ f Q).sid = (collArr sch arr, if sch = true then c - 1 + skip ρ Q else c + Q) := by
  unfold collItem collArr; split_ifs <;> rfl

theorem coll_exch {P : ℕ} {act : ℕ → Prop} {f : ℕ → ℕ → ℕ} {c : ℕ} {ρ : ℕ → ℕ} (h : Comm P act f c ρ) {sch : Bool} {ctx arr count : ℕ}
    {ws : ℕ → List (ℕ × ℕ)} {snd rcv : ℕ → Loc} {ip : Bool} (hws : ∀ i < P, act i → collWs sch arr c ⊆ ws i)
    (hout : ip = false → ∀ i < P, act i → (snd i).buf ≠ (rcv i).buf) (hin : ip = true → ∀ i < P, act i → snd i = rcv i) :
    Exch P (collItems act f c ρ sch ctx arr count) ws snd rcv ip := by
  have hact : ∀ i, collItems act f c ρ sch ctx arr count i ≠ [] → act i := by
    intro i hne
    by_contra hc
    exact hne (by simp [collItems, hc])
  refine ⟨?_, ?_, ?_, ?_, ?_, ?_⟩
  · intro i hi
    unfold collItems
    split_ifs with ha
    swap
    · exact List.Pairwise.nil
    rw [List.pairwise_map]
    have hnd := collOrder_nodup (sch := sch) (h.lt i ha)
    refine List.Pairwise.imp_of_mem ?_ hnd
    intro Q Q' hQ hQ' hne
    rw [mem_collOrder (h.lt i ha)] at hQ hQ'
    refine ⟨?_, ?_, ?_⟩
    · simp only [collItem_peer]
      intro hc
      exact hne (h.inj ha hQ hQ' hc.2)
    · intro h1 h2
      rw [collItem_peer] at h1 h2
      have h1' : Q ≠ ρ i := fun he => h1 ((h.peer ha hQ).2 he)
      have h2' : Q' ≠ ρ i := fun he => h2 ((h.peer ha hQ').2 he)
      simp only [collItem_rid, collItem_sid, ne_eq, Prod.mk.injEq, true_and]
      have hl := h.lt i ha
      have a1 := skip_lt hl h1' hQ
      have a2 := skip_lt hl h2' hQ'
      have a3 : skip (ρ i) Q ≠ skip (ρ i) Q' := fun he => hne (skip_inj h1' h2' he)
      cases sch <;> simp <;> omega
    · simp only [collItem_rlen, collItem_roff]
      intro j hj j' hj'
      rw [Nat.mul_comm Q, Nat.mul_comm Q']
      exact block_ne hne hj hj'
  · intro i hi x hx hp
    obtain ⟨ha, Q, hQ, rfl⟩ := (mem_collItems (h.lt i)).1 hx
    rw [collItem_peer] at hp
    have h1' : Q ≠ ρ i := fun he => hp ((h.peer ha hQ).2 he)
    have hl := h.lt i ha
    have a1 := skip_lt hl h1' hQ
    simp only [collItem_rid, collItem_sid, ne_eq, Prod.mk.injEq, true_and]
    cases sch <;> simp <;> omega
  · intro i hi x hx hp
    obtain ⟨ha, Q, hQ, rfl⟩ := (mem_collItems (h.lt i)).1 hx
    rw [collItem_peer] at hp
    have h1' : Q ≠ ρ i := fun he => hp ((h.peer ha hQ).2 he)
    have hl := h.lt i ha
    have a1 := skip_lt hl h1' hQ
    simp only [collItem_rid, collItem_sid]
    have hsub := hws i hi ha
    unfold collWs at hsub
    unfold collArr
    cases sch with
    | false =>
      simp only [if_false, Bool.false_eq_true] at hsub ⊢
      exact ⟨hsub (List.mem_map.2 ⟨Q, List.mem_range.2 (by omega), rfl⟩), hsub (List.mem_map.2 ⟨c + Q, List.mem_range.2 (by omega), rfl⟩)⟩
    | true =>
      simp only [if_true] at hsub ⊢
      exact ⟨hsub (List.mem_map.2 ⟨_, List.mem_range.2 (by omega), rfl⟩), hsub (List.mem_map.2 ⟨_, List.mem_range.2 (by omega), rfl⟩)⟩
  · intro hip i hi hne
    exact hout hip i hi (hact i hne)
  · intro hip i hi hne
    refine ⟨hin hip i hi (hact i hne), fun x hx => ?_⟩
    obtain ⟨ha, Q, hQ, rfl⟩ := (mem_collItems (h.lt i)).1 hx
    simp [collItem_roff, collItem_soff, collItem_rlen, collItem_slen]
  · intro i hi x hx
    obtain ⟨ha, Q, hQ, rfl⟩ := (mem_collItems (h.lt i)).1 hx
    obtain ⟨m1, m2, m3, m4⟩ := h.mem i ha Q hQ
    rw [collItem_peer]
    refine ⟨m1, collItem sch ctx arr c count (ρ (f i Q)) (f (f i Q)) (ρ i), (mem_collItems (h.lt _)).2 ⟨m2, ρ i, h.lt i ha, rfl⟩, ?_, ?_, ?_, ?_, ?_⟩
    · rw [collItem_peer, m4 _ (h.lt i ha), h.self i ha]
    · rw [collItem_ctx, collItem_ctx]
    · rw [collItem_slen, collItem_rlen]
    · rw [collItem_slen, collItem_rlen]
    · rw [collItem_z, collItem_z]

/-- `Ialltoall` posts the exchanges. -/
theorem ialltoall_eq {P : ℕ} {act : ℕ → Prop} {f : ℕ → ℕ → ℕ} {c : ℕ} {ρ : ℕ → ℕ} (h : Comm P act f c ρ) {sch : Bool} {ctx arr count i : ℕ}
    {snd rcv : Loc} {cm : List ℕ} (hi : act i) (hcm : cm = (List.range c).map (f i)) (hip : snd = rcv → sch = false) :
    (ialltoall snd count rcv cm ctx i arr sch : Prog V Unit) =
      Prog.calls ((collItems act f c ρ sch ctx arr count i).flatMap fun x => x.ops i snd rcv (decide (snd = rcv))) := by
  have hlen : cm.length = c := by simp [hcm]
  have hget : ∀ Q < c, cm.getD Q 0 = f i Q := by
    intro Q hQ
    simp [hcm, hQ]
  have hnd : cm.Nodup := by
    rw [hcm]
    refine (List.nodup_range).map_on ?_
    intro x hx y hy he
    exact h.inj hi (List.mem_range.1 hx) (List.mem_range.1 hy) he
  have hidx : cm.idxOf i = ρ i := by
    have hl := h.lt i hi
    have hg : cm[ρ i]'(by omega) = i := by
      simp only [hcm, List.getElem_map, List.getElem_range]
      exact h.self i hi
    conv_lhs => rw [← hg]
    exact hnd.idxOf_getElem _ _
  have hl := h.lt i hi
  unfold ialltoall collItems
  simp only [hlen, hidx, if_pos hi]
  rw [List.flatMap_map]
  unfold collOrder
  rw [List.flatMap_append, flatMap_filter, List.flatMap_singleton]
  have hself : (collItem sch ctx arr c count (ρ i) (f i) (ρ i)).peer = i := by rw [collItem_peer, h.self i hi]
  have hcopy : (if snd = rcv then Prog.ret () else copy (snd + ρ i * count) (rcv + ρ i * count) count : Prog V Unit) =
      Prog.calls ((collItem sch ctx arr c count (ρ i) (f i) (ρ i)).ops i snd rcv (decide (snd = rcv))) := by
    unfold Item.ops
    rw [if_pos hself]
    by_cases he : snd = rcv
    · simp [he, Prog.calls]
    · simp only [he, if_false, decide_false, Bool.false_eq_true, collItem_roff, collItem_soff, collItem_slen]
      rfl
  cases sch with
  | false =>
    simp only [if_true, Bool.false_eq_true, if_false, Prog.bind_def]
    rw [calls_append, hcopy]
    congr 2
    refine flatMap_congr' fun Q hQ => ?_
    have hQ := List.mem_range.1 hQ
    by_cases hne : Q = ρ i
    · simp [hne]
    · have hp : f i Q ≠ i := fun he => hne ((h.peer hi hQ).1 he)
      simp only [ne_eq, hne, not_false_eq_true, if_true, Item.ops, collItem_peer, hp, if_false, hget Q hQ, Function.comp]
      by_cases he : snd = rcv <;> simp [he, collItem]
  | true =>
    have hne : snd ≠ rcv := fun he => by simpa using hip he
    rw [if_neg hne] at hcopy
    simp only [Bool.true_eq_false, if_false, if_true, Prog.bind_def]
    rw [calls_append, hcopy]
    congr 2
    refine flatMap_congr' fun Q hQ => ?_
    have hQ := (mem_sched hl).1 hQ
    by_cases hne : Q = ρ i
    · simp [hne]
    · have hp : f i Q ≠ i := fun he => hne ((h.peer hi hQ).1 he)
      simp only [ne_eq, hne, not_false_eq_true, if_true, Item.ops, collItem_peer, hp, if_false, hget Q hQ, Function.comp]
      simp [hne, collItem, skip, *]

/-! ### Direct exchanges -/

/-- The exchange of process `i` with process `P`. -/
def dirItem (size start : ℕ) (R S : ℕ → ℕ) (rl : ℕ → ℕ → ℕ) (i P : ℕ) : Item :=
  let idx := if i ≥ start then skip i P else P - start
  ⟨0, P, (0, idx), (0, size - (if i ≥ start then 1 else start) + idx), R i * P, rl i P, S i * P, rl P i, false⟩

/-- The order of the exchanges. -/
def dirOrder (size start i : ℕ) : List ℕ :=
  ((sched i size).filter fun P => decide (P ≠ i ∧ (i ≥ start ∨ P ≥ start))) ++ if i ≥ start then [i] else []

/-- The exchanges of process `i`. -/
def dirItems (size start : ℕ) (R S : ℕ → ℕ) (rl : ℕ → ℕ → ℕ) (i : ℕ) : List Item :=
  if i < size then (dirOrder size start i).map (dirItem size start R S rl i) else []

/-- The requests. -/
def dirWs (size start i : ℕ) : List (ℕ × ℕ) := (List.range (2 * (size - if i ≥ start then 1 else start))).map fun j => (0, j)

theorem mem_dirOrder {size start i P : ℕ} (hi : i < size) : P ∈ dirOrder size start i ↔ P < size ∧ (i ≥ start ∨ P ≥ start) := by
  unfold dirOrder
  rw [List.mem_append, List.mem_filter, mem_sched hi]
  by_cases h : i ≥ start
  · simp [h]
    by_cases hp : P = i <;> simp [hp, hi]
  · simp [h]
    intro h1 h2 h3
    omega

theorem dirOrder_nodup {size start i : ℕ} (hi : i < size) : (dirOrder size start i).Nodup := by
  unfold dirOrder
  rw [List.nodup_append]
  refine ⟨List.Nodup.filter _ (sched_nodup hi), ?_, ?_⟩
  · split_ifs <;> simp
  · intro x hx y hy
    have hx := (List.mem_filter.1 hx).2
    split_ifs at hy
    · simp only [List.mem_singleton] at hy
      rw [hy]
      simp at hx
      exact hx.1
    · simp at hy

theorem mem_dirItems {size start : ℕ} {R S : ℕ → ℕ} {rl : ℕ → ℕ → ℕ} {i : ℕ} {x : Item} : x ∈ dirItems size start R S rl i ↔
    i < size ∧ ∃ P < size, (i ≥ start ∨ P ≥ start) ∧ x = dirItem size start R S rl i P := by
  unfold dirItems
  by_cases h : i < size
  · simp only [h, if_true, List.mem_map, mem_dirOrder h, true_and]
    constructor
    · rintro ⟨P, ⟨h1, h2⟩, rfl⟩; exact ⟨P, h1, h2, rfl⟩
    · rintro ⟨P, h1, h2, rfl⟩; exact ⟨P, ⟨h1, h2⟩, rfl⟩
  · simp [h]

theorem dir_exch {P size start : ℕ} (hP : size ≤ P) {R S : ℕ → ℕ} {rl : ℕ → ℕ → ℕ} (hrl : ∀ i < size, ∀ Q < size, rl i Q ≤ R i)
    {ws : ℕ → List (ℕ × ℕ)} {snd rcv : ℕ → Loc} (hws : ∀ i < size, dirWs size start i ⊆ ws i)
    (hout : ∀ i < size, dirItems size start R S rl i ≠ [] → (snd i).buf ≠ (rcv i).buf) :
    Exch P (dirItems size start R S rl) ws snd rcv false := by
  have hsz : ∀ i, dirItems size start R S rl i ≠ [] → i < size := by
    intro i hne
    by_contra hc
    exact hne (by simp [dirItems, hc])
  have hidx : ∀ i < size, ∀ Q < size, Q ≠ i → (i ≥ start ∨ Q ≥ start) →
      (if i ≥ start then skip i Q else Q - start) < size - (if i ≥ start then 1 else start) := by
    intro i hi Q hQ hne hst
    by_cases h : i ≥ start
    · simp only [h, if_true]; exact skip_lt hi hne hQ
    · simp only [h, if_false]; omega
  refine ⟨?_, ?_, ?_, ?_, by simp, ?_⟩
  · intro i _
    unfold dirItems
    split_ifs with hi
    swap
    · exact List.Pairwise.nil
    rw [List.pairwise_map]
    refine List.Pairwise.imp_of_mem ?_ (dirOrder_nodup hi)
    intro Q Q' hQ hQ' hne
    obtain ⟨q1, q2⟩ := (mem_dirOrder hi).1 hQ
    obtain ⟨q3, q4⟩ := (mem_dirOrder hi).1 hQ'
    refine ⟨?_, ?_, ?_⟩
    · intro hc; exact hne hc.2
    · intro h1 h2
      have a1 := hidx i hi Q q1 h1 q2
      have a2 := hidx i hi Q' q3 h2 q4
      have a3 : (if i ≥ start then skip i Q else Q - start) ≠ (if i ≥ start then skip i Q' else Q' - start) := by
        by_cases h : i ≥ start
        · simp only [h, if_true]
          exact fun he => hne (skip_inj h1 h2 he)
        · simp only [h, if_false]; omega
      simp only [dirItem, ne_eq, Prod.mk.injEq, true_and]
      omega
    · intro j hj j' hj'
      simp only [dirItem] at hj hj' ⊢
      exact block_ne hne (lt_of_lt_of_le hj (hrl i hi Q q1)) (lt_of_lt_of_le hj' (hrl i hi Q' q3))
  · intro i _ x hx hp
    obtain ⟨hi, Q, hQ, hst, rfl⟩ := mem_dirItems.1 hx
    have a1 := hidx i hi Q hQ hp hst
    simp only [dirItem, ne_eq, Prod.mk.injEq, true_and]
    omega
  · intro i _ x hx hp
    obtain ⟨hi, Q, hQ, hst, rfl⟩ := mem_dirItems.1 hx
    have a1 := hidx i hi Q hQ hp hst
    have hsub := hws i hi
    simp only [dirItem]
    exact ⟨hsub (List.mem_map.2 ⟨_, List.mem_range.2 (by omega), rfl⟩), hsub (List.mem_map.2 ⟨_, List.mem_range.2 (by omega), rfl⟩)⟩
  · intro _ i _ hne
    exact hout i (hsz i hne) hne
  · intro i _ x hx
    obtain ⟨hi, Q, hQ, hst, rfl⟩ := mem_dirItems.1 hx
    refine ⟨by simp only [dirItem]; omega, dirItem size start R S rl Q i, mem_dirItems.2 ⟨hQ, i, hi, hst.symm, rfl⟩, rfl, rfl, rfl, rfl, rfl⟩

/-- The list of calls made by `Ialltoallout` and `Ialltoallin`. -/
theorem dir_eq {size start : ℕ} {R S : ℕ → ℕ} {rl : ℕ → ℕ → ℕ} {i : ℕ} (hi : i < size) {snd rcv : Loc} :
    ((Prog.calls ((sched i size).flatMap fun P =>
      if P ≠ i ∧ (i ≥ start ∨ P ≥ start) then
        (if rl i P > 0 then [.irecv (0, if i ≥ start then (if P < i then P else P - 1) else P - start) 0 P (rcv + R i * P) (rl i P)] else []) ++
        (if rl P i > 0 then [.isend (0, size - (if i ≥ start then 1 else start) + if i ≥ start then (if P < i then P else P - 1) else P - start) 0 P
          (snd + S i * P) (rl P i) true] else [])
      else [])).bind fun _ =>
      if i ≥ start then copy (snd + S i * i) (rcv + R i * i) (rl i i) else .ret () : Prog V Unit) =
      Prog.calls ((dirItems size start R S rl i).flatMap fun x => x.ops i snd rcv false) := by
  have hs : (if i ≥ start then copy (snd + S i * i) (rcv + R i * i) (rl i i) else .ret () : Prog V Unit) =
      Prog.calls ((if i ≥ start then [i] else []).flatMap fun P => (dirItem size start R S rl i P).ops i snd rcv false) := by
    by_cases h : i ≥ start
    · simp only [h, if_true, List.flatMap_singleton, Item.ops, dirItem]
      rfl
    · simp [h, Prog.calls]
  rw [hs]
  unfold dirItems
  rw [if_pos hi, List.flatMap_map]
  unfold dirOrder
  rw [List.flatMap_append, flatMap_filter, calls_append]
  congr 2
  refine flatMap_congr' fun P hP => ?_
  by_cases h : P ≠ i ∧ (i ≥ start ∨ P ≥ start)
  · rw [if_pos h, if_pos h]
    have hp := h.1
    simp only [Item.ops, dirItem, hp, if_false, Bool.false_eq_true, false_or, gt_iff_lt, skip]
  · rw [if_neg h, if_neg h]

/-! ### Combined exchanges -/

theorem Exch.append {P : ℕ} {A B : ℕ → List Item} {ws : ℕ → List (ℕ × ℕ)} {snd rcv : ℕ → Loc} {ip : Bool} (hA : Exch P A ws snd rcv ip)
    (hB : Exch P B ws snd rcv ip) (hs : ∀ i < P, ∀ x ∈ A i, ∀ y ∈ B i, Item.Sep i x y) : Exch P (fun i => A i ++ B i) ws snd rcv ip := by
  refine ⟨?_, ?_, ?_, ?_, ?_, ?_⟩
  · intro i hi
    rw [List.pairwise_append]
    exact ⟨hA.sep i hi, hB.sep i hi, hs i hi⟩
  · intro i hi x hx
    rcases List.mem_append.1 hx with h | h
    · exact hA.own i hi x h
    · exact hB.own i hi x h
  · intro i hi x hx
    rcases List.mem_append.1 hx with h | h
    · exact hA.ws i hi x h
    · exact hB.ws i hi x h
  · intro hip i hi hne
    by_cases h : A i = []
    · exact hB.out hip i hi (by simpa [h] using hne)
    · exact hA.out hip i hi h
  · intro hip i hi hne
    refine ⟨?_, fun x hx => ?_⟩
    · by_cases h : A i = []
      · exact (hB.inp hip i hi (by simpa [h] using hne)).1
      · exact (hA.inp hip i hi h).1
    · rcases List.mem_append.1 hx with h | h
      · exact (hA.inp hip i hi (List.ne_nil_of_mem h)).2 x h
      · exact (hB.inp hip i hi (List.ne_nil_of_mem h)).2 x h
  · intro i hi x hx
    rcases List.mem_append.1 hx with h | h
    · obtain ⟨h1, y, h2, h3⟩ := hA.partner i hi x h
      exact ⟨h1, y, List.mem_append_left _ h2, h3⟩
    · obtain ⟨h1, y, h2, h3⟩ := hB.partner i hi x h
      exact ⟨h1, y, List.mem_append_right _ h2, h3⟩

end Fftwpp.Net
