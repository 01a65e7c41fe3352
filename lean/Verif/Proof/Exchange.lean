import Verif.Proof.Net3
import Verif.Props.Gather

/-!
# Exchanges between sets of processes
-/

namespace Fftwpp.Net
variable {V : Type}

/-- The exchange of a block with the process `peer`: `rlen` words are received at `roff`, `slen` words are sent from `soff`.
`z`: empty messages are sent, too. -/
structure Item where
  ctx : ℕ
  peer : ℕ
  rid : ℕ × ℕ
  sid : ℕ × ℕ
  roff : ℕ
  rlen : ℕ
  soff : ℕ
  slen : ℕ
  z : Bool

/-- The calls of an exchange by the process `me`. -/
def Item.ops (me : ℕ) (snd rcv : Loc) (ip : Bool) (x : Item) : List (Op V) :=
  if x.peer = me then
    if ip = true then [] else [.moves (at' (rcv + x.roff) (snd + x.soff) ((List.range x.slen).map fun i => (i, i)))]
  else if ip = true then
    [.isend x.sid x.ctx x.peer (snd + x.soff) x.slen false, .irecv x.rid x.ctx x.peer (rcv + x.roff) x.rlen]
  else
    (if x.z = true ∨ 0 < x.rlen then [.irecv x.rid x.ctx x.peer (rcv + x.roff) x.rlen] else []) ++
    (if x.z = true ∨ 0 < x.slen then [.isend x.sid x.ctx x.peer (snd + x.soff) x.slen true] else [])

theorem Item.mem_ops {me : ℕ} {snd rcv : Loc} {ip : Bool} {x : Item} {o : Op V} : o ∈ x.ops me snd rcv ip →
    (x.peer = me ∧ ip = false ∧ o = .moves (at' (rcv + x.roff) (snd + x.soff) ((List.range x.slen).map fun i => (i, i)))) ∨
    (x.peer ≠ me ∧ o = .irecv x.rid x.ctx x.peer (rcv + x.roff) x.rlen ∧ (ip = true ∨ x.z = true ∨ 0 < x.rlen)) ∨
    (x.peer ≠ me ∧ o = .isend x.sid x.ctx x.peer (snd + x.soff) x.slen (!ip) ∧ (ip = true ∨ x.z = true ∨ 0 < x.slen)) := by
  unfold Item.ops
  intro h
  split_ifs at h with h1 h2 h2 h3 h4 h4 <;> simp at h
  · exact Or.inl ⟨h1, by simpa using h2, h⟩
  · rcases h with h | h
    · exact Or.inr (Or.inr ⟨h1, by simp [h2, h], Or.inl h2⟩)
    · exact Or.inr (Or.inl ⟨h1, h, Or.inl h2⟩)
  · rcases h with h | h
    · exact Or.inr (Or.inl ⟨h1, h, Or.inr h3⟩)
    · exact Or.inr (Or.inr ⟨h1, by simp [h2, h], Or.inr h4⟩)
  · exact Or.inr (Or.inl ⟨h1, h, Or.inr h3⟩)
  · exact Or.inr (Or.inr ⟨h1, by simp [h2, h], Or.inr h4⟩)

theorem Item.ops_recv {me : ℕ} {snd rcv : Loc} {ip : Bool} {x : Item} (h : x.peer ≠ me) (hz : ip = true ∨ x.z = true ∨ 0 < x.rlen) :
    (.irecv x.rid x.ctx x.peer (rcv + x.roff) x.rlen : Op V) ∈ x.ops me snd rcv ip := by
  unfold Item.ops
  rw [if_neg h]
  split_ifs with h1 h2 h3 h3
  · simp
  · simp
  · simp
  · rcases hz with hz | hz
    · exact absurd hz h1
    · exact absurd hz h2
  · rcases hz with hz | hz
    · exact absurd hz h1
    · exact absurd hz h2

theorem Item.ops_send {me : ℕ} {snd rcv : Loc} {ip : Bool} {x : Item} (h : x.peer ≠ me) (hz : ip = true ∨ x.z = true ∨ 0 < x.slen) :
    (.isend x.sid x.ctx x.peer (snd + x.soff) x.slen (!ip) : Op V) ∈ x.ops me snd rcv ip := by
  unfold Item.ops
  rw [if_neg h]
  split_ifs with h1 h2 h3 h3
  · simp [h1]
  · simp [h1]
  · rcases hz with hz | hz
    · exact absurd hz h1
    · exact absurd hz h3
  · simp [h1]
  · rcases hz with hz | hz
    · exact absurd hz h1
    · exact absurd hz h3

theorem Item.ops_self {me : ℕ} {snd rcv : Loc} {x : Item} (h : x.peer = me) :
    (.moves (at' (rcv + x.roff) (snd + x.soff) ((List.range x.slen).map fun i => (i, i))) : Op V) ∈ x.ops me snd rcv false := by
  unfold Item.ops
  rw [if_pos h]
  simp

theorem mem_at' {d s : Loc} {l : List (ℕ × ℕ)} {y : Loc × Loc} : y ∈ at' d s l ↔ ∃ x ∈ l, y = (d + x.1, s + x.2) := by
  simp [at', eq_comm]

/-- Two exchanges of the same process do not interfere. -/
structure Item.Sep (me : ℕ) (x y : Item) : Prop where
  chan : ¬ (x.ctx = y.ctx ∧ x.peer = y.peer)
  ids : x.peer ≠ me → y.peer ≠ me → x.rid ≠ y.rid ∧ x.rid ≠ y.sid ∧ x.sid ≠ y.rid ∧ x.sid ≠ y.sid
  reg : ∀ j < x.rlen, ∀ j' < y.rlen, x.roff + j ≠ y.roff + j'

theorem Item.Sep.symm {me : ℕ} {x y : Item} (h : x.Sep me y) : y.Sep me x := by
  refine ⟨fun hc => h.chan ⟨hc.1.symm, hc.2.symm⟩, fun h1 h2 => ?_, fun j hj j' hj' he => h.reg j' hj' j hj he.symm⟩
  obtain ⟨a, b, c, d⟩ := h.ids h2 h1
  exact ⟨a.symm, c.symm, b.symm, d.symm⟩

theorem Item.Sep.eq {me : ℕ} {l : List Item} (hp : l.Pairwise (Item.Sep me)) {x y : Item} (hx : x ∈ l) (hy : y ∈ l) (hc : x.ctx = y.ctx)
    (hpe : x.peer = y.peer) : x = y := by
  by_contra hne
  exact (pw_forall hp (fun _ _ h => h.symm) hx hy hne).chan ⟨hc, hpe⟩

/-- An exchange. -/
structure Exch (P : ℕ) (items : ℕ → List Item) (ws : ℕ → List (ℕ × ℕ)) (snd rcv : ℕ → Loc) (ip : Bool) : Prop where
  sep : ∀ i < P, (items i).Pairwise (Item.Sep i)
  own : ∀ i < P, ∀ x ∈ items i, x.peer ≠ i → x.rid ≠ x.sid
  ws : ∀ i < P, ∀ x ∈ items i, x.peer ≠ i → x.rid ∈ ws i ∧ x.sid ∈ ws i
  out : ip = false → ∀ i < P, items i ≠ [] → (snd i).buf ≠ (rcv i).buf
  inp : ip = true → ∀ i < P, items i ≠ [] → snd i = rcv i ∧ ∀ x ∈ items i, x.roff = x.soff ∧ x.rlen = x.slen
  partner : ∀ i < P, ∀ x ∈ items i, x.peer < P ∧ ∃ y ∈ items x.peer, y.peer = i ∧ y.ctx = x.ctx ∧ y.slen = x.rlen ∧ y.rlen = x.slen ∧ y.z = x.z

theorem exchange_ok {e : Eager} {P : ℕ} {s : St V} {items : ℕ → List Item} {ws : ℕ → List (ℕ × ℕ)} {snd rcv : ℕ → Loc} {ip : Bool}
    {k : ℕ → Prog V Unit} (hE : Exch P items ws snd rcv ip)
    (h : Quiet P (fun i => (Prog.calls ((items i).flatMap fun x => x.ops i (snd i) (rcv i) ip)).bind fun _ =>
      (Prog.calls ((ws i).map fun id => .wait id)).bind fun _ => k i) s)
    (hbr : ∀ i < P, ∀ x ∈ items i, ∀ j < x.rlen, (s i).loc.inBounds (rcv i + (x.roff + j)))
    (hbs : ∀ i < P, ∀ x ∈ items i, ∀ j < x.slen, (s i).loc.inBounds (snd i + (x.soff + j))) :
    ∃ t, Steps e s t ∧ Quiet P k t ∧ (∀ i, (t i).loc.size = (s i).loc.size) ∧
      (∀ i < P, ∀ x ∈ items i, ∀ y ∈ items x.peer, y.peer = i → y.ctx = x.ctx →
        ∀ j < x.rlen, (t i).loc.mem (rcv i + (x.roff + j)) = (s x.peer).loc.mem (snd x.peer + (y.soff + j))) ∧
      ∀ i < P, ∀ a, (∀ x ∈ items i, ∀ j < x.rlen, a ≠ rcv i + (x.roff + j)) → (t i).loc.mem a = (s i).loc.mem a := by
  have hself : ∀ i < P, ∀ x ∈ items i, x.peer = i → x.slen = x.rlen := by
    intro i hi x hx hp
    obtain ⟨_, y, hy, hyp, hyc, hl, _⟩ := hE.partner i hi x hx
    rw [hp] at hy
    have := Item.Sep.eq (hE.sep i hi) hx hy hyc.symm (by rw [hp, hyp])
    subst this
    exact hl
  have hw : ∀ i < P, ∀ x ∈ items i, ∀ o : Op V, o ∈ x.ops i (snd i) (rcv i) ip → ∀ a, o.writes a → ∃ j < x.rlen, a = rcv i + (x.roff + j) := by
    intro i hi x hx o ho a ha
    rcases Item.mem_ops ho with ⟨h1, h2, rfl⟩ | ⟨h1, rfl, _⟩ | ⟨h1, rfl, _⟩
    · obtain ⟨z, hz, rfl⟩ := ha
      obtain ⟨w, hw, rfl⟩ := mem_at'.1 hz
      obtain ⟨j, hj, rfl⟩ := List.mem_map.1 hw
      exact ⟨j, by rw [← hself i hi x hx h1]; exact List.mem_range.1 hj, by rw [Loc.add_add]⟩
    · obtain ⟨j, hj, rfl⟩ := ha
      exact ⟨j, hj, by rw [Loc.add_add]⟩
    · exact absurd ha (by simp [Op.writes])
  have hr : ∀ i < P, ∀ x ∈ items i, ∀ o : Op V, o ∈ x.ops i (snd i) (rcv i) ip → ∀ a, o.reads a → ∃ j < x.slen, a = snd i + (x.soff + j) := by
    intro i hi x hx o ho a ha
    rcases Item.mem_ops ho with ⟨h1, h2, rfl⟩ | ⟨h1, rfl, _⟩ | ⟨h1, rfl, _⟩
    · obtain ⟨z, hz, rfl⟩ := ha
      obtain ⟨w, hw, rfl⟩ := mem_at'.1 hz
      obtain ⟨j, hj, rfl⟩ := List.mem_map.1 hw
      exact ⟨j, List.mem_range.1 hj, Loc.add_add _ _ _⟩
    · exact absurd ha (by simp [Op.reads])
    · obtain ⟨j, hj, rfl⟩ := ha
      exact ⟨j, hj, by rw [Loc.add_add]⟩
  have hh : ∀ i < P, ∀ x ∈ items i, ∀ o : Op V, o ∈ x.ops i (snd i) (rcv i) ip → ∀ a, o.held a → ip = false ∧ ∃ j < x.slen, a = snd i + (x.soff + j) := by
    intro i hi x hx o ho a ha
    rcases Item.mem_ops ho with ⟨h1, h2, rfl⟩ | ⟨h1, rfl, _⟩ | ⟨h1, rfl, _⟩
    · exact absurd ha (by simp [Op.held])
    · exact absurd ha (by simp [Op.held])
    · obtain ⟨h3, j, hj, rfl⟩ := ha
      exact ⟨by simpa using h3, j, hj, by rw [Loc.add_add]⟩
  have hid : ∀ i, ∀ x : Item, ∀ o : Op V, o ∈ x.ops i (snd i) (rcv i) ip → ∀ id, o.rid = some id → x.peer ≠ i ∧ (id = x.rid ∨ id = x.sid) := by
    intro i x o ho id hid
    rcases Item.mem_ops ho with ⟨h1, h2, rfl⟩ | ⟨h1, rfl, _⟩ | ⟨h1, rfl, _⟩
    · simp [Op.rid] at hid
    · simp only [Op.rid, Option.some.injEq] at hid; exact ⟨h1, Or.inl hid.symm⟩
    · simp only [Op.rid, Option.some.injEq] at hid; exact ⟨h1, Or.inr hid.symm⟩
  have hsc : ∀ i, ∀ x : Item, ∀ o : Op V, o ∈ x.ops i (snd i) (rcv i) ip → ∀ c, o.schan = some c → c = (x.peer, x.ctx) := by
    intro i x o ho c hc
    rcases Item.mem_ops ho with ⟨h1, h2, rfl⟩ | ⟨h1, rfl, _⟩ | ⟨h1, rfl, _⟩ <;> simp [Op.schan] at hc
    exact hc.symm
  have hrc : ∀ i, ∀ x : Item, ∀ o : Op V, o ∈ x.ops i (snd i) (rcv i) ip → ∀ c, o.rchan = some c → c = (x.peer, x.ctx) := by
    intro i x o ho c hc
    rcases Item.mem_ops ho with ⟨h1, h2, rfl⟩ | ⟨h1, rfl, _⟩ | ⟨h1, rfl, _⟩ <;> simp [Op.rchan] at hc
    exact hc.symm
  -- sends and receives of the list
  have hfs : ∀ i, ∀ id ctx p src n hold, (Op.isend id ctx p src n hold : Op V) ∈ (items i).flatMap (fun x => x.ops i (snd i) (rcv i) ip) →
      ∃ x ∈ items i, x.peer ≠ i ∧ p = x.peer ∧ ctx = x.ctx ∧ src = snd i + x.soff ∧ n = x.slen ∧ (ip = true ∨ x.z = true ∨ 0 < x.slen) := by
    intro i id ctx p src n hold hm
    obtain ⟨x, hx, ho⟩ := List.mem_flatMap.1 hm
    rcases Item.mem_ops ho with ⟨h1, h2, h3⟩ | ⟨h1, h3, h4⟩ | ⟨h1, h3, h4⟩ <;> cases h3
    exact ⟨x, hx, h1, rfl, rfl, rfl, rfl, h4⟩
  have hfr : ∀ i, ∀ id ctx p dst n, (Op.irecv id ctx p dst n : Op V) ∈ (items i).flatMap (fun x => x.ops i (snd i) (rcv i) ip) →
      ∃ x ∈ items i, x.peer ≠ i ∧ p = x.peer ∧ ctx = x.ctx ∧ dst = rcv i + x.roff ∧ n = x.rlen ∧ (ip = true ∨ x.z = true ∨ 0 < x.rlen) := by
    intro i id ctx p dst n hm
    obtain ⟨x, hx, ho⟩ := List.mem_flatMap.1 hm
    rcases Item.mem_ops ho with ⟨h1, h2, h3⟩ | ⟨h1, h3, h4⟩ | ⟨h1, h3, h4⟩ <;> cases h3
    exact ⟨x, hx, h1, rfl, rfl, rfl, rfl, h4⟩
  obtain ⟨t, h1, h2, h3, h4, h5, h6⟩ := superstep (e := e) h
    (by
      intro i hi o ho
      obtain ⟨x, hx, ho⟩ := List.mem_flatMap.1 ho
      rcases Item.mem_ops ho with ⟨h1, h2, rfl⟩ | ⟨h1, rfl, _⟩ | ⟨h1, rfl, _⟩
      · refine ⟨?_, ?_⟩
        · simp only [at', List.map_map]
          refine (List.nodup_range).map ?_
          intro a b hab
          have := congrArg Loc.off hab
          simpa using this
        · intro y hy z hz heq
          obtain ⟨w, hw, rfl⟩ := mem_at'.1 hy
          obtain ⟨w', hw', rfl⟩ := mem_at'.1 hz
          exact hE.out h2 i hi (List.ne_nil_of_mem hx) (by simpa using congrArg Loc.buf heq)
      · trivial
      · trivial)
    (by
      intro i hi
      rw [List.pairwise_flatMap]
      refine ⟨fun x hx => ?_, ?_⟩
      · -- within an item
        have hne := List.ne_nil_of_mem hx
        unfold Item.ops
        split_ifs with c1 c2 c2 c3 c4 c4
        · simp
        · simp
        · have hi' := hE.inp c2 i hi hne
          refine List.pairwise_pair.2 ⟨?_, ?_, ?_, ?_, ?_, ?_⟩
          · intro a ha; exact absurd ha (by simp [Op.writes])
          · intro a ha; exact absurd ha (by simp [Op.writes])
          · intro a ha; exact absurd ha (by simp [Op.held])
          · intro a ha hb
            simp only [Op.rid, Option.some.injEq] at ha hb
            exact hE.own i hi x hx c1 (by rw [ha, hb])
          · intro a ha; simp [Op.schan]
          · intro a ha; simp [Op.rchan] at ha
        · have hi' := hE.out (by simpa using c2) i hi hne
          refine List.pairwise_pair.2 ⟨?_, ?_, ?_, ?_, ?_, ?_⟩
          · intro a ha; simp [Op.writes]
          · rintro a ⟨j, hj, rfl⟩ ⟨j', hj', heq⟩
            exact hi' (by simpa using (congrArg Loc.buf heq).symm)
          · intro a ha; exact absurd ha (by simp [Op.held])
          · intro a ha hb
            simp only [Op.rid, Option.some.injEq] at ha hb
            exact hE.own i hi x hx c1 (by rw [ha, hb])
          · intro a ha; simp [Op.schan] at ha
          · intro a ha; simp [Op.rchan]
        · simp
        · simp
        · simp
      · refine (hE.sep i hi).imp_of_mem ?_
        intro x y hx hy hs o ho o' ho'
        have hne := List.ne_nil_of_mem hx
        refine ⟨?_, ?_, ?_, ?_, ?_, ?_⟩
        · intro a ha hb
          obtain ⟨j, hj, rfl⟩ := hw i hi x hx o ho a ha
          obtain ⟨j', hj', he⟩ := hw i hi y hy o' ho' _ hb
          exact hs.reg j hj j' hj' (by simpa [Loc.ext_iff] using he)
        · intro a ha hb
          obtain ⟨j, hj, rfl⟩ := hw i hi x hx o ho a ha
          obtain ⟨j', hj', he⟩ := hr i hi y hy o' ho' _ hb
          cases hip : ip with
          | false => exact hE.out hip i hi hne (by simpa using (congrArg Loc.buf he).symm)
          | true =>
            obtain ⟨e1, e2⟩ := hE.inp hip i hi hne
            rw [e1, ← (e2 y hy).1] at he
            exact hs.reg j hj j' (by rw [(e2 y hy).2]; exact hj') (by simpa [Loc.ext_iff] using he)
        · intro a ha hb
          obtain ⟨hip, j, hj, rfl⟩ := hh i hi x hx o ho a ha
          obtain ⟨j', hj', he⟩ := hw i hi y hy o' ho' _ hb
          exact hE.out hip i hi hne (by simpa using (congrArg Loc.buf he))
        · intro id h1 h2
          obtain ⟨p1, q1⟩ := hid i x o ho id h1
          obtain ⟨p2, q2⟩ := hid i y o' ho' id h2
          obtain ⟨a, b, c, d⟩ := hs.ids p1 p2
          rcases q1 with rfl | rfl
          · rcases q2 with q2 | q2
            · exact a q2
            · exact b q2
          · rcases q2 with q2 | q2
            · exact c q2
            · exact d q2
        · intro c h1 h2
          have e1 := hsc i x o ho c h1
          have e2 := hsc i y o' ho' c h2
          rw [e1] at e2
          obtain ⟨e3, e4⟩ := Prod.mk.inj e2
          exact hs.chan ⟨e4, e3⟩
        · intro c h1 h2
          have e1 := hrc i x o ho c h1
          have e2 := hrc i y o' ho' c h2
          rw [e1] at e2
          obtain ⟨e3, e4⟩ := Prod.mk.inj e2
          exact hs.chan ⟨e4, e3⟩)
    (by
      intro i hi o ho a ha
      obtain ⟨x, hx, ho⟩ := List.mem_flatMap.1 ho
      rcases ha with ha | ha
      · obtain ⟨j, hj, rfl⟩ := hr i hi x hx o ho a ha
        exact hbs i hi x hx j hj
      · obtain ⟨j, hj, rfl⟩ := hw i hi x hx o ho a ha
        exact hbr i hi x hx j hj)
    (by
      intro i hi o ho id hr
      obtain ⟨x, hx, ho⟩ := List.mem_flatMap.1 ho
      obtain ⟨p1, q1⟩ := hid i x o ho id hr
      rcases q1 with rfl | rfl
      · exact (hE.ws i hi x hx p1).1
      · exact (hE.ws i hi x hx p1).2)
    (by
      intro i hi id ctx p src n hold hm
      obtain ⟨x, hx, hp, rfl, rfl, rfl, rfl, hz⟩ := hfs i id ctx p src n hold hm
      obtain ⟨hP, y, hy, hyp, hyc, hl1, hl2, hzz⟩ := hE.partner i hi x hx
      refine ⟨hP, y.rid, rcv x.peer + y.roff, List.mem_flatMap.2 ⟨y, hy, ?_⟩⟩
      have := Item.ops_recv (V := V) (me := x.peer) (snd := snd x.peer) (rcv := rcv x.peer) (ip := ip) (x := y) (by rw [hyp]; exact fun h => hp h.symm)
        (by rw [hzz, hl2]; exact hz)
      rw [hyp, hyc, hl2] at this
      exact this)
    (by
      intro i hi id ctx p dst n hm
      obtain ⟨x, hx, hp, rfl, rfl, rfl, rfl, hz⟩ := hfr i id ctx p dst n hm
      obtain ⟨hP, y, hy, hyp, hyc, hl1, hl2, hzz⟩ := hE.partner i hi x hx
      refine ⟨hP, y.sid, snd x.peer + y.soff, !ip, List.mem_flatMap.2 ⟨y, hy, ?_⟩⟩
      have := Item.ops_send (V := V) (me := x.peer) (snd := snd x.peer) (rcv := rcv x.peer) (ip := ip) (x := y) (by rw [hyp]; exact fun h => hp h.symm)
        (by rw [hzz, hl1]; exact hz)
      rw [hyp, hyc, hl1] at this
      exact this)
  refine ⟨t, h1, h2, h3, ?_, ?_⟩
  · intro i hi x hx y hy hyp hyc j hj
    obtain ⟨hP, y', hy', hyp', hyc', hl1, hl2, hzz⟩ := hE.partner i hi x hx
    have hyy := Item.Sep.eq (hE.sep _ hP) hy hy' (by rw [hyc, hyc']) (by rw [hyp, hyp'])
    subst hyy
    by_cases hpe : x.peer = i
    · rw [hpe] at hy ⊢
      have hxy := Item.Sep.eq (hE.sep i hi) hx hy hyc.symm (by rw [hyp, hpe])
      subst hxy
      cases hip : ip with
      | true =>
        obtain ⟨e1, e2⟩ := hE.inp hip i hi (List.ne_nil_of_mem hx)
        rw [e1, ← (e2 x hx).1]
        refine h6 i hi _ fun o ho ha => ?_
        obtain ⟨x', hx', ho⟩ := List.mem_flatMap.1 ho
        by_cases hxx : x' = x
        · subst hxx
          rcases Item.mem_ops ho with ⟨_, h2, _⟩ | ⟨h1, _⟩ | ⟨h1, _⟩
          · rw [hip] at h2; cases h2
          · exact h1 hpe
          · exact h1 hpe
        · obtain ⟨j', hj', he⟩ := hw i hi x' hx' o ho _ ha
          exact (pw_forall (hE.sep i hi) (fun _ _ h => h.symm) hx hx' (Ne.symm hxx)).reg j hj j' hj' (by simpa [Loc.ext_iff] using he)
      | false =>
        have hm : (.moves (at' (rcv i + x.roff) (snd i + x.soff) ((List.range x.slen).map fun i => (i, i))) : Op V) ∈
            (items i).flatMap (fun x => x.ops i (snd i) (rcv i) ip) :=
          List.mem_flatMap.2 ⟨x, hx, by rw [hip]; exact Item.ops_self hpe⟩
        have := h5 i hi _ hm (rcv i + x.roff + j, snd i + x.soff + j)
          (mem_at'.2 ⟨(j, j), List.mem_map.2 ⟨j, List.mem_range.2 (by rw [hself i hi x hx hpe]; exact hj), rfl⟩, rfl⟩)
        rw [← Loc.add_add, ← Loc.add_add]
        exact this
    · have hz : ip = true ∨ x.z = true ∨ 0 < x.rlen := Or.inr (Or.inr (by omega))
      have m1 : (.irecv x.rid x.ctx x.peer (rcv i + x.roff) x.rlen : Op V) ∈ (items i).flatMap (fun x => x.ops i (snd i) (rcv i) ip) :=
        List.mem_flatMap.2 ⟨x, hx, Item.ops_recv hpe hz⟩
      have m2 : (.isend y.sid x.ctx i (snd x.peer + y.soff) y.slen (!ip) : Op V) ∈ (items x.peer).flatMap (fun z => z.ops x.peer (snd x.peer) (rcv x.peer) ip) := by
        refine List.mem_flatMap.2 ⟨y, hy, ?_⟩
        have := Item.ops_send (V := V) (me := x.peer) (snd := snd x.peer) (rcv := rcv x.peer) (ip := ip) (x := y) (by rw [hyp]; exact fun h => hpe h.symm)
          (by rw [hl1]; exact Or.inr (Or.inr (by omega)))
        rw [hyp, hyc] at this
        exact this
      have := h4 i hi _ _ _ _ _ m1 _ _ _ _ m2 j hj
      rw [← Loc.add_add, ← Loc.add_add]
      exact this
  · intro i hi a ha
    refine h6 i hi a fun o ho hwa => ?_
    obtain ⟨x, hx, ho⟩ := List.mem_flatMap.1 ho
    obtain ⟨j, hj, he⟩ := hw i hi x hx o ho a hwa
    exact ha x hx j hj he

end Fftwpp.Net
